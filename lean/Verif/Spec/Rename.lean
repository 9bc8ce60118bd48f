import Verif.Model.ScoreEst

/-!
# Specification vocabulary: the same objects with other variable names

`ρ` gives every variable its new name.
-/

namespace PyCTBN.Spec

/-- An edge between the renamed variables. -/
def renameEdge (ρ : Label → Label) (e : Edge) : Edge := (ρ e.1, ρ e.2)

/-- The structure with renamed variables: indexes, cardinalities and the number of variables are the same. -/
def renameStruct (ρ : Label → Label) (s : Structure) : Structure :=
  ⟨s.labels.map ρ, s.indexes, s.vals, s.edges.map (renameEdge ρ), s.total⟩

/-- The `networkx` graph with renamed nodes. -/
def renameDi (ρ : Label → Label) (g : DiGraph) : DiGraph := ⟨g.nodes.map (fun p => (ρ p.1, p.2)), g.edges.map (renameEdge ρ)⟩

/-- The parent information with renamed parents. -/
def renameInfo (ρ : Label → Label) (i : ParentInfo) : ParentInfo := ⟨i.parents.map ρ, i.indxs, i.vals⟩

/-- The members filled by `fast_init`, with renamed parents. -/
def renameDerived (ρ : Label → Label) (d : Derived) : Derived := { d with info := renameInfo ρ d.info }

/-- The graph object with renamed variables. -/
def renameGraph (ρ : Label → Label) (g : NetworkGraph) : NetworkGraph :=
  ⟨renameStruct ρ g.struct, renameDi ρ g.graph, g.derived.map (renameDerived ρ)⟩

/-- The set of CIMs of the renamed node: the numbers are the same. -/
def renameCims (ρ : Label → Label) (s : SetOfCims) : SetOfCims := { s with nodeId := ρ s.nodeId }

/-- The estimator with renamed variables. -/
def renameEst (ρ : Label → Label) (e : Estimator) : Estimator := ⟨renameStruct ρ e.struct, renameDi ρ e.complete⟩

/-- The same data set and tests, with renamed variables. -/
def renameEnv (ρ : Label → Label) (E : CBEnv) : CBEnv := { E with struct := renameStruct ρ E.struct }

/-- The same cache and matrix, with renamed variables. -/
def renameState (ρ : Label → Label) (st : CBState) : CBState :=
  ⟨st.cache.map (fun p => (p.1.map ρ, renameCims ρ p.2)), st.removable⟩

end PyCTBN.Spec
