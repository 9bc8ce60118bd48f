import Verif.Model.Search
import Verif.Spec.Params
import Mathlib.Data.Finset.Dedup
import Mathlib.Data.Finset.SDiff
import Mathlib.Data.Finset.Card

/-!
# Specification vocabulary for the score-based searches
-/

namespace PyCTBN.Spec

/-- Some evaluation strictly better than all earlier ones is followed by exactly `k` evaluations that are not better. -/
def Stalled {S : Type} [LinearOrder S] (log : List S) (k : Nat) : Prop :=
  ∃ pre b post, log = pre ++ b :: post ∧ (∀ x ∈ pre, x < b) ∧ (∀ x ∈ post, x ≤ b) ∧ post.length = k

/-- The parents of `n` in a list of edges. -/
def parentsIn (es : List Edge) (n : Label) : Finset Label := ((es.filter (fun e => decide (e.2 = n))).map Prod.fst).toFinset

/-- The score depends on the graph only through the parents of the node (C59 shows it of the FamScore). -/
def ScoreOf {S : Type} (E : SearchEnv S) (n : Label) (f : Finset Label → Py S) : Prop :=
  ∀ g g', Reach E.struct g → g.fastInit n = .ok g' → E.score n g' = f (parentsIn g'.edges n)

/-- The structure is well formed (C04) and has no edges of its own, as `estimate_structure` arranges with
`clean_structure_edges` before any search (C57). -/
structure SearchReady {S : Type} (E : SearchEnv S) : Prop where
  wf : WFStructure E.struct
  noEdges : E.struct.edges = []

/-- The matrix of removable edges was built from `known` for a structure whose indexes are the positions `0, 1, …` (as the
importers build them, C04), and no self-loop is declared known. -/
structure KnownEdges {S : Type} (E : SearchEnv S) (known : List Edge) : Prop where
  indexed : E.struct.indexes = List.range E.struct.labels.length
  built : buildRemovable E.struct E.struct.labels.length known = .ok E.removable
  noLoop : ∀ e ∈ known, e.1 ≠ e.2

/-- The score of the node can be computed for every reachable graph. -/
def Scorable {S : Type} (E : SearchEnv S) (n : Label) : Prop :=
  ∀ g g', Reach E.struct g → g.fastInit n = .ok g' → ∃ s, E.score n g' = .ok s

/-- The variables that may be tried as parents of `n`: the others whose edge into `n` is not known. -/
def candidates {S : Type} (E : SearchEnv S) (known : List Edge) (n : Label) : Finset Label :=
  (E.struct.labels.toFinset.erase n) \ parentsIn known n

/-- A score that is a given function of the parents of the node, and can always be computed. -/
def scoreBy (f : Finset Label → ℤ) (n : Label) (g : NetworkGraph) : Py ℤ := .ok (f (parentsIn g.edges n))

/-- Prior knowledge for the variables of `s` as the constructors of the estimators accept it: the structure is well formed, has no
edges of its own (as `estimate_structure` arranges) and the indexes `0, 1, …`; `removable` is the matrix built from `known`; no self-loop is
declared known. -/
structure SearchInput (s : Structure) (removable : List (List Bool)) (known : List Edge) : Prop where
  wf : WFStructure s
  noEdges : s.edges = []
  indexed : s.indexes = List.range s.labels.length
  built : buildRemovable s s.labels.length known = .ok removable
  noLoop : ∀ e ∈ known, e.1 ≠ e.2

/-- The variables that may be tried as parents of `n`. -/
def freeParents (s : Structure) (known : List Edge) (n : Label) : Finset Label :=
  (s.labels.toFinset.erase n) \ parentsIn known n

end PyCTBN.Spec
