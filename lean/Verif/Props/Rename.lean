import Verif.Lemmas.RenameScore
import Verif.Lemmas.CtpcEval
import Verif.Model.Pool
import Verif.Props.CtpcDemo

/-!
# C184-C186: the names of the variables do not matter

`ρ` gives every variable its new name; different variables get different names.  `Spec/Rename.lean` says what an object with renamed variables is: every label in
it is replaced by its new name, and nothing else is changed.
-/

namespace PyCTBN
open Spec

/-- C184.  Estimating the parameters of the renamed node in the renamed graph gives the same numbers (or the same exception). -/
theorem parameters_blind_to_names {ρ : Label → Label} (hρ : Function.Injective ρ) (t : Trajectory) (g : NetworkGraph) (n : Label) :
    ParamsEst.estimate t (renameGraph ρ g) (ρ n) = renameCims ρ <$> ParamsEst.estimate t g n := ren_estimate hρ t g n

/-- C184 (family score).  So is the score of the renamed node given the renamed parents. -/
theorem score_blind_to_names {ρ : Label → Label} (hρ : Function.Injective ρ) (t : Trajectory) (tau alpha : ℝ) (g : NetworkGraph) (n : Label) :
    ((renameGraph ρ g).fastInit (ρ n) >>= famScoreOn t tau alpha (ρ n)) = (g.fastInit n >>= famScoreOn t tau alpha n) := by
  rw [ren_fastInit hρ]
  cases g.fastInit n with
  | error e => rfl
  | ok g' => exact famScoreOn_ren hρ t tau alpha n g'

/-- C185.  Constraint-based estimation from the renamed data returns the renamed edges and leaves the renamed estimator, whatever the two-CIM test, the cache,
the matrix of removable edges and the way the work is distributed. -/
theorem constraint_based_blind_to_names {ρ : Label → Label} (hρ : Function.Injective ρ) (E : CBEnv) (st : CBState) (e : Estimator) (disable : Bool) (cpu : Nat)
    (processes : Option ℤ) (order : List Label) :
    (renameEnv ρ E).estimateStructureCall (renameState ρ st) (renameEst ρ e) disable cpu processes (order.map ρ)
      = ((fun es => es.image (renameEdge ρ)) <$> (E.estimateStructureCall st e disable cpu processes order).1,
          renameEst ρ (E.estimateStructureCall st e disable cpu processes order).2) := by
  unfold CBEnv.estimateStructureCall
  cases disable with
  | true => exact ctpcEstimate_ren hρ E st e none
  | false =>
    simp only [Bool.false_eq_true, if_false]
    cases startPool (poolSize cpu processes) with
    | error x => rfl
    | ok _ => exact ctpcEstimate_ren hρ E st e (some order)

/-- C186.  Score-based estimation from the renamed data, with the same random numbers for every node, returns the renamed edges, prints the same numbers and leaves
the renamed estimator. -/
theorem score_based_blind_to_names {ρ : Label → Label} (hρ : Function.Injective ρ) (t : Trajectory) (tau alpha : ℝ) (removable : List (List Bool)) (e : Estimator)
    (a : SBArgs) (disable : Bool) (cpu : Nat) (processes : Option ℤ) (order : List Label) {pick drop pick' drop' : Label → Nat → Nat}
    (hpick : ∀ n, pick' (ρ n) = pick n) (hdrop : ∀ n, drop' (ρ n) = drop n) :
    estimateStructureCall (famScoreOn t tau alpha) removable (renameEst ρ e) a disable cpu processes (order.map ρ) pick' drop'
      = ((fun r => (r.1.image (renameEdge ρ), r.2)) <$>
          (estimateStructureCall (famScoreOn t tau alpha) removable e a disable cpu processes order pick drop).1,
          renameEst ρ (estimateStructureCall (famScoreOn t tau alpha) removable e a disable cpu processes order pick drop).2) := by
  unfold estimateStructureCall
  cases disable with
  | true => exact estimateStructure_ren hρ (famScoreOn_ren hρ t tau alpha) removable e a none hpick hdrop
  | false =>
    simp only [Bool.false_eq_true, if_false]
    cases startPool (poolSize cpu processes) with
    | error x => rfl
    | ok _ => exact estimateStructure_ren hρ (famScoreOn_ren hρ t tau alpha) removable e a (some order) hpick hdrop

/-- C186 (construction).  A new estimator on the renamed structure is the renamed new estimator, and renamed known edges give the same matrix. -/
theorem new_blind_to_names {ρ : Label → Label} (hρ : Function.Injective ρ) (s : Structure) (n : Nat) (known : List Edge) :
    Estimator.new (renameStruct ρ s) = renameEst ρ (Estimator.new s) ∧
    buildRemovable (renameStruct ρ s) n (known.map (renameEdge ρ)) = buildRemovable s n known :=
  ⟨estNew_ren hρ s, buildRemovable_ren hρ s n known⟩

/-- C186 (reports).  The adjacency matrix over the renamed nodes is the same, the spurious edges and the saved results are the renamed ones. -/
theorem reports_blind_to_names {ρ : Label → Label} (hρ : Function.Injective ρ) (e : Estimator) (nodes : List Label) :
    (renameEst ρ e).adjacencyMatrix (nodes.map ρ) = e.adjacencyMatrix nodes ∧
    (renameEst ρ e).spuriousEdges = (fun es => es.map (renameEdge ρ)) <$> e.spuriousEdges ∧
    (renameEst ρ e).savedResults = (e.savedResults.1.map ρ, e.savedResults.2.map (renameEdge ρ)) :=
  ⟨adjacency_ren hρ e nodes, spurious_ren hρ e, saved_ren hρ e⟩

/-! ## Examples -/

/-- Renames `A` to `Z` and back: the alphabetical order of the names changes. -/
def demoNames : Label → Label := fun l => if l = "A" then "Z" else if l = "Z" then "A" else l

theorem demoNames_injective : Function.Injective demoNames := by
  have : Function.Involutive demoNames := by
    intro l
    unfold demoNames
    by_cases h : l = "A"
    · subst h; decide
    · by_cases h' : l = "Z"
      · subst h'; decide
      · rw [if_neg h, if_neg h', if_neg h, if_neg h']
  exact this.injective

/-- The run of `Demo.env` for `A` gives the edge B→A, and after renaming B→Z. -/
example : (Demo.env.optimize ⟨[], Demo.allTrue⟩ "A").1 = .ok [("B", "A")] ∧
    ((renameEnv demoNames Demo.env).optimize ⟨[], Demo.allTrue⟩ "Z").1 = .ok [("B", "Z")] := by
  constructor <;> (rw [CBEnv.optimize_eq_F]; decide +kernel)

/-- A renaming that gives two variables the same name can change everything: not injective, the look-up of the second variable finds the first one. -/
theorem names_must_differ : ∃ (ρ : Label → Label) (s : Structure) (n : Label), (renameStruct ρ s).getStatesNumber (ρ n) ≠ s.getStatesNumber n :=
  ⟨fun _ => "A", ⟨["A", "B"], [0, 1], [2, 3], [], 2⟩, "B", by decide⟩

end PyCTBN
