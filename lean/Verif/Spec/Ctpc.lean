import Verif.Model.Ctpc
import Verif.Spec.Params
import Mathlib.Data.Finset.Dedup

/-!
# Specification vocabulary for constraint-based search
-/

namespace PyCTBN.Spec

/-- The outcome of one complete test when nothing is cached. -/
def freshVerdict (E : CBEnv) (child : Label) (c : Nat) (p : Label) (S : List Label) : Py Verdict :=
  (E.verdict [] p child S c).1

/-- The calls of the optimizer, with every test run on an empty cache; only the removable-edges matrix is kept. -/
def uncached (E : CBEnv) (child : Label) (c : Nat) : CBTest (List (List Bool)) where
  flag p m := (E.calls child c).flag p ⟨[], m⟩
  test p S m :=
    let r := (E.calls child c).test p S ⟨[], m⟩
    (r.1, r.2.removable)

/-- The search for one child with every test run on an empty cache. -/
def uncachedOptimize (E : CBEnv) (m : List (List Bool)) (child : Label) : Py (List Edge) × List (List Bool) :=
  match E.struct.getStatesNumber child with
  | .error e => (.error e, m)
  | .ok c =>
    match outerLoop (uncached E child c) child 0 (E.others child) (E.startGraph child) m with
    | (.error e, m) => (.error e, m)
    | (.ok (_, g), m) => (.ok g.edges, m)

/-- Is the edge `(p, child)` removable according to the matrix? -/
def removableEdge (E : CBEnv) (m : List (List Bool)) (p child : Label) : Prop :=
  ∃ i j, E.struct.getNodeIndx p = .ok i ∧ E.struct.getNodeIndx child = .ok j ∧ getFlag m i j = .ok true

/-- The calls made since the last `clear`: every call is recorded, `clear` forgets what was recorded. -/
def sinceClear {α : Type} (ops : List (Cache.Op α)) : List (Cache.Op α) :=
  ops.foldl (fun acc op => match op with
    | .clear => []
    | op => acc ++ [op]) []

/-- The value of the first `put` whose key is the set `K`. -/
def firstPut {α : Type} (K : Finset Label) : List (Cache.Op α) → Option α
  | [] => none
  | .put k v :: ops => if k.toFinset = K then some v else firstPut K ops
  | _ :: ops => firstPut K ops

/-- The arguments of one call of `complete_test` for a given child. -/
structure TestCall where
  parent : Label
  sepSet : List Label
  childStates : Nat
  parentIndx : Nat
  childIndx : Nat

/-- The state after a sequence of calls of `complete_test` for the same child (exceptions are caught by the caller). -/
def afterTests (E : CBEnv) (child : Label) (st : CBState) (calls : List TestCall) : CBState :=
  calls.foldl (fun st k => (E.completeTest st k.parent child k.sepSet k.childStates k.parentIndx k.childIndx).2) st

/-- A call a user can meaningfully make: known labels; the tested parent and the child are different and not in the
separating set. -/
structure ValidCall (E : CBEnv) (child : Label) (k : TestCall) : Prop where
  parent_known : k.parent ∈ E.struct.labels
  sep_known : ∀ q ∈ k.sepSet, q ∈ E.struct.labels
  parent_ne : k.parent ≠ child
  parent_notin : k.parent ∉ k.sepSet
  child_notin : child ∉ k.sepSet

/-- The CIM of `child` given that the variables `ls` are in the states `u`, by definition from the data: total durations,
and numbers of transitions with the row sums on the diagonal. -/
def trueCim (s : Structure) (t : Trajectory) (child : Label) (c : Nat) (ls : List Label) (u : List Nat) : Cim :=
  Cim.build ((List.range c).map (fun x => residence s t child ls x u))
    ((List.range c).map (fun x => (List.range c).map (fun x' =>
      if x = x' then ((List.range c).map (fun y => if x = y then 0 else transitions s t child ls x y u)).sum
      else transitions s t child ls x x' u)))

/-- The known labels in a set, in the order of the structure. -/
def ordered (s : Structure) (S : List Label) : List Label := s.labels.filter (fun l => decide (l ∈ S))

/-- The cardinalities of a list of labels. -/
def Cards (s : Structure) (ls : List Label) (ps : List Nat) : Prop := ps.map Except.ok = ls.map s.getStatesNumber

/-- The number the data-size rule divides the transition count by: `(|child|-1)^2 · |parent| · Π |separating set|` for a child
with more than two states; for the others the rule is not applied and 0 is passed. -/
def dataSize (c vp : Nat) (ps : List Nat) : Nat := if 2 < c then (c - 1) ^ 2 * vp * ps.prod else 0

/-- The same tests, counting the calls of `complete_test`. -/
def counting {σ : Type} (T : CBTest σ) : CBTest (σ × Nat) where
  flag p s := T.flag p s.1
  test p S s := ((T.test p S s.1).1, ((T.test p S s.1).2, s.2 + 1))

end PyCTBN.Spec
