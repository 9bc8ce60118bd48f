import Verif.Lemmas.Verdict

/-! Estimation never raises an unbound-variable error. -/

namespace PyCTBN
open Spec

/-- Not an `UnboundLocalError`. -/
def NoUB {α : Type _} (x : Py α) : Prop := x ≠ .error .unboundLocalError

theorem NoUB.ok {α : Type _} (a : α) : NoUB (.ok a : Py α) := by simp [NoUB]

theorem NoUB.bind {α β : Type _} {x : Py α} {f : α → Py β} (hx : NoUB x) (hf : ∀ a, x = .ok a → NoUB (f a)) : NoUB (x >>= f) := by
  cases x with
  | error e => simpa [NoUB] using hx
  | ok a => exact hf a rfl

theorem NoUB.mapM {α β : Type _} {f : α → Py β} {l : List α} (h : ∀ a ∈ l, NoUB (f a)) : NoUB (l.mapM f) := by
  induction l with
  | nil => exact NoUB.ok _
  | cons a l ih =>
    rw [List.mapM_cons]
    exact (h a (by simp)).bind (fun b _ => (ih (fun x hx => h x (by simp [hx]))).bind (fun bs _ => NoUB.ok _))

theorem noUB_pyGet {α} (l : List α) (i : Nat) : NoUB (pyGet l i) := by unfold pyGet NoUB; split <;> simp
theorem noUB_pyIndex (l : List Label) (x : Label) : NoUB (pyIndex l x) := by unfold pyIndex NoUB; split <;> simp
theorem noUB_states (s : Structure) (l : Label) : NoUB (s.getStatesNumber l) :=
  (noUB_pyIndex _ _).bind (fun _ _ => noUB_pyGet _ _)
theorem noUB_indx (s : Structure) (l : Label) : NoUB (s.getNodeIndx l) :=
  (noUB_pyIndex _ _).bind (fun _ _ => noUB_pyGet _ _)
theorem noUB_rowIndex (cols st : List Nat) (row : List ℤ) : NoUB (rowIndex cols st row) :=
  (NoUB.mapM (fun _ _ => noUB_pyGet _ _)).bind (fun _ _ => (noUB_pyGet _ _).bind (fun _ _ => NoUB.ok _))
theorem noUB_bincountW (xs : List ℤ) (ws : List ℚ) (m : Nat) : NoUB (npBincountW xs ws m) := by
  unfold npBincountW NoUB; split
  · simp
  · split <;> simp
theorem noUB_bincount (xs : List ℤ) (m : Nat) : NoUB (npBincount xs m) := by
  unfold npBincount NoUB; split <;> simp
theorem noUB_reshape2 {α} (c : Nat) (l : List α) : NoUB (reshape2 c l) := by unfold reshape2 NoUB; split <;> simp
theorem noUB_reshape3 {α} (c d : Nat) (l : List α) : NoUB (reshape3 c d l) := by unfold reshape3 NoUB; split <;> simp
theorem noUB_assignAll {α} (k : Nat) (l : List α) : NoUB (assignAll k l) := by
  unfold assignAll NoUB; split
  · simp
  · split <;> simp

theorem noUB_resTime (times : List ℚ) (tr : List (List ℤ)) (cols st : List Nat) (k c : Nat) :
    NoUB (computeStateResTime times tr cols st k c) :=
  (NoUB.mapM (fun _ _ => noUB_rowIndex _ _ _)).bind (fun _ _ => (noUB_pyGet _ _).bind (fun _ _ =>
    (noUB_bincountW _ _ _).bind (fun _ _ => (noUB_reshape2 _ _).bind (fun _ _ => noUB_assignAll _ _))))

theorem noUB_transitions (i : Nat) (tr : List (List ℤ)) (cols st : List Nat) (k c : Nat) :
    NoUB (computeStateTransitions i tr cols st k c) :=
  (NoUB.mapM (fun _ _ => noUB_pyGet _ _)).bind (fun _ _ => (NoUB.mapM (fun _ _ => noUB_rowIndex _ _ _)).bind (fun _ _ =>
    (noUB_pyGet _ _).bind (fun _ _ => (noUB_bincount _ _).bind (fun _ _ => (noUB_reshape3 _ _ _).bind (fun _ _ =>
      (noUB_assignAll _ _).bind (fun _ _ => NoUB.ok _))))))

theorem noUB_estFrom (s : Structure) (tot : Nat) (t : Trajectory) (n : Label) (ls : List Label) : NoUB (estFrom s tot t n ls) :=
  (noUB_states _ _).bind (fun _ _ => (noUB_indx _ _).bind (fun _ _ => (NoUB.mapM (fun _ _ => noUB_states _ _)).bind (fun _ _ =>
    (NoUB.mapM (fun _ _ => noUB_indx _ _)).bind (fun _ _ => (noUB_resTime _ _ _ _ _ _).bind (fun _ _ =>
      (noUB_transitions _ _ _ _ _ _).bind (fun _ _ => NoUB.ok _))))))

theorem noUB_filterCims (s : SetOfCims) (mask : List Bool) (comb : List Nat) : NoUB (s.filterCims mask comb) := by
  unfold SetOfCims.filterCims
  split
  · exact NoUB.ok _
  · split
    · simp [NoUB]
    · split
      · simp [NoUB]
      · exact NoUB.mapM (fun _ _ => noUB_pyGet _ _)

theorem noUB_getFlag (m : List (List Bool)) (i j : Nat) : NoUB (getFlag m i j) :=
  (noUB_pyGet _ _).bind (fun _ _ => noUB_pyGet _ _)

theorem noUB_setFalse (m : List (List Bool)) (i j : Nat) : NoUB (setFalse m i j) := by
  unfold setFalse NoUB; split
  · simp
  · split <;> simp

namespace CBEnv
variable {E : CBEnv}

theorem noUB_inner (h : ∀ c a b th, NoUB (E.twoCim c a b th)) (c th : Nat) (cim1 : Cim) (l : List Cim) :
    NoUB (E.compareInner c th cim1 l) := by
  induction l with
  | nil => exact NoUB.ok _
  | cons a l ih =>
    unfold compareInner
    refine (h _ _ _ _).bind (fun v _ => ?_)
    cases v
    · exact ih
    · exact NoUB.ok _
    · exact NoUB.ok _

theorem noUB_compare (h : ∀ c a b th, NoUB (E.twoCim c a b th)) (c th : Nat) (s : SetOfCims) (mask : List Bool)
    (l : List (Cim × List Nat)) : NoUB (E.compareLoop c th s mask l) := by
  induction l with
  | nil => exact NoUB.ok _
  | cons a l ih =>
    unfold compareLoop
    refine (noUB_filterCims _ _ _).bind (fun conds _ => (noUB_inner h _ _ _ _).bind (fun v _ => ?_))
    cases v
    · exact ih
    · exact NoUB.ok _
    · exact NoUB.ok _

theorem noUB_thumb (p : Label) (S : List Label) (c : Nat) : NoUB (E.thumb p S c) := by
  unfold thumb
  split
  · exact (noUB_states _ _).bind (fun _ _ => NoUB.ok _)
  · exact NoUB.ok _

theorem noUB_pureVerdict (h : ∀ c a b th, NoUB (E.twoCim c a b th)) (p child : Label) (S : List Label) (c : Nat) :
    NoUB (E.pureVerdict p child S c) :=
  (noUB_estFrom _ _ _ _ _).bind (fun _ _ => (noUB_estFrom _ _ _ _ _).bind (fun _ _ => (noUB_thumb _ _ _).bind (fun _ _ =>
    noUB_compare h _ _ _ _ _)))

end CBEnv
end PyCTBN
