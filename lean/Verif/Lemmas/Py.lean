import Verif.Model.Py
import Mathlib.Tactic.Tauto
import Mathlib.Tactic.Ring
import Mathlib.Tactic.Linarith

/-! Helper lemmas about the Python list primitives. -/

namespace PyCTBN

theorem pyIndex_ok {α} [BEq α] [LawfulBEq α] {l : List α} {x : α} {i : Nat} :
    pyIndex l x = .ok i ↔ l.idxOf? x = some i := by
  unfold pyIndex; cases h : l.idxOf? x <;> simp

theorem pyIndex_of_mem {α} [BEq α] [LawfulBEq α] {l : List α} {x : α} (h : x ∈ l) :
    pyIndex l x = .ok (l.idxOf x) := by
  induction l with
  | nil => simp at h
  | cons a l ih =>
    by_cases hax : a = x
    · subst hax; simp [pyIndex, List.idxOf?_cons]
    · have hx : x ∈ l := by simpa [Ne.symm hax] using h
      have := ih hx
      rw [pyIndex_ok] at this ⊢
      have hb : (a == x) = false := by simpa using hax
      simp [List.idxOf?_cons, this, List.idxOf_cons, hb]

theorem pyIndex_of_not_mem {α} [BEq α] [LawfulBEq α] {l : List α} {x : α} (h : x ∉ l) :
    pyIndex l x = .error .valueError := by
  have : l.idxOf? x = none := by simpa [List.idxOf?_eq_none_iff] using h
  simp [pyIndex, this]

theorem pyGet_ok {α} {l : List α} {i : Nat} {a : α} : pyGet l i = .ok a ↔ l[i]? = some a := by
  unfold pyGet; cases h : l[i]? <;> simp

theorem pyGet_of_lt {α} {l : List α} {i : Nat} (h : i < l.length) : pyGet l i = .ok l[i] := by
  rw [pyGet_ok]; simp [h]

theorem pyGet_of_ge {α} {l : List α} {i : Nat} (h : l.length ≤ i) : pyGet l i = .error .indexError := by
  simp [pyGet, h]

theorem npDelete_of_lt {α} {l : List α} {i : Nat} (h : i < l.length) :
    npDelete l i = .ok (l.eraseIdx i) := by simp [npDelete, h]

@[simp] theorem Except.bind_ok' {ε α β} (a : α) (f : α → Except ε β) :
    (Except.ok a >>= f) = f a := rfl
@[simp] theorem Except.bind_error' {ε α β} (e : ε) (f : α → Except ε β) :
    ((Except.error e : Except ε α) >>= f) = .error e := rfl
@[simp] theorem Except.pure_eq_ok' {ε α} (a : α) : (pure a : Except ε α) = .ok a := rfl

/-- Looking a key up in two aligned lists. -/
def lookupPos {α} (keys : List Label) (vals : List α) (l : Label) : Py α := do
  let pos ← pyIndex keys l
  pyGet vals pos

theorem lookupPos_nil {α} (vals : List α) (l : Label) :
    lookupPos [] vals l = .error .valueError := rfl

theorem lookupPos_cons {α} (k : Label) (ks : List Label) (v : α) (vs : List α) (l : Label) :
    lookupPos (k :: ks) (v :: vs) l = if k = l then .ok v else lookupPos ks vs l := by
  unfold lookupPos
  by_cases h : k = l
  · subst h; simp [pyIndex, List.idxOf?_cons, pyGet]
  · simp only [h, if_false]
    have hb : (k == l) = false := by simpa using h
    unfold pyIndex
    rw [List.idxOf?_cons]
    simp only [hb]
    cases hk : ks.idxOf? l <;> simp [pyGet]

theorem lookupPos_not_mem {α} {keys : List Label} {vals : List α} {l : Label} (h : l ∉ keys) :
    lookupPos keys vals l = .error .valueError := by
  unfold lookupPos; rw [pyIndex_of_not_mem h]; rfl

theorem lookupPos_mem {α} {keys : List Label} {vals : List α} {l : Label} (h : l ∈ keys)
    (hl : vals.length = keys.length) :
    ∃ v ∈ vals, lookupPos keys vals l = .ok v := by
  have hi : keys.idxOf l < vals.length := by rw [hl]; exact List.idxOf_lt_length_of_mem h
  refine ⟨vals[keys.idxOf l], List.getElem_mem _, ?_⟩
  unfold lookupPos; rw [pyIndex_of_mem h]; exact pyGet_of_lt hi

theorem lookupPos_eraseIdx {α} {keys : List Label} {vals : List α} {x l : Label}
    (hl : vals.length = keys.length) (hne : l ≠ x) :
    lookupPos (keys.eraseIdx (keys.idxOf x)) (vals.eraseIdx (keys.idxOf x)) l = lookupPos keys vals l := by
  induction keys generalizing vals with
  | nil => simp at hl; subst hl; rfl
  | cons k ks ih =>
    cases vals with
    | nil => simp at hl
    | cons v vs =>
      simp at hl
      by_cases hk : k = x
      · subst hk
        simp [lookupPos_cons, Ne.symm hne]
      · have : (k == x) = false := by simpa using hk
        simp [List.idxOf_cons, this, lookupPos_cons, ih hl]

end PyCTBN
