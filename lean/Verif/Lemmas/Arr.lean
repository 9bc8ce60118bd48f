import Verif.Lemmas.Py
import Verif.Model.Params
import Mathlib.Data.List.Range
import Mathlib.Algebra.BigOperators.Group.List.Lemmas

/-! Lemmas about the numpy primitives: closed forms over `List.range`. -/

namespace PyCTBN

theorem ext_map_range {α} {l : List α} {n : Nat} {f : Nat → α} (hl : l.length = n)
    (h : ∀ i, i < n → l[i]? = some (f i)) : l = (List.range n).map f := by
  apply List.ext_getElem?
  intro i
  by_cases hi : i < n
  · rw [h i hi]; simp [hi]
  · rw [List.getElem?_eq_none (by omega), List.getElem?_eq_none (by simp; omega)]

theorem chunks_map_range {α} (c n : Nat) (hc : 0 < c) (f : Nat → α) :
    chunks c ((List.range (n * c)).map f)
      = (List.range n).map (fun r => (List.range c).map (fun x => f (r * c + x))) := by
  unfold chunks
  rw [List.length_map, List.length_range, Nat.mul_div_cancel _ hc]
  apply List.map_congr_left
  intro r hr
  have hr' : r < n := List.mem_range.1 hr
  have hle : (r + 1) * c ≤ n * c := Nat.mul_le_mul_right c hr'
  have hle' : r * c + c ≤ n * c := by rw [Nat.add_mul, Nat.one_mul] at hle; exact hle
  apply ext_map_range
  · simp; omega
  · intro x hx
    rw [List.getElem?_take_of_lt hx, List.getElem?_drop, List.getElem?_map,
      List.getElem?_range (by omega)]
    rfl

theorem list_eq_map_range {α} [Inhabited α] (l : List α) : l = (List.range l.length).map (fun i => l.getD i default) := by
  apply ext_map_range rfl
  intro i hi
  simp [hi]

theorem chunks_flatten {α} (c : Nat) (hc : 0 < c) (n : Nat) (l : List α) (hl : l.length = n * c) :
    (chunks c l).flatten = l := by
  unfold chunks
  rw [hl, Nat.mul_div_cancel _ hc]
  induction n generalizing l with
  | zero => simp at hl; simp [hl]
  | succ n ih =>
    rw [List.range_succ_eq_map, List.map_cons, List.flatten_cons, List.map_map]
    have h1 : (l.drop c).length = n * c := by rw [List.length_drop, hl, Nat.add_mul]; omega
    have := ih (l.drop c) h1
    have h2 : (List.range n).map ((fun i => List.take c (List.drop (i * c) l)) ∘ Nat.succ)
        = (List.range n).map (fun i => List.take c (List.drop (i * c) (l.drop c))) := by
      apply List.map_congr_left
      intro i _
      simp only [Function.comp, List.drop_drop, Nat.succ_eq_add_one]
      congr 2; ring
    rw [h2, this]; simp

theorem flatten_map_range {α} (c n : Nat) (hc : 0 < c) (f : Nat → α) :
    ((List.range n).map (fun r => (List.range c).map (fun x => f (r * c + x)))).flatten
      = (List.range (n * c)).map f := by
  rw [← chunks_map_range c n hc f, chunks_flatten c hc n _ (by simp)]

theorem le_bincountSize (xs : List ℤ) (m : Nat) : m ≤ bincountSize xs m := by
  unfold bincountSize
  induction xs generalizing m with
  | nil => simp
  | cons x xs ih => exact le_trans (le_max_left _ _) (ih (max m (x.toNat + 1)))

theorem lt_bincountSize (xs : List ℤ) (m : Nat) {x : ℤ} (hx : x ∈ xs) : x.toNat < bincountSize xs m := by
  unfold bincountSize
  induction xs generalizing m with
  | nil => simp at hx
  | cons y xs ih =>
    rcases List.mem_cons.1 hx with rfl | h
    · have := le_bincountSize xs (max m (x.toNat + 1))
      unfold bincountSize at this
      simp only [List.foldl_cons]
      have h2 : x.toNat + 1 ≤ max m (x.toNat + 1) := le_max_right _ _
      omega
    · exact ih _ h

theorem bincountSize_eq (xs : List ℤ) (m : Nat) (h : ∀ x ∈ xs, x.toNat < m) : bincountSize xs m = m := by
  unfold bincountSize
  induction xs with
  | nil => rfl
  | cons x xs ih =>
    simp only [List.foldl_cons]
    have : max m (x.toNat + 1) = m := max_eq_left (h x (by simp))
    rw [this]; exact ih (fun y hy => h y (by simp [hy]))

/-- The raveled diagonal assignment. -/
theorem setMany_diag {α} (n c : Nat) (hc : 0 < c) (f v : Nat → α) :
    setMany ((List.range (n * c)).map f) ((List.range n).map (fun x => x * c + x % c)) ((List.range n).map v)
      = (List.range (n * c)).map (fun i => if (i / c) % c = i % c then v (i / c) else f i) := by
  have hz : ∀ N, ((List.range N).map (fun x => x * c + x % c)).zip ((List.range N).map v)
      = (List.range N).map (fun x => (x * c + x % c, v x)) := by
    intro N
    rw [List.zip_eq_zipWith, List.zipWith_map, List.zipWith_self]
  unfold setMany
  rw [hz]
  have main : ∀ N, N ≤ n → ((List.range N).map (fun x => (x * c + x % c, v x))).foldl
      (fun acc p => acc.set p.1 p.2) ((List.range (n * c)).map f)
      = (List.range (n * c)).map (fun i => if i / c < N ∧ (i / c) % c = i % c then v (i / c) else f i) := by
    intro N hN
    induction N with
    | zero => simp
    | succ N ih =>
      rw [List.range_succ, List.map_append, List.foldl_append, ih (by omega)]
      simp only [List.map_cons, List.map_nil, List.foldl_cons, List.foldl_nil]
      apply ext_map_range (by simp)
      intro i hi
      rw [List.getElem?_set]
      by_cases hi' : N * c + N % c = i
      · subst hi'
        have hmod : N % c < c := Nat.mod_lt _ hc
        have hd : (N * c + N % c) / c = N := by
          rw [Nat.mul_comm, Nat.mul_add_div hc, Nat.div_eq_of_lt hmod]; omega
        have hm : (N * c + N % c) % c = N % c := by
          rw [Nat.mul_comm, Nat.mul_add_mod, Nat.mod_eq_of_lt hmod]
        simp [hd, hm, hi]
      · rw [if_neg hi', List.getElem?_map, List.getElem?_range hi]
        simp only [Option.map_some, Option.some.injEq]
        have hiff : (i / c < N ∧ (i / c) % c = i % c) ↔ (i / c < N + 1 ∧ (i / c) % c = i % c) := by
          constructor
          · rintro ⟨a, b⟩; exact ⟨by omega, b⟩
          · rintro ⟨a, b⟩
            refine ⟨?_, b⟩
            rcases Nat.lt_succ_iff_lt_or_eq.1 a with h | h
            · exact h
            · exfalso; apply hi'
              rw [← h, b, Nat.mul_comm]; exact Nat.div_add_mod i c
        by_cases hq : i / c < N ∧ (i / c) % c = i % c
        · rw [if_pos hq, if_pos (hiff.1 hq)]
        · rw [if_neg hq, if_neg (fun h => hq (hiff.2 h))]
  rw [main n (le_refl n)]
  apply List.map_congr_left
  intro i hi
  have hi' : i < n * c := List.mem_range.1 hi
  have : i / c < n := by rw [Nat.div_lt_iff_lt_mul hc]; exact hi'
  simp [this]

/-- Closed form of the diagonal fix-up. -/
theorem fixDiagonal_closed (k c : Nat) (hc : 0 < c) (f : Nat → Nat) :
    fixDiagonal k c ((List.range k).map (fun r => (List.range c).map (fun i => (List.range c).map
        (fun j => f ((r * c + i) * c + j)))))
      = (List.range k).map (fun r => (List.range c).map (fun i => (List.range c).map
        (fun j => if i = j then ((List.range c).map (fun j' => if i = j' then 0 else f ((r * c + i) * c + j'))).sum
          else f ((r * c + i) * c + j)))) := by
  unfold fixDiagonal
  have hflat : ((List.range k).map (fun r => (List.range c).map (fun i => (List.range c).map
        (fun j => f ((r * c + i) * c + j))))).flatten.flatten = (List.range (k * c * c)).map f := by
    rw [flatten_map_range c k hc (fun q => (List.range c).map (fun j => f (q * c + j)))]
    rw [flatten_map_range c (k * c) hc f]
  rw [hflat]
  have hrep : List.replicate (k * c) 0 = (List.range (k * c)).map (fun _ => 0) := by simp
  dsimp only
  rw [hrep, diagIndices, setMany_diag (k * c) c hc f (fun _ => 0)]
  rw [chunks_map_range c (k * c) hc, List.map_map]
  have hdm : ∀ q x, x < c → (q * c + x) / c = q ∧ (q * c + x) % c = x := by
    intro q x hx
    constructor
    · rw [Nat.mul_comm, Nat.mul_add_div hc, Nat.div_eq_of_lt hx]; omega
    · rw [Nat.mul_comm, Nat.mul_add_mod, Nat.mod_eq_of_lt hx]
  rw [show (List.sum ∘ fun r => (List.range c).map (fun x => if (r * c + x) / c % c = (r * c + x) % c then 0
      else f (r * c + x))) = fun q => ((List.range c).map (fun x => if q % c = x then 0 else f (q * c + x))).sum from by
    funext q
    simp only [Function.comp]
    congr 1
    apply List.map_congr_left
    intro x hx
    obtain ⟨h1, h2⟩ := hdm q x (List.mem_range.1 hx)
    rw [h1, h2]]
  rw [setMany_diag (k * c) c hc, show k * c * c = k * (c * c) by ring,
    chunks_map_range (c * c) k (Nat.mul_pos hc hc), List.map_map]
  apply List.map_congr_left
  intro r _
  simp only [Function.comp]
  rw [chunks_map_range c c hc]
  apply List.map_congr_left
  intro i hi
  apply List.map_congr_left
  intro j hj
  have hi' := List.mem_range.1 hi
  have hj' := List.mem_range.1 hj
  have e1 : r * (c * c) + (i * c + j) = (r * c + i) * c + j := by ring
  obtain ⟨h1, h2⟩ := hdm (r * c + i) j hj'
  obtain ⟨h3, h4⟩ := hdm r i hi'
  rw [e1, h1, h2, h4]
  by_cases hij : i = j
  · simp [hij]
  · simp [hij]

end PyCTBN
