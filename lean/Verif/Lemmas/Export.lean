import Verif.Model.Export
import Verif.Lemmas.TrajGen

/-!
# Lemmas about keys and dictionaries of the exporter
-/

namespace PyCTBN
open Spec

/-- The characters of a key. -/
def keyChars : List Label → List Nat → List Char
  | p :: ps, x :: xs => p.toList ++ '=' :: (Nat.toDigits 10 x ++ ((if xs = [] then [] else [',']) ++ keyChars ps xs))
  | _, _ => []

theorem toString_toList (x : Nat) : (toString x).toList = Nat.toDigits 10 x := by
  show (Nat.repr x).toList = _
  unfold Nat.repr
  simp

theorem combKeyFrom_chars : ∀ (ps : List Label) (xs : List Nat), xs.length ≤ ps.length →
    ∃ k, combKeyFrom ps xs = .ok k ∧ k.toList = keyChars ps xs := by
  intro ps
  induction ps with
  | nil =>
    intro xs h
    have : xs = [] := List.length_eq_zero_iff.1 (by simpa using h)
    subst this
    exact ⟨"", rfl, rfl⟩
  | cons p ps ih =>
    intro xs h
    cases xs with
    | nil => exact ⟨"", rfl, rfl⟩
    | cons x xs =>
      obtain ⟨k, h1, h2⟩ := ih xs (by simpa using h)
      refine ⟨_, by rw [combKeyFrom, h1]; rfl, ?_⟩
      have hc : (if xs = [] then "" else ",").toList = if xs = [] then [] else [','] := by split <;> rfl
      simp only [String.toList_append, toString_toList, h2, hc, keyChars]
      simp

theorem digits_split {A B R R' : List Char} (hA : ∀ c ∈ A, c.isDigit) (hB : ∀ c ∈ B, c.isDigit)
    (hR : ∀ c ∈ R.head?, ¬ c.isDigit) (hR' : ∀ c ∈ R'.head?, ¬ c.isDigit) (h : A ++ R = B ++ R') : A = B ∧ R = R' := by
  have tw : ∀ A R : List Char, (∀ c ∈ A, c.isDigit) → (∀ c ∈ R.head?, ¬ c.isDigit) → (A ++ R).takeWhile Char.isDigit = A := by
    intro A R hA hR
    induction A with
    | nil =>
      cases R with
      | nil => rfl
      | cons r R =>
        have := hR r (by simp)
        rw [List.nil_append, List.takeWhile_cons_of_neg this]
    | cons a A ih =>
      rw [List.cons_append, List.takeWhile_cons_of_pos (hA a (by simp)), ih (fun c hc => hA c (by simp [hc]))]
  have := tw A R hA hR
  rw [h, tw B R' hB hR'] at this
  subst this
  exact ⟨rfl, List.append_cancel_left h⟩

theorem toDigits_isDigit {x : Nat} : ∀ c ∈ Nat.toDigits 10 x, c.isDigit :=
  fun _ hc => Nat.isDigit_of_mem_toDigits (by decide) (by decide) hc

theorem toDigits_inj {x y : Nat} (h : Nat.toDigits 10 x = Nat.toDigits 10 y) : x = y := by
  have := congrArg (fun l => Nat.ofDigitChars 10 l 0) h
  simpa using this

theorem keyChars_injective : ∀ (ps : List Label) (xs ys : List Nat), xs.length = ps.length → ys.length = ps.length →
    keyChars ps xs = keyChars ps ys → xs = ys := by
  intro ps
  induction ps with
  | nil =>
    intro xs ys h1 h2 _
    rw [List.length_eq_zero_iff.1 h1, List.length_eq_zero_iff.1 h2]
  | cons p ps ih =>
    intro xs ys h1 h2 h
    cases xs with
    | nil => simp at h1
    | cons x xs =>
      cases ys with
      | nil => simp at h2
      | cons y ys =>
        have h1 : xs.length = ps.length := by simpa using h1
        have h2 : ys.length = ps.length := by simpa using h2
        have hxy : xs = [] ↔ ys = [] := by rw [← List.length_eq_zero_iff, ← List.length_eq_zero_iff, h1, h2]
        simp only [keyChars] at h
        have h := List.append_cancel_left h
        rw [List.cons.injEq] at h
        have hh : ∀ (zs : List Nat), zs.length = ps.length → ∀ c ∈ ((if zs = [] then [] else [',']) ++ keyChars ps zs).head?, ¬ c.isDigit := by
          intro zs hz c hc
          by_cases he : zs = []
          · subst he
            have hps : ps = [] := List.length_eq_zero_iff.1 hz.symm
            subst hps
            simp [keyChars] at hc
          · rw [if_neg he] at hc
            simp at hc
            subst hc; decide
        obtain ⟨e1, e2⟩ := digits_split toDigits_isDigit toDigits_isDigit (hh xs h1) (hh ys h2) h.2
        have e3 : keyChars ps xs = keyChars ps ys := by
          by_cases he : xs = []
          · rw [if_pos he, if_pos (hxy.1 he)] at e2
            simpa using e2
          · rw [if_neg he, if_neg (fun h => he (hxy.2 h))] at e2
            simpa using e2
        rw [toDigits_inj e1, ih xs ys h1 h2 e3]

/-! ## Reading keys back -/

theorem findDigits_skip {a : Char} {rest : List Char} (h : a ≠ '=') : findDigits (a :: rest) = findDigits rest := by
  cases rest with
  | nil => rfl
  | cons b rest => rw [findDigits, if_neg (fun hh => h hh.1)]

theorem findDigits_append {A rest : List Char} (h : '=' ∉ A) : findDigits (A ++ rest) = findDigits rest := by
  induction A with
  | nil => rfl
  | cons a A ih =>
    rw [List.mem_cons, not_or] at h
    rw [List.cons_append, findDigits_skip (Ne.symm h.1), ih h.2]

theorem findDigits_keyChars : ∀ (ps : List Label) (xs : List Nat), xs.length = ps.length → (∀ p ∈ ps, '=' ∉ p.toList) → (∀ x ∈ xs, x < 10) →
    findDigits (keyChars ps xs) = xs := by
  intro ps
  induction ps with
  | nil =>
    intro xs h _ _
    rw [List.length_eq_zero_iff.1 h]; rfl
  | cons p ps ih =>
    intro xs h hp hx
    cases xs with
    | nil => simp at h
    | cons x xs =>
      have hx10 := hx x (by simp)
      rw [keyChars, findDigits_append (hp p (by simp)), Nat.toDigits_of_lt_base hx10, List.cons_append, findDigits,
        if_pos ⟨rfl, by rw [Nat.isDigit_digitChar]; simpa using hx10⟩, Nat.toNat_digitChar_sub_48_of_lt_ten hx10, List.nil_append]
      congr 1
      rw [findDigits_append (by split <;> simp)]
      exact ih xs (by simpa using h) (fun q hq => hp q (by simp [hq])) (fun y hy => hx y (by simp [hy]))

theorem findDigits_none {A : List Char} (h : '=' ∉ A) : findDigits A = [] := by
  have := findDigits_append (rest := []) h
  simpa [findDigits] using this

/-! ## Reading matrices back -/

theorem rowDict_keys (row : List ℚ) : (rowDict row).map Prod.fst = (List.range row.length).map toString := by
  unfold rowDict
  apply List.ext_getElem?
  intro i
  simp only [List.getElem?_map, List.getElem?_zipIdx, Nat.zero_add]
  by_cases hi : i < row.length
  · rw [List.getElem?_eq_getElem hi, List.getElem?_range hi]; rfl
  · rw [List.getElem?_eq_none (by omega), List.getElem?_eq_none (by simp; omega)]; rfl

theorem toString_inj {a b : Nat} (h : toString a = toString b) : a = b :=
  toDigits_inj (by rw [← toString_toList, ← toString_toList, h])

theorem rowDict_find {row : List ℚ} {i : Nat} {x : ℚ} (h : row[i]? = some x) :
    (rowDict row).find? (fun p => decide (p.1 = toString i)) = some (toString i, x) := by
  rw [List.find?_eq_some_iff_getElem]
  refine ⟨by simp, i, ?_, ?_, ?_⟩
  · simpa [rowDict] using (List.getElem?_eq_some_iff.1 h).1
  · simp [rowDict, (List.getElem?_eq_some_iff.1 h).2]
  · intro j hj
    simp only [rowDict, List.getElem_map, List.getElem_zipIdx, Nat.zero_add]
    simp only [decide_eq_false_iff_not, Bool.not_eq_eq_eq_not, Bool.not_true]
    intro e
    have := toString_inj e
    omega

theorem header_step (acc : List String) (r : List (String × ℚ)) (h : ∀ k ∈ r.map Prod.fst, k ∈ acc) :
    acc ++ (r.map Prod.fst).filter (fun n => decide (n ∉ acc)) = acc := by
  rw [List.filter_eq_nil_iff.2, List.append_nil]
  intro k hk
  simpa using h k hk

theorem header_rows {c : Nat} : ∀ (m : List (List ℚ)), (∀ r ∈ m, r.length = c) → ∀ acc : List String, acc = (List.range c).map toString →
    (m.map rowDict).foldl (fun acc r => acc ++ (r.map Prod.fst).filter (fun n => decide (n ∉ acc))) acc = acc := by
  intro m
  induction m with
  | nil => intro _ acc _; rfl
  | cons r m ih =>
    intro h acc hacc
    rw [List.map_cons, List.foldl_cons, header_step acc _ (by
      rw [rowDict_keys, h r (by simp), hacc]; exact fun k hk => hk)]
    exact ih (fun r' hr' => h r' (by simp [hr'])) acc hacc

/-- A rectangular matrix is read back as it was written. -/
theorem readCim_rowDict {c : Nat} (m : List (List ℚ)) (h : ∀ r ∈ m, r.length = c) : readCim (m.map rowDict) = .ok m := by
  unfold readCim
  cases m with
  | nil => rfl
  | cons r m =>
    have hhead : ((r :: m).map rowDict).foldl (fun acc r => acc ++ (r.map Prod.fst).filter (fun n => decide (n ∉ acc))) []
        = (List.range c).map toString := by
      rw [List.map_cons, List.foldl_cons]
      have : ([] : List String) ++ ((rowDict r).map Prod.fst).filter (fun n => decide (n ∉ ([] : List String))) = (List.range c).map toString := by
        rw [rowDict_keys, h r (by simp), List.nil_append, List.filter_eq_self.2]
        intro k _; simp
      rw [this]
      exact header_rows m (fun r' hr' => h r' (by simp [hr'])) _ rfl
    simp only
    rw [hhead]
    generalize hM : r :: m = M at h
    clear hhead hM r m
    induction M with
    | nil => rfl
    | cons r M ih =>
      rw [List.map_cons, List.mapM_cons, ih (fun r' hr' => h r' (by simp [hr']))]
      have : ((List.range c).map toString).mapM (dictCell (rowDict r)) = .ok r := by
        have hr := h r (by simp)
        have e : ((List.range c).map toString).mapM (dictCell (rowDict r)) = (List.range c).mapM (fun i => (.ok (r[i]?.getD 0) : Py ℚ)) := by
          rw [List.mapM_map]
          apply mapM_congr_py
          intro i hi
          have hi := List.mem_range.1 hi
          have hx := List.getElem?_eq_getElem (l := r) (i := i) (by omega)
          show dictCell (rowDict r) (toString i) = _
          unfold dictCell
          rw [rowDict_find hx, hx]; rfl
        rw [e, mapM_pure_ok]
        congr 1
        apply List.ext_getElem?
        intro i
        rw [List.getElem?_map]
        by_cases hi : i < c
        · have hx := List.getElem?_eq_getElem (l := r) (i := i) (by omega)
          rw [List.getElem?_range hi, Option.map_some, hx]; rfl
        · rw [List.getElem?_eq_none (by simp; omega), List.getElem?_eq_none (by omega)]; rfl
      rw [this]
      rfl

/-! ## Dictionaries -/

theorem dictSet_new {β : Type _} {d : List (String × β)} {k : String} {v : β} (h : k ∉ d.map Prod.fst) : dictSet d k v = d ++ [(k, v)] := by
  unfold dictSet; rw [if_neg h]

/-- Filling a dictionary under distinct keys. -/
theorem fold_dictSet {α β : Type _} {f : α → Py String} {g : α → Py β} (kf : α → String) (vf : α → β) : ∀ (l : List α),
    (∀ a ∈ l, f a = .ok (kf a) ∧ g a = .ok (vf a)) → (l.map kf).Nodup → ∀ d : List (String × β), (∀ a ∈ l, kf a ∉ d.map Prod.fst) →
    l.foldlM (fun d a => do
      let k ← f a
      let v ← g a
      return dictSet d k v) d = (.ok (d ++ l.map (fun a => (kf a, vf a))) : Py (List (String × β))) := by
  intro l
  induction l with
  | nil => intro _ _ d _; simp [pure, Except.pure]
  | cons a l ih =>
    intro h hn d hd
    rw [List.map_cons, List.nodup_cons] at hn
    rw [List.foldlM_cons, (h a (by simp)).1, (h a (by simp)).2]
    simp only [Except.bind_ok', Except.pure_eq_ok']
    rw [dictSet_new (hd a (by simp))]
    refine (ih (fun b hb => h b (by simp [hb])) hn.2 _ ?_).trans ?_
    rotate_left
    · simp
    · intro b hb
      simp only [List.map_append, List.map_cons, List.map_nil, List.mem_append, List.mem_singleton, not_or]
      exact ⟨hd b (by simp [hb]), fun e => hn.1 (e ▸ List.mem_map_of_mem hb)⟩

end PyCTBN
