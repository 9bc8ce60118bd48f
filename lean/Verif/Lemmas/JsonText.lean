import Verif.Model.JsonText
import Verif.Lemmas.Export
import Verif.Spec.JsonText

/-! Lemmas on the text of JSON files. -/

namespace PyCTBN
open Spec

/-! ## Characters -/

theorem hexVal_hexDigit : ∀ d < 16, hexVal (hexDigit d) = some d := by decide

theorem hexEscape_head (n : Nat) : hexEscape n = '\\' :: 'u' :: [hexDigit (n / 4096 % 16), hexDigit (n / 256 % 16), hexDigit (n / 16 % 16), hexDigit (n % 16)] := rfl

theorem hex4_hexEscape {n : Nat} (h : n < 65536) (r : List Char) :
    hex4 (hexDigit (n / 4096 % 16) :: hexDigit (n / 256 % 16) :: hexDigit (n / 16 % 16) :: hexDigit (n % 16) :: r) = some (n, r) := by
  simp only [hex4, hexVal_hexDigit _ (Nat.mod_lt _ (by norm_num : 0 < 16)), Option.bind_eq_bind, Option.bind_some, pure, Option.some.injEq,
    Prod.mk.injEq, and_true]
  omega

theorem char_range (c : Char) : c.toNat < 55296 ∨ (57343 < c.toNat ∧ c.toNat < 1114112) := by
  have h : (c.toNat < 0xd800 ∨ (0xdfff < c.toNat ∧ c.toNat < 0x110000)) := c.valid
  omega

theorem scan_pair {u w : Nat} {c : Char} (e1 : u < 65536) (e2 : w < 65536) (g1 : 55296 ≤ u ∧ u ≤ 56319) (g2 : 56320 ≤ w ∧ w ≤ 57343)
    (e : Char.ofNat (65536 + (u - 55296) * 1024 + (w - 56320)) = c) (r : List Char) :
    scanChar '\\' (('u' :: hexDigit (u / 4096 % 16) :: hexDigit (u / 256 % 16) :: hexDigit (u / 16 % 16) :: hexDigit (u % 16) ::
      hexEscape w) ++ r) = some (c, r) := by
  simp only [scanChar, if_true, scanEscape, List.cons_append, List.nil_append, hexEscape, hex4_hexEscape e1, Option.bind_eq_bind, Option.bind_some]
  rw [if_pos g1]
  simp only [lowSurrogate, and_self, if_true, hex4_hexEscape e2, Option.bind_eq_bind, Option.bind_some]
  rw [if_pos g2, e]

theorem scan_escape (c : Char) (r : List Char) :
    ∃ h t, escapeChar c = h :: t ∧ h ≠ '"' ∧ scanChar h (t ++ r) = some (c, r) := by
  unfold escapeChar
  split_ifs with h1 h2 h3 h4 h5 h6 h7 h8 h9
  · subst h1; exact ⟨_, _, rfl, by decide, by simp [scanChar, scanEscape, simpleEscape]⟩
  · subst h2; exact ⟨_, _, rfl, by decide, by simp [scanChar, scanEscape, simpleEscape]⟩
  · subst h3; exact ⟨_, _, rfl, by decide, by simp [scanChar, scanEscape, simpleEscape]⟩
  · subst h4; exact ⟨_, _, rfl, by decide, by simp [scanChar, scanEscape, simpleEscape]⟩
  · subst h5; exact ⟨_, _, rfl, by decide, by simp [scanChar, scanEscape, simpleEscape]⟩
  · have : c = Char.ofNat 12 := by rw [← h6, Char.ofNat_toNat]
    subst this; exact ⟨_, _, rfl, by decide, by simp [scanChar, scanEscape, simpleEscape]⟩
  · have : c = Char.ofNat 8 := by rw [← h7, Char.ofNat_toNat]
    subst this; exact ⟨_, _, rfl, by decide, by simp [scanChar, scanEscape, simpleEscape]⟩
  · refine ⟨c, [], rfl, h1, ?_⟩
    simp only [scanChar, h2, if_false, List.nil_append]
    rw [if_neg (by omega)]
  · refine ⟨_, _, rfl, by decide, ?_⟩
    have hr := char_range c
    simp only [scanChar, if_true, scanEscape, List.cons_append, List.nil_append, hex4_hexEscape h9, Option.bind_eq_bind, Option.bind_some]
    rw [if_neg (by omega), if_neg (by omega), Char.ofNat_toNat]
  · have hr := char_range c
    have e1 : 55296 + (c.toNat - 65536) / 1024 < 65536 := by omega
    have e2 : 56320 + (c.toNat - 65536) % 1024 < 65536 := by omega
    have e : 65536 + (55296 + (c.toNat - 65536) / 1024 - 55296) * 1024 + (56320 + (c.toNat - 65536) % 1024 - 56320) = c.toNat := by omega
    have g1 : 55296 ≤ 55296 + (c.toNat - 65536) / 1024 ∧ 55296 + (c.toNat - 65536) / 1024 ≤ 56319 := by omega
    have g2 : 56320 ≤ 56320 + (c.toNat - 65536) % 1024 ∧ 56320 + (c.toNat - 65536) % 1024 ≤ 57343 := by omega
    generalize 55296 + (c.toNat - 65536) / 1024 = u at *
    generalize 56320 + (c.toNat - 65536) % 1024 = w at *
    refine ⟨_, _, rfl, by decide, ?_⟩
    exact scan_pair e1 e2 g1 g2 (by rw [e, Char.ofNat_toNat]) r

theorem escapeChar_length (c : Char) : 1 ≤ (escapeChar c).length := by
  obtain ⟨h, t, e, -⟩ := scan_escape c []
  rw [e]; simp

/-! ## Strings -/

theorem scanStr_escaped (l : List Char) (r : List Char) (n : Nat) (hn : l.length < n) :
    scanStr n (l.flatMap escapeChar ++ '"' :: r) = some (l, r) := by
  induction l generalizing n with
  | nil =>
    obtain ⟨n, rfl⟩ : ∃ k, n = k + 1 := ⟨n - 1, by simp at hn; omega⟩
    simp [scanStr]
  | cons c l ih =>
    obtain ⟨n, rfl⟩ : ∃ k, n = k + 1 := ⟨n - 1, by simp at hn; omega⟩
    obtain ⟨h, t, e, hq, hs⟩ := scan_escape c (l.flatMap escapeChar ++ '"' :: r)
    simp only [List.flatMap_cons, e, List.cons_append, List.append_assoc, scanStr, hq, if_false]
    rw [hs]
    simp only [Option.bind_eq_bind, Option.bind_some]
    rw [ih n (by simp at hn; omega)]
    rfl

theorem scanStr_mono {n : Nat} {l : List Char} {x} (h : scanStr n l = some x) {m : Nat} (hm : n ≤ m) : scanStr m l = some x := by
  induction n generalizing l x m with
  | zero => simp [scanStr] at h
  | succ n ih =>
    obtain ⟨m, rfl⟩ : ∃ k, m = k + 1 := ⟨m - 1, by omega⟩
    cases l with
    | nil => simp [scanStr] at h
    | cons c r =>
      simp only [scanStr] at h ⊢
      split_ifs at h ⊢ with hc
      · exact h
      · simp only [Option.bind_eq_bind, Option.bind_eq_some_iff] at h ⊢
        obtain ⟨⟨a, r1⟩, h1, ⟨⟨s, r2⟩, h2, h3⟩⟩ := h
        exact ⟨_, h1, _, ih h2 (by omega), h3⟩

theorem hex4_ext {l r : List Char} {n : Nat} (h : hex4 l = some (n, r)) (q : List Char) : hex4 (l ++ q) = some (n, r ++ q) := by
  match l, h with
  | a :: b :: c :: d :: r', h =>
    simp only [hex4, Option.bind_eq_bind, Option.bind_eq_some_iff, pure, Option.some.injEq, Prod.mk.injEq, List.cons_append] at h ⊢
    obtain ⟨x, h1, y, h2, z, h3, w, h4, h5, h6⟩ := h
    exact ⟨x, h1, y, h2, z, h3, w, h4, h5, by rw [h6]⟩
  | [], h => simp [hex4] at h
  | [a], h => simp [hex4] at h
  | [a, b], h => simp [hex4] at h
  | [a, b, c], h => simp [hex4] at h

theorem lowSurrogate_ext {u : Nat} {l r : List Char} {c : Char} (h : lowSurrogate u l = some (c, r)) (q : List Char) :
    lowSurrogate u (l ++ q) = some (c, r ++ q) := by
  match l, h with
  | a :: b :: r', h =>
    simp only [lowSurrogate, List.cons_append] at h ⊢
    split_ifs at h ⊢ with hab
    · simp only [Option.bind_eq_bind, Option.bind_eq_some_iff] at h ⊢
      obtain ⟨⟨w, r1⟩, h1, h2⟩ := h
      refine ⟨_, hex4_ext h1 q, ?_⟩
      simp only at h2 ⊢
      split_ifs at h2 ⊢
      simp only [Option.some.injEq, Prod.mk.injEq] at h2 ⊢
      exact ⟨h2.1, by rw [h2.2]⟩
  | [], h => simp [lowSurrogate] at h
  | [a], h => simp [lowSurrogate] at h

theorem scanEscape_ext {l r : List Char} {c : Char} (h : scanEscape l = some (c, r)) (q : List Char) :
    scanEscape (l ++ q) = some (c, r ++ q) := by
  cases l with
  | nil => simp [scanEscape] at h
  | cons e l =>
    simp only [scanEscape, List.cons_append] at h ⊢
    split_ifs at h ⊢ with he
    · simp only [Option.bind_eq_bind, Option.bind_eq_some_iff] at h ⊢
      obtain ⟨⟨w, r1⟩, h1, h2⟩ := h
      refine ⟨_, hex4_ext h1 q, ?_⟩
      simp only at h2 ⊢
      split_ifs at h2 ⊢
      · exact lowSurrogate_ext h2 q
      · simp only [Option.some.injEq, Prod.mk.injEq] at h2 ⊢
        exact ⟨h2.1, by rw [h2.2]⟩
    · simp only [Option.map_eq_some_iff, Prod.mk.injEq] at h ⊢
      obtain ⟨a, h1, h2, h3⟩ := h
      exact ⟨a, h1, h2, by rw [h3]⟩

theorem scanChar_ext {a : Char} {l r : List Char} {c : Char} (h : scanChar a l = some (c, r)) (q : List Char) :
    scanChar a (l ++ q) = some (c, r ++ q) := by
  unfold scanChar at h ⊢
  split_ifs at h ⊢
  · exact scanEscape_ext h q
  · simp only [Option.some.injEq, Prod.mk.injEq] at h ⊢
    exact ⟨h.1, by rw [h.2]⟩

theorem scanStr_ext {n : Nat} {l s r : List Char} (h : scanStr n l = some (s, r)) (q : List Char) :
    scanStr n (l ++ q) = some (s, r ++ q) := by
  induction n generalizing l s with
  | zero => simp [scanStr] at h
  | succ n ih =>
    cases l with
    | nil => simp [scanStr] at h
    | cons c l =>
      simp only [scanStr, List.cons_append] at h ⊢
      split_ifs at h ⊢ with hc
      · simp only [Option.some.injEq, Prod.mk.injEq] at h ⊢
        exact ⟨h.1, by rw [h.2]⟩
      · simp only [Option.bind_eq_bind, Option.bind_eq_some_iff, pure, Option.some.injEq, Prod.mk.injEq] at h ⊢
        obtain ⟨⟨a, r1⟩, h1, ⟨⟨s', r2⟩, h2, h3, h4⟩⟩ := h
        subst h4
        exact ⟨_, scanChar_ext h1 q, _, ih h2, h3, rfl⟩

/-! ## Blanks -/

theorem skipWs_ext {l r : List Char} {c : Char} (h : skipWs l = c :: r) (q : List Char) : skipWs (l ++ q) = c :: (r ++ q) := by
  induction l with
  | nil => simp [skipWs] at h
  | cons a l ih =>
    unfold skipWs at h ih ⊢
    rw [List.dropWhile_cons] at h
    rw [List.cons_append, List.dropWhile_cons]
    split_ifs at h ⊢ with ha
    · exact ih h
    · rw [List.cons.injEq] at h; rw [h.1, h.2]

theorem skipWs_of_not {c : Char} (r : List Char) (h : (c == ' ' || c == '\t' || c == '\n' || c == '\r') = false) : skipWs (c :: r) = c :: r := by
  unfold skipWs; rw [List.dropWhile_cons, if_neg (by simp [h])]

theorem skipWs_blank (r : List Char) : skipWs (' ' :: r) = skipWs r := by
  unfold skipWs; rw [List.dropWhile_cons, if_pos (by decide)]

/-! ## More fuel changes nothing -/

theorem scan_mono_step (C : NumText) (n : Nat) :
    (∀ l x, scanVal C n l = some x → scanVal C (n + 1) l = some x) ∧
    (∀ l x, scanArr C n l = some x → scanArr C (n + 1) l = some x) ∧
    (∀ l x, scanItems C n l = some x → scanItems C (n + 1) l = some x) ∧
    (∀ l x, scanObj C n l = some x → scanObj C (n + 1) l = some x) ∧
    (∀ l x, scanFields C n l = some x → scanFields C (n + 1) l = some x) := by
  induction n with
  | zero =>
    refine ⟨?_, ?_, ?_, ?_, ?_⟩ <;> · intro l x h; simp [scanVal, scanArr, scanItems, scanObj, scanFields] at h
  | succ n ih =>
    obtain ⟨iV, iA, iI, iO, iF⟩ := ih
    refine ⟨?_, ?_, ?_, ?_, ?_⟩
    · intro l x h
      cases l with
      | nil => simp [scanVal] at h
      | cons c r =>
        rw [scanVal] at h ⊢
        split_ifs at h ⊢
        · simp only [Option.bind_eq_bind, Option.bind_eq_some_iff] at h ⊢
          obtain ⟨y, h1, h2⟩ := h
          exact ⟨y, scanStr_mono h1 (by omega), h2⟩
        · exact iA _ _ h
        · exact iO _ _ h
        all_goals exact h
    · intro l x h
      rw [scanArr] at h ⊢
      split_ifs at h ⊢
      · exact h
      · simp only [Option.bind_eq_bind, Option.bind_eq_some_iff] at h ⊢
        obtain ⟨y, h1, h2⟩ := h
        exact ⟨y, iI _ _ h1, h2⟩
    · intro l x h
      rw [scanItems] at h ⊢
      simp only [Option.bind_eq_bind, Option.bind_eq_some_iff] at h ⊢
      obtain ⟨y, h1, h2⟩ := h
      refine ⟨y, iV _ _ h1, ?_⟩
      cases hs : skipWs y.2 with
      | nil => rw [hs] at h2; cases h2
      | cons c r =>
        rw [hs] at h2
        dsimp only at h2 ⊢
        split_ifs at h2 ⊢
        · exact h2
        · simp only [Option.bind_eq_some_iff] at h2 ⊢
          obtain ⟨z, k1, k2⟩ := h2
          exact ⟨z, iI _ _ k1, k2⟩
    · intro l x h
      rw [scanObj] at h ⊢
      split_ifs at h ⊢
      · exact h
      · simp only [Option.bind_eq_bind, Option.bind_eq_some_iff] at h ⊢
        obtain ⟨y, h1, h2⟩ := h
        exact ⟨y, iF _ _ h1, h2⟩
    · intro l x h
      cases l with
      | nil => simp [scanFields] at h
      | cons c l =>
        rw [scanFields] at h ⊢
        split_ifs at h ⊢
        simp only [Option.bind_eq_bind, Option.bind_eq_some_iff] at h ⊢
        obtain ⟨y, h1, h2⟩ := h
        refine ⟨y, scanStr_mono h1 (by omega), ?_⟩
        cases hs : skipWs y.2 with
        | nil => rw [hs] at h2; cases h2
        | cons c r =>
          rw [hs] at h2
          dsimp only at h2 ⊢
          split_ifs at h2 ⊢
          simp only [Option.bind_eq_some_iff] at h2 ⊢
          obtain ⟨z, k1, k2⟩ := h2
          refine ⟨z, iV _ _ k1, ?_⟩
          cases hs : skipWs z.2 with
          | nil => rw [hs] at k2; cases k2
          | cons c r =>
            rw [hs] at k2
            dsimp only at k2 ⊢
            split_ifs at k2 ⊢
            · exact k2
            · simp only [Option.bind_eq_some_iff] at k2 ⊢
              obtain ⟨w, m1, m2⟩ := k2
              exact ⟨w, iF _ _ m1, m2⟩

theorem scanVal_mono {C : NumText} {n m : Nat} (hm : n ≤ m) {l : List Char} {x} (h : scanVal C n l = some x) : scanVal C m l = some x := by
  induction hm with
  | refl => exact h
  | step _ ih => exact (scan_mono_step C _).1 _ _ ih

/-! ## More text after what was read changes nothing -/

/-- Is the value a number? -/
def JVal.isNum : JVal → Bool
  | .num _ => true
  | _ => false

theorem takeWhile_ext {p : Char → Bool} {l : List Char} (h : l.dropWhile p ≠ []) (q : List Char) :
    (l ++ q).takeWhile p = l.takeWhile p ∧ (l ++ q).dropWhile p = l.dropWhile p ++ q := by
  induction l with
  | nil => simp at h
  | cons a l ih =>
    rw [List.cons_append, List.takeWhile_cons, List.dropWhile_cons, List.takeWhile_cons, List.dropWhile_cons]
    rw [List.dropWhile_cons] at h
    split_ifs at h ⊢ with ha
    · obtain ⟨h1, h2⟩ := ih h
      exact ⟨by rw [h1], h2⟩
    · simp

theorem literal_ext {w r r' : List Char} {v v' : JVal} (h : literal w v r = some (v', r')) (q : List Char) :
    literal w v (r ++ q) = some (v', r' ++ q) := by
  unfold literal at h ⊢
  split_ifs at h with hw
  simp only [Option.some.injEq, Prod.mk.injEq] at h
  rw [if_pos (hw.trans (List.prefix_append _ _)), List.drop_append_of_le_length hw.length_le, h.1, h.2]

theorem head_ext {l : List Char} (q : List Char) (h : l ≠ []) : (l ++ q).head? = l.head? := by
  cases l with
  | nil => exact absurd rfl h
  | cons a l => rfl

theorem scan_ext_step (C : NumText) (q : List Char) (n : Nat) :
    (∀ l v r, scanVal C n l = some (v, r) → r ≠ [] ∨ v.isNum = false → scanVal C n (l ++ q) = some (v, r ++ q)) ∧
    (∀ l v r, scanArr C n l = some (v, r) → scanArr C n (l ++ q) = some (v, r ++ q) ∧ v.isNum = false) ∧
    (∀ l v r, scanItems C n l = some (v, r) → scanItems C n (l ++ q) = some (v, r ++ q)) ∧
    (∀ l v r, scanObj C n l = some (v, r) → scanObj C n (l ++ q) = some (v, r ++ q) ∧ v.isNum = false) ∧
    (∀ l v r, scanFields C n l = some (v, r) → scanFields C n (l ++ q) = some (v, r ++ q)) := by
  have wne : ∀ {l : List Char} {c r}, skipWs l = c :: r → l ≠ [] := by rintro _ _ _ h rfl; cases h
  induction n with
  | zero =>
    refine ⟨?_, ?_, ?_, ?_, ?_⟩ <;> · intro l v r h; simp [scanVal, scanArr, scanItems, scanObj, scanFields] at h
  | succ n ih =>
    obtain ⟨iV, iA, iI, iO, iF⟩ := ih
    have nonempty : ∀ m l v r, (scanItems C m l = some (v, r) → l ≠ []) := by
      rintro m l v r h rfl
      cases m with
      | zero => simp [scanItems] at h
      | succ m =>
        rw [scanItems] at h
        cases m <;> simp [scanVal] at h
    have nonemptyF : ∀ m l v r, (scanFields C m l = some (v, r) → l ≠ []) := by
      rintro m l v r h rfl
      cases m <;> simp [scanFields] at h
    have wsA : ∀ {l v r}, scanArr C n (skipWs l) = some (v, r) → ∃ c k, skipWs l = c :: k := by
      intro l v r h
      cases hs : skipWs l with
      | nil =>
        rw [hs] at h
        cases n with
        | zero => simp [scanArr] at h
        | succ m =>
          rw [scanArr] at h
          simp only [List.head?_nil, reduceCtorEq, if_false, Option.bind_eq_bind, Option.bind_eq_some_iff] at h
          obtain ⟨y, h1, -⟩ := h
          exact absurd rfl (nonempty m [] y.1 y.2 h1)
      | cons c k => exact ⟨c, k, rfl⟩
    have wsO : ∀ {l v r}, scanObj C n (skipWs l) = some (v, r) → ∃ c k, skipWs l = c :: k := by
      intro l v r h
      cases hs : skipWs l with
      | nil =>
        rw [hs] at h
        cases n with
        | zero => simp [scanObj] at h
        | succ m =>
          rw [scanObj] at h
          simp only [List.head?_nil, reduceCtorEq, if_false, Option.bind_eq_bind, Option.bind_eq_some_iff] at h
          obtain ⟨y, h1, -⟩ := h
          exact absurd rfl (nonemptyF m [] y.1 y.2 h1)
      | cons c k => exact ⟨c, k, rfl⟩
    have ws : ∀ {l c k}, skipWs l = c :: k → skipWs (l ++ q) = skipWs l ++ q := by
      intro l c k h; rw [skipWs_ext h q, h]; rfl
    refine ⟨?_, ?_, ?_, ?_, ?_⟩
    · intro l v r h hr
      cases l with
      | nil => simp [scanVal] at h
      | cons c l =>
        rw [List.cons_append]
        rw [scanVal] at h ⊢
        split_ifs at h ⊢
        · simp only [Option.bind_eq_bind, Option.bind_eq_some_iff, pure, Option.some.injEq, Prod.mk.injEq] at h ⊢
          obtain ⟨⟨s, r'⟩, h1, h2, h3⟩ := h
          exact ⟨_, scanStr_ext h1 q, h2, by simp only at h3 ⊢; rw [h3]⟩
        · obtain ⟨a, k, hk⟩ := wsA h
          rw [ws hk]; exact (iA _ _ _ h).1
        · obtain ⟨a, k, hk⟩ := wsO h
          rw [ws hk]; exact (iO _ _ _ h).1
        · exact literal_ext h q
        · exact literal_ext h q
        · exact literal_ext h q
        · unfold scanNum at h ⊢
          simp only [Option.bind_eq_bind, Option.bind_eq_some_iff, pure, Option.some.injEq, Prod.mk.injEq] at h ⊢
          obtain ⟨a, h1, h2, h3⟩ := h
          have hne : (c :: l).dropWhile isNumChar ≠ [] := by
            rw [h3]
            rcases hr with hr | hr
            · exact hr
            · rw [← h2] at hr; simp [JVal.isNum] at hr
          obtain ⟨t1, t2⟩ := takeWhile_ext hne q
          rw [List.cons_append] at t1 t2
          exact ⟨a, by rw [t1]; exact h1, h2, by rw [t2, h3]⟩
    · intro l v r h
      rw [scanArr] at h ⊢
      split_ifs at h with h0
      · simp only [Option.some.injEq, Prod.mk.injEq] at h
        cases l with
        | nil => simp at h0
        | cons a l =>
          rw [if_pos (by simpa using h0)]
          refine ⟨by simp only [List.cons_append, List.tail_cons]; rw [← h.1, ← h.2]; rfl, by rw [← h.1]; rfl⟩
      · simp only [Option.bind_eq_bind, Option.bind_eq_some_iff, pure, Option.some.injEq, Prod.mk.injEq] at h
        obtain ⟨⟨vs, r'⟩, h1, h2, h3⟩ := h
        rw [head_ext q (nonempty _ _ _ _ h1), if_neg h0, iI _ _ _ h1]
        exact ⟨by rw [← h2, ← h3]; rfl, by rw [← h2]; rfl⟩
    · intro l v r h
      rw [scanItems] at h ⊢
      simp only [Option.bind_eq_bind, Option.bind_eq_some_iff] at h ⊢
      obtain ⟨⟨y, r1⟩, h1, h2⟩ := h
      dsimp only at h2
      cases hs : skipWs r1 with
      | nil => rw [hs] at h2; cases h2
      | cons c r2 =>
        refine ⟨_, iV _ _ _ h1 (Or.inl (wne hs)), ?_⟩
        rw [hs] at h2
        dsimp only at h2 ⊢
        rw [skipWs_ext hs q]
        dsimp only
        split_ifs at h2 ⊢
        · simp only [pure, Option.some.injEq, Prod.mk.injEq] at h2 ⊢
          exact ⟨h2.1, by rw [h2.2]⟩
        · simp only [Option.bind_eq_some_iff, pure, Option.some.injEq, Prod.mk.injEq] at h2 ⊢
          obtain ⟨⟨z, r3⟩, k1, k2, k3⟩ := h2
          cases hs2 : skipWs r2 with
          | nil => rw [hs2] at k1; exact absurd rfl (nonempty _ _ _ _ k1)
          | cons a k =>
            rw [ws hs2]
            exact ⟨_, iI _ _ _ k1, k2, by simp only at k3 ⊢; rw [k3]⟩
    · intro l v r h
      rw [scanObj] at h ⊢
      split_ifs at h with h0
      · simp only [Option.some.injEq, Prod.mk.injEq] at h
        cases l with
        | nil => simp at h0
        | cons a l =>
          rw [if_pos (by simpa using h0)]
          refine ⟨by simp only [List.cons_append, List.tail_cons]; rw [← h.1, ← h.2]; rfl, by rw [← h.1]; rfl⟩
      · simp only [Option.bind_eq_bind, Option.bind_eq_some_iff, pure, Option.some.injEq, Prod.mk.injEq] at h
        obtain ⟨⟨vs, r'⟩, h1, h2, h3⟩ := h
        rw [head_ext q (nonemptyF _ _ _ _ h1), if_neg h0, iF _ _ _ h1]
        exact ⟨by rw [← h2, ← h3]; rfl, by rw [← h2]; rfl⟩
    · intro l v r h
      cases l with
      | nil => simp [scanFields] at h
      | cons c l =>
        rw [List.cons_append]
        rw [scanFields] at h ⊢
        split_ifs at h ⊢
        simp only [Option.bind_eq_bind, Option.bind_eq_some_iff] at h ⊢
        obtain ⟨⟨k, r1⟩, h1, h2⟩ := h
        refine ⟨_, scanStr_ext h1 q, ?_⟩
        dsimp only at h2 ⊢
        cases hs : skipWs r1 with
        | nil => rw [hs] at h2; cases h2
        | cons c r2 =>
          rw [hs] at h2
          rw [skipWs_ext hs q]
          dsimp only at h2 ⊢
          split_ifs at h2 ⊢
          simp only [Option.bind_eq_some_iff] at h2 ⊢
          obtain ⟨⟨y, r3⟩, k1, k2⟩ := h2
          dsimp only at k2
          cases hs2 : skipWs r2 with
          | nil => rw [hs2] at k1; cases n <;> simp [scanVal] at k1
          | cons a k =>
            rw [ws hs2]
            cases hs3 : skipWs r3 with
            | nil => rw [hs3] at k2; cases k2
            | cons c r4 =>
              refine ⟨_, iV _ _ _ k1 (Or.inl (wne hs3)), ?_⟩
              rw [hs3] at k2
              dsimp only at k2 ⊢
              rw [skipWs_ext hs3 q]
              dsimp only
              split_ifs at k2 ⊢
              · simp only [pure, Option.some.injEq, Prod.mk.injEq] at k2 ⊢
                exact ⟨k2.1, by rw [k2.2]⟩
              · simp only [Option.bind_eq_some_iff, pure, Option.some.injEq, Prod.mk.injEq] at k2 ⊢
                obtain ⟨⟨z, r5⟩, m1, m2, m3⟩ := k2
                cases hs4 : skipWs r4 with
                | nil => rw [hs4] at m1; exact absurd rfl (nonemptyF _ _ _ _ m1)
                | cons a k =>
                  rw [ws hs4]
                  exact ⟨_, iF _ _ _ m1, m2, by simp only at m3 ⊢; rw [m3]⟩

theorem scanVal_ext {C : NumText} {n : Nat} {l r : List Char} {v : JVal} (h : scanVal C n l = some (v, r)) (hr : r ≠ [] ∨ v.isNum = false)
    (q : List Char) : scanVal C n (l ++ q) = some (v, r ++ q) := (scan_ext_step C q n).1 l v r h hr

/-! ## What was written is read back -/

theorem dictOf_distinct {ps : List (String × JVal)} (h : (ps.map Prod.fst).Nodup) : dictOf ps = ps := by
  have key : ∀ (l d : List (String × JVal)), ((d ++ l).map Prod.fst).Nodup → l.foldl (fun d p => dictSet d p.1 p.2) d = d ++ l := by
    intro l
    induction l with
    | nil => simp
    | cons a l ih =>
      intro d hd
      rw [List.foldl_cons, dictSet_new, ih]
      · simp
      · simpa using hd
      · rw [List.map_append, List.map_cons, List.nodup_append] at hd
        intro hm
        exact hd.2.2 _ hm _ (by simp) rfl
  exact key ps [] (by simpa using h)

theorem isNumChar_facts {c : Char} (h : isNumChar c = true) :
    c ≠ '"' ∧ c ≠ '[' ∧ c ≠ '{' ∧ c ≠ 'n' ∧ c ≠ 't' ∧ c ≠ 'f' ∧ c ≠ ']' ∧ c ≠ '}' ∧
      (c == ' ' || c == '\t' || c == '\n' || c == '\r') = false := by
  refine ⟨?_, ?_, ?_, ?_, ?_, ?_, ?_, ?_, ?_⟩
  all_goals first
    | (rintro rfl; revert h; decide)
    | skip
  rw [Bool.eq_false_iff]
  intro hc
  simp only [Bool.or_eq_true, beq_iff_eq] at hc
  rcases hc with ((rfl | rfl) | rfl) | rfl <;> · revert h; decide

theorem text_ne (C : NumText) (q : ℚ) : ∃ c l, C.text q = c :: l ∧ isNumChar c = true := by
  cases h : C.text q with
  | nil => have := C.read_text q; rw [h, C.read_nil] at this; cases this
  | cons c l => exact ⟨c, l, rfl, C.chars q c (by rw [h]; simp)⟩

/-- The first character of a text is neither blank nor a closing bracket. -/
theorem dump_head (C : NumText) (v : JVal) : ∃ c l, dump C v = c :: l ∧ c ≠ ']' ∧ c ≠ '}' ∧
    (c == ' ' || c == '\t' || c == '\n' || c == '\r') = false := by
  match v with
  | .null => rw [dump]; exact ⟨_, _, rfl, by decide, by decide, by decide⟩
  | .bool true => rw [dump]; exact ⟨_, _, rfl, by decide, by decide, by decide⟩
  | .bool false => rw [dump]; exact ⟨_, _, rfl, by decide, by decide, by decide⟩
  | .num q =>
    rw [dump]
    obtain ⟨c, l, h1, h2⟩ := text_ne C q
    have := isNumChar_facts h2
    exact ⟨c, l, h1, this.2.2.2.2.2.2.1, this.2.2.2.2.2.2.2.1, this.2.2.2.2.2.2.2.2⟩
  | .str s => rw [dump, dumpStr]; exact ⟨_, _, rfl, by decide, by decide, by decide⟩
  | .arr [] => rw [dump]; exact ⟨_, _, rfl, by decide, by decide, by decide⟩
  | .arr (v :: vs) => rw [dump]; exact ⟨_, _, rfl, by decide, by decide, by decide⟩
  | .obj [] => rw [dump]; exact ⟨_, _, rfl, by decide, by decide, by decide⟩
  | .obj ((k, v) :: fs) => rw [dump]; exact ⟨_, _, rfl, by decide, by decide, by decide⟩

theorem skipWs_dump (C : NumText) (v : JVal) (r : List Char) : skipWs (dump C v ++ r) = dump C v ++ r := by
  obtain ⟨c, l, h, -, -, hw⟩ := dump_head C v
  rw [h]; exact skipWs_of_not _ hw

theorem dumpStr_length (s : String) : s.toList.length + 2 ≤ (dumpStr s).length := by
  have key : ∀ l : List Char, l.length ≤ (l.flatMap escapeChar).length := by
    intro l
    induction l with
    | nil => simp
    | cons c l ih =>
      have := escapeChar_length c
      simp only [List.length_cons, List.flatMap_cons, List.length_append]
      omega
  have := key s.toList
  simp only [dumpStr, List.length_append, List.length_cons, List.length_nil]
  omega

theorem dumpItems_pos (C : NumText) (vs : List JVal) : ∃ c l, dumpItems C vs = c :: l ∧ isNumChar c = false := by
  cases vs <;> · rw [dumpItems]; exact ⟨_, _, rfl, by decide⟩

theorem dumpFields_pos (C : NumText) (fs : List (String × JVal)) : ∃ c l, dumpFields C fs = c :: l ∧ isNumChar c = false := by
  cases fs with
  | nil => rw [dumpFields]; exact ⟨_, _, rfl, by decide⟩
  | cons p fs => obtain ⟨k, v⟩ := p; rw [dumpFields]; exact ⟨_, _, rfl, by decide⟩

theorem scanNum_text (C : NumText) (q : ℚ) (r : List Char) (hr : ∀ c l, r = c :: l → isNumChar c = false) :
    scanNum C (C.text q ++ r) = some (.num q, r) := by
  have hall : ∀ c ∈ C.text q, isNumChar c = true := C.chars q
  have h1 : (C.text q ++ r).takeWhile isNumChar = C.text q := by
    rw [List.takeWhile_append_of_pos hall]
    cases r with
    | nil => simp
    | cons c l => rw [List.takeWhile_cons, if_neg (by rw [hr c l rfl]; simp)]; simp
  have h2 : (C.text q ++ r).dropWhile isNumChar = r := by
    rw [List.dropWhile_append_of_pos hall]
    cases r with
    | nil => simp
    | cons c l => rw [List.dropWhile_cons, if_neg (by rw [hr c l rfl]; simp)]
  unfold scanNum
  rw [h1, h2, C.read_text]
  rfl

theorem scanStr_dumpStr (s : String) (r : List Char) {n : Nat} (hn : (dumpStr s).length ≤ n + 1) :
    ∃ l, dumpStr s ++ r = '"' :: l ∧ scanStr n l = some (s.toList, r) := by
  refine ⟨s.toList.flatMap escapeChar ++ '"' :: r, by simp [dumpStr], ?_⟩
  have := dumpStr_length s
  exact scanStr_escaped _ _ _ (by omega)

mutual
theorem scan_dump (C : NumText) (v : JVal) (hv : Distinct v) (r : List Char) (hr : v.isNum = true → ∀ c l, r = c :: l → isNumChar c = false)
    (n : Nat) (hn : 3 * (dump C v).length ≤ n) : scanVal C n (dump C v ++ r) = some (v, r) := by
  have hpos : 1 ≤ (dump C v).length := by obtain ⟨c, l, h, -⟩ := dump_head C v; rw [h]; simp
  obtain ⟨n, rfl⟩ : ∃ k, n = k + 1 := ⟨n - 1, by omega⟩
  match hvv : v, hv, hr, hn with
  | .null, _, _, _ => rw [dump]; simp [scanVal, literal]
  | .bool true, _, _, _ => rw [dump]; simp [scanVal, literal]
  | .bool false, _, _, _ => rw [dump]; simp [scanVal, literal]
  | .num q, _, hr, _ =>
    rw [dump]
    obtain ⟨c, l, h1, h2⟩ := text_ne C q
    have hf := isNumChar_facts h2
    rw [h1, List.cons_append, scanVal, if_neg hf.1, if_neg hf.2.1, if_neg hf.2.2.1, if_neg hf.2.2.2.1, if_neg hf.2.2.2.2.1, if_neg hf.2.2.2.2.2.1,
      ← List.cons_append, ← h1]
    exact scanNum_text C q r (hr rfl)
  | .str s, _, _, hn =>
    rw [dump] at hn ⊢
    obtain ⟨l, h1, h2⟩ := scanStr_dumpStr s r (n := n) (by omega)
    rw [h1, scanVal, if_pos rfl, h2]
    simp
  | .arr [], _, _, hn =>
    rw [dump] at hn ⊢
    simp only [List.length_cons, List.length_nil] at hn
    obtain ⟨n, rfl⟩ : ∃ k, n = k + 1 := ⟨n - 1, by omega⟩
    simp [scanVal, scanArr, skipWs_of_not]
  | .arr (v :: vs), hv, _, hn =>
    rw [dump] at hn ⊢
    simp only [List.cons_append, List.length_cons, List.length_append] at hn
    obtain ⟨n, rfl⟩ : ∃ k, n = k + 1 := ⟨n - 1, by omega⟩
    have hd : Distinct v ∧ allDistinct vs := by rw [Distinct, allDistinct] at hv; exact hv
    have h := scan_items C v vs hd.1 hd.2 r n (by omega)
    rw [List.cons_append, List.cons_append, scanVal, if_neg (by decide), if_pos rfl, List.append_assoc, skipWs_dump, scanArr]
    obtain ⟨c, l, e, hc, -, -⟩ := dump_head C v
    rw [if_neg (by rw [e]; simpa using hc), ← List.append_assoc, h]
    rfl
  | .obj [], _, _, hn =>
    rw [dump] at hn ⊢
    simp only [List.length_cons, List.length_nil] at hn
    obtain ⟨n, rfl⟩ : ∃ k, n = k + 1 := ⟨n - 1, by omega⟩
    simp [scanVal, scanObj, skipWs_of_not]
  | .obj ((k, v) :: fs), hv, _, hn =>
    rw [dump] at hn ⊢
    simp only [List.cons_append, List.length_cons, List.length_append] at hn
    obtain ⟨n, rfl⟩ : ∃ k, n = k + 1 := ⟨n - 1, by omega⟩
    have hd : (((k, v) :: fs).map Prod.fst).Nodup ∧ Distinct v ∧ fieldsDistinct fs := by rw [Distinct, fieldsDistinct] at hv; exact hv
    have h := scan_fields C k v fs hd.2.1 hd.2.2 r n (by omega)
    have e0 : ∀ l, skipWs (dumpStr k ++ l) = dumpStr k ++ l := fun l => by rw [dumpStr]; exact skipWs_of_not _ (by decide)
    simp only [List.cons_append, List.append_assoc] at h ⊢
    rw [scanVal, if_neg (by decide), if_neg (by decide), if_pos rfl, e0, scanObj, if_neg (by rw [dumpStr]; simp), h]
    simp only [Option.bind_eq_bind, Option.bind_some, pure]
    rw [dictOf_distinct hd.1]
termination_by sizeOf v
decreasing_by all_goals first | (subst hvv; simp; omega) | (simp; omega) | (simp)

theorem scan_items (C : NumText) (v : JVal) (vs : List JVal) (hv : Distinct v) (hvs : allDistinct vs) (r : List Char) (n : Nat)
    (hn : 3 * ((dump C v).length + (dumpItems C vs).length) ≤ n) : scanItems C n (dump C v ++ dumpItems C vs ++ r) = some (v :: vs, r) := by
  obtain ⟨c0, l0, e0, hnum⟩ := dumpItems_pos C vs
  have hpos : 1 ≤ (dumpItems C vs).length := by rw [e0]; simp
  obtain ⟨n, rfl⟩ : ∃ k, n = k + 1 := ⟨n - 1, by omega⟩
  have h := scan_dump C v hv (dumpItems C vs ++ r) (fun _ c l h => by rw [e0, List.cons_append, List.cons.injEq] at h; rw [← h.1]; exact hnum)
    n (by omega)
  rw [scanItems, List.append_assoc, h]
  simp only [Option.bind_eq_bind, Option.bind_some]
  match hvv : vs, hvs, hn with
  | [], _, _ => rw [dumpItems]; simp [skipWs_of_not]
  | w :: ws, hvs, hn =>
    have hd : Distinct w ∧ allDistinct ws := by rw [allDistinct] at hvs; exact hvs
    rw [dumpItems] at hn ⊢
    simp only [List.cons_append, List.length_cons, List.length_append] at hn
    have h2 := scan_items C w ws hd.1 hd.2 r n (by omega)
    simp only [List.cons_append, List.append_assoc] at h2 ⊢
    rw [skipWs_of_not _ (by decide)]
    simp only [skipWs_blank, skipWs_dump, h2]
    rfl
termination_by sizeOf v + sizeOf vs + 1
decreasing_by all_goals first | (subst hvv; simp; omega) | (simp; omega) | (simp)

theorem scan_fields (C : NumText) (k : String) (v : JVal) (fs : List (String × JVal)) (hv : Distinct v) (hfs : fieldsDistinct fs) (r : List Char)
    (n : Nat) (hn : 3 * ((dumpStr k).length + (dump C v).length + (dumpFields C fs).length) ≤ n) :
    scanFields C n (dumpStr k ++ ':' :: ' ' :: dump C v ++ dumpFields C fs ++ r) = some ((k, v) :: fs, r) := by
  obtain ⟨c0, l0, e0, hnum⟩ := dumpFields_pos C fs
  have hpos : 1 ≤ (dumpFields C fs).length := by rw [e0]; simp
  have hk := dumpStr_length k
  obtain ⟨n, rfl⟩ : ∃ k, n = k + 1 := ⟨n - 1, by omega⟩
  have h := scan_dump C v hv (dumpFields C fs ++ r) (fun _ c l h => by rw [e0, List.cons_append, List.cons.injEq] at h; rw [← h.1]; exact hnum)
    n (by omega)
  simp only [List.cons_append, List.append_assoc]
  obtain ⟨l, h1, h2⟩ := scanStr_dumpStr k (':' :: ' ' :: (dump C v ++ (dumpFields C fs ++ r))) (n := n) (by omega)
  rw [h1, scanFields, if_pos rfl, h2]
  simp only [Option.bind_eq_bind, Option.bind_some]
  rw [skipWs_of_not _ (by decide)]
  simp only [if_true, skipWs_blank, skipWs_dump, h, Option.bind_some, String.ofList_toList]
  match hvv : fs, hfs, hn with
  | [], _, _ => rw [dumpFields]; simp [skipWs_of_not]
  | (k', w) :: ws, hfs, hn =>
    have hd : Distinct w ∧ fieldsDistinct ws := by rw [fieldsDistinct] at hfs; exact hfs
    rw [dumpFields] at hn ⊢
    simp only [List.cons_append, List.length_cons, List.length_append] at hn
    have h2 := scan_fields C k' w ws hd.1 hd.2 r n (by omega)
    have e0 : ∀ l, skipWs (dumpStr k' ++ l) = dumpStr k' ++ l := fun l => by rw [dumpStr]; exact skipWs_of_not _ (by decide)
    simp only [List.cons_append, List.append_assoc] at h2 ⊢
    rw [skipWs_of_not _ (by decide)]
    simp only [skipWs_blank, e0, h2]
    rfl
termination_by sizeOf v + sizeOf fs + 1
decreasing_by all_goals first | (subst hvv; simp; omega) | (simp; omega) | (simp)
end

end PyCTBN
