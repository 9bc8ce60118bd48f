import Verif.Props.JsonText

/-!
# Written files do not depend on the platform (C214)

`open(path, 'w')` and `open(path)` (json_exporter.py line 44, structure_estimator.py line 105, json_importer.py line 109) name no encoding
and no treatment of line ends: both are those of the platform.
-/

namespace PyCTBN
open Spec

/-- The characters `' '..'~'`. -/
def Spec.Printable (l : List Char) : Prop := ∀ c ∈ l, 32 ≤ c.toNat ∧ c.toNat ≤ 126

/-- The bytes of such characters in ASCII. -/
def Spec.asciiBytes (l : List Char) : ByteArray := (l.map (fun c => UInt8.ofNat c.toNat)).toByteArray

/-- How a platform turns the text written to a file into bytes and the bytes of a file into text: its default encoding and its treatment
of line ends.  All that is assumed is that it agrees with ASCII on `' '..'~'`, as UTF-8, Latin-1, the code pages of Windows, with or
without translation of line ends, do. -/
structure Spec.Platform where
  /-- the bytes written for a text; `none`: `UnicodeEncodeError` -/
  write : List Char → Option ByteArray
  /-- the text read for bytes; `none`: `UnicodeDecodeError` -/
  read : ByteArray → Option (List Char)
  write_ascii : ∀ l, Printable l → write l = some (asciiBytes l)
  read_ascii : ∀ l, Printable l → read (asciiBytes l) = some l

/-! ## The text of a value is printable -/

theorem printable_append {l m : List Char} : Printable (l ++ m) ↔ Printable l ∧ Printable m := by
  simp only [Printable, List.mem_append, or_imp, forall_and]; tauto

theorem printable_cons {c : Char} {l : List Char} : Printable (c :: l) ↔ (32 ≤ c.toNat ∧ c.toNat ≤ 126) ∧ Printable l := by
  simp only [Printable, List.mem_cons, or_imp, forall_and, forall_eq]; tauto

theorem hexDigit_printable (n : Nat) : 32 ≤ (hexDigit (n % 16)).toNat ∧ (hexDigit (n % 16)).toNat ≤ 126 := by
  have h : n % 16 < 16 := Nat.mod_lt _ (by norm_num)
  generalize n % 16 = d at h
  interval_cases d <;> decide

theorem hexEscape_printable (n : Nat) : Printable (hexEscape n) := by
  intro c hc
  simp only [hexEscape, List.mem_cons, List.not_mem_nil, or_false] at hc
  rcases hc with rfl | rfl | rfl | rfl | rfl | rfl
  · decide
  · decide
  all_goals exact hexDigit_printable _

theorem escapeChar_printable (c : Char) : Printable (escapeChar c) := by
  unfold escapeChar
  split_ifs with _ _ _ _ _ _ _ h
  · intro d hd; simp at hd; rcases hd with rfl | rfl <;> decide
  · intro d hd; simp at hd; subst hd; decide
  · intro d hd; simp at hd; rcases hd with rfl | rfl <;> decide
  · intro d hd; simp at hd; rcases hd with rfl | rfl <;> decide
  · intro d hd; simp at hd; rcases hd with rfl | rfl <;> decide
  · intro d hd; simp at hd; rcases hd with rfl | rfl <;> decide
  · intro d hd; simp at hd; rcases hd with rfl | rfl <;> decide
  · intro d hd; simp at hd; subst hd; exact h
  · exact hexEscape_printable _
  · exact printable_append.2 ⟨hexEscape_printable _, hexEscape_printable _⟩

theorem dumpStr_printable (s : String) : Printable (dumpStr s) := by
  unfold dumpStr
  rw [List.cons_append, printable_cons, printable_append]
  refine ⟨by decide, ?_, by intro d hd; simp at hd; subst hd; decide⟩
  intro d hd
  obtain ⟨c, -, hc⟩ := List.mem_flatMap.1 hd
  exact escapeChar_printable c d hc

theorem numChar_printable {c : Char} (h : isNumChar c = true) : 32 ≤ c.toNat ∧ c.toNat ≤ 126 := by
  simp only [isNumChar, Bool.or_eq_true, beq_iff_eq] at h
  rcases h with ((((h | rfl) | rfl) | rfl) | rfl) | rfl
  · simp only [Char.isDigit, Bool.and_eq_true, decide_eq_true_eq, ge_iff_le, UInt32.le_iff_toNat_le] at h
    exact ⟨le_trans (by decide) h.1, le_trans h.2 (by decide)⟩
  all_goals decide

mutual
theorem dump_printable (C : NumText) : ∀ v : JVal, Printable (dump C v)
  | .null => by rw [dump]; intro d hd; simp at hd; rcases hd with rfl | rfl | rfl <;> decide
  | .bool true => by rw [dump]; intro d hd; simp at hd; rcases hd with rfl | rfl | rfl | rfl <;> decide
  | .bool false => by rw [dump]; intro d hd; simp at hd; rcases hd with rfl | rfl | rfl | rfl | rfl <;> decide
  | .num q => by rw [dump]; exact fun c hc => numChar_printable (C.chars q c hc)
  | .str s => by rw [dump]; exact dumpStr_printable s
  | .arr [] => by rw [dump]; intro d hd; simp at hd; rcases hd with rfl | rfl <;> decide
  | .arr (v :: vs) => by
    rw [dump, List.cons_append, printable_cons, printable_append]
    exact ⟨by decide, dump_printable C v, dumpItems_printable C vs⟩
  | .obj [] => by rw [dump]; intro d hd; simp at hd; rcases hd with rfl | rfl <;> decide
  | .obj ((k, v) :: fs) => by
    rw [dump]
    simp only [List.cons_append, List.append_assoc, printable_cons, printable_append]
    exact ⟨by decide, dumpStr_printable k, by decide, by decide, dump_printable C v, dumpFields_printable C fs⟩
theorem dumpItems_printable (C : NumText) : ∀ vs : List JVal, Printable (dumpItems C vs)
  | [] => by rw [dumpItems]; intro d hd; simp at hd; subst hd; decide
  | v :: vs => by
    rw [dumpItems]
    simp only [List.cons_append, printable_cons, printable_append]
    exact ⟨by decide, by decide, dump_printable C v, dumpItems_printable C vs⟩
theorem dumpFields_printable (C : NumText) : ∀ fs : List (String × JVal), Printable (dumpFields C fs)
  | [] => by rw [dumpFields]; intro d hd; simp at hd; subst hd; decide
  | (k, v) :: fs => by
    rw [dumpFields]
    simp only [List.cons_append, List.append_assoc, printable_cons, printable_append]
    exact ⟨by decide, by decide, dumpStr_printable k, by decide, by decide, dump_printable C v, dumpFields_printable C fs⟩
end

/-- What is written on one platform reads, on any other, as it was. -/
theorem moved_text (C : NumText) {v : JVal} (hv : Distinct v) (P Q : Platform) :
    P.write (dump C v) = Q.write (dump C v) ∧ (P.write (dump C v)).isSome ∧
      ∀ b, P.write (dump C v) = some b → ∃ text, Q.read b = some text ∧ load C text = .ok v := by
  rw [P.write_ascii _ (dump_printable C v), Q.write_ascii _ (dump_printable C v)]
  refine ⟨rfl, rfl, ?_⟩
  rintro b ⟨⟩
  exact ⟨_, Q.read_ascii _ (dump_printable C v), text_round_trip C hv⟩

/-- **C214.**  Whatever the labels: writing an exported file or saved results never fails because of the platform's encoding, every
platform writes the same bytes, and reading these bytes on any platform gives the exported value, respectively the estimated edges. -/
theorem files_are_portable (C : NumText) (P Q : Platform) :
    (∀ {x : JsonExporter} {enc : ℚ → ℚ} {file : JVal}, (∀ f ∈ x.trajectories, f.names.Nodup) → x.outFile enc = .ok file →
      ∃ b, P.write (dump C file) = some b ∧ Q.write (dump C file) = some b ∧ ∃ text, Q.read b = some text ∧ load C text = .ok file) ∧
    (∀ {e e' : Estimator} {es : Finset Edge}, After e es e' →
      ∃ b, P.write (dump C (resultsJson e'.savedResults.1 e'.savedResults.2)) = some b ∧
        Q.write (dump C (resultsJson e'.savedResults.1 e'.savedResults.2)) = some b ∧
        ∃ text v nodes links, Q.read b = some text ∧ load C text = .ok v ∧ readResults v = .ok (nodes, links) ∧
          links.Nodup ∧ ∀ x, x ∈ links ↔ x ∈ es) := by
  constructor
  · intro x enc file hf h
    obtain ⟨h1, h2, h3⟩ := moved_text C (outFile_distinct hf h).1 P Q
    obtain ⟨b, hb⟩ := Option.isSome_iff_exists.1 h2
    exact ⟨b, hb, h1 ▸ hb, h3 b hb⟩
  · intro e e' es h
    obtain ⟨h1, h2, h3⟩ := moved_text C (resultsJson_distinct e'.savedResults.1 e'.savedResults.2) P Q
    obtain ⟨b, hb⟩ := Option.isSome_iff_exists.1 h2
    obtain ⟨text, ht, hl⟩ := h3 b hb
    obtain ⟨v, nodes, links, k1, k2, k3⟩ := saved_results_reload C h
    rw [text_round_trip C (resultsJson_distinct _ _)] at k1
    cases k1
    exact ⟨b, hb, h1 ▸ hb, text, _, nodes, links, ht, hl, k2, k3⟩

/-! ## Concrete platforms -/

theorem utf8_printable {l : List Char} (h : Printable l) : l.utf8Encode = asciiBytes l := by
  rw [List.utf8Encode, asciiBytes]
  congr 1
  induction l with
  | nil => rfl
  | cons c l ih =>
    rw [printable_cons] at h
    rw [List.flatMap_cons, ih h.2, List.map_cons]
    have : c.val.toNat ≤ 127 := by have := h.1.2; rw [Char.toNat] at this; omega
    rw [String.utf8EncodeChar, if_pos this]; rfl

/-- UTF-8 without translation of line ends. -/
noncomputable def utf8Platform : Platform where
  write l := some l.utf8Encode
  read b := (b.utf8Decode?).map Array.toList
  write_ascii l h := by rw [utf8_printable h]
  read_ascii l h := by rw [← utf8_printable h, List.utf8Decode?_utf8Encode]; simp

theorem no_line_ends {l : List Char} (h : Printable l) : l.flatMap (fun c => if c = '\n' then ['\r', '\n'] else [c]) = l := by
  induction l with
  | nil => rfl
  | cons c l ih =>
    rw [printable_cons] at h
    have : c ≠ '\n' := by rintro rfl; exact absurd h.1.1 (by decide)
    rw [List.flatMap_cons, ih h.2, if_neg this]
    rfl

/-- Latin-1, line ends written as on Windows; `\r` dropped when reading. -/
def latin1Platform : Platform where
  write l := if l.all (fun c => c.toNat < 256) then
      some (asciiBytes (l.flatMap (fun c => if c = '\n' then ['\r', '\n'] else [c]))) else none
  read b := some ((b.data.toList.map (fun u => Char.ofNat u.toNat)).filter (· ≠ '\r'))
  write_ascii l h := by
    rw [no_line_ends h, if_pos]
    rw [List.all_eq_true]
    intro c hc
    have := (h c hc).2
    simp; omega
  read_ascii l h := by
    have h1 : (asciiBytes l).data.toList = l.map (fun c => UInt8.ofNat c.toNat) := by
      simp [asciiBytes]
    rw [h1, List.map_map]
    congr 1
    have h2 : l.map ((fun u : UInt8 => Char.ofNat u.toNat) ∘ fun c => UInt8.ofNat c.toNat) = l := by
      conv_rhs => rw [← List.map_id l]
      apply List.map_congr_left
      intro c hc
      have := (h c hc).2
      show Char.ofNat (UInt8.ofNat c.toNat).toNat = c
      rw [UInt8.toNat_ofNat_of_lt' (by norm_num; omega), Char.ofNat_toNat]
    rw [h2, List.filter_eq_self]
    intro c hc
    have := (h c hc).1
    simp only [ne_eq, decide_eq_true_eq]
    rintro rfl
    exact absurd this (by decide)

/-- The two platforms differ on a label with an accent; the text of a file with this label is nevertheless the same on both. -/
example : utf8Platform.write ['é'] ≠ latin1Platform.write ['é'] ∧
    utf8Platform.write (dump digitsText (resultsJson ["é"] [])) = latin1Platform.write (dump digitsText (resultsJson ["é"] [])) := by
  refine ⟨?_, (moved_text digitsText (resultsJson_distinct ["é"] []) _ _).1⟩
  intro h
  have h' := congrArg (Option.map ByteArray.size) h
  revert h'
  decide +kernel

end PyCTBN
