import Verif.Props.Possible
import Verif.Props.LonePair

/-! C215 on a concrete network: two free variables. -/

namespace PyCTBN
open Spec
namespace Demo

/-- The hypothesis on the rates holds. -/
theorem lone_exit : ∀ vals, loneCtbn.InRange vals → ∀ v ∈ loneCtbn.vars, 0 < loneCtbn.exitRate vals v := by
  intro vals hr v hv
  obtain ⟨x, hx, y, hy, rfl⟩ := lone_inRange hr
  have hall : ∀ x < 2, ∀ y < 2, ∀ v ∈ ["X", "Y"], 0 < loneCtbn.exitRate [x, y] v := by decide +kernel
  exact hall x hx y hy v hv

/-- A history of two moves at the same recorded time. -/
theorem lone_history : PossibleHistory loneCtbn [(0, [0, 0]), (1 / 2, [0, 1]), (1 / 2, [1, 1])] where
  first := by decide
  stamps := by
    intro r hr
    simp only [List.mem_cons, List.not_mem_nil, or_false] at hr
    rcases hr with rfl | rfl | rfl
    · exact ⟨0, by norm_num⟩
    · exact ⟨5000, by norm_num⟩
    · exact ⟨5000, by norm_num⟩
  ordered := by decide +kernel
  moves := by
    intro n a b ha hb
    match n with
    | 0 =>
      simp only [List.getElem?_cons_zero, List.getElem?_cons_succ, Option.some.injEq] at ha hb
      subst ha; subst hb
      exact ⟨1, "Y", 1, by decide, by decide, by decide, by decide +kernel, by decide⟩
    | 1 =>
      simp only [List.getElem?_cons_zero, List.getElem?_cons_succ, Option.some.injEq] at ha hb
      subst ha; subst hb
      exact ⟨0, "X", 1, by decide, by decide, by decide, by decide +kernel, by decide⟩
    | n + 2 => simp at hb

example : ∃ draws : SampleDraws, (∀ n i, 0 < draws.exp n i) ∧
    Samples loneNet (-1) (2 : Nat) draws [(0, [0, 0]), (1 / 2, [0, 1]), (1 / 2, [-1, -1])] := by
  obtain ⟨h1, h2⟩ := possible_samples lone_describes lone_ok lone_exit 2 [(0, [0, 0]), (1 / 2, [0, 1]), (1 / 2, [-1, -1])]
  exact h2 (h1.2 ⟨_, lone_history, rfl, by decide +kernel⟩)

/-- A frame in which both variables move at once is sampled with no draws. -/
example : ¬ ∃ draws : SampleDraws, (∀ n i, 0 ≤ draws.exp n i) ∧
    Samples loneNet (-1) (2 : Nat) draws [(0, [0, 0]), (1 / 2, [1, 1]), (1, [-1, -1])] := by
  rw [(possible_samples lone_describes lone_ok lone_exit 2 _).1]
  rintro ⟨h, hh, hlen, he⟩
  match h, hlen with
  | [a, b, c], _ =>
    simp only [recorded, List.dropLast, List.map_cons, List.map_nil, List.getLast?, List.getLast, Option.toList, List.cons_append, List.nil_append,
      List.cons.injEq, Prod.mk.injEq, and_true] at he
    obtain ⟨⟨-, ha⟩, ⟨-, hb⟩, -⟩ := he
    obtain ⟨k, v, y, -, -, -, -, e⟩ := hh.moves 0 a b rfl rfl
    rw [e] at hb
    have hf := hh.first
    simp only [List.getElem?_cons_zero, Option.some.injEq] at hf
    rw [hf] at hb
    match k with
    | 0 => simp [loneCtbn] at hb
    | 1 => simp [loneCtbn] at hb
    | k + 2 => simp [loneCtbn] at hb

/-- With `t_end` the last stamp is one of a time before the end. -/
example : ∃ draws : SampleDraws, (∀ n i, 0 ≤ draws.exp n i) ∧
    Samples loneNet 1 (-1) draws [(0, [0, 0]), (1 / 2, [0, 1]), (1 / 2, [-1, -1])] :=
  (possible_samples_until lone_describes lone_ok lone_exit one_pos _).2
    ⟨_, (1 / 2, [1, 1]), 1 / 2, lone_history, rfl, by norm_num, by norm_num, round4_four ⟨5000, by norm_num⟩, by decide +kernel⟩

end Demo
end PyCTBN
