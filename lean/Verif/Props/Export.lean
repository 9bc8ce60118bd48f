import Verif.Lemmas.Export
import Verif.Props.TrajGen

/-!
# Export and read-back: C76-C78
-/

namespace PyCTBN
open Spec

/-! ## C76 -/

/-- **C76.**  Two different assignments of the parents of a variable are exported under different keys, whatever the labels. -/
theorem export_keys_distinct (l : Label) (parents : List Label) (hp : parents ≠ []) {u u' : List Nat} (hu : u.length = parents.length)
    (hu' : u'.length = parents.length) {k : String} (h : combKey l parents u = .ok k) (h' : combKey l parents u' = .ok k) : u = u' := by
  unfold combKey at h h'
  have h0 : parents.length ≠ 0 := fun e => hp (List.length_eq_zero_iff.1 e)
  rw [if_pos h0] at h h'
  obtain ⟨k1, a1, a2⟩ := combKeyFrom_chars parents u hu.le
  obtain ⟨k2, b1, b2⟩ := combKeyFrom_chars parents u' hu'.le
  rw [a1] at h
  rw [b1] at h'
  cases h
  cases h'
  exact keyChars_injective parents u u' hu hu' (a2.symm.trans b2)

example : combKey "Z" ["X", "Y"] [1, 12] = .ok "X=1,Y=12" := by decide +kernel

/-- The key of an assignment. -/
def keyOf (l : Label) (parents : List Label) (u : List Nat) : String :=
  if parents = [] then l else String.ofList (keyChars parents u)

theorem combKey_keyOf {l : Label} {parents : List Label} {u : List Nat} (hu : u.length = parents.length) :
    combKey l parents u = .ok (keyOf l parents u) := by
  unfold combKey keyOf
  by_cases hp : parents = []
  · subst hp; rfl
  · rw [if_pos (fun e => hp (List.length_eq_zero_iff.1 e)), if_neg hp]
    obtain ⟨k, h1, h2⟩ := combKeyFrom_chars parents u hu.le
    rw [h1, ← h2]
    simp

theorem keyOf_toList {l : Label} {parents : List Label} (hp : parents ≠ []) (u : List Nat) : (keyOf l parents u).toList = keyChars parents u := by
  unfold keyOf; rw [if_neg hp]; simp

theorem stores_width {cards : List Nat} {Q : List Nat → List (List ℚ)} {s : SetOfCims} (hs : Stores cards Q s) {u : List Nat}
    (hu : u ∈ s.pCombs) : u.length = cards.length := ((hs.mem u).1 hu).length_eq

/-- Without parents there is one, empty, assignment. -/
theorem stores_nil {Q : List Nat → List (List ℚ)} {s : SetOfCims} (hs : Stores [] Q s) : s.pCombs = [[]] := by
  have h0 : [] ∈ s.pCombs := (hs.mem []).2 List.Forall₂.nil
  have hall : ∀ u ∈ s.pCombs, u = [] := fun u hu => List.length_eq_zero_iff.1 (stores_width hs hu)
  have hn := hs.nodup
  cases hc : s.pCombs with
  | nil => rw [hc] at h0; simp at h0
  | cons a t =>
    rw [hc] at hall hn
    have ha := hall a (by simp)
    cases t with
    | nil => rw [ha]
    | cons b t =>
      have hb := hall b (by simp)
      rw [List.nodup_cons] at hn
      exact absurd (by rw [ha, ← hb]; simp) hn.1

/-! ## C78 -/

/-- The look-up made by the exporter: in a set of CIMs that stores `Q`, it finds `Q u` for every assignment. -/
theorem exportCim_finds {cards : List Nat} {Q : List Nat → List (List ℚ)} {s : SetOfCims} (hs : Stores cards Q s) {parents : List Label}
    (hp : parents.length = cards.length) {u : List Nat} (hu : InRangeAssign cards u) : exportCim s parents u = .ok (Q u) := by
  have hlen : u.length = parents.length := by rw [hp]; exact hu.length_eq
  obtain ⟨k, hk⟩ := List.mem_iff_getElem?.1 ((hs.mem u).2 hu)
  have hkl : k < s.cims.length := by rw [hs.len]; exact (List.getElem?_eq_some_iff.1 hk).1
  have hck := List.getElem?_eq_getElem hkl
  have hwidth : ∀ u ∈ s.pCombs, u.length = parents.length := fun u hu => by rw [hp]; exact stores_width hs hu
  unfold exportCim
  rcases Nat.lt_or_ge parents.length 2 with hlt | hge
  · have hf : s.filterCims (parents.map (fun _ => true)) u = .ok s.cims := by
      unfold SetOfCims.filterCims
      rw [if_pos (by simp; omega)]
    rw [hf]
    simp only [Except.bind_ok']
    by_cases h1 : parents.length = 1
    · rw [if_pos h1]
      obtain ⟨x, hx⟩ := List.length_eq_one_iff.1 (hlen.trans h1)
      rw [hx] at hk ⊢
      have := hs.single (by omega) k x hk
      subst this
      rw [pyGet_ok.2 (show [k][0]? = some k from rfl)]
      simp only [Except.bind_ok']
      rw [pyGet_ok.2 hck]
      simp only [Except.bind_ok', Except.pure_eq_ok', Except.ok.injEq]
      exact hs.beside _ _ _ hk hck
    · rw [if_neg h1]
      have hc : cards = [] := List.length_eq_zero_iff.1 (by omega)
      subst hc
      have h2 := stores_nil hs
      have : k = 0 := by rw [hs.len, h2] at hkl; simpa using hkl
      subst this
      rw [pyGet_ok.2 hck]
      simp only [Except.bind_ok', Except.pure_eq_ok', Except.ok.injEq]
      exact hs.beside _ _ _ hk hck
  · have hf : s.filterCims (parents.map (fun _ => true)) u = .ok [s.cims[k]] := filterCims_all hs.len hs.nodup hwidth hge hlen hk hkl
    rw [hf]
    simp only [Except.bind_ok']
    rw [if_neg (by omega)]
    simp only [Except.bind_ok', pyGet, List.getElem?_cons_zero, Except.pure_eq_ok', Except.ok.injEq]
    exact hs.beside _ _ _ hk hck

/-- **C78** (partial: the set of CIMs stores every assignment once, and with a single parent in the order of its states).  The look-up used by the
sampler and the exporter returns exactly the CIM stored for the assignment, for every variable and every in-range assignment.
Missing: generated sets whose first two parents have different cardinalities (`lookup_complete_iff`), and imported sets with one parent whose
keys are in another order (`single_parent_order_matters`). -/
theorem lookup_finds_stored_partial {net : SampleNet} {N : Ctbn} (hD : Describes net N) (hOK : N.OK) {v : Label} (hv : v ∈ N.vars) :
    ∃ s, dictGet net.cims v = .ok s ∧ ∀ (k : Nat) (u : List Nat) (m : Cim), s.pCombs[k]? = some u → s.cims[k]? = some m →
      exportCim s (N.parents v) u = .ok m.cim ∧
      ∀ vals, N.InRange vals → N.parentStates vals v = u → net.cimOf vals v = .ok m.cim := by
  obtain ⟨s, hs, hst⟩ := hD.cims v hv
  refine ⟨s, hs, fun k u m hk hm => ?_⟩
  rw [hst.beside k u m hk hm]
  refine ⟨exportCim_finds hst (by simp [Ctbn.parentCards]) ((hst.mem u).1 (List.mem_of_getElem? hk)), fun vals hr hu => ?_⟩
  rw [cimOf_spec hD hOK hr hv, hu]

/-- **C78 (refuted in general, exact boundary).**  In a set of CIMs over the code's own enumeration of the assignments of at least two parents,
the look-up finds a CIM for every in-range assignment if and only if the first two parents have equally many states; where it does not, it
raises `IndexError`. -/
theorem lookup_complete_iff {p q : Nat} {rest : List Nat} (hpos : ∀ x ∈ p :: q :: rest, 0 < x) {s : SetOfCims}
    (hcombs : s.pCombs = buildPCombs (p :: q :: rest)) (hlen : s.cims.length = s.pCombs.length) {parents : List Label}
    (hp : parents.length = (p :: q :: rest).length) :
    ((∀ u, InRangeAssign (p :: q :: rest) u → ∃ m, exportCim s parents u = .ok m) ↔ p = q) ∧
    ∀ u, InRangeAssign (p :: q :: rest) u → u ∉ s.pCombs → exportCim s parents u = .error .indexError := by
  have hmiss : ∀ u, u.length = parents.length → u ∉ s.pCombs → exportCim s parents u = .error .indexError := by
    intro u hul hu
    have hwidth : ∀ w ∈ s.pCombs, w.length = parents.length := by
      intro w hw; rw [hcombs] at hw; rw [hp]; exact buildPCombs_width hw
    have hf : s.filterCims (parents.map (fun _ => true)) u = .ok [] := by
      rw [filterCims_exact (by rw [hul]; simp [List.map_const'])]
      rw [if_neg (by simp [hp]), if_neg, if_neg]
      · have : s.pCombs.zipIdx.filter (fun x => decide (SetOfCims.maskRow (parents.map (fun _ => true)) x.1 = u)) = [] := by
          rw [List.filter_eq_nil_iff]
          rintro ⟨w, j⟩ hw
          have hj := List.mem_zipIdx_iff_getElem?.1 hw
          simp only at hj
          have hwm := List.mem_of_getElem? hj
          simp only [decide_eq_true_eq]
          intro e
          have : SetOfCims.maskRow (parents.map (fun _ => true)) w = w := by
            unfold SetOfCims.maskRow
            rw [List.filter_eq_self.2]
            · exact List.map_fst_zip (by simp [hwidth w hwm])
            · rintro ⟨a, b⟩ hab
              obtain ⟨_, _, hb⟩ := List.mem_map.1 (List.of_mem_zip hab).2
              exact hb.symm
          rw [this] at e
          exact hu (e ▸ hwm)
        simp only
        rw [this]; rfl
      · rw [hul]; simp [List.map_const']
      · rw [List.any_eq_true]
        rintro ⟨w, hw, h⟩
        simp only [ne_eq, decide_eq_true_eq, List.length_map] at h
        exact h (hwidth w hw)
    unfold exportCim
    rw [hf]
    simp only [Except.bind_ok']
    rw [if_neg (by rw [hp]; simp)]
    rfl
  refine ⟨⟨fun h => ?_, fun h => ?_⟩, fun u hu hn => hmiss u (by rw [hp]; exact hu.length_eq) hn⟩
  · have hall : ∀ u, InRangeAssign (p :: q :: rest) u → u ∈ buildPCombs (p :: q :: rest) := by
      intro u hu
      by_contra hn
      obtain ⟨m, hm⟩ := h u hu
      rw [hmiss u (by rw [hp]; exact hu.length_eq) (hcombs ▸ hn)] at hm
      cases hm
    have hsw : ∀ u, InRangeAssign (p :: q :: rest) u → InRangeAssign (q :: p :: rest) u := by
      intro u hu
      have := hall u hu
      rw [show buildPCombs (p :: q :: rest) = meshRest (q :: p :: rest) from buildPCombs_closed _] at this
      obtain ⟨r, hr⟩ := List.mem_iff_getElem?.1 this
      exact (meshRest_getElem?.1 hr).1
    have hp0 : 0 < p := hpos p (by simp)
    have hq0 : 0 < q := hpos q (by simp)
    have hz := inRange_swap_zeros (rest := rest) (fun x hx => hpos x (by simp [hx]))
    rcases Nat.lt_trichotomy p q with hlt | heq | hgt
    · have := hsw (0 :: p :: rest.map (fun _ => 0)) (List.Forall₂.cons hp0 (List.Forall₂.cons hlt hz))
      cases this with | cons _ h2 => cases h2 with | cons h3 _ => omega
    · exact heq
    · have := hsw (q :: 0 :: rest.map (fun _ => 0)) (List.Forall₂.cons hgt (List.Forall₂.cons hq0 hz))
      cases this with | cons h1 _ => omega
  · have hex : ∀ a b r, p :: q :: rest = a :: b :: r → a = b := by
      rintro a b r e
      simp only [List.cons.injEq] at e
      rw [← e.1, ← e.2.1]; exact h
    have hen := p_combs_enumeration_partial (p :: q :: rest) hex
    intro u hu
    have hk := (hen.1 (rank (p :: q :: rest) u) u).2 ⟨hu, rfl⟩
    rw [← hcombs] at hk
    have hkl : rank (p :: q :: rest) u < s.cims.length := by rw [hlen]; exact (List.getElem?_eq_some_iff.1 hk).1
    have hnd : s.pCombs.Nodup := by
      rw [hcombs, List.nodup_iff_getElem?_ne_getElem?]
      intro a b hab hb heq
      have hbb : (buildPCombs (p :: q :: rest))[b]? = some _ := List.getElem?_eq_getElem hb
      have e1 := (hen.1 b _).1 hbb
      have e2 := (hen.1 a _).1 (heq.trans hbb)
      omega
    have hf := filterCims_all (ps := parents) hlen hnd (by intro w hw; rw [hcombs] at hw; rw [hp]; exact buildPCombs_width hw)
      (by rw [hp]; simp) (by rw [hp]; exact hu.length_eq) hk hkl
    unfold exportCim
    rw [hf]
    simp only [Except.bind_ok']
    rw [if_neg (by rw [hp]; simp)]
    exact ⟨_, rfl⟩

/-- **C78 (refuted for imported files).**  With one parent the look-up goes by position: in a set of CIMs read from a file that lists
`X=1` before `X=0`, it returns the CIM of the other assignment. -/
theorem single_parent_order_matters :
    ∃ s, readNode "Y" [("X=1", [[("0", -1), ("1", 1)], [("0", 2), ("1", -2)]]), ("X=0", [[("0", -3), ("1", 3)], [("0", 4), ("1", -4)]])] = .ok s ∧
      s.pCombs = [[1], [0]] ∧ exportCim s ["X"] [0] = .ok [[-1, 1], [2, -2]] := by
  refine ⟨⟨"Y", [], 0, [[1], [0]], false, [⟨[], [], [[-1, 1], [2, -2]]⟩, ⟨[], [], [[-3, 3], [4, -4]]⟩]⟩, ?_, rfl, ?_⟩ <;> decide +kernel

/-- **C78 (one parent, exact boundary).**  With one parent the look-up goes by position: whatever matrices are stored beside the listed
assignments, every listed assignment is answered with its own matrix if and only if the assignments are listed as `0, 1, 2, …`. -/
theorem single_parent_lookup_iff (P : Label) (states : List Nat) (s : SetOfCims) (hs : s.pCombs = states.map (fun x => [x])) :
    (∀ cims : List Cim, cims.length = states.length → ∀ (k x : Nat) (m : Cim), s.pCombs[k]? = some [x] → cims[k]? = some m →
      exportCim { s with cims := cims } [P] [x] = .ok m.cim) ↔ states = List.range states.length := by
  have hval : ∀ (cims : List Cim) (x : Nat), exportCim { s with cims := cims } [P] [x] = (pyGet cims x).bind (fun c => .ok c.cim) := by
    intro cims x
    unfold exportCim
    have hf : ({ s with cims := cims } : SetOfCims).filterCims ([P].map (fun _ => true)) [x] = .ok cims := by
      unfold SetOfCims.filterCims
      simp
    rw [hf]
    simp only [Except.bind_ok', List.length_singleton, if_true]
    rw [pyGet_ok.2 (show [x][0]? = some x from rfl)]
    simp only [Except.bind_ok']
    rfl
  constructor
  · intro H
    apply List.ext_getElem?
    intro k
    rcases Nat.lt_or_ge k states.length with hk | hk
    · rw [List.getElem?_range hk]
      -- the stored matrices tell the positions apart
      let cims : List Cim := (List.range states.length).map (fun i : Nat => ⟨[], [], [[(i : ℚ)]]⟩)
      have h := H cims (by simp [cims]) k states[k] ⟨[], [], [[(k : ℚ)]]⟩ (by simp [hs, hk]) (by simp [cims, hk])
      rw [hval] at h
      cases hx : pyGet cims states[k] with
      | error e => rw [hx] at h; cases h
      | ok c =>
        rw [hx] at h
        have hc := pyGet_ok.1 hx
        have hlt : states[k] < states.length := by
          have := (List.getElem?_eq_some_iff.1 hc).1
          simpa [cims] using this
        simp only [cims, List.getElem?_map, List.getElem?_range hlt, Option.map_some, Option.some.injEq] at hc
        subst hc
        have h' : ([[((states[k] : ℕ) : ℚ)]] : List (List ℚ)) = [[(k : ℚ)]] := Except.ok.inj h
        simp only [List.cons.injEq, and_true, Nat.cast_inj] at h'
        rw [List.getElem?_eq_getElem hk, h']
    · rw [List.getElem?_eq_none hk, List.getElem?_eq_none (by simpa using hk)]
  · intro e cims hlen k x m hk hm
    rw [hs, List.getElem?_map] at hk
    have hkl : k < states.length := by rw [← hlen]; exact (List.getElem?_eq_some_iff.1 hm).1
    rw [e, List.getElem?_range hkl] at hk
    simp only [Option.map_some, Option.some.injEq, List.cons.injEq, and_true] at hk
    subst hk
    rw [hval, pyGet_ok.2 hm]
    rfl

example : ([0, 1, 2] : List Nat) = List.range [0, 1, 2].length ∧ ([1, 0] : List Nat) ≠ List.range [1, 0].length := by decide

/-! ## C76, C77: the dictionary and its reading -/

/-- **C76.**  The dictionary exported for a variable has one entry per assignment of the parents, in the order of the stored assignments, each
with the matrix of that assignment: no CIM is overwritten. -/
theorem exported_node {cards : List Nat} {Q : List Nat → List (List ℚ)} {s : SetOfCims} (hs : Stores cards Q s) (l : Label) {parents : List Label}
    (hp : parents.length = cards.length) :
    exportNode l parents s = .ok (s.pCombs.map (fun u => (keyOf l parents u, (Q u).map rowDict))) ∧
      (s.pCombs.map (keyOf l parents)).Nodup := by
  have hwidth : ∀ u ∈ s.pCombs, u.length = parents.length := fun u hu => by rw [hp]; exact stores_width hs hu
  have hnd : (s.pCombs.map (keyOf l parents)).Nodup := by
    by_cases h0 : parents = []
    · have : cards = [] := List.length_eq_zero_iff.1 (by rw [← hp, h0]; rfl)
      subst this
      rw [stores_nil hs]; simp
    · apply List.Nodup.map_on _ hs.nodup
      intro u hu w hw e
      have := congrArg String.toList e
      rw [keyOf_toList h0, keyOf_toList h0] at this
      exact keyChars_injective parents u w (hwidth u hu) (hwidth w hw) this
  refine ⟨?_, hnd⟩
  unfold exportNode
  have := fold_dictSet (f := combKey l parents) (g := fun comb => do
      let cim ← exportCim s parents comb
      return cim.map rowDict) (keyOf l parents) (fun u => (Q u).map rowDict) s.pCombs (by
    intro u hu
    refine ⟨combKey_keyOf (hwidth u hu), ?_⟩
    rw [exportCim_finds hs hp ((hs.mem u).1 hu)]; rfl) hnd [] (by simp)
  rw [List.nil_append] at this
  rw [← this]
  congr 1
  funext d comb
  cases combKey l parents comb with
  | error e => rfl
  | ok k =>
    cases exportCim s parents comb with
    | error e => rfl
    | ok m => rfl

/-- Labels that do not confuse the reader: no `=` in them. -/
def PlainLabel (l : Label) : Prop := '=' ∉ l.toList

/-- **C77** (partial).  The exported dictionary of a variable is read back with the same assignments and the same matrices in the same order,
if the labels contain no `=` and every parent has at most 10 states.  Missing: states from 10 on (`two_digit_states_misread`) and labels
with `=` (`label_with_equals_misread`). -/
theorem node_reads_back_partial {cards : List Nat} {Q : List Nat → List (List ℚ)} {s : SetOfCims} (hs : Stores cards Q s) {l : Label}
    {parents : List Label} (hp : parents.length = cards.length) (hl : PlainLabel l) (hpl : ∀ p ∈ parents, PlainLabel p)
    (h10 : ∀ c ∈ cards, c ≤ 10) {c : Nat} (hrect : ∀ u ∈ s.pCombs, ∀ r ∈ Q u, r.length = c) :
    ∃ d s', exportNode l parents s = .ok d ∧ readNode l d = .ok s' ∧ s'.pCombs = s.pCombs ∧
      s'.cims.map Cim.cim = s.cims.map Cim.cim ∧ Stores cards Q s' := by
  obtain ⟨h1, h2⟩ := exported_node hs l hp
  have hwidth : ∀ u ∈ s.pCombs, u.length = parents.length := fun u hu => by rw [hp]; exact stores_width hs hu
  have hkeys : (s.pCombs.map (fun u => (keyOf l parents u, (Q u).map rowDict))).map (fun p => findDigits p.1.toList) = s.pCombs := by
    rw [List.map_map]
    conv_rhs => rw [← List.map_id s.pCombs]
    apply List.map_congr_left
    intro u hu
    show findDigits (keyOf l parents u).toList = u
    by_cases h0 : parents = []
    · have hu0 : u = [] := List.length_eq_zero_iff.1 (by rw [hwidth u hu, h0]; rfl)
      rw [hu0]
      unfold keyOf
      rw [if_pos h0]
      exact findDigits_none hl
    · rw [keyOf_toList h0]
      refine findDigits_keyChars parents u (hwidth u hu) hpl ?_
      intro x hx
      obtain ⟨i, hi⟩ := List.mem_iff_getElem?.1 hx
      have hin := (hs.mem u).1 hu
      obtain ⟨hil, hie⟩ := List.getElem?_eq_some_iff.1 hi
      have hg := List.Forall₂.get hin hil (by rw [← hin.length_eq]; exact hil)
      simp only [List.get_eq_getElem, hie] at hg
      exact lt_of_lt_of_le hg (h10 _ (List.getElem_mem _))
  have hcims : (s.pCombs.map (fun u => (keyOf l parents u, (Q u).map rowDict))).mapM (fun p => readCim p.2) = .ok (s.pCombs.map Q) := by
    rw [List.mapM_map]
    rw [mapM_congr_py (f' := fun u => (.ok (Q u) : Py _))]
    · exact mapM_pure_ok _ _
    · intro u hu
      exact readCim_rowDict (Q u) (hrect u hu)
  have hbes : s.cims.map Cim.cim = s.pCombs.map Q := by
    apply List.ext_getElem?
    intro k
    rw [List.getElem?_map, List.getElem?_map]
    by_cases hk : k < s.cims.length
    · have e1 := List.getElem?_eq_getElem hk
      have e2 := List.getElem?_eq_getElem (l := s.pCombs) (i := k) (by rw [← hs.len]; exact hk)
      rw [e1, e2, Option.map_some, Option.map_some, hs.beside k _ _ e2 e1]
    · rw [List.getElem?_eq_none (by omega), List.getElem?_eq_none (by rw [← hs.len]; omega)]; rfl
  refine ⟨_, ⟨l, [], 0, s.pCombs, false, (s.pCombs.map Q).map (fun m => ⟨[], [], m⟩)⟩, h1, ?_, rfl, ?_, ?_⟩
  · unfold readNode
    rw [hcims, hkeys]
    rfl
  · rw [hbes, List.map_map]
    exact List.map_id _
  · refine ⟨by simp, hs.nodup, hs.mem, ?_, hs.single⟩
    intro k u m hk hm
    dsimp only at hk hm
    rw [List.getElem?_map, List.getElem?_map, hk] at hm
    simp only [Option.map_some, Option.some.injEq] at hm
    rw [← hm]

/-- **C77 (refuted for two-digit states).**  The exported key of state 10 of a parent is read as state 1. -/
theorem two_digit_states_misread :
    combKey "Y" ["X"] [10] = .ok "X=10" ∧ findDigits "X=10".toList = [1] := by decide +kernel

/-- **C77 (refuted for labels with `=`).**  A parent called `a=1` makes the reader see two states. -/
theorem label_with_equals_misread :
    combKey "Y" ["a=1"] [0] = .ok "a=1=0" ∧ findDigits "a=1=0".toList = [1, 0] := by decide +kernel

/-- **C77 (refuted without edges).**  A network without edges cannot be read back: the imported edge table has no columns. -/
theorem no_edges_not_read (labels : List Label) (h : labels ≠ []) (json : List (Label × List (String × JsonCim))) :
    SampleNet.ofImporter labels [] json = .error .keyError := by
  unfold SampleNet.ofImporter
  simp [h]

/-- Two sampler objects that describe the same usable network sample the same trajectories from the same draws. -/
theorem sampling_depends_on_network {net net' : SampleNet} {N : Ctbn} (hD : Describes net N) (hD' : Describes net' N) (hOK : N.OK)
    (tEnd : ℚ) (maxTr : ℤ) (draws : SampleDraws) (fuel : Nat) :
    net.sample tEnd maxTr draws fuel = net'.sample tEnd maxTr draws fuel := by
  have hstep : ∀ s, GoodState N s → net.step tEnd maxTr draws s = net'.step tEnd maxTr draws s := by
    intro s hg
    obtain ⟨cur, c1, c2, c3⟩ := hg.last
    have hget : pyGet s.rows (s.rows.length - 1) = .ok cur := by
      rw [List.getLast?_eq_getElem?] at c1
      exact pyGet_ok.2 c1
    have hfill : net.fillTimers cur.2 s.t (draws.exp s.nTr) s.timers = net'.fillTimers cur.2 s.t (draws.exp s.nTr) s.timers := by
      unfold SampleNet.fillTimers
      apply mapM_congr_py
      rintro ⟨o, i⟩ hoi
      have ho := List.mem_zipIdx_iff_getElem?.1 hoi
      simp only at ho
      cases o with
      | some x => rfl
      | none =>
        have hi : i < N.vars.length := by rw [← hg.timers]; exact (List.getElem?_eq_some_iff.1 ho).1
        dsimp only
        rw [hD.vnames, hD'.vnames, pyGet_ok.2 (List.getElem?_eq_getElem hi)]
        simp only [Except.bind_ok']
        rw [scaleOf_spec hD hOK c3 (List.getElem_mem hi), scaleOf_spec hD' hOK c3 (List.getElem_mem hi)]
    obtain ⟨times, f1, f2, f3⟩ := fillTimers_spec hD hOK c3 s.t (draws.exp s.nTr) hg.timers
    have hne : times ≠ [] := by
      intro e; rw [e] at f2; exact hOK.nonempty (List.length_eq_zero_iff.1 f2.symm)
    obtain ⟨k, t, a1, a2, a3, a4⟩ := argmin_spec hne
    have hk : k < N.vars.length := by rw [← f2]; exact (List.getElem?_eq_some_iff.1 a2).1
    have hv := List.getElem_mem hk
    unfold SampleNet.step
    rw [hget]
    simp only [Except.bind_ok']
    rw [← hfill, f1]
    simp only [Except.bind_ok', a1]
    rw [hD.vnames, hD'.vnames, pyGet_ok.2 (List.getElem?_eq_getElem hk)]
    simp only [Except.bind_ok']
    rw [cimOf_spec hD hOK c3 hv, cimOf_spec hD' hOK c3 hv, valueOf_spec hD c3 hv, valueOf_spec hD' c3 hv]
    have hu : net.undefine k N.vars[k] times = net'.undefine k N.vars[k] times := by
      unfold SampleNet.undefine; rw [hD.parents, hD'.parents]
    rw [hu]
  have hinit : net.initState = net'.initState := by
    unfold SampleNet.initState; rw [hD.vnames, hD'.vnames]
  have hrun : ∀ fuel s, GoodState N s → net.run tEnd maxTr draws fuel s = net'.run tEnd maxTr draws fuel s := by
    intro fuel
    induction fuel with
    | zero => intro s _; rfl
    | succ fuel ih =>
      intro s hg
      rw [SampleNet.run, SampleNet.run, ← hstep s hg]
      cases hs : net.step tEnd maxTr draws s with
      | error e => rfl
      | ok o =>
        cases o with
        | done r => rfl
        | next s' => exact ih s' (good_step hD hOK hg hs)
  unfold SampleNet.sample
  rw [← hinit]
  exact hrun fuel _ (good_init hD hOK)

theorem dictGet_of_getElem? {β : Type _} {d : List (Label × β)} (hn : (d.map Prod.fst).Nodup) {p : Label × β} (h : p ∈ d) :
    dictGet d p.1 = .ok p.2 := by
  unfold dictGet
  induction d with
  | nil => simp at h
  | cons q d ih =>
    rw [List.map_cons, List.nodup_cons] at hn
    rcases List.mem_cons.1 h with rfl | h
    · simp
    · rw [List.find?_cons_of_neg]
      · exact ih hn.2 h
      · simp only [decide_eq_true_eq]
        intro e
        exact hn.1 (e ▸ List.mem_map_of_mem h)

/-- **C77** (partial), for the whole network.  A usable network with at least one edge, plain labels and at most 10 states per variable
that is exported and read back by `TrajectoryGenerator(importer=...)` is the same network: every trajectory sampled from the file is the one
sampled from the original with the same draws.  Missing: see `node_reads_back_partial`; and networks without edges (`no_edges_not_read`). -/
theorem network_reads_back_partial {labels : List Label} {table : List Edge} {cims : List (Label × SetOfCims)} {N : Ctbn}
    (hD : Describes (SampleNet.new labels table cims) N) (hOK : N.OK) (htab : table ≠ []) (hplain : ∀ v ∈ N.vars, PlainLabel v)
    (h10 : ∀ v ∈ N.vars, N.card v ≤ 10) :
    ∃ json net', cimsToJson labels table cims = .ok json ∧ SampleNet.ofImporter labels table json = .ok net' ∧ Describes net' N ∧
      ∀ tEnd maxTr draws fuel, (SampleNet.new labels table cims).sample tEnd maxTr draws fuel = net'.sample tEnd maxTr draws fuel := by
  have hvn : labels = N.vars := hD.vnames
  have hpar : ∀ v ∈ N.vars, tableParents table v = N.parents v := by
    intro v hv
    have := hD.parents
    unfold SampleNet.new at this
    simp only [hvn] at this
    have := List.map_inj_left.1 this v hv
    exact (Prod.mk.inj this).2
  haveI : Nonempty SetOfCims := ⟨⟨"", [], 0, [], false, []⟩⟩
  choose! sf hsf using hD.cims
  have hnode : ∀ v ∈ N.vars, ∃ d s', exportNode v (N.parents v) (sf v) = .ok d ∧ readNode v d = .ok s' ∧ Stores (N.parentCards v) (N.cim v) s' := by
    intro v hv
    obtain ⟨d, s', h1, h2, -, -, h5⟩ := node_reads_back_partial (hsf v hv).2 (l := v) (parents := N.parents v) (by simp [Ctbn.parentCards])
      (hplain v hv) (fun p hp => hplain p (hOK.closed v hv p hp))
      (by
        intro c hc
        obtain ⟨p, hp, rfl⟩ := List.mem_map.1 hc
        exact h10 p (hOK.closed v hv p hp))
      (c := N.card v) (fun u hu => (hOK.cims v hv u (((hsf v hv).2.mem u).1 hu)).cols)
    exact ⟨d, s', h1, h2, h5⟩
  choose! df sf' hdf using hnode
  have hjson : cimsToJson labels table cims = .ok (labels.map (fun v => (v, df v))) := by
    unfold cimsToJson
    have := fold_dictSet (f := fun l => (.ok l : Py String)) (g := fun l => do
        let s ← dictGet cims l
        exportNode l (tableParents table l) s) id df labels (by
      intro v hv
      have hv' : v ∈ N.vars := hvn ▸ hv
      refine ⟨rfl, ?_⟩
      have h1 : dictGet cims v = .ok (sf v) := (hsf v hv').1
      rw [h1, hpar v hv']
      exact (hdf v hv').1) (by rw [List.map_id, hvn]; exact hOK.nodup) [] (by simp)
    rw [List.nil_append] at this
    rw [show labels.map (fun v => (v, df v)) = labels.map (fun v => (id v, df v)) from rfl, ← this]
    congr 1
    funext d l
    simp only [Except.bind_ok']
    cases dictGet cims l with
    | error e => rfl
    | ok s =>
      simp only [Except.bind_ok']
  have hread : SampleNet.ofImporter labels table (labels.map (fun v => (v, df v))) =
      .ok ⟨labels, labels.map (fun v => (v, tableParents table v)), labels.map (fun v => (v, sf' v))⟩ := by
    unfold SampleNet.ofImporter
    rw [if_neg (fun h => htab h.1), List.mapM_map, mapM_congr_py (f' := fun v => (.ok (v, sf' v) : Py (Label × SetOfCims)))]
    · rw [mapM_pure_ok]; rfl
    · intro v hv
      show (do let s ← readNode v (df v); return (v, s)) = _
      rw [(hdf v (hvn ▸ hv)).2.1]; rfl
  have hD' : Describes ⟨labels, labels.map (fun v => (v, tableParents table v)), labels.map (fun v => (v, sf' v))⟩ N := by
    refine ⟨hvn, hD.parents, fun v hv => ⟨sf' v, ?_, (hdf v hv).2.2⟩⟩
    exact dictGet_map (hvn ▸ hv)
  exact ⟨_, _, hjson, hread, hD', fun tEnd maxTr draws fuel => sampling_depends_on_network hD hD' hOK tEnd maxTr draws fuel⟩

end PyCTBN
