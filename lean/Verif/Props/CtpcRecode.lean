import Verif.Props.CtpcData

/-!
# Constraint-based estimation and the coding of the data
-/

namespace PyCTBN
open Spec Indep

section
variable {π : Label → Equiv.Perm Nat} {s s' : Structure} {t t' : Trajectory} {n : Label} {c : Nat}

theorem given_recoded (hw : WFStructure s) (hw' : WFStructure s') (ht : DataOK s t) (ht' : DataOK s' t') (h : SameProcess π s t s' t')
    (hn : n ∈ s.labels) (hcn : s.getStatesNumber n = .ok c) (K : List Label) (a : Label → Nat) :
    (∀ x y, (given s' t' n c K (fun q => π q (a q))).count (π n x) (π n y) = (given s t n c K a).count x y) ∧
      ∀ x, (given s' t' n c K (fun q => π q (a q))).time (π n x) = (given s t n c K a).time x := by
  have hPP : ∀ l, l ∈ ordered s' K ↔ l ∈ ordered s K := by
    intro l; unfold ordered; rw [List.mem_filter, List.mem_filter, h.labels]
  have hP : ∀ l ∈ ordered s K, l ∈ s.labels := fun l hl => (List.mem_filter.1 hl).1
  have hnd : (ordered s K).Nodup := hw.nodup.filter _
  have hu : ((ordered s K).map a).length = (ordered s K).length := by simp
  have hrec : (ordered s' K).map (fun q => π q (a q)) = recode π (ordered s K) (ordered s' K) ((ordered s K).map a) := (recode_map hPP a).symm
  have hfit := h.fits n hn c hcn
  have hmap : (Finset.range c).map (π n).toEmbedding = Finset.range c := by
    ext y
    simp only [Finset.mem_map_equiv, Finset.mem_range]
    rw [← hfit, Equiv.apply_symm_apply]
  unfold given
  rw [hrec]
  refine ⟨fun x y => ?_, fun x => residence_recoded hw hw' ht ht' h hn hP hnd hPP x hu⟩
  simp only [observed, (π n).injective.eq_iff]
  by_cases hxy : x = y
  · have herase : (Finset.range c).erase (π n x) = ((Finset.range c).erase x).map (π n).toEmbedding := by
      rw [Finset.map_erase, hmap]; rfl
    rw [if_pos hxy, if_pos hxy, herase, Finset.sum_map]
    exact Finset.sum_congr rfl (fun z _ => transitions_recoded hw hw' ht ht' h hn hP hnd hPP x z hu)
  · rw [if_neg hxy, if_neg hxy, transitions_recoded hw hw' ht ht' h hn hP hnd hPP x y hu]

end

/-- The tests treat the states of the child alike. -/
theorem tests_renumbered (P : IndepParams) {c : Nat} (ρ : Equiv.Perm Nat) (hρ : ∀ x, ρ x < c ↔ x < c) {o1 o2 o1' o2' : Stats}
    (h1 : (∀ x y, o1'.count (ρ x) (ρ y) = o1.count x y) ∧ ∀ x, o1'.time (ρ x) = o1.time x)
    (h2 : (∀ x y, o2'.count (ρ x) (ρ y) = o2.count x y) ∧ ∀ x, o2'.time (ρ x) = o2.time x) (th : Nat) :
    (Scarce P c o1'.count th ↔ Scarce P c o1.count th) ∧ (ToldApart P c o1' o2' ↔ ToldApart P c o1 o2) := by
  have hmap : (Finset.range c).map ρ.toEmbedding = Finset.range c := by
    ext y
    simp only [Finset.mem_map_equiv, Finset.mem_range]
    rw [← hρ, Equiv.apply_symm_apply]
  have hi : ∀ {o o' : Stats}, ((∀ x y, o'.count (ρ x) (ρ y) = o.count x y) ∧ ∀ x, o'.time (ρ x) = o.time x) →
      ∀ x, o'.intensity (ρ x) (ρ x) = o.intensity x x := by
    intro o o' h x
    unfold Stats.intensity
    rw [if_pos rfl, if_pos rfl, h.1, h.2]
  constructor
  · unfold Scarce
    have : ∑ x ∈ Finset.range c, o1'.count x x = ∑ x ∈ Finset.range c, o1.count x x := by
      conv_lhs => rw [← hmap, Finset.sum_map]
      exact Finset.sum_congr rfl (fun x _ => h1.1 x x)
    rw [this]
  · have hF : ∀ x, FOutside P o1'.count o2'.count o1'.intensity o2'.intensity (ρ x) ↔ FOutside P o1.count o2.count o1.intensity o2.intensity x := by
      intro x
      unfold FOutside
      rw [hi h1, hi h2, h1.1, h2.1]
    have hC : ∀ x, ChiExceeds P c o1'.count o2'.count (ρ x) ↔ ChiExceeds P c o1.count o2.count x := by
      intro x
      have hd : ChiDefined c o1'.count o2'.count (ρ x) ↔ ChiDefined c o1.count o2.count x := by
        constructor
        · intro hd y hy hyx
          have := hd (ρ y) ((hρ y).2 hy) (fun e => hyx (ρ.injective e))
          rwa [h1.1, h2.1, h1.1, h2.1] at this
        · intro hd y hy hyx
          have := hd (ρ.symm y) (by rw [← hρ, Equiv.apply_symm_apply]; exact hy) (fun e => hyx (by rw [← e, Equiv.apply_symm_apply]))
          rwa [← h1.1, ← h2.1, ← h1.1, ← h2.1, Equiv.apply_symm_apply] at this
      have hq : chiSquare c o1'.count o2'.count (ρ x) = chiSquare c o1.count o2.count x := by
        unfold chiSquare
        have herase : (Finset.range c).erase (ρ x) = ((Finset.range c).erase x).map ρ.toEmbedding := by
          rw [Finset.map_erase, hmap]; rfl
        rw [herase, Finset.sum_map]
        simp only [Equiv.coe_toEmbedding, h1.1, h2.1]
      unfold ChiExceeds
      rw [hd, hq]
    unfold ToldApart
    constructor
    · rintro ⟨x, hx, hx2⟩
      refine ⟨ρ.symm x, by rw [← hρ, Equiv.apply_symm_apply]; exact hx, ?_⟩
      rw [← hF, ← hC, Equiv.apply_symm_apply]
      exact hx2
    · rintro ⟨x, hx, hx2⟩
      exact ⟨ρ x, (hρ x).2 hx, by rw [hF, hC]; exact hx2⟩

/-- **C137** Whether a complete test answers "independent" does not depend on how the states are numbered nor on the order in which the variables are
listed. -/
theorem complete_test_blind_to_coding {E E' : CBEnv} {P : IndepParams} {c : Nat} (hR : UniformRun E P c) (hR' : UniformRun E' P c)
    {π : Label → Equiv.Perm Nat} (h : SameProcess π E.struct E.traj E'.struct E'.traj) {p child : Label} {S : List Label}
    (ha : ValidTest E p child S) :
    freshVerdict E' child c p S = .ok .accept ↔ freshVerdict E child c p S = .ok .accept := by
  have hcard := fun l (hl : l ∈ E.struct.labels) => uniform_card hR.wf hR.cards hl
  rw [complete_test_accepts_iff hR ⟨hR.wf, ha.1, ha.2, ha.3, ha.4, ha.5, ha.6⟩,
    complete_test_accepts_iff hR' ⟨hR'.wf, (h.labels _).2 ha.1, (h.labels _).2 ha.2, fun q hq => (h.labels _).2 (ha.3 q hq), ha.4, ha.5, ha.6⟩]
  have hlen : (ordered E'.struct S).length = (ordered E.struct S).length := by
    apply List.Perm.length_eq
    refine (List.perm_ext_iff_of_nodup (hR'.wf.nodup.filter _) (hR.wf.nodup.filter _)).2 (fun l => ?_)
    rw [List.mem_filter, List.mem_filter, h.labels]
  rw [hlen]
  have hinv : ∀ K a, _ := fun K a => given_recoded hR.wf hR'.wf hR.data hR'.data h ha.child_mem (hcard child ha.child_mem) K a
  have key := fun a => tests_renumbered P (π child) (h.fits child ha.child_mem c (hcard child ha.child_mem)) (hinv S a) (hinv (p :: S) a)
    (if 2 < c then (c - 1) ^ 2 * c * c ^ (ordered E.struct S).length else 0)
  -- assignments that are in range for every variable
  have hfix : ∀ (F : (Label → Nat) → Prop) (_ : ∀ a b, (∀ l ∈ E.struct.labels, a l = b l) → (F a → F b)),
      (∀ a : Label → Nat, (∀ q, a q < c) → F (fun q => π q (a q))) → ∀ a : Label → Nat, (∀ q, a q < c) → F a := by
    intro F hF hall a haa
    have hc := hR.pos
    refine hF _ a ?_ (hall (fun q => if q ∈ E.struct.labels then (π q).symm (a q) else 0) (fun q => ?_))
    · intro l hl
      simp only [if_pos hl, Equiv.apply_symm_apply]
    · show (if q ∈ E.struct.labels then (π q).symm (a q) else 0) < c
      split
      · rename_i hq
        rw [← h.fits q hq c (hcard q hq), Equiv.apply_symm_apply]; exact haa q
      · exact hc
  have hcongr : ∀ (K : List Label) (a b : Label → Nat), (∀ l ∈ E.struct.labels, a l = b l) →
      given E'.struct E'.traj child c K a = given E'.struct E'.traj child c K b := by
    intro K a b hab
    unfold given
    have : (ordered E'.struct K).map a = (ordered E'.struct K).map b :=
      List.map_congr_left (fun l hl => hab l ((h.labels l).1 (List.mem_filter.1 hl).1))
    rw [this]
  constructor
  · intro hall a haa
    have hb : ∀ q, (if q ∈ E.struct.labels then π q (a q) else 0) < c := by
      intro q
      split
      · rename_i hq; exact (h.fits q hq c (hcard q hq) _).2 (haa q)
      · exact hR.pos
    have := hall (fun q => if q ∈ E.struct.labels then π q (a q) else 0) hb
    have e : ∀ K, given E'.struct E'.traj child c K (fun q => if q ∈ E.struct.labels then π q (a q) else 0) =
        given E'.struct E'.traj child c K (fun q => π q (a q)) := fun K => hcongr K _ _ (fun l hl => if_pos hl)
    rw [e, e] at this
    obtain ⟨k1, k2⟩ := key a
    rwa [k1, k2] at this
  · intro hall
    apply hfix
    · intro a b hab hF
      rwa [hcongr S a b hab, hcongr (p :: S) a b hab] at hF
    · intro a haa
      obtain ⟨k1, k2⟩ := key a
      have := hall a haa
      rwa [← k1, ← k2] at this

theorem not_scarce_threshold {P : IndepParams} {c : Nat} (h : c ≤ 2 ∨ P.thumbThreshold ≤ 0) (m : Nat → Nat → Nat) {th : Nat} (hth : 2 < c → 0 < th) :
    ¬ Scarce P c m th := by
  rintro ⟨hc, hlt⟩
  rcases h with h | h
  · omega
  · unfold XR.div at hlt
    rw [if_neg (by have := hth hc; positivity)] at hlt
    have hlt' : ((∑ x ∈ Finset.range c, m x x : ℕ) : ℝ) / (th : ℝ) < P.thumbThreshold := hlt
    have h0 : (0 : ℝ) ≤ ((∑ x ∈ Finset.range c, m x x : ℕ) : ℝ) / (th : ℝ) := by positivity
    linarith

/-- The verdict is one of two when the data-size rule is out of play. -/
theorem verdict_two_valued {E : CBEnv} {P : IndepParams} {c : Nat} (hR : UniformRun E P c) (h : c ≤ 2 ∨ P.thumbThreshold ≤ 0) {p child : Label}
    {S : List Label} (ha : ValidTest E p child S) :
    freshVerdict E child c p S = .ok .accept ∨ freshVerdict E child c p S = .ok .reject := by
  have ha' : E.TestArgs p child S := ⟨hR.wf, ha.1, ha.2, ha.3, ha.4, ha.5, ha.6⟩
  obtain ⟨v, hv⟩ := freshVerdict_answers hR.test ha' hR.total hR.data hR.pos hR.cards
  cases v with
  | accept => exact .inl hv
  | reject => exact .inr hv
  | rejectMark =>
    obtain ⟨a, -, hs⟩ := complete_test_marks_only_if hR ha' hv
    refine absurd hs (not_scarce_threshold h _ (fun hc => ?_))
    have : 0 < c - 1 := by omega
    have := hR.pos
    positivity

/-- **C138** For variables with at most two states (or without the data-size rule) constraint-based estimation does not depend on how the states are
numbered. -/
theorem constraint_based_blind_to_numbering {E E' : CBEnv} {P : IndepParams} {c : Nat} (hR : UniformRun E P c) (hR' : UniformRun E' P c)
    (hs : E'.struct = E.struct) {π : Label → Equiv.Perm Nat} (h : SameProcess π E.struct E.traj E'.struct E'.traj)
    (hc : c ≤ 2 ∨ P.thumbThreshold ≤ 0) (m : List (List Bool)) :
    (E'.ctpcSequential ⟨[], m⟩).1 = (E.ctpcSequential ⟨[], m⟩).1 ∧
      ∀ order : List Label, order.Perm E.struct.labels → (E'.ctpcParallel ⟨[], m⟩ order).1 = (E.ctpcParallel ⟨[], m⟩ order).1 := by
  refine estimate_depends_on_verdicts_only hs hR.wf hR.indexes (fun child c' p S hcs ha => ?_) m
  rw [uniform_card hR.wf hR.cards ha.child_mem] at hcs
  cases hcs
  have key := complete_test_blind_to_coding hR hR' h ha
  have ha' : ValidTest E' p child S := ⟨hs ▸ ha.1, hs ▸ ha.2, fun q hq => hs ▸ ha.3 q hq, ha.4, ha.5, ha.6⟩
  rcases verdict_two_valued hR hc ha with h1 | h1 <;> rcases verdict_two_valued hR' hc ha' with h2 | h2
  · rw [h1, h2]
  · rw [key.2 h1] at h2; cases h2
  · rw [key.1 h2] at h1; cases h1
  · rw [h1, h2]

end PyCTBN
