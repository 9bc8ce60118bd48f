import Verif.Spec.ReadBack
import Verif.Props.Json

/-!
# The exact boundary of reading exported CIMs back (C170)
-/

namespace PyCTBN
open Spec

theorem findDigits_split (A : List Char) (d : Char) (hd : d.isDigit) (R : List Char) :
    findDigits (A ++ '=' :: d :: R) = findDigits A ++ (d.toNat - 48) :: findDigits R := by
  induction A using findDigits.induct with
  | case1 => rw [List.nil_append, findDigits.eq_3, if_pos ⟨rfl, hd⟩]; rfl
  | case2 a =>
    rw [List.singleton_append, findDigits.eq_3, if_neg (fun h => by simp [Char.isDigit] at h), findDigits.eq_3, if_pos ⟨rfl, hd⟩]
    rfl
  | case3 a b rest h ih =>
    rw [List.cons_append, List.cons_append, findDigits, if_pos h, ih, findDigits, if_pos h]
    rfl
  | case4 a b rest h ih =>
    rw [List.cons_append, List.cons_append, findDigits, if_neg h, ← List.cons_append, ih, findDigits, if_neg h]

theorem readable_iff (l : Label) : ReadableLabel l ↔ findDigits l.toList = [] := by
  constructor
  · intro h
    unfold ReadableLabel at h
    generalize l.toList = A at h
    induction A using findDigits.induct with
    | case1 => rfl
    | case2 a => rfl
    | case3 a b rest hab _ =>
      exact absurd ⟨[], b, rest, by rw [hab.1]; rfl, hab.2⟩ h
    | case4 a b rest hab ih =>
      rw [findDigits, if_neg hab]
      refine ih (fun ⟨A, d, B, e, hd⟩ => h ⟨a :: A, d, B, ?_, hd⟩)
      rw [e, List.cons_append]
  · rintro h ⟨A, d, B, e, hd⟩
    rw [e, findDigits_split A d hd] at h
    simp at h

/-- The digit that is read of a state. -/
theorem first_digit (x : Nat) : ∃ d ds, Nat.toDigits 10 x = d :: ds ∧ d.isDigit ∧ '=' ∉ ds ∧ d.toNat - 48 < 10 ∧ (x < 10 → d.toNat - 48 = x) := by
  cases h : Nat.toDigits 10 x with
  | nil => exact absurd h Nat.toDigits_ne_nil
  | cons d ds =>
    have hall := toDigits_isDigit (x := x)
    rw [h] at hall
    have hd := hall d (by simp)
    refine ⟨d, ds, rfl, hd, fun he => by simpa [Char.isDigit] using hall '=' (by simp [he]), ?_, fun hx => ?_⟩
    · simp only [Char.isDigit, Bool.and_eq_true, decide_eq_true_eq, ge_iff_le] at hd
      have h1 := hd.2
      have : d.toNat ≤ 57 := h1
      omega
    · rw [Nat.toDigits_of_lt_base hx] at h
      rw [← (List.cons.inj h).1, Nat.toNat_digitChar_sub_48_of_lt_ten hx]

/-- What is read of a key: the numbers found in the labels, and of every state its first digit. -/
theorem read_key : ∀ (ps : List Label) (xs : List Nat), xs.length = ps.length → ∃ g : Nat → Nat, (∀ x, g x < 10) ∧ (∀ x < 10, g x = x) ∧
    findDigits (keyChars ps xs) = ((ps.zip xs).map (fun q => findDigits q.1.toList ++ [g q.2])).flatten := by
  have hf : ∀ x, ∃ n, n < 10 ∧ (x < 10 → n = x) ∧ ∀ (p : Label) (R : List Char), findDigits (p.toList ++ '=' :: (Nat.toDigits 10 x ++ R)) =
      findDigits p.toList ++ n :: findDigits R := by
    intro x
    obtain ⟨d, ds, e, h1, h2, h3, h4⟩ := first_digit x
    refine ⟨d.toNat - 48, h3, h4, fun p R => ?_⟩
    rw [e, List.cons_append, findDigits_split _ _ h1, findDigits_append h2]
  choose g hg using hf
  intro ps xs h
  refine ⟨g, fun x => (hg x).1, fun x hx => (hg x).2.1 hx, ?_⟩
  induction ps generalizing xs with
  | nil =>
    rw [List.length_eq_zero_iff.1 h]; rfl
  | cons p ps ih =>
    cases xs with
    | nil => simp at h
    | cons x xs =>
      rw [keyChars, (hg x).2.2, findDigits_append (by split <;> simp), ih xs (by simpa using h)]
      simp

/-- A key is read as the assignment it was written for iff the labels are readable and the states have one digit. -/
theorem key_read_iff (l : Label) (ps : List Label) (xs : List Nat) (h : xs.length = ps.length) :
    (findDigits (keyOf l ps xs).toList = xs ↔ (ps = [] → ReadableLabel l) ∧ (∀ p ∈ ps, ReadableLabel p) ∧ ∀ x ∈ xs, x < 10) ∧
    ((∃ ys : List Nat, ys.length = ps.length ∧ findDigits (keyOf l ps xs).toList = ys) → (ps = [] → ReadableLabel l) ∧ ∀ p ∈ ps, ReadableLabel p) ∧
    (ps ≠ [] → (∀ p ∈ ps, ReadableLabel p) → ∀ x ∈ findDigits (keyOf l ps xs).toList, x < 10) := by
  by_cases h0 : ps = []
  · subst h0
    have hx : xs = [] := List.length_eq_zero_iff.1 h
    subst hx
    have e : keyOf l [] [] = l := rfl
    rw [e, ← readable_iff]
    refine ⟨by simp, ?_, by simp⟩
    rintro ⟨ys, hy, hr⟩
    have := List.length_eq_zero_iff.1 hy
    subst this
    exact ⟨fun _ => (readable_iff l).2 hr, by simp⟩
  · obtain ⟨g, g1, g2, hr⟩ := read_key ps xs h
    rw [keyOf_toList h0, hr]
    have hlen : ((ps.zip xs).map (fun q => findDigits q.1.toList ++ [g q.2])).flatten.length = ps.length + (ps.map (fun p => (findDigits p.toList).length)).sum := by
      clear hr
      induction ps generalizing xs with
      | nil => simp
      | cons p ps ih =>
        cases xs with
        | nil => simp at h
        | cons x xs =>
          have h' : xs.length = ps.length := by simpa using h
          by_cases hps : ps = []
          · subst hps
            simp
            omega
          · have := ih xs h' hps
            simp only [List.zip_cons_cons, List.map_cons, List.flatten_cons, List.length_append, List.length_cons, List.length_nil, List.sum_cons, this]
            omega
    have hread : ((ps.zip xs).map (fun q => findDigits q.1.toList ++ [g q.2])).flatten.length = ps.length → ∀ p ∈ ps, ReadableLabel p := by
      intro he p hp
      rw [hlen] at he
      have h0 : (ps.map (fun p => (findDigits p.toList).length)).sum = 0 := by omega
      rw [List.sum_eq_zero_iff] at h0
      exact (readable_iff p).2 (List.length_eq_zero_iff.1 (h0 _ (List.mem_map_of_mem hp)))
    have hfl : (∀ p ∈ ps, ReadableLabel p) → ((ps.zip xs).map (fun q => findDigits q.1.toList ++ [g q.2])).flatten = xs.map g := by
      intro hp
      clear hlen hread hr h0
      induction ps generalizing xs with
      | nil => rw [List.length_eq_zero_iff.1 h]; rfl
      | cons p ps ih =>
        cases xs with
        | nil => simp at h
        | cons x xs =>
          rw [List.zip_cons_cons, List.map_cons, List.flatten_cons, ih xs (by simpa using h) (fun q hq => hp q (by simp [hq])), (readable_iff p).1 (hp p (by simp))]
          rfl
    refine ⟨⟨fun e => ?_, fun ⟨_, hp, hx⟩ => ?_⟩, ?_, fun _ hp x hx => ?_⟩
    · have hp := hread (by rw [e, h])
      refine ⟨fun e => absurd e h0, hp, fun x hx => ?_⟩
      rw [hfl hp] at e
      rw [← e] at hx
      obtain ⟨y, -, rfl⟩ := List.mem_map.1 hx
      exact g1 y
    · rw [hfl hp]
      conv_rhs => rw [← List.map_id xs]
      exact List.map_congr_left (fun x hx' => g2 x (hx x hx'))
    · rintro ⟨ys, hy, rfl⟩
      exact ⟨fun e => absurd e h0, hread hy⟩
    · rw [hfl hp] at hx
      obtain ⟨y, -, rfl⟩ := List.mem_map.1 hx
      exact g1 y

/-- **C170** (one variable).  The exported dictionary of a variable can be read back as the set of CIMs that was exported if and only if no `=` is followed by a digit
in the labels of the parents (in the label of the variable itself, if it has no parents), and every parent has at most ten states. -/
theorem node_reads_back_iff {cards : List Nat} {Q : List Nat → List (List ℚ)} {s : SetOfCims} (hs : Stores cards Q s) (hpos : ∀ c ∈ cards, 0 < c) {l : Label}
    {parents : List Label} (hp : parents.length = cards.length) {c : Nat} (hrect : ∀ u ∈ s.pCombs, ∀ r ∈ Q u, r.length = c) :
    (∃ d s', exportNode l parents s = .ok d ∧ readNode l d = .ok s' ∧ Stores cards Q s') ↔
      (parents = [] → ReadableLabel l) ∧ (∀ p ∈ parents, ReadableLabel p) ∧ ∀ c ∈ cards, c ≤ 10 := by
  obtain ⟨h1, h2⟩ := exported_node hs l hp
  have hwidth : ∀ u ∈ s.pCombs, u.length = parents.length := fun u hu => by rw [hp]; exact stores_width hs hu
  have hcims : (s.pCombs.map (fun u => (keyOf l parents u, (Q u).map rowDict))).mapM (fun p => readCim p.2) = .ok (s.pCombs.map Q) := by
    rw [List.mapM_map]
    rw [mapM_congr_py (f' := fun u => (.ok (Q u) : Py _))]
    · exact mapM_pure_ok _ _
    · intro u hu
      exact readCim_rowDict (Q u) (hrect u hu)
  have hread : readNode l (s.pCombs.map (fun u => (keyOf l parents u, (Q u).map rowDict))) =
      .ok ⟨l, [], 0, s.pCombs.map (fun u => findDigits (keyOf l parents u).toList), false, (s.pCombs.map Q).map (fun m => ⟨[], [], m⟩)⟩ := by
    unfold readNode
    rw [hcims, List.map_map]
    rfl
  constructor
  · rintro ⟨d, s', e1, e2, hst⟩
    rw [h1] at e1
    cases e1
    rw [hread] at e2
    cases e2
    have hzero : InRangeAssign cards (cards.map (fun _ => 0)) := by
      unfold InRangeAssign
      clear hs hst hp h1 hcims hread
      induction cards with
      | nil => exact .nil
      | cons a cards ih => exact .cons (hpos a (by simp)) (ih (fun c hc => hpos c (by simp [hc])))
    have hz := (hs.mem _).2 hzero
    have hmem := (hst.mem (findDigits (keyOf l parents (cards.map (fun _ => 0))).toList)).1 (List.mem_map.2 ⟨_, hz, rfl⟩)
    obtain ⟨r1, r2⟩ := (key_read_iff l parents _ (hwidth _ hz)).2.1 ⟨_, by rw [hmem.length_eq, hp], rfl⟩
    refine ⟨r1, r2, fun c hc => ?_⟩
    by_contra hlt
    obtain ⟨i, hi, rfl⟩ := List.mem_iff_getElem.1 hc
    have hten : InRangeAssign cards ((cards.map (fun _ => 0)).set i 10) := by
      unfold InRangeAssign
      rw [List.forall₂_iff_get]
      refine ⟨by simp, fun j hj hj' => ?_⟩
      simp only [List.get_eq_getElem, List.getElem_set, List.getElem_map]
      split
      · rename_i e
        subst e
        omega
      · exact hpos _ (List.getElem_mem _)
    have hin := (hst.mem _).2 hten
    obtain ⟨u, hu, e⟩ := List.mem_map.1 hin
    have hpn : parents ≠ [] := by
      rintro rfl
      rw [List.length_nil] at hp
      omega
    have := (key_read_iff l parents u (hwidth u hu)).2.2 hpn r2 10 (by
      rw [e]
      exact List.mem_iff_getElem.2 ⟨i, by simpa using hi, by simp⟩)
    omega
  · rintro ⟨r1, r2, r3⟩
    refine ⟨_, _, h1, hread, ?_⟩
    have hkeys : s.pCombs.map (fun u => findDigits (keyOf l parents u).toList) = s.pCombs := by
      conv_rhs => rw [← List.map_id s.pCombs]
      apply List.map_congr_left
      intro u hu
      refine (key_read_iff l parents u (hwidth u hu)).1.2 ⟨r1, r2, fun x hx => ?_⟩
      obtain ⟨i, hi⟩ := List.mem_iff_getElem?.1 hx
      have hin := (hs.mem u).1 hu
      obtain ⟨hil, hie⟩ := List.getElem?_eq_some_iff.1 hi
      have hg := List.Forall₂.get hin hil (by rw [← hin.length_eq]; exact hil)
      simp only [List.get_eq_getElem, hie] at hg
      exact lt_of_lt_of_le hg (r3 _ (List.getElem_mem _))
    rw [hkeys]
    refine ⟨by simp, hs.nodup, hs.mem, ?_, hs.single⟩
    intro k u m hk hm
    dsimp only at hk hm
    rw [List.getElem?_map, List.getElem?_map, hk] at hm
    simp only [Option.map_some, Option.some.injEq] at hm
    rw [← hm]

theorem forall₂_exists_right {α β : Type _} {R : α → β → Prop} {l : List α} {l' : List β} (h : List.Forall₂ R l l') {a : α} (ha : a ∈ l) : ∃ b ∈ l', R a b := by
  induction h with
  | nil => simp at ha
  | cons hr _ ih =>
    rcases List.mem_cons.1 ha with rfl | ha
    · exact ⟨_, by simp, hr⟩
    · obtain ⟨b, h1, h2⟩ := ih ha
      exact ⟨b, by simp [h1], h2⟩

/-- **C170** A network can be exported and read back if and only if it has an edge, no `=` is followed by a digit in the labels of its parents and of its variables
without parents, and every parent has at most ten states. -/
theorem network_reads_back_iff {labels : List Label} {table : List Edge} {cims : List (Label × SetOfCims)} {N : Ctbn}
    (hD : Describes (SampleNet.new labels table cims) N) (hOK : N.OK) :
    (∃ json net', cimsToJson labels table cims = .ok json ∧ SampleNet.ofImporter labels table json = .ok net' ∧ Describes net' N) ↔
      table ≠ [] ∧ ∀ v ∈ N.vars, (N.parents v = [] → ReadableLabel v) ∧ ∀ p ∈ N.parents v, ReadableLabel p ∧ N.card p ≤ 10 := by
  have hvn : labels = N.vars := hD.vnames
  have hpar : ∀ v ∈ N.vars, tableParents table v = N.parents v := by
    intro v hv
    have := hD.parents
    unfold SampleNet.new at this
    simp only [hvn] at this
    have := List.map_inj_left.1 this v hv
    exact (Prod.mk.inj this).2
  have : Nonempty SetOfCims := ⟨⟨"", [], 0, [], false, []⟩⟩
  choose! sf hsf using hD.cims
  have hexp : ∀ v ∈ N.vars, ∃ d, exportNode v (N.parents v) (sf v) = .ok d := fun v hv => ⟨_, (exported_node (hsf v hv).2 v (by simp [Ctbn.parentCards])).1⟩
  choose! df hdf using hexp
  have hjson : cimsToJson labels table cims = .ok (labels.map (fun v => (v, df v))) := by
    unfold cimsToJson
    have := fold_dictSet (f := fun l => (.ok l : Py String)) (g := fun l => do
        let s ← dictGet cims l
        exportNode l (tableParents table l) s) id df labels (by
      intro v hv
      have hv' : v ∈ N.vars := hvn ▸ hv
      refine ⟨rfl, ?_⟩
      have h1 : dictGet cims v = .ok (sf v) := (hsf v hv').1
      rw [h1, hpar v hv']
      exact hdf v hv') (by rw [List.map_id, hvn]; exact hOK.nodup) [] (by simp)
    rw [List.nil_append] at this
    rw [show labels.map (fun v => (v, df v)) = labels.map (fun v => (id v, df v)) from rfl, ← this]
    congr 1
    funext d l
    simp only [Except.bind_ok']
    cases dictGet cims l with
    | error e => rfl
    | ok s =>
      simp only [Except.bind_ok']
  have hnode : ∀ v ∈ N.vars, (∃ d s', exportNode v (N.parents v) (sf v) = .ok d ∧ readNode v d = .ok s' ∧ Stores (N.parentCards v) (N.cim v) s') ↔
      (N.parents v = [] → ReadableLabel v) ∧ ∀ p ∈ N.parents v, ReadableLabel p ∧ N.card p ≤ 10 := by
    intro v hv
    rw [node_reads_back_iff (hsf v hv).2 (fun c hc => by
        obtain ⟨p, hp, rfl⟩ := List.mem_map.1 hc
        exact hOK.pos p (hOK.closed v hv p hp)) (by simp [Ctbn.parentCards]) (c := N.card v)
      (fun u hu => (hOK.cims v hv u (((hsf v hv).2.mem u).1 hu)).cols)]
    have : (∀ c ∈ N.parentCards v, c ≤ 10) ↔ ∀ p ∈ N.parents v, N.card p ≤ 10 := by simp [Ctbn.parentCards]
    rw [this]
    exact ⟨fun h => ⟨h.1, fun p hp => ⟨h.2.1 p hp, h.2.2 p hp⟩⟩, fun h => ⟨h.1, fun p hp => (h.2 p hp).1, fun p hp => (h.2 p hp).2⟩⟩
  constructor
  · rintro ⟨json, net', e1, e2, hD'⟩
    rw [hjson] at e1
    cases e1
    have htab : table ≠ [] := by
      rintro rfl
      rw [no_edges_not_read labels (by rw [hvn]; exact hOK.nonempty)] at e2
      cases e2
    refine ⟨htab, fun v hv => (hnode v hv).1 ?_⟩
    unfold SampleNet.ofImporter at e2
    rw [if_neg (fun h => htab h.1)] at e2
    cases hm : (labels.map (fun v => (v, df v))).mapM (fun p => do
        let s ← readNode p.1 p.2
        return (p.1, s)) with
    | error e => rw [hm] at e2; cases e2
    | ok rs =>
      rw [hm] at e2
      cases e2
      rw [List.mapM_map] at hm
      have hall : ∀ v ∈ N.vars, ∃ s', readNode v (df v) = .ok s' := by
        intro v hv
        obtain ⟨b, -, hb⟩ := forall₂_exists_right (mapM_ok_mem hm) (hvn ▸ hv : v ∈ labels)
        cases hr : readNode v (df v) with
        | ok s' => exact ⟨s', rfl⟩
        | error e =>
          have hb : (do let s ← readNode v (df v); return (v, s)) = Except.ok b := hb
          rw [hr] at hb
          cases hb
      choose! sf' hsf' using hall
      rw [mapM_congr_py (f' := fun v => (.ok (v, sf' v) : Py (Label × SetOfCims)))] at hm
      · rw [mapM_pure_ok] at hm
        cases hm
        obtain ⟨s', g1, g2⟩ := hD'.cims v hv
        have g3 : dictGet (labels.map (fun v => (v, sf' v))) v = .ok (sf' v) := dictGet_map (hvn ▸ hv)
        dsimp only at g1
        rw [g3] at g1
        cases g1
        exact ⟨_, _, hdf v hv, hsf' v hv, g2⟩
      · intro v hv
        show (do let s ← readNode v (df v); return (v, s)) = _
        rw [hsf' v (hvn ▸ hv)]; rfl
  · rintro ⟨htab, hr⟩
    have hall : ∀ v ∈ N.vars, ∃ s', readNode v (df v) = .ok s' ∧ Stores (N.parentCards v) (N.cim v) s' := by
      intro v hv
      obtain ⟨d, s', g1, g2, g3⟩ := (hnode v hv).2 (hr v hv)
      rw [hdf v hv] at g1
      cases g1
      exact ⟨s', g2, g3⟩
    choose! sf' hsf' using hall
    refine ⟨_, ⟨labels, labels.map (fun v => (v, tableParents table v)), labels.map (fun v => (v, sf' v))⟩, hjson, ?_,
      ⟨hvn, hD.parents, fun v hv => ⟨sf' v, dictGet_map (hvn ▸ hv), (hsf' v hv).2⟩⟩⟩
    unfold SampleNet.ofImporter
    rw [if_neg (fun h => htab h.1), List.mapM_map, mapM_congr_py (f' := fun v => (.ok (v, sf' v) : Py (Label × SetOfCims)))]
    · rw [mapM_pure_ok]; rfl
    · intro v hv
      show (do let s ← readNode v (df v); return (v, s)) = _
      rw [(hsf' v (hvn ▸ hv)).1]; rfl

/-- **C170** (with a file).  A written file with trajectories gives the sampler of the exported network under the same conditions and no others. -/
theorem sampler_from_file_iff {labels : List Label} {table : List Edge} {cims : List (Label × SetOfCims)} {N : Ctbn}
    (hD : Describes (SampleNet.new labels table cims) N) (hOK : N.OK) (hT : "Time" ∉ N.vars) (hcl : NoSuffixClash N.vars) {samples : List RawTraj}
    (hs : ∀ rows ∈ samples, ∃ tEnd maxTr draws, Samples (SampleNet.new labels table cims) tEnd maxTr draws rows) {enc : ℚ → ℚ}
    (henc : ∀ q, FourDecimals q → enc q = q) :
    (∃ file net', (exporterOf labels (N.vars.map N.card) table cims (samples.map (SampleNet.frame N.vars))).outFile enc = .ok file ∧
      samplerFromFile (exportKeys (some "dyn.cims")) file 0 = .ok net' ∧ Describes net' N) ↔
      samples ≠ [] ∧ table ≠ [] ∧ ∀ v ∈ N.vars, (N.parents v = [] → ReadableLabel v) ∧ ∀ p ∈ N.parents v, ReadableLabel p ∧ N.card p ≤ 10 := by
  obtain ⟨json, file, h1, h2, h3, h4⟩ := exported_file_reads_back hD hOK hT hs henc
  have hvn : labels = N.vars := hD.vnames
  have hwid : ∀ rows ∈ samples, ∀ r ∈ rows, r.2.length = N.vars.length := by
    intro rows hr
    obtain ⟨tEnd, maxTr, draws, h⟩ := hs rows hr
    exact (sample_in_range hD hOK h).1
  rw [← network_reads_back_iff hD hOK]
  by_cases hne : samples = []
  · subst hne
    constructor
    · rintro ⟨file', net', k1, k2, -⟩
      rw [h2] at k1
      cases k1
      unfold samplerFromFile at k2
      rw [h3] at k2
      cases k2
    · rintro ⟨h, -⟩
      exact absurd rfl h
  · obtain ⟨imp, himp, hiv, hie⟩ : ∃ imp, jsonImportData "Time" (samples.map (SampleNet.frame N.vars))
        ⟨List.range N.vars.length, N.vars, N.vars.map N.card⟩ table = .ok imp ∧
        imp.vars = some ⟨List.range N.vars.length, N.vars, N.vars.map N.card⟩ ∧ imp.edges = some table := by
      cases samples with
      | nil => exact absurd rfl hne
      | cons a rest =>
        have hall : ∀ L : List RawTraj, (∀ rows ∈ L, ∀ r ∈ rows, r.2.length = N.vars.length) →
            List.Forall₂ (fun f raw => Holds "Time" N.vars f raw ∧ LastLabelUnique f) (L.map (SampleNet.frame N.vars)) L := by
          intro L
          induction L with
          | nil => intro _; exact .nil
          | cons b L ih =>
            intro hb
            have := frame_holds hOK.nodup hT (hb b (by simp))
            exact .cons ⟨this.1, this.2.1⟩ (ih (fun rows hr => hb rows (by simp [hr])))
        obtain ⟨C', himp, -⟩ := preprocessing_yields_consecutive_pairs N.vars hOK.nonempty hcl (SampleNet.frame N.vars a)
          (rest.map (SampleNet.frame N.vars)) (a :: rest) (frame_holds hOK.nodup hT (hwid a (by simp))).2.2 (hall _ hwid)
          ⟨List.range N.vars.length, N.vars, N.vars.map N.card⟩ table
        exact ⟨_, himp, rfl, rfl⟩
    have hsam : samplerFromFile (exportKeys (some "dyn.cims")) file 0 = SampleNet.ofImporter labels table json := by
      unfold samplerFromFile
      rw [h3, himp]
      simp only [Except.bind_ok', Except.pure_eq_ok', hiv, hie, h4]
      rw [← hvn]
    constructor
    · rintro ⟨file', net', k1, k2, k3⟩
      rw [h2] at k1
      cases k1
      rw [hsam] at k2
      exact ⟨hne, json, net', h1, k2, k3⟩
    · rintro ⟨-, json', net', k1, k2, k3⟩
      rw [h1] at k1
      cases k1
      exact ⟨file, net', h2, hsam.trans k2, k3⟩

/-! ## Cases -/

namespace Demo

/-- Labels may contain `=`, as long as no digit follows. -/
example : ReadableLabel "rate=high" ∧ ReadableLabel "x=" ∧ ¬ ReadableLabel "k=2" := by
  refine ⟨(readable_iff _).2 (by decide +kernel), (readable_iff _).2 (by decide +kernel), fun h => ?_⟩
  have := (readable_iff _).1 h
  revert this
  decide +kernel

/-- The network of the demonstration is read back. -/
example : ∃ json net', cimsToJson ["X", "Y"] [("X", "Y")] [("X", sX), ("Y", sY)] = .ok json ∧
    SampleNet.ofImporter ["X", "Y"] [("X", "Y")] json = .ok net' ∧ Describes net' ctbn := by
  rw [network_reads_back_iff (N := ctbn) describes ok]
  refine ⟨by simp, fun v hv => ?_⟩
  simp only [ctbn, List.mem_cons, List.not_mem_nil, or_false] at hv
  have hx : ReadableLabel "X" := (readable_iff _).2 (by decide +kernel)
  rcases hv with rfl | rfl
  · exact ⟨fun _ => hx, fun p hp => by simp [ctbn] at hp⟩
  · refine ⟨fun h => by simp [ctbn] at h, fun p hp => ?_⟩
    have : p = "X" := by simpa [ctbn] using hp
    subst this
    exact ⟨hx, by decide⟩

end Demo
end PyCTBN
