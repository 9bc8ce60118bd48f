import Verif.Model.Ctpc

/-! The search loops with an explicit bound, in a form the kernel can evaluate on examples. -/

namespace PyCTBN

variable {σ : Type}

/-- `innerLoop` by structural recursion. -/
def innerLoopF (T : CBTest σ) (child : Label) (b : Nat) : Nat → List Label → NetworkGraph → Nat → σ →
    Py (List Label × NetworkGraph) × σ
  | 0, u, g, _, s => (.ok (u, g), s)
  | k + 1, u, g, idx, s =>
    match u[idx]? with
    | none => (.ok (u, g), s)
    | some p =>
      match visit T b u p s with
      | (.error e, s) => (.error e, s)
      | (.ok true, s) => innerLoopF T child b k (u.erase p) (g.removeEdges [(p, child)]) idx s
      | (.ok false, s) => innerLoopF T child b k u g (idx + 1) s

theorem innerLoop_eq_F (T : CBTest σ) (child : Label) (b : Nat) (u : List Label) (g : NetworkGraph) (idx : Nat) (s : σ)
    (k : Nat) (hk : u.length - idx ≤ k) : innerLoop T child b u g idx s = innerLoopF T child b k u g idx s := by
  induction k generalizing u g idx s with
  | zero => rw [innerLoop.eq_def, dif_neg (by omega)]; rfl
  | succ k ih =>
    rw [innerLoop.eq_def, innerLoopF]
    by_cases h : idx < u.length
    · rw [dif_pos h, List.getElem?_eq_getElem h]
      simp only
      generalize visit T b u u[idx] s = r
      obtain ⟨r1, s1⟩ := r
      cases r1 with
      | error e => rfl
      | ok v =>
        cases v with
        | true =>
          simp only
          refine ih _ _ _ _ ?_
          have := List.length_erase_of_mem (List.getElem_mem h)
          omega
        | false => exact ih _ _ _ _ (by omega)
    · rw [dif_neg h, List.getElem?_eq_none (by omega)]

/-- `outerLoop` by structural recursion. -/
def outerLoopF (T : CBTest σ) (child : Label) : Nat → Nat → List Label → NetworkGraph → σ →
    Py (List Label × NetworkGraph) × σ
  | 0, _, u, g, s => (.ok (u, g), s)
  | k + 1, b, u, g, s =>
    if b < u.length then
      match innerLoopF T child b u.length u g 0 s with
      | (.error e, s) => (.error e, s)
      | (.ok (u', g'), s) => outerLoopF T child k (b + 1) u' g' s
    else (.ok (u, g), s)

theorem outerLoop_eq_F (T : CBTest σ) (child : Label) (b : Nat) (u : List Label) (g : NetworkGraph) (s : σ)
    (k : Nat) (hk : u.length - b ≤ k) : outerLoop T child b u g s = outerLoopF T child k b u g s := by
  induction k generalizing b u g s with
  | zero => rw [outerLoop.eq_def, if_neg (by omega)]; rfl
  | succ k ih =>
    rw [outerLoop.eq_def, outerLoopF]
    by_cases h : b < u.length
    · rw [if_pos h, if_pos h]
      have he := innerLoop_eq_F T child b u g 0 s u.length (by omega)
      split
      · rename_i heq; rw [he] at heq; rw [heq]
      · rename_i u' g' s' heq
        have hl := innerLoop_length T child b u g 0 s heq
        rw [he] at heq
        rw [heq]
        exact ih _ _ _ _ (by omega)
    · rw [if_neg h, if_neg h]

namespace CBEnv

/-- `optimize` in evaluable form. -/
def optimizeF (E : CBEnv) (st : CBState) (child : Label) : Py (List Edge) × CBState :=
  match E.struct.getStatesNumber child with
  | .error e => (.error e, st)
  | .ok c =>
    match outerLoopF (E.calls child c) child (E.others child).length 0 (E.others child) (E.startGraph child) st with
    | (.error e, st) => (.error e, st)
    | (.ok (_, g), st) => (.ok g.edges, { st with cache := st.cache.clear })

theorem optimize_eq_F (E : CBEnv) (st : CBState) (child : Label) : E.optimize st child = E.optimizeF st child := by
  unfold optimize optimizeF
  cases E.struct.getStatesNumber child with
  | error e => rfl
  | ok c =>
    simp only
    rw [outerLoop_eq_F (E.calls child c) child 0 (E.others child) (E.startGraph child) st (E.others child).length (by omega)]
    rfl

/-- `ctpcSeqLoop` in evaluable form. -/
def seqLoopF (E : CBEnv) : List Label → CBState → Py (List (List Edge)) × CBState
  | [], st => (.ok [], st)
  | n :: ns, st =>
    match E.optimizeF st n with
    | (.error e, st) => (.error e, st)
    | (.ok es, st) =>
      match seqLoopF E ns st with
      | (.error e, st) => (.error e, st)
      | (.ok ess, st) => (.ok (es :: ess), st)

theorem seqLoop_eq_F (E : CBEnv) (ns : List Label) (st : CBState) : E.ctpcSeqLoop ns st = E.seqLoopF ns st := by
  induction ns generalizing st with
  | nil => rfl
  | cons n ns ih =>
    rw [ctpcSeqLoop, seqLoopF, optimize_eq_F]
    generalize E.optimizeF st n = r
    obtain ⟨r1, s1⟩ := r
    cases r1 with
    | error e => rfl
    | ok es =>
      simp only
      rw [ih]
      rfl

/-- `ctpcSequential` in evaluable form. -/
def sequentialF (E : CBEnv) (st : CBState) : Py (List Edge) × CBState :=
  match E.seqLoopF E.struct.labels st with
  | (.error e, st) => (.error e, st)
  | (.ok ess, st) => (.ok ess.flatten, st)

theorem sequential_eq_F (E : CBEnv) (st : CBState) : E.ctpcSequential st = E.sequentialF st := by
  unfold ctpcSequential sequentialF; rw [seqLoop_eq_F]; rfl

end CBEnv
end PyCTBN
