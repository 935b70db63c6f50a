import Verif.Solver.OffsetLemmas
import Verif.Solver.SqpModel

/-! Lemmas for C85: how a constant in the cost passes through the SQP solver. -/

namespace Slp

open Classical

variable {n m : ℕ} {c : ℝ}

/-- A trial point. -/
noncomputable def SqpTrial.offset (c : ℝ) (t : SqpTrial n m) : SqpTrial n m := { t with f := t.f + .fin c }

/-- A state. -/
noncomputable def SqpState.offset (c : ℝ) (st : SqpState n m) : SqpState n m :=
  { st with e := st.e.offset c, filter := st.filter.offset c }

/-- What an iteration leads to. -/
noncomputable def SqpMoved.offset (c : ℝ) : SqpMoved n m → SqpMoved n m
  | .stop r => .stop r
  | .go st w => .go (st.offset c) w

theorem sqpEntry_offset (f : Fl) (ce : Vec m) : sqpEntry (f + .fin c) ce = (sqpEntry f ce).offset c := rfl

theorem SqpState.entry_offset (st : SqpState n m) : (st.offset c).entry = st.entry.offset c := rfl

theorem SqpTrial.entry_offset (t : SqpTrial n m) (ce : Vec m) : sqpEntry (t.offset c).f ce = (sqpEntry t.f ce).offset c := rfl

theorem SqpTrial.offset_ce (t : SqpTrial n m) : (t.offset c).ce = t.ce := rfl

theorem sqpTrial_offset (P : Nlp n m 0) (st : SqpState n m) (p : SqpStep n m) (α : Fl) :
    sqpTrial (P.offset c) (st.offset c) p α = (sqpTrial P st p α).offset c := rfl

theorem sqpComputeStep_offset (env : Env) (st : SqpState n m) : sqpComputeStep env (st.offset c) = sqpComputeStep env st := rfl

/-- The second-order corrections. -/
noncomputable def SqpSoc.offset (c : ℝ) (r : SqpSoc n m) : SqpSoc n m :=
  ⟨r.filter.offset c, r.solves, r.accepted.map (.offset c)⟩

theorem sqpSocLoop_offset (env : Env) (P : Nlp n m 0) (st : SqpState n m) (D α : Fl) (r : ℕ) (ce : Vec m) (t : SqpTrial n m)
    (viol : Fl) (F : Filter) (i : ℕ) :
    sqpSocLoop env (P.offset c) (st.offset c) D α r ce (t.offset c) viol (F.offset c) i =
      (sqpSocLoop env P st D α r ce t viol F i).offset c := by
  induction r generalizing ce t viol F i with
  | zero => rfl
  | succ r ih =>
    rw [sqpSocLoop, sqpSocLoop]
    simp only [sqpTrial_offset, sqpComputeStep_offset, SqpState.entry_offset, SqpTrial.entry_offset, tryAdd_offset,
      SqpTrial.offset_ce, ih]
    split_ifs <;> rfl

theorem sqpSoc_offset (env : Env) (P : Nlp n m 0) (st : SqpState n m) (D α : Fl) (t : SqpTrial n m) (F : Filter) (i : ℕ) :
    sqpSoc env (P.offset c) (st.offset c) D α (t.offset c) (F.offset c) i = (sqpSoc env P st D α t F i).offset c := by
  unfold sqpSoc
  simp only [sqpSocLoop_offset, SqpTrial.offset_ce, show (st.offset c).e.ce = st.e.ce from rfl]
  split_ifs <;> rfl

/-- The line search. -/
noncomputable def SqpLineSearch.offset (c : ℝ) (ls : SqpLineSearch n m) : SqpLineSearch n m :=
  { ls with accepted := ls.accepted.map fun b => (b.1, b.2.1.offset c, b.2.2), filter := ls.filter.offset c }

theorem sqpLineSearch_offset (env : Env) (P : Nlp n m 0) (st : SqpState n m) (p : SqpStep n m) (D : Fl) (r : ℕ) (α : Fl)
    (F : Filter) (j i : ℕ) : sqpLineSearch env (P.offset c) (st.offset c) p D r α (F.offset c) j i =
      (sqpLineSearch env P st p D r α F j i).map (.offset c) := by
  induction r generalizing α F j i with
  | zero => rfl
  | succ r ih =>
    rw [sqpLineSearch, sqpLineSearch]
    simp only [sqpTrial_offset, SqpState.entry_offset, SqpTrial.entry_offset, tryAdd_offset, sqpSoc_offset, SqpTrial.offset_ce,
      show ((sqpTrial P st p α).offset c).f.isFinite = (sqpTrial P st p α).f.isFinite from Fl.offset_isFinite _, ih]
    by_cases h1 : (sqpTrial P st p α).f.isFinite = true ∧ (sqpTrial P st p α).ce.Finite
    · rw [if_neg (not_not.2 h1), if_neg (not_not.2 h1)]
      generalize F.tryAdd st.entry _ D α = a
      by_cases h2 : a.2 = true
      · rw [if_pos h2, if_pos h2]; rfl
      · rw [if_neg h2, if_neg h2]
        generalize sqpSoc env P st D α (sqpTrial P st p α) a.1 i = soc
        obtain ⟨sF, si, sa⟩ := soc
        cases sa with
        | some b => rfl
        | none =>
          simp only [SqpSoc.offset, Option.map_none, Option.elim_none, show (sF.offset c).maxViolation = sF.maxViolation from rfl,
            show (sF.offset c).lastRejectionDueToFilter = sF.lastRejectionDueToFilter from rfl, shrink_offset, ih,
            show (st.entry.offset c).violation = st.entry.violation from rfl]
          change (if _ then _ else if _ then if errOneSqp env ((sqpTrial P st p 1).eval P) (sqpTrial P st p 1).y ≤
            Fl.fin 0.999 * errOneSqp env st.e st.y then _ else _ else _) = _
          split_ifs <;> rfl
    · rw [if_pos h1, if_pos h1]
      split_ifs <;> rfl

theorem extraSqp_shifts (env : Env) (P : Nlp n m 0) (st : SqpState n m) (α : Fl) :
    (extraSqp env P st α).Shifts (extraSqp env (P.offset c) (st.offset c) α) c := by
  intro F info
  unfold extraSqp
  simp only [show ∀ x, (P.offset c).f x = P.f x + .fin c from fun _ => rfl, sqpEntry_offset, tryAdd_offset,
    show (P.offset c).ce = P.ce from rfl, show (st.offset c).x = st.x from rfl, show (st.offset c).e.ce = st.e.ce from rfl,
    show (st.offset c).e.g = st.e.g from rfl, show ∀ e : FilterEntry, (e.offset c).violation = e.violation from fun _ => rfl]
  split_ifs <;> rfl

theorem restoreSqp_offset (env : Env) (opts : SolverOptions) (P : Nlp n m 0) (cbs : List Callback) (st : SqpState n m)
    (α : Fl) (w : World) : restoreSqp env opts (P.offset c) cbs (st.offset c) α w =
      (restoreSqp env opts P cbs st α w).map (.offset c) := by
  unfold restoreSqp
  simp only [show (st.offset c).x = st.x from rfl, show (st.offset c).iterations = st.iterations from rfl,
    show (st.offset c).filter = st.filter.offset c from rfl, frRun_offset env opts P cbs (extraSqp_shifts env P st α)]
  cases frRun env opts P cbs (extraSqp env P st α) st.x _ _ st.iterations w st.filter with
  | none => rfl
  | some res =>
    simp only [Option.map_some]
    simp only [show (res.offset c).status = res.status from rfl]
    split_ifs <;> rfl

theorem sqpMove_offset (env : Env) (opts : SolverOptions) (P : Nlp n m 0) (cbs : List Callback) (st : SqpState n m)
    (w : World) : sqpMove env opts (P.offset c) cbs (st.offset c) w = (sqpMove env opts P cbs st w).map (.offset c) := by
  unfold sqpMove
  simp only [sqpComputeStep_offset, show (st.offset c).e.ce = st.e.ce from rfl, show (st.offset c).e.g = st.e.g from rfl,
    show (st.offset c).filter = st.filter.offset c from rfl, show (st.offset c).rejected = st.rejected from rfl,
    sqpLineSearch_offset]
  split_ifs with h1
  · rfl
  · generalize sqpLineSearch env P st _ _ _ _ _ _ _ = ls
    obtain _ | ⟨_ | b, lα, lF, lr, li⟩ := ls
    · rfl
    · exact restoreSqp_offset env opts P cbs { st with filter := lF, rejected := lr } _ _
    · rfl

theorem errZeroSqp_offset (env : Env) (S : Scaling m 0) (e : Eval n m 0) (y : Vec m) :
    errZeroSqp env S (e.offset c) y = errZeroSqp env S e y := by
  unfold errZeroSqp; rfl

theorem SqpState.exit_offset (st : SqpState n m) (status : ExitStatus) (w : World) :
    (st.offset c).exit status w = st.exit status w := by
  unfold SqpState.exit; rfl

theorem SqpState.info_offset (st : SqpState n m) : (st.offset c).info = st.info := by
  unfold SqpState.info; rfl

theorem sqpLoop_offset (env : Env) (opts : SolverOptions) (P : Nlp n m 0) (cbs : List Callback) (start : ℝ) (r : ℕ)
    (st : SqpState n m) (w : World) :
    sqpLoop env opts (P.offset c) cbs start r (st.offset c) w = sqpLoop env opts P cbs start r st w := by
  induction r generalizing st w with
  | zero => rw [sqpLoop, sqpLoop]
  | succ r ih =>
    rw [sqpLoop, sqpLoop]
    simp only [show (st.offset c).E0 = st.E0 from rfl, show (st.offset c).e.Ae = st.e.Ae from rfl,
      show (st.offset c).e.ce = st.e.ce from rfl, show (st.offset c).x = st.x from rfl, SqpState.info_offset,
      SqpState.exit_offset, sqpMove_offset]
    refine ite_congr rfl (fun _ => rfl) fun _ => ite_congr rfl (fun _ => rfl) fun _ => ite_congr rfl (fun _ => rfl) fun _ =>
      ite_congr rfl (fun _ => rfl) fun _ => ?_
    generalize sqpMove env opts P cbs st _ = M
    obtain _ | ⟨_ | ⟨st2, w2⟩⟩ := M
    · simp only [Option.map_none, Option.bind_none]
    · simp only [Option.map_some, Option.bind_some, SqpMoved.offset, SqpMoved.elim]
    · have h3 : ({ st2.offset c with
            E0 := errZeroSqp env (P.offset c).scaling (st2.offset c).e (st2.offset c).y
            iterations := (st2.offset c).iterations + 1 } : SqpState n m) =
          SqpState.offset c { st2 with E0 := errZeroSqp env P.scaling st2.e st2.y, iterations := st2.iterations + 1 } := by
        rw [show (st2.offset c).e = st2.e.offset c from rfl, errZeroSqp_offset]; rfl
      simp only [Option.map_some, Option.bind_some, SqpMoved.offset, SqpMoved.elim]
      rw [h3]
      simp only [SqpState.exit_offset, ih]
      exact ite_congr rfl (fun _ => rfl) fun _ => rfl

end Slp
