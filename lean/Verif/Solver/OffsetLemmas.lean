import Verif.Solver.RestoreLoopModel

/-! Lemmas for C85: how a constant in the cost passes through filters, line searches and restorations. -/

namespace Slp

open Classical

variable {n m k : ℕ} {c d : ℝ}

/-! ### Numbers and filters -/

theorem Fl.offset_le (a b : Fl) : a + .fin c ≤ b + .fin c ↔ a ≤ b := by
  cases a <;> cases b <;> first | exact Iff.rfl | (simp only [Fl.fin_add, Fl.fin_le]; exact add_le_add_iff_right c)

theorem Fl.offset_add (a b : Fl) : a + .fin c + b = a + b + .fin c := by
  cases a <;> cases b <;> first | rfl | (simp only [Fl.fin_add]; congr 1; ring)

theorem Fl.offset_sub (a b : Fl) : a + .fin c - b = a - b + .fin c := Fl.offset_add a (-b)

theorem Fl.offset_isFinite (a : Fl) : (a + .fin c).isFinite = a.isFinite := by cases a <;> rfl

theorem Fl.offset_zero (a : Fl) : a + .fin 0 = a := by
  cases a <;> first | rfl | (simp only [Fl.fin_add, add_zero])

/-- The entry of the same point if the cost has a constant more. -/
noncomputable def FilterEntry.offset (c : ℝ) (e : FilterEntry) : FilterEntry := ⟨e.cost + .fin c, e.violation⟩

/-- The filter for the cost with a constant more. -/
noncomputable def Filter.offset (c : ℝ) (F : Filter) : Filter := { F with entries := F.entries.map (.offset c) }

theorem FilterEntry.offset_zero (e : FilterEntry) : e.offset 0 = e := by
  cases e; simp only [FilterEntry.offset, Fl.offset_zero]

theorem Filter.offset_zero (F : Filter) : F.offset 0 = F := by
  cases F
  simp only [Filter.offset, Filter.mk.injEq, true_and, and_true]
  exact (List.map_congr_left fun e _ => FilterEntry.offset_zero e).trans (List.map_id _)

theorem dominatedBy_offset (a b : FilterEntry) : (a.offset c).dominatedBy (b.offset c) ↔ a.dominatedBy b :=
  and_congr (Fl.offset_le _ _) Iff.rfl

theorem inFilter_offset (F : Filter) (e : FilterEntry) : (F.offset c).inFilter (e.offset c) ↔ F.inFilter e := by
  unfold Filter.inFilter Filter.offset
  simp only [List.mem_map]
  constructor
  · rintro ⟨_, ⟨x, hx, rfl⟩, h⟩
    exact ⟨x, hx, (dominatedBy_offset _ _).1 h⟩
  · rintro ⟨x, hx, h⟩
    exact ⟨_, ⟨x, hx, rfl⟩, (dominatedBy_offset _ _).2 h⟩

theorem add_offset (F : Filter) (e : FilterEntry) : (F.offset c).add (e.offset c) = (F.add e).offset c := by
  simp only [Filter.add, Filter.offset, List.map_append, List.map_cons, List.map_nil, List.filter_map]
  congr 3
  refine List.filter_congr fun x _ => ?_
  simp only [Function.comp_apply, dominatedBy_offset]

theorem switching_offset (e : FilterEntry) (D α : Fl) : switching (e.offset c) D α ↔ switching e D α := Iff.rfl

theorem armijo_offset (a b : FilterEntry) (D α : Fl) : armijo (a.offset c) (b.offset c) D α ↔ armijo a b D α := by
  unfold armijo FilterEntry.offset
  simp only
  rw [Fl.offset_add, Fl.offset_le]

theorem envelope_offset (e : FilterEntry) (α : Fl) : envelope (e.offset c) α = (envelope e α).offset c := by
  simp only [envelope, FilterEntry.offset, Fl.offset_sub]

theorem sufficientDecrease_offset (a b : FilterEntry) (α : Fl) :
    sufficientDecrease (a.offset c) (b.offset c) α ↔ sufficientDecrease a b α := by
  unfold sufficientDecrease
  rw [envelope_offset]
  exact or_congr (Fl.offset_le _ _) Iff.rfl

theorem finish_offset (F : Filter) (a b : FilterEntry) (D α : Fl) : (F.offset c).finish (a.offset c) (b.offset c) D α =
    ((F.finish a b D α).1.offset c, (F.finish a b D α).2) := by
  unfold Filter.finish
  simp only [inFilter_offset, switching_offset, armijo_offset, envelope_offset, add_offset]
  split_ifs <;> rfl

theorem tryAdd_offset (F : Filter) (a b : FilterEntry) (D α : Fl) : (F.offset c).tryAdd (a.offset c) (b.offset c) D α =
    ((F.tryAdd a b D α).1.offset c, (F.tryAdd a b D α).2) := by
  unfold Filter.tryAdd
  simp only [finish_offset, switching_offset, armijo_offset, sufficientDecrease_offset,
    show (b.offset c).cost.isFinite = b.cost.isFinite from Fl.offset_isFinite _,
    show (b.offset c).violation = b.violation from rfl, show (a.offset c).violation = a.violation from rfl,
    show (F.offset c).maxViolation = F.maxViolation from rfl, show (F.offset c).minViolation = F.minViolation from rfl]
  split_ifs <;> rfl

theorem make_offset (v : Fl) : (Filter.make v).offset c = .make v := rfl
theorem reset_offset (F : Filter) : (F.offset c).reset = F.reset.offset c := rfl
theorem shrink_offset (F : Filter) : (F.offset c).shrink = F.shrink.offset c := rfl

/-! ### The interior-point solver -/

/-- The problem with a constant more in the cost. -/
noncomputable def Nlp.offset (c : ℝ) (P : Nlp n m k) : Nlp n m k := { P with f := fun x => P.f x + .fin c }

/-- Values at a point. -/
noncomputable def Eval.offset (c : ℝ) (e : Eval n m k) : Eval n m k := { e with f := e.f + .fin c }

/-- A trial point. -/
noncomputable def Trial.offset (c : ℝ) (t : Trial n m k) : Trial n m k := { t with f := t.f + .fin c }

/-- A state. -/
noncomputable def IpmState.offset (c : ℝ) (st : IpmState n m k) : IpmState n m k :=
  { st with e := st.e.offset c, filter := st.filter.offset c }

/-- The result of a solver whose further callback has a filter with a constant more. -/
noncomputable def IpmResult.offset (d : ℝ) (r : IpmResult n m k) : IpmResult n m k :=
  { r with extraFilter := r.extraFilter.offset d }

/-- What an iteration leads to. -/
noncomputable def Moved.offset (c d : ℝ) : Moved n m k → Moved n m k
  | .stop r => .stop (r.offset d)
  | .go st w E => .go (st.offset c) w (E.offset d)

theorem Nlp.offset_zero (P : Nlp n m k) : P.offset 0 = P := by
  cases P; simp only [Nlp.offset, Fl.offset_zero]

theorem Eval.offset_zero (e : Eval n m k) : e.offset 0 = e := by
  cases e; simp only [Eval.offset, Fl.offset_zero]

theorem IpmState.offset_zero (st : IpmState n m k) : st.offset 0 = st := by
  cases st; simp only [IpmState.offset, Eval.offset_zero, Filter.offset_zero]

theorem Moved.offset_zero (M : Moved n m k) : M.offset 0 d = M.elim (fun r => .stop (r.offset d)) fun st w E => .go st w (E.offset d) := by
  cases M <;> simp only [Moved.offset, IpmState.offset_zero, Moved.elim]

theorem ipmEntry_offset (f : Fl) (s : Vec k) (ce : Vec m) (ci : Vec k) (μ : Fl) :
    ipmEntry (f + .fin c) s ce ci μ = (ipmEntry f s ce ci μ).offset c := by
  simp only [ipmEntry, FilterEntry.ipm, FilterEntry.offset, Fl.offset_sub]

theorem IpmState.entry_offset (st : IpmState n m k) : (st.offset c).entry = st.entry.offset c := ipmEntry_offset ..

theorem Trial.entry_offset (t : Trial n m k) (μ : Fl) : (t.offset c).entry μ = (t.entry μ).offset c := ipmEntry_offset ..

theorem ipmTrial_offset (P : Nlp n m k) (st : IpmState n m k) (p : IpmStep n m k) (α αz : Fl) (b : Prop) :
    ipmTrial (P.offset c) (st.offset c) p α αz b = (ipmTrial P st p α αz b).offset c := rfl

theorem Trial.finite_offset (t : Trial n m k) : (t.offset c).Finite ↔ t.Finite := by
  unfold Trial.Finite Trial.offset
  rw [Fl.offset_isFinite]

theorem Trial.offset_ce (t : Trial n m k) : (t.offset c).ce = t.ce := rfl
theorem Trial.offset_ci (t : Trial n m k) : (t.offset c).ci = t.ci := rfl
theorem Trial.offset_s (t : Trial n m k) : (t.offset c).s = t.s := rfl

theorem errOneIpm_offset (env : Env) (e : Eval n m k) : errOneIpm env (e.offset c) = errOneIpm env e := rfl

theorem ipmComputeStep_offset (env : Env) (st : IpmState n m k) :
    ipmComputeStep env (st.offset c) = ipmComputeStep env st := rfl

/-- The second-order corrections. -/
noncomputable def SocResult.offset (c : ℝ) (r : SocResult n m k) : SocResult n m k :=
  ⟨r.filter.offset c, r.solves, r.accepted.map fun b => (b.1.offset c, b.2)⟩

theorem socLoop_offset (env : Env) (P : Nlp n m k) (st : IpmState n m k) (D α : Fl) (r : ℕ) (αs : Fl) (ce : Vec m)
    (cis : Vec k) (t : Trial n m k) (viol : Fl) (F : Filter) (i : ℕ) :
    socLoop env (P.offset c) (st.offset c) D α r αs ce cis (t.offset c) viol (F.offset c) i =
      (socLoop env P st D α r αs ce cis t viol F i).offset c := by
  induction r generalizing αs ce cis t viol F i with
  | zero => rfl
  | succ r ih =>
    rw [socLoop, socLoop]
    simp only [show (st.offset c).s = st.s from rfl, show (st.offset c).z = st.z from rfl,
      show (st.offset c).τ = st.τ from rfl, show (st.offset c).μ = st.μ from rfl,
      show (st.offset c).socRhs env = st.socRhs env from rfl, Trial.offset_ce, Trial.offset_ci, Trial.offset_s,
      ipmComputeStep_offset, ipmTrial_offset, IpmState.entry_offset, Trial.entry_offset, tryAdd_offset, ih]
    split_ifs <;> rfl

theorem ipmSoc_offset (env : Env) (P : Nlp n m k) (st : IpmState n m k) (D α αmax : Fl) (t : Trial n m k) (F : Filter)
    (i : ℕ) : ipmSoc env (P.offset c) (st.offset c) D α αmax (t.offset c) (F.offset c) i =
      (ipmSoc env P st D α αmax t F i).offset c := by
  unfold ipmSoc
  simp only [show (st.offset c).s = st.s from rfl, show (st.offset c).e.ce = st.e.ce from rfl,
    show (st.offset c).e.ci = st.e.ci from rfl, Trial.offset_ce, Trial.offset_ci, Trial.offset_s, socLoop_offset]
  split_ifs <;> rfl

/-- The line search. -/
noncomputable def LineSearch.offset (c : ℝ) (ls : LineSearch n m k) : LineSearch n m k :=
  { ls with accepted := ls.accepted.map fun b => (b.1, b.2.1.offset c, b.2.2), filter := ls.filter.offset c }

theorem ipmLineSearch_offset (env : Env) (opts : SolverOptions) (P : Nlp n m k) (st : IpmState n m k) (p : IpmStep n m k)
    (αmax αz D : Fl) (r : ℕ) (α : Fl) (F : Filter) (j i : ℕ) :
    ipmLineSearch env opts (P.offset c) (st.offset c) p αmax αz D r α (F.offset c) j i =
      (ipmLineSearch env opts P st p αmax αz D r α F j i).map (.offset c) := by
  induction r generalizing α F j i with
  | zero => rfl
  | succ r ih =>
    rw [ipmLineSearch, ipmLineSearch]
    simp only [show feasibleMode opts (st.offset c) = feasibleMode opts st from rfl, ipmTrial_offset, Trial.finite_offset,
      show (st.offset c).μ = st.μ from rfl, IpmState.entry_offset, Trial.entry_offset, tryAdd_offset, ipmSoc_offset, ih]
    by_cases h1 : (ipmTrial P st p α αz (feasibleMode opts st)).Finite
    · rw [if_neg (not_not.2 h1), if_neg (not_not.2 h1)]
      generalize (F.tryAdd st.entry ((ipmTrial P st p α αz (feasibleMode opts st)).entry st.μ) D α) = a
      by_cases h2 : a.2 = true
      · rw [if_pos h2, if_pos h2]; rfl
      · rw [if_neg h2, if_neg h2]
        generalize ipmSoc env P st D α αmax (ipmTrial P st p α αz (feasibleMode opts st)) a.1 i = soc
        obtain ⟨sF, si, sa⟩ := soc
        cases sa with
        | some b => rfl
        | none =>
          simp only [SocResult.offset, Option.map_none, Option.elim_none, show (sF.offset c).maxViolation = sF.maxViolation from rfl,
            show (sF.offset c).lastRejectionDueToFilter = sF.lastRejectionDueToFilter from rfl, shrink_offset, ih,
            show (st.entry.offset c).violation = st.entry.violation from rfl]
          change (if _ then _ else if _ then if errOneIpm env ((ipmTrial P st p αmax αz False).eval P) (ipmTrial P st p αmax αz False).s
            (ipmTrial P st p αmax αz False).y (ipmTrial P st p αmax αz False).z st.μ ≤ Fl.fin 0.999 * errOneIpm env st.e st.s st.y st.z st.μ
            then _ else _ else _) = _
          split_ifs <;> rfl
    · rw [if_pos h1, if_pos h1]
      split_ifs <;> rfl

theorem accept_offset (P : Nlp n m k) (st : IpmState n m k) (t : Trial n m k) (α αmax : Fl) :
    (st.offset c).accept (P.offset c) (t.offset c) α αmax = (st.accept P t α αmax).offset c := rfl

/-- What a way to restore feasibility has to do with a constant more in the cost. -/
def RestoreFn.Shifts (restore restore' : RestoreFn n m k) (c d : ℝ) : Prop :=
  ∀ st α w E, restore' (st.offset c) α w (E.offset d) = (restore st α w E).map (.offset c d)

/-- What a further callback has to do. -/
def Extra.Shifts (extra extra' : Extra) (d : ℝ) : Prop :=
  ∀ F info, extra' (F.offset d) info = ((extra F info).1.offset d, (extra F info).2)

theorem ipmMove_offset (env : Env) (opts : SolverOptions) (P : Nlp n m k) {restore restore' : RestoreFn n m k}
    (hr : restore.Shifts restore' c d) (st : IpmState n m k) (w : World) (E : Filter) :
    ipmMove env opts (P.offset c) restore' (st.offset c) w (E.offset d) =
      (ipmMove env opts P restore st w E).map (.offset c d) := by
  unfold ipmMove
  simp only [show (st.offset c).s = st.s from rfl, show (st.offset c).z = st.z from rfl,
    show (st.offset c).τ = st.τ from rfl, show (st.offset c).e.ci = st.e.ci from rfl,
    show (st.offset c).rhs env = st.rhs env from rfl, ipmComputeStep_offset,
    show ipmSlope env (st.offset c) = ipmSlope env st from rfl, show (st.offset c).filter = st.filter.offset c from rfl,
    show (st.offset c).rejected = st.rejected from rfl, ipmLineSearch_offset]
  split_ifs with h1 h2
  · rfl
  · cases ipmLineSearch env opts P st _ _ _ _ _ _ _ _ _ with
    | none => rfl
    | some ls => exact hr { st with filter := ls.filter, rejected := ls.rejected } _ _ _
  · cases ipmLineSearch env opts P st _ _ _ _ _ _ _ _ _ with
    | none => rfl
    | some ls =>
      obtain ⟨la, lα, lF, lr, li⟩ := ls
      cases la with
      | none => exact hr { st with filter := lF, rejected := lr } _ _ _
      | some b => rfl

theorem barrierLoop_offset (env : Env) (μmin : Fl) (r : ℕ) (st : IpmState n m k) :
    barrierLoop env μmin r (st.offset c) = (barrierLoop env μmin r st).map (.offset c) := by
  induction r generalizing st with
  | zero => rfl
  | succ r ih =>
    rw [barrierLoop, barrierLoop]
    simp only [show (st.offset c).μ = st.μ from rfl,
      show errInfIpm env (st.offset c).e (st.offset c).s (st.offset c).y (st.offset c).z = errInfIpm env st.e st.s st.y st.z from rfl]
    split_ifs
    · exact ih (st.updateBarrier μmin)
    · rfl

theorem ipmFinish_offset (env : Env) (opts : SolverOptions) (P : Nlp n m k) (st : IpmState n m k) :
    ipmFinish env opts (P.offset c) (st.offset c) = (ipmFinish env opts P st).map (.offset c) := by
  unfold ipmFinish
  have h : ∀ st1 : IpmState n m k, barrierLoop env (muMin P.scaling opts) (barrierRounds (muMin P.scaling opts) st1.μ) (st1.offset c) = _ :=
    fun st1 => barrierLoop_offset env (muMin P.scaling opts) (barrierRounds (muMin P.scaling opts) st1.μ) st1
  have h0 := h { st with E0 := errZeroIpm env P.scaling st.e st.s st.y st.z }
  simp only
  change Option.map _ (if errZeroIpm env P.scaling st.e st.s st.y st.z > _ then barrierLoop env (muMin P.scaling opts)
    (barrierRounds (muMin P.scaling opts) st.μ) (IpmState.offset c { st with E0 := errZeroIpm env P.scaling st.e st.s st.y st.z }) else
    some (IpmState.offset c { st with E0 := errZeroIpm env P.scaling st.e st.s st.y st.z })) = _
  split_ifs
  · rw [h0]
    cases barrierLoop env _ _ _ <;> rfl
  · rfl

theorem runCallbacks_offset (cbs : List Callback) {extra extra' : Extra} (he : extra.Shifts extra' d) (info : Info)
    (calls : List Call) (E : Filter) : runCallbacks cbs extra' info calls (E.offset d) =
      ((runCallbacks cbs extra info calls E).1, (runCallbacks cbs extra info calls E).2.1.offset d,
        (runCallbacks cbs extra info calls E).2.2) := by
  unfold runCallbacks
  simp only [he E info]
  split_ifs <;> rfl

theorem ipmLoop_offset (env : Env) (opts : SolverOptions) (P : Nlp n m k) (cbs : List Callback) {extra extra' : Extra}
    (he : extra.Shifts extra' d) (inner : Bool) {restore restore' : RestoreFn n m k} (hr : restore.Shifts restore' c d)
    (start : ℝ) (r : ℕ) (st : IpmState n m k) (w : World) (E : Filter) :
    ipmLoop env opts (P.offset c) cbs extra' inner restore' start r (st.offset c) w (E.offset d) =
      (ipmLoop env opts P cbs extra inner restore start r st w E).map (.offset d) := by
  induction r generalizing st w E with
  | zero => rw [ipmLoop, ipmLoop, Option.map_none]
  | succ r ih =>
    rw [ipmLoop, ipmLoop]
    have hn : ipmNotify cbs extra' inner (st.offset c) w (E.offset d) =
        ((ipmNotify cbs extra inner st w E).1, (ipmNotify cbs extra inner st w E).2.1.offset d,
          (ipmNotify cbs extra inner st w E).2.2) := by
      unfold ipmNotify
      simp only [show (st.offset c).info = st.info from rfl, runCallbacks_offset cbs he]
      rfl
    simp only [show (st.offset c).E0 = st.E0 from rfl, show (st.offset c).e.Ae = st.e.Ae from rfl,
      show (st.offset c).e.ce = st.e.ce from rfl, show (st.offset c).e.Ai = st.e.Ai from rfl,
      show (st.offset c).e.ci = st.e.ci from rfl, show (st.offset c).x = st.x from rfl,
      show (st.offset c).s = st.s from rfl, hn, ipmMove_offset env opts P hr]
    split_ifs
    all_goals try rfl
    generalize ipmMove env opts P restore st _ _ = M
    obtain _ | ⟨_ | ⟨st2, w2, E2⟩⟩ := M
    · rfl
    · rfl
    · simp only [Option.map_some, Option.bind_some, Moved.offset, Moved.elim, ipmFinish_offset]
      generalize ipmFinish env opts P st2 = F2
      obtain _ | st3 := F2
      · rfl
      · simp only [Option.map_some, Option.bind_some, show (st3.offset c).iterations = st3.iterations from rfl, ih]
        split_ifs <;> rfl

theorem ipmRun_offset (env : Env) (opts : SolverOptions) (P : Nlp n m k) (cbs : List Callback) {extra extra' : Extra}
    (he : extra.Shifts extra' d) (inner : Bool) {restore restore' : RestoreFn n m k} (hr : restore.Shifts restore' c d)
    (x : Vec n) (s : Vec k) (y : Vec m) (z : Vec k) (μ : Fl) (iterations : ℕ) (w : World) (E : Filter) :
    ipmRun env opts (P.offset c) cbs extra' inner restore' x s y z μ iterations w (E.offset d) =
      (ipmRun env opts P cbs extra inner restore x s y z μ iterations w E).map (.offset d) := by
  unfold ipmRun
  have hi : ipmInit env (P.offset c) x s y z μ iterations = (ipmInit env P x s y z μ iterations).offset c := rfl
  have hf : ((ipmInit env P x s y z μ iterations).offset c).e.Finite ↔ (ipmInit env P x s y z μ iterations).e.Finite := by
    unfold Eval.Finite
    exact and_congr (by rw [show ((ipmInit env P x s y z μ iterations).offset c).e.f = _ + .fin c from rfl, Fl.offset_isFinite]) Iff.rfl
  simp only [hi, hf, show (P.offset c).vars = P.vars from rfl, ipmLoop_offset env opts P cbs he inner hr]
  split_ifs <;> rfl

/-! ### Feasibility restoration -/

theorem restoreInner_shifts : (restoreInner : RestoreFn n m k).Shifts restoreInner c d := fun _ _ _ _ => rfl

theorem frRun_offset (env : Env) (opts : SolverOptions) (P : Nlp n m k) (cbs : List Callback) {extra extra' : Extra}
    (he : extra.Shifts extra' d) (x : Vec n) (s : Vec k) (μ : Fl) (iterations : ℕ) (w : World) (E : Filter) :
    frRun env opts (P.offset c) cbs extra' x s μ iterations w (E.offset d) =
      (frRun env opts P cbs extra x s μ iterations w E).map (.offset d) := by
  unfold frRun
  have h := ipmRun_offset (c := 0) env opts (frProblem env P x (frMu env (P.ce x) (fun i => P.ci x i - s i) μ)) cbs he true
    (restoreInner_shifts (d := d))
  simp only [Nlp.offset_zero] at h
  exact h ..

theorem extraIpm_shifts (env : Env) (P : Nlp n m k) (st : IpmState n m k) (α : Fl) :
    (extraIpm env P st α).Shifts (extraIpm env (P.offset c) (st.offset c) α) c := by
  intro F info
  unfold extraIpm
  simp only [show ∀ x, (P.offset c).f x = P.f x + .fin c from fun _ => rfl, ipmEntry_offset, tryAdd_offset,
    show (P.offset c).ce = P.ce from rfl, show (P.offset c).ci = P.ci from rfl, show (st.offset c).x = st.x from rfl,
    show (st.offset c).s = st.s from rfl, show (st.offset c).e.ce = st.e.ce from rfl, show (st.offset c).e.ci = st.e.ci from rfl,
    show (st.offset c).e.g = st.e.g from rfl, show (st.offset c).μ = st.μ from rfl,
    show ∀ e : FilterEntry, (e.offset c).violation = e.violation from fun _ => rfl]
  split_ifs <;> rfl

theorem restoreIpm_shifts (env : Env) (opts : SolverOptions) (P : Nlp n m k) (cbs : List Callback) :
    (restoreIpm env opts P cbs).Shifts (restoreIpm env opts (P.offset c) cbs) c d := by
  intro st α w E
  unfold restoreIpm
  simp only [show (st.offset c).x = st.x from rfl, show (st.offset c).s = st.s from rfl, show (st.offset c).μ = st.μ from rfl,
    show (st.offset c).iterations = st.iterations from rfl, show (st.offset c).filter = st.filter.offset c from rfl,
    frRun_offset env opts P cbs (extraIpm_shifts env P st α)]
  cases frRun env opts P cbs (extraIpm env P st α) st.x st.s st.μ st.iterations w st.filter with
  | none => rfl
  | some res =>
    simp only [Option.map_some]
    simp only [show (res.offset c).status = res.status from rfl]
    split_ifs <;> rfl

end Slp
