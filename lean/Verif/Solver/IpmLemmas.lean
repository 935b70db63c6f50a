import Verif.Solver.LoopRules
import Verif.Solver.RestoreLoopModel
import Verif.Solver.RestoreInitProps

/-! Lemmas about the interior-point solver's loop: what it maintains, with feasibility restoration. -/

namespace Slp

open Classical

variable {n m k : ℕ} {Z : Prop}

/-- What the loop maintains about a state. `Z` stands for assumptions under which multipliers stay positive. -/
structure Good (Z : Prop) (P : Nlp n m k) (st : IpmState n m k) : Prop where
  barrier : BarrierOk st
  eval : st.e = P.eval st.x st.y st.z
  pos : st.x.Finite → st.s.Finite → st.s.Pos ∧ (Z → st.z.Pos)

theorem Acceptable.eval {env : Env} {opts : SolverOptions} {P : Nlp n m k} {st : IpmState n m k} {p : IpmStep n m k}
    {amax : ℝ} {αz D : Fl} {F : Filter} {r : ℕ} {R : Reason} {t : Trial n m k} {used : Fl}
    (h : Acceptable env opts P st p amax αz D F r R t used) : t.f = P.f t.x ∧ t.ce = P.ce t.x ∧ t.ci = P.ci t.x := by
  cases R with
  | filter => obtain ⟨a, rfl, -, -, -, rfl, -⟩ := h; exact ⟨rfl, rfl, rfl⟩
  | correction => obtain ⟨l, ce', cis', wv, -, hcor, -⟩ := h; obtain ⟨i', -, rfl⟩ := hcor.step; exact ⟨rfl, rfl, rfl⟩
  | kktError => obtain ⟨rfl, rfl, -⟩ := h; exact ⟨rfl, rfl, rfl⟩

/-- The three outcomes of an iteration up to the new iterate. -/
theorem ipmMove_cases (env : Env) (opts : SolverOptions) (P : Nlp n m k) (restore : RestoreFn n m k)
    {st : IpmState n m k} (hτ : ∃ t, st.τ = .fin t ∧ 0.99 ≤ t ∧ t < 1) (hs : st.s.Pos) (w : World) (E : Filter) :
    (env.factor w.factors = false ∧ ipmMove env opts P restore st w E =
      some (.stop (st.exit .factorizationFailed { w with factors := w.factors + 1 } E))) ∨
    ∃ (ls : LineSearch n m k) (a : ℝ), let p := ipmComputeStep env st (st.rhs env) (fun i => st.e.ci i - st.s i) w.solves
      let st' := { st with filter := ls.filter, rejected := ls.rejected }
      let w' := { w with factors := w.factors + 1, solves := ls.solves }
      boundaryF st.s p.ps st.τ = .fin a ∧ 0 ≤ a ∧ a ≤ 1 ∧
      (ipmMove env opts P restore st w E = restore st' ls.α w' E ∨
        ∃ R t used, Acceptable env opts P st p a (boundaryF st.z p.pz st.τ) (ipmSlope env st p) st.filter
            st.rejected R t used ∧
          1e-7 ≤ a ∧ ipmMove env opts P restore st w E =
            some (.go (st'.accept P t ls.α (.fin a)) { w' with vars := P.vars t.x } E)) := by
  unfold ipmMove
  by_cases hf : env.factor w.factors = false
  · rw [if_pos hf]; exact .inl ⟨hf, rfl⟩
  · rw [if_neg hf]
    right
    obtain ⟨t, ht, ht0, -⟩ := hτ
    obtain ⟨a, ha, ha0, ha1⟩ := boundaryF_range (by linarith : 0 < t) hs
      (ipmComputeStep env st (st.rhs env) (fun i => st.e.ci i - st.s i) w.solves).ps
    rw [← ht] at ha
    obtain ⟨ls, hls⟩ := line_search_ends env opts P st
      (ipmComputeStep env st (st.rhs env) (fun i => st.e.ci i - st.s i) w.solves)
      (boundaryF st.z (ipmComputeStep env st (st.rhs env) (fun i => st.e.ci i - st.s i) w.solves).pz st.τ)
      (ipmSlope env st (ipmComputeStep env st (st.rhs env) (fun i => st.e.ci i - st.s i) w.solves)) a st.filter st.rejected
      (w.solves + 1) ha1
    refine ⟨ls, a, ha, ha0, ha1, ?_⟩
    simp only [ha, hls, Option.bind_some]
    by_cases hmin : Fl.fin a < alphaMin
    · rw [if_pos hmin]; exact .inl rfl
    · rw [if_neg hmin]
      cases hacc : ls.accepted with
      | none => exact .inl rfl
      | some b =>
        refine .inr ⟨b.1, b.2.1, b.2.2, ?_, not_lt.1 hmin, rfl⟩
        exact line_search_sound env opts P st _ _ _ a st.filter _ _ ha0 ls hls b.1 b.2.1 b.2.2 hacc

/-- An accepted step leads to a good state. -/
theorem Good.accept {env : Env} {opts : SolverOptions} {P : Nlp n m k} (hP : Z → FeasibleOk opts P) {st : IpmState n m k}
    (hG : Good Z P st) (hx : st.x.Finite) (hs : st.s.Finite) {i : ℕ} {a : ℝ} (ha0 : 0 ≤ a)
    (ha : boundaryF st.s (ipmComputeStep env st (st.rhs env) (fun i => st.e.ci i - st.s i) i).ps st.τ = .fin a)
    {D : Fl} {F : Filter} {r : ℕ} {R : Reason} {t : Trial n m k} {used : Fl}
    (h : Acceptable env opts P st (ipmComputeStep env st (st.rhs env) (fun i => st.e.ci i - st.s i) i) a
      (boundaryF st.z (ipmComputeStep env st (st.rhs env) (fun i => st.e.ci i - st.s i) i).pz st.τ) D F r R t used)
    (F' : Filter) (c : ℕ) (α αmax : Fl) :
    Good Z P ({ st with filter := F', rejected := c }.accept P t α αmax) where
  barrier := ⟨hG.barrier.μ, hG.barrier.τ⟩
  eval := by
    obtain ⟨h1, h2, h3⟩ := h.eval
    show Eval.mk _ _ _ _ _ _ _ = Eval.mk _ _ _ _ _ _ _
    rw [h1, h2, h3]; rfl
  pos := by
    obtain ⟨h1, h2⟩ := hG.pos hx hs
    intro htx hts
    obtain ⟨h3, h4⟩ := accept_pos hG.barrier hx h1 (by rw [hG.eval]; rfl) (by rw [hG.eval]; rfl) rfl ha0 ha h htx hts
    exact ⟨h3, fun hz => h4 (hP hz) (h2 hz)⟩

/-- The rest of the iteration preserves goodness. -/
theorem Good.finish {env : Env} {opts : SolverOptions} {P : Nlp n m k} (htol : 0 < opts.tolerance)
    (hS : 0 < P.scaling.f) {st : IpmState n m k} (hG : Good Z P st) :
    ∃ st', ipmFinish env opts P st = some st' ∧ Good Z P st' ∧ st'.iterations = st.iterations + 1 ∧
      st'.E0 = errZeroIpm env P.scaling st'.e st'.s st'.y st'.z := by
  obtain ⟨st', h1, h2, h3, h4, h5, h6, h7, h8, h9, -⟩ := ipmFinish_correct (env := env) htol hS hG.barrier
  refine ⟨st', h1, ⟨h2, ?_, ?_⟩, h8, by rw [h7, h4, h5, h6]; exact h9⟩
  · rw [h7, h3, h5, h6]; exact hG.eval
  · rw [h3, h4, h6]; exact hG.pos

/-! ### What callbacks have seen -/

/-- Positive slacks and, under the assumptions `Z`, multipliers in an iterate shown to a callback. -/
def Info.Pos (Z : Prop) (i : Info) : Prop :=
  (∀ v ∈ i.s, ∃ a, v = .fin a ∧ 0 < a) ∧ (Z → ∀ v ∈ i.z, ∃ a, v = .fin a ∧ 0 < a)

/-- Every iterate shown to callbacks so far had positive slacks and multipliers. -/
structure World.Pos (Z : Prop) (w : World) : Prop where
  trace : ∀ s ∈ w.trace, s.info.Pos Z
  calls : ∀ c ∈ w.calls, c.info.Pos Z

theorem runRegistered_calls (info : Info) (i : ℕ) (cbs : List Callback) (calls : List Call) :
    ∃ l, (runRegistered info i cbs calls).1 = calls ++ l ∧ ∀ c ∈ l, c.info = info := by
  induction cbs generalizing i calls with
  | nil => exact ⟨[], by simp [runRegistered], by simp⟩
  | cons cb cbs ih =>
    unfold runRegistered
    split
    · exact ⟨_, rfl, by simp⟩
    · obtain ⟨l, h1, h2⟩ := ih (i + 1) (calls ++ [⟨i, info, false⟩])
      refine ⟨⟨i, info, false⟩ :: l, by rw [h1]; simp, ?_⟩
      intro c hc
      rcases List.mem_cons.1 hc with rfl | hc
      · rfl
      · exact h2 c hc

theorem runCallbacks_calls (cbs : List Callback) (extra : Extra) (info : Info) (calls : List Call) (F : Filter) :
    ∃ l, (runCallbacks cbs extra info calls F).1 = calls ++ l ∧ ∀ c ∈ l, c.info = info := by
  have := runRegistered_calls info 0 cbs calls
  unfold runCallbacks
  simp only
  split <;> exact this

theorem Vec.Pos.list {v : Vec n} (h : v.Pos) : ∀ a ∈ List.ofFn v, ∃ b, a = .fin b ∧ 0 < b := by
  intro a ha
  obtain ⟨i, rfl⟩ := (List.mem_ofFn' _ _).1 ha
  exact h i

theorem World.Pos.notify {w : World} (hw : w.Pos Z) (cbs : List Callback) (extra : Extra) (inner : Bool)
    {st : IpmState n m k} (hs : st.s.Pos) (hz : Z → st.z.Pos) (E : Filter) :
    (ipmNotify cbs extra inner st w E).1.Pos Z := by
  have hi : st.info.Pos Z := ⟨hs.list, fun h => (hz h).list⟩
  obtain ⟨l, h1, h2⟩ := runCallbacks_calls cbs extra st.info w.calls E
  constructor
  · intro s hs
    rcases List.mem_append.1 (show s ∈ w.trace ++ _ from hs) with h | h
    · exact hw.trace s h
    · rw [List.mem_singleton] at h; rw [h]; exact hi
  · intro c hc
    rw [show (ipmNotify cbs extra inner st w E).1.calls = w.calls ++ l from h1] at hc
    rcases List.mem_append.1 hc with h | h
    · exact hw.calls c h
    · rw [h2 c h]; exact hi

/-! ### Total correctness -/

/-- The bound on the number of iterations of a run that starts with number `it`. -/
def iterationBound (opts : SolverOptions) (it : ℕ) : ℤ := max (it + 1) opts.maxIterations

/-- A number of iterations at which a run that starts with number `it` may call the callbacks. -/
def MayContinue (opts : SolverOptions) (it i : ℕ) : Prop := it ≤ i ∧ (i = it ∨ (i : ℤ) < opts.maxIterations)

theorem MayContinue.bound {opts : SolverOptions} {it i : ℕ} (h : MayContinue opts it i) :
    (i : ℤ) ≤ iterationBound opts it := by
  unfold iterationBound; rcases h.2 with h | h <;> omega

theorem MayContinue.trans {opts : SolverOptions} {it i j : ℕ} (h : MayContinue opts it i) (h' : MayContinue opts i j) :
    MayContinue opts it j := by
  refine ⟨h.1.trans h'.1, ?_⟩
  rcases h'.2 with rfl | h'
  · exact h.2
  · exact .inr h'

/-- The point is where a feasibility restoration that began at a finite point ended with success: it belongs to a point that
meets, within the tolerance, the first-order conditions of a restoration problem, with positive slacks. If `Z`, the
multipliers are positive as well. -/
def RestorationOptimal (Z : Prop) (env : Env) (opts : SolverOptions) (P : Nlp n m k) (x : Vec n) : Prop :=
  ∃ (cbs : List Callback) (extra : Extra) (xr : Vec n) (s : Vec k) (μ : Fl) (it : ℕ) (w : World) (E : Filter)
    (r : IpmResult (n + relaxed m k) m (k + relaxed m k)),
    frRun env opts P cbs extra xr s μ it w E = some r ∧ r.status = .success ∧ frOrigin r.x = x ∧ xr.Finite ∧
    s.Pos ∧ (∃ b, μ = .fin b ∧ 0 < b) ∧
    (r.x.Finite → r.s.Finite → r.s.Pos ∧ (Z → r.z.Pos)) ∧ ∃ a, 0 < a ∧
    ¬ errZeroIpm env (frProblem env P xr (.fin a)).scaling ((frProblem env P xr (.fin a)).eval r.x r.y r.z) r.s r.y r.z >
      .fin opts.tolerance

/-- The status of a result with which the part of an iteration up to the new iterate returns. -/
structure StopOk (Z : Prop) (env : Env) (opts : SolverOptions) (P : Nlp n m k) (res : IpmResult n m k) : Prop where
  status : res.status = .factorizationFailed ∨ res.status = .locallyInfeasible ∨
    res.status = .feasibilityRestorationFailed
  locally : res.status = .locallyInfeasible → RestorationOptimal Z env opts P res.x

/-- What is assumed about the restoration: it returns, and the state it continues with is good. -/
def RestoreOk (Z : Prop) (env : Env) (opts : SolverOptions) (P : Nlp n m k) (restore : RestoreFn n m k) : Prop :=
  ∀ st α w E, Good Z P st → st.x.Finite → st.s.Finite → w.Pos Z → ∃ mv, restore st α w E = some mv ∧
    (∀ res, mv = .stop res → res.world.Pos Z ∧ st.iterations ≤ res.iterations ∧
      (res.iterations : ℤ) ≤ iterationBound opts st.iterations ∧ StopOk Z env opts P res) ∧
    ∀ st2 w2 E2, mv = .go st2 w2 E2 → Good Z P st2 ∧ w2.Pos Z ∧ MayContinue opts st.iterations st2.iterations

/-- The result of a run that starts with iteration number `it`. -/
structure RunOk (Z : Prop) (env : Env) (opts : SolverOptions) (P : Nlp n m k) (it : ℕ) (res : IpmResult n m k) :
    Prop where
  world : res.world.Pos Z
  ge : it ≤ res.iterations
  le : (res.iterations : ℤ) ≤ iterationBound opts it
  stop : res.status = .callbackRequestedStop →
    res.x.Finite ∧ res.s.Pos ∧ (Z → res.z.Pos) ∧ MayContinue opts it res.iterations
  success : res.status = .success →
    ¬ errZeroIpm env P.scaling (P.eval res.x res.y res.z) res.s res.y res.z > .fin opts.tolerance ∧
    (res.x.Finite → res.s.Finite → res.s.Pos ∧ (Z → res.z.Pos))
  limit : res.status = .maxIterationsExceeded → opts.maxIterations ≤ res.iterations
  diverged : res.status = .divergingIterates → diverging env res.x ∨ diverging env res.s
  locally : res.status = .locallyInfeasible → eqInfeasible env (P.Ae res.x) (P.ce res.x) ∨
    ineqInfeasible env (P.Ai res.x) (P.ci res.x) ∨ RestorationOptimal Z env opts P res.x
  other : res.status ≠ .globallyInfeasible ∧ res.status ≠ .lineSearchFailed

/-- A status of the loop. -/
def LoopStatus (status : ExitStatus) : Prop := status ≠ .tooFewDofs ∧ status ≠ .nonfiniteInitialGuess

theorem ipmMove_ok {env : Env} {opts : SolverOptions} {P : Nlp n m k} {restore : RestoreFn n m k}
    (hP : Z → FeasibleOk opts P) (hR : RestoreOk Z env opts P restore) {st : IpmState n m k} (hG : Good Z P st)
    (hx : st.x.Finite) (hs : st.s.Finite) {w : World} (hw : w.Pos Z) (E : Filter) :
    ∃ mv, ipmMove env opts P restore st w E = some mv ∧
    (∀ res, mv = .stop res → res.world.Pos Z ∧ st.iterations ≤ res.iterations ∧
      (res.iterations : ℤ) ≤ iterationBound opts st.iterations ∧ StopOk Z env opts P res) ∧
    ∀ st2 w2 E2, mv = .go st2 w2 E2 → Good Z P st2 ∧ w2.Pos Z ∧ MayContinue opts st.iterations st2.iterations := by
  rcases ipmMove_cases env opts P restore hG.barrier.τ (hG.pos hx hs).1 w E with ⟨-, h⟩ | ⟨ls, a, ha, ha0, -, h | h⟩
  · refine ⟨_, h, ?_, by simp⟩
    intro res hres
    obtain rfl := Moved.stop.inj hres
    exact ⟨⟨hw.trace, hw.calls⟩, le_rfl, by show (st.iterations : ℤ) ≤ _; unfold iterationBound; omega,
      .inl rfl, by simp [IpmState.exit]⟩
  · rw [h]
    exact hR { st with filter := ls.filter, rejected := ls.rejected } ls.α _ E
      ⟨⟨hG.barrier.μ, hG.barrier.τ⟩, hG.eval, hG.pos⟩ hx hs ⟨hw.trace, hw.calls⟩
  · obtain ⟨R, t, used, hacc, -, h⟩ := h
    refine ⟨_, h, by simp, ?_⟩
    intro st2 w2 E2 h2
    obtain ⟨rfl, rfl, rfl⟩ := Moved.go.inj h2
    exact ⟨hG.accept hP hx hs ha0 ha hacc _ _ _ _, ⟨hw.trace, hw.calls⟩, le_rfl, .inl rfl⟩

/-- The loop ends and its result is as described. -/
theorem ipmLoop_ok {env : Env} {opts : SolverOptions} {P : Nlp n m k} {cbs : List Callback} {extra : Extra}
    {inner : Bool} {restore : RestoreFn n m k} {start : ℝ} (htol : 0 < opts.tolerance) (hS : 0 < P.scaling.f)
    (hP : Z → FeasibleOk opts P) (hR : RestoreOk Z env opts P restore) (st : IpmState n m k) (w : World) (E : Filter)
    (hG : Good Z P st) (hE : st.E0 = errZeroIpm env P.scaling st.e st.s st.y st.z) (hw : w.Pos Z) :
    ∃ res, ipmLoop env opts P cbs extra inner restore start (loopRounds opts st.iterations) st w E = some res ∧
      RunOk Z env opts P st.iterations res ∧ LoopStatus res.status := by
  have hstep (st : IpmState n m k) (w : World) (E : Filter) (h : Good Z P st ∧ w.Pos Z) (hat : AtCallbacks env opts st) :=
    ipmMove_ok (env := env) hP hR h.1 hat.x_finite hat.s_finite
      (h.2.notify cbs extra inner (h.1.pos hat.x_finite hat.s_finite).1 (h.1.pos hat.x_finite hat.s_finite).2 E)
      (ipmNotify cbs extra inner st w E).2.1
  obtain ⟨res, hres⟩ : ∃ res, ipmLoop env opts P cbs extra inner restore start (loopRounds opts st.iterations) st w E =
      some res := by
    refine ipmLoop_ends (fun st w => Good Z P st ∧ w.Pos Z) ?_ _ st w E ⟨hG, hw⟩ (le_max_left _ _) (le_max_right _ _)
    intro st w E h hat
    obtain ⟨mv, hmv, -, hgo⟩ := hstep st w E h hat
    refine ⟨mv, hmv, ?_⟩
    intro st2 w2 E2 h2
    obtain ⟨hG2, hw2, hit⟩ := hgo st2 w2 E2 h2
    obtain ⟨st3, h3, hG3, hit3, -⟩ := hG2.finish (env := env) htol hS
    exact ⟨st3, h3, fun t => ⟨hG3, hw2.trace, hw2.calls⟩, by have := hit.1; omega⟩
  refine ⟨res, hres, ?_⟩
  refine ipmLoop_rule (fun st' w _ => Good Z P st' ∧ st'.E0 = errZeroIpm env P.scaling st'.e st'.s st'.y st'.z ∧
      w.Pos Z ∧ MayContinue opts st.iterations st'.iterations)
    (fun res => RunOk Z env opts P st.iterations res ∧ LoopStatus res.status) ?_ ?_ ?_ ?_ ?_ ?_ _ st w E
    ⟨hG, hE, hw, le_rfl, .inl rfl⟩ res hres
  · rintro st' w E ⟨hG, hE, hw, hc⟩ herr
    refine ⟨?_, by simp [IpmState.exit], by simp [IpmState.exit]⟩
    constructor <;> try (simp [IpmState.exit]; done)
    · exact hw
    · exact hc.1
    · exact hc.bound
    · intro _
      rw [hE, hG.eval] at herr
      exact ⟨herr, hG.pos⟩
  · rintro st' w E ⟨hG, -, hw, hc⟩ - hinf
    refine ⟨?_, by simp [IpmState.exit], by simp [IpmState.exit]⟩
    constructor <;> try (simp [IpmState.exit]; done)
    · exact hw
    · exact hc.1
    · exact hc.bound
    · intro _
      rw [hG.eval] at hinf
      exact hinf.imp_right .inl
  · rintro st' w E ⟨-, -, hw, hc⟩ - hdiv
    refine ⟨?_, by simp [IpmState.exit], by simp [IpmState.exit]⟩
    constructor <;> try (simp [IpmState.exit]; done)
    · exact hw
    · exact hc.1
    · exact hc.bound
    · exact fun _ => hdiv
  · rintro st' w E ⟨hG, -, hw, hc⟩ hat -
    obtain ⟨h1, h2⟩ := hG.pos hat.x_finite hat.s_finite
    refine ⟨?_, by simp [IpmState.exit], by simp [IpmState.exit]⟩
    constructor <;> try (simp [IpmState.exit]; done)
    · exact hw.notify cbs extra inner h1 h2 E
    · exact hc.1
    · exact hc.bound
    · exact fun _ => ⟨hat.x_finite, h1, h2, hc⟩
  · rintro st' w E res ⟨hG, -, hw, hc⟩ hat - hmv
    obtain ⟨mv, hmv', hstop, -⟩ := hstep st' w E ⟨hG, hw⟩ hat
    rw [hmv] at hmv'
    obtain ⟨h1, h2, h3, h4⟩ := hstop res (Option.some.inj hmv').symm
    have hle : (res.iterations : ℤ) ≤ iterationBound opts st.iterations := by
      refine h3.trans ?_
      unfold iterationBound
      rcases hc.2 with h | h <;> omega
    have hloc := h4.locally
    rcases h4.status with h | h | h <;> rw [h] at hloc
    · refine ⟨⟨h1, hc.1.trans h2, hle, ?_, ?_, ?_, ?_, ?_, ?_⟩, ?_⟩ <;> simp [h, LoopStatus]
    · refine ⟨⟨h1, hc.1.trans h2, hle, ?_, ?_, ?_, ?_, fun _ => .inr (.inr (hloc rfl)), ?_⟩, ?_⟩ <;>
        simp [h, LoopStatus]
    · refine ⟨⟨h1, hc.1.trans h2, hle, ?_, ?_, ?_, ?_, ?_, ?_⟩, ?_⟩ <;> simp [h, LoopStatus]
  · rintro st' w E st2 w2 E2 st3 ⟨hG, -, hw, hc⟩ hat - hmv hfin
    obtain ⟨mv, hmv', -, hgo⟩ := hstep st' w E ⟨hG, hw⟩ hat
    rw [hmv] at hmv'
    obtain ⟨hG2, hw2, hc2⟩ := hgo st2 w2 E2 (Option.some.inj hmv').symm
    obtain ⟨st3', h3, hG3, hit3, hE3⟩ := hG2.finish (env := env) htol hS
    rw [hfin] at h3
    obtain rfl := Option.some.inj h3
    have hc3 := hc.trans hc2
    have hle : (st3.iterations : ℤ) ≤ iterationBound opts st.iterations := by
      unfold iterationBound
      rcases hc3.2 with h | h <;> omega
    have hge : st.iterations ≤ st3.iterations := by have := hc3.1; omega
    refine ⟨fun hmax => ⟨?_, by simp [IpmState.exit], by simp [IpmState.exit]⟩,
      fun hlt => ⟨fun _ => ⟨?_, by simp [IpmState.exit], by simp [IpmState.exit]⟩,
        fun _ => ⟨hG3, hE3, ⟨hw2.trace, hw2.calls⟩, hge, .inr hlt⟩⟩⟩
    · constructor <;> try (simp [IpmState.exit]; done)
      · exact hw2
      · exact hge
      · exact hle
      · exact fun _ => hmax
    · constructor <;> try (simp [IpmState.exit]; done)
      · exact ⟨hw2.trace, hw2.calls⟩
      · exact hge
      · exact hle

/-- A run of the solver. -/
theorem ipmRun_ok {env : Env} {opts : SolverOptions} {P : Nlp n m k} {cbs : List Callback} {extra : Extra}
    {inner : Bool} {restore : RestoreFn n m k} (htol : 0 < opts.tolerance) (hS : 0 < P.scaling.f)
    (hP : Z → FeasibleOk opts P) (hR : RestoreOk Z env opts P restore) (x : Vec n) (s : Vec k) (y : Vec m) (z : Vec k)
    (μ : Fl) (it : ℕ) (w : World) (E : Filter) (hw : w.Pos Z)
    (hinit : (P.eval x y z).Finite → (∃ a, μ = .fin a ∧ 0 < a) ∧ (x.Finite → s.Finite → s.Pos ∧ (Z → z.Pos))) :
    ∃ res, ipmRun env opts P cbs extra inner restore x s y z μ it w E = some res ∧ RunOk Z env opts P it res ∧
      (res.status = .tooFewDofs ↔ m > n) ∧
      (res.status = .nonfiniteInitialGuess ↔ m ≤ n ∧ ¬ (P.eval x y z).Finite) := by
  unfold ipmRun
  simp only
  have hb : (it : ℤ) ≤ iterationBound opts it := by unfold iterationBound; omega
  by_cases hmn : m > n
  · rw [if_pos hmn]
    refine ⟨_, rfl, ?_, by simp [hmn, IpmState.exit], by simp [hmn, IpmState.exit]⟩
    constructor <;> first | (simp [IpmState.exit]; done) | exact ⟨hw.trace, hw.calls⟩ | exact le_rfl | exact hb
  · rw [if_neg hmn]
    have hle : m ≤ n := not_lt.1 hmn
    by_cases hfin : (P.eval x y z).Finite
    · rw [if_neg (not_not.2 (show (ipmInit env P x s y z μ it).e.Finite from hfin))]
      obtain ⟨h1, h2⟩ := hinit hfin
      obtain ⟨res, h3, h4, h5, h6⟩ := ipmLoop_ok (env := env) (cbs := cbs) (extra := extra) (inner := inner)
        (start := env.clock w.reads) htol hS hP hR (ipmInit env P x s y z μ it)
        { w with reads := w.reads + 1, vars := P.vars x } E ⟨⟨h1, 0.99, rfl, le_rfl, by norm_num⟩, rfl, h2⟩ rfl ⟨hw.trace, hw.calls⟩
      exact ⟨res, h3, h4, by simp [h5, hmn], by simp [h6, hfin]⟩
    · rw [if_pos (show ¬ (ipmInit env P x s y z μ it).e.Finite from hfin)]
      refine ⟨_, rfl, ?_, by simp [hmn, IpmState.exit], by simp [hle, hfin, IpmState.exit]⟩
      constructor <;> first | (simp [IpmState.exit]; done) | exact ⟨hw.trace, hw.calls⟩ | exact le_rfl | exact hb

/-! ### Feasibility restoration -/

theorem restoreInner_ok (env : Env) (opts : SolverOptions) (P : Nlp n m k) : RestoreOk Z env opts P restoreInner := by
  intro st α w E _ _ _ hw
  refine ⟨_, rfl, ?_, by simp⟩
  intro res h
  obtain rfl := Moved.stop.inj h
  exact ⟨hw, le_rfl, by show (st.iterations : ℤ) ≤ _; unfold iterationBound; omega, .inr (.inr rfl),
    by simp [IpmState.exit]⟩

theorem append_finite {p q : ℕ} {u : Vec p} {v : Vec q} (h : Vec.Finite (Fin.append u v)) : u.Finite ∧ v.Finite :=
  ⟨fun i => by have := h (Fin.castAdd q i); rwa [Fin.append_left] at this,
    fun i => by have := h (Fin.natAdd p i); rwa [Fin.append_right] at this⟩

theorem append_pos {p q : ℕ} {u : Vec p} {v : Vec q} (hu : u.Pos) (hv : v.Pos) : Vec.Pos (Fin.append u v) := by
  intro i
  refine Fin.addCases (fun j => ?_) (fun j => ?_) i
  · rw [Fin.append_left]; exact hu j
  · rw [Fin.append_right]; exact hv j

theorem frOrigin_append (x : Vec n) (pn : Vec (relaxed m k)) : frOrigin (Fin.append x pn) = x := by
  funext j; exact Fin.append_left _ _ _

theorem frN_fin (c : ℝ) {μ : ℝ} (hμ : 0 < μ) : frN (.fin c) (.fin μ) = .fin (computePNRow c 1000 μ).2 := by
  have hd : (1000 * c - μ) * (1000 * c - μ) - 4 * 1000 * (-μ * c / 2) = (1000 * c) ^ 2 + μ ^ 2 := by ring
  unfold frN computePNRow
  simp only [Fl.fin_mul, Fl.fin_sub, Fl.fin_neg, Fl.fin_div (two_ne_zero), hd]
  have h0 : (0 : ℝ) ≤ (1000 * c) ^ 2 + μ ^ 2 := by positivity
  rw [show Fl.sqrt (.fin ((1000 * c) ^ 2 + μ ^ 2)) = .fin (Real.sqrt ((1000 * c) ^ 2 + μ ^ 2)) from
    if_neg (not_lt.2 h0)]
  rw [Fl.fin_add, Fl.fin_div (by norm_num)]

theorem frN_pos (c : ℝ) {μ : ℝ} (hμ : 0 < μ) : ∃ a, frN (.fin c) (.fin μ) = .fin a ∧ 0 < a :=
  ⟨_, frN_fin c hμ, (computePNRow_spec c (by norm_num) hμ).2.1⟩

theorem frP_pos (c : ℝ) {μ : ℝ} (hμ : 0 < μ) : ∃ a, frP (.fin c) (.fin μ) = .fin a ∧ 0 < a :=
  ⟨(computePNRow c 1000 μ).1, by unfold frP; rw [frN_fin c hμ]; rfl, (computePNRow_spec c (by norm_num) hμ).1⟩

theorem frPN_pos {ce : Vec m} {cis : Vec k} (h1 : ce.Finite) (h2 : cis.Finite) {μ : ℝ} (hμ : 0 < μ) :
    (frPN ce cis (.fin μ)).Pos := by
  intro j
  unfold frPN
  split
  · rw [Fl.finite_toReal (h1 _)]; exact frP_pos _ hμ
  · split
    · rw [Fl.finite_toReal (h1 _)]; exact frN_pos _ hμ
    · split
      · rw [Fl.finite_toReal (h2 _)]; exact frP_pos _ hμ
      · rw [Fl.finite_toReal (h2 _)]; exact frN_pos _ hμ

theorem frMu_pos {env : Env} {ce : Vec m} {cis : Vec k} (h1 : ce.Finite) (h2 : cis.Finite) {μ : ℝ} (hμ : 0 < μ) :
    ∃ a, frMu env ce cis (.fin μ) = .fin a ∧ 0 < a ∧ μ ≤ a := by
  unfold frMu infNormF
  rw [if_pos h1, if_pos h2, Fl.max_fin, Fl.max_fin]
  exact ⟨_, rfl, lt_max_of_lt_left (lt_max_of_lt_left hμ), le_max_of_le_left (le_max_left _ _)⟩

/-- The check of the initial guess of a restoration implies that the constraints' values are finite. -/
theorem frInit_finite {env : Env} {P : Nlp n m k} {x : Vec n} {s : Vec k} (hs : s.Finite) {μ : Fl} :
    let ce := P.ce x
    let cis : Vec k := fun i => P.ci x i - s i
    let fμ := frMu env ce cis μ
    let pn := frPN ce cis fμ
    let z : Vec (k + relaxed m k) := Fin.append (fun i => fμ * (1 / s i)) fun j => fμ * (1 / pn j)
    ((frProblem env P x fμ).eval (Fin.append x pn) (fun _ => 0) z).Finite → ce.Finite ∧ cis.Finite := by
  intro ce cis fμ pn z hfin
  obtain ⟨-, -, -, hce, -, hci, -⟩ := hfin
  have h1 : ce.Finite := by
    intro i
    have := hce i
    have h : (ce i - frPe (frRelax (Fin.append x pn)) i + frNe (frRelax (Fin.append x pn)) i).isFinite = true := by
      have h' := this
      change (P.ce (frOrigin (Fin.append x pn)) i - _ + _).isFinite = true at h'
      rw [frOrigin_append] at h'; exact h'
    exact (Fl.finite_sub.1 (Fl.finite_add.1 h).1).1
  have h2 : cis.Finite := by
    intro i
    have := hci (Fin.castAdd _ i)
    change (Fin.append (fun i => P.ci (frOrigin (Fin.append x pn)) i - _ + _) _ (Fin.castAdd _ i) : Fl).isFinite =
      true at this
    rw [Fin.append_left, frOrigin_append] at this
    exact Fl.finite_sub.2 ⟨(Fl.finite_sub.1 (Fl.finite_add.1 this).1).1, hs i⟩
  exact ⟨h1, h2⟩

/-- The start of the restoration: the check of the initial guess implies that the relaxation variables and the
multipliers are positive. -/
theorem frInit_ok {env : Env} {P : Nlp n m k} {x : Vec n} {s : Vec k} (hs : s.Pos) {μ : ℝ} (hμ : 0 < μ) :
    let ce := P.ce x
    let cis : Vec k := fun i => P.ci x i - s i
    let fμ := frMu env ce cis (.fin μ)
    let pn := frPN ce cis fμ
    let z : Vec (k + relaxed m k) := Fin.append (fun i => fμ * (1 / s i)) fun j => fμ * (1 / pn j)
    ((frProblem env P x fμ).eval (Fin.append x pn) (fun _ => 0) z).Finite →
      (∃ a, fμ = .fin a ∧ 0 < a) ∧ Vec.Pos (Fin.append s fun _ => 1 : Vec (k + relaxed m k)) ∧ z.Pos := by
  intro ce cis fμ pn z hfin
  obtain ⟨h1, h2⟩ := frInit_finite hs.finite hfin
  obtain ⟨a, ha, ha0, -⟩ := frMu_pos (env := env) h1 h2 hμ
  have ha' : fμ = .fin a := ha
  have hpn : pn.Pos := by
    show (frPN ce cis fμ).Pos
    rw [ha']; exact frPN_pos h1 h2 ha0
  refine ⟨⟨a, ha, ha0⟩, append_pos hs fun _ => ⟨1, rfl, one_pos⟩, append_pos ?_ ?_⟩
  · intro i
    obtain ⟨b, hb, hb0⟩ := hs i
    refine ⟨a * (1 / b), ?_, by positivity⟩
    simp only [ha', hb]
    rw [Fl.one_def, Fl.fin_div hb0.ne']; rfl
  · intro i
    obtain ⟨b, hb, hb0⟩ := hpn i
    refine ⟨a * (1 / b), ?_, by positivity⟩
    simp only [ha', hb]
    rw [Fl.one_def, Fl.fin_div hb0.ne']; rfl

theorem frScaling_f (env : Env) (P : Nlp n m k) (x : Vec n) (μ : Fl) : (frProblem env P x μ).scaling.f = 1 := by
  unfold frProblem
  simp only
  split <;> rfl

theorem frProblem_ci (env : Env) (P : Nlp n m k) (x : Vec n) (μ : Fl) (xp : Vec (n + relaxed m k)) :
    (frProblem env P x μ).ci xp = Fin.append
      (fun i => P.ci (frOrigin xp) i - frPi (frRelax xp) i + frNi (frRelax xp) i) fun i => frRelax xp i := rfl

theorem frProblem_Ai (env : Env) (P : Nlp n m k) (x : Vec n) (μ : Fl) (xp : Vec (n + relaxed m k))
    (i : Fin (k + relaxed m k)) :
    (frProblem env P x μ).Ai xp i = Fin.append
      (fun j => Fin.append (fun i => P.Ai (frOrigin xp) i j) (fun _ => 0) i)
      fun j => Fin.append
        (fun i : Fin k => if (j : ℕ) = 2 * m + i then -1 else if (j : ℕ) = 2 * m + k + i then 1 else 0)
        (fun i => if i = j then 1 else 0) i := rfl

theorem frFeasible_ok {env : Env} {opts : SolverOptions} {P : Nlp n m k} (hP : FeasibleOk opts P) (x : Vec n) (μ : Fl) :
    FeasibleOk opts (frProblem env P x μ) := by
  intro hf xp hxp
  have hx : (frOrigin xp).Finite := fun j => hxp _
  obtain ⟨h1, h2⟩ := hP hf _ hx
  constructor
  · intro i
    rw [frProblem_ci]
    refine Fin.addCases (fun j => ?_) (fun j => ?_) i
    · rw [Fin.append_left]
      exact Fl.finite_add.2 ⟨Fl.finite_sub.2 ⟨h1 j, hxp _⟩, hxp _⟩
    · rw [Fin.append_right]
      exact hxp _
  · intro i j
    rw [frProblem_Ai]
    refine Fin.addCases (fun j => ?_) (fun j => ?_) j
    · rw [Fin.append_left]
      refine Fin.addCases (fun i => ?_) (fun i => ?_) i
      · rw [Fin.append_left]; exact h2 i j
      · rw [Fin.append_right]; rfl
    · rw [Fin.append_right]
      refine Fin.addCases (fun i => ?_) (fun i => ?_) i
      · rw [Fin.append_left]; split <;> [rfl; (split <;> rfl)]
      · rw [Fin.append_right]; split <;> rfl

/-- The restoration's run. -/
theorem frRun_ok {env : Env} {opts : SolverOptions} {P : Nlp n m k} {cbs : List Callback} {extra : Extra}
    (htol : 0 < opts.tolerance) (hP : Z → FeasibleOk opts P) {x : Vec n} {s : Vec k} (hs : s.Pos) {μ : ℝ} (hμ : 0 < μ)
    (it : ℕ) (w : World) (E : Filter) (hw : w.Pos Z) :
    ∃ res, frRun env opts P cbs extra x s (.fin μ) it w E = some res ∧
      ∃ μ', RunOk Z env opts (frProblem env P x μ') it res ∧
        (res.status = .success → x.Finite ∧ ∃ a, μ' = .fin a ∧ 0 < a) := by
  have key := ipmRun_ok (Z := Z) (env := env) (cbs := cbs) (extra := extra) (inner := true) htol
    (P := frProblem env P x (frMu env (P.ce x) (fun i => P.ci x i - s i) (.fin μ)))
    (by rw [frScaling_f]; exact one_pos) (fun hz => frFeasible_ok (hP hz) _ _) (restoreInner_ok _ _ _)
    (Fin.append x (frPN (P.ce x) (fun i => P.ci x i - s i) (frMu env (P.ce x) (fun i => P.ci x i - s i) (.fin μ))))
    (Fin.append s fun _ => 1) (fun _ => 0)
    (Fin.append (fun i => frMu env (P.ce x) (fun i => P.ci x i - s i) (.fin μ) * (1 / s i)) fun j =>
      frMu env (P.ce x) (fun i => P.ci x i - s i) (.fin μ) *
        (1 / frPN (P.ce x) (fun i => P.ci x i - s i) (frMu env (P.ce x) (fun i => P.ci x i - s i) (.fin μ)) j))
    (frMu env (P.ce x) (fun i => P.ci x i - s i) (.fin μ)) it w E hw (by
      intro hfin
      obtain ⟨h1, h2, h3⟩ := frInit_ok hs hμ hfin
      exact ⟨h1, fun _ _ => ⟨h2, fun _ => h3⟩⟩)
  obtain ⟨res, h1, h2, h3, h4⟩ := key
  refine ⟨res, h1, _, h2, fun h => ?_⟩
  have hfin := not_not.1 fun hf => by
    have := h4.2 ⟨not_lt.1 fun hm => by have := h3.2 hm; rw [h] at this; simp at this, hf⟩
    rw [h] at this; simp at this
  obtain ⟨⟨a, ha, ha0⟩, -⟩ := frInit_ok hs hμ hfin
  refine ⟨fun j => ?_, a, ha, ha0⟩
  have := hfin.2.1 (Fin.castAdd _ j)
  dsimp only [Nlp.eval, frProblem] at this
  rw [Fin.append_left, frOrigin_append] at this
  generalize Fl.sqrt _ * frWeight (x j) = c at this
  cases hx : x j <;> rw [hx] at this <;> first | rfl | (cases c <;> exact Bool.noConfusion this)

theorem restoreIpm_ok {env : Env} {opts : SolverOptions} {P : Nlp n m k} {cbs : List Callback}
    (htol : 0 < opts.tolerance) (hP : Z → FeasibleOk opts P) (hest : Z → ∀ i a j, env.estimate i a j ≠ .nan) :
    RestoreOk Z env opts P (restoreIpm env opts P cbs) := by
  intro st α w E hG hx hs hw
  obtain ⟨hsp, hzp⟩ := hG.pos hx hs
  obtain ⟨a, ha, ha0⟩ := hG.barrier.μ
  obtain ⟨res, hres, μ', hok, hsuc⟩ := frRun_ok (env := env) (cbs := cbs) (extra := extraIpm env P st α) htol hP (x := st.x) hsp ha0
    st.iterations w st.filter hw
  unfold restoreIpm
  simp only [ha, hres, Option.map_some]
  refine ⟨_, rfl, ?_, ?_⟩
  · intro r hr
    split at hr
    · simp at hr
    · obtain rfl := Moved.stop.inj hr
      refine ⟨hok.world, hok.ge, hok.le, ?_, ?_⟩
      · show (if _ then _ else _ : ExitStatus) = _ ∨ (if _ then _ else _ : ExitStatus) = _ ∨
          (if _ then _ else _ : ExitStatus) = _
        split <;> simp
      · intro hl
        by_cases hsucc : res.status = .success
        · obtain ⟨hxr, b, rfl, hb⟩ := hsuc hsucc
          exact ⟨cbs, _, st.x, st.s, _, _, w, _, res, hres, hsucc, rfl, hxr, hsp, ⟨a, rfl, ha0⟩, (hok.success hsucc).2, b, hb, (hok.success hsucc).1⟩
        · change (if res.status = .success then _ else _ : ExitStatus) = _ at hl
          rw [if_neg hsucc] at hl
          simp at hl
  · intro st2 w2 E2 hgo
    split at hgo
    · rename_i hstat
      obtain ⟨rfl, rfl, rfl⟩ := Moved.go.inj hgo
      obtain ⟨h1, h2, h3, h4⟩ := hok.stop hstat
      have hs' : Vec.Pos fun i : Fin k => res.s (Fin.castAdd (relaxed m k) i) := fun i => h2 _
      refine ⟨⟨⟨⟨a, rfl, ha0⟩, hG.barrier.τ⟩, rfl, fun _ _ => ⟨hs', ?_⟩⟩, ⟨hok.world.trace, hok.world.calls⟩, h4⟩
      intro hz i
      obtain ⟨b, hb, hb0⟩ := hs' i
      have key (v : Fl) (hv : v ≠ .nan) : ∃ c, clampDualF (.fin a) (res.s (Fin.castAdd (relaxed m k) i)) v = .fin c ∧
          0 < c := by
        obtain ⟨c, hc, hc0, -⟩ := clampDualF_pos ha0 hb0 hv
        exact ⟨c, by rw [← hc, ← hb], hc0⟩
      exact key _ (hest hz _ _ _)
    · simp at hgo

end Slp
