import Verif.Solver.NewtonProps

/-! C22 to C25 and C38 for the SQP solver with its feasibility restoration, for every problem, every answer of the
linear solver, every clock and every behaviour of the callbacks. -/

namespace Slp

open Classical

variable {n m : ℕ}

/-- The world after a part of an iteration. -/
def SqpMoved.world : SqpMoved n m → World
  | .stop r => r.world
  | .go _ w => w

/-- What the part of an iteration after the callbacks does. -/
structure SqpMoveOk (env : Env) (opts : SolverOptions) (P : Nlp n m 0) (cbs : List Callback) (st : SqpState n m) (w : World)
    (mv : SqpMoved n m) : Prop where
  history : ∃ bs es, History cbs w mv.world bs es ∧ (∀ b ∈ bs, b.1.inner = true) ∧ ∀ e ∈ es, e.1 = true
  pos : mv.world.Pos True
  stop : ∀ res, mv = .stop res → (res.status = .factorizationFailed ∨ res.status = .locallyInfeasible ∨
    res.status = .feasibilityRestorationFailed) ∧ (res.iterations : ℤ) ≤ iterationBound opts st.iterations ∧
    (res.status = .locallyInfeasible → RestorationOptimal True env opts P res.x)
  go : ∀ st2 w2, mv = .go st2 w2 → st2.e = P.eval st2.x st2.y Fin.elim0 ∧ MayContinue opts st.iterations st2.iterations

theorem restoreSqp_ok {env : Env} {opts : SolverOptions} {P : Nlp n m 0} {cbs : List Callback} (htol : 0 < opts.tolerance)
    (st : SqpState n m) (α : Fl) {w : World} (hw : w.Pos True) :
    ∃ mv, restoreSqp env opts P cbs st α w = some mv ∧ SqpMoveOk env opts P cbs st w mv := by
  have hs : Vec.Pos (Fin.elim0 : Vec 0) := fun i => i.elim0
  have hP : True → FeasibleOk opts P := fun _ _ _ _ => ⟨fun i => i.elim0, fun i => i.elim0⟩
  have hμ : 0 < opts.tolerance / 10 := by positivity
  obtain ⟨res, hres, μ', hok, hsuc⟩ := frRun_ok (env := env) (cbs := cbs) (extra := extraSqp env P st α) htol hP (x := st.x) hs hμ
    st.iterations w st.filter hw
  obtain ⟨bs, es, lo, hi, h1, h2⟩ := frRun_history htol hs.finite hμ hres
  obtain ⟨h3, h4⟩ := h2.flags rfl
  unfold restoreSqp
  simp only [hres, Option.map_some]
  by_cases hstat : res.status = .callbackRequestedStop
  · rw [if_pos hstat]
    refine ⟨_, rfl, ⟨bs, es, ⟨h1.trace, h1.calls, h1.ends, h1.ok⟩, h3, h4⟩, ⟨hok.world.trace, hok.world.calls⟩, by simp, ?_⟩
    intro st2 w2 h
    obtain ⟨rfl, rfl⟩ := SqpMoved.go.inj h
    exact ⟨rfl, (hok.stop hstat).2.2.2⟩
  · rw [if_neg hstat]
    refine ⟨_, rfl, ⟨bs, es, h1, h3, h4⟩, hok.world, ?_, by simp⟩
    intro r h
    obtain rfl := SqpMoved.stop.inj h
    refine ⟨?_, hok.le, fun hl => ?_⟩
    · show (if _ then _ else _ : ExitStatus) = _ ∨ (if _ then _ else _ : ExitStatus) = _ ∨
        (if _ then _ else _ : ExitStatus) = _
      split <;> simp
    · by_cases hsucc : res.status = .success
      · obtain ⟨hxr, b, rfl, hb⟩ := hsuc hsucc
        exact ⟨cbs, _, st.x, _, _, _, w, _, res, hres, hsucc, rfl, hxr, hs, ⟨_, rfl, hμ⟩, (hok.success hsucc).2, b, hb, (hok.success hsucc).1⟩
      · change (if res.status = .success then _ else _ : ExitStatus) = _ at hl
        rw [if_neg hsucc] at hl
        simp at hl

theorem SqpAcceptable.eval {env : Env} {P : Nlp n m 0} {st : SqpState n m} {p : SqpStep n m} {D : Fl} {F : Filter} {c : ℕ}
    {R : Reason} {t : SqpTrial n m} {used : Fl} (h : SqpAcceptable env P st p D F c R t used) : t.f = P.f t.x ∧ t.ce = P.ce t.x := by
  cases R with
  | filter => obtain ⟨a, rfl, -, -, rfl, -⟩ := h; exact ⟨rfl, rfl⟩
  | correction => obtain ⟨l, ce, wv, rfl, -, hcor, -⟩ := h; obtain ⟨i', rfl⟩ := hcor.step; exact ⟨rfl, rfl⟩
  | kktError => obtain ⟨rfl, rfl, -⟩ := h; exact ⟨rfl, rfl⟩

theorem sqpMove_ok {env : Env} {opts : SolverOptions} {P : Nlp n m 0} {cbs : List Callback} (htol : 0 < opts.tolerance)
    (st : SqpState n m) {w : World} (hw : w.Pos True) :
    ∃ mv, sqpMove env opts P cbs st w = some mv ∧ SqpMoveOk env opts P cbs st w mv := by
  have hle : (st.iterations : ℤ) ≤ iterationBound opts st.iterations := by unfold iterationBound; omega
  unfold sqpMove
  split
  · refine ⟨_, rfl, ⟨[], [], .refl cbs rfl rfl rfl, by simp, by simp⟩, ⟨hw.trace, hw.calls⟩, ?_, by simp⟩
    intro r h
    obtain rfl := SqpMoved.stop.inj h
    exact ⟨.inl rfl, hle, by simp [SqpState.exit]⟩
  · obtain ⟨ls, hls⟩ := sqp_line_search_ends env P st (sqpComputeStep env st st.e.ce w.solves)
      (dotF env st.e.g (sqpComputeStep env st st.e.ce w.solves).px) st.filter st.rejected (w.solves + 1)
    simp only
    rw [hls, Option.bind_some]
    cases hacc : ls.accepted with
    | none =>
      obtain ⟨mv, h1, h2⟩ := restoreSqp_ok (env := env) (P := P) (cbs := cbs) htol
        { st with filter := ls.filter, rejected := ls.rejected } ls.α
        (w := { w with factors := w.factors + 1, solves := ls.solves }) ⟨hw.trace, hw.calls⟩
      obtain ⟨bs, es, h3, h4, h5⟩ := h2.history
      exact ⟨mv, h1, ⟨bs, es, ⟨h3.trace, h3.calls, h3.ends, h3.ok⟩, h4, h5⟩, h2.pos, h2.stop, h2.go⟩
    | some b =>
      obtain ⟨h1, h2⟩ := (sqp_line_search_sound env P st _ _ st.filter _ _ ls hls b.1 b.2.1 b.2.2 hacc).eval
      refine ⟨_, rfl, ⟨[], [], .refl cbs rfl rfl rfl, by simp, by simp⟩, ⟨hw.trace, hw.calls⟩, by simp, ?_⟩
      intro st2 w2 h
      obtain ⟨rfl, rfl⟩ := SqpMoved.go.inj h
      refine ⟨?_, le_rfl, .inl rfl⟩
      simp only [SqpState.accept, SqpTrial.eval, Nlp.eval, h1, h2]
      congr 1 <;> funext i <;> exact i.elim0

/-- The history of a run with restorations. -/
structure SqpHistory (cbs : List Callback) (opts : SolverOptions) (status : ExitStatus) (returned : Iterate) (w : World)
    (bs : Batches) : Prop where
  trace : w.trace = bs.map Prod.fst
  calls : w.calls = bs.calls
  ok : Batches.Ok cbs [] bs
  numbers : Numbers opts 0 (bs.own false)
  quiet : ∀ b ∈ bs, b.1.inner = false → (∃ c ∈ b.2, c.result = true) →
    status = .callbackRequestedStop ∧ bs.getLast? = some b
  stop : status = .callbackRequestedStop → ∃ b, bs.getLast? = some b ∧ b.1.inner = false ∧
    (∃ c ∈ b.2, c.result = true) ∧ b.1.info.toIterate = returned
  late : ∀ e ∈ w.ends, e.1 = false → Fl.fin e.2 > opts.timeout → status = .timeout ∧ w.ends.getLast? = some e
  timeout : status = .timeout → ∃ t, w.ends.getLast? = some (false, t) ∧ Fl.fin t > opts.timeout

/-- What the loop maintains. -/
structure SqpProgress (cbs : List Callback) (opts : SolverOptions) (w : World) (bs : Batches) : Prop where
  history : History cbs .start w bs w.ends
  numbers : Numbers opts 0 (bs.own false)
  quiet : ∀ b ∈ bs, b.1.inner = false → ∀ c ∈ b.2, c.result = false
  late : ∀ e ∈ w.ends, e.1 = false → ¬ Fl.fin e.2 > opts.timeout

theorem SqpProgress.exit {cbs : List Callback} {opts : SolverOptions} {w : World} {bs : Batches}
    (h : SqpProgress cbs opts w bs) {status : ExitStatus} {info : Iterate}
    (h1 : status ≠ .callbackRequestedStop) (h2 : status ≠ .timeout) : SqpHistory cbs opts status info w bs where
  trace := by have := h.history.trace; simpa [World.start] using this
  calls := by have := h.history.calls; simpa [World.start] using this
  ok := h.history.ok
  numbers := h.numbers
  quiet := by
    rintro b hb hi ⟨c, hc, ht⟩
    rw [h.quiet b hb hi c hc] at ht
    exact absurd ht (by simp)
  stop := fun h => absurd h h1
  late := fun e he hi hl => absurd hl (h.late e he hi)
  timeout := fun h => absurd h h2

/-- The callbacks are called. -/
theorem SqpProgress.notify {cbs : List Callback} {opts : SolverOptions} {w : World} {bs : Batches} {info : Info}
    (h : SqpProgress cbs opts w bs) (hlt : ∀ s ∈ bs.own false, s.info.iteration < info.iteration)
    (hit : MayContinue opts 0 info.iteration) {w1 : World}
    (hw : w1 = { w with calls := (runRegistered info 0 cbs w.calls).1, trace := w.trace ++ [⟨false, info, 0, 0⟩], seen := w.seen ++ [w.vars] }) :
    ∃ l, History cbs .start w1 (bs ++ [(⟨false, info, 0, 0⟩, l)]) w.ends ∧
      Numbers opts 0 (Batches.own false (bs ++ [((⟨false, info, 0, 0⟩ : Snapshot), l)])) ∧
      (∀ s ∈ Batches.own false (bs ++ [((⟨false, info, 0, 0⟩ : Snapshot), l)]), s.info.iteration ≤ info.iteration) ∧
      ((runRegistered info 0 cbs w.calls).2 = true ↔ ∃ c ∈ l, c.result = true) := by
  obtain ⟨l, h1, h2, h3⟩ := runRegistered_correct cbs info w.calls
  have hown : Batches.own false [((⟨false, info, 0, 0⟩ : Snapshot), l)] = [⟨false, info, 0, 0⟩] := by simp [Batches.own]
  refine ⟨l, ?_, ?_, ?_, h3⟩
  · have : History cbs w w1 [(⟨false, info, 0, 0⟩, l)] [] := by
      subst hw
      exact ⟨rfl, by simp [h1, Batches.calls], by simp, h2, trivial⟩
    have := h.history.trans this
    rwa [List.append_nil] at this
  · rw [Batches.own_append, hown]
    constructor
    · rw [List.pairwise_append]
      refine ⟨h.numbers.increasing, by simp, ?_⟩
      intro s hs s' hs'
      rw [List.mem_singleton] at hs'
      subst hs'
      exact hlt s hs
    · intro s hs
      rcases List.mem_append.1 hs with hs | hs
      · exact h.numbers.range s hs
      · rw [List.mem_singleton] at hs
        subst hs
        exact hit
  · rw [Batches.own_append, hown]
    intro s hs
    rcases List.mem_append.1 hs with hs | hs
    · exact (hlt s hs).le
    · rw [List.mem_singleton] at hs
      subst hs
      exact le_rfl

/-- A callback returned true. -/
theorem SqpProgress.stop {cbs : List Callback} {opts : SolverOptions} {w : World} {bs : Batches} {info : Info}
    (h : SqpProgress cbs opts w bs) (hlt : ∀ s ∈ bs.own false, s.info.iteration < info.iteration)
    (hit : MayContinue opts 0 info.iteration) (hc : (runRegistered info 0 cbs w.calls).2 = true) :
    ∃ bs', SqpHistory cbs opts .callbackRequestedStop info.toIterate
      { w with calls := (runRegistered info 0 cbs w.calls).1, trace := w.trace ++ [⟨false, info, 0, 0⟩], seen := w.seen ++ [w.vars] } bs' := by
  obtain ⟨l, h1, h2, -, h3⟩ := h.notify hlt hit rfl
  refine ⟨_, ⟨by have := h1.trace; simpa [World.start] using this, by have := h1.calls; simpa [World.start] using this,
    h1.ok, h2, ?_, fun _ => ⟨_, by simp; rfl, rfl, h3.1 hc, rfl⟩, ?_, by simp⟩⟩
  · rintro b hb hi ⟨c, hc', ht⟩
    refine ⟨rfl, ?_⟩
    rcases List.mem_append.1 hb with hb | hb
    · rw [h.quiet b hb hi c hc'] at ht
      exact absurd ht (by simp)
    · rw [List.mem_singleton] at hb; subst hb; simp
  · intro e he hi hl
    exact absurd hl (h.late e he hi)

/-- No callback returned true, and a restoration may have run. -/
theorem SqpProgress.step {cbs : List Callback} {opts : SolverOptions} {w : World} {bs : Batches} {info : Info}
    (h : SqpProgress cbs opts w bs) (hlt : ∀ s ∈ bs.own false, s.info.iteration < info.iteration)
    (hit : MayContinue opts 0 info.iteration) (hc : ¬ (runRegistered info 0 cbs w.calls).2 = true) {w2 : World}
    {bs' : Batches} {es' : List (Bool × ℝ)}
    (hw : History cbs { w with calls := (runRegistered info 0 cbs w.calls).1, trace := w.trace ++ [⟨false, info, 0, 0⟩], seen := w.seen ++ [w.vars] }
      w2 bs' es') (hb : ∀ b ∈ bs', b.1.inner = true) (he : ∀ e ∈ es', e.1 = true) :
    ∃ bs'', SqpProgress cbs opts w2 bs'' ∧ ∀ s ∈ Batches.own false bs'', s.info.iteration ≤ info.iteration := by
  obtain ⟨l, h4, h5, h6, h7⟩ := h.notify hlt hit rfl
  have hown : Batches.own false bs' = [] := by
    rw [Batches.own, List.filter_eq_nil_iff]
    intro s hs
    obtain ⟨b, hb', rfl⟩ := List.mem_map.1 hs
    rw [hb b hb']; simp
  have hH := h4.trans hw
  have hends : w2.ends = w.ends ++ es' := by have := hH.ends; simpa [World.start] using this
  refine ⟨_, ⟨by rw [hends]; exact hH, ?_, ?_, ?_⟩, ?_⟩
  · rw [Batches.own_append, hown, List.append_nil]; exact h5
  · intro b hb1 hi
    rcases List.mem_append.1 hb1 with hb1 | hb1
    · rcases List.mem_append.1 hb1 with hb1 | hb1
      · exact h.quiet b hb1 hi
      · rw [List.mem_singleton] at hb1
        subst hb1
        intro c hc'
        by_contra ht
        exact hc (h7.2 ⟨c, hc', by simpa using ht⟩)
    · rw [hb b hb1] at hi; exact absurd hi (by simp)
  · intro e he1 hi
    rw [hends] at he1
    rcases List.mem_append.1 he1 with he1 | he1
    · exact h.late e he1 hi
    · rw [he e he1] at hi; exact absurd hi (by simp)
  · rw [Batches.own_append, hown, List.append_nil]; exact h6

theorem SqpProgress.late_exit {cbs : List Callback} {opts : SolverOptions} {w : World} {bs : Batches}
    (h : SqpProgress cbs opts w bs) {info : Iterate} {t : ℝ} (ht : Fl.fin t > opts.timeout) :
    SqpHistory cbs opts .timeout info (w.tick false t) bs := by
  have h0 := h.exit (status := .success) (info := info) (by simp) (by simp)
  refine ⟨h0.trace, h0.calls, h0.ok, h0.numbers, ?_, by simp, ?_, fun _ => ⟨t, by simp [World.tick], ht⟩⟩
  · rintro b hb hi ⟨c, hc, ht⟩
    rw [h.quiet b hb hi c hc] at ht
    exact absurd ht (by simp)
  · intro e he hi hl
    rcases List.mem_append.1 he with he | he
    · exact absurd hl (h.late e he hi)
    · rw [List.mem_singleton] at he; subst he; exact ⟨rfl, by simp [World.tick]⟩

theorem SqpProgress.tick {cbs : List Callback} {opts : SolverOptions} {w : World} {bs : Batches}
    (h : SqpProgress cbs opts w bs) {t : ℝ} (ht : ¬ Fl.fin t > opts.timeout) :
    SqpProgress cbs opts (w.tick false t) bs := by
  refine ⟨⟨h.history.trace, h.history.calls, by simp [World.start], h.history.ok⟩, h.numbers, h.quiet, ?_⟩
  intro e he hi
  rcases List.mem_append.1 he with he | he
  · exact h.late e he hi
  · rw [List.mem_singleton] at he; subst he; exact ht

/-- The result of a run. -/
structure SqpOk (env : Env) (opts : SolverOptions) (P : Nlp n m 0) (cbs : List Callback) (res : SqpResult n m) :
    Prop where
  history : ∃ bs, SqpHistory cbs opts res.status ⟨res.iterations, List.ofFn res.x, [], List.ofFn res.y, []⟩ res.world bs
  pos : res.world.Pos True
  le : (res.iterations : ℤ) ≤ max 1 opts.maxIterations
  success : res.status = .success → ¬ errZeroSqp env P.scaling (P.eval res.x res.y Fin.elim0) res.y > .fin opts.tolerance
  locally : res.status = .locallyInfeasible → eqInfeasible env (P.Ae res.x) (P.ce res.x) ∨
    RestorationOptimal True env opts P res.x
  diverged : res.status = .divergingIterates → diverging env res.x
  limit : res.status = .maxIterationsExceeded → opts.maxIterations ≤ res.iterations
  status : res.status ≠ .tooFewDofs ∧ res.status ≠ .nonfiniteInitialGuess ∧ res.status ≠ .globallyInfeasible ∧
    res.status ≠ .lineSearchFailed

theorem sqpLoop_ok {env : Env} {opts : SolverOptions} {P : Nlp n m 0} {cbs : List Callback} {start : ℝ}
    (htol : 0 < opts.tolerance) (r : ℕ)
    (st : SqpState n m) (w : World) (bs : Batches) (hw : SqpProgress cbs opts w bs) (hpos : w.Pos True)
    (hlt : ∀ s ∈ bs.own false, s.info.iteration < st.iterations) (hit : MayContinue opts 0 st.iterations)
    (he : st.e = P.eval st.x st.y Fin.elim0) (hE : st.E0 = errZeroSqp env P.scaling st.e st.y)
    (hr : 1 ≤ r) (hr' : (opts.maxIterations - st.iterations).toNat ≤ r) :
    ∃ res, sqpLoop env opts P cbs start r st w = some res ∧ SqpOk env opts P cbs res := by
  induction r generalizing st w bs with
  | zero => omega
  | succ r ih =>
    have hle : (st.iterations : ℤ) ≤ max 1 opts.maxIterations := by rcases hit.2 with h | h <;> omega
    rw [sqpLoop]
    by_cases c1 : ¬ st.E0 > .fin opts.tolerance
    · rw [if_pos c1]
      exact ⟨_, rfl, ⟨bs, hw.exit (by simp [SqpState.exit]) (by simp [SqpState.exit])⟩, hpos, hle,
        fun _ => by rw [hE, he] at c1; exact c1, by simp [SqpState.exit], by simp [SqpState.exit], by simp [SqpState.exit],
        by simp [SqpState.exit]⟩
    rw [if_neg c1]
    by_cases c2 : eqInfeasible env st.e.Ae st.e.ce
    · rw [if_pos c2]
      exact ⟨_, rfl, ⟨bs, hw.exit (by simp [SqpState.exit]) (by simp [SqpState.exit])⟩, hpos, hle,
        by simp [SqpState.exit], fun _ => .inl (by rw [he] at c2; exact c2), by simp [SqpState.exit],
        by simp [SqpState.exit], by simp [SqpState.exit]⟩
    rw [if_neg c2]
    by_cases c3 : diverging env st.x
    · rw [if_pos c3]
      exact ⟨_, rfl, ⟨bs, hw.exit (by simp [SqpState.exit]) (by simp [SqpState.exit])⟩, hpos, hle,
        by simp [SqpState.exit], by simp [SqpState.exit], fun _ => c3, by simp [SqpState.exit], by simp [SqpState.exit]⟩
    rw [if_neg c3]
    simp only
    have hpos1 : World.Pos True
        { w with calls := (runRegistered st.info 0 cbs w.calls).1, trace := w.trace ++ [⟨false, st.info, 0, 0⟩], seen := w.seen ++ [w.vars] } := by
      have hi : st.info.Pos True := ⟨by simp [SqpState.info], by simp [SqpState.info]⟩
      obtain ⟨l, h1, h2⟩ := runRegistered_calls st.info 0 cbs w.calls
      constructor
      · intro s hs
        rcases List.mem_append.1 hs with h | h
        · exact hpos.trace s h
        · rw [List.mem_singleton] at h; subst h; exact hi
      · intro c hc
        rcases List.mem_append.1 (h1 ▸ hc : c ∈ w.calls ++ l) with h | h
        · exact hpos.calls c h
        · rw [h2 c h]; exact hi
    by_cases c4 : (runRegistered st.info 0 cbs w.calls).2 = true
    · rw [if_pos c4]
      obtain ⟨bs', h⟩ := SqpProgress.stop (info := st.info) hw hlt hit c4
      exact ⟨_, rfl, ⟨bs', h⟩, hpos1, hle, by simp [SqpState.exit], by simp [SqpState.exit], by simp [SqpState.exit],
        by simp [SqpState.exit], by simp [SqpState.exit]⟩
    rw [if_neg c4]
    obtain ⟨mv, h1, h2⟩ := sqpMove_ok (env := env) (P := P) (cbs := cbs) htol st hpos1
    obtain ⟨bs1, es1, h3, h4, h5⟩ := h2.history
    obtain ⟨bs', hp, hlt'⟩ := SqpProgress.step (info := st.info) hw hlt hit c4 h3 h4 h5
    rw [h1, Option.bind_some]
    cases mv with
    | stop res =>
      obtain ⟨h6, h7, h8⟩ := h2.stop res rfl
      refine ⟨res, rfl, ⟨bs', hp.exit ?_ ?_⟩, h2.pos, ?_, ?_, fun hl => .inr (h8 hl), ?_, ?_, ?_⟩
      · rcases h6 with h | h | h <;> simp [h]
      · rcases h6 with h | h | h <;> simp [h]
      · unfold iterationBound at h7
        rcases hit.2 with h | h <;> omega
      · rcases h6 with h | h | h <;> simp [h]
      · rcases h6 with h | h | h <;> simp [h]
      · rcases h6 with h | h | h <;> simp [h]
      · rcases h6 with h | h | h <;> simp [h]
    | go st2 w2 =>
      obtain ⟨h6, h7⟩ := h2.go st2 w2 rfl
      have h8 := hit.trans h7
      have h9 : st.iterations ≤ st2.iterations := h7.1
      have hit2 : (st2.iterations : ℤ) + 1 ≤ max 1 opts.maxIterations := by rcases h8.2 with h | h <;> omega
      simp only [SqpMoved.elim]
      by_cases c5 : ((st2.iterations + 1 : ℕ) : ℤ) ≥ opts.maxIterations
      · rw [if_pos c5]
        exact ⟨_, rfl, ⟨bs', hp.exit (by simp [SqpState.exit]) (by simp [SqpState.exit])⟩, h2.pos, hit2,
          by simp [SqpState.exit], by simp [SqpState.exit], by simp [SqpState.exit], fun _ => c5, by simp [SqpState.exit]⟩
      rw [if_neg c5]
      have hpos2 : (w2.tick false (env.clock w2.reads - start)).Pos True := ⟨h2.pos.trace, h2.pos.calls⟩
      by_cases c6 : Fl.fin (env.clock w2.reads - start) > opts.timeout
      · rw [if_pos c6]
        exact ⟨_, rfl, ⟨bs', hp.late_exit c6⟩, hpos2, hit2, by simp [SqpState.exit], by simp [SqpState.exit],
          by simp [SqpState.exit], by simp [SqpState.exit], by simp [SqpState.exit]⟩
      · rw [if_neg c6]
        refine ih _ _ bs' (hp.tick c6) hpos2 ?_ ⟨by omega, .inr (not_le.1 c5)⟩ h6 rfl (by omega) ?_
        · intro s hs
          have h10 := hlt' s hs
          show s.info.iteration < st2.iterations + 1
          have h11 : st.info.iteration = st.iterations := rfl
          omega
        · show (opts.maxIterations - ((st2.iterations + 1 : ℕ) : ℤ)).toNat ≤ r
          omega

/-- C22, C23, C24 (in part), C25 and C38 (in part) for the SQP solver. Missing: a callback that returns true during a
feasibility restoration ends only the restoration; a restoration measures its own time; and a restoration may meet its
first-order conditions at a feasible point (see DESIGN.md). -/
theorem sqp_correct_partial (env : Env) (opts : SolverOptions) (P : Nlp n m 0) (cbs : List Callback) (x : Vec n)
    (htol : 0 < opts.tolerance) :
    ∃ res, sqp env opts P cbs x .start = some res ∧
      -- TOO_FEW_DOFS and NONFINITE_INITIAL_GUESS
      (res.status = .tooFewDofs ↔ m > n) ∧
      (res.status = .nonfiniteInitialGuess ↔ m ≤ n ∧ ¬ (P.eval x (fun _ => 0) Fin.elim0).Finite) ∧
      -- the iteration limit
      (res.iterations : ℤ) ≤ max 1 opts.maxIterations ∧
      (res.status = .maxIterationsExceeded → opts.maxIterations ≤ res.iterations) ∧
      -- the callbacks and the timeout
      (∃ bs, SqpHistory cbs opts res.status ⟨res.iterations, List.ofFn res.x, [], List.ofFn res.y, []⟩ res.world bs) ∧
      -- the slacks and multipliers shown during restorations
      (∀ c ∈ res.world.calls, ∀ v ∈ c.info.s ++ c.info.z, ∃ a, v = .fin a ∧ 0 < a) ∧
      -- SUCCESS
      (res.status = .success → (P.g res.x).Finite → (P.Ae res.x).Finite → (P.ce res.x).Finite → res.y.Finite →
        unscaledInfSqp P.scaling (P.g res.x).real (P.Ae res.x).real (P.ce res.x).real res.y.real ≤ opts.tolerance) ∧
      -- LOCALLY_INFEASIBLE
      (res.status = .locallyInfeasible → (P.Ae res.x).Finite → (P.ce res.x).Finite →
        EqStuck (P.Ae res.x) (P.ce res.x) ∨ RestorationOptimal True env opts P res.x) ∧
      -- DIVERGING_ITERATES
      (res.status = .divergingIterates → ∃ i, (res.x i).isFinite = false ∨ |(res.x i).toReal| > 1e10) ∧
      res.status ≠ .globallyInfeasible ∧ res.status ≠ .lineSearchFailed := by
  have h0 : SqpProgress cbs opts { World.start with reads := World.start.reads + 1, vars := P.vars x } [] :=
    ⟨.refl cbs rfl rfl rfl, ⟨by simp [Batches.own], by simp [Batches.own]⟩, by simp, by simp [World.start]⟩
  unfold sqp sqpRun
  simp only
  by_cases hm : m > n
  · rw [if_pos hm]
    exact ⟨_, rfl, ⟨fun _ => hm, fun _ => rfl⟩, ⟨by simp [SqpState.exit], fun h => by omega⟩, by simp [SqpState.exit, sqpInit],
      by simp [SqpState.exit], ⟨[], h0.exit (by simp [SqpState.exit]) (by simp [SqpState.exit])⟩,
      by simp [SqpState.exit, World.start], by simp [SqpState.exit], by simp [SqpState.exit], by simp [SqpState.exit],
      by simp [SqpState.exit], by simp [SqpState.exit]⟩
  rw [if_neg hm]
  by_cases hfin : (sqpInit env P x fun _ => 0).e.Finite
  · rw [if_neg (not_not.2 hfin)]
    obtain ⟨res, h1, h2⟩ := sqpLoop_ok (env := env) (P := P) (cbs := cbs) (start := env.clock World.start.reads) htol
      (loopRounds opts 0) (sqpInit env P x fun _ => 0) _ [] h0 ⟨by simp [World.start], by simp [World.start]⟩
      (by simp [Batches.own]) ⟨le_rfl, .inl rfl⟩ rfl rfl (le_max_left _ _) (le_max_right _ _)
    refine ⟨res, h1, ⟨fun h => absurd h h2.status.1, fun h => absurd h hm⟩,
      ⟨fun h => absurd h h2.status.2.1, fun h => absurd hfin h.2⟩, h2.le, h2.limit, h2.history, ?_, fun hs hg hA hc hy => ?_,
      fun hl hA hc => ?_, fun hd => (diverging_iff env _).1 (h2.diverged hd), h2.status.2.2⟩
    · intro c hc v hv
      rcases List.mem_append.1 hv with h | h
      · exact (h2.pos.calls c hc).1 v h
      · exact (h2.pos.calls c hc).2 trivial v h
    · have := h2.success hs
      unfold errZeroSqp at this
      rw [if_pos ⟨hg, hA, hc, hy⟩, gt_iff_lt, Fl.fin_lt, not_lt] at this
      exact this
    · rcases h2.locally hl with h | h
      · unfold eqInfeasible at h
        rw [if_pos ⟨hA, hc⟩] at h
        exact .inl ⟨h.2.2, h.2.1⟩
      · exact .inr h
  · rw [if_pos hfin]
    exact ⟨_, rfl, ⟨by simp [SqpState.exit], fun h => absurd h hm⟩, ⟨fun _ => ⟨by omega, hfin⟩, fun _ => rfl⟩,
      by simp [SqpState.exit, sqpInit],
      by simp [SqpState.exit], ⟨[], h0.exit (by simp [SqpState.exit]) (by simp [SqpState.exit])⟩,
      by simp [SqpState.exit, World.start], by simp [SqpState.exit], by simp [SqpState.exit], by simp [SqpState.exit],
      by simp [SqpState.exit], by simp [SqpState.exit]⟩

/-! ### An example: x = 0 -/

/-- No cost, constraint x = 0. -/
noncomputable def zeroProblem : Nlp 1 1 0 where
  f _ := .fin 0
  g _ := fun _ => .fin 0
  H _ _ _ := fun _ _ => .fin 0
  ce x := fun _ => x 0
  Ae _ := fun _ _ => .fin 1
  ci _ := Fin.elim0
  Ai _ := Fin.elim0
  scaling := .identity

theorem zeroProblem_error (env : Env) (a : ℝ) :
    errZeroSqp env zeroProblem.scaling (zeroProblem.eval (fun _ => .fin a) (fun _ => 0) Fin.elim0) (fun _ => 0) = .fin |a| := by
  unfold errZeroSqp
  rw [if_pos ⟨fun _ => rfl, fun _ _ => rfl, fun _ => rfl, fun _ => rfl⟩]
  have h0 : Vec.real (fun _ : Fin 1 => (0 : Fl)) = 0 := rfl
  rw [h0]
  simp [unscaledInfSqp, zeroProblem, Scaling.isIdentity, kktInfSqp, infNorm, Vec.real, Fl.toReal, Nlp.eval]

/-- At the solution the solver returns SUCCESS without calling anything. -/
example (cbs : List Callback) : ∃ res, sqp minusOneEnv ⟨1e-8, 100, .fin 50, false⟩ zeroProblem cbs (fun _ => .fin 0) .start =
    some res ∧ res.status = .success ∧ res.world.calls = [] := by
  unfold sqp sqpRun
  simp only
  rw [if_neg (by decide), if_neg (by
    rw [not_not]; exact ⟨rfl, fun _ => rfl, fun _ _ => rfl, fun _ => rfl, fun _ _ => rfl, fun i => i.elim0, fun i => i.elim0⟩)]
  rw [show loopRounds ⟨1e-8, 100, .fin 50, false⟩ 0 = 99 + 1 from rfl, sqpLoop, if_pos (by
    show ¬ errZeroSqp minusOneEnv zeroProblem.scaling (zeroProblem.eval (fun _ => .fin 0) (fun _ => 0) Fin.elim0) (fun _ => 0) > _
    rw [zeroProblem_error, gt_iff_lt, Fl.fin_lt]; norm_num)]
  exact ⟨_, rfl, rfl, rfl⟩

/-- Away from it a callback is called, and can stop the solver. -/
example : ∃ res, sqp minusOneEnv ⟨1e-8, 100, .fin 50, false⟩ zeroProblem [fun _ _ => false, fun _ _ => true, fun _ _ => true]
    (fun _ => .fin 1) .start = some res ∧ res.status = .callbackRequestedStop ∧ res.world.calls.length = 2 ∧
    res.x = fun _ => .fin 1 := by
  unfold sqp sqpRun
  simp only
  rw [if_neg (by decide), if_neg (by
    rw [not_not]; exact ⟨rfl, fun _ => rfl, fun _ _ => rfl, fun _ => rfl, fun _ _ => rfl, fun i => i.elim0, fun i => i.elim0⟩)]
  rw [show loopRounds ⟨1e-8, 100, .fin 50, false⟩ 0 = 99 + 1 from rfl, sqpLoop, if_neg (by
    rw [not_not]
    show errZeroSqp minusOneEnv zeroProblem.scaling (zeroProblem.eval (fun _ => .fin 1) (fun _ => 0) Fin.elim0) (fun _ => 0) > _
    rw [zeroProblem_error, gt_iff_lt, Fl.fin_lt]; norm_num)]
  rw [if_neg (by
    unfold eqInfeasible
    rw [if_pos ⟨fun _ _ => rfl, fun _ => rfl⟩]
    rintro ⟨-, h, -⟩
    norm_num [twoNorm, sqpInit, Nlp.eval, zeroProblem, FMat.real, Vec.real, Fl.toReal] at h)]
  rw [if_neg (by
    rw [diverging_iff]
    rintro ⟨i, h | h⟩
    · simp [sqpInit, Fl.isFinite] at h
    · norm_num [sqpInit, Fl.toReal] at h)]
  simp only [runRegistered, Bool.false_eq_true, if_false, if_true]
  exact ⟨_, rfl, rfl, rfl, rfl⟩

end Slp
