import Verif.Solver.SqpSearchProps
import Verif.Solver.IpmProps

/-! C22 to C24 and C38 for Newton's method, for every cost function, every answer of the linear solver, every clock
and every behaviour of the callbacks. -/

namespace Slp

open Classical

variable {n : ℕ}

/-- The history of a run without restorations: at each iterate the callbacks are called in order until one returns
true, which ends the run with the iterate shown; the iteration numbers count up from 0; the run ends after the first
iteration that ends past the timeout. -/
structure PlainHistory (cbs : List Callback) (opts : SolverOptions) (status : ExitStatus) (returned : Iterate) (w : World)
    (bs : Batches) : Prop where
  trace : w.trace = bs.map Prod.fst
  calls : w.calls = bs.calls
  ok : Batches.Ok cbs [] bs
  own : ∀ b ∈ bs, b.1.inner = false
  numbers : bs.map (fun b => b.1.info.iteration) = List.range bs.length
  limit : (bs.length : ℤ) ≤ max 1 opts.maxIterations
  quiet : ∀ b ∈ bs, (∃ c ∈ b.2, c.result = true) → status = .callbackRequestedStop ∧ bs.getLast? = some b
  stop : status = .callbackRequestedStop → ∃ b, bs.getLast? = some b ∧ (∃ c ∈ b.2, c.result = true) ∧ b.1.info.toIterate = returned
  late : ∀ e ∈ w.ends, Fl.fin e.2 > opts.timeout → status = .timeout ∧ w.ends.getLast? = some e
  timeout : status = .timeout → ∃ e, w.ends.getLast? = some e ∧ Fl.fin e.2 > opts.timeout

/-- What such a loop maintains. -/
structure PlainProgress (cbs : List Callback) (opts : SolverOptions) (it : ℕ) (w : World) (bs : Batches) : Prop where
  history : History cbs .start w bs w.ends
  numbers : bs.map (fun b => b.1.info.iteration) = List.range bs.length
  length : bs.length = it
  own : ∀ b ∈ bs, b.1.inner = false
  quiet : ∀ b ∈ bs, ∀ c ∈ b.2, c.result = false
  late : ∀ e ∈ w.ends, ¬ Fl.fin e.2 > opts.timeout

theorem PlainProgress.exit {cbs : List Callback} {opts : SolverOptions} {it : ℕ} {w : World} {bs : Batches}
    (h : PlainProgress cbs opts it w bs) {status : ExitStatus} {info : Iterate} (hit : (it : ℤ) ≤ max 1 opts.maxIterations)
    (h1 : status ≠ .callbackRequestedStop) (h2 : status ≠ .timeout) : PlainHistory cbs opts status info w bs where
  trace := by have := h.history.trace; simpa [World.start] using this
  calls := by have := h.history.calls; simpa [World.start] using this
  ok := h.history.ok
  own := h.own
  numbers := h.numbers
  limit := by rw [h.length]; exact hit
  quiet := by
    rintro b hb ⟨c, hc, ht⟩
    rw [h.quiet b hb c hc] at ht
    exact absurd ht (by simp)
  stop := fun h => absurd h h1
  late := fun e he hl => absurd hl (h.late e he)
  timeout := fun h => absurd h h2

/-- The callbacks are called. -/
theorem PlainProgress.notify {cbs : List Callback} {opts : SolverOptions} {w : World} {bs : Batches} {info : Info}
    (h : PlainProgress cbs opts info.iteration w bs) {w1 : World}
    (hw : w1 = { w with calls := (runRegistered info 0 cbs w.calls).1, trace := w.trace ++ [⟨false, info, 0, 0⟩], seen := w.seen ++ [w.vars] }) :
    ∃ l, History cbs .start w1 (bs ++ [(⟨false, info, 0, 0⟩, l)]) w.ends ∧
      ((bs ++ [((⟨false, info, 0, 0⟩ : Snapshot), l)]).map (fun b => b.1.info.iteration) =
        List.range (bs ++ [((⟨false, info, 0, 0⟩ : Snapshot), l)]).length) ∧
      ((runRegistered info 0 cbs w.calls).2 = true ↔ ∃ c ∈ l, c.result = true) := by
  obtain ⟨l, h1, h2, h3⟩ := runRegistered_correct cbs info w.calls
  refine ⟨l, ?_, ?_, h3⟩
  · have : History cbs w w1 [(⟨false, info, 0, 0⟩, l)] [] := by
      subst hw
      exact ⟨rfl, by simp [h1, Batches.calls], by simp, h2, trivial⟩
    have := h.history.trans this
    rwa [List.append_nil] at this
  · rw [List.map_append, h.numbers]
    simp [List.range_succ, h.length]

/-- A callback returned true. -/
theorem PlainProgress.stop {cbs : List Callback} {opts : SolverOptions} {w : World} {bs : Batches} {info : Info}
    (h : PlainProgress cbs opts info.iteration w bs) (hit : (info.iteration : ℤ) + 1 ≤ max 1 opts.maxIterations)
    (hc : (runRegistered info 0 cbs w.calls).2 = true) :
    ∃ bs', PlainHistory cbs opts .callbackRequestedStop info.toIterate
      { w with calls := (runRegistered info 0 cbs w.calls).1, trace := w.trace ++ [⟨false, info, 0, 0⟩], seen := w.seen ++ [w.vars] } bs' := by
  obtain ⟨l, h1, h2, h3⟩ := h.notify rfl
  refine ⟨_, ⟨by have := h1.trace; simpa [World.start] using this, by have := h1.calls; simpa [World.start] using this,
    h1.ok, ?_, h2, by simp [h.length]; simpa using hit, ?_, fun _ => ⟨_, by simp; rfl, h3.1 hc, rfl⟩, ?_, by simp⟩⟩
  · intro b hb
    rcases List.mem_append.1 hb with hb | hb
    · exact h.own b hb
    · rw [List.mem_singleton] at hb; subst hb; rfl
  · rintro b hb ⟨c, hc', ht⟩
    refine ⟨rfl, ?_⟩
    rcases List.mem_append.1 hb with hb | hb
    · rw [h.quiet b hb c hc'] at ht
      exact absurd ht (by simp)
    · rw [List.mem_singleton] at hb; subst hb; simp
  · intro e he hl
    exact absurd hl (h.late e he)

/-- No callback returned true; the end of the iteration at the limit, after the timeout, or otherwise. -/
theorem PlainProgress.step {cbs : List Callback} {opts : SolverOptions} {w : World} {bs : Batches} {info : Info}
    (h : PlainProgress cbs opts info.iteration w bs) (hc : ¬ (runRegistered info 0 cbs w.calls).2 = true) {w2 : World}
    (h1 : w2.calls = (runRegistered info 0 cbs w.calls).1) (h2 : w2.trace = w.trace ++ [⟨false, info, 0, 0⟩])
    (h3 : w2.ends = w.ends) :
    ∃ bs', PlainProgress cbs opts (info.iteration + 1) w2 bs' := by
  obtain ⟨l, h4, h5, h6⟩ := h.notify rfl
  refine ⟨_, ⟨h2.trans h4.trace, h1.trans h4.calls, by simp [World.start], h4.ok⟩, h5, by simp [h.length], ?_, ?_, ?_⟩
  · intro b hb
    rcases List.mem_append.1 hb with hb | hb
    · exact h.own b hb
    · rw [List.mem_singleton] at hb; subst hb; rfl
  · intro b hb
    rcases List.mem_append.1 hb with hb | hb
    · exact h.quiet b hb
    · rw [List.mem_singleton] at hb
      subst hb
      intro c hc'
      by_contra ht
      exact hc (h6.2 ⟨c, hc', by simpa using ht⟩)
  · rw [h3]; exact h.late

theorem PlainProgress.late_exit {cbs : List Callback} {opts : SolverOptions} {it : ℕ} {w : World} {bs : Batches}
    (h : PlainProgress cbs opts it w bs) {info : Iterate} (hit : (it : ℤ) ≤ max 1 opts.maxIterations) {t : ℝ}
    (ht : Fl.fin t > opts.timeout) : PlainHistory cbs opts .timeout info (w.tick false t) bs := by
  have h0 := h.exit (status := .success) (info := info) hit (by simp) (by simp)
  refine ⟨h0.trace, h0.calls, h0.ok, h0.own, h0.numbers, h0.limit, ?_, by simp, ?_, fun _ => ⟨(false, t), by simp [World.tick], ht⟩⟩
  · rintro b hb ⟨c, hc, ht⟩
    rw [h.quiet b hb c hc] at ht
    exact absurd ht (by simp)
  · intro e he hl
    rcases List.mem_append.1 he with he | he
    · exact absurd hl (h.late e he)
    · rw [List.mem_singleton] at he; subst he; exact ⟨rfl, by simp [World.tick]⟩

theorem PlainProgress.tick {cbs : List Callback} {opts : SolverOptions} {it : ℕ} {w : World} {bs : Batches}
    (h : PlainProgress cbs opts it w bs) {t : ℝ} (ht : ¬ Fl.fin t > opts.timeout) :
    PlainProgress cbs opts it (w.tick false t) bs := by
  refine ⟨⟨h.history.trace, h.history.calls, by simp [World.start], h.history.ok⟩, h.numbers, h.length, h.own, h.quiet, ?_⟩
  intro e he
  rcases List.mem_append.1 he with he | he
  · exact h.late e he
  · rw [List.mem_singleton] at he; subst he; exact ht

/-- The result of a run of Newton's method. -/
structure NewtonOk (env : Env) (opts : SolverOptions) (P : Nlp n 0 0) (cbs : List Callback) (res : NewtonResult n) :
    Prop where
  history : ∃ bs, PlainHistory cbs opts res.status ⟨res.iterations, List.ofFn res.x, [], [], []⟩ res.world bs
  le : (res.iterations : ℤ) ≤ max 1 opts.maxIterations
  success : res.status = .success → ¬ errZeroNewton env P.scaling (P.g res.x) > .fin opts.tolerance
  diverged : res.status = .divergingIterates → diverging env res.x
  limit : res.status = .maxIterationsExceeded → opts.maxIterations ≤ res.iterations
  status : res.status = .success ∨ res.status = .divergingIterates ∨ res.status = .callbackRequestedStop ∨
    res.status = .lineSearchFailed ∨ res.status = .maxIterationsExceeded ∨ res.status = .timeout

theorem newtonLoop_ok (env : Env) (opts : SolverOptions) (P : Nlp n 0 0) (cbs : List Callback) (start : ℝ) (r : ℕ)
    (st : NewtonState n) (w : World) (bs : Batches) (hw : PlainProgress cbs opts st.iterations w bs)
    (hE : st.E0 = errZeroNewton env P.scaling (P.g st.x)) (hit : st.iterations = 0 ∨ (st.iterations : ℤ) < opts.maxIterations)
    (hr : 1 ≤ r) (hr' : (opts.maxIterations - st.iterations).toNat ≤ r) :
    ∃ res, newtonLoop env opts P cbs start r st w = some res ∧ NewtonOk env opts P cbs res := by
  induction r generalizing st w bs with
  | zero => omega
  | succ r ih =>
    have hit' : (st.iterations : ℤ) + 1 ≤ max 1 opts.maxIterations := by rcases hit with h | h <;> omega
    have hle : (st.iterations : ℤ) ≤ max 1 opts.maxIterations := by omega
    rw [newtonLoop]
    by_cases c1 : ¬ st.E0 > .fin opts.tolerance
    · rw [if_pos c1]
      exact ⟨_, rfl, ⟨bs, hw.exit hle (by simp [NewtonState.exit]) (by simp [NewtonState.exit])⟩, hle,
        fun _ => hE ▸ c1, by simp [NewtonState.exit], by simp [NewtonState.exit], by simp [NewtonState.exit]⟩
    rw [if_neg c1]
    by_cases c2 : diverging env st.x
    · rw [if_pos c2]
      exact ⟨_, rfl, ⟨bs, hw.exit hle (by simp [NewtonState.exit]) (by simp [NewtonState.exit])⟩, hle,
        by simp [NewtonState.exit], fun _ => c2, by simp [NewtonState.exit], by simp [NewtonState.exit]⟩
    rw [if_neg c2]
    simp only
    by_cases c3 : (runRegistered st.info 0 cbs w.calls).2 = true
    · rw [if_pos c3]
      obtain ⟨bs', h⟩ := PlainProgress.stop (info := st.info) hw hit' c3
      exact ⟨_, rfl, ⟨bs', h⟩, hle, by simp [NewtonState.exit], by simp [NewtonState.exit], by simp [NewtonState.exit],
        by simp [NewtonState.exit]⟩
    rw [if_neg c3]
    obtain ⟨ls, hls⟩ := newton_line_search_ends env P st w.solves (dotF env st.g (newtonStep env st w.solves)) st.filter
    obtain ⟨bs', hp⟩ := PlainProgress.step (info := st.info) hw c3
      (w2 := ⟨(runRegistered st.info 0 cbs w.calls).1, w.trace ++ [⟨false, st.info, 0, 0⟩], w.ends, w.factors + 1,
        w.solves + 1, w.estimates, w.reads, w.vars, w.seen ++ [w.vars]⟩) rfl rfl rfl
    rw [hls, Option.bind_some]
    cases hacc : ls.accepted with
    | none =>
      simp only [Option.elim]
      exact ⟨_, rfl, ⟨bs', hp.exit hit' (by simp [NewtonState.exit]) (by simp [NewtonState.exit])⟩, hle,
        by simp [NewtonState.exit], by simp [NewtonState.exit], by simp [NewtonState.exit], by simp [NewtonState.exit]⟩
    | some b =>
      simp only [Option.elim]
      obtain ⟨bs', hp⟩ := PlainProgress.step (info := st.info) hw c3
        (w2 := ⟨(runRegistered st.info 0 cbs w.calls).1, w.trace ++ [⟨false, st.info, 0, 0⟩], w.ends, w.factors + 1,
          w.solves + 1, w.estimates, w.reads, P.vars b.2.1, w.seen ++ [w.vars]⟩) rfl rfl rfl
      by_cases c4 : ((st.iterations + 1 : ℕ) : ℤ) ≥ opts.maxIterations
      · rw [if_pos c4]
        exact ⟨_, rfl, ⟨bs', hp.exit hit' (by simp [NewtonState.exit]) (by simp [NewtonState.exit])⟩, hit',
          by simp [NewtonState.exit], by simp [NewtonState.exit], fun _ => c4, by simp [NewtonState.exit]⟩
      rw [if_neg c4]
      by_cases c5 : Fl.fin (env.clock w.reads - start) > opts.timeout
      · rw [if_pos c5]
        exact ⟨_, rfl, ⟨bs', hp.late_exit hit' c5⟩, hit', by simp [NewtonState.exit], by simp [NewtonState.exit],
          by simp [NewtonState.exit], by simp [NewtonState.exit]⟩
      · rw [if_neg c5]
        refine ih _ _ bs' (hp.tick c5) rfl (.inr (not_le.1 c4)) (by omega) ?_
        show (opts.maxIterations - ((st.iterations + 1 : ℕ) : ℤ)).toNat ≤ r
        omega

/-- C22, C23, C24, C38: a run of Newton's method ends, with a status that means what it says. -/
theorem newton_correct (env : Env) (opts : SolverOptions) (P : Nlp n 0 0) (cbs : List Callback) (x : Vec n) :
    ∃ res, newton env opts P cbs x .start = some res ∧
      -- NONFINITE_INITIAL_GUESS exactly if a value at the initial guess is not finite
      (res.status = .nonfiniteInitialGuess ↔
        ¬ ((P.f x).isFinite = true ∧ (P.g x).Finite ∧ (P.H x Fin.elim0 Fin.elim0).Finite)) ∧
      -- the iteration limit
      (res.iterations : ℤ) ≤ max 1 opts.maxIterations ∧
      (res.status = .maxIterationsExceeded → opts.maxIterations ≤ res.iterations) ∧
      -- the callbacks and the timeout
      (∃ bs, PlainHistory cbs opts res.status ⟨res.iterations, List.ofFn res.x, [], [], []⟩ res.world bs) ∧
      -- SUCCESS
      (res.status = .success → (P.g res.x).Finite →
        unscaledInfNewton P.scaling (P.g res.x).real ≤ opts.tolerance) ∧
      -- DIVERGING_ITERATES
      (res.status = .divergingIterates → ∃ i, (res.x i).isFinite = false ∨ |(res.x i).toReal| > 1e10) ∧
      -- statuses of other solvers
      res.status ≠ .tooFewDofs ∧ res.status ≠ .locallyInfeasible ∧ res.status ≠ .globallyInfeasible ∧
      res.status ≠ .factorizationFailed ∧ res.status ≠ .feasibilityRestorationFailed := by
  unfold newton
  simp only
  have h0 (it : ℕ) (hw : it = 0) : PlainProgress cbs opts it { World.start with reads := World.start.reads + 1, vars := P.vars x } [] :=
    ⟨.refl cbs rfl rfl rfl, rfl, by simp [hw], by simp, by simp, by simp [World.start]⟩
  by_cases hfin : (newtonInit env P x).f.isFinite = true ∧ (newtonInit env P x).g.Finite ∧
      (newtonInit env P x).H.Finite
  · rw [if_neg (not_not.2 hfin)]
    obtain ⟨res, h1, h2⟩ := newtonLoop_ok env opts P cbs (env.clock World.start.reads) (loopRounds opts 0)
      (newtonInit env P x) _ [] (h0 0 rfl) rfl (.inl rfl) (le_max_left _ _) (le_max_right _ _)
    refine ⟨res, h1, ⟨fun h => ?_, fun h => absurd hfin h⟩, h2.le, h2.limit, h2.history, fun hs hg => ?_,
      fun hd => (diverging_iff env _).1 (h2.diverged hd), ?_⟩
    · rcases h2.status with h' | h' | h' | h' | h' | h' <;> rw [h'] at h <;> simp at h
    · have := h2.success hs
      unfold errZeroNewton at this
      rw [if_pos hg, gt_iff_lt, Fl.fin_lt, not_lt] at this
      exact this
    · rcases h2.status with h' | h' | h' | h' | h' | h' <;> rw [h'] <;> simp
  · rw [if_pos hfin]
    refine ⟨_, rfl, ⟨fun _ => hfin, fun _ => rfl⟩, ?_, by simp [NewtonState.exit],
      ⟨[], (h0 0 rfl).exit (by simp) (by simp [NewtonState.exit]) (by simp [NewtonState.exit])⟩, by simp [NewtonState.exit],
      by simp [NewtonState.exit], by simp [NewtonState.exit]⟩
    simp [NewtonState.exit, newtonInit]

/-! ### An example: one step on x² -/

/-- x². -/
noncomputable def squareProblem : Nlp 1 0 0 where
  f x := x 0 * x 0
  g x := fun _ => .fin 2 * x 0
  H _ _ _ := fun _ _ => .fin 2
  ce _ := Fin.elim0
  Ae _ := Fin.elim0
  ci _ := Fin.elim0
  Ai _ := Fin.elim0
  scaling := .identity

/-- A linear solver that answers −1. -/
noncomputable def minusOneEnv : Env := ⟨fun _ => true, fun _ _ _ => .fin (-1), fun _ _ _ => 0, fun i => i, fun _ _ => 0⟩

/-- Newton's method solves the problem in one step from 1. -/
example : ∃ res, newton minusOneEnv ⟨1e-8, 100, .fin 50, false⟩ squareProblem [fun _ _ => false] (fun _ => .fin 1) .start =
    some res ∧ res.status = .success ∧ res.x = (fun _ => 0) ∧ res.iterations = 1 ∧ res.world.calls.length = 1 := by
  have hg (a : ℝ) : (squareProblem.g fun _ => .fin a) = fun _ => .fin (2 * a) := rfl
  have he (a : ℝ) : errZeroNewton minusOneEnv squareProblem.scaling (fun _ : Fin 1 => .fin (2 * a)) = .fin |2 * a| := by
    unfold errZeroNewton
    rw [if_pos (show Vec.Finite (fun _ : Fin 1 => .fin (2 * a)) from fun _ => rfl)]
    simp [unscaledInfNewton, squareProblem, Scaling.isIdentity, kktInfNewton, infNorm, Vec.real, Fl.toReal]
  unfold newton
  simp only
  rw [if_neg (by rw [not_not]; exact ⟨rfl, fun _ => rfl, fun _ _ => rfl⟩)]
  rw [show loopRounds ⟨1e-8, 100, .fin 50, false⟩ 0 = 98 + 1 + 1 from rfl, newtonLoop]
  rw [if_neg (by
    rw [not_not]
    show errZeroNewton minusOneEnv squareProblem.scaling (squareProblem.g fun _ => .fin 1) > _
    rw [hg, he, gt_iff_lt, Fl.fin_lt]; norm_num)]
  rw [if_neg (by
    rw [diverging_iff]
    rintro ⟨i, h | h⟩
    · simp [newtonInit, Fl.isFinite] at h
    · norm_num [newtonInit, Fl.toReal] at h)]
  simp only [runRegistered, Bool.false_eq_true, if_false]
  rw [show newtonRounds = 67 + 1 from rfl, newtonLineSearch]
  have hpt : newtonPoint minusOneEnv (newtonInit minusOneEnv squareProblem fun _ => .fin 1) World.start.solves 1 =
      fun _ => .fin 0 := by
    funext j
    show Fl.fin 1 + .fin 1 * .fin (-1) = .fin 0
    simp
  have hD : dotF minusOneEnv (newtonInit minusOneEnv squareProblem fun _ => .fin 1).g
      (newtonStep minusOneEnv (newtonInit minusOneEnv squareProblem fun _ => .fin 1) World.start.solves) = .fin (-2) := by
    unfold dotF
    rw [if_pos ⟨fun _ => rfl, fun _ => rfl⟩]
    simp [newtonInit, newtonStep, squareProblem, minusOneEnv, Vec.real, Fl.toReal]
  have hacc : (Filter.tryAdd (.make 0) (newtonEntry (.fin 1)) (newtonEntry (.fin 0)) (.fin (-2)) 1).2 = true := by
    refine accepted_complete (c := 0) rfl ?_ (by simp [Filter.make]) ?_
    · simp only [newtonEntry, Filter.make, gt_iff_lt]
      rw [Fl.one_def, Fl.zero_def, Fl.max_fin, Fl.fin_mul, Fl.fin_lt]
      norm_num
    · by_cases hc : (newtonEntry (.fin 1)).violation ≤ (Filter.make 0).minViolation ∧
          switching (newtonEntry (.fin 1)) (.fin (-2)) 1
      · rw [if_pos (show _ ∧ _ ∧ _ from hc)]
        simp only [newtonEntry]
        rw [Fl.one_def, Fl.fin_mul, Fl.fin_mul, Fl.fin_add, Fl.fin_le]; norm_num
      · rw [if_neg (show ¬ (_ ∧ _ ∧ _) from hc)]
        left
        simp only [newtonEntry]
        rw [Fl.one_def, Fl.zero_def, Fl.pow_fin (by norm_num), Fl.fin_mul, Fl.fin_mul, Fl.fin_sub, Fl.fin_le]; norm_num
  have hf : squareProblem.f (fun _ => .fin 0) = .fin 0 := by
    show Fl.fin 0 * .fin 0 = .fin 0
    simp
  have hf1 : (newtonInit minusOneEnv squareProblem fun _ => .fin 1).f = .fin 1 := by
    show Fl.fin 1 * .fin 1 = .fin 1
    simp
  simp only [hD, hpt, hf, hf1]
  rw [if_neg (by simp [Fl.isFinite])]
  rw [if_pos (show (Filter.tryAdd (newtonInit minusOneEnv squareProblem fun _ => .fin 1).filter (newtonEntry (.fin 1))
    (newtonEntry (.fin 0)) (.fin (-2)) 1).2 = true from hacc)]
  simp only [Option.bind_some, Option.elim]
  rw [if_neg (by simp [newtonInit]), if_neg (by
    rw [gt_iff_lt, Fl.fin_lt]; norm_num [minusOneEnv, World.start])]
  rw [show (98 + 1 : ℕ) = 98 + 1 from rfl, newtonLoop, if_pos (by
    show ¬ errZeroNewton minusOneEnv squareProblem.scaling (squareProblem.g fun _ => .fin 0) > _
    rw [hg, he, gt_iff_lt, Fl.fin_lt]; norm_num)]
  exact ⟨_, rfl, rfl, rfl, rfl, rfl⟩

end Slp
