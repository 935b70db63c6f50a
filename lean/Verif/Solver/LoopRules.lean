import Verif.Solver.BarrierProps
import Verif.Solver.PositiveLemmas

/-! Proof rules for the interior-point solver's loop. -/

namespace Slp

open Classical

variable {n m k : ℕ}

/-- The checks at the head of the loop have been passed: the callbacks will be called. -/
structure AtCallbacks (env : Env) (opts : SolverOptions) (st : IpmState n m k) : Prop where
  err : st.E0 > .fin opts.tolerance
  eq : ¬ eqInfeasible env st.e.Ae st.e.ce
  ineq : ¬ ineqInfeasible env st.e.Ai st.e.ci
  x : ¬ diverging env st.x
  s : ¬ diverging env st.s

theorem AtCallbacks.x_finite {env : Env} {opts : SolverOptions} {st : IpmState n m k} (h : AtCallbacks env opts st) :
    st.x.Finite := by
  by_contra hc; exact h.x (.inr hc)

theorem AtCallbacks.s_finite {env : Env} {opts : SolverOptions} {st : IpmState n m k} (h : AtCallbacks env opts st) :
    st.s.Finite := by
  by_contra hc; exact h.s (.inr hc)

/-- Partial correctness. -/
theorem ipmLoop_rule {env : Env} {opts : SolverOptions} {P : Nlp n m k} {cbs : List Callback} {extra : Extra}
    {inner : Bool} {restore : RestoreFn n m k} {start : ℝ}
    (Inv : IpmState n m k → World → Filter → Prop) (Post : IpmResult n m k → Prop)
    (h1 : ∀ st w E, Inv st w E → ¬ st.E0 > .fin opts.tolerance → Post (st.exit .success w E))
    (h2 : ∀ st w E, Inv st w E → st.E0 > .fin opts.tolerance →
      eqInfeasible env st.e.Ae st.e.ce ∨ ineqInfeasible env st.e.Ai st.e.ci → Post (st.exit .locallyInfeasible w E))
    (h3 : ∀ st w E, Inv st w E → st.E0 > .fin opts.tolerance → diverging env st.x ∨ diverging env st.s →
      Post (st.exit .divergingIterates w E))
    (h4 : ∀ st w E, Inv st w E → AtCallbacks env opts st → (ipmNotify cbs extra inner st w E).2.2 = true →
      Post (st.exit .callbackRequestedStop (ipmNotify cbs extra inner st w E).1 (ipmNotify cbs extra inner st w E).2.1))
    (h5 : ∀ st w E res, Inv st w E → AtCallbacks env opts st → (ipmNotify cbs extra inner st w E).2.2 = false →
      ipmMove env opts P restore st (ipmNotify cbs extra inner st w E).1 (ipmNotify cbs extra inner st w E).2.1 =
        some (.stop res) → Post res)
    (h6 : ∀ st w E st2 w2 E2 st3, Inv st w E → AtCallbacks env opts st →
      (ipmNotify cbs extra inner st w E).2.2 = false →
      ipmMove env opts P restore st (ipmNotify cbs extra inner st w E).1 (ipmNotify cbs extra inner st w E).2.1 =
        some (.go st2 w2 E2) → ipmFinish env opts P st2 = some st3 →
      ((st3.iterations : ℤ) ≥ opts.maxIterations → Post (st3.exit .maxIterationsExceeded w2 E2)) ∧
      ((st3.iterations : ℤ) < opts.maxIterations →
        (Fl.fin (env.clock w2.reads - start) > opts.timeout →
          Post (st3.exit .timeout (w2.tick inner (env.clock w2.reads - start)) E2)) ∧
        (¬ Fl.fin (env.clock w2.reads - start) > opts.timeout →
          Inv st3 (w2.tick inner (env.clock w2.reads - start)) E2)))
    (r : ℕ) (st : IpmState n m k) (w : World) (E : Filter) (hI : Inv st w E) (res : IpmResult n m k)
    (hres : ipmLoop env opts P cbs extra inner restore start r st w E = some res) : Post res := by
  induction r generalizing st w E with
  | zero => simp [ipmLoop] at hres
  | succ r ih =>
    rw [ipmLoop] at hres
    by_cases c1 : ¬ st.E0 > .fin opts.tolerance
    · rw [if_pos c1] at hres
      obtain rfl := Option.some.inj hres
      exact h1 st w E hI c1
    rw [if_neg c1] at hres
    rw [not_not] at c1
    by_cases c2 : eqInfeasible env st.e.Ae st.e.ce
    · rw [if_pos c2] at hres
      obtain rfl := Option.some.inj hres
      exact h2 st w E hI c1 (.inl c2)
    rw [if_neg c2] at hres
    by_cases c3 : ineqInfeasible env st.e.Ai st.e.ci
    · rw [if_pos c3] at hres
      obtain rfl := Option.some.inj hres
      exact h2 st w E hI c1 (.inr c3)
    rw [if_neg c3] at hres
    by_cases c4 : diverging env st.x ∨ diverging env st.s
    · rw [if_pos c4] at hres
      obtain rfl := Option.some.inj hres
      exact h3 st w E hI c1 c4
    rw [if_neg c4] at hres
    rw [not_or] at c4
    have hat : AtCallbacks env opts st := ⟨c1, c2, c3, c4.1, c4.2⟩
    simp only at hres
    cases c5 : (ipmNotify cbs extra inner st w E).2.2 with
    | true =>
      rw [if_pos c5] at hres
      obtain rfl := Option.some.inj hres
      exact h4 st w E hI hat c5
    | false =>
      rw [if_neg (by rw [c5]; simp)] at hres
      obtain ⟨mv, hmv, hres⟩ := Option.bind_eq_some_iff.1 hres
      cases mv with
      | stop res' =>
        obtain rfl := Option.some.inj hres
        exact h5 st w E _ hI hat c5 hmv
      | go st2 w2 E2 =>
        simp only [Moved.elim] at hres
        obtain ⟨st3, hst3, hres⟩ := Option.bind_eq_some_iff.1 hres
        obtain ⟨h7, h8⟩ := h6 st w E st2 w2 E2 st3 hI hat c5 hmv hst3
        by_cases c6 : (st3.iterations : ℤ) ≥ opts.maxIterations
        · rw [if_pos c6] at hres
          obtain rfl := Option.some.inj hres
          exact h7 c6
        rw [if_neg c6] at hres
        obtain ⟨h9, h10⟩ := h8 (not_le.1 c6)
        by_cases c7 : Fl.fin (env.clock w2.reads - start) > opts.timeout
        · rw [if_pos c7] at hres
          obtain rfl := Option.some.inj hres
          exact h9 c7
        · rw [if_neg c7] at hres
          exact ih st3 _ E2 (h10 c7) hres

/-- Termination. -/
theorem ipmLoop_ends {env : Env} {opts : SolverOptions} {P : Nlp n m k} {cbs : List Callback} {extra : Extra}
    {inner : Bool} {restore : RestoreFn n m k} {start : ℝ} (Inv : IpmState n m k → World → Prop)
    (hstep : ∀ st w E, Inv st w → AtCallbacks env opts st →
      ∃ mv, ipmMove env opts P restore st (ipmNotify cbs extra inner st w E).1 (ipmNotify cbs extra inner st w E).2.1 =
        some mv ∧ ∀ st2 w2 E2, mv = .go st2 w2 E2 → ∃ st3, ipmFinish env opts P st2 = some st3 ∧
        (∀ t, Inv st3 (w2.tick inner t)) ∧ st.iterations < st3.iterations)
    (r : ℕ) (st : IpmState n m k) (w : World) (E : Filter) (hI : Inv st w) (hr : 1 ≤ r)
    (hit : (opts.maxIterations - st.iterations).toNat ≤ r) :
    ∃ res, ipmLoop env opts P cbs extra inner restore start r st w E = some res := by
  induction r generalizing st w E with
  | zero => omega
  | succ r ih =>
    rw [ipmLoop]
    by_cases c1 : ¬ st.E0 > .fin opts.tolerance
    · rw [if_pos c1]; exact ⟨_, rfl⟩
    rw [if_neg c1]
    by_cases c2 : eqInfeasible env st.e.Ae st.e.ce
    · rw [if_pos c2]; exact ⟨_, rfl⟩
    rw [if_neg c2]
    by_cases c3 : ineqInfeasible env st.e.Ai st.e.ci
    · rw [if_pos c3]; exact ⟨_, rfl⟩
    rw [if_neg c3]
    by_cases c4 : diverging env st.x ∨ diverging env st.s
    · rw [if_pos c4]; exact ⟨_, rfl⟩
    rw [if_neg c4]
    rw [not_or] at c4
    simp only
    split
    · exact ⟨_, rfl⟩
    · obtain ⟨mv, hmv, hgo⟩ := hstep st w E hI
        ⟨not_not.1 c1, c2, c3, c4.1, c4.2⟩
      rw [hmv]
      cases mv with
      | stop res => exact ⟨res, rfl⟩
      | go st2 w2 E2 =>
        obtain ⟨st3, hst3, hI3, hlt⟩ := hgo st2 w2 E2 rfl
        simp only [Option.bind_some, Moved.elim, hst3]
        split
        · exact ⟨_, rfl⟩
        · rename_i hmax
          split
          · exact ⟨_, rfl⟩
          · exact ih st3 _ E2 (hI3 _) (by omega) (by omega)

/-- The end of an iteration. -/
theorem ipmFinish_correct {env : Env} {opts : SolverOptions} {P : Nlp n m k} (htol : 0 < opts.tolerance)
    (hS : 0 < P.scaling.f) {st : IpmState n m k} (hB : BarrierOk st) :
    ∃ st', ipmFinish env opts P st = some st' ∧ BarrierOk st' ∧ st'.x = st.x ∧ st'.s = st.s ∧ st'.y = st.y ∧
      st'.z = st.z ∧ st'.e = st.e ∧ st'.iterations = st.iterations + 1 ∧
      st'.E0 = errZeroIpm env P.scaling st.e st.s st.y st.z ∧
      ∃ a a', st.μ = .fin a ∧ st'.μ = .fin a' ∧ min a (P.scaling.f * opts.tolerance / 10) ≤ a' ∧ a' ≤ a ∧
        (a' = a ∧ st'.filter = st.filter ∨ a' < a ∧ st'.filter.entries = []) := by
  obtain ⟨a, ha, ha0⟩ := hB.μ
  obtain ⟨t, ht, ht0, ht1⟩ := hB.τ
  have hb : 0 < P.scaling.f * opts.tolerance / 10 := by positivity
  unfold ipmFinish
  simp only
  split
  · obtain ⟨st', h1, h2, ⟨a', h3, h4, h5, h6, -, h8⟩, t', h9, h10, h11⟩ := barrierLoop_correct env hb
      (⌈a / (P.scaling.f * opts.tolerance / 10)⌉₊ + 1)
      ({ st with E0 := errZeroIpm env P.scaling st.e st.s st.y st.z }) ha ha0 ht ht0 ht1 (barrierRounds_enough hb)
    have hr : barrierRounds (muMin P.scaling opts) st.μ = ⌈a / (P.scaling.f * opts.tolerance / 10)⌉₊ + 1 + 1 := by
      rw [ha]; rfl
    unfold muMin at hr
    unfold muMin
    rw [hr, h1]
    refine ⟨_, rfl, ⟨⟨a', h3, h4⟩, t', h9, h10, h11⟩, h2.x, h2.s, h2.y, h2.z, h2.e, ?_, h2.E0, a, a', ha, h3, h5, h6, ?_⟩
    · show st'.iterations + 1 = _; rw [h2.iterations]
    · rcases h8 with ⟨rfl, rfl⟩ | h8
      · exact .inl ⟨rfl, rfl⟩
      · exact .inr h8
  · exact ⟨_, rfl, ⟨⟨a, ha, ha0⟩, t, ht, ht0, ht1⟩, rfl, rfl, rfl, rfl, rfl, rfl, rfl, a, a, ha, ha, min_le_left _ _,
      le_rfl, .inl ⟨rfl, rfl⟩⟩

end Slp
