import Verif.Solver.RegularProps
import Verif.Solver.SqpProps

/-! C49 for the SQP solver and Newton's method. -/

namespace Slp

open Classical

variable {n m : ℕ}

/-- What a feasibility restoration of the SQP solver that is not followed by an exit does. -/
def SqpRestored (cbs : List Callback) (P : Nlp n m 0) (st st' : SqpState n m) : Prop :=
  ((∃ cb ∈ cbs, ∃ calls info, cb calls info = true ∧ info.x.take n = List.ofFn st'.x) ∨
    norm1 (List.ofFn (P.ce st'.x)) < .fin 0.9 * norm1 (List.ofFn (P.ce st.x))) ∧
  ∀ y' : Fin m → ℝ,
    ∑ j, ((P.g st'.x).real j - ∑ i, (P.Ae st'.x).real i j * st'.y.real i) ^ 2 ≤
      ∑ j, ((P.g st'.x).real j - ∑ i, (P.Ae st'.x).real i j * y' i) ^ 2

/-- The state at the head of the loop: finite values. -/
structure SqpState.Sound (P : Nlp n m 0) (st : SqpState n m) : Prop where
  x : st.x.Finite
  y : st.y.Finite
  e : st.e = P.eval st.x st.y Fin.elim0

theorem SqpState.Sound.regular {P : Nlp n m 0} (hP : P.Total) {st : SqpState n m} (h : st.Sound P) : st.Regular := by
  obtain ⟨hx, hy, he⟩ := h
  exact ⟨hx, hy, by rw [he]; exact hP.g _ hx, by rw [he]; exact hP.H _ _ _ hx hy fun i => i.elim0,
    by rw [he]; exact hP.ce _ hx, by rw [he]; exact hP.Ae _ hx⟩

/-- How an iterate of the SQP solver shown to the callbacks relates to the next one. -/
def SqpNextShown (Γ : ℝ → ℝ → Prop) (cbs : List Callback) (P : Nlp n m 0) (a b : Snapshot) : Prop :=
  ∃ st st' : SqpState n m, st.Sound P ∧ st'.Sound P ∧ a.info = st.info ∧
    b.info = { st'.info with iteration := st'.iterations + 1 } ∧
    ((∃ ce u p, SqpMovedAlong P st ce st' u p Γ) ∨ SqpRestored cbs P st st')

theorem restoreSqp_sound {env : Env} (hE : env.ExactSolve) (hE' : env.ExactEstimate) {opts : SolverOptions} {P : Nlp n m 0}
    (hP : P.Total) (htol : 0 < opts.tolerance) {cbs : List Callback} {st : SqpState n m} {α : Fl} {w : World}
    {mv : SqpMoved n m} (h : st.Sound P) (hmv : restoreSqp env opts P cbs st α w = some mv) :
    (∀ res, mv = .stop res → res.x.Finite ∧ res.y.Finite ∧ (res.status = .locallyInfeasible ∨
      res.status = .feasibilityRestorationFailed ∨ res.x = st.x) ∧
      ∃ l, res.world.trace = w.trace ++ l ∧ ∀ s ∈ l, s.inner = true) ∧
    ∀ st' w', mv = .go st' w' → st'.Sound P ∧ SqpRestored cbs P st st' ∧
      ∃ l, w'.trace = w.trace ++ l ∧ ∀ s ∈ l, s.inner = true := by
  have hmv' := hmv
  unfold restoreSqp at hmv'
  obtain ⟨res, hres, hmv'⟩ := Option.map_eq_some_iff.1 hmv'
  obtain ⟨h1, μ', first, l, h2, h3⟩ := frRun_sound hE hP htol h.x (fun i => i.elim0) (by positivity) hres
  by_cases hst : res.status = .callbackRequestedStop
  · simp only [if_pos hst] at hmv'
    subst hmv'
    refine ⟨by simp, fun st' w' hgo => ?_⟩
    obtain ⟨rfl, rfl⟩ := SqpMoved.go.inj hgo
    obtain ⟨k1, k4⟩ := sqp_restoration_returns (by rw [h.e]; rfl) hmv
    obtain ⟨k5, k6⟩ := sqp_restoration_multipliers hE' hP hmv fun j => h1.x _
    refine ⟨⟨fun j => h1.x _, k5, k1⟩, ⟨?_, k6⟩, l, h2, h3.inner rfl⟩
    rcases k4 with ⟨c, -, -, ⟨cb, hcb, calls, hc⟩, hx, -⟩ | ⟨hv, -⟩
    · exact .inl ⟨cb, hcb, calls, _, hc, hx⟩
    · exact .inr hv
  · simp only [if_neg hst] at hmv'
    subst hmv'
    refine ⟨fun r hr => ?_, by simp⟩
    obtain rfl := SqpMoved.stop.inj hr
    refine ⟨fun j => h1.x _, h.y, ?_, l, h2, h3.inner rfl⟩
    show (if _ then _ else _ : ExitStatus) = _ ∨ (if _ then _ else _ : ExitStatus) = _ ∨ _
    split_ifs
    · exact .inl rfl
    · exact .inr (.inl rfl)

theorem sqpMove_sound {env : Env} {Γ : ℝ → ℝ → Prop} (hE : env.ExactSolve) (hE' : env.ExactEstimate) {opts : SolverOptions} {P : Nlp n m 0}
    (hP : P.Total) (htol : 0 < opts.tolerance) {cbs : List Callback} {st : SqpState n m} {w : World}
    {mv : SqpMoved n m} (h : st.Sound P) (hA : st.Answers env Γ) (hmv : sqpMove env opts P cbs st w = some mv) :
    (∀ res, mv = .stop res → res.x.Finite ∧ res.y.Finite ∧ (res.status = .locallyInfeasible ∨
      res.status = .feasibilityRestorationFailed ∨ res.x = st.x) ∧
      ∃ l, res.world.trace = w.trace ++ l ∧ ∀ s ∈ l, s.inner = true) ∧
    ∀ st' w', mv = .go st' w' → st'.Sound P ∧ ((∃ ce u p, SqpMovedAlong P st ce st' u p Γ) ∨ SqpRestored cbs P st st') ∧
      ∃ l, w'.trace = w.trace ++ l ∧ ∀ s ∈ l, s.inner = true := by
  rcases sqp_iteration_newton opts hP cbs hA (h.regular hP) w with h1 | ⟨F, c, α, i, h1⟩ |
    ⟨st', w', ce, u, p, h1, h2, h3, h4, -, h5⟩
  · rw [h1.2] at hmv
    obtain rfl := Option.some.inj hmv
    refine ⟨fun r hr => ?_, by simp⟩
    obtain rfl := SqpMoved.stop.inj hr
    exact ⟨h.x, h.y, .inr (.inr rfl), [], by simp [SqpState.exit]⟩
  · rw [h1] at hmv
    obtain ⟨k1, k2⟩ := restoreSqp_sound (st := { st with filter := F, rejected := c }) hE hE' hP htol ⟨h.x, h.y, h.e⟩ hmv
    refine ⟨k1, fun st' w' hgo => ?_⟩
    obtain ⟨k3, k4, k5⟩ := k2 st' w' hgo
    exact ⟨k3, .inr k4, k5⟩
  · rw [h1] at hmv
    obtain rfl := Option.some.inj hmv
    refine ⟨by simp, fun st2 w2 hgo => ?_⟩
    obtain ⟨rfl, rfl⟩ := SqpMoved.go.inj hgo
    exact ⟨⟨h3.x, h3.y, h4⟩, .inl ⟨ce, u, p, h2⟩, [], by simp [h5], by simp⟩

/-- The result is the iterate at which the solver ended, unless restoring feasibility failed. -/
def SqpResult.EndsAt (Q : Snapshot → Snapshot → Prop) (first : Snapshot) (res : SqpResult n m) : Prop :=
  res.status = .locallyInfeasible ∨ res.status = .feasibilityRestorationFailed ∨
    ∃ b : Snapshot, b.info.x = List.ofFn res.x ∧ b.info.s = [] ∧ Slp.EndsAt Q false first res.world.trace b

theorem sqpLoop_sound {env : Env} {Γ : ℝ → ℝ → Prop} (hE : env.ExactSolve) (hE' : env.ExactEstimate) {opts : SolverOptions} {P : Nlp n m 0}
    (hP : P.Total) (htol : 0 < opts.tolerance) {cbs : List Callback} {start : ℝ} {first : Snapshot} (r : ℕ)
    (st : SqpState n m) (w : World) (hA : ∀ st : SqpState n m, st.Sound P → st.Answers env Γ) (h : st.Sound P)
    (hw : Shown (SqpNextShown Γ cbs P) false first (w.trace ++ [⟨false, st.info, 0, 0⟩]))
    (res : SqpResult n m) (hres : sqpLoop env opts P cbs start r st w = some res) :
    res.x.Finite ∧ res.y.Finite ∧ Shown (SqpNextShown Γ cbs P) false first res.world.trace ∧
      res.EndsAt (SqpNextShown Γ cbs P) first := by
  induction r generalizing st w with
  | zero => simp [sqpLoop] at hres
  | succ r ih =>
    rw [sqpLoop] at hres
    split at hres
    · obtain rfl := Option.some.inj hres; exact ⟨h.x, h.y, hw.before, .inr (.inr ⟨_, rfl, rfl, hw.ends rfl⟩)⟩
    split at hres
    · obtain rfl := Option.some.inj hres; exact ⟨h.x, h.y, hw.before, .inr (.inr ⟨_, rfl, rfl, hw.ends rfl⟩)⟩
    split at hres
    · obtain rfl := Option.some.inj hres; exact ⟨h.x, h.y, hw.before, .inr (.inr ⟨_, rfl, rfl, hw.ends rfl⟩)⟩
    simp only at hres
    split at hres
    · obtain rfl := Option.some.inj hres; exact ⟨h.x, h.y, hw, .inr (.inr ⟨_, rfl, rfl, by
        have := hw.ended rfl (l' := []) (by simp)
        rw [List.append_nil] at this
        exact this⟩)⟩
    obtain ⟨mv, hmv, hres⟩ := Option.bind_eq_some_iff.1 hres
    obtain ⟨k1, k2⟩ := sqpMove_sound hE hE' hP htol h (hA _ h) hmv
    cases mv with
    | stop r =>
      obtain rfl : r = res := Option.some.inj hres
      obtain ⟨k3, k4, k7, l, k5, k6⟩ := k1 r rfl
      refine ⟨k3, k4, by rw [k5]; exact hw.other fun s hs => ⟨rfl, k6 s hs⟩, ?_⟩
      rcases k7 with k7 | k7 | k7
      · exact .inl k7
      · exact .inr (.inl k7)
      · exact .inr (.inr ⟨_, congrArg List.ofFn k7.symm, rfl, by rw [k5]; exact hw.ended rfl fun s hs => ⟨rfl, k6 s hs⟩⟩)
    | go st2 w2 =>
      obtain ⟨k3, k4, l, k5, k6⟩ := k2 st2 w2 rfl
      simp only [SqpMoved.elim] at hres
      have hn := hw.next (s' := ⟨false, { st2.info with iteration := st2.iterations + 1 }, 0, 0⟩) rfl rfl
        (fun s hs => ⟨rfl, k6 s hs⟩) ⟨st, st2, h, k3, rfl, rfl, k4⟩
      split at hres
      · obtain rfl := Option.some.inj hres
        exact ⟨k3.x, k3.y, by
          show Shown _ _ _ w2.trace
          rw [k5]; exact hw.other fun s hs => ⟨rfl, k6 s hs⟩, .inr (.inr ⟨_, rfl, rfl, by
          show EndsAt _ _ _ w2.trace _
          rw [k5]; exact hn.ends rfl⟩)⟩
      split at hres
      · obtain rfl := Option.some.inj hres
        exact ⟨k3.x, k3.y, by
          show Shown _ _ _ w2.trace
          rw [k5]; exact hw.other fun s hs => ⟨rfl, k6 s hs⟩, .inr (.inr ⟨_, rfl, rfl, by
          show EndsAt _ _ _ w2.trace _
          rw [k5]; exact hn.ends rfl⟩)⟩
      · refine ih _ _ ?_ ?_ hres
        · exact ⟨k3.x, k3.y, k3.e⟩
        show Shown _ _ _ (w2.trace ++ _)
        rw [k5]
        exact hn

/-- C49, C83: the same with a linear solver whose regularisations are among `Γ`; besides, the first
iterate is the guess, and the result is the last iterate unless feasibility restoration fails. -/
theorem sqp_shown {env : Env} {Γ : ℝ → ℝ → Prop} (hE : env.ExactSolve) (hE' : env.ExactEstimate) {opts : SolverOptions}
    {P : Nlp n m 0} (hP : P.Total) (hA : ∀ st : SqpState n m, st.Sound P → st.Answers env Γ) (htol : 0 < opts.tolerance)
    {cbs : List Callback} {x : Vec n} (hx : x.Finite) {res : SqpResult n m} (hres : sqp env opts P cbs x .start = some res) :
    res.x.Finite ∧ res.y.Finite ∧
    (∀ a ∈ res.world.outer.head?, a.info.toIterate = ⟨0, List.ofFn x, [], List.replicate m 0, []⟩) ∧
    res.world.outer.IsChain (SqpNextShown Γ cbs P) ∧
    ∃ first : Snapshot, first.info.x = List.ofFn x ∧ first.info.s = [] ∧ res.EndsAt (SqpNextShown Γ cbs P) first := by
  have h : (sqpInit env P x fun _ => 0).Sound P := ⟨hx, fun _ => rfl, rfl⟩
  have key : res.x.Finite ∧ res.y.Finite ∧
      Shown (SqpNextShown Γ cbs P) false ⟨false, (sqpInit env P x fun _ => 0).info, 0, 0⟩ res.world.trace ∧
      res.EndsAt (SqpNextShown Γ cbs P) ⟨false, (sqpInit env P x fun _ => 0).info, 0, 0⟩ := by
    unfold sqp sqpRun at hres
    simp only at hres
    split at hres
    · obtain rfl := Option.some.inj hres
      exact ⟨h.x, h.y, .nil _ _ _, .inr (.inr ⟨_, rfl, rfl, (Shown.start _ _).ends rfl⟩)⟩
    split at hres
    · obtain rfl := Option.some.inj hres
      exact ⟨h.x, h.y, .nil _ _ _, .inr (.inr ⟨_, rfl, rfl, (Shown.start _ _).ends rfl⟩)⟩
    exact sqpLoop_sound hE hE' hP htol _ _ _ hA h (Shown.start _ ⟨false, (sqpInit env P x fun _ => 0).info, 0, 0⟩) _ hres
  obtain ⟨h1, h2, h3, h4⟩ := key
  refine ⟨h1, h2, ?_, h3.chain, _, rfl, rfl, h4⟩
  intro a ha
  rw [h3.first a ha]
  unfold SqpState.info
  simp [sqpInit]

/-- C49: a run of the SQP solver on a problem whose functions have finite values at finite points, with an exact linear
solver: the result is finite, the iterates shown to the callbacks start at the guess, and consecutive ones are linked by
a Newton step or a restoration of feasibility. -/
theorem sqp_solve_linked {env : Env} (hE : env.ExactSolve) (hE' : env.ExactEstimate) {opts : SolverOptions} {P : Nlp n m 0}
    (hP : P.Total) (htol : 0 < opts.tolerance) {cbs : List Callback} {x : Vec n} (hx : x.Finite) {res : SqpResult n m}
    (hres : sqp env opts P cbs x .start = some res) :
    res.x.Finite ∧ res.y.Finite ∧
    (∀ a ∈ res.world.outer.head?, a.info.toIterate = ⟨0, List.ofFn x, [], List.replicate m 0, []⟩) ∧
    res.world.outer.IsChain (SqpNextShown (fun _ _ => True) cbs P) := by
  obtain ⟨h1, h2, h3, h4, -⟩ := sqp_shown hE hE' hP (fun _ h => hE.sqpAnswers (h.regular hP)) htol hx hres
  exact ⟨h1, h2, h3, h4⟩

/-- C49: then SUCCESS means that the error is within the tolerance. -/
theorem sqp_success_exact {env : Env} (hE : env.ExactSolve) (hE' : env.ExactEstimate) {opts : SolverOptions}
    {P : Nlp n m 0} (hP : P.Total) (htol : 0 < opts.tolerance) {cbs : List Callback} {x : Vec n} (hx : x.Finite)
    {res : SqpResult n m} (hres : sqp env opts P cbs x .start = some res) (hs : res.status = .success) :
    unscaledInfSqp P.scaling (P.g res.x).real (P.Ae res.x).real (P.ce res.x).real res.y.real ≤ opts.tolerance := by
  obtain ⟨h1, h2, -⟩ := sqp_solve_linked hE hE' hP htol hx hres
  obtain ⟨res', k1, -, -, -, -, -, -, k2, -⟩ := sqp_correct_partial env opts P cbs x htol
  obtain rfl := Option.some.inj (k1.symm.trans hres)
  exact k2 hs (hP.g _ h1) (hP.Ae _ h1) (hP.ce _ h1) h2

/-! ### Newton's method -/

/-- How an iterate of Newton's method shown to the callbacks relates to the next one: by a fraction of a step that
solves `(∇²f(x) + δI) p = −∇f(x)`. -/
def NewtonNextShown (P : Nlp n 0 0) (a b : Snapshot) : Prop :=
  ∃ (x x' : Vec n) (u δ : ℝ) (p : Fin n → ℝ), a.info.x = List.ofFn x ∧ b.info.x = List.ofFn x' ∧
    b.info.iteration = a.info.iteration + 1 ∧ x.Finite ∧ 0 < u ∧ u ≤ 1 ∧ 0 ≤ δ ∧
    (∀ j, (∑ l, lowerSym (P.H x Fin.elim0 Fin.elim0).real j l * p l) + δ * p j = -(P.g x).real j) ∧
    ∀ j, x' j = .fin (x.real j + u * p j)

theorem newtonLoop_sound {env : Env} (hE : env.ExactSolve) {opts : SolverOptions} {P : Nlp n 0 0}
    (hP : P.Total) {cbs : List Callback} {start : ℝ} {first : Snapshot} (r : ℕ) (st : NewtonState n) (w : World)
    (hx : st.x.Finite) (hg : st.g = P.g st.x) (hH : st.H = P.H st.x Fin.elim0 Fin.elim0)
    (hw : Shown (NewtonNextShown P) false first (w.trace ++ [⟨false, st.info, 0, 0⟩]))
    (res : NewtonResult n) (hres : newtonLoop env opts P cbs start r st w = some res) :
    res.x.Finite ∧ Shown (NewtonNextShown P) false first res.world.trace := by
  induction r generalizing st w with
  | zero => simp [newtonLoop] at hres
  | succ r ih =>
    rw [newtonLoop] at hres
    split at hres
    · obtain rfl := Option.some.inj hres; exact ⟨hx, hw.before⟩
    split at hres
    · obtain rfl := Option.some.inj hres; exact ⟨hx, hw.before⟩
    simp only at hres
    split at hres
    · obtain rfl := Option.some.inj hres; exact ⟨hx, hw⟩
    obtain ⟨ls, hls, hres⟩ := Option.bind_eq_some_iff.1 hres
    cases hacc : ls.accepted with
    | none =>
      rw [hacc] at hres
      obtain rfl := Option.some.inj hres
      exact ⟨hx, hw⟩
    | some b =>
      obtain ⟨R, x, f, used⟩ := b
      obtain ⟨u, δ, p, h1, h2, h3, h4, h5⟩ := newton_accepted_newton hE hx (by rw [hg]; exact hP.g _ hx)
        (by rw [hH]; exact hP.H _ _ _ hx (fun i => i.elim0) fun i => i.elim0) hls hacc
      have hx' : x.Finite := fun j => by rw [h5]; rfl
      rw [hacc] at hres
      simp only [Option.elim] at hres
      split at hres
      · obtain rfl := Option.some.inj hres
        exact ⟨hx', hw⟩
      split at hres
      · obtain rfl := Option.some.inj hres
        exact ⟨hx', hw⟩
      · refine ih _ _ hx' rfl rfl ?_ hres
        have := hw.next (l' := []) (s' := ⟨false, ⟨⟨st.iterations + 1, List.ofFn x, [], [], []⟩,
          List.ofFn (P.g x), FMat.rows (P.H x Fin.elim0 Fin.elim0), [], []⟩, 0, 0⟩) rfl rfl (by simp)
          ⟨st.x, x, u, δ, p, rfl, rfl, rfl, hx, h1, h2, h3, hg ▸ hH ▸ h4, h5⟩
        rw [List.append_nil] at this
        exact this

/-- C49: a run of Newton's method on a problem whose functions have finite values at finite points, with an exact
linear solver. -/
theorem newton_solve_linked {env : Env} (hE : env.ExactSolve) {opts : SolverOptions} {P : Nlp n 0 0} (hP : P.Total)
    {cbs : List Callback} {x : Vec n} (hx : x.Finite) {res : NewtonResult n}
    (hres : newton env opts P cbs x .start = some res) :
    res.x.Finite ∧ (∀ a ∈ res.world.outer.head?, a.info.toIterate = ⟨0, List.ofFn x, [], [], []⟩) ∧
    res.world.outer.IsChain (NewtonNextShown P) ∧
    (res.status = .success → unscaledInfNewton P.scaling (P.g res.x).real ≤ opts.tolerance) := by
  have key : res.x.Finite ∧ Shown (NewtonNextShown P) false ⟨false, (newtonInit env P x).info, 0, 0⟩ res.world.trace := by
    unfold newton at hres
    simp only at hres
    split at hres
    · obtain rfl := Option.some.inj hres
      exact ⟨hx, .nil _ _ _⟩
    exact newtonLoop_sound hE hP _ _ _ hx rfl rfl (Shown.start _ ⟨false, (newtonInit env P x).info, 0, 0⟩) _ hres
  obtain ⟨h1, h2⟩ := key
  refine ⟨h1, fun a ha => ?_, h2.chain, fun hs => ?_⟩
  · rw [h2.first a ha]; rfl
  · obtain ⟨res', k1, -, -, -, -, k2, -⟩ := newton_correct env opts P cbs x
    obtain rfl := Option.some.inj (k1.symm.trans hres)
    exact k2 hs (hP.g _ h1)

/-- Runs of the SQP solver that meet the hypotheses: `x₀² + x₁²` subject to `x₀x₁ = 1`. -/
example (factor : ℕ → Bool) (clock : ℕ → ℝ) (junk : ℕ → List Fl → Fl) (cbs : List Callback) (x : Vec 2) (hx : x.Finite) :
    ∃ (P : Nlp 2 1 0) (res : SqpResult 2 1), P.ce = hyperbolaNlp.ce ∧ P.f = hyperbolaNlp.f ∧
      sqp (exactEnv factor clock junk) ⟨1e-8, 5000, .pinf, false⟩ P cbs x .start = some res ∧ res.x.Finite ∧
      res.world.outer.IsChain (SqpNextShown (fun _ _ => True) cbs P) := by
  have hP : Nlp.Total (⟨hyperbolaNlp.f, hyperbolaNlp.g, fun x y _ => hyperbolaNlp.H x y fun _ => 0, hyperbolaNlp.ce,
      hyperbolaNlp.Ae, fun _ => Fin.elim0, fun _ => Fin.elim0, .identity, fun x => List.ofFn x⟩ : Nlp 2 1 0) :=
    ⟨hyperbolaNlp_total.f, hyperbolaNlp_total.g, fun _ _ _ hx hy _ => hyperbolaNlp_total.H _ _ (fun _ => 0) hx hy fun _ => rfl,
      hyperbolaNlp_total.ce, hyperbolaNlp_total.Ae, fun _ _ i => i.elim0, fun _ _ i => i.elim0⟩
  have ht : (0 : ℝ) < (⟨1e-8, 5000, .pinf, false⟩ : SolverOptions).tolerance := by norm_num
  obtain ⟨res, h1, -⟩ := sqp_correct_partial (exactEnv factor clock junk) ⟨1e-8, 5000, .pinf, false⟩ _ cbs x ht
  obtain ⟨h2, -, -, h3⟩ := sqp_solve_linked (exactEnv_exact ..).1 (exactEnv_exact ..).2 hP ht hx h1
  exact ⟨_, res, rfl, rfl, h1, h2, h3⟩

/-- Runs of Newton's method that meet the hypotheses: x². -/
example (factor : ℕ → Bool) (clock : ℕ → ℝ) (junk : ℕ → List Fl → Fl) (cbs : List Callback) (x : Vec 1) (hx : x.Finite) :
    ∃ res, newton (exactEnv factor clock junk) ⟨1e-8, 5000, .pinf, false⟩ squareProblem cbs x .start = some res ∧
      res.x.Finite ∧ res.world.outer.IsChain (NewtonNextShown squareProblem) := by
  have hP : squareProblem.Total := ⟨fun x h => Fl.finite_mul.2 ⟨h 0, h 0⟩, fun x h i => Fl.finite_mul.2 ⟨rfl, h 0⟩,
    fun _ _ _ _ _ _ _ _ => rfl, fun _ _ i => i.elim0, fun _ _ i => i.elim0, fun _ _ i => i.elim0, fun _ _ i => i.elim0⟩
  obtain ⟨res, h1, -⟩ := newton_correct (exactEnv factor clock junk) ⟨1e-8, 5000, .pinf, false⟩ squareProblem cbs x
  obtain ⟨h2, -, h3, -⟩ := newton_solve_linked (exactEnv_exact ..).1 hP hx h1
  exact ⟨res, h1, h2, h3⟩

end Slp
