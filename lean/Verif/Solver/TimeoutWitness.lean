import Verif.Solver.StopWitness

/-!
Negations for C23: a run in which feasibility restoration continues after the timeout, and one in which it ends because
of the timeout, which is reported as FEASIBILITY_RESTORATION_FAILED. The problem is that of `StopWitness`.
-/

namespace Slp

open Classical

local macro "fl" l:(Lean.Parser.Tactic.location)? : tactic => `(tactic| simp only [List.map_cons, List.map_nil,
  List.foldr_cons, List.foldr_nil, List.zipWith_cons_cons, List.zipWith_nil_right, Fl.zero_def, Fl.one_def, Fl.fin_sub,
  Fl.abs_fin, Fl.fin_add, Fl.fin_mul, Fl.fin_lt, Fl.fin_le] $[$l]?)

section
variable (clock : ℕ → ℝ) (a : ℝ)

/-- The slacks of the restoration after its first iteration. -/
noncomputable def lineSr2 : Vec (1 + relaxed 0 1) := Fin.append lineS fun _ => .fin 0.01

theorem line_sr2 : lineSr2 0 = .fin 1 ∧ lineSr2 1 = .fin 0.01 ∧ lineSr2 2 = .fin 0.01 := ⟨rfl, rfl, rfl⟩

/-- The step of the slacks. -/
noncomputable def linePs : Vec (1 + relaxed 0 1) := Fin.append (fun _ => .fin 0) fun _ => .fin (-0.9999)

theorem line_ps : linePs 0 = .fin 0 ∧ linePs 1 = .fin (-0.9999) ∧ linePs 2 = .fin (-0.9999) := ⟨rfl, rfl, rfl⟩

theorem line_stepR (rhs : Vec (1 + relaxed 0 1 + 0)) (i : ℕ) :
    let p := ipmComputeStep (lineEnv clock) (lineRInit clock a) rhs
      (fun i => (lineRInit clock a).e.ci i - (lineRInit clock a).s i) i
    p.px = (fun _ => 0) ∧ p.ps = linePs ∧ p.pz = fun _ => .fin 0 := by
  have hc := line_cir clock a
  have hA : FMat.Finite ((lineR clock a).Ai lineXr) := (line_finite clock a).2.2.2.2.2.2
  have hx : (ipmComputeStep (lineEnv clock) (lineRInit clock a) rhs
      (fun i => (lineRInit clock a).e.ci i - (lineRInit clock a).s i) i).px = fun _ => 0 := by
    funext j; rfl
  have hs : (ipmComputeStep (lineEnv clock) (lineRInit clock a) rhs
      (fun i => (lineRInit clock a).e.ci i - (lineRInit clock a).s i) i).ps =
        linePs := by
    have hm (j) : mulVecF (lineEnv clock) ((lineR clock a).Ai lineXr) (fun _ => 0) j = .fin 0 := by
      unfold mulVecF
      rw [if_pos ⟨hA, fun _ => rfl⟩]
      simp [Vec.real, Fl.toReal]
    funext j
    show (lineR clock a).ci lineXr j - lineSr j + mulVecF (lineEnv clock) ((lineR clock a).Ai lineXr) (fun _ => 0) j = _
    rw [hm]
    revert j
    refine fin3 ?_ ?_ ?_
    · rw [hc.1, line_sr.1, line_ps.1]; simp
    · rw [hc.2.1, line_sr.2.1, line_ps.2.1]; norm_num
    · rw [hc.2.2, line_sr.2.2, line_ps.2.2]; norm_num
  refine ⟨hx, hs, ?_⟩
  funext j
  show Fl.fin 0.1 * (1 / lineSr j) - lineZr j - 1 / lineSr j * lineZr j *
    (ipmComputeStep (lineEnv clock) (lineRInit clock a) rhs
      (fun i => (lineRInit clock a).e.ci i - (lineRInit clock a).s i) i).ps j = _
  rw [hs]
  revert j
  refine fin3 ?_ ?_ ?_
  · rw [line_sr.1, line_zr.1, Fl.one_def, Fl.fin_div one_ne_zero, line_ps.1]; simp
  · rw [line_sr.2.1, line_zr.2.1, Fl.one_def, Fl.fin_div one_ne_zero, line_ps.2.1]; norm_num
  · rw [line_sr.2.2, line_zr.2.2, Fl.one_def, Fl.fin_div one_ne_zero, line_ps.2.2]; norm_num

/-- The step size. -/
noncomputable def lineAlpha : ℝ := 0.99 / 0.9999

theorem line_alpha : boundaryF lineSr linePs (.fin 0.99) = .fin lineAlpha := by
  unfold boundaryF
  show List.foldl (boundaryStepF (.fin 0.99)) 1 [(lineSr 0, linePs 0), (lineSr 1, linePs 1), (lineSr 2, linePs 2)] = _
  rw [line_sr.1, line_sr.2.1, line_sr.2.2, line_ps.1, line_ps.2.1, line_ps.2.2]
  have h1 : boundaryStepF (.fin 0.99) 1 (.fin 1, .fin 0) = .fin 1 := if_neg (by
    simp only [Fl.one_def, Fl.fin_mul, Fl.fin_neg, Fl.fin_lt]; norm_num)
  have h2 : boundaryStepF (.fin 0.99) (.fin 1) (.fin 1, .fin (-0.9999)) = .fin lineAlpha := by
    unfold boundaryStepF
    simp only [Fl.fin_mul, Fl.fin_neg, Fl.fin_lt]
    rw [if_pos (by norm_num), Fl.fin_div (by norm_num), Fl.fin_mul, lineAlpha]
    norm_num
  have h3 : boundaryStepF (.fin 0.99) (.fin lineAlpha) (.fin 1, .fin (-0.9999)) = .fin lineAlpha := if_neg (by
    simp only [Fl.fin_mul, Fl.fin_neg, Fl.fin_lt, lineAlpha]; norm_num)
  simp only [List.foldl_cons, List.foldl_nil, h1, h2, h3]

theorem line_trial (p : IpmStep (1 + relaxed 0 1) 0 (1 + relaxed 0 1)) (αz : ℝ) (hx : p.px = fun _ => 0)
    (hs : p.ps = linePs) (hz : p.pz = fun _ => .fin 0) :
    ipmTrial (lineR clock a) (lineRInit clock a) p (.fin lineAlpha) (.fin αz) False =
      ⟨lineXr, lineSr2, fun _ => 0, lineZr, (lineR clock a).f lineXr, (lineR clock a).ce lineXr, (lineR clock a).ci lineXr⟩ := by
  have e1 : (fun i => (lineRInit clock a).x i + .fin lineAlpha * p.px i) = lineXr := by
    funext i
    rw [hx]
    show lineXr i + .fin lineAlpha * .fin 0 = _
    rw [Fl.fin_mul, mul_zero]
    revert i
    exact fin3 (by rw [line_xr.1]; simp) (by rw [line_xr.2.1]; simp) (by rw [line_xr.2.2]; simp)
  have e2 : (fun i => (lineRInit clock a).s i + .fin lineAlpha * p.ps i) = lineSr2 := by
    funext i
    rw [hs]
    show lineSr i + .fin lineAlpha * _ = _
    revert i
    refine fin3 ?_ ?_ ?_
    · rw [line_sr.1, line_sr2.1, line_ps.1]; simp
    · rw [line_sr.2.1, line_sr2.2.1, line_ps.2.1]; norm_num [lineAlpha]
    · rw [line_sr.2.2, line_sr2.2.2, line_ps.2.2]; norm_num [lineAlpha]
  have e3 : (fun i => (lineRInit clock a).z i + .fin αz * p.pz i) = lineZr := by
    funext i
    rw [hz]
    show lineZr i + .fin αz * .fin 0 = _
    rw [Fl.fin_mul, mul_zero]
    revert i
    exact fin3 (by rw [line_zr.1]; simp) (by rw [line_zr.2.1]; simp) (by rw [line_zr.2.2]; simp)
  unfold ipmTrial
  simp only [e1, e2, e3, if_false]
  congr 1
  funext i
  exact i.elim0

theorem line_f : ∃ v, (lineR clock a).f lineXr = .fin v := by
  have hx : lineXr.Finite := fin3 rfl rfl rfl
  exact ⟨_, if_pos ⟨hx, fun i => rfl, rfl⟩⟩

theorem line_accept (D : Fl) : ((Filter.make (violationF (lineR clock a |>.ce lineXr) ((lineR clock a).ci lineXr) lineSr)).tryAdd
    (lineRInit clock a).entry (ipmEntry ((lineR clock a).f lineXr) lineSr2 ((lineR clock a).ce lineXr)
      ((lineR clock a).ci lineXr) (.fin 0.1)) D (.fin lineAlpha)).2 = true := by
  have hc := line_cir clock a
  obtain ⟨v, hv⟩ := line_f clock a
  have e0 : List.ofFn ((lineR clock a).ce lineXr) = [] := rfl
  have e1 : List.ofFn ((lineR clock a).ci lineXr) = [.fin 1, .fin 1e-4, .fin 1e-4] := by
    show [(lineR clock a).ci lineXr 0, (lineR clock a).ci lineXr 1, (lineR clock a).ci lineXr 2] = _
    rw [hc.1, hc.2.1, hc.2.2]
  have e2 : List.ofFn lineSr = [.fin 1, .fin 1, .fin 1] := rfl
  have e3 : List.ofFn lineSr2 = [.fin 1, .fin 0.01, .fin 0.01] := rfl
  have v1 : (ipmEntry ((lineR clock a).f lineXr) lineSr2 ((lineR clock a).ce lineXr)
      ((lineR clock a).ci lineXr) (.fin 0.1)).violation = .fin 0.0198 := by
    unfold ipmEntry FilterEntry.ipm norm1
    simp only [e0, e1, e3]
    fl
    norm_num
  have c1 : (ipmEntry ((lineR clock a).f lineXr) lineSr2 ((lineR clock a).ce lineXr)
      ((lineR clock a).ci lineXr) (.fin 0.1)).cost.isFinite = true := by
    unfold ipmEntry FilterEntry.ipm norm1
    simp only [e3, hv]
    fl
    rw [Fl.log_fin (by norm_num), Fl.log_fin (by norm_num)]
    fl
    rfl
  have v0 : (lineRInit clock a).entry.violation = .fin 1.9998 := by
    show (ipmEntry ((lineR clock a).f lineXr) lineSr ((lineR clock a).ce lineXr)
      ((lineR clock a).ci lineXr) (.fin 0.1)).violation = _
    unfold ipmEntry FilterEntry.ipm norm1
    simp only [e0, e1, e2]
    fl
    norm_num
  have vf : violationF (lineR clock a |>.ce lineXr) ((lineR clock a).ci lineXr) lineSr = .fin 1.9998 := by
    unfold violationF norm1
    rw [e0]
    show _ + List.foldr _ _ (List.map _ [(lineR clock a).ci lineXr 0 - lineSr 0, (lineR clock a).ci lineXr 1 - lineSr 1,
      (lineR clock a).ci lineXr 2 - lineSr 2]) = _
    rw [hc.1, hc.2.1, hc.2.2, line_sr.1, line_sr.2.1, line_sr.2.2]
    fl
    norm_num
  have hα : (1 : ℝ) - lineAlpha ^ (1.5 : ℝ) * 1e-5 ≥ 0.9 := by
    have : lineAlpha ^ (1.5 : ℝ) ≤ 1 := Real.rpow_le_one (by norm_num [lineAlpha]) (by norm_num [lineAlpha]) (by norm_num)
    nlinarith
  have hα0 : 0 ≤ lineAlpha := by norm_num [lineAlpha]
  unfold Filter.tryAdd Filter.finish Filter.make
  rw [if_neg, if_neg, if_neg, if_neg]
  · split <;> rfl
  · rintro ⟨x, hx, -⟩
    simp at hx
  · rw [not_not]
    right
    unfold envelope
    simp only [v0, v1]
    rw [Fl.pow_fin hα0]
    fl
    nlinarith
  · rintro ⟨h, -⟩
    rw [v0, vf, Fl.one_def, Fl.max_fin] at h
    fl at h
    norm_num at h
  · rintro (h | h)
    · rw [c1] at h; cases h
    · rw [v1, vf, Fl.one_def, Fl.max_fin, gt_iff_lt] at h
      fl at h
      norm_num at h

/-- The errors after the first iteration of the restoration. -/
theorem line_error2 {μ : ℝ} (hμ : μ ≤ 0.1) : 1 < kktInfIpm (Vec.real ((lineR clock a).g lineXr))
    (FMat.real ((lineR clock a).Ae lineXr)) (Vec.real ((lineR clock a).ce lineXr)) (FMat.real ((lineR clock a).Ai lineXr))
    (Vec.real ((lineR clock a).ci lineXr)) (Vec.real lineSr2) (Vec.real (fun _ => 0 : Vec 0)) (Vec.real lineZr) μ := by
  have hz : oneNorm (Vec.real lineZr) = 2000.1 := by
    show ∑ i : Fin 3, |Vec.real lineZr i| = _
    rw [Fin.sum_univ_three]
    show |(0.1 : ℝ)| + |(1000 : ℝ)| + |(1000 : ℝ)| = _
    norm_num
  have hsc : max 100 (oneNorm (Vec.real lineZr) / (1 + relaxed 0 1 : ℕ)) / 100 = 6.667 := by
    rw [hz, max_eq_right] <;> norm_num [relaxed]
  unfold kktInfIpm
  simp only
  refine lt_of_lt_of_le ?_ (le_max_of_le_left (le_max_of_le_left (le_max_right _ _)))
  show 1 < infNorm (fun i => Vec.real lineSr2 i * Vec.real lineZr i - μ) /
    (max 100 (oneNorm (Vec.real lineZr) / (1 + relaxed 0 1 : ℕ)) / 100)
  have h : 10 - μ ≤ infNorm (fun i => Vec.real lineSr2 i * Vec.real lineZr i - μ) := by
    refine le_trans ?_ (abs_le_infNorm _ 1)
    show 10 - μ ≤ |(0.01 : ℝ) * 1000 - μ|
    refine le_trans ?_ (le_abs_self _)
    norm_num
  rw [hsc, lt_div_iff₀ (by norm_num)]
  linarith

/-- The derivatives after the first iteration of the restoration. -/
noncomputable def lineE2 : Eval (1 + relaxed 0 1) 0 (1 + relaxed 0 1) := (lineR clock a).eval lineXr (fun _ => 0) lineZr

theorem line_zero2 : ∃ v, errZeroIpm (lineEnv clock) (lineR clock a).scaling (lineE2 clock a) lineSr2 (fun _ => 0) lineZr =
    .fin v ∧ 1 < v := by
  have hf := line_finite clock a
  refine ⟨_, if_pos ⟨hf.2.1, hf.2.2.2.2.1, hf.2.2.2.1, hf.2.2.2.2.2.2, hf.2.2.2.2.2.1, fin3 rfl rfl rfl,
    fun _ => rfl, fin3 rfl rfl rfl⟩, ?_⟩
  rw [unscaled_one (S := (lineR clock a).scaling) (de := fun _ => 1) (di := Fin.append (fun _ => 1) fun _ => 1) rfl
    (fun i => i.elim0) (fin3 rfl rfl rfl)]
  exact line_error2 clock a (by norm_num)

theorem line_mu2 : ¬ errInfIpm (lineEnv clock) (lineE2 clock a) lineSr2 (fun _ => 0) lineZr (.fin 0.1) ≤ .fin 10 * .fin 0.1 := by
  have hf := line_finite clock a
  unfold errInfIpm
  rw [if_pos ⟨⟨hf.2.1, hf.2.2.2.2.1, hf.2.2.2.1, hf.2.2.2.2.2.2, hf.2.2.2.2.2.1, fin3 rfl rfl rfl,
    fun _ => rfl, fin3 rfl rfl rfl⟩, rfl⟩, Fl.fin_mul, Fl.fin_le, not_le]
  have := line_error2 clock a (μ := 0.1) le_rfl
  norm_num at this ⊢
  exact this

/-- The first iteration of the restoration. -/
theorem line_moveR (opts : SolverOptions) (hopts : opts.feasibleIpm = false) (w : World) (E : Filter) :
    ∃ (st : IpmState (1 + relaxed 0 1) 0 (1 + relaxed 0 1)) (i : ℕ),
      ipmMove (lineEnv clock) opts (lineR clock a) restoreInner (lineRInit clock a) w E =
        some (.go st { w with factors := w.factors + 1, solves := i, vars := (lineR clock a).vars lineXr } E) ∧
      st.x = lineXr ∧ st.s = lineSr2 ∧ st.y = (fun _ => 0) ∧ st.z = lineZr ∧ st.e = lineE2 clock a ∧ st.μ = .fin 0.1 ∧
      st.τ = .fin 0.99 ∧ st.iterations = 0 := by
  have hp := line_stepR clock a ((lineRInit clock a).rhs (lineEnv clock)) w.solves
  simp only at hp
  obtain ⟨hx, hs, hz⟩ := hp
  unfold ipmMove
  rw [if_neg (by simp [lineEnv])]
  simp only
  generalize hp : ipmComputeStep (lineEnv clock) (lineRInit clock a) ((lineRInit clock a).rhs (lineEnv clock))
      (fun i => (lineRInit clock a).e.ci i - (lineRInit clock a).s i) w.solves = p at hx hs hz ⊢
  have hα : boundaryF (lineRInit clock a).s p.ps (lineRInit clock a).τ = .fin lineAlpha := by rw [hs]; exact line_alpha
  have hαz : ∃ b, boundaryF (lineRInit clock a).z p.pz (lineRInit clock a).τ = .fin b := by
    obtain ⟨b, hb, -, -⟩ := boundaryF_range (t := 0.99) (x := lineZr) (by norm_num)
      (fin3 ⟨_, line_zr.1, by norm_num⟩ ⟨_, line_zr.2.1, by norm_num⟩ ⟨_, line_zr.2.2, by norm_num⟩) p.pz
    exact ⟨b, hb⟩
  obtain ⟨b, hb⟩ := hαz
  have ht := line_trial clock a p b hx hs hz
  have hfm : feasibleMode opts (lineRInit clock a) = False := by
    unfold feasibleMode; rw [hopts]; simp
  have hf := line_finite clock a
  rw [hα, hb, show lineSearchRounds = 25 + 1 from rfl, ipmLineSearch]
  simp only
  rw [hfm, ht, if_neg (not_not.2 ⟨hf.1, hf.2.2.2.1, hf.2.2.2.2.2.1⟩)]
  have hacc : ((lineRInit clock a).filter.tryAdd (lineRInit clock a).entry ((Trial.mk lineXr lineSr2 (fun _ => 0) lineZr
      ((lineR clock a).f lineXr) ((lineR clock a).ce lineXr) ((lineR clock a).ci lineXr)).entry (lineRInit clock a).μ)
      (ipmSlope (lineEnv clock) (lineRInit clock a) p) (Fl.fin lineAlpha)).2 = true := line_accept clock a _
  rw [if_pos hacc]
  simp only [Option.bind_some, Option.elim_some]
  rw [if_neg (by rw [alphaMin, Fl.fin_lt]; norm_num [lineAlpha])]
  have hzz : (fun i => clampDualF (.fin 0.1) (lineSr2 i) (lineZr i)) = lineZr := by
    funext i
    unfold clampDualF clampF
    revert i
    refine fin3 ?_ ?_ ?_
    · rw [line_sr2.1, line_zr.1, Fl.one_def, Fl.fin_div (by norm_num), Fl.fin_mul, Fl.fin_mul, Fl.fin_div (by norm_num),
        Fl.fin_div (by norm_num), if_neg (by rw [Fl.fin_lt]; norm_num), if_neg (by rw [Fl.fin_lt]; norm_num)]
    · rw [line_sr2.2.1, line_zr.2.1, Fl.one_def, Fl.fin_div (by norm_num), Fl.fin_mul, Fl.fin_mul, Fl.fin_div (by norm_num),
        Fl.fin_div (by norm_num), if_neg (by rw [Fl.fin_lt]; norm_num), if_neg (by rw [Fl.fin_lt]; norm_num)]
    · rw [line_sr2.2.2, line_zr.2.2, Fl.one_def, Fl.fin_div (by norm_num), Fl.fin_mul, Fl.fin_mul, Fl.fin_div (by norm_num),
        Fl.fin_div (by norm_num), if_neg (by rw [Fl.fin_lt]; norm_num), if_neg (by rw [Fl.fin_lt]; norm_num)]
  refine ⟨_, _, rfl, rfl, rfl, rfl, hzz, ?_, rfl, rfl, rfl⟩
  show Eval.mk _ _ ((lineR clock a).H lineXr _ fun i => clampDualF (.fin 0.1) (lineSr2 i) (lineZr i)) _ _ _ _ = _
  rw [hzz]
  rfl

/-- The world after the first iteration of the restoration. -/
noncomputable def lineWorld (cbs : List Callback) (w : World) (i : ℕ) (t : ℝ) : World where
  calls := (runRegistered (lineRInit clock a).info 0 cbs w.calls).1
  trace := w.trace ++ [⟨true, (lineRInit clock a).info, .fin 0.1, .fin 0.99⟩]
  ends := w.ends ++ [(true, t)]
  factors := w.factors + 1
  solves := i
  estimates := w.estimates
  reads := w.reads + 2
  vars := (lineR clock a).vars lineXr
  seen := w.seen ++ [(lineR clock a).vars lineXr]

/-- The restoration runs one iteration. If that takes longer than the timeout, measured from its start, it ends;
otherwise it calls the callbacks again. -/
theorem line_restore2 (opts : SolverOptions) (hopts : opts.feasibleIpm = false) (ht : opts.tolerance ≤ 1)
    (hm : 1 < opts.maxIterations) (cbs : List Callback) (extra : Extra) (w : World) (E : Filter)
    (hcb : (runRegistered (lineRInit clock a).info 0 cbs w.calls).2 = false)
    (hex : extra E (lineRInit clock a).info = (E, false)) :
    ∃ (st : IpmState (1 + relaxed 0 1) 0 (1 + relaxed 0 1)) (i : ℕ), st.x = lineXr ∧ st.s = lineSr2 ∧ st.iterations = 1 ∧
      let w' := lineWorld clock a cbs w i (clock (w.reads + 1) - clock w.reads)
      (Fl.fin (clock (w.reads + 1) - clock w.reads) > opts.timeout →
        frRun (lineEnv clock) opts (lineP a) cbs extra lineX lineS (.fin 0.1) 0 w E = some (st.exit .timeout w' E)) ∧
      (¬ Fl.fin (clock (w.reads + 1) - clock w.reads) > opts.timeout →
        (runRegistered st.info 0 cbs w'.calls).2 = true →
        frRun (lineEnv clock) opts (lineP a) cbs extra lineX lineS (.fin 0.1) 0 w E =
          some (st.exit .callbackRequestedStop (ipmNotify cbs extra true st w' E).1 E)) := by
  obtain ⟨st, i, hmove, hx, hs, hy, hz, he, hμ, hτ, hi⟩ := line_moveR clock a opts hopts
    { w with calls := (runRegistered (lineRInit clock a).info 0 cbs w.calls).1,
             trace := w.trace ++ [⟨true, (lineRInit clock a).info, .fin 0.1, .fin 0.99⟩]
             reads := w.reads + 1, vars := (lineR clock a).vars lineXr
             seen := w.seen ++ [(lineR clock a).vars lineXr] } E
  obtain ⟨v2, hv2, hv2'⟩ := line_zero2 clock a
  have hfin : ipmFinish (lineEnv clock) opts (lineR clock a) st = some { st with E0 := .fin v2, iterations := 1 } := by
    have hE : errZeroIpm (lineEnv clock) (lineR clock a).scaling st.e st.s st.y st.z = .fin v2 := by
      rw [he, hs, hy, hz, hv2]
    unfold ipmFinish
    simp only [hE]
    rw [if_pos (by rw [gt_iff_lt, Fl.fin_lt]; linarith)]
    unfold barrierRounds
    rw [barrierLoop, if_neg]
    · simp [hi]
    · rintro ⟨-, h⟩
      simp only [he, hs, hy, hz, hμ] at h
      exact line_mu2 clock a h
  refine ⟨{ st with E0 := .fin v2, iterations := 1 }, i, hx, hs, rfl, ?_⟩
  rw [line_run]
  unfold ipmRun
  simp only
  rw [if_neg (by norm_num)]
  obtain ⟨r, hr⟩ : ∃ r, loopRounds opts 0 = r + 2 := ⟨loopRounds opts 0 - 2, by
    have : (2 : ℕ) ≤ loopRounds opts 0 := by
      unfold loopRounds
      refine le_max_of_le_right ?_
      omega
    omega⟩
  have hf : (lineRInit clock a).e.Finite := line_finite clock a
  obtain ⟨v, hv, hv1, -⟩ := line_error clock a
  change (lineRInit clock a).E0 = _ at hv
  have hci := line_cir clock a
  have hbx : ¬ diverging (lineEnv clock) lineXr := line_bounded (fin3 rfl rfl rfl) (fin3
    (by show |(0 : ℝ)| ≤ 1; norm_num) (by show |(1e-4 : ℝ)| ≤ 1; norm_num) (by show |(1e-4 : ℝ)| ≤ 1; norm_num))
  have hbs : ¬ diverging (lineEnv clock) lineSr := line_bounded (fin3 rfl rfl rfl) (fin3
    (by show |(1 : ℝ)| ≤ 1; norm_num) (by show |(1 : ℝ)| ≤ 1; norm_num) (by show |(1 : ℝ)| ≤ 1; norm_num))
  have hbs2 : ¬ diverging (lineEnv clock) lineSr2 := line_bounded (fin3 rfl rfl rfl) (fin3
    (by show |(1 : ℝ)| ≤ 1; norm_num) (by show |(0.01 : ℝ)| ≤ 1; norm_num) (by show |(0.01 : ℝ)| ≤ 1; norm_num))
  have hstuck : ¬ ineqInfeasible (lineEnv clock) ((lineR clock a).Ai lineXr) ((lineR clock a).ci lineXr) :=
    line_not_stuck hf.2.2.2.2.2.2 hf.2.2.2.2.2.1 (fin3
      (by show 0 ≤ Fl.toReal ((lineR clock a).ci lineXr 0); rw [hci.1]; norm_num [Fl.toReal])
      (by show 0 ≤ Fl.toReal ((lineR clock a).ci lineXr 1); rw [hci.2.1]; norm_num [Fl.toReal])
      (by show 0 ≤ Fl.toReal ((lineR clock a).ci lineXr 2); rw [hci.2.2]; norm_num [Fl.toReal]))
  have hn : ipmNotify cbs extra true (lineRInit clock a)
      { w with reads := w.reads + 1, vars := (lineR clock a).vars lineXr } E =
    ({ w with
      reads := w.reads + 1, calls := (runRegistered (lineRInit clock a).info 0 cbs w.calls).1
      trace := w.trace ++ [⟨true, (lineRInit clock a).info, .fin 0.1, .fin 0.99⟩]
      vars := (lineR clock a).vars lineXr, seen := w.seen ++ [(lineR clock a).vars lineXr] }, E, false) := by
    unfold ipmNotify runCallbacks
    simp only
    rw [if_neg (by rw [hcb]; simp), hex]
    rfl
  have key : (if ¬ (ipmInit (lineEnv clock) (lineR clock a) lineXr lineSr (fun _ => 0) lineZr (.fin 0.1) 0).e.Finite then
      some ((ipmInit (lineEnv clock) (lineR clock a) lineXr lineSr (fun _ => 0) lineZr (.fin 0.1) 0).exit
        .nonfiniteInitialGuess { w with reads := w.reads + 1, vars := (lineR clock a).vars lineXr } E)
      else ipmLoop (lineEnv clock) opts (lineR clock a) cbs extra true restoreInner (clock w.reads) (loopRounds opts 0)
        (ipmInit (lineEnv clock) (lineR clock a) lineXr lineSr (fun _ => 0) lineZr (.fin 0.1) 0)
        { w with reads := w.reads + 1, vars := (lineR clock a).vars lineXr } E) =
      if Fl.fin (clock (w.reads + 1) - clock w.reads) > opts.timeout then
        some (IpmState.exit { st with E0 := .fin v2, iterations := 1 } .timeout
          (lineWorld clock a cbs w i (clock (w.reads + 1) - clock w.reads)) E)
      else ipmLoop (lineEnv clock) opts (lineR clock a) cbs extra true restoreInner (clock w.reads) (r + 1)
        { st with E0 := .fin v2, iterations := 1 } (lineWorld clock a cbs w i (clock (w.reads + 1) - clock w.reads)) E := by
    change (if ¬ (lineRInit clock a).e.Finite then _ else ipmLoop _ _ _ _ _ _ _ _ _ (lineRInit clock a) _ _) = _
    rw [if_neg (not_not.2 hf), hr, ipmLoop]
    rw [if_neg (by rw [hv]; exact not_not.2 (show opts.tolerance < v by linarith)), if_neg line_not_eq,
      if_neg (by exact hstuck), if_neg (by exact not_or.2 ⟨hbx, hbs⟩)]
    simp only
    rw [hn, if_neg (by simp), hmove]
    simp only [Option.bind_some, Moved.elim]
    rw [hfin, Option.bind_some, if_neg (by push_cast; omega)]
    rfl
  constructor
  · intro hlate
    refine Eq.trans key ?_
    rw [if_pos hlate]
  · intro hlate hstop
    refine Eq.trans key ?_
    rw [if_neg hlate, ipmLoop, if_neg (by exact not_not.2 (show opts.tolerance < v2 by linarith)), if_neg line_not_eq,
      if_neg (by show ¬ ineqInfeasible _ st.e.Ai st.e.ci; rw [he]; exact hstuck),
      if_neg (by show ¬ (diverging _ st.x ∨ diverging _ st.s); rw [hx, hs]; exact not_or.2 ⟨hbx, hbs2⟩)]
    simp only
    have h2 : (ipmNotify cbs extra true { st with E0 := .fin v2, iterations := 1 }
        (lineWorld clock a cbs w i (clock (w.reads + 1) - clock w.reads)) E).2 = (E, true) := by
      unfold ipmNotify runCallbacks
      simp only
      rw [if_pos hstop]
    rw [h2]
    simp only [if_true]

end
/-! ### The negations -/

theorem restoreIpm_failed {n m k : ℕ} {env : Env} {opts : SolverOptions} {P : Nlp n m k} {cbs : List Callback}
    {st : IpmState n m k} {α : Fl} {w : World} {E : Filter} {res : IpmResult (n + relaxed m k) m (k + relaxed m k)}
    (h : frRun env opts P cbs (extraIpm env P st α) st.x st.s st.μ st.iterations w st.filter = some res)
    (hs : res.status = .timeout) : restoreIpm env opts P cbs st α w E = some (.stop ⟨.feasibilityRestorationFailed,
      fun i => res.x (Fin.castAdd _ i), fun i => res.s (Fin.castAdd _ i), st.y, st.z, res.iterations, res.world, E⟩) := by
  unfold restoreIpm
  rw [h, Option.map_some]
  simp only
  rw [if_neg (by rw [hs]; decide), if_neg (by rw [hs]; decide)]

/-- The restoration's own callback does not end it at its initial point. -/
theorem line_extra (clock : ℕ → ℝ) (a : ℝ) (F E : Filter) (c : ℕ) (α : Fl) :
    extraIpm (lineEnv clock) (lineP a) { lineInit clock a with filter := F, rejected := c } α E (lineRInit clock a).info =
      (E, false) := by
  unfold extraIpm
  simp only
  rw [if_neg]
  have h0 : ∀ x : Vec 1, ∀ s : Vec 1, x = lineX → s = lineS →
      (ipmEntry ((lineP a).f x) s ((lineP a).ce x) ((lineP a).ci x) (.fin 0.1)).violation = .fin 0 := by
    rintro x s rfl rfl
    unfold ipmEntry FilterEntry.ipm norm1
    rw [line_ci]
    show List.foldr _ _ (List.map _ []) + List.foldr _ _ (List.map _ (List.zipWith _ [Fl.fin 1] [Fl.fin 1])) = _
    simp only [List.map_cons, List.map_nil, List.foldr_cons, List.foldr_nil, List.zipWith_cons_cons,
      List.zipWith_nil_right, Fl.zero_def, Fl.fin_sub, Fl.abs_fin, Fl.fin_add]
    norm_num
  have h1 : (ipmEntry ((lineP a).f (lineInit clock a).x) (lineInit clock a).s (lineInit clock a).e.ce (lineInit clock a).e.ci
      (lineInit clock a).μ).violation = .fin 0 := h0 _ _ rfl rfl
  have h2 : (fun i : Fin 1 => (lineRInit clock a).info.x.getD i .nan) = lineX := by
    funext i; rw [Subsingleton.elim i 0]; rfl
  have h3 : (fun i : Fin 1 => (lineRInit clock a).info.s.getD i .nan) = lineS := by
    funext i; rw [Subsingleton.elim i 0]; rfl
  have h4 := h0 _ _ h2 h3
  intro h
  rw [h1] at h
  have h5 : Fl.fin 0 < Fl.fin 0.9 * Fl.fin 0 := by
    rw [← h4]
    exact h4 ▸ h
  rw [Fl.fin_mul, Fl.fin_lt] at h5
  norm_num at h5

/-- Options with a tolerance of one half and a timeout of one second. -/
noncomputable def secondOpts : SolverOptions := ⟨0.5, 100, .fin 1, false⟩

/-- A clock that jumps at its `i`-th reading. -/
noncomputable def jumpClock (i : ℕ) : ℕ → ℝ := fun j => if j < i then 0 else 1000

/-- A callback that returns true when it is called the third time. -/
def thirdCall : Callback := fun calls _ => calls.length == 2

/-- C23, negation: the timeout passes during the first iteration, and yet callbacks are shown three iterates, the last
two by a feasibility restoration: one iteration of it ended after the timeout, another one began. -/
theorem restoration_ignores_timeout : ∃ (env : Env) (opts : SolverOptions) (P : Nlp 1 0 1) (cbs : List Callback)
    (x : Vec 1) (res : IpmResult 1 0 1), 0 < opts.tolerance ∧ 0 < P.scaling.f ∧ Monotone env.clock ∧
      (∀ i, 1 ≤ i → Fl.fin (env.clock i - env.clock 0) > opts.timeout) ∧
      interiorPoint env opts P cbs x .start = some res ∧ 3 ≤ res.world.calls.length := by
  obtain ⟨F, c, α, i, h⟩ := line_first (jumpClock 1) 0 secondOpts [thirdCall] (by norm_num [secondOpts]) rfl
  obtain ⟨st0, j, hx0, hs0, hi0, -, hl⟩ := line_restore2 (jumpClock 1) 0 secondOpts rfl (by norm_num [secondOpts])
    (by norm_num [secondOpts]) [thirdCall] (extraIpm (lineEnv (jumpClock 1)) (lineP 0)
      { lineInit (jumpClock 1) 0 with filter := F, rejected := c } α)
    ⟨(runRegistered (lineInit (jumpClock 1) 0).info 0 [thirdCall] []).1,
      [⟨false, (lineInit (jumpClock 1) 0).info, .fin 0.1, .fin 0.99⟩], [], 1, i, 0, 1, List.ofFn lineX, [List.ofFn lineX]⟩ F
    rfl (line_extra _ _ _ _ _ _)
  have hearly : ¬ Fl.fin (jumpClock 1 (1 + 1) - jumpClock 1 1) > secondOpts.timeout := by
    rw [gt_iff_lt]
    show ¬ Fl.fin 1 < _
    rw [Fl.fin_lt]
    norm_num [jumpClock]
  have hl := hl hearly rfl
  rw [restoreIpm_stop hl rfl] at h
  simp only [Option.bind_some, Moved.elim] at h
  have hz : clampDualF (.fin 0.1) (.fin 1) 0 = .fin 1e-11 := by
    unfold clampDualF clampF
    rw [Fl.one_def, Fl.fin_div (by norm_num), Fl.fin_mul, Fl.fin_div one_ne_zero, Fl.zero_def, if_pos]
    · norm_num
    · rw [Fl.fin_lt]; norm_num
  have hE : errZeroIpm (lineEnv (jumpClock 1)) (lineP 0).scaling ((lineP 0).eval lineX (fun _ => 0) fun _ => .fin 1e-11) lineS
      (fun _ => 0) (fun _ => .fin 1e-11) = .fin 1e-11 := by
    rw [line_outer_error _ _ (by norm_num)]; norm_num
  have hbx : (fun i => st0.x (Fin.castAdd _ i)) = lineX := by rw [hx0]; exact line_back.1
  have hbs : (fun i => st0.s (Fin.castAdd _ i)) = lineS := by
    rw [hs0]; funext i; rw [Subsingleton.elim i 0]; rfl
  generalize hst : IpmState.mk _ _ _ _ _ _ _ _ _ _ _ = st at h
  generalize hw : World.mk _ _ _ _ _ _ _ _ _ = w at h
  have hc : w.calls.length = 3 := by
    subst hw
    rfl
  have hr0 : w.reads = 3 := by subst hw; rfl
  have hx : st.x = lineX := by subst hst; exact hbx
  have hs : st.s = lineS := by subst hst; exact hbs
  have hy : st.y = fun _ => 0 := by subst hst; rfl
  have hz1 : st.z = fun i => clampDualF (.fin 0.1) (st.s i) 0 := by subst hst; rfl
  have hz2 : st.z = fun _ => .fin 1e-11 := by
    rw [hz1, hs]; funext i; exact hz
  have he : st.e = (lineP 0).eval st.x st.y st.z := by subst hst; rfl
  have hE1 : errZeroIpm (lineEnv (jumpClock 1)) (lineP 0).scaling st.e st.s st.y st.z = .fin 1e-11 := by
    rw [he, hx, hs, hy, hz2, hE]
  have hi : st.iterations = 1 := by subst hst; exact hi0
  have hfin : ∃ st3, ipmFinish (lineEnv (jumpClock 1)) secondOpts (lineP 0) st = some st3 ∧ st3.iterations = 2 := by
    unfold ipmFinish
    simp only
    rw [if_neg (by rw [hE1, gt_iff_lt, Fl.fin_lt]; norm_num [secondOpts])]
    exact ⟨_, rfl, by rw [hi]⟩
  obtain ⟨st3, h3, h5⟩ := hfin
  unfold lineRest at h
  rw [h3, Option.bind_some, if_neg (by rw [h5]; norm_num [secondOpts])] at h
  simp only at h
  have hlate : Fl.fin ((lineEnv (jumpClock 1)).clock w.reads - (lineEnv (jumpClock 1)).clock 0) > secondOpts.timeout := by
    rw [hr0, gt_iff_lt]
    show Fl.fin 1 < Fl.fin (jumpClock 1 3 - jumpClock 1 0)
    rw [Fl.fin_lt]
    norm_num [jumpClock]
  rw [if_pos (by exact hlate)] at h
  refine ⟨_, secondOpts, lineP 0, [thirdCall], lineX, _, by norm_num [secondOpts], by norm_num [lineP, Scaling.f], ?_, ?_, h,
    by rw [show (3 : ℕ) = _ from hc.symm]; exact le_rfl⟩
  · intro i j hij
    show jumpClock 1 i ≤ jumpClock 1 j
    unfold jumpClock
    split_ifs <;> first | (norm_num; done) | omega
  · intro i hi
    show Fl.fin 1 < Fl.fin (jumpClock 1 i - jumpClock 1 0)
    rw [Fl.fin_lt]
    unfold jumpClock
    rw [if_neg (by omega), if_pos (by norm_num)]
    norm_num

/-- C23 and C38, negation: an iteration can end after the timeout without the status being TIMEOUT. -/
theorem timeout_reported_as_failure : ∃ (env : Env) (opts : SolverOptions) (P : Nlp 1 0 1) (cbs : List Callback)
    (x : Vec 1) (res : IpmResult 1 0 1), 0 < opts.tolerance ∧ 0 < P.scaling.f ∧ Monotone env.clock ∧
      interiorPoint env opts P cbs x .start = some res ∧
      (∃ t, res.world.ends.getLast? = some (true, t) ∧ Fl.fin t > opts.timeout) ∧
      res.status = .feasibilityRestorationFailed := by
  obtain ⟨F, c, α, i, h⟩ := line_first (jumpClock 2) 0 secondOpts [] (by norm_num [secondOpts]) rfl
  obtain ⟨st, j, hx, hs, -, hl, -⟩ := line_restore2 (jumpClock 2) 0 secondOpts rfl (by norm_num [secondOpts])
    (by norm_num [secondOpts]) [] (extraIpm (lineEnv (jumpClock 2)) (lineP 0)
      { lineInit (jumpClock 2) 0 with filter := F, rejected := c } α)
    ⟨(runRegistered (lineInit (jumpClock 2) 0).info 0 [] []).1,
      [⟨false, (lineInit (jumpClock 2) 0).info, .fin 0.1, .fin 0.99⟩], [], 1, i, 0, 1, List.ofFn lineX, [List.ofFn lineX]⟩ F
    rfl (line_extra _ _ _ _ _ _)
  have hlate : Fl.fin (jumpClock 2 (1 + 1) - jumpClock 2 1) > secondOpts.timeout := by
    rw [gt_iff_lt]
    show Fl.fin 1 < _
    rw [Fl.fin_lt]
    norm_num [jumpClock]
  rw [restoreIpm_failed (hl hlate) rfl] at h
  simp only [Option.bind_some, Moved.elim] at h
  refine ⟨_, secondOpts, lineP 0, [], lineX, _, by norm_num [secondOpts], by norm_num [lineP, Scaling.f], ?_, h,
    ⟨_, rfl, hlate⟩, rfl⟩
  intro i j hij
  show jumpClock 2 i ≤ jumpClock 2 j
  unfold jumpClock
  split_ifs <;> first | (norm_num; done) | omega

end Slp
