import Verif.Solver.IpmProps

/-!
Negations for C24 and C38: a run in which feasibility restoration swallows a callback's request to stop, and one in
which it converges at a feasible point, so that LOCALLY_INFEASIBLE is returned there. Both use one variable and the
constraint `x₀ + 1 ≥ 0`, started at the interior point 0; the linear solver's answers are much too large.
-/

namespace Slp

open Classical

/-- Minimise `a x₀` subject to `x₀ + 1 ≥ 0`. -/
noncomputable def lineP (a : ℝ) : Nlp 1 0 1 where
  f x := .fin a * x 0
  g _ := fun _ => .fin a
  H _ _ _ := fun _ _ => 0
  ce _ := fun _ => 0
  Ae _ := fun _ _ => 0
  ci x := fun _ => x 0 + 1
  Ai _ := fun _ _ => 1
  scaling := .factors 1 (fun _ => 1) fun _ => 1

/-- A linear solver that answers with large steps, but with none to feasibility restorations. -/
noncomputable def lineEnv (clock : ℕ → ℝ) : Env where
  factor _ := true
  solve _ S _ := if S.n = 1 then .fin (-1e8) else 0
  estimate _ _ _ := 0
  clock := clock
  junk _ _ := .nan

theorem frN_zero {a : ℝ} (ha : 0 < a) : frN (.fin 0) (.fin a) = .fin (a / 1000) := by
  rw [frN_fin 0 ha]
  unfold computePNRow
  simp [Real.sqrt_mul_self ha.le]
  ring

section
variable (clock : ℕ → ℝ) (a : ℝ)

/-- The initial point. -/
noncomputable def lineX : Vec 1 := fun _ => 0
/-- Its slacks. -/
noncomputable def lineS : Vec 1 := fun _ => 1

theorem line_ci : (lineP a).ci lineX = fun _ => .fin 1 := by
  funext i; simp [lineP, lineX, Fl.zero_def, Fl.one_def]

theorem line_mu : frMu (lineEnv clock) ((lineP a).ce lineX) (fun i => (lineP a).ci lineX i - lineS i) (.fin 0.1) =
    .fin 0.1 := by
  unfold frMu infNormF
  rw [if_pos (show Vec.Finite ((lineP a).ce lineX) from fun i => i.elim0),
    if_pos (show Vec.Finite (fun i => (lineP a).ci lineX i - lineS i) from fun i => by simp [line_ci, lineS, Fl.one_def])]
  have h1 : infNorm (Vec.real ((lineP a).ce lineX)) = 0 := infNorm_eq_zero.2 fun i => i.elim0
  have h2 : infNorm (Vec.real fun i => (lineP a).ci lineX i - lineS i) = 0 :=
    infNorm_eq_zero.2 fun i => by simp [Vec.real, line_ci, lineS, Fl.one_def, Fl.toReal]
  rw [h1, h2]
  norm_num

theorem line_pn : frPN ((lineP a).ce lineX) (fun i => (lineP a).ci lineX i - lineS i) (.fin 0.1) = fun _ => .fin 1e-4 := by
  funext j
  unfold frPN frP
  simp only [line_ci, lineS, Fl.one_def, Fl.fin_sub, sub_self, frN_zero (show (0:ℝ) < 0.1 by norm_num), Fl.fin_add, zero_add]
  rw [dif_neg (Nat.not_lt_zero _), dif_neg (by simp)]
  split <;> norm_num

/-- The initial point of the restoration. -/
noncomputable def lineXr : Vec (1 + relaxed 0 1) := Fin.append lineX fun _ => .fin 1e-4

theorem line_z (s : Vec 1) (hs : s = lineS) (pn : Vec (relaxed 0 1)) (hpn : pn = fun _ => .fin 1e-4) :
    Fin.append (fun i => Fl.fin 0.1 * (1 / s i)) (fun j => .fin 0.1 * (1 / pn j)) =
      (Fin.append (fun _ => .fin 0.1) fun _ => .fin 1000 : Vec (1 + relaxed 0 1)) := by
  subst hs hpn
  congr 1
  · funext i; simp [lineS, Fl.one_def, Fl.fin_div one_ne_zero]
  · funext i; rw [Fl.one_def, Fl.fin_div (by norm_num)]; norm_num

/-- The initial multipliers of the restoration. -/
noncomputable def lineZr : Vec (1 + relaxed 0 1) := Fin.append (fun _ => .fin 0.1) fun _ => .fin 1000

/-- The initial slacks of the restoration. -/
noncomputable def lineSr : Vec (1 + relaxed 0 1) := Fin.append lineS fun _ => 1

/-- The restoration problem. -/
noncomputable def lineR : Nlp (1 + relaxed 0 1) 0 (1 + relaxed 0 1) := frProblem (lineEnv clock) (lineP a) lineX (.fin 0.1)

theorem line_run (opts : SolverOptions) (cbs : List Callback) (extra : Extra) (w : World) (E : Filter) :
    frRun (lineEnv clock) opts (lineP a) cbs extra lineX lineS (.fin 0.1) 0 w E =
      ipmRun (lineEnv clock) opts (lineR clock a) cbs extra true restoreInner lineXr lineSr (fun _ => 0) lineZr (.fin 0.1)
        0 w E := by
  unfold frRun
  simp only [line_mu, line_pn, line_z lineS rfl _ rfl]
  rfl

theorem fin3 {p : Fin (1 + relaxed 0 1) → Prop} (h0 : p 0) (h1 : p 1) (h2 : p 2) (i) : p i := by
  have : ∀ i : Fin 3, p i := by intro i; fin_cases i <;> assumption
  exact this i

theorem line_xr : lineXr 0 = .fin 0 ∧ lineXr 1 = .fin 1e-4 ∧ lineXr 2 = .fin 1e-4 := ⟨rfl, rfl, rfl⟩
theorem line_sr : lineSr 0 = .fin 1 ∧ lineSr 1 = .fin 1 ∧ lineSr 2 = .fin 1 := ⟨rfl, rfl, rfl⟩
theorem line_zr : lineZr 0 = .fin 0.1 ∧ lineZr 1 = .fin 1000 ∧ lineZr 2 = .fin 1000 := ⟨rfl, rfl, rfl⟩

theorem frWeight_zero : frWeight (.fin 0) = .fin 1 := by
  have : (1 : Fl) / (.fin 0 * .fin 0) = .pinf := by
    rw [Fl.fin_mul, mul_zero]; show Fl.div _ _ = _; simp [Fl.div]
  unfold frWeight
  rw [this]
  exact if_pos trivial

theorem line_g : (lineR clock a).g lineXr 0 = .fin 0 ∧ (lineR clock a).g lineXr 1 = .fin 1000 ∧
    (lineR clock a).g lineXr 2 = .fin 1000 := by
  refine ⟨?_, rfl, rfl⟩
  show Fl.sqrt (.fin 0.1) * frWeight (.fin 0) * (.fin 0 - .fin 0) = _
  rw [frWeight_zero, show Fl.sqrt (.fin 0.1) = .fin (Real.sqrt 0.1) from if_neg (by norm_num)]
  simp

theorem line_cir : (lineR clock a).ci lineXr 0 = .fin 1 ∧ (lineR clock a).ci lineXr 1 = .fin 1e-4 ∧
    (lineR clock a).ci lineXr 2 = .fin 1e-4 := by
  refine ⟨?_, rfl, rfl⟩
  show (Fl.fin 0 + 1) - .fin 1e-4 + .fin 1e-4 = _
  simp [Fl.one_def]

theorem line_air : (∀ j, (lineR clock a).Ai lineXr 0 j = if j = 1 then .fin (-1) else .fin 1) ∧
    (∀ j, (lineR clock a).Ai lineXr 1 j = if j = 1 then .fin 1 else .fin 0) ∧
    (∀ j, (lineR clock a).Ai lineXr 2 j = if j = 2 then .fin 1 else .fin 0) := by
  refine ⟨fin3 ?_ ?_ ?_, fin3 ?_ ?_ ?_, fin3 ?_ ?_ ?_⟩ <;> rfl

theorem line_finite : ((lineR clock a).eval lineXr (fun _ => 0) lineZr).Finite := by
  have hg := line_g clock a
  have hc := line_cir clock a
  have hA := line_air clock a
  have hx : lineXr.Finite := fin3 rfl rfl rfl
  refine ⟨?_, ?_, ?_, fun i => i.elim0, fun i => i.elim0, ?_, ?_⟩
  · show Fl.isFinite (ite _ _ _) = true
    rw [if_pos ⟨hx, fun i => rfl, rfl⟩]
    rfl
  · show Vec.Finite ((lineR clock a).g lineXr)
    exact fin3 (by rw [hg.1]; rfl) (by rw [hg.2.1]; rfl) (by rw [hg.2.2]; rfl)
  · intro i j
    show Fl.isFinite (ite _ _ _) = true
    split
    · revert i
      refine fin3 ?_ ?_ ?_ <;> intro _
      · show Fl.isFinite (Fl.sqrt (.fin 0.1) * frWeight (.fin 0)) = true
        rw [frWeight_zero, show Fl.sqrt (.fin 0.1) = .fin (Real.sqrt 0.1) from if_neg (by norm_num)]
        rfl
      · rfl
      · rfl
    · rfl
  · show Vec.Finite ((lineR clock a).ci lineXr)
    exact fin3 (by rw [hc.1]; rfl) (by rw [hc.2.1]; rfl) (by rw [hc.2.2]; rfl)
  · show FMat.Finite ((lineR clock a).Ai lineXr)
    refine fin3 (fun j => ?_) (fun j => ?_) fun j => ?_
    · rw [hA.1]; split <;> rfl
    · rw [hA.2.1]; split <;> rfl
    · rw [hA.2.2]; split <;> rfl

theorem unscaled_one {n m k : ℕ} {S : Scaling m k} {de : Fin m → ℝ} {di : Fin k → ℝ} (hS : S = .factors 1 de di)
    (hde : ∀ i, de i = 1) (hdi : ∀ i, di i = 1) (g : Fin n → ℝ) (Ae : Matrix (Fin m) (Fin n) ℝ)
    (ce : Fin m → ℝ) (Ai : Matrix (Fin k) (Fin n) ℝ) (ci s : Fin k → ℝ) (y : Fin m → ℝ) (z : Fin k → ℝ) (μ : ℝ) :
    unscaledInfIpm S g Ae ce Ai ci s y z μ = kktInfIpm g Ae ce Ai ci s y z μ := by
  obtain rfl : de = fun _ => 1 := funext hde
  obtain rfl : di = fun _ => 1 := funext hdi
  subst hS
  unfold unscaledInfIpm rowScale
  simp

/-- The initial error of the restoration. -/
theorem line_error : ∃ v, errZeroIpm (lineEnv clock) (lineR clock a).scaling ((lineR clock a).eval lineXr (fun _ => 0) lineZr)
    lineSr (fun _ => 0) lineZr = .fin v ∧ 100 < v ∧ v ≤ 2000 := by
  have hf := line_finite clock a
  refine ⟨_, if_pos ⟨hf.2.1, hf.2.2.2.2.1, hf.2.2.2.1, hf.2.2.2.2.2.2, hf.2.2.2.2.2.1, fin3 rfl rfl rfl,
    fun _ => rfl, fin3 rfl rfl rfl⟩, ?_⟩
  rw [unscaled_one (S := (lineR clock a).scaling) (de := fun _ => 1) (di := Fin.append (fun _ => 1) fun _ => 1) rfl
    (fun i => i.elim0) (fin3 rfl rfl rfl)]
  have hz : oneNorm (Vec.real lineZr) = 2000.1 := by
    show ∑ i : Fin 3, |Vec.real lineZr i| = _
    rw [Fin.sum_univ_three]
    show |(0.1 : ℝ)| + |(1000 : ℝ)| + |(1000 : ℝ)| = _
    norm_num
  have hd : infNorm (Vec.real ((lineR clock a).g lineXr) -
      (FMat.real ((lineR clock a).Ae lineXr)).transpose.mulVec (Vec.real fun _ => 0) -
      (FMat.real ((lineR clock a).Ai lineXr)).transpose.mulVec (Vec.real lineZr)) ≤ 1 := by
    have hg := line_g clock a
    have hA := line_air clock a
    have he (j) : (FMat.real ((lineR clock a).Ae lineXr)).transpose.mulVec (Vec.real fun _ => 0) j = 0 := by
      simp [Matrix.mulVec, dotProduct]
    have hs (j) : (FMat.real ((lineR clock a).Ai lineXr)).transpose.mulVec (Vec.real lineZr) j =
        (if j = 1 then -1 else 1) * 0.1 + (if j = 1 then 1 else 0) * 1000 + (if j = 2 then 1 else 0) * 1000 := by
      show ∑ i : Fin 3, ((lineR clock a).Ai lineXr i j).toReal * Vec.real lineZr i = _
      rw [Fin.sum_univ_three]
      show ((lineR clock a).Ai lineXr 0 j).toReal * 0.1 + ((lineR clock a).Ai lineXr 1 j).toReal * 1000 +
        ((lineR clock a).Ai lineXr 2 j).toReal * 1000 = _
      rw [hA.1, hA.2.1, hA.2.2]
      have hite (p : Prop) [Decidable p] (a b : ℝ) : Fl.toReal (if p then .fin a else .fin b) = if p then a else b := by
        split <;> rfl
      rw [hite, hite, hite]
    refine infNorm_le.2 ⟨by norm_num, fin3 ?_ ?_ ?_⟩ <;> rw [Pi.sub_apply, Pi.sub_apply, he, hs, Vec.real]
    · rw [hg.1, if_neg (by decide), if_neg (by decide), if_neg (by decide)]
      norm_num [Fl.toReal]
    · rw [hg.2.1, if_pos rfl, if_pos rfl, if_neg (by decide)]
      norm_num [Fl.toReal]
    · rw [hg.2.2, if_neg (by decide), if_neg (by decide), if_pos rfl]
      norm_num [Fl.toReal]
  have hcomp : infNorm (fun i => Vec.real lineSr i * Vec.real lineZr i - 0) = 1000 := by
    refine le_antisymm (infNorm_le.2 ⟨by norm_num, fin3 ?_ ?_ ?_⟩) ?_
    · show |(1 : ℝ) * 0.1 - 0| ≤ 1000; norm_num
    · show |(1 : ℝ) * 1000 - 0| ≤ 1000; norm_num
    · show |(1 : ℝ) * 1000 - 0| ≤ 1000; norm_num
    · refine le_trans ?_ (abs_le_infNorm _ 1)
      show 1000 ≤ |(1 : ℝ) * 1000 - 0|; norm_num
  have hci : infNorm (Vec.real ((lineR clock a).ci lineXr) - Vec.real lineSr) ≤ 1 := by
    have hc := line_cir clock a
    refine infNorm_le.2 ⟨by norm_num, fin3 ?_ ?_ ?_⟩ <;> rw [Pi.sub_apply, Vec.real, Vec.real]
    · rw [hc.1, line_sr.1]; norm_num [Fl.toReal]
    · rw [hc.2.1, line_sr.2.1]; norm_num [Fl.toReal]
    · rw [hc.2.2, line_sr.2.2]; norm_num [Fl.toReal]
  have hce : infNorm (Vec.real ((lineR clock a).ce lineXr)) = 0 := infNorm_eq_zero.2 fun i => i.elim0
  have hsc : max 100 (oneNorm (Vec.real lineZr) / (1 + relaxed 0 1 : ℕ)) / 100 = 6.667 := by
    rw [hz, max_eq_right] <;> norm_num [relaxed]
  have hsd := damping_pos ((oneNorm (Vec.real (fun _ => 0 : Vec 0)) + oneNorm (Vec.real lineZr)) /
    (0 + (1 + relaxed 0 1) : ℕ))
  unfold kktInfIpm
  simp only
  constructor
  · refine lt_of_lt_of_le ?_ (le_max_of_le_left (le_max_of_le_left (le_max_right _ _)))
    rw [hcomp]
    show 100 < 1000 / (max 100 (oneNorm (Vec.real lineZr) / (1 + relaxed 0 1 : ℕ)) / 100)
    rw [hsc]; norm_num
  · refine max_le (max_le (max_le ?_ ?_) ?_) (hci.trans (by norm_num))
    · exact (div_le_self (infNorm_nonneg _) hsd).trans (hd.trans (by norm_num))
    · rw [hcomp]
      refine (div_le_self (by norm_num) (damping_pos _)).trans (by norm_num)
    · exact hce.le.trans (by norm_num)

/-! ### The solver up to the restoration -/

theorem line_step (st : IpmState 1 0 1) (hs : st.s = lineS) (hci : st.e.ci = fun _ => .fin 1)
    (hA : st.e.Ai = fun _ _ => 1) (ht : st.τ = .fin 0.99) (rhs : Vec (1 + 0)) (i : ℕ) :
    boundaryF st.s (ipmComputeStep (lineEnv clock) st rhs (fun i => st.e.ci i - st.s i) i).ps st.τ < alphaMin := by
  have : (ipmComputeStep (lineEnv clock) st rhs (fun i => st.e.ci i - st.s i) i).ps = fun _ => .fin (-1e8) := by
    funext j
    unfold ipmComputeStep mulVecF
    simp only [hci, hs, hA, lineS]
    rw [if_pos ⟨fun _ _ => rfl, fun _ => rfl⟩]
    simp [lineEnv, IpmState.system, FMat.real, Vec.real, Fl.toReal, Fl.one_def]
  rw [this, hs, ht]
  unfold boundaryF lineS alphaMin
  simp only [List.ofFn_succ, List.ofFn_zero, List.foldl_cons, List.foldl_nil]
  unfold boundaryStepF
  simp only [Fl.one_def, Fl.fin_mul, Fl.fin_neg, Fl.fin_lt]
  rw [if_pos (by norm_num), Fl.fin_div (by norm_num), Fl.fin_mul, Fl.fin_lt]
  norm_num

theorem line_outer_finite (z : ℝ) : ((lineP a).eval lineX (fun _ => 0) fun _ => .fin z).Finite :=
  ⟨rfl, fun _ => rfl, fun _ _ => rfl, fun _ => rfl, fun _ _ => rfl, fun _ => rfl, fun _ _ => rfl⟩

theorem line_outer_error {z : ℝ} (hz : |z| ≤ 100) :
    errZeroIpm (lineEnv clock) (lineP a).scaling ((lineP a).eval lineX (fun _ => 0) fun _ => .fin z) lineS (fun _ => 0)
      (fun _ => .fin z) = .fin (max |a - z| |z|) := by
  have hf := line_outer_finite a z
  refine (if_pos ⟨hf.2.1, hf.2.2.2.2.1, hf.2.2.2.1, hf.2.2.2.2.2.2, hf.2.2.2.2.2.1, fun _ => rfl, fun _ => rfl,
    fun _ => rfl⟩).trans ?_
  rw [unscaled_one (S := (lineP a).scaling) (de := fun _ => 1) (di := fun _ => 1) rfl (fun i => i.elim0) fun _ => rfl]
  unfold kktInfIpm oneNorm infNorm
  simp [lineP, lineS, lineX, Nlp.eval, Vec.real, FMat.real, Matrix.mulVec, dotProduct, Fl.toReal, Fl.one_def, Fl.zero_def, hz]

theorem line_not_stuck {n k : ℕ} {env : Env} {A : FMat k n} {c : Vec k} (hA : A.Finite) (hc : c.Finite)
    (h : ∀ i, 0 ≤ c.real i) : ¬ ineqInfeasible env A c := by
  unfold ineqInfeasible
  rw [if_pos ⟨hA, hc⟩]
  rintro ⟨-, -, h2⟩
  rw [gt_iff_lt, show (fun i => min (c.real i) 0) = fun _ => 0 from funext fun i => min_eq_right (h i)] at h2
  norm_num [twoNorm] at h2

theorem line_not_eq {n : ℕ} {env : Env} {A : FMat 0 n} {c : Vec 0} : ¬ eqInfeasible env A c := by
  unfold eqInfeasible
  rw [if_pos ⟨fun i => i.elim0, fun i => i.elim0⟩]
  exact fun h => lt_irrefl _ h.1

theorem line_bounded {n : ℕ} {env : Env} {v : Vec n} (hv : v.Finite) (h : ∀ i, |v.real i| ≤ 1) : ¬ diverging env v := by
  unfold diverging infNormF
  rw [if_pos hv]
  rintro (h' | h')
  · exact absurd (infNorm_le.2 ⟨by norm_num, fun i => (h i).trans (by norm_num)⟩) (not_le.2 h')
  · exact h' hv

/-- What an iteration does after the new iterate was computed. -/
noncomputable def lineRest (opts : SolverOptions) (cbs : List Callback) (r : ℕ) (st : IpmState 1 0 1) (w : World) (E : Filter) :
    Option (IpmResult 1 0 1) :=
  (ipmFinish (lineEnv clock) opts (lineP a) st).bind fun st3 =>
    if (st3.iterations : ℤ) ≥ opts.maxIterations then some (st3.exit .maxIterationsExceeded w E)
    else
      let elapsed := clock w.reads - clock 0
      if Fl.fin elapsed > opts.timeout then some (st3.exit .timeout (w.tick false elapsed) E)
      else ipmLoop (lineEnv clock) opts (lineP a) cbs .none false (restoreIpm (lineEnv clock) opts (lineP a) cbs) (clock 0) r
        st3 (w.tick false elapsed) E

/-- The state before the loop. -/
noncomputable def lineInit : IpmState 1 0 1 := ipmInit (lineEnv clock) (lineP a) lineX lineS (fun _ => 0) (fun _ => 1) (.fin 0.1) 0

/-- The first iteration calls the restoration. -/
theorem line_first (opts : SolverOptions) (cbs : List Callback) (hE : opts.tolerance < max |a - 1| 1)
    (hcb : (runRegistered (lineInit clock a).info 0 cbs []).2 = false) :
    ∃ (F : Filter) (c : ℕ) (α : Fl) (i : ℕ), interiorPoint (lineEnv clock) opts (lineP a) cbs lineX .start =
      (restoreIpm (lineEnv clock) opts (lineP a) cbs { lineInit clock a with filter := F, rejected := c } α
        ⟨(runRegistered (lineInit clock a).info 0 cbs []).1, [⟨false, (lineInit clock a).info, .fin 0.1, .fin 0.99⟩], [], 1,
          i, 0, 1, List.ofFn lineX, [List.ofFn lineX]⟩ (.make 0)).bind (Moved.elim some (lineRest clock a opts cbs (loopRounds opts 0 - 1))) := by
  unfold interiorPoint ipmRun
  simp only
  rw [if_neg (by norm_num), show Fl.fin (0.1 * (lineP a).scaling.f) = .fin 0.1 by simp [lineP, Scaling.f]]
  obtain ⟨r, hr⟩ : ∃ r, loopRounds opts 0 = r + 1 := ⟨loopRounds opts 0 - 1, by unfold loopRounds; omega⟩
  have hf : (lineInit clock a).e.Finite := line_outer_finite a 1
  change ∃ F c α i, (if ¬ (lineInit clock a).e.Finite then _ else ipmLoop _ _ _ _ _ _ _ _ _ (lineInit clock a) _ _) = _
  rw [if_neg (not_not.2 hf), hr, ipmLoop]
  have hE0 : (lineInit clock a).E0 = .fin (max |a - 1| 1) := by
    have := line_outer_error clock a (z := 1) (by norm_num)
    rw [abs_one] at this
    exact this
  rw [if_neg (by rw [hE0]; exact not_not.2 hE), if_neg line_not_eq,
    if_neg (line_not_stuck hf.2.2.2.2.2.2 hf.2.2.2.2.2.1 fun i => by
      show 0 ≤ Fl.toReal ((lineP a).ci lineX i); rw [line_ci]; norm_num [Fl.toReal]),
    if_neg (not_or.2 ⟨line_bounded (fun _ => rfl) fun i => by
        show |Fl.toReal (.fin 0)| ≤ 1; norm_num [Fl.toReal],
      line_bounded (fun _ => rfl) fun i => by show |Fl.toReal (.fin 1)| ≤ 1; norm_num [Fl.toReal]⟩)]
  simp only
  have hn : ipmNotify cbs .none false (lineInit clock a) 
      { World.start with reads := World.start.reads + 1, vars := (lineP a).vars lineX } (.make 0) =
      (⟨(runRegistered (lineInit clock a).info 0 cbs []).1, [⟨false, (lineInit clock a).info, .fin 0.1, .fin 0.99⟩], [], 0, 0,
        0, 1, List.ofFn lineX, [List.ofFn lineX]⟩, .make 0, false) := by
    have : runCallbacks cbs .none (lineInit clock a).info [] (.make 0) =
        ((runRegistered (lineInit clock a).info 0 cbs []).1, .make 0, false) := by
      simp [runCallbacks, hcb, Extra.none]
    unfold ipmNotify
    simp only [World.start]
    rw [this]
    rfl
  rw [hn]
  have hstep := line_step clock (lineInit clock a) rfl (line_ci a) rfl rfl ((lineInit clock a).rhs (lineEnv clock)) 0
  obtain ⟨α, hα, h0, h1⟩ := boundaryF_range (t := 0.99) (x := lineS) (by norm_num) (fun _ => ⟨1, rfl, one_pos⟩)
    (ipmComputeStep (lineEnv clock) (lineInit clock a) ((lineInit clock a).rhs (lineEnv clock)) (fun i => (lineInit clock a).e.ci i - (lineInit clock a).s i) 0).ps
  obtain ⟨ls, hls⟩ := line_search_ends (lineEnv clock) opts (lineP a) (lineInit clock a)
    (ipmComputeStep (lineEnv clock) (lineInit clock a) ((lineInit clock a).rhs (lineEnv clock)) (fun i => (lineInit clock a).e.ci i - (lineInit clock a).s i) 0)
    (boundaryF (lineInit clock a).z (ipmComputeStep (lineEnv clock) (lineInit clock a) ((lineInit clock a).rhs (lineEnv clock)) (fun i => (lineInit clock a).e.ci i - (lineInit clock a).s i) 0).pz (lineInit clock a).τ)
    (ipmSlope (lineEnv clock) (lineInit clock a) (ipmComputeStep (lineEnv clock) (lineInit clock a) ((lineInit clock a).rhs (lineEnv clock)) (fun i => (lineInit clock a).e.ci i - (lineInit clock a).s i) 0))
    α (lineInit clock a).filter (lineInit clock a).rejected 1 h1
  change boundaryF (lineInit clock a).s _ (lineInit clock a).τ = _ at hα
  rw [hα] at hstep
  refine ⟨ls.filter, ls.rejected, ls.α, ls.solves, ?_⟩
  rw [if_neg (by simp)]
  congr 1
  unfold ipmMove
  rw [if_neg (by simp [lineEnv])]
  simp only
  rw [hα, show (0 + 1 : ℕ) = 1 from rfl, hls]
  simp only [Option.bind_some]
  rw [if_pos hstep]

/-- The state of the restoration before its loop. -/
noncomputable def lineRInit : IpmState (1 + relaxed 0 1) 0 (1 + relaxed 0 1) :=
  ipmInit (lineEnv clock) (lineR clock a) lineXr lineSr (fun _ => 0) lineZr (.fin 0.1) 0

/-- The restoration succeeds at once if its initial error is within the tolerance; otherwise it calls the callbacks. -/
theorem line_restore (opts : SolverOptions) (cbs : List Callback) (extra : Extra) (w : World) (E : Filter) :
    (2000 ≤ opts.tolerance → frRun (lineEnv clock) opts (lineP a) cbs extra lineX lineS (.fin 0.1) 0 w E =
      some ((lineRInit clock a).exit .success { w with reads := w.reads + 1, vars := (lineR clock a).vars lineXr } E)) ∧
    (opts.tolerance ≤ 100 → (runRegistered (lineRInit clock a).info 0 cbs w.calls).2 = true →
      frRun (lineEnv clock) opts (lineP a) cbs extra lineX lineS (.fin 0.1) 0 w E =
      some ((lineRInit clock a).exit .callbackRequestedStop { w with
        reads := w.reads + 1, calls := (runRegistered (lineRInit clock a).info 0 cbs w.calls).1
        trace := w.trace ++ [⟨true, (lineRInit clock a).info, .fin 0.1, .fin 0.99⟩]
        vars := (lineR clock a).vars lineXr, seen := w.seen ++ [(lineR clock a).vars lineXr] } E)) := by
  rw [line_run]
  unfold ipmRun
  simp only
  rw [if_neg (by norm_num)]
  obtain ⟨r, hr⟩ : ∃ r, loopRounds opts 0 = r + 1 := ⟨loopRounds opts 0 - 1, by unfold loopRounds; omega⟩
  have hf : (lineRInit clock a).e.Finite := line_finite clock a
  obtain ⟨v, hv, hv1, hv2⟩ := line_error clock a
  change (lineRInit clock a).E0 = _ at hv
  change (_ → (if ¬ (lineRInit clock a).e.Finite then _ else ipmLoop _ _ _ _ _ _ _ _ _ (lineRInit clock a) _ _) = _) ∧
    (_ → _ → (if ¬ (lineRInit clock a).e.Finite then _ else ipmLoop _ _ _ _ _ _ _ _ _ (lineRInit clock a) _ _) = _)
  rw [if_neg (not_not.2 hf), hr, ipmLoop]
  constructor
  · intro ht
    rw [if_pos]
    rw [hv, gt_iff_lt, Fl.fin_lt, not_lt]
    exact hv2.trans ht
  · intro ht hc
    have hci := line_cir clock a
    rw [if_neg (by rw [hv]; exact not_not.2 (show opts.tolerance < v by linarith)), if_neg line_not_eq,
      if_neg (line_not_stuck hf.2.2.2.2.2.2 hf.2.2.2.2.2.1 (fin3 ?_ ?_ ?_)),
      if_neg (not_or.2 ⟨line_bounded (fin3 rfl rfl rfl) (fin3 ?_ ?_ ?_), line_bounded (fin3 rfl rfl rfl) (fin3 ?_ ?_ ?_)⟩)]
    · have hn : ipmNotify cbs extra true (lineRInit clock a)
          { w with reads := w.reads + 1, vars := (lineR clock a).vars lineXr } E =
        ({ w with
          reads := w.reads + 1, calls := (runRegistered (lineRInit clock a).info 0 cbs w.calls).1
          trace := w.trace ++ [⟨true, (lineRInit clock a).info, .fin 0.1, .fin 0.99⟩]
          vars := (lineR clock a).vars lineXr, seen := w.seen ++ [(lineR clock a).vars lineXr] }, E, true) := by
        unfold ipmNotify runCallbacks
        simp only
        rw [if_pos hc]
        rfl
      simp only
      rw [hn, if_pos rfl]
    · show |(0 : ℝ)| ≤ 1; norm_num
    · show |(1e-4 : ℝ)| ≤ 1; norm_num
    · show |(1e-4 : ℝ)| ≤ 1; norm_num
    · show |(1 : ℝ)| ≤ 1; norm_num
    · show |(1 : ℝ)| ≤ 1; norm_num
    · show |(1 : ℝ)| ≤ 1; norm_num
    · show 0 ≤ Fl.toReal ((lineR clock a).ci lineXr 0); rw [hci.1]; norm_num [Fl.toReal]
    · show 0 ≤ Fl.toReal ((lineR clock a).ci lineXr 1); rw [hci.2.1]; norm_num [Fl.toReal]
    · show 0 ≤ Fl.toReal ((lineR clock a).ci lineXr 2); rw [hci.2.2]; norm_num [Fl.toReal]

end

/-! ### The negations -/

theorem line_back : (fun i => lineXr (Fin.castAdd _ i)) = lineX ∧ (fun i => lineSr (Fin.castAdd _ i)) = lineS :=
  ⟨funext fun i => Fin.append_left _ _ i, funext fun i => Fin.append_left _ _ i⟩

theorem restoreIpm_success {n m k : ℕ} {env : Env} {opts : SolverOptions} {P : Nlp n m k} {cbs : List Callback}
    {st : IpmState n m k} {α : Fl} {w : World} {E : Filter} {res : IpmResult (n + relaxed m k) m (k + relaxed m k)}
    (h : frRun env opts P cbs (extraIpm env P st α) st.x st.s st.μ st.iterations w st.filter = some res)
    (hs : res.status = .success) : restoreIpm env opts P cbs st α w E = some (.stop ⟨.locallyInfeasible,
      fun i => res.x (Fin.castAdd _ i), fun i => res.s (Fin.castAdd _ i), st.y, st.z, res.iterations, res.world, E⟩) := by
  unfold restoreIpm
  rw [h, Option.map_some]
  simp only
  rw [if_neg (by rw [hs]; decide), if_pos hs]

theorem restoreIpm_stop {n m k : ℕ} {env : Env} {opts : SolverOptions} {P : Nlp n m k} {cbs : List Callback}
    {st : IpmState n m k} {α : Fl} {w : World} {E : Filter} {res : IpmResult (n + relaxed m k) m (k + relaxed m k)}
    (h : frRun env opts P cbs (extraIpm env P st α) st.x st.s st.μ st.iterations w st.filter = some res)
    (hs : res.status = .callbackRequestedStop) :
    let x : Vec n := fun i => res.x (Fin.castAdd _ i)
    let s : Vec k := fun i => res.s (Fin.castAdd _ i)
    let sol := env.estimate res.world.estimates ⟨n, m, k, P.g x, P.Ae x, P.Ai x, s, st.μ⟩
    let y : Vec m := fun i => sol i
    let z : Vec k := fun i => clampDualF st.μ (s i) (sol (m + i))
    restoreIpm env opts P cbs st α w E = some (.go
      { st with x, s, y, z, e := P.eval x y z, filter := res.extraFilter, iterations := res.iterations }
      { res.world with estimates := res.world.estimates + 1, vars := P.vars x } E) := by
  unfold restoreIpm
  rw [h, Option.map_some]
  simp only
  rw [if_pos hs]

/-- C38, negation: LOCALLY_INFEASIBLE can be returned at a point that satisfies all constraints with a margin, for a
problem with a linear cost and one linear constraint. -/
theorem locally_infeasible_at_feasible_point : ∃ (env : Env) (opts : SolverOptions) (P : Nlp 1 0 1) (x : Vec 1)
    (res : IpmResult 1 0 1), 0 < opts.tolerance ∧ 0 < P.scaling.f ∧ interiorPoint env opts P [] x .start = some res ∧
      res.status = .locallyInfeasible ∧ P.ci res.x = fun _ => 1 := by
  obtain ⟨F, c, α, i, h⟩ := line_first (fun _ => 0) 1e6 ⟨2000, 100, .pinf, false⟩ []
    (by norm_num) rfl
  have hl := (line_restore (fun _ => 0) 1e6 ⟨2000, 100, .pinf, false⟩ [] (extraIpm (lineEnv fun _ => 0) (lineP 1e6)
    { lineInit (fun _ => 0) 1e6 with filter := F, rejected := c } α)
    ⟨(runRegistered (lineInit (fun _ => 0) 1e6).info 0 [] []).1,
      [⟨false, (lineInit (fun _ => 0) 1e6).info, .fin 0.1, .fin 0.99⟩], [], 1, i, 0, 1, List.ofFn lineX, [List.ofFn lineX]⟩ F).1 le_rfl
  rw [restoreIpm_success hl rfl] at h
  simp only [Option.bind_some, Moved.elim] at h
  exact ⟨lineEnv fun _ => 0, ⟨2000, 100, .pinf, false⟩, lineP 1e6, lineX, _, by norm_num,
    by norm_num [lineP, Scaling.f], h, rfl, (congrArg (lineP 1e6).ci line_back.1).trans (line_ci 1e6)⟩

/-- Options with a tolerance of one half. -/
noncomputable def halfOpts : SolverOptions := ⟨0.5, 100, .pinf, false⟩

/-- A callback that returns true when it is called the second time. -/
def secondCall : Callback := fun calls _ => calls.length == 1

/-- C24, negation: a callback can return true without the solve ending with CALLBACK_REQUESTED_STOP. -/
theorem restoration_ignores_stop : ∃ (env : Env) (opts : SolverOptions) (P : Nlp 1 0 1) (cbs : List Callback) (x : Vec 1)
    (res : IpmResult 1 0 1), 0 < opts.tolerance ∧ 0 < P.scaling.f ∧ interiorPoint env opts P cbs x .start = some res ∧
      (∃ c ∈ res.world.calls, c.result = true) ∧ res.status = .success := by
  obtain ⟨F, c, α, i, h⟩ := line_first (fun _ => 0) 0 halfOpts [secondCall] (by norm_num [halfOpts]) rfl
  have hz : clampDualF (.fin 0.1) (.fin 1) 0 = .fin 1e-11 := by
    unfold clampDualF clampF
    rw [Fl.one_def, Fl.fin_div (by norm_num), Fl.fin_mul, Fl.fin_div one_ne_zero, Fl.zero_def, if_pos]
    · norm_num
    · rw [Fl.fin_lt]; norm_num
  have hl := (line_restore (fun _ => 0) 0 halfOpts [secondCall] (extraIpm (lineEnv fun _ => 0) (lineP 0)
    { lineInit (fun _ => 0) 0 with filter := F, rejected := c } α)
    ⟨(runRegistered (lineInit (fun _ => 0) 0).info 0 [secondCall] []).1,
      [⟨false, (lineInit (fun _ => 0) 0).info, .fin 0.1, .fin 0.99⟩], [], 1, i, 0, 1, List.ofFn lineX, [List.ofFn lineX]⟩ F).2 (by norm_num [halfOpts]) rfl
  rw [restoreIpm_stop hl rfl] at h
  simp only [Option.bind_some, Moved.elim] at h
  have hE : errZeroIpm (lineEnv fun _ => 0) (lineP 0).scaling ((lineP 0).eval lineX (fun _ => 0) fun _ => .fin 1e-11) lineS
      (fun _ => 0) (fun _ => .fin 1e-11) = .fin 1e-11 := by
    rw [line_outer_error _ _ (by norm_num)]; norm_num
  have hz' : (fun _ : Fin 1 => clampDualF (.fin 0.1) (.fin 1) 0) = fun _ => .fin 1e-11 := by rw [hz]
  generalize hst : IpmState.mk _ _ _ _ _ _ _ _ _ _ _ = st at h
  generalize hw : World.mk _ _ _ _ _ _ _ _ _ = w at h
  have hc : ∃ c ∈ w.calls, c.result = true := by
    subst hw
    exact ⟨⟨0, (lineRInit (fun _ => 0) 0).info, true⟩, by simp [runRegistered, secondCall, IpmState.exit], rfl⟩
  have hE1 : errZeroIpm (lineEnv fun _ => 0) (lineP 0).scaling st.e st.s st.y st.z = .fin 1e-11 := by
    have hx : st.x = lineX := by subst hst; exact line_back.1
    have hs : st.s = lineS := by subst hst; exact line_back.2
    have hy : st.y = fun _ => 0 := by subst hst; rfl
    have hz : st.z = fun _ => .fin 1e-11 := by
      rw [← hz', show (fun _ : Fin 1 => clampDualF (.fin 0.1) (.fin 1) 0) = fun i => clampDualF (.fin 0.1) (lineS i) 0 from rfl,
        ← line_back.2]
      subst hst
      rfl
    have he : st.e = (lineP 0).eval st.x st.y st.z := by subst hst; rfl
    rw [he, hx, hs, hy, hz, hE]
  have hi : st.iterations = 0 := by subst hst; rfl
  have hfin : ∃ st3, ipmFinish (lineEnv fun _ => 0) halfOpts (lineP 0) st = some st3 ∧ st3.E0 = .fin 1e-11 ∧
      st3.iterations = 1 := by
    unfold ipmFinish
    simp only
    rw [if_neg (by rw [hE1, gt_iff_lt, Fl.fin_lt]; norm_num [halfOpts])]
    exact ⟨_, rfl, hE1, by rw [hi]⟩
  obtain ⟨st3, h3, h4, h5⟩ := hfin
  obtain ⟨r, hr⟩ : ∃ r, loopRounds halfOpts 0 - 1 = r + 1 := ⟨98, rfl⟩
  unfold lineRest at h
  rw [h3, Option.bind_some, if_neg (by rw [h5]; norm_num [halfOpts])] at h
  simp only at h
  rw [if_neg (by exact fun h => h), hr, ipmLoop, if_pos (by rw [h4, gt_iff_lt, Fl.fin_lt]; norm_num [halfOpts])] at h
  exact ⟨_, halfOpts, lineP 0, [secondCall], lineX, _, by norm_num [halfOpts], by norm_num [lineP, Scaling.f], h, hc, rfl⟩

end Slp
