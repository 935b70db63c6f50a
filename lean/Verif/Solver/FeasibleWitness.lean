import Verif.Solver.LoopStepProps
import Verif.Solver.StopWitness

/-!
Negation for C84: a run with `feasible_ipm` that starts where the inequality constraint is satisfied and ends where it is
not. The problem is to minimise `−4x₀` subject to `1 − x₀² ≥ 0`, started at 0, with an exact linear solver that
regularises nothing unless it must. The first trial point is rejected because its slack, which is the constraint's value,
is negative; the second-order correction proposes the same point with a slack that is not the constraint's value.
-/

namespace Slp

open Classical

local macro "fl" l:(Lean.Parser.Tactic.location)? : tactic => `(tactic| simp only [List.map_cons, List.map_nil,
  List.foldr_cons, List.foldr_nil, List.zipWith_cons_cons, List.zipWith_nil_right, Fl.zero_def, Fl.one_def, Fl.fin_sub,
  Fl.abs_fin, Fl.fin_add, Fl.fin_mul, Fl.fin_lt, Fl.fin_le] $[$l]?)

/-- Minimise `−4x₀` subject to `1 − x₀² ≥ 0`. -/
noncomputable def discP : Nlp 1 0 1 where
  f x := .fin (-4) * x 0
  g _ := fun _ => .fin (-4)
  H _ _ z := fun _ _ => .fin 2 * z 0
  ce _ := fun _ => 0
  Ae _ := fun _ _ => 0
  ci x := fun _ => 1 - x 0 * x 0
  Ai x := fun _ _ => .fin (-2) * x 0
  scaling := .factors 1 (fun _ => 1) fun _ => 1

/-- The initial point. -/
noncomputable def discX : Vec 1 := fun _ => 0

/-- The linear solver makes no rounding errors and regularises nothing unless it must. -/
structure Env.Unregularised (env : Env) : Prop where
  factor : ∀ i, env.factor i = true
  solve : ∀ (i : ℕ) (S : LinSystem), S.Finite → (∃ p, S.Solved p 0 0) → S.Solved (env.solve i S) 0 0

section
variable (env : Env)

/-- The state before the loop. -/
noncomputable def discInit : IpmState 1 0 1 := ipmInit env discP discX (fun _ => 1) (fun _ => 0) (fun _ => 1) (.fin 0.1) 0

theorem disc_ci : discP.ci discX = fun _ => .fin 1 := by
  funext i; simp [discP, discX, Fl.zero_def, Fl.one_def]

theorem disc_ai : discP.Ai discX = fun _ _ => .fin 0 := by
  funext i j; simp [discP, discX, Fl.zero_def]

theorem disc_h : discP.H discX (fun _ => 0) (fun _ => 1) = fun _ _ => .fin 2 := by
  funext i j; simp [discP, Fl.one_def]

theorem disc_f : discP.f discX = .fin 0 := by
  simp [discP, discX, Fl.zero_def]

theorem disc_regular : (discInit env).Regular := by
  refine ⟨⟨fun _ => rfl, fun i => i.elim0, fun i => i.elim0, ?_, ?_, fun _ => rfl, fun i => i.elim0, fun _ => rfl⟩, ?_, rfl,
    fun _ => ⟨1, rfl, one_pos⟩⟩
  · show FMat.Finite (discP.Ai discX)
    rw [disc_ai]; exact fun _ _ => rfl
  · show Vec.Finite (discP.ci discX)
    rw [disc_ci]; exact fun _ => rfl
  · show FMat.Finite (discP.H discX (fun _ => 0) (fun _ => 1))
    rw [disc_h]; exact fun _ _ => rfl

theorem disc_lhs : FMat.real (kktLhsF env (discInit env).e (discInit env).s (discInit env).z) 0 0 = 2 := by
  rw [(kktLhsF_real (disc_regular env)).2]
  have h1 : FMat.real (discInit env).e.H = fun _ _ => 2 := by
    show FMat.real (discP.H discX (fun _ => 0) (fun _ => 1)) = _
    rw [disc_h]; rfl
  have h2 : FMat.real (discInit env).e.Ai = fun _ _ => 0 := by
    show FMat.real (discP.Ai discX) = _
    rw [disc_ai]; rfl
  rw [h1, h2]
  simp [kktDense, lowerSym, Fin.addCases]

variable {env}

theorem disc_solve (hE : env.Unregularised) (rhs : Vec (1 + 0)) (hr : rhs 0 = .fin 4) (i : ℕ) :
    env.solve i ((discInit env).system env rhs) 0 = .fin 2 := by
  have hl := disc_lhs env
  have h := hE.solve i ((discInit env).system env rhs) ⟨(kktLhsF_real (disc_regular env)).1, fun j => by
      obtain rfl : j = (0 : Fin 1) := Subsingleton.elim (α := Fin 1) j 0
      show (rhs 0).isFinite = true; rw [hr]; rfl⟩
    ⟨fun _ => .fin 2, fun _ => rfl, fun j => by
      obtain rfl : j = (0 : Fin 1) := Subsingleton.elim (α := Fin 1) j 0
      refine (Fin.sum_univ_one (fun l : Fin 1 => (FMat.real (kktLhsF env (discInit env).e (discInit env).s (discInit env).z) 0 l +
        if (0 : Fin 1) = l then (if ((0 : Fin 1) : ℕ) < 1 then (0 : ℝ) else -0) else 0) * 2)).trans ?_
      show _ = (rhs 0).toReal
      rw [hl, hr]
      norm_num [Fl.toReal]⟩
  obtain ⟨h1, h2⟩ := h
  have h3 := h2 (0 : Fin 1)
  have h4 := (Fin.sum_univ_one (fun l : Fin 1 => (FMat.real (kktLhsF env (discInit env).e (discInit env).s (discInit env).z) 0 l +
        if (0 : Fin 1) = l then (if ((0 : Fin 1) : ℕ) < 1 then (0 : ℝ) else -0) else 0) *
          (env.solve i ((discInit env).system env rhs) (l : ℕ)).toReal)).symm.trans h3
  have h5 : Vec.real rhs 0 = 4 := by show (rhs 0).toReal = 4; rw [hr]; rfl
  change _ = Vec.real rhs 0 at h4
  rw [h5, hl] at h4
  have h6 := Fl.finite_toReal (h1 (0 : Fin 1))
  change env.solve i ((discInit env).system env rhs) 0 = _ at h6
  rw [h6]
  congr 1
  simp at h4
  change (env.solve i ((discInit env).system env rhs) 0).toReal = 2
  linarith

/-- The step. -/
theorem disc_step (hE : env.Unregularised) (rhs : Vec (1 + 0)) (hr : rhs 0 = .fin 4) (cis : Vec 1) (hc : cis 0 = .fin 0) (i : ℕ) :
    (ipmComputeStep env (discInit env) rhs cis i).px = (fun _ => .fin 2) ∧
    (ipmComputeStep env (discInit env) rhs cis i).ps = (fun _ => .fin 0) ∧
    (ipmComputeStep env (discInit env) rhs cis i).pz = (fun _ => .fin (-0.9)) := by
  have hx : (ipmComputeStep env (discInit env) rhs cis i).px = fun _ => .fin 2 := by
    funext j
    obtain rfl := Subsingleton.elim j 0
    exact disc_solve hE rhs hr i
  have hs : (ipmComputeStep env (discInit env) rhs cis i).ps = fun _ => .fin 0 := by
    funext j
    obtain rfl := Subsingleton.elim j 0
    show cis 0 + mulVecF env (discP.Ai discX) (ipmComputeStep env (discInit env) rhs cis i).px 0 = _
    unfold mulVecF
    rw [hx, disc_ai, if_pos ⟨fun _ _ => rfl, fun _ => rfl⟩, hc]
    simp [FMat.real, Vec.real, Fl.toReal]
  refine ⟨hx, hs, ?_⟩
  funext j
  show Fl.fin 0.1 * (1 / 1) - 1 - 1 / 1 * 1 * (ipmComputeStep env (discInit env) rhs cis i).ps j = _
  rw [hs, Fl.one_def, Fl.fin_div one_ne_zero]
  fl
  norm_num

theorem disc_rhs : (discInit env).rhs env 0 = .fin 4 := by
  have h2 : FMat.real (discInit env).e.Ai = fun _ _ => 0 := by
    show FMat.real (discP.Ai discX) = _
    rw [disc_ai]; rfl
  refine (IpmState.rhs_eq (disc_regular env) (0 : Fin 1)).trans ?_
  congr 1
  rw [h2]
  show (-Vec.real (discInit env).e.g + _ + _ : Fin 1 → ℝ) 0 = 4
  simp only [Pi.add_apply, Pi.neg_apply]
  rw [show Vec.real (discInit env).e.g 0 = -4 from rfl]
  simp [Matrix.mulVec, dotProduct, Matrix.transpose]

theorem disc_socRhs (ce : Vec 0) (cis : Vec 1) (hc : cis.Finite) : (discInit env).socRhs env ce cis 0 = .fin 4 := by
  have h2 : FMat.real (discInit env).e.Ai = fun _ _ => 0 := by
    show FMat.real (discP.Ai discX) = _
    rw [disc_ai]; rfl
  refine (IpmState.socRhs_eq (disc_regular env) (fun i => i.elim0) hc (0 : Fin 1)).trans ?_
  congr 1
  rw [h2]
  show (-Vec.real (discInit env).e.g + _ + _ : Fin 1 → ℝ) 0 = 4
  simp only [Pi.add_apply, Pi.neg_apply]
  rw [show Vec.real (discInit env).e.g 0 = -4 from rfl]
  simp [Matrix.mulVec, dotProduct, Matrix.transpose]

theorem disc_boundary (τ p : ℝ) (h : -τ ≤ p) : boundaryF (fun _ => 1 : Vec 1) (fun _ => .fin p) (.fin τ) = .fin 1 := by
  unfold boundaryF
  show boundaryStepF (.fin τ) 1 (1, .fin p) = _
  refine if_neg ?_
  simp only [Fl.one_def, Fl.fin_mul, Fl.fin_neg, Fl.fin_lt]
  linarith

/-- The full step ends outside the disc. -/
theorem disc_trial {p : IpmStep 1 0 1} (hx : p.px = fun _ => .fin 2) (hs : p.ps = fun _ => .fin 0) (αz : Fl) (b : Prop) :
    let t := ipmTrial discP (discInit env) p (.fin 1) αz b
    (t.x = fun _ => .fin 2) ∧ t.f = .fin (-8) ∧ (t.ci = fun _ => .fin (-3)) ∧
      t.s = if b then (fun _ => .fin (-3)) else fun _ => .fin 1 := by
  have h1 : (fun i => (discInit env).x i + .fin 1 * p.px i) = fun _ => Fl.fin 2 := by
    funext i
    rw [hx]
    show (0 : Fl) + .fin 1 * .fin 2 = _
    rw [Fl.zero_def, Fl.fin_mul, Fl.fin_add]; norm_num
  have h2 : discP.ci (fun _ => .fin 2) = fun _ => .fin (-3) := by
    funext i
    show (1 : Fl) - .fin 2 * .fin 2 = _
    rw [Fl.one_def, Fl.fin_mul, Fl.fin_sub]; norm_num
  have h3 : (fun i => (discInit env).s i + .fin 1 * p.ps i) = fun _ => Fl.fin 1 := by
    funext i
    rw [hs]
    show (1 : Fl) + .fin 1 * .fin 0 = _
    rw [Fl.one_def, Fl.fin_mul, Fl.fin_add]; norm_num
  refine ⟨h1, ?_, ?_, ?_⟩
  · show discP.f (fun i => (discInit env).x i + .fin 1 * p.px i) = _
    rw [h1]
    show Fl.fin (-4) * .fin 2 = _
    rw [Fl.fin_mul]; norm_num
  · show discP.ci (fun i => (discInit env).x i + .fin 1 * p.px i) = _
    rw [h1, h2]
  · show (if b then discP.ci (fun i => (discInit env).x i + .fin 1 * p.px i) else fun i => (discInit env).s i + .fin 1 * p.ps i) = _
    rw [h1, h2, h3]

theorem disc_entry : (discInit env).entry = ⟨.fin 0, .fin 0⟩ := by
  show ipmEntry (discP.f discX) (fun _ => 1) (discP.ce discX) (discP.ci discX) (.fin 0.1) = _
  rw [disc_f, disc_ci]
  unfold ipmEntry FilterEntry.ipm norm1
  show FilterEntry.mk (Fl.fin 0 - .fin 0.1 * List.foldr _ _ (List.map _ [1]))
    (List.foldr _ _ (List.map _ []) + List.foldr _ _ (List.map _ (List.zipWith _ [Fl.fin 1] [1]))) = _
  fl
  rw [Fl.log_fin one_pos]
  fl
  norm_num

theorem disc_violation : violationF (discInit env).e.ce (discInit env).e.ci (discInit env).s = .fin 0 := by
  show violationF (discP.ce discX) (discP.ci discX) (fun _ => 1) = _
  rw [disc_ci]
  unfold violationF norm1
  show List.foldr _ _ (List.map _ []) + List.foldr _ _ (List.map _ [Fl.fin 1 - 1]) = _
  fl
  norm_num

/-- The plain trial point is rejected: its slack is negative. -/
theorem disc_reject {t : Trial 1 0 1} (h : t.s = fun _ => .fin (-3)) (F : Filter) (c : FilterEntry) (D α : Fl) :
    F.tryAdd c (t.entry (.fin 0.1)) D α = (F, false) := by
  unfold Filter.tryAdd
  refine if_pos (.inl ?_)
  unfold Trial.entry ipmEntry FilterEntry.ipm
  rw [h]
  show (t.f - .fin 0.1 * List.foldr _ _ (List.map _ [Fl.fin (-3)])).isFinite = false
  fl
  have : Fl.log (.fin (-3)) = .nan := by
    unfold Fl.log
    norm_num
  rw [this]
  cases t.f <;> rfl

/-- The corrected trial point is accepted. -/
theorem disc_accept {t : Trial 1 0 1} (hf : t.f = .fin (-8)) (hci : t.ci = fun _ => .fin (-3)) (hs : t.s = fun _ => .fin 1) :
    ((Filter.make (.fin 0)).tryAdd (discInit env).entry (t.entry (.fin 0.1)) (.fin (-8)) (.fin 1)).2 = true := by
  have he : t.entry (.fin 0.1) = ⟨.fin (-8), .fin 4⟩ := by
    unfold Trial.entry ipmEntry FilterEntry.ipm norm1
    rw [hf, hci, hs]
    show FilterEntry.mk (Fl.fin (-8) - .fin 0.1 * List.foldr _ _ (List.map _ [Fl.fin 1]))
      (List.foldr _ _ (List.map _ []) + List.foldr _ _ (List.map _ (List.zipWith _ [Fl.fin (-3)] [Fl.fin 1]))) = _
    fl
    rw [Fl.log_fin one_pos]
    fl
    norm_num
  rw [disc_entry, he]
  have harm : armijo ⟨.fin 0, .fin 0⟩ ⟨.fin (-8), .fin 4⟩ (.fin (-8)) (.fin 1) := by
    unfold armijo
    fl
    norm_num
  have hsw : switching ⟨.fin 0, .fin 0⟩ (.fin (-8)) (.fin 1) := by
    refine ⟨by rw [Fl.zero_def, Fl.fin_lt]; norm_num, ?_⟩
    show Fl.pow (.fin 0) 1.1 < Fl.fin 1 * Fl.pow (-Fl.fin (-8)) 2.3
    rw [Fl.pow_fin le_rfl, Real.zero_rpow (by norm_num), Fl.fin_neg, Fl.pow_fin (by norm_num), Fl.fin_mul, Fl.fin_lt]
    exact mul_pos one_pos (Real.rpow_pos_of_pos (by norm_num) _)
  unfold Filter.tryAdd Filter.finish
  rw [if_neg, if_pos, if_neg (not_not.2 harm), if_neg]
  · split <;> rfl
  · rintro ⟨x, hx, -⟩
    simp [Filter.make] at hx
  · refine ⟨?_, hsw⟩
    simp only [Filter.make]
    rw [Fl.one_def, Fl.max_fin]
    fl
    norm_num
  · rintro (h | h)
    · cases h
    · simp only [Filter.make] at h
      rw [Fl.one_def, Fl.max_fin, gt_iff_lt] at h
      fl at h
      norm_num at h

theorem disc_soc (hE : env.Unregularised) {t : Trial 1 0 1} (hci : t.ci = fun _ => .fin (-3)) (hs : t.s = fun _ => .fin (-3)) (i : ℕ) :
    ∃ b, (ipmSoc env discP (discInit env) (.fin (-8)) (.fin 1) (.fin 1) t (.make (.fin 0)) i).accepted = some (b, .fin 1, .fin 1) ∧
      b.x = fun _ => .fin 2 := by
  unfold ipmSoc
  have hv : violationF t.ce t.ci t.s = .fin 0 := by
    unfold violationF norm1
    rw [hci, hs]
    show List.foldr _ _ (List.map _ []) + List.foldr _ _ (List.map _ [Fl.fin (-3) - .fin (-3)]) = _
    fl
    norm_num
  rw [if_pos ⟨rfl, by rw [hv, disc_violation, ge_iff_le, Fl.fin_le]⟩]
  unfold socLoop
  simp only
  set cis : Vec 1 := fun j => Fl.fin 1 * ((discInit env).e.ci j - (discInit env).s j) + t.ci j - t.s j with hcis
  have hc0 : cis = fun _ => .fin 0 := by
    funext j
    show Fl.fin 1 * (discP.ci discX j - 1) + t.ci j - t.s j = _
    rw [disc_ci, hci, hs]
    fl
    norm_num
  set ce : Vec 0 := fun j => Fl.fin 1 * (discInit env).e.ce j + t.ce j
  obtain ⟨hx, hps, hpz⟩ := disc_step hE ((discInit env).socRhs env ce cis)
    (disc_socRhs ce cis (by rw [hc0]; exact fun _ => rfl)) cis (by rw [hc0]) i
  have b1 : boundaryF (discInit env).s (ipmComputeStep env (discInit env) ((discInit env).socRhs env ce cis) cis i).ps
      (discInit env).τ = .fin 1 := by
    rw [hps]; exact disc_boundary 0.99 0 (by norm_num)
  have b2 : boundaryF (discInit env).z (ipmComputeStep env (discInit env) ((discInit env).socRhs env ce cis) cis i).pz
      (discInit env).τ = .fin 1 := by
    rw [hpz]; exact disc_boundary 0.99 (-0.9) (by norm_num)
  rw [b1, b2]
  obtain ⟨t1, t2, t3, t4⟩ := disc_trial (env := env) hx hps (.fin 1) False
  rw [if_false] at t4
  have ha := disc_accept (env := env) t2 t3 t4
  change (Filter.tryAdd _ _ (Trial.entry _ (discInit env).μ) _ _).2 = _ at ha
  rw [if_pos ha]
  exact ⟨_, rfl, t1⟩

/-- The line search from the initial point: the full step is rejected, its correction accepted. -/
theorem disc_search (hE : env.Unregularised) (opts : SolverOptions) (ho : opts.feasibleIpm = true) {p : IpmStep 1 0 1}
    (hx : p.px = fun _ => .fin 2) (hps : p.ps = fun _ => .fin 0) (c i : ℕ) :
    ∃ ls b, ipmLineSearch env opts discP (discInit env) p (.fin 1) (.fin 1) (.fin (-8)) lineSearchRounds (.fin 1)
        (discInit env).filter c i = some ls ∧ ls.accepted = some (.correction, b, .fin 1) ∧ ls.α = .fin 1 ∧
      b.x = fun _ => .fin 2 := by
  have hm : feasibleMode opts (discInit env) := ⟨ho, fun i => by
    show discP.ci discX i > 0
    rw [disc_ci, gt_iff_lt, Fl.zero_def, Fl.fin_lt]
    norm_num⟩
  obtain ⟨t1, t2, t3, t4⟩ := disc_trial (env := env) hx hps (.fin 1) (feasibleMode opts (discInit env))
  rw [if_pos hm] at t4
  unfold lineSearchRounds ipmLineSearch
  simp only
  rw [if_neg (not_not.2 ⟨by rw [t2]; rfl, fun i => i.elim0, by rw [t3]; exact fun _ => rfl⟩)]
  have hF : (discInit env).filter = .make (.fin 0) := by
    show Filter.make (violationF (discInit env).e.ce (discInit env).e.ci (discInit env).s) = _
    rw [disc_violation]
  have hr := disc_reject t4 (.make (.fin 0)) (discInit env).entry (.fin (-8)) (.fin 1)
  change Filter.tryAdd _ _ (Trial.entry _ (discInit env).μ) _ _ = _ at hr
  rw [hF, hr]
  simp only [Bool.false_eq_true, if_false]
  obtain ⟨b, hb, hbx⟩ := disc_soc hE t3 t4 i
  rw [hb]
  exact ⟨_, b, rfl, rfl, rfl, hbx⟩

/-- The first iteration moves to 2. -/
theorem disc_move (hE : env.Unregularised) (opts : SolverOptions) (ho : opts.feasibleIpm = true) (restore : RestoreFn 1 0 1) (w : World) (E : Filter) :
    ∃ st' w', ipmMove env opts discP restore (discInit env) w E = some (.go st' w' E) ∧ (st'.x = fun _ => .fin 2) ∧
      st'.iterations = 0 ∧ st'.μ = .fin 0.1 ∧ st'.τ = .fin 0.99 := by
  unfold ipmMove
  rw [hE.factor, if_neg (by simp)]
  simp only
  set cis : Vec 1 := fun i => (discInit env).e.ci i - (discInit env).s i with hcis
  obtain ⟨hx, hps, hpz⟩ := disc_step hE ((discInit env).rhs env) disc_rhs cis (by
    show discP.ci discX 0 - 1 = _
    rw [disc_ci]
    fl
    norm_num) w.solves
  set p := ipmComputeStep env (discInit env) ((discInit env).rhs env) cis w.solves
  have b1 : boundaryF (discInit env).s p.ps (discInit env).τ = .fin 1 := by
    rw [hps]; exact disc_boundary 0.99 0 (by norm_num)
  have b2 : boundaryF (discInit env).z p.pz (discInit env).τ = .fin 1 := by
    rw [hpz]; exact disc_boundary 0.99 (-0.9) (by norm_num)
  have hD : ipmSlope env (discInit env) p = .fin (-8) := by
    unfold ipmSlope dotF
    rw [hx, hps]
    have h1 : Vec.Finite (fun i => 1 / (discInit env).s i) := fun i => by
      show ((1 : Fl) / 1).isFinite = true
      rw [Fl.one_def, Fl.fin_div one_ne_zero]
      rfl
    rw [if_pos ⟨(disc_regular env).error.1, fun _ => rfl⟩, if_pos ⟨h1, fun _ => rfl⟩]
    · show Fl.fin (∑ i : Fin 1, (-4) * 2) - .fin 0.1 * .fin (∑ i : Fin 1, _ * 0) = _
      simp
      norm_num
  rw [b1, b2, hD]
  obtain ⟨ls, b, h1, h2, h3, hbx⟩ := disc_search hE opts ho hx hps _ _
  rw [h1]
  simp only [Option.bind_some]
  rw [if_neg (by unfold alphaMin; rw [Fl.fin_lt]; norm_num), h2]
  exact ⟨_, _, rfl, hbx, rfl, rfl, rfl⟩

theorem disc_error : (discInit env).E0 = .fin 4 := by
  have hf := (disc_regular env).error
  refine (if_pos hf).trans ?_
  rw [unscaled_one (S := discP.scaling) (de := fun _ => 1) (di := fun _ => 1) rfl (fun i => i.elim0) fun _ => rfl]
  unfold kktInfIpm oneNorm infNorm
  simp [discP, discX, Nlp.eval, Vec.real, FMat.real, Matrix.mulVec, dotProduct, Fl.toReal, Fl.one_def,
    Fl.zero_def]

/-- Although the inequality constraint is satisfied at the guess, `feasible_ipm` is set and the linear solver is exact, the
solver ends at a point that violates it. -/
theorem feasible_ipm_leaves (hE : env.Unregularised) (opts : SolverOptions) (ho : opts.feasibleIpm = true) (ht : 0 < opts.tolerance)
    (ht' : opts.tolerance < 4) (hi : opts.maxIterations ≤ 1) :
    (∀ i, discP.ci discX i > 0) ∧
    ∃ res, interiorPoint env opts discP [] discX .start = some res ∧ (res.x = fun _ => .fin 2) ∧ ∀ i, discP.ci res.x i < 0 := by
  refine ⟨fun i => by rw [disc_ci, gt_iff_lt, Fl.zero_def, Fl.fin_lt]; norm_num, ?_⟩
  have hend : ∀ x : Vec 1, (x = fun _ => .fin 2) → ∀ i, discP.ci x i < 0 := by
    rintro _ rfl i
    show (1 : Fl) - .fin 2 * .fin 2 < 0
    rw [Fl.one_def, Fl.fin_mul, Fl.fin_sub, Fl.zero_def, Fl.fin_lt]
    norm_num
  unfold interiorPoint ipmRun
  simp only
  rw [if_neg (by norm_num), show Fl.fin (0.1 * discP.scaling.f) = .fin 0.1 by simp [discP, Scaling.f]]
  obtain ⟨r, hr⟩ : ∃ r, loopRounds opts 0 = r + 1 := ⟨loopRounds opts 0 - 1, by unfold loopRounds; omega⟩
  have hR := disc_regular env
  obtain ⟨hg, hAe, hce, hAi, hci, -, -, -⟩ := hR.error
  have hf : (discInit env).e.Finite :=
    ⟨by show (discP.f discX).isFinite = true; rw [disc_f]; rfl, hg, hR.hessian, hce, hAe, hci, hAi⟩
  change ∃ res, (if ¬ (discInit env).e.Finite then _ else ipmLoop _ _ _ _ _ _ _ _ _ (discInit env) _ _) = some res ∧ _
  rw [if_neg (not_not.2 hf), hr, ipmLoop]
  rw [if_neg (by rw [disc_error, not_not, gt_iff_lt, Fl.fin_lt]; exact ht'), if_neg line_not_eq,
    if_neg (line_not_stuck hAi hci fun i => by
      show 0 ≤ Fl.toReal (discP.ci discX i); rw [disc_ci]; norm_num [Fl.toReal]),
    if_neg (not_or.2 ⟨line_bounded (fun _ => rfl) fun i => by
        show |Fl.toReal (.fin 0)| ≤ 1; norm_num [Fl.toReal],
      line_bounded (fun _ => rfl) fun i => by show |Fl.toReal (.fin 1)| ≤ 1; norm_num [Fl.toReal]⟩)]
  simp only
  rw [if_neg (by simp [ipmNotify, runCallbacks, runRegistered, Extra.none])]
  obtain ⟨st', w', hm, hx, hit, hμ, hτ⟩ := disc_move hE opts ho (restoreIpm env opts discP [])
    (ipmNotify [] .none false (discInit env) { World.start with reads := World.start.reads + 1, vars := discP.vars discX } (.make 0)).1
    (ipmNotify [] .none false (discInit env) { World.start with reads := World.start.reads + 1, vars := discP.vars discX } (.make 0)).2.1
  rw [hm]
  obtain ⟨st3, h1, -, h3, -, -, -, -, h8, -⟩ := ipmFinish_correct (env := env) (P := discP) ht (by simp [discP, Scaling.f])
    (st := st') ⟨⟨0.1, hμ, by norm_num⟩, ⟨0.99, hτ, by norm_num, by norm_num⟩⟩
  simp only [Option.bind_some, Moved.elim]
  rw [h1]
  simp only [Option.bind_some]
  rw [if_pos (by rw [h8, hit]; simpa using hi)]
  refine ⟨_, rfl, ?_, ?_⟩
  · show st3.x = _
    rw [h3, hx]
  · exact hend _ (by show st3.x = _; rw [h3, hx])

end

/-- Such a linear solver. -/
noncomputable def rawEnv (clock : ℕ → ℝ) (junk : ℕ → List Fl → Fl) : Env where
  factor _ := true
  solve _ S := if h : ∃ p, S.Solved p 0 0 then h.choose else fun _ => 0
  estimate _ _ _ := 0
  clock := clock
  junk := junk

theorem rawEnv_unregularised (clock : ℕ → ℝ) (junk : ℕ → List Fl → Fl) : (rawEnv clock junk).Unregularised :=
  ⟨fun _ => rfl, fun _ S _ h => by simp only [rawEnv, dif_pos h]; exact h.choose_spec⟩

/-- A line search for `line_search_sound`: it accepts a corrected point, whose full step the filter rejects. -/
example (clock : ℕ → ℝ) (junk : ℕ → List Fl → Fl) (c : ℕ) (hc : c < 3) :
    let st := discInit (rawEnv clock junk)
    let t0 := ipmTrial discP st ⟨fun _ => .fin 2, fun _ => .fin 0, fun _ => 0, fun _ => .fin (-0.9)⟩ (.fin 1) (.fin 1) True
    (st.filter.tryAdd st.entry (t0.entry st.μ) (.fin (-8)) (.fin 1)).2 = false := by
  intro st t0
  have hE := rawEnv_unregularised clock junk
  obtain ⟨ls, b, h1, h2, -, -⟩ := disc_search (p := ⟨fun _ => .fin 2, fun _ => .fin 0, fun _ => 0, fun _ => .fin (-0.9)⟩)
    hE ⟨1e-8, 1, .pinf, true⟩ rfl rfl rfl c 0
  obtain ⟨l, ce, cis, w, hl, -, -, -, h3 | ⟨h3, -⟩, -⟩ := line_search_sound _ _ _ _ _ _ _ 1 _ c 0 zero_le_one ls h1 _ _ _ h2
  · have hm : SlacksFollow ⟨1e-8, 1, .pinf, true⟩ st := ⟨rfl, fun i => by
      show discP.ci discX i > 0
      rw [disc_ci, gt_iff_lt, Fl.zero_def, Fl.fin_lt]
      norm_num⟩
    rwa [eq_true hm] at h3
  · exact absurd h3.1 (by omega)

/-- The default options except for the number of iterations meet the hypotheses. -/
example (clock : ℕ → ℝ) (junk : ℕ → List Fl → Fl) :
    ∃ res, interiorPoint (rawEnv clock junk) ⟨1e-8, 1, .pinf, true⟩ discP [] discX .start = some res ∧
      ∀ i, discP.ci res.x i < 0 := by
  obtain ⟨-, res, h1, -, h2⟩ := feasible_ipm_leaves (rawEnv_unregularised clock junk) ⟨1e-8, 1, .pinf, true⟩ rfl (by norm_num)
    (by norm_num) le_rfl
  exact ⟨res, h1, h2⟩

end Slp
