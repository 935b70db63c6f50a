import Verif.Problem.AccuracyLemmas
import Mathlib.Analysis.Calculus.Deriv.Prod
import Mathlib.Analysis.SpecialFunctions.ExpDeriv

/-! C64: how far the states of an optimal control problem are from the trajectory of the system. The states satisfy the
constraints only up to the solver's tolerance, and the constraints are an approximation of the differential equation. -/

namespace Slp

open Set Ode

variable {ns ni : ℕ}

/-- `y` solves `y' = F(t, y, u, h)` for the `steps` steps of the point `v`, with constant inputs during each step, and is
bounded by `R`. -/
def Ocp.Held (o : Ocp ns ni) (F : RealDynamics ns ni) (v : ℕ → ℝ) (steps : ℕ) (R : ℝ) (y : ℝ → Fin ns → ℝ) : Prop :=
  ∀ k < steps, ∀ t ∈ Icc (o.time v k) (o.time v (k + 1)), ‖y t‖ ≤ R ∧
    HasDerivWithinAt y (F t (y t) (o.input v k) (o.timestep v k)) (Icc (o.time v k) (o.time v (k + 1))) t

/-- `y` solves `y' = F(t, y, u, h)` for the `steps` steps of the point `v`, with inputs interpolated linearly during each
step, and is bounded by `R`. -/
def Ocp.Interpolated (o : Ocp ns ni) (F : RealDynamics ns ni) (v : ℕ → ℝ) (steps : ℕ) (R : ℝ) (y : ℝ → Fin ns → ℝ) :
    Prop :=
  ∀ k < steps, ∀ t ∈ Icc (o.time v k) (o.time v (k + 1)), ‖y t‖ ≤ R ∧
    HasDerivWithinAt y (F t (y t) (o.input v k + ((t - o.time v k) / o.timestep v k) • (o.input v (k + 1) - o.input v k))
      (o.timestep v k)) (Icc (o.time v k) (o.time v (k + 1))) t

theorem transcription_residual {ty : Term → Ty} {dt : ℝ} {steps : ℕ} {f : Dynamics ns ni} {F : RealDynamics ns ni}
    (hf : Denotes f F) {dyn : DynamicsType} {tm : TimestepMethod} {s : Store} {o : Ocp ns ni}
    (ho : Ocp.new ty ns ni dt steps f dyn tm .directTranscription s = some o) (v : ℕ → ℝ) {ε : ℝ} (hε : 0 ≤ ε) :
    (∀ e ∈ o.problem.eqs, |e.term.eval v| ≤ ε) ↔ ∀ k < steps,
      ‖o.state v (k + 1) - nextState F dyn (o.time v k) (o.state v k) (o.input v k) (o.timestep v k)‖ ≤ ε := by
  obtain ⟨q, hq, hp⟩ : ∃ q : Problem, q.eqs = [] ∧ o.problem = transcribe ty f o.X o.U o.DT dyn steps q := by
    cases ho
    exact ⟨_, (no_constraints dt steps tm s ni).2.2 ns, rfl⟩
  have key := (loop_correct (DT := o.DT) (step := transcribeStep ty f o.X o.U o.DT dyn)
    (es := fun i t => eqConstraints ty (o.X (i + 1)) (advance f dyn (o.X i) (o.U i) t (o.DT i)))
    (fun _ _ => rfl) q v steps).2.2
  unfold transcribe at hp
  simp only [← hp, hq] at key
  rw [key.2 (fun e => |e.term.eval v| ≤ ε) (fun k => ‖o.state v (k + 1) -
    nextState F dyn (o.time v k) (o.state v k) (o.input v k) (o.timestep v k)‖ ≤ ε) fun i _ t ht => by
      rw [eqConstraints_small, advance_correct hf, ht, pi_norm_le_iff_of_nonneg hε]; rfl]
  simp

theorem collocation_residual {ty : Term → Ty} {dt : ℝ} {steps : ℕ} {f : Dynamics ns ni} {F : RealDynamics ns ni}
    (hf : Denotes f F) {tm : TimestepMethod} {s : Store} {o : Ocp ns ni}
    (ho : Ocp.new ty ns ni dt steps f .explicitOde tm .directCollocation s = some o) (v : ℕ → ℝ) {ε : ℝ} (hε : 0 ≤ ε)
    (hh : ∀ k < steps, o.timestep v k ≠ 0) :
    (∀ e ∈ o.problem.eqs, |e.term.eval v| ≤ ε) ↔ ∀ k < steps,
      ‖residual F (o.time v k) (o.timestep v k) (o.state v k) (o.state v (k + 1)) (o.input v k) (o.input v (k + 1))‖ ≤
        ε := by
  obtain ⟨q, hq, hp⟩ : ∃ q : Problem, q.eqs = [] ∧ o.problem = collocate ty f o.X o.U o.DT steps q := by
    cases ho
    exact ⟨_, (no_constraints dt steps tm s ni).2.2 ns, rfl⟩
  have key := (loop_correct (DT := o.DT) (step := collocateStep ty f o.X o.U o.DT)
    (es := fun i t => eqConstraints ty (collocationSides f o.X o.U o.DT i t).1 (collocationSides f o.X o.U o.DT i t).2)
    (fun _ _ => rfl) q v steps).2.2
  unfold collocate at hp
  simp only [← hp, hq] at key
  rw [key.2 (fun e => |e.term.eval v| ≤ ε) (fun k => ‖residual F (o.time v k) (o.timestep v k) (o.state v k)
    (o.state v (k + 1)) (o.input v k) (o.input v (k + 1))‖ ≤ ε) fun i hi t ht => ?_]
  · simp
  have ht' : o.time v i = t.eval v := ht.symm
  have hf' : ∀ t x u dt v, values (f t x u dt) v = F (t.eval v) (values x v) (values u v) (dt.eval v) := hf
  have e : values (collocationSides f o.X o.U o.DT i t).1 v - values (collocationSides f o.X o.U o.DT i t).2 v =
      residual F (o.time v i) (o.timestep v i) (o.state v i) (o.state v (i + 1)) (o.input v i) (o.input v (i + 1)) := by
    have hn : (o.DT i).eval v ≠ 0 := hh i hi
    unfold collocationSides Ode.residual Ocp.state Ocp.input Ocp.timestep
    rw [ht']
    simp only [values_add, values_sub, values_mul, hf', Term.eval, BinOp.eval]
    congr 1
    · funext r
      simp only [Pi.sub_apply, Pi.smul_apply, Pi.add_apply, smul_eq_mul]
      field_simp
      ring
    · congr 1
      · ring
      · funext r
        simp only [Pi.sub_apply, Pi.smul_apply, Pi.add_apply, smul_eq_mul]
        ring
      · norm_num
  rw [eqConstraints_small, ← e, pi_norm_le_iff_of_nonneg hε]
  rfl

/-- C64: direct transcription is accurate of fourth order. There are constants that depend only on the dynamics and a
bound `R`, such that, for all problems and all points at which the constraints hold up to `ε` and the timesteps are at
most `h`, every state is within `C * (initial error + h⁴ + steps * ε)` of the solution of the differential equation. -/
theorem transcription_accurate {f : Dynamics ns ni} {F : RealDynamics ns ni} (hf : Denotes f F) (hF : Smooth F) (R : ℝ) :
    ∃ C > 0, ∃ h₀ > 0, ∀ (ty : Term → Ty) (dt : ℝ) (steps : ℕ) (tm : TimestepMethod) (s : Store) (o : Ocp ns ni),
      Ocp.new ty ns ni dt steps f .explicitOde tm .directTranscription s = some o →
      ∀ (v : ℕ → ℝ) (y : ℝ → Fin ns → ℝ) (h ε : ℝ), 0 ≤ ε → (∀ e ∈ o.problem.eqs, |e.term.eval v| ≤ ε) →
        (∀ k < steps, 0 ≤ o.timestep v k ∧ o.timestep v k ≤ h) → h ≤ h₀ → o.time v steps ≤ R →
        (∀ k < steps, ‖o.input v k‖ ≤ R) → o.Held F v steps R y →
        ‖o.state v 0 - y 0‖ + h ^ 4 + steps * ε ≤ h₀ →
        ∀ k ≤ steps, ‖o.state v k - y (o.time v k)‖ ≤ C * (‖o.state v 0 - y 0‖ + h ^ 4 + steps * ε) := by
  obtain ⟨C, hC, e, he, H⟩ := rk_accurate hF R
  refine ⟨C, hC, e, he, ?_⟩
  intro ty dt steps tm s o ho v y h ε hε hfeas hh hle hT hu hy hsmall
  exact H steps (o.timestep v) (o.state v) (o.input v) y h ε hε hh hle hT hu hy
    ((transcription_residual hf ho v hε).1 hfeas) hsmall

/-- C64: so is single shooting, whatever the values of the variables. -/
theorem shooting_accurate {f : Dynamics ns ni} {F : RealDynamics ns ni} (hf : Denotes f F) (hF : Smooth F) (R : ℝ) :
    ∃ C > 0, ∃ h₀ > 0, ∀ (ty : Term → Ty) (dt : ℝ) (steps : ℕ) (tm : TimestepMethod) (s : Store) (o : Ocp ns ni),
      Ocp.new ty ns ni dt steps f .explicitOde tm .singleShooting s = some o →
      ∀ (v : ℕ → ℝ) (y : ℝ → Fin ns → ℝ) (h : ℝ),
        (∀ k < steps, 0 ≤ o.timestep v k ∧ o.timestep v k ≤ h) → h ≤ h₀ → o.time v steps ≤ R →
        (∀ k < steps, ‖o.input v k‖ ≤ R) → o.Held F v steps R y → ‖o.state v 0 - y 0‖ + h ^ 4 ≤ h₀ →
        ∀ k ≤ steps, ‖o.state v k - y (o.time v k)‖ ≤ C * (‖o.state v 0 - y 0‖ + h ^ 4) := by
  obtain ⟨C, hC, e, he, H⟩ := rk_accurate hF R
  refine ⟨C, hC, e, he, ?_⟩
  intro ty dt steps tm s o ho v y h hh hle hT hu hy hsmall
  obtain ⟨o', ho', -, -, -, hs⟩ := shooting_correct ty dt steps hf .explicitOde tm s
  obtain rfl : o' = o := Option.some_injective _ (ho'.symm.trans ho)
  have := H steps (o'.timestep v) (o'.state v) (o'.input v) y h 0 le_rfl hh hle hT hu hy
    (fun k hk => by rw [hs v k hk]; exact (congrArg norm (sub_self _)).trans_le norm_zero.le) (by simpa using hsmall)
  simp only [mul_zero, add_zero] at this
  exact this

/-- C64: and so is direct collocation, for inputs interpolated linearly, whose slopes are bounded. Here, violations of the
constraints do not add up, as the constraints are about derivatives. -/
theorem collocation_accurate {f : Dynamics ns ni} {F : RealDynamics ns ni} (hf : Denotes f F) (hF : Smooth F) (R : ℝ) :
    ∃ C > 0, ∃ h₀ > 0, ∀ (ty : Term → Ty) (dt : ℝ) (steps : ℕ) (tm : TimestepMethod) (s : Store) (o : Ocp ns ni),
      Ocp.new ty ns ni dt steps f .explicitOde tm .directCollocation s = some o →
      ∀ (v : ℕ → ℝ) (y : ℝ → Fin ns → ℝ) (h ε : ℝ), 0 ≤ ε → (∀ e ∈ o.problem.eqs, |e.term.eval v| ≤ ε) →
        (∀ k < steps, 0 < o.timestep v k ∧ o.timestep v k ≤ h) → h ≤ h₀ → o.time v steps ≤ R →
        (∀ k ≤ steps, ‖o.input v k‖ ≤ R ∧ ‖o.state v k‖ ≤ R) →
        (∀ k < steps, ‖o.input v (k + 1) - o.input v k‖ ≤ R * o.timestep v k) → o.Interpolated F v steps R y →
        ‖o.state v 0 - y 0‖ + h ^ 4 + ε ≤ h₀ →
        ∀ k ≤ steps, ‖o.state v k - y (o.time v k)‖ ≤ C * (‖o.state v 0 - y 0‖ + h ^ 4 + ε) := by
  obtain ⟨C, hC, e, he, H⟩ := simpson_accurate hF R
  refine ⟨C, hC, e, he, ?_⟩
  intro ty dt steps tm s o ho v y h ε hε hfeas hh hle hT hb hslew hy hsmall
  exact H steps (o.timestep v) (o.state v) (o.input v) y h ε hε hh hle hT hb hslew hy
    ((collocation_residual hf ho v hε fun k hk => (hh k hk).1.ne').1 hfeas) hsmall

/-! ### A case -/

/-- Exponential decay, `x' = -x`. -/
def decay : Dynamics 1 0 := fun _ x _ _ => fun _ => .un .neg (x 0)

theorem decay_denotes : Denotes decay fun _ x _ _ => -x := by
  intro t x u dt v
  funext r
  fin_cases r
  rfl

theorem decay_smooth : Smooth (fun _ x _ _ => -x : RealDynamics 1 0) := by
  unfold Smooth
  fun_prop

/-- The feasible points of a problem for exponential decay from 1 for one second, with `steps` steps of the same length,
approach the exponential function as the fourth power of the length of the steps. -/
example (ty : Term → Ty) (s : Store) : ∃ C > 0, ∃ n₀ : ℕ, ∀ (n : ℕ) (o : Ocp 1 0), n₀ ≤ n →
    Ocp.new ty 1 0 (1 / n) n decay .explicitOde .fixed .directTranscription s = some o →
    ∀ v, o.problem.Feasible v → o.state v 0 0 = 1 → ∀ k ≤ n,
      |o.state v k 0 - Real.exp (-(k / n))| ≤ C * (1 / n) ^ 4 := by
  obtain ⟨C, hC, h₀, hh₀, H⟩ := transcription_accurate decay_denotes decay_smooth 1
  refine ⟨C, hC, ⌈1 / Min.min h₀ 1⌉₊ + 1, ?_⟩
  intro n o hn ho v hv h1 k hk
  have hm : 0 < Min.min h₀ 1 := lt_min hh₀ one_pos
  have hn1 : 1 / Min.min h₀ 1 ≤ n := (Nat.le_ceil _).trans (by exact_mod_cast (by omega : ⌈1 / Min.min h₀ 1⌉₊ ≤ n))
  have hpos : (0 : ℝ) < n := by exact_mod_cast (by omega : 0 < n)
  have hle : 1 / (n : ℝ) ≤ Min.min h₀ 1 := by rwa [one_div_le hpos hm]
  have hd : ∀ k ≤ n, o.timestep v k = 1 / n := fun k hk => by
    have : o.DT k = .lit (1 / n) := (ocp_variables ho).timesteps k hk
    unfold Ocp.timestep
    rw [this]
    rfl
  have htime : ∀ k ≤ n, o.time v k = k / n := fun k hk => by
    have : o.time v k = ∑ i ∈ Finset.range k, o.timestep v i := rfl
    rw [this, Finset.sum_congr rfl fun i hi => hd i (by have := Finset.mem_range.1 hi; omega)]
    simp [div_eq_mul_inv]
  have h0 : o.state v 0 - (fun _ => Real.exp (-0)) = 0 := by
    funext r
    fin_cases r
    simp [h1]
  have hp : (1 / n : ℝ) ^ 4 ≤ 1 / n := by
    have h01 : (1 / n : ℝ) ≤ 1 := hle.trans (min_le_right _ _)
    simpa using pow_le_pow_of_le_one (by positivity) h01 (show 1 ≤ 4 by omega)
  have := H ty _ n .fixed s o ho v (fun t _ => Real.exp (-t)) (1 / n) 0 le_rfl (fun e he => by
    rw [hv.1 e he]; simp) (fun k hk => ⟨by rw [hd k hk.le]; positivity, (hd k hk.le).le⟩) (hle.trans (min_le_left _ _))
    (by rw [htime n le_rfl, div_self hpos.ne']) (fun k _ => by
      rw [Subsingleton.elim (o.input v k) 0, norm_zero]; exact zero_le_one)
    (fun k hk t ht => ⟨?_, ?_⟩) ?_ k hk
  · rw [h0, htime k hk] at this
    simp only [norm_zero, zero_add, mul_zero, add_zero] at this
    exact (norm_le_pi_norm _ (0 : Fin 1)).trans this
  · have h2 : 0 ≤ o.time v k := by rw [htime k hk.le]; positivity
    rw [pi_norm_le_iff_of_nonneg zero_le_one]
    intro _
    rw [Real.norm_of_nonneg (Real.exp_pos _).le, Real.exp_le_one_iff]
    linarith [ht.1]
  · refine hasDerivWithinAt_pi.2 fun _ => ?_
    have := (Real.hasDerivAt_exp (-t)).comp t (hasDerivAt_neg t)
    exact (this.congr_deriv (by simp)).hasDerivWithinAt
  · rw [h0]
    simpa using hp.trans (hle.trans (min_le_left _ _))

end Slp
