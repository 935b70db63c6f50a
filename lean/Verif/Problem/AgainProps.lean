import Verif.Problem.StationaryProps

/-! C91: solving again after SUCCESS, without constraints. -/

namespace Slp

open Classical

/-- C91: let a problem have no constraints and let `solve()` return SUCCESS. A second call, with options whose tolerance is
not smaller, returns SUCCESS too, makes no iteration, calls no callback and changes no value. This does not depend on the
linear solver, on the clock or on the other options. -/
theorem solve_again {p : Problem} {s : Store} (hok : p.Ok s) (he : p.eqs = []) (hi : p.ineqs = []) {ad : Autodiff} {env : Env}
    {opts : SolverOptions} (htol : 0 < opts.tolerance) {spy : Bool} {s' : Store} {o : p.Outcome}
    (h : p.solve ad env opts spy s = some (o, s')) (hs : o.status = .success) (hfin : AllFinite s'.val)
    (hsm : p.objective.term.Smooth (reals s'.val)) (env' : Env) {opts' : SolverOptions} (ht : opts.tolerance ≤ opts'.tolerance)
    (spy' : Bool) :
    ∃ o', p.solve ad env' opts' spy' s' = some (o', s') ∧ o'.status = .success ∧ o'.iterations = 0 ∧ o'.calls = [] := by
  by_cases hc : p.Constant
  · refine ⟨.noop, ?_, rfl, rfl, rfl⟩
    unfold Problem.solve
    rw [if_pos (p.constant_iff.2 hc)]
  have hall : p.Smooth (reals s'.val) := ⟨hsm, by simp [he], by simp [hi]⟩
  have ho : o.Finite := by
    rcases solve_cases h with ⟨-, rfl, -⟩ | ⟨-, -, -, r, -, rfl, -⟩ | ⟨-, h2, -⟩ | ⟨-, h2, -⟩ | ⟨-, h2, -⟩
    · trivial
    · trivial
    · exact absurd he h2
    · exact absurd hi h2
    · exact absurd hi h2
  obtain ⟨ys, zs, ss, hk, -⟩ := solve_success hok h htol hs hc hfin ho hall
  refine stationary_guess ad env' (htol.le.trans ht) spy' he hi hc hfin hsm fun j hj => ?_
  have h1 := hk.stationary j hj
  have hy : ys = [] := List.length_eq_zero_iff.1 (by rw [hk.multipliers.1, he]; rfl)
  have hz : zs = [] := List.length_eq_zero_iff.1 (by rw [hk.multipliers.2, hi]; rfl)
  rw [hy, hz] at h1
  simp only [List.map_nil, List.zipWith_nil_left, List.sum_nil, List.length_nil, Nat.cast_zero, add_zero, sub_zero, zero_div] at h1
  rw [max_eq_left zero_le_one, mul_one] at h1
  exact h1.trans ht

/-- The value ¼ of the variable. -/
noncomputable def quarterStore : Store := ⟨1, fun _ => .fin (1/4)⟩

/-- Minimising `-x₀²` from ¼ with the tolerance 1, where the derivative is -½. -/
example (ad : Autodiff) (env env' : Env) : ∃ o, hillUser.solve ad env ⟨1, 5000, .pinf, false⟩ false quarterStore =
      some (o, quarterStore) ∧ o.status = .success ∧
    ∃ o', hillUser.solve ad env' ⟨1, 10, .pinf, false⟩ true quarterStore = some (o', quarterStore) ∧
      o'.status = .success ∧ o'.iterations = 0 ∧ o'.calls = [] := by
  have hsm : hillUser.objective.term.Smooth (reals quarterStore.val) := by
    simp [hillUser, Problem.objective, hillExpr, Term.Smooth, BinOp.Smooth, UnOp.Smooth]
  obtain ⟨o, h1, h2, -⟩ := stationary_guess (p := hillUser) (s := quarterStore) ad env
    (opts := ⟨1, 5000, .pinf, false⟩) zero_le_one false rfl rfl
    (fun h => by
      have := h.1 hillExpr rfl
      simp [hillExpr, Ty.rank] at this)
    (fun _ => rfl) hsm
    (fun j hj => by
      obtain rfl : j = 0 := by simpa [hillUser] using hj
      have : (fun a => hillExpr.term.eval (Function.update (reals quarterStore.val) 0 a)) = fun a => -(a * a) := by
        funext a
        simp [hillExpr, Term.eval, BinOp.eval, UnOp.eval]
      show |deriv (fun a => hillExpr.term.eval (Function.update (reals quarterStore.val) 0 a)) (1/4)| ≤ 1
      rw [this]
      have h : HasDerivAt (fun a : ℝ => -(a * a)) (-(1 * (1/4) + 1/4 * 1)) (1/4) :=
        ((hasDerivAt_id' (1/4 : ℝ)).mul (hasDerivAt_id' (1/4 : ℝ))).neg
      rw [h.deriv, abs_le]
      constructor <;> norm_num)
  have hok : hillUser.Ok quarterStore := ⟨by simp [hillUser], by simp [hillUser, quarterStore]⟩
  have ht : (0 : ℝ) < (⟨1, 5000, .pinf, false⟩ : SolverOptions).tolerance := zero_lt_one
  have ht' : (⟨1, 5000, .pinf, false⟩ : SolverOptions).tolerance ≤ (⟨1, 10, .pinf, false⟩ : SolverOptions).tolerance := le_refl 1
  have h3 := solve_again (p := hillUser) hok rfl rfl ht h1 h2 (fun _ => rfl) hsm env' ht' true
  exact ⟨o, h1, h2, h3⟩

end Slp
