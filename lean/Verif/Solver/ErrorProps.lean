import Verif.Solver.NewtonModel
import Verif.Solver.LoopStepProps
import Verif.Solver.KktProps

/-!
C26, C27: the errors the solvers compare. Written out with sums over the constraints, independently of the
model's norms and matrix products.
-/

namespace Slp

open Classical

variable {n m k : ℕ}

/-- The gradient of the Lagrangian in component `j`, written with sums. -/
noncomputable def lagrangianGradient (e : Eval n m k) (y : Vec m) (z : Vec k) (j : Fin n) : ℝ :=
  (e.g j).toReal - ∑ i, (y i).toReal * (e.Ae i j).toReal - ∑ i, (z i).toReal * (e.Ai i j).toReal

/-- C27: the error that must decrease for a step to be accepted as "decreasing the KKT error" is the sum of the
absolute residuals of the perturbed first-order conditions. -/
theorem error_one_ipm (env : Env) {e : Eval n m k} {s : Vec k} {y : Vec m} {z : Vec k} {μ : Fl}
    (h : e.ErrorFinite s y z) (hμ : μ.isFinite = true) :
    errOneIpm env e s y z μ = .fin
      ((∑ j, |lagrangianGradient e y z j|) + (∑ i, |(s i).toReal * (z i).toReal - μ.toReal|) +
        (∑ i, |(e.ce i).toReal|) + ∑ i, |(e.ci i).toReal - (s i).toReal|) := by
  unfold errOneIpm
  rw [if_pos ⟨h, hμ⟩]
  congr 1
  simp only [kktOneIpm, oneNorm, Pi.sub_apply, transpose_mulVec_eq]
  rfl

/-- C27 with equality constraints only. -/
theorem error_one_sqp (env : Env) {e : Eval n m 0} {y : Vec m} (hg : e.g.Finite) (hA : e.Ae.Finite)
    (hc : e.ce.Finite) (hy : y.Finite) :
    errOneSqp env e y = .fin ((∑ j, |lagrangianGradient e y Fin.elim0 j|) + ∑ i, |(e.ce i).toReal|) := by
  unfold errOneSqp
  rw [if_pos ⟨hg, hA, hc, hy⟩]
  congr 1
  simp only [kktOneSqp, oneNorm, Pi.sub_apply, transpose_mulVec_eq, lagrangianGradient,
    Finset.univ_eq_empty, Finset.sum_empty, sub_zero]
  rfl

/-- C27 without constraints. -/
theorem error_one_newton (env : Env) {g : Vec n} (hg : g.Finite) :
    errOneNewton env g = .fin (∑ j, |(g j).toReal|) := by
  unfold errOneNewton
  rw [if_pos hg]
  rfl

/-- C26: the error of the barrier problem is at most `t` exactly when every residual is at most `t`, the
gradient's and the complementarity's after division by factors of at least one that grow with the average
multiplier. -/
theorem error_barrier (env : Env) {e : Eval n m k} {s : Vec k} {y : Vec m} {z : Vec k} {μ : Fl}
    (h : e.ErrorFinite s y z) (hμ : μ.isFinite = true) (t : ℝ) (ht : 0 ≤ t) :
    errInfIpm env e s y z μ ≤ .fin t ↔
      (∀ j, |lagrangianGradient e y z j| /
        (max 100 (((∑ i, |(y i).toReal|) + ∑ i, |(z i).toReal|) / (m + k)) / 100) ≤ t) ∧
      (∀ i, |(s i).toReal * (z i).toReal - μ.toReal| / (max 100 ((∑ i, |(z i).toReal|) / k) / 100) ≤ t) ∧
      (∀ i, |(e.ce i).toReal| ≤ t) ∧ ∀ i, |(e.ci i).toReal - (s i).toReal| ≤ t := by
  unfold errInfIpm
  rw [if_pos ⟨h, hμ⟩, Fl.fin_le]
  have sd : (0:ℝ) < max 100 (((∑ i, |(y i).toReal|) + ∑ i, |(z i).toReal|) / (m + k)) / 100 :=
    div_pos (lt_of_lt_of_le (by norm_num) (le_max_left _ _)) (by norm_num)
  have sc : (0:ℝ) < max 100 ((∑ i, |(z i).toReal|) / k) / 100 :=
    div_pos (lt_of_lt_of_le (by norm_num) (le_max_left _ _)) (by norm_num)
  have key : ∀ (N : ℕ) (v : Fin N → ℝ) (d : ℝ), 0 < d → (infNorm v / d ≤ t ↔ ∀ j, |v j| / d ≤ t) := by
    intro N v d hd
    rw [div_le_iff₀ hd, infNorm_le]
    simp only [div_le_iff₀ hd]
    exact ⟨fun h => h.2, fun h => ⟨mul_nonneg ht hd.le, h⟩⟩
  simp only [kktInfIpm, max_le_iff]
  constructor
  · rintro ⟨⟨⟨h1, h2⟩, h3⟩, h4⟩
    refine ⟨?_, ?_, (infNorm_le.mp h3).2, (infNorm_le.mp h4).2⟩
    · have h1' := (key _ _ _ (by simp [oneNorm, Vec.real])).mp h1
      intro j
      have := h1' j
      simp only [oneNorm, Pi.sub_apply, transpose_mulVec_eq, Nat.cast_add] at this
      exact this
    · have h2' := (key _ _ _ (by simp [oneNorm, Vec.real])).mp h2
      intro i
      exact h2' i
  · rintro ⟨h1, h2, h3, h4⟩
    refine ⟨⟨⟨?_, ?_⟩, infNorm_le.mpr ⟨ht, h3⟩⟩, infNorm_le.mpr ⟨ht, h4⟩⟩
    · refine (key _ _ _ (by simp [oneNorm, Vec.real])).mpr ?_
      intro j
      simp only [oneNorm, Pi.sub_apply, transpose_mulVec_eq, Nat.cast_add]
      exact h1 j
    · exact (key _ _ _ (by simp [oneNorm, Vec.real])).mpr h2

/-- The values of `f(x) = 3x`, `x - 1 = 0`, `8 - 2x ≥ 0` at 2; their errors at the slack 1 and the multipliers 1 and
2 for the barrier parameter 1 are 6, 1, 1 and 3. -/
noncomputable def errorDemo : Eval 1 1 1 :=
  ⟨.fin 6, fun _ => .fin 3, fun _ _ => .fin 0, fun _ => .fin 1, fun _ _ => .fin 1, fun _ => .fin 4,
    fun _ _ => .fin (-2)⟩

example (env : Env) :
    errOneIpm env errorDemo (fun _ => .fin 1) (fun _ => .fin 1) (fun _ => .fin 2) (.fin 1) = .fin 11 := by
  rw [error_one_ipm env ⟨fun _ => rfl, fun _ _ => rfl, fun _ => rfl, fun _ _ => rfl, fun _ => rfl, fun _ => rfl,
    fun _ => rfl, fun _ => rfl⟩ rfl]
  simp only [lagrangianGradient, errorDemo, Fl.toReal, Finset.univ_unique, Finset.sum_singleton]
  norm_num [abs_of_pos, abs_of_neg]

end Slp
