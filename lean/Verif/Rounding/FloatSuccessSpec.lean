import Verif.Autodiff.ApiProps
import Verif.Rounding.FloatSpec
import Verif.Rounding.KktRoundProps

/-!
C68, specification: problems whose functions are polynomials, and the numbers that automatic differentiation in
floating-point arithmetic returns for them.
-/

namespace Slp

/-- A problem as it is written: the decision variables, the cost and the constraints `ce = 0` and `ci ≥ 0`. -/
structure WrittenNlp (n m k : ℕ) where
  x : Fin n → ℕ
  f : Term
  ce : Fin m → Term
  ci : Fin k → Term

namespace WrittenNlp

variable {n m k : ℕ} (Q : WrittenNlp n m k)

/-- All functions are polynomials. -/
structure Poly : Prop where
  f : Q.f.Poly
  ce : ∀ i, (Q.ce i).Poly
  ci : ∀ i, (Q.ci i).Poly

/-- No function has more than `N` operations. -/
structure Size (N : ℕ) : Prop where
  f : Q.f.size ≤ N
  ce : ∀ i, (Q.ce i).size ≤ N
  ci : ∀ i, (Q.ci i).size ≤ N

/-- The optimality conditions hold up to `ε` at the values `env` of the variables. Everything is exact here. -/
def Optimal (ε : ℝ) (env : ℕ → ℝ) (S : Fin k → ℝ) (Y : Fin m → ℝ) (Z : Fin k → ℝ) : Prop :=
  KktWithin ε (fun j => (Term.pd (Q.x j) Q.f).eval env) (fun i j => (Term.pd (Q.x j) (Q.ce i)).eval env)
    (fun i => (Q.ce i).eval env) (fun i j => (Term.pd (Q.x j) (Q.ci i)).eval env) (fun i => (Q.ci i).eval env) S Y Z

/-- The terms of the optimality conditions are at most `M`, when nothing cancels. -/
structure Magnitude (M : ℝ) (env : ℕ → ℝ) (S : Fin k → ℝ) (Y : Fin m → ℝ) (Z : Fin k → ℝ) : Prop where
  stationary : ∀ j, (Term.pd (Q.x j) Q.f.majorant).eval (fun k => |env k|) +
    ∑ i, (Term.pd (Q.x j) (Q.ce i).majorant).eval (fun k => |env k|) * |Y i| +
    ∑ i, (Term.pd (Q.x j) (Q.ci i).majorant).eval (fun k => |env k|) * |Z i| ≤ M
  eq : ∀ i, (Q.ce i).majorant.eval (fun k => |env k|) ≤ M
  ineq : ∀ i, (Q.ci i).majorant.eval (fun k => |env k|) + |S i| ≤ M
  nonneg : 0 ≤ M

end WrittenNlp

namespace FloatMath

variable (A : FloatMath)

/-- After some program that builds polynomials, `value()` of an object that stands for `t` returns `v`, the variables
having the values `env`. -/
def ValueOf (env : ℕ → ℝ) (t : Term) (v : ℝ) : Prop :=
  ∃ (cs : List (Cmd ℝ)) (i : ℕ) (y : A.Num), Allowed cs ∧ (∀ c ∈ cs, c.Poly) ∧ (stateAfter cs).env = env ∧
    (stateAfter cs).terms[i]? = some t ∧ result ((cs ++ [Cmd.value i]).map (Cmd.float A)) = some (.num y) ∧ toReal y = v

/-- After some program that builds polynomials, `v` is the entry for `t` and the variable `k` in what `value()` of a
`Jacobian` or `Gradient` returns, the variables having the values `env`. -/
def PartialOf (env : ℕ → ℝ) (t : Term) (k : ℕ) (v : ℝ) : Prop :=
  ∃ (cs : List (Cmd ℝ)) (j : ℕ) (ts : List Term) (ks : List ℕ) (r c : ℕ) (mat : List (List A.Num)) (row : List A.Num)
    (y : A.Num), Allowed cs ∧ (∀ c ∈ cs, c.Poly) ∧ (stateAfter cs).env = env ∧
    (stateAfter cs).jacs[j]? = some (ts, ks) ∧ ts[r]? = some t ∧ ks[c]? = some k ∧
    result ((cs ++ [Cmd.jacValue j]).map (Cmd.float A)) = some (.mat mat) ∧ mat[r]? = some row ∧ row[c]? = some y ∧
    toReal y = v

/-- The values and derivatives in `P` are those that the library returns for the problem in floating-point arithmetic. -/
structure Evaluates {n m k : ℕ} (Q : WrittenNlp n m k) (env : ℕ → ℝ) (P : KktData n m k) : Prop where
  g : ∀ j, A.PartialOf env Q.f (Q.x j) (P.g j)
  Ae : ∀ i j, A.PartialOf env (Q.ce i) (Q.x j) (P.Ae i j)
  ce : ∀ i, A.ValueOf env (Q.ce i) (P.ce i)
  Ai : ∀ i j, A.PartialOf env (Q.ci i) (Q.x j) (P.Ai i j)
  ci : ∀ i, A.ValueOf env (Q.ci i) (P.ci i)

end FloatMath

end Slp
