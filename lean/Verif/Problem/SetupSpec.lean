import Verif.Problem.SetupModel
import Verif.Problem.CallbackProps

/-! What the matrix callbacks that `solve()` makes of the autodiff API must return (C47). -/

namespace Slp

section

variable {n m k : ℕ}

/-- The point at which a callback is called. -/
def Request.point : Request n m k → Fin n → ℝ
  | .f x | .g x | .H x _ _ | .Hc x _ _ | .ce x | .Ae x | .ci x | .Ai x => x

end

section

variable (vars : List ℕ) (f : Term) (eqs ineqs : List Term)

/-- The lower triangle of a matrix of second derivatives. -/
noncomputable def lowerHessian (L : (ℕ → ℝ) → ℝ) (r : ℕ → ℝ) : List (List ℝ) :=
  List.ofFn fun i : Fin vars.length => List.ofFn fun j : Fin vars.length =>
    if j ≤ i then pderiv vars[j] (pderiv vars[i] L) r else 0

/-- What a callback must return, if the variables have the values `r`. -/
noncomputable def Request.expected (S : Factors eqs.length ineqs.length) (r : ℕ → ℝ) :
    Request vars.length eqs.length ineqs.length → List (List ℝ)
  | .f _ => [[S.f * f.eval r]]
  | .g _ => [List.ofFn fun j : Fin vars.length => S.f * pderiv vars[j] f.eval r]
  | .H _ y z => lowerHessian vars (lagrangian S.f f eqs ineqs (fun i => S.ce i * y i) fun i => S.ci i * z i) r
  | .Hc _ y z => lowerHessian vars (lagrangian 0 f eqs ineqs (fun i => S.ce i * y i) fun i => S.ci i * z i) r
  | .ce _ => List.ofFn fun i : Fin eqs.length => [S.ce i * eqs[i].eval r]
  | .Ae _ => List.ofFn fun i : Fin eqs.length => List.ofFn fun j : Fin vars.length =>
      S.ce i * pderiv vars[j] eqs[i].eval r
  | .ci _ => List.ofFn fun i : Fin ineqs.length => [S.ci i * ineqs[i].eval r]
  | .Ai _ => List.ofFn fun i : Fin ineqs.length => List.ofFn fun j : Fin vars.length =>
      S.ci i * pderiv vars[j] ineqs[i].eval r

/-- The expressions that a callback evaluates are defined at `r`; those that it differentiates are smooth there. -/
def Request.Defined {n m k : ℕ} (r : ℕ → ℝ) : Request n m k → Prop
  | .f _ => f.Dom r
  | .g _ => f.Smooth r
  | .H _ _ _ | .Hc _ _ _ => AllSmooth f eqs ineqs r
  | .ce _ => ∀ t ∈ eqs, t.Dom r
  | .Ae _ => ∀ t ∈ eqs, t.Smooth r
  | .ci _ => ∀ t ∈ ineqs, t.Dom r
  | .Ai _ => ∀ t ∈ ineqs, t.Smooth r

/-- The callbacks that a solver has: Newton's method has none for constraints, the SQP solver none for inequality
constraints. -/
def Request.Available {n m k : ℕ} : Request n m k → Prop
  | .Hc _ _ _ | .Ae _ => ¬ (eqs = [] ∧ ineqs = [])
  | .Ai _ => ineqs ≠ []
  | _ => True

end

end Slp
