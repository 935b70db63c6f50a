import Verif.Autodiff.ApiSpec
import Verif.Rounding.FloatModel

/-!
Specification of autodiff in floating-point arithmetic: how far the results of programs that build polynomials may
be from the exact values and derivatives. Nothing here refers to nodes, graphs or caches.
-/

namespace Slp

namespace Term

/-- Built from variables and numbers with `+`, `-` and `*`. -/
def Poly : Term → Prop
  | lit _ => True
  | var _ => True
  | un f t => (f = .pos ∨ f = .neg) ∧ Poly t
  | bin f s t => (f = .add ∨ f = .sub ∨ f = .mul) ∧ Poly s ∧ Poly t
  | pd _ _ => False

/-- Number of operations written in a term. -/
def size : Term → ℕ
  | lit _ => 0
  | var _ => 0
  | un _ t => size t + 1
  | bin _ s t => size s + size t + 1
  | pd _ t => size t

/-- The term with its numbers replaced by their absolute values and every minus sign by a plus sign. At the absolute
values of the variables, it bounds the term and all its intermediate results. -/
noncomputable def majorant : Term → Term
  | lit c => lit |c|
  | var k => var k
  | un _ t => majorant t
  | bin .sub s t => bin .add (majorant s) (majorant t)
  | bin f s t => bin f (majorant s) (majorant t)
  | pd k t => pd k (majorant t)

end Term

/-- The same call in floating-point arithmetic. -/
def Cmd.float (A : FloatMath) (c : Cmd ℝ) : Cmd A.Num := c

/-- Calls that declare variables, build polynomials, assign, set and get values, and take Jacobians or gradients. -/
def Cmd.Poly : Cmd ℝ → Prop
  | .decl | .lit _ | .copy _ | .assign _ _ | .assignLit _ _ | .setValue _ _ | .value _ | .type _ | .jac _ _
  | .jacValue _ => True
  | .un f _ => f = .pos ∨ f = .neg
  | .bin f _ _ => f = .add ∨ f = .sub ∨ f = .mul
  | _ => False

/-- Calls other than those of `Jacobian::get` and of Hessians, which build expressions for derivatives. -/
def Cmd.FirstOrder : Cmd ℝ → Prop
  | .jacGet _ | .hess _ _ _ | .hessValue _ | .hessGet _ => False
  | _ => True

namespace FloatMath

/-- Bound on the relative error of a product of `k` roundings, `(1 - u)⁻ᵏ - 1`. -/
noncomputable def error (A : FloatMath) (k : ℕ) : ℝ := ((1 - A.u) ^ k)⁻¹ - 1

/-- How accurate the results of a call must be. -/
def Returns (A : FloatMath) (c : Cmd ℝ) (σ : Spec) (o : Obs A.Num) : Prop :=
  match c with
  | .value i => ∃ x, o = .num x ∧ ∀ t, σ.terms[i]? = some t →
      |toReal x - t.eval σ.env| ≤ A.error t.size * t.majorant.eval (fun k => |σ.env k|)
  | .type _ => ∃ ty, o = .ty ty
  | .jacValue j => ∃ m : List (List A.Num), o = .mat m ∧ ∀ ts ks, σ.jacs[j]? = some (ts, ks) →
      MatIs ts.length ks.length (fun r c x => ∀ t k, ts[r]? = some t → ks[c]? = some k →
        |x - (Term.pd k t).eval σ.env| ≤ A.error (4 * t.size + 1) * (Term.pd k t.majorant).eval (fun k => |σ.env k|))
        (m.map fun row => row.map toReal)
  | _ => o = .unit

/-- All results along a sequence of calls are accurate. -/
def ReturnsAll (A : FloatMath) : List (Cmd ℝ) → Spec → List (Obs A.Num) → Prop
  | [], _, os => os = []
  | c :: cs, σ, o :: os => A.Returns c σ o ∧ ReturnsAll A cs (σ.next c) os
  | _ :: _, _, [] => False

end FloatMath

end Slp
