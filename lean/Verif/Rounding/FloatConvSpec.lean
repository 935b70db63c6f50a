import Verif.Rounding.FloatSpec

/-!
Specification of autodiff in floating-point arithmetic, for all expressions: how far results may be from the exact
values and derivatives. Nothing here refers to nodes, graphs or caches.
-/

namespace Slp

namespace FloatMath

/-- The results of a call are within `ε` of the exact ones. -/
def ReturnsWithin (A : FloatMath) (ε : ℝ) (c : Cmd ℝ) (σ : Spec) (o : Obs A.Num) : Prop :=
  match c with
  | .value i => ∃ x, o = .num x ∧ ∀ t, σ.terms[i]? = some t → t.Smooth σ.env → |toReal x - t.eval σ.env| ≤ ε
  | .type _ => ∃ ty, o = .ty ty
  | .jacValue j => ∃ m : List (List A.Num), o = .mat m ∧ ∀ ts ks, σ.jacs[j]? = some (ts, ks) →
      MatIs ts.length ks.length (fun r c x => ∀ t k, ts[r]? = some t → ks[c]? = some k → t.Smooth σ.env →
        |x - (Term.pd k t).eval σ.env| ≤ ε) (m.map fun row => row.map toReal)
  | _ => o = .unit

/-- All results along a sequence of calls are within `ε` of the exact ones. -/
def ReturnsAllWithin (A : FloatMath) (ε : ℝ) : List (Cmd ℝ) → Spec → List (Obs A.Num) → Prop
  | [], _, os => os = []
  | c :: cs, σ, o :: os => A.ReturnsWithin ε c σ o ∧ ReturnsAllWithin A ε cs (σ.next c) os
  | _ :: _, _, [] => False

end FloatMath

end Slp
