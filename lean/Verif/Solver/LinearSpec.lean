import Verif.Solver.LoopModel

/-! Problems with linear constraints, for C83. -/

namespace Slp

open Matrix

variable {n m k : ℕ}

/-- The constraints `Av = b` and `Bv ≥ d`. -/
structure LinearConstraints (n m k : ℕ) where
  A : Matrix (Fin m) (Fin n) ℝ
  b : Fin m → ℝ
  B : Matrix (Fin k) (Fin n) ℝ
  d : Fin k → ℝ

/-- The constraints of `P` are those of `q`, with their derivatives. -/
structure Nlp.HasLinear (P : Nlp n m k) (q : LinearConstraints n m k) : Prop where
  ce : ∀ x, x.Finite → ∀ i, P.ce x i = .fin ((q.A *ᵥ x.real) i - q.b i)
  Ae : ∀ x, x.Finite → ∀ i j, P.Ae x i j = .fin (q.A i j)
  ci : ∀ x, x.Finite → ∀ i, P.ci x i = .fin ((q.B *ᵥ x.real) i - q.d i)
  Ai : ∀ x, x.Finite → ∀ i j, P.Ai x i j = .fin (q.B i j)

/-- By how much the equality constraints are violated. -/
def LinearConstraints.eqs (q : LinearConstraints n m k) (v : Fin n → ℝ) : Fin m → ℝ := q.A *ᵥ v - q.b

/-- By how much the inequality constraints differ from the slacks. -/
def LinearConstraints.ineqs (q : LinearConstraints n m k) (v : Fin n → ℝ) (s : Fin k → ℝ) : Fin k → ℝ := q.B *ᵥ v - q.d - s

/-- The total violation. -/
def LinearConstraints.violation (q : LinearConstraints n m k) (v : Fin n → ℝ) (s : Fin k → ℝ) : ℝ :=
  ∑ i, |q.eqs v i| + ∑ i, |q.ineqs v s i|

/-- The point and the slacks that were shown to the callbacks are real numbers. -/
def Snapshot.At (a : Snapshot) (v : Fin n → ℝ) (s : Fin k → ℝ) : Prop :=
  a.info.x = List.ofFn (fun j => Fl.fin (v j)) ∧ a.info.s = List.ofFn fun j => Fl.fin (s j)

/-- From one iterate to the next all equality constraints came closer by the same factor, and so did all inequality
constraints. -/
def LinearConstraints.Closer (q : LinearConstraints n m k) (v : Fin n → ℝ) (s : Fin k → ℝ) (v' : Fin n → ℝ) (s' : Fin k → ℝ) :
    Prop :=
  ∃ θ φ : ℝ, 0 ≤ θ ∧ θ < 1 ∧ 0 ≤ φ ∧ φ < 1 ∧ q.eqs v' = θ • q.eqs v ∧ q.ineqs v' s' = φ • q.ineqs v s

/-- What holds of consecutive iterates: the constraints came closer; or feasibility restoration reduced the violation by
more than a tenth; or a callback asked to stop during a feasibility restoration. -/
def LinearConstraints.Next (q : LinearConstraints n m k) (cbs : List Callback) (a b : Snapshot) : Prop :=
  ∃ v s v' s', a.At v s ∧ b.At v' s' ∧
    (q.Closer v s v' s' ∨ q.violation v' s' < 0.9 * q.violation v s ∨ ∃ cb ∈ cbs, ∃ calls info, cb calls info = true)

/-- Of two iterates the later one does not violate the constraints more. -/
def LinearConstraints.NotWorse (q : LinearConstraints n m k) (a b : Snapshot) : Prop :=
  ∃ v s v' s', a.At v s ∧ b.At v' s' ∧ q.violation v' s' ≤ q.violation v s

/-- The iterates `shown` to the callbacks and the result `(v, s)`, which is the last of them or follows it: the first one
is `(v₀, s₀)`, and consecutive ones satisfy `R`. -/
def LinkedFrom (R : Snapshot → Snapshot → Prop) (shown : List Snapshot) (v₀ : Fin n → ℝ) (s₀ : Fin k → ℝ) (v : Fin n → ℝ)
    (s : Fin k → ℝ) : Prop :=
  ∃ (l : List Snapshot) (first last : Snapshot), (shown = l ++ [last] ∨ shown = l) ∧ (l ++ [last]).IsChain R ∧
    (l ++ [last]).head? = some first ∧ first.At v₀ s₀ ∧ last.At v s

end Slp
