import Verif.Solver.FilterModel
import Verif.Solver.KktModel
import Verif.Solver.StepModel

/-!
What the three solver loops (`newton.hpp`, `sqp.hpp`, `interior_point.hpp`) share: vectors of floating-point
numbers, the problem's functions, options, exit statuses, callbacks, and the parts of the world a run depends on.

The linear solver, the clock and the callbacks may behave arbitrarily. So may a norm or product one of whose
operands is not finite (`Env.junk`); on finite operands it is computed over exact reals. The linear solver is given
the system it is to solve; a linear solver that does so exactly is one of the possible behaviours.
-/

namespace Slp

open Classical

/-! ### Vectors and matrices -/

/-- A dense vector (`interior_point.hpp:135-137`). -/
abbrev Vec (n : ℕ) := Fin n → Fl

/-- A matrix. Structural zeros of the sparse matrices are zeros (`interior_point.hpp:135-137`). -/
abbrev FMat (m n : ℕ) := Fin m → Fin n → Fl

/-- `v.allFinite()` (`interior_point.hpp:283-284,405-406,532-533`). -/
def Vec.Finite {n : ℕ} (v : Vec n) : Prop := ∀ i, (v i).isFinite = true

/-- `all_finite(A)` (`all_finite.hpp:15-28`). -/
def FMat.Finite {m n : ℕ} (A : FMat m n) : Prop := ∀ i j, (A i j).isFinite = true

/-- The real vector a finite vector denotes (modelling only, of the types of `interior_point.hpp:135-137`). -/
noncomputable def Vec.real {n : ℕ} (v : Vec n) : Fin n → ℝ := fun i => (v i).toReal

/-- The real matrix a finite matrix denotes (modelling only, of the types of `interior_point.hpp:135-137`). -/
noncomputable def FMat.real {m n : ℕ} (A : FMat m n) : Matrix (Fin m) (Fin n) ℝ := fun i j => (A i j).toReal

/-- The elements of a matrix (modelling only, of the types of `interior_point.hpp:135-137`). -/
def FMat.toList {m n : ℕ} (A : FMat m n) : List Fl := (List.ofFn fun i => List.ofFn (A i)).flatten

/-! ### The problem, as seen by a solver -/

/-- `InteriorPointMatrixCallbacks` (`interior_point_matrix_callbacks.hpp`); `SQPMatrixCallbacks` if `k = 0`,
`NewtonMatrixCallbacks` if also `m = 0`. `H` takes `x`, `y` and `z` (`interior_point_matrix_callbacks.hpp:18-252`,
`sqp_matrix_callbacks.hpp:18`, `newton_matrix_callbacks.hpp:18`). -/
structure Nlp (n m k : ℕ) where
  f : Vec n → Fl
  g : Vec n → Vec n
  H : Vec n → Vec m → Vec k → FMat n n
  ce : Vec n → Vec m
  Ae : Vec n → FMat m n
  ci : Vec n → Vec k
  Ai : Vec n → FMat k n
  scaling : Scaling m k
  /-- What the user's decision variables hold after these functions were evaluated at a point: each of them begins with
  `x_ad.set_value(x)` (`problem.hpp:387-395,483-505,623-657`). -/
  vars : Vec n → List Fl := fun x => List.ofFn x

/-- The current values of the problem's functions, which the solvers keep in local variables
(`interior_point.hpp:245-251`). -/
structure Eval (n m k : ℕ) where
  f : Fl
  g : Vec n
  H : FMat n n
  ce : Vec m
  Ae : FMat m n
  ci : Vec k
  Ai : FMat k n

/-- Evaluation of every function at a point (`interior_point.hpp:245-251`). -/
def Nlp.eval {n m k : ℕ} (P : Nlp n m k) (x : Vec n) (y : Vec m) (z : Vec k) : Eval n m k :=
  ⟨P.f x, P.g x, P.H x y z, P.ce x, P.Ae x, P.ci x, P.Ai x⟩

/-- The check of the initial guess (`newton.hpp:128`, `sqp.hpp:217-218`, `interior_point.hpp:283-284`). -/
def Eval.Finite {n m k : ℕ} (e : Eval n m k) : Prop :=
  e.f.isFinite = true ∧ e.g.Finite ∧ e.H.Finite ∧ e.ce.Finite ∧ e.Ae.Finite ∧ e.ci.Finite ∧ e.Ai.Finite

/-- `ExitStatus` (`exit_status.hpp:13-44`). -/
inductive ExitStatus where
  | success
  | callbackRequestedStop
  | tooFewDofs
  | locallyInfeasible
  | globallyInfeasible
  | factorizationFailed
  | lineSearchFailed
  | feasibilityRestorationFailed
  | nonfiniteInitialGuess
  | divergingIterates
  | maxIterationsExceeded
  | timeout
  deriving DecidableEq

/-- `Options` (`options.hpp:13-35`) without `diagnostics`. -/
structure SolverOptions where
  tolerance : ℝ
  maxIterations : ℤ
  timeout : Fl
  feasibleIpm : Bool

/-! ### Callbacks and the environment -/

/-- The first members of `IterationInfo` (`iteration_info.hpp:15-28`): the iterate. -/
structure Iterate where
  iteration : ℕ
  x : List Fl
  s : List Fl
  y : List Fl
  z : List Fl

/-- What a callback is shown, `IterationInfo` (`iteration_info.hpp:14-41`): the iterate and the derivatives, with the
matrices as lists of rows. -/
structure Info extends Iterate where
  g : List Fl
  H : List (List Fl)
  Ae : List (List Fl)
  Ai : List (List Fl)

/-- The rows of a matrix (`iteration_info.hpp:33-40`: sparse matrices, of which all elements can be read). -/
def FMat.rows {m n : ℕ} (A : FMat m n) : List (List Fl) := List.ofFn fun i => List.ofFn (A i)

/-- A call of a registered callback: its position in the list, what it was shown and what it returned
(`interior_point.hpp:414-418`). -/
structure Call where
  index : ℕ
  info : Info
  result : Bool

/-- A registered callback. Its result may depend on all calls so far (`interior_point.hpp:414-418`). -/
abbrev Callback := List Call → Info → Bool

/-- A point at which the callbacks are called, with values that callbacks do not see. `inner` tells whether the
solver is a feasibility restoration (`interior_point.hpp:382-418`). -/
structure Snapshot where
  inner : Bool
  info : Info
  μ : Fl
  τ : Fl

/-- A linear system with `n` rows for decision variables and `m` rows for equality constraints, as it is given to
`RegularizedLDLT::compute()` and `solve()`. Only the lower triangle of the matrix is read; `lhs` is the symmetric
matrix with that triangle (`interior_point.hpp:437-448,463,473`). -/
structure LinSystem where
  n : ℕ
  m : ℕ
  lhs : FMat (n + m) (n + m)
  rhs : Vec (n + m)

/-- The arguments of `lagrange_multiplier_estimate()` (`lagrange_multiplier_estimate.hpp:33-35,55-59`); `k = 0` without
inequality constraints. -/
structure EstimateArgs where
  n : ℕ
  m : ℕ
  k : ℕ
  g : Vec n
  Ae : FMat m n
  Ai : FMat k n
  s : Vec k
  μ : Fl

/-- The behaviour of the world (`interior_point.hpp:463,473,860`, `lagrange_multiplier_estimate.hpp:42-44,107-108`). -/
structure Env where
  /-- Whether a factorisation succeeds. -/
  factor : ℕ → Bool
  /-- The elements of the linear solver's answers. -/
  solve : ℕ → LinSystem → ℕ → Fl
  /-- The elements of the solutions of the linear systems in `lagrange_multiplier_estimate()`. -/
  estimate : ℕ → EstimateArgs → ℕ → Fl
  /-- The readings of the clock. -/
  clock : ℕ → ℝ
  /-- Results of numeric functions when an operand is not finite. -/
  junk : ℕ → List Fl → Fl

/-- What has happened so far: the callbacks' calls, the points they were called at, the times at which
iterations that did not reach the iteration limit ended (with `inner` flags), and how often the environment was
used. `vars` is what the user's decision variables hold, as of the last evaluation at an iterate: evaluations at trial
points are always followed by one before callbacks run. `seen` has their values each time callbacks were called
(modelling only: what was observed so far through the calls of `interior_point.hpp:245-251,414-418,463-473,860`). -/
structure World where
  calls : List Call
  trace : List Snapshot
  ends : List (Bool × ℝ)
  factors : ℕ
  solves : ℕ
  estimates : ℕ
  reads : ℕ
  vars : List Fl
  seen : List (List Fl)

/-- Before a call of a solver (modelling only: what was observed so far through the calls of
`interior_point.hpp:245-251,414-418,463-473,860`). -/
def World.start : World := ⟨[], [], [], 0, 0, 0, 0, [], []⟩

/-- A function that runs after the registered callbacks (`interior_point.hpp:738-756`, `sqp.hpp:521-535`). It
may change a filter. -/
abbrev Extra := Filter → Info → Filter × Bool

/-- No further callback (the solvers when started by `problem.hpp:400-679`). -/
def Extra.none : Extra := fun F _ => (F, false)

/-- The registered callbacks in order until one returns true (`newton.hpp:174-178`, `sqp.hpp:281-285`,
`interior_point.hpp:414-418`), `i` being the position of the first. -/
def runRegistered (info : Info) : ℕ → List Callback → List Call → List Call × Bool
  | _, [], calls => (calls, false)
  | i, c :: cs, calls =>
    if c calls info then (calls ++ [⟨i, info, true⟩], true)
    else runRegistered info (i + 1) cs (calls ++ [⟨i, info, false⟩])

/-- All callbacks (`interior_point.hpp:414-418`). -/
def runCallbacks (cbs : List Callback) (extra : Extra) (info : Info) (calls : List Call) (F : Filter) :
    List Call × Filter × Bool :=
  let r := runRegistered info 0 cbs calls
  if r.2 then (r.1, F, true) else (r.1, extra F info)

/-! ### Numeric functions -/

variable {n m k : ℕ}

/-- `v.lpNorm<Eigen::Infinity>()` (`interior_point.hpp:405-406`). -/
noncomputable def infNormF (env : Env) (v : Vec n) : Fl :=
  if v.Finite then .fin (infNorm v.real) else env.junk 0 (List.ofFn v)

/-- `A * v` (`interior_point.hpp:446-447,479`). -/
noncomputable def mulVecF (env : Env) (A : FMat m n) (v : Vec n) : Vec m := fun i =>
  if A.Finite ∧ v.Finite then .fin (∑ j, A.real i j * v.real j)
  else env.junk 1 (.fin i :: A.toList ++ List.ofFn v)

/-- `u.transpose() * v`, `u.dot(v)` (`interior_point.hpp:509`). -/
noncomputable def dotF (env : Env) (u v : Vec n) : Fl :=
  if u.Finite ∧ v.Finite then .fin (∑ j, u.real j * v.real j) else env.junk 2 (List.ofFn u ++ List.ofFn v)

/-- The data of a KKT error (modelling only, of the values read by `interior_point.hpp:361-362,815-816`). -/
def Eval.toList (e : Eval n m k) (s : Vec k) (y : Vec m) (z : Vec k) : List Fl :=
  List.ofFn e.g ++ e.Ae.toList ++ List.ofFn e.ce ++ e.Ai.toList ++ List.ofFn e.ci ++ List.ofFn s ++
    List.ofFn y ++ List.ofFn z

/-- The data of a KKT error is finite (modelling only, of the values read by `interior_point.hpp:361-362,815-816`). -/
def Eval.ErrorFinite (e : Eval n m k) (s : Vec k) (y : Vec m) (z : Vec k) : Prop :=
  e.g.Finite ∧ e.Ae.Finite ∧ e.ce.Finite ∧ e.Ai.Finite ∧ e.ci.Finite ∧ s.Finite ∧ y.Finite ∧ z.Finite

/-- `unscaled_kkt_error<INF_NORM_SCALED>(scaling, g, A_e, c_e, A_i, c_i, s, y, z, 0)`
(`interior_point.hpp:361-362,815-816`). -/
noncomputable def errZeroIpm (env : Env) (S : Scaling m k) (e : Eval n m k) (s : Vec k) (y : Vec m) (z : Vec k) :
    Fl :=
  if e.ErrorFinite s y z then
    .fin (unscaledInfIpm S e.g.real e.Ae.real e.ce.real e.Ai.real e.ci.real s.real y.real z.real 0)
  else env.junk 3 (e.toList s y z)

/-- `kkt_error<INF_NORM_SCALED>(g, A_e, c_e, A_i, c_i, s, y, z, μ)` (`interior_point.hpp:825-830`). -/
noncomputable def errInfIpm (env : Env) (e : Eval n m k) (s : Vec k) (y : Vec m) (z : Vec k) (μ : Fl) : Fl :=
  if e.ErrorFinite s y z ∧ μ.isFinite = true then
    .fin (kktInfIpm e.g.real e.Ae.real e.ce.real e.Ai.real e.ci.real s.real y.real z.real μ.toReal)
  else env.junk 4 (μ :: e.toList s y z)

/-- `kkt_error<ONE_NORM>(g, A_e, c_e, A_i, c_i, s, y, z, μ)` (`interior_point.hpp:692-693,704-706`). -/
noncomputable def errOneIpm (env : Env) (e : Eval n m k) (s : Vec k) (y : Vec m) (z : Vec k) (μ : Fl) : Fl :=
  if e.ErrorFinite s y z ∧ μ.isFinite = true then
    .fin (kktOneIpm e.g.real e.Ae.real e.ce.real e.Ai.real e.ci.real s.real y.real z.real μ.toReal)
  else env.junk 5 (μ :: e.toList s y z)

/-- The symmetric matrix with a given lower triangle (`interior_point.hpp:431-433`). -/
def lowerSym (H : Matrix (Fin n) (Fin n) ℝ) : Matrix (Fin n) (Fin n) ℝ := fun i j => if j ≤ i then H i j else H j i

/-- The matrix `[H + AᵢᵀΣAᵢ, Aₑᵀ; Aₑ, 0]`; how it is assembled from sparse blocks is modelled by `kktLhs`
(`interior_point.hpp:428-440`). -/
def kktDense (H : Matrix (Fin n) (Fin n) ℝ) (σ : Fin k → ℝ) (Ae : Matrix (Fin m) (Fin n) ℝ)
    (Ai : Matrix (Fin k) (Fin n) ℝ) : Matrix (Fin (n + m)) (Fin (n + m)) ℝ := fun i j =>
  Fin.addCases
    (fun a => Fin.addCases (fun b => lowerSym H a b + ∑ l, Ai l a * σ l * Ai l b) (fun b => Ae b a) j)
    (fun a => Fin.addCases (fun b => Ae a b) (fun _ => 0) j) i

/-- The inverses of the slacks are finite (`interior_point.hpp:426,447`). -/
def Vec.NonZero (s : Vec k) : Prop := ∀ i, s i ≠ 0

/-- `lhs` (`interior_point.hpp:423-440`, `sqp.hpp:289-300`). -/
noncomputable def kktLhsF (env : Env) (e : Eval n m k) (s z : Vec k) : FMat (n + m) (n + m) := fun i j =>
  if e.H.Finite ∧ e.Ae.Finite ∧ e.Ai.Finite ∧ s.Finite ∧ z.Finite ∧ s.NonZero then
    .fin (kktDense e.H.real (sigma s.real z.real) e.Ae.real e.Ai.real i j)
  else env.junk 13 (.fin i :: .fin j :: e.H.toList ++ e.toList s (fun _ => 0) z)

/-- `rhs` of the Newton step (`interior_point.hpp:442-448`). -/
noncomputable def ipmRhsF (env : Env) (e : Eval n m k) (s : Vec k) (y : Vec m) (z : Vec k) (μ : Fl) : Vec (n + m) :=
  fun i =>
    if e.ErrorFinite s y z ∧ μ.isFinite = true ∧ s.NonZero then
      .fin (kktRhs e.g.real e.Ae.real e.ce.real e.Ai.real e.ci.real s.real y.real z.real μ.toReal i)
    else env.junk 14 (.fin i :: μ :: e.toList s y z)

/-- `rhs` of a second-order correction (`interior_point.hpp:613-616`) with the corrected constraint values. -/
noncomputable def socRhsF (env : Env) (e : Eval n m k) (s : Vec k) (y : Vec m) (z : Vec k) (μ : Fl) (ce : Vec m)
    (cis : Vec k) : Vec (n + m) := fun i =>
  if e.ErrorFinite s y z ∧ μ.isFinite = true ∧ s.NonZero ∧ ce.Finite ∧ cis.Finite then
    .fin (socRhs e.g.real e.Ae.real ce.real e.Ai.real cis.real s.real y.real z.real μ.toReal i)
  else env.junk 15 (.fin i :: μ :: e.toList s y z ++ List.ofFn ce ++ List.ofFn cis)

/-- The Euclidean norm `v.norm()` of a real vector (`is_locally_infeasible.hpp:17-60`). -/
noncomputable def twoNorm (v : Fin n → ℝ) : ℝ := Real.sqrt (∑ i, v i ^ 2)

/-- `is_equality_locally_infeasible(A_e, c_e)` (`is_locally_infeasible.hpp:17-29`); where an operand is not
finite, the result is arbitrary. -/
def eqInfeasible (env : Env) (A : FMat m n) (c : Vec m) : Prop :=
  if A.Finite ∧ c.Finite then
    m > 0 ∧ twoNorm (fun j => ∑ i, A.real i j * c.real i) < 1e-6 ∧ twoNorm c.real > 1e-2
  else env.junk 6 (A.toList ++ List.ofFn c) = 1

/-- `is_inequality_locally_infeasible(A_i, c_i)` (`is_locally_infeasible.hpp:36-60`); where an operand is not
finite, the result is arbitrary. -/
def ineqInfeasible (env : Env) (A : FMat k n) (c : Vec k) : Prop :=
  if A.Finite ∧ c.Finite then
    k > 0 ∧ twoNorm (fun j => ∑ i, A.real i j * min (c.real i) 0) < 1e-6 ∧
      twoNorm (fun i => min (c.real i) 0) > 1e-6
  else env.junk 7 (A.toList ++ List.ofFn c) = 1

/-- `v.lpNorm<Eigen::Infinity>() > 1e10 || !v.allFinite()` (`newton.hpp:166`, `sqp.hpp:273`,
`interior_point.hpp:405-406`). -/
def diverging (env : Env) (v : Vec n) : Prop := infNormF env v > .fin 1e10 ∨ ¬ v.Finite

/-- One round of the loop (`fraction_to_the_boundary_rule.hpp:37-39`), with any step. -/
noncomputable def boundaryStepF (τ α : Fl) (xp : Fl × Fl) : Fl :=
  if α * xp.2 < -τ * xp.1 then -τ / xp.2 * xp.1 else α

/-- `fraction_to_the_boundary_rule(x, p, τ)` (`fraction_to_the_boundary_rule.hpp:20-43`), with any step. -/
noncomputable def boundaryF (x p : Vec n) (τ : Fl) : Fl :=
  (List.ofFn fun i => (x i, p i)).foldl (boundaryStepF τ) 1

/-- `std::clamp(v, lo, hi)` (`interior_point.hpp:800`, `lagrange_multiplier_estimate.hpp:127`). -/
noncomputable def clampF (v lo hi : Fl) : Fl := if v < lo then lo else if hi < v then hi else v

/-- `std::clamp(z, 1/κ_Σ μ/s, κ_Σ μ/s)` with `κ_Σ = 1e10` (`interior_point.hpp:797-801`,
`lagrange_multiplier_estimate.hpp:125-128`). -/
noncomputable def clampDualF (μ s z : Fl) : Fl := clampF z (1 / .fin 1e10 * μ / s) (.fin 1e10 * μ / s)

end Slp
