import Verif.Autodiff.ApiModel
import Mathlib.Data.List.OfFn
import Mathlib.Data.Real.Basic

/-!
Model of what `Problem::solve()` (`optimization/problem.hpp:281-679`) asks of the autodiff system: the objects that it
sets up, what the matrix callbacks compute with them, and the assignment of the solution. All of it is expressed by calls
of the modelled API (`Verif.Autodiff.ApiModel`), on the table of objects that the user's program has left.
-/

namespace Slp

/-- The problem, as positions in the table of objects: `m_decision_variables`, `m_f`, `m_equality_constraints` and
`m_inequality_constraints` (`problem.hpp:733-744`). -/
structure SolveArgs where
  x : List ℕ
  f : Option ℕ
  eqs : List ℕ
  ineqs : List ℕ

/-- The sizes of the tables when `solve()` is called (`problem.hpp:315-318,408-409,517-520`). -/
structure TableSizes where
  objs : ℕ
  jacs : ℕ
  hess : ℕ

/-- `x_ad` (`problem.hpp:315`). -/
def SolveArgs.xAd (a : SolveArgs) (N : TableSizes) : List ℕ := List.range' N.objs a.x.length

/-- `f` (`problem.hpp:318`). -/
def SolveArgs.fAd (a : SolveArgs) (N : TableSizes) : ℕ := N.objs + a.x.length

/-- `c_e_ad` (`problem.hpp:408`, `517`). -/
def SolveArgs.ceAd (a : SolveArgs) (N : TableSizes) : List ℕ := List.range' (N.objs + a.x.length + 1) a.eqs.length

/-- `c_i_ad` (`problem.hpp:518`). -/
def SolveArgs.ciAd (a : SolveArgs) (N : TableSizes) : List ℕ :=
  List.range' (N.objs + a.x.length + 1 + a.eqs.length) a.ineqs.length

/-- `y_ad` (`problem.hpp:409`, `519`). -/
def SolveArgs.yAd (a : SolveArgs) (N : TableSizes) : List ℕ :=
  List.range' (N.objs + a.x.length + 1 + a.eqs.length + a.ineqs.length) a.eqs.length

/-- `z_ad` (`problem.hpp:520`). -/
def SolveArgs.zAd (a : SolveArgs) (N : TableSizes) : List ℕ :=
  List.range' (N.objs + a.x.length + 1 + a.eqs.length + a.ineqs.length + a.eqs.length) a.ineqs.length

/-- The number of objects after these (the tables before `problem.hpp:315`). -/
def SolveArgs.base (a : SolveArgs) (N : TableSizes) : ℕ :=
  N.objs + a.x.length + 1 + a.eqs.length + a.ineqs.length + a.eqs.length + a.ineqs.length

/-- The construction of these objects: the decision variables and constraints are copied, the multipliers are new
(`problem.hpp:315,318,408-409,517-520`). -/
def SolveArgs.copies (a : SolveArgs) : List (Cmd ℝ) :=
  a.x.map .copy ++ [match a.f with | some i => .copy i | none => .lit 0] ++ a.eqs.map .copy ++ a.ineqs.map .copy ++
    List.replicate a.eqs.length .decl ++ List.replicate a.ineqs.length .decl

/-- The loop over `sum += lhs[0, k] * rhs[k, 0]` in the product of a row and a column (`variable_matrix.hpp:558-561`),
where `sum` is object `acc` and the table has `len` objects. Each `sum` is a new object in the model. -/
def dotLoop : ℕ → ℕ → List (ℕ × ℕ) → List (Cmd ℝ)
  | _, _, [] => []
  | acc, len, (i, j) :: ps => .bin .mul i j :: .bin .add acc len :: dotLoop (len + 1) (len + 2) ps

/-- The product of a row and a column when the table has `len` objects (`variable_matrix.hpp:551-567`). The result is
object `len + 2 * ps.length`. -/
def dotCmds (len : ℕ) (ps : List (ℕ × ℕ)) : List (Cmd ℝ) := .lit 0 :: dotLoop len (len + 1) ps

/-- `-y_ad.T()` (`problem.hpp:435`, `547`). The transposition only rearranges objects. -/
def SolveArgs.negY (a : SolveArgs) (N : TableSizes) : List ℕ := List.range' (a.base N) a.eqs.length

/-- The number of objects before the products (the tables after `problem.hpp:315-318`). -/
def SolveArgs.base1 (a : SolveArgs) (N : TableSizes) : ℕ := a.base N + a.eqs.length

/-- `-y_ad.T() * c_e_ad` for the SQP solver (`problem.hpp:435`),
`-y_ad.T() * c_e_ad - z_ad.T() * c_i_ad` for the interior-point solver (`problem.hpp:547`). -/
def SolveArgs.lagrangianCmds (a : SolveArgs) (N : TableSizes) : List (Cmd ℝ) :=
  (a.yAd N).map (.un .neg) ++ dotCmds (a.base1 N) ((a.negY N).zip (a.ceAd N)) ++
    if a.ineqs = [] then []
    else dotCmds (a.base1 N + 1 + 2 * a.eqs.length) ((a.zAd N).zip (a.ciAd N)) ++
      [.bin .sub (a.base1 N + 2 * a.eqs.length) (a.base1 N + 1 + 2 * a.eqs.length + 2 * a.ineqs.length)]

/-- The object of that expression (`problem.hpp:435,547-548`). -/
def SolveArgs.lagrangianAd (a : SolveArgs) (N : TableSizes) : ℕ :=
  if a.ineqs = [] then a.base1 N + 2 * a.eqs.length
  else a.base1 N + 2 + 2 * a.eqs.length + 2 * a.ineqs.length

/-- The setup of autodiff: `g` and `H` for Newton's method (`problem.hpp:349-355`), `g`, `H_f`, `H_c` and `A_e` for the
SQP solver (`problem.hpp:422-443`), and `A_i` as well for the interior-point solver (`problem.hpp:534-560`). -/
def SolveArgs.setup (a : SolveArgs) (N : TableSizes) : List (Cmd ℝ) :=
  a.copies ++ [.jac [a.fAd N] (a.xAd N), .hess true (a.fAd N) (a.xAd N)] ++
    if a.eqs = [] ∧ a.ineqs = [] then []
    else a.lagrangianCmds N ++ [.hess true (a.lagrangianAd N) (a.xAd N), .jac (a.ceAd N) (a.xAd N)] ++
      if a.ineqs = [] then [] else [.jac (a.ciAd N) (a.xAd N)]

/-- The objects that `solve()` has made (`problem.hpp:408-409,517-520`). -/
def SolveArgs.Internal (a : SolveArgs) (N : TableSizes) (i : ℕ) : Prop := N.objs ≤ i ∧ i ≤ a.lagrangianAd N

/-- `set_value` on a column of variables (`variable_matrix.hpp:295-303`). -/
def setAll (is : List ℕ) (xs : List ℝ) : List (Cmd ℝ) := List.zipWith .setValue is xs

/-- A call of a matrix callback, for `n` decision variables, `m` equality and `k` inequality constraints
(`problem.hpp:384-398,479-508,618-660`). -/
inductive Request (n m k : ℕ) where
  | f (x : Fin n → ℝ)
  | g (x : Fin n → ℝ)
  | H (x : Fin n → ℝ) (y : Fin m → ℝ) (z : Fin k → ℝ)
  | Hc (x : Fin n → ℝ) (y : Fin m → ℝ) (z : Fin k → ℝ)
  | ce (x : Fin n → ℝ)
  | Ae (x : Fin n → ℝ)
  | ci (x : Fin n → ℝ)
  | Ai (x : Fin n → ℝ)

/-- `scaling` (`problem_scaling.hpp:29-36`). -/
structure Factors (m k : ℕ) where
  f : ℝ
  ce : Fin m → ℝ
  ci : Fin k → ℝ

/-- The setting of the variables in the callbacks of the Hessian (`problem.hpp:490-499`, `630-643`), with
`scaling.c_e.cwiseProduct(y)` and `scaling.c_i.cwiseProduct(z)`. -/
noncomputable def SolveArgs.setXYZ {n m k : ℕ} (a : SolveArgs) (N : TableSizes) (S : Factors m k) (x : Fin n → ℝ)
    (y : Fin m → ℝ) (z : Fin k → ℝ) : List (Cmd ℝ) :=
  setAll (a.xAd N) (List.ofFn x) ++ setAll (a.yAd N) (List.ofFn fun i => S.ce i * y i) ++
    setAll (a.zAd N) (List.ofFn fun i => S.ci i * z i)

/-- The API calls that a matrix callback makes (`problem.hpp:384-398`, `479-508`, `618-660`). -/
noncomputable def Request.cmds {n m k : ℕ} (a : SolveArgs) (N : TableSizes) (S : Factors m k) :
    Request n m k → List (Cmd ℝ)
  | .f x => setAll (a.xAd N) (List.ofFn x) ++ [.value (a.fAd N)]
  | .g x => setAll (a.xAd N) (List.ofFn x) ++ [.jacValue N.jacs]
  | .H x y z => a.setXYZ N S x y z ++
      if a.eqs = [] ∧ a.ineqs = [] then [.hessValue N.hess] else [.hessValue N.hess, .hessValue (N.hess + 1)]
  | .Hc x y z => a.setXYZ N S x y z ++ [.hessValue (N.hess + 1)]
  | .ce x => setAll (a.xAd N) (List.ofFn x) ++ (a.ceAd N).map .value
  | .Ae x => setAll (a.xAd N) (List.ofFn x) ++ [.jacValue (N.jacs + 1)]
  | .ci x => setAll (a.xAd N) (List.ofFn x) ++ (a.ciAd N).map .value
  | .Ai x => setAll (a.xAd N) (List.ofFn x) ++ [.jacValue (N.jacs + 2)]

/-- The numbers among the results of API calls (modelling only, of the results of
`problem.hpp:384-398,479-508,618-660`). -/
def numbers (os : List (Obs ℝ)) : List ℝ := os.filterMap fun o => match o with | .num x => some x | _ => none

/-- The matrices among the results of API calls (modelling only, of the results of
`problem.hpp:384-398,479-508,618-660`). -/
def matrices (os : List (Obs ℝ)) : List (List (List ℝ)) :=
  os.filterMap fun o => match o with | .mat m => some m | _ => none

/-- `c * A` (`problem.hpp:392,396,488,493,628,635`). -/
noncomputable def scaleMat (c : ℝ) (A : List (List ℝ)) : List (List ℝ) := A.map fun r => r.map fun v => c * v

/-- `d.asDiagonal() * A` (`problem.hpp:506,650,658`). -/
noncomputable def scaleRows {q : ℕ} (d : Fin q → ℝ) (A : List (List ℝ)) : List (List ℝ) :=
  List.zipWith (fun c r => r.map fun v => c * v) (List.ofFn d) A

/-- `A + B` (`problem.hpp:493,635`). -/
noncomputable def addMat (A B : List (List ℝ)) : List (List ℝ) := List.zipWith (List.zipWith (· + ·)) A B

/-- `d.cwiseProduct(v)` (`problem.hpp:492,497,502,633-634,640-641,646,654`). -/
noncomputable def cwiseProduct {q : ℕ} (d : Fin q → ℝ) (v : List ℝ) : List ℝ := List.zipWith (· * ·) (List.ofFn d) v

/-- What a matrix callback returns, given the results of its API calls (`problem.hpp:384-398`, `479-508`, `618-660`).
Numbers are 1×1 matrices, vectors are columns, except that the gradient is left as the row that
`Jacobian::value()` returns in `Gradient::value()` (`gradient.hpp:53-57`). -/
noncomputable def Request.answer {n m k : ℕ} (S : Factors m k) (os : List (Obs ℝ)) :
    Request n m k → Option (List (List ℝ))
  | .f _ => match numbers os with | [v] => some [[S.f * v]] | _ => none
  | .g _ => match matrices os with | [A] => some (scaleMat S.f A) | _ => none
  | .H _ _ _ => match matrices os with
      | [A] => some (scaleMat S.f A)
      | [A, B] => some (addMat (scaleMat S.f A) B)
      | _ => none
  | .Hc _ _ _ => match matrices os with | [A] => some A | _ => none
  | .ce _ => some ((cwiseProduct S.ce (numbers os)).map fun v => [v])
  | .Ae _ => match matrices os with | [A] => some (scaleRows S.ce A) | _ => none
  | .ci _ => some ((cwiseProduct S.ci (numbers os)).map fun v => [v])
  | .Ai _ => match matrices os with | [A] => some (scaleRows S.ci A) | _ => none

/-- The assignment of the solution (`problem.hpp:675-676`). -/
def SolveArgs.finish (a : SolveArgs) (x : List ℝ) : List (Cmd ℝ) := setAll a.x x

end Slp
