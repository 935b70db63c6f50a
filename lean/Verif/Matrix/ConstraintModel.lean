import Verif.Matrix.MatModel

/-!
Model of constraint construction (`autodiff/variable.hpp:715-1013`).
-/

namespace Slp.VMat

variable {α : Type}

/-- An operand of a comparison: `ScalarLike` or `MatrixLike` (`util/concepts.hpp:18-25`). -/
inductive Operand (α : Type) where
  | scalar (a : α)
  | matrix (A : View α)

/-- `make_constraints(lhs, rhs)`, the four overloads (`variable.hpp:721-778`). -/
def makeConstraints [Sub α] : Operand α → Operand α → Option (List α)
  | .scalar l, .scalar r => some [l - r]
  | .scalar l, .matrix R => (pairs R.rows R.cols).mapM fun p => do
      let r ← R.get p.1 p.2
      some (l - r)
  | .matrix L, .scalar r => (pairs L.rows L.cols).mapM fun p => do
      let l ← L.get p.1 p.2
      some (l - r)
  | .matrix L, .matrix R =>
      if L.rows = R.rows ∧ L.cols = R.cols then
        (pairs L.rows L.cols).mapM fun p => do
          let l ← L.get p.1 p.2
          let r ← R.get p.1 p.2
          some (l - r)
      else none

/-- `EqualityConstraints` (`variable.hpp:783-835`). -/
structure EqualityConstraints (α : Type) where
  constraints : List α

/-- `InequalityConstraints` (`variable.hpp:840-893`). -/
structure InequalityConstraints (α : Type) where
  constraints : List α

/-- Concatenation (`variable.hpp:792-812`). -/
def EqualityConstraints.concat (l : List (EqualityConstraints α)) : EqualityConstraints α :=
  ⟨l.foldl (fun acc e => acc ++ e.constraints) []⟩

/-- Concatenation (`variable.hpp:849-869`). -/
def InequalityConstraints.concat (l : List (InequalityConstraints α)) : InequalityConstraints α :=
  ⟨l.foldl (fun acc e => acc ++ e.constraints) []⟩

/-- `operator==` (`variable.hpp:895-926`). -/
def eqOp [Sub α] (l r : Operand α) : Option (EqualityConstraints α) := (makeConstraints l r).map .mk

/-- `operator>=` (`variable.hpp:967-1001`). -/
def geOp [Sub α] (l r : Operand α) : Option (InequalityConstraints α) := (makeConstraints l r).map .mk

/-- `operator<=` (`variable.hpp:941-952`). -/
def leOp [Sub α] (l r : Operand α) : Option (InequalityConstraints α) := geOp r l

/-- `operator<` (`variable.hpp:928-939`). -/
def ltOp [Sub α] (l r : Operand α) : Option (InequalityConstraints α) := geOp r l

/-- `operator>` (`variable.hpp:954-965`). -/
def gtOp [Sub α] (l r : Operand α) : Option (InequalityConstraints α) := geOp l r

/-- `bounds(l, x, u)` (`variable.hpp:1003-1013`). -/
def bounds [Sub α] (l x u : Operand α) : Option (InequalityConstraints α) := do
  let a ← leOp l x
  let b ← leOp x u
  some (.concat [a, b])

/-- `operator bool` (`variable.hpp:829-834`); `val` is `Variable::value()`. -/
noncomputable def EqualityConstraints.toBool {S : Type} [Zero S] [DecidableEq S] (val : α → S)
    (c : EqualityConstraints α) : Bool :=
  c.constraints.all fun x => val x = 0

/-- `operator bool` (`variable.hpp:887-892`). -/
noncomputable def InequalityConstraints.toBool {S : Type} [Zero S] [LE S] [DecidableLE S] (val : α → S)
    (c : InequalityConstraints α) : Bool :=
  c.constraints.all fun x => 0 ≤ val x

end Slp.VMat
