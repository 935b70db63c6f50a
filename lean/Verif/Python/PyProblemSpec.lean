import Verif.Python.PyProblemModel
import Verif.Python.PyOpsSpec
import Verif.Problem.OcpLemmas

/-! What a Python program that builds a problem says, in terms of real numbers and real matrices. -/

namespace Slp.Py

/-- The number of rows and columns, of matrices. -/
def RealValue.shape : RealValue → Option (ℕ × ℕ)
  | .scalar _ => none
  | .matrix m n _ => some (m, n)

/-- The object is a number or a matrix of this shape, whatever the values of the variables are. -/
def HasShape (o : Obj UserExpr) (s : Option (ℕ × ℕ)) : Prop := ∀ v, ∃ x, o.Is (valueAt v) x ∧ x.shape = s

/-- Both are matrices, of different shapes. -/
def Clash (s t : Option (ℕ × ℕ)) : Prop := ∃ a b, s = some a ∧ t = some b ∧ a ≠ b

/-- The relation holds between all elements of the objects, at the given values of the variables. -/
def Related (R : ℝ → ℝ → Prop) (l r : Obj UserExpr) (v : ℕ → ℝ) : Prop :=
  ∃ x y, l.Is (valueAt v) x ∧ r.Is (valueAt v) y ∧ x.Holds R y

/-- The relation of a comparison; none for operators that are not comparisons. -/
def PyOp.says (op : PyOp) (l r : Obj UserExpr) (v : ℕ → ℝ) : Prop := ∃ R, op.Rel = some R ∧ Related R l r v

/-- A comparison that can be made: of objects of which one is a `Variable`, a matrix or a block, and whose shapes do not
clash. -/
def Comparable (op : PyOp) (l r : Obj UserExpr) : Prop :=
  op.Rel ≠ none ∧ Own l.kind r.kind ∧ ∃ s t, HasShape l s ∧ HasShape r t ∧ ¬ Clash s t

/-- The object is not an array, or one with elements of type `float64`. -/
def NoConversion : Obj UserExpr → Prop
  | .array a => a.dtype = .f64
  | _ => True

/-- What a written constraint says. -/
def Cmp.Says : Cmp → (ℕ → ℝ) → Prop
  | .compare op l r, v => op.says l r v
  | .chain l op x op' r, v => op.says l x v ∧ op'.says x r v
  | .bounds l x u, v => Related (· ≤ ·) l x v ∧ Related (· ≤ ·) x u v

/-- The constraint can be made. Chained comparisons are left out: see `chain_keeps_one`. -/
def Cmp.Fits : Cmp → Prop
  | .compare op l r => Comparable op l r
  | .chain .. => False
  | .bounds l x u => (x.kind = .var ∨ x.kind = .mat ∨ x.kind = .block) ∧ NoConversion l ∧ NoConversion u ∧
      ∃ s t w, HasShape l s ∧ HasShape x t ∧ HasShape u w ∧ ¬ Clash s t ∧ ¬ Clash t w

/-- The constraint is a set of equations. -/
def Cmp.IsEquation : Cmp → Prop
  | .compare op _ _ => op = .eq
  | _ => False

/-- What the argument of `subject_to` says. -/
def ConstraintArg.Says : ConstraintArg → (ℕ → ℝ) → Prop
  | .one c, v => c.Says v
  | .equalities l, v => ∀ c ∈ l, c.Says v
  | .inequalities l, v => ∀ c ∈ l, c.Says v

/-- The argument of `subject_to` can be made. -/
def ConstraintArg.Fits : ConstraintArg → Prop
  | .one c => c.Fits
  | .equalities l => ∀ c ∈ l, c.Fits ∧ c.IsEquation
  | .inequalities l => ∀ c ∈ l, c.Fits ∧ ¬ c.IsEquation

/-- The object is a number, a `Variable` or a 1×1 matrix or block, with the value `F v` where the variables have the
values `v`. -/
def CostIs (x : Obj UserExpr) (F : (ℕ → ℝ) → ℝ) : Prop :=
  x.kind ≠ .array ∧
    ((∀ v, x.Is (valueAt v) (.scalar (F v))) ∨ ∀ v, x.Is (valueAt v) (.matrix 1 1 fun _ _ => F v))

/-- The integer fits an `int` and is not negative. -/
def Size (o : Obj UserExpr) (n : ℕ) : Prop := o = .int n ∧ (n : ℤ) ≤ 2147483647

/-- What a call adds to the constraints of the problem. -/
def PyCmd.Says : PyCmd → (ℕ → ℝ) → Prop
  | .subjectTo c, v => c.Says v
  | _, _ => True

/-- The call sets the objective. -/
def PyCmd.SetsCost : PyCmd → Prop
  | .minimize _ => True
  | .maximize _ => True
  | _ => False

/-- The call makes this number of decision variables. -/
def PyCmd.Declares : PyCmd → ℕ → Prop
  | .decisionVariable args, n => (args = [] ∧ n = 1) ∨ (∃ r m, args = [r] ∧ Size r m ∧ n = m) ∨
      ∃ r c m k, args = [r, c] ∧ Size r m ∧ Size c k ∧ n = m * k
  | .symmetricDecisionVariable args, n => ∃ r m, args = [r] ∧ Size r m ∧ n = m * (m + 1) / 2
  | _, n => n = 0

/-- The call is one that can be made. -/
def PyCmd.Fits : PyCmd → Prop
  | .minimize x => ∃ F, CostIs x F
  | .maximize x => ∃ F, CostIs x F
  | .subjectTo c => c.Fits
  | .setValue .. => True
  | c => ∃ n, c.Declares n

/-- The value that the calls give the variable last, if any does. -/
def lastSet (k : ℕ) (cs : List PyCmd) : Option Fl :=
  cs.foldl (fun r c => match c with
    | .setValue j x => if j = k then some x else r
    | _ => r) none

/-- A comparison of matrices of different shapes. -/
def Cmp.Clashes : Cmp → Prop
  | .compare op l r => op.Rel ≠ none ∧ Own l.kind r.kind ∧ ∃ s t, HasShape l s ∧ HasShape r t ∧ Clash s t
  | _ => False

/-- The call is a mistake: matrices of different shapes are compared, the objective is an array, no number at all or a
matrix that is not 1×1, or a size is not an integer (and none is negative). -/
def PyCmd.Wrong : PyCmd → Prop
  | .minimize x => x.kind = .array ∨ x.kind = .other ∨ ∃ m n, HasShape x (some (m, n)) ∧ (m, n) ≠ (1, 1)
  | .maximize x => x.kind = .array ∨ x.kind = .other ∨ ∃ m n, HasShape x (some (m, n)) ∧ (m, n) ≠ (1, 1)
  | .subjectTo (.one c) => c.Clashes
  | .decisionVariable args => (2 < args.length ∨ ∃ o ∈ args, ∀ z, o ≠ .int z) ∧
      ∀ z, .int z ∈ args → 0 ≤ z
  | .symmetricDecisionVariable args => (args.length ≠ 1 ∨ ∃ o ∈ args, ∀ z, o ≠ .int z) ∧
      ∀ z, .int z ∈ args → 0 ≤ z
  | _ => False

end Slp.Py
