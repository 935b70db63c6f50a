import Verif.Python.PyOpsModel
import Verif.Matrix.ArithSpec
import Mathlib.Data.Matrix.Mul

/-! What operators in Python mean, in terms of real numbers and real matrices. -/

namespace Slp.Py

open Slp.VMat

variable {α : Type}

/-- A real number or a real matrix. -/
inductive RealValue where
  | scalar (x : ℝ)
  | matrix (m n : ℕ) (M : Matrix (Fin m) (Fin n) ℝ)

/-- The element of an array at an index, as NumPy defines it. -/
def NdArray.entry (a : NdArray) (index : List ℕ) : ℝ :=
  a.data (List.zipWith (fun (i : ℕ) (s : ℤ) => i * s) index a.strides).sum

/-- The array has two dimensions, more than one element or none, and one of the element types `float64`, `float32`,
`int64` and `int32`. -/
structure NdArray.Usable (a : NdArray) (m n : ℕ) : Prop where
  shape : a.shape = [m, n]
  strides : a.strides.length = 2
  dtype : a.dtype ≠ .other
  single : m * n ≠ 1

/-- The object has this value, if expressions have the values `ev`. -/
def Obj.Is (ev : α → ℝ) : Obj α → RealValue → Prop
  | .int z, .scalar x => x = z
  | .float y, .scalar x => x = y
  | .var a, .scalar x => x = ev a
  | .mat A, .matrix _ _ M => A.Is ev M
  | .block B, .matrix _ _ M => B.Is ev M
  | .array a, .matrix m n M => a.Usable m n ∧ ∀ (i : Fin m) (j : Fin n), a.entry [i, j] = M i j
  | _, _ => False

/-- The result has this value. -/
def Res.Is (ev : α → ℝ) : Res α → RealValue → Prop
  | .var a, .scalar x => ev a = x
  | .mat A, .matrix _ _ M => A.Is ev M
  | _, _ => False

/-- The constraint has this truth value. -/
noncomputable def Res.truth (ev : α → ℝ) : Res α → Option Bool
  | .eq c => some (c.toBool ev)
  | .ineq c => some (c.toBool ev)
  | _ => none

/-- What an arithmetic operator gives. -/
inductive Gives : PyOp → RealValue → RealValue → RealValue → Prop
  | add (x y) : Gives .add (.scalar x) (.scalar y) (.scalar (x + y))
  | addMat {m n} (M N) : Gives .add (.matrix m n M) (.matrix m n N) (.matrix m n (M + N))
  | addRight (M y) : Gives .add (.matrix 1 1 M) (.scalar y) (.scalar (M 0 0 + y))
  | addLeft (x N) : Gives .add (.scalar x) (.matrix 1 1 N) (.scalar (x + N 0 0))
  | sub (x y) : Gives .sub (.scalar x) (.scalar y) (.scalar (x - y))
  | subMat {m n} (M N) : Gives .sub (.matrix m n M) (.matrix m n N) (.matrix m n (M - N))
  | subRight (M y) : Gives .sub (.matrix 1 1 M) (.scalar y) (.scalar (M 0 0 - y))
  | subLeft (x N) : Gives .sub (.scalar x) (.matrix 1 1 N) (.scalar (x - N 0 0))
  | mul (x y) : Gives .mul (.scalar x) (.scalar y) (.scalar (x * y))
  | mulRight {m n} (M y) : Gives .mul (.matrix m n M) (.scalar y) (.matrix m n (y • M))
  | mulLeft {m n} (x N) : Gives .mul (.scalar x) (.matrix m n N) (.matrix m n (x • N))
  | mulMat {m n p} (M : Matrix (Fin m) (Fin n) ℝ) (N : Matrix (Fin n) (Fin p) ℝ) :
      Gives .mul (.matrix m n M) (.matrix n p N) (.matrix m p (M * N))
  | matmul {m n p} (M : Matrix (Fin m) (Fin n) ℝ) (N : Matrix (Fin n) (Fin p) ℝ) :
      Gives .matmul (.matrix m n M) (.matrix n p N) (.matrix m p (M * N))
  | div (x y) : y ≠ 0 → Gives .truediv (.scalar x) (.scalar y) (.scalar (x / y))
  | divRight {m n} (M y) : y ≠ 0 → Gives .truediv (.matrix m n M) (.scalar y) (.matrix m n (y⁻¹ • M))

/-- The relation that a comparison states; `<` and `>` are read as `≤` and `≥`. -/
def PyOp.Rel : PyOp → Option (ℝ → ℝ → Prop)
  | .eq => some (· = ·)
  | .lt => some (· ≤ ·)
  | .le => some (· ≤ ·)
  | .gt => some (· ≥ ·)
  | .ge => some (· ≥ ·)
  | _ => none

/-- Matrices can be compared if they have the same size. -/
def RealValue.Comparable : RealValue → RealValue → Prop
  | .matrix m n _, .matrix m' n' _ => m = m' ∧ n = n'
  | _, _ => True

/-- The relation holds for all elements. -/
def RealValue.Holds (R : ℝ → ℝ → Prop) : RealValue → RealValue → Prop
  | .scalar x, .scalar y => R x y
  | .scalar x, .matrix _ _ N => ∀ i j, R x (N i j)
  | .matrix _ _ M, .scalar y => ∀ i j, R (M i j) y
  | .matrix m n M, .matrix m' n' N => ∀ (i j : ℕ) (h : i < m) (k : j < n) (h' : i < m') (k' : j < n'),
      R (M ⟨i, h⟩ ⟨j, k⟩) (N ⟨i, h'⟩ ⟨j, k'⟩)

/-- A function applied to all elements. -/
def RealValue.map (F : ℝ → ℝ) : RealValue → RealValue
  | .scalar x => .scalar (F x)
  | .matrix m n M => .matrix m n (M.map F)

/-- Kinds of operands. -/
inductive Kind where
  | number
  | var
  | mat
  | block
  | array
  | other
  deriving DecidableEq

def Obj.kind : Obj α → Kind
  | .int _ => .number
  | .float _ => .number
  | .var _ => .var
  | .mat _ => .mat
  | .block _ => .block
  | .array _ => .array
  | .other => .other

/-- Operands for which the operator belongs to Sleipnir: one is a `Variable`, `VariableMatrix` or `VariableBlock`, and an
array is not combined with a `Variable`. -/
def Own (k l : Kind) : Prop :=
  (k = .var ∨ k = .mat ∨ k = .block ∨ l = .var ∨ l = .mat ∨ l = .block) ∧
    ¬ (k = .array ∧ l = .var) ∧ ¬ (k = .var ∧ l = .array)

/-- The kinds of operands an operator takes: `*` multiplies by numbers and matrices, but not by arrays, nor two blocks;
`@` needs a `VariableMatrix` on the left or an array on one side; the divisor is a number or a `Variable`. -/
def Supported : PyOp → Kind → Kind → Prop
  | .mul, k, l => k ≠ .array ∧ l ≠ .array ∧ ¬ (k = .block ∧ l = .block)
  | .truediv, k, l => k ≠ .array ∧ (l = .number ∨ l = .var)
  | .matmul, k, l => (k = .mat ∧ (l = .mat ∨ l = .block)) ∨ (k = .array ∧ (l = .mat ∨ l = .block)) ∨
      (l = .array ∧ (k = .mat ∨ k = .block))
  | _, _, _ => True

end Slp.Py
