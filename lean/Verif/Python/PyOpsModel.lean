import Verif.Matrix.ConstraintModel
import Mathlib.Data.Real.Basic

/-!
Model of the operators and functions of the Python bindings: the overloads registered in
`python/cpp/autodiff/bind_variable.cpp`, `bind_variable_matrix.cpp` and `bind_variable_block.cpp`, the conversion of
NumPy arrays in `python/cpp/try_cast.hpp` and `bounds` in `python/cpp/main.cpp`.

Which overload is called is decided by nanobind, and which operand's method is called by Python and NumPy. These three
are modelled as documented; they are not part of the repository. Subclasses, NumPy scalars and augmented assignments
are not modelled.
-/

namespace Slp.Py

open Slp.VMat Slp.Slicing

variable {α : Type}

/-! ### Operands -/

/-- The types of elements of NumPy arrays that `apply_eigen_op` tries, in its order, and all others
(`try_cast.hpp:82-86`). -/
inductive Dtype where
  | f64
  | f32
  | i64
  | i32
  | other
  deriving DecidableEq

/-- A NumPy array: `shape` and `strides` (in elements), and the memory, counted in elements from `data()`
(`try_cast.hpp:42-47`). -/
structure NdArray where
  dtype : Dtype
  shape : List ℕ
  strides : List ℤ
  data : ℤ → ℝ

/-- The `Eigen::Map` of a two-dimensional array: row-major, with outer stride `stride(0)` and inner stride `stride(1)`.
`Eigen::Map` finds element `(row, col)` of a row-major matrix at `row * outer + col * inner`
(`try_cast.hpp:41-47`). -/
def NdArray.map (num : ℝ → α) (a : NdArray) : View α :=
  let s0 := a.strides.getD 0 0
  let s1 := a.strides.getD 1 0
  ⟨a.shape.getD 0 0, a.shape.getD 1 0, fun row col =>
    if 0 ≤ row ∧ row < a.shape.getD 0 0 ∧ 0 ≤ col ∧ col < a.shape.getD 1 0 then some (num (a.data (row * s0 + col * s1)))
    else none⟩

/-- An object that Python code may write beside an operator: `int`, `float`, `Variable`, `VariableMatrix`, a
`VariableBlock` with its elements, a NumPy array, or something else (the arguments of the functions defined in
`bind_variable.cpp:91-178`). -/
inductive Obj (α : Type) where
  | int (z : ℤ)
  | float (x : ℝ)
  | var (a : α)
  | mat (A : Mat α)
  | block (B : View α)
  | array (a : NdArray)
  | other

/-- The types of parameters of the bound functions: `double`, `int`, `Variable`, `VariableMatrix`, `VariableBlock`
and `nb::DRef<Eigen::MatrixXd>` (`bind_variable_matrix.cpp:364-372`). -/
inductive Ty where
  | float
  | int
  | var
  | mat
  | block
  | array
  deriving DecidableEq

/-- The conversion of an argument by nanobind, in the first pass (`convert = false`) or in the second: integers become
`double` and blocks become matrices (`main.cpp:101-103`) in the second pass only; a `float` never becomes an `int`; an
integer must fit an `int`. `nb::DRef` refers to the array's memory, so that the elements must be of type `double`.
`num` makes a constant `Variable`. Simplifications: large integers are not rounded; arrays with one element are not
converted to numbers; arrays are writable. -/
def accepts (num : ℝ → α) (convert : Bool) : Ty → Obj α → Option (Operand α)
  | .float, .float x => some (.scalar (num x))
  | .float, .int z => if convert then some (.scalar (num z)) else none
  | .int, .int z => if intMin ≤ z ∧ z ≤ intMax then some (.scalar (num z)) else none
  | .var, .var a => some (.scalar a)
  | .mat, .mat A => some (.matrix A.view)
  | .mat, .block B => if convert then some (.matrix B) else none
  | .block, .block B => some (.matrix B)
  | .array, .array a => if a.dtype = .f64 ∧ a.shape.length = 2 then some (.matrix (a.map num)) else none
  | _, _ => none

/-! ### C++ operators -/

/-- The C++ operators that the bindings call (`bind_variable_matrix.cpp:241-490`). -/
inductive Cpp where
  | add
  | sub
  | mul
  | div
  | eq
  | lt
  | le
  | gt
  | ge
  deriving DecidableEq

/-- What the C++ operators return (`variable_matrix.hpp:504-943`, `variable.hpp:165-270,895-1001`). -/
inductive Res (α : Type) where
  | var (a : α)
  | mat (A : Mat α)
  | eq (c : EqualityConstraints α)
  | ineq (c : InequalityConstraints α)

/-- `lhs + rhs` or `lhs - rhs`. With a matrix and a scalar this is the operator of `Variable`, after the conversion of
a 1×1 matrix to its element (`variable.hpp:222-246`, `variable_matrix.hpp:750-802,842-894,948-951`). -/
def sumOp (op : α → α → α) : Operand α → Operand α → Option (Res α)
  | .scalar a, .scalar b => some (.var (op a b))
  | .matrix A, .scalar b => if A.rows = 1 ∧ A.cols = 1 then (A.get 0 0).map fun a => .var (op a b) else none
  | .scalar a, .matrix B => if B.rows = 1 ∧ B.cols = 1 then (B.get 0 0).map fun b => .var (op a b) else none
  | .matrix A, .matrix B => (zip op A B).map .mat

/-- The C++ operators (`variable.hpp:165-270,895-1001`, `variable_matrix.hpp:504-943`). Division by a matrix does not
exist, and no binding uses it. -/
def cpp [Zero α] [Add α] [Sub α] [Mul α] [Div α] : Cpp → Operand α → Operand α → Option (Res α)
  | .add, l, r => sumOp (· + ·) l r
  | .sub, l, r => sumOp (· - ·) l r
  | .mul, .scalar a, .scalar b => some (.var (a * b))
  | .mul, .matrix A, .scalar b => (map (· * b) A).map .mat
  | .mul, .scalar a, .matrix B => (map (· * a) B).map .mat
  | .mul, .matrix A, .matrix B => (mul A B).map .mat
  | .div, .scalar a, .scalar b => some (.var (a / b))
  | .div, .matrix A, .scalar b => (map (· / b) A).map .mat
  | .div, _, .matrix _ => none
  | .eq, l, r => (eqOp l r).map .eq
  | .lt, l, r => (ltOp l r).map .ineq
  | .le, l, r => (leOp l r).map .ineq
  | .gt, l, r => (gtOp l r).map .ineq
  | .ge, l, r => (geOp l r).map .ineq

/-! ### Methods of the Python classes -/

/-- The methods that Python looks up for binary operators; the comparison methods serve both sides
(`bind_variable_matrix.cpp:241-490`). -/
inductive Meth where
  | add
  | radd
  | sub
  | rsub
  | mul
  | rmul
  | truediv
  | rtruediv
  | matmul
  | rmatmul
  | eq
  | lt
  | le
  | gt
  | ge
  deriving DecidableEq

/-- The classes with bound operators (`main.cpp:41-46`). -/
inductive Class where
  | var
  | mat
  | block
  deriving DecidableEq

/-- One bound function: the type of its argument, the C++ operator it calls, and whether `self` is the right operand
(`bind_variable_matrix.cpp:241-490`). -/
structure Overload where
  ty : Ty
  op : Cpp
  selfRight : Bool

/-- Bound functions with `self` on the left: `nb::self op T()` for each type
(`bind_variable.cpp:103-110`, `bind_variable_matrix.cpp:365-367`). -/
def onLeft (op : Cpp) (l : List Ty) : List Overload := l.map fun t => ⟨t, op, false⟩

/-- Bound functions with `self` on the right: `T() op nb::self` for each type
(`bind_variable.cpp:112-115`, `bind_variable_matrix.cpp:366`). -/
def onRight (op : Cpp) (l : List Ty) : List Overload := l.map fun t => ⟨t, op, true⟩

/-- The comparison methods: for each type `nb::self op T()`, followed by `T() op' nb::self`, which nanobind registers
under the name of the mirrored comparison `op` (`bind_variable.cpp:127-140`, `bind_variable_matrix.cpp:453-467`,
`bind_variable_block.cpp:399-413`). -/
def comparisons (op op' : Cpp) (own : Ty) (both : List Ty) : List Overload :=
  ⟨own, op, false⟩ :: both.flatMap fun t => [⟨t, op, false⟩, ⟨t, op', true⟩]

/-- The functions bound under the name of a method, in the order in which they are registered. Functions whose first
parameter is a `VariableBlock`, although they are methods of `VariableMatrix`, accept no `self` and are left out
(`bind_variable.cpp:102-140`; `bind_variable_matrix.cpp:241-277,359-413,453-490`;
`bind_variable_block.cpp:307-360,399-446`). -/
def overloads : Class → Meth → List Overload
  | .var, .add => onLeft .add [.var, .float, .int]
  | .var, .sub => onLeft .sub [.var, .float, .int]
  | .var, .mul => onLeft .mul [.var, .float, .int]
  | .var, .truediv => onLeft .div [.var, .float, .int]
  | .var, .radd => onRight .add [.float, .int]
  | .var, .rsub => onRight .sub [.float, .int]
  | .var, .rmul => onRight .mul [.float, .int]
  | .var, .rtruediv => onRight .div [.float, .int]
  | .var, .eq => comparisons .eq .eq .var [.float, .int]
  | .var, .lt => comparisons .lt .gt .var [.float, .int]
  | .var, .le => comparisons .le .ge .var [.float, .int]
  | .var, .gt => comparisons .gt .lt .var [.float, .int]
  | .var, .ge => comparisons .ge .le .var [.float, .int]
  | .mat, .mul => onLeft .mul [.mat, .block, .float, .int, .var]
  | .mat, .rmul => onRight .mul [.block, .float, .int, .var]
  | .mat, .matmul => onLeft .mul [.mat, .block]
  | .mat, .truediv => onLeft .div [.float, .int, .var]
  | .mat, .add => onLeft .add [.mat, .float, .int, .var, .block, .array]
  | .mat, .radd => onRight .add [.float, .int, .var, .block, .array]
  | .mat, .sub => onLeft .sub [.mat, .float, .int, .var, .block, .array]
  | .mat, .rsub => onRight .sub [.float, .int, .var, .block, .array]
  | .mat, .eq => comparisons .eq .eq .mat [.float, .int, .var] ++ onLeft .eq [.block, .array]
  | .mat, .lt => comparisons .lt .gt .mat [.float, .int, .var] ++ onLeft .lt [.block, .array]
  | .mat, .le => comparisons .le .ge .mat [.float, .int, .var] ++ onLeft .le [.block, .array]
  | .mat, .gt => comparisons .gt .lt .mat [.float, .int, .var] ++ onLeft .gt [.block, .array]
  | .mat, .ge => comparisons .ge .le .mat [.float, .int, .var] ++ onLeft .ge [.block, .array]
  | .block, .mul => onLeft .mul [.float, .int, .var]
  | .block, .rmul => onRight .mul [.float, .int, .var]
  | .block, .truediv => onLeft .div [.float, .int, .var]
  | .block, .add => onLeft .add [.block, .float, .int, .var, .array]
  | .block, .radd => onRight .add [.float, .int, .var, .array]
  | .block, .sub => onLeft .sub [.block, .float, .int, .var, .array]
  | .block, .rsub => onRight .sub [.float, .int, .var, .array]
  | .block, .eq => comparisons .eq .eq .block [.float, .int, .var] ++ onLeft .eq [.mat, .array]
  | .block, .lt => comparisons .lt .gt .block [.float, .int, .var] ++ onLeft .lt [.mat, .array]
  | .block, .le => comparisons .le .ge .block [.float, .int, .var] ++ onLeft .le [.mat, .array]
  | .block, .gt => comparisons .gt .lt .block [.float, .int, .var] ++ onLeft .gt [.mat, .array]
  | .block, .ge => comparisons .ge .le .block [.float, .int, .var] ++ onLeft .ge [.mat, .array]
  | _, _ => []

/-- How a method returns: a value, `NotImplemented`, or an exception after a failed `slp_assert`
(`assert.hpp:10-18`; `nb::is_operator()` in `bind_variable_matrix.cpp:246`). -/
inductive Ret (α : Type) where
  | ok (r : Res α)
  | notImplemented
  | failed

/-- The return of a C++ operator (`assert.hpp:10-18`). -/
def Ret.ofCpp : Option (Res α) → Ret α
  | some r => .ok r
  | none => .failed

variable [Zero α] [Add α] [Sub α] [Mul α] [Div α]

/-- Overload resolution by nanobind: the first function that takes the argument as it is, otherwise the first that
takes it with a conversion, otherwise `NotImplemented` (`nb::is_operator()` in `bind_variable_matrix.cpp:246`). -/
def callMethod (num : ℝ → α) (self : Operand α) (l : List Overload) (arg : Obj α) : Ret α :=
  let resolve (convert : Bool) := l.findSome? fun o => (accepts num convert o.ty arg).map fun a => (o, a)
  match (resolve false).or (resolve true) with
  | none => .notImplemented
  | some (o, a) => Ret.ofCpp (if o.selfRight then cpp o.op a self else cpp o.op self a)

/-! ### NumPy -/

/-- `apply_eigen_op` applied to an operand: `none` if it is not an array with one of the four types of elements,
`some none` if `slp_assert(arr.ndim() == 2)` fails, otherwise the matrix (`try_cast.hpp:34-51,63-86`). -/
def eigenArg (num : ℝ → α) : Obj α → Option (Option (Operand α))
  | .array a =>
      if a.dtype = .other then none
      else if a.shape.length = 2 then some (some (.matrix (a.map num))) else some none
  | _ => none

/-- NumPy's functions behind its operators: `np.add`, `np.subtract`, `np.multiply`, `np.divide`, `np.matmul`,
`np.equal`, `np.less`, `np.less_equal`, `np.greater`, `np.greater_equal` (`bind_variable_matrix.cpp:288-352`). -/
inductive Ufunc where
  | add
  | subtract
  | multiply
  | divide
  | matmul
  | equal
  | less
  | lessEqual
  | greater
  | greaterEqual
  deriving DecidableEq

/-- The operator for each name of a function that is tested (`bind_variable_matrix.cpp:288-352`,
`bind_variable_block.cpp:236-300`). -/
def Ufunc.cpp : Ufunc → Option Cpp
  | .matmul => some .mul
  | .add => some .add
  | .subtract => some .sub
  | .equal => some .eq
  | .less => some .lt
  | .lessEqual => some .le
  | .greater => some .gt
  | .greaterEqual => some .ge
  | _ => none

/-- `__array_ufunc__(ufunc, "__call__", in0, in1)` (`bind_variable_matrix.cpp:279-357`,
`bind_variable_block.cpp:227-305`). -/
def arrayUfunc (num : ℝ → α) (self : Operand α) (f : Ufunc) (in0 in1 : Obj α) : Ret α :=
  match f.cpp with
  | none => .notImplemented
  | some op =>
      match eigenArg num in0 with
      | some lhs => Ret.ofCpp (lhs.bind fun l => Py.cpp op l self)
      | none =>
          match eigenArg num in1 with
          | some rhs => Ret.ofCpp (rhs.bind fun r => Py.cpp op self r)
          | none => .notImplemented

/-! ### Operators of Python -/

/-- The binary operators `+ - * / @ == < <= > >=` of Python (`bind_variable_matrix.cpp:241-490`). -/
inductive PyOp where
  | add
  | sub
  | mul
  | truediv
  | matmul
  | eq
  | lt
  | le
  | gt
  | ge
  deriving DecidableEq

/-- The method of the left operand that Python calls first (Python's data model, for the methods of
`bind_variable_matrix.cpp:241-490`). -/
def PyOp.method : PyOp → Meth
  | .add => .add
  | .sub => .sub
  | .mul => .mul
  | .truediv => .truediv
  | .matmul => .matmul
  | .eq => .eq
  | .lt => .lt
  | .le => .le
  | .gt => .gt
  | .ge => .ge

/-- The method of the right operand that Python calls next (Python's data model, for the methods of
`bind_variable_matrix.cpp:241-490`). -/
def PyOp.reflected : PyOp → Meth
  | .add => .radd
  | .sub => .rsub
  | .mul => .rmul
  | .truediv => .rtruediv
  | .matmul => .rmatmul
  | .eq => .eq
  | .lt => .gt
  | .le => .ge
  | .gt => .lt
  | .ge => .le

/-- The function that an array's method for this operator calls (NumPy's own code, which calls
`bind_variable_matrix.cpp:279-357`). -/
def PyOp.ufunc : PyOp → Ufunc
  | .add => .add
  | .sub => .subtract
  | .mul => .multiply
  | .truediv => .divide
  | .matmul => .matmul
  | .eq => .equal
  | .lt => .less
  | .le => .lessEqual
  | .gt => .greater
  | .ge => .greaterEqual

/-- The function that an array's reflected method calls, and whether the array comes first: `a.__radd__(b)` is
`np.add(b, a)`, but the reflected method of `b < a` is `a.__gt__(b)`, which is `np.greater(a, b)` (NumPy's own code,
which calls `bind_variable_matrix.cpp:279-357`). -/
def PyOp.reflectedUfunc : PyOp → Ufunc × Bool
  | .add => (.add, false)
  | .sub => (.subtract, false)
  | .mul => (.multiply, false)
  | .truediv => (.divide, false)
  | .matmul => (.matmul, false)
  | .eq => (.equal, true)
  | .lt => (.greater, true)
  | .le => (.greaterEqual, true)
  | .gt => (.less, true)
  | .ge => (.lessEqual, true)

/-- How an operator ends: a value, `TypeError`, `ValueError` after a failed assertion (`assert.hpp:10-18`), the
comparison of identities that Python falls back to for `==`, or code outside the bindings: operators between numbers and
arrays, between arrays and `Variable`s (which have no `__array_ufunc__`, `bind_variable.cpp:91-178`) and with other
objects. -/
inductive Outcome (α : Type) where
  | ok (r : Res α)
  | typeError
  | valueError
  | identity
  | foreign

/-- The class and the value of an object with bound operators (`main.cpp:41-46`). -/
def Obj.self? : Obj α → Option (Class × Operand α)
  | .var a => some (.var, .scalar a)
  | .mat A => some (.mat, .matrix A.view)
  | .block B => some (.block, .matrix B)
  | _ => none

/-- No method has a result: `TypeError`, but `==` compares identities (Python's data model, for the operators of
`bind_variable_matrix.cpp:241-490`). -/
def PyOp.unsupported : PyOp → Outcome α
  | .eq => .identity
  | _ => .typeError

/-- The last method tried by an operator (Python's data model, for the operators of
`bind_variable_matrix.cpp:241-490`). -/
def Ret.last (op : PyOp) : Ret α → Outcome α
  | .ok r => .ok r
  | .failed => .valueError
  | .notImplemented => op.unsupported

/-- The result of a function of NumPy whose operand has `__array_ufunc__`: `NotImplemented` is a `TypeError` (NumPy's
own code, which calls `bind_variable_matrix.cpp:279-357`). -/
def Ret.ofUfunc : Ret α → Outcome α
  | .ok r => .ok r
  | .failed => .valueError
  | .notImplemented => .typeError

/-- `l op r` in Python: the method of the left operand, then, if its type differs, the reflected method of the right one.
Methods of NumPy's arrays call `__array_ufunc__` of the other operand (Python's data model and NumPy's own code, calling
`bind_variable.cpp:102-140`, `bind_variable_matrix.cpp:241-490` and `bind_variable_block.cpp:227-446`). -/
def binary (num : ℝ → α) (op : PyOp) (l r : Obj α) : Outcome α :=
  match l.self?, r.self? with
  | some (c, a), some (d, b) =>
      match callMethod num a (overloads c op.method) r with
      | .ok x => .ok x
      | .failed => .valueError
      | .notImplemented =>
          if c = d then op.unsupported else (callMethod num b (overloads d op.reflected) l).last op
  | some (c, a), none =>
      match r with
      | .other => .foreign
      | .array _ =>
          if c = .var then .foreign
          else
            match callMethod num a (overloads c op.method) r with
            | .ok x => .ok x
            | .failed => .valueError
            | .notImplemented =>
                let f := op.reflectedUfunc
                Ret.ofUfunc (if f.2 then arrayUfunc num a f.1 r l else arrayUfunc num a f.1 l r)
      | _ => (callMethod num a (overloads c op.method) r).last op
  | none, some (d, b) =>
      match l with
      | .other => .foreign
      | .array _ => if d = .var then .foreign else (arrayUfunc num b op.ufunc l r).ofUfunc
      | _ => (callMethod num b (overloads d op.reflected) l).last op
  | none, none => .foreign

/-- `obj ** power` for an object with bound operators; there is no `__rpow__` (`bind_variable.cpp:119-122`,
`bind_variable_matrix.cpp:415-421`, `bind_variable_block.cpp:362-368`). -/
def power (num : ℝ → α) (pow : α → α → α) (l r : Obj α) : Outcome α :=
  match l.self? with
  | none => if r.self?.isSome then .typeError else .foreign
  | some (_, a) =>
      match (accepts num false .int r).or (accepts num true .int r) with
      | some (.scalar p) =>
          match a with
          | .scalar x => .ok (.var (pow x p))
          | .matrix A => (Ret.ofCpp ((map (pow · p) A).map .mat)).last .mul
      | _ => .typeError

/-- `-obj` (`bind_variable.cpp:123`, `bind_variable_matrix.cpp:361`, `bind_variable_block.cpp:309`). -/
def negation [Neg α] (l : Obj α) : Outcome α :=
  match l.self? with
  | none => .foreign
  | some (_, .scalar x) => .ok (.var (-x))
  | some (_, .matrix A) => (Ret.ofCpp ((map (- ·) A).map .mat)).last .mul

/-! ### Functions -/

/-- Overload resolution for functions: `none` is a `TypeError` (nanobind's own code, for the functions of
`bind_variable.cpp:27-90`). -/
def resolve (num : ℝ → α) (l : List (List Ty)) (args : List (Obj α)) : Option (List (Operand α)) :=
  let pass (convert : Bool) := l.findSome? fun tys =>
    if tys.length = args.length then (tys.zip args).mapM fun p => accepts num convert p.1 p.2 else none
  (pass false).or (pass true)

/-- The parameters of functions with the given number of arguments: `double` or `Variable` each, the last one varying
first (`bind_variable.cpp:58-68,76-89`). -/
def mathTypes : ℕ → List (List Ty)
  | 0 => [[]]
  | n + 1 => [Ty.float, Ty.var].flatMap fun t => (mathTypes n).map (t :: ·)

/-- A function of one argument, such as `sin` (`bind_variable.cpp:27-51`). -/
def unaryMath (num : ℝ → α) (f : α → α) (x : Obj α) : Outcome α :=
  match resolve num [[.float], [.var], [.mat], [.block]] [x] with
  | some [.scalar a] => .ok (.var (f a))
  | some [.matrix A] => (Ret.ofCpp ((map f A).map .mat)).last .mul
  | _ => .typeError

/-- A scalar argument (`bind_variable.cpp:53-90`). -/
def scalarOf : Operand α → Option α
  | .scalar a => some a
  | .matrix _ => none

/-- A function of several arguments, such as `atan2` and `hypot` (`bind_variable.cpp:53-90`). -/
def math (num : ℝ → α) (f : List α → α) (args : List (Obj α)) : Outcome α :=
  match resolve num (mathTypes args.length) args with
  | some l =>
      match l.mapM scalarOf with
      | some as => .ok (.var (f as))
      | none => .typeError
  | none => .typeError

/-- The parameters of `bounds(l, x, u)` (`main.cpp:59-75`). -/
def boundsTypes : List (List Ty) :=
  [.float, .int, .var, .mat, .block, .array].flatMap fun l =>
    [Ty.var, .mat, .block].flatMap fun x => [Ty.float, .int, .var, .mat, .block, .array].map fun u => [l, x, u]

/-- `bounds(l, x, u)` (`main.cpp:59-75`). -/
def pyBounds (num : ℝ → α) (l x u : Obj α) : Outcome α :=
  match resolve num boundsTypes [l, x, u] with
  | some [a, b, c] => (Ret.ofCpp ((bounds a b c).map .ineq)).last .mul
  | _ => .typeError

end Slp.Py
