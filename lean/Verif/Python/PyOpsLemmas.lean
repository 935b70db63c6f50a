import Verif.Python.PyOpsSpec
import Verif.Matrix.ConstraintProps

/-! Which C++ operator is called by an operator in Python. -/

namespace Slp.Py

open Slp.VMat Slp.Slicing

variable {α : Type}

/-- The operand that C++ sees. -/
def Obj.operand (num : ℝ → α) : Obj α → Operand α
  | .int z => .scalar (num z)
  | .float x => .scalar (num x)
  | .var a => .scalar a
  | .mat A => .matrix A.view
  | .block B => .matrix B
  | .array a => .matrix (a.map num)
  | .other => .scalar (num 0)

theorem accepts_operand {num : ℝ → α} {c : Bool} {t : Ty} {o : Obj α} {x : Operand α} (h : accepts num c t o = some x) :
    x = o.operand num := by
  cases t <;> cases o <;> simp only [accepts, reduceCtorEq, Option.some.injEq, Option.ite_none_right_eq_some] at h <;>
    first
      | exact h.symm
      | exact h.2.symm

variable [Zero α] [Add α] [Sub α] [Mul α] [Div α]

/-- The C++ operator of an operator in Python. -/
def PyOp.cpp : PyOp → Cpp
  | .add => .add
  | .sub => .sub
  | .mul => .mul
  | .truediv => .div
  | .matmul => .mul
  | .eq => .eq
  | .lt => .lt
  | .le => .le
  | .gt => .gt
  | .ge => .ge

/-- The object is an array that the bindings take, or no array. -/
def Obj.Fine : Obj α → Prop
  | .array a => a.dtype ≠ .other ∧ a.shape.length = 2
  | .other => False
  | _ => True

/-- The outcome of a C++ operator. -/
def ended : Option (Res α) → Outcome α
  | some r => .ok r
  | none => .valueError

omit [Zero α] [Add α] [Sub α] [Mul α] [Div α] in
theorem ofCpp_last (op : PyOp) (x : Option (Res α)) : (Ret.ofCpp x).last op = ended x := by cases x <;> rfl

omit [Zero α] [Add α] [Sub α] [Mul α] [Div α] in
theorem ofCpp_ufunc (x : Option (Res α)) : (Ret.ofCpp x).ofUfunc = ended x := by cases x <;> rfl

/-- The result of overload resolution if some function takes the argument. -/
theorem callMethod_eq {num : ℝ → α} (self : Operand α) (l : List Overload) (arg : Obj α) :
    callMethod num self l arg =
      match ((l.findSome? fun o => (accepts num false o.ty arg).map fun _ => o).or
        (l.findSome? fun o => (accepts num true o.ty arg).map fun _ => o)) with
      | none => .notImplemented
      | some o => Ret.ofCpp (if o.selfRight then Py.cpp o.op (arg.operand num) self
          else Py.cpp o.op self (arg.operand num)) := by
  have key : ∀ c, (l.findSome? fun o => (accepts num c o.ty arg).map fun a => (o, a)) =
      (l.findSome? fun o => (accepts num c o.ty arg).map fun _ => o).map fun o => (o, arg.operand num) := by
    intro c
    induction l with
    | nil => rfl
    | cons o l ih =>
        simp only [List.findSome?_cons]
        cases h : accepts num c o.ty arg with
        | none => simpa using ih
        | some x => simp [accepts_operand h]
  unfold callMethod
  simp only [key]
  cases (l.findSome? fun o => (accepts num false o.ty arg).map fun _ => o) with
  | some o => rfl
  | none =>
      cases (l.findSome? fun o => (accepts num true o.ty arg).map fun _ => o) with
      | some o => rfl
      | none => rfl

/-- What overload resolution looks at. -/
inductive Look where
  | int (fits : Bool)
  | float
  | var
  | mat
  | block
  | array (f64 : Bool)
  | other
  deriving DecidableEq

/-- What overload resolution sees of an object. -/
def Obj.look : Obj α → Look
  | .int z => .int (intMin ≤ z ∧ z ≤ intMax)
  | .float _ => .float
  | .var _ => .var
  | .mat _ => .mat
  | .block _ => .block
  | .array a => .array (a.dtype = .f64 ∧ a.shape.length = 2)
  | .other => .other

/-- Whether a parameter takes an argument. -/
def takes (convert : Bool) : Ty → Look → Bool
  | .float, .float => true
  | .float, .int _ => convert
  | .int, .int b => b
  | .var, .var => true
  | .mat, .mat => true
  | .mat, .block => convert
  | .block, .block => true
  | .array, .array b => b
  | _, _ => false

/-- The overload that is chosen. -/
def pick (l : List Overload) (s : Look) : Option Overload :=
  (l.find? fun o => takes false o.ty s).or (l.find? fun o => takes true o.ty s)

omit [Zero α] [Add α] [Sub α] [Mul α] [Div α] in
theorem accepts_takes (num : ℝ → α) (c : Bool) (t : Ty) (o : Obj α) :
    (accepts num c t o).isSome = takes c t o.look := by
  cases t <;> cases o <;> simp [accepts, takes, Obj.look, apply_ite]

omit [Zero α] [Add α] [Sub α] [Mul α] [Div α] in
theorem findSome_takes (num : ℝ → α) (c : Bool) (l : List Overload) (arg : Obj α) :
    (l.findSome? fun o => (accepts num c o.ty arg).map fun _ => o) = l.find? fun o => takes c o.ty arg.look := by
  induction l with
  | nil => rfl
  | cons o l ih =>
      have h := accepts_takes num c o.ty arg
      simp only [List.findSome?_cons, List.find?_cons, ih]
      cases hx : accepts num c o.ty arg <;> rw [hx] at h <;> rw [← h] <;> rfl

/-- Overload resolution in terms of the kinds of arguments. -/
theorem callMethod_pick {num : ℝ → α} (self : Operand α) (l : List Overload) (arg : Obj α) :
    callMethod num self l arg =
      match pick l arg.look with
      | none => .notImplemented
      | some o => Ret.ofCpp (if o.selfRight then Py.cpp o.op (arg.operand num) self
          else Py.cpp o.op self (arg.operand num)) := by
  rw [callMethod_eq, findSome_takes, findSome_takes]
  rfl

theorem gt_mirror (l r : Operand α) : Py.cpp .gt l r = Py.cpp .lt r l := rfl

theorem ge_mirror (l r : Operand α) : Py.cpp .ge l r = Py.cpp .le r l := rfl

omit [Zero α] [Add α] [Sub α] [Mul α] [Div α] in
theorem forward_ended (x : Option (Res α)) (y : Outcome α) :
    (match Ret.ofCpp x with
      | .ok x => .ok x
      | .failed => .valueError
      | .notImplemented => y) = ended x := by cases x <;> rfl

omit [Zero α] [Add α] [Sub α] [Mul α] [Div α] in
theorem eigenArg_fine (num : ℝ → α) {a : NdArray} (h : (Obj.array a : Obj α).Fine) :
    eigenArg num (.array a) = some (some (.matrix (a.map num))) := by
  obtain ⟨h1, h2⟩ := h
  simp [eigenArg, h1, h2]

/-- What an operator comes to: a C++ operator, perhaps with the operands exchanged, or no result. -/
inductive Route where
  | call (op : Cpp) (swapped : Bool)
  | none
  | ufuncNone
  | foreign
  deriving DecidableEq

/-- The outcome of a route. -/
def Route.run (op : PyOp) (l r : Operand α) : Route → Outcome α
  | .call o false => ended (Py.cpp o l r)
  | .call o true => ended (Py.cpp o r l)
  | .none => op.unsupported
  | .ufuncNone => .typeError
  | .foreign => .foreign

/-- The class of an object. -/
def Look.cls? : Look → Option Class
  | .var => some .var
  | .mat => some .mat
  | .block => some .block
  | _ => none

/-- The call of a method of the left operand. -/
def leftCall (o : Overload) : Route := .call o.op o.selfRight

/-- The call of a method of the right operand. -/
def rightCall (o : Overload) : Route := .call o.op !o.selfRight

/-- The call of a function of NumPy. -/
def ufuncCall (f : Ufunc) (swapped : Bool) : Route := (f.cpp.map fun o => Route.call o swapped).getD .ufuncNone

/-- The route of an operator. -/
def route (op : PyOp) (l r : Look) : Route :=
  match l.cls?, r.cls? with
  | some c, some d =>
      ((pick (overloads c op.method) r).map leftCall).getD
        (if c = d then .none else ((pick (overloads d op.reflected) l).map rightCall).getD .none)
  | some c, none =>
      match r with
      | .other => .foreign
      | .array _ =>
          if c = .var then .foreign
          else ((pick (overloads c op.method) r).map leftCall).getD (ufuncCall op.reflectedUfunc.1 op.reflectedUfunc.2)
      | _ => ((pick (overloads c op.method) r).map leftCall).getD .none
  | none, some d =>
      match l with
      | .other => .foreign
      | .array _ => if d = .var then .foreign else ufuncCall op.ufunc false
      | _ => ((pick (overloads d op.reflected) l).map rightCall).getD .none
  | none, none => .foreign

theorem left_last {num : ℝ → α} {c : Class} {a : Operand α} {l r : Obj α} (h : l.operand num = a) (op : PyOp) (m : Meth)
    (y : Route) (z : Outcome α) (hz : z = y.run op (l.operand num) (r.operand num)) :
    (match callMethod num a (overloads c m) r with
      | .ok x => .ok x
      | .failed => .valueError
      | .notImplemented => z) =
      (((pick (overloads c m) r.look).map leftCall).getD y).run op (l.operand num) (r.operand num) := by
  rw [callMethod_pick]
  cases hp : pick (overloads c m) r.look with
  | none => simpa using hz
  | some o =>
      obtain ⟨t, o, b⟩ := o
      subst h
      cases b <;> exact forward_ended _ _

theorem right_last {num : ℝ → α} {d : Class} {b : Operand α} {l r : Obj α} (h : r.operand num = b) (op : PyOp) (m : Meth) :
    (callMethod num b (overloads d m) l).last op =
      (((pick (overloads d m) l.look).map rightCall).getD .none).run op (l.operand num) (r.operand num) := by
  rw [callMethod_pick]
  cases hp : pick (overloads d m) l.look with
  | none => rfl
  | some o =>
      obtain ⟨t, o, b⟩ := o
      subst h
      cases b <;> exact ofCpp_last _ _

theorem only_last {num : ℝ → α} {c : Class} {a : Operand α} {l r : Obj α} (h : l.operand num = a) (op : PyOp) (m : Meth) :
    (callMethod num a (overloads c m) r).last op =
      (((pick (overloads c m) r.look).map leftCall).getD .none).run op (l.operand num) (r.operand num) := by
  rw [← left_last h op m .none op.unsupported rfl]
  cases callMethod num a (overloads c m) r <;> rfl

omit [Zero α] [Add α] [Sub α] [Mul α] [Div α] in
theorem self_look {o : Obj α} {c : Class} {a : Operand α} (num : ℝ → α) (h : o.self? = some (c, a)) :
    o.look.cls? = some c ∧ o.operand num = a ∧ ∀ n, eigenArg n o = none := by
  cases o <;> simp [Obj.self?] at h <;> obtain ⟨rfl, rfl⟩ := h <;> exact ⟨rfl, rfl, fun _ => rfl⟩

omit [Zero α] [Add α] [Sub α] [Mul α] [Div α] in
theorem self_none {o : Obj α} (h : o.self? = none) : o.look.cls? = none := by
  cases o <;> simp [Obj.self?] at h <;> rfl

/-- The outcome of an operator is that of its route. -/
theorem binary_route {num : ℝ → α} {op : PyOp} {l r : Obj α} (hl : l.Fine) (hr : r.Fine) :
    binary num op l r = (route op l.look r.look).run op (l.operand num) (r.operand num) := by
  unfold binary route
  cases hsl : l.self? with
  | some p =>
      obtain ⟨c, a⟩ := p
      obtain ⟨hcl, hol, hel⟩ := self_look num hsl
      cases hsr : r.self? with
      | some q =>
          obtain ⟨d, b⟩ := q
          obtain ⟨hcr, hor, her⟩ := self_look num hsr
          simp only [hcl, hcr]
          apply left_last hol
          split
          · rfl
          · exact right_last hor op op.reflected
      | none =>
          simp only [hcl, self_none hsr]
          cases r with
          | int z => exact only_last hol op op.method
          | float z => exact only_last hol op op.method
          | var z => cases hsr
          | mat z => cases hsr
          | block z => cases hsr
          | other => exact hr.elim
          | array x =>
              simp only [Obj.look]
              split
              · rfl
              · apply left_last hol
                cases op <;> simp only [PyOp.reflectedUfunc, ufuncCall, Ufunc.cpp, arrayUfunc, hel,
                  eigenArg_fine num hr, Bool.false_eq_true, if_false, if_true] <;>
                  first
                    | rfl
                    | (subst hol; exact ofCpp_ufunc _)
  | none =>
      cases hsr : r.self? with
      | none => simp only [self_none hsl, self_none hsr]; rfl
      | some q =>
          obtain ⟨d, b⟩ := q
          obtain ⟨hcr, hor, her⟩ := self_look num hsr
          simp only [self_none hsl, hcr]
          cases l with
          | int z => exact right_last hor op op.reflected
          | float z => exact right_last hor op op.reflected
          | var z => cases hsl
          | mat z => cases hsl
          | block z => cases hsl
          | other => exact hl.elim
          | array x =>
              simp only [Obj.look]
              split
              · rfl
              · cases op <;> simp only [PyOp.ufunc, ufuncCall, Ufunc.cpp, arrayUfunc,
                  eigenArg_fine num hl] <;>
                  first
                    | rfl
                    | (subst hor; exact ofCpp_ufunc _)

/-! ### The routes of all operators -/

/-- The kind of an operand. -/
def Look.kind : Look → Kind
  | .int _ => .number
  | .float => .number
  | .var => .var
  | .mat => .mat
  | .block => .block
  | .array _ => .array
  | .other => .other

omit [Zero α] [Add α] [Sub α] [Mul α] [Div α] in
theorem look_kind (o : Obj α) : o.look.kind = o.kind := by cases o <;> rfl

instance (k l : Kind) : Decidable (Own k l) := by unfold Own; infer_instance

instance (op : PyOp) (k l : Kind) : Decidable (Supported op k l) := by
  cases op <;> unfold Supported <;> infer_instance

/-- All operators. -/
def allOps : List PyOp := [.add, .sub, .mul, .truediv, .matmul, .eq, .lt, .le, .gt, .ge]

/-- All kinds of arguments. -/
def allLooks : List Look :=
  [.int true, .int false, .float, .var, .mat, .block, .array true, .array false, .other]

theorem mem_allOps (op : PyOp) : op ∈ allOps := by cases op <;> decide

theorem mem_allLooks (l : Look) : l ∈ allLooks := by
  rcases l with (_ | _) | _ | _ | _ | _ | (_ | _) | _ <;> decide

/-- The comparison with the operands exchanged. -/
def PyOp.mirror : PyOp → Option Cpp
  | .eq => some .eq
  | .lt => some .gt
  | .le => some .ge
  | .gt => some .lt
  | .ge => some .le
  | _ => none

theorem route_supported_all : ∀ op ∈ allOps, ∀ l ∈ allLooks, ∀ r ∈ allLooks, Own l.kind r.kind → l.kind ≠ .other →
    r.kind ≠ .other → Supported op l.kind r.kind →
    route op l r = .call op.cpp false ∨ op.mirror.map (Route.call · true) = some (route op l r) := by decide

theorem route_unsupported_all : ∀ op ∈ allOps, ∀ l ∈ allLooks, ∀ r ∈ allLooks, Own l.kind r.kind → l.kind ≠ .other →
    r.kind ≠ .other → ¬ Supported op l.kind r.kind → op ≠ .eq ∧ (route op l r = .none ∨ route op l r = .ufuncNone) := by
  decide

omit [Zero α] [Add α] [Sub α] [Mul α] [Div α] in
theorem Obj.Fine.kind {o : Obj α} (h : o.Fine) : o.look.kind ≠ .other := by
  cases o <;> first | exact h.elim | simp [Obj.look, Look.kind]

/-- Python calls the C++ operator with the operands in the order in which they are written, except that `==` may be called
with the operands exchanged. -/
theorem binary_supported {num : ℝ → α} {op : PyOp} {l r : Obj α} (hl : l.Fine) (hr : r.Fine) (own : Own l.kind r.kind)
    (hs : Supported op l.kind r.kind) :
    binary num op l r = ended (Py.cpp op.cpp (l.operand num) (r.operand num)) ∨
      op = .eq ∧ binary num op l r = ended (Py.cpp .eq (r.operand num) (l.operand num)) := by
  rw [binary_route hl hr]
  rw [← look_kind l, ← look_kind r] at own hs
  rcases route_supported_all op (mem_allOps op) _ (mem_allLooks l.look) _ (mem_allLooks r.look) own hl.kind hr.kind hs with
    h | h
  · rw [h]
    exact .inl rfl
  · cases op <;> simp only [PyOp.mirror, Option.map_some, Option.map_none, Option.some.injEq, reduceCtorEq] at h <;>
      rw [← h]
    · exact .inr ⟨rfl, rfl⟩
    all_goals exact .inl rfl

/-- Other combinations of operands are type errors. -/
theorem binary_unsupported {num : ℝ → α} {op : PyOp} {l r : Obj α} (hl : l.Fine) (hr : r.Fine) (own : Own l.kind r.kind)
    (hs : ¬ Supported op l.kind r.kind) : binary num op l r = .typeError := by
  rw [binary_route hl hr]
  rw [← look_kind l, ← look_kind r] at own hs
  obtain ⟨h1, h | h⟩ := route_unsupported_all op (mem_allOps op) _ (mem_allLooks l.look) _ (mem_allLooks r.look) own
    hl.kind hr.kind hs
  · rw [h]
    cases op <;> first | exact absurd rfl h1 | rfl
  · rw [h]
    rfl

end Slp.Py
