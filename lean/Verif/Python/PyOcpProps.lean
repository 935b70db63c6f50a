import Verif.Python.PyProblemProps

/-! C76: constraints on states and inputs of optimal control problems in Python. -/

namespace Slp.Py

open Slp.VMat Slp.Slicing

/-- All elements of the column are related to the number, or to the elements of the column, that the object is. -/
def ColumnRelated (R : ℝ → ℝ → Prop) {n : ℕ} (col : Fin n → ℝ) (x : Obj UserExpr) (v : ℕ → ℝ) : Prop :=
  (∃ c, x.Is (valueAt v) (.scalar c) ∧ ∀ r, R (col r) c) ∨
    ∃ M : Matrix (Fin n) (Fin 1) ℝ, x.Is (valueAt v) (.matrix n 1 M) ∧ ∀ r, R (col r) (M r 0)

/-- A number or a column with `n` elements; arrays have elements of type `float64`. -/
def ColumnArg (n : ℕ) (x : Obj UserExpr) : Prop := NoConversion x ∧ (HasShape x none ∨ HasShape x (some (n, 1)))

/-- A matrix of another shape. -/
def WrongColumn (n : ℕ) (x : Obj UserExpr) : Prop := NoConversion x ∧ ∃ s, HasShape x (some s) ∧ s ≠ (n, 1)

theorem columnView_is (ty : Term → Slp.Ty) {n : ℕ} (x : Fin n → Term) (v : ℕ → ℝ) :
    (Obj.block (columnView ty x)).Is (valueAt v) (.matrix n 1 fun r _ => (x r).eval v) := by
  refine ⟨rfl, rfl, fun i j => ?_⟩
  obtain rfl : j = 0 := Subsingleton.elim _ _
  exact ⟨⟨x i, ty (x i)⟩, by simp [columnView], rfl⟩

theorem columnArg_eval {x : Obj UserExpr} {y : RealValue} {v : ℕ → ℝ} (h : NoConversion x) (hy : x.Is (valueAt v) y) :
    columnArg x = .ok (x.operand constant) := by
  have : ∃ t ∈ [Ty.float, .int, .var, .array, .mat], (accepts constant true t x).isSome := by
    cases x <;> cases y <;> simp [Obj.Is, NoConversion] at hy h <;> simp [accepts, *]
    simp [hy.1.shape]
  obtain ⟨t, ht, h1⟩ := this
  have : resolve constant [[.float], [.int], [.var], [.array], [.mat]] [x] = some [x.operand constant] := by
    refine resolve_takes ⟨[t], ?_, .cons h1 .nil⟩
    simpa using ht
  simp [columnArg, this]

/-- C76: arrays whose elements are not of type `float64`, arrays that do not have two dimensions and other objects raise
`TypeError` in the methods of optimal control problems. -/
theorem columnArg_refuses {x : Obj UserExpr}
    (h : (∃ a, x = .array a ∧ (a.dtype ≠ .f64 ∨ a.shape.length ≠ 2)) ∨ x = .other) :
    columnArg x = .error .typeError := by
  have : resolve constant [[.float], [.int], [.var], [.array], [.mat]] [x] = none := by
    refine resolve_refuses ?_
    rintro ⟨tys, h1, h2⟩
    simp only [List.mem_cons, List.not_mem_nil, or_false] at h1
    rcases h with ⟨a, rfl, ha⟩ | rfl
    · rcases h1 with rfl | rfl | rfl | rfl | rfl <;> cases h2 with
        | cons h2 _ =>
          simp only [accepts, Option.isSome_none, Bool.false_eq_true] at h2
          try (rw [if_neg (by tauto)] at h2; cases h2)
    · rcases h1 with rfl | rfl | rfl | rfl | rfl <;> cases h2 with
        | cons h2 _ => cases h2
  simp [columnArg, this]

theorem columnRelated_iff {R : ℝ → ℝ → Prop} {n : ℕ} {col : Fin n → ℝ} {x : Obj UserExpr} {v : ℕ → ℝ} {y : RealValue}
    (hy : x.Is (valueAt v) y) (hc : (RealValue.matrix n 1 fun r _ => col r).Comparable y) :
    (RealValue.matrix n 1 fun r _ => col r).Holds R y ↔ ColumnRelated R col x v := by
  cases y with
  | scalar c =>
      constructor
      · exact fun h => .inl ⟨c, hy, fun r => h r 0⟩
      · rintro (⟨c', h1, h2⟩ | ⟨M, h1, -⟩)
        · cases hy.unique h1
          exact fun r _ => h2 r
        · cases hy.unique h1
  | matrix m k M =>
      obtain ⟨rfl, rfl⟩ := hc
      constructor
      · exact fun h => .inr ⟨M, hy, fun r => h r 0 r.2 one_pos r.2 one_pos⟩
      · rintro (⟨c', h1, h2⟩ | ⟨M', h1, h2⟩)
        · cases hy.unique h1
        · cases hy.unique h1
          intro i j hi hj hi' hj'
          obtain rfl : j = 0 := by omega
          exact h2 ⟨i, hi⟩

section

variable [Sub UserExpr]

/-- `column == x`, `column >= x` and `column <= x` for an argument that fits. -/
theorem column_compare (hsub : Subtracts) (ty : Term → Slp.Ty) {n : ℕ} (col : Fin n → Term) {x : Obj UserExpr}
    (h : ColumnArg n x) :
    (∃ c, eqOp (.matrix (columnView ty col)) (x.operand constant) = some c ∧
      ∀ v, (∀ e ∈ c.constraints, e.term.eval v = 0) ↔ ColumnRelated (· = ·) (values col v) x v) ∧
    (∃ c, geOp (.matrix (columnView ty col)) (x.operand constant) = some c ∧
      ∀ v, (∀ e ∈ c.constraints, 0 ≤ e.term.eval v) ↔ ColumnRelated (· ≥ ·) (values col v) x v) ∧
    (∃ c, leOp (.matrix (columnView ty col)) (x.operand constant) = some c ∧
      ∀ v, (∀ e ∈ c.constraints, 0 ≤ e.term.eval v) ↔ ColumnRelated (· ≤ ·) (values col v) x v) := by
  have val : ∀ v, ∃ y, x.Is (valueAt v) y ∧ (RealValue.matrix n 1 fun r _ => values col v r).Comparable y := by
    intro v
    rcases h.2 with h | h
    · obtain ⟨y, h1, h2⟩ := h v
      cases y with
      | scalar => exact ⟨_, h1, trivial⟩
      | matrix => cases h2
    · obtain ⟨y, h1, h2⟩ := h v
      cases y with
      | scalar => cases h2
      | matrix m k M =>
          simp only [RealValue.shape, Option.some.injEq, Prod.mk.injEq] at h2
          obtain ⟨rfl, rfl⟩ := h2
          exact ⟨_, h1, rfl, rfl⟩
  have key : ∀ v, ∃ m k f g, (Operand.matrix (columnView ty col)).Is (valueAt v) m k f ∧
      (x.operand constant).Is (valueAt v) m k g ∧ ShapeOk m k (.matrix (columnView ty col)) (x.operand constant) ∧
      ∀ R : ℝ → ℝ → Prop, (∀ i j, i < m → j < k → R (f i j) (g i j)) ↔ ColumnRelated R (values col v) x v := by
    intro v
    obtain ⟨y, h1, h2⟩ := val v
    obtain ⟨m, k, f, g, k1, k2, k3, k4⟩ := comparable_operands (constant_value v) (columnView_is ty col v) h1 h2
    exact ⟨m, k, f, g, k1, k2, k3, fun R => (k4 R).trans (columnRelated_iff h1 h2)⟩
  obtain ⟨m, k, f, g, k1, k2, k3, -⟩ := key fun _ => 0
  refine ⟨?_, ?_, ?_⟩
  · obtain ⟨c, hc, -⟩ := eq_correct (fun a b => hsub a b _) k1 k2 k3
    refine ⟨c, hc, fun v => ?_⟩
    obtain ⟨m, k, f, g, k1, k2, k3, k4⟩ := key v
    obtain ⟨c', hc', -, h3⟩ := eq_correct (fun a b => hsub a b v) k1 k2 k3
    rw [hc] at hc'
    cases hc'
    exact eq_true.symm.trans (h3.trans (k4 _))
  · obtain ⟨c, hc, -⟩ := ge_correct (fun a b => hsub a b _) k1 k2 k3
    refine ⟨c, hc, fun v => ?_⟩
    obtain ⟨m, k, f, g, k1, k2, k3, k4⟩ := key v
    obtain ⟨c', hc', -, h3⟩ := ge_correct (fun a b => hsub a b v) k1 k2 k3
    rw [hc] at hc'
    cases hc'
    exact ineq_true.symm.trans (h3.trans (k4 _))
  · obtain ⟨c, hc, -⟩ := le_correct (fun a b => hsub a b _) k1 k2 k3
    refine ⟨c, hc, fun v => ?_⟩
    obtain ⟨m, k, f, g, k1, k2, k3, k4⟩ := key v
    obtain ⟨c', hc', -, h3⟩ := le_correct (fun a b => hsub a b v) k1 k2 k3
    rw [hc] at hc'
    cases hc'
    exact ineq_true.symm.trans (h3.trans (k4 _))

theorem column_mismatch (ty : Term → Slp.Ty) {n : ℕ} (col : Fin n → Term) {x : Obj UserExpr} (h : WrongColumn n x) :
    columnArg x = .ok (x.operand constant) ∧ eqOp (.matrix (columnView ty col)) (x.operand constant) = none ∧
      geOp (.matrix (columnView ty col)) (x.operand constant) = none ∧
      leOp (.matrix (columnView ty col)) (x.operand constant) = none := by
  obtain ⟨h0, s, h1, h2⟩ := h
  obtain ⟨y, h3, h4⟩ := h1 fun _ => 0
  cases y with
  | scalar => cases h4
  | matrix p q N =>
      obtain ⟨B, hb, b1, b2, -⟩ := operand_matrix (constant_value _) h3
      simp only [RealValue.shape, Option.some.injEq] at h4
      subst h4
      have k1 : ¬ ((columnView ty col).rows = B.rows ∧ (columnView ty col).cols = B.cols) := by
        rintro ⟨c1, c2⟩
        simp only [columnView] at c1 c2
        refine h2 ?_
        rw [Prod.mk.injEq]
        omega
      have k2 : ¬ (B.rows = (columnView ty col).rows ∧ B.cols = (columnView ty col).cols) :=
        fun c => k1 ⟨c.1.symm, c.2.symm⟩
      refine ⟨columnArg_eval h0 h3, ?_⟩
      rw [hb]
      simp [eqOp, geOp, leOp, makeConstraints, k1, k2]

variable {ns ni : ℕ}

omit [Sub UserExpr] in
theorem ColumnArg.value {n : ℕ} {x : Obj UserExpr} (h : ColumnArg n x) : columnArg x = .ok (x.operand constant) := by
  rcases h.2 with h' | h' <;> obtain ⟨y, h1, -⟩ := h' fun _ => 0 <;> exact columnArg_eval h.1 h1

/-- C76: `constrain_initial_state(x)` and `constrain_final_state(x)` add the constraints that the first or last state
equals the given number (in all components) or column, which may be an `int`, a `float`, a `Variable`, a matrix, a block
or an array. The matrices of the problem stay the same. -/
theorem py_constrain_states (hsub : Subtracts) (ty : Term → Slp.Ty) (o : Ocp ns ni) {x : Obj UserExpr}
    (h : ColumnArg ns x) :
    (∃ p, pyConstrainInitial ty o x = .ok { o with problem := p } ∧
      ∀ v, p.Feasible v ↔ o.problem.Feasible v ∧ ColumnRelated (· = ·) (o.state v 0) x v) ∧
    (∃ p, pyConstrainFinal ty o x = .ok { o with problem := p } ∧
      ∀ v, p.Feasible v ↔ o.problem.Feasible v ∧ ColumnRelated (· = ·) (o.state v o.steps) x v) := by
  have key : ∀ i, ∃ p, constrainState ty o i x = .ok { o with problem := p } ∧
      ∀ v, p.Feasible v ↔ o.problem.Feasible v ∧ ColumnRelated (· = ·) (o.state v i) x v := by
    intro i
    obtain ⟨⟨c, h1, h2⟩, -⟩ := column_compare hsub ty (o.X i) h
    refine ⟨o.problem.subjectToEq c.constraints, ?_, fun v => ?_⟩
    · unfold constrainState
      simp only [h.value, bind, Except.bind, h1]
    · rw [feasible_eq, h2]
      rfl
  exact ⟨key 0, key o.steps⟩

omit [Sub UserExpr] in
theorem inputLoop_ok (compare : Operand UserExpr → Operand UserExpr → Option (InequalityConstraints UserExpr))
    (column : ℕ → View UserExpr) (a : Operand UserExpr) (P : ℕ → (ℕ → ℝ) → Prop) (l : List ℕ) (p : Problem)
    (h : ∀ i ∈ l, ∃ c, compare (.matrix (column i)) a = some c ∧ ∀ v, (∀ e ∈ c.constraints, 0 ≤ e.term.eval v) ↔ P i v) :
    (inputLoop compare column a l p).2 = false ∧
      ∀ v, (inputLoop compare column a l p).1.Feasible v ↔ p.Feasible v ∧ ∀ i ∈ l, P i v := by
  induction l generalizing p with
  | nil => simp [inputLoop]
  | cons i l ih =>
      obtain ⟨c, h1, h2⟩ := h i (.head _)
      have := ih (p.subjectToIneq c.constraints) fun j hj => h j (.tail _ hj)
      simp only [inputLoop, h1]
      refine ⟨this.1, fun v => ?_⟩
      rw [this.2, feasible_ineq, h2]
      simp only [List.forall_mem_cons, and_assoc]

/-- C76: `set_lower_input_bound(x)` and `set_upper_input_bound(x)` add the constraints that every input, including the
one after the last step, is at least or at most the given number or column. -/
theorem py_input_bounds (hsub : Subtracts) (ty : Term → Slp.Ty) (o : Ocp ns ni) {x : Obj UserExpr}
    (h : ColumnArg ni x) :
    (∃ p, pyLowerInput ty o x = ({ o with problem := p }, none) ∧
      ∀ v, p.Feasible v ↔ o.problem.Feasible v ∧ ∀ k ≤ o.steps, ColumnRelated (· ≥ ·) (o.input v k) x v) ∧
    (∃ p, pyUpperInput ty o x = ({ o with problem := p }, none) ∧
      ∀ v, p.Feasible v ↔ o.problem.Feasible v ∧ ∀ k ≤ o.steps, ColumnRelated (· ≤ ·) (o.input v k) x v) := by
  constructor
  · have := inputLoop_ok geOp (fun i => columnView ty (o.U i)) (x.operand constant)
      (fun i v => ColumnRelated (· ≥ ·) (o.input v i) x v) (List.range (o.steps + 1)) o.problem
      fun i _ => (column_compare hsub ty (o.U i) h).2.1
    refine ⟨_, by simp only [pyLowerInput, h.value, this.1]; rfl, fun v => ?_⟩
    rw [this.2]
    simp
  · have := inputLoop_ok leOp (fun i => columnView ty (o.U i)) (x.operand constant)
      (fun i v => ColumnRelated (· ≤ ·) (o.input v i) x v) (List.range (o.steps + 1)) o.problem
      fun i _ => (column_compare hsub ty (o.U i) h).2.2
    refine ⟨_, by simp only [pyUpperInput, h.value, this.1]; rfl, fun v => ?_⟩
    rw [this.2]
    simp

/-- C76: a matrix of another shape raises `ValueError`, and no constraint is added. -/
theorem py_ocp_mismatch (ty : Term → Slp.Ty) (o : Ocp ns ni) {x : Obj UserExpr} :
    (WrongColumn ns x → pyConstrainInitial ty o x = .error .valueError ∧ pyConstrainFinal ty o x = .error .valueError) ∧
    (WrongColumn ni x → pyLowerInput ty o x = (o, some .valueError) ∧ pyUpperInput ty o x = (o, some .valueError)) := by
  constructor
  · intro h
    have key : ∀ i, constrainState ty o i x = .error .valueError := by
      intro i
      obtain ⟨h1, h2, -⟩ := column_mismatch ty (o.X i) h
      unfold constrainState
      simp only [h1, bind, Except.bind, h2]
    exact ⟨key 0, key o.steps⟩
  · intro h
    obtain ⟨h1, -, h3, h4⟩ := column_mismatch ty (o.U 0) h
    constructor
    · simp only [pyLowerInput, h1, List.range_succ_eq_map, inputLoop, h3, if_true]
    · simp only [pyUpperInput, h1, List.range_succ_eq_map, inputLoop, h4, if_true]

end

/-- C76: arguments of other types raise `TypeError`, and no constraint is added. -/
theorem py_ocp_refuses [Sub UserExpr] {ns ni : ℕ} (ty : Term → Slp.Ty) (o : Ocp ns ni) {x : Obj UserExpr}
    (h : (∃ a, x = .array a ∧ (a.dtype ≠ .f64 ∨ a.shape.length ≠ 2)) ∨ x = .other) :
    pyConstrainInitial ty o x = .error .typeError ∧ pyConstrainFinal ty o x = .error .typeError ∧
      pyLowerInput ty o x = (o, some .typeError) ∧ pyUpperInput ty o x = (o, some .typeError) := by
  have := columnArg_refuses h
  refine ⟨?_, ?_, ?_, ?_⟩
  · simp only [pyConstrainInitial, constrainState, this]; rfl
  · simp only [pyConstrainFinal, constrainState, this]; rfl
  · simp only [pyLowerInput, this]
  · simp only [pyUpperInput, this]

/-! ### Cases -/

/-- The column `[[1.0], [2.0]]` is an argument for two states, the integer 3 for one input, and `[1.0, 2.0]` and
`[[1], [2]]` are refused. -/
example [Sub UserExpr] (hsub : Subtracts) (ty : Term → Slp.Ty) (o : Ocp 2 1) :
    (∃ p, pyConstrainInitial ty o (.array ⟨.f64, [2, 1], [1, 1], fun z => z + 1⟩) = .ok { o with problem := p } ∧
      ∀ v, p.Feasible v → o.state v 0 0 = 1 ∧ o.state v 0 1 = 2) ∧
    (∃ p, pyUpperInput ty o (.int 3) = ({ o with problem := p }, none) ∧
      ∀ v, p.Feasible v → ∀ k ≤ o.steps, o.input v k 0 ≤ 3) ∧
    pyConstrainInitial ty o (.array ⟨.f64, [2], [1], fun z => z + 1⟩) = .error .typeError ∧
    pyConstrainInitial ty o (.array ⟨.i64, [2, 1], [1, 1], fun z => z + 1⟩) = .error .typeError ∧
    pyConstrainInitial ty o (.array ⟨.f64, [1, 2], [2, 1], fun z => z + 1⟩) = .error .valueError := by
  have ha : ∀ v, (Obj.array ⟨.f64, [2, 1], [1, 1], fun z => z + 1⟩ : Obj UserExpr).Is (valueAt v)
      (.matrix 2 1 !![1; 2]) := by
    intro v
    refine ⟨⟨rfl, rfl, by simp, by norm_num⟩, fun i j => ?_⟩
    fin_cases i <;> fin_cases j <;> simp [NdArray.entry] <;> norm_num
  have hb : ∀ v, (Obj.array ⟨.f64, [1, 2], [2, 1], fun z => z + 1⟩ : Obj UserExpr).Is (valueAt v)
      (.matrix 1 2 !![1, 2]) := by
    intro v
    refine ⟨⟨rfl, rfl, by simp, by norm_num⟩, fun i j => ?_⟩
    fin_cases i <;> fin_cases j <;> simp [NdArray.entry] <;> norm_num
  refine ⟨?_, ?_, ?_, ?_, ?_⟩
  · obtain ⟨⟨p, h1, h2⟩, -⟩ := py_constrain_states hsub ty o (x := .array ⟨.f64, [2, 1], [1, 1], fun z => z + 1⟩)
      ⟨rfl, .inr fun v => ⟨_, ha v, rfl⟩⟩
    refine ⟨p, h1, fun v hv => ?_⟩
    rcases ((h2 v).1 hv).2 with ⟨c, hc, -⟩ | ⟨M, hM, h3⟩
    · cases hc
    · have := (ha v).unique hM
      simp only [RealValue.matrix.injEq, heq_eq_eq, true_and] at this
      subst this
      exact ⟨h3 0, h3 1⟩
  · obtain ⟨-, p, h1, h2⟩ := py_input_bounds hsub ty o (x := .int 3)
      ⟨trivial, .inl fun v => ⟨.scalar 3, by simp [Obj.Is], rfl⟩⟩
    refine ⟨p, h1, fun v hv k hk => ?_⟩
    rcases ((h2 v).1 hv).2 k hk with ⟨c, hc, h3⟩ | ⟨M, hM, -⟩
    · have : c = 3 := by simpa [Obj.Is] using hc
      rw [← this]
      exact h3 0
    · cases hM
  · exact (py_ocp_refuses ty o (.inl ⟨_, rfl, .inr (by simp)⟩)).1
  · exact (py_ocp_refuses ty o (.inl ⟨_, rfl, .inl (by simp)⟩)).1
  · exact ((py_ocp_mismatch ty o (x := .array ⟨.f64, [1, 2], [2, 1], fun z => z + 1⟩)).1 ⟨rfl, (1, 2), fun v => ⟨_, hb v, rfl⟩, by simp⟩).1

end Slp.Py
