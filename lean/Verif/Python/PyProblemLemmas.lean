import Verif.Python.PyProblemSpec
import Verif.Python.PyFuncProps
import Verif.Problem.OcpProps

/-! Lemmas on problems built in Python. -/

namespace Slp.Py

open Slp.VMat Slp.Slicing

theorem constant_value (v : ℕ → ℝ) (x : ℝ) : valueAt v (constant x) = x := rfl

theorem view_unique {α : Type} {ev : α → ℝ} {A : View α} {m n m' n' : ℕ} {M : Matrix (Fin m) (Fin n) ℝ}
    {M' : Matrix (Fin m') (Fin n') ℝ} (h : A.Is ev M) (h' : A.Is ev M') :
    RealValue.matrix m n M = .matrix m' n' M' := by
  obtain rfl : m = m' := by have := h.1; have := h'.1; omega
  obtain rfl : n = n' := by have := h.2.1; have := h'.2.1; omega
  congr
  funext i j
  obtain ⟨a, h1, h2⟩ := h.2.2 i j
  obtain ⟨b, h3, h4⟩ := h'.2.2 i j
  rw [h1] at h3
  cases h3
  exact h2.symm.trans h4

/-- An object has one value. -/
theorem Obj.Is.unique {α : Type} {ev : α → ℝ} {o : Obj α} {x y : RealValue} (hx : o.Is ev x) (hy : o.Is ev y) :
    x = y := by
  cases o <;> cases x <;> cases y <;> simp only [Obj.Is] at hx hy
  · rw [hx, hy]
  · rw [hx, hy]
  · rw [hx, hy]
  · exact view_unique hx.2 hy.2
  · exact view_unique hx hy
  · obtain ⟨h1, h2⟩ := hx
    obtain ⟨h3, h4⟩ := hy
    have e := h1.shape.symm.trans h3.shape
    simp only [List.cons.injEq, and_true] at e
    obtain ⟨rfl, rfl⟩ := e
    congr
    funext i j
    rw [← h2, ← h4]

theorem HasShape.unique {o : Obj UserExpr} {s t : Option (ℕ × ℕ)} (h : HasShape o s) (h' : HasShape o t) : s = t := by
  obtain ⟨x, h1, rfl⟩ := h fun _ => 0
  obtain ⟨y, h2, rfl⟩ := h' fun _ => 0
  rw [h1.unique h2]

theorem comparable_of {x y : RealValue} (h : ¬ Clash x.shape y.shape) : x.Comparable y := by
  cases x <;> cases y <;> try trivial
  by_contra hn
  refine h ⟨_, _, rfl, rfl, fun e => hn ?_⟩
  simp only [Prod.mk.injEq] at e
  exact e

theorem clash_of {x y : RealValue} (h : Clash x.shape y.shape) : ¬ x.Comparable y := by
  obtain ⟨a, b, h1, h2, h3⟩ := h
  cases x <;> cases y <;> simp [RealValue.shape] at h1 h2
  subst h1 h2
  rintro ⟨rfl, rfl⟩
  exact h3 rfl

theorem related_iff {R : ℝ → ℝ → Prop} {l r : Obj UserExpr} {v : ℕ → ℝ} {x y : RealValue} (hx : l.Is (valueAt v) x)
    (hy : r.Is (valueAt v) y) : Related R l r v ↔ x.Holds R y := by
  constructor
  · rintro ⟨x', y', h1, h2, h3⟩
    rwa [hx.unique h1, hy.unique h2]
  · exact fun h => ⟨x, y, hx, hy, h⟩

section

variable [Zero UserExpr] [Add UserExpr] [Sub UserExpr] [Mul UserExpr] [Div UserExpr]

/-- Subtraction of expressions subtracts their values. -/
def Subtracts : Prop := ∀ (a b : UserExpr) (v : ℕ → ℝ), (a - b).term.eval v = a.term.eval v - b.term.eval v

omit [Zero UserExpr] [Add UserExpr] [Sub UserExpr] [Mul UserExpr] [Div UserExpr] in
theorem isTrue_of_truth {v : ℕ → ℝ} {x : Res UserExpr} {b : Bool} (h : x.truth (valueAt v) = some b) :
    isTrue v x = b := by
  cases x <;> simp [Res.truth] at h <;> exact h

/-- The result of a comparison that can be made. -/
theorem compare_eval (hsub : Subtracts) {op : PyOp} {l r : Obj UserExpr} (h : Comparable op l r) :
    ∃ x, binary constant op l r = .ok x ∧ x.Constraint op ∧ ∀ v, isTrue v x = true ↔ op.says l r v := by
  obtain ⟨hR, own, s, t, hl, hr, hc⟩ := h
  obtain ⟨R, hR⟩ := Option.ne_none_iff_exists'.1 hR
  have key : ∀ v, ∃ x b, binary constant op l r = .ok x ∧ x.Constraint op ∧ x.truth (valueAt v) = some b ∧
      (b = true ↔ Related R l r v) := by
    intro v
    obtain ⟨y, h1, rfl⟩ := hl v
    obtain ⟨z, h2, rfl⟩ := hr v
    obtain ⟨x, b, k1, k2, k3, k4⟩ := py_compare_correct (ev := valueAt v) (fun a b => hsub a b v) (constant_value v) hR
      h1 h2 own (comparable_of hc)
    exact ⟨x, b, k1, k2, k3, k4.trans (related_iff h1 h2).symm⟩
  obtain ⟨x, -, k1, k2, -⟩ := key fun _ => 0
  refine ⟨x, k1, k2, fun v => ?_⟩
  obtain ⟨x', b, k1', -, k3, k4⟩ := key v
  rw [k1] at k1'
  cases k1'
  rw [isTrue_of_truth k3, k4]
  simp [PyOp.says, hR]

omit [Zero UserExpr] [Add UserExpr] [Sub UserExpr] [Mul UserExpr] [Div UserExpr] in
theorem plain_of {o : Obj UserExpr} (h : NoConversion o) : o.Plain := by cases o <;> exact h

omit [Zero UserExpr] [Add UserExpr] [Mul UserExpr] [Div UserExpr] in
theorem bounds_eval (hsub : Subtracts) {l x u : Obj UserExpr} (h : (Cmp.bounds l x u).Fits) :
    ∃ c, pyBounds constant l x u = .ok (.ineq c) ∧ ∀ v, c.toBool (valueAt v) = true ↔ (Cmp.bounds l x u).Says v := by
  obtain ⟨own, pl, pu, s, t, w, h1, h2, h3, h4, h5⟩ := h
  have key : ∀ v, ∃ c, pyBounds constant l x u = .ok (.ineq c) ∧
      (c.toBool (valueAt v) = true ↔ (Cmp.bounds l x u).Says v) := by
    intro v
    obtain ⟨a, i1, rfl⟩ := h1 v
    obtain ⟨b, i2, rfl⟩ := h2 v
    obtain ⟨c, i3, rfl⟩ := h3 v
    obtain ⟨c, k1, k2⟩ := py_bounds_correct (ev := valueAt v) (fun a b => hsub a b v) (constant_value v) i1 i2 i3
      (plain_of pl) (plain_of pu) own (comparable_of h4) (comparable_of h5)
    exact ⟨c, k1, k2.trans (and_congr (related_iff i1 i2).symm (related_iff i2 i3).symm)⟩
  obtain ⟨c, k1, -⟩ := key fun _ => 0
  refine ⟨c, k1, fun v => ?_⟩
  obtain ⟨c', k1', k2⟩ := key v
  rw [k1] at k1'
  cases k1'
  exact k2

/-- A constraint of this kind. -/
def IsKind (equation : Prop) : Res UserExpr → Prop
  | .eq _ => equation
  | .ineq _ => ¬ equation
  | _ => False

theorem cmp_eval (hsub : Subtracts) (now : ℕ → ℝ) {c : Cmp} (h : c.Fits) :
    ∃ x, c.eval now = .ok x ∧ IsKind c.IsEquation x ∧ ∀ v, isTrue v x = true ↔ c.Says v := by
  cases c with
  | compare op l r =>
      obtain ⟨x, h1, h2, h3⟩ := compare_eval hsub h
      exact ⟨x, h1, by cases x <;> exact h2, h3⟩
  | chain => exact h.elim
  | bounds l x u =>
      obtain ⟨c, h1, h2⟩ := bounds_eval hsub h
      exact ⟨.ineq c, h1, id, h2⟩

theorem evalAll_eq (hsub : Subtracts) (now : ℕ → ℝ) {l : List Cmp} (h : ∀ c ∈ l, c.Fits) :
    ∃ rs, evalAll now l = .ok rs ∧ List.Forall₂ (fun c x => IsKind c.IsEquation x ∧
      ∀ v, isTrue v x = true ↔ c.Says v) l rs := by
  induction l with
  | nil => exact ⟨[], rfl, .nil⟩
  | cons c l ih =>
      obtain ⟨rs, h1, h2⟩ := ih fun c hc => h c (.tail _ hc)
      obtain ⟨x, h3, h4⟩ := cmp_eval hsub now (h c (.head _))
      refine ⟨x :: rs, ?_, .cons h4 h2⟩
      unfold evalAll at h1 ⊢
      rw [List.mapM_cons, h3, h1]
      rfl

omit [Zero UserExpr] [Add UserExpr] [Sub UserExpr] [Mul UserExpr] [Div UserExpr] in
theorem eq_concat (v : ℕ → ℝ) : ∀ (cs : List (EqualityConstraints UserExpr)),
    (EqualityConstraints.concat cs).toBool (valueAt v) = true ↔ ∀ c ∈ cs, c.toBool (valueAt v) = true := by
  intro cs
  have key : ∀ (cs : List (EqualityConstraints UserExpr)) (acc : List UserExpr) (e : UserExpr),
      e ∈ cs.foldl (fun acc e => acc ++ e.constraints) acc ↔ e ∈ acc ∨ ∃ c ∈ cs, e ∈ c.constraints := by
    intro cs
    induction cs with
    | nil => simp
    | cons c cs ih => intro acc e; rw [List.foldl_cons, ih]; simp [or_assoc]
  simp only [EqualityConstraints.concat, EqualityConstraints.toBool, List.all_eq_true, key, List.not_mem_nil, false_or]
  exact ⟨fun h c hc e he => h e ⟨c, hc, he⟩, fun h e ⟨c, hc, he⟩ => h c hc e he⟩

omit [Zero UserExpr] [Add UserExpr] [Sub UserExpr] [Mul UserExpr] [Div UserExpr] in
theorem ineq_concat (v : ℕ → ℝ) : ∀ (cs : List (InequalityConstraints UserExpr)),
    (InequalityConstraints.concat cs).toBool (valueAt v) = true ↔ ∀ c ∈ cs, c.toBool (valueAt v) = true := by
  intro cs
  have key : ∀ (cs : List (InequalityConstraints UserExpr)) (acc : List UserExpr) (e : UserExpr),
      e ∈ cs.foldl (fun acc e => acc ++ e.constraints) acc ↔ e ∈ acc ∨ ∃ c ∈ cs, e ∈ c.constraints := by
    intro cs
    induction cs with
    | nil => simp
    | cons c cs ih => intro acc e; rw [List.foldl_cons, ih]; simp [or_assoc]
  simp only [InequalityConstraints.concat, InequalityConstraints.toBool, List.all_eq_true, key, List.not_mem_nil, false_or]
  exact ⟨fun h c hc e he => h e ⟨c, hc, he⟩, fun h e ⟨c, hc, he⟩ => h c hc e he⟩

/-- The argument of `subject_to`, if it can be made. -/
theorem arg_eval (hsub : Subtracts) (now : ℕ → ℝ) {c : ConstraintArg} (h : c.Fits) :
    ∃ x, c.eval now = .ok x ∧ ((∃ e, x = .eq e) ∨ ∃ e, x = .ineq e) ∧ ∀ v, isTrue v x = true ↔ c.Says v := by
  cases c with
  | one c =>
      obtain ⟨x, h1, h2, h3⟩ := cmp_eval hsub now h
      refine ⟨x, by simp [ConstraintArg.eval, h1, Outcome.get], ?_, h3⟩
      cases x with
      | eq e => exact .inl ⟨e, rfl⟩
      | ineq e => exact .inr ⟨e, rfl⟩
      | _ => exact h2.elim
  | equalities l =>
      obtain ⟨rs, h1, h2⟩ := evalAll_eq hsub now fun c hc => (h c hc).1
      have : ∃ cs, rs.mapM asEq = .ok cs ∧ ∀ v, (∀ c ∈ cs, c.toBool (valueAt v) = true) ↔ ∀ c ∈ l, c.Says v := by
        have he : ∀ c ∈ l, c.IsEquation := fun c hc => (h c hc).2
        clear h h1
        induction h2 with
        | nil => exact ⟨[], rfl, by simp⟩
        | @cons c x l rs hx _ ih =>
            obtain ⟨cs, k1, k2⟩ := ih fun c hc => he c (.tail _ hc)
            cases x with
            | eq e =>
                refine ⟨e :: cs, by rw [List.mapM_cons, k1]; rfl, fun v => ?_⟩
                simp only [List.forall_mem_cons, k2]
                exact and_congr_left fun _ => hx.2 v
            | ineq e => exact absurd (he c (.head _)) hx.1
            | _ => exact hx.1.elim
      obtain ⟨cs, k1, k2⟩ := this
      refine ⟨.eq (.concat cs), by simp only [ConstraintArg.eval, h1]; change (do let cs ← rs.mapM asEq; _) = _; rw [k1]; rfl, .inl ⟨_, rfl⟩, fun v => ?_⟩
      exact (eq_concat v cs).trans (k2 v)
  | inequalities l =>
      obtain ⟨rs, h1, h2⟩ := evalAll_eq hsub now fun c hc => (h c hc).1
      have : ∃ cs, rs.mapM asIneq = .ok cs ∧ ∀ v, (∀ c ∈ cs, c.toBool (valueAt v) = true) ↔ ∀ c ∈ l, c.Says v := by
        have he : ∀ c ∈ l, ¬ c.IsEquation := fun c hc => (h c hc).2
        clear h h1
        induction h2 with
        | nil => exact ⟨[], rfl, by simp⟩
        | @cons c x l rs hx _ ih =>
            obtain ⟨cs, k1, k2⟩ := ih fun c hc => he c (.tail _ hc)
            cases x with
            | ineq e =>
                refine ⟨e :: cs, by rw [List.mapM_cons, k1]; rfl, fun v => ?_⟩
                simp only [List.forall_mem_cons, k2]
                exact and_congr_left fun _ => hx.2 v
            | eq e => exact absurd hx.1 (he c (.head _))
            | _ => exact hx.1.elim
      obtain ⟨cs, k1, k2⟩ := this
      refine ⟨.ineq (.concat cs), by simp only [ConstraintArg.eval, h1]; change (do let cs ← rs.mapM asIneq; _) = _; rw [k1]; rfl, .inr ⟨_, rfl⟩, fun v => ?_⟩
      exact (ineq_concat v cs).trans (k2 v)

omit [Zero UserExpr] [Add UserExpr] [Sub UserExpr] [Mul UserExpr] [Div UserExpr] in
theorem eq_true {c : EqualityConstraints UserExpr} {v : ℕ → ℝ} :
    c.toBool (valueAt v) = true ↔ ∀ e ∈ c.constraints, e.term.eval v = 0 := by
  simp only [EqualityConstraints.toBool, List.all_eq_true, decide_eq_true_eq]
  rfl

omit [Zero UserExpr] [Add UserExpr] [Sub UserExpr] [Mul UserExpr] [Div UserExpr] in
theorem ineq_true {c : InequalityConstraints UserExpr} {v : ℕ → ℝ} :
    c.toBool (valueAt v) = true ↔ ∀ e ∈ c.constraints, 0 ≤ e.term.eval v := by
  simp only [InequalityConstraints.toBool, List.all_eq_true, decide_eq_true_eq]
  rfl

omit [Zero UserExpr] [Add UserExpr] [Sub UserExpr] [Mul UserExpr] [Div UserExpr] in
theorem costArg_eval {x : Obj UserExpr} {F : (ℕ → ℝ) → ℝ} (h : CostIs x F) :
    ∃ e, costArg x = .ok e ∧ ∀ v, e.term.eval v = F v := by
  obtain ⟨ha, h⟩ := h
  have hr : resolve constant [[.float], [.var], [.mat]] [x] = some [x.operand constant] := by
    have h0 : ∃ y, x.Is (valueAt fun _ => 0) y := h.elim (fun h => ⟨_, h _⟩) fun h => ⟨_, h _⟩
    obtain ⟨y, hy⟩ := h0
    have : ∃ t ∈ [Ty.float, .var, .mat], (accepts constant true t x).isSome := by
      cases x <;> simp [Obj.kind] at ha <;> simp [accepts]
      cases y <;> exact hy
    obtain ⟨t, ht, h1⟩ := this
    refine resolve_takes ⟨[t], ?_, .cons h1 .nil⟩
    simpa using ht
  unfold costArg
  rw [hr]
  rcases h with h | h
  · have k := fun v => operand_scalar (constant_value v) (h v)
    obtain ⟨a, h1, -⟩ := k fun _ => 0
    refine ⟨a, by rw [h1], fun v => ?_⟩
    obtain ⟨a', h1', h2⟩ := k v
    rw [h1] at h1'
    cases h1'
    exact h2
  · have k := fun v => operand_matrix (constant_value v) (h v)
    obtain ⟨A, h1, h2, h3, h4⟩ := k fun _ => 0
    obtain ⟨a, h5, -⟩ := h4 0 0
    have h5' : A.get 0 0 = some a := by simpa using h5
    refine ⟨a, by rw [h1]; simp [h2, h3, h5'], fun v => ?_⟩
    obtain ⟨A', h1', -, -, h4'⟩ := k v
    rw [h1] at h1'
    cases h1'
    obtain ⟨a', h6, h7⟩ := h4' 0 0
    rw [h5] at h6
    cases h6
    exact h7

omit [Zero UserExpr] [Add UserExpr] [Sub UserExpr] [Mul UserExpr] [Div UserExpr] in
theorem sizeArg_eval {o : Obj UserExpr} {n : ℕ} (h : Size o n) : sizeArg o = .ok n := by
  obtain ⟨rfl, h⟩ := h
  have : intMin ≤ (n : ℤ) ∧ (n : ℤ) ≤ intMax := ⟨by simp [intMin], by simpa [intMax] using h⟩
  simp [sizeArg, this]

end

end Slp.Py
