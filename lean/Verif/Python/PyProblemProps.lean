import Verif.Python.PyProblemLemmas
import Verif.Problem.DeclareProps

/-! C76: a problem built in Python is the problem that the program states. -/

namespace Slp.Py

open Slp.VMat Slp.Slicing

section

variable [Zero UserExpr] [Add UserExpr] [Sub UserExpr] [Mul UserExpr] [Div UserExpr]

theorem exec_ok {st : Problem × Store} {c : PyCmd} {cmd : ProblemCmd} (h : c.call (reals st.2.val) = .ok cmd) :
    PyCmd.exec st c = cmd.exec st := by
  simp only [PyCmd.exec, h]

/-- C76: `decision_variable()` makes one variable, `decision_variable(rows)` a column and `decision_variable(rows, cols)`
a matrix; `symmetric_decision_variable(rows)` makes one variable for each element on or below the diagonal. -/
theorem py_declare_correct {c : PyCmd} {n : ℕ} (h : c.Declares n) (hf : c.Fits) (hc : ¬ c.SetsCost)
    (hs : ∀ a, c ≠ .subjectTo a) (hv : ∀ k x, c ≠ .setValue k x) (st : Problem × Store) :
    (∃ cmd, c.call (reals st.2.val) = .ok cmd) ∧
      Grown st.1 st.2 n (PyCmd.exec st c).1 (PyCmd.exec st c).2 := by
  cases c with
  | decisionVariable args =>
      rcases h with ⟨rfl, rfl⟩ | ⟨r, m, rfl, h1, rfl⟩ | ⟨r, c, m, k, rfl, h1, h2, rfl⟩
      · exact ⟨⟨_, rfl⟩, grown_one _ _⟩
      · have e : PyCmd.call (reals st.2.val) (.decisionVariable [r]) = .ok (.matrix n 1) := by
          simp only [PyCmd.call, sizeArg_eval h1]; rfl
        refine ⟨⟨_, e⟩, ?_⟩
        rw [exec_ok e]
        have := (decision_matrix_correct st.1 st.2 n 1).1
        rw [Nat.mul_one] at this
        exact this
      · have e : PyCmd.call (reals st.2.val) (.decisionVariable [r, c]) = .ok (.matrix m k) := by
          simp only [PyCmd.call, sizeArg_eval h1, sizeArg_eval h2]; rfl
        refine ⟨⟨_, e⟩, ?_⟩
        rw [exec_ok e]
        exact (decision_matrix_correct st.1 st.2 m k).1
  | symmetricDecisionVariable args =>
      obtain ⟨r, m, rfl, h1, rfl⟩ := h
      have e : PyCmd.call (reals st.2.val) (.symmetricDecisionVariable [r]) = .ok (.symmetric m) := by
        simp only [PyCmd.call, sizeArg_eval h1]; rfl
      refine ⟨⟨_, e⟩, ?_⟩
      rw [exec_ok e]
      exact (symmetric_matrix_correct st.1 st.2 m).1
  | minimize => exact absurd trivial hc
  | maximize => exact absurd trivial hc
  | subjectTo a => exact absurd rfl (hs a)
  | setValue k x => exact absurd rfl (hv k x)

/-- What a call does to the problem. -/
structure Effect (c : PyCmd) (p q : Problem) : Prop where
  feasible : ∀ v, q.Feasible v ↔ p.Feasible v ∧ c.Says v
  cost : ¬ c.SetsCost → q.cost = p.cost
  minimized : ∀ x F, c = .minimize x → CostIs x F → ∃ e, q.cost = some e ∧ ∀ v, e.term.eval v = F v
  maximized : ∀ x F, c = .maximize x → CostIs x F → ∃ e, q.cost = some e ∧ ∀ v, e.term.eval v = -F v
  callbacks : q.callbacks = p.callbacks ∧ q.persistent = p.persistent

omit [Zero UserExpr] [Add UserExpr] [Sub UserExpr] [Mul UserExpr] [Div UserExpr] in
theorem grown_effect {c : PyCmd} {p q : Problem} {s t : Store} {n : ℕ} (h : Grown p s n q t)
    (hs : ∀ v, c.Says v) (hc : ¬ c.SetsCost) : Effect c p q := by
  obtain ⟨h1, h2, h3, h4, h5⟩ := h.rest
  refine ⟨fun v => ?_, fun _ => h1, ?_, ?_, h4, h5⟩
  · simp [Problem.Feasible, h2, h3, hs]
  · rintro x F rfl; exact absurd trivial hc
  · rintro x F rfl; exact absurd trivial hc

/-- C76: a call that can be made raises no exception and has the stated effect. -/
theorem py_call_fits (hsub : Subtracts) {c : PyCmd} (h : c.Fits) (st : Problem × Store) :
    (∃ cmd, c.call (reals st.2.val) = .ok cmd) ∧ Effect c st.1 (PyCmd.exec st c).1 := by
  cases c with
  | decisionVariable args =>
      obtain ⟨n, hn⟩ := h
      have := py_declare_correct hn ⟨n, hn⟩ id (by simp) (by simp) st
      exact ⟨this.1, grown_effect this.2 (fun _ => trivial) id⟩
  | symmetricDecisionVariable args =>
      obtain ⟨n, hn⟩ := h
      have := py_declare_correct hn ⟨n, hn⟩ id (by simp) (by simp) st
      exact ⟨this.1, grown_effect this.2 (fun _ => trivial) id⟩
  | minimize x =>
      obtain ⟨F, hF⟩ := h
      obtain ⟨e, h1, h2⟩ := costArg_eval hF
      have h3 : PyCmd.call (reals st.2.val) (.minimize x) = .ok (.minimize e) := by
        simp only [PyCmd.call, h1]; rfl
      refine ⟨⟨_, h3⟩, ?_⟩
      rw [exec_ok h3]
      refine ⟨fun v => ⟨fun h => ⟨h, trivial⟩, fun h => h.1⟩, fun h => absurd trivial h, ?_, ?_, rfl, rfl⟩
      · rintro y G he hG
        cases he
        obtain ⟨e', h4, h5⟩ := costArg_eval hG
        rw [h1] at h4
        cases h4
        exact ⟨e, rfl, h5⟩
      · rintro y G he
        cases he
  | maximize x =>
      obtain ⟨F, hF⟩ := h
      obtain ⟨e, h1, h2⟩ := costArg_eval hF
      have h3 : PyCmd.call (reals st.2.val) (.maximize x) = .ok (.maximize e) := by
        simp only [PyCmd.call, h1]; rfl
      refine ⟨⟨_, h3⟩, ?_⟩
      rw [exec_ok h3]
      refine ⟨fun v => ⟨fun h => ⟨h, trivial⟩, fun h => h.1⟩, fun h => absurd trivial h, ?_, ?_, rfl, rfl⟩
      · rintro y G he
        cases he
      · rintro y G he hG
        cases he
        obtain ⟨e', h4, h5⟩ := costArg_eval hG
        rw [h1] at h4
        cases h4
        exact ⟨e.neg, rfl, fun v => by rw [maximize_negates, h5]⟩
  | subjectTo a =>
      obtain ⟨x, h1, h2, h3⟩ := arg_eval hsub (reals st.2.val) (c := a) h
      rcases h2 with ⟨e, rfl⟩ | ⟨e, rfl⟩
      · have h4 : PyCmd.call (reals st.2.val) (.subjectTo a) = .ok (.subjectToEq e.constraints) := by
          simp only [PyCmd.call, h1]; rfl
        refine ⟨⟨_, h4⟩, ?_⟩
        rw [exec_ok h4]
        refine ⟨fun v => ?_, fun _ => rfl, (fun _ _ he => nomatch he), (fun _ _ he => nomatch he), rfl, rfl⟩
        exact (feasible_eq _ _ v).trans (and_congr_right fun _ => eq_true.symm.trans (h3 v))
      · have h4 : PyCmd.call (reals st.2.val) (.subjectTo a) = .ok (.subjectToIneq e.constraints) := by
          simp only [PyCmd.call, h1]; rfl
        refine ⟨⟨_, h4⟩, ?_⟩
        rw [exec_ok h4]
        refine ⟨fun v => ?_, fun _ => rfl, (fun _ _ he => nomatch he), (fun _ _ he => nomatch he), rfl, rfl⟩
        exact (feasible_ineq _ _ v).trans (and_congr_right fun _ => ineq_true.symm.trans (h3 v))
  | setValue k x =>
      exact ⟨⟨_, rfl⟩, fun v => ⟨fun h => ⟨h, trivial⟩, fun h => h.1⟩, fun _ => rfl, (fun _ _ he => nomatch he),
        (fun _ _ he => nomatch he), rfl, rfl⟩

omit [Zero UserExpr] [Add UserExpr] [Sub UserExpr] [Mul UserExpr] [Div UserExpr] in
theorem costArg_wrong {x : Obj UserExpr}
    (h : x.kind = .array ∨ x.kind = .other ∨ ∃ m n, HasShape x (some (m, n)) ∧ (m, n) ≠ (1, 1)) :
    ∃ e, costArg x = .error e ∧ e ≠ .outside := by
  have refuse : x.kind = .array ∨ x.kind = .other → ∃ e, costArg x = .error e ∧ e ≠ .outside := by
    intro h
    have hr : resolve constant [[.float], [.var], [.mat]] [x] = none := by
      refine resolve_refuses ?_
      rintro ⟨tys, h1, h2⟩
      simp only [List.mem_cons, List.not_mem_nil, or_false] at h1
      rcases h1 with rfl | rfl | rfl <;> cases h2 with
        | cons h2 _ => cases x <;> simp [Obj.kind] at h <;> simp [accepts] at h2
    exact ⟨.typeError, by simp [costArg, hr], by simp⟩
  rcases h with h | h | ⟨m, n, h1, h2⟩
  · exact refuse (.inl h)
  · exact refuse (.inr h)
  · by_cases ha : x.kind = .array ∨ x.kind = .other
    · exact refuse ha
    obtain ⟨y, h3, h4⟩ := h1 fun _ => 0
    have hr : resolve constant [[.float], [.var], [.mat]] [x] = some [x.operand constant] := by
      have : ∃ t ∈ [Ty.float, .var, .mat], (accepts constant true t x).isSome := by
        cases x <;> simp [Obj.kind] at ha <;> simp [accepts]
      obtain ⟨t, ht, h1⟩ := this
      refine resolve_takes ⟨[t], ?_, .cons h1 .nil⟩
      simpa using ht
    cases y with
    | scalar => cases h4
    | matrix m' n' M =>
        simp only [RealValue.shape, Option.some.injEq, Prod.mk.injEq] at h4
        obtain ⟨rfl, rfl⟩ := h4
        obtain ⟨A, h5, h6, h7, -⟩ := operand_matrix (constant_value _) h3
        refine ⟨.valueError, ?_, by simp⟩
        have : ¬ (A.rows = 1 ∧ A.cols = 1) := by
          rintro ⟨c1, c2⟩
          exact h2 (by rw [Prod.mk.injEq]; omega)
        simp only [costArg, hr, h5, if_neg this]

omit [Zero UserExpr] [Add UserExpr] [Sub UserExpr] [Mul UserExpr] [Div UserExpr] in
theorem sizeArg_wrong {o : Obj UserExpr} (h : ∀ z, o ≠ .int z) : sizeArg o = .error .typeError := by
  cases o <;> first | rfl | exact absurd rfl (h _)

omit [Zero UserExpr] [Add UserExpr] [Sub UserExpr] [Mul UserExpr] [Div UserExpr] in
theorem sizeArg_error {o : Obj UserExpr} {e : PyError} (h : sizeArg o = .error e) (hz : ∀ z, o = .int z → 0 ≤ z) :
    e ≠ .outside := by
  rintro rfl
  cases o with
  | int z =>
      simp only [sizeArg, hz z rfl, if_true] at h
      split at h <;> cases h
  | _ => cases h

/-- C76: mistakes raise `TypeError` or `ValueError` and change nothing. -/
theorem py_call_wrong {c : PyCmd} (h : c.Wrong) (st : Problem × Store) :
    (∃ e, c.call (reals st.2.val) = .error e ∧ e ≠ .outside) ∧ PyCmd.exec st c = st := by
  have : ∃ e, c.call (reals st.2.val) = .error e ∧ e ≠ .outside := by
    cases c with
    | minimize x =>
        obtain ⟨e, h1, h2⟩ := costArg_wrong h
        exact ⟨e, by simp only [PyCmd.call, h1]; rfl, h2⟩
    | maximize x =>
        obtain ⟨e, h1, h2⟩ := costArg_wrong h
        exact ⟨e, by simp only [PyCmd.call, h1]; rfl, h2⟩
    | subjectTo a =>
        cases a with
        | one c =>
            cases c with
            | compare op l r =>
                obtain ⟨hR, own, s, t, hl, hr, hc⟩ := h
                obtain ⟨y, h1, rfl⟩ := hl fun _ => 0
                obtain ⟨z, h2, rfl⟩ := hr fun _ => 0
                have := py_compare_mismatch (constant_value _) hR h1 h2 own (clash_of hc)
                exact ⟨.valueError, by simp only [PyCmd.call, ConstraintArg.eval, Cmp.eval, this]; rfl, by simp⟩
            | chain => exact h.elim
            | bounds => exact h.elim
        | equalities => exact h.elim
        | inequalities => exact h.elim
    | decisionVariable args =>
        rcases args with _ | ⟨a, _ | ⟨b, _ | ⟨c, l⟩⟩⟩
        · rcases h.1 with h | ⟨o, ho, -⟩
          · simp at h
          · cases ho
        · obtain ⟨h, hz⟩ := h
          rcases h with h | ⟨o, ho, h⟩
          · simp at h
          · simp only [List.mem_singleton] at ho
            subst ho
            exact ⟨.typeError, by simp only [PyCmd.call, sizeArg_wrong h]; rfl, by simp⟩
        · obtain ⟨h, hz⟩ := h
          rcases h with h | ⟨o, ho, h⟩
          · simp at h
          · simp only [List.mem_cons, List.not_mem_nil, or_false] at ho
            rcases ho with rfl | rfl
            · exact ⟨.typeError, by simp only [PyCmd.call, sizeArg_wrong h]; rfl, by simp⟩
            · cases ha : sizeArg a with
              | error e => exact ⟨e, by simp only [PyCmd.call, ha]; rfl, sizeArg_error ha fun z hz' => hz z (by simp [hz'])⟩
              | ok m => exact ⟨.typeError, by simp only [PyCmd.call, ha, sizeArg_wrong h]; rfl, by simp⟩
        · exact ⟨.typeError, rfl, by simp⟩
    | symmetricDecisionVariable args =>
        rcases args with _ | ⟨a, _ | ⟨b, l⟩⟩
        · exact ⟨.typeError, rfl, by simp⟩
        · obtain ⟨h, hz⟩ := h
          rcases h with h | ⟨o, ho, h⟩
          · simp at h
          · simp only [List.mem_singleton] at ho
            subst ho
            exact ⟨.typeError, by simp only [PyCmd.call, sizeArg_wrong h]; rfl, by simp⟩
        · exact ⟨.typeError, rfl, by simp⟩
    | setValue => exact h.elim
  refine ⟨this, ?_⟩
  obtain ⟨e, he, -⟩ := this
  simp only [PyCmd.exec, he]

omit [Zero UserExpr] [Add UserExpr] [Sub UserExpr] [Mul UserExpr] [Div UserExpr] in
/-- No constraint that can be made is a mistake. -/
theorem fits_not_clashes {c : Cmp} (h : c.Fits) : ¬ c.Clashes := by
  cases c with
  | compare op l r =>
      obtain ⟨-, -, s, t, h1, h2, h3⟩ := h
      rintro ⟨-, -, s', t', h1', h2', h3'⟩
      rw [h1.unique h1', h2.unique h2'] at h3
      exact h3 h3'
  | chain => exact id
  | bounds => exact id

theorem exec_store (c : PyCmd) (st : Problem × Store) : st.2.next ≤ (PyCmd.exec st c).2.next ∧
    ∀ k, k < st.2.next → (PyCmd.exec st c).2.val k = (lastSet k [c]).getD (st.2.val k) := by
  have grown : ∀ {n q t}, Grown st.1 st.2 n q t → st.2.next ≤ t.next ∧ ∀ k, k < st.2.next → t.val k = st.2.val k :=
    fun g => ⟨by rw [g.next]; omega, fun k hk => g.old k (.inl hk)⟩
  have same : PyCmd.exec st c = st → st.2.next ≤ (PyCmd.exec st c).2.next ∧
      ∀ k, k < st.2.next → (PyCmd.exec st c).2.val k = st.2.val k := fun e => by rw [e]; exact ⟨le_rfl, fun _ _ => rfl⟩
  cases c with
  | decisionVariable args =>
      change _ ∧ ∀ k, k < st.2.next → (PyCmd.exec st (.decisionVariable args)).2.val k = st.2.val k
      match args with
      | [] => exact grown (grown_one _ _)
      | [r] =>
          cases h : sizeArg r with
          | error e => exact same (by simp only [PyCmd.exec, PyCmd.call, h]; rfl)
          | ok m =>
              have e : PyCmd.call (reals st.2.val) (.decisionVariable [r]) = .ok (.matrix m 1) := by
                simp only [PyCmd.call, h]; rfl
              rw [exec_ok e]
              exact grown (decision_matrix_correct st.1 st.2 m 1).1
      | [r, c] =>
          cases h : sizeArg r with
          | error e => exact same (by simp only [PyCmd.exec, PyCmd.call, h]; rfl)
          | ok m =>
              cases h' : sizeArg c with
              | error e => exact same (by simp only [PyCmd.exec, PyCmd.call, h, h']; rfl)
              | ok n =>
                  have e : PyCmd.call (reals st.2.val) (.decisionVariable [r, c]) = .ok (.matrix m n) := by
                    simp only [PyCmd.call, h, h']; rfl
                  rw [exec_ok e]
                  exact grown (decision_matrix_correct st.1 st.2 m n).1
      | _ :: _ :: _ :: _ => exact same rfl
  | symmetricDecisionVariable args =>
      change _ ∧ ∀ k, k < st.2.next → (PyCmd.exec st (.symmetricDecisionVariable args)).2.val k = st.2.val k
      match args with
      | [] => exact same rfl
      | [r] =>
          cases h : sizeArg r with
          | error e => exact same (by simp only [PyCmd.exec, PyCmd.call, h]; rfl)
          | ok m =>
              have e : PyCmd.call (reals st.2.val) (.symmetricDecisionVariable [r]) = .ok (.symmetric m) := by
                simp only [PyCmd.call, h]; rfl
              rw [exec_ok e]
              exact grown (symmetric_matrix_correct st.1 st.2 m).1
      | _ :: _ :: _ => exact same rfl
  | minimize x =>
      change _ ∧ ∀ k, k < st.2.next → (PyCmd.exec st (.minimize x)).2.val k = st.2.val k
      cases h : costArg x with
      | error e => exact same (by simp only [PyCmd.exec, PyCmd.call, h]; rfl)
      | ok a =>
          have e : PyCmd.call (reals st.2.val) (.minimize x) = .ok (.minimize a) := by simp only [PyCmd.call, h]; rfl
          rw [exec_ok e]
          exact ⟨le_rfl, fun _ _ => rfl⟩
  | maximize x =>
      change _ ∧ ∀ k, k < st.2.next → (PyCmd.exec st (.maximize x)).2.val k = st.2.val k
      cases h : costArg x with
      | error e => exact same (by simp only [PyCmd.exec, PyCmd.call, h]; rfl)
      | ok a =>
          have e : PyCmd.call (reals st.2.val) (.maximize x) = .ok (.maximize a) := by simp only [PyCmd.call, h]; rfl
          rw [exec_ok e]
          exact ⟨le_rfl, fun _ _ => rfl⟩
  | subjectTo a =>
      change _ ∧ ∀ k, k < st.2.next → (PyCmd.exec st (.subjectTo a)).2.val k = st.2.val k
      cases h : PyCmd.call (reals st.2.val) (.subjectTo a) with
      | error e => exact same (by simp only [PyCmd.exec, h])
      | ok cmd =>
          have hc : (∃ es, cmd = .subjectToEq es) ∨ ∃ es, cmd = .subjectToIneq es := by
            cases h' : a.eval (reals st.2.val) with
            | error e => simp only [PyCmd.call, h'] at h; cases h
            | ok r =>
                simp only [PyCmd.call, h'] at h
                cases r with
                | eq c => cases h; exact .inl ⟨_, rfl⟩
                | ineq c => cases h; exact .inr ⟨_, rfl⟩
                | _ => cases h
          rw [exec_ok h]
          rcases hc with ⟨es, rfl⟩ | ⟨es, rfl⟩ <;> exact ⟨le_rfl, fun _ _ => rfl⟩
  | setValue j x =>
      refine ⟨le_rfl, fun k _ => ?_⟩
      change Function.update st.2.val j x k = _
      simp only [lastSet, List.foldl_cons, List.foldl_nil, Function.update_apply]
      by_cases h : j = k
      · simp [h]
      · rw [if_neg h, if_neg (Ne.symm h)]
        rfl

/-- C76: a variable has the value that `set_value` gave it last; no other call changes it. -/
theorem py_values_correct (cs : List PyCmd) (st : Problem × Store) {k : ℕ} (hk : k < st.2.next) :
    (runPy st cs).2.val k = (lastSet k cs).getD (st.2.val k) := by
  have shift : ∀ (l : List PyCmd) (r : Option Fl) (x : Fl), (l.foldl (fun r c => match c with
      | .setValue j x => if j = k then some x else r
      | _ => r) r).getD x = (lastSet k l).getD (r.getD x) := by
    intro l
    induction l using List.reverseRecOn with
    | nil => exact fun _ _ => rfl
    | append_singleton l c ih =>
        intro r x
        simp only [lastSet, List.foldl_append, List.foldl_cons, List.foldl_nil]
        cases c with
        | setValue j y =>
            by_cases h : j = k
            · simp [h]
            · simp only [h, if_false]
              exact ih r x
        | _ => exact ih r x
  induction cs generalizing st with
  | nil => rfl
  | cons c cs ih =>
      have e := exec_store c st
      change (runPy (PyCmd.exec st c) cs).2.val k = _
      rw [ih _ (lt_of_lt_of_le hk e.1), e.2 k hk]
      exact (shift cs _ _).symm

/-- C76: after any program whose calls can be made or are mistakes, the feasible points are exactly those at which all
constraints that could be made hold. -/
theorem py_problem_correct (hsub : Subtracts) (cs : List PyCmd) (h : ∀ c ∈ cs, c.Fits ∨ c.Wrong) (st : Problem × Store)
    (v : ℕ → ℝ) : (runPy st cs).1.Feasible v ↔ st.1.Feasible v ∧ ∀ c ∈ cs, c.Fits → c.Says v := by
  induction cs generalizing st with
  | nil => simp [runPy]
  | cons c cs ih =>
      have ih := ih (fun c hc => h c (.tail _ hc)) (PyCmd.exec st c)
      have e : runPy st (c :: cs) = runPy (PyCmd.exec st c) cs := rfl
      rw [e, ih]
      simp only [List.forall_mem_cons]
      rcases h c (.head _) with hf | hw
      · rw [(py_call_fits hsub hf st).2.feasible v]
        constructor
        · rintro ⟨⟨h1, h2⟩, h3⟩; exact ⟨h1, fun _ => h2, h3⟩
        · rintro ⟨h1, h2, h3⟩; exact ⟨⟨h1, h2 hf⟩, h3⟩
      · rw [(py_call_wrong hw st).2]
        refine and_congr_right fun _ => ⟨fun h => ⟨fun hf => ?_, h⟩, fun h => h.2⟩
        cases c with
        | subjectTo a =>
            cases a with
            | one c => exact absurd hw (fits_not_clashes hf)
            | equalities => exact hw.elim
            | inequalities => exact hw.elim
        | _ => trivial

/-- C76: the cost that is minimised is that of the last call of `minimize` or `maximize` that could be made, negated for
`maximize`. -/
theorem py_cost_correct (hsub : Subtracts) (before after : List PyCmd) (c : PyCmd)
    (ha : ∀ d ∈ after, (d.Fits ∧ ¬ d.SetsCost) ∨ d.Wrong) (st : Problem × Store) {x : Obj UserExpr}
    {F : (ℕ → ℝ) → ℝ} (hF : CostIs x F) :
    (c = .minimize x → ∃ e, (runPy st (before ++ c :: after)).1.cost = some e ∧ ∀ v, e.term.eval v = F v) ∧
      (c = .maximize x → ∃ e, (runPy st (before ++ c :: after)).1.cost = some e ∧ ∀ v, e.term.eval v = -F v) := by
  have keep : ∀ (l : List PyCmd) (st : Problem × Store), (∀ d ∈ l, (d.Fits ∧ ¬ d.SetsCost) ∨ d.Wrong) →
      (runPy st l).1.cost = st.1.cost := by
    intro l
    induction l with
    | nil => exact fun _ _ => rfl
    | cons d l ih =>
        intro st h
        have e : runPy st (d :: l) = runPy (PyCmd.exec st d) l := rfl
        rw [e, ih _ fun c hc => h c (.tail _ hc)]
        rcases h d (.head _) with ⟨hf, hc⟩ | hw
        · exact (py_call_fits hsub hf st).2.cost hc
        · rw [(py_call_wrong hw st).2]
  have e : runPy st (before ++ c :: after) = runPy (PyCmd.exec (runPy st before) c) after := by
    simp [runPy]
  rw [e, keep _ _ ha]
  constructor
  · rintro rfl
    exact (py_call_fits hsub (c := .minimize x) ⟨F, hF⟩ _).2.minimized x F rfl hF
  · rintro rfl
    exact (py_call_fits hsub (c := .maximize x) ⟨F, hF⟩ _).2.maximized x F rfl hF

/-- C76: a cost that is a number is constant to the solver, and a cost that is an expression has the type of that
expression, whether it is minimised or maximised. -/
theorem py_cost_type (st : Problem × Store) :
    (∀ z : ℤ, (PyCmd.exec st (.minimize (.int z))).1.costType = .constant ∧
      (PyCmd.exec st (.maximize (.int z))).1.costType = .constant) ∧
    (∀ r : ℝ, (PyCmd.exec st (.minimize (.float r))).1.costType = .constant ∧
      (PyCmd.exec st (.maximize (.float r))).1.costType = .constant) ∧
    ∀ a : UserExpr, (PyCmd.exec st (.minimize (.var a))).1.costType = a.ty ∧
      (PyCmd.exec st (.maximize (.var a))).1.costType = a.ty := by
  have h : ∀ (x : Obj UserExpr) (a : UserExpr), costArg x = .ok a →
      (PyCmd.exec st (.minimize x)).1.costType = a.ty ∧ (PyCmd.exec st (.maximize x)).1.costType = a.ty := by
    intro x a h
    have h1 : PyCmd.exec st (.minimize x) = ProblemCmd.exec (.minimize a) st := by
      simp only [PyCmd.exec, PyCmd.call, h]; rfl
    have h2 : PyCmd.exec st (.maximize x) = ProblemCmd.exec (.maximize a) st := by
      simp only [PyCmd.exec, PyCmd.call, h]; rfl
    rw [h1, h2]
    exact ⟨rfl, rfl⟩
  refine ⟨fun z => h _ (constant z) ?_, fun r => h _ (constant r) ?_, fun a => h _ a ?_⟩
  · rfl
  · rfl
  · rfl

/-- C76: a chained comparison in `subject_to` keeps only one of its two comparisons: the second one if the first one
holds at the current values of the variables, and otherwise the first one. -/
theorem chain_keeps_one (hsub : Subtracts) {l x r : Obj UserExpr} {op op' : PyOp} (h1 : Comparable op l x)
    (h2 : Comparable op' x r) (st : Problem × Store) (v : ℕ → ℝ) :
    (op.says l x (reals st.2.val) →
      ((PyCmd.exec st (.subjectTo (.one (.chain l op x op' r)))).1.Feasible v ↔ st.1.Feasible v ∧ op'.says x r v)) ∧
    (¬ op.says l x (reals st.2.val) →
      ((PyCmd.exec st (.subjectTo (.one (.chain l op x op' r)))).1.Feasible v ↔ st.1.Feasible v ∧ op.says l x v)) := by
  have same : ∀ {d : Cmp}, Cmp.eval (reals st.2.val) (.chain l op x op' r) = d.eval (reals st.2.val) →
      PyCmd.exec st (.subjectTo (.one (.chain l op x op' r))) = PyCmd.exec st (.subjectTo (.one d)) := by
    intro d hd
    simp only [PyCmd.exec, PyCmd.call, ConstraintArg.eval, hd]
  obtain ⟨a, k1, -, k3⟩ := compare_eval hsub h1
  constructor
  · intro hs
    rw [same (d := .compare op' x r) (by simp only [Cmp.eval, k1, (k3 _).2 hs, if_true])]
    exact (py_call_fits hsub (c := .subjectTo (.one (.compare op' x r))) h2 st).2.feasible v
  · intro hs
    have : isTrue (reals st.2.val) a = false := by
      rw [← Bool.not_eq_true, k3]; exact hs
    rw [same (d := .compare op l x) (by simp only [Cmp.eval, k1, this]; rfl)]
    exact (py_call_fits hsub (c := .subjectTo (.one (.compare op l x))) h1 st).2.feasible v

end

/-! ### Cases -/

section

/-- Arithmetic of expressions, for the cases below. -/
noncomputable local instance : Zero UserExpr := ⟨constant 0⟩
local instance : Add UserExpr := ⟨fun a b => ⟨.bin .add a.term b.term, .nonlinear⟩⟩
local instance : Sub UserExpr := ⟨fun a b => ⟨.bin .sub a.term b.term, .nonlinear⟩⟩
local instance : Mul UserExpr := ⟨fun a b => ⟨.bin .mul a.term b.term, .nonlinear⟩⟩
local instance : Div UserExpr := ⟨fun a b => ⟨.bin .div a.term b.term, .nonlinear⟩⟩

/-- Subtraction is that of `Term`. -/
theorem subtracts_terms : Subtracts := fun _ _ _ => rfl

/-- Decision variable number `k`. -/
def xk (k : ℕ) : Obj UserExpr := .var ⟨.var k, .linear⟩

theorem xk_shape (k : ℕ) : HasShape (xk k) none := fun v => ⟨.scalar (v k), rfl, rfl⟩

theorem int_shape (z : ℤ) : HasShape (.int z) none := fun _ => ⟨.scalar z, rfl, rfl⟩

theorem le_int_comparable (z : ℤ) (k : ℕ) : Comparable .le (.int z) (xk k) :=
  ⟨by simp [PyOp.Rel], by simp [Own, Obj.kind, xk], none, none, int_shape z, xk_shape k, by rintro ⟨a, b, h, -⟩; cases h⟩

theorem le_comparable_int (z : ℤ) (k : ℕ) : Comparable .le (xk k) (.int z) :=
  ⟨by simp [PyOp.Rel], by simp [Own, Obj.kind, xk], none, none, xk_shape k, int_shape z, by rintro ⟨a, b, h, -⟩; cases h⟩

theorem le_int_says (z : ℤ) (k : ℕ) (v : ℕ → ℝ) : PyOp.says .le (.int z) (xk k) v ↔ (z : ℝ) ≤ v k := by
  have h1 : (Obj.int z : Obj UserExpr).Is (valueAt v) (.scalar z) := rfl
  have h2 : (xk k).Is (valueAt v) (.scalar (v k)) := rfl
  simp only [PyOp.says, PyOp.Rel, Option.some.injEq, exists_eq_left']
  exact related_iff h1 h2

theorem le_says_int (z : ℤ) (k : ℕ) (v : ℕ → ℝ) : PyOp.says .le (xk k) (.int z) v ↔ v k ≤ z := by
  have h1 : (Obj.int z : Obj UserExpr).Is (valueAt v) (.scalar z) := rfl
  have h2 : (xk k).Is (valueAt v) (.scalar (v k)) := rfl
  simp only [PyOp.says, PyOp.Rel, Option.some.injEq, exists_eq_left']
  exact related_iff h2 h1

/-- C76: `problem.subject_to(-1 <= x <= 1)` for a new variable `x` allows `x = -5`. -/
theorem chain_drops_bound :
    ∃ v : ℕ → ℝ, v 0 = -5 ∧
      (runPy (.new, .empty) [.decisionVariable [], .subjectTo (.one (.chain (.int (-1)) .le (xk 0) .le (.int 1)))]).1.Feasible
        v := by
  refine ⟨fun _ => -5, rfl, ?_⟩
  have h := chain_keeps_one subtracts_terms (le_int_comparable (-1) 0) (le_comparable_int 1 0)
    (PyCmd.exec (.new, .empty) (.decisionVariable [])) fun _ => -5
  have zero : reals (PyCmd.exec (.new, .empty) (.decisionVariable [])).2.val 0 = 0 := by
    show Fl.toReal (Function.update (fun _ : ℕ => (0 : Fl)) 0 (0 : Fl) 0) = 0
    rw [Function.update_self]
    rfl
  refine (h.1 ?_).2 ⟨?_, ?_⟩
  · rw [le_int_says, zero]; norm_num
  · exact ⟨by rintro e ⟨⟩, by rintro e ⟨⟩⟩
  · rw [le_says_int]; norm_num

/-- A program: two variables, `minimize(x0)`, `subject_to(0 <= x0)`, a mistake, `subject_to(bounds(1, x1, 2))`. -/
example (v : ℕ → ℝ) :
    ((runPy (.new, .empty) [.decisionVariable [], .decisionVariable [.int 1, .int 1], .minimize (xk 0),
        .subjectTo (.one (.compare .le (.int 0) (xk 0))), .maximize .other,
        .subjectTo (.inequalities [.bounds (.int 1) (xk 1) (.int 2)])]).1.Feasible v ↔
      0 ≤ v 0 ∧ 1 ≤ v 1 ∧ v 1 ≤ 2) := by
  have hb : (Cmp.bounds (.int 1) (xk 1) (.int 2)).Fits :=
    ⟨.inl rfl, trivial, trivial, none, none, none, int_shape 1, xk_shape 1, int_shape 2,
      (by rintro ⟨a, b, h, -⟩; cases h), by rintro ⟨a, b, h, -⟩; cases h⟩
  have hv : PyCmd.Fits (.decisionVariable []) := ⟨1, .inl ⟨rfl, rfl⟩⟩
  have hm : PyCmd.Fits (.decisionVariable [.int 1, .int 1]) :=
    ⟨1, .inr (.inr ⟨_, _, 1, 1, rfl, ⟨rfl, by norm_num⟩, ⟨rfl, by norm_num⟩, rfl⟩)⟩
  have hc : PyCmd.Fits (.minimize (xk 0)) := ⟨fun v => v 0, by simp [Obj.kind, xk], .inl fun v => rfl⟩
  have hle : PyCmd.Fits (.subjectTo (.one (.compare .le (.int 0) (xk 0)))) := le_int_comparable 0 0
  have hbs : PyCmd.Fits (.subjectTo (.inequalities [.bounds (.int 1) (xk 1) (.int 2)])) := by
    intro c hc
    simp only [List.mem_singleton] at hc
    subst hc
    exact ⟨hb, id⟩
  have hw : PyCmd.Wrong (.maximize .other) := .inr (.inl rfl)
  rw [py_problem_correct subtracts_terms _ (by simp [hv, hm, hc, hle, hbs, hw])]
  have start : Problem.new.Feasible v := ⟨by rintro e ⟨⟩, by rintro e ⟨⟩⟩
  have b1 : Related (· ≤ ·) (.int 1) (xk 1) v ↔ 1 ≤ v 1 := by
    have := le_int_says 1 1 v
    simpa [PyOp.says, PyOp.Rel] using this
  have b2 : Related (· ≤ ·) (xk 1) (.int 2) v ↔ v 1 ≤ 2 := by
    have := le_says_int 2 1 v
    simpa [PyOp.says, PyOp.Rel] using this
  have l0 := le_int_says 0 0 v
  simp [start, hle, hbs, PyCmd.Says, ConstraintArg.Says, Cmp.Says, b1, b2, l0]

end

/-- `py_values_correct`, with a variable that is set twice. -/
example [Zero UserExpr] [Add UserExpr] [Sub UserExpr] [Mul UserExpr] [Div UserExpr] :
    (runPy (runPy (.new, .empty) [.decisionVariable [], .decisionVariable []]) [.setValue 0 (.fin 3), .setValue 1 (.fin 4),
      .maximize .other, .setValue 0 (.fin 5)]).2.val 0 = Fl.fin 5 :=
  py_values_correct _ _ (Nat.zero_lt_succ 1)

end Slp.Py
