import Verif.Problem.ProblemModel
import Mathlib.Data.List.Range
import Mathlib.Algebra.Order.Ring.Nat
import Mathlib.Tactic.Ring
import Mathlib.Tactic.Linarith

/-! C19, C20 and the registration of callbacks (C24): building problems. -/

namespace Slp

open Classical

/-! ### C19 -/

/-- `q` and `t` are `p` and `s` with `c` new decision variables: they are numbered on from those of `s`, have the
value zero, were appended to the variables of the problem, and nothing else is different. -/
structure Grown (p : Problem) (s : Store) (c : ℕ) (q : Problem) (t : Store) : Prop where
  vars : q.vars = p.vars ++ List.range' s.next c
  next : t.next = s.next + c
  zero : ∀ k, s.next ≤ k → k < s.next + c → t.val k = 0
  old : ∀ k, k < s.next ∨ s.next + c ≤ k → t.val k = s.val k
  rest : q.cost = p.cost ∧ q.eqs = p.eqs ∧ q.ineqs = p.ineqs ∧ q.callbacks = p.callbacks ∧ q.persistent = p.persistent

theorem Grown.refl (p : Problem) (s : Store) : Grown p s 0 p s :=
  ⟨by simp, rfl, fun k h1 h2 => by omega, fun _ _ => rfl, rfl, rfl, rfl, rfl, rfl⟩

theorem Grown.trans {p q r : Problem} {s t u : Store} {c d : ℕ} (h1 : Grown p s c q t) (h2 : Grown q t d r u) :
    Grown p s (c + d) r u := by
  refine ⟨?_, by rw [h2.next, h1.next]; omega, fun k h3 h4 => ?_, fun k h => ?_, ?_⟩
  · rw [h2.vars, h1.vars, h1.next, List.append_assoc, List.range'_append_1]
  · by_cases hk : k < s.next + c
    · rw [h2.old k (by rw [h1.next]; omega), h1.zero k h3 hk]
    · exact h2.zero k (by rw [h1.next]; omega) (by rw [h1.next]; omega)
  · rw [h2.old k (by rw [h1.next]; omega), h1.old k (by omega)]
  · obtain ⟨a, b, c, d, e⟩ := h1.rest
    obtain ⟨a', b', c', d', e'⟩ := h2.rest
    exact ⟨a'.trans a, b'.trans b, c'.trans c, d'.trans d, e'.trans e⟩

theorem grown_one (p : Problem) (s : Store) : Grown p s 1 { p with vars := p.vars ++ [s.fresh.1] } s.fresh.2 := by
  refine ⟨by simp [Store.fresh], rfl, fun k h1 h2 => ?_, fun k h => ?_, rfl, rfl, rfl, rfl, rfl⟩
  · obtain rfl : k = s.next := by omega
    simp [Store.fresh]
  · have : k ≠ s.next := by omega
    simp [Store.fresh, this]

theorem Declaring.add_grown (d : Declaring) (l : List (ℕ × ℕ)) :
    Grown d.problem d.store 1 (d.add l).problem (d.add l).store := grown_one _ _

theorem Declaring.add_table (d : Declaring) (l : List (ℕ × ℕ)) :
    (d.add l).table = l.foldl (fun t e => t.set e.1 e.2 d.store.next) d.table := rfl

theorem matrix_row (d : Declaring) (r c : ℕ) :
    let d' := (List.range c).foldl (fun d c => d.add [(r, c)]) d
    Grown d.problem d.store c d'.problem d'.store ∧
      ∀ i j, d'.table i j = if i = r ∧ j < c then some (d.store.next + j) else d.table i j := by
  induction c with
  | zero => exact ⟨.refl _ _, fun i j => by simp⟩
  | succ c ih =>
    obtain ⟨h1, h2⟩ := ih
    simp only [List.range_succ, List.foldl_append, List.foldl_cons, List.foldl_nil]
    refine ⟨h1.trans (Declaring.add_grown _ _), fun i j => ?_⟩
    rw [Declaring.add_table]
    simp only [List.foldl_cons, List.foldl_nil, VarTable.set]
    rw [h2, h1.next]
    by_cases hi : i = r
    · by_cases hj : j = c
      · simp [hi, hj]
      · have : j < c ↔ j < c + 1 := by omega
        simp [hi, hj, this]
    · simp [hi]

/-- C19: `decision_variable(rows, cols)` returns distinct new variables in row-major order, of value zero, and appends
exactly them to the problem's variables. -/
theorem decision_matrix_correct (p : Problem) (s : Store) (rows cols : ℕ) :
    let d := p.decisionMatrix s rows cols
    Grown p s (rows * cols) d.problem d.store ∧
      ∀ i j, d.table i j = if i < rows ∧ j < cols then some (s.next + (i * cols + j)) else none := by
  induction rows with
  | zero => exact ⟨by simpa [Problem.decisionMatrix] using Grown.refl p s, fun i j => by simp [Problem.decisionMatrix]⟩
  | succ r ih =>
    obtain ⟨h1, h2⟩ := ih
    have h3 := matrix_row (p.decisionMatrix s r cols) r cols
    have e : p.decisionMatrix s (r + 1) cols =
        (List.range cols).foldl (fun d c => d.add [(r, c)]) (p.decisionMatrix s r cols) := by
      unfold Problem.decisionMatrix
      rw [List.range_succ, List.foldl_append]; rfl
    rw [e]
    refine ⟨?_, fun i j => ?_⟩
    · rw [Nat.succ_mul]
      exact h1.trans h3.1
    · rw [h3.2, h1.next, h2]
      by_cases hi : i = r
      · by_cases hj : j < cols <;> simp [hi, hj]; omega
      · have : i < r ↔ i < r + 1 := by omega
        simp [hi, this]

theorem symmetric_row (d : Declaring) (r c : ℕ) :
    let d' := (List.range c).foldl (fun d c => d.add [(r, c), (c, r)]) d
    Grown d.problem d.store c d'.problem d'.store ∧
      ∀ i j, d'.table i j = if i = r ∧ j < c then some (d.store.next + j)
        else if j = r ∧ i < c then some (d.store.next + i) else d.table i j := by
  induction c with
  | zero => exact ⟨.refl _ _, fun i j => by simp⟩
  | succ c ih =>
    obtain ⟨h1, h2⟩ := ih
    simp only [List.range_succ, List.foldl_append, List.foldl_cons, List.foldl_nil]
    refine ⟨h1.trans (Declaring.add_grown _ _), fun i j => ?_⟩
    rw [Declaring.add_table]
    simp only [List.foldl_cons, List.foldl_nil, VarTable.set]
    rw [h2, h1.next]
    by_cases hi : i = r <;> by_cases hj : j = c <;> by_cases hj' : j = r <;> by_cases hi' : i = c <;>
      simp only [hi, hj, hj', hi', true_and, and_true, false_and, and_false, if_true, if_false] <;>
      (try subst hi) <;> (try subst hj) <;> split_ifs <;> first | rfl | omega

/-- Gauss. -/
theorem triangle_succ (r : ℕ) : (r + 1) * (r + 1 + 1) / 2 = r * (r + 1) / 2 + (r + 1) := by
  have : (r + 1) * (r + 1 + 1) = r * (r + 1) + (r + 1) * 2 := by ring
  rw [this, Nat.add_mul_div_right _ _ (by norm_num)]

/-- C19: `symmetric_decision_variable(n)` returns a matrix over exactly `n (n + 1) / 2` new variables of value zero,
one for each element on or below the diagonal, and repeats them above it. -/
theorem symmetric_matrix_correct (p : Problem) (s : Store) (rows : ℕ) :
    let d := p.symmetricMatrix s rows
    Grown p s (rows * (rows + 1) / 2) d.problem d.store ∧
      ∀ i j, d.table i j = if i < rows ∧ j < rows then
        some (s.next + (Max.max i j * (Max.max i j + 1) / 2 + Min.min i j)) else none := by
  induction rows with
  | zero => exact ⟨by simpa [Problem.symmetricMatrix] using Grown.refl p s, fun i j => by simp [Problem.symmetricMatrix]⟩
  | succ r ih =>
    obtain ⟨h1, h2⟩ := ih
    have h3 := symmetric_row (p.symmetricMatrix s r) r (r + 1)
    have e : p.symmetricMatrix s (r + 1) =
        (List.range (r + 1)).foldl (fun d c => d.add [(r, c), (c, r)]) (p.symmetricMatrix s r) := by
      unfold Problem.symmetricMatrix
      conv_lhs => rw [List.range_succ, List.foldl_append]
      rfl
    rw [e]
    refine ⟨?_, fun i j => ?_⟩
    · rw [triangle_succ]
      exact h1.trans h3.1
    · rw [h3.2, h1.next, h2]
      by_cases hi : i = r
      · subst hi
        by_cases hj : j < i + 1
        · rw [if_pos ⟨rfl, hj⟩, if_pos ⟨by omega, hj⟩, max_eq_left (by omega), min_eq_right (by omega), add_assoc]
        · rw [if_neg (by omega), if_neg (by omega), if_neg (by omega), if_neg (by omega)]
      · rw [if_neg (by omega)]
        by_cases hj : j = r
        · subst hj
          by_cases hi' : i < j + 1
          · rw [if_pos ⟨rfl, hi'⟩, if_pos ⟨hi', by omega⟩, max_eq_right (by omega), min_eq_left (by omega), add_assoc]
          · rw [if_neg (by omega), if_neg (by omega), if_neg (by omega)]
        · rw [if_neg (by omega)]
          by_cases h : i < r ∧ j < r
          · rw [if_pos h, if_pos (by omega)]
          · rw [if_neg h, if_neg (by omega)]

/-- C19: the matrix is symmetric, and elements on or below the diagonal are different variables. -/
theorem symmetric_matrix_shares (p : Problem) (s : Store) (rows : ℕ) :
    let d := p.symmetricMatrix s rows
    (∀ i j, d.table i j = d.table j i) ∧
      ∀ i j i' j', j ≤ i → i < rows → j' ≤ i' → i' < rows → d.table i j = d.table i' j' → i = i' ∧ j = j' := by
  obtain ⟨-, h⟩ := symmetric_matrix_correct p s rows
  refine ⟨fun i j => ?_, fun i j i' j' h1 h2 h3 h4 he => ?_⟩
  · rw [h, h, max_comm, min_comm]
    simp only [and_comm]
  rw [h, h, if_pos ⟨h2, by omega⟩, if_pos ⟨h4, by omega⟩, max_eq_left h1, max_eq_left h3, min_eq_right h1,
    min_eq_right h3] at he
  have he : i * (i + 1) / 2 + j = i' * (i' + 1) / 2 + j' := by simpa using he
  have mono : ∀ a b : ℕ, a < b → a * (a + 1) / 2 + a < b * (b + 1) / 2 := by
    intro a b hab
    have h5 := triangle_succ a
    have : (a + 1) * (a + 1 + 1) / 2 ≤ b * (b + 1) / 2 :=
      Nat.div_le_div_right (Nat.mul_le_mul (by omega) (by omega))
    omega
  rcases lt_trichotomy i i' with hlt | rfl | hlt
  · have := mono i i' hlt; omega
  · exact ⟨rfl, by omega⟩
  · have := mono i' i hlt; omega

/-- The variables of a problem are different and exist. -/
structure Problem.Ok (p : Problem) (s : Store) : Prop where
  nodup : p.vars.Nodup
  exist : ∀ k ∈ p.vars, k < s.next

theorem Grown.ok {p q : Problem} {s t : Store} {c : ℕ} (h : Grown p s c q t) (hp : p.Ok s) : q.Ok t := by
  constructor
  · rw [h.vars, List.nodup_append]
    refine ⟨hp.nodup, List.nodup_range', fun a ha b hb => ?_⟩
    have h1 := hp.exist a ha
    rw [List.mem_range'_1] at hb
    omega
  · intro k hk
    rw [h.vars, List.mem_append, List.mem_range'_1] at hk
    rw [h.next]
    rcases hk with hk | hk
    · have := hp.exist k hk; omega
    · omega

theorem ProblemCmd.exec_ok (c : ProblemCmd) {p : Problem} {s : Store} (h : p.Ok s) :
    (c.exec (p, s)).1.Ok (c.exec (p, s)).2 := by
  cases c with
  | «variable» => exact (grown_one p s).ok h
  | matrix r c => exact (decision_matrix_correct p s r c).1.ok h
  | symmetric r => exact (symmetric_matrix_correct p s r).1.ok h
  | otherVariable => exact ⟨h.nodup, fun k hk => (h.exist k hk).trans (Nat.lt_succ_self _)⟩
  | _ => exact ⟨h.nodup, h.exist⟩

/-- C19: after any program, the decision variables of the problem are all different. -/
theorem variables_distinct (cs : List ProblemCmd) : (Problem.after cs).1.Ok (Problem.after cs).2 := by
  unfold Problem.after
  induction cs using List.reverseRecOn with
  | nil => exact ⟨by simp [Problem.new], by simp [Problem.new]⟩
  | append_singleton cs c ih =>
    rw [List.foldl_append]
    exact c.exec_ok ih

/-- A 2×3 matrix after another variable. -/
example : let d := (Problem.after [.variable, .setValue 0 (.fin 7)])
    ((d.1.decisionMatrix d.2 2 3).table 1 2 = some 6 ∧ (d.1.decisionMatrix d.2 2 3).problem.vars = [0, 1, 2, 3, 4, 5, 6] ∧
      (d.1.decisionMatrix d.2 2 3).store.val 0 = .fin 7) ∧
    (d.1.symmetricMatrix d.2 2).table 0 1 = some 2 := by
  intro d
  obtain ⟨h1, h2⟩ := decision_matrix_correct d.1 d.2 2 3
  obtain ⟨h3, h4⟩ := symmetric_matrix_correct d.1 d.2 2
  have hn : d.2.next = 1 := rfl
  refine ⟨⟨by rw [h2, hn]; rfl, by rw [h1.vars, hn]; rfl, ?_⟩, by rw [h4, hn]; rfl⟩
  rw [h1.old 0 (by rw [hn]; omega)]
  simp [d, Problem.after, ProblemCmd.exec]

/-! ### C20 -/

/-- What the user last asked to minimise. -/
def lastObjective : List ProblemCmd → Option UserExpr
  | [] => none
  | c :: cs =>
    match lastObjective cs, c with
    | some e, _ => some e
    | none, .minimize e => some e
    | none, .maximize e => some e.neg
    | none, _ => none

/-- The equality constraints of a program, in order. -/
def allEqs (cs : List ProblemCmd) : List UserExpr :=
  cs.flatMap fun c => match c with | .subjectToEq es => es | _ => []

/-- The inequality constraints of a program, in order. -/
def allIneqs (cs : List ProblemCmd) : List UserExpr :=
  cs.flatMap fun c => match c with | .subjectToIneq es => es | _ => []

/-- The callback that a call registers. -/
def ProblemCmd.registers : ProblemCmd → List Callback
  | .addCallback c => [c]
  | .addVoidCallback => [fun _ _ => false]
  | _ => []

/-- The persistent callback that a call registers. -/
def ProblemCmd.persists : ProblemCmd → List Callback
  | .addPersistent c => [c]
  | _ => []

def ProblemCmd.isClear : ProblemCmd → Bool
  | .clearCallbacks => true
  | _ => false

theorem lastObjective_snoc (cs : List ProblemCmd) (c : ProblemCmd) :
    lastObjective (cs ++ [c]) = match c with
      | .minimize e => some e
      | .maximize e => some e.neg
      | _ => lastObjective cs := by
  induction cs with
  | nil => cases c <;> rfl
  | cons d cs ih =>
    have e : lastObjective (d :: cs ++ [c]) = match lastObjective (cs ++ [c]), d with
      | some e, _ => some e
      | none, .minimize e => some e
      | none, .maximize e => some e.neg
      | none, _ => none := rfl
    rw [e, ih]
    cases c <;> rfl

theorem after_snoc (cs : List ProblemCmd) (c : ProblemCmd) :
    Problem.after (cs ++ [c]) = c.exec (Problem.after cs) := by
  unfold Problem.after
  rw [List.foldl_append]; rfl

/-- What a call does to the parts of the problem other than variables. -/
theorem ProblemCmd.exec_parts (c : ProblemCmd) (st : Problem × Store) :
    (c.exec st).1.cost = (match c with
      | .minimize e => some e
      | .maximize e => some e.neg
      | _ => st.1.cost) ∧
    (c.exec st).1.eqs = st.1.eqs ++ allEqs [c] ∧ (c.exec st).1.ineqs = st.1.ineqs ++ allIneqs [c] ∧
    (c.exec st).1.callbacks = (if c.isClear = true then [] else st.1.callbacks ++ c.registers) ∧
    (c.exec st).1.persistent = st.1.persistent ++ c.persists := by
  obtain ⟨p, s⟩ := st
  cases c with
  | matrix r c =>
    obtain ⟨h1, h2, h3, h4, h5⟩ := (decision_matrix_correct p s r c).1.rest
    exact ⟨h1, by simpa [allEqs, exec] using h2, by simpa [allIneqs, exec] using h3, by simpa [isClear, registers, exec] using h4,
      by simpa [persists, exec] using h5⟩
  | symmetric r =>
    obtain ⟨h1, h2, h3, h4, h5⟩ := (symmetric_matrix_correct p s r).1.rest
    exact ⟨h1, by simpa [allEqs, exec] using h2, by simpa [allIneqs, exec] using h3, by simpa [isClear, registers, exec] using h4,
      by simpa [persists, exec] using h5⟩
  | _ => simp [exec, allEqs, allIneqs, isClear, registers, persists, Problem.decisionVariable, Problem.minimize,
      Problem.maximize, Problem.subjectToEq, Problem.subjectToIneq, Problem.addCallback, Problem.addVoidCallback,
      Problem.addPersistent, Problem.clearCallbacks]

/-- C20, C24: after any program, the problem minimises what was last asked for, has all constraints in the order in
which they were given, the callbacks registered since they were last cleared, in order, and all persistent callbacks
in order. -/
theorem program_builds (cs : List ProblemCmd) :
    (Problem.after cs).1.cost = lastObjective cs ∧ (Problem.after cs).1.eqs = allEqs cs ∧
      (Problem.after cs).1.ineqs = allIneqs cs ∧
      (∀ cs1 cs2, cs = cs1 ++ cs2 → (cs1 = [] ∨ ∃ cs0, cs1 = cs0 ++ [.clearCallbacks]) →
        (∀ c ∈ cs2, c.isClear = false) → (Problem.after cs).1.callbacks = cs2.flatMap ProblemCmd.registers) ∧
      (Problem.after cs).1.persistent = cs.flatMap ProblemCmd.persists := by
  induction cs using List.reverseRecOn with
  | nil =>
    refine ⟨rfl, rfl, rfl, fun cs1 cs2 h _ _ => ?_, rfl⟩
    obtain ⟨rfl, rfl⟩ := List.nil_eq_append_iff.1 h
    rfl
  | append_singleton cs c ih =>
    obtain ⟨h1, h2, h3, h4, h5⟩ := ih
    obtain ⟨e1, e2, e3, e4, e5⟩ := c.exec_parts (Problem.after cs)
    rw [after_snoc, lastObjective_snoc, e1, e2, e3, e4, e5, h1, h2, h3, h5]
    refine ⟨rfl, by simp [allEqs], by simp [allIneqs], fun cs1 cs2 h hs hc => ?_, by simp⟩
    rcases List.eq_nil_or_concat cs2 with rfl | ⟨cs2, d, rfl⟩
    · rw [List.append_nil] at h
      rcases hs with rfl | ⟨cs0, rfl⟩
      · simp at h
      · obtain ⟨rfl, he⟩ := List.append_inj' h rfl
        obtain rfl : c = .clearCallbacks := by simpa using he
        simp [ProblemCmd.isClear]
    · rw [List.concat_eq_append] at h hc ⊢
      rw [← List.append_assoc] at h
      obtain ⟨rfl, he⟩ := List.append_inj' h rfl
      obtain rfl : c = d := by simpa using he
      rw [if_neg (by simp [hc c (by simp)]), h4 cs1 cs2 rfl hs fun e he => hc e (by simp [he])]
      simp

/-- C20: what `maximize` minimises is the negative of the objective, wherever the objective has a value. -/
theorem maximize_negates (e : UserExpr) (v : ℕ → ℝ) : e.neg.term.eval v = -e.term.eval v := rfl

/-- C20: hence a point minimises it among a set of points exactly if it maximises the objective. -/
theorem maximize_correct (e : UserExpr) (D : Set (ℕ → ℝ)) (v : ℕ → ℝ) :
    (∀ w ∈ D, e.neg.term.eval v ≤ e.neg.term.eval w) ↔ ∀ w ∈ D, e.term.eval w ≤ e.term.eval v := by
  simp only [maximize_negates, neg_le_neg_iff]

/-- C20: the type of a list of constraints is the greatest type among them; none of an empty list. -/
theorem maxType_correct (es : List UserExpr) :
    (es = [] → maxType es = .none) ∧
      (es ≠ [] → (∃ e ∈ es, maxType es = e.ty) ∧ ∀ e ∈ es, e.ty.rank ≤ (maxType es).rank) := by
  refine ⟨fun h => by rw [h]; rfl, fun h => ?_⟩
  obtain ⟨e, es, rfl⟩ := List.exists_cons_of_ne_nil h
  clear h
  show (∃ a ∈ e :: es, es.foldl (fun t e => if t.rank < e.ty.rank then e.ty else t) e.ty = a.ty) ∧
    ∀ a ∈ e :: es, a.ty.rank ≤ (es.foldl (fun t e => if t.rank < e.ty.rank then e.ty else t) e.ty).rank
  induction es using List.reverseRecOn with
  | nil => exact ⟨⟨e, by simp, rfl⟩, by simp⟩
  | append_singleton es d ih =>
    obtain ⟨⟨a, ha, h1⟩, h2⟩ := ih
    rw [List.foldl_append, List.foldl_cons, List.foldl_nil]
    by_cases hlt : (es.foldl (fun t e => if t.rank < e.ty.rank then e.ty else t) e.ty).rank < d.ty.rank
    · rw [if_pos hlt]
      refine ⟨⟨d, by simp, rfl⟩, fun b hb => ?_⟩
      rw [← List.cons_append, List.mem_append, List.mem_singleton] at hb
      rcases hb with hb | rfl
      · exact (h2 b hb).trans hlt.le
      · exact le_rfl
    · rw [if_neg hlt]
      refine ⟨⟨a, by rw [← List.cons_append, List.mem_append]; exact .inl ha, h1⟩, fun b hb => ?_⟩
      rw [← List.cons_append, List.mem_append, List.mem_singleton] at hb
      rcases hb with hb | rfl
      · exact h2 b hb
      · exact not_lt.1 hlt

/-- C20: the reported types. -/
theorem problem_types (cs : List ProblemCmd) :
    let p := (Problem.after cs).1
    p.costType = (lastObjective cs).elim .none UserExpr.ty ∧
    (p.eqType = .none ↔ ∀ e ∈ allEqs cs, e.ty = .none) ∧ (p.ineqType = .none ↔ ∀ e ∈ allIneqs cs, e.ty = .none) ∧
    (∀ e ∈ allEqs cs, e.ty.rank ≤ p.eqType.rank) ∧ (∀ e ∈ allIneqs cs, e.ty.rank ≤ p.ineqType.rank) ∧
    (allEqs cs ≠ [] → ∃ e ∈ allEqs cs, p.eqType = e.ty) ∧ (allIneqs cs ≠ [] → ∃ e ∈ allIneqs cs, p.ineqType = e.ty) := by
  intro p
  obtain ⟨h1, h2, h3, -, -⟩ := program_builds cs
  have none_iff : ∀ es, maxType es = .none ↔ ∀ e ∈ es, e.ty = .none := by
    intro es
    rcases eq_or_ne es [] with rfl | hne
    · simp [maxType]
    · obtain ⟨⟨a, ha, h4⟩, h5⟩ := (maxType_correct es).2 hne
      refine ⟨fun h e he => ?_, fun h => by rw [h4, h a ha]⟩
      have := h5 e he
      rw [h] at this
      revert this
      cases e.ty <;> simp [Ty.rank]
  have le : ∀ es : List UserExpr, ∀ e ∈ es, e.ty.rank ≤ (maxType es).rank := fun es e he =>
    ((maxType_correct es).2 (List.ne_nil_of_mem he)).2 e he
  refine ⟨by rw [Problem.costType, h1], ?_, ?_, ?_, ?_, ?_, ?_⟩
  · rw [Problem.eqType, h2]; exact none_iff _
  · rw [Problem.ineqType, h3]; exact none_iff _
  · rw [Problem.eqType, h2]; exact le _
  · rw [Problem.ineqType, h3]; exact le _
  · rw [Problem.eqType, h2]; exact fun h => ((maxType_correct _).2 h).1
  · rw [Problem.ineqType, h3]; exact fun h => ((maxType_correct _).2 h).1

/-- Two objectives, constraints in two calls, a cleared callback. -/
example (c1 c2 c3 : Callback) :
    let x : UserExpr := ⟨.var 0, .linear⟩
    let y : UserExpr := ⟨.var 1, .linear⟩
    let cs := [.variable, .variable, .minimize y, .subjectToEq [x], .addCallback c1, .addPersistent c3, .clearCallbacks,
      .addCallback c2, .maximize x, .subjectToEq [y, x]]
    (Problem.after cs).1.cost = some x.neg ∧ (Problem.after cs).1.eqs = [x, y, x] ∧
      (Problem.after cs).1.callbacks = [c2] ∧ (Problem.after cs).1.persistent = [c3] := by
  intro x y cs
  obtain ⟨h1, h2, h3, h4, h5⟩ := program_builds cs
  refine ⟨h1, h2, ?_, h5⟩
  rw [h4 [.variable, .variable, .minimize y, .subjectToEq [x], .addCallback c1, .addPersistent c3, .clearCallbacks]
    [.addCallback c2, .maximize x, .subjectToEq [y, x]] rfl (.inr ⟨[.variable, .variable, .minimize y, .subjectToEq [x],
      .addCallback c1, .addPersistent c3], rfl⟩) (by simp [ProblemCmd.isClear])]
  rfl

end Slp
