import Verif.Problem.DeclareProps

/-! C19: the values of variables while a problem is built. -/

namespace Slp

open Classical

/-- The value that a program last sets a variable to. -/
def lastValue (k : ℕ) : List ProblemCmd → Option Fl
  | [] => none
  | c :: cs =>
    match lastValue k cs, c with
    | some v, _ => some v
    | none, .setValue j v => if j = k then some v else none
    | none, _ => none

theorem lastValue_snoc (k : ℕ) (cs : List ProblemCmd) (c : ProblemCmd) :
    lastValue k (cs ++ [c]) = (match c with
      | .setValue j v => if j = k then some v else lastValue k cs
      | _ => lastValue k cs) := by
  induction cs with
  | nil => cases c <;> rfl
  | cons d cs ih =>
    have e : lastValue k (d :: cs ++ [c]) = match lastValue k (cs ++ [c]), d with
      | some v, _ => some v
      | none, .setValue j v => if j = k then some v else none
      | none, _ => none := rfl
    rw [e, ih]
    cases c with
    | setValue j v =>
      by_cases h : j = k
      · simp only [if_pos h]
      · simp only [if_neg h]; rfl
    | _ => rfl

/-- What a call does to the values of variables that exist. -/
theorem ProblemCmd.exec_val (c : ProblemCmd) (st : Problem × Store) : st.2.next ≤ (c.exec st).2.next ∧
    ∀ k, k < st.2.next → (c.exec st).2.val k = (match c with
      | .setValue j v => if j = k then v else st.2.val k
      | _ => st.2.val k) := by
  obtain ⟨p, s⟩ := st
  have grown : ∀ {n q t}, Grown p s n q t → s.next ≤ t.next ∧ ∀ k, k < s.next → t.val k = s.val k :=
    fun g => ⟨by rw [g.next]; omega, fun k hk => g.old k (.inl hk)⟩
  cases c with
  | «variable» => exact grown (grown_one p s)
  | matrix r c => exact grown (decision_matrix_correct p s r c).1
  | symmetric r => exact grown (symmetric_matrix_correct p s r).1
  | otherVariable =>
    refine ⟨Nat.le_succ _, fun k hk => ?_⟩
    change Function.update s.val s.next 0 k = s.val k
    exact Function.update_of_ne hk.ne _ _
  | setValue j v =>
    refine ⟨le_rfl, fun k _ => ?_⟩
    change Function.update s.val j v k = _
    rw [Function.update_apply]
    by_cases h : j = k
    · simp [h]
    · simp [h, Ne.symm h]
  | _ => exact ⟨le_rfl, fun _ _ => rfl⟩

/-- C19: whatever a program does after a variable was made, the variable has the value that it was last set to, and its
earlier value if it was not set again. -/
theorem values_correct (cs ds : List ProblemCmd) (k : ℕ) (hk : k < (Problem.after cs).2.next) :
    (Problem.after (cs ++ ds)).2.val k = (lastValue k ds).getD ((Problem.after cs).2.val k) := by
  suffices h : k < (Problem.after (cs ++ ds)).2.next ∧
      (Problem.after (cs ++ ds)).2.val k = (lastValue k ds).getD ((Problem.after cs).2.val k) from h.2
  induction ds using List.reverseRecOn with
  | nil => simpa [lastValue] using hk
  | append_singleton ds c ih =>
    obtain ⟨h1, h2⟩ := c.exec_val (Problem.after (cs ++ ds))
    rw [← List.append_assoc, after_snoc, lastValue_snoc]
    refine ⟨lt_of_lt_of_le ih.1 h1, ?_⟩
    rw [h2 k ih.1]
    cases c with
    | setValue j v =>
      by_cases h : j = k
      · simp only [if_pos h, Option.getD_some]
      · simp only [if_neg h]; exact ih.2
    | _ => exact ih.2

/-- The first of two variables is set twice, then a matrix is declared. -/
example : (Problem.after ([.variable, .variable] ++ [.setValue 0 (.fin 7), .setValue 1 (.fin 2), .setValue 0 (.fin 3),
    .matrix 2 3])).2.val 0 = .fin 3 := by
  rw [values_correct _ _ _ (show 0 < 2 by omega)]
  rfl

end Slp
