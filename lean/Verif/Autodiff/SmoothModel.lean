import Verif.Autodiff.HeapLemmas
import Verif.Autodiff.RealOps

/-! Where the elementary operations are differentiable (specification, used as a hypothesis). -/

namespace Slp

/-- The operation `op` is differentiable at operand values `x`, `y` (`y` is ignored by unary
operations). `rc` says that the second operand is a constant; then integer powers are differentiable
at negative bases too, and nonnegative integer powers at zero (the exponents 0 and 1 never reach a
`pow` node, they are pruned) (the classes of `expression.hpp:444-2029`). -/
def SmoothOp (op : Op) (rc : Prop) (x y : ℝ) : Prop :=
  match op with
  | .div => y ≠ 0
  | .abs | .cbrt | .sign | .isNonneg | .isPos => x ≠ 0
  | .acos | .asin => -1 < x ∧ x < 1
  | .atan2 => x ≠ 0 ∨ 0 < y
  | .hypot => x ≠ 0 ∨ y ≠ 0
  | .log | .log10 | .sqrt => 0 < x
  | .max | .min => x ≠ y
  | .pow => 0 < x ∨ (rc ∧ ∃ k : ℤ, y = k ∧ (x ≠ 0 ∨ 2 ≤ k))
  | .tan => Real.cos x ≠ 0
  | _ => True

/-- Every operation below node `n` is differentiable when the independent variables have the values
`η` (modelling only: expressions over the classes of `expression.hpp:444-2029`). -/
def Sm (h : Heap ℝ) (η : ℕ → ℝ) (n : ℕ) : Prop :=
  match h.args n with
  | (none, _) => True
  | (some l, none) => if l < n then Sm h η l ∧ SmoothOp (h.op n) False (ev h η l) 0 else True
  | (some l, some r) =>
    if l < n then
      if r < n then
        Sm h η l ∧ Sm h η r ∧ SmoothOp (h.op n) (h.op r = .constant) (ev h η l) (ev h η r)
      else True
    else True
termination_by n

theorem Sm_leaf {h : Heap ℝ} {η : ℕ → ℝ} {n : ℕ} (ha : (h.args n).1 = none) : Sm h η n := by
  rw [Sm]
  rcases hh : h.args n with ⟨a, b⟩
  rw [hh] at ha
  simp at ha
  subst ha
  trivial

theorem Sm_un {h : Heap ℝ} (hac : Graph.Acyclic h.args) {η : ℕ → ℝ} {n l : ℕ}
    (ha : h.args n = (some l, none)) :
    Sm h η n ↔ Sm h η l ∧ SmoothOp (h.op n) False (ev h η l) 0 := by
  have hl : l < n := hac n l (mem_kids_left (by rw [ha]))
  rw [Sm]
  simp [ha, hl]

theorem Sm_bin {h : Heap ℝ} (hac : Graph.Acyclic h.args) {η : ℕ → ℝ} {n l r : ℕ}
    (ha : h.args n = (some l, some r)) :
    Sm h η n ↔ Sm h η l ∧ Sm h η r ∧
      SmoothOp (h.op n) (h.op r = .constant) (ev h η l) (ev h η r) := by
  have hl : l < n := hac n l (mem_kids_left (by rw [ha]))
  have hr : r < n := hac n r (mem_kids_right (by rw [ha]))
  rw [Sm]
  simp [ha, hl, hr]

theorem Sm_congr {h h' : Heap ℝ} {N : ℕ} (hs : SameUpTo N h h') {η η' : ℕ → ℝ}
    (hη : ∀ n, n < N → (h.args n).1 = none → h.op n ≠ .constant → η' n = η n) (n : ℕ) (hn : n < N) :
    Sm h' η' n ↔ Sm h η n := by
  induction n using Nat.strong_induction_on with
  | _ n ih =>
    rw [Sm, Sm, hs.args n hn, hs.op n hn]
    rcases hh : h.args n with ⟨a, b⟩
    cases a with
    | none => simp
    | some l =>
      cases b with
      | none =>
        simp only
        by_cases hl : l < n
        · simp only [hl, if_true]
          rw [ih l hl (by omega), ev_congr hs hη l (by omega)]
        · simp [hl]
      | some r =>
        simp only
        by_cases hl : l < n
        · by_cases hr : r < n
          · simp only [hl, hr, if_true]
            rw [ih l hl (by omega), ih r hr (by omega), ev_congr hs hη l (by omega),
              ev_congr hs hη r (by omega), hs.op r (by omega)]
          · simp [hl, hr]
        · simp [hl]

end Slp
