import Verif.Solver.IpmModel
import Mathlib.Tactic.Positivity
import Mathlib.Tactic.Linarith
import Mathlib.Algebra.Order.Floor.Semiring

/-! C26: the barrier parameter. -/

namespace Slp

open Classical

variable {n m k : ℕ}

/-- The update over the reals. -/
theorem nextMu_fin {a b : ℝ} (ha : 0 < a) : nextMu (.fin b) (.fin a) = .fin (max b (min (0.2 * a) (a ^ (1.5 : ℝ)))) := by
  unfold nextMu
  rw [Fl.pow_fin ha.le]; simp

theorem nextTau_fin (a : ℝ) : nextTau (.fin a) = .fin (max 0.99 (1 - a)) := by
  unfold nextTau
  rw [Fl.one_def]; simp

/-- C26: one update decreases the parameter, to at most a fifth of it unless the floor is reached, and keeps it at
or above the floor; the factor of the fraction-to-the-boundary rule is in `[0.99, 1)`. -/
theorem update_correct {a b : ℝ} (hb : 0 < b) (hab : b < a) :
    ∃ a' t, nextMu (.fin b) (.fin a) = .fin a' ∧ nextTau (.fin a') = .fin t ∧
      b ≤ a' ∧ a' < a ∧ a' ≤ max b (a / 5) ∧ a' ≤ max b (a ^ (1.5 : ℝ)) ∧ 0.99 ≤ t ∧ t < 1 ∧ 1 - a' ≤ t := by
  have ha : 0 < a := hb.trans hab
  refine ⟨_, _, nextMu_fin ha, nextTau_fin _, le_max_left _ _, ?_, ?_, ?_, le_max_left _ _, ?_, le_max_right _ _⟩
  · rw [max_lt_iff]; exact ⟨hab, lt_of_le_of_lt (min_le_left _ _) (by linarith)⟩
  · exact max_le_max le_rfl ((min_le_left _ _).trans (by linarith))
  · exact max_le_max le_rfl (min_le_right _ _)
  · have : b ≤ max b (min (0.2 * a) (a ^ (1.5 : ℝ))) := le_max_left _ _
    rw [max_lt_iff]; constructor
    · norm_num
    · linarith

/-- What an update of the barrier parameter leaves alone. -/
structure SameIterate (st st' : IpmState n m k) : Prop where
  x : st'.x = st.x
  s : st'.s = st.s
  y : st'.y = st.y
  z : st'.z = st.z
  e : st'.e = st.e
  rejected : st'.rejected = st.rejected
  iterations : st'.iterations = st.iterations
  E0 : st'.E0 = st.E0

theorem SameIterate.refl (st : IpmState n m k) : SameIterate st st := ⟨rfl, rfl, rfl, rfl, rfl, rfl, rfl, rfl⟩

theorem SameIterate.trans {a b c : IpmState n m k} (h : SameIterate a b) (h' : SameIterate b c) : SameIterate a c :=
  ⟨h'.x.trans h.x, h'.s.trans h.s, h'.y.trans h.y, h'.z.trans h.z, h'.e.trans h.e, h'.rejected.trans h.rejected,
    h'.iterations.trans h.iterations, h'.E0.trans h.E0⟩

/-- C26: the loop ends; the parameter has not increased and is not below the floor unless it was there already;
afterwards it is at the floor or the error is too large for it. The filter is empty if the parameter changed. -/
theorem barrierLoop_correct (env : Env) {b : ℝ} (hb : 0 < b) (r : ℕ) (st : IpmState n m k) {a : ℝ}
    (hμ : st.μ = .fin a) (ha : 0 < a) {t : ℝ} (hτ : st.τ = .fin t) (ht : 0.99 ≤ t) (ht1 : t < 1)
    (hr : a ≤ 5 ^ r * b) :
    ∃ st', barrierLoop env (.fin b) (r + 1) st = some st' ∧ SameIterate st st' ∧
      (∃ a', st'.μ = .fin a' ∧ 0 < a' ∧ min a b ≤ a' ∧ a' ≤ a ∧
        ¬ (a' > b ∧ errInfIpm env st'.e st'.s st'.y st'.z (.fin a') ≤ .fin (10 * a')) ∧
        (a' = a ∧ st' = st ∨ a' < a ∧ st'.filter.entries = [])) ∧
      (∃ t', st'.τ = .fin t' ∧ 0.99 ≤ t' ∧ t' < 1) := by
  induction r generalizing st a t with
  | zero =>
    unfold barrierLoop
    rw [pow_zero, one_mul] at hr
    have hc : ¬ (st.μ > .fin b ∧ errInfIpm env st.e st.s st.y st.z st.μ ≤ .fin 10 * st.μ) := by
      rw [hμ]; rintro ⟨h, -⟩; exact absurd h (not_lt.2 hr)
    rw [if_neg hc]
    refine ⟨st, rfl, .refl st, ⟨a, hμ, ha, min_le_left _ _, le_rfl, ?_, .inl ⟨rfl, rfl⟩⟩, t, hτ, ht, ht1⟩
    rintro ⟨h, -⟩; exact absurd h (not_lt.2 hr)
  | succ r ih =>
    rw [barrierLoop]
    by_cases hc : st.μ > .fin b ∧ errInfIpm env st.e st.s st.y st.z st.μ ≤ .fin 10 * st.μ
    · rw [if_pos hc]
      have hab : b < a := by have := hc.1; rw [hμ] at this; exact this
      obtain ⟨a1, t1, h1, h2, h3, h4, h5, -, h7, h8, -⟩ := update_correct hb hab
      have hμ1 : (st.updateBarrier (.fin b)).μ = .fin a1 := by
        show nextMu _ st.μ = _; rw [hμ, h1]
      have hτ1 : (st.updateBarrier (.fin b)).τ = .fin t1 := by
        show nextTau (nextMu _ st.μ) = _; rw [hμ, h1, h2]
      obtain ⟨st', e1, e2, ⟨a', e3, e4, e5, e6, e7, e8⟩, e9⟩ := ih (st.updateBarrier (.fin b)) hμ1 (hb.trans_le h3)
        hτ1 h7 h8 (h5.trans (by
          apply max_le
          · exact le_mul_of_one_le_left hb.le (one_le_pow₀ (by norm_num))
          · rw [pow_succ] at hr; linarith))
      refine ⟨st', e1, ⟨e2.x, e2.s, e2.y, e2.z, e2.e, e2.rejected, e2.iterations, e2.E0⟩,
        ⟨a', e3, e4, ?_, e6.trans h4.le, e7, .inr ⟨e6.trans_lt h4, ?_⟩⟩, e9⟩
      · rw [min_eq_right hab.le]
        have : min a1 b = b := min_eq_right h3
        rw [this] at e5; exact e5
      · rcases e8 with ⟨-, rfl⟩ | ⟨-, h⟩
        · rfl
        · exact h
    · rw [if_neg hc]
      refine ⟨st, rfl, .refl st, ⟨a, hμ, ha, min_le_left _ _, le_rfl, ?_, .inl ⟨rfl, rfl⟩⟩, t, hτ, ht, ht1⟩
      rw [hμ] at hc
      simpa using hc

theorem barrierRounds_enough {a b : ℝ} (hb : 0 < b)  :
    a ≤ 5 ^ (⌈a / b⌉₊ + 1) * b := by
  have h1 : a / b ≤ (⌈a / b⌉₊ : ℝ) := Nat.le_ceil _
  have h2 : (⌈a / b⌉₊ : ℝ) ≤ 5 ^ (⌈a / b⌉₊ + 1) := by
    have : ⌈a / b⌉₊ + 1 < 5 ^ (⌈a / b⌉₊ + 1) := Nat.lt_pow_self (by norm_num)
    have h3 : ⌈a / b⌉₊ ≤ 5 ^ (⌈a / b⌉₊ + 1) := by omega
    exact_mod_cast h3
  rw [← div_le_iff₀ hb]
  exact h1.trans h2

/-- A parameter above its floor. -/
example : ∃ a', nextMu (.fin 1e-9) (.fin 0.1) = .fin a' ∧ 1e-9 ≤ a' ∧ a' < 0.1 := by
  obtain ⟨a', t, h1, -, h2, h3, -⟩ := update_correct (a := 0.1) (b := 1e-9) (by norm_num) (by norm_num)
  exact ⟨a', h1, h2, h3⟩

end Slp
