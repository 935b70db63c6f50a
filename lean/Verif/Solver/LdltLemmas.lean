import Verif.Solver.LdltModel
import Mathlib.LinearAlgebra.Matrix.NonsingularInverse
import Mathlib.LinearAlgebra.Matrix.ToLin
import Mathlib.LinearAlgebra.Dimension.Constructions
import Mathlib.LinearAlgebra.FiniteDimensional.Lemmas
import Mathlib.Tactic.Positivity

/-! Facts about the regularisation loop and about congruent matrices. -/

namespace Slp.Ldlt

open Classical Matrix

theorem Inertia.foldl_count (D : List Fl) (r : Inertia) :
    D.foldl Inertia.count r = ⟨r.positive + D.countP (fun d => decide (Fl.fin epsilon < d)),
      r.negative + D.countP (fun d => decide (¬ Fl.fin epsilon < d ∧ d < Fl.fin (-epsilon))),
      r.zero + D.countP (fun d => decide (¬ Fl.fin epsilon < d ∧ ¬ d < Fl.fin (-epsilon)))⟩ := by
  induction D generalizing r with
  | nil => rfl
  | cons d D ih =>
    rw [List.foldl_cons, ih]
    unfold Inertia.count
    by_cases h1 : Fl.fin epsilon < d
    · simp only [gt_iff_lt, h1, if_true, List.countP_cons, not_true_eq_false, false_and, decide_true,
        decide_false, Bool.false_eq_true, if_false, Inertia.mk.injEq]
      omega
    · by_cases h2 : d < Fl.fin (-epsilon)
      · simp only [gt_iff_lt, h1, h2, if_true, if_false, List.countP_cons, not_false_eq_true, true_and,
          decide_true, decide_false, not_true_eq_false, Bool.false_eq_true, Inertia.mk.injEq]
        omega
      · simp only [gt_iff_lt, h1, h2, if_true, if_false, List.countP_cons, not_false_eq_true, true_and,
          decide_true, decide_false, Bool.false_eq_true, Inertia.mk.injEq]
        omega

theorem epsilon_pos : 0 < epsilon := by unfold epsilon; positivity

theorem lt_asymm_epsilon {d : Fl} (h : d < Fl.fin (-epsilon)) : ¬ Fl.fin epsilon < d := by
  have := epsilon_pos
  cases d with
  | fin x =>
    rw [Fl.fin_lt] at h
    rw [Fl.fin_lt]
    linarith
  | pinf => exact absurd h id
  | ninf => exact id
  | nan => exact id

theorem Inertia.of_eq (D : List Fl) :
    (Inertia.of D).positive = D.countP (fun d => decide (Fl.fin epsilon < d)) ∧
      (Inertia.of D).negative = D.countP (fun d => decide (d < Fl.fin (-epsilon))) ∧
      (Inertia.of D).positive + (Inertia.of D).negative + (Inertia.of D).zero = D.length := by
  unfold Inertia.of
  rw [Inertia.foldl_count]
  simp only [zero_add]
  refine ⟨trivial, ?_, ?_⟩
  · congr 1
    funext d
    simp only [decide_eq_decide]
    exact ⟨fun h => h.2, fun h => ⟨lt_asymm_epsilon h, h⟩⟩
  · induction D with
    | nil => rfl
    | cons d D ih =>
      by_cases h1 : Fl.fin epsilon < d
      · simp only [List.countP_cons, List.length_cons, h1, decide_true, if_true, not_true_eq_false, false_and,
          decide_false, Bool.false_eq_true, if_false]
        omega
      · by_cases h2 : d < Fl.fin (-epsilon)
        · simp only [List.countP_cons, List.length_cons, h1, h2, decide_true, if_true, not_true_eq_false,
            decide_false, Bool.false_eq_true, if_false, not_false_eq_true, true_and]
          omega
        · simp only [List.countP_cons, List.length_cons, h1, h2, decide_true, if_true,
            decide_false, Bool.false_eq_true, if_false, not_false_eq_true, true_and]
          omega

/-- How many more increases `γ` can take. -/
def Room (γ : ℝ) (j : ℕ) : Prop := (γ = 0 ∧ 32 ≤ j) ∨ (0 < γ ∧ 1e20 < γ * 10 ^ j)

theorem Room.step {γ : ℝ} {j : ℕ} (h : Room γ j) (hγ : (if γ = 0 then 1e-10 else γ * 10) ≤ (1e20 : ℝ)) :
    ∃ i, i < j ∧ Room (if γ = 0 then 1e-10 else γ * 10) i := by
  rcases h with ⟨h0, hj⟩ | ⟨h0, hj⟩
  · refine ⟨31, by omega, Or.inr ?_⟩
    rw [if_pos h0]
    norm_num
  · rw [if_neg h0.ne'] at hγ ⊢
    match j with
    | 0 => rw [pow_zero, mul_one] at hj; norm_num at hj hγ; linarith
    | j + 1 => exact ⟨j, Nat.lt_succ_self _, Or.inr ⟨by positivity, by rw [pow_succ] at hj; linarith⟩⟩

/-- Every round that does not end the loop increases `δ` or `γ`. -/
theorem bump_step {n m : ℕ} {r : Option (List Fl)} (hD : ∀ D, r = some D → D.length = n + m)
    (hn : ¬ Ideal n m r) (δ γ : ℝ) :
    ((bump n m r δ γ).1 = δ * 10 ∧ ((bump n m r δ γ).2 = γ ∨
        (bump n m r δ γ).2 = if γ = 0 then 1e-10 else γ * 10)) ∨
      ((bump n m r δ γ).1 = δ ∧ (bump n m r δ γ).2 = if γ = 0 then 1e-10 else γ * 10) := by
  unfold bump
  match r, hD, hn with
  | none, _, _ => exact Or.inl ⟨rfl, Or.inr rfl⟩
  | some D, hD, hn =>
    simp only
    split_ifs with h1 h2 h3 h4 h5
    · exact Or.inr ⟨rfl, rfl⟩
    · exact Or.inl ⟨rfl, Or.inr rfl⟩
    · exact Or.inl ⟨rfl, Or.inl rfl⟩
    · exact Or.inl ⟨rfl, Or.inl rfl⟩
    · exact Or.inr ⟨rfl, rfl⟩
    · exact Or.inr ⟨rfl, rfl⟩
    all_goals
      exfalso
      apply hn
      refine ⟨D, rfl, ?_⟩
      have h := (Inertia.of_eq D).2.2
      have hl := hD D rfl
      have e1 : (Inertia.of D).positive = n := by omega
      have e2 : (Inertia.of D).negative = m := by omega
      have e3 : (Inertia.of D).zero = 0 := by omega
      rw [← e1, ← e2, ← e3]

theorem loop_terminates {F : Factor} {n m : ℕ} (hF : ∀ c δ γ D, F c δ γ = some D → D.length = n + m) :
    ∀ (fuel i j c : ℕ) (δ γ : ℝ), i + j + 1 ≤ fuel → 0 < δ → 1e20 < δ * 10 ^ i → Room γ j →
      ∃ s, loop F n m fuel c δ γ = some s := by
  intro fuel
  induction fuel with
  | zero => intro i j c δ γ h; omega
  | succ fuel ih =>
    intro i j c δ γ hf hδ hi hj
    rw [loop]
    split_ifs with h1
    · exact ⟨_, rfl⟩
    · simp only
      split_ifs with h2
      · exact ⟨_, rfl⟩
      · rw [not_or, not_lt, not_lt] at h2
        obtain ⟨h2, h3⟩ := h2
        have hb := bump_step (hF c δ γ) h1 δ γ
        have dec : ∀ {δ'}, δ' = δ * 10 → δ' ≤ 1e20 → ∃ i', i' < i ∧ 1e20 < δ' * 10 ^ i' := by
          intro δ' e hle
          match i, hi with
          | 0, hi => rw [pow_zero, mul_one] at hi; norm_num at hi hle; linarith
          | i + 1, hi => exact ⟨i, Nat.lt_succ_self _, by rw [e]; rw [pow_succ] at hi; linarith⟩
        rcases hb with ⟨e1, e2 | e2⟩ | ⟨e1, e2⟩
        · obtain ⟨i', hi', hi''⟩ := dec e1 h2
          exact ih i' j (c + 1) _ _ (by omega) (by rw [e1]; positivity) hi'' (by rw [e2]; exact hj)
        · obtain ⟨i', hi', hi''⟩ := dec e1 h2
          rw [e2] at h3
          obtain ⟨j', hj', hj''⟩ := hj.step h3
          exact ih i' j' (c + 1) _ _ (by omega) (by rw [e1]; positivity) hi'' (by rw [e2]; exact hj'')
        · rw [e2] at h3
          obtain ⟨j', hj', hj''⟩ := hj.step h3
          exact ih i j' (c + 1) _ _ (by omega) (by rw [e1]; exact hδ) (by rw [e1]; exact hi)
            (by rw [e2]; exact hj'')

theorem bump_pos {n m : ℕ} {r : Option (List Fl)} {δ γ : ℝ} (hδ : 0 < δ) (hγ : 0 ≤ γ) :
    0 < (bump n m r δ γ).1 ∧ 0 ≤ (bump n m r δ γ).2 := by
  unfold bump
  split
  · split_ifs <;> constructor <;> positivity
  · constructor
    · positivity
    · split_ifs
      · norm_num
      · positivity

theorem loop_result {F : Factor} {n m : ℕ} : ∀ (fuel c : ℕ) (δ γ : ℝ) (s : State), 0 < δ → 0 ≤ γ →
    loop F n m fuel c δ γ = some s → 0 < s.δ ∧ 0 ≤ s.γ ∧ (s.ok = true → Ideal n m (F s.calls s.δ s.γ)) ∧
      (s.ok = false → 1e20 < s.δ ∨ 1e20 < s.γ) := by
  intro fuel
  induction fuel with
  | zero => intro c δ γ s _ _ h; simp [loop] at h
  | succ fuel ih =>
    intro c δ γ s hδ hγ h
    rw [loop] at h
    simp only at h
    split_ifs at h with h1 h2
    · cases h
      exact ⟨hδ, hγ, fun _ => h1, by simp⟩
    · cases h
      exact ⟨(bump_pos hδ hγ).1, (bump_pos hδ hγ).2, by simp, fun _ => h2⟩
    · exact ih _ _ _ s (bump_pos hδ hγ).1 (bump_pos hδ hγ).2 h

/-! ### Congruence -/

/-- If `M = L diag(D) Lᵀ` with `L` invertible, a subspace with more dimensions than there are pivots that are
not positive contains a direction of positive curvature. -/
theorem exists_positive_direction {ι : Type*} [Fintype ι] [DecidableEq ι] {M L : Matrix ι ι ℝ} {D : ι → ℝ}
    (hL : IsUnit L.det) (hM : M = L * Matrix.diagonal D * Lᵀ) {q : ℕ}
    (hq : Fintype.card {i // ¬ 0 < D i} ≤ q) (W : (Fin (q + 1) → ℝ) →ₗ[ℝ] ι → ℝ)
    (hW : Function.Injective W) : ∃ c, c ≠ 0 ∧ 0 < W c ⬝ᵥ (M *ᵥ W c) := by
  let T : (Fin (q + 1) → ℝ) →ₗ[ℝ] ({i // ¬ 0 < D i} → ℝ) :=
    (LinearMap.funLeft ℝ ℝ (Subtype.val : {i // ¬ 0 < D i} → ι)).comp ((Matrix.toLin' Lᵀ).comp W)
  have hk : LinearMap.ker T ≠ ⊥ := by
    apply LinearMap.ker_ne_bot_of_finrank_lt
    simp only [Module.finrank_fintype_fun_eq_card, Fintype.card_fin]
    omega
  obtain ⟨c, hc, hc0⟩ := (Submodule.ne_bot_iff _).mp hk
  refine ⟨c, hc0, ?_⟩
  have h0 : ∀ i, ¬ 0 < D i → (Lᵀ *ᵥ W c) i = 0 := by
    intro i hi
    have := congrFun (LinearMap.mem_ker.mp hc) ⟨i, hi⟩
    simpa [T, LinearMap.funLeft] using this
  have hu : Lᵀ *ᵥ W c ≠ 0 := by
    intro h
    have hinj : Function.Injective (Lᵀ).mulVec := by
      rw [Matrix.mulVec_injective_iff_isUnit, Matrix.isUnit_iff_isUnit_det, Matrix.det_transpose]
      exact hL
    have : W c = 0 := hinj (by rw [h, Matrix.mulVec_zero])
    exact hc0 (hW (by rw [this, map_zero]))
  have e : W c ⬝ᵥ (M *ᵥ W c) = ∑ i, D i * ((Lᵀ *ᵥ W c) i) ^ 2 := by
    rw [hM, ← Matrix.mulVec_mulVec, ← Matrix.mulVec_mulVec, Matrix.dotProduct_mulVec,
      ← Matrix.mulVec_transpose]
    unfold dotProduct
    refine Finset.sum_congr rfl fun i _ => ?_
    rw [Matrix.mulVec_diagonal]
    ring
  rw [e]
  obtain ⟨i, hi⟩ := Function.ne_iff.mp hu
  refine Finset.sum_pos' (fun l _ => ?_) ⟨i, Finset.mem_univ _, ?_⟩
  · by_cases h : 0 < D l
    · positivity
    · rw [h0 l h]; simp
  · have : 0 < D i := by
      by_contra h
      exact hi (by rw [h0 i h]; rfl)
    have h2 : 0 < ((Lᵀ *ᵥ W c) i) ^ 2 := by
      have : (Lᵀ *ᵥ W c) i ≠ 0 := hi
      positivity
    positivity

end Slp.Ldlt
