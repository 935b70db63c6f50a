import Verif.Solver.LdltLemmas
import Mathlib.LinearAlgebra.Matrix.ToLinearEquiv
import Verif.Solver.StepProps

/-!
C34: the regularised factorisation terminates whatever the factorisation reports, and what it accepts is a
matrix from which the solvers get a descent direction.
-/

namespace Slp.Ldlt

open Classical Matrix

/-- C34: with a positive or zero minimum regularisation, the number of attempts is bounded, whatever the
factorisation reports and whatever happened in earlier calls. The only assumption is that a factorisation
has as many pivots as the matrix has rows. -/
theorem compute_terminates (n m : ℕ) {γmin : ℝ} (hγ : 0 ≤ γmin) :
    ∃ N, ∀ (F : Factor) (prev : ℝ), (∀ c δ γ D, F c δ γ = some D → D.length = n + m) →
      ∃ s, compute F n m γmin prev N = some s := by
  obtain ⟨j, hj⟩ : ∃ j, Room γmin j := by
    rcases eq_or_lt_of_le hγ with h | h
    · exact ⟨32, Or.inl ⟨h.symm, le_rfl⟩⟩
    · obtain ⟨j, hj⟩ := pow_unbounded_of_one_lt (1e20 / γmin) (by norm_num : (1 : ℝ) < 10)
      exact ⟨j, Or.inr ⟨h, by rwa [div_lt_iff₀' h] at hj⟩⟩
  refine ⟨36 + j + 1, fun F prev hF => ?_⟩
  unfold compute
  split_ifs
  · exact ⟨_, rfl⟩
  · have hs : epsilon ≤ startδ prev := by
      unfold startδ
      split_ifs
      · unfold epsilon; norm_num
      · exact le_max_right _ _
    refine loop_terminates hF _ 36 j 1 _ _ le_rfl (lt_of_lt_of_le epsilon_pos hs) ?_ hj
    calc (1e20 : ℝ) < epsilon * 10 ^ 36 := by unfold epsilon; norm_num
      _ ≤ startδ prev * 10 ^ 36 := by gcongr

/-- C34: with the minimum regularisation the solvers use, at most 68 attempts after the first. -/
theorem compute_attempts {n m : ℕ} {F : Factor} (hF : ∀ c δ γ D, F c δ γ = some D → D.length = n + m)
    (prev : ℝ) : ∃ s, compute F n m 1e-10 prev 68 = some s := by
  unfold compute
  split_ifs
  · exact ⟨_, rfl⟩
  · have hs : epsilon ≤ startδ prev := by
      unfold startδ
      split_ifs
      · unfold epsilon; norm_num
      · exact le_max_right _ _
    refine loop_terminates hF _ 36 31 1 _ _ le_rfl (lt_of_lt_of_le epsilon_pos hs) ?_
      (Or.inr ⟨by norm_num, by norm_num⟩)
    calc (1e20 : ℝ) < epsilon * 10 ^ 36 := by unfold epsilon; norm_num
      _ ≤ startδ prev * 10 ^ 36 := by gcongr

/-- C34: on success the last factorisation is the one of the matrix regularised by the reported values, which
are not negative; it has exactly `n` pivots above epsilon, exactly `m` below minus epsilon and no other. On
failure the reported regularisation is beyond 1e20. -/
theorem compute_sound {n m : ℕ} {F : Factor} {γmin prev : ℝ} {fuel : ℕ} {s : State} (hγ : 0 ≤ γmin)
    (h : compute F n m γmin prev fuel = some s) :
    0 ≤ s.δ ∧ 0 ≤ s.γ ∧
      (s.ok = true → ∃ D, F s.calls s.δ s.γ = some D ∧
        D.countP (fun d => decide (Fl.fin epsilon < d)) = n ∧
        D.countP (fun d => decide (d < Fl.fin (-epsilon))) = m ∧ D.length = n + m) ∧
      (s.ok = false → 1e20 < s.δ ∨ 1e20 < s.γ) := by
  have ideal : ∀ {r : Option (List Fl)}, Ideal n m r → ∃ D, r = some D ∧
      D.countP (fun d => decide (Fl.fin epsilon < d)) = n ∧
      D.countP (fun d => decide (d < Fl.fin (-epsilon))) = m ∧ D.length = n + m := by
    rintro r ⟨D, hr, hD⟩
    obtain ⟨h1, h2, h3⟩ := Inertia.of_eq D
    rw [hD] at h1 h2 h3
    exact ⟨D, hr, h1.symm, h2.symm, by simp only at h3; omega⟩
  unfold compute at h
  split_ifs at h with h1
  · cases h
    refine ⟨le_rfl, le_rfl, fun _ => ?_, by simp⟩
    obtain ⟨D, hr, hD, -⟩ := h1
    exact ideal ⟨D, hr, hD⟩
  · have hs : 0 < startδ prev := by
      unfold startδ
      split_ifs
      · norm_num
      · exact lt_of_lt_of_le epsilon_pos (le_max_right _ _)
    obtain ⟨a, b, c, d⟩ := loop_result _ _ _ _ s hs hγ h
    exact ⟨a.le, b, fun hk => ideal (c hk), d⟩

/-- C34: a matrix whose first factorisation already has that inertia with pivots away from zero is not
regularised. -/
theorem compute_unregularised {n m : ℕ} {F : Factor} {γmin prev : ℝ} {fuel : ℕ} {D : List Fl}
    (h1 : F 0 0 0 = some D) (h2 : Inertia.of D = ⟨n, m, 0⟩) (h3 : ∀ d ∈ D, Fl.fin 1e-4 ≤ Fl.abs d) :
    compute F n m γmin prev fuel = some ⟨true, 0, 0, 0⟩ := by
  unfold compute
  exact if_pos ⟨D, h1, h2, h3⟩

/-! ### What the inertia is for -/

/-- `D` are the pivots of an exact factorisation `M = L D Lᵀ` with `L` invertible (row exchanges are part of
`L`). -/
def Factorizes {n : ℕ} (M : Matrix (Fin n) (Fin n) ℝ) (D : List Fl) : Prop :=
  ∃ (d : Fin n → ℝ) (L : Matrix (Fin n) (Fin n) ℝ), D = List.ofFn (fun i => Fl.fin (d i)) ∧ IsUnit L.det ∧
    M = L * Matrix.diagonal d * Lᵀ

theorem not_positive_card {n m : ℕ} {d : Fin (n + m) → ℝ}
    (h : (List.ofFn fun i => Fl.fin (d i)).countP (fun d => decide (Fl.fin epsilon < d)) = n) :
    Fintype.card {i // ¬ 0 < d i} ≤ m := by
  have h1 : (List.ofFn fun i => Fl.fin (d i)).countP (fun d => decide (Fl.fin epsilon < d)) =
      (Finset.univ.filter fun i => epsilon < d i).card := by
    rw [List.ofFn_eq_map, List.countP_map]
    rw [← List.toFinset_finRange, Finset.card_def, Finset.filter_val, List.toFinset_val,
      List.dedup_eq_self.mpr (List.nodup_finRange _), Multiset.filter_coe, Multiset.coe_card,
      List.countP_eq_length_filter]
    congr 2
  rw [h1] at h
  have h2 : (Finset.univ.filter fun i => epsilon < d i).card ≤ Fintype.card {i // 0 < d i} := by
    rw [Fintype.card_subtype]
    apply Finset.card_le_card
    intro i hi
    simp only [Finset.mem_filter, Finset.mem_univ, true_and] at hi ⊢
    exact lt_trans epsilon_pos hi
  have h3 := Fintype.card_subtype_compl (fun i => 0 < d i)
  rw [Fintype.card_fin] at h3
  omega

/-- C34: if the factored matrix `[H Aᵀ; A −γI]` has the accepted inertia, then `H` has positive curvature
along every direction that keeps the linearised equality constraints. -/
theorem ideal_positive_curvature {n m : ℕ} {M : Matrix (Fin (n + m)) (Fin (n + m)) ℝ}
    {H : Matrix (Fin n) (Fin n) ℝ} {A : Matrix (Fin m) (Fin n) ℝ} {γ : ℝ} (hγ : 0 ≤ γ)
    (b1 : ∀ i j, M (Fin.castAdd m i) (Fin.castAdd m j) = H i j)
    (b2 : ∀ i j, M (Fin.castAdd m i) (Fin.natAdd n j) = A j i)
    (b3 : ∀ i j, M (Fin.natAdd n i) (Fin.castAdd m j) = A i j)
    (b4 : ∀ i j, M (Fin.natAdd n i) (Fin.natAdd n j) = if i = j then -γ else 0) {D : List Fl}
    (hM : Factorizes M D) (hD : D.countP (fun d => decide (Fl.fin epsilon < d)) = n) {v : Fin n → ℝ}
    (hv : v ≠ 0) (hA : ∀ i, ∑ j, A i j * v j = 0) : 0 < ∑ i, v i * ∑ j, H i j * v j := by
  obtain ⟨d, L, rfl, hL, hM⟩ := hM
  let W : (Fin (m + 1) → ℝ) →ₗ[ℝ] Fin (n + m) → ℝ :=
    { toFun := fun c => Fin.addCases (fun i => c 0 * v i) (fun i => c (Fin.succ i))
      map_add' := by
        intro a b
        funext i
        refine Fin.addCases (fun i => ?_) (fun i => ?_) i
        · simp [add_mul]
        · simp
      map_smul' := by
        intro r a
        funext i
        refine Fin.addCases (fun i => ?_) (fun i => ?_) i
        · simp [mul_assoc]
        · simp }
  have hW : Function.Injective W := by
    intro a b h
    funext i
    refine Fin.cases ?_ (fun i => ?_) i
    · obtain ⟨l, hl⟩ := Function.ne_iff.mp hv
      have := congrFun h (Fin.castAdd m l)
      simp only [W, LinearMap.coe_mk, AddHom.coe_mk, Fin.addCases_left] at this
      exact mul_right_cancel₀ hl this
    · have := congrFun h (Fin.natAdd n i)
      simpa only [W, LinearMap.coe_mk, AddHom.coe_mk, Fin.addCases_right] using this
  obtain ⟨c, -, hc⟩ := exists_positive_direction hL hM (not_positive_card hD) W hW
  have e : W c ⬝ᵥ (M *ᵥ W c) = c 0 ^ 2 * (∑ i, v i * ∑ j, H i j * v j) - γ * ∑ i, c (Fin.succ i) ^ 2 := by
    unfold dotProduct Matrix.mulVec dotProduct
    rw [Fin.sum_univ_add]
    have e1 : ∀ i, W c (Fin.castAdd m i) = c 0 * v i := fun i => by
      simp only [W, LinearMap.coe_mk, AddHom.coe_mk, Fin.addCases_left]
    have e2 : ∀ i, W c (Fin.natAdd n i) = c (Fin.succ i) := fun i => by
      simp only [W, LinearMap.coe_mk, AddHom.coe_mk, Fin.addCases_right]
    simp only [Fin.sum_univ_add, e1, e2, b1, b2, b3, b4]
    have s1 : ∀ i, ∑ j, A i j * (c 0 * v j) = 0 := by
      intro i
      have : ∑ j, A i j * (c 0 * v j) = c 0 * ∑ j, A i j * v j := by
        rw [Finset.mul_sum]; exact Finset.sum_congr rfl fun j _ => by ring
      rw [this, hA i, mul_zero]
    have s2 : ∑ i, c 0 * v i * ∑ j, A j i * c (Fin.succ j) = 0 := by
      have : ∑ i, c 0 * v i * ∑ j, A j i * c (Fin.succ j) = ∑ j, c (Fin.succ j) * ∑ i, A j i * (c 0 * v i) := by
        simp only [Finset.mul_sum]
        rw [Finset.sum_comm]
        exact Finset.sum_congr rfl fun j _ => Finset.sum_congr rfl fun i _ => by ring
      rw [this]
      exact Finset.sum_eq_zero fun j _ => by rw [s1, mul_zero]
    simp only [mul_add, Finset.sum_add_distrib, s2, s1, ite_mul, zero_mul,
      Finset.sum_ite_eq, Finset.mem_univ, if_true, add_zero, zero_add]
    rw [sub_eq_add_neg]
    congr 1
    · simp only [Finset.mul_sum]
      exact Finset.sum_congr rfl fun i _ => Finset.sum_congr rfl fun j _ => by ring
    · rw [Finset.mul_sum, ← Finset.sum_neg_distrib]
      exact Finset.sum_congr rfl fun i _ => by ring
  rw [e] at hc
  have h0 : 0 ≤ γ * ∑ i, c (Fin.succ i) ^ 2 :=
    mul_nonneg hγ (Finset.sum_nonneg fun i _ => sq_nonneg _)
  have h1 : 0 < c 0 ^ 2 * (∑ i, v i * ∑ j, H i j * v j) := by linarith
  exact pos_of_mul_pos_right h1 (sq_nonneg _)

theorem signs_le (D : List Fl) : D.countP (fun d => decide (Fl.fin epsilon < d)) +
    D.countP (fun d => decide (d < Fl.fin (-epsilon))) ≤ D.length ∧ (Fl.fin 0 ∈ D →
      D.countP (fun d => decide (Fl.fin epsilon < d)) + D.countP (fun d => decide (d < Fl.fin (-epsilon))) < D.length) := by
  have he := epsilon_pos
  induction D with
  | nil => simp
  | cons d D ih =>
    obtain ⟨h1, h2⟩ := ih
    have h3 : ¬ (Fl.fin epsilon < d ∧ d < Fl.fin (-epsilon)) := by
      rintro ⟨a, b⟩
      cases d with
      | fin d => rw [Fl.fin_lt] at a b; linarith
      | pinf => exact b
      | ninf => exact a
      | nan => exact a
    have h4 : d = .fin 0 → ¬ Fl.fin epsilon < d ∧ ¬ d < Fl.fin (-epsilon) := by
      rintro rfl
      rw [Fl.fin_lt, Fl.fin_lt]
      exact ⟨by linarith, by linarith⟩
    simp only [List.countP_cons, List.length_cons, decide_eq_true_eq, List.mem_cons]
    constructor
    · by_cases a : Fl.fin epsilon < d <;> by_cases b : d < Fl.fin (-epsilon)
      · exact absurd ⟨a, b⟩ h3
      all_goals simp only [a, b, if_true, if_false]; omega
    · rintro (h5 | h5)
      · obtain ⟨a, b⟩ := h4 h5.symm
        rw [if_neg a, if_neg b]; omega
      · have := h2 h5
        by_cases a : Fl.fin epsilon < d <;> by_cases b : d < Fl.fin (-epsilon)
        · exact absurd ⟨a, b⟩ h3
        all_goals simp only [a, b, if_true, if_false]; omega

/-- C34, C89: on success, if the factorisation is exact, the factored matrix is not singular. -/
theorem accepted_nonsingular {n m : ℕ} {F : Factor} {γmin prev : ℝ} {fuel : ℕ} {S : State} (hγ : 0 ≤ γmin)
    (hS : compute F n m γmin prev fuel = some S) (ok : S.ok = true) {M : Matrix (Fin (n + m)) (Fin (n + m)) ℝ}
    (hF : ∀ D, F S.calls S.δ S.γ = some D → Factorizes M D) (v : Fin (n + m) → ℝ) (hv : M *ᵥ v = 0) : v = 0 := by
  obtain ⟨-, -, hok, -⟩ := compute_sound hγ hS
  obtain ⟨D, hD, h1, h2, h3⟩ := hok ok
  obtain ⟨d, L, rfl, hL, rfl⟩ := hF D hD
  have hd : ∀ i, d i ≠ 0 := fun i hi => by
    have := (signs_le _).2 (show Fl.fin 0 ∈ List.ofFn fun i => Fl.fin (d i) from List.mem_ofFn.2 ⟨i, congrArg Fl.fin hi⟩)
    omega
  refine Matrix.eq_zero_of_mulVec_eq_zero ?_ hv
  rw [det_mul, det_mul, det_diagonal, det_transpose]
  exact mul_ne_zero (mul_ne_zero hL.ne_zero (Finset.prod_ne_zero_iff.2 fun i _ => hd i)) hL.ne_zero

/-- C34: on success, at a point that meets the constraints, with an exact factorisation and no relaxation of
the equality constraints, the step is a descent direction of the barrier function the line search uses
(`∇f·pˣ − μ Σ pˢ/s`). Without inequality constraints (`k = 0`) that is the cost. -/
theorem descent_direction {n m k : ℕ} {topLeft Ae : Sparse} {H : Matrix (Fin n) (Fin n) ℝ}
    {Ai : Matrix (Fin k) (Fin n) ℝ} {g : Fin n → ℝ} {y : Fin m → ℝ} {s z : Fin k → ℝ} {μ : ℝ}
    {p : Fin (n + m) → ℝ} (hs : ∀ i, 0 < s i) (hH : ∀ i j, H i j = H j i)
    (ht : IsTopLeft n topLeft H (sigma s z) Ai) (he : Ae.WF) (hr : Ae.rows = m) {F : Factor}
    {prev γmin : ℝ} {fuel : ℕ} {S : State} (hγ : 0 ≤ γmin) (hS : compute F n m γmin prev fuel = some S)
    (ok : S.ok = true) (h0 : S.γ = 0)
    (hF : ∀ D, F S.calls S.δ S.γ = some D →
      Factorizes (fun i j : Fin (n + m) => regularized n S.δ S.γ (kktLhs n m topLeft Ae) i j) D)
    (hp : Solves n m S.δ S.γ (kktLhs n m topLeft Ae) p
      (kktRhs g (Ae.mat m n) (fun _ => 0) Ai s s y z μ))
    (hne : ∃ i, p (Fin.castAdd m i) ≠ 0) :
    let q := computeStep p Ai s z μ (s - s)
    (∑ j, g j * q.px j) - μ * ∑ i, q.ps i / s i < 0 := by
  intro q
  obtain ⟨-, -, hok, -⟩ := compute_sound hγ hS
  obtain ⟨D, hD, hpos, -, -⟩ := hok ok
  obtain ⟨b1, b2, b3, b4⟩ := regularized_blocks (m := m) hH ht he hr S.δ S.γ
  have hx : ∀ j, kktRhs g (Ae.mat m n) (fun _ => 0) Ai s s y z μ (Fin.castAdd m j) =
      -g j + ∑ i, Ae.mat m n i j * y i + ∑ i, Ai i j * (μ * (s i)⁻¹) := by
    intro j
    unfold kktRhs
    simp only [Fin.addCases_left, Pi.add_apply, Pi.neg_apply, mulVec_transpose]
    congr 1
    refine Finset.sum_congr rfl fun i _ => ?_
    have := (hs i).ne'
    unfold sigma
    field_simp
    ring
  obtain ⟨r1, r2⟩ := solves_rows hH ht he hr hp
  have hAp : ∀ i, ∑ l, Ae.mat m n i l * p (Fin.castAdd m l) = 0 := by
    intro i
    have := r2 i
    unfold kktRhs at this
    rw [Fin.addCases_right, h0, zero_mul, sub_zero] at this
    simpa using this
  have key := ideal_positive_curvature
    (M := fun i j => regularized n S.δ S.γ (kktLhs n m topLeft Ae) i j)
    (H := fun i j => H i j + ∑ l, Ai l i * sigma s z l * Ai l j + if i = j then S.δ else 0)
    (A := Ae.mat m n) (γ := S.γ) h0.ge (fun i j => by simpa using b1 i j)
    (fun i j => by simpa [Sparse.mat] using b2 i j) (fun i j => by simpa [Sparse.mat] using b3 i j)
    (fun i j => by simpa using b4 i j) (hF D hD) hpos (v := fun i => p (Fin.castAdd m i))
    (by obtain ⟨i, hi⟩ := hne; exact fun h => hi (congrFun h i)) hAp
  have e1 : ∀ i : Fin n, ∑ j, (H i j + ∑ l, Ai l i * sigma s z l * Ai l j + if i = j then S.δ else 0) *
      p (Fin.castAdd m j) = -g i + ∑ l, Ae.mat m n l i * y l + ∑ l, Ai l i * (μ * (s l)⁻¹) -
        ∑ l, Ae.mat m n l i * p (Fin.natAdd n l) := by
    intro i
    have h := r1 i
    rw [hx i] at h
    rw [← h]
    simp only [add_mul, Finset.sum_add_distrib, ite_mul, zero_mul, Finset.sum_ite_eq, Finset.mem_univ, if_true]
    have : ∑ x, (∑ l, Ai l i * sigma s z l * Ai l x) * p (Fin.castAdd m x) =
        ∑ l, Ai l i * (sigma s z l * ∑ j, Ai l j * p (Fin.castAdd m j)) := by
      simp only [Finset.sum_mul, Finset.mul_sum]
      rw [Finset.sum_comm]
      exact Finset.sum_congr rfl fun l _ => Finset.sum_congr rfl fun j _ => by ring
    rw [this]
    ring
  simp only [e1] at key
  have swap : ∀ {a : ℕ} (B : Matrix (Fin a) (Fin n) ℝ) (w : Fin a → ℝ),
      ∑ i, p (Fin.castAdd m i) * ∑ l, B l i * w l = ∑ l, w l * ∑ i, B l i * p (Fin.castAdd m i) := by
    intro a B w
    simp only [Finset.mul_sum]
    rw [Finset.sum_comm]
    exact Finset.sum_congr rfl fun l _ => Finset.sum_congr rfl fun j _ => by ring
  simp only [mul_add, mul_sub, Finset.sum_add_distrib, Finset.sum_sub_distrib, swap, hAp, mul_zero,
    Finset.sum_const_zero, add_zero, sub_zero] at key
  have e2 : ∑ j, g j * q.px j = -∑ i, p (Fin.castAdd m i) * -g i := by
    rw [← Finset.sum_neg_distrib]
    refine Finset.sum_congr rfl fun i _ => ?_
    show g i * p (Fin.castAdd m i) = _
    ring
  have e3 : μ * ∑ i, q.ps i / s i = ∑ l, μ * (s l)⁻¹ * ∑ i, Ai l i * p (Fin.castAdd m i) := by
    rw [Finset.mul_sum]
    refine Finset.sum_congr rfl fun i _ => ?_
    have : q.ps i = ∑ l, Ai i l * p (Fin.castAdd m l) := by
      simp [q, computeStep, Matrix.mulVec, dotProduct]
    rw [this]
    ring
  rw [e2, e3]
  linarith

/-- A factorisation that meets the hypotheses: a diagonal matrix and its own diagonal. -/
example : compute (fun _ δ γ => some [Fl.fin (2 + δ), Fl.fin (-1 - γ)]) 1 1 1e-10 0 68 =
    some ⟨true, 0, 0, 0⟩ ∧
    Factorizes (Matrix.diagonal ![2, -1] : Matrix (Fin 2) (Fin 2) ℝ) [Fl.fin 2, Fl.fin (-1)] := by
  have h1 : Fl.fin epsilon < Fl.fin 2 := by rw [Fl.fin_lt]; unfold epsilon; norm_num
  have h2 : ¬ Fl.fin epsilon < Fl.fin (-1) := by rw [Fl.fin_lt]; unfold epsilon; norm_num
  have h3 : Fl.fin (-1) < Fl.fin (-epsilon) := by rw [Fl.fin_lt]; unfold epsilon; norm_num
  refine ⟨compute_unregularised (D := [Fl.fin 2, Fl.fin (-1)]) (by norm_num) ?_ ?_, ![2, -1], 1, ?_, ?_, ?_⟩
  · simp [Inertia.of, Inertia.count, h1, h2, h3]
  · intro d hd
    simp only [List.mem_cons, List.not_mem_nil, or_false] at hd
    rcases hd with rfl | rfl <;> rw [Fl.abs_fin, Fl.fin_le] <;> norm_num
  · simp
  · simp
  · simp

/-- One that never succeeds: all attempts are made and failure is reported. -/
example : ∃ s, compute (fun _ _ _ => none) 1 1 1e-10 0 68 = some s ∧ s.ok = false := by
  obtain ⟨s, hs⟩ := compute_attempts (n := 1) (m := 1) (F := fun _ _ _ => none) (by simp) 0
  refine ⟨s, hs, ?_⟩
  by_contra h
  obtain ⟨-, -, h3, -⟩ := compute_sound (by norm_num) hs
  obtain ⟨D, hD, -⟩ := h3 (by simpa using h)
  simp at hD

end Slp.Ldlt
