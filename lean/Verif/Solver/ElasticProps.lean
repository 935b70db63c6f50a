import Verif.Solver.ElasticLemmas
import Verif.Solver.RestoreProblemProps
import Verif.Solver.IpmProps

/-! C59: what the first-order conditions of the restoration problem say about the constraints. -/

namespace Slp

open Classical

variable {n m k : ℕ}

/-- The sum of the violations of constraints with the values `ce` and `ci`. -/
noncomputable def violationSum (ce : Fin m → ℝ) (ci : Fin k → ℝ) : ℝ := ∑ i, |ce i| + ∑ i, Max.max (-ci i) 0

/-- Half the weighted squared distance from the point at which restoration starts. -/
noncomputable def proximity (ζ : ℝ) (w xr x : Fin n → ℝ) : ℝ := ζ / 2 * ∑ j, w j * (x j - xr j) ^ 2

/-- The multipliers of the elastic problem are bounded, hence also the factors by which errors are divided. -/
theorem damping_le {q : ℕ} {T S M : ℝ} (hT1 : T ≤ 1) {a : ℝ} (ha : a ≤ q * M) (hM : M = 2000 + 2 * (T * S))
    (hS : S = Max.max 1 (a / q / 100)) (hM0 : 0 ≤ M) : S ≤ 21 := by
  have h1 : a / q ≤ M := by
    rcases Nat.eq_zero_or_pos q with h | h
    · subst h; simpa using hM0
    · rw [div_le_iff₀ (by exact_mod_cast h)]; linarith
  have hS1 : 1 ≤ S := by rw [hS]; exact le_max_left _ _
  have hTS : T * S ≤ S := mul_le_of_le_one_left (by linarith) hT1
  rcases max_cases 1 (a / q / 100) with ⟨h, -⟩ | ⟨h, -⟩
  · rw [hS, h]; norm_num
  · rw [← hS] at h
    have : a / q / 100 ≤ M / 100 := div_le_div_of_nonneg_right h1 (by norm_num)
    rw [← h, hM] at this
    linarith

theorem damping_le' {q : ℕ} {T S S' M : ℝ} (hT : 0 ≤ T) (hT1 : T ≤ 1) {a : ℝ} (ha : a ≤ q * M)
    (hM : M = 2000 + 2 * (T * S)) (hS : S ≤ 21) (hS' : S' = Max.max 1 (a / q / 100)) (hS0 : 0 ≤ S) : S' ≤ 21 := by
  have hTS : T * S ≤ 21 := (mul_le_of_le_one_left hS0 hT1).trans hS
  have hTS0 := mul_nonneg hT hS0
  have h1 : a / q ≤ M := by
    rcases Nat.eq_zero_or_pos q with h | h
    · subst h; simp; linarith
    · rw [div_le_iff₀ (by exact_mod_cast h)]; linarith
  rw [hS']
  refine max_le (by norm_num) ?_
  have : a / q / 100 ≤ M / 100 := div_le_div_of_nonneg_right h1 (by norm_num)
  linarith

/-- The real-number core: at a point that meets the first-order conditions of the elastic problem within `T`, no other
point has a much smaller sum of the violation and of the distance from the reference point. -/
theorem elastic_core {T S ζ : ℝ} (hT : 0 ≤ T) (hT1 : T ≤ 1) (hS : 0 ≤ S) (hS1 : S ≤ 21) (hζ : 0 ≤ ζ)
    {wt xr x w : Fin n → ℝ} (hwt : ∀ j, 0 ≤ wt j) {ce cew pe ne y spe sne zpe zne : Fin m → ℝ}
    {ci ciw pi ni z s spi sni zpi zni : Fin k → ℝ} {Ae : Fin m → Fin n → ℝ} {Ai : Fin k → Fin n → ℝ}
    (hcew : ∀ i, cew i = ce i + ∑ j, Ae i j * (w j - x j)) (hciw : ∀ i, ciw i ≤ ci i + ∑ j, Ai i j * (w j - x j))
    (hst : ∀ j, |ζ * wt j * (x j - xr j) - ∑ i, y i * Ae i j - ∑ i, z i * Ai i j| ≤ T * S)
    (he : ∀ i, |ce i - pe i + ne i| ≤ T ∧ 0 ≤ zpe i ∧ 0 ≤ zne i ∧ 0 < spe i ∧ 0 < sne i ∧ |pe i - spe i| ≤ T ∧
      |ne i - sne i| ≤ T ∧ |spe i * zpe i| ≤ T * S ∧ |sne i * zne i| ≤ T * S ∧ |1000 + y i - zpe i| ≤ T * S ∧
      |1000 - y i - zne i| ≤ T * S)
    (hi : ∀ i, 0 ≤ z i ∧ 0 < s i ∧ |ci i - pi i + ni i - s i| ≤ T ∧ |s i * z i| ≤ T * S ∧ 0 ≤ zpi i ∧ 0 ≤ zni i ∧
      0 < spi i ∧ 0 < sni i ∧ |pi i - spi i| ≤ T ∧ |ni i - sni i| ≤ T ∧ |spi i * zpi i| ≤ T * S ∧
      |sni i * zni i| ≤ T * S ∧ |1000 + z i - zpi i| ≤ T * S ∧ |1000 - z i - zni i| ≤ T * S) :
    (1000 - 21 * T) * violationSum ce ci + proximity ζ wt xr x ≤ (1000 + 21 * T) * violationSum cew ciw +
      proximity ζ wt xr w + T * (21 * ∑ j, |w j - x j| + 8300 * (m + k)) := by
  -- the constraints
  have h1 : (1000 - 21 * T) * ∑ i, |ce i| ≤ (1000 + 21 * T) * ∑ i, |cew i| + ∑ i, y i * (cew i - ce i) +
      8300 * T * m := by
    have : ∀ i ∈ Finset.univ, (1000 - 21 * T) * |ce i| ≤ (1000 + 21 * T) * |cew i| + y i * (cew i - ce i) + 8300 * T := by
      intro i _
      obtain ⟨a1, a2, a3, a4, a5, a6, a7, a8, a9, a10, a11⟩ := he i
      exact elastic_eq hT hT1 hS hS1 a1 a2 a3 a4 a5 a6 a7 a8 a9 a10 a11
    have h := Finset.sum_le_sum this
    simp only [← Finset.mul_sum, Finset.sum_add_distrib, Finset.sum_const, Finset.card_univ, Fintype.card_fin,
      nsmul_eq_mul] at h
    linarith
  have h2 : (1000 - 21 * T) * ∑ i, Max.max (-ci i) 0 ≤ (1000 + 21 * T) * ∑ i, Max.max (-ciw i) 0 +
      ∑ i, z i * (ciw i - ci i) + 8300 * T * k := by
    have : ∀ i ∈ Finset.univ, (1000 - 21 * T) * Max.max (-ci i) 0 ≤
        (1000 + 21 * T) * Max.max (-ciw i) 0 + z i * (ciw i - ci i) + 8300 * T := by
      intro i _
      obtain ⟨a1, a2, a3, a4, a5, a6, a7, a8, a9, a10, a11, a12, a13, a14⟩ := hi i
      exact elastic_ineq hT hT1 hS hS1 a1 a2 a3 a4 a5 a6 a7 a8 a9 a10 a11 a12 a13 a14
    have h := Finset.sum_le_sum this
    simp only [← Finset.mul_sum, Finset.sum_add_distrib, Finset.sum_const, Finset.card_univ, Fintype.card_fin,
      nsmul_eq_mul] at h
    linarith
  -- stationarity
  have h3 : ∑ i, y i * (cew i - ce i) = ∑ j, (∑ i, y i * Ae i j) * (w j - x j) := by
    simp only [Finset.sum_mul]
    rw [Finset.sum_comm]
    refine Finset.sum_congr rfl fun i _ => ?_
    rw [hcew, add_sub_cancel_left, Finset.mul_sum]
    exact Finset.sum_congr rfl fun j _ => by ring
  have h4 : ∑ i, z i * (ciw i - ci i) ≤ ∑ j, (∑ i, z i * Ai i j) * (w j - x j) := by
    simp only [Finset.sum_mul]
    rw [Finset.sum_comm]
    refine Finset.sum_le_sum fun i _ => ?_
    have : z i * (ciw i - ci i) ≤ z i * ∑ j, Ai i j * (w j - x j) :=
      mul_le_mul_of_nonneg_left (by linarith [hciw i]) (hi i).1
    refine this.trans (le_of_eq ?_)
    rw [Finset.mul_sum]
    exact Finset.sum_congr rfl fun j _ => by ring
  have h5 : ∑ j, (∑ i, y i * Ae i j) * (w j - x j) + ∑ j, (∑ i, z i * Ai i j) * (w j - x j) ≤
      ∑ j, (ζ * wt j * (x j - xr j) * (w j - x j) + 21 * T * |w j - x j|) := by
    rw [← Finset.sum_add_distrib]
    refine Finset.sum_le_sum fun j _ => ?_
    have a1 : |(ζ * wt j * (x j - xr j) - ∑ i, y i * Ae i j - ∑ i, z i * Ai i j) * (w j - x j)| ≤
        21 * T * |w j - x j| := by
      rw [abs_mul]
      refine mul_le_mul_of_nonneg_right ((hst j).trans ?_) (abs_nonneg _)
      rw [mul_comm]
      exact mul_le_mul_of_nonneg_right hS1 hT
    have a2 := (abs_le.1 a1).1
    linarith
  have h6 : ∑ j, (ζ * wt j * (x j - xr j) * (w j - x j)) ≤ proximity ζ wt xr w - proximity ζ wt xr x := by
    unfold proximity
    rw [← mul_sub, ← Finset.sum_sub_distrib, Finset.mul_sum]
    refine Finset.sum_le_sum fun j _ => ?_
    have := mul_nonneg (mul_nonneg hζ (hwt j)) (sq_nonneg (w j - x j))
    linarith
  rw [Finset.sum_add_distrib, ← Finset.mul_sum] at h5
  unfold violationSum
  linarith

theorem stackRelax_parts (v : Fin (relaxed m k) → ℝ) : ∃ pe ne pi ni, v = stackRelax (m := m) (k := k) pe ne pi ni := by
  refine ⟨fun i => v ⟨i, by have := i.2; unfold relaxed; omega⟩, fun i => v ⟨m + i, by have := i.2; unfold relaxed; omega⟩,
    fun i => v ⟨2 * m + i, by have := i.2; unfold relaxed; omega⟩,
    fun i => v ⟨2 * m + k + i, by have := i.2; unfold relaxed; omega⟩, ?_⟩
  funext ⟨j, hj⟩
  by_cases h1 : j < m
  · have := stackRelax_pe (m := m) (k := k) (fun i => v ⟨i, by have := i.2; unfold relaxed; omega⟩)
      (fun i => v ⟨m + i, by have := i.2; unfold relaxed; omega⟩)
      (fun i => v ⟨2 * m + i, by have := i.2; unfold relaxed; omega⟩)
      (fun i => v ⟨2 * m + k + i, by have := i.2; unfold relaxed; omega⟩) ⟨j, h1⟩ hj
    exact this.symm
  by_cases h2 : j < 2 * m
  · have e : j = m + (j - m) := by omega
    have := stackRelax_ne (m := m) (k := k) (fun i => v ⟨i, by have := i.2; unfold relaxed; omega⟩)
      (fun i => v ⟨m + i, by have := i.2; unfold relaxed; omega⟩)
      (fun i => v ⟨2 * m + i, by have := i.2; unfold relaxed; omega⟩)
      (fun i => v ⟨2 * m + k + i, by have := i.2; unfold relaxed; omega⟩) ⟨j - m, by omega⟩ (by simp only; omega)
    simp only [← e] at this
    exact this.symm
  by_cases h3 : j < 2 * m + k
  · have e : j = 2 * m + (j - 2 * m) := by omega
    have := stackRelax_pi (m := m) (k := k) (fun i => v ⟨i, by have := i.2; unfold relaxed; omega⟩)
      (fun i => v ⟨m + i, by have := i.2; unfold relaxed; omega⟩)
      (fun i => v ⟨2 * m + i, by have := i.2; unfold relaxed; omega⟩)
      (fun i => v ⟨2 * m + k + i, by have := i.2; unfold relaxed; omega⟩) ⟨j - 2 * m, by omega⟩ (by simp only; omega)
    simp only [← e] at this
    exact this.symm
  · unfold relaxed at hj
    have e : j = 2 * m + k + (j - (2 * m + k)) := by omega
    have := stackRelax_ni (m := m) (k := k) (fun i => v ⟨i, by have := i.2; unfold relaxed; omega⟩)
      (fun i => v ⟨m + i, by have := i.2; unfold relaxed; omega⟩)
      (fun i => v ⟨2 * m + i, by have := i.2; unfold relaxed; omega⟩)
      (fun i => v ⟨2 * m + k + i, by have := i.2; unfold relaxed; omega⟩) ⟨j - (2 * m + k), by omega⟩
      (by unfold relaxed; simp only; omega)
    simp only [← e] at this
    exact this.symm

/-- The Jacobian of the equality constraints with respect to the relaxation variables. -/
def relaxEq (i : Fin m) (j : Fin (relaxed m k)) : ℝ := if (j : ℕ) = i then -1 else if (j : ℕ) = m + i then 1 else 0

/-- The Jacobian of the inequality constraints with respect to the relaxation variables. -/
def relaxIneq (i : Fin k) (j : Fin (relaxed m k)) : ℝ :=
  if (j : ℕ) = 2 * m + i then -1 else if (j : ℕ) = 2 * m + k + i then 1 else 0

/-- A sum with at most one of two entries. -/
theorem two_entries {q : ℕ} (y : Fin q → ℝ) {a b : ℕ} (hab : a + q ≤ b) (j : ℕ) :
    ∑ i : Fin q, y i * (if j = a + i then (-1 : ℝ) else if j = b + i then 1 else 0) =
      (if h : a ≤ j ∧ j < a + q then -y ⟨j - a, by omega⟩ else 0) +
        (if h : b ≤ j ∧ j < b + q then y ⟨j - b, by omega⟩ else 0) := by
  have h : ∀ i : Fin q, y i * (if j = a + i then (-1 : ℝ) else if j = b + i then 1 else 0) =
      (if j = a + i then -y i else 0) + (if j = b + i then y i else 0) := by
    intro i
    have := i.2
    by_cases h1 : j = a + i
    · rw [if_pos h1, if_pos h1, if_neg (by omega)]; ring
    · by_cases h2 : j = b + i
      · rw [if_neg h1, if_pos h2, if_neg h1, if_pos h2]; ring
      · rw [if_neg h1, if_neg h2, if_neg h1, if_neg h2]; ring
  have one : ∀ (c : ℕ) (f : Fin q → ℝ), ∑ i : Fin q, (if j = c + i then f i else 0) =
      if h : c ≤ j ∧ j < c + q then f ⟨j - c, by omega⟩ else 0 := by
    intro c f
    split
    · next hj =>
      rw [Finset.sum_eq_single ⟨j - c, by omega⟩]
      · rw [if_pos (by simp only; omega)]
      · intro i _ hi
        rw [if_neg]
        intro e
        exact hi (Fin.ext (by simp only; omega))
      · simp
    · next hj =>
      refine Finset.sum_eq_zero fun i _ => if_neg fun e => hj ?_
      have := i.2
      omega
  rw [Finset.sum_congr rfl fun i _ => h i, Finset.sum_add_distrib, one, one]

/-- At a point that meets the first-order conditions of the restoration problem within a tolerance `T`, no other point has
a much smaller sum of the constraint violation, which counts a thousandfold, and of the distance from the point at which the
restoration started. The equality constraints are affine and the inequality constraints concave between the two points. -/
theorem restoration_bound (env : Env) (P : Nlp n m k) {x xr wt : Fin n → ℝ} {μ T : ℝ} (hμ : 0 ≤ μ) (hT : 0 ≤ T) (hT1 : T ≤ 1)
    (hwt : ∀ j, IsProximityWeight (xr j) (wt j)) {df : ℝ} {de : Fin m → ℝ} {di : Fin k → ℝ}
    (hS : P.scaling = .factors df de di) (hde : ∀ i, 0 < de i ∧ de i ≤ 1) (hdi : ∀ i, 0 < di i ∧ di i ≤ 1)
    {ce : Fin m → ℝ} (hce : ∀ i, P.ce (fun j => .fin (x j)) i = .fin (ce i))
    {ci : Fin k → ℝ} (hci : ∀ i, P.ci (fun j => .fin (x j)) i = .fin (ci i))
    {Ae : Fin m → Fin n → ℝ} (hAe : ∀ i j, P.Ae (fun j => .fin (x j)) i j = .fin (Ae i j))
    {Ai : Fin k → Fin n → ℝ} (hAi : ∀ i j, P.Ai (fun j => .fin (x j)) i j = .fin (Ai i j))
    {xp : Vec (n + relaxed m k)} {s z : Vec (k + relaxed m k)} {y : Vec m} (hxp : xp.Finite)
    (hx : frOrigin xp = fun j => .fin (x j)) (hs : s.Pos) (hy : y.Finite) (hz : z.Pos)
    (herr : ¬ errZeroIpm env (frProblem env P (fun j => .fin (xr j)) (.fin μ)).scaling
      ((frProblem env P (fun j => .fin (xr j)) (.fin μ)).eval xp y z) s y z > .fin T)
    {w : Fin n → ℝ} {cew : Fin m → ℝ} {ciw : Fin k → ℝ} (hcew : ∀ i, cew i = ce i + ∑ j, Ae i j * (w j - x j))
    (hciw : ∀ i, ciw i ≤ ci i + ∑ j, Ai i j * (w j - x j)) :
    (1000 - 21 * T) * violationSum ce ci + proximity √μ wt xr x ≤ (1000 + 21 * T) * violationSum cew ciw +
      proximity √μ wt xr w + T * (21 * ∑ j, |w j - x j| + 8300 * (m + k)) := by
  set R := frProblem env P (fun j => .fin (xr j)) (.fin μ) with hR
  -- the relaxation variables
  obtain ⟨pe, ne, pi, ni, hpn⟩ := stackRelax_parts (m := m) (k := k) fun j => (xp (Fin.natAdd _ j)).toReal
  have hsq : Fl.sqrt (.fin μ) = .fin (√μ) := if_neg (not_lt.2 hμ)
  have hr : frRelax xp = fun j => .fin (stackRelax pe ne pi ni j) := by
    funext j
    show xp (Fin.natAdd _ j) = _
    obtain ⟨a, ha⟩ := Fl.isFinite_iff.1 (hxp (Fin.natAdd _ j))
    rw [← hpn]
    show _ = Fl.fin (xp (Fin.natAdd _ j)).toReal
    rw [ha]; rfl
  -- the values of the restoration problem
  let gR : Fin (n + relaxed m k) → ℝ := Fin.append (fun j => √μ * wt j * (x j - xr j)) fun _ => 1000
  let AeR : Fin m → Fin (n + relaxed m k) → ℝ := fun i => Fin.append (Ae i) (relaxEq i)
  let ceR : Fin m → ℝ := fun i => ce i - pe i + ne i
  let AiR : Fin (k + relaxed m k) → Fin (n + relaxed m k) → ℝ := fun i => Fin.append
    (fun j => Fin.append (fun i => Ai i j) (fun _ => 0) i)
    fun j => Fin.append (fun i : Fin k => relaxIneq i j) (fun i => if i = j then 1 else 0) i
  let ciR : Fin (k + relaxed m k) → ℝ := Fin.append (fun i => ci i - pi i + ni i) (stackRelax pe ne pi ni)
  have hg : ∀ j, R.g xp j = .fin (gR j) := by
    refine Fin.addCases (fun j => ?_) (fun j => ?_)
    · dsimp only [R, frProblem, gR]
      rw [Fin.append_left, Fin.append_left, hx, hsq, (weight_eq (hwt j)).2, Fl.fin_mul, Fl.fin_sub, Fl.fin_mul]
    · dsimp only [R, frProblem, gR]
      rw [Fin.append_right, Fin.append_right]
  have hAeR : ∀ i j, R.Ae xp i j = .fin (AeR i j) := by
    intro i
    refine Fin.addCases (fun j => ?_) (fun j => ?_)
    · dsimp only [R, frProblem, AeR]
      rw [Fin.append_left, Fin.append_left, hx, hAe]
    · dsimp only [R, frProblem, AeR]
      rw [Fin.append_right, Fin.append_right]
      unfold relaxEq
      split
      · rfl
      · split <;> rfl
  have hceR : ∀ i, R.ce xp i = .fin (ceR i) := by
    intro i
    dsimp only [R, frProblem, ceR]
    rw [hx, hr, hce]
    dsimp only [frPe, frNe]
    rw [stackRelax_pe, stackRelax_ne, Fl.fin_sub, Fl.fin_add]
  have hAiR : ∀ i j, R.Ai xp i j = .fin (AiR i j) := by
    intro i j
    revert i
    refine Fin.addCases (fun j => ?_) (fun j => ?_) j
    · refine Fin.addCases (fun i => ?_) (fun i => ?_)
      · dsimp only [R, frProblem, AiR]
        rw [Fin.append_left, Fin.append_left, Fin.append_left, Fin.append_left, hx, hAi]
      · dsimp only [R, frProblem, AiR]
        rw [Fin.append_left, Fin.append_left, Fin.append_right, Fin.append_right]; rfl
    · refine Fin.addCases (fun i => ?_) (fun i => ?_)
      · dsimp only [R, frProblem, AiR, relaxIneq]
        rw [Fin.append_right, Fin.append_right, Fin.append_left, Fin.append_left]
        split
        · rfl
        · split <;> rfl
      · dsimp only [R, frProblem, AiR]
        rw [Fin.append_right, Fin.append_right, Fin.append_right, Fin.append_right]
        split <;> rfl
  have hciR : ∀ i, R.ci xp i = .fin (ciR i) := by
    refine Fin.addCases (fun i => ?_) (fun i => ?_)
    · dsimp only [R, frProblem, ciR]
      rw [Fin.append_left, Fin.append_left, hx, hr, hci]
      dsimp only [frPi, frNi]
      rw [stackRelax_pi, stackRelax_ni, Fl.fin_sub, Fl.fin_add]
    · dsimp only [R, frProblem, ciR]
      rw [Fin.append_right, Fin.append_right, hr]
  -- the error
  let dI : Fin (k + relaxed m k) → ℝ := Fin.append di fun _ => 1
  have hdI : ∀ i, 0 < dI i ∧ dI i ≤ 1 := by
    refine Fin.addCases (fun i => ?_) (fun i => ?_)
    · dsimp only [dI]; rw [Fin.append_left]; exact hdi i
    · dsimp only [dI]; rw [Fin.append_right]; norm_num
  have hSR : R.scaling = .factors 1 de dI := by
    show (match P.scaling with | .identity => _ | .factors _ de di => _) = _
    rw [hS]
  have real_of : ∀ {q : ℕ} {v : Vec q} {r : Fin q → ℝ}, (∀ i, v i = .fin (r i)) → v.real = r ∧ v.Finite :=
    fun h => ⟨funext fun i => by unfold Vec.real; rw [h]; rfl, fun i => by rw [h]; rfl⟩
  have mreal_of : ∀ {q r : ℕ} {v : FMat q r} {a : Fin q → Fin r → ℝ}, (∀ i j, v i j = .fin (a i j)) →
      v.real = a ∧ v.Finite :=
    fun h => ⟨funext fun i => funext fun j => by unfold FMat.real; rw [h]; rfl, fun i j => by rw [h]; rfl⟩
  have hfin : (R.eval xp y z).ErrorFinite s y z := ⟨(real_of hg).2, (mreal_of hAeR).2, (real_of hceR).2, (mreal_of hAiR).2,
    (real_of hciR).2, hs.finite, hy, hz.finite⟩
  unfold errZeroIpm at herr
  rw [if_pos hfin, gt_iff_lt, Fl.fin_lt, not_lt] at herr
  change unscaledInfIpm R.scaling (R.g xp).real (R.Ae xp).real (R.ce xp).real (R.Ai xp).real (R.ci xp).real _ _ _ 0 ≤ T at herr
  rw [hSR, (real_of hg).1, (mreal_of hAeR).1, (real_of hceR).1, (mreal_of hAiR).1, (real_of hciR).1] at herr
  have key := unscaled_error_ipm one_pos (fun i => (hde i).1) (fun i => (hdI i).1) gR (fun i j => (de i)⁻¹ * AeR i j)
    (fun i => (de i)⁻¹ * ceR i) (fun i j => (dI i)⁻¹ * AiR i j) (fun i => (dI i)⁻¹ * ciR i) s.real y.real z.real 0
  have hinv : ∀ {d a : ℝ}, 0 < d → d * (d⁻¹ * a) = a := fun h => by rw [← mul_assoc, mul_inv_cancel₀ h.ne', one_mul]
  have k1 : rowScale de (fun i j => (de i)⁻¹ * AeR i j) = AeR := funext fun i => funext fun j => hinv (hde i).1
  have k2 : rowScale dI (fun i j => (dI i)⁻¹ * AiR i j) = AiR := funext fun i => funext fun j => hinv (hdI i).1
  simp only [one_mul, hinv (hde _).1, hinv (hdI _).1, k1, k2] at key
  rw [key] at herr
  obtain ⟨b1, b2, -, b4, b5⟩ := error_bounds_ipm herr
  have hsp := hs.real_pos
  have hzp := hz.real_pos
  generalize s.real = sR at hsp b2 b5
  generalize z.real = zR at hzp b4 b5
  generalize y.real = yR at b4
  have c1 : ∀ i, |ceR i| ≤ T := fun i => by
    have := b1 i
    rw [abs_mul, abs_of_pos (inv_pos.2 (hde i).1), inv_mul_le_iff₀ (hde i).1] at this
    exact this.trans (mul_le_of_le_one_left hT (hde i).2)
  have c2 : ∀ i, |ciR i - sR i| ≤ T := fun i => by
    have := b2 i
    rw [show (dI i)⁻¹ * ciR i - sR i / dI i = (dI i)⁻¹ * (ciR i - sR i) by rw [div_eq_inv_mul]; ring, abs_mul,
      abs_of_pos (inv_pos.2 (hdI i).1), inv_mul_le_iff₀ (hdI i).1] at this
    exact this.trans (mul_le_of_le_one_left hT (hdI i).2)
  have hmul : ∀ {d a b : ℝ}, 0 < d → d * a / 1 * (d⁻¹ * b) = a * b := fun h => by
    rw [div_one]; field_simp
  simp only [hmul (hde _).1, hmul (hdI _).1] at b4
  have hcomp : ∀ {d a b : ℝ}, 0 < d → a / d * (d * b / 1) - 0 / 1 = a * b := fun h => by field_simp; simp
  simp only [hcomp (hdI _).1] at b5
  set S1 := Max.max 1 ((∑ i, |de i * yR i / 1| + ∑ i, |dI i * zR i / 1|) / ((m + (k + relaxed m k) : ℕ) : ℝ) / 100) with hS1
  set S2 := Max.max 1 ((∑ i, |dI i * zR i / 1|) / ((k + relaxed m k : ℕ) : ℝ) / 100) with hS2
  have hS1' : 1 ≤ S1 := le_max_left _ _
  have hTS1 : 0 ≤ T * S1 := mul_nonneg hT (by linarith)
  -- stationarity
  have d1 : ∀ j, |√μ * wt j * (x j - xr j) - ∑ i, yR i * Ae i j - ∑ i, zR (Fin.castAdd _ i) * Ai i j| ≤ T * S1 := by
    intro j
    have := b4 (Fin.castAdd _ j)
    rw [Fin.sum_univ_add] at this
    simpa only [gR, AeR, AiR, Fin.append_left, Fin.append_right, mul_zero, Finset.sum_const_zero, add_zero] using this
  have d2 : ∀ j : Fin (relaxed m k), |1000 - ∑ i, yR i * relaxEq i j -
      ∑ i : Fin k, zR (Fin.castAdd _ i) * relaxIneq i j - zR (Fin.natAdd _ j)| ≤ T * S1 := by
    intro j
    have := b4 (Fin.natAdd _ j)
    rw [Fin.sum_univ_add] at this
    simp only [gR, AeR, AiR, Fin.append_left, Fin.append_right, mul_ite, mul_one, mul_zero, Finset.sum_ite_eq',
      Finset.mem_univ, if_true] at this
    rwa [sub_sub _ _ (zR _)]
  have d3 : ∀ j : Fin (relaxed m k), ∑ i, yR i * relaxEq i j =
      (if h : 0 ≤ (j : ℕ) ∧ (j : ℕ) < 0 + m then -yR ⟨j - 0, by omega⟩ else 0) +
        (if h : m ≤ (j : ℕ) ∧ (j : ℕ) < m + m then yR ⟨j - m, by omega⟩ else 0) := by
    intro j
    rw [← two_entries yR (by omega) (j : ℕ)]
    simp only [zero_add]; rfl
  have d4 : ∀ j : Fin (relaxed m k), ∑ i : Fin k, zR (Fin.castAdd _ i) * relaxIneq i j =
      (if h : 2 * m ≤ (j : ℕ) ∧ (j : ℕ) < 2 * m + k then -zR (Fin.castAdd _ ⟨j - 2 * m, by omega⟩) else 0) +
        (if h : 2 * m + k ≤ (j : ℕ) ∧ (j : ℕ) < 2 * m + k + k then zR (Fin.castAdd _ ⟨j - (2 * m + k), by omega⟩) else 0) := by
    intro j
    rw [← two_entries (fun i => zR (Fin.castAdd _ i)) le_rfl (j : ℕ)]
    rfl
  simp only [d3, d4] at d2
  have hpe : ∀ i : Fin m, |1000 + yR i - zR (Fin.natAdd _ ⟨i, by have := i.2; unfold relaxed; omega⟩)| ≤ T * S1 := by
    intro i
    have hi := i.2
    have := d2 ⟨i, by unfold relaxed; omega⟩
    rw [dif_pos ⟨by omega, by simp only; omega⟩, dif_neg (by simp only; omega), dif_neg (by simp only; omega),
      dif_neg (by simp only; omega)] at this
    simpa using this
  have hne : ∀ i : Fin m, |1000 - yR i - zR (Fin.natAdd _ ⟨m + i, by have := i.2; unfold relaxed; omega⟩)| ≤ T * S1 := by
    intro i
    have hi := i.2
    have := d2 ⟨m + i, by unfold relaxed; omega⟩
    rw [dif_neg (by simp only; omega), dif_pos ⟨by simp only; omega, by simp only; omega⟩, dif_neg (by simp only; omega),
      dif_neg (by simp only; omega)] at this
    simpa using this
  have hpi : ∀ i : Fin k, |1000 + zR (Fin.castAdd _ i) -
      zR (Fin.natAdd _ ⟨2 * m + i, by have := i.2; unfold relaxed; omega⟩)| ≤ T * S1 := by
    intro i
    have hi := i.2
    have := d2 ⟨2 * m + i, by unfold relaxed; omega⟩
    rw [dif_neg (by simp only; omega), dif_neg (by simp only; omega), dif_pos ⟨by simp only; omega, by simp only; omega⟩,
      dif_neg (by simp only; omega)] at this
    simpa using this
  have hni : ∀ i : Fin k, |1000 - zR (Fin.castAdd _ i) -
      zR (Fin.natAdd _ ⟨2 * m + k + i, by have := i.2; unfold relaxed; omega⟩)| ≤ T * S1 := by
    intro i
    have hi := i.2
    have := d2 ⟨2 * m + k + i, by unfold relaxed; omega⟩
    rw [dif_neg (by simp only; omega), dif_neg (by simp only; omega), dif_neg (by simp only; omega),
      dif_pos ⟨by simp only; omega, by simp only; omega⟩] at this
    simpa using this
  -- the multipliers are bounded
  have hyb : ∀ i, |yR i| ≤ 2000 + 2 * (T * S1) := fun i => by
    have h1 := abs_le.1 (hpe i)
    have h2 := abs_le.1 (hne i)
    have h3 := hzp (Fin.natAdd _ ⟨i, by have := i.2; unfold relaxed; omega⟩)
    have h4 := hzp (Fin.natAdd _ ⟨m + i, by have := i.2; unfold relaxed; omega⟩)
    exact abs_le.2 ⟨by linarith, by linarith⟩
  have hzc : ∀ i : Fin k, zR (Fin.castAdd _ i) ≤ 1000 + T * S1 := fun i => by
    have h2 := abs_le.1 (hni i)
    have h4 := hzp (Fin.natAdd _ ⟨2 * m + k + i, by have := i.2; unfold relaxed; omega⟩)
    linarith
  have hyc : ∀ i : Fin m, |yR i| ≤ 1000 + T * S1 := fun i => by
    have h1 := abs_le.1 (hpe i)
    have h2 := abs_le.1 (hne i)
    have h3 := hzp (Fin.natAdd _ ⟨i, by have := i.2; unfold relaxed; omega⟩)
    have h4 := hzp (Fin.natAdd _ ⟨m + i, by have := i.2; unfold relaxed; omega⟩)
    exact abs_le.2 ⟨by linarith, by linarith⟩
  have hzr : ∀ j : Fin (relaxed m k), zR (Fin.natAdd _ j) ≤ 2000 + 2 * (T * S1) := by
    rintro ⟨j, hj⟩
    by_cases h1 : j < m
    · have a := abs_le.1 (hpe ⟨j, h1⟩)
      have b := abs_le.1 (hyc ⟨j, h1⟩)
      simp only at a
      linarith
    by_cases h2 : j < 2 * m
    · have a := abs_le.1 (hne ⟨j - m, by omega⟩)
      have b := abs_le.1 (hyc ⟨j - m, by omega⟩)
      have e : m + (j - m) = j := by omega
      simp only [e] at a
      linarith
    by_cases h3 : j < 2 * m + k
    · have a := abs_le.1 (hpi ⟨j - 2 * m, by omega⟩)
      have b := hzc ⟨j - 2 * m, by omega⟩
      have e : 2 * m + (j - 2 * m) = j := by omega
      simp only [e] at a
      linarith
    · have hj' := hj
      unfold relaxed at hj'
      have a := abs_le.1 (hni ⟨j - (2 * m + k), by omega⟩)
      have b := hzp (Fin.castAdd _ ⟨j - (2 * m + k), by omega⟩)
      have e : 2 * m + k + (j - (2 * m + k)) = j := by omega
      simp only [e] at a
      linarith
  have hzb : ∀ i, |dI i * zR i / 1| ≤ 2000 + 2 * (T * S1) := by
    intro i
    rw [div_one, abs_mul, abs_of_pos (hdI i).1, abs_of_pos (hzp i)]
    refine (mul_le_of_le_one_left (hzp i).le (hdI i).2).trans ?_
    refine Fin.addCases (fun i => ?_) (fun i => hzr i) i
    linarith [hzc i]
  have hyb' : ∀ i, |de i * yR i / 1| ≤ 2000 + 2 * (T * S1) := by
    intro i
    rw [div_one, abs_mul, abs_of_pos (hde i).1]
    exact (mul_le_of_le_one_left (abs_nonneg _) (hde i).2).trans (hyb i)
  have hZ : ∑ i, |dI i * zR i / 1| ≤ ((k + relaxed m k : ℕ) : ℝ) * (2000 + 2 * (T * S1)) := by
    have := Finset.sum_le_card_nsmul Finset.univ _ _ fun i _ => hzb i
    rwa [Finset.card_univ, Fintype.card_fin, nsmul_eq_mul] at this
  have hY : ∑ i, |de i * yR i / 1| ≤ (m : ℝ) * (2000 + 2 * (T * S1)) := by
    have := Finset.sum_le_card_nsmul Finset.univ _ _ fun i _ => hyb' i
    rwa [Finset.card_univ, Fintype.card_fin, nsmul_eq_mul] at this
  have hS1b : S1 ≤ 21 := damping_le (q := m + (k + relaxed m k)) hT1
    (show ∑ i, |de i * yR i / 1| + ∑ i, |dI i * zR i / 1| ≤ ((m + (k + relaxed m k) : ℕ) : ℝ) * (2000 + 2 * (T * S1)) by
      rw [Nat.cast_add]; linarith) rfl hS1 (by linarith)
  have hS2b : S2 ≤ 21 := damping_le' (q := k + relaxed m k) hT hT1 hZ rfl hS1b hS2 (by linarith)
  have t1 : T * S1 ≤ T * 21 := mul_le_mul_of_nonneg_left hS1b hT
  have t2 : T * S2 ≤ T * 21 := mul_le_mul_of_nonneg_left hS2b hT
  have hw0 : ∀ j, 0 ≤ wt j := fun j => by
    obtain ⟨-, h1, h2⟩ := hwt j
    rcases le_total 1 |xr j| with h | h
    · rw [h1 h]; positivity
    · rw [h2 h]; norm_num
  have c2r : ∀ j : Fin (relaxed m k), |stackRelax pe ne pi ni j - sR (Fin.natAdd _ j)| ≤ T := fun j => by
    have := c2 (Fin.natAdd _ j)
    simpa only [ciR, Fin.append_right] using this
  refine elastic_core (S := 21) hT hT1 (by norm_num) le_rfl (Real.sqrt_nonneg _) hw0 hcew hciw (y := yR)
    (z := fun i => zR (Fin.castAdd _ i)) (s := fun i => sR (Fin.castAdd _ i)) (pe := pe) (ne := ne) (pi := pi) (ni := ni)
    (spe := fun i => sR (Fin.natAdd _ ⟨i, by have := i.2; unfold relaxed; omega⟩))
    (sne := fun i => sR (Fin.natAdd _ ⟨m + i, by have := i.2; unfold relaxed; omega⟩))
    (spi := fun i => sR (Fin.natAdd _ ⟨2 * m + i, by have := i.2; unfold relaxed; omega⟩))
    (sni := fun i => sR (Fin.natAdd _ ⟨2 * m + k + i, by have := i.2; unfold relaxed; omega⟩))
    (zpe := fun i => zR (Fin.natAdd _ ⟨i, by have := i.2; unfold relaxed; omega⟩))
    (zne := fun i => zR (Fin.natAdd _ ⟨m + i, by have := i.2; unfold relaxed; omega⟩))
    (zpi := fun i => zR (Fin.natAdd _ ⟨2 * m + i, by have := i.2; unfold relaxed; omega⟩))
    (zni := fun i => zR (Fin.natAdd _ ⟨2 * m + k + i, by have := i.2; unfold relaxed; omega⟩))
    (fun j => (d1 j).trans t1) (fun i => ?_) (fun i => ?_)
  · refine ⟨c1 i, (hzp _).le, (hzp _).le, hsp _, hsp _, ?_, ?_, (b5 _).trans t2, (b5 _).trans t2, (hpe i).trans t1,
      (hne i).trans t1⟩
    · rw [← stackRelax_pe pe ne pi ni i (by have := i.2; unfold relaxed; omega)]; exact c2r _
    · rw [← stackRelax_ne pe ne pi ni i (by have := i.2; unfold relaxed; omega)]; exact c2r _
  · refine ⟨(hzp _).le, hsp _, ?_, (b5 _).trans t2, (hzp _).le, (hzp _).le, hsp _, hsp _, ?_, ?_, (b5 _).trans t2,
      (b5 _).trans t2, (hpi i).trans t1, (hni i).trans t1⟩
    · have := c2 (Fin.castAdd _ i)
      simpa only [ciR, Fin.append_left] using this
    · rw [← stackRelax_pi pe ne pi ni i (by have := i.2; unfold relaxed; omega)]; exact c2r _
    · rw [← stackRelax_ni pe ne pi ni i (by have := i.2; unfold relaxed; omega)]; exact c2r _

end Slp
