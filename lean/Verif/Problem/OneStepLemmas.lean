import Verif.Problem.FlowLemmas

/-! How the error grows over one step, for Runge-Kutta steps and for collocation. -/

namespace Slp.Ode

open Set Finset

variable {E : Type*} [NormedAddCommGroup E] [NormedSpace ℝ E]

theorem Regular.stable {V : E → E} {D : ℕ → ℝ → E} {a h B L M N : ℝ} (H : Regular V D a h B L M N) (h0 : 0 ≤ h)
    (h1 : h ≤ 1) (hB : 0 ≤ B) (hL : 0 ≤ L) (hs : stage B L * h ^ 2 ≤ 1 / 2) (hl : h * L ≤ 1) {x : E}
    (hx : ‖x - D 0 a‖ ≤ 1 / 6) : ‖step V h x - step V h (D 0 a)‖ ≤ (1 + 2 * L * h) * ‖x - D 0 a‖ := by
  have ta : a ∈ Icc a (a + h) := ⟨le_rfl, by linarith⟩
  have tm : a + h / 2 ∈ Icc a (a + h) := ⟨by linarith, by linarith⟩
  have te : a + h ∈ Icc a (a + h) := ⟨by linarith, le_rfl⟩
  obtain ⟨-, -, -, f2, f3, f4⟩ := H.stages h0 h1 hB hL hs
  set δ := ‖x - D 0 a‖ with hδ
  have δ0 : 0 ≤ δ := norm_nonneg _
  have hl0 : 0 ≤ h * L := mul_nonneg h0 hL
  have near : ∀ {t : ℝ} {p q : E}, ‖q - D 0 t‖ ≤ 1 / 2 → ‖p - q‖ ≤ 1 / 2 → ‖p - D 0 t‖ ≤ 1 := fun {t p q} h1 h2 => by
    have := norm_sub_le_norm_sub_add_norm_sub p q (D 0 t)
    linarith
  have g1 : ‖V x - V (D 0 a)‖ ≤ L * δ := H.lip a ta _ _ (by linarith) (by simp)
  have y2 : ‖Y2 V h x - Y2 V h (D 0 a)‖ ≤ 3 / 2 * δ := by
    have e : Y2 V h x - Y2 V h (D 0 a) = (x - D 0 a) + (h / 2) • (V x - V (D 0 a)) := by unfold Y2; module
    rw [e]
    refine (norm_add_le _ _).trans ?_
    rw [norm_pos_smul (by linarith)]
    have := mul_le_mul_of_nonneg_left g1 (show 0 ≤ h / 2 by linarith)
    have := mul_le_mul_of_nonneg_right hl δ0
    linarith
  have g2 : ‖V (Y2 V h x) - V (Y2 V h (D 0 a))‖ ≤ L * (3 / 2 * δ) :=
    (H.lip _ tm _ _ (near f2 (by linarith)) (by linarith)).trans (mul_le_mul_of_nonneg_left y2 hL)
  have y3 : ‖Y3 V h x - Y3 V h (D 0 a)‖ ≤ 7 / 4 * δ := by
    have e : Y3 V h x - Y3 V h (D 0 a) = (x - D 0 a) + (h / 2) • (V (Y2 V h x) - V (Y2 V h (D 0 a))) := by
      unfold Y3; module
    rw [e]
    refine (norm_add_le _ _).trans ?_
    rw [norm_pos_smul (by linarith)]
    have := mul_le_mul_of_nonneg_left g2 (show 0 ≤ h / 2 by linarith)
    have := mul_le_mul_of_nonneg_right hl δ0
    linarith
  have g3 : ‖V (Y3 V h x) - V (Y3 V h (D 0 a))‖ ≤ L * (7 / 4 * δ) :=
    (H.lip _ tm _ _ (near f3 (by linarith)) (by linarith)).trans (mul_le_mul_of_nonneg_left y3 hL)
  have y4 : ‖Y4 V h x - Y4 V h (D 0 a)‖ ≤ 11 / 4 * δ := by
    have e : Y4 V h x - Y4 V h (D 0 a) = (x - D 0 a) + h • (V (Y3 V h x) - V (Y3 V h (D 0 a))) := by
      unfold Y4; module
    rw [e]
    refine (norm_add_le _ _).trans ?_
    rw [norm_pos_smul h0]
    have := mul_le_mul_of_nonneg_left g3 h0
    have := mul_le_mul_of_nonneg_right hl δ0
    linarith
  have g4 : ‖V (Y4 V h x) - V (Y4 V h (D 0 a))‖ ≤ L * (11 / 4 * δ) :=
    (H.lip _ te _ _ (near f4 (by linarith)) (by linarith)).trans (mul_le_mul_of_nonneg_left y4 hL)
  have e : step V h x - step V h (D 0 a) = (x - D 0 a) + (h / 6) • ((V x - V (D 0 a)) +
      (2 : ℝ) • (V (Y2 V h x) - V (Y2 V h (D 0 a))) + (2 : ℝ) • (V (Y3 V h x) - V (Y3 V h (D 0 a))) +
      (V (Y4 V h x) - V (Y4 V h (D 0 a)))) := by
    rw [step_eq, step_eq]; module
  rw [e]
  refine (norm_add_le _ _).trans ?_
  rw [norm_pos_smul (by linarith)]
  have k1 : ‖(V x - V (D 0 a)) + (2 : ℝ) • (V (Y2 V h x) - V (Y2 V h (D 0 a))) +
      (2 : ℝ) • (V (Y3 V h x) - V (Y3 V h (D 0 a))) + (V (Y4 V h x) - V (Y4 V h (D 0 a)))‖ ≤ 12 * L * δ := by
    refine (norm_add_le _ _).trans (le_trans (add_le_add_left norm_add₃_le _) ?_)
    rw [norm_pos_smul (by norm_num), norm_pos_smul (by norm_num)]
    have := mul_nonneg hL δ0
    linarith
  have := mul_le_mul_of_nonneg_left k1 (show 0 ≤ h / 6 by linarith)
  linarith

/-- The error after a Runge-Kutta step. -/
theorem rk_one_step [ProperSpace E] {V : E → E} (hV : ContDiff ℝ 4 V) (R : ℝ) :
    ∃ K C r : ℝ, 0 ≤ K ∧ 0 ≤ C ∧ 0 < r ∧ ∀ (z : ℝ → E) (a h : ℝ) (x : E), 0 ≤ h → h ≤ r → Solves V z a (a + h) →
      (∀ t ∈ Icc a (a + h), ‖z t‖ ≤ R) → ‖x - z a‖ ≤ 1 / 6 →
      ‖step V h x - z (a + h)‖ ≤ (1 + K * h) * ‖x - z a‖ + C * h ^ 5 := by
  obtain ⟨B, L, M, N, hB, hL, hM, hN, -, -, H⟩ := exists_regular hV R
  have p3 : 0 ≤ c3 B L := by unfold c3; positivity
  have p4 : 0 ≤ c4 B L := by unfold c4; positivity
  have p5 : 0 ≤ c5 B L := by unfold c5; positivity
  have p6 : 0 ≤ c6 B L M := by unfold c6; positivity
  have p7 : 0 ≤ c7 B L M := by unfold c7; positivity
  have ps : 0 ≤ stage B L := by unfold stage; positivity
  have hC : 0 ≤ localC B L M N := by unfold localC; positivity
  refine ⟨2 * L, localC B L M N, 1 / (1 + L + 2 * stage B L), by linarith, hC, by positivity, ?_⟩
  intro z a h x h0 hr hz hR hx
  have hr' : h * (1 + L + 2 * stage B L) ≤ 1 := by
    rw [le_div_iff₀ (by positivity)] at hr; exact hr
  have n1 : 0 ≤ h * L := mul_nonneg h0 hL
  have n2 : 0 ≤ h * stage B L := mul_nonneg h0 ps
  have h1 : h ≤ 1 := by linarith
  have hs : stage B L * h ^ 2 ≤ 1 / 2 := by
    have : h * stage B L * h ≤ h * stage B L * 1 := mul_le_mul_of_nonneg_left h1 n2
    linarith
  have X := H z a h h0 hz hR
  have e1 := X.local_error h0 h1 hB hL hM hN hs
  have e2 := X.stable h0 h1 hB hL hs (by linarith) hx
  have := norm_sub_le_norm_sub_add_norm_sub (step V h x) (step V h (z a)) (z (a + h))
  simp only [lie, id] at e1 e2
  linarith

/-- By how much `x₀` and `x₁` violate the collocation constraint, for a step of length `h`. -/
noncomputable def defect (V : E → E) (h : ℝ) (x₀ x₁ : E) : E :=
  (-3 / (2 * h)) • (x₀ - x₁) - (1 / 4 : ℝ) • (V x₀ + V x₁) -
    V ((1 / 2 : ℝ) • (x₀ + x₁) + (h / 8) • (V x₀ - V x₁))

/-- The error after a collocated step. -/
theorem collocation_one_step [ProperSpace E] {V : E → E} (hV : ContDiff ℝ 4 V) (R : ℝ) :
    ∃ K C r : ℝ, 0 ≤ K ∧ 0 ≤ C ∧ 0 < r ∧ ∀ (z : ℝ → E) (a h : ℝ) (x₀ x₁ : E), 0 < h → h ≤ r → Solves V z a (a + h) →
      (∀ t ∈ Icc a (a + h), ‖z t‖ ≤ R) → ‖x₀‖ ≤ R → ‖x₁‖ ≤ R →
      ‖x₁ - z (a + h)‖ ≤ (1 + K * h) * ‖x₀ - z a‖ + C * h ^ 5 + 2 * h * ‖defect V h x₀ x₁‖ := by
  obtain ⟨B, L, M, N, hB, hL, hM, hN, lip, bd, H⟩ := exists_regular hV R
  refine ⟨4 * L, 2 * (B / 50 + L * B / 30), 1 / (1 + 2 * L + B), by linarith, by positivity, by positivity, ?_⟩
  intro z a h x₀ x₁ hp hr hz hR hx0 hx1
  have h0 := hp.le
  have hr' : h * (1 + 2 * L + B) ≤ 1 := by rw [le_div_iff₀ (by positivity)] at hr; exact hr
  have n1 : 0 ≤ h * L := mul_nonneg h0 hL
  have n2 : 0 ≤ h * B := mul_nonneg h0 hB
  have X := (H z a h h0 hz hR).expansions h0
  have ta : a ∈ Icc a (a + h) := ⟨le_rfl, by linarith⟩
  have tm : a + h / 2 ∈ Icc a (a + h) := ⟨by linarith, by linarith⟩
  have te : a + h ∈ Icc a (a + h) := ⟨by linarith, le_rfl⟩
  set D := fun i t => lie V i (z t) with hD
  have d0 : ∀ t, D 0 t = z t := fun t => rfl
  have ode : ∀ t ∈ Icc a (a + h), D 1 t = V (z t) := (H z a h h0 hz hR).ode
  set c := (1 / 2 : ℝ) • (x₀ + x₁) + (h / 8) • (V x₀ - V x₁) with hc
  have b0 := bd x₀ (by linarith)
  have b1 := bd x₁ (by linarith)
  have hcR : ‖c‖ ≤ R + 1 := by
    refine (norm_add_le _ _).trans ?_
    rw [norm_pos_smul (by norm_num), norm_pos_smul (by linarith)]
    have k1 := norm_add_le x₀ x₁
    have k2 := mul_le_mul_of_nonneg_left ((norm_sub_le (V x₀) (V x₁)).trans (add_le_add b0 b1)) (show 0 ≤ h / 8 by linarith)
    linarith
  have l0 : ‖V x₀ - D 1 a‖ ≤ L * ‖x₀ - z a‖ := by
    rw [ode a ta]; exact lip _ _ (by linarith) (by linarith [hR a ta])
  have l1 : ‖V x₁ - D 1 (a + h)‖ ≤ L * ‖x₁ - z (a + h)‖ := by
    rw [ode _ te]; exact lip _ _ (by linarith) (by linarith [hR _ te])
  have lc : ‖V c - D 1 (a + h / 2)‖ ≤ L * ‖c - z (a + h / 2)‖ := by
    rw [ode _ tm]; exact lip _ _ hcR (by linarith [hR _ tm])
  set e0 := ‖x₀ - z a‖ with he0
  set e1 := ‖x₁ - z (a + h)‖ with he1
  have p0 : 0 ≤ e0 := norm_nonneg _
  have p1 : 0 ≤ e1 := norm_nonneg _
  have ec : ‖c - z (a + h / 2)‖ ≤ (1 / 2 + h * L / 8) * (e0 + e1) + B * h ^ 4 / 20 := by
    have e : c - z (a + h / 2) = ((1 / 2 : ℝ) • (x₀ - z a) + (1 / 2 : ℝ) • (x₁ - z (a + h))) +
        ((h / 8) • (V x₀ - D 1 a) + (h / 8) • (D 1 (a + h) - V x₁)) +
        (-(D 0 (a + h / 2) - (D 0 a + (h / 2) • D 1 a + (h ^ 2 / 8) • D 2 a + (h ^ 3 / 48) • D 3 a)) +
        (1 / 2 : ℝ) • (D 0 (a + h) - (D 0 a + h • D 1 a + (h ^ 2 / 2) • D 2 a + (h ^ 3 / 6) • D 3 a)) +
        (h / 8) • -(D 1 (a + h) - (D 1 a + h • D 2 a + (h ^ 2 / 2) • D 3 a))) := by
      rw [hc, ← d0 a, ← d0 (a + h), ← d0 (a + h / 2)]; module
    rw [e]
    refine norm_add₃_le.trans (le_trans (add_le_add (add_le_add (norm_add_le _ _) (norm_add_le _ _)) norm_add₃_le) ?_)
    simp only [norm_pos_smul (show (0 : ℝ) ≤ 1 / 2 by norm_num), norm_pos_smul (show 0 ≤ h / 8 by linarith), norm_neg]
    rw [norm_sub_rev (D 1 (a + h)) (V x₁)]
    have k1 := mul_le_mul_of_nonneg_left l0 (show 0 ≤ h / 8 by linarith)
    have k2 := mul_le_mul_of_nonneg_left l1 (show 0 ≤ h / 8 by linarith)
    have k3 := mul_le_mul_of_nonneg_left X.v3 (show 0 ≤ h / 8 by linarith)
    have k4 : 0 ≤ B * h ^ 4 := by positivity
    linarith [X.m3, X.y3]
  have key : e1 ≤ e0 + h / 6 * (L * e0 + 4 * (L * ‖c - z (a + h / 2)‖) + L * e1) + B * h ^ 5 / 50 +
      2 * h / 3 * ‖defect V h x₀ x₁‖ := by
    have hd : (2 * h / 3) • defect V h x₀ x₁ = (x₁ - x₀) - (h / 6) • (V x₀ + (4 : ℝ) • V c + V x₁) := by
      unfold defect
      rw [← hc]
      have : (2 * h / 3) * (-3 / (2 * h)) = -1 := by field_simp
      rw [smul_sub, smul_sub, smul_smul, this]
      module
    have e : x₁ - z (a + h) = (x₀ - z a) +
        (h / 6) • ((V x₀ - D 1 a) + (4 : ℝ) • (V c - D 1 (a + h / 2)) + (V x₁ - D 1 (a + h))) +
        (-(D 0 (a + h) - (D 0 a + h • D 1 a + (h ^ 2 / 2) • D 2 a + (h ^ 3 / 6) • D 3 a + (h ^ 4 / 24) • D 4 a)) +
        (2 * h / 3) • (D 1 (a + h / 2) - (D 1 a + (h / 2) • D 2 a + (h ^ 2 / 8) • D 3 a + (h ^ 3 / 48) • D 4 a)) +
        (h / 6) • (D 1 (a + h) - (D 1 a + h • D 2 a + (h ^ 2 / 2) • D 3 a + (h ^ 3 / 6) • D 4 a))) +
        (2 * h / 3) • defect V h x₀ x₁ := by
      rw [hd, ← d0 a, ← d0 (a + h)]; module
    refine (le_of_eq (congrArg norm e)).trans ?_
    refine (norm_add_le _ _).trans (le_trans (add_le_add_left norm_add₃_le _) ?_)
    rw [norm_pos_smul (by linarith), norm_pos_smul (by linarith)]
    have k0 : ‖(V x₀ - D 1 a) + (4 : ℝ) • (V c - D 1 (a + h / 2)) + (V x₁ - D 1 (a + h))‖ ≤
        L * e0 + 4 * (L * ‖c - z (a + h / 2)‖) + L * e1 := by
      refine norm_add₃_le.trans ?_
      rw [norm_pos_smul (by norm_num)]
      linarith
    have k1 := mul_le_mul_of_nonneg_left k0 (show 0 ≤ h / 6 by linarith)
    have k2 : ‖-(D 0 (a + h) - (D 0 a + h • D 1 a + (h ^ 2 / 2) • D 2 a + (h ^ 3 / 6) • D 3 a + (h ^ 4 / 24) • D 4 a)) +
        (2 * h / 3) • (D 1 (a + h / 2) - (D 1 a + (h / 2) • D 2 a + (h ^ 2 / 8) • D 3 a + (h ^ 3 / 48) • D 4 a)) +
        (h / 6) • (D 1 (a + h) - (D 1 a + h • D 2 a + (h ^ 2 / 2) • D 3 a + (h ^ 3 / 6) • D 4 a))‖ ≤ B * h ^ 5 / 50 := by
      refine norm_add₃_le.trans ?_
      rw [norm_neg, norm_pos_smul (by linarith), norm_pos_smul (by linarith)]
      have k3 := mul_le_mul_of_nonneg_left X.s4 (show 0 ≤ 2 * h / 3 by linarith)
      have k4 := mul_le_mul_of_nonneg_left X.v4 (show 0 ≤ h / 6 by linarith)
      have k5 : 0 ≤ B * h ^ 5 := by positivity
      linarith [X.y4]
    rw [← he0]
    linarith
  have pd := norm_nonneg (defect V h x₀ x₁)
  set dn := ‖defect V h x₀ x₁‖
  set b := h * L with hb
  have hb1 : b ≤ 1 / 2 := by linarith
  have q1 : 4 * (L * ‖c - z (a + h / 2)‖) * h ≤ 4 * b * ((1 / 2 + b / 8) * (e0 + e1) + B * h ^ 4 / 20) := by
    have := mul_le_mul_of_nonneg_left ec (show 0 ≤ 4 * b by linarith)
    calc _ = 4 * b * ‖c - z (a + h / 2)‖ := by rw [hb]; ring
      _ ≤ _ := this
  have q2 : b * b * (e0 + e1) ≤ 1 / 2 * b * (e0 + e1) :=
    mul_le_mul_of_nonneg_right (mul_le_mul_of_nonneg_right hb1 n1) (by linarith)
  have q3 : e1 ≤ e0 + 3 / 5 * b * (e0 + e1) + (B / 50 + L * B / 30) * h ^ 5 + 2 * h / 3 * dn := by
    have e : b * (B * h ^ 4) = L * B * h ^ 5 := by rw [hb]; ring
    have : 0 ≤ b * (e0 + e1) := mul_nonneg n1 (by linarith)
    have e2 : h / 6 * (L * e0 + 4 * (L * ‖c - z (a + h / 2)‖) + L * e1) =
      b / 6 * (e0 + e1) + 4 * (L * ‖c - z (a + h / 2)‖) * h / 6 := by rw [hb]; ring
    rw [e2] at key
    linarith
  have g0 : 0 ≤ (B / 50 + L * B / 30) * h ^ 5 := by positivity
  have g1 : 0 ≤ h * dn := by positivity
  by_contra hcon
  push Not at hcon
  have q4 : (1 + 4 * L * h) * e0 + 2 * ((B / 50 + L * B / 30) * h ^ 5) + 2 * (h * dn) < e1 := by linarith
  have q5 : (1 - 3 / 5 * b) * ((1 + 4 * L * h) * e0 + 2 * ((B / 50 + L * B / 30) * h ^ 5) + 2 * (h * dn)) <
      (1 - 3 / 5 * b) * e1 := mul_lt_mul_of_pos_left q4 (by linarith)
  have e3 : L * h = b := by rw [hb]; ring
  rw [show 4 * L * h = 4 * b by rw [← e3]; ring] at q5
  have q6 : b * b * e0 ≤ 1 / 2 * b * e0 := mul_le_mul_of_nonneg_right (mul_le_mul_of_nonneg_right hb1 n1) p0
  have q7 : b * ((B / 50 + L * B / 30) * h ^ 5) ≤ 1 / 2 * ((B / 50 + L * B / 30) * h ^ 5) := mul_le_mul_of_nonneg_right hb1 g0
  have q8 : b * (h * dn) ≤ 1 / 2 * (h * dn) := mul_le_mul_of_nonneg_right hb1 g1
  have q9 : 0 ≤ b * e0 := mul_nonneg n1 p0
  nlinarith

end Slp.Ode
