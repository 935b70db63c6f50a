import Verif.Solver.LoopModel
import Verif.Solver.BoundaryProps

/-! Lemmas about the functions the solver loops share. -/

namespace Slp

open Classical

namespace Fl

theorem finite_toReal {a : Fl} (h : a.isFinite = true) : a = fin a.toReal := by
  obtain ⟨x, rfl⟩ := isFinite_iff.1 h; rfl

theorem finite_add {a b : Fl} : (a + b).isFinite = true ↔ a.isFinite = true ∧ b.isFinite = true := by
  show (add a b).isFinite = true ↔ _
  cases a <;> cases b <;> simp [add, isFinite]

theorem finite_neg {a : Fl} : (-a).isFinite = true ↔ a.isFinite = true := by
  show (neg a).isFinite = true ↔ _
  cases a <;> simp [neg, isFinite]

theorem finite_sub {a b : Fl} : (a - b).isFinite = true ↔ a.isFinite = true ∧ b.isFinite = true := by
  show (a + -b).isFinite = true ↔ _
  rw [finite_add, finite_neg]

theorem finite_mul {a b : Fl} : (a * b).isFinite = true ↔ a.isFinite = true ∧ b.isFinite = true := by
  show (mul a b).isFinite = true ↔ _
  have h1 (p : Bool) (x : ℝ) : (infMul p x).isFinite = false := by
    unfold infMul; split
    · rfl
    · split <;> rfl
  cases a <;> cases b <;> simp only [mul, h1] <;> simp [isFinite]

end Fl

theorem boundaryStepF_pos {τ α x p : Fl} (h : α * p < -τ * x) : boundaryStepF τ α (x, p) = -τ / p * x := if_pos h

theorem boundaryStepF_neg {τ α x p : Fl} (h : ¬ α * p < -τ * x) : boundaryStepF τ α (x, p) = α := if_neg h

theorem boundaryStepF_range {t a b : ℝ} (ht : 0 < t) (ha : 0 < a) (hb : 0 ≤ b) (p : Fl) :
    ∃ c, boundaryStepF (.fin t) (.fin b) (.fin a, p) = .fin c ∧ 0 ≤ c ∧ c ≤ b := by
  by_cases h : Fl.fin b * p < -Fl.fin t * Fl.fin a
  · rw [boundaryStepF_pos h]
    cases p with
    | nan => exact h.elim
    | pinf =>
      exfalso
      change Fl.lt (Fl.infMul true b) _ at h
      unfold Fl.infMul at h
      split at h
      · exact h
      · rename_i h0
        rw [if_pos (by simp [lt_of_le_of_ne hb (Ne.symm h0)])] at h
        exact h
    | ninf =>
      refine ⟨0, ?_, le_rfl, hb⟩
      show Fl.fin 0 * Fl.fin a = _
      simp
    | fin p =>
      simp only [Fl.fin_mul, Fl.fin_neg, Fl.fin_lt] at h
      have hta : 0 < t * a := mul_pos ht ha
      have hp : p < 0 := by
        by_contra hp
        have := mul_nonneg hb (not_lt.1 hp)
        nlinarith
      rw [Fl.fin_neg, Fl.fin_div hp.ne, Fl.fin_mul]
      refine ⟨_, rfl, ?_, ?_⟩
      · have : -t / p = t / -p := by rw [neg_div, div_neg]
        rw [this]; exact mul_nonneg (div_nonneg ht.le (by linarith)) ha.le
      · have : -t / p * a = -(t * a) / p := by ring
        rw [this, div_le_iff_of_neg hp]; linarith
  · rw [boundaryStepF_neg h]; exact ⟨b, rfl, hb, le_rfl⟩

/-- The rule's result for any step: a number in `[0, 1]`. -/
theorem boundaryF_range {n : ℕ} {x : Vec n} {t : ℝ} (ht : 0 < t) (hx : ∀ i, ∃ a, x i = .fin a ∧ 0 < a) (p : Vec n) :
    ∃ b, boundaryF x p (.fin t) = .fin b ∧ 0 ≤ b ∧ b ≤ 1 := by
  unfold boundaryF
  have key : ∀ (l : List (Fl × Fl)), (∀ e ∈ l, ∃ a, e.1 = .fin a ∧ 0 < a) → ∀ b : ℝ, 0 ≤ b →
      ∃ c, l.foldl (boundaryStepF (.fin t)) (.fin b) = .fin c ∧ 0 ≤ c ∧ c ≤ b := by
    intro l
    induction l with
    | nil => intro _ b hb; exact ⟨b, rfl, hb, le_rfl⟩
    | cons e l ih =>
      intro hl b hb
      obtain ⟨a, ha, ha'⟩ := hl e (by simp)
      obtain ⟨c, hc, hc0, hcb⟩ := boundaryStepF_range ht ha' hb e.2
      have he : e = (.fin a, e.2) := by rw [← ha]
      rw [List.foldl_cons, he, hc]
      obtain ⟨d, hd, hd0, hdc⟩ := ih (fun e he => hl e (by simp [he])) c hc0
      exact ⟨d, hd, hd0, hdc.trans hcb⟩
  obtain ⟨c, hc, h⟩ := key (List.ofFn fun i => (x i, p i))
    (by intro e he; obtain ⟨i, rfl⟩ := (List.mem_ofFn' _ _).1 he; exact hx i) 1 zero_le_one
  exact ⟨c, hc, h⟩

/-- For a finite step the rule is the one over the reals. -/
theorem boundaryF_finite {n : ℕ} {x p : Vec n} {t : ℝ} (hx : x.Finite) (hp : p.Finite) (ht : 0 < t)
    (hpos : ∀ i, 0 < x.real i) :
    boundaryF x p (.fin t) = .fin (fractionToTheBoundary (List.ofFn fun i => (x.real i, p.real i)) t) := by
  have key : ∀ (l : List (ℝ × ℝ)), (∀ e ∈ l, 0 < e.1) → ∀ b : ℝ, 0 < b →
      (l.map fun e => (Fl.fin e.1, Fl.fin e.2)).foldl (boundaryStepF (.fin t)) (.fin b) =
        .fin (l.foldl (boundaryStep t) b) := by
    intro l
    induction l with
    | nil => intro _ b _; rfl
    | cons e l ih =>
      intro hl b hb
      have he : boundaryStepF (.fin t) (.fin b) (.fin e.1, .fin e.2) = .fin (boundaryStep t b e) := by
        unfold boundaryStepF boundaryStep
        simp only [Fl.fin_neg, Fl.fin_mul, Fl.fin_lt]
        split
        · rename_i h
          have : e.2 ≠ 0 := by
            rintro h0
            rw [h0] at h
            have := mul_pos ht (hl e (by simp))
            linarith
          rw [Fl.fin_div this, Fl.fin_mul]
        · rfl
      simp only [List.map_cons, List.foldl_cons]
      rw [he]
      exact ih (fun e he => hl e (by simp [he])) _ (boundaryStep_spec ht (hl e (by simp)) hb).1
  unfold boundaryF fractionToTheBoundary
  rw [show (1 : Fl) = .fin 1 from rfl, ← key _ _ 1 one_pos]
  · congr 1
    rw [List.map_ofFn]
    congr 1
    funext i
    simp [Vec.real, Function.comp, ← Fl.finite_toReal (hx i), ← Fl.finite_toReal (hp i)]
  · intro e he; obtain ⟨i, rfl⟩ := (List.mem_ofFn' _ _).1 he; exact hpos i

end Slp
