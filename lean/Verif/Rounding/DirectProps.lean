import Verif.Autodiff.DirectStepLemmas
import Verif.Autodiff.SignedZeroWitness
import Verif.Rounding.FloatConvProps

/-!
Values of expressions are those of direct computation, in any arithmetic that satisfies `ScalarLaws`; real numbers and
binary floating-point numbers do.
-/

namespace Slp

open ScalarOps

/-! ### Rounding to the nearest binary number -/

namespace Rounding

theorem log_mul_zpow {x : ℝ} (hx : 0 < x) (j : ℤ) : Int.log 2 (x * 2 ^ j) = Int.log 2 x + j := by
  have hp : (0 : ℝ) < 2 ^ j := by positivity
  have h1 : Int.log 2 x + j ≤ Int.log 2 (x * 2 ^ j) := by
    rw [← Int.zpow_le_iff_le_log one_lt_two (mul_pos hx hp)]
    push_cast
    rw [zpow_add₀ two_ne_zero]
    exact mul_le_mul_of_nonneg_right (by simpa using Int.zpow_log_le_self (b := 2) one_lt_two hx) hp.le
  have h2 : Int.log 2 (x * 2 ^ j) < Int.log 2 x + j + 1 := by
    rw [← Int.lt_zpow_iff_log_lt one_lt_two (mul_pos hx hp)]
    push_cast
    rw [add_right_comm, zpow_add₀ two_ne_zero]
    exact mul_lt_mul_of_pos_right (by simpa using Int.lt_zpow_succ_log_self (b := 2) one_lt_two x) hp
  omega

/-- Scaling by a power of two commutes with rounding. -/
theorem nearest_mul_zpow (p : ℕ) (x : ℝ) (j : ℤ) : nearest p (x * 2 ^ j) = nearest p x * 2 ^ j := by
  rcases eq_or_ne x 0 with rfl | hx
  · simp [nearest_zero]
  have hp : (0 : ℝ) < 2 ^ j := by positivity
  have hu : ulp p (x * 2 ^ j) = ulp p x * 2 ^ j := by
    unfold ulp
    rw [abs_mul, abs_of_pos hp, log_mul_zpow (abs_pos.mpr hx), ← zpow_add₀ two_ne_zero]
    congr 1; ring
  unfold nearest
  rw [hu, mul_div_mul_right _ _ hp.ne', mul_assoc]

/-- What has been rounded is not rounded again. -/
theorem nearest_idem {p : ℕ} (hp : 0 < p) (x : ℝ) : nearest p (nearest p x) = nearest p x := by
  rcases eq_or_ne x 0 with rfl | hx
  · simp [nearest_zero]
  have hu := ulp_pos p x
  have h1 : |(round (x / ulp p x) : ℝ)| * 2 ^ (-p : ℤ) ≤ 1 := by
    have h2 : |x| < 2 ^ (Int.log 2 |x| + 1) := by simpa using Int.lt_zpow_succ_log_self (b := 2) one_lt_two |x|
    have h3 : |x / ulp p x| ≤ (((2 : ℤ) ^ p : ℤ) : ℝ) := by
      rw [abs_div, abs_of_pos hu, div_le_iff₀ hu]
      push_cast
      rw [← zpow_natCast, ulp, ← zpow_add₀ two_ne_zero]
      convert h2.le using 2
      ring
    have h4 : |(round (x / ulp p x) : ℝ)| ≤ (((2 : ℤ) ^ p : ℤ) : ℝ) := by
      obtain ⟨a, b⟩ := abs_le.mp h3
      rw [abs_le]
      constructor
      · rw [← Int.cast_neg, Int.cast_le, round_eq, Int.le_floor]
        push_cast at a ⊢
        linarith
      · rw [Int.cast_le, round_eq, ← Int.lt_add_one_iff, Int.floor_lt]
        push_cast at b ⊢
        linarith
    rw [zpow_neg, ← div_eq_mul_inv, div_le_one (by positivity), zpow_natCast]
    exact_mod_cast h4
  have h5 : nearest p x = (round (x / ulp p x) : ℝ) * 2 ^ (Int.log 2 |x| + 1 - p : ℤ) := rfl
  rw [h5, nearest_mul_zpow, FloatMath.nearest_int hp _ h1]

theorem nearest_neg {p : ℕ} {x : ℝ} (h : nearest p x = x) : nearest p (-x) = -x := by
  have hu := ulp_pos p x
  have h1 : ulp p (-x) = ulp p x := by simp [ulp]
  have h2 : -x / ulp p x = ((-round (x / ulp p x) : ℤ) : ℝ) := by
    rw [neg_div]; push_cast; congr 1
    rw [div_eq_iff hu.ne']; exact h.symm
  unfold nearest
  rw [h1, h2, round_intCast, ← h2, div_mul_cancel₀ _ hu.ne']

theorem nearest_abs {p : ℕ} {x : ℝ} (h : nearest p x = x) : nearest p |x| = |x| := by
  rcases abs_choice x with e | e <;> rw [e]
  · exact h
  · exact nearest_neg h

end Rounding

/-! ### Arithmetics that satisfy the laws -/

/-- Real arithmetic satisfies the laws. -/
theorem real_laws : ScalarLaws ℝ (fun _ => True) where
  eq_zero x h := by simpa using h
  eq_one x h := by simpa using h
  eq_negOne x h := by simpa using h
  eq_two x h := by simpa using h
  zero_add x _ := by simp
  add_zero x _ := by simp
  zero_sub x _ := by simp
  sub_zero x _ := by simp
  neg_zero := by simp
  zero_mul x _ := by simp
  mul_zero x _ := by simp
  one_mul x _ := by simp
  mul_one x _ := by simp
  zero_div x _ _ := by simp
  div_one x _ := by simp
  abs_zero := by simp
  acos_zero := by simp
  asin_zero := by simp
  atan_zero := by simp
  cbrt_zero := by simp [rcbrt]
  cbrt_one := by simp [rcbrt]
  cbrt_negOne := by simp [rcbrt]
  cos_zero := by simp
  cosh_zero := by simp
  erf_zero := by simp
  exp_zero := by simp
  hypot_zero_left x _ := by simp [Real.sqrt_sq_eq_abs]
  hypot_zero_right x _ := by simp [Real.sqrt_sq_eq_abs]
  log_zero _ := by simp
  log10_zero _ := by simp
  pow_zero_left y _ _ hy := by simpa using Real.zero_rpow hy
  pow_one_left y _ := by simp
  pow_zero x _ := by simp
  pow_one x _ := by simp
  pow_two x _ := by simp [sq]
  sin_zero := by simp
  sinh_zero := by simp
  sqrt_zero := by simp
  sqrt_one := by simp
  tan_zero := by simp
  tanh_zero := by simp

section
variable {p : ℕ} {hp : 0 < p}
open FloatMath

/-- The real number is a binary number with `p` bits. -/
def Binary (p : ℕ) (x : ℝ) : Prop := Rounding.nearest p x = x

theorem nearest_one (hp : 0 < p) : Rounding.nearest p 1 = 1 := by
  simpa using Rounding.nearest_two_zpow (p := p) hp 0

theorem nearest_negOne (hp : 0 < p) : Rounding.nearest p (-1) = -1 := Rounding.nearest_neg (nearest_one hp)

/-- Binary floating-point arithmetic with correctly rounded operations satisfies the laws, for any number of bits. -/
theorem binary_laws (p : ℕ) (hp : 0 < p) : ScalarLaws (binary p hp).Num (fun x => Binary p (toReal x)) where
  eq_zero x h := of_decide_eq_true (p := (toReal x : ℝ) = 0) h
  eq_one x h := of_decide_eq_true (p := (toReal x : ℝ) = 1) h
  eq_negOne x h := of_decide_eq_true (p := (toReal x : ℝ) = -1) h
  eq_two x h := of_decide_eq_true (p := (toReal x : ℝ) = 2) h
  zero_add x hx := (congrArg _ (_root_.zero_add _)).trans hx
  add_zero x hx := (congrArg _ (_root_.add_zero _)).trans hx
  zero_sub x hx := (congrArg _ (_root_.zero_sub _)).trans (Rounding.nearest_neg hx)
  sub_zero x hx := (congrArg _ (_root_.sub_zero _)).trans hx
  neg_zero := _root_.neg_zero (G := ℝ)
  zero_mul x hx := (congrArg _ (MulZeroClass.zero_mul _)).trans (Rounding.nearest_zero p)
  mul_zero x hx := (congrArg _ (MulZeroClass.mul_zero _)).trans (Rounding.nearest_zero p)
  one_mul x hx := (congrArg _ (_root_.one_mul _)).trans hx
  mul_one x hx := (congrArg _ (_root_.mul_one _)).trans hx
  zero_div x hx _ := (congrArg _ (_root_.zero_div _)).trans (Rounding.nearest_zero p)
  div_one x hx := (congrArg _ (_root_.div_one _)).trans hx
  abs_zero := _root_.abs_zero (α := ℝ)
  acos_zero := by
    show Rounding.nearest p (Real.arccos 0) = Rounding.nearest p (Rounding.nearest p Real.pi / 2)
    have h : ∀ x : ℝ, x / 2 = x * 2 ^ (-1 : ℤ) := fun x => by rw [zpow_neg_one]; rfl
    rw [Real.arccos_zero, h, h, Rounding.nearest_mul_zpow, Rounding.nearest_mul_zpow, Rounding.nearest_idem hp]
  asin_zero := (congrArg _ Real.arcsin_zero).trans (Rounding.nearest_zero p)
  atan_zero := (congrArg _ Real.arctan_zero).trans (Rounding.nearest_zero p)
  cbrt_zero := (congrArg _ (by simp [rcbrt] : rcbrt 0 = 0)).trans (Rounding.nearest_zero p)
  cbrt_one := (congrArg _ (by simp [rcbrt] : rcbrt 1 = 1)).trans (nearest_one hp)
  cbrt_negOne := (congrArg _ (by simp [rcbrt] : rcbrt (-1) = -1)).trans (nearest_negOne hp)
  cos_zero := (congrArg _ Real.cos_zero).trans (nearest_one hp)
  cosh_zero := (congrArg _ Real.cosh_zero).trans (nearest_one hp)
  erf_zero := (congrArg _ rerf_zero).trans (Rounding.nearest_zero p)
  exp_zero := (congrArg _ Real.exp_zero).trans (nearest_one hp)
  hypot_zero_left x hx := by
    have e : √((0 : ℝ) ^ 2 + (toReal x) ^ 2) = |toReal x| := by simp [Real.sqrt_sq_eq_abs]
    exact (congrArg _ e).trans (Rounding.nearest_abs hx)
  hypot_zero_right x hx := by
    have e : √((toReal x) ^ 2 + (0 : ℝ) ^ 2) = |toReal x| := by simp [Real.sqrt_sq_eq_abs]
    exact (congrArg _ e).trans (Rounding.nearest_abs hx)
  log_zero _ := (congrArg _ Real.log_zero).trans (Rounding.nearest_zero p)
  log10_zero _ := (congrArg _ (Real.logb_zero (b := 10))).trans (Rounding.nearest_zero p)
  pow_zero_left y _ _ hy := (congrArg _ (Real.zero_rpow hy)).trans (Rounding.nearest_zero p)
  pow_one_left y _ := (congrArg _ (Real.one_rpow _)).trans (nearest_one hp)
  pow_zero x _ := (congrArg _ (Real.rpow_zero _)).trans (nearest_one hp)
  pow_one x hx := (congrArg _ (Real.rpow_one _)).trans hx
  pow_two x _ := congrArg (Rounding.nearest p) ((Real.rpow_two (toReal x)).trans (sq _))
  sin_zero := (congrArg _ Real.sin_zero).trans (Rounding.nearest_zero p)
  sinh_zero := (congrArg _ Real.sinh_zero).trans (Rounding.nearest_zero p)
  sqrt_zero := (congrArg _ Real.sqrt_zero).trans (Rounding.nearest_zero p)
  sqrt_one := (congrArg _ Real.sqrt_one).trans (nearest_one hp)
  tan_zero := (congrArg _ Real.tan_zero).trans (Rounding.nearest_zero p)
  tanh_zero := (congrArg _ Real.tanh_zero).trans (Rounding.nearest_zero p)

end

/-! ### Values of programs -/

/-- Along every sequence of calls that respects the preconditions, every `value()` returns exactly the number that the
formula gives when it is computed directly, wherever that computation meets proper numbers only: pruning, folding of
constants, sharing and caching change no bit of the result. -/
theorem value_direct {S : Type} [ScalarOps S] {P : S → Prop} (L : ScalarLaws S P) (cs : List (Cmd S))
    (hv : Forms.ValidAll cs Forms.empty) :
    ∃ os s', run cs Api.empty = some (os, s') ∧ Forms.ReturnsAll P cs Forms.empty os :=
  Direct.drun_ok L Direct.dinv_empty cs hv

/-! ### A concrete case -/

/-- `0 + pow(x, 2)` and `sin(x) * 1`, before and after `x` is set. -/
def demoD {S : Type} [ScalarOps S] (v : S) : List (Cmd S) :=
  [.decl, .lit two, .bin .pow 0 1, .lit zero, .bin .add 3 2, .un .sin 0, .lit one, .bin .mul 5 6,
    .value 4, .setValue 0 v, .value 4, .value 7]

theorem demoD_valid {S : Type} [ScalarOps S] (v : S) : Forms.ValidAll (demoD v) Forms.empty := by
  simp [demoD, Forms.ValidAll, Forms.Valid, Forms.next, Forms.empty, Forms.IsVar, Forms.form]

theorem Forms.ReturnsAll.cons {S : Type} [ScalarOps S] {P : S → Prop} {c : Cmd S} {cs : List (Cmd S)} {σ : Forms S}
    {os : List (Obs S)} (r : Forms.ReturnsAll P (c :: cs) σ os) :
    ∃ o os', os = o :: os' ∧ σ.Returns P c o ∧ Forms.ReturnsAll P cs (σ.next c) os' := by
  cases os with
  | nil => exact r.elim
  | cons o os' => exact ⟨o, os', rfl, r.1, r.2⟩

/-- With 53 bits, every number `x` of the format gives the rounded square and the rounded sine, to the last bit. -/
theorem demoD_values (v : (FloatMath.binary 53 (by norm_num)).Num) (hv : Binary 53 (FloatMath.toReal v)) :
    ∃ a os s', run (demoD v) Api.empty = some (os, s') ∧ os.drop 10 = [.num a, .num (ScalarOps.sin v)] ∧
      FloatMath.toReal a = Rounding.nearest 53 (FloatMath.toReal v ^ 2) := by
  have hp : 0 < 53 := by norm_num
  obtain ⟨os, s', e, r⟩ := value_direct (binary_laws 53 hp) (demoD v) (demoD_valid v)
  have B : ∀ x : ℝ, Binary 53 (Rounding.nearest 53 x) := fun x => Rounding.nearest_idem hp x
  have B1 : Binary 53 1 := nearest_one hp
  have B0 : Binary 53 0 := Rounding.nearest_zero 53
  have B2 : Binary 53 2 := by simpa [Binary] using Rounding.nearest_two_zpow (p := 53) hp 1
  obtain ⟨o0, os, rfl, -, r⟩ := r.cons
  obtain ⟨o1, os, rfl, -, r⟩ := r.cons
  obtain ⟨o2, os, rfl, -, r⟩ := r.cons
  obtain ⟨o3, os, rfl, -, r⟩ := r.cons
  obtain ⟨o4, os, rfl, -, r⟩ := r.cons
  obtain ⟨o5, os, rfl, -, r⟩ := r.cons
  obtain ⟨o6, os, rfl, -, r⟩ := r.cons
  obtain ⟨o7, os, rfl, -, r⟩ := r.cons
  obtain ⟨o8, os, rfl, -, r⟩ := r.cons
  obtain ⟨o9, os, rfl, -, r⟩ := r.cons
  obtain ⟨o10, os, rfl, ⟨a, ha, va⟩, r⟩ := r.cons
  obtain ⟨o11, os, rfl, ⟨b, hb, vb⟩, r12⟩ := r.cons
  subst ha hb
  have hos : os = [] := r12
  subst hos
  refine ⟨a, _, s', e, ?_, ?_⟩
  · have := vb ⟨⟨hv, B _⟩, B1, B _, fun h => by cases h⟩
    have h2 : b = ScalarOps.sin v := this.trans ((binary_laws 53 hp).mul_one _ (B _))
    rw [h2]
    rfl
  · have := va ⟨B0, ⟨hv, B2, B _, fun _ _ => two_ne_zero (α := ℝ)⟩, B _, fun h => by cases h⟩
    rw [this]
    refine ((binary_laws 53 hp).zero_add _ (B _)).trans ?_
    exact congrArg (Rounding.nearest 53) (Real.rpow_two (FloatMath.toReal v))

end Slp
