import Verif.Rounding.FloatModel
import Verif.Rounding.FactorLemmas
import Verif.Autodiff.ApiLemmas

/-! Reverse accumulation in floating-point arithmetic: how far the adjoints are from the exact ones. -/

namespace Slp

open ScalarOps

/-- Forward propagation with absolute values: like `tgv`, with every partial derivative and every direction
replaced by its absolute value. -/
noncomputable def tgvAbs (h : Heap ℝ) (v d : ℕ → ℝ) (n : ℕ) : ℝ :=
  match h.args n with
  | (none, _) => if h.op n = .constant then 0 else |d n|
  | (some l, none) => if l < n then |gradL (h.op n) 1 (v l) 0| * tgvAbs h v d l else 0
  | (some l, some r) =>
    if l < n then
      if r < n then
        |gradL (h.op n) 1 (v l) (v r)| * tgvAbs h v d l + |gradR (h.op n) 1 (v l) (v r)| * tgvAbs h v d r
      else 0
    else 0
termination_by n

theorem tgvAbs_leaf {h : Heap ℝ} {v d : ℕ → ℝ} {n : ℕ} (ha : (h.args n).1 = none) :
    tgvAbs h v d n = if h.op n = .constant then 0 else |d n| := by
  rw [tgvAbs]
  rcases hh : h.args n with ⟨a, b⟩
  rw [hh] at ha
  simp at ha
  subst ha
  rfl

theorem tgvAbs_un {h : Heap ℝ} (hac : Graph.Acyclic h.args) {v d : ℕ → ℝ} {n l : ℕ}
    (ha : h.args n = (some l, none)) :
    tgvAbs h v d n = |gradL (h.op n) 1 (v l) 0| * tgvAbs h v d l := by
  have hl : l < n := hac n l (mem_kids_left (by rw [ha]))
  rw [tgvAbs]
  simp [ha, hl]

theorem tgvAbs_bin {h : Heap ℝ} (hac : Graph.Acyclic h.args) {v d : ℕ → ℝ} {n l r : ℕ}
    (ha : h.args n = (some l, some r)) :
    tgvAbs h v d n = |gradL (h.op n) 1 (v l) (v r)| * tgvAbs h v d l +
      |gradR (h.op n) 1 (v l) (v r)| * tgvAbs h v d r := by
  have hl : l < n := hac n l (mem_kids_left (by rw [ha]))
  have hr : r < n := hac n r (mem_kids_right (by rw [ha]))
  rw [tgvAbs]
  simp [ha, hl, hr]

theorem tgv_le_tgvAbs {h : Heap ℝ} (hac : Graph.Acyclic h.args) (v d : ℕ → ℝ) (n : ℕ) :
    |tgv h v d n| ≤ tgvAbs h v d n := by
  induction n using Nat.strong_induction_on with
  | _ n ih =>
    rcases hh : h.args n with ⟨a, b⟩
    cases a with
    | none =>
      rw [tgv_leaf (by rw [hh]), tgvAbs_leaf (by rw [hh])]
      split <;> simp
    | some l =>
      have hl := ih l (hac n l (mem_kids_left (by rw [hh])))
      cases b with
      | none =>
        rw [tgv_un hac hh, tgvAbs_un hac hh, abs_mul]
        exact mul_le_mul_of_nonneg_left hl (abs_nonneg _)
      | some r =>
        have hr := ih r (hac n r (mem_kids_right (by rw [hh])))
        rw [tgv_bin hac hh, tgvAbs_bin hac hh]
        refine (abs_add_le _ _).trans ?_
        rw [abs_mul, abs_mul]
        exact add_le_add (mul_le_mul_of_nonneg_left hl (abs_nonneg _)) (mul_le_mul_of_nonneg_left hr (abs_nonneg _))

theorem tgvAbs_nonneg {h : Heap ℝ} (hac : Graph.Acyclic h.args) (v d : ℕ → ℝ) (n : ℕ) : 0 ≤ tgvAbs h v d n :=
  (abs_nonneg _).trans (tgv_le_tgvAbs hac v d n)

namespace FloatMath

variable {A : FloatMath}

@[simp] theorem f_zero : toReal (ScalarOps.zero : A.Num) = 0 := rfl
@[simp] theorem f_one : toReal (ScalarOps.one : A.Num) = 1 := rfl
@[simp] theorem f_negOne : toReal (ScalarOps.negOne : A.Num) = -1 := rfl
@[simp] theorem f_two : toReal (ScalarOps.two : A.Num) = 2 := rfl
@[simp] theorem f_three : toReal (ScalarOps.three : A.Num) = 3 := rfl
@[simp] theorem f_ln10 : toReal (ScalarOps.ln10 : A.Num) = A.cln10 := rfl
@[simp] theorem f_eq (a b : A.Num) : ScalarOps.eq a b = decide (toReal a = toReal b) := rfl
@[simp] theorem f_lt (a b : A.Num) : ScalarOps.lt a b = decide (toReal a < toReal b) := rfl
@[simp] theorem f_le (a b : A.Num) : ScalarOps.le a b = decide (toReal a ≤ toReal b) := rfl
@[simp] theorem f_add (a b : A.Num) : toReal (ScalarOps.add a b) = A.rnd (toReal a + toReal b) := rfl
@[simp] theorem f_sub (a b : A.Num) : toReal (ScalarOps.sub a b) = A.rnd (toReal a - toReal b) := rfl
@[simp] theorem f_mul (a b : A.Num) : toReal (ScalarOps.mul a b) = A.rnd (toReal a * toReal b) := rfl
@[simp] theorem f_div (a b : A.Num) : toReal (ScalarOps.div a b) = A.rnd (toReal a / toReal b) := rfl
@[simp] theorem f_neg (a : A.Num) : toReal (ScalarOps.neg a) = -toReal a := rfl
@[simp] theorem f_cbrt (a : A.Num) : toReal (ScalarOps.cbrt a) = A.fcbrt (toReal a) := rfl
@[simp] theorem f_cos (a : A.Num) : toReal (ScalarOps.cos a) = A.fcos (toReal a) := rfl
@[simp] theorem f_cosh (a : A.Num) : toReal (ScalarOps.cosh a) = A.fcosh (toReal a) := rfl
@[simp] theorem f_exp (a : A.Num) : toReal (ScalarOps.exp a) = A.fexp (toReal a) := rfl
@[simp] theorem f_hypot (a b : A.Num) : toReal (ScalarOps.hypot a b) = A.fhypot (toReal a) (toReal b) := rfl
@[simp] theorem f_sin (a : A.Num) : toReal (ScalarOps.sin a) = A.fsin (toReal a) := rfl
@[simp] theorem f_sinh (a : A.Num) : toReal (ScalarOps.sinh a) = A.fsinh (toReal a) := rfl
@[simp] theorem f_sqrt (a : A.Num) : toReal (ScalarOps.sqrt a) = A.fsqrt (toReal a) := rfl

theorem toReal_inj {a b : A.Num} (h : toReal a = toReal b) : a = b := h

/-- The factor by which `k` roundings can make a number grow. -/
noncomputable def up (A : FloatMath) (k : ℕ) : ℝ := ((1 - A.u) ^ k)⁻¹

theorem one_sub_pos (A : FloatMath) : 0 < 1 - A.u := by linarith [A.lt_one]

theorem one_le_up (A : FloatMath) (k : ℕ) : 1 ≤ A.up k :=
  (one_le_inv₀ (Rounding.pow_pos' A.lt_one k)).mpr (Rounding.pow_le_one' A.lt_one k)

theorem up_pos (A : FloatMath) (k : ℕ) : 0 < A.up k := zero_lt_one.trans_le (A.one_le_up k)

theorem up_add (A : FloatMath) (j k : ℕ) : A.up (j + k) = A.up j * A.up k := by
  unfold up; rw [pow_add, mul_inv]

theorem up_mono (A : FloatMath) {j k : ℕ} (h : j ≤ k) : A.up j ≤ A.up k := by
  obtain ⟨d, rfl⟩ := Nat.exists_eq_add_of_le h
  rw [up_add]
  exact le_mul_of_one_le_right (A.up_pos j).le (A.one_le_up d)

@[simp] theorem up_zero (A : FloatMath) : A.up 0 = 1 := by simp [up]

/-- `Φ` has changed to `Φ'` by at most what `k` roundings of terms of total size `Ψ` can do, and the total size has
grown to at most `Ψ'`. -/
structure Drift (A : FloatMath) (k : ℕ) (Φ Ψ Φ' Ψ' : ℝ) : Prop where
  err : |Φ' - Φ| ≤ (A.up k - 1) * Ψ
  mass : Ψ' ≤ A.up k * Ψ

theorem Drift.refl {Φ Ψ : ℝ} : Drift A 0 Φ Ψ Φ Ψ := ⟨by simp, by simp⟩

theorem Drift.trans {j k : ℕ} {Φ Ψ Φ' Ψ' Φ'' Ψ'' : ℝ} (a : Drift A j Φ Ψ Φ' Ψ') (b : Drift A k Φ' Ψ' Φ'' Ψ'') :
    Drift A (j + k) Φ Ψ Φ'' Ψ'' := by
  have hk := A.one_le_up k
  have h1 : (A.up k - 1) * Ψ' ≤ (A.up k - 1) * (A.up j * Ψ) := mul_le_mul_of_nonneg_left a.mass (by linarith)
  constructor
  · have e : Φ'' - Φ = (Φ'' - Φ') + (Φ' - Φ) := by ring
    rw [e, up_add]
    refine (abs_add_le _ _).trans ?_
    have := add_le_add (b.err.trans h1) a.err
    refine this.trans (le_of_eq ?_)
    ring
  · rw [up_add]
    refine b.mass.trans ?_
    calc A.up k * Ψ' ≤ A.up k * (A.up j * Ψ) := mul_le_mul_of_nonneg_left a.mass (by linarith)
      _ = A.up j * A.up k * Ψ := by ring

theorem Drift.mono {j k : ℕ} {Φ Ψ Φ' Ψ' : ℝ} (a : Drift A j Φ Ψ Φ' Ψ') (h : j ≤ k) (hΨ : 0 ≤ Ψ) :
    Drift A k Φ Ψ Φ' Ψ' :=
  ⟨a.err.trans (mul_le_mul_of_nonneg_right (by linarith [A.up_mono h]) hΨ),
    a.mass.trans (mul_le_mul_of_nonneg_right (A.up_mono h) hΨ)⟩

/-- Terms that do not change. -/
theorem Drift.add {k : ℕ} {Φ Ψ Φ' Ψ' x X : ℝ} (a : Drift A k Φ Ψ Φ' Ψ') (hX : 0 ≤ X) :
    Drift A k (x + Φ) (X + Ψ) (x + Φ') (X + Ψ') := by
  have h1 := A.one_le_up k
  constructor
  · rw [show x + Φ' - (x + Φ) = Φ' - Φ by ring]
    refine a.err.trans (mul_le_mul_of_nonneg_left (by linarith) (by linarith))
  · nlinarith [a.mass]

theorem near_abs_le {k : ℕ} {v e : ℝ} (h : A.Near k v e) : |v| ≤ A.up k * |e| :=
  (h.abs A.lt_one).le A.lt_one (abs_nonneg e)

theorem near_sub_le {k : ℕ} {v e : ℝ} (h : A.Near k v e) : |v - e| ≤ (A.up k - 1) * |e| := h.sub A.lt_one

/-- A term is replaced by a rounded one. -/
theorem Drift.near {k : ℕ} {Φ Ψ d d' T P : ℝ} (h : A.Near k d' d) (hT : |T| ≤ P) (hΨ : 0 ≤ Ψ) :
    Drift A k (Φ + d * T) (Ψ + |d| * P) (Φ + d' * T) (Ψ + |d'| * P) := by
  have h1 := A.one_le_up k
  have hP : 0 ≤ P := (abs_nonneg T).trans hT
  constructor
  · rw [show Φ + d' * T - (Φ + d * T) = (d' - d) * T by ring, abs_mul]
    calc |d' - d| * |T| ≤ ((A.up k - 1) * |d|) * P :=
          mul_le_mul (near_sub_le h) hT (abs_nonneg T) (mul_nonneg (by linarith) (abs_nonneg d))
      _ ≤ (A.up k - 1) * (Ψ + |d| * P) := by
          rw [mul_assoc]; exact mul_le_mul_of_nonneg_left (by linarith) (by linarith)
  · have := mul_le_mul_of_nonneg_right (near_abs_le h) hP
    nlinarith

theorem sum_le_of_mem {t : List ℕ} {f : ℕ → ℝ} (hf : ∀ m, 0 ≤ f m) {l : ℕ} (hl : l ∈ t) : f l ≤ (t.map f).sum := by
  induction t with
  | nil => simp at hl
  | cons m t ih =>
    simp only [List.map_cons, List.sum_cons]
    have h0 : 0 ≤ (t.map f).sum := List.sum_nonneg (by simp only [List.mem_map]; rintro _ ⟨a, _, rfl⟩; exact hf a)
    rcases List.mem_cons.mp hl with rfl | e
    · linarith
    · linarith [ih e, hf m]

theorem sum_update_abs (t : List ℕ) (hn : t.Nodup) (l : ℕ) (hl : l ∈ t) (adj P : ℕ → ℝ) (x : ℝ) :
    (t.map fun m => |Function.update adj l x m| * P m).sum = (t.map fun m => |adj m| * P m).sum + (|x| - |adj l|) * P l := by
  have h := sum_update t hn l hl (fun m => |adj m|) P (|x| - |adj l|)
  rw [← h]
  congr 1
  apply List.map_congr_left
  intro m _
  by_cases e : m = l
  · subst e; simp
  · simp [Function.update_of_ne e]

/-- A pending term is added to an adjoint. -/
theorem Drift.addTo {t : List ℕ} (hn : t.Nodup) {l : ℕ} (hl : l ∈ t) {adj T P : ℕ → ℝ} (hT : ∀ m, |T m| ≤ P m)
    (d y Y : ℝ) (hY : 0 ≤ Y) :
    Drift A 1 (y + ((t.map fun m => adj m * T m).sum + d * T l)) (Y + ((t.map fun m => |adj m| * P m).sum + |d| * P l))
      (y + (t.map fun m => Function.update adj l (A.rnd (adj l + d)) m * T m).sum)
      (Y + (t.map fun m => |Function.update adj l (A.rnd (adj l + d)) m| * P m).sum) := by
  refine Drift.add ?_ hY
  have hP : ∀ m, 0 ≤ P m := fun m => (abs_nonneg _).trans (hT m)
  have h1 := A.one_le_up 1
  have hr := Rounding.near_rnd A.lt_one (adj l + d)
  have hlm := sum_le_of_mem (f := fun m => |adj m| * P m) (fun m => mul_nonneg (abs_nonneg _) (hP m)) hl
  have hsum : |adj l + d| ≤ |adj l| + |d| := abs_add_le _ _
  set M := (t.map fun m => |adj m| * P m).sum with hM
  constructor
  · have e : A.rnd (adj l + d) = adj l + (A.rnd (adj l + d) - adj l) := by ring
    rw [e, sum_update t hn l hl]
    rw [show (t.map fun m => adj m * T m).sum + (A.rnd (adj l + d) - adj l) * T l -
      ((t.map fun m => adj m * T m).sum + d * T l) = (A.rnd (adj l + d) - (adj l + d)) * T l by ring, abs_mul]
    calc |A.rnd (adj l + d) - (adj l + d)| * |T l| ≤ ((A.up 1 - 1) * (|adj l| + |d|)) * P l := by
          refine mul_le_mul ((near_sub_le hr).trans ?_) (hT l) (abs_nonneg _) ?_
          · exact mul_le_mul_of_nonneg_left hsum (by linarith)
          · exact mul_nonneg (by linarith) (by positivity)
      _ = (A.up 1 - 1) * (|adj l| * P l + |d| * P l) := by ring
      _ ≤ _ := mul_le_mul_of_nonneg_left (by linarith) (by linarith)
  · rw [sum_update_abs t hn l hl, ← hM]
    have h2 : |A.rnd (adj l + d)| * P l ≤ A.up 1 * (|adj l| + |d|) * P l :=
      mul_le_mul_of_nonneg_right ((near_abs_le hr).trans (mul_le_mul_of_nonneg_left hsum (by linarith))) (hP l)
    nlinarith

end FloatMath

end Slp
