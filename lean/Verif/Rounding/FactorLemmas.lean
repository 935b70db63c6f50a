import Verif.Rounding.KktRoundModel
import Mathlib.Algebra.Order.BigOperators.Group.Finset
import Mathlib.Algebra.Order.BigOperators.Ring.Finset
import Mathlib.Algebra.BigOperators.Ring.Finset
import Mathlib.Algebra.BigOperators.Fin
import Mathlib.Tactic.FieldSimp
import Mathlib.Tactic.Ring
import Mathlib.Tactic.Linarith

/-! Lemmas about accumulated rounding errors. -/

namespace Slp
namespace Rounding

variable (R : Rounding)

/-- `t` is the factor by which `d` roundings can change a number. -/
def Fac (d : ℕ) (t : ℝ) : Prop := (1 - R.u) ^ d ≤ t ∧ t * (1 - R.u) ^ d ≤ 1

/-- `v` is `e` up to `d` roundings. -/
def Near (d : ℕ) (v e : ℝ) : Prop := ∃ t, R.Fac d t ∧ v = e * t

variable {R}

theorem pow_pos' (hu : R.u < 1) (d : ℕ) : 0 < (1 - R.u) ^ d := pow_pos (by linarith) d

theorem pow_le_one' (hu : R.u < 1) (d : ℕ) : (1 - R.u) ^ d ≤ 1 :=
  pow_le_one₀ (by linarith) (by linarith [R.nonneg])

theorem Fac.pos (hu : R.u < 1) {d t} (h : R.Fac d t) : 0 < t := (pow_pos' hu d).trans_le h.1

theorem Fac.le (hu : R.u < 1) {d t} (h : R.Fac d t) : t ≤ ((1 - R.u) ^ d)⁻¹ := by
  rw [← one_div, le_div_iff₀ (pow_pos' hu d)]; exact h.2

theorem fac_one (hu : R.u < 1) (d : ℕ) : R.Fac d 1 := ⟨pow_le_one' hu d, by rw [one_mul]; exact pow_le_one' hu d⟩

theorem Fac.mono (hu : R.u < 1) {d e t} (h : R.Fac d t) (hde : d ≤ e) : R.Fac e t := by
  have hp : (1 - R.u) ^ e ≤ (1 - R.u) ^ d :=
    pow_le_pow_of_le_one (by linarith) (by linarith [R.nonneg]) hde
  exact ⟨hp.trans h.1, (mul_le_mul_of_nonneg_left hp (h.pos hu).le).trans h.2⟩

theorem Fac.mul (hu : R.u < 1) {d e a b} (ha : R.Fac d a) (hb : R.Fac e b) : R.Fac (d + e) (a * b) := by
  rw [Fac, pow_add]
  refine ⟨mul_le_mul ha.1 hb.1 (pow_pos' hu e).le (ha.pos hu).le, ?_⟩
  calc a * b * ((1 - R.u) ^ d * (1 - R.u) ^ e) = (a * (1 - R.u) ^ d) * (b * (1 - R.u) ^ e) := by ring
    _ ≤ 1 * 1 := mul_le_mul ha.2 hb.2 (mul_nonneg (hb.pos hu).le (pow_pos' hu e).le) zero_le_one
    _ = 1 := one_mul 1

theorem Fac.inv (hu : R.u < 1) {d a} (ha : R.Fac d a) : R.Fac d a⁻¹ := by
  have hp := ha.pos hu
  constructor
  · rw [← one_div, le_div_iff₀ hp, mul_comm]; exact ha.2
  · rw [inv_mul_le_iff₀ hp, mul_one]; exact ha.1

theorem rnd_fac (hu : R.u < 1) (x : ℝ) : ∃ t, R.Fac 1 t ∧ R.rnd x = x * t := by
  rcases eq_or_ne x 0 with rfl | hx
  · have h := R.err 0
    simp only [sub_zero, abs_zero, mul_zero, abs_nonpos_iff] at h
    exact ⟨1, fac_one hu 1, by rw [h, zero_mul]⟩
  · refine ⟨R.rnd x / x, ?_, by field_simp⟩
    have h : |R.rnd x / x - 1| ≤ R.u := by
      have : R.rnd x / x - 1 = (R.rnd x - x) / x := by field_simp
      rw [this, abs_div, div_le_iff₀ (abs_pos.mpr hx)]
      exact R.err x
    have h0 := R.nonneg
    rw [abs_le] at h
    refine ⟨by rw [pow_one]; linarith, ?_⟩
    rw [pow_one]
    nlinarith

theorem Near.refl (hu : R.u < 1) (e : ℝ) : R.Near 0 e e := ⟨1, fac_one hu 0, (mul_one e).symm⟩

theorem Near.mono (hu : R.u < 1) {d d' v e} (h : R.Near d v e) (hd : d ≤ d') : R.Near d' v e := by
  obtain ⟨t, ht, he⟩ := h
  exact ⟨t, ht.mono hu hd, he⟩

theorem Near.rnd (hu : R.u < 1) {d v e} (h : R.Near d v e) : R.Near (d + 1) (R.rnd v) e := by
  obtain ⟨t, ht, rfl⟩ := h
  obtain ⟨r, hr, hv⟩ := rnd_fac hu (e * t)
  exact ⟨t * r, ht.mul hu hr, by rw [hv, mul_assoc]⟩

theorem near_rnd (hu : R.u < 1) (x : ℝ) : R.Near 1 (R.rnd x) x := (Near.refl hu x).rnd hu

theorem Near.mul (hu : R.u < 1) {d d' v e w f} (h : R.Near d v e) (h' : R.Near d' w f) :
    R.Near (d + d') (v * w) (e * f) := by
  obtain ⟨t, ht, rfl⟩ := h
  obtain ⟨r, hr, rfl⟩ := h'
  exact ⟨t * r, ht.mul hu hr, by ring⟩

theorem Near.inv (hu : R.u < 1) {d v e} (h : R.Near d v e) : R.Near d v⁻¹ e⁻¹ := by
  obtain ⟨t, ht, rfl⟩ := h
  exact ⟨t⁻¹, ht.inv hu, by rw [mul_inv]⟩

theorem Near.div (hu : R.u < 1) {d d' v e w f} (h : R.Near d v e) (h' : R.Near d' w f) :
    R.Near (d + d') (v / w) (e / f) := by
  rw [div_eq_mul_inv, div_eq_mul_inv]; exact h.mul hu (h'.inv hu)

theorem Near.abs (hu : R.u < 1) {d v e} (h : R.Near d v e) : R.Near d |v| |e| := by
  obtain ⟨t, ht, rfl⟩ := h
  exact ⟨t, ht, by rw [abs_mul, abs_of_pos (ht.pos hu)]⟩

theorem Near.symm (hu : R.u < 1) {d v e} (h : R.Near d v e) : R.Near d e v := by
  obtain ⟨t, ht, rfl⟩ := h
  have := (ht.pos hu).ne'
  exact ⟨t⁻¹, ht.inv hu, by field_simp⟩

theorem Near.le (hu : R.u < 1) {d v e} (h : R.Near d v e) (he : 0 ≤ e) : v ≤ ((1 - R.u) ^ d)⁻¹ * e := by
  obtain ⟨t, ht, rfl⟩ := h
  rw [mul_comm e]
  exact mul_le_mul_of_nonneg_right (ht.le hu) he

theorem Near.nonneg (hu : R.u < 1) {d v e} (h : R.Near d v e) (he : 0 ≤ e) : 0 ≤ v := by
  obtain ⟨t, ht, rfl⟩ := h
  exact mul_nonneg he (ht.pos hu).le

theorem Near.pos (hu : R.u < 1) {d v e} (h : R.Near d v e) (he : 0 < e) : 0 < v := by
  obtain ⟨t, ht, rfl⟩ := h
  exact mul_pos he (ht.pos hu)

theorem near_of_le {d v e} (he : 0 < e) (h1 : (1 - R.u) ^ d * e ≤ v) (h2 : v * (1 - R.u) ^ d ≤ e) :
    R.Near d v e := by
  refine ⟨v / e, ⟨by rwa [le_div_iff₀ he], ?_⟩, by field_simp⟩
  rw [div_mul_eq_mul_div, div_le_one he]; exact h2

theorem Near.lower {d v e} (h : R.Near d v e) (he : 0 ≤ e) : (1 - R.u) ^ d * e ≤ v := by
  obtain ⟨t, ht, rfl⟩ := h
  rw [mul_comm e]; exact mul_le_mul_of_nonneg_right ht.1 he

theorem Near.upper {d v e} (h : R.Near d v e) (he : 0 ≤ e) : v * (1 - R.u) ^ d ≤ e := by
  obtain ⟨t, ht, rfl⟩ := h
  rw [mul_assoc]; exact mul_le_of_le_one_right he ht.2

theorem Near.max (hu : R.u < 1) {d v e c} (hc : 0 < c) (h : R.Near d v e) (he : 0 ≤ e) :
    R.Near d (Max.max c v) (Max.max c e) := by
  have hl := pow_le_one' hu d
  have hp := pow_pos' hu d
  refine near_of_le (hc.trans_le (le_max_left _ _)) ?_ ?_
  · rw [mul_max_of_nonneg _ _ hp.le]
    exact max_le_max (mul_le_of_le_one_left hc.le hl) (h.lower he)
  · rw [max_mul_of_nonneg _ _ hp.le]
    exact max_le_max (mul_le_of_le_one_right hc.le hl) (h.upper he)

theorem Near.add (hu : R.u < 1) {d v e w f} (h : R.Near d v e) (h' : R.Near d w f) (he : 0 ≤ e) (hf : 0 ≤ f) :
    R.Near d (v + w) (e + f) := by
  rcases (add_nonneg he hf).eq_or_lt with h0 | h0
  · have e0 : e = 0 := by linarith
    have f0 : f = 0 := by linarith
    subst e0 f0
    obtain ⟨t, _, rfl⟩ := h
    obtain ⟨r, _, rfl⟩ := h'
    exact ⟨1, fac_one hu d, by ring⟩
  · refine near_of_le h0 ?_ ?_
    · have := h.lower he; have := h'.lower hf; linarith
    · have := h.upper he; have := h'.upper hf; linarith

/-- The change is small. -/
theorem Fac.sub_one (hu : R.u < 1) {d t} (h : R.Fac d t) : |t - 1| ≤ ((1 - R.u) ^ d)⁻¹ - 1 := by
  have hp := pow_pos' hu d
  have h1 := h.le hu
  have h2 : 2 ≤ (1 - R.u) ^ d + ((1 - R.u) ^ d)⁻¹ := by
    have : 0 ≤ ((1 - R.u) ^ d - 1) ^ 2 / (1 - R.u) ^ d := by positivity
    have e : ((1 - R.u) ^ d - 1) ^ 2 / (1 - R.u) ^ d = (1 - R.u) ^ d + ((1 - R.u) ^ d)⁻¹ - 2 := by field_simp; ring
    linarith
  rw [abs_le]
  constructor <;> linarith [h.1]

theorem Near.sub (hu : R.u < 1) {d v e} (h : R.Near d v e) : |v - e| ≤ (((1 - R.u) ^ d)⁻¹ - 1) * |e| := by
  obtain ⟨t, ht, rfl⟩ := h
  rw [show e * t - e = (t - 1) * e by ring, abs_mul]
  exact mul_le_mul_of_nonneg_right (ht.sub_one hu) (abs_nonneg e)

/-- A computed sum is the sum of slightly changed terms. -/
theorem Sum.factors {ι : Type} [DecidableEq ι] {x : ι → ℝ} (hu : R.u < 1) {S : Finset ι} {v : ℝ} {d : ℕ}
    (h : R.Sum x S v d) : ∃ t : ι → ℝ, (∀ i, R.Fac d (t i)) ∧ v = ∑ i ∈ S, x i * t i := by
  induction h with
  | empty => exact ⟨fun _ => 1, fun _ => fac_one hu 0, by simp⟩
  | exact i => exact ⟨fun _ => 1, fun _ => fac_one hu 0, by simp⟩
  | round i =>
    obtain ⟨t, ht, he⟩ := rnd_fac hu (x i)
    exact ⟨fun _ => t, fun _ => ht, by simpa using he⟩
  | skip i h0 hi _ ih =>
    obtain ⟨t, ht, he⟩ := ih
    exact ⟨t, ht, by rw [Finset.sum_insert hi, h0, zero_mul, zero_add, he]⟩
  | @fma S v d i hi _ ih =>
    obtain ⟨t, ht, he⟩ := ih
    obtain ⟨r, hr, hv⟩ := rnd_fac hu (v + x i)
    refine ⟨fun j => if j ∈ S then t j * r else r, fun j => ?_, ?_⟩
    · dsimp only
      split
      · exact (ht j).mul hu hr
      · exact hr.mono hu (by omega)
    · dsimp only
      rw [hv, Finset.sum_insert hi, if_neg hi, he, add_comm, add_mul, Finset.sum_mul]
      congr 1
      refine Finset.sum_congr rfl fun j hj => ?_
      rw [if_pos hj, mul_assoc]
  | @add S T v w d e hd _ _ ih1 ih2 =>
    obtain ⟨t, ht, he⟩ := ih1
    obtain ⟨t', ht', he'⟩ := ih2
    obtain ⟨r, hr, hv⟩ := rnd_fac hu (v + w)
    refine ⟨fun j => if j ∈ S then t j * r else t' j * r, fun j => ?_, ?_⟩
    · dsimp only
      split
      · exact ((ht j).mul hu hr).mono hu (by omega)
      · exact ((ht' j).mul hu hr).mono hu (by omega)
    · dsimp only
      rw [hv, Finset.sum_union hd, he, he', add_mul, Finset.sum_mul, Finset.sum_mul]
      congr 1
      · refine Finset.sum_congr rfl fun j hj => ?_
        rw [if_pos hj, mul_assoc]
      · refine Finset.sum_congr rfl fun j hj => ?_
        rw [if_neg (Finset.disjoint_right.mp hd hj), mul_assoc]

/-- A computed sum whose terms are themselves rounded. -/
theorem Sum.near {ι : Type} [DecidableEq ι] {x e : ι → ℝ} (hu : R.u < 1) {S : Finset ι} {v : ℝ} {d c : ℕ}
    (h : R.Sum x S v d) (hx : ∀ i, R.Near c (x i) (e i)) :
    ∃ t : ι → ℝ, (∀ i, R.Fac (c + d) (t i)) ∧ v = ∑ i ∈ S, e i * t i := by
  obtain ⟨t, ht, hv⟩ := h.factors hu
  choose r hr hx using hx
  refine ⟨fun i => r i * t i, fun i => (hr i).mul hu (ht i), ?_⟩
  rw [hv]
  refine Finset.sum_congr rfl fun i _ => ?_
  rw [hx]; ring

theorem near_sum {ι : Type} {e t : ι → ℝ} (hu : R.u < 1) {S : Finset ι} {d : ℕ} (he : ∀ i, 0 ≤ e i)
    (ht : ∀ i, R.Fac d (t i)) : R.Near d (∑ i ∈ S, e i * t i) (∑ i ∈ S, e i) := by
  rcases (Finset.sum_nonneg fun i (_ : i ∈ S) => he i).eq_or_lt with h0 | h0
  · have h1 := (Finset.sum_eq_zero_iff_of_nonneg fun i (_ : i ∈ S) => he i).mp h0.symm
    refine ⟨1, fac_one hu d, ?_⟩
    rw [mul_one, ← h0]
    exact Finset.sum_eq_zero fun i hi => by rw [h1 i hi, zero_mul]
  · refine near_of_le h0 ?_ ?_
    · rw [Finset.mul_sum]
      refine Finset.sum_le_sum fun i _ => ?_
      rw [mul_comm]; exact mul_le_mul_of_nonneg_left (ht i).1 (he i)
    · rw [Finset.sum_mul]
      refine Finset.sum_le_sum fun i _ => ?_
      rw [mul_assoc]; exact mul_le_of_le_one_right (he i) (ht i).2

theorem abs_sum_sub {ι : Type} {e t : ι → ℝ} (hu : R.u < 1) {S : Finset ι} {d : ℕ} (ht : ∀ i, R.Fac d (t i)) :
    |∑ i ∈ S, e i * t i - ∑ i ∈ S, e i| ≤ (((1 - R.u) ^ d)⁻¹ - 1) * ∑ i ∈ S, |e i| := by
  rw [← Finset.sum_sub_distrib, Finset.mul_sum]
  refine (Finset.abs_sum_le_sum_abs _ _).trans (Finset.sum_le_sum fun i _ => ?_)
  rw [show e i * t i - e i = (t i - 1) * e i by ring, abs_mul]
  exact mul_le_mul_of_nonneg_right ((ht i).sub_one hu) (abs_nonneg _)

theorem foldr_max_le {l : List ℝ} {r : ℝ} (hr : 0 ≤ r) :
    l.foldr (fun x r => Max.max |x| r) 0 ≤ r ↔ ∀ x ∈ l, |x| ≤ r := by
  induction l with
  | nil => simpa using hr
  | cons a l ih => simp [ih]

theorem largest_nonneg {n : ℕ} (v : Fin n → ℝ) : 0 ≤ largest v := by
  unfold largest
  generalize List.ofFn v = l
  cases l with
  | nil => exact le_rfl
  | cons a l => exact (abs_nonneg a).trans (le_max_left _ _)

theorem largest_le {n : ℕ} {v : Fin n → ℝ} {r : ℝ} (hr : 0 ≤ r) : largest v ≤ r ↔ ∀ i, |v i| ≤ r := by
  unfold largest
  rw [foldr_max_le hr]
  simp [List.mem_ofFn]

theorem abs_le_largest {n : ℕ} (v : Fin n → ℝ) (i : Fin n) : |v i| ≤ largest v :=
  (largest_le (largest_nonneg v)).mp le_rfl i

end Rounding
end Slp
