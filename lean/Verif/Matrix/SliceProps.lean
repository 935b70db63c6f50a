import Verif.Matrix.SliceModel
import Verif.Matrix.SliceSpec
import Mathlib.Tactic.Ring
import Mathlib.Tactic.Linarith
import Mathlib.Tactic.Positivity
import Mathlib.Data.Int.Order.Basic
import Mathlib.Algebra.Order.Ring.Int

/-! C12: slicing follows Python semantics. -/

namespace Slp.Slicing

/-- The value fits an `int`. -/
def IsInt (z : ℤ) : Prop := intMin ≤ z ∧ z ≤ intMax

theorem ck_some {z : ℤ} (h : intMin ≤ z) (h' : z ≤ intMax) : ck z = some z := by
  simp [ck, h, h']

/-- The step the code uses: Python's step, except that the smallest `int` is replaced. -/
def codeStep (s : ℤ) : ℤ := if s = intMin then -intMax else s

theorem clamp_eq {x n s : ℤ} (hx : IsInt x) (hn : 0 ≤ n) (hn' : n ≤ intMax) :
    clamp x n s = some (if x < 0 then max (x + n) (if s < 0 then -1 else 0)
      else min x (if s < 0 then n - 1 else n)) := by
  obtain ⟨h1, h2⟩ := hx
  simp only [intMax, intMin] at h1 h2 hn'
  unfold clamp
  by_cases hx0 : x < 0
  · rw [if_pos hx0, if_pos hx0, ck_some (by simp only [intMin]; omega) (by simp only [intMax]; omega)]
    simp only [Option.bind_eq_bind, Option.bind_some]
    by_cases hs : s < 0
    · simp only [hs, if_true]
      split <;> congr 1 <;> omega
    · simp only [hs, if_false]
      split <;> congr 1 <;> omega
  · rw [if_neg hx0, if_neg hx0]
    by_cases hs : s < 0
    · simp only [hs, if_true]
      split
      · rw [ck_some (by simp only [intMin]; omega) (by simp only [intMax]; omega)]; congr 1; omega
      · congr 1; omega
    · simp only [hs, if_false]
      split <;> congr 1 <;> omega

/-- Bounds of Python's start and stop. -/
theorem pyIndices_bounds (a b s : Option ℤ) {n : ℤ} (hn : 0 ≤ n) :
    (s.getD 1 < 0 → -1 ≤ (pyIndices a b s n).1 ∧ (pyIndices a b s n).1 ≤ n - 1 ∧
      -1 ≤ (pyIndices a b s n).2.1 ∧ (pyIndices a b s n).2.1 ≤ n - 1) ∧
    (¬ s.getD 1 < 0 → 0 ≤ (pyIndices a b s n).1 ∧ (pyIndices a b s n).1 ≤ n ∧
      0 ≤ (pyIndices a b s n).2.1 ∧ (pyIndices a b s n).2.1 ≤ n) := by
  constructor
  · intro hs
    simp only [pyIndices, hs, if_true]
    refine ⟨?_, ?_, ?_, ?_⟩ <;> cases a <;> cases b <;> simp only [Option.elim] <;> (try split) <;>
      omega
  · intro hs
    simp only [pyIndices, hs, if_false]
    refine ⟨?_, ?_, ?_, ?_⟩ <;> cases a <;> cases b <;> simp only [Option.elim] <;> (try split) <;>
      omega

theorem codeStep_neg {s : ℤ} : codeStep s < 0 ↔ s < 0 := by
  unfold codeStep
  split
  · subst s; simp [intMax, intMin]
  · rfl

theorem codeStep_ne {s : ℤ} (h : s ≠ 0) : codeStep s ≠ 0 := by
  unfold codeStep
  split
  · simp [intMax]
  · exact h

theorem codeStep_ge {s : ℤ} (h : intMin ≤ s) : codeStep s ≥ -intMax := by
  unfold codeStep
  split
  · exact le_refl _
  · simp only [intMax, intMin] at *; omega

/-- The number of elements the code computes. -/
def countOf (a b s : ℤ) : ℤ :=
  if s < 0 then (if b < a then (a - b - 1) / -s + 1 else 0)
  else (if a < b then (b - a - 1) / s + 1 else 0)

theorem stepArg_eq {s : Option ℤ} (hs : s ≠ some 0) : stepArg s = some (codeStep (s.getD 1)) := by
  have h2 : ∀ k : ℤ, (if k = intMin then ck (-intMax) else some k) = some (codeStep k) := by
    intro k
    unfold codeStep
    split
    · exact ck_some (by decide) (by decide)
    · rfl
  unfold stepArg
  cases s with
  | none => exact h2 1
  | some k =>
    have hk : k ≠ 0 := fun h => hs (by rw [h])
    simp only [Option.elim, hk, ne_eq, not_false_eq_true, if_true, Option.bind_eq_bind,
      Option.bind_some]
    exact h2 k

/-- The start that the code computes is Python's. -/
theorem start_eq {a b s : Option ℤ} {n : ℤ} (ha : ∀ z, a = some z → IsInt z) (hn : 0 ≤ n)
    (hn' : n ≤ intMax) : clamp (startArg a (codeStep (s.getD 1))) n (codeStep (s.getD 1)) =
      some (pyIndices a b s n).1 := by
  have key : ∀ z, IsInt z → clamp z n (codeStep (s.getD 1)) = some (if z < 0 then
      max (z + n) (if s.getD 1 < 0 then -1 else 0) else min z (if s.getD 1 < 0 then n - 1 else n)) := by
    intro z hz
    rw [clamp_eq hz hn hn']; simp only [codeStep_neg]
  simp only [pyIndices, startArg, codeStep_neg]
  cases a with
  | some z => exact key z (ha z rfl)
  | none =>
    simp only [Option.elim]
    simp only [intMax] at hn'
    by_cases hs : s.getD 1 < 0
    · simp only [hs, if_true] at key ⊢
      rw [key _ ⟨by decide, le_refl _⟩, if_neg (by decide)]
      simp only [intMax]; congr 1; omega
    · simp only [hs, if_false] at key ⊢
      rw [key _ ⟨by decide, by decide⟩, if_neg (by decide)]
      congr 1; omega

/-- The stop that the code computes is Python's. -/
theorem stop_eq {a b s : Option ℤ} {n : ℤ} (hb : ∀ z, b = some z → IsInt z) (hn : 0 ≤ n)
    (hn' : n ≤ intMax) : clamp (stopArg b (codeStep (s.getD 1))) n (codeStep (s.getD 1)) =
      some (pyIndices a b s n).2.1 := by
  have key : ∀ z, IsInt z → clamp z n (codeStep (s.getD 1)) = some (if z < 0 then
      max (z + n) (if s.getD 1 < 0 then -1 else 0) else min z (if s.getD 1 < 0 then n - 1 else n)) := by
    intro z hz
    rw [clamp_eq hz hn hn']; simp only [codeStep_neg]
  simp only [pyIndices, stopArg, codeStep_neg]
  cases b with
  | some z => exact key z (hb z rfl)
  | none =>
    simp only [Option.elim]
    simp only [intMax] at hn'
    by_cases hs : s.getD 1 < 0
    · simp only [hs, if_true] at key ⊢
      rw [key _ ⟨le_refl _, by decide⟩, if_pos (by decide)]
      simp only [intMin]; congr 1; omega
    · simp only [hs, if_false] at key ⊢
      rw [key _ ⟨by decide, le_refl _⟩, if_neg (by decide)]
      simp only [intMax]; congr 1; omega

theorem tdiv_bounds {e s : ℤ} (he : 0 ≤ e) (hs : 0 < s) : e.tdiv s = e / s ∧ 0 ≤ e / s ∧ e / s ≤ e := by
  refine ⟨Int.tdiv_eq_ediv_of_nonneg he, Int.ediv_nonneg he hs.le, Int.ediv_le_self s he⟩

theorem count_eq {x y c n : ℤ} (hc : c ≠ 0) (hn : n ≤ intMax)
    (h1 : c < 0 → -1 ≤ x ∧ x ≤ n - 1 ∧ -1 ≤ y ∧ y ≤ n - 1)
    (h2 : ¬ c < 0 → 0 ≤ x ∧ x ≤ n ∧ 0 ≤ y ∧ y ≤ n) : count x y c = some (countOf x y c) := by
  simp only [intMax] at hn
  unfold count countOf
  by_cases hs1 : c < 0
  · obtain ⟨g1, g2, g3, g4⟩ := h1 hs1
    simp only [hs1, if_true]
    by_cases hxy : y < x
    · obtain ⟨t1, t2, t3⟩ := tdiv_bounds (e := x - y - 1) (s := -c) (by omega) (by omega)
      simp only [hxy, if_true, Option.bind_eq_bind]
      rw [ck_some (z := x - y) (by simp only [intMin]; omega) (by simp only [intMax]; omega)]
      simp only [Option.bind_some]
      rw [ck_some (z := x - y - 1) (by simp only [intMin]; omega) (by simp only [intMax]; omega)]
      simp only [Option.bind_some]
      rw [t1, ck_some (by simp only [intMin]; omega) (by simp only [intMax]; omega)]
    · simp [hxy]
  · obtain ⟨g1, g2, g3, g4⟩ := h2 hs1
    simp only [hs1, if_false]
    by_cases hxy : x < y
    · obtain ⟨t1, t2, t3⟩ := tdiv_bounds (e := y - x - 1) (s := c) (by omega) (by omega)
      simp only [hxy, if_true, Option.bind_eq_bind]
      rw [ck_some (z := y - x) (by simp only [intMin]; omega) (by simp only [intMax]; omega)]
      simp only [Option.bind_some]
      rw [ck_some (z := y - x - 1) (by simp only [intMin]; omega) (by simp only [intMax]; omega)]
      simp only [Option.bind_some]
      rw [t1, ck_some (by simp only [intMin]; omega) (by simp only [intMax]; omega)]
    · simp [hxy]

/-- What `adjust()` computes: Python's start and stop, the step of the slice, and the count. -/
theorem adjust_eq {a b s : Option ℤ} {n : ℤ} (ha : ∀ z, a = some z → IsInt z)
    (hb : ∀ z, b = some z → IsInt z) (hs : ∀ z, s = some z → IsInt z ∧ z ≠ 0) (hn : 0 ≤ n)
    (hn' : n ≤ intMax) :
    (Slice.mk3 a b s).bind (Slice.adjust · n) =
      some (countOf (pyIndices a b s n).1 (pyIndices a b s n).2.1 (codeStep (s.getD 1)),
        ⟨(pyIndices a b s n).1, (pyIndices a b s n).2.1, codeStep (s.getD 1)⟩) := by
  have hs0 : s ≠ some 0 := fun h => (hs 0 h).2 rfl
  have hsd : s.getD 1 ≠ 0 := by
    cases s with
    | none => simp
    | some k => exact (hs k rfl).2
  have hsi : intMin ≤ s.getD 1 := by
    cases s with
    | none => decide
    | some k => exact (hs k rfl).1.1
  obtain ⟨hbn, hbp⟩ := pyIndices_bounds a b s hn
  unfold Slice.mk3 Slice.adjust
  simp only [stepArg_eq hs0, Option.bind_eq_bind, Option.bind_some]
  rw [if_pos ⟨codeStep_ne hsd, codeStep_ge hsi⟩, start_eq (b := b) ha hn hn', Option.bind_some,
    stop_eq (a := a) hb hn hn', Option.bind_some,
    count_eq (n := n) (codeStep_ne hsd) hn' (fun h => hbn (codeStep_neg.1 h))
      (fun h => hbp fun h' => h (codeStep_neg.2 h')), Option.bind_some]

theorem countOf_nonneg {a b s : ℤ} (_ : s ≠ 0) : 0 ≤ countOf a b s := by
  unfold countOf
  split
  · split
    · have := Int.ediv_nonneg (a := a - b - 1) (b := -s) (by omega) (by omega); omega
    · exact le_refl _
  · split
    · have := Int.ediv_nonneg (a := b - a - 1) (b := s) (by omega) (by omega); omega
    · exact le_refl _

/-- The count stops exactly at the limit. -/
theorem countOf_spec {a b s : ℤ} (hs : s ≠ 0) (k : ℤ) (hk : 0 ≤ k) :
    (k < countOf a b s → (0 < s → a + k * s < b) ∧ (s < 0 → b < a + k * s)) ∧
      (0 < s → b ≤ a + countOf a b s * s) ∧ (s < 0 → a + countOf a b s * s ≤ b) := by
  unfold countOf
  by_cases hs1 : s < 0
  · simp only [hs1, if_true]
    split
    · have h1 := Int.ediv_mul_le (a - b - 1) (b := -s) (by omega)
      have h2 := Int.lt_ediv_add_one_mul_self (a - b - 1) (b := -s) (by omega)
      refine ⟨fun h => ⟨by omega, fun _ => ?_⟩, by omega, fun _ => ?_⟩
      · nlinarith [mul_le_mul_of_nonneg_right (show k ≤ (a - b - 1) / -s by omega)
          (show 0 ≤ -s by omega)]
      · nlinarith
    · refine ⟨fun h => by omega, by omega, fun _ => by omega⟩
  · simp only [hs1, if_false]
    have hs2 : 0 < s := by omega
    split
    · have h1 := Int.ediv_mul_le (b - a - 1) (b := s) (by omega)
      have h2 := Int.lt_ediv_add_one_mul_self (b - a - 1) (b := s) (by omega)
      refine ⟨fun h => ⟨fun _ => ?_, fun h => h.elim⟩, fun _ => ?_, fun h => h.elim⟩
      · nlinarith [mul_le_mul_of_nonneg_right (show k ≤ (b - a - 1) / s by omega)
          (show 0 ≤ s by omega)]
      · nlinarith
    · refine ⟨fun h => by omega, fun _ => by omega, fun h => h.elim⟩

/-- C12: for every combination of omitted and `int` arguments (nonzero step) and every length that
fits an `int`, `Slice{start, stop, step}.adjust(n)` succeeds, the indices it selects are the ones
Python's `seq[start:stop:step]` visits, in the same order, its result is their number, and they all
lie in the sequence. -/
theorem slice_python {a b s : Option ℤ} {n : ℤ} (ha : ∀ z, a = some z → IsInt z)
    (hb : ∀ z, b = some z → IsInt z) (hs : ∀ z, s = some z → IsInt z ∧ z ≠ 0) (hn : 0 ≤ n)
    (hn' : IsInt n) :
    ∃ r, (Slice.mk3 a b s).bind (Slice.adjust · n) = some r ∧ PySelects a b s n (Slice.indices r) ∧
      r.1 = (Slice.indices r).length ∧ ∀ x ∈ Slice.indices r, 0 ≤ x ∧ x < n := by
  refine ⟨_, adjust_eq ha hb hs hn hn'.2, ?_⟩
  have hsd : s.getD 1 ≠ 0 := by
    cases s with
    | none => simp
    | some k => exact (hs k rfl).2
  have hsi : intMin ≤ s.getD 1 := by
    cases s with
    | none => decide
    | some k => exact (hs k rfl).1.1
  obtain ⟨hbn, hbp⟩ := pyIndices_bounds a b s hn
  have hstep : (pyIndices a b s n).2.2 = s.getD 1 := rfl
  unfold PySelects
  rw [hstep]
  generalize (pyIndices a b s n).1 = x at *
  generalize (pyIndices a b s n).2.1 = y at *
  generalize s.getD 1 = c at *
  have hc := codeStep_ne hsd
  have hnn := countOf_nonneg (a := x) (b := y) hc
  have hlen : (Slice.indices (countOf x y (codeStep c), ⟨x, y, codeStep c⟩)).length =
      (countOf x y (codeStep c)).toNat := by simp [Slice.indices]
  have hn2 : n ≤ intMax := hn'.2
  -- one element at most if the step was replaced
  have hone : codeStep c ≠ c → countOf x y (codeStep c) ≤ 1 ∧ c = intMin ∧ codeStep c = -intMax := by
    intro h
    have hci : c = intMin := by
      by_contra hne; exact h (by simp [codeStep, hne])
    have hcs : codeStep c = -intMax := by simp [codeStep, hci]
    obtain ⟨g1, g2, g3, g4⟩ := hbn (by rw [hci]; decide)
    refine ⟨?_, hci, hcs⟩
    rw [hcs]
    have hneg : (-intMax : ℤ) < 0 := by decide
    unfold countOf
    simp only [hneg, if_true]
    split
    · have : (x - y - 1) / - -intMax = 0 := by
        apply Int.ediv_eq_zero_of_lt <;> simp only [intMax] at * <;> omega
      omega
    · omega
  have hget : ∀ (k : ℕ) (z : ℤ),
      (Slice.indices (countOf x y (codeStep c), ⟨x, y, codeStep c⟩))[k]? = some z →
      (k : ℤ) < countOf x y (codeStep c) ∧ z = x + k * codeStep c ∧ z = x + k * c := by
    intro k z hz
    simp only [Slice.indices, List.getElem?_map, Option.map_eq_some_iff] at hz
    obtain ⟨j, hj, rfl⟩ := hz
    rw [List.getElem?_eq_some_iff] at hj
    obtain ⟨h1, h2⟩ := hj
    simp only [List.length_range, List.getElem_range] at h1 h2
    subst h2
    refine ⟨by omega, rfl, ?_⟩
    by_cases he : codeStep c = c
    · rw [he]
    · have := (hone he).1
      have : k = 0 := by omega
      subst this; simp
  refine ⟨⟨?_, ?_, ?_⟩, ?_, ?_⟩
  · intro k z hz
    obtain ⟨h1, h2, h3⟩ := hget k z hz
    have h4 := (countOf_spec (a := x) (b := y) hc k (by omega)).1 h1
    refine ⟨h3, fun hp => ?_, fun hp => ?_⟩
    · have := codeStep_neg (s := c); rw [h2]; exact h4.1 (by omega)
    · rw [h2]; exact h4.2 (codeStep_neg.2 hp)
  · intro hp
    have hcp : codeStep c = c := by
      by_contra he
      have := (hone he).2.1; rw [this] at hp; exact absurd hp (by decide)
    have := (countOf_spec (a := x) (b := y) hc 0 (le_refl _)).2.1 (by rwa [hcp])
    rw [hlen, Int.toNat_of_nonneg hnn]
    rwa [hcp] at this ⊢
  · intro hp
    have h5 := (countOf_spec (a := x) (b := y) hc 0 (le_refl _)).2.2 (codeStep_neg.2 hp)
    rw [hlen, Int.toNat_of_nonneg hnn]
    by_cases he : codeStep c = c
    · rwa [he] at h5 ⊢
    · obtain ⟨h6, h7, h8⟩ := hone he
      rw [h8] at h5 hnn h6 ⊢
      rw [h7]
      have : countOf x y (-intMax) * intMin ≤ countOf x y (-intMax) * -intMax :=
        mul_le_mul_of_nonneg_left (by decide) hnn
      omega
  · rw [hlen, Int.toNat_of_nonneg hnn]
  · intro z hz
    obtain ⟨k, hk⟩ := List.getElem?_of_mem hz
    obtain ⟨h1, h2, h3⟩ := hget k z hk
    have h4 := (countOf_spec (a := x) (b := y) hc k (by omega)).1 h1
    by_cases hneg : c < 0
    · obtain ⟨g1, g2, g3, g4⟩ := hbn hneg
      have h6 := codeStep_neg.2 hneg
      have := h4.2 h6
      refine ⟨by omega, ?_⟩
      have : (k : ℤ) * codeStep c ≤ 0 := mul_nonpos_of_nonneg_of_nonpos (by omega) h6.le
      omega
    · obtain ⟨g1, g2, g3, g4⟩ := hbp hneg
      have h6 : 0 < codeStep c := by have := codeStep_neg (s := c); omega
      have := h4.1 h6
      refine ⟨?_, by omega⟩
      have : 0 ≤ (k : ℤ) * codeStep c := by positivity
      omega

/-- Two lists that Python's `range` describes are the same list, so the specification is exact. -/
theorem isRange_unique {a b s : ℤ} (hs : s ≠ 0) {l l' : List ℤ} (h : IsRange a b s l)
    (h' : IsRange a b s l') : l = l' := by
  have key : ∀ {l l' : List ℤ}, IsRange a b s l → IsRange a b s l' → l'.length ≤ l.length := by
    intro l l' h h'
    by_contra hlt
    obtain ⟨x, hx⟩ : ∃ x, l'[l.length]? = some x :=
      ⟨_, List.getElem?_eq_getElem (by omega)⟩
    obtain ⟨h1, h2, h3⟩ := h'.1 _ x hx
    rcases lt_or_gt_of_ne hs with hneg | hpos
    · have := h3 hneg; have := h.2.2 hneg; omega
    · have := h2 hpos; have := h.2.1 hpos; omega
  have hl : l.length = l'.length := le_antisymm (key h' h) (key h h')
  apply List.ext_getElem? 
  intro k
  by_cases hk : k < l.length
  · have e1 := List.getElem?_eq_getElem hk
    have e2 := List.getElem?_eq_getElem (hl ▸ hk)
    rw [e1, e2, (h.1 k _ e1).1, (h'.1 k _ e2).1]
  · rw [List.getElem?_eq_none (by omega), List.getElem?_eq_none (by omega)]

/-- C12: `Slice{start, stop}` is `start:stop`. -/
theorem slice_two {a b : Option ℤ} {n : ℤ} (ha : ∀ z, a = some z → IsInt z) (hb : ∀ z, b = some z → IsInt z)
    (hn : 0 ≤ n) (hn' : IsInt n) :
    ∃ r, (Slice.mk2 a b).bind (Slice.adjust · n) = some r ∧ PySelects a b none n (Slice.indices r) ∧
      r.1 = (Slice.indices r).length ∧ ∀ x ∈ Slice.indices r, 0 ≤ x ∧ x < n :=
  slice_python (s := some 1) ha hb (fun z hz => by cases hz; exact ⟨⟨by decide, by decide⟩, by decide⟩) hn hn'

/-- C12, single index: `Slice{i}` selects element `i`, counted from the end if negative, and nothing if
out of range. -/
theorem slice_single {i n : ℤ} (hi : IsInt i) (hi' : i ≠ intMax) (hn : 0 ≤ n) (hn' : IsInt n) :
    ∃ r, (Slice.mk1 i).bind (Slice.adjust · n) = some r ∧
      Slice.indices r = if 0 ≤ i ∧ i < n then [i] else if -n ≤ i ∧ i < 0 then [n + i] else [] := by
  have hstop : ∃ z, Slice.mk1 i = Slice.mk3 (some i) (some z) (some 1) ∧ IsInt z ∧
      z = if i = -1 then intMax else i + 1 := by
    unfold Slice.mk1 Slice.mk3
    rw [stepArg_eq (by simp)]
    have h11 : codeStep ((some (1 : ℤ)).getD 1) = 1 := by decide
    rw [h11]
    obtain ⟨h1, h2⟩ := hi
    simp only [intMax, intMin] at h1 h2 hi'
    split
    · refine ⟨intMax, ?_, ⟨by decide, by decide⟩, rfl⟩
      simp [startArg, stopArg]
    · refine ⟨i + 1, ?_, ?_, rfl⟩
      · rw [ck_some (by simp only [intMin]; omega) (by simp only [intMax]; omega)]
        simp [startArg, stopArg]
      · constructor <;> simp only [intMax, intMin] <;> omega
  obtain ⟨z, e, hz, hzv⟩ := hstop
  rw [e]
  obtain ⟨r, hr, hsel, -, -⟩ := slice_python (a := some i) (b := some z) (s := some 1) (n := n)
    (by rintro _ ⟨⟩; exact hi) (by rintro _ ⟨⟩; exact hz) (by rintro _ ⟨⟩; exact ⟨⟨by decide, by decide⟩, by decide⟩)
    hn hn'
  refine ⟨r, hr, ?_⟩
  refine isRange_unique (s := 1) one_ne_zero hsel ?_
  obtain ⟨h1, h2⟩ := hi
  have h3 := hn'.2
  simp only [intMax, intMin] at h1 h2 h3 hi' hzv
  simp only [pyIndices, Option.getD_some, Option.elim, show ¬ ((1 : ℤ) < 0) by decide, if_false]
  by_cases h : 0 ≤ i ∧ i < n
  · rw [if_pos h]
    rw [if_neg (by omega)] at hzv
    rw [if_neg (by omega), if_neg (by omega : ¬ z < 0)]
    refine ⟨?_, ?_, by omega⟩
    · intro k x hx
      match k with
      | 0 => simp at hx; subst hx; refine ⟨by simp; omega, fun _ => by omega, by omega⟩
      | k + 1 => simp at hx
    · intro _; simp only [List.length_singleton]; omega
  · rw [if_neg h]
    by_cases h' : -n ≤ i ∧ i < 0
    · rw [if_pos h', if_pos (by omega : i < 0)]
      refine ⟨?_, ?_, by omega⟩
      · intro k x hx
        match k with
        | 0 =>
          simp at hx; subst hx
          refine ⟨by simp; omega, fun _ => ?_, by omega⟩
          split <;> split at hzv <;> omega
        | k + 1 => simp at hx
      · intro _
        simp only [List.length_singleton]
        split <;> split at hzv <;> omega
    · rw [if_neg h']
      refine ⟨?_, ?_, by omega⟩
      · intro k x hx; simp at hx
      · intro _
        simp only [List.length_nil]
        split <;> split <;> split at hzv <;> omega

/-- C12: `Slice{_}` selects everything. -/
theorem slice_all {n : ℤ} (hn : 0 ≤ n) (hn' : IsInt n) :
    ∃ r, Slice.all.bind (Slice.adjust · n) = some r ∧
      Slice.indices r = (List.range n.toNat).map fun (k : ℕ) => (k : ℤ) := by
  obtain ⟨r, hr, hsel, -, -⟩ := slice_python (a := some 0) (b := some intMax) (s := some 1) (n := n)
    (by rintro _ ⟨⟩; exact ⟨by decide, by decide⟩) (by rintro _ ⟨⟩; exact ⟨by decide, le_refl _⟩)
    (by rintro _ ⟨⟩; exact ⟨⟨by decide, by decide⟩, by decide⟩) hn hn'
  refine ⟨r, hr, isRange_unique (s := 1) one_ne_zero hsel ?_⟩
  have h3 := hn'.2
  simp only [intMax] at h3
  simp only [pyIndices, Option.getD_some, Option.elim, show ¬ ((1 : ℤ) < 0) by decide, if_false,
    show ¬ ((0 : ℤ) < 0) by decide, intMax, show ¬ ((2147483647 : ℤ) < 0) by decide]
  refine ⟨?_, ?_, by omega⟩
  · intro k x hx
    simp only [List.getElem?_map, Option.map_eq_some_iff] at hx
    obtain ⟨j, hj, rfl⟩ := hx
    rw [List.getElem?_eq_some_iff] at hj
    obtain ⟨h1, h2⟩ := hj
    simp only [List.length_range, List.getElem_range] at h1 h2
    subst h2
    refine ⟨by omega, fun _ => by omega, by omega⟩
  · intro _; simp only [List.length_map, List.length_range]; omega

example : ((Slice.mk3 none none (some (-2))).bind (Slice.adjust · 5)).map Slice.indices =
    some [4, 2, 0] := by decide

example : ((Slice.mk3 (some (-4)) (some 5) none).bind (Slice.adjust · 6)).map Slice.indices =
    some [2, 3, 4] := by decide

/-- `Slice{INT_MAX}` overflows. -/
theorem slice_single_overflow : Slice.mk1 intMax = none := by decide

/-- `adjust()` must be called once: a second call with the same length selects something else. -/
theorem adjust_twice : ((Slice.mk3 none none (some (-1))).bind (Slice.adjust · 3)).map Slice.indices =
      some [2, 1, 0] ∧
    (((Slice.mk3 none none (some (-1))).bind (Slice.adjust · 3)).bind fun r =>
      r.2.adjust 3).map Slice.indices = some [] := by decide

end Slp.Slicing
