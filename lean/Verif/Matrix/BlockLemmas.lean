import Verif.Matrix.SliceProps
import Verif.Matrix.BlockSpec
import Mathlib.Algebra.BigOperators.Group.List.Basic
import Mathlib.Algebra.Order.Group.Unbundled.Int
import Mathlib.Data.List.Nodup

/-! Lemmas about one dimension of a view. -/

namespace Slp.VMat

open Slp.Slicing

/-- A slice argument written with start, stop and step. -/
def SliceArg.triple : SliceArg → Option ℤ × Option ℤ × Option ℤ
  | .all => (some 0, some intMax, some 1)
  | .index i => (some i, some (if i = -1 then intMax else i + 1), some 1)
  | .range a b s => (a, b, s)

theorem SliceArg.toSlice_eq {a : SliceArg} (h : a.Valid) :
    a.toSlice = Slice.mk3 a.triple.1 a.triple.2.1 a.triple.2.2 := by
  cases a with
  | all => rfl
  | index i =>
      simp only [SliceArg.toSlice, SliceArg.triple, Slice.mk1, Slice.mk3]
      rw [stepArg_eq (by simp)]
      have h11 : codeStep ((some (1 : ℤ)).getD 1) = 1 := by decide
      rw [h11]
      simp only [SliceArg.Valid] at h
      by_cases hi : i = -1
      · simp [hi, startArg, stopArg]
      · simp only [hi, if_false]
        rw [ck_some (by simp only [intMax, intMin] at *; omega) (by simp only [intMax, intMin] at *; omega)]
        simp [startArg, stopArg]
  | range a b s => rfl

theorem SliceArg.triple_valid {a : SliceArg} (h : a.Valid) :
    (∀ z, a.triple.1 = some z → IsInt z) ∧ (∀ z, a.triple.2.1 = some z → IsInt z) ∧
      ∀ z, a.triple.2.2 = some z → IsInt z ∧ z ≠ 0 := by
  cases a with
  | all =>
      refine ⟨?_, ?_, ?_⟩ <;> rintro _ ⟨⟩
      · exact ⟨by decide, by decide⟩
      · exact ⟨by decide, by decide⟩
      · exact ⟨⟨by decide, by decide⟩, by decide⟩
  | index i =>
      simp only [SliceArg.Valid] at h
      refine ⟨?_, ?_, ?_⟩ <;> rintro _ ⟨⟩
      · exact ⟨h.1, h.2.le⟩
      · unfold IsInt
        split <;> simp only [intMax, intMin] at * <;> omega
      · exact ⟨⟨by decide, by decide⟩, by decide⟩
  | range a b s => exact h

theorem SliceArg.selects_iff {a : SliceArg} (h : a.Valid) {n : ℕ} (hn : (n : ℤ) ≤ intMax) {l : List ℤ}
    (hl : a.Selects n l) : PySelects a.triple.1 a.triple.2.1 a.triple.2.2 n l := by
  have hn0 : (0 : ℤ) ≤ n := by omega
  have hni : IsInt n := ⟨by simp only [intMin]; omega, hn⟩
  cases a with
  | all =>
      obtain ⟨r, hr, hsel, -, -⟩ := slice_python (SliceArg.triple_valid h).1 (SliceArg.triple_valid h).2.1
        (SliceArg.triple_valid h).2.2 hn0 hni
      obtain ⟨r', hr', hi⟩ := slice_all hn0 hni
      have hrr : r = r' := Option.some_injective _ (hr.symm.trans hr')
      subst hrr
      simp only [SliceArg.Selects] at hl
      rw [hl]; rw [hi] at hsel; simpa using hsel
  | index i =>
      obtain ⟨r, hr, hsel, -, -⟩ := slice_python (SliceArg.triple_valid h).1 (SliceArg.triple_valid h).2.1
        (SliceArg.triple_valid h).2.2 hn0 hni
      obtain ⟨r', hr', hi⟩ := slice_single (i := i) (n := n) ⟨h.1, h.2.le⟩ (by have := h.2; omega) hn0 hni
      rw [← SliceArg.toSlice_eq h] at hr
      have hrr : r = r' := Option.some_injective _ (hr.symm.trans hr')
      subst hrr
      simp only [SliceArg.Selects] at hl
      rw [hl]; rw [hi] at hsel; exact hsel
  | range a b s => exact hl

theorem SliceArg.triple_step (a : SliceArg) : a.triple.2.2.getD 1 = a.step := by
  cases a <;> rfl

theorem SliceArg.step_ne {a : SliceArg} (h : a.Valid) : a.step ≠ 0 := by
  cases a with
  | all => decide
  | index i => simp [SliceArg.step]
  | range a b s =>
      cases s with
      | none => simp [SliceArg.step]
      | some k => exact (h.2.2 k rfl).2

theorem SliceArg.step_int {a : SliceArg} (h : a.Valid) : IsInt a.step := by
  cases a with
  | all => exact (⟨by decide, by decide⟩ : IsInt 1)
  | index i => exact (⟨by decide, by decide⟩ : IsInt 1)
  | range a b s =>
      cases s with
      | none => exact (⟨by decide, by decide⟩ : IsInt 1)
      | some k => exact (h.2.2 k rfl).1

/-- What is known about an adjusted slice `r` of a sequence of length `n` that selects `l`. -/
structure Adjusted (n : ℕ) (r : ℤ × Slice) (l : List ℤ) : Prop where
  len : r.1 = l.length
  get : ∀ (k : ℕ) (x : ℤ), l[k]? = some x → x = r.2.start + k * r.2.step ∧ 0 ≤ x ∧ x < n
  step_ne : r.2.step ≠ 0
  step_int : |r.2.step| ≤ intMax
  neg : r.2.step < 0 → -1 ≤ r.2.start ∧ r.2.start ≤ (n : ℤ) - 1 ∧ -1 ≤ r.2.stop ∧ r.2.stop ≤ (n : ℤ) - 1
  pos : 0 < r.2.step → 0 ≤ r.2.start ∧ r.2.start ≤ n ∧ 0 ≤ r.2.stop ∧ r.2.stop ≤ n

theorem SliceArg.adjusted {a : SliceArg} (h : a.Valid) {n : ℕ} (hn : (n : ℤ) ≤ intMax) {l : List ℤ}
    (hl : a.Selects n l) :
    ∃ r, a.toSlice.bind (Slice.adjust · n) = some r ∧ Adjusted n r l ∧ r.2.step = codeStep a.step := by
  have hn0 : (0 : ℤ) ≤ n := by omega
  have hni : IsInt n := ⟨by simp only [intMin]; omega, hn⟩
  obtain ⟨v1, v2, v3⟩ := SliceArg.triple_valid h
  obtain ⟨r, hr, hsel, hlen, hmem⟩ := slice_python v1 v2 v3 hn0 hni
  have hadj := adjust_eq v1 v2 v3 hn0 hni.2
  have hrr := Option.some_injective _ (hr.symm.trans hadj)
  have hne : (pyIndices a.triple.1 a.triple.2.1 a.triple.2.2 n).2.2 ≠ 0 := by
    show a.triple.2.2.getD 1 ≠ 0
    rw [a.triple_step]; exact SliceArg.step_ne h
  have hll := isRange_unique hne hsel (SliceArg.selects_iff h hn hl)
  obtain ⟨b1, b2⟩ := pyIndices_bounds a.triple.1 a.triple.2.1 a.triple.2.2 hn0
  have hst : r.2.step = codeStep a.step := by rw [hrr, a.triple_step]
  have hs0 : r.2.step ≠ 0 := by rw [hst]; exact codeStep_ne (SliceArg.step_ne h)
  refine ⟨r, by rw [SliceArg.toSlice_eq h]; exact hr, ?_, hst⟩
  subst hll
  refine ⟨hlen, ?_, hs0, ?_, ?_, ?_⟩
  · intro k x hx
    refine ⟨?_, hmem x (List.mem_of_getElem? hx)⟩
    simp only [Slice.indices, List.getElem?_map, Option.map_eq_some_iff] at hx
    obtain ⟨j, hj, rfl⟩ := hx
    rw [List.getElem?_eq_some_iff] at hj
    obtain ⟨h1, h2⟩ := hj
    simp only [List.getElem_range] at h2
    rw [h2]
  · rw [hst]
    have h1 := (SliceArg.step_int h).2
    have h2 := codeStep_ge (SliceArg.step_int h).1
    have h3 : codeStep a.step ≤ intMax := by
      unfold codeStep; split
      · decide
      · exact h1
    exact abs_le.2 ⟨h2, h3⟩
  · intro hneg
    rw [hst, codeStep_neg, ← a.triple_step] at hneg
    have := b1 hneg
    rw [hrr]; exact this
  · intro hpos
    rw [hst] at hpos
    have h4 : ¬ a.triple.2.2.getD 1 < 0 := by
      rw [a.triple_step, ← codeStep_neg]; omega
    have := b2 h4
    rw [hrr]; exact this

/-- A slice with count `len`, as stored in a view of a dimension of size `N`, names the positions `R`. -/
structure Dim (N : ℕ) (s : Slice) (len : ℤ) (R : List ℤ) : Prop where
  len : len = R.length
  get : ∀ (k : ℕ) (x : ℤ), R[k]? = some x → x = s.start + k * s.step ∧ 0 ≤ x ∧ x < N
  step_ne : s.step ≠ 0
  step_int : |s.step| ≤ intMax
  pos : 0 < s.step → 0 ≤ s.start ∧ s.start ≤ N + s.step
  neg : s.step < 0 → s.step ≤ s.start ∧ s.start ≤ N

theorem Adjusted.dim {n : ℕ} {r : ℤ × Slice} {l : List ℤ} (h : Adjusted n r l) : Dim n r.2 r.1 l := by
  refine ⟨h.len, h.get, h.step_ne, h.step_int, fun hp => ?_, fun hp => ?_⟩
  · have := h.pos hp; omega
  · have := h.neg hp; omega

theorem Dim.nodup {N : ℕ} {s : Slice} {len : ℤ} {R : List ℤ} (h : Dim N s len R) : R.Nodup := by
  rw [List.nodup_iff_injective_getElem]
  rintro ⟨i, hi⟩ ⟨j, hj⟩ hij
  have h1 := (h.get i _ (List.getElem?_eq_getElem hi)).1
  have h2 := (h.get j _ (List.getElem?_eq_getElem hj)).1
  simp only at hij
  have h3 : (i : ℤ) * s.step = j * s.step := by omega
  have h4 := mul_right_cancel₀ h.step_ne h3
  simp only [Fin.mk.injEq]; omega

/-- A position `start + k * step` with `k` between -1 and the number of elements, if `k` is on the side
that an inner slice with this direction can use. -/
theorem Dim.place {N : ℕ} {s : Slice} {len : ℤ} {R : List ℤ} (h : Dim N s len R) {k : ℤ}
    (h1 : -1 ≤ k) (h2 : k ≤ R.length) :
    (0 < s.step → -s.step ≤ s.start + k * s.step ∧ s.start + k * s.step ≤ N + s.step ∧
      (0 ≤ k → 0 ≤ s.start + k * s.step) ∧ (k < R.length → s.start + k * s.step ≤ N)) ∧
    (s.step < 0 → s.step ≤ s.start + k * s.step ∧ s.start + k * s.step ≤ N - s.step ∧
      (0 ≤ k → s.start + k * s.step ≤ N) ∧ (k < R.length → 0 ≤ s.start + k * s.step)) ∧
    |k * s.step| ≤ N + |s.step| := by
  rcases Nat.eq_zero_or_pos R.length with h0 | hpos
  · have hk : k = -1 ∨ k = 0 := by omega
    have hp := h.pos
    have hn := h.neg
    have habs : |k * s.step| ≤ |s.step| := by
      rcases hk with rfl | rfl <;> simp
    refine ⟨fun hs => ?_, fun hs => ?_, by omega⟩
    · have := hp hs
      rcases hk with rfl | rfl
      · refine ⟨by omega, by omega, by omega, fun _ => by omega⟩
      · refine ⟨by omega, by omega, by omega, fun hlt => by omega⟩
    · have := hn hs
      rcases hk with rfl | rfl
      · refine ⟨by omega, by omega, by omega, fun _ => by omega⟩
      · refine ⟨by omega, by omega, by omega, fun hlt => by omega⟩
  · obtain ⟨a1, a2, a3⟩ := h.get 0 _ (List.getElem?_eq_getElem hpos)
    obtain ⟨c1, c2, c3⟩ := h.get (R.length - 1) _ (List.getElem?_eq_getElem (by omega))
    generalize R[0] = x0 at *
    generalize R[R.length - 1] = x1 at *
    push_cast [Nat.one_le_iff_ne_zero.2 (by omega : R.length ≠ 0), Nat.cast_sub hpos] at c1
    simp only [Nat.cast_zero, zero_mul, add_zero] at a1
    have hcase : k = -1 ∨ k = R.length ∨ (0 ≤ k ∧ k ≤ (R.length : ℤ) - 1) := by omega
    have hL : (R.length : ℤ) * s.step = ((R.length : ℤ) - 1) * s.step + s.step := by ring
    have hmid : 0 ≤ k → k ≤ (R.length : ℤ) - 1 → 0 ≤ s.start + k * s.step ∧ s.start + k * s.step < N := by
      intro g1 g2
      rcases lt_or_gt_of_ne h.step_ne with hs | hs
      · have e1 : ((R.length : ℤ) - 1) * s.step ≤ k * s.step := mul_le_mul_of_nonpos_right g2 hs.le
        have e2 : k * s.step ≤ 0 := mul_nonpos_of_nonneg_of_nonpos g1 hs.le
        omega
      · have e1 : k * s.step ≤ ((R.length : ℤ) - 1) * s.step := mul_le_mul_of_nonneg_right g2 hs.le
        have e2 : 0 ≤ k * s.step := mul_nonneg g1 hs.le
        omega
    rcases hcase with rfl | rfl | ⟨g1, g2⟩
    · have h5 : (-1 : ℤ) * s.step = - s.step := by ring
      rw [h5]
      refine ⟨fun hs => ⟨by omega, by omega, by omega, by omega⟩, fun hs => ⟨by omega, by omega, by omega, by omega⟩, ?_⟩
      rw [abs_neg]; omega
    · rw [hL]
      generalize ((R.length : ℤ) - 1) * s.step = q at *
      refine ⟨fun hs => ⟨by omega, by omega, by omega, by omega⟩, fun hs => ⟨by omega, by omega, by omega, by omega⟩, ?_⟩
      rcases abs_cases (q + s.step) with ⟨e, _⟩ | ⟨e, _⟩ <;> rcases abs_cases s.step with ⟨e', _⟩ | ⟨e', _⟩ <;>
        omega
    · have hm := hmid g1 g2
      generalize k * s.step = q at *
      refine ⟨fun hs => ⟨by omega, by omega, by omega, by omega⟩, fun hs => ⟨by omega, by omega, by omega, by omega⟩, ?_⟩
      rcases abs_cases q with ⟨e, _⟩ | ⟨e, _⟩ <;> rcases abs_cases s.step with ⟨e', _⟩ | ⟨e', _⟩ <;>
        omega

theorem Dim.index {N : ℕ} {s : Slice} {len : ℤ} {R : List ℤ} (h : Dim N s len R)
    (hN : (N : ℤ) ≤ intMax) {k : ℕ} {x : ℤ} (hx : R[k]? = some x) :
    (ck (k * s.step)).bind (fun r1 => ck (s.start + r1)) = some x := by
  obtain ⟨h1, h2, h3⟩ := h.get k x hx
  have hk : k < R.length := (List.getElem?_eq_some_iff.1 hx).1
  obtain ⟨a1, a2, a3⟩ := h.get 0 _ (List.getElem?_eq_getElem (by omega))
  generalize R[0] = x0 at *
  simp only [Nat.cast_zero, zero_mul, add_zero] at a1
  simp only [intMax] at hN
  generalize (k : ℤ) * s.step = q at *
  rw [ck_some (by simp only [intMin]; omega) (by simp only [intMax]; omega)]
  simp only [Option.bind_some]
  rw [ck_some (by simp only [intMin]; omega) (by simp only [intMax]; omega), h1]

theorem Dim.compose {N : ℕ} {s : Slice} {len : ℤ} {R : List ℤ} (h : Dim N s len R)
    {r : ℤ × Slice} {l R' : List ℤ} (hr : Adjusted R.length r l) (hp : Picks R l R')
    (hN : N + |r.2.step * s.step| ≤ intMax) :
    ∃ s', composeSlice s r.2 = some s' ∧ Dim N s' r.1 R' ∧ s'.step = r.2.step * s.step := by
  have hs1 : |s.step| ≤ |r.2.step * s.step| := by
    rw [abs_mul]
    have := Int.one_le_abs hr.step_ne
    nlinarith [abs_nonneg s.step]
  have hrange : ∀ k : ℤ, -1 ≤ k → k ≤ R.length →
      IsInt (k * s.step) ∧ IsInt (s.start + k * s.step) := by
    intro k g1 g2
    obtain ⟨p1, p2, p3⟩ := h.place g1 g2
    generalize k * s.step = q at *
    simp only [IsInt, intMin, intMax] at *
    obtain ⟨e1, e2⟩ := abs_le.1 p3
    refine ⟨⟨by omega, by omega⟩, ?_⟩
    rcases lt_or_gt_of_ne h.step_ne with hs | hs
    · have := p2 hs
      rw [abs_of_neg hs] at *
      constructor <;> omega
    · have := p1 hs
      rw [abs_of_pos hs] at *
      constructor <;> omega
  have hb : (-1 ≤ r.2.start ∧ r.2.start ≤ R.length) ∧ (-1 ≤ r.2.stop ∧ r.2.stop ≤ R.length) := by
    rcases lt_or_gt_of_ne hr.step_ne with hs | hs
    · have := hr.neg hs; omega
    · have := hr.pos hs; omega
  obtain ⟨i1, i2⟩ := hrange _ hb.1.1 hb.1.2
  obtain ⟨i3, i4⟩ := hrange _ hb.2.1 hb.2.2
  have hst0 : r.2.step * s.step ≠ 0 := mul_ne_zero hr.step_ne h.step_ne
  have hst : |r.2.step * s.step| ≤ intMax := by omega
  obtain ⟨t1, t2⟩ := abs_le.1 hst
  have hcs : codeStep (r.2.step * s.step) = r.2.step * s.step := by
    unfold codeStep
    rw [if_neg]
    simp only [intMax, intMin] at *; omega
  refine ⟨⟨s.start + r.2.start * s.step, s.start + r.2.stop * s.step, r.2.step * s.step⟩, ?_, ?_, rfl⟩
  · unfold composeSlice
    rw [ck_some i1.1 i1.2, ck_some i3.1 i3.2]
    simp only [Option.bind_eq_bind, Option.bind_some]
    rw [ck_some i2.1 i2.2, ck_some i4.1 i4.2, ck_some (by simp only [intMax, intMin] at *; omega) t2]
    simp only [Option.bind_some, Slice.mk3]
    rw [stepArg_eq (by simpa using hst0)]
    simp [hcs, startArg, stopArg]
  · refine ⟨by rw [hr.len, hp.1], ?_, hst0, hst, ?_, ?_⟩
    · intro k x hx
      have hk : k < l.length := by
        have := (List.getElem?_eq_some_iff.1 hx).1; rw [hp.1] at this; exact this
      obtain ⟨g1, g2⟩ := hp.2 k _ (List.getElem?_eq_getElem hk)
      obtain ⟨g3, -, g4⟩ := hr.get k _ (List.getElem?_eq_getElem hk)
      generalize l[k] = y at *
      rw [hx] at g2
      obtain ⟨g5, g6⟩ := h.get _ _ g2.symm
      refine ⟨?_, g6⟩
      rw [g5, Int.toNat_of_nonneg g1, g3]
      ring
    · intro hpos
      simp only at hpos ⊢
      rcases lt_or_gt_of_ne h.step_ne with hs | hs
      · have hr1 : r.2.step < 0 := by nlinarith
        obtain ⟨n1, n2, -, -⟩ := hr.neg hr1
        obtain ⟨-, p2, -⟩ := h.place (k := r.2.start) n1 (by omega)
        have := p2 hs
        have e1 : |r.2.step * s.step| = r.2.step * s.step := abs_of_pos hpos
        rw [abs_of_neg hs] at hs1
        refine ⟨this.2.2.2 (by omega), by omega⟩
      · have hr1 : 0 < r.2.step := by nlinarith
        obtain ⟨n1, n2, -, -⟩ := hr.pos hr1
        obtain ⟨p1, -, -⟩ := h.place (k := r.2.start) (by omega) (by omega)
        have := p1 hs
        have e1 : |r.2.step * s.step| = r.2.step * s.step := abs_of_pos hpos
        rw [abs_of_pos hs] at hs1
        refine ⟨this.2.2.1 (by omega), by omega⟩
    · intro hneg
      simp only at hneg ⊢
      have e1 : |r.2.step * s.step| = -(r.2.step * s.step) := abs_of_neg hneg
      rcases lt_or_gt_of_ne h.step_ne with hs | hs
      · have hr1 : 0 < r.2.step := by nlinarith
        obtain ⟨n1, n2, -, -⟩ := hr.pos hr1
        obtain ⟨-, p2, -⟩ := h.place (k := r.2.start) (by omega) (by omega)
        have := p2 hs
        rw [abs_of_neg hs] at hs1
        refine ⟨by omega, this.2.2.1 (by omega)⟩
      · have hr1 : r.2.step < 0 := by nlinarith
        obtain ⟨n1, n2, -, -⟩ := hr.neg hr1
        obtain ⟨p1, -, -⟩ := h.place (k := r.2.start) n1 (by omega)
        have := p1 hs
        rw [abs_of_pos hs] at hs1
        refine ⟨by omega, this.2.2.2 (by omega)⟩

end Slp.VMat
