import Verif.Python.PyIndexSpec
import Verif.Matrix.BlockProps

/-! Lemmas about the indexing functions of the Python bindings. -/

namespace Slp.Py

open Slp.Slicing Slp.VMat

variable {α β : Type}

theorem narrow_eq {z : ℤ} (h : IsInt z) : narrow z = z := by
  obtain ⟨h1, h2⟩ := h
  simp only [narrow, intMin, intMax] at *
  omega

theorem ck_isInt {z : ℤ} (h : IsInt z) : ck z = some z := ck_some h.1 h.2

/-- The integer clipped to an `int`. -/
def clip32 (z : ℤ) : ℤ := max intMin (min z intMax)

theorem clip32_isInt (z : ℤ) : IsInt (clip32 z) := by
  simp only [clip32, IsInt, intMin, intMax]; omega

/-- Clipping bounds to `int` does not change what they mean for a dimension whose size fits an `int`. -/
theorem pyIndices_clip (a b s : Option ℤ) {n : ℤ} (h0 : 0 ≤ n) (hn : n ≤ intMax) :
    pyIndices (a.map clip32) (b.map clip32) s n = pyIndices a b s n := by
  simp only [intMax] at hn
  simp only [pyIndices]
  have key : ∀ z lo up : ℤ, (lo = -1 ∨ lo = 0) → (up = n ∨ up = n - 1) →
      (if clip32 z < 0 then max (clip32 z + n) lo else min (clip32 z) up) =
        (if z < 0 then max (z + n) lo else min z up) := by
    intro z lo up h1 h2
    rcases lt_or_ge z 0 with hz | hz
    · have : clip32 z < 0 := by simp only [clip32, intMin, intMax]; omega
      rw [if_pos this, if_pos hz]
      simp only [clip32, intMin, intMax]; omega
    · have : ¬ clip32 z < 0 := by simp only [clip32, intMin, intMax]; omega
      rw [if_neg this, if_neg (by omega)]
      simp only [clip32, intMin, intMax]; omega
  have hlo : (if s.getD 1 < 0 then (-1 : ℤ) else 0) = -1 ∨ (if s.getD 1 < 0 then (-1 : ℤ) else 0) = 0 := by
    split <;> simp
  have hup : (if s.getD 1 < 0 then n - 1 else n) = n ∨ (if s.getD 1 < 0 then n - 1 else n) = n - 1 := by
    split <;> simp
  cases a <;> cases b <;> simp only [Option.map_none, Option.map_some, Option.elim] <;>
    simp only [key _ _ _ hlo hup]

theorem adjustBound_eq {z n s : ℤ} (h0 : 0 ≤ n) (hn : n ≤ intMax) :
    adjustBound (clip z) n s = if z < 0 then max (z + n) (if s < 0 then -1 else 0)
      else min z (if s < 0 then n - 1 else n) := by
  simp only [intMax] at hn
  simp only [adjustBound, clip, ssizeMax]
  split_ifs <;> omega

theorem clip_eq {z : ℤ} (h : IsInt z) : clip z = z := by
  obtain ⟨h1, h2⟩ := h
  simp only [clip, ssizeMax, intMin, intMax] at *
  omega

/-- `compute()` gives Python's start, stop and step, and the number of elements. -/
theorem compute_eq (a b : Option ℤ) {s : Option ℤ} {n : ℤ} (hs : s ≠ some 0) (hsi : IsInt (s.getD 1)) (h0 : 0 ≤ n)
    (hn : n ≤ intMax) :
    compute a b s n = some ((pyIndices a b s n).1, (pyIndices a b s n).2.1, s.getD 1,
      countOf (pyIndices a b s n).1 (pyIndices a b s n).2.1 (s.getD 1)) := by
  have hsd : s.getD 1 ≠ 0 := by
    cases s with
    | none => simp
    | some k => simpa using hs
  have he : s.elim 1 clip = s.getD 1 := by
    cases s with
    | none => rfl
    | some k => exact clip_eq hsi
  have hu : unpack a b s = some (a.elim (if s.getD 1 < 0 then ssizeMax else 0) clip,
      b.elim (if s.getD 1 < 0 then -ssizeMax - 1 else ssizeMax) clip, s.getD 1) := by
    have hlow : ¬ s.getD 1 < -ssizeMax := by
      have := hsi.1
      simp only [intMin] at this
      simp only [ssizeMax]; omega
    simp only [unpack, he, hsd, hlow, if_false]
  have h1 : adjustBound (a.elim (if s.getD 1 < 0 then ssizeMax else 0) clip) n (s.getD 1) =
      (pyIndices a b s n).1 := by
    cases a with
    | some z => exact adjustBound_eq h0 hn
    | none =>
        simp only [pyIndices, Option.elim, intMax] at *
        by_cases hneg : s.getD 1 < 0
        · simp only [adjustBound, hneg, if_true, ssizeMax]
          rw [if_neg (by omega), if_pos (by omega)]
        · simp only [adjustBound, hneg, if_false]
          rw [if_neg (by omega)]
          split <;> omega
  have h2 : adjustBound (b.elim (if s.getD 1 < 0 then -ssizeMax - 1 else ssizeMax) clip) n (s.getD 1) =
      (pyIndices a b s n).2.1 := by
    cases b with
    | some z => exact adjustBound_eq h0 hn
    | none =>
        simp only [pyIndices, Option.elim, intMax] at *
        by_cases hneg : s.getD 1 < 0
        · simp only [adjustBound, hneg, if_true, ssizeMax]
          rw [if_pos (by omega), if_pos (by omega)]
        · simp only [adjustBound, hneg, if_false, ssizeMax]
          rw [if_neg (by omega), if_pos (by omega)]
  simp only [compute, hu, Option.map_some, h1, h2]
  rfl

/-- Replacing the smallest `int` as a step does not change the number of elements. -/
theorem countOf_codeStep {a b s n : ℤ} (hn : n ≤ intMax)
    (h : s < 0 → -1 ≤ a ∧ a ≤ n - 1 ∧ -1 ≤ b ∧ b ≤ n - 1) : countOf a b (codeStep s) = countOf a b s := by
  unfold codeStep
  split
  · rename_i he
    have := h (by rw [he]; decide)
    subst he
    simp only [intMax] at hn
    have h1 : (-intMax : ℤ) < 0 := by decide
    have h2 : intMin < 0 := by decide
    simp only [countOf, h1, h2, if_true]
    split
    · rw [Int.ediv_eq_zero_of_lt (by omega) (by simp only [intMax]; omega),
        Int.ediv_eq_zero_of_lt (by omega) (by simp only [intMin]; omega)]
    · rfl
  · rfl

theorem countOf_isInt {a b s n : ℤ} (hs : s ≠ 0) (h0 : 0 ≤ n) (hn : n ≤ intMax)
    (h1 : s < 0 → -1 ≤ a ∧ a ≤ n - 1 ∧ -1 ≤ b ∧ b ≤ n - 1)
    (h2 : ¬ s < 0 → 0 ≤ a ∧ a ≤ n ∧ 0 ≤ b ∧ b ≤ n) : IsInt (countOf a b s) := by
  have hnn := countOf_nonneg (a := a) (b := b) hs
  refine ⟨by simp only [intMin]; omega, ?_⟩
  unfold countOf
  by_cases hneg : s < 0
  · simp only [hneg, if_true]
    split
    · have := Int.ediv_le_self (a := a - b - 1) (-s) (by omega)
      have := h1 hneg
      omega
    · omega
  · simp only [hneg, if_false]
    split
    · have := Int.ediv_le_self (a := b - a - 1) s (by omega)
      have := h2 hneg
      omega
    · omega

theorem PyIndex.StepFits.slice {a b s : Option ℤ} (h : (PyIndex.slice a b s).StepFits) : IsInt (s.getD 1) := by
  cases s with
  | none => exact ⟨by decide, by decide⟩
  | some k => exact h

theorem single_eq {n start : ℤ} (h0 : 0 ≤ start) (h : start < n) (hn : n ≤ intMax) :
    single start = .ok (⟨start, start + 1, 1⟩, 1) := by
  simp only [intMax] at hn
  have h1 : ck (start + 1) = some (start + 1) := ck_some (by simp only [intMin]; omega) (by simp only [intMax]; omega)
  simp only [single, h1, Option.bind_some, Slice.mk2, Slice.mk3]
  rw [stepArg_eq (by simp)]
  rfl

theorem single_adjusted {n start : ℕ} (h : start < n) :
    Adjusted n (1, ⟨start, (start : ℤ) + 1, 1⟩) [(start : ℤ)] := by
  refine ⟨rfl, ?_, one_ne_zero, ?_, fun hh => ?_, fun _ => ?_⟩
  · intro k x hx
    obtain ⟨h1, h2⟩ := List.getElem?_eq_some_iff.1 hx
    simp only [List.length_singleton, Nat.lt_one_iff] at h1
    subst h1
    simp only [List.getElem_cons_zero] at h2
    subst h2
    refine ⟨by simp, by omega, by omega⟩
  · simp only [abs_one, intMax]; omega
  · exact absurd hh (by simp only; omega)
  · simp only
    refine ⟨by omega, by omega, by omega, by omega⟩

theorem elem_int {n i : ℤ} (h : IsInt i) : elemSlice n (.int i) = single (wrap n i) := by
  have h1 : castInt i = .ok i := if_pos h
  simp only [elemSlice, h1, Out.bind]

theorem isInt_of_lt {n i : ℕ} (hn : (n : ℤ) ≤ intMax) (hi : i ≤ n) : IsInt (i : ℤ) ∧ IsInt (-(i : ℤ)) := by
  simp only [IsInt, intMin, intMax] at *; omega

theorem wrap_front (n : ℤ) (i : ℕ) : wrap n i = i := if_neg (by omega)

theorem wrap_back {n k : ℕ} (hk : 0 < k) (hkn : k ≤ n) : wrap n (-(k : ℤ)) = ((n - k : ℕ) : ℤ) := by
  rw [wrap, if_pos (by omega)]; omega

theorem elem_front {n i : ℕ} (hn : (n : ℤ) ≤ intMax) (hi : i < n) :
    elemSlice n (.int i) = .ok (⟨i, (i : ℤ) + 1, 1⟩, 1) := by
  rw [elem_int (isInt_of_lt hn hi.le).1, wrap_front]
  exact single_eq (by omega) (by omega : (i : ℤ) < n) hn

theorem elem_back {n k : ℕ} (hn : (n : ℤ) ≤ intMax) (hk : 0 < k) (hkn : k ≤ n) :
    elemSlice n (.int (-(k : ℤ))) = .ok (⟨((n - k : ℕ) : ℤ), ((n - k : ℕ) : ℤ) + 1, 1⟩, 1) := by
  rw [elem_int (isInt_of_lt hn hkn).2, wrap_back hk hkn]
  exact single_eq (by omega) (by omega : ((n - k : ℕ) : ℤ) < n) hn

theorem elem_slice {n : ℕ} {a b s : Option ℤ} {l : List ℤ} (hn : (n : ℤ) ≤ intMax) (hsi : IsInt (s.getD 1))
    (hs : s ≠ some 0) (hsel : PySelects a b s n l) :
    ∃ r, elemSlice n (.slice a b s) = .ok r ∧ Adjusted n (r.2, r.1) l ∧ r.1.step = codeStep (s.getD 1) := by
  have hn0 : (0 : ℤ) ≤ n := by omega
  have hsd : s.getD 1 ≠ 0 := by
    cases s with
    | none => simp
    | some k => simpa using hs
  have hv : (SliceArg.range (a.map clip32) (b.map clip32) s).Valid := by
    refine ⟨?_, ?_, ?_⟩
    · intro z hz
      obtain ⟨y, -, rfl⟩ := Option.map_eq_some_iff.1 hz
      exact clip32_isInt y
    · intro z hz
      obtain ⟨y, -, rfl⟩ := Option.map_eq_some_iff.1 hz
      exact clip32_isInt y
    · rintro z rfl
      exact ⟨hsi, by simpa using hs⟩
  have hsel' : (SliceArg.range (a.map clip32) (b.map clip32) s).Selects n l := by
    simp only [SliceArg.Selects, PySelects]
    rw [pyIndices_clip a b s hn0 hn]
    exact hsel
  obtain ⟨r, hr, ha, hst⟩ := SliceArg.adjusted hv hn hsel'
  obtain ⟨v1, v2, v3⟩ := SliceArg.triple_valid hv
  have hadj := adjust_eq v1 v2 v3 hn0 hn
  rw [SliceArg.toSlice_eq hv] at hr
  have hrr := Option.some_injective _ (hr.symm.trans hadj)
  simp only [SliceArg.triple] at hrr
  rw [pyIndices_clip a b s hn0 hn] at hrr
  obtain ⟨b1, b2⟩ := pyIndices_bounds a b s hn0
  rw [countOf_codeStep hn b1] at hrr
  refine ⟨(r.2, r.1), ?_, ha, hst⟩
  have hI := countOf_isInt hsd hn0 hn b1 b2
  have hx : IsInt (pyIndices a b s n).1 ∧ IsInt (pyIndices a b s n).2.1 := by
    simp only [IsInt, intMin, intMax] at *
    by_cases hneg : s.getD 1 < 0
    · have := b1 hneg; omega
    · have := b2 hneg; omega
  simp only [elemSlice, compute_eq a b hs hsi hn0 hn, sliceOf64]
  rw [if_pos hsd, narrow_eq hsi, narrow_eq hx.1, narrow_eq hx.2, narrow_eq hI, hrr]
  simp only [Option.map_some, Out.ofCpp, codeStep]

/-- What one index of a dimension gives: a slice that names the positions NumPy selects. -/
theorem elem_adjusted {n : ℕ} {e : PyIndex} {l : List ℤ} (hn : (n : ℤ) ≤ intMax) (hf : e.StepFits)
    (h : NpSelects n e l) :
    ∃ r, elemSlice n e = .ok r ∧ Adjusted n (r.2, r.1) l ∧ r.1.step = codeStep e.step := by
  have h1c : (1 : ℤ) = codeStep 1 := by decide
  cases h with
  | front hi => exact ⟨_, elem_front hn hi, single_adjusted hi, h1c⟩
  | back hk hkn => exact ⟨_, elem_back hn hk hkn, single_adjusted (by omega), h1c⟩
  | slice hs hsel => exact elem_slice hn hf.slice hs hsel

theorem elemRow_eq {n : ℕ} {e : PyIndex} (h : e.NotNegative) : elemSliceRowGet n e = elemSlice n e := by
  cases e with
  | int i =>
      simp only [elemSliceRowGet, elemSlice, castInt]
      split
      · simp only [Out.bind, wrap]
        rw [if_neg (not_lt.2 h)]
      · rfl
  | slice a b s => rfl
  | other => rfl

theorem bothInts_none {e f : PyIndex} (h : e.IsSlice ∨ f.IsSlice) : bothInts e f = none := by
  rcases h with h | h
  · cases e <;> first | exact h.elim | rfl
  · cases f <;> first | exact h.elim | (cases e <;> rfl)

theorem NpSelects.step_ne {n : ℕ} {e : PyIndex} {l : List ℤ} (h : NpSelects n e l) : e.step ≠ 0 := by
  cases h with
  | front => exact one_ne_zero
  | back => exact one_ne_zero
  | @slice a b s l hs _ =>
      cases s with
      | none => exact one_ne_zero
      | some k => simpa [PyIndex.step] using hs

theorem NpChain.prod_ne {R C R' C' : List ℤ} {es : List (PyIndex × PyIndex)} (h : NpChain R C es R' C') :
    (es.map fun e => e.1.step).prod ≠ 0 ∧ (es.map fun e => e.2.step).prod ≠ 0 := by
  induction h with
  | nil => simp
  | cons h1 h2 _ _ _ ih =>
      simp only [List.map_cons, List.prod_cons]
      exact ⟨mul_ne_zero h1.step_ne ih.1, mul_ne_zero h2.step_ne ih.2⟩

theorem adjusted_mem {n : ℕ} {r : ℤ × Slice} {l : List ℤ} (h : Adjusted n r l) : ∀ x ∈ l, 0 ≤ x ∧ x < n := by
  intro x hx
  obtain ⟨k, hk⟩ := List.getElem?_of_mem hx
  exact (h.get k x hk).2

/-- One subscript of a matrix names what NumPy selects. -/
theorem rawBlock_names {N M : ℕ} {e f : PyIndex} {lr lc R C : List ℤ} (hN : (N : ℤ) ≤ intMax)
    (hM : (M : ℤ) ≤ intMax) (he : e.StepFits) (hf : f.StepFits) (hr : NpSelects N e lr) (hc : NpSelects M f lc)
    (pr : Picks (allOf N) lr R) (pc : Picks (allOf M) lc C) :
    ∃ r c, elemSlice N e = .ok r ∧ elemSlice M f = .ok c ∧ Names N M (rawBlock r c) R C ∧
      (rawBlock r c).rowSlice.step = codeStep e.step ∧ (rawBlock r c).colSlice.step = codeStep f.step := by
  obtain ⟨r, e1, a1, s1⟩ := elem_adjusted hN he hr
  obtain ⟨c, e2, a2, s2⟩ := elem_adjusted hM hf hc
  have hR : R = lr := picks_allOf_eq (adjusted_mem a1) pr
  have hC : C = lc := picks_allOf_eq (adjusted_mem a2) pc
  subst hR hC
  exact ⟨r, c, e1, e2, ⟨a1.dim, a2.dim⟩, s1, s2⟩

theorem codeStep_room {s t K : ℤ} (hK : 0 ≤ K) (ht : t ≠ 0) (h : K + |s * t| ≤ intMax) : codeStep s = s := by
  unfold codeStep
  split
  · rename_i he
    rw [he, abs_mul] at h
    have h1 := Int.one_le_abs ht
    have h2 : |intMin| = 2147483648 := by decide
    rw [h2] at h
    simp only [intMax] at h
    omega
  · rfl

/-- One subscript of a block names what NumPy selects of it. -/
theorem rawSub_names {N M : ℕ} {b : Block} {R C : List ℤ} (hb : Names N M b R C) {e f : PyIndex}
    {lr lc R' C' : List ℤ} (hN : N + |e.step * b.rowSlice.step| ≤ intMax)
    (hM : M + |f.step * b.colSlice.step| ≤ intMax) (he : e.StepFits) (hf : f.StepFits)
    (hr : NpSelects R.length e lr) (hc : NpSelects C.length f lc) (pr : Picks R lr R') (pc : Picks C lc C') :
    ∃ r c b', elemSlice b.rows e = .ok r ∧ elemSlice b.cols f = .ok c ∧ rawSub b r c = some b' ∧ Names N M b' R' C' ∧
      b'.rowSlice.step = e.step * b.rowSlice.step ∧ b'.colSlice.step = f.step * b.colSlice.step := by
  have l1 := hb.row.length_le
  have l2 := hb.col.length_le
  have n1 := abs_nonneg (e.step * b.rowSlice.step)
  have n2 := abs_nonneg (f.step * b.colSlice.step)
  obtain ⟨r, e1, a1, s1⟩ := elem_adjusted (by omega) he hr
  obtain ⟨c, e2, a2, s2⟩ := elem_adjusted (by omega) hf hc
  rw [codeStep_room (by omega) hb.row.step_ne hN] at s1
  rw [codeStep_room (by omega) hb.col.step_ne hM] at s2
  obtain ⟨rs, q1, d1, t1⟩ := hb.row.compose a1 pr (by simp only [s1]; exact hN)
  obtain ⟨cs, q2, d2, t2⟩ := hb.col.compose a2 pc (by simp only [s2]; exact hM)
  refine ⟨r, c, ⟨rs, r.2, cs, c.2⟩, by rw [hb.row.len]; exact e1, by rw [hb.col.len]; exact e2, ?_, ⟨d1, d2⟩, ?_, ?_⟩
  · simp only [rawSub]
    simp only at q1 q2
    rw [q1, q2]
    rfl
  · simpa only [s1] using t1
  · simpa only [s2] using t2

/-- The subscripts after the first. -/
theorem rest_names {N M : ℕ} {R C R' C' : List ℤ} {es : List (PyIndex × PyIndex)} (h : NpChain R C es R' C')
    (A : Mat α) {b : Block} (hb : Names N M b R C) (hs : ∀ e ∈ es, e.1.IsSlice ∨ e.2.IsSlice)
    (hf : ∀ e ∈ es, e.1.StepFits ∧ e.2.StepFits)
    (hN : es ≠ [] → N + |b.rowSlice.step * (es.map fun e => e.1.step).prod| ≤ intMax)
    (hM : es ≠ [] → M + |b.colSlice.step * (es.map fun e => e.2.step).prod| ≤ intMax) :
    ∃ b', es.foldl (fun o e => o.bind fun
      | .block b => blockGetItem b A [e.1, e.2]
      | .var _ => .raised) (Out.ok (Item.block b)) = .ok (.block b') ∧ Names N M b' R' C' := by
  induction h generalizing b with
  | nil => exact ⟨b, rfl, hb⟩
  | @cons R C e f lr lc R1 C1 R2 C2 es h1 h2 p1 p2 hrest ih =>
      have hN := hN (by simp)
      have hM := hM (by simp)
      simp only [List.map_cons, List.prod_cons] at hN hM
      obtain ⟨z1, z2⟩ := hrest.prod_ne
      have k1 : b.rowSlice.step * (e.step * (es.map fun e => e.1.step).prod) =
        (e.step * b.rowSlice.step) * (es.map fun e => e.1.step).prod := by ring
      have k2 : b.colSlice.step * (f.step * (es.map fun e => e.2.step).prod) =
        (f.step * b.colSlice.step) * (es.map fun e => e.2.step).prod := by ring
      rw [k1] at hN
      rw [k2] at hM
      have q1 := abs_le_abs_mul (a := e.step * b.rowSlice.step) z1
      have q2 := abs_le_abs_mul (a := f.step * b.colSlice.step) z2
      obtain ⟨f1, f2⟩ := hf (e, f) (by simp)
      obtain ⟨r, c, b1, e1, e2, e3, hn1, t1, t2⟩ := rawSub_names (e := e) (f := f) hb (by omega) (by omega) f1 f2 h1 h2 p1 p2
      obtain ⟨b2, g1, g2⟩ := ih hn1 (fun x hx => hs x (by simp [hx])) (fun x hx => hf x (by simp [hx]))
        (fun _ => by rw [t1]; exact hN) (fun _ => by rw [t2]; exact hM)
      refine ⟨b2, ?_, g2⟩
      rw [List.foldl_cons, ← g1]
      congr 1
      simp only [Out.bind, blockGetItem, bothInts_none (hs (e, f) (by simp)), e1, e2, e3, Out.ofCpp]

end Slp.Py
