import Verif.Util.DiagModel
import Mathlib.Tactic.Linarith
import Mathlib.Tactic.FieldSimp
import Mathlib.Tactic.IntervalCases

/-! C46: diagnostics. -/

namespace Slp.Diag

open Slp (Fl)

/-! ### Powers of ten -/

/-- The digit a superscript stands for. -/
def superDigit (c : Char) : Option ℕ :=
  if c = '⁰' then some 0 else if c = '¹' then some 1 else if c = '²' then some 2 else if c = '³' then some 3
  else if c = '⁴' then some 4 else if c = '⁵' then some 5 else if c = '⁶' then some 6 else if c = '⁷' then some 7
  else if c = '⁸' then some 8 else if c = '⁹' then some 9 else none

/-- The natural number that superscripts denote. -/
def superNat : ℕ → List Char → Option ℕ
  | acc, [] => some acc
  | acc, c :: l => (superDigit c).bind fun d => superNat (10 * acc + d) l

/-- The number that a text denotes, as people read it. -/
noncomputable def readPower : List Char → Option ℝ
  | [' ', '0'] => some 0
  | [' ', '1'] => some 1
  | ['1', '0'] => some 10
  | '1' :: '0' :: '⁻' :: l => (superNat 0 l).map fun n => ((10 : ℝ) ^ n)⁻¹
  | '1' :: '0' :: l => (superNat 0 l).map fun n => (10 : ℝ) ^ n
  | _ => none

theorem superDigit_superscripts {d : ℕ} (h : d < 10) : superDigit (superscripts[d]?.getD '?') = some d := by
  interval_cases d <;> decide

theorem superNat_append (a b : List Char) (acc : ℕ) :
    superNat acc (a ++ b) = (superNat acc a).bind fun n => superNat n b := by
  induction a generalizing acc with
  | nil => rfl
  | cons c l ih =>
    simp only [List.cons_append, superNat]
    cases superDigit c with
    | none => rfl
    | some d => simp only [Option.bind_some, ih]

theorem superNat_digits (n : ℕ) :
    superNat 0 ((digitsLoop n).reverse.map fun d => superscripts[d]?.getD '?') = some n := by
  induction n using Nat.strong_induction_on with
  | _ n ih =>
    rw [digitsLoop]
    split
    · rename_i h
      simp only [List.reverse_cons, List.map_append, List.map_cons, List.map_nil]
      rw [superNat_append, ih (n / 10) (by omega)]
      simp only [Option.bind_some, superNat, superDigit_superscripts (Nat.mod_lt n (by norm_num : 10 > 0))]
      congr 1; omega
    · simp only [List.reverse_cons, List.reverse_nil, List.nil_append, List.map_cons, List.map_nil, superNat,
        superDigit_superscripts (Nat.mod_lt n (by norm_num : 10 > 0)), Option.bind_some]
      congr 1; omega

theorem digitsLoop_ne (n : ℕ) : digitsLoop n ≠ [] := by
  rw [digitsLoop]; simp

theorem digits_head (n : ℕ) : ∃ c l, ((digitsLoop n).reverse.map fun d => superscripts[d]?.getD '?') = c :: l ∧
    c ≠ '⁻' := by
  have h := superNat_digits n
  cases hl : ((digitsLoop n).reverse.map fun d => superscripts[d]?.getD '?') with
  | nil =>
    have := digitsLoop_ne n
    simp at hl
    exact absurd hl this
  | cons c l =>
    refine ⟨c, l, rfl, ?_⟩
    rintro rfl
    rw [hl] at h
    simp [superNat, superDigit] at h

/-- C46: the text of a power of ten denotes that power. -/
theorem powerText_correct (e : ℤ) : readPower (powerText e) = some ((10 : ℝ) ^ e) := by
  unfold powerText
  by_cases h0 : e = 0
  · rw [if_pos h0, h0]; simp [readPower]
  rw [if_neg h0]
  by_cases h1 : e = 1
  · rw [if_pos h1, h1]; simp [readPower]
  rw [if_neg h1]
  obtain ⟨c, l, hc, hne⟩ := digits_head e.natAbs
  have hs := superNat_digits e.natAbs
  rw [hc] at hs ⊢
  by_cases hn : e < 0
  · rw [if_pos hn]
    simp only [List.cons_append, List.nil_append]
    have : readPower ('1' :: '0' :: '⁻' :: c :: l) = (superNat 0 (c :: l)).map fun n => ((10 : ℝ) ^ n)⁻¹ := by
      simp [readPower]
    rw [this, hs]
    simp only [Option.map_some]
    congr 1
    rw [← zpow_natCast, ← zpow_neg]
    congr 1; omega
  · rw [if_neg hn]
    simp only [List.cons_append, List.nil_append]
    have : readPower ('1' :: '0' :: c :: l) = (superNat 0 (c :: l)).map fun n => (10 : ℝ) ^ n := by
      simp [readPower, hne]
    rw [this, hs]
    simp only [Option.map_some]
    congr 1
    rw [← zpow_natCast]
    congr 1; omega

/-- C46: a positive number whose exponent fits is shown as the power of ten next to it in the direction of 1; powers of
ten are shown exactly. -/
theorem powerOf10_correct {x : ℝ} (hx : 0 < x) (hr : -2147483648 < Real.logb 10 x ∧ Real.logb 10 x < 2147483648) :
    ∃ text p, powerOf10 (.fin x) = some text ∧ readPower text = some p ∧
      (1 ≤ x → p ≤ x ∧ x < 10 * p) ∧ (x < 1 → p / 10 < x ∧ x ≤ p) ∧ ∀ e : ℤ, x = 10 ^ e → p = x := by
  have h10 : (1 : ℝ) < 10 := by norm_num
  have hl : log10 (.fin x) = .fin (Real.logb 10 x) := if_pos hx
  have hxl : x = 10 ^ Real.logb 10 x := (Real.rpow_logb (by norm_num) (by norm_num) hx).symm
  have hz : ∀ n : ℤ, (10 : ℝ) ^ n = (10 : ℝ) ^ (n : ℝ) := fun n => (Real.rpow_intCast 10 n).symm
  have key : ∀ n : ℤ, n = (if 0 ≤ Real.logb 10 x then ⌊Real.logb 10 x⌋ else ⌈Real.logb 10 x⌉) →
      powerOf10 (.fin x) = some (powerText n) := by
    intro n hn
    unfold powerOf10
    rw [if_neg (by intro h; injection h with h; exact hx.ne' h), hl]
    unfold toInt
    simp only [← hn]
    rw [if_pos]
    · rfl
    · rw [hn]
      split
      · constructor
        · apply Int.le_floor.2; push_cast; linarith [hr.1]
        · have : ⌊Real.logb 10 x⌋ < 2147483648 := Int.floor_lt.2 (by exact_mod_cast hr.2)
          omega
      · constructor
        · have : -2147483648 < ⌈Real.logb 10 x⌉ := Int.lt_ceil.2 (by exact_mod_cast hr.1)
          omega
        · apply Int.ceil_le.2; push_cast; linarith
  refine ⟨_, _, key _ rfl, powerText_correct _, fun h => ?_, fun h => ?_, fun e he => ?_⟩
  · have h0 : 0 ≤ Real.logb 10 x := Real.logb_nonneg h10 h
    rw [if_pos h0, hz]
    constructor
    · conv_rhs => rw [hxl]
      exact Real.rpow_le_rpow_of_exponent_le h10.le (Int.floor_le _)
    · conv_lhs => rw [hxl]
      have : (10 : ℝ) * 10 ^ ((⌊Real.logb 10 x⌋ : ℤ) : ℝ) = 10 ^ ((⌊Real.logb 10 x⌋ : ℝ) + 1) := by
        rw [Real.rpow_add (by norm_num), Real.rpow_one]; ring
      rw [this]
      exact Real.rpow_lt_rpow_of_exponent_lt h10 (Int.lt_floor_add_one _)
  · have h0 : Real.logb 10 x < 0 := Real.logb_neg h10 hx h
    rw [if_neg (not_le.2 h0), hz]
    constructor
    · conv_rhs => rw [hxl]
      have : (10 : ℝ) ^ ((⌈Real.logb 10 x⌉ : ℤ) : ℝ) / 10 = 10 ^ ((⌈Real.logb 10 x⌉ : ℝ) - 1) := by
        rw [Real.rpow_sub (by norm_num), Real.rpow_one]
      rw [this]
      apply Real.rpow_lt_rpow_of_exponent_lt h10
      linarith [Int.ceil_lt_add_one (Real.logb 10 x)]
    · conv_lhs => rw [hxl]
      exact Real.rpow_le_rpow_of_exponent_le h10.le (Int.le_ceil _)
  · have : Real.logb 10 x = e := by
      rw [he, hz, Real.logb_rpow (by norm_num) (by norm_num)]
    rw [this, Int.floor_intCast, Int.ceil_intCast, ite_self, ← he]

/-- Zero is shown as zero. -/
theorem powerOf10_zero : powerOf10 (.fin 0) = some [' ', '0'] ∧ readPower [' ', '0'] = some 0 := by
  refine ⟨by simp [powerOf10], rfl⟩

/-- For negative numbers, infinities and NaN the conversion of the exponent is undefined behaviour. -/
theorem powerOf10_undefined {v : Fl} (h : (∃ x < 0, v = .fin x) ∨ v = .pinf ∨ v = .ninf ∨ v = .nan) :
    powerOf10 v = none := by
  rcases h with ⟨x, hx, rfl⟩ | rfl | rfl | rfl
  · unfold powerOf10 log10
    rw [if_neg (by intro h; injection h with h; exact hx.ne h)]
    simp [not_lt.2 hx.le, hx.ne, toInt]
  all_goals simp [powerOf10, log10, toInt]

theorem digits_length {n : ℕ} (h : n < 100) : (digitsLoop n).length ≤ 2 := by
  rw [digitsLoop]
  split
  · rw [digitsLoop]
    rw [dif_neg (by omega)]
    simp
  · simp

/-- C46: the text of powers from 10⁻⁹⁹ to 10⁹⁹ fits the column of five characters. -/
theorem powerText_width {e : ℤ} (h : e.natAbs < 100) : (powerText e).length ≤ 5 := by
  unfold powerText
  split
  · simp
  split
  · simp
  have := digits_length h
  split <;> simp <;> omega

/-! ### Histograms -/

/-- The eighths of a character that are filled. -/
def filled (c : Char) : ℕ :=
  if c = '▏' then 1 else if c = '▎' then 2 else if c = '▍' then 3 else if c = '▌' then 4 else if c = '▋' then 5
  else if c = '▊' then 6 else if c = '▉' then 7 else if c = '█' then 8 else 0

theorem filled_blocks {k : ℕ} (h : k < 9) : filled (blocks[k]?.getD '?') = k := by
  interval_cases k <;> decide

theorem toInt_eighths {y : ℝ} (h0 : 0 ≤ y) (h1 : y < 8) : toInt (.fin y) = some ⌊y⌋ := by
  have h : toInt (.fin y) = if -2147483648 ≤ ⌊y⌋ ∧ ⌊y⌋ ≤ 2147483647 then some ⌊y⌋ else none := by
    simp only [toInt, if_pos h0]
  rw [h]
  have a : 0 ≤ ⌊y⌋ := Int.floor_nonneg.2 h0
  have b : ⌊y⌋ < 8 := Int.floor_lt.2 (by exact_mod_cast h1)
  rw [if_pos ⟨by omega, by omega⟩]

/-- C46: for every value but NaN, the histogram has exactly the requested number of characters, and its filled part is
the value rounded down to an eighth of a character. -/
theorem histogram_correct {width : ℕ} (hw : 0 < width) {value : Fl} (hv : value ≠ .nan) :
    ∃ v text, clamp01 value = .fin v ∧ 0 ≤ v ∧ v ≤ 1 ∧ histogram width value = some text ∧ text.length = width ∧
      ((text.map filled).sum : ℤ) = ⌊8 * width * v⌋ := by
  obtain ⟨v, hc, h0, h1⟩ : ∃ v, clamp01 value = .fin v ∧ 0 ≤ v ∧ v ≤ 1 := by
    unfold clamp01
    cases value with
    | nan => exact absurd rfl hv
    | pinf =>
      rw [if_neg (show ¬ Fl.pinf < Fl.fin 0 from id), if_pos (show Fl.fin 1 < Fl.pinf from trivial)]
      exact ⟨1, rfl, by norm_num, le_rfl⟩
    | ninf =>
      rw [if_pos (show Fl.ninf < Fl.fin 0 from trivial)]
      exact ⟨0, rfl, le_rfl, by norm_num⟩
    | fin x =>
      by_cases ha : x < 0
      · rw [if_pos ((Fl.fin_lt x 0).2 ha)]; exact ⟨0, rfl, le_rfl, by norm_num⟩
      rw [if_neg (by rwa [Fl.fin_lt])]
      by_cases hb : 1 < x
      · rw [if_pos ((Fl.fin_lt 1 x).2 hb)]; exact ⟨1, rfl, by norm_num, le_rfl⟩
      rw [if_neg (by rwa [Fl.fin_lt])]
      exact ⟨x, rfl, not_lt.1 ha, not_lt.1 hb⟩
  set x := v * width with hx
  have hx0 : 0 ≤ x := by positivity
  have hxw : x ≤ width := by
    rw [hx]; exact mul_le_of_le_one_left (by positivity) h1
  have hf0 : 0 ≤ x - ⌊x⌋ := by linarith [Int.floor_le x]
  have hf1 : x - ⌊x⌋ < 1 := by linarith [Int.lt_floor_add_one x]
  have hi : histogram width value = some (histogramText width ⌊x⌋.toNat ⌊(x - ⌊x⌋) * 8⌋.toNat) := by
    unfold histogram
    rw [hc]
    simp only
    rw [toInt_eighths (by positivity) (by linarith)]
    rfl
  have hfl : 0 ≤ ⌊x⌋ := Int.floor_nonneg.2 hx0
  have hp0 : 0 ≤ ⌊(x - ⌊x⌋) * 8⌋ := Int.floor_nonneg.2 (by positivity)
  have hp8 : ⌊(x - ⌊x⌋) * 8⌋ < 8 := Int.floor_lt.2 (by push_cast; linarith)
  have hsum : ⌊8 * width * v⌋ = 8 * ⌊x⌋ + ⌊(x - ⌊x⌋) * 8⌋ := by
    rw [show (8 : ℝ) * width * v = ((8 * ⌊x⌋ : ℤ) : ℝ) + (x - ⌊x⌋) * 8 by rw [hx]; push_cast; ring, Int.floor_intCast_add]
  have hle : ⌊x⌋.toNat + (if ⌊(x - ⌊x⌋) * 8⌋.toNat > 0 then 1 else 0) ≤ width := by
    have hxi : ⌊x⌋ ≤ (width : ℤ) := by
      have : ⌊x⌋ ≤ ⌊((width : ℤ) : ℝ)⌋ := Int.floor_le_floor (by exact_mod_cast hxw)
      rwa [Int.floor_intCast] at this
    split
    · rename_i hpos
      have : ⌊x⌋ ≠ (width : ℤ) := by
        intro he
        have hxe : x = width := le_antisymm hxw (by
          have := Int.floor_le x
          rw [he] at this
          exact_mod_cast this)
        have : ⌊(x - ⌊x⌋) * 8⌋ = 0 := by rw [he, hxe]; simp
        omega
      omega
    · omega
  refine ⟨v, _, hc, h0, h1, hi, ?_, ?_⟩
  · unfold histogramText
    simp only [List.length_append, List.length_replicate]
    split at hle
    · rename_i hpos; rw [if_pos hpos]; simp only [List.length_cons, List.length_nil]; omega
    · rename_i hpos; rw [if_neg hpos]; simp only [List.length_nil]; omega
  · rw [hsum]
    unfold histogramText
    simp only [List.map_append, List.map_replicate, List.sum_append, List.sum_replicate, filled_blocks (by norm_num : 8 < 9),
      filled_blocks (by norm_num : 0 < 9), smul_eq_mul, mul_zero, add_zero]
    by_cases hpos : ⌊(x - ⌊x⌋) * 8⌋.toNat > 0
    · rw [if_pos hpos]
      simp only [List.map_cons, List.map_nil, List.sum_cons, List.sum_nil, add_zero]
      rw [filled_blocks (by omega)]
      push_cast
      omega
    · rw [if_neg hpos]
      simp only [List.map_nil, List.sum_nil, add_zero]
      push_cast
      omega

/-- For NaN the histogram is undefined behaviour. The shares are never NaN: `shares_correct`. -/
theorem histogram_nan (width : ℕ) : histogram width .nan = none := by
  unfold histogram clamp01
  rw [if_neg (show ¬ Fl.nan < Fl.fin 0 from id), if_neg (show ¬ Fl.fin 1 < Fl.nan from id)]

/-! ### Times -/

/-- C46: times are shown in milliseconds, rounded down to a microsecond. -/
theorem toMs_correct {ns : ℤ} (h : 0 ≤ ns) : toMs ns ≤ ns / 1000000 ∧ (ns : ℝ) / 1000000 < toMs ns + 1 / 1000 ∧
    ∃ n : ℤ, toMs ns = n / 1000 := by
  unfold toMs
  have h1 : ns.tdiv 1000 = ns / 1000 := Int.tdiv_eq_ediv_of_nonneg h
  have h2 : (ns / 1000) * 1000 ≤ ns := by omega
  have h3 : ns < (ns / 1000 + 1) * 1000 := by omega
  have h2' : ((ns / 1000 : ℤ) : ℝ) * 1000 ≤ ns := by exact_mod_cast h2
  have h3' : (ns : ℝ) < (((ns / 1000 : ℤ) : ℝ) + 1) * 1000 := by exact_mod_cast h3
  rw [h1]
  refine ⟨by linarith, by linarith, _, rfl⟩

theorem toMs_nonneg {ns : ℤ} (h : 0 ≤ ns) : 0 ≤ toMs ns := by
  unfold toMs
  have : 0 ≤ ns.tdiv 1000 := Int.tdiv_nonneg h (by norm_num)
  have : (0 : ℝ) ≤ (ns.tdiv 1000 : ℤ) := by exact_mod_cast this
  positivity

theorem toMs_mono {a b : ℤ} (h0 : 0 ≤ a) (h : a ≤ b) : toMs a ≤ toMs b := by
  unfold toMs
  have : a.tdiv 1000 ≤ b.tdiv 1000 := by
    rw [Int.tdiv_eq_ediv_of_nonneg h0, Int.tdiv_eq_ediv_of_nonneg (h0.trans h)]
    exact Int.ediv_le_ediv (by norm_num) h
  have : ((a.tdiv 1000 : ℤ) : ℝ) ≤ (b.tdiv 1000 : ℤ) := by exact_mod_cast this
  linarith

/-- C46: the first profiler is shown with 100%, and profilers that did not take longer with at most 100%, whatever the
durations. -/
theorem shares_correct (first : ℤ) (rest : List ℤ) (h0 : 0 ≤ first) :
    (shares (first :: rest)).length = rest.length + 1 ∧ (shares (first :: rest))[0]? = some 1 ∧
    ∀ (k : ℕ) d, (first :: rest)[k]? = some d → 0 ≤ d → d ≤ first →
      ∃ s, (shares (first :: rest))[k]? = some s ∧ 0 ≤ s ∧ s ≤ 1 ∧ (toMs first ≠ 0 → s * toMs first = toMs d) := by
  have hf := toMs_nonneg h0
  refine ⟨by simp [shares], ?_, fun k d hk hd hle => ?_⟩
  · simp only [shares, List.headD_cons, List.zipIdx_cons, List.map_cons, List.getElem?_cons_zero]
    split
    · rfl
    · rename_i h; rw [div_self h]
  · simp only [shares, List.headD_cons]
    rw [List.getElem?_map, List.getElem?_zipIdx, hk]
    simp only [Option.map_some, zero_add]
    by_cases h : toMs first = 0
    · by_cases hk0 : k = 0
      · exact ⟨1, by simp [h, hk0], by norm_num, le_rfl, fun h' => absurd h h'⟩
      · exact ⟨0, by simp [h, hk0], le_rfl, by norm_num, fun h' => absurd h h'⟩
    · have hpos : 0 < toMs first := lt_of_le_of_ne hf (Ne.symm h)
      exact ⟨_, congrArg some (if_neg h), div_nonneg (toMs_nonneg hd) hf, (div_le_one hpos).2 (toMs_mono hd hle), fun _ => div_mul_cancel₀ _ h⟩

/-! ### Backtracks -/

/-- C46: the number of backtracks shown is how often the step size was reduced. -/
theorem backtracks_correct {α r : ℝ} (hα : 0 < α) (hr : 0 < r) (hr1 : r < 1) {n : ℕ} (hn : n ≤ 2147483647) :
    backtracks (.fin (α * r ^ n)) (.fin α) (.fin r) = some (n : ℤ) := by
  have hl : Real.log r < 0 := Real.log_neg hr hr1
  unfold backtracks
  rw [Fl.fin_div hα.ne', mul_div_cancel_left₀ _ hα.ne', Fl.log_fin (pow_pos hr n), Fl.log_fin hr, Real.log_pow,
    Fl.fin_div hl.ne, mul_div_cancel_right₀ _ hl.ne]
  simp only [toInt, if_pos (Nat.cast_nonneg (α := ℝ) n), Int.floor_natCast]
  rw [if_pos ⟨by omega, by omega⟩]

/-- After an accepted second-order correction the number shown is not how often the step size was reduced, since the
correction has a step size of its own: the row of a correction with step size 1/4 (`interior_point.hpp:597`) shows two
reductions, and the row of the iteration (`interior_point.hpp:849`) shows −2 if the correction took the full step where the
rejected step had 1/4; in both the step size was never reduced. -/
theorem correction_backtracks :
    backtracks (.fin (1 / 4)) (.fin 1) (.fin (1 / 2)) = some 2 ∧ backtracks (.fin 1) (.fin (1 / 4)) (.fin (1 / 2)) = some (-2) := by
  constructor
  · have := backtracks_correct (α := 1) (r := 1 / 2) one_pos (by norm_num) (by norm_num) (n := 2) (by norm_num)
    norm_num at this ⊢
    exact this
  · have hl : Real.log 2 > 0 := Real.log_pos (by norm_num)
    unfold backtracks
    rw [Fl.fin_div (by norm_num), Fl.log_fin (by norm_num), Fl.log_fin (by norm_num),
      show (1 : ℝ) / (1 / 4) = 2 ^ 2 by norm_num, Real.log_pow, show (1 : ℝ) / 2 = 2⁻¹ by norm_num, Real.log_inv,
      Fl.fin_div (by linarith), show ((2 : ℕ) : ℝ) * Real.log 2 / -Real.log 2 = (-2 : ℤ) by
        push_cast; field_simp]
    simp only [toInt, if_neg (show ¬ (0 : ℝ) ≤ ((-2 : ℤ) : ℝ) by norm_num), Int.ceil_intCast]
    norm_num

/-- If no step is possible the number is undefined. -/
theorem backtracks_undefined (r : Fl) : backtracks (.fin 0) (.fin 0) r = none := by
  have h1 : (Fl.fin 0 / Fl.fin 0) = Fl.nan := by
    show Fl.div _ _ = _
    simp [Fl.div]
  unfold backtracks
  rw [h1]
  have h2 : ∀ a : Fl, Fl.nan / a = .nan := fun a => by
    show Fl.div _ _ = _
    cases a <;> rfl
  rw [show Fl.log .nan = .nan from rfl, h2]
  rfl

/-! ### Reports -/

/-- C46: the report of violated inequality constraints lists exactly these, in order, numbered from one. -/
theorem inequality_report {c : List Fl} :
    (inequalityLines c).map Line.number = ((List.range c.length).filter fun i => decide (c.getD i .nan < .fin 0)).map (· + 1) ∧
    ∀ l ∈ inequalityLines c, l.rows = c.length ∧ c[l.number - 1]? = some l.value ∧ 1 ≤ l.number := by
  constructor
  · unfold inequalityLines
    have hz : c.zipIdx = (List.range c.length).map fun i => (c.getD i .nan, i) := by
      apply List.ext_getElem? 
      intro i
      rw [List.getElem?_zipIdx, List.getElem?_map]
      by_cases hi : i < c.length
      · simp [List.getElem?_eq_getElem hi, List.getElem?_range hi]
      · rw [List.getElem?_eq_none (by omega), List.getElem?_eq_none (by simpa using hi)]; rfl
    rw [hz, List.filterMap_map, List.map_filterMap]
    generalize List.range c.length = l
    induction l with
    | nil => rfl
    | cons i l ih =>
      rw [List.filterMap_cons, List.filter_cons]
      by_cases hlt : c.getD i .nan < .fin 0
      · simp only [Function.comp, Option.map_some, decide_true, hlt, if_true, List.map_cons] at ih ⊢
        rw [ih]
      · simp only [Function.comp, Option.map_none, hlt, decide_false, Bool.false_eq_true, if_false] at ih ⊢
        exact ih
  · intro l hl
    unfold inequalityLines at hl
    rw [List.mem_filterMap] at hl
    obtain ⟨⟨v, i⟩, hm, hv⟩ := hl
    split at hv
    · simp only [Option.some.injEq] at hv
      subst hv
      refine ⟨rfl, ?_, by simp⟩
      simpa using List.mk_mem_zipIdx_iff_getElem?.1 hm
    · cases hv

/-- C46 in part: the report of violated equality constraints lists only violated ones, and all that are negative.
Missing: positive ones (`equality_report_misses`). -/
theorem equality_report_partial {c : List Fl} :
    (equalityLines c).map Line.number = ((List.range c.length).filter fun i => decide (c.getD i .nan < .fin 0)).map (· + 1) ∧
    ∀ l ∈ equalityLines c, l.rows = c.length ∧ c[l.number - 1]? = some l.value ∧ 1 ≤ l.number :=
  inequality_report

/-- A violated equality constraint whose left-hand side is too large is not listed. -/
theorem equality_report_misses {x : ℝ} (hx : 0 < x) : equalityLines [.fin x] = [] := by
  simp [equalityLines, not_lt.2 hx.le]

/-- A report on three constraints. -/
example : (inequalityLines [.fin (-1), .fin 2, .fin (-3)]).map Line.number = [1, 3] := by
  simp [inequalityLines]

/-- The hypotheses of `powerOf10_correct` and `histogram_correct`. -/
example : ∃ text, powerOf10 (.fin (10 ^ (-12 : ℤ))) = some text ∧ readPower text = some ((10 : ℝ) ^ (-12 : ℤ)) := by
  have hl : Real.logb 10 ((10 : ℝ) ^ (-12 : ℤ)) = -12 := by
    rw [← Real.rpow_intCast, Real.logb_rpow (by norm_num) (by norm_num)]; norm_num
  obtain ⟨t, p, h1, h2, -, -, h3⟩ := powerOf10_correct (x := (10 : ℝ) ^ (-12 : ℤ)) (by positivity)
    (by rw [hl]; norm_num)
  exact ⟨t, h1, by rw [h2, h3 _ rfl]⟩

example : histogram 4 (.fin 0.4) = some ['█', '▌', ' ', ' '] := by
  obtain ⟨v, text, h1, -⟩ := histogram_correct (width := 4) (value := .fin 0.4) (by norm_num) (by simp)
  have hc : clamp01 (.fin 0.4) = .fin 0.4 := by
    unfold clamp01
    rw [if_neg (by rw [Fl.fin_lt]; norm_num), if_neg (by rw [Fl.fin_lt]; norm_num)]
  have hf : ⌊(0.4 : ℝ) * (4 : ℕ)⌋ = 1 := by rw [Int.floor_eq_iff]; norm_num
  have hp : ⌊(0.4 * (4 : ℕ) - (1 : ℤ)) * (8 : ℝ)⌋ = 4 := by rw [Int.floor_eq_iff]; norm_num
  unfold histogram
  rw [hc]
  simp only [hf]
  rw [toInt_eighths (by norm_num) (by norm_num), hp]
  decide

end Slp.Diag
