import Verif.Util.TableModel
import Mathlib.Data.List.Range
import Mathlib.Tactic.Linarith

/-! C95: the table of iterations. -/

namespace Slp.Diag

open TableLine

/-- The number and type of a row. -/
def TableLine.row? : TableLine → Option (ℕ × RowType)
  | .row n t => some (n, t)
  | _ => none

/-! ## Lists of prints -/

/-- The prints of a list of rows. -/
def printed (calls : List (ℕ × RowType)) : List TableLine := calls.flatMap fun c => iterationLines c.1 c.2

/-- The rows of a solve, in order. -/
def rowsFrom : ℕ → List Pass → List (ℕ × RowType)
  | _, [] => []
  | n, p :: l => ((if p.corrected then [(n, .secondOrderCorrection)] else []) ++
      [(n, if p.restoring then .feasibilityRestoration else .normal)]) ++ rowsFrom (n + 1) l

theorem passesLines_eq (l : List Pass) : ∀ n, passesLines n l = printed (rowsFrom n l) := by
  induction l with
  | nil => intro n; rfl
  | cons p l ih =>
    intro n
    rw [passesLines, rowsFrom, ih]
    unfold printed passLines
    split <;> simp

theorem iterationLines_cases (n : ℕ) (t : RowType) :
    (n % 20 ≠ 0 ∧ iterationLines n t = [.row n t]) ∨
      (n % 20 = 0 ∧ iterationLines n t = [if n = 0 then .top else .between, .names, .under, .row n t]) := by
  unfold iterationLines
  by_cases h : n % 20 = 0
  · right; simp [h]
  · left; simp [h]

theorem printed_rows (calls : List (ℕ × RowType)) : (printed calls).filterMap row? = calls := by
  induction calls with
  | nil => rfl
  | cons c l ih =>
    have h : printed (c :: l) = iterationLines c.1 c.2 ++ printed l := by simp [printed]
    rw [h, List.filterMap_append, ih]
    rcases iterationLines_cases c.1 c.2 with ⟨_, e⟩ | ⟨_, e⟩
    · rw [e]; rfl
    · rw [e]
      obtain ⟨n, t⟩ := c
      by_cases h0 : n = 0 <;> simp only [h0] <;> rfl

theorem printed_names (calls : List (ℕ × RowType)) :
    (printed calls).count names = calls.countP fun c => c.1 % 20 = 0 := by
  induction calls with
  | nil => rfl
  | cons c l ih =>
    have h : printed (c :: l) = iterationLines c.1 c.2 ++ printed l := by simp [printed]
    rw [h, List.count_append, ih, List.countP_cons]
    rcases iterationLines_cases c.1 c.2 with ⟨h, e⟩ | ⟨h, e⟩
    · rw [e]; simp [h]
    · rw [e]
      by_cases h0 : c.1 = 0 <;> simp [h, h0] <;> omega

theorem printed_top (calls : List (ℕ × RowType)) : (printed calls).count top = calls.countP fun c => c.1 = 0 := by
  induction calls with
  | nil => rfl
  | cons c l ih =>
    have h : printed (c :: l) = iterationLines c.1 c.2 ++ printed l := by simp [printed]
    rw [h, List.count_append, ih, List.countP_cons]
    rcases iterationLines_cases c.1 c.2 with ⟨h, e⟩ | ⟨h, e⟩
    · have h0 : c.1 ≠ 0 := by omega
      rw [e]; simp [h0]
    · rw [e]
      by_cases h0 : c.1 = 0 <;> simp [h0] <;> omega

theorem printed_bottom (calls : List (ℕ × RowType)) : bottom ∉ printed calls := by
  intro h
  obtain ⟨c, -, hc⟩ := List.mem_flatMap.mp h
  rcases iterationLines_cases c.1 c.2 with ⟨_, e⟩ | ⟨_, e⟩ <;> rw [e] at hc <;> by_cases h0 : c.1 = 0 <;> simp [h0] at hc

/-- The rows of a solve by position: the accepted correction of a pass and the pass, numbered from 0. -/
def expectedRows (l : List Pass) : List (ℕ × RowType) :=
  l.zipIdx.flatMap fun p => (if p.1.corrected then [(p.2, .secondOrderCorrection)] else []) ++
    [(p.2, if p.1.restoring then .feasibilityRestoration else .normal)]

theorem rowsFrom_eq (l : List Pass) : ∀ n, rowsFrom n l = (l.zipIdx n).flatMap fun p =>
    (if p.1.corrected then [(p.2, .secondOrderCorrection)] else []) ++
      [(p.2, if p.1.restoring then .feasibilityRestoration else .normal)] := by
  induction l with
  | nil => intro n; rfl
  | cons p l ih => intro n; rw [rowsFrom, ih, List.zipIdx_cons, List.flatMap_cons]

theorem table_eq (l : List Pass) : table l = printed (expectedRows l) ++ if l = [] then [] else [.bottom] := by
  unfold table expectedRows
  rw [passesLines_eq, rowsFrom_eq]
  cases l <;> simp

/-! ## The properties -/

/-- **C95.** The rows of the table are the iterations of the solve in order, numbered from 0 without gaps, each after the
second-order correction accepted in it, if any. -/
theorem table_rows (l : List Pass) :
    (table l).filterMap row? = expectedRows l ∧
      (((table l).filterMap row?).filter fun r => r.2 ≠ .secondOrderCorrection).map Prod.fst = List.range l.length := by
  have h : (table l).filterMap row? = expectedRows l := by
    rw [table_eq, List.filterMap_append, printed_rows]
    split <;> simp [row?]
  refine ⟨h, ?_⟩
  rw [h]
  have key : ∀ (l : List Pass) (n : ℕ), ((rowsFrom n l).filter fun r => r.2 ≠ .secondOrderCorrection).map Prod.fst
      = List.range' n l.length := by
    intro l
    induction l with
    | nil => intro n; rfl
    | cons p l ih =>
      intro n
      rw [rowsFrom, List.filter_append, List.map_append, ih, List.length_cons, List.range'_succ, List.filter_append]
      by_cases hc : p.corrected <;> by_cases hr : p.restoring <;> simp [hc, hr]
  have := key l 0
  rw [rowsFrom_eq] at this
  rw [List.range_eq_range']
  exact this

/-- **C95.** Nothing is printed without an iteration; otherwise the table opens with its top border and heading, and
closes with its bottom border, which is printed nowhere else. -/
theorem table_framed (l : List Pass) :
    (l = [] → table l = []) ∧
      (l ≠ [] → (∃ rest, table l = top :: names :: under :: rest) ∧
        (table l).getLast? = some bottom ∧ (table l).count bottom = 1) := by
  refine ⟨fun h => by subst h; rfl, fun h => ?_⟩
  have hb := printed_bottom (expectedRows l)
  refine ⟨?_, ?_, ?_⟩
  · obtain ⟨p, r, rfl⟩ := List.exists_cons_of_ne_nil h
    unfold table
    rw [passesLines, passLines]
    by_cases hc : p.corrected <;> simp [hc, iterationLines]
  · rw [table_eq, if_neg h]; simp
  · rw [table_eq, if_neg h, List.count_append, List.count_eq_zero.mpr hb]; simp

theorem printed_heading (calls : List (ℕ × RowType)) : ∀ (n : ℕ) (t : RowType) (a b : List TableLine),
    printed calls = a ++ row n t :: b →
      (20 ∣ n → ∃ a', a = a' ++ [if n = 0 then top else between, names, under]) ∧
        (¬ 20 ∣ n → ∀ x ∈ a.getLast?, ∃ m s, x = row m s) := by
  induction calls with
  | nil => intro n t a b h; simp [printed] at h
  | cons c l ih =>
    intro n t a b h
    have hp : printed (c :: l) = iterationLines c.1 c.2 ++ printed l := by simp [printed]
    rw [hp] at h
    rcases List.append_eq_append_iff.mp h with ⟨a', rfl, h2⟩ | ⟨c', h1, h2⟩
    · obtain ⟨i1, i2⟩ := ih n t a' b h2
      refine ⟨fun hd => ?_, fun hd x hx => ?_⟩
      · obtain ⟨a'', rfl⟩ := i1 hd
        exact ⟨iterationLines c.1 c.2 ++ a'', by simp⟩
      · by_cases ha : a' = []
        · subst ha
          refine ⟨c.1, c.2, ?_⟩
          simpa [iterationLines] using hx.symm
        · refine i2 hd x ?_
          rwa [List.getLast?_append_of_ne_nil _ ha] at hx
    · rcases c' with _ | ⟨y, c'⟩
      · rw [List.append_nil] at h1
        rw [List.nil_append] at h2
        obtain ⟨i1, i2⟩ := ih n t [] b h2.symm
        subst h1
        refine ⟨fun hd => ?_, fun hd x hx => ?_⟩
        · obtain ⟨a'', e⟩ := i1 hd
          simp at e
        · refine ⟨c.1, c.2, ?_⟩
          simpa [iterationLines] using hx.symm
      · obtain ⟨rfl, -⟩ := List.cons.inj h2
        rcases iterationLines_cases c.1 c.2 with ⟨hm, e⟩ | ⟨hm, e⟩
        · rw [e] at h1
          rcases a with _ | ⟨a1, a⟩
          · obtain ⟨h3, -⟩ := List.cons.inj h1
            injection h3 with h3 h4
            subst h3
            exact ⟨fun hd => absurd (Nat.mod_eq_zero_of_dvd hd) hm, fun _ x hx => by simp at hx⟩
          · simp at h1
        · rw [e] at h1
          rcases a with _ | ⟨a1, _ | ⟨a2, _ | ⟨a3, _ | ⟨a4, a⟩⟩⟩⟩
          · exfalso
            by_cases h0 : c.1 = 0 <;> simp [h0] at h1
          · simp at h1
          · simp at h1
          · simp only [List.cons_append, List.nil_append, List.cons.injEq, TableLine.row.injEq] at h1
            obtain ⟨rfl, rfl, rfl, ⟨rfl, rfl⟩, -⟩ := h1
            exact ⟨fun _ => ⟨[], rfl⟩, fun hd => absurd (Nat.dvd_of_mod_eq_zero hm) hd⟩
          · simp at h1

/-- **C95.** A row is printed right below a heading exactly if its number is a multiple of 20; the heading joins the rows
above it unless it is the one of iteration 0. Every other row is right below another row. -/
theorem table_headings (l : List Pass) {n : ℕ} {t : RowType} {a b : List TableLine} (h : table l = a ++ row n t :: b) :
    (20 ∣ n → ∃ a', a = a' ++ [if n = 0 then top else between, names, under]) ∧
      (¬ 20 ∣ n → ∃ a' m s, a = a' ++ [row m s]) := by
  have hl : l ≠ [] := by rintro rfl; simp [table, passesLines] at h
  have hp : ∃ b', printed (expectedRows l) = a ++ row n t :: b' := by
    rw [table_eq, if_neg hl] at h
    rcases List.append_eq_append_iff.mp h with ⟨a', rfl, h2⟩ | ⟨c', h1, h2⟩
    · rcases a' with _ | ⟨x, a'⟩
      · simp at h2
      · simp at h2
    · rcases c' with _ | ⟨y, c'⟩
      · simp at h2
      · obtain ⟨rfl, -⟩ := List.cons.inj h2
        exact ⟨c', h1⟩
  obtain ⟨b', hb⟩ := hp
  obtain ⟨h1, h2⟩ := printed_heading _ n t a b' hb
  refine ⟨h1, fun hd => ?_⟩
  rcases List.eq_nil_or_concat a with rfl | ⟨a', x, rfl⟩
  · exfalso
    obtain ⟨⟨rest, hr⟩, -, -⟩ := (table_framed l).2 hl
    rw [hr] at h
    simp at h
  · obtain ⟨m, s, rfl⟩ := h2 hd x (by simp)
    exact ⟨a', m, s, by simp⟩

theorem rowsFrom_heads (l : List Pass) : ∀ n, (∀ i (h : i < l.length), 20 ∣ n + i → l[i].corrected = false) →
    (rowsFrom n l).countP (fun c => c.1 % 20 = 0) = (n + l.length + 19) / 20 - (n + 19) / 20 ∧
      (rowsFrom n l).countP (fun c => c.1 = 0) = if n = 0 ∧ l ≠ [] then 1 else 0 := by
  induction l with
  | nil => intro n _; simp [rowsFrom]
  | cons p l ih =>
    intro n h
    obtain ⟨i1, i2⟩ := ih (n + 1) fun i hi hd => by
      have := h (i + 1) (by simpa using hi) (by rwa [show n + (i + 1) = n + 1 + i by omega])
      simpa using this
    rw [rowsFrom, List.countP_append, List.countP_append, List.countP_append, List.countP_append, i1, i2]
    by_cases hm : n % 20 = 0
    · have hc : p.corrected = false := h 0 (by simp) (by simpa using Nat.dvd_of_mod_eq_zero hm)
      constructor
      · simp [hc, hm]; omega
      · by_cases h0 : n = 0 <;> simp [hc, h0]
    · have h0 : n ≠ 0 := by omega
      constructor
      · by_cases hc : p.corrected <;> simp [hc, hm] <;> omega
      · by_cases hc : p.corrected <;> simp [hc, h0]

/-- **C95, as far as it holds.** If no second-order correction is accepted in an iteration whose number is a multiple of
20, there is one heading for every 20 iterations or part of it, and one top border. Missing: a correction accepted in such
an iteration (`heading_repeats`). -/
theorem table_heading_count_partial (l : List Pass)
    (h : ∀ i (hi : i < l.length), 20 ∣ i → l[i].corrected = false) :
    (table l).count names = (l.length + 19) / 20 ∧ (table l).count top = if l = [] then 0 else 1 := by
  obtain ⟨h1, h2⟩ := rowsFrom_heads l 0 fun i hi hd => h i hi (by simpa using hd)
  rw [rowsFrom_eq] at h1 h2
  rw [table_eq, List.count_append, List.count_append, printed_names, printed_top]
  unfold expectedRows
  rw [h1, h2]
  by_cases hl : l = [] <;> simp [hl]

/-- A correction accepted in an iteration whose number is a multiple of 20 repeats the heading: here the table of a solve
with a single iteration opens twice. -/
theorem heading_repeats : ∃ l : List Pass, l.length = 1 ∧ (table l).count names = 2 ∧ (table l).count top = 2 :=
  ⟨[⟨true, false⟩], rfl, by decide, by decide⟩

/-- A solve of 41 iterations, with corrections in iterations 1 and 39 and restoration in iterations 7 and 8. -/
def longSolve : List Pass := (List.range 41).map fun i => ⟨decide (i = 1 ∨ i = 39), decide (i = 7 ∨ i = 8)⟩

example : (∀ i (hi : i < longSolve.length), 20 ∣ i → longSolve[i].corrected = false) ∧
    (table longSolve).count names = 3 := by
  have h : ∀ i (hi : i < longSolve.length), 20 ∣ i → longSolve[i].corrected = false := by
    intro i hi hd
    simp only [longSolve, List.getElem_map, List.getElem_range, decide_eq_false_iff_not]
    omega
  exact ⟨h, (table_heading_count_partial longSolve h).1.trans (by simp [longSolve])⟩

/-- The hypothesis of `table_headings` is met by any row: here the one of the single iteration. -/
example : table [⟨false, true⟩] = [top, names, under] ++ row 0 .feasibilityRestoration :: [bottom] := by decide

end Slp.Diag
