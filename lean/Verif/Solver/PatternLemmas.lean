import Verif.Solver.PatternModel
import Verif.Solver.SparseLemmas
import Verif.Autodiff.JacLemmas

/-! Lemmas for C77: which positions operations store. -/

namespace Slp

theorem SamePattern.refl (A : Sparse) : SamePattern A A := ⟨rfl, rfl, fun _ => rfl⟩

theorem SamePattern.symm {A B : Sparse} (h : SamePattern A B) : SamePattern B A :=
  ⟨h.1.symm, h.2.1.symm, fun j => (h.2.2 j).symm⟩

theorem SamePattern.trans {A B C : Sparse} (h : SamePattern A B) (k : SamePattern B C) : SamePattern A C :=
  ⟨h.1.trans k.1, h.2.1.trans k.2.1, fun j => (h.2.2 j).trans (k.2.2 j)⟩

theorem stored_iff (A : Sparse) (i j : ℕ) : A.Stored i j ↔ i ∈ (A.col j).map Prod.fst := by
  simp [Sparse.Stored]

theorem SamePattern.stored {A B : Sparse} (h : SamePattern A B) (i j : ℕ) : A.Stored i j ↔ B.Stored i j := by
  rw [stored_iff, stored_iff, h.2.2 j]

theorem filterMap_fst (l : List ℕ) (p : ℕ → Prop) [DecidablePred p] (f : ℕ → ℝ) :
    (l.filterMap fun i => if p i then some (i, f i) else none).map Prod.fst = l.filter fun i => p i := by
  induction l with
  | nil => rfl
  | cons i l ih => by_cases h : p i <;> simp [h, ih]

theorem tabulate_pattern {r c r' c' : ℕ} {p p' : ℕ → ℕ → Prop} {f f' : ℕ → ℕ → ℝ} (hr : r = r') (hc : c = c')
    (h : ∀ i j, p i j ↔ p' i j) : SamePattern (.tabulate r c p f) (.tabulate r' c' p' f') := by
  subst hr hc
  refine ⟨rfl, rfl, fun j => ?_⟩
  simp only [Sparse.tabulate]
  split
  · rw [filterMap_fst, filterMap_fst]
    refine List.filter_congr fun i _ => ?_
    simp [h]
  · rfl

theorem tabulate_stored (r c : ℕ) (p : ℕ → ℕ → Prop) (f : ℕ → ℕ → ℝ) (i j : ℕ) :
    (Sparse.tabulate r c p f).Stored i j ↔ i < r ∧ j < c ∧ p i j := by
  rw [stored_iff]
  simp only [Sparse.tabulate]
  split
  · rename_i h
    rw [filterMap_fst]
    simp [h]
  · rename_i h
    simp [h]

theorem tabulate_wf (r c : ℕ) (p : ℕ → ℕ → Prop) (f : ℕ → ℕ → ℝ) : (Sparse.tabulate r c p f).WF where
  sorted j := by
    simp only [Sparse.tabulate]
    split
    · refine List.Pairwise.filterMap _ (R := (· < ·)) ?_ List.pairwise_lt_range
      intro a a' h b hb b' hb'
      split at hb <;> split at hb' <;> simp_all
      subst hb hb'
      exact h
    · exact .nil
  rows j e he := by
    have := (tabulate_stored r c p f e.1 j).1 ⟨e, he, rfl⟩
    exact this.1
  cols j h := by
    simp only [Sparse.tabulate]
    rw [if_neg (by simpa [Sparse.tabulate] using h)]

theorem tabulate_coeff (r c : ℕ) (p : ℕ → ℕ → Prop) (f : ℕ → ℕ → ℝ) {i j : ℕ} (hi : i < r) (hj : j < c)
    [Decidable (p i j)] : (Sparse.tabulate r c p f).coeff i j = if p i j then f i j else 0 := by
  split
  · rename_i h
    refine Sparse.coeff_of_mem (tabulate_wf r c p f) ?_
    simp only [Sparse.tabulate, if_pos hj, List.mem_filterMap, List.mem_range]
    exact ⟨i, hi, by rw [if_pos h]⟩
  · rename_i h
    refine Sparse.coeff_of_not_mem fun e he h' => h ?_
    exact ((tabulate_stored r c p f i j).1 ⟨e, he, h'⟩).2.2

theorem lower_pattern {A B : Sparse} (h : SamePattern A B) : SamePattern A.lower B.lower :=
  tabulate_pattern h.1 h.2.1 fun i j => by rw [h.stored]

theorem gram_pattern {A B : Sparse} (σ τ : ℕ → ℝ) (h : SamePattern A B) : SamePattern (A.gram σ) (B.gram τ) :=
  tabulate_pattern h.2.1 h.2.1 fun i j => by simp only [h.stored, h.1]

theorem scale_pattern (c : ℝ) (A : Sparse) : SamePattern (A.scale c) A :=
  ⟨rfl, rfl, fun j => by simp [Sparse.scale, Function.comp_def]⟩

theorem scaleRows_pattern (d : ℕ → ℝ) (A : Sparse) : SamePattern (A.scaleRows d) A :=
  ⟨rfl, rfl, fun j => by simp [Sparse.scaleRows, Function.comp_def]⟩

theorem add_pattern {A B A' B' : Sparse} (h : SamePattern A A') (k : SamePattern B B') :
    SamePattern (A.add B) (A'.add B') := by
  refine ⟨h.1, h.2.1, fun j => ?_⟩
  classical
  have e : ∀ (X Y : Sparse), ((X.add Y).col j).map Prod.fst =
      (List.range X.rows).filter fun i => X.Stored i j ∨ Y.Stored i j := by
    intro X Y
    simp only [Sparse.add]
    rw [filterMap_fst _ fun i => (∃ e ∈ X.col j, e.1 = i) ∨ ∃ e ∈ Y.col j, e.1 = i]
    exact List.filter_congr fun i _ => by simp [Sparse.Stored]
  rw [e, e, h.1]
  refine List.filter_congr fun i _ => ?_
  simp only [h.stored, k.stored]

theorem add_stored (A B : Sparse) (i j : ℕ) :
    (A.add B).Stored i j ↔ i < A.rows ∧ (A.Stored i j ∨ B.Stored i j) := by
  classical
  rw [stored_iff]
  simp only [Sparse.add]
  rw [filterMap_fst _ fun i => (∃ e ∈ A.col j, e.1 = i) ∨ ∃ e ∈ B.col j, e.1 = i]
  simp [Sparse.Stored]

theorem Sparse.add_wf {A B : Sparse} (hA : A.WF) (hB : B.WF) (hc : B.cols = A.cols) :
    (A.add B).WF where
  sorted j := by
    simp only [Sparse.add]
    refine List.Pairwise.filterMap _ (R := (· < ·)) ?_ List.pairwise_lt_range
    intro a a' h b hb b' hb'
    split at hb <;> split at hb' <;> simp_all
    subst hb hb'
    exact h
  rows j e he := ((add_stored A B e.1 j).1 ⟨e, he, rfl⟩).1
  cols j h := by
    rw [List.eq_nil_iff_forall_not_mem]
    intro e he
    rcases ((add_stored A B e.1 j).1 ⟨e, he, rfl⟩).2 with ⟨e', h', -⟩ | ⟨e', h', -⟩
    · rw [hA.cols j h] at h'
      cases h'
    · rw [hB.cols j (by rw [hc]; exact h)] at h'
      cases h'

theorem gram_coeff (σ : ℕ → ℝ) (A : Sparse) {i j : ℕ} (hi : i < A.cols) (hj : j < A.cols) :
    (A.gram σ).coeff i j = ∑ l ∈ Finset.range A.rows, A.coeff l i * σ l * A.coeff l j := by
  classical
  unfold Sparse.gram
  rw [tabulate_coeff _ _ _ _ hi hj]
  split
  · rfl
  · rename_i h
    refine (Finset.sum_eq_zero fun l hl => ?_).symm
    by_cases h1 : A.Stored l i
    · have h2 : ¬ A.Stored l j := fun h2 => h ⟨l, Finset.mem_range.1 hl, h1, h2⟩
      rw [Sparse.coeff_of_not_mem (j := j) fun e he h' => h2 ⟨e, he, h'⟩, mul_zero]
    · rw [Sparse.coeff_of_not_mem (j := i) fun e he h' => h1 ⟨e, he, h'⟩, zero_mul, zero_mul]

theorem lower_coeff (A : Sparse) {i j : ℕ} (hi : i < A.rows) (hj : j < A.cols) :
    A.lower.coeff i j = if j ≤ i then A.coeff i j else 0 := by
  classical
  unfold Sparse.lower
  rw [tabulate_coeff _ _ _ _ hi hj]
  by_cases h : j ≤ i
  · by_cases h1 : A.Stored i j
    · rw [if_pos ⟨h1, h⟩, if_pos h]
    · rw [if_neg fun k => h1 k.1, if_pos h, Sparse.coeff_of_not_mem fun e he h' => h1 ⟨e, he, h'⟩]
  · rw [if_neg fun k => h k.2, if_neg h]

/-- The positions of triplets. -/
def SpEntry.pos (t : SpEntry) : ℕ × ℕ := (t.row, t.col)

theorem ofSorted_pattern {r c r' c' : ℕ} {ts ts' : List SpEntry} (hr : r = r') (hc : c = c')
    (h : ts.map SpEntry.pos = ts'.map SpEntry.pos) : SamePattern (.ofSorted r c ts) (.ofSorted r' c' ts') := by
  subst hr hc
  refine ⟨rfl, rfl, fun j => ?_⟩
  have e : ∀ ts : List SpEntry, ((Sparse.ofSorted r c ts).col j).map Prod.fst =
      ((ts.map SpEntry.pos).filter fun p => p.2 = j).map Prod.fst := by
    intro ts
    simp only [Sparse.ofSorted, List.filter_map, List.map_map, Function.comp_def, SpEntry.pos]
    congr
  rw [e, e, h]

theorem appendColumn_pos {A B : Sparse} (h : SamePattern A B) (ro co c off : ℕ) :
    (appendColumn ro co c (A, off)).map SpEntry.pos = (appendColumn ro co c (B, off)).map SpEntry.pos := by
  have e : ∀ X : Sparse, (appendColumn ro co c (X, off)).map SpEntry.pos =
      ((X.col c).map Prod.fst).map fun i => (ro + off + i, co + c) := by
    intro X
    simp only [appendColumn, List.map_map, Function.comp_def, SpEntry.pos]
  rw [e, e, h.2.2 c]

theorem rowOffsets_pattern {As Bs : List Sparse} (h : List.Forall₂ SamePattern As Bs) (off : ℕ) :
    rowOffsets off As = rowOffsets off Bs := by
  induction h generalizing off with
  | nil => rfl
  | cons h _ ih => rw [rowOffsets, rowOffsets, h.1, ih]

theorem appendTriplets_positions {As Bs : List Sparse} (h : List.Forall₂ SamePattern As Bs) {ts us : List SpEntry}
    (ht : ts.map SpEntry.pos = us.map SpEntry.pos) (ro co : ℕ) :
    (appendAsTriplets ts ro co As).map SpEntry.pos = (appendAsTriplets us ro co Bs).map SpEntry.pos := by
  have hc : As.head?.elim 0 Sparse.cols = Bs.head?.elim 0 Sparse.cols := by
    cases h with
    | nil => rfl
    | cons h _ => simp [h.2.1]
  have inner : ∀ c off, ((As.zip (rowOffsets off As)).flatMap (appendColumn ro co c)).map SpEntry.pos =
      ((Bs.zip (rowOffsets off Bs)).flatMap (appendColumn ro co c)).map SpEntry.pos := by
    intro c
    clear hc
    induction h with
    | nil => exact fun _ => rfl
    | cons h _ ih =>
        intro off
        simp only [rowOffsets, List.zip_cons_cons, List.flatMap_cons, List.map_append]
        rw [appendColumn_pos h, ih, h.1]
  simp only [appendAsTriplets, List.map_append, ht, hc]
  congr 1
  rw [List.map_flatMap, List.map_flatMap]
  simp only [inner]

theorem appendDiagonal_pos {ts us : List SpEntry} (ht : ts.map SpEntry.pos = us.map SpEntry.pos) (ro co : ℕ)
    {d d' : List ℝ} (h : d.length = d'.length) :
    (appendDiagonal ts ro co d).map SpEntry.pos = (appendDiagonal us ro co d').map SpEntry.pos := by
  have e : ∀ l : List ℝ, ((l.zipIdx.map fun e => (⟨ro + e.2, co + e.2, e.1⟩ : SpEntry)).map SpEntry.pos) =
      (List.range l.length).map fun i => (ro + i, co + i) := by
    intro l
    rw [List.map_map]
    refine List.ext_getElem (by simp) fun i h1 h2 => ?_
    simp [SpEntry.pos]
  simp only [appendDiagonal, List.map_append, ht, e, h]

theorem diagonal_pattern {d d' : List ℝ} (h : d.length = d'.length) : SamePattern (.diagonal d) (.diagonal d') := by
  refine ⟨h, h, fun j => ?_⟩
  simp only [Sparse.diagonal]
  by_cases hj : j < d.length
  · rw [List.getElem?_eq_getElem hj, List.getElem?_eq_getElem (h ▸ hj)]
    rfl
  · rw [List.getElem?_eq_none (by omega), List.getElem?_eq_none (by omega)]

theorem kktLhs_pattern {A B A' B' : Sparse} (n m : ℕ) (h : SamePattern A A') (k : SamePattern B B') :
    SamePattern (kktLhs n m A B) (kktLhs n m A' B') :=
  ofSorted_pattern rfl rfl (appendTriplets_positions (.cons h (.cons k .nil)) rfl 0 0)

/-! ### Autodiff -/

section

variable {S : Type} [ScalarOps S]

def Triplet.pos (t : Triplet S) : ℕ × ℕ := (t.row, t.col)

/-- The positions in the order of the triplets; they do not depend on the heap. -/
def rowPos (J : JacObj S) (row : ℕ) : List (ℕ × ℕ) :=
  if J.topLists.getD row [] = [] then [] else (J.outLists.getD row []).map fun cn => (row, cn.1)

theorem appendTriplets_pos (top : List ℕ) (out : List (ℕ × ℕ)) (row : ℕ) (h : Heap S) :
    (appendTriplets top out row h).1.map Triplet.pos = if top = [] then [] else out.map fun cn => (row, cn.1) := by
  cases top with
  | nil => rfl
  | cons a l => simp [appendTriplets, Triplet.pos, Function.comp_def]

theorem nonlinearTriplets_pos (J : JacObj S) (rows : List ℕ) (h : Heap S) :
    (nonlinearTriplets J rows h).1.map Triplet.pos = rows.flatMap (rowPos J) := by
  induction rows generalizing h with
  | nil => rfl
  | cons r rows ih => simp only [nonlinearTriplets, List.map_append, ih, appendTriplets_pos, List.flatMap_cons, rowPos]

theorem triplets_pos (J : JacObj S) (h : Heap S) :
    (J.triplets h).map Triplet.pos = J.cached.map Triplet.pos ++ J.nonlinear.flatMap (rowPos J) := by
  unfold JacObj.triplets
  split
  · rename_i h0
    simp [h0]
  · rw [List.map_append, nonlinearTriplets_pos]

/-- Everything but the matrix of the last `value()`. -/
def SameObj (J J' : JacObj S) : Prop := ∃ m, J' = { J with mat := m }

omit [ScalarOps S] in
theorem SameObj.refl (J : JacObj S) : SameObj J J := ⟨J.mat, rfl⟩

omit [ScalarOps S] in
theorem SameObj.trans {J J' J'' : JacObj S} (h : SameObj J J') (k : SameObj J' J'') : SameObj J J'' := by
  obtain ⟨m, rfl⟩ := h
  obtain ⟨m', rfl⟩ := k
  exact ⟨m', rfl⟩

theorem value_same (J : JacObj S) (h : Heap S) : SameObj J (J.value h).2.1 := by
  unfold JacObj.value
  split
  · exact .refl J
  · exact ⟨_, rfl⟩

theorem SameObj.pos {J J' : JacObj S} (h : SameObj J J') (hp hp' : Heap S) :
    (J'.triplets hp').map Triplet.pos = (J.triplets hp).map Triplet.pos := by
  obtain ⟨m, rfl⟩ := h
  rw [triplets_pos, triplets_pos]
  rfl

theorem set_same {α : Type} {R : α → α → Prop} (hr : ∀ a, R a a) {l : List α} {k : ℕ} {a b : α} (hk : l[k]? = some a)
    (h : R a b) {j : ℕ} {c : α} (hj : l[j]? = some c) : ∃ d, (l.set k b)[j]? = some d ∧ R c d := by
  have hl := (List.getElem?_eq_some_iff.1 hj).1
  by_cases e : k = j
  · subst e
    rw [hk] at hj
    cases hj
    exact ⟨b, by simp [hl], h⟩
  · exact ⟨c, by rw [List.getElem?_set_ne e]; exact hj, hr c⟩

theorem append_same {α : Type} {R : α → α → Prop} (hr : ∀ a, R a a) {l k : List α} {j : ℕ} {c : α}
    (hj : l[j]? = some c) : ∃ d, (l ++ k)[j]? = some d ∧ R c d :=
  ⟨c, by rw [List.getElem?_append_left (List.getElem?_eq_some_iff.1 hj).1]; exact hj, hr c⟩

/-- One call keeps everything about existing `Jacobian` objects but the matrix. -/
theorem step_jacs {c : Cmd S} {s s' : Api S} {o : Obs S} (h : step c s = some (o, s')) {j : ℕ} {J : JacObj S}
    (hj : s.jacs[j]? = some J) : ∃ J', s'.jacs[j]? = some J' ∧ SameObj J J' := by
  have keep : s'.jacs = s.jacs → ∃ J', s'.jacs[j]? = some J' ∧ SameObj J J' := fun e =>
    ⟨J, by rw [e]; exact hj, .refl J⟩
  cases c with
  | jac rows wrt =>
      simp only [step] at h
      split at h <;> cases h
      exact append_same SameObj.refl hj
  | jacValue k =>
      simp only [step] at h
      split at h <;> cases h
      rename_i J0 h0
      exact set_same SameObj.refl h0 (value_same J0 s.heap) hj
  | decl | lit =>
      simp only [step, Option.some.injEq, Prod.mk.injEq] at h
      obtain ⟨-, rfl⟩ := h
      exact keep rfl
  | _ =>
      simp only [step] at h
      repeat' split at h
      all_goals first
        | cases h; done
        | (simp only [Option.some.injEq, Prod.mk.injEq] at h; obtain ⟨-, rfl⟩ := h; exact keep rfl)

/-- The same for `Hessian` objects. -/
theorem step_hess {c : Cmd S} {s s' : Api S} {o : Obs S} (h : step c s = some (o, s')) {j : ℕ} {H : Bool × JacObj S}
    (hj : s.hess[j]? = some H) : ∃ H', s'.hess[j]? = some H' ∧ H.1 = H'.1 ∧ SameObj H.2 H'.2 := by
  have keep : s'.hess = s.hess → ∃ H', s'.hess[j]? = some H' ∧ H.1 = H'.1 ∧ SameObj H.2 H'.2 := fun e =>
    ⟨H, by rw [e]; exact hj, rfl, .refl _⟩
  have hr : ∀ a : Bool × JacObj S, a.1 = a.1 ∧ SameObj a.2 a.2 := fun a => ⟨rfl, .refl _⟩
  cases c with
  | hess lower i wrt =>
      simp only [step] at h
      repeat' split at h
      all_goals cases h
      exact append_same (R := fun a b : Bool × JacObj S => a.1 = b.1 ∧ SameObj a.2 b.2) hr hj
  | hessValue k =>
      simp only [step] at h
      split at h <;> cases h
      rename_i lower H0 h0
      have hv : (lower, H0).1 = (lower, (H0.value s.heap).2.1).1 ∧ SameObj (lower, H0).2 (lower, (H0.value s.heap).2.1).2 :=
        ⟨rfl, value_same H0 s.heap⟩
      exact set_same (R := fun a b : Bool × JacObj S => a.1 = b.1 ∧ SameObj a.2 b.2) hr h0 hv hj
  | decl | lit =>
      simp only [step, Option.some.injEq, Prod.mk.injEq] at h
      obtain ⟨-, rfl⟩ := h
      exact keep rfl
  | _ =>
      simp only [step] at h
      repeat' split at h
      all_goals first
        | cases h; done
        | (simp only [Option.some.injEq, Prod.mk.injEq] at h; obtain ⟨-, rfl⟩ := h; exact keep rfl)

theorem run_jacs {cs : List (Cmd S)} {s s' : Api S} {os : List (Obs S)} (h : run cs s = some (os, s')) {j : ℕ}
    {J : JacObj S} (hj : s.jacs[j]? = some J) : ∃ J', s'.jacs[j]? = some J' ∧ SameObj J J' := by
  induction cs generalizing s os J with
  | nil => simp only [run, Option.some.injEq, Prod.mk.injEq] at h; obtain ⟨-, rfl⟩ := h; exact ⟨J, hj, .refl J⟩
  | cons c cs ih =>
      simp only [run] at h
      repeat' split at h
      all_goals cases h
      rename_i h1 _ _ h2
      obtain ⟨J1, k1, k2⟩ := step_jacs h1 hj
      obtain ⟨J2, k3, k4⟩ := ih h2 k1
      exact ⟨J2, k3, k2.trans k4⟩

theorem run_hess {cs : List (Cmd S)} {s s' : Api S} {os : List (Obs S)} (h : run cs s = some (os, s')) {j : ℕ}
    {H : Bool × JacObj S} (hj : s.hess[j]? = some H) :
    ∃ H', s'.hess[j]? = some H' ∧ H.1 = H'.1 ∧ SameObj H.2 H'.2 := by
  induction cs generalizing s os H with
  | nil => simp only [run, Option.some.injEq, Prod.mk.injEq] at h; obtain ⟨-, rfl⟩ := h; exact ⟨H, hj, rfl, .refl _⟩
  | cons c cs ih =>
      simp only [run] at h
      repeat' split at h
      all_goals cases h
      rename_i h1 _ _ h2
      obtain ⟨J1, k1, k2, k3⟩ := step_hess h1 hj
      obtain ⟨J2, k4, k5, k6⟩ := ih h2 k1
      exact ⟨J2, k4, k2.trans k5, k3.trans k6⟩

end

theorem ofTriplets_pattern {r c r' c' : ℕ} {ts ts' : List (Triplet ℝ)} (hr : r = r') (hc : c = c')
    (h : ts.map Triplet.pos = ts'.map Triplet.pos) : SamePattern (.ofTriplets r c ts) (.ofTriplets r' c' ts') := by
  refine tabulate_pattern hr hc fun i j => ?_
  have e : ∀ l : List (Triplet ℝ), (∃ t ∈ l, t.row = i ∧ t.col = j) ↔ (i, j) ∈ l.map Triplet.pos := by
    intro l
    simp [Triplet.pos]
  rw [e, e, h]

theorem fromTriplets_zero {ts : List (Triplet ℝ)} {i j : ℕ} (h : ¬ ∃ t ∈ ts, t.row = i ∧ t.col = j) :
    fromTriplets ts i j = 0 := by
  unfold fromTriplets
  push Not at h
  have : ∀ (l : List (Triplet ℝ)) (a : ℝ), (∀ t ∈ l, t.row = i → t.col ≠ j) →
      l.foldl (fun acc t => if t.row = i ∧ t.col = j then ScalarOps.add acc t.value else acc) a = a := by
    intro l
    induction l with
    | nil => exact fun _ _ => rfl
    | cons t l ih =>
        intro a hl
        rw [List.foldl_cons, if_neg fun e => hl t (.head _) e.1 e.2]
        exact ih a fun u hu => hl u (.tail _ hu)
  exact this ts _ h

theorem ofTriplets_coeff (r c : ℕ) (ts : List (Triplet ℝ)) {i j : ℕ} (hi : i < r) (hj : j < c) :
    (Sparse.ofTriplets r c ts).coeff i j = fromTriplets ts i j := by
  classical
  unfold Sparse.ofTriplets
  rw [tabulate_coeff _ _ _ _ hi hj]
  split
  · rfl
  · rename_i h
    exact (fromTriplets_zero h).symm

/-! ### The solver -/

theorem factorize_ok {P A : Sparse} (h : SamePattern P A) : SparseLdlt.factorize ⟨some P⟩ A = some ⟨some P⟩ := by
  simp [SparseLdlt.factorize, h]

theorem compute_ok {n m : ℕ} {P : Sparse} (lhs : Sparse × List (ℝ × ℝ))
    (h : ∀ δ γ, SamePattern P (lhs.1.add (regularization n m δ γ))) :
    SparseLdlt.compute n m ⟨some P⟩ lhs = some ⟨some P⟩ := by
  have : ∀ l : List (ℝ × ℝ), l.foldlM
      (fun st a => SparseLdlt.factorize st (lhs.1.add (regularization n m a.1 a.2))) (⟨some P⟩ : SparseLdlt) =
        some ⟨some P⟩ := by
    intro l
    induction l with
    | nil => rfl
    | cons a l ih =>
        rw [List.foldlM_cons, factorize_ok (h a.1 a.2)]
        exact ih
  simp only [SparseLdlt.compute, Option.isNone_some, Bool.false_eq_true, if_false, factorize_ok (h 0 0)]
  exact this lhs.2

theorem reg_pattern {A B : Sparse} (n m : ℕ) (h : SamePattern A B) (δ γ δ' γ' : ℝ) :
    SamePattern (A.add (regularization n m δ γ)) (B.add (regularization n m δ' γ')) :=
  add_pattern h (diagonal_pattern (by simp))

/-- Matrices of linear rows are made once. -/
def MatOk {S : Type} [ScalarOps S] (J : JacObj S) : Prop := J.nonlinear = [] → J.mat = fromTriplets J.cached

section

variable {S : Type} [ScalarOps S]

theorem jacobian_matOk {vars : List (Option ℕ)} {wrt : List ℕ} {h h' : Heap S} {J : JacObj S}
    (e : jacobian vars wrt h = some (J, h')) : MatOk J := by
  unfold jacobian at e
  split at e
  · cases e
  · simp only [Option.some.injEq, Prod.mk.injEq] at e
    obtain ⟨rfl, -⟩ := e
    intro h0
    exact if_pos h0

theorem hessian_matOk {v : ℕ} {wrt : List ℕ} {h h' : Heap S} {J : JacObj S}
    (e : hessian v wrt h = some (J, h')) : MatOk J := by
  unfold hessian at e
  repeat' split at e
  all_goals first
    | exact jacobian_matOk e
    | cases e

theorem value_matOk {J : JacObj S} (h : Heap S) (k : MatOk J) : MatOk (J.value h).2.1 := by
  unfold JacObj.value
  split
  · exact k
  · rename_i h0
    exact fun h1 => absurd h1 h0

theorem value_triplets {J : JacObj S} (h : Heap S) (k : MatOk J) : (J.value h).1 = fromTriplets (J.triplets h) := by
  unfold JacObj.value JacObj.triplets
  split
  · rename_i h0
    exact k h0
  · rfl

theorem step_matOk {c : Cmd S} {s s' : Api S} {o : Obs S} (h : step c s = some (o, s'))
    (k : (∀ J ∈ s.jacs, MatOk J) ∧ ∀ H ∈ s.hess, MatOk H.2) : (∀ J ∈ s'.jacs, MatOk J) ∧ ∀ H ∈ s'.hess, MatOk H.2 := by
  cases c with
  | jac rows wrt =>
      simp only [step] at h
      split at h <;> cases h
      rename_i J h1 e
      refine ⟨fun J' hJ => ?_, k.2⟩
      rcases List.mem_append.1 hJ with hJ | hJ
      · exact k.1 J' hJ
      · rw [List.mem_singleton.1 hJ]
        exact jacobian_matOk e
  | jacValue j =>
      simp only [step] at h
      split at h <;> cases h
      rename_i J h1
      refine ⟨fun J' hJ => ?_, k.2⟩
      rcases List.mem_or_eq_of_mem_set hJ with hJ | rfl
      · exact k.1 J' hJ
      · exact value_matOk _ (k.1 J (List.mem_of_getElem? h1))
  | hess lower i wrt =>
      simp only [step] at h
      repeat' split at h
      all_goals cases h
      rename_i H h1 e
      refine ⟨k.1, fun J' hJ => ?_⟩
      rcases List.mem_append.1 hJ with hJ | hJ
      · exact k.2 J' hJ
      · rw [List.mem_singleton.1 hJ]
        exact hessian_matOk e
  | hessValue j =>
      simp only [step] at h
      split at h <;> cases h
      rename_i lower H h1
      refine ⟨k.1, fun J' hJ => ?_⟩
      rcases List.mem_or_eq_of_mem_set hJ with hJ | rfl
      · exact k.2 J' hJ
      · exact value_matOk (J := H) _ (k.2 (lower, H) (List.mem_of_getElem? h1))
  | decl | lit =>
      simp only [step, Option.some.injEq, Prod.mk.injEq] at h
      obtain ⟨-, rfl⟩ := h
      exact k
  | _ =>
      simp only [step] at h
      repeat' split at h
      all_goals first
        | cases h; done
        | (simp only [Option.some.injEq, Prod.mk.injEq] at h; obtain ⟨-, rfl⟩ := h; exact k)

theorem run_matOk {cs : List (Cmd S)} {s s' : Api S} {os : List (Obs S)} (h : run cs s = some (os, s'))
    (k : (∀ J ∈ s.jacs, MatOk J) ∧ ∀ H ∈ s.hess, MatOk H.2) : (∀ J ∈ s'.jacs, MatOk J) ∧ ∀ H ∈ s'.hess, MatOk H.2 := by
  induction cs generalizing s os with
  | nil => simp only [run, Option.some.injEq, Prod.mk.injEq] at h; obtain ⟨-, rfl⟩ := h; exact k
  | cons c cs ih =>
      simp only [run] at h
      repeat' split at h
      all_goals cases h
      rename_i h1 _ _ h2
      exact ih h2 (step_matOk h1 k)

end

theorem nonZeros_eq {A B : Sparse} (h : SamePattern A B) : A.nonZeros = B.nonZeros := by
  have e : ∀ j, (A.col j).length = (B.col j).length := fun j => by simpa using congrArg List.length (h.2.2 j)
  simp only [Sparse.nonZeros, h.2.1, e]

theorem lagrangianH_pattern {Hf Hc Hf' Hc' : Sparse} (f f' : ℝ) (h : SamePattern Hf Hf') (k : SamePattern Hc Hc') :
    SamePattern (lagrangianH f Hf Hc) (lagrangianH f' Hf' Hc') :=
  add_pattern ((scale_pattern f Hf).trans (h.trans (scale_pattern f' Hf').symm)) k

theorem rows_pattern {A B : Sparse} (d d' : ℕ → ℝ) (h : SamePattern A B) :
    SamePattern (A.scaleRows d) (B.scaleRows d') :=
  (scaleRows_pattern d A).trans (h.trans (scaleRows_pattern d' B).symm)

theorem ipmLhs_pattern {H H' Ae Ae' Ai Ai' : Sparse} (n m : ℕ) (σ τ : ℕ → ℝ) (h1 : SamePattern H H')
    (h2 : SamePattern Ae Ae') (h3 : SamePattern Ai Ai') :
    SamePattern (ipmLhs n m σ H Ae Ai) (ipmLhs n m τ H' Ae' Ai') :=
  kktLhs_pattern n m (add_pattern h1 (lower_pattern (gram_pattern σ τ h3))) h2

theorem restore_hessian_pattern {nv : ℕ} (ne ni : ℕ) (ζ ζ' : ℝ) (xr xr' : Fin nv → ℝ) (Hc Hc' : Sparse) :
    SamePattern (Restore.hessian ne ni ζ xr Hc) (Restore.hessian ne ni ζ' xr' Hc') :=
  add_pattern (ofSorted_pattern rfl rfl
    (appendTriplets_positions (.cons (diagonal_pattern (by simp)) .nil) rfl 0 0)) (.refl _)

theorem restore_Ae_pattern {A B : Sparse} (nv ne ni : ℕ) (h : SamePattern A B) :
    SamePattern (Restore.Ae nv ne ni A) (Restore.Ae nv ne ni B) :=
  ofSorted_pattern h.1 rfl
    (appendDiagonal_pos (appendDiagonal_pos (appendTriplets_positions (.cons h .nil) rfl 0 0) _ _ rfl) _ _ rfl)

theorem restore_Ai_pattern {A B : Sparse} (nv ne ni : ℕ) (h : SamePattern A B) :
    SamePattern (Restore.Ai nv ne ni A) (Restore.Ai nv ne ni B) := by
  refine ofSorted_pattern rfl rfl (appendTriplets_positions ?_ (appendTriplets_positions ?_
    (appendDiagonal_pos (appendTriplets_positions (.cons h .nil) rfl 0 0) _ _ rfl) _ _) _ _)
  all_goals exact .cons (.refl _) (.cons (.refl _) (.cons (.refl _) .nil))

theorem computeAll_ok {n m : ℕ} {P : Sparse} (ls : List (Sparse × List (ℝ × ℝ)))
    (h : ∀ l ∈ ls, SamePattern P l.1) : (SparseLdlt.computeAll n m ls).isSome := by
  have rest : ∀ (Q : Sparse), (∀ l ∈ ls, ∀ δ γ, SamePattern Q (l.1.add (regularization n m δ γ))) →
      ls.foldlM (SparseLdlt.compute n m) ⟨some Q⟩ = some ⟨some Q⟩ := by
    clear h
    induction ls with
    | nil => exact fun _ _ => rfl
    | cons l ls ih =>
        intro Q hQ
        rw [List.foldlM_cons, compute_ok l (hQ l (.head _))]
        exact ih Q fun l' h' => hQ l' (.tail _ h')
  cases ls with
  | nil => rfl
  | cons l ls =>
      have first : SparseLdlt.compute n m ⟨none⟩ l =
          SparseLdlt.compute n m ⟨some (l.1.add (regularization n m 0 0))⟩ l := by
        simp [SparseLdlt.compute]
      have hl := h l (.head _)
      have h1 : SparseLdlt.computeAll n m (l :: ls) =
          (l :: ls).foldlM (SparseLdlt.compute n m) ⟨some (l.1.add (regularization n m 0 0))⟩ := by
        rw [SparseLdlt.computeAll, List.foldlM_cons, List.foldlM_cons, first]
      rw [h1, rest _ fun l' h' δ γ => reg_pattern n m (hl.symm.trans (h l' h')) 0 0 δ γ]
      rfl

end Slp
