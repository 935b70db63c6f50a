import Verif.Solver.PatternLemmas
import Verif.Solver.StepProps
import Verif.Autodiff.ApiProps

/-!
C77: which elements of Jacobians and Hessians are stored does not depend on values, so the sparse solver may reuse the
analysis of the first matrix.
-/

namespace Slp

/-- C77: the matrices that `value()` returns before and after any sequence of calls store the same elements, however the
values of variables change in between. -/
theorem value_positions {cs : List (Cmd ℝ)} {s s' : Api ℝ} {os : List (Obs ℝ)} (h : run cs s = some (os, s')) (j : ℕ) :
    (∀ A, s.jacMatrix j = some A → ∃ B, s'.jacMatrix j = some B ∧ SamePattern A B) ∧
      ∀ A, s.hessMatrix j = some A → ∃ B, s'.hessMatrix j = some B ∧ SamePattern A B := by
  constructor
  · intro A hA
    simp only [Api.jacMatrix, Option.map_eq_some_iff] at hA
    obtain ⟨J, hJ, rfl⟩ := hA
    obtain ⟨J', hJ', e⟩ := run_jacs h hJ
    refine ⟨_, by rw [Api.jacMatrix, hJ', Option.map_some], ?_⟩
    have p := e.pos s.heap s'.heap
    obtain ⟨m, rfl⟩ := e
    exact ofTriplets_pattern rfl rfl p.symm
  · intro A hA
    simp only [Api.hessMatrix, Option.map_eq_some_iff] at hA
    obtain ⟨H, hH, rfl⟩ := hA
    obtain ⟨H', hH', e1, e2⟩ := run_hess h hH
    refine ⟨_, by rw [Api.hessMatrix, hH', Option.map_some], ?_⟩
    have p := e2.pos s.heap s'.heap
    have q : SamePattern (.ofTriplets H.2.vars.length H.2.wrt.length (H.2.triplets s.heap))
        (.ofTriplets H'.2.vars.length H'.2.wrt.length (H'.2.triplets s'.heap)) := by
      obtain ⟨m, e⟩ := e2
      exact ofTriplets_pattern (by rw [e]) (by rw [e]) p.symm
    rw [← e1]
    cases H.1
    · exact q
    · exact lower_pattern q

/-- C77: an element that is nonzero after any later calls is already stored now. -/
theorem positions_cover {cs : List (Cmd ℝ)} {s s' : Api ℝ} {os : List (Obs ℝ)} {A B : Sparse} {i j l : ℕ}
    (h : run cs s = some (os, s'))
    (hm : (s.jacMatrix j = some A ∧ s'.jacMatrix j = some B) ∨ (s.hessMatrix j = some A ∧ s'.hessMatrix j = some B))
    (hne : B.coeff i l ≠ 0) : A.Stored i l := by
  have p : SamePattern A B := by
    rcases hm with ⟨h1, h2⟩ | ⟨h1, h2⟩
    · obtain ⟨C, h3, p⟩ := (value_positions h j).1 A h1
      rw [h2, Option.some.injEq] at h3
      exact h3 ▸ p
    · obtain ⟨C, h3, p⟩ := (value_positions h j).2 A h1
      rw [h2, Option.some.injEq] at h3
      exact h3 ▸ p
  rw [p.stored]
  by_contra hs
  exact hne (Sparse.coeff_of_not_mem fun e he h' => hs ⟨e, he, h'⟩)

/-- C77: in every program, these matrices hold what `value()` returns. -/
theorem value_elements {cs : List (Cmd ℝ)} {os : List (Obs ℝ)} {s s' : Api ℝ} {M : List (List ℝ)} {A : Sparse} {j : ℕ}
    (h : run cs Api.empty = some (os, s)) :
    (step (.jacValue j) s = some (.mat M, s') → s.jacMatrix j = some A →
      A.WF ∧ M = (List.range A.rows).map fun i => (List.range A.cols).map fun l => A.coeff i l) ∧
    (step (.hessValue j) s = some (.mat M, s') → s.hessMatrix j = some A →
      A.WF ∧ M = (List.range A.rows).map fun i => (List.range A.cols).map fun l => A.coeff i l) := by
  have k := run_matOk h ⟨by simp [Api.empty], by simp [Api.empty]⟩
  constructor
  · intro hs hA
    simp only [Api.jacMatrix, Option.map_eq_some_iff] at hA
    obtain ⟨J, hJ, rfl⟩ := hA
    refine ⟨tabulate_wf _ _ _ _, ?_⟩
    simp only [step, hJ, Option.some.injEq, Prod.mk.injEq, Obs.mat.injEq] at hs
    rw [← hs.1, value_triplets _ (k.1 J (List.mem_of_getElem? hJ))]
    refine List.map_congr_left fun i hi => List.map_congr_left fun l hl => ?_
    exact (ofTriplets_coeff _ _ _ (List.mem_range.1 hi) (List.mem_range.1 hl)).symm
  · intro hs hA
    simp only [Api.hessMatrix, Option.map_eq_some_iff] at hA
    obtain ⟨⟨lower, H⟩, hH, rfl⟩ := hA
    simp only [step, hH, Option.some.injEq, Prod.mk.injEq, Obs.mat.injEq] at hs
    have hv := value_triplets s.heap (k.2 (lower, H) (List.mem_of_getElem? hH))
    rw [← hs.1]
    cases lower
    · refine ⟨tabulate_wf _ _ _ _, ?_⟩
      refine List.map_congr_left fun i hi => List.map_congr_left fun l hl => ?_
      simp only [hessianValue, Bool.false_and, Bool.false_eq_true, if_false, hv]
      exact (ofTriplets_coeff _ _ _ (List.mem_range.1 hi) (List.mem_range.1 hl)).symm
    · refine ⟨tabulate_wf _ _ _ _, ?_⟩
      refine List.map_congr_left fun i hi => List.map_congr_left fun l hl => ?_
      have hi' := List.mem_range.1 hi
      have hl' := List.mem_range.1 hl
      classical
      have e := tabulate_coeff H.vars.length H.wrt.length (fun i j => (Sparse.ofTriplets H.vars.length H.wrt.length
        (H.triplets s.heap)).Stored i j ∧ j ≤ i) (Sparse.ofTriplets H.vars.length H.wrt.length (H.triplets s.heap)).coeff
        hi' hl'
      refine Eq.trans ?_ e.symm
      simp only [hessianValue, Bool.true_and, decide_eq_true_eq, hv]
      rw [ofTriplets_coeff _ _ _ hi' hl']
      by_cases hli : l ≤ i
      · rw [if_neg (by omega)]
        split
        · rfl
        · rename_i hn
          refine fromTriplets_zero fun ⟨t, ht, h1, h2⟩ => hn ⟨?_, hli⟩
          exact (tabulate_stored _ _ _ _ i l).2 ⟨hi', hl', t, ht, h1, h2⟩
      · rw [if_pos (by omega), if_neg (fun hh => hli hh.2)]
        rfl

/-- C77, C33: the matrix that the interior-point method assembles is the one its Newton step is derived from: `top_left`
holds the lower triangle of `H + AᵢᵀΣAᵢ`. -/
theorem ipm_top_left {n k : ℕ} {H Ai : Sparse} {Hm : Matrix (Fin n) (Fin n) ℝ} {σ : ℕ → ℝ} (hw : H.WF)
    (hn : H.rows = n ∧ H.cols = n) (hl : ∀ i j : Fin n, H.coeff i j = if j ≤ i then Hm i j else 0)
    (hk : Ai.rows = k) (hc : Ai.cols = n) :
    IsTopLeft n (ipmTopLeft σ H Ai) Hm (fun l => σ l) (Ai.mat k n) := by
  have hr : (Ai.gram σ).lower.rows = H.rows := hc.trans hn.1.symm
  have hk' : (Ai.gram σ).lower.cols = H.cols := hc.trans hn.2.symm
  have hg : (Ai.gram σ).lower.WF := tabulate_wf _ _ _ _
  refine ⟨Sparse.add_wf hw hg hk', hn.1, hn.2, fun i j => ?_⟩
  have hi : (i : ℕ) < Ai.cols := by rw [hc]; exact i.2
  have hj : (j : ℕ) < Ai.cols := by rw [hc]; exact j.2
  rw [ipmTopLeft, Sparse.add_coeff hw hg hr, hl, lower_coeff (Ai.gram σ) hi hj, gram_coeff σ Ai hi hj, hk,
    Finset.sum_range]
  by_cases h : j ≤ i
  · rw [if_pos h, if_pos h, if_pos (by exact_mod_cast h)]
    rfl
  · rw [if_neg h, if_neg h, if_neg (by exact_mod_cast h), add_zero]

/-- C77, C33: the step computed with the matrix that the interior-point method assembles solves the Newton system. -/
theorem ipm_step_correct {n m k : ℕ} {H Ae Ai : Sparse} {Hm : Matrix (Fin n) (Fin n) ℝ} {σ : ℕ → ℝ} {g : Fin n → ℝ}
    {ce y : Fin m → ℝ} {ci s z : Fin k → ℝ} {μ δ γ : ℝ} {p : Fin (n + m) → ℝ} (hs : ∀ i, 0 < s i) (hw : H.WF)
    (hn : H.rows = n ∧ H.cols = n) (hl : ∀ i j : Fin n, H.coeff i j = if j ≤ i then Hm i j else 0)
    (hH : ∀ i j, Hm i j = Hm j i) (he : Ae.WF) (hr : Ae.rows = m) (hk : Ai.rows = k) (hc : Ai.cols = n)
    (hσ : ∀ l : Fin k, σ l = z l / s l)
    (hp : Solves n m δ γ (ipmLhs n m σ H Ae Ai) p (kktRhs g (Ae.mat m n) ce (Ai.mat k n) ci s y z μ)) :
    NewtonSystem Hm δ γ g (Ae.mat m n) ce (Ai.mat k n) (ci - s) s y z μ
      (computeStep p (Ai.mat k n) s z μ (ci - s)) := by
  have ht := ipm_top_left (σ := σ) hw hn hl hk hc
  have e : (fun l : Fin k => σ l) = sigma s z := by
    funext l
    rw [hσ l]
    simp [sigma, div_eq_mul_inv, mul_comm]
  rw [e] at ht
  exact newton_step_correct hs hH ht he hr hp

/-- C77: Newton's method, SQP and the interior-point method never give the sparse solver a matrix whose positions it has
not analysed, if callbacks return matrices with the same positions in all iterations, whatever the values, the barrier
terms and the regularisations tried. -/
theorem factorizations_defined {n m : ℕ} {H Ae Ai : Sparse} :
    (∀ its : List (Sparse × List (ℝ × ℝ)), (∀ t ∈ its, SamePattern H t.1) →
      (SparseLdlt.computeAll n 0 its).isSome) ∧
    (∀ its : List ((Sparse × Sparse) × List (ℝ × ℝ)), (∀ t ∈ its, SamePattern H t.1.1 ∧ SamePattern Ae t.1.2) →
      (SparseLdlt.computeAll n m (its.map fun t => (kktLhs n m t.1.1 t.1.2, t.2))).isSome) ∧
    ∀ its : List (((ℕ → ℝ) × Sparse × Sparse × Sparse) × List (ℝ × ℝ)),
      (∀ t ∈ its, SamePattern H t.1.2.1 ∧ SamePattern Ae t.1.2.2.1 ∧ SamePattern Ai t.1.2.2.2) →
      (SparseLdlt.computeAll n m
        (its.map fun t => (ipmLhs n m t.1.1 t.1.2.1 t.1.2.2.1 t.1.2.2.2, t.2))).isSome := by
  refine ⟨fun its h => computeAll_ok its h, fun its h => computeAll_ok (P := kktLhs n m H Ae) _ fun l hl => ?_,
    fun its h => computeAll_ok (P := ipmLhs n m 1 H Ae Ai) _ fun l hl => ?_⟩
  · obtain ⟨t, ht, rfl⟩ := List.mem_map.1 hl
    exact kktLhs_pattern n m (h t ht).1 (h t ht).2
  · obtain ⟨t, ht, rfl⟩ := List.mem_map.1 hl
    exact ipmLhs_pattern n m _ _ (h t ht).1 (h t ht).2.1 (h t ht).2.2

/-- C77: so is feasibility restoration, for any restoration point and weights. -/
theorem restoration_defined {nv ne ni : ℕ} {Ae Ai : Sparse}
    (its : List (((ℕ → ℝ) × (ℝ × (Fin nv → ℝ)) × Sparse × Sparse × Sparse) × List (ℝ × ℝ)))
    (h : ∀ t ∈ its, SamePattern Ae t.1.2.2.2.1 ∧ SamePattern Ai t.1.2.2.2.2) :
    (SparseLdlt.computeAll (Restore.size nv ne ni) ne (its.map fun t =>
      (ipmLhs (Restore.size nv ne ni) ne t.1.1 (Restore.hessian ne ni t.1.2.1.1 t.1.2.1.2 t.1.2.2.1)
        (Restore.Ae nv ne ni t.1.2.2.2.1) (Restore.Ai nv ne ni t.1.2.2.2.2), t.2))).isSome := by
  refine computeAll_ok (P := ipmLhs (Restore.size nv ne ni) ne 1 (Restore.hessian ne ni 0 (0 : Fin nv → ℝ) Ae)
    (Restore.Ae nv ne ni Ae) (Restore.Ai nv ne ni Ai)) _ fun l hl => ?_
  obtain ⟨t, ht, rfl⟩ := List.mem_map.1 hl
  exact ipmLhs_pattern _ _ _ _ (restore_hessian_pattern ..) (restore_Ae_pattern _ _ _ (h t ht).1)
    (restore_Ai_pattern _ _ _ (h t ht).2)

/-- What one iteration of the interior-point method on a problem factorises: the derivatives are those of autodiff objects
in the state `s`, scaled. -/
structure AutodiffIterate where
  s : Api ℝ
  f : ℝ
  d : ℕ → ℝ
  e : ℕ → ℝ
  σ : ℕ → ℝ
  attempts : List (ℝ × ℝ)

/-- The matrix of the iteration, for the `jf`th and `jc`th `Hessian` and the `je`th and `ji`th `Jacobian`. -/
noncomputable def AutodiffIterate.lhs (n m jf jc je ji : ℕ) (t : AutodiffIterate) : Option (Sparse × List (ℝ × ℝ)) := do
  let Hf ← t.s.hessMatrix jf
  let Hc ← t.s.hessMatrix jc
  let Ae ← t.s.jacMatrix je
  let Ai ← t.s.jacMatrix ji
  some (ipmLhs n m t.σ (lagrangianH t.f Hf Hc) (Ae.scaleRows t.d) (Ai.scaleRows t.e), t.attempts)

/-- C77: in a solve, all iterations of which start from the same objects and reach their states by any calls, no
factorisation is undefined. -/
theorem solve_factorizations {n m jf jc je ji : ℕ} {s : Api ℝ} {Hf Hc Ae Ai : Sparse} (hf : s.hessMatrix jf = some Hf)
    (hc : s.hessMatrix jc = some Hc) (he : s.jacMatrix je = some Ae) (hi : s.jacMatrix ji = some Ai)
    (its : List AutodiffIterate) (h : ∀ t ∈ its, ∃ cs os, run cs s = some (os, t.s)) :
    ∃ ls, its.mapM (AutodiffIterate.lhs n m jf jc je ji) = some ls ∧ (SparseLdlt.computeAll n m ls).isSome := by
  have key : ∀ t ∈ its, ∃ l, t.lhs n m jf jc je ji = some l ∧
      SamePattern (ipmLhs n m 1 (lagrangianH 1 Hf Hc) Ae Ai) l.1 := by
    intro t ht
    obtain ⟨cs, os, hr⟩ := h t ht
    obtain ⟨Hf', e1, p1⟩ := (value_positions hr jf).2 Hf hf
    obtain ⟨Hc', e2, p2⟩ := (value_positions hr jc).2 Hc hc
    obtain ⟨Ae', e3, p3⟩ := (value_positions hr je).1 Ae he
    obtain ⟨Ai', e4, p4⟩ := (value_positions hr ji).1 Ai hi
    refine ⟨_, by simp only [AutodiffIterate.lhs, e1, e2, e3, e4]; rfl, ?_⟩
    exact ipmLhs_pattern _ _ _ _ (lagrangianH_pattern _ _ p1 p2) (p3.trans (scaleRows_pattern _ _).symm)
      (p4.trans (scaleRows_pattern _ _).symm)
  have all : ∃ ls, its.mapM (AutodiffIterate.lhs n m jf jc je ji) = some ls ∧
      ∀ l ∈ ls, SamePattern (ipmLhs n m 1 (lagrangianH 1 Hf Hc) Ae Ai) l.1 := by
    clear h
    induction its with
    | nil => exact ⟨[], rfl, by simp⟩
    | cons t its ih =>
        obtain ⟨l, hl, pl⟩ := key t (.head _)
        obtain ⟨ls, hls, pls⟩ := ih fun t' h' => key t' (.tail _ h')
        refine ⟨l :: ls, by simp [List.mapM_cons, hl, hls], ?_⟩
        intro l' h'
        rcases List.mem_cons.1 h' with rfl | h'
        · exact pl
        · exact pls l' h'
  obtain ⟨ls, h1, h2⟩ := all
  exact ⟨ls, h1, computeAll_ok ls h2⟩

/-- C77: the choice between the dense and the sparse solver does not depend on values either. -/
theorem sparse_choice {n m : ℕ} {H H' Ae Ae' Ai Ai' : Sparse} (h1 : SamePattern H H') (h2 : SamePattern Ae Ae')
    (h3 : SamePattern Ai Ai') :
    (newtonUseSparse n H ↔ newtonUseSparse n H') ∧ (sqpUseSparse n m H Ae ↔ sqpUseSparse n m H' Ae') ∧
      (ipmUseSparse n m H Ae Ai ↔ ipmUseSparse n m H' Ae' Ai') := by
  refine ⟨?_, ?_, ?_⟩
  · simp only [newtonUseSparse, nonZeros_eq h1]
  · simp only [sqpUseSparse, nonZeros_eq h1, nonZeros_eq h2]
  · simp only [ipmUseSparse, nonZeros_eq h1, nonZeros_eq h2, nonZeros_eq (lower_pattern (gram_pattern 1 1 h3))]

open Classical in
/-- C77: what is compared with a quarter of all positions is the number of stored positions: for the interior-point solver
those of the Hessian, of `Aₑ` and of the lower triangle of `AᵢᵀAᵢ`, which are the pairs of variables with a common
inequality constraint. -/
theorem sparse_choice_counts {n m : ℕ} {H Ae Ai : Sparse} (hH : H.WF) (hAe : Ae.WF) :
    let stored (A : Sparse) : ℕ := Nat.card {p : ℕ × ℕ // p.2 < A.cols ∧ A.Stored p.1 p.2}
    let common : ℕ := Nat.card {p : ℕ × ℕ // p.2 ≤ p.1 ∧ p.1 < Ai.cols ∧ ∃ l < Ai.rows, Ai.Stored l p.1 ∧ Ai.Stored l p.2}
    (newtonUseSparse n H ↔ (stored H : ℝ) < n * n / 4) ∧
    (sqpUseSparse n m H Ae ↔ (stored H + stored Ae : ℝ) < (n + m) * (n + m) / 4) ∧
    (ipmUseSparse n m H Ae Ai ↔ (stored H + common + stored Ae : ℝ) < (n + m) * (n + m) / 4) := by
  have hsum : ∀ (f : ℕ → ℕ) c, ((List.range c).map f).sum = ∑ j ∈ Finset.range c, f j := by
    intro f c
    induction c with
    | zero => rfl
    | succ c ih => rw [List.range_succ, List.map_append, List.sum_append, ih, Finset.sum_range_succ]; simp
  have count : ∀ A : Sparse, A.WF →
      A.nonZeros = Nat.card {p : ℕ × ℕ // p.2 < A.cols ∧ A.Stored p.1 p.2} := by
    intro A hA
    have e : {p : ℕ × ℕ | p.2 < A.cols ∧ A.Stored p.1 p.2} =
        ((Finset.range A.cols).sigma fun j => ((A.col j).map Prod.fst).toFinset).map
          ⟨fun s => (s.2, s.1), fun s s' h => by
            obtain ⟨a, b⟩ := s
            obtain ⟨a', b'⟩ := s'
            simp only [Prod.mk.injEq] at h
            obtain ⟨rfl, rfl⟩ := h
            rfl⟩ := by
      ext ⟨i, j⟩
      simp only [Set.mem_ofPred_eq, Finset.coe_map, Set.mem_image, Finset.mem_coe, Finset.mem_sigma, Finset.mem_range,
        List.mem_toFinset, Sigma.exists, stored_iff]
      constructor
      · rintro ⟨h1, h2⟩
        exact ⟨j, i, ⟨h1, h2⟩, rfl⟩
      · rintro ⟨j', i', ⟨h1, h2⟩, h3⟩
        obtain ⟨rfl, rfl⟩ := Prod.mk.inj h3
        exact ⟨h1, h2⟩
    have e2 : Nat.card {p : ℕ × ℕ // p.2 < A.cols ∧ A.Stored p.1 p.2} =
        Nat.card ({p : ℕ × ℕ | p.2 < A.cols ∧ A.Stored p.1 p.2} : Set (ℕ × ℕ)) := rfl
    rw [e2, e, Nat.card_coe_set_eq, Set.ncard_coe_finset, Finset.card_map, Finset.card_sigma, Sparse.nonZeros, hsum]
    refine Finset.sum_congr rfl fun j _ => ?_
    rw [List.toFinset_card_of_nodup, List.length_map]
    exact List.Pairwise.map _ (fun a b h => ne_of_lt h) (hA.sorted j)
  have hcommon : (Ai.gram 1).lower.nonZeros = Nat.card {p : ℕ × ℕ // p.2 ≤ p.1 ∧ p.1 < Ai.cols ∧
      ∃ l < Ai.rows, Ai.Stored l p.1 ∧ Ai.Stored l p.2} := by
    rw [count (Ai.gram 1).lower (tabulate_wf ..)]
    refine Nat.card_congr (Equiv.subtypeEquivRight fun p => ?_)
    simp only [Sparse.lower, Sparse.gram, tabulate_stored]
    show p.2 < Ai.cols ∧ (p.1 < Ai.cols ∧ p.2 < Ai.cols ∧ (p.1 < Ai.cols ∧ p.2 < Ai.cols ∧
      ∃ l, l < Ai.rows ∧ Ai.Stored l p.1 ∧ Ai.Stored l p.2) ∧ p.2 ≤ p.1) ↔ _
    constructor
    · rintro ⟨h1, h2, -, ⟨-, -, h3⟩, h4⟩
      exact ⟨h4, h2, h3⟩
    · rintro ⟨h4, h2, h3⟩
      exact ⟨by omega, h2, by omega, ⟨h2, by omega, h3⟩, h4⟩
  intro stored common
  refine ⟨?_, ?_, ?_⟩
  · rw [newtonUseSparse, count H hH]
    constructor <;> intro h <;> norm_num at h ⊢ <;> linarith
  · rw [sqpUseSparse, count H hH, count Ae hAe]
    push_cast
    constructor <;> intro h <;> norm_num at h ⊢ <;> linarith
  · rw [ipmUseSparse, count H hH, count Ae hAe, hcommon]
    push_cast
    constructor <;> intro h <;> norm_num at h ⊢ <;> linarith

/-- The requirement is real: a second matrix with other positions is not defined behaviour. -/
theorem pattern_required {n m : ℕ} {A B : Sparse} {l l' : List (ℝ × ℝ)}
    (h : ¬ SamePattern (A.add (regularization n m 0 0)) (B.add (regularization n m 0 0))) :
    SparseLdlt.computeAll n m [(A, l), (B, l')] = none := by
  have first : SparseLdlt.compute n m ⟨none⟩ (A, l) = some ⟨some (A.add (regularization n m 0 0))⟩ := by
    have e : SparseLdlt.compute n m ⟨none⟩ (A, l) =
        SparseLdlt.compute n m ⟨some (A.add (regularization n m 0 0))⟩ (A, l) := by
      simp [SparseLdlt.compute]
    rw [e]
    exact compute_ok (A, l) fun δ γ => reg_pattern n m (.refl A) 0 0 δ γ
  have second : SparseLdlt.compute n m ⟨some (A.add (regularization n m 0 0))⟩ (B, l') = none := by
    simp [SparseLdlt.compute, SparseLdlt.factorize, h]
  rw [SparseLdlt.computeAll, List.foldlM_cons, first]
  change List.foldlM (SparseLdlt.compute n m) _ [(B, l')] = none
  rw [List.foldlM_cons, second]
  rfl

/-! ### Examples -/

/-- After `x`, `x²`, its Jacobian and its Hessian. -/
def squareDerivs : List (Cmd ℝ) := [.decl, .bin .mul 0 0, .jac [1] [0], .hess true 1 [0]]

theorem squareDerivs_allowed (x : ℝ) : Allowed (squareDerivs ++ [.setValue 0 x]) := by
  simp [Allowed, squareDerivs, ValidAll, Valid, Spec.next, Spec.empty, Spec.WrtOK, Spec.vars, Term.varOf]

theorem squareDerivs_runs (x : ℝ) : ∃ s s' os os' A H, run squareDerivs Api.empty = some (os, s) ∧
    run [.setValue 0 x] s = some (os', s') ∧ s.jacMatrix 0 = some A ∧ s.hessMatrix 0 = some H := by
  have ha := (allowed_append.1 (squareDerivs_allowed x)).1
  obtain ⟨os, s', e, -⟩ := program_correct _ (squareDerivs_allowed x)
  rw [run_append] at e
  cases h : run squareDerivs Api.empty with
  | none => simp [h] at e
  | some r =>
      obtain ⟨os1, s⟩ := r
      simp only [h] at e
      cases h2 : run [.setValue 0 x] s with
      | none => simp [h2] at e
      | some r2 =>
          obtain ⟨os2, s2⟩ := r2
          have hj : ∃ A, s.jacMatrix 0 = some A := by
            obtain ⟨m, em, -⟩ := jacobian_correct (j := 0) (ts := [.bin .mul (.var 0) (.var 0)]) (ks := [0]) ha (by
              simp [squareDerivs, stateAfter, Spec.after, Spec.next, Spec.empty, Spec.exprs, Spec.vars, Term.varOf])
            rw [result_of_run h] at em
            cases hs : s.jacs[0]? with
            | none => simp [step, hs] at em
            | some J => exact ⟨_, by rw [Api.jacMatrix, hs, Option.map_some]⟩
          have hh : ∃ A, s.hessMatrix 0 = some A := by
            obtain ⟨m, em, -⟩ := hessian_correct (j := 0) (t := .bin .mul (.var 0) (.var 0)) (ks := [0]) (lower := true) ha (by
              simp [squareDerivs, stateAfter, Spec.after, Spec.next, Spec.empty, Spec.exprs, Spec.vars, Term.varOf])
              (by simp [Term.Smooth, BinOp.Smooth])
            rw [result_of_run h] at em
            cases hs : s.hess[0]? with
            | none => simp [step, hs] at em
            | some J => exact ⟨_, by rw [Api.hessMatrix, hs, Option.map_some]⟩
          obtain ⟨A, hA⟩ := hj
          obtain ⟨H, hH⟩ := hh
          exact ⟨s, s2, os1, os2, A, H, rfl, h2, hA, hH⟩

/-- The hypotheses of `value_positions`: `x` changes from 0, where the derivative of `x²` is 0. -/
example (x : ℝ) : ∃ s s' os A B, run [.setValue 0 x] s = some (os, s') ∧ s.jacMatrix 0 = some A ∧
    s'.jacMatrix 0 = some B ∧ SamePattern A B := by
  obtain ⟨s, s', os, os', A, H, -, h, hA, -⟩ := squareDerivs_runs x
  obtain ⟨B, hB, p⟩ := (value_positions h 0).1 A hA
  exact ⟨s, s', os', A, B, h, hA, hB, p⟩

/-- The hypotheses of `solve_factorizations`: the states with `x = 0` and `x = 5`, with two attempts at each. -/
example (σ : ℕ → ℝ) : ∃ s s' ls, [(⟨s, 1, 1, 1, σ, [(1, 0), (2, 1)]⟩ : AutodiffIterate), ⟨s', 1, 1, 1, 0, [(1, 0), (2, 1)]⟩].mapM
    (AutodiffIterate.lhs 1 1 0 0 0 0) = some ls ∧ (SparseLdlt.computeAll 1 1 ls).isSome := by
  obtain ⟨s, s', os, os', A, H, -, h, hA, hH⟩ := squareDerivs_runs 5
  obtain ⟨ls, h1, h2⟩ := solve_factorizations (n := 1) (m := 1) hH hH hA hA
    [⟨s, 1, 1, 1, σ, [(1, 0), (2, 1)]⟩, ⟨s', 1, 1, 1, 0, [(1, 0), (2, 1)]⟩] (by
      intro t ht
      simp only [List.mem_cons, List.not_mem_nil, or_false] at ht
      rcases ht with rfl | rfl
      · exact ⟨[], [], rfl⟩
      · exact ⟨_, _, h⟩)
  exact ⟨s, s', ls, h1, h2⟩

/-- The hypothesis of `pattern_required`: an element outside the diagonal appears. -/
example : SparseLdlt.computeAll 2 0 [(.empty 2 2, []), (.tabulate 2 2 (fun i j => i = 1 ∧ j = 0) fun _ _ => 1, [])] =
    none := by
  refine pattern_required fun h => ?_
  have h1 := (h.stored 1 0).2 ((add_stored _ _ 1 0).2 ⟨by simp [Sparse.tabulate], .inl
    ((tabulate_stored _ _ _ _ 1 0).2 (by simp))⟩)
  rcases ((add_stored _ _ 1 0).1 h1).2 with ⟨e, he, -⟩ | ⟨e, he, hr⟩
  · simp [Sparse.empty] at he
  · simp [regularization, Sparse.diagonal] at he
    simp [he] at hr

/-- The hypotheses of `ipm_top_left`: one variable and one inequality constraint. -/
example (h a σ : ℝ) : IsTopLeft 1 (ipmTopLeft (fun _ => σ) (.diagonal [h]) (.diagonal [a])) (fun _ _ => h) (fun _ => σ)
    ((Sparse.diagonal [a]).mat 1 1) := by
  refine ipm_top_left (Sparse.diagonal_wf _) ⟨rfl, rfl⟩ (fun i j => ?_) rfl rfl
  have hi : i = 0 := Subsingleton.elim _ _
  have hj : j = 0 := Subsingleton.elim _ _
  subst hi hj
  simp [Sparse.coeff, Sparse.diagonal]

/-- The hypotheses of `sparse_choice_counts`: five variables and a diagonal Hessian, which is sparse enough. -/
example (a : ℝ) : newtonUseSparse 5 (.diagonal [a, a, a, a, a]) ∧
    (Nat.card {p : ℕ × ℕ // p.2 < 5 ∧ (Sparse.diagonal [a, a, a, a, a]).Stored p.1 p.2} : ℝ) < 5 * 5 / 4 := by
  have h : newtonUseSparse 5 (.diagonal [a, a, a, a, a]) := by
    simp [newtonUseSparse, Sparse.nonZeros, Sparse.diagonal, List.range_succ]
    norm_num
  exact ⟨h, ((sparse_choice_counts (n := 5) (m := 0) (Ai := .empty 0 0) (Sparse.diagonal_wf [a, a, a, a, a])
    (Sparse.diagonal_wf [])).1.1 h)⟩

end Slp
