import Verif.Solver.RestoreLoopModel

/-! C36: the problem that feasibility restoration solves, block by block. -/

namespace Slp

open Classical

variable {n m k : ℕ}

/-- The relaxation variables, in the order `pₑ`, `nₑ`, `pᵢ`, `nᵢ`. -/
def stackRelax (pe ne : Fin m → ℝ) (pi ni : Fin k → ℝ) : Fin (relaxed m k) → ℝ := fun j =>
  Fin.append (Fin.append pe ne) (Fin.append pi ni) (Fin.cast (by unfold relaxed; omega) j)

/-- A vector of the restoration problem: the original variables and then the relaxation variables. -/
def stackAll (x : Fin n → ℝ) (pe ne : Fin m → ℝ) (pi ni : Fin k → ℝ) : Fin (n + relaxed m k) → ℝ :=
  Fin.append x (stackRelax pe ne pi ni)

/-- How much a deviation from the reference value `r` costs. -/
def IsProximityWeight (r w : ℝ) : Prop := (r = 0 → w = 1) ∧ (1 ≤ |r| → w = 1 / r ^ 2) ∧ (|r| ≤ 1 → w = 1)

theorem stackRelax_sum (pe ne : Fin m → ℝ) (pi ni : Fin k → ℝ) :
    ∑ j, stackRelax pe ne pi ni j = ∑ i, pe i + ∑ i, ne i + ∑ i, pi i + ∑ i, ni i := by
  have h : ∑ j, stackRelax pe ne pi ni j = ∑ j, Fin.append (Fin.append pe ne) (Fin.append pi ni) j :=
    Fintype.sum_equiv (finCongr (show relaxed m k = m + m + (k + k) by unfold relaxed; omega)) _ _ fun j => rfl
  rw [h]
  simp only [Fin.sum_univ_add, Fin.append_left, Fin.append_right]
  ring

theorem stackRelax_pe (pe ne : Fin m → ℝ) (pi ni : Fin k → ℝ) (i : Fin m) (h : (i : ℕ) < relaxed m k) :
    stackRelax pe ne pi ni ⟨i, h⟩ = pe i := by
  unfold stackRelax
  rw [show Fin.cast _ (⟨i, h⟩ : Fin (relaxed m k)) = Fin.castAdd (k + k) (Fin.castAdd m i) from rfl]
  simp

theorem stackRelax_ne (pe ne : Fin m → ℝ) (pi ni : Fin k → ℝ) (i : Fin m) (h : m + (i : ℕ) < relaxed m k) :
    stackRelax pe ne pi ni ⟨m + i, h⟩ = ne i := by
  unfold stackRelax
  rw [show Fin.cast _ (⟨m + i, h⟩ : Fin (relaxed m k)) = Fin.castAdd (k + k) (Fin.natAdd m i) from rfl,
    Fin.append_left, Fin.append_right]

theorem stackRelax_pi (pe ne : Fin m → ℝ) (pi ni : Fin k → ℝ) (i : Fin k) (h : 2 * m + (i : ℕ) < relaxed m k) :
    stackRelax pe ne pi ni ⟨2 * m + i, h⟩ = pi i := by
  unfold stackRelax
  rw [show Fin.cast _ (⟨2 * m + i, h⟩ : Fin (relaxed m k)) = Fin.natAdd (m + m) (Fin.castAdd k i) from
    Fin.ext (by simp; omega)]
  simp

theorem stackRelax_ni (pe ne : Fin m → ℝ) (pi ni : Fin k → ℝ) (i : Fin k)
    (h : 2 * m + k + (i : ℕ) < relaxed m k) :
    stackRelax pe ne pi ni ⟨2 * m + k + i, h⟩ = ni i := by
  unfold stackRelax
  rw [show Fin.cast _ (⟨2 * m + k + i, h⟩ : Fin (relaxed m k)) = Fin.natAdd (m + m) (Fin.natAdd k i) from
    Fin.ext (by simp; omega), Fin.append_right, Fin.append_right]

/-- Two entries `-1` and `1` in a row pick two relaxation variables. -/
theorem relax_row (v : Fin (relaxed m k) → ℝ) (a b : ℕ) (ha : a < relaxed m k) (hb : b < relaxed m k)
    (hab : a ≠ b) :
    ∑ j : Fin (relaxed m k), (if (j : ℕ) = a then (-1 : Fl) else if (j : ℕ) = b then 1 else 0).toReal * v j =
      - v ⟨a, ha⟩ + v ⟨b, hb⟩ := by
  have h : ∀ j : Fin (relaxed m k),
      (if (j : ℕ) = a then (-1 : Fl) else if (j : ℕ) = b then 1 else 0).toReal * v j =
        (if j = ⟨a, ha⟩ then - v j else 0) + if j = ⟨b, hb⟩ then v j else 0 := by
    intro j
    have h1 : (j : ℕ) = a ↔ j = ⟨a, ha⟩ := by rw [Fin.ext_iff]
    have h2 : (j : ℕ) = b ↔ j = ⟨b, hb⟩ := by rw [Fin.ext_iff]
    simp only [h1, h2]
    by_cases e1 : j = ⟨a, ha⟩
    · have e2 : j ≠ ⟨b, hb⟩ := fun e => hab (by rw [e1] at e; simpa using e)
      rw [if_pos e1, if_pos e1, if_neg e2]
      show (Fl.fin (-1)).toReal * _ = _
      simp [Fl.toReal]
    · rw [if_neg e1, if_neg e1]
      by_cases e2 : j = ⟨b, hb⟩
      · rw [if_pos e2, if_pos e2]
        show (Fl.fin 1).toReal * _ = _
        simp [Fl.toReal]
      · rw [if_neg e2, if_neg e2]
        show (Fl.fin 0).toReal * _ = _
        simp [Fl.toReal]
  rw [Finset.sum_congr rfl fun j _ => h j, Finset.sum_add_distrib]
  simp

theorem weight_eq {r w : ℝ} (h : IsProximityWeight r w) : Restore.weight r = w ∧ frWeight (.fin r) = .fin w := by
  obtain ⟨h0, h1, h2⟩ := h
  have hpos : r ≠ 0 → 0 < r ^ 2 := fun h => by positivity
  have key : Restore.weight r = w := by
    unfold Restore.weight
    split
    · next h => rw [h0 h]
    · next h =>
      rcases le_total 1 |r| with hr | hr
      · rw [h1 hr, min_eq_left, one_div]
        rw [inv_le_one₀ (hpos h), ← sq_abs]
        nlinarith
      · rw [h2 hr, min_eq_right]
        rw [one_le_inv₀ (hpos h), ← sq_abs]
        nlinarith [abs_nonneg r]
  refine ⟨key, ?_⟩
  rw [← key]
  unfold frWeight Restore.weight
  rw [Fl.one_def, Fl.fin_mul]
  by_cases h : r = 0
  · subst h
    rw [if_pos rfl, show (Fl.fin 1 / Fl.fin (0 * 0)) = Fl.pinf by show Fl.div _ _ = _; simp [Fl.div]]
    simp only [Fl.min]
    split <;> first | rfl | (exfalso; rename_i h; revert h; simp [LT.lt, Fl.lt])
  · rw [if_neg h, Fl.fin_div (mul_ne_zero h h), Fl.min_fin]
    congr 2
    rw [one_div, sq]

/-- **C36.** The problem that feasibility restoration solves, at the point made of `x` and of the relaxation
variables `pₑ`, `nₑ`, `pᵢ`, `nᵢ`, for an original problem whose constraints are finite at `x`. Its cost is
`ρ (Σ pₑ + Σ nₑ + Σ pᵢ + Σ nᵢ) + √μ/2 Σ wⱼ (xⱼ - xrⱼ)²` with `ρ = 1000`, its constraints are
`cₑ(x) - pₑ + nₑ = 0`, `cᵢ(x) - pᵢ + nᵢ ≥ 0` and that all relaxation variables are at least zero, and the gradient,
the Jacobians and the Hessian map each direction to what these functions do along it. -/
theorem restoration_problem_correct (env : Env) (P : Nlp n m k) (x xr w : Fin n → ℝ) (pe ne : Fin m → ℝ)
    (pi ni : Fin k → ℝ) {μ : ℝ} (hμ : 0 ≤ μ) (hw : ∀ j, IsProximityWeight (xr j) (w j))
    {ce : Fin m → ℝ} (hce : ∀ i, P.ce (fun j => .fin (x j)) i = .fin (ce i))
    {ci : Fin k → ℝ} (hci : ∀ i, P.ci (fun j => .fin (x j)) i = .fin (ci i)) :
    let R := frProblem env P (fun j => .fin (xr j)) (.fin μ)
    let xp : Vec (n + relaxed m k) := fun j => .fin (stackAll x pe ne pi ni j)
    R.f xp = .fin (1000 * (∑ i, pe i + ∑ i, ne i + ∑ i, pi i + ∑ i, ni i) +
        √μ / 2 * ∑ j, w j * (x j - xr j) ^ 2) ∧
    (∀ i, R.ce xp i = .fin (ce i - pe i + ne i)) ∧
    (∀ i, R.ci xp (Fin.castAdd _ i) = .fin (ci i - pi i + ni i)) ∧
    (∀ j, R.ci xp (Fin.natAdd _ j) = .fin (stackRelax pe ne pi ni j)) ∧
    ∀ (dx : Fin n → ℝ) (dpe dne : Fin m → ℝ) (dpi dni : Fin k → ℝ),
      let d := stackAll dx dpe dne dpi dni
      ∑ j, (R.g xp j).toReal * d j =
          √μ * ∑ j, w j * (x j - xr j) * dx j + 1000 * (∑ i, dpe i + ∑ i, dne i + ∑ i, dpi i + ∑ i, dni i) ∧
      (∀ i, ∑ j, (R.Ae xp i j).toReal * d j =
          ∑ j, (P.Ae (fun j => .fin (x j)) i j).toReal * dx j - dpe i + dne i) ∧
      (∀ i, ∑ j, (R.Ai xp (Fin.castAdd _ i) j).toReal * d j =
          ∑ j, (P.Ai (fun j => .fin (x j)) i j).toReal * dx j - dpi i + dni i) ∧
      (∀ i, ∑ j, (R.Ai xp (Fin.natAdd _ i) j).toReal * d j = stackRelax dpe dne dpi dni i) ∧
      ∀ y z, ∑ i, d i * ∑ j, (R.H xp y z i j).toReal * d j = √μ * ∑ j, w j * dx j ^ 2 := by
  intro R xp
  have ho : frOrigin xp = fun j => .fin (x j) := by
    funext j
    show Fl.fin (stackAll x pe ne pi ni (Fin.castAdd _ j)) = _
    rw [stackAll, Fin.append_left]
  have hr : frRelax xp = fun j => .fin (stackRelax pe ne pi ni j) := by
    funext j
    show Fl.fin (stackAll x pe ne pi ni (Fin.natAdd _ j)) = _
    rw [stackAll, Fin.append_right]
  have hsq : Fl.sqrt (.fin μ) = .fin (√μ) := if_neg (not_lt.2 hμ)
  refine ⟨?_, ?_, ?_, ?_, ?_⟩
  · show (if _ then _ else _) = _
    rw [if_pos ⟨fun _ => rfl, fun _ => rfl, rfl⟩]
    congr 1
    unfold Restore.cost
    congr 2
    · rw [← stackRelax_sum]
      refine Finset.sum_congr rfl fun j _ => ?_
      show stackAll x pe ne pi ni (Fin.natAdd _ j) = _
      rw [stackAll, Fin.append_right]
    · refine Finset.sum_congr rfl fun j _ => ?_
      have e : Restore.origin (nv := n) (ne := m) (ni := k)
          (fun j => xp.real ⟨j, by have := j.2; unfold relaxed; unfold Restore.size at this; omega⟩) j = x j := by
        show stackAll x pe ne pi ni (Fin.castAdd _ j) = _
        rw [stackAll, Fin.append_left]
      rw [e]
      show (x j - xr j) * Restore.weight (xr j) * (x j - xr j) = _
      rw [(weight_eq (hw j)).1]
      ring
  · intro i
    show P.ce (frOrigin xp) i - frPe (frRelax xp) i + frNe (frRelax xp) i = _
    rw [ho, hr, hce]
    dsimp only [frPe, frNe]
    rw [stackRelax_pe, stackRelax_ne, Fl.fin_sub, Fl.fin_add]
  · intro i
    dsimp only [R, frProblem]
    rw [Fin.append_left, ho, hr, hci]
    dsimp only [frPi, frNi]
    rw [stackRelax_pi, stackRelax_ni, Fl.fin_sub, Fl.fin_add]
  · intro j
    dsimp only [R, frProblem]
    rw [Fin.append_right, hr]
  intro dx dpe dne dpi dni d
  have hd1 : ∀ j, d (Fin.castAdd _ j) = dx j := fun j => Fin.append_left ..
  have hd2 : ∀ j, d (Fin.natAdd _ j) = stackRelax dpe dne dpi dni j := fun j => Fin.append_right ..
  refine ⟨?_, ?_, ?_, ?_, ?_⟩
  · rw [Fin.sum_univ_add]
    simp only [hd1, hd2]
    congr 1
    · rw [Finset.mul_sum]
      refine Finset.sum_congr rfl fun j _ => ?_
      have e : R.g xp (Fin.castAdd _ j) = .fin (√μ * w j * (x j - xr j)) := by
        dsimp only [R, frProblem]
        rw [Fin.append_left, ho, hsq, (weight_eq (hw j)).2, Fl.fin_mul, Fl.fin_sub, Fl.fin_mul]
      rw [e]
      show √μ * w j * (x j - xr j) * dx j = _
      ring
    · rw [← stackRelax_sum, Finset.mul_sum]
      refine Finset.sum_congr rfl fun j _ => ?_
      have e : R.g xp (Fin.natAdd _ j) = .fin 1000 := by
        dsimp only [R, frProblem]
        rw [Fin.append_right]
      rw [e]; rfl
  · intro i
    rw [Fin.sum_univ_add]
    simp only [hd1, hd2]
    have e1 : ∀ j, R.Ae xp i (Fin.castAdd _ j) = P.Ae (fun j => .fin (x j)) i j := fun j => by
      dsimp only [R, frProblem]
      rw [Fin.append_left, ho]
    have e2 : ∀ j, R.Ae xp i (Fin.natAdd _ j) =
        if (j : ℕ) = i then (-1 : Fl) else if (j : ℕ) = m + i then 1 else 0 := fun j => by
      dsimp only [R, frProblem]
      rw [Fin.append_right]
    simp only [e1, e2]
    have := i.2
    rw [relax_row _ _ _ (by unfold relaxed; omega) (by unfold relaxed; omega) (by omega), stackRelax_pe,
      stackRelax_ne]
    ring
  · intro i
    rw [Fin.sum_univ_add]
    simp only [hd1, hd2]
    have e1 : ∀ j, R.Ai xp (Fin.castAdd _ i) (Fin.castAdd _ j) = P.Ai (fun j => .fin (x j)) i j := fun j => by
      dsimp only [R, frProblem]
      rw [Fin.append_left, Fin.append_left, ho]
    have e2 : ∀ j, R.Ai xp (Fin.castAdd _ i) (Fin.natAdd _ j) =
        if (j : ℕ) = 2 * m + i then (-1 : Fl) else if (j : ℕ) = 2 * m + k + i then 1 else 0 := fun j => by
      dsimp only [R, frProblem]
      rw [Fin.append_right, Fin.append_left]
    simp only [e1, e2]
    have := i.2
    rw [relax_row _ _ _ (by unfold relaxed; omega) (by unfold relaxed; omega) (by omega), stackRelax_pi,
      stackRelax_ni]
    ring
  · intro i
    rw [Fin.sum_univ_add]
    simp only [hd1, hd2]
    have e1 : ∀ j, R.Ai xp (Fin.natAdd _ i) (Fin.castAdd _ j) = .fin 0 := fun j => by
      dsimp only [R, frProblem]
      rw [Fin.append_left, Fin.append_right]; rfl
    have e2 : ∀ j, R.Ai xp (Fin.natAdd _ i) (Fin.natAdd _ j) = .fin (if i = j then 1 else 0) := fun j => by
      dsimp only [R, frProblem]
      rw [Fin.append_right, Fin.append_right]
      split <;> rfl
    simp only [e1, e2]
    simp [Fl.toReal]
  · intro y z
    have e : ∀ i j, R.H xp y z i j = .fin (if i = j then Fin.append (fun j => √μ * w j) (fun _ => 0) i else 0) := by
      intro i j
      show (if i = j then _ else _) = _
      split
      · refine Fin.addCases (fun i => ?_) (fun i => ?_) i
        · rw [Fin.append_left, Fin.append_left, hsq, (weight_eq (hw i)).2, Fl.fin_mul]
        · rw [Fin.append_right, Fin.append_right]; rfl
      · rfl
    simp only [e]
    rw [Fin.sum_univ_add]
    simp only [hd1, hd2]
    rw [Finset.mul_sum]
    simp [Fl.toReal, hd1]
    refine Finset.sum_congr rfl fun j _ => ?_
    ring

/-- At the reference point 3 the weight is 1/9, and 1 at 1/2 and 0. -/
example : IsProximityWeight 3 (1 / 9) ∧ IsProximityWeight (1 / 2) 1 ∧ IsProximityWeight 0 1 := by
  refine ⟨⟨?_, ?_, ?_⟩, ⟨?_, ?_, ?_⟩, ⟨?_, ?_, ?_⟩⟩ <;> norm_num [abs_of_pos]

end Slp
