import Verif.Solver.AffineSpec
import Verif.Solver.DescentRateProps

/-! The steps of the SQP solver at points that satisfy linear equality constraints, for C78. -/

namespace Slp

open Classical Matrix Set

variable {n m : ℕ}

/-- No entry of the filter excludes feasible points, and its limits allow them. -/
def Filter.Open (F : Filter) : Prop :=
  (∀ e ∈ F.entries, ¬ e.violation ≤ .fin 0) ∧ .fin 0 ≤ F.minViolation ∧ ¬ .fin 0 > F.maxViolation

/-- At feasible points and along a descent direction the filter asks for the Armijo condition. -/
theorem feasible_tryAdd {F : Filter} (hF : F.Open) {f0 f1 d a : ℝ} (hd : d < 0) (ha : 0 < a) :
    ((F.tryAdd ⟨.fin f0, .fin 0⟩ ⟨.fin f1, .fin 0⟩ (.fin d) (.fin a)).2 = true ↔ f1 ≤ f0 + 1e-8 * a * d) ∧
      (F.tryAdd ⟨.fin f0, .fin 0⟩ ⟨.fin f1, .fin 0⟩ (.fin d) (.fin a)).1.Open ∧
      (¬ f1 ≤ f0 + 1e-8 * a * d →
        (F.tryAdd ⟨.fin f0, .fin 0⟩ ⟨.fin f1, .fin 0⟩ (.fin d) (.fin a)).1.lastRejectionDueToFilter = false) := by
  obtain ⟨h1, h2, h3⟩ := hF
  have hsw : switching ⟨.fin f0, .fin 0⟩ (.fin d) (.fin a) := by
    refine ⟨by rw [Fl.zero_def, Fl.fin_lt]; exact hd, ?_⟩
    show Fl.pow (.fin 0) 1.1 < Fl.fin a * Fl.pow (-Fl.fin d) 2.3
    rw [Fl.pow_fin le_rfl, Real.zero_rpow (by norm_num), Fl.fin_neg, Fl.pow_fin (by linarith), Fl.fin_mul, Fl.fin_lt]
    exact mul_pos ha (Real.rpow_pos_of_pos (by linarith) _)
  have hmax : ¬ ((FilterEntry.mk (.fin f1) (.fin 0)).cost.isFinite = false ∨
      (FilterEntry.mk (.fin f1) (.fin 0)).violation > F.maxViolation) := by
    rw [not_or]
    exact ⟨by simp [Fl.isFinite], h3⟩
  have hin : ¬ F.inFilter ⟨.fin f1, .fin 0⟩ := by
    rintro ⟨e, he, -, he'⟩
    exact h1 e he he'
  have harm : armijo ⟨.fin f0, .fin 0⟩ ⟨.fin f1, .fin 0⟩ (.fin d) (.fin a) ↔ f1 ≤ f0 + 1e-8 * a * d := by
    unfold armijo
    simp only
    rw [Fl.fin_mul, Fl.fin_mul, Fl.fin_add, Fl.fin_le]
  unfold Filter.tryAdd
  rw [if_neg hmax, if_pos ⟨h2, hsw⟩]
  by_cases hA : armijo ⟨.fin f0, .fin 0⟩ ⟨.fin f1, .fin 0⟩ (.fin d) (.fin a)
  · rw [if_neg (not_not.2 hA)]
    unfold Filter.finish
    rw [if_neg hin, if_neg (by rw [not_or, not_not, not_not]; exact ⟨hsw, hA⟩)]
    exact ⟨⟨fun _ => harm.1 hA, fun _ => rfl⟩, ⟨h1, h2, h3⟩, fun h => absurd (harm.1 hA) h⟩
  · rw [if_pos hA]
    exact ⟨⟨fun h => absurd h (by simp), fun h => absurd (harm.2 h) hA⟩, ⟨h1, h2, h3⟩, fun _ => rfl⟩

/-- At a feasible point a step that changes nothing is accepted. -/
theorem feasible_tryAdd_zero {F : Filter} (hF : F.Open) {f0 d : ℝ} (hd : ¬ d < 0) :
    (F.tryAdd ⟨.fin f0, .fin 0⟩ ⟨.fin f0, .fin 0⟩ (.fin d) 1).2 = true := by
  obtain ⟨h1, h2, h3⟩ := hF
  have hin : ¬ F.inFilter ⟨.fin f0, .fin 0⟩ := by
    rintro ⟨e, he, -, he'⟩
    exact h1 e he he'
  unfold Filter.tryAdd
  rw [if_neg (by rw [not_or]; exact ⟨by simp [Fl.isFinite], h3⟩), if_neg (by
    rintro ⟨-, hsw, -⟩
    rw [Fl.zero_def, Fl.fin_lt] at hsw
    exact hd hsw), if_neg (by
    rw [not_not]
    left
    unfold envelope
    simp only
    rw [Fl.one_def, Fl.pow_fin zero_le_one, Fl.fin_mul, Fl.fin_mul, Fl.fin_sub, Fl.fin_le]
    linarith)]
  unfold Filter.finish
  rw [if_neg hin]
  split <;> rfl

/-- The state of the loop at a feasible point of the domain. -/
structure SqpState.AtPoint (st : SqpState n m) (P : Nlp n m 0) (q : AffineProblem n m) (v : Fin n → ℝ) (z : Fin m → ℝ) :
    Prop where
  x : st.x = fun j => .fin (v j)
  y : st.y = fun j => .fin (z j)
  f : st.e.f = .fin (q.cost.f v)
  g : st.e.g = fun j => .fin (q.cost.g v j)
  H : ∀ i j, (st.e.H i j).isFinite = true ∧ (j ≤ i → st.e.H i j = .fin (q.cost.H v i j))
  ce : st.e.ce = fun _ => .fin 0
  Ae : st.e.Ae = fun i j => .fin (q.A i j)
  E0 : st.E0 = .fin (unscaledInfSqp P.scaling (q.cost.g v) q.A (fun _ => 0) z)
  filter : st.filter.Open

theorem SqpState.AtPoint.regular {st : SqpState n m} {P : Nlp n m 0} {q : AffineProblem n m} {v : Fin n → ℝ} {y : Fin m → ℝ}
    (h : st.AtPoint P q v y) : st.Regular :=
  ⟨fun j => by rw [h.x]; rfl, fun j => by rw [h.y]; rfl, fun j => by rw [h.g]; rfl, fun i j => (h.H i j).1,
    fun i => by rw [h.ce]; rfl, fun i j => by rw [h.Ae]; rfl⟩

theorem SqpState.AtPoint.lower {st : SqpState n m} {P : Nlp n m 0} {q : AffineProblem n m} {v : Fin n → ℝ} {y : Fin m → ℝ}
    (h : st.AtPoint P q v y) (hv : v ∈ q.cost.dom) : lowerSym st.e.H.real = q.cost.H v :=
  lowerSym_of (q.cost.symm hv) fun i j => (h.H i j).2

theorem SqpState.AtPoint.system {st : SqpState n m} {P : Nlp n m 0} {q : AffineProblem n m} {v : Fin n → ℝ} {y : Fin m → ℝ}
    (h : st.AtPoint P q v y) (hv : v ∈ q.cost.dom) (hf : v ∈ q.feasible) (env : Env) : st.system env (fun _ => .fin 0) = q.system v y := by
  have hr := h.regular
  have hA : st.e.Ae.real = q.A := by rw [h.Ae]; rfl
  have hy : st.y.real = y := by rw [h.y]; rfl
  have hg : st.e.g.real = q.cost.g v := by rw [h.g]; rfl
  unfold SqpState.system AffineProblem.system
  congr 1
  · funext i j
    unfold kktLhsF
    rw [if_pos ⟨hr.H, hr.Ae, fun i => i.elim0, fun i => i.elim0, fun i => i.elim0, fun i => i.elim0⟩]
    congr 1
    unfold kktDense
    rw [h.lower hv, hA]
    simp only [Finset.univ_eq_empty, Finset.sum_empty, add_zero]
  · funext i
    rw [if_pos ⟨hr.g, hr.Ae, hr.y, fun _ => rfl⟩, hA, hy, hg]
    congr 1
    unfold sqpRhs
    induction i using Fin.addCases with
    | left i => simp only [Fin.addCases_left, Pi.add_apply, Pi.neg_apply]; ring
    | right i =>
      simp only [Fin.addCases_right, Pi.neg_apply]
      rw [show (q.A *ᵥ v) i = q.b i from congrFun hf i, sub_self]
      rfl

/-- The step solves the linearised optimality conditions. -/
theorem affine_step {env : Env} {st : SqpState n m} {P : Nlp n m 0} {q : AffineProblem n m} {v : Fin n → ℝ} {y : Fin m → ℝ}
    (h : st.AtPoint P q v y) (hv : v ∈ q.cost.dom) (hf : v ∈ q.feasible) (hE : env.Plain (q.system v y)) (i : ℕ) :
    ∃ (p : Fin n → ℝ) (r : Fin m → ℝ), (sqpComputeStep env st (fun _ => .fin 0) i).px = (fun j => .fin (p j)) ∧
      (sqpComputeStep env st (fun _ => .fin 0) i).py = (fun j => .fin (r j)) ∧
      q.cost.g v + q.cost.H v *ᵥ p = q.Aᵀ *ᵥ (y + r) ∧ q.A *ᵥ p = 0 := by
  have hA : st.e.Ae.real = q.A := by rw [h.Ae]; rfl
  have hy : st.y.real = y := by rw [h.y]; rfl
  have hg : st.e.g.real = q.cost.g v := by rw [h.g]; rfl
  obtain ⟨⟨h1, h2⟩, h3, h4⟩ := sqp_step_solved (env := env) (i := i) h.regular (ce := fun _ => .fin 0) (fun _ => rfl) (δ := 0)
    (γ := 0) (by rw [h.system hv hf]; exact hE i)
  refine ⟨_, _, funext fun j => Fl.finite_toReal (h1 j), funext fun j => Fl.finite_toReal (h2 j), ?_, ?_⟩
  · funext j
    have := h3 j
    rw [h.lower hv, hA, hy, hg] at this
    rw [mulVec_add]
    simp only [Pi.add_apply, mulVec, dotProduct, transpose_apply]
    simp only [zero_mul, add_zero, Vec.real] at this ⊢
    linarith
  · funext l
    have := h4 l
    rw [hA] at this
    simp only [zero_mul, add_zero] at this
    exact this.trans (by simp [Vec.real, Fl.toReal])

/-- What the step satisfies determines it. -/
theorem affine_step_unique {q : AffineProblem n m} {v : Fin n → ℝ} {a : ℝ} (ha : 0 < a)
    (hH : ∀ p : Fin n → ℝ, q.A *ᵥ p = 0 → a * (p ⬝ᵥ p) ≤ p ⬝ᵥ q.cost.H v *ᵥ p) {p p' : Fin n → ℝ} {z z' : Fin m → ℝ}
    (h1 : q.cost.g v + q.cost.H v *ᵥ p = q.Aᵀ *ᵥ z) (h2 : q.A *ᵥ p = 0) (h1' : q.cost.g v + q.cost.H v *ᵥ p' = q.Aᵀ *ᵥ z')
    (h2' : q.A *ᵥ p' = 0) : p = p' := by
  have hz : q.A *ᵥ (p - p') = 0 := by rw [mulVec_sub, h2, h2', sub_self]
  have e : q.cost.H v *ᵥ (p - p') = q.Aᵀ *ᵥ (z - z') := by
    rw [mulVec_sub, mulVec_sub, ← h1, ← h1']; abel
  have h3 := hH _ hz
  rw [e, dotProduct_comm _ (q.Aᵀ *ᵥ _), Matrix.mulVec_transpose, ← dotProduct_mulVec, hz, dotProduct_zero] at h3
  have h4 : (p - p') ⬝ᵥ (p - p') = 0 := le_antisymm (by nlinarith [dot_self_nonneg (p - p')]) (dot_self_nonneg _)
  exact sub_eq_zero.1 (dotProduct_self_eq_zero.1 h4)

/-- The slope of the cost along the step. -/
theorem affine_slope {q : AffineProblem n m} {v p : Fin n → ℝ} {z : Fin m → ℝ}
    (h1 : q.cost.g v + q.cost.H v *ᵥ p = q.Aᵀ *ᵥ z) (h2 : q.A *ᵥ p = 0) :
    p ⬝ᵥ q.cost.H v *ᵥ p = -(q.cost.g v ⬝ᵥ p) := by
  have e : (q.cost.g v + q.cost.H v *ᵥ p) ⬝ᵥ p = 0 := by
    rw [h1, Matrix.mulVec_transpose, ← dotProduct_mulVec, h2, dotProduct_zero]
  rw [add_dotProduct, dotProduct_comm (q.cost.H v *ᵥ p)] at e
  linarith

theorem feasible_line {q : AffineProblem n m} {v p : Fin n → ℝ} (hv : v ∈ q.feasible) (hp : q.A *ᵥ p = 0) (t : ℝ) :
    v + t • p ∈ q.feasible := by
  show q.A *ᵥ (v + t • p) = q.b
  rw [mulVec_add, mulVec_smul, hp, smul_zero, add_zero]
  exact hv

theorem Nlp.IsAffine.f_at {P : Nlp n m 0} {q : AffineProblem n m} (hP : P.IsAffine q) {v : Fin n → ℝ} (hv : v ∈ q.cost.dom) :
    P.f (fun j => .fin (v j)) = .fin (q.cost.f v) := hP.f (fun j => .fin (v j)) (fun _ => rfl) hv

theorem Nlp.IsAffine.f_outside {P : Nlp n m 0} {q : AffineProblem n m} (hP : P.IsAffine q) {v : Fin n → ℝ}
    (hv : v ∉ q.cost.dom) : (P.f fun j => .fin (v j)).isFinite = false := hP.outside (fun j => .fin (v j)) (fun _ => rfl) hv

/-- A trial point of the step. -/
theorem affine_trial {st : SqpState n m} {P : Nlp n m 0} {q : AffineProblem n m} (hP : P.IsAffine q) {v : Fin n → ℝ}
    {y : Fin m → ℝ} (h : st.AtPoint P q v y) (hv : v ∈ q.feasible) {S : SqpStep n m} {p : Fin n → ℝ} {r : Fin m → ℝ}
    (h1 : S.px = fun j => .fin (p j)) (h2 : S.py = fun j => .fin (r j)) (hp : q.A *ᵥ p = 0) (t : ℝ) :
    sqpTrial P st S (.fin t) = ⟨fun j => .fin ((v + t • p) j), fun j => .fin ((y + t • r) j),
      P.f fun j => .fin ((v + t • p) j), fun _ => .fin 0⟩ := by
  have hx : (fun j => st.x j + .fin t * S.px j) = fun j => Fl.fin ((v + t • p) j) := by
    funext j; rw [h.x, h1]; rfl
  have hy : (fun j => st.y j + .fin t * S.py j) = fun j => Fl.fin ((y + t • r) j) := by
    funext j; rw [h.y, h2]; rfl
  unfold sqpTrial
  simp only
  rw [hx, hy]
  congr 1
  funext i
  rw [hP.ce _ fun _ => rfl, show Vec.real (fun j => Fl.fin ((v + t • p) j)) = v + t • p from rfl,
    show q.A *ᵥ (v + t • p) = q.b from feasible_line hv hp t, sub_self]

theorem norm1_zero : norm1 (List.ofFn fun _ : Fin m => Fl.fin 0) = .fin 0 := by
  rw [norm1_fin]; simp

theorem SqpState.AtPoint.entry {st : SqpState n m} {P : Nlp n m 0} {q : AffineProblem n m} {v : Fin n → ℝ} {y : Fin m → ℝ}
    (h : st.AtPoint P q v y) : st.entry = ⟨.fin (q.cost.f v), .fin 0⟩ := by
  show FilterEntry.mk st.e.f (norm1 (List.ofFn st.e.ce)) = _
  rw [h.f, h.ce, norm1_zero]

theorem sqpEntry_feasible (f : Fl) : sqpEntry f (fun _ : Fin m => .fin 0) = ⟨f, .fin 0⟩ := by
  show FilterEntry.mk f (norm1 (List.ofFn fun _ : Fin m => Fl.fin 0)) = _
  rw [norm1_zero]

/-- The second-order corrections repeat the step and are rejected like it. -/
theorem affine_soc {env : Env} {st : SqpState n m} {P : Nlp n m 0} {q : AffineProblem n m} (hP : P.IsAffine q)
    {v : Fin n → ℝ} {y : Fin m → ℝ} (h : st.AtPoint P q v y) (hv : v ∈ q.cost.dom) (hvf : v ∈ q.feasible)
    (hE : env.Plain (q.system v y)) {a : ℝ} (ha : 0 < a)
    (hH : ∀ p : Fin n → ℝ, q.A *ᵥ p = 0 → a * (p ⬝ᵥ p) ≤ p ⬝ᵥ q.cost.H v *ᵥ p) {p : Fin n → ℝ} {z : Fin m → ℝ}
    (h1 : q.cost.g v + q.cost.H v *ᵥ p = q.Aᵀ *ᵥ z) (h2 : q.A *ᵥ p = 0) (hD : q.cost.g v ⬝ᵥ p < 0)
    (hdom : v + (1 : ℝ) • p ∈ q.cost.dom)
    (hrej : ¬ q.cost.f (v + (1 : ℝ) • p) ≤ q.cost.f v + 1e-8 * 1 * (q.cost.g v ⬝ᵥ p)) (k : ℕ) (t : SqpTrial n m) (viol : Fl)
    (F : Filter) (i : ℕ) (ht : t.ce = fun _ => .fin 0) (hF : F.Open) (hl : F.lastRejectionDueToFilter = false) :
    let soc := sqpSocLoop env P st (.fin (q.cost.g v ⬝ᵥ p)) (.fin 1) k (fun _ => .fin 0) t viol F i
    soc.accepted = none ∧ soc.filter.Open ∧ soc.filter.lastRejectionDueToFilter = false := by
  induction k generalizing t viol F i with
  | zero => exact ⟨rfl, hF, hl⟩
  | succ k ih =>
    have hce : (fun j => Fl.fin 1 * (fun _ : Fin m => Fl.fin 0) j + t.ce j) = fun _ => .fin 0 := by
      funext j
      rw [ht]
      simp only
      rw [Fl.fin_mul, Fl.fin_add]
      norm_num
    rw [sqpSocLoop]
    simp only
    rw [hce]
    obtain ⟨p', r', e1, e2, e3, e4⟩ := affine_step h hv hvf hE i
    obtain rfl := affine_step_unique ha hH h1 h2 e3 e4
    rw [affine_trial hP h hvf e1 e2 h2]
    simp only
    rw [hP.f_at hdom, sqpEntry_feasible, h.entry]
    obtain ⟨t1, t2, t3⟩ := feasible_tryAdd hF (f0 := q.cost.f v) (f1 := q.cost.f (v + (1 : ℝ) • p)) hD one_pos
    rw [if_neg (by rw [t1]; exact hrej)]
    split
    · exact ⟨rfl, t2, t3 hrej⟩
    · exact ih _ _ _ _ rfl t2 (t3 hrej)

/-- The line search accepts a step that is not too short. -/
theorem affine_search {env : Env} {st : SqpState n m} {P : Nlp n m 0} {q : AffineProblem n m} (hP : P.IsAffine q)
    {u v : Fin n → ℝ} {y : Fin m → ℝ} (h : st.AtPoint P q v y) (hcl : IsClosed (q.level u)) (hv : v ∈ q.level u)
    (hE : env.Plain (q.system v y)) {a b : ℝ} (ha : 0 < a) (hb : 0 < b) (hab : b ≤ 9.9e6 * a)
    (hH : q.Curvature (q.level u) a b) {S : SqpStep n m} {p : Fin n → ℝ} {r : Fin m → ℝ}
    (s1 : S.px = fun j => .fin (p j)) (s2 : S.py = fun j => .fin (r j))
    (h1 : q.cost.g v + q.cost.H v *ᵥ p = q.Aᵀ *ᵥ (y + r)) (h2 : q.A *ᵥ p = 0) (hp0 : p ≠ 0) (k : ℕ) (t : ℝ) (F : Filter)
    (c i : ℕ) (ls : SqpLineSearch n m)
    (hls : sqpLineSearch env P st S (.fin (q.cost.g v ⬝ᵥ p)) k (.fin t) F c i = some ls) (hF : F.Open) (ht0 : 0 < t)
    (ht : min 1 (0.99 * (a / b)) ≤ t) :
    ls.filter.Open ∧ ∃ t', min 1 (0.99 * (a / b)) ≤ t' ∧ v + t' • p ∈ q.level u ∧
      q.cost.f (v + t' • p) ≤ q.cost.f v + 1e-8 * t' * (q.cost.g v ⬝ᵥ p) ∧ ls.accepted = some (.filter,
        ⟨fun j => .fin ((v + t' • p) j), fun j => .fin ((y + t' • r) j), .fin (q.cost.f (v + t' • p)), fun _ => .fin 0⟩,
        .fin t') := by
  have hcurv := affine_slope h1 h2
  have hpos := hH v hv p h2
  have hpp : 0 < p ⬝ᵥ p := lt_of_le_of_ne (dot_self_nonneg p) fun h => hp0 (dotProduct_self_eq_zero.1 h.symm)
  have hD : q.cost.g v ⬝ᵥ p < 0 := by nlinarith [hpos.1]
  have hK := feasible_line hv.2 h2
  induction k generalizing t F c i with
  | zero => exact absurd hls (by simp [sqpLineSearch])
  | succ k ih =>
    have hhalf : Fl.fin t * .fin 0.5 = .fin (t * 0.5) := Fl.fin_mul _ _
    -- going on after a rejection
    have hnext : ¬ (v + t • p ∈ q.cost.level u ∧ q.cost.f (v + t • p) ≤ q.cost.f v + 1e-8 * t * (q.cost.g v ⬝ᵥ p)) →
        ¬ Fl.fin t * .fin 0.5 < alphaMin ∧ 0 < t * 0.5 ∧ min 1 (0.99 * (a / b)) ≤ t * 0.5 := by
      intro hrej
      have h1 : 2 * (1 - 1e-8) * a < t * b := by
        by_contra hc
        exact hrej (q.cost.armijo_on hK hcl hv.1 (fun w hw => (hH w hw p h2).2) hD (by rw [← hcurv]; exact hpos.1) ht0
          (not_lt.1 hc))
      have h2 : 0.99 * (a / b) ≤ t * 0.5 := by
        rw [← mul_div_assoc, div_le_iff₀ hb]
        norm_num at h1 ⊢
        nlinarith
      refine ⟨?_, by positivity, (min_le_right _ _).trans h2⟩
      rw [hhalf, alphaMin, Fl.fin_lt, not_lt]
      refine le_trans ?_ h2
      rw [← mul_div_assoc, le_div_iff₀ hb]
      norm_num at hab ⊢
      linarith
    rw [sqpLineSearch] at hls
    simp only at hls
    rw [affine_trial hP h hv.2 s1 s2 h2] at hls
    simp only at hls
    by_cases hdom : v + t • p ∈ q.cost.dom
    · rw [hP.f_at hdom,
        if_neg (by rw [not_not]; exact ⟨rfl, fun _ => rfl⟩), sqpEntry_feasible, h.entry] at hls
      obtain ⟨t1, t2, t3⟩ := feasible_tryAdd hF (f0 := q.cost.f v) (f1 := q.cost.f (v + t • p)) hD ht0
      by_cases hA : q.cost.f (v + t • p) ≤ q.cost.f v + 1e-8 * t * (q.cost.g v ⬝ᵥ p)
      · rw [if_pos (t1.2 hA)] at hls
        obtain rfl := Option.some.inj hls
        refine ⟨t2, t, ht, ⟨⟨hdom, le_trans (hA.trans ?_) hv.1.2⟩, hK t⟩, hA, rfl⟩
        have : 1e-8 * t * (q.cost.g v ⬝ᵥ p) ≤ 0 := mul_nonpos_of_nonneg_of_nonpos (by positivity) hD.le
        linarith
      · rw [if_neg (by rw [t1]; exact hA)] at hls
        obtain ⟨n1, n2, n3⟩ := hnext fun hc => hA hc.2
        set F' := (F.tryAdd ⟨.fin (q.cost.f v), .fin 0⟩ ⟨.fin (q.cost.f (v + t • p)), .fin 0⟩ (.fin (q.cost.g v ⬝ᵥ p))
          (.fin t)).1 with hF'
        set T : SqpTrial n m := ⟨fun j => .fin ((v + t • p) j), fun j => .fin ((y + t • r) j), .fin (q.cost.f (v + t • p)),
          fun _ => .fin 0⟩ with hT
        have hsoc : (sqpSoc env P st (.fin (q.cost.g v ⬝ᵥ p)) (.fin t) T F' i).accepted = none ∧
            (sqpSoc env P st (.fin (q.cost.g v ⬝ᵥ p)) (.fin t) T F' i).filter.Open ∧
            (sqpSoc env P st (.fin (q.cost.g v ⬝ᵥ p)) (.fin t) T F' i).filter.lastRejectionDueToFilter = false := by
          unfold sqpSoc
          split
          · rename_i hc
            obtain rfl : t = 1 := by
              have := hc.1
              rw [Fl.one_def] at this
              injection this
            rw [h.ce]
            exact affine_soc hP h hv.1.1 hv.2 hE ha (fun p hp => (hH v hv p hp).1) h1 h2 hD hdom hA 5 T _ _ _ rfl t2 (t3 hA)
          · exact ⟨rfl, t2, t3 hA⟩
        obtain ⟨o1, o2, o3⟩ := hsoc
        rw [o1] at hls
        simp only [Option.elim] at hls
        rw [if_neg (by rw [o3]; simp), if_neg n1, hhalf] at hls
        exact ih _ _ _ _ hls o2 n2 n3
    · rw [if_pos (by rw [hP.f_outside hdom]; simp)] at hls
      obtain ⟨n1, n2, n3⟩ := hnext fun hc => hdom hc.1.1
      rw [if_neg n1, hhalf] at hls
      exact ih _ _ _ _ hls hF n2 n3

end Slp
