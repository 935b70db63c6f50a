import Verif.Solver.AffineStartSpec
import Verif.Solver.AffineCase

/-! C82: with linear equality constraints the SQP solver also converges from guesses that violate them. -/

namespace Slp

open Classical Matrix Set

variable {n m : ℕ}

theorem twoNorm_eq_euclid (v : Fin n → ℝ) : twoNorm v = euclid v := by
  unfold twoNorm euclid
  rw [dotProduct]
  simp only [pow_two]

theorem AffineProblem.violation_nonneg (q : AffineProblem n m) (x : Fin n → ℝ) : 0 ≤ q.violation x :=
  Finset.sum_nonneg fun _ _ => abs_nonneg _

theorem AffineProblem.violation_zero {q : AffineProblem n m} {x : Fin n → ℝ} (h : q.violation x = 0) : x ∈ q.feasible := by
  funext i
  have := (Finset.sum_eq_zero_iff_of_nonneg fun _ _ => abs_nonneg _).1 h i (Finset.mem_univ i)
  exact sub_eq_zero.1 (abs_eq_zero.1 this)

/-- The filter takes a worthwhile step to a feasible point, and then does not exclude feasible points. -/
theorem start_tryAdd {θ f0 f1 d : ℝ} (hθ : 0 < θ)
    (h : 1e-4 < θ ∨ 0 ≤ d ∨ (-d) ^ (2.3 : ℝ) ≤ θ ^ (1.1 : ℝ) ∨ f1 ≤ f0 + 1e-8 * d) :
    ((Filter.make (.fin θ)).tryAdd ⟨.fin f0, .fin θ⟩ ⟨.fin f1, .fin 0⟩ (.fin d) 1).2 = true ∧
      ((Filter.make (.fin θ)).tryAdd ⟨.fin f0, .fin θ⟩ ⟨.fin f1, .fin 0⟩ (.fin d) 1).1.Open := by
  have e1 : (1 : ℝ) ≤ Max.max 1 θ := le_max_left _ _
  have e2 : θ ≤ Max.max 1 θ := le_max_right _ _
  have hmin : (Filter.make (.fin θ)).minViolation = .fin (1e-4 * Max.max 1 θ) := by
    simp only [Filter.make]; rw [Fl.one_def, Fl.max_fin, Fl.fin_mul]
  have hmax : (Filter.make (.fin θ)).maxViolation = .fin (1e4 * Max.max 1 θ) := by
    simp only [Filter.make]; rw [Fl.one_def, Fl.max_fin, Fl.fin_mul]
  have hopen : (Filter.make (.fin θ)).Open := by
    refine ⟨by simp [Filter.make], ?_, ?_⟩
    · rw [hmin, Fl.fin_le]; positivity
    · rw [hmax, gt_iff_lt, Fl.fin_lt, not_lt]; positivity
  have henv : (envelope ⟨.fin f0, .fin θ⟩ 1).violation = .fin ((1 - 1e-5) * θ) := by
    unfold envelope
    simp only
    rw [Fl.one_def, Fl.pow_fin zero_le_one, Real.one_rpow, Fl.fin_mul, Fl.fin_sub, Fl.fin_mul, one_mul]
  have hsuf : sufficientDecrease ⟨.fin f0, .fin θ⟩ ⟨.fin f1, .fin 0⟩ 1 := by
    right
    rw [henv, Fl.fin_le]
    norm_num
    exact hθ.le
  have harm : armijo ⟨.fin f0, .fin θ⟩ ⟨.fin f1, .fin 0⟩ (.fin d) 1 ↔ f1 ≤ f0 + 1e-8 * d := by
    unfold armijo
    simp only
    rw [Fl.one_def, Fl.fin_mul, Fl.fin_mul, Fl.fin_add, Fl.fin_le, mul_one]
  have hsw : switching ⟨.fin f0, .fin θ⟩ (.fin d) 1 → d < 0 ∧ θ ^ (1.1 : ℝ) < (-d) ^ (2.3 : ℝ) := by
    rintro ⟨s1, s2⟩
    rw [Fl.zero_def, Fl.fin_lt] at s1
    refine ⟨s1, ?_⟩
    simp only at s2
    rw [Fl.pow_fin hθ.le, Fl.fin_neg, Fl.pow_fin (by linarith), Fl.one_def, Fl.fin_mul, gt_iff_lt, Fl.fin_lt, one_mul] at s2
    exact s2
  have hfin : ((Filter.make (.fin θ)).finish ⟨.fin f0, .fin θ⟩ ⟨.fin f1, .fin 0⟩ (.fin d) 1).2 = true ∧
      ((Filter.make (.fin θ)).finish ⟨.fin f0, .fin θ⟩ ⟨.fin f1, .fin 0⟩ (.fin d) 1).1.Open := by
    unfold Filter.finish
    rw [if_neg (by rintro ⟨e, he, -⟩; simp [Filter.make] at he)]
    split
    · refine ⟨rfl, ?_, hopen.2⟩
      intro e he
      simp only [Filter.add, Filter.make, List.filter_nil, List.nil_append, List.mem_singleton] at he
      rw [he, henv, Fl.fin_le, not_le]
      have : (0 : ℝ) < 1 - 1e-5 := by norm_num
      positivity
    · exact ⟨rfl, hopen⟩
  unfold Filter.tryAdd
  rw [if_neg (by rw [not_or]; exact ⟨by simp [Fl.isFinite], hopen.2.2⟩)]
  by_cases hc : FilterEntry.violation ⟨.fin f0, .fin θ⟩ ≤ (Filter.make (.fin θ)).minViolation ∧
      switching ⟨.fin f0, .fin θ⟩ (.fin d) 1
  · rw [if_pos hc]
    obtain ⟨s1, s2⟩ := hsw hc.2
    have hle := hc.1
    rw [hmin, Fl.fin_le] at hle
    have hA : f1 ≤ f0 + 1e-8 * d := by
      rcases h with h | h | h | h
      · exfalso
        rcases le_total 1 θ with h1 | h1
        · rw [max_eq_right h1] at hle; linarith
        · rw [max_eq_left h1] at hle; linarith
      · exact absurd s1 (not_lt.2 h)
      · exact absurd s2 (not_lt.2 h)
      · exact h
    rw [if_neg (not_not.2 (harm.2 hA))]
    exact hfin
  · rw [if_neg hc, if_neg (not_not.2 hsuf)]
    exact hfin

/-- What the solver returns. -/
structure AffineStart (opts : SolverOptions) (P : Nlp n m 0) (q : AffineProblem n m) (x v : Fin n → ℝ) (δ : ℝ)
    (res : SqpResult n m) : Prop where
  finite : res.x.Finite ∧ res.y.Finite
  dom : res.x.real ∈ q.cost.dom
  place : res.iterations = 0 ∧ res.x.real = x ∨
    res.x.real ∈ q.level v ∧ q.cost.f res.x.real + res.iterations * δ ≤ q.cost.f v + 2 * δ
  status : res.status = .success ∧
      unscaledInfSqp P.scaling (q.cost.g res.x.real) q.A (q.A *ᵥ res.x.real - q.b) res.y.real ≤ opts.tolerance ∨
    res.status = .callbackRequestedStop ∨ res.status = .timeout ∨
    res.status = .maxIterationsExceeded ∧ opts.maxIterations ≤ res.iterations

/-- C82: let the constraints be linear equality constraints, let `v` be the point on the constraints at which the
second-order Taylor polynomial of the cost at the guess is smallest, and let moving to `v` be worthwhile, for instance
because the guess violates the constraints by more than 1e-4. Then the first iteration moves to `v`, all later iterates
meet the constraints and have no larger cost than `v`, and under the conditions of C78 on the costs below that of `v` the
run ends with SUCCESS within a bounded number of iterations unless a callback, the time limit or the iteration limit stops
it. -/
theorem sqp_affine_start {env : Env} {opts : SolverOptions} (ht : 0 < opts.tolerance) {P : Nlp n m 0}
    {q : AffineProblem n m} (hP : P.IsAffine q) (hS : P.scaling.PositiveFactors) (hmn : m ≤ n) {x : Vec n} (hx : x.Finite)
    (hdom : x.real ∈ q.cost.dom) (hxf : x.real ∉ q.feasible) (hxbox : ∀ j, |x.real j| ≤ 1e10)
    (hseem : ¬ q.SeemsInfeasible x.real)
    {v : Fin n → ℝ} (hv : q.ModelStationary x.real v) (hvdom : v ∈ q.cost.dom) (hworth : q.Worthwhile x.real v)
    (hpos : ∀ p, q.A *ᵥ p = 0 → p ≠ 0 → 0 < p ⬝ᵥ q.cost.H x.real *ᵥ p)
    (hfac : ∀ i, env.factor i = true) (hE0 : env.Plain (q.system x.real fun _ => 0))
    (hE : ∀ w ∈ q.level v, ∀ y, env.Plain (q.system w y)) (hcl : IsClosed (q.level v))
    (hbox : ∀ w ∈ q.level v, ∀ j, |w j| ≤ 1e10)
    {a b L : ℝ} (ha : 0 < a) (hb : 0 < b) (hab : b ≤ 9.9e6 * a) (hH : q.Curvature (q.level v) a b) (hL0 : 0 < L)
    (hL : q.cost.LipschitzHessian (q.level v) L) (cbs : List Callback) :
    ∃ res, sqp env opts P cbs x .start = some res ∧
      AffineStart opts P q x.real v (affineDecrease a b L (opts.tolerance * P.scaling.f)) res := by
  obtain ⟨res, hres, -⟩ := sqp_correct_partial env opts P cbs x ht
  refine ⟨res, hres, ?_⟩
  set δ := affineDecrease a b L (opts.tolerance * P.scaling.f) with hδ
  have hδ0 : 0 < δ := affineDecrease_pos ha hb hL0 (mul_pos ht hS.f_pos)
  have hy0 : Vec.Finite (fun _ : Fin m => (0 : Fl)) := fun _ => rfl
  have hg : P.g x = fun j => .fin (q.cost.g x.real j) := funext (hP.g x hx hdom)
  have hgf : (P.g x).Finite := fun j => by rw [hg]; rfl
  have hgr : (P.g x).real = q.cost.g x.real := by rw [hg]; rfl
  have hHf : (P.H x (fun _ => 0) Fin.elim0).Finite := fun i j => (hP.H x _ hx hy0 hdom i j).1
  have hl := lowerSym_of (q.cost.symm hdom) fun i j => (hP.H x (fun _ => 0) hx hy0 hdom i j).2
  have hce : P.ce x = fun i => .fin ((q.A *ᵥ x.real) i - q.b i) := funext (hP.ce x hx)
  have hcef : (P.ce x).Finite := fun i => by rw [hce]; rfl
  have hcer : (P.ce x).real = q.A *ᵥ x.real - q.b := by rw [hce]; rfl
  have hA : P.Ae x = fun i j => .fin (q.A i j) := funext fun i => funext (hP.Ae x hx i)
  have hAf : (P.Ae x).Finite := fun i j => by rw [hA]; rfl
  have hAr : (P.Ae x).real = q.A := by rw [hA]; rfl
  unfold sqp sqpRun at hres
  simp only at hres
  set st := sqpInit env P x fun _ => 0 with hst
  have hreg : st.Regular := ⟨hx, hy0, hgf, hHf, hcef, hAf⟩
  rw [if_neg (by omega), if_neg (by
    rw [not_not]
    exact ⟨by show (P.f x).isFinite = true; rw [hP.f x hx hdom]; rfl, hgf, hHf, hcef, hAf, fun i => i.elim0, fun i => i.elim0⟩)] at hres
  have hE0' : st.E0 = .fin (unscaledInfSqp P.scaling (q.cost.g x.real) q.A (q.A *ᵥ x.real - q.b) fun _ => 0) := by
    refine (if_pos ⟨hgf, hAf, hcef, hy0⟩).trans ?_
    show Fl.fin (unscaledInfSqp P.scaling (P.g x).real (P.Ae x).real (P.ce x).real _) = _
    rw [hgr, hAr, hcer]
    rfl
  obtain ⟨k, hk⟩ : ∃ k, loopRounds opts 0 = k + 1 := by
    refine ⟨loopRounds opts 0 - 1, ?_⟩
    unfold loopRounds
    omega
  rw [hk, sqpLoop] at hres
  have here : ∀ status w', (status = .success ∧
      unscaledInfSqp P.scaling (q.cost.g x.real) q.A (q.A *ᵥ x.real - q.b) (fun _ => 0) ≤ opts.tolerance ∨
      status = .callbackRequestedStop ∨ status = .timeout) → AffineStart opts P q x.real v δ (st.exit status w') := by
    intro status w' h
    refine ⟨⟨hx, hy0⟩, hdom, .inl ⟨rfl, rfl⟩, ?_⟩
    rcases h with h | h | h
    · exact .inl h
    · exact .inr (.inl h)
    · exact .inr (.inr (.inl h))
  by_cases c1 : ¬ st.E0 > .fin opts.tolerance
  · rw [if_pos c1] at hres
    obtain rfl := Option.some.inj hres
    refine here _ _ (.inl ⟨rfl, ?_⟩)
    rwa [hE0', gt_iff_lt, Fl.fin_lt, not_lt] at c1
  rw [if_neg c1] at hres
  have hinf : ¬ eqInfeasible env st.e.Ae st.e.ce := by
    intro hc
    unfold eqInfeasible at hc
    rw [if_pos ⟨hAf, hcef⟩] at hc
    obtain ⟨-, i1, i2⟩ := hc
    change twoNorm (fun j => ∑ i, (P.Ae x).real i j * (P.ce x).real i) < _ at i1
    change twoNorm (P.ce x).real > _ at i2
    rw [hAr, hcer, twoNorm_eq_euclid] at i1
    rw [hcer, twoNorm_eq_euclid] at i2
    exact hseem ⟨i1, i2⟩
  rw [if_neg hinf] at hres
  have hdiv : ¬ diverging env st.x := by
    rw [diverging, not_or, not_not]
    refine ⟨?_, hx⟩
    rw [infNormF, if_pos hreg.x, gt_iff_lt, Fl.fin_lt, not_lt, infNorm_le]
    exact ⟨by norm_num, hxbox⟩
  rw [if_neg hdiv] at hres
  simp only at hres
  by_cases c3 : (runRegistered st.info 0 cbs World.start.calls).2 = true
  · rw [if_pos c3] at hres
    obtain rfl := Option.some.inj hres
    exact here _ _ (.inr (.inl rfl))
  rw [if_neg c3] at hres
  unfold sqpMove at hres
  rw [if_neg (by rw [hfac]; simp)] at hres
  simp only at hres
  -- the step
  have hsys : st.system env st.e.ce = q.system x.real fun _ => 0 := by
    unfold SqpState.system AffineProblem.system
    congr 1
    · funext i j
      unfold kktLhsF
      rw [if_pos ⟨hreg.H, hreg.Ae, fun i => i.elim0, fun i => i.elim0, fun i => i.elim0, fun i => i.elim0⟩]
      congr 1
      unfold kktDense
      rw [show lowerSym st.e.H.real = q.cost.H x.real from hl, show st.e.Ae.real = q.A from hAr]
      simp only [Finset.univ_eq_empty, Finset.sum_empty, add_zero]
    · funext i
      rw [if_pos ⟨hreg.g, hreg.Ae, hreg.y, hreg.ce⟩, show st.e.Ae.real = q.A from hAr, show st.e.g.real = q.cost.g x.real from hgr,
        show st.e.ce.real = q.A *ᵥ x.real - q.b from hcer, show st.y.real = fun _ => 0 from rfl]
      congr 1
      unfold sqpRhs
      induction i using Fin.addCases with
      | left i => simp only [Fin.addCases_left, Pi.add_apply, Pi.neg_apply]; ring
      | right i => simp only [Fin.addCases_right, Pi.neg_apply, Pi.sub_apply]
  obtain ⟨⟨f1, f2⟩, r1, r2⟩ := sqp_step_solved (env := env) (i := World.start.solves) hreg (ce := st.e.ce) hreg.ce (δ := 0)
    (γ := 0) (by rw [hsys]; exact hE0 _)
  set S := sqpComputeStep env st st.e.ce World.start.solves with hSd
  set p := S.px.real with hp
  set r := S.py.real with hr
  have s1 : S.px = fun j => .fin (p j) := funext fun j => Fl.finite_toReal (f1 j)
  have s2 : S.py = fun j => .fin (r j) := funext fun j => Fl.finite_toReal (f2 j)
  have h1 : q.cost.g x.real + q.cost.H x.real *ᵥ p = q.Aᵀ *ᵥ r := by
    funext j
    have := r1 j
    rw [show lowerSym st.e.H.real = q.cost.H x.real from hl, show st.e.Ae.real = q.A from hAr,
      show st.e.g.real = q.cost.g x.real from hgr, show st.y.real = fun _ => 0 from rfl] at this
    simp only [mul_zero, Finset.sum_const_zero, sub_zero, zero_mul, add_zero] at this
    simp only [Pi.add_apply, mulVec, dotProduct, transpose_apply]
    linarith
  have h2 : q.A *ᵥ p = -(q.A *ᵥ x.real - q.b) := by
    funext l
    have := r2 l
    rw [show st.e.Ae.real = q.A from hAr, show st.e.ce.real = q.A *ᵥ x.real - q.b from hcer] at this
    simp only [zero_mul, add_zero] at this
    exact this
  -- it leads to `v`
  have hpv : x.real + p = v := by
    have hn : q.A *ᵥ (x.real + p - v) = 0 := by
      rw [mulVec_sub, mulVec_add, h2, show q.A *ᵥ v = q.b from hv.1]; abel
    by_contra hne
    have hw := hpos _ hn (sub_ne_zero.2 hne)
    have e1 : (q.cost.g x.real + q.cost.H x.real *ᵥ p) ⬝ᵥ (x.real + p - v) = 0 := by
      rw [h1, Matrix.mulVec_transpose, ← dotProduct_mulVec, hn, dotProduct_zero]
    have e2 := hv.2 _ hn
    have e3 : q.cost.H x.real *ᵥ (x.real + p - v) =
        (q.cost.g x.real + q.cost.H x.real *ᵥ p) - (q.cost.g x.real + q.cost.H x.real *ᵥ (v - x.real)) := by
      rw [add_sub_add_left_eq_sub, ← mulVec_sub]
      congr 1
      abel
    rw [e3, dotProduct_comm, sub_dotProduct, e1, e2, sub_zero] at hw
    exact lt_irrefl _ hw
  have hpd : p = v - x.real := by rw [← hpv]; abel
  have hdot : dotF env st.e.g S.px = .fin (q.cost.g x.real ⬝ᵥ p) := by
    rw [dotF_fin hreg.g f1, show st.e.g.real = q.cost.g x.real from hgr]; rfl
  have htrial : sqpTrial P st S 1 = ⟨fun j => .fin (v j), fun j => .fin (r j), P.f fun j => .fin (v j), fun _ => .fin 0⟩ := by
    have hx' : (fun j => st.x j + 1 * S.px j) = fun j => Fl.fin (v j) := by
      funext j
      rw [s1, Fl.one_def, ← hpv]
      show x j + .fin 1 * .fin (p j) = .fin (x.real j + p j)
      rw [Fl.fin_mul, one_mul, Fl.finite_toReal (hx j), Fl.fin_add]
      rfl
    have hy' : (fun j => st.y j + 1 * S.py j) = fun j => Fl.fin (r j) := by
      funext j
      rw [s2, Fl.one_def]
      show (0 : Fl) + .fin 1 * .fin (r j) = .fin (r j)
      rw [Fl.fin_mul, one_mul, Fl.zero_def, Fl.fin_add, zero_add]
    unfold sqpTrial
    simp only
    rw [hx', hy']
    congr 1
    funext i
    rw [hP.ce _ fun _ => rfl, show Vec.real (fun j => Fl.fin (v j)) = v from rfl,
      show q.A *ᵥ v = q.b from hv.1, sub_self]
  have hentry : st.entry = ⟨.fin (q.cost.f x.real), .fin (q.violation x.real)⟩ := by
    show FilterEntry.mk (P.f x) (norm1 (List.ofFn (P.ce x))) = _
    rw [hP.f x hx hdom, hce, norm1_fin]
    rfl
  have hfilter : st.filter = .make (.fin (q.violation x.real)) := by
    show Filter.make (norm1 (List.ofFn (P.ce x))) = _
    rw [hce, norm1_fin]
    rfl
  have hθ : 0 < q.violation x.real :=
    lt_of_le_of_ne (q.violation_nonneg _) fun h => hxf (AffineProblem.violation_zero h.symm)
  unfold AffineProblem.Worthwhile at hworth
  rw [← hpd] at hworth
  obtain ⟨hacc, hopen⟩ := start_tryAdd (f0 := q.cost.f x.real) (f1 := q.cost.f v) hθ hworth
  rw [hdot, show lineSearchRounds = 25 + 1 from rfl, sqpLineSearch] at hres
  simp only at hres
  rw [htrial] at hres
  simp only at hres
  rw [hP.f_at hvdom, if_neg (by rw [not_not]; exact ⟨rfl, fun _ => rfl⟩), sqpEntry_feasible, hentry, hfilter,
    if_pos hacc] at hres
  simp only [Option.bind_some, Option.elim, SqpMoved.elim] at hres
  have hlev : v ∈ q.level v := ⟨⟨hvdom, le_rfl⟩, hv.1⟩
  have hone : st.iterations + 1 = 1 := rfl
  have hprog : q.cost.f v + ((st.iterations + 1 : ℕ) : ℝ) * δ ≤ q.cost.f v + 2 * δ := by
    rw [hone, Nat.cast_one]
    linarith
  split at hres
  · rename_i c4
    obtain rfl := Option.some.inj hres
    exact ⟨⟨fun _ => rfl, fun _ => rfl⟩, hvdom, .inr ⟨hlev, hprog⟩, .inr (.inr (.inr ⟨rfl, c4⟩))⟩
  split at hres
  · obtain rfl := Option.some.inj hres
    exact ⟨⟨fun _ => rfl, fun _ => rfl⟩, hvdom, .inr ⟨hlev, hprog⟩, .inr (.inr (.inl rfl))⟩
  obtain ⟨hf, hl', hpr, hs⟩ := sqpLoop_affine ht hP hS hfac hcl hbox ha hb hab hH hL0 hL hE _ _ _ v r
    (affine_next hP hvdom hopen 1 _) hlev (B := q.cost.f v + δ) (by
      show q.cost.f v + ((st.iterations + 1 : ℕ) : ℝ) * δ ≤ _
      rw [hone, Nat.cast_one, one_mul]) res hres
  refine ⟨hf, hl'.1.1, .inr ⟨hl', by linarith⟩, ?_⟩
  have e : q.A *ᵥ res.x.real - q.b = fun _ => 0 := by
    rw [show q.A *ᵥ res.x.real = q.b from hl'.2, sub_self]; rfl
  rw [e]
  exact hs

/-- C82: without a time limit, with callbacks that do not stop and with a limit on the iterations that is large enough,
the run ends with SUCCESS, either at the guess or at a point that meets the constraints. -/
theorem sqp_affine_start_succeeds {env : Env} {opts : SolverOptions} (ht : 0 < opts.tolerance) {P : Nlp n m 0}
    {q : AffineProblem n m} (hP : P.IsAffine q) (hS : P.scaling.PositiveFactors) (hmn : m ≤ n) {x : Vec n} (hx : x.Finite)
    (hdom : x.real ∈ q.cost.dom) (hxf : x.real ∉ q.feasible) (hxbox : ∀ j, |x.real j| ≤ 1e10)
    (hseem : ¬ q.SeemsInfeasible x.real)
    {v : Fin n → ℝ} (hv : q.ModelStationary x.real v) (hvdom : v ∈ q.cost.dom) (hworth : q.Worthwhile x.real v)
    (hpos : ∀ p, q.A *ᵥ p = 0 → p ≠ 0 → 0 < p ⬝ᵥ q.cost.H x.real *ᵥ p)
    (hfac : ∀ i, env.factor i = true) (hE0 : env.Plain (q.system x.real fun _ => 0))
    (hE : ∀ w ∈ q.level v, ∀ y, env.Plain (q.system w y)) (hcl : IsClosed (q.level v))
    (hbox : ∀ w ∈ q.level v, ∀ j, |w j| ≤ 1e10) {low : ℝ} (hlow : ∀ w ∈ q.level v, low ≤ q.cost.f w)
    {a b L : ℝ} (ha : 0 < a) (hb : 0 < b) (hab : b ≤ 9.9e6 * a) (hH : q.Curvature (q.level v) a b) (hL0 : 0 < L)
    (hL : q.cost.LipschitzHessian (q.level v) L) {cbs : List Callback} (hcb : ∀ cb ∈ cbs, ∀ l i, cb l i = false)
    (htime : opts.timeout = .pinf)
    (hlim : q.cost.f v - low < (opts.maxIterations - 2) * affineDecrease a b L (opts.tolerance * P.scaling.f)) :
    ∃ res, sqp env opts P cbs x .start = some res ∧ res.status = .success ∧ res.x.Finite ∧ res.y.Finite ∧
      (res.x.real = x.real ∨ res.x.real ∈ q.level v) ∧
      unscaledInfSqp P.scaling (q.cost.g res.x.real) q.A (q.A *ᵥ res.x.real - q.b) res.y.real ≤ opts.tolerance := by
  obtain ⟨res, h1, h2⟩ := sqp_affine_start ht hP hS hmn hx hdom hxf hxbox hseem hv hvdom hworth hpos hfac hE0 hE hcl hbox ha
    hb hab hH hL0 hL cbs
  obtain ⟨res', h1', -, -, -, -, ⟨bs, hh⟩, -⟩ := sqp_correct_partial env opts P cbs x ht
  obtain rfl : res = res' := Option.some.inj (h1.symm.trans h1')
  have hδ0 := affineDecrease_pos (tol := opts.tolerance * P.scaling.f) ha hb hL0 (mul_pos ht hS.f_pos)
  have hplace : res.x.real = x.real ∨ res.x.real ∈ q.level v := h2.place.imp And.right And.left
  rcases h2.status with h | h | h | h
  · exact ⟨res, h1, h.1, h2.finite.1, h2.finite.2, hplace, h.2⟩
  · obtain ⟨b, hb, -, ⟨c, hc, ht⟩, -⟩ := hh.stop h
    obtain ⟨before, hB⟩ := Batches.ok_mem hh.ok (List.mem_of_mem_getLast? hb)
    obtain ⟨k, hk, rfl⟩ := List.mem_iff_getElem.1 hc
    have hk' : k < cbs.length := lt_of_lt_of_le hk hB.length
    rw [hB.results k hk hk', hcb _ (List.getElem_mem hk')] at ht
    exact absurd ht (by simp)
  · obtain ⟨e, -, he⟩ := hh.timeout h
    rw [htime] at he
    exact he.elim
  · exfalso
    have h9 : (opts.maxIterations : ℝ) ≤ res.iterations := by exact_mod_cast h.2
    have hvl := hlow v ⟨⟨hvdom, le_rfl⟩, hv.1⟩
    rcases h2.place with ⟨h0, -⟩ | ⟨hm, hp⟩
    · rw [h0, Nat.cast_zero] at h9
      nlinarith
    · have := hlow _ hm
      nlinarith

/-! ### An example: minimise `y − log x` subject to `x = y`, from (1.1, 0) -/

/-- The guess. -/
noncomputable def offGuess : Vec 2 := ![.fin 1.1, .fin 0]

/-- The first iterate. -/
noncomputable def offNext : Fin 2 → ℝ := fun _ => 0.99

theorem offGuess_real : offGuess.real = ![1.1, 0] := by
  funext i
  fin_cases i <;> rfl

theorem off_le : slopeCost.f offNext ≤ slopeCost.f slopeGuess.real := by
  show (0.99 : ℝ) - Real.log 0.99 ≤ 1.1 - Real.log 1.1
  have h1 := Real.one_sub_inv_le_log_of_pos (show (0 : ℝ) < 0.99 by norm_num)
  have h2 := Real.log_le_sub_one_of_pos (show (0 : ℝ) < 1.1 / 1.05 by norm_num)
  have h3 := Real.log_le_sub_one_of_pos (show (0 : ℝ) < 1.05 by norm_num)
  rw [Real.log_div (by norm_num) (by norm_num)] at h2
  norm_num at h1 h2 h3 ⊢
  linarith

theorem off_violation : slopeProblem.A *ᵥ offGuess.real - slopeProblem.b = fun _ => 1.1 := by
  rw [offGuess_real]
  funext i
  rw [Subsingleton.elim i 0]
  simp [slopeProblem]

/-- The run ends with SUCCESS at a point of the constraint. -/
example : ∃ res, sqp plainEnv ⟨1e-2, 2000000000, .pinf, false⟩ slopeNlp [] offGuess .start = some res ∧
    res.status = .success ∧ res.x.real 1 = res.x.real 0 := by
  have hv : offNext ∈ slopeProblem.feasible := slope_feasible.2 rfl
  have hpos : ∀ p, slopeProblem.A *ᵥ p = 0 → p ≠ 0 → 0 < p ⬝ᵥ slopeProblem.cost.H offGuess.real *ᵥ p := by
    intro p hp hne
    have e := slope_null hp
    have h0 : p 0 ≠ 0 := fun h => hne (funext fun i => by fin_cases i; exact h; exact e.trans h)
    rw [offGuess_real]
    have e2 : p ⬝ᵥ slopeCost.H ![1.1, 0] *ᵥ p = ((1.1 : ℝ) ^ 2)⁻¹ * (p 0 * p 0) := by
      simp [slopeCost, mulVec, dotProduct, Fin.sum_univ_two]; ring
    show 0 < p ⬝ᵥ slopeCost.H ![1.1, 0] *ᵥ p
    rw [e2]
    have := mul_self_pos.2 h0
    positivity
  obtain ⟨res, h1, h2, -, -, h3, h4⟩ := sqp_affine_start_succeeds (env := plainEnv)
    (opts := ⟨1e-2, 2000000000, .pinf, false⟩) (by norm_num) slopeNlp_isAffine trivial (by norm_num) (x := offGuess)
    (fun i => by fin_cases i <;> rfl) (by rw [offGuess_real]; show (0 : ℝ) < 1.1; norm_num)
    (fun h => by
      rw [slope_feasible, offGuess_real] at h
      norm_num at h)
    (fun j => by rw [offGuess_real]; fin_cases j <;> norm_num)
    (by
      rintro ⟨h, -⟩
      have := abs_le_euclid (slopeProblem.Aᵀ *ᵥ (slopeProblem.A *ᵥ offGuess.real - slopeProblem.b)) 0
      rw [off_violation] at this h
      have e : (slopeProblem.Aᵀ *ᵥ fun _ => (1.1 : ℝ)) 0 = 1.1 := by
        simp [slopeProblem, mulVec, dotProduct]
      rw [e] at this
      norm_num at this h
      linarith)
    (v := offNext)
    ⟨hv, fun p hp => by
      have e := slope_null hp
      rw [offGuess_real]
      show (slopeCost.g ![1.1, 0] + slopeCost.H ![1.1, 0] *ᵥ (offNext - ![1.1, 0])) ⬝ᵥ p = 0
      simp [slopeCost, vecHead, dotProduct, Fin.sum_univ_two, e]
      rw [show offNext 0 = 0.99 from rfl]
      ring⟩
    (show (0 : ℝ) < 0.99 by norm_num) (.inl (by
      show 1e-4 < ∑ i, |(slopeProblem.A *ᵥ offGuess.real - slopeProblem.b) i|
      rw [off_violation]
      norm_num)) hpos (fun _ => rfl)
    (plainEnv_plain (slopeProblem.system_solvable (fun z hz => by
      have := congrFun hz 0
      funext i
      rw [Subsingleton.elim i 0]
      simpa [slopeProblem, mulVec, dotProduct] using this) hpos _))
    (fun w hw => slope_plain w (slope_sub off_le hw)) (slope_sub_closed off_le)
    (fun w hw => slopeLevel_box w (slope_sub off_le hw)) (low := 1)
    (fun w hw => slope_low hw.1.1 hw.2) (a := 0.4) (b := 1) (L := 4) (by norm_num) (by norm_num) (by norm_num)
    (fun w hw => slope_curvature w (slope_sub off_le hw)) (by norm_num)
    (fun w hw w' hw' => slope_lipschitz w (slope_sub off_le hw) w' (slope_sub off_le hw')) (cbs := []) (by simp) rfl (by
      show slopeCost.f offNext - 1 < (((2000000000 : ℤ) : ℝ) - 2) * affineDecrease 0.4 1 4 (1e-2 * 1)
      have e : affineDecrease 0.4 1 4 (1e-2 * 1) = 7.92e-12 := by
        rw [affineDecrease, shortStep, min_eq_right (by norm_num), min_eq_right (by norm_num)]; norm_num
      have h1 := Real.one_sub_inv_le_log_of_pos (show (0 : ℝ) < 0.99 by norm_num)
      show 0.99 - Real.log 0.99 - 1 < _
      rw [e]
      push_cast
      norm_num at h1 ⊢
      linarith)
  refine ⟨res, h1, h2, ?_⟩
  rcases h3 with h | h
  · exfalso
    rw [h, off_violation] at h4
    have e : infNorm (fun _ : Fin 1 => (1.1 : ℝ)) ≤ 1e-2 := by
      refine le_trans ?_ h4
      show _ ≤ unscaledInfSqp (.identity : Scaling 1 0) _ _ _ _
      unfold unscaledInfSqp
      split
      · exact le_max_right _ _
      · exact le_max_right _ _
    have := (infNorm_le.1 e).2 0
    norm_num at this
  · exact slope_feasible.1 h.2

end Slp
