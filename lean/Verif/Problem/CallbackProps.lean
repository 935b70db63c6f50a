import Verif.Problem.ProblemModel
import Verif.Autodiff.TermLemmas
import Verif.Solver.KktProps
import Mathlib.Data.List.OfFn

/-! C47: the matrix callbacks that `solve()` gives to the solvers. -/

namespace Slp

open Classical

variable {n m k : ℕ}

/-! ### Scaling at the initial guess -/

theorem sparseOf_wf (A : FMat m n) : (sparseOf A).WF where
  sorted j := by
    unfold sparseOf
    simp only
    split
    · rw [List.pairwise_iff_getElem]
      intro a b ha hb hab
      simpa using hab
    · exact .nil
  rows j e he := by
    unfold sparseOf at he ⊢
    simp only at he ⊢
    split at he
    · obtain ⟨i, rfl⟩ := (List.mem_ofFn' _ _).1 he
      exact i.2
    · simp at he
  cols j hj := by
    unfold sparseOf at hj ⊢
    simp only at hj ⊢
    rw [dif_neg (by omega)]

theorem sparseOf_coeff (A : FMat m n) (i : Fin m) (j : Fin n) : (sparseOf A).coeff i j = (A i j).toReal := by
  refine (sparseOf A).coeff_of_mem (sparseOf_wf A) ?_
  unfold sparseOf
  simp only [j.2, dite_true]
  exact (List.mem_ofFn' _ _).2 ⟨i, rfl⟩

/-- Good factors of a scaling. -/
structure Scaling.Positive (S : Scaling m k) (f : ℝ) (de : Fin m → ℝ) (di : Fin k → ℝ) : Prop where
  eq : S = .factors f de di
  f : 0 < f ∧ f ≤ 1
  ce : ∀ i, 0 < de i ∧ de i ≤ 1
  ci : ∀ i, 0 < di i ∧ di i ≤ 1

/-- A scaling brings a gradient and the rows of Jacobians to at most 100, and does no more. -/
structure Scaling.Fits (f : ℝ) (de : Fin m → ℝ) (di : Fin k → ℝ) (g : Fin n → ℝ) (Ae : Fin m → Fin n → ℝ)
    (Ai : Fin k → Fin n → ℝ) : Prop where
  f : (∀ j, |f * g j| ≤ 100) ∧ ((∀ j, |g j| ≤ 100) → f = 1)
  ce : ∀ i, (∀ j, |de i * Ae i j| ≤ 100) ∧ ((∀ j, |Ae i j| ≤ 100) → de i = 1)
  ci : ∀ i, (∀ j, |di i * Ai i j| ≤ 100) ∧ ((∀ j, |Ai i j| ≤ 100) → di i = 1)

theorem sparseOf_coeff_out (A : FMat m n) (i : Fin m) {j : ℕ} (h : n ≤ j) : (sparseOf A).coeff i j = 0 :=
  (sparseOf A).coeff_col (sparseOf_wf A) h

theorem scalingAt_positive (ad : Autodiff) {g : Vec n} {Ae : FMat m n} {Ai : FMat k n} (hg : g.Finite) (he : Ae.Finite)
    (hi : Ai.Finite) :
    ∃ f de di, (scalingAt ad g Ae Ai).Positive f de di ∧ Scaling.Fits f de di g.real Ae.real Ai.real := by
  obtain ⟨f, de, di, h1, -, -, -, h2, h3, h4⟩ :=
    scaling_correct (m := m) (k := k) g.real (sparseOf_wf Ae) (sparseOf_wf Ai)
  have row : ∀ {q : ℕ} (A : FMat q n) (d : ℝ) (i : Fin q), ((∀ j : ℕ, |d * (sparseOf A).coeff i j| ≤ 100) ∧
      ((∀ j : ℕ, |(sparseOf A).coeff i j| ≤ 100) → d = 1)) →
      (∀ j, |d * A.real i j| ≤ 100) ∧ ((∀ j, |A.real i j| ≤ 100) → d = 1) := by
    intro q A d i h
    refine ⟨fun j => by have := h.1 j; rwa [sparseOf_coeff] at this, fun hj => h.2 fun j => ?_⟩
    by_cases hjn : j < n
    · have := hj ⟨j, hjn⟩
      rwa [show A.real i ⟨j, hjn⟩ = _ from (sparseOf_coeff A i ⟨j, hjn⟩).symm] at this
    · rw [sparseOf_coeff_out A i (not_lt.1 hjn)]; norm_num
  exact ⟨f, de, di, ⟨by unfold scalingAt; rw [if_pos ⟨hg, he, hi⟩, h1], ⟨h2.1, h2.2.1⟩,
    fun i => ⟨(h3 i).1, (h3 i).2.1⟩, fun i => ⟨(h4 i).1, (h4 i).2.1⟩⟩, h2.2.2, fun i => row Ae _ i (h3 i).2.2,
    fun i => row Ai _ i (h4 i).2.2⟩

theorem Fl.mul_finite {a : ℝ} {v : Fl} (h : (Fl.fin a * v).isFinite = true) : v.isFinite = true := by
  cases v with
  | fin b => rfl
  | pinf =>
    have e : Fl.fin a * Fl.pinf = Fl.infMul true a := rfl
    rw [e] at h
    unfold Fl.infMul at h
    split_ifs at h <;> simp [Fl.isFinite] at h
  | ninf =>
    have e : Fl.fin a * Fl.ninf = Fl.infMul false a := rfl
    rw [e] at h
    unfold Fl.infMul at h
    split_ifs at h <;> simp [Fl.isFinite] at h
  | nan => exact h

/-! ### Setting the variables -/

theorem assign_other (vars : List ℕ) : ∀ (v : ℕ → Fl) (xs : List Fl) {k : ℕ}, k ∉ vars → assign v vars xs k = v k := by
  induction vars with
  | nil => intro v xs k _; rfl
  | cons a vars ih =>
    intro v xs k hk
    cases xs with
    | nil => rfl
    | cons x xs =>
      rw [List.mem_cons, not_or] at hk
      show assign (Function.update v a x) vars xs k = v k
      rw [ih _ _ hk.2, Function.update_of_ne hk.1]

theorem assign_get (vars : List ℕ) : ∀ (v : ℕ → Fl) (xs : List Fl), vars.Nodup → xs.length = vars.length →
    ∀ (i : ℕ) (h : i < vars.length) (h' : i < xs.length), assign v vars xs vars[i] = xs[i] := by
  induction vars with
  | nil => intro v xs _ _ i h; simp at h
  | cons a vars ih =>
    intro v xs hn hl i h h'
    rw [List.nodup_cons] at hn
    cases xs with
    | nil => simp at h'
    | cons x xs =>
      show assign (Function.update v a x) vars xs _ = _
      cases i with
      | zero =>
        simp only [List.getElem_cons_zero]
        rw [assign_other vars _ _ hn.1, Function.update_self]
      | succ i =>
        simp only [List.getElem_cons_succ]
        exact ih _ _ hn.2 (by simpa using hl) i _ _

/-! ### Derivatives -/

/-- The partial derivative of a function by variable `k`. -/
noncomputable def pderiv (k : ℕ) (F : (ℕ → ℝ) → ℝ) (v : ℕ → ℝ) : ℝ :=
  deriv (fun a => F (Function.update v k a)) (v k)

theorem eval_pd (t : Term) (k : ℕ) (v : ℕ → ℝ) : (Term.pd k t).eval v = pderiv k t.eval v := rfl

theorem eval_pd2 (t : Term) (k l : ℕ) (v : ℕ → ℝ) :
    (Term.pd l (Term.pd k t)).eval v = pderiv l (pderiv k t.eval) v := rfl

/-- The Lagrangian of the scaled problem at given multipliers. -/
noncomputable def lagrangian (df : ℝ) (f : Term) (eqs ineqs : List Term) (ye : Fin eqs.length → ℝ)
    (zi : Fin ineqs.length → ℝ) : (ℕ → ℝ) → ℝ := fun v =>
  df * f.eval v - ∑ i, ye i * eqs[i].eval v - ∑ i, zi i * ineqs[i].eval v

theorem hasDeriv_lagrangian {df : ℝ} {f : Term} {eqs ineqs : List Term} {ye : Fin eqs.length → ℝ}
    {zi : Fin ineqs.length → ℝ} {v : ℕ → ℝ} (hf : f.Smooth v) (he : ∀ t ∈ eqs, t.Smooth v) (hi : ∀ t ∈ ineqs, t.Smooth v)
    (k : ℕ) : HasDerivAt (fun a => lagrangian df f eqs ineqs ye zi (Function.update v k a))
      (df * (Term.pd k f).eval v - ∑ i, ye i * (Term.pd k eqs[i]).eval v - ∑ i, zi i * (Term.pd k ineqs[i]).eval v)
      (v k) := by
  unfold lagrangian
  refine (((f.hasDerivAt k hf).const_mul df).sub ?_).sub ?_
  · exact HasDerivAt.fun_sum fun i _ => (eqs[i].hasDerivAt k (he _ (List.getElem_mem _))).const_mul _
  · exact HasDerivAt.fun_sum fun i _ => (ineqs[i].hasDerivAt k (hi _ (List.getElem_mem _))).const_mul _

theorem pderiv_lagrangian {df : ℝ} {f : Term} {eqs ineqs : List Term} {ye : Fin eqs.length → ℝ}
    {zi : Fin ineqs.length → ℝ} {v : ℕ → ℝ} (hf : f.Smooth v) (he : ∀ t ∈ eqs, t.Smooth v) (hi : ∀ t ∈ ineqs, t.Smooth v)
    (k : ℕ) : pderiv k (lagrangian df f eqs ineqs ye zi) v =
      df * pderiv k f.eval v - ∑ i, ye i * pderiv k eqs[i].eval v - ∑ i, zi i * pderiv k ineqs[i].eval v :=
  (hasDeriv_lagrangian hf he hi k).deriv

theorem pderiv2_lagrangian {df : ℝ} {f : Term} {eqs ineqs : List Term} {ye : Fin eqs.length → ℝ}
    {zi : Fin ineqs.length → ℝ} {v : ℕ → ℝ} (hf : f.Smooth v) (he : ∀ t ∈ eqs, t.Smooth v) (hi : ∀ t ∈ ineqs, t.Smooth v)
    (k l : ℕ) : pderiv l (pderiv k (lagrangian df f eqs ineqs ye zi)) v =
      df * pderiv l (pderiv k f.eval) v - ∑ i, ye i * pderiv l (pderiv k eqs[i].eval) v -
        ∑ i, zi i * pderiv l (pderiv k ineqs[i].eval) v := by
  have e1 : ∀ᶠ a in nhds (v l), f.Smooth (Function.update v l a) := f.openSm v l hf
  have e2 : ∀ᶠ a in nhds (v l), ∀ i : Fin eqs.length, eqs[i].Smooth (Function.update v l a) :=
    Filter.eventually_all.2 fun i => eqs[i].openSm v l (he _ (List.getElem_mem _))
  have e3 : ∀ᶠ a in nhds (v l), ∀ i : Fin ineqs.length, ineqs[i].Smooth (Function.update v l a) :=
    Filter.eventually_all.2 fun i => ineqs[i].openSm v l (hi _ (List.getElem_mem _))
  have e4 : (fun a => pderiv k (lagrangian df f eqs ineqs ye zi) (Function.update v l a)) =ᶠ[nhds (v l)]
      fun a => df * (Term.pd k f).eval (Function.update v l a) -
        ∑ i, ye i * (Term.pd k eqs[i]).eval (Function.update v l a) -
        ∑ i, zi i * (Term.pd k ineqs[i]).eval (Function.update v l a) := by
    filter_upwards [e1, e2, e3] with a h1 h2 h3
    exact pderiv_lagrangian h1 (fun t ht => by obtain ⟨i, hi, rfl⟩ := List.getElem_of_mem ht; exact h2 ⟨i, hi⟩)
      (fun t ht => by obtain ⟨i, hi, rfl⟩ := List.getElem_of_mem ht; exact h3 ⟨i, hi⟩) k
  rw [pderiv, e4.deriv_eq]
  refine HasDerivAt.deriv ((((Term.pd k f).hasDerivAt l hf).const_mul df).sub ?_ |>.sub ?_)
  · exact HasDerivAt.fun_sum fun i _ => ((Term.pd k eqs[i]).hasDerivAt l (he eqs[i] (List.getElem_mem _))).const_mul _
  · exact HasDerivAt.fun_sum fun i _ => ((Term.pd k ineqs[i]).hasDerivAt l (hi ineqs[i] (List.getElem_mem _))).const_mul _

/-! ### The callbacks -/

theorem zip_sum (ts : List Term) (y : Fin ts.length → Fl) (F : Term → ℝ) :
    ((ts.zip (List.ofFn y)).map fun p => p.2.toReal * F p.1).sum = ∑ i, (y i).toReal * F ts[i] := by
  have : (ts.zip (List.ofFn y)).map (fun p => p.2.toReal * F p.1) = List.ofFn fun i => (y i).toReal * F ts[i] := by
    apply List.ext_getElem
    · simp
    · intro i h1 h2; simp
  rw [this, List.sum_ofFn]

/-- The expressions of a problem are smooth at a point. -/
structure AllSmooth (f : Term) (eqs ineqs : List Term) (v : ℕ → ℝ) : Prop where
  f : f.Smooth v
  eqs : ∀ t ∈ eqs, t.Smooth v
  ineqs : ∀ t ∈ ineqs, t.Smooth v

/-- What the callbacks return with given factors, where the expressions are smooth. -/
theorem callbacks_values (ad : Autodiff) (v : ℕ → Fl) (vars : List ℕ) (f : Term) (eqs ineqs : List Term)
    (x0 : Vec vars.length) {df : ℝ} {de : Fin eqs.length → ℝ} {di : Fin ineqs.length → ℝ}
    (hP : (matrixCallbacks ad v vars f eqs ineqs x0).scaling = .factors df de di) (x : Vec vars.length)
    (hx : AllFinite (assign v vars (List.ofFn x))) :
    let r := reals (assign v vars (List.ofFn x))
    let P := matrixCallbacks ad v vars f eqs ineqs x0
    AllSmooth f eqs ineqs r →
      P.f x = .fin (df * f.eval r) ∧
      (∀ j, P.g x j = .fin (df * pderiv vars[j] f.eval r)) ∧
      (∀ i, P.ce x i = .fin (de i * eqs[i].eval r)) ∧
      (∀ i j, P.Ae x i j = .fin (de i * pderiv vars[j] eqs[i].eval r)) ∧
      (∀ i, P.ci x i = .fin (di i * ineqs[i].eval r)) ∧
      (∀ i j, P.Ai x i j = .fin (di i * pderiv vars[j] ineqs[i].eval r)) ∧
      ∀ (y : Fin eqs.length → ℝ) (z : Fin ineqs.length → ℝ) (i j : Fin vars.length),
        P.H x (fun i => .fin (y i)) (fun i => .fin (z i)) i j =
          if j ≤ i then .fin (pderiv vars[j] (pderiv vars[i]
            (lagrangian df f eqs ineqs (fun i => de i * y i) fun i => di i * z i)) r) else 0 := by
  intro r P hs
  have pdf : ∀ (w : ℕ → Fl), AllFinite w → ∀ t : Term, t.Smooth (reals w) → ∀ k,
      ad.pd t k w = .fin (pderiv k t.eval (reals w)) := fun w hw t ht k => if_pos ⟨hw, ht⟩
  have evf : ∀ (w : ℕ → Fl), AllFinite w → ∀ t : Term, t.Smooth (reals w) →
      ad.eval t w = .fin (t.eval (reals w)) := fun w hw t ht => if_pos ⟨hw, t.smooth_dom ht⟩
  have hsf : P.scaling.fF = .fin df := by rw [hP]; rfl
  have hse : ∀ i, P.scaling.ceF i = .fin (de i) := fun i => by rw [hP]; rfl
  have hsi : ∀ i, P.scaling.ciF i = .fin (di i) := fun i => by rw [hP]; rfl
  have hme : ∀ i : Fin eqs.length, eqs[i].Smooth r := fun i => hs.eqs _ (List.getElem_mem _)
  have hmi : ∀ i : Fin ineqs.length, ineqs[i].Smooth r := fun i => hs.ineqs _ (List.getElem_mem _)
  refine ⟨?_, fun j => ?_, fun i => ?_, fun i j => ?_, fun i => ?_, fun i j => ?_, fun y z i j => ?_⟩
  · show P.scaling.fF * ad.eval f (assign v vars (List.ofFn x)) = _
    rw [hsf, evf _ hx _ hs.f, Fl.fin_mul]
  · show P.scaling.fF * ad.pd f vars[j] (assign v vars (List.ofFn x)) = _
    rw [hsf, pdf _ hx _ hs.f, Fl.fin_mul]
  · show P.scaling.ceF i * ad.eval eqs[i] (assign v vars (List.ofFn x)) = _
    rw [hse, evf _ hx _ (hme i), Fl.fin_mul]
  · show P.scaling.ceF i * ad.pd eqs[i] vars[j] (assign v vars (List.ofFn x)) = _
    rw [hse, pdf _ hx _ (hme i), Fl.fin_mul]
  · show P.scaling.ciF i * ad.eval ineqs[i] (assign v vars (List.ofFn x)) = _
    rw [hsi, evf _ hx _ (hmi i), Fl.fin_mul]
  · show P.scaling.ciF i * ad.pd ineqs[i] vars[j] (assign v vars (List.ofFn x)) = _
    rw [hsi, pdf _ hx _ (hmi i), Fl.fin_mul]
  · show (if j ≤ i then P.scaling.fF * ad.pd2 f vars[i] vars[j] (assign v vars (List.ofFn x)) +
      ad.hc (eqs ++ ineqs) (List.ofFn (fun i => P.scaling.ceF i * Fl.fin (y i)) ++
        List.ofFn fun i => P.scaling.ciF i * Fl.fin (z i)) vars[i] vars[j] (assign v vars (List.ofFn x)) else 0) = _
    by_cases hij : j ≤ i
    · rw [if_pos hij, if_pos hij, pderiv2_lagrangian hs.f hs.eqs hs.ineqs, hsf]
      simp only [hse, hsi, Fl.fin_mul]
      have h1 : ad.pd2 f vars[i] vars[j] (assign v vars (List.ofFn x)) =
          .fin (pderiv vars[j] (pderiv vars[i] f.eval) r) := if_pos ⟨hx, hs.f⟩
      have h2 : ad.hc (eqs ++ ineqs) (List.ofFn (fun i => Fl.fin (de i * y i)) ++
          List.ofFn fun i => Fl.fin (di i * z i)) vars[i] vars[j] (assign v vars (List.ofFn x)) =
          .fin (-(∑ a, de a * y a * pderiv vars[j] (pderiv vars[i] eqs[a].eval) r +
            ∑ a, di a * z a * pderiv vars[j] (pderiv vars[i] ineqs[a].eval) r)) := by
        unfold Autodiff.hc
        rw [if_pos]
        · congr 2
          rw [List.zip_append (by simp), List.map_append, List.sum_append]
          congr 1
          · exact zip_sum eqs (fun a => .fin (de a * y a)) fun t => (Term.pd vars[j] (Term.pd vars[i] t)).eval r
          · exact zip_sum ineqs (fun a => .fin (di a * z a)) fun t => (Term.pd vars[j] (Term.pd vars[i] t)).eval r
        · refine ⟨hx, fun t ht => ?_, fun w hw => ?_⟩
          · rcases List.mem_append.1 ht with ht | ht
            · exact hs.eqs t ht
            · exact hs.ineqs t ht
          · rcases List.mem_append.1 hw with hw | hw <;> obtain ⟨i, rfl⟩ := (List.mem_ofFn' _ _).1 hw <;> rfl
      rw [h1, h2, Fl.fin_mul, Fl.fin_add]
      congr 1
      ring
    · rw [if_neg hij, if_neg hij]

/-- C47: without a call of `minimize()` or `maximize()`, the cost is zero; otherwise it is the given one. -/
theorem objective_value (p : Problem) (r : ℕ → ℝ) :
    p.objective.term.eval r = match p.cost with | none => 0 | some e => e.term.eval r := by
  unfold Problem.objective
  cases p.cost <;> simp [UserExpr.zero, Term.eval]

example : (Problem.new.maximize ⟨.var 0, .linear⟩).objective.term.eval (fun _ => 3) = -3 ∧
    Problem.new.objective.term.eval (fun _ => 3) = 0 := by
  constructor <;> rw [objective_value] <;> simp [Problem.maximize, Problem.new, UserExpr.neg, Term.eval, UnOp.eval]

/-- C47, C32: what the solvers are told. There are positive factors `df`, `de` and `di` that bring the derivatives at the
initial guess to at most 100, and leave those alone that are at most 100 already, such that at any point at which the expressions are smooth the values, the gradient and the Jacobians are those
of the scaled expressions, and the Hessian is the lower triangle of that of the Lagrangian of the scaled problem. -/
theorem callbacks_correct (ad : Autodiff) (v : ℕ → Fl) (vars : List ℕ) (f : Term) (eqs ineqs : List Term)
    (x0 : Vec vars.length) (h0 : AllFinite (assign v vars (List.ofFn x0)))
    (s0 : AllSmooth f eqs ineqs (reals (assign v vars (List.ofFn x0)))) :
    ∃ df de di, (matrixCallbacks ad v vars f eqs ineqs x0).scaling.Positive df de di ∧
      (let r0 := reals (assign v vars (List.ofFn x0));
        Scaling.Fits df de di (fun j : Fin vars.length => pderiv vars[j] f.eval r0)
          (fun (i : Fin eqs.length) (j : Fin vars.length) => pderiv vars[j] eqs[i].eval r0)
          (fun (i : Fin ineqs.length) (j : Fin vars.length) => pderiv vars[j] ineqs[i].eval r0)) ∧
      ∀ x : Vec vars.length, AllFinite (assign v vars (List.ofFn x)) →
        let r := reals (assign v vars (List.ofFn x))
        let P := matrixCallbacks ad v vars f eqs ineqs x0
        AllSmooth f eqs ineqs r →
          P.f x = .fin (df * f.eval r) ∧
          (∀ j, P.g x j = .fin (df * pderiv vars[j] f.eval r)) ∧
          (∀ i, P.ce x i = .fin (de i * eqs[i].eval r)) ∧
          (∀ i j, P.Ae x i j = .fin (de i * pderiv vars[j] eqs[i].eval r)) ∧
          (∀ i, P.ci x i = .fin (di i * ineqs[i].eval r)) ∧
          (∀ i j, P.Ai x i j = .fin (di i * pderiv vars[j] ineqs[i].eval r)) ∧
          ∀ (y : Fin eqs.length → ℝ) (z : Fin ineqs.length → ℝ) (i j : Fin vars.length),
            P.H x (fun i => .fin (y i)) (fun i => .fin (z i)) i j =
              if j ≤ i then .fin (pderiv vars[j] (pderiv vars[i]
                (lagrangian df f eqs ineqs (fun i => de i * y i) fun i => di i * z i)) r) else 0 := by
  have pdf : ∀ (w : ℕ → Fl), AllFinite w → ∀ t : Term, t.Smooth (reals w) → ∀ k,
      ad.pd t k w = .fin (pderiv k t.eval (reals w)) := fun w hw t ht k => if_pos ⟨hw, ht⟩
  have fin_of : ∀ (w : ℕ → Fl), AllFinite w → ∀ t : Term, t.Smooth (reals w) → ∀ k,
      (ad.pd t k w).isFinite = true := fun w hw t ht k => by rw [pdf w hw t ht k]; rfl
  obtain ⟨df, de, di, hS, hF⟩ := scalingAt_positive ad
    (g := fun j : Fin vars.length => ad.pd f vars[j] (assign v vars (List.ofFn x0)))
    (Ae := fun (i : Fin eqs.length) (j : Fin vars.length) => ad.pd eqs[i] vars[j] (assign v vars (List.ofFn x0)))
    (Ai := fun (i : Fin ineqs.length) (j : Fin vars.length) => ad.pd ineqs[i] vars[j] (assign v vars (List.ofFn x0)))
    (fun j => fin_of _ h0 _ s0.f _) (fun i j => fin_of _ h0 _ (s0.eqs _ (List.getElem_mem _)) _)
    (fun i j => fin_of _ h0 _ (s0.ineqs _ (List.getElem_mem _)) _)
  refine ⟨df, de, di, hS, ?_, fun x hx hs => callbacks_values ad v vars f eqs ineqs x0 hS.eq x hx hs⟩
  have e1 : Vec.real (fun j : Fin vars.length => ad.pd f vars[j] (assign v vars (List.ofFn x0))) =
      fun j : Fin vars.length => pderiv vars[j] f.eval (reals (assign v vars (List.ofFn x0))) := by
    funext j; show (ad.pd f vars[j] _).toReal = _; rw [pdf _ h0 _ s0.f]; rfl
  have e2 : FMat.real (fun (i : Fin eqs.length) (j : Fin vars.length) => ad.pd eqs[i] vars[j] (assign v vars (List.ofFn x0))) =
      fun (i : Fin eqs.length) (j : Fin vars.length) =>
        pderiv vars[j] eqs[i].eval (reals (assign v vars (List.ofFn x0))) := by
    funext i j; show (ad.pd eqs[i] vars[j] _).toReal = _; rw [pdf _ h0 eqs[i] (s0.eqs _ (List.getElem_mem _))]; rfl
  have e3 : FMat.real (fun (i : Fin ineqs.length) (j : Fin vars.length) =>
        ad.pd ineqs[i] vars[j] (assign v vars (List.ofFn x0))) =
      fun (i : Fin ineqs.length) (j : Fin vars.length) =>
        pderiv vars[j] ineqs[i].eval (reals (assign v vars (List.ofFn x0))) := by
    funext i j; show (ad.pd ineqs[i] vars[j] _).toReal = _; rw [pdf _ h0 ineqs[i] (s0.ineqs _ (List.getElem_mem _))]; rfl
  rw [e1, e2, e3] at hF
  exact hF

theorem Scaling.fF_fin (S : Scaling m k) : ∃ a, S.fF = .fin a := ⟨_, rfl⟩

theorem Scaling.ceF_fin (S : Scaling m k) (i : Fin m) : ∃ a, S.ceF i = .fin a := by cases S <;> exact ⟨_, rfl⟩

theorem Scaling.ciF_fin (S : Scaling m k) (i : Fin k) : ∃ a, S.ciF i = .fin a := by cases S <;> exact ⟨_, rfl⟩

/-- If the derivatives at the initial guess are finite after scaling, the factors are positive. -/
theorem callbacks_scaling (ad : Autodiff) (v : ℕ → Fl) (vars : List ℕ) (f : Term) (eqs ineqs : List Term)
    (x0 : Vec vars.length) (hg : ((matrixCallbacks ad v vars f eqs ineqs x0).g x0).Finite)
    (he : ((matrixCallbacks ad v vars f eqs ineqs x0).Ae x0).Finite)
    (hi : ((matrixCallbacks ad v vars f eqs ineqs x0).Ai x0).Finite) :
    ∃ df de di, (matrixCallbacks ad v vars f eqs ineqs x0).scaling.Positive df de di := by
  suffices h : _ ∧ _ ∧ _ by
    obtain ⟨df, de, di, h1, -⟩ := scalingAt_positive ad h.1 h.2.1 h.2.2
    exact ⟨df, de, di, h1⟩
  refine ⟨fun j => ?_, fun i j => ?_, fun i j => ?_⟩
  · obtain ⟨a, ha⟩ := (matrixCallbacks ad v vars f eqs ineqs x0).scaling.fF_fin
    have : ((matrixCallbacks ad v vars f eqs ineqs x0).scaling.fF * _).isFinite = true := hg j
    rw [ha] at this
    exact Fl.mul_finite this
  · obtain ⟨a, ha⟩ := (matrixCallbacks ad v vars f eqs ineqs x0).scaling.ceF_fin i
    have : ((matrixCallbacks ad v vars f eqs ineqs x0).scaling.ceF i * _).isFinite = true := he i j
    rw [ha] at this
    exact Fl.mul_finite this
  · obtain ⟨a, ha⟩ := (matrixCallbacks ad v vars f eqs ineqs x0).scaling.ciF_fin i
    have : ((matrixCallbacks ad v vars f eqs ineqs x0).scaling.ciF i * _).isFinite = true := hi i j
    rw [ha] at this
    exact Fl.mul_finite this

/-- The hypotheses hold for minimising `x₀ / x₁` subject to `x₀ x₁ = 0` and `log(x₁) ≥ 0` at `(3, 2)`. -/
example : let v : ℕ → Fl := fun _ => .fin 1
    let x : Vec 2 := fun i => if i = 0 then .fin 3 else .fin 2
    AllFinite (assign v [0, 1] (List.ofFn x)) ∧
      AllSmooth (.bin .div (.var 0) (.var 1)) [.bin .mul (.var 0) (.var 1)] [.un .log (.var 1)]
        (reals (assign v [0, 1] (List.ofFn x))) := by
  intro v x
  have e : assign v [0, 1] (List.ofFn x) = fun k => if k = 0 then .fin 3 else if k = 1 then .fin 2 else .fin 1 := by
    funext k
    simp only [assign, List.ofFn_succ, List.ofFn_zero, x, v, Function.update_apply]
    rcases k with _ | _ | k <;> simp
  rw [e]
  refine ⟨fun k => by rcases k with _ | _ | k <;> rfl, ?_, ?_, ?_⟩
  · simp [Term.Smooth, BinOp.Smooth, Term.eval, reals, Fl.toReal]
  · simp [Term.Smooth, BinOp.Smooth]
  · simp [Term.Smooth, UnOp.Smooth, Term.eval, reals, Fl.toReal]

end Slp
