import Verif.Solver.DescentCase
import Verif.Solver.QuadraticProps
import Verif.Solver.NewtonProps

/-! C56: Newton's method reaches a stationary point. -/

namespace Slp

open Classical Matrix

variable {n : ℕ}

/-- The filter has no entries and the limits for a feasible guess. -/
def Filter.Clean (F : Filter) : Prop :=
  F.entries = [] ∧ F.minViolation = (Filter.make 0).minViolation ∧ F.maxViolation = (Filter.make 0).maxViolation

/-- Without constraints and along a descent direction the filter asks for the Armijo condition. -/
theorem newton_tryAdd {F : Filter} (hF : F.Clean) {f0 f1 d a : ℝ} (hd : d < 0) (ha : 0 < a) :
    ((F.tryAdd (newtonEntry (.fin f0)) (newtonEntry (.fin f1)) (.fin d) (.fin a)).2 = true ↔ f1 ≤ f0 + 1e-8 * a * d) ∧
      (F.tryAdd (newtonEntry (.fin f0)) (newtonEntry (.fin f1)) (.fin d) (.fin a)).1.Clean := by
  obtain ⟨h1, h2, h3⟩ := hF
  have hsw : switching (newtonEntry (.fin f0)) (.fin d) (.fin a) := by
    refine ⟨by rw [Fl.zero_def, Fl.fin_lt]; exact hd, ?_⟩
    show Fl.pow 0 1.1 < Fl.fin a * Fl.pow (-Fl.fin d) 2.3
    rw [Fl.zero_def, Fl.pow_fin le_rfl, Real.zero_rpow (by norm_num), Fl.fin_neg, Fl.pow_fin (by linarith), Fl.fin_mul,
      Fl.fin_lt]
    exact mul_pos ha (Real.rpow_pos_of_pos (by linarith) _)
  have hmin : (newtonEntry (.fin f0)).violation ≤ F.minViolation := by
    rw [h2]
    simp only [newtonEntry, Filter.make]
    rw [Fl.one_def, Fl.zero_def, Fl.max_fin, Fl.fin_mul, Fl.fin_le]
    norm_num
  have hmax : ¬ ((newtonEntry (.fin f1)).cost.isFinite = false ∨ (newtonEntry (.fin f1)).violation > F.maxViolation) := by
    rw [not_or]
    refine ⟨by simp [newtonEntry, Fl.isFinite], ?_⟩
    rw [h3]
    simp only [newtonEntry, Filter.make, gt_iff_lt]
    rw [Fl.one_def, Fl.zero_def, Fl.max_fin, Fl.fin_mul, Fl.fin_lt]
    norm_num
  have hin : ¬ F.inFilter (newtonEntry (.fin f1)) := by
    rintro ⟨e, he, -⟩
    rw [h1] at he
    exact absurd he (by simp)
  have harm : armijo (newtonEntry (.fin f0)) (newtonEntry (.fin f1)) (.fin d) (.fin a) ↔ f1 ≤ f0 + 1e-8 * a * d := by
    unfold armijo
    simp only [newtonEntry]
    rw [Fl.fin_mul, Fl.fin_mul, Fl.fin_add, Fl.fin_le]
  unfold Filter.tryAdd
  rw [if_neg hmax, if_pos ⟨hmin, hsw⟩]
  by_cases hA : armijo (newtonEntry (.fin f0)) (newtonEntry (.fin f1)) (.fin d) (.fin a)
  · rw [if_neg (not_not.2 hA)]
    unfold Filter.finish
    rw [if_neg hin, if_neg (by rw [not_or, not_not, not_not]; exact ⟨hsw, hA⟩)]
    exact ⟨⟨fun _ => harm.1 hA, fun _ => rfl⟩, h1, h2, h3⟩
  · rw [if_pos hA]
    exact ⟨⟨fun h => absurd h (by simp), fun h => absurd (harm.2 h) hA⟩, h1, h2, h3⟩

/-- The state of the loop at a point of the domain. -/
structure NewtonState.At (st : NewtonState n) (env : Env) (P : Nlp n 0 0) (c : SmoothCost n) (v : Fin n → ℝ) : Prop where
  x : st.x = fun j => .fin (v j)
  f : st.f = .fin (c.f v)
  g : st.g = fun j => .fin (c.g v j)
  H : ∀ i j, (st.H i j).isFinite = true ∧ (j ≤ i → st.H i j = .fin (c.H v i j))
  E0 : st.E0 = .fin (unscaledInfNewton P.scaling (c.g v))
  filter : st.filter.Clean

theorem NewtonState.At.system {st : NewtonState n} {env : Env} {P : Nlp n 0 0} {c : SmoothCost n} {v : Fin n → ℝ}
    (h : st.At env P c v) (hv : v ∈ c.dom) :
    st.system = ⟨n, 0, fun j l => .fin (c.H v j l), fun j => .fin (-c.g v j)⟩ := by
  have hs : ∀ i j, c.H v i j = c.H v j i := fun i j => congrFun (congrFun (c.symm hv) j) i
  unfold NewtonState.system
  congr 1
  · funext i j
    split_ifs with hij
    · exact (h.H i j).2 hij
    · rw [(h.H j i).2 (le_of_not_ge hij)]
      exact congrArg Fl.fin (hs j i)
  · funext j
    rw [h.g]
    rfl

/-- The step of Newton's method is a descent direction. -/
theorem newton_direction {env : Env} {P : Nlp n 0 0} {c : SmoothCost n} {v : Fin n → ℝ} {st : NewtonState n}
    (h : st.At env P c v) (hv : v ∈ c.dom) {a b : ℝ} (ha : 0 < a) (hb : 0 < b) (hS : c.SolvedAt env a b v) (i : ℕ) :
    ∃ p : Fin n → ℝ, (newtonStep env st i = fun j => .fin (p j)) ∧
      dotF env st.g (newtonStep env st i) = .fin (c.g v ⬝ᵥ p) ∧ a * (p ⬝ᵥ p) ≤ -(c.g v ⬝ᵥ p) ∧
      c.g v ⬝ᵥ c.g v ≤ b * -(c.g v ⬝ᵥ p) := by
  have hsys := h.system hv
  obtain ⟨δ, h0, hsol, hq⟩ := hS i st.system hsys
  have hgf : st.g.Finite := fun j => by rw [h.g]; rfl
  obtain ⟨hpf, hp⟩ := newton_step_solved hgf hsol
  refine ⟨(newtonStep env st i).real, funext fun j => Fl.finite_toReal (hpf j), ?_, ?_⟩
  · rw [dotF_fin hgf hpf, h.g]
    rfl
  set p := (newtonStep env st i).real
  have hl : lowerSym st.H.real = c.H v := lowerSym_of (c.symm hv) fun i j => (h.H i j).2
  set B : Matrix (Fin n) (Fin n) ℝ := c.H v + δ • (1 : Matrix (Fin n) (Fin n) ℝ) with hB
  have hBq : ∀ w, w ⬝ᵥ B *ᵥ w = w ⬝ᵥ c.H v *ᵥ w + δ * (w ⬝ᵥ w) := by
    intro w
    rw [hB, add_mulVec, smul_mulVec, one_mulVec, dotProduct_add, dotProduct_smul, smul_eq_mul]
  have hBp : B *ᵥ p = -c.g v := by
    funext j
    have := hp j
    rw [hl, h.g] at this
    rw [hB, add_mulVec, smul_mulVec, one_mulVec]
    exact this
  have hsym : Bᵀ = B := by rw [hB, transpose_add, c.symm hv, transpose_smul, transpose_one]
  have hww : ∀ w : Fin n → ℝ, 0 ≤ w ⬝ᵥ w := fun w => Finset.sum_nonneg fun i _ => mul_self_nonneg _
  have hpg : p ⬝ᵥ B *ᵥ p = -(c.g v ⬝ᵥ p) := by rw [hBp, dotProduct_neg, dotProduct_comm]
  constructor
  · rw [← hpg, hBq]; exact (hq p).1
  · have := image_sq_le hsym hb (fun w => ⟨by rw [hBq]; exact le_trans (mul_nonneg ha.le (hww w)) (hq w).1,
      by rw [hBq]; exact (hq w).2⟩) p
    rw [hpg, hBp, neg_dotProduct_neg] at this
    exact this

/-- The line search accepts a step that is not too short. -/
theorem newton_search_descent {env : Env} {P : Nlp n 0 0} {c : SmoothCost n} (hP : P.IsCost c) {u v : Fin n → ℝ}
    {st : NewtonState n} (h : st.At env P c v) (hcl : IsClosed (c.level u)) (hv : v ∈ c.level u) {a b : ℝ}
    (hb : 0 < b) (hab : b ≤ 9e19 * a) {i : ℕ} {p : Fin n → ℝ}
    (hB : ∀ w ∈ c.level u, p ⬝ᵥ c.H w *ᵥ p ≤ b * (p ⬝ᵥ p)) (hp : newtonStep env st i = fun j => .fin (p j))
    (hD : c.g v ⬝ᵥ p < 0) (hpp : a * (p ⬝ᵥ p) ≤ -(c.g v ⬝ᵥ p)) (r : ℕ) (t : ℝ) (F : Filter) (ls : NewtonLineSearch n)
    (hls : newtonLineSearch env P st i (.fin (c.g v ⬝ᵥ p)) r (.fin t) F = some ls) (hF : F.Clean) (ht0 : 0 < t)
    (ht : min 1 (0.99 * (a / b)) ≤ t) :
    ls.filter.Clean ∧ ∃ t', min 1 (0.99 * (a / b)) ≤ t' ∧ v + t' • p ∈ c.level u ∧
      c.f (v + t' • p) ≤ c.f v + 1e-8 * t' * (c.g v ⬝ᵥ p) ∧
      ls.accepted = some (.filter, (fun j => .fin ((v + t' • p) j)), .fin (c.f (v + t' • p)), .fin t') := by
  induction r generalizing t F with
  | zero => exact absurd hls (by simp [newtonLineSearch])
  | succ r ih =>
    have hx : newtonPoint env st i (.fin t) = fun j => .fin ((v + t • p) j) := by
      funext j
      unfold newtonPoint
      rw [h.x, hp]
      rfl
    have hxf : Vec.Finite (fun j => Fl.fin ((v + t • p) j)) := fun _ => rfl
    have hhalf : Fl.fin t * .fin 0.5 = .fin (t * 0.5) := Fl.fin_mul _ _
    -- going on after a rejection
    have hnext : ¬ (v + t • p ∈ c.level u ∧ c.f (v + t • p) ≤ c.f v + 1e-8 * t * (c.g v ⬝ᵥ p)) →
        ¬ Fl.fin t * .fin 0.5 < newtonAlphaMin ∧ 0 < t * 0.5 ∧ min 1 (0.99 * (a / b)) ≤ t * 0.5 := by
      intro hrej
      have h1 : 2 * (1 - 1e-8) * a < t * b := by
        by_contra hc
        exact hrej (c.armijo hcl hv hB hD hpp ht0 (not_lt.1 hc))
      have h2 : 0.99 * (a / b) ≤ t * 0.5 := by
        rw [← mul_div_assoc, div_le_iff₀ hb]
        have ha : 0 < a := by nlinarith
        norm_num at h1 ⊢
        nlinarith
      refine ⟨?_, by positivity, (min_le_right _ _).trans h2⟩
      rw [hhalf, newtonAlphaMin, Fl.fin_lt, not_lt]
      refine le_trans ?_ h2
      rw [← mul_div_assoc, le_div_iff₀ hb]
      norm_num at hab ⊢
      linarith
    rw [newtonLineSearch] at hls
    simp only at hls
    rw [hx] at hls
    by_cases hdom : v + t • p ∈ c.dom
    · have hf : P.f (fun j => Fl.fin ((v + t • p) j)) = .fin (c.f (v + t • p)) := hP.f _ hxf hdom
      rw [if_neg (by rw [not_not, hf]; rfl), hf, h.f] at hls
      obtain ⟨t1, t2⟩ := newton_tryAdd hF (f0 := c.f v) (f1 := c.f (v + t • p)) hD ht0
      by_cases hacc : (F.tryAdd (newtonEntry (.fin (c.f v))) (newtonEntry (.fin (c.f (v + t • p)))) (.fin (c.g v ⬝ᵥ p))
          (.fin t)).2 = true
      · rw [if_pos hacc] at hls
        have hA := t1.1 hacc
        obtain rfl := Option.some.inj hls
        refine ⟨t2, t, ht, ⟨hdom, le_trans (hA.trans ?_) hv.2⟩, hA, rfl⟩
        have : 1e-8 * t * (c.g v ⬝ᵥ p) ≤ 0 := mul_nonpos_of_nonneg_of_nonpos (by positivity) hD.le
        linarith
      · rw [if_neg hacc] at hls
        obtain ⟨n1, n2, n3⟩ := hnext fun hc => hacc (t1.2 hc.2)
        rw [if_neg n1, hhalf] at hls
        exact ih _ _ hls t2 n2 n3
    · rw [if_pos (by rw [hP.outside _ hxf hdom]; simp)] at hls
      obtain ⟨n1, n2, n3⟩ := hnext fun hc => hdom hc.1.1
      rw [if_neg n1, hhalf] at hls
      exact ih _ _ hls hF n2 n3

/-- The stopping test in terms of the gradient. -/
theorem unscaledInfNewton_le {S : Scaling 0 0} (hS : 0 < S.f) {g : Fin n → ℝ} {t : ℝ} (ht : 0 ≤ t) :
    unscaledInfNewton S g ≤ t ↔ ∀ j, |g j| ≤ t * S.f := by
  unfold unscaledInfNewton kktInfNewton
  split
  · rename_i hI
    have h1 : S.f = 1 := by
      cases S with
      | identity => rfl
      | factors f _ _ => exact hI.1
    rw [h1, mul_one, infNorm_le]
    exact ⟨fun h => h.2, fun h => ⟨ht, h⟩⟩
  · rw [infNorm_le]
    constructor
    · intro h j
      have := h.2 j
      rw [one_div, abs_mul, abs_inv, abs_of_pos hS, inv_mul_le_iff₀ hS] at this
      rwa [mul_comm]
    · refine fun h => ⟨ht, fun j => ?_⟩
      rw [one_div, abs_mul, abs_inv, abs_of_pos hS, inv_mul_le_iff₀ hS, mul_comm]
      exact h j

/-- The decrease of the cost in an iteration. -/
noncomputable def descentPerStep (a b tol : ℝ) : ℝ := 1e-8 * min 1 (0.99 * (a / b)) * (tol ^ 2 / b)

/-- What the loop returns. -/
structure Converged (env : Env) (opts : SolverOptions) (P : Nlp n 0 0) (c : SmoothCost n) (u : Fin n → ℝ) (δ : ℝ)
    (res : NewtonResult n) : Prop where
  finite : res.x.Finite
  level : res.x.real ∈ c.level u
  progress : c.f res.x.real + res.iterations * δ ≤ c.f u
  status : res.status = .success ∧ (∀ j, |c.g res.x.real j| ≤ opts.tolerance * P.scaling.f) ∨
    res.status = .callbackRequestedStop ∨ res.status = .timeout ∨
    res.status = .maxIterationsExceeded ∧ opts.maxIterations ≤ res.iterations

theorem newtonLoop_converges {env : Env} {opts : SolverOptions} (ht : 0 < opts.tolerance) {P : Nlp n 0 0}
    {c : SmoothCost n} (hP : P.IsCost c) (hS : 0 < P.scaling.f) {u : Fin n → ℝ} (hcl : IsClosed (c.level u))
    (hbox : ∀ v ∈ c.level u, ∀ j, |v j| ≤ 1e10) {a b : ℝ} (ha : 0 < a) (hb : 0 < b) (hab : b ≤ 9e19 * a)
    (hE : ∀ v ∈ c.level u, c.SolvedAt env a b v) {cbs : List Callback} {start : ℝ} (r : ℕ) (st : NewtonState n) (w : World)
    (v : Fin n → ℝ) (hst : st.At env P c v) (hv : v ∈ c.level u)
    (hprog : c.f v + st.iterations * descentPerStep a b (opts.tolerance * P.scaling.f) ≤ c.f u) (res : NewtonResult n)
    (hres : newtonLoop env opts P cbs start r st w = some res) :
    Converged env opts P c u (descentPerStep a b (opts.tolerance * P.scaling.f)) res := by
  induction r generalizing st w v with
  | zero => exact absurd hres (by simp [newtonLoop])
  | succ r ih =>
    set δ := descentPerStep a b (opts.tolerance * P.scaling.f) with hδ
    have hxf : st.x.Finite := fun j => by rw [hst.x]; rfl
    have hxr : st.x.real = v := by rw [hst.x]; rfl
    have here : ∀ status w', (status = .success ∧ (∀ j, |c.g v j| ≤ opts.tolerance * P.scaling.f) ∨
        status = .callbackRequestedStop ∨ status = .timeout) → Converged env opts P c u δ (st.exit status w') := by
      intro status w' h
      refine ⟨hxf, ?_, ?_, ?_⟩
      · show st.x.real ∈ _; rw [hxr]; exact hv
      · show c.f st.x.real + _ ≤ _; rw [hxr]; exact hprog
      · show status = .success ∧ (∀ j, |c.g st.x.real j| ≤ _) ∨ _
        rw [hxr]
        rcases h with h | h | h
        · exact .inl h
        · exact .inr (.inl h)
        · exact .inr (.inr (.inl h))
    rw [newtonLoop] at hres
    by_cases c1 : ¬ st.E0 > .fin opts.tolerance
    · rw [if_pos c1] at hres
      obtain rfl := Option.some.inj hres
      refine here _ _ (.inl ⟨rfl, ?_⟩)
      rw [hst.E0, gt_iff_lt, Fl.fin_lt, not_lt] at c1
      exact (unscaledInfNewton_le hS ht.le).1 c1
    rw [if_neg c1] at hres
    have hbig : ∃ j, opts.tolerance * P.scaling.f < |c.g v j| := by
      rw [not_not, hst.E0, gt_iff_lt, Fl.fin_lt] at c1
      by_contra hc
      push Not at hc
      exact absurd ((unscaledInfNewton_le hS ht.le).2 hc) (not_le.2 c1)
    have hdiv : ¬ diverging env st.x := by
      rw [diverging, not_or, not_not]
      refine ⟨?_, hxf⟩
      rw [infNormF, if_pos hxf, hxr, gt_iff_lt, Fl.fin_lt, not_lt, infNorm_le]
      exact ⟨by norm_num, hbox v hv⟩
    rw [if_neg hdiv] at hres
    simp only at hres
    by_cases c3 : (runRegistered st.info 0 cbs w.calls).2 = true
    · rw [if_pos c3] at hres
      obtain rfl := Option.some.inj hres
      exact here _ _ (.inr (.inl rfl))
    rw [if_neg c3] at hres
    obtain ⟨p, hp, hdot, hpp, hgp⟩ := newton_direction hst hv.1 ha hb (hE v hv) w.solves
    -- the gradient is not small
    have hgg : (opts.tolerance * P.scaling.f) ^ 2 ≤ c.g v ⬝ᵥ c.g v := by
      obtain ⟨j, hj⟩ := hbig
      have h1 : c.g v j * c.g v j ≤ c.g v ⬝ᵥ c.g v :=
        Finset.single_le_sum (f := fun j => c.g v j * c.g v j) (fun i _ => mul_self_nonneg _) (Finset.mem_univ j)
      have h2 : (opts.tolerance * P.scaling.f) ^ 2 ≤ |c.g v j| ^ 2 := pow_le_pow_left₀ (by positivity) hj.le 2
      rw [sq_abs] at h2
      nlinarith
    have hts : 0 < (opts.tolerance * P.scaling.f) ^ 2 := by positivity
    have hD : c.g v ⬝ᵥ p < 0 := by
      by_contra hc
      nlinarith
    have hB : ∀ w ∈ c.level u, p ⬝ᵥ c.H w *ᵥ p ≤ b * (p ⬝ᵥ p) := by
      intro w hw
      obtain ⟨δ', h0, -, h2⟩ := hE w hw 0 _ rfl
      have h3 : 0 ≤ δ' * (p ⬝ᵥ p) := mul_nonneg h0 (Finset.sum_nonneg fun i _ => mul_self_nonneg _)
      linarith [(h2 p).2]
    obtain ⟨ls, hls⟩ := newton_line_search_ends env P st w.solves (dotF env st.g (newtonStep env st w.solves)) st.filter
    rw [hls, Option.bind_some] at hres
    rw [hdot, Fl.one_def] at hls
    obtain ⟨hFc, t, ht1, hlev, harm, hacc⟩ := newton_search_descent hP hst hcl hv hb hab hB hp hD hpp _ _ _ _ hls
      hst.filter one_pos (min_le_left _ _)
    rw [hacc] at hres
    simp only [Option.elim] at hres
    set v' := v + t • p with hv'
    have hx'f : Vec.Finite (fun j => Fl.fin (v' j)) := fun _ => rfl
    have hstep : c.f v' + δ ≤ c.f v := by
      have h1 : (opts.tolerance * P.scaling.f) ^ 2 / b ≤ -(c.g v ⬝ᵥ p) := by
        rw [div_le_iff₀ hb]
        linarith
      have hlo : 0 ≤ min 1 (0.99 * (a / b)) := le_min zero_le_one (by positivity)
      have h2 : δ ≤ 1e-8 * t * -(c.g v ⬝ᵥ p) := by
        rw [hδ, descentPerStep]
        exact mul_le_mul (mul_le_mul_of_nonneg_left ht1 (by norm_num)) h1 (by positivity)
          (mul_nonneg (by norm_num) (hlo.trans ht1))
      linarith
    have hnew : c.f v' + ((st.iterations + 1 : ℕ) : ℝ) * δ ≤ c.f u := by
      push_cast
      linarith
    by_cases c4 : ((st.iterations + 1 : ℕ) : ℤ) ≥ opts.maxIterations
    · rw [if_pos c4] at hres
      obtain rfl := Option.some.inj hres
      exact ⟨hx'f, hlev, hnew, .inr (.inr (.inr ⟨rfl, c4⟩))⟩
    rw [if_neg c4] at hres
    by_cases c5 : Fl.fin (env.clock w.reads - start) > opts.timeout
    · rw [if_pos c5] at hres
      obtain rfl := Option.some.inj hres
      exact ⟨hx'f, hlev, hnew, .inr (.inr (.inl rfl))⟩
    rw [if_neg c5] at hres
    refine ih _ _ v' ⟨rfl, rfl, funext (hP.g _ hx'f hlev.1), hP.H _ hx'f hlev.1, ?_, hFc⟩ hlev hnew hres
    have hg' : P.g (fun j => Fl.fin (v' j)) = fun j => .fin (c.g v' j) := funext (hP.g _ hx'f hlev.1)
    show errZeroNewton env P.scaling (P.g fun j => Fl.fin (v' j)) = _
    rw [hg']
    exact if_pos fun _ => rfl

/-- C56: Newton's method from a point whose level set is closed and lies in the box of side `10¹⁰` that counts as not
diverging, with a linear solver whose regularised matrices lie between `a` and `b` times the identity, on a cost that
is at least `low` on the level set. The result is not worse than the guess, every iteration has decreased the cost by
a fixed amount, and the run ends with SUCCESS at a point with a small gradient unless it was stopped by a callback,
the timeout or the iteration limit. Since the number of iterations is bounded, a large enough limit is not
reached. -/
theorem newton_converges {env : Env} {opts : SolverOptions} (ht : 0 < opts.tolerance) {P : Nlp n 0 0}
    {c : SmoothCost n} (hP : P.IsCost c) (hS : 0 < P.scaling.f) {x : Vec n} (hx : x.Finite) (hdom : x.real ∈ c.dom)
    (hcl : IsClosed (c.level x.real)) (hbox : ∀ v ∈ c.level x.real, ∀ j, |v j| ≤ 1e10) {low : ℝ}
    (hlow : ∀ v ∈ c.level x.real, low ≤ c.f v) {a b : ℝ} (ha : 0 < a) (hb : 0 < b) (hab : b ≤ 9e19 * a)
    (hE : ∀ v ∈ c.level x.real, c.SolvedAt env a b v) (cbs : List Callback) :
    ∃ res, newton env opts P cbs x .start = some res ∧ res.x.Finite ∧ res.x.real ∈ c.dom ∧
      c.f res.x.real + res.iterations * descentPerStep a b (opts.tolerance * P.scaling.f) ≤ c.f x.real ∧
      res.iterations * descentPerStep a b (opts.tolerance * P.scaling.f) ≤ c.f x.real - low ∧
      (res.status = .success ∧ (∀ j, |c.g res.x.real j| ≤ opts.tolerance * P.scaling.f) ∨
        res.status = .callbackRequestedStop ∨ res.status = .timeout ∨
        res.status = .maxIterationsExceeded ∧
          opts.maxIterations * descentPerStep a b (opts.tolerance * P.scaling.f) ≤ c.f x.real - low) := by
  have hin : x.real ∈ c.level x.real := ⟨hdom, le_rfl⟩
  have hxe : x = fun j => .fin (x.real j) := funext fun j => Fl.finite_toReal (hx j)
  have hg : (P.g x) = fun j => .fin (c.g x.real j) := funext (hP.g x hx hdom)
  have hgf : (P.g x).Finite := fun j => by rw [hg]; rfl
  have hat : (newtonInit env P x).At env P c x.real := by
    refine ⟨hxe, hP.f x hx hdom, hg, hP.H x hx hdom, ?_, rfl, rfl, rfl⟩
    show errZeroNewton env P.scaling (P.g x) = _
    rw [hg]
    exact if_pos fun _ => rfl
  obtain ⟨res, hres, -⟩ := newton_correct env opts P cbs x
  refine ⟨res, hres, ?_⟩
  unfold newton at hres
  simp only at hres
  rw [if_neg (by
    rw [not_not]
    exact ⟨by show (P.f x).isFinite = true; rw [hP.f x hx hdom]; rfl, hgf, fun i j => (hP.H x hx hdom i j).1⟩)] at hres
  have hfin := newtonLoop_converges ht hP hS hcl hbox ha hb hab hE _ _ _ _ hat hin
    (by show c.f x.real + ((0 : ℕ) : ℝ) * _ ≤ _; simp) res hres
  set δ := descentPerStep a b (opts.tolerance * P.scaling.f) with hδ
  have hδ0 : 0 ≤ δ := by
    rw [hδ, descentPerStep]
    have hlo : 0 ≤ min 1 (0.99 * (a / b)) := le_min zero_le_one (by positivity)
    positivity
  have hl := hlow _ hfin.level
  have hn : res.iterations * δ ≤ c.f x.real - low := by linarith [hfin.progress]
  refine ⟨hfin.finite, hfin.level.1, hfin.progress, hn, ?_⟩
  rcases hfin.status with h | h | h | ⟨h, h'⟩
  · exact .inl h
  · exact .inr (.inl h)
  · exact .inr (.inr (.inl h))
  · refine .inr (.inr (.inr ⟨h, le_trans (mul_le_mul_of_nonneg_right ?_ hδ0) hn⟩))
    exact_mod_cast h'

theorem Batches.ok_mem {cbs : List Callback} {before : List Call} {bs : Batches} (h : Batches.Ok cbs before bs)
    {b : Snapshot × List Call} (hb : b ∈ bs) : ∃ before', Batch cbs before' b.1.info b.2 := by
  induction bs generalizing before with
  | nil => exact absurd hb (by simp)
  | cons b' bs ih =>
    rcases List.mem_cons.1 hb with rfl | hb
    · exact ⟨_, h.1⟩
    · exact ih h.2 hb

/-- C56: without a time limit, with callbacks that do not stop and with a limit on the iterations that is large enough,
the run ends with SUCCESS. -/
theorem newton_succeeds {env : Env} {opts : SolverOptions} (ht : 0 < opts.tolerance) {P : Nlp n 0 0}
    {c : SmoothCost n} (hP : P.IsCost c) (hS : 0 < P.scaling.f) {x : Vec n} (hx : x.Finite) (hdom : x.real ∈ c.dom)
    (hcl : IsClosed (c.level x.real)) (hbox : ∀ v ∈ c.level x.real, ∀ j, |v j| ≤ 1e10) {low : ℝ}
    (hlow : ∀ v ∈ c.level x.real, low ≤ c.f v) {a b : ℝ} (ha : 0 < a) (hb : 0 < b) (hab : b ≤ 9e19 * a)
    (hE : ∀ v ∈ c.level x.real, c.SolvedAt env a b v) {cbs : List Callback} (hcb : ∀ cb ∈ cbs, ∀ l i, cb l i = false)
    (htime : opts.timeout = .pinf)
    (hlim : c.f x.real - low < opts.maxIterations * descentPerStep a b (opts.tolerance * P.scaling.f)) :
    ∃ res, newton env opts P cbs x .start = some res ∧ res.status = .success ∧ res.x.Finite ∧ res.x.real ∈ c.dom ∧
      c.f res.x.real ≤ c.f x.real ∧ ∀ j, |c.g res.x.real j| ≤ opts.tolerance * P.scaling.f := by
  obtain ⟨res, h1, h2, h3, h4, -, h5⟩ := newton_converges ht hP hS hx hdom hcl hbox hlow ha hb hab hE cbs
  obtain ⟨res', h1', -, -, -, ⟨bs, hh⟩, -⟩ := newton_correct env opts P cbs x
  obtain rfl : res = res' := Option.some.inj (h1.symm.trans h1')
  have hδ0 : 0 ≤ descentPerStep a b (opts.tolerance * P.scaling.f) := by
    rw [descentPerStep]
    have hlo : 0 ≤ min 1 (0.99 * (a / b)) := le_min zero_le_one (by positivity)
    positivity
  have hle : c.f res.x.real ≤ c.f x.real := by
    have := mul_nonneg (Nat.cast_nonneg (α := ℝ) res.iterations) hδ0
    linarith
  rcases h5 with h | h | h | h
  · exact ⟨res, h1, h.1, h2, h3, hle, h.2⟩
  · obtain ⟨b, hb, ⟨c, hc, ht⟩, -⟩ := hh.stop h
    obtain ⟨before, hB⟩ := Batches.ok_mem hh.ok (List.mem_of_mem_getLast? hb)
    obtain ⟨k, hk, rfl⟩ := List.mem_iff_getElem.1 hc
    have hk' : k < cbs.length := lt_of_lt_of_le hk hB.length
    rw [hB.results k hk hk', hcb _ (List.getElem_mem hk')] at ht
    exact absurd ht (by simp)
  · obtain ⟨e, -, he⟩ := hh.timeout h
    rw [htime] at he
    exact he.elim
  · exact absurd h.2 (not_le.2 hlim)

/-! ### Strongly convex costs -/

/-- Distances from a stationary point are bounded by the gradient. -/
theorem SmoothCost.distance (c : SmoothCost n) {u v z : Fin n → ℝ} (hconv : Convex ℝ (c.level u)) {a : ℝ} (ha : 0 < a)
    (hH : ∀ w ∈ c.level u, ∀ q : Fin n → ℝ, a * (q ⬝ᵥ q) ≤ q ⬝ᵥ c.H w *ᵥ q) (hv : v ∈ c.level u) (hz : z ∈ c.level u)
    (hg : c.g z = 0) : a ^ 2 * ((v - z) ⬝ᵥ (v - z)) ≤ c.g v ⬝ᵥ c.g v := by
  set q := v - z with hq
  have hseg : ∀ t ∈ Set.Icc (0 : ℝ) 1, z + t • q ∈ c.level u := by
    intro t ht
    have := hconv hz hv (sub_nonneg.2 ht.2) ht.1 (by ring)
    have e : z + t • q = (1 - t) • z + t • v := by rw [hq]; module
    rwa [e]
  have hm : MonotoneOn (fun s : ℝ => c.g (z + s • q) ⬝ᵥ q - s * (a * (q ⬝ᵥ q))) (Set.Icc 0 1) := by
    have hder : ∀ s ∈ Set.Icc (0 : ℝ) 1, HasDerivAt (fun s : ℝ => c.g (z + s • q) ⬝ᵥ q - s * (a * (q ⬝ᵥ q)))
        (q ⬝ᵥ c.H (z + s • q) *ᵥ q - a * (q ⬝ᵥ q)) s := fun s hs => by
      have := (c.deriv2_line z q (hseg s hs).1).fun_sub ((hasDerivAt_id' s).mul_const (a * (q ⬝ᵥ q)))
      rwa [one_mul] at this
    refine monotoneOn_of_deriv_nonneg (convex_Icc 0 1) (fun s hs => (hder s hs).continuousAt.continuousWithinAt) ?_ ?_
    · exact fun s hs => (hder s (interior_subset hs)).differentiableAt.differentiableWithinAt
    · intro s hs
      rw [(hder s (interior_subset hs)).deriv]
      linarith [hH _ (hseg s (interior_subset hs)) q]
  have h1 := hm (Set.left_mem_Icc.2 zero_le_one) (Set.right_mem_Icc.2 zero_le_one) zero_le_one
  simp only [zero_smul, add_zero, zero_mul, sub_zero, one_smul, one_mul, hg, zero_dotProduct] at h1
  rw [show z + q = v by rw [hq]; abel] at h1
  have h2 : 0 ≤ (c.g v - a • q) ⬝ᵥ (c.g v - a • q) := Finset.sum_nonneg fun i _ => mul_self_nonneg _
  rw [sub_dotProduct, dotProduct_sub, dotProduct_sub, smul_dotProduct, smul_dotProduct, dotProduct_smul, dotProduct_smul,
    dotProduct_comm q (c.g v)] at h2
  simp only [smul_eq_mul] at h2
  nlinarith

/-- A level set in the box has a minimiser, and the gradient vanishes there. -/
theorem SmoothCost.minimiser (c : SmoothCost n) {u : Fin n → ℝ} (hu : u ∈ c.dom) (hcl : IsClosed (c.level u)) {B : ℝ}
    (hbox : ∀ v ∈ c.level u, ∀ j, |v j| ≤ B) : ∃ z ∈ c.level u, (∀ v ∈ c.dom, c.f z ≤ c.f v) ∧ c.g z = 0 := by
  have hcomp : IsCompact (c.level u) := by
    refine Metric.isCompact_of_isClosed_isBounded hcl ?_
    refine (Metric.isBounded_Icc (fun _ : Fin n => -B) fun _ => B).subset fun v hv => ?_
    exact ⟨fun j => (abs_le.1 (hbox v hv j)).1, fun j => (abs_le.1 (hbox v hv j)).2⟩
  obtain ⟨z, hz, hmin⟩ := hcomp.exists_isMinOn ⟨u, hu, le_rfl⟩
    fun v hv => (c.deriv v hv.1).continuousAt.continuousWithinAt
  have hall : ∀ v ∈ c.dom, c.f z ≤ c.f v := by
    intro v hv
    rcases le_total (c.f v) (c.f u) with h | h
    · exact hmin ⟨hv, h⟩
    · exact hz.2.trans h
  refine ⟨z, hz, hall, ?_⟩
  have hloc : IsLocalMin c.f z := Filter.mem_of_superset (c.isOpen.mem_nhds hz.1) hall
  have h0 := hloc.hasFDerivAt_eq_zero (c.deriv z hz.1)
  have h1 := congrArg (fun l => l (c.g z)) h0
  simp only [dotMap_apply] at h1
  exact dotProduct_self_eq_zero.1 h1

/-- C56 for strongly convex costs: if the Hessian on the convex level set of the guess is between `a` and `b` times the
identity with `a` at least `10⁻⁴`, and the linear solver does not regularise strongly convex systems, then a run without
a time limit whose iteration limit is large enough ends with SUCCESS, at a distance of at most `√n·tolerance/a` from
the minimiser. -/
theorem newton_convex {env : Env} (hE : ∀ S : LinSystem, S.Finite → S.StronglyConvex → env.Plain S) {opts : SolverOptions}
    (ht : 0 < opts.tolerance) {P : Nlp n 0 0} {c : SmoothCost n} (hP : P.IsCost c) (hS : 0 < P.scaling.f) {x : Vec n}
    (hx : x.Finite) (hdom : x.real ∈ c.dom) (hcl : IsClosed (c.level x.real)) (hconv : Convex ℝ (c.level x.real))
    (hbox : ∀ v ∈ c.level x.real, ∀ j, |v j| ≤ 1e10) {a b : ℝ} (ha : 1e-4 ≤ a) (hb : 0 < b) (hab : b ≤ 9e19 * a)
    (hH : ∀ v ∈ c.level x.real, ∀ q : Fin n → ℝ, a * (q ⬝ᵥ q) ≤ q ⬝ᵥ c.H v *ᵥ q ∧ q ⬝ᵥ c.H v *ᵥ q ≤ b * (q ⬝ᵥ q))
    {cbs : List Callback} (hcb : ∀ cb ∈ cbs, ∀ l i, cb l i = false) (htime : opts.timeout = .pinf) :
    ∃ z ∈ c.dom, (∀ v ∈ c.dom, c.f z ≤ c.f v) ∧
      (c.f x.real - c.f z < opts.maxIterations * descentPerStep a b (opts.tolerance * P.scaling.f) →
        ∃ res, newton env opts P cbs x .start = some res ∧ res.status = .success ∧ res.x.Finite ∧
          a ^ 2 * ((res.x.real - z) ⬝ᵥ (res.x.real - z)) ≤ n * (opts.tolerance * P.scaling.f) ^ 2) := by
  have ha0 : 0 < a := lt_of_lt_of_le (by norm_num) ha
  have hww : ∀ w : Fin n → ℝ, 0 ≤ w ⬝ᵥ w := fun w => Finset.sum_nonneg fun i _ => mul_self_nonneg _
  obtain ⟨z, hz, hmin, hg⟩ := c.minimiser hdom hcl hbox
  refine ⟨z, hz.1, hmin, fun hlim => ?_⟩
  have hsolved : ∀ v ∈ c.level x.real, c.SolvedAt env a b v := by
    intro v hv i S hSd
    subst hSd
    have hs : (⟨n, 0, fun j l => .fin (c.H v j l), fun j => .fin (-c.g v j)⟩ : LinSystem).StronglyConvex :=
      ⟨rfl, c.symm hv.1, fun q => le_trans (mul_le_mul_of_nonneg_right ha (hww q)) (hH v hv q).1⟩
    refine ⟨0, le_rfl, hE _ ⟨fun _ _ => rfl, fun _ => rfl⟩ hs i, fun w => ?_⟩
    · rw [zero_mul, add_zero]; exact hH v hv w
  obtain ⟨res, h1, h2, h3, h4, h5, h6⟩ := newton_succeeds ht hP hS hx hdom hcl hbox (fun v hv => hmin v hv.1) ha0 hb hab
    hsolved hcb htime hlim
  refine ⟨res, h1, h2, h3, (c.distance hconv ha0 (fun w hw q => (hH w hw q).1) ⟨h4, h5⟩ hz hg).trans ?_⟩
  have : ∀ j ∈ Finset.univ, c.g res.x.real j * c.g res.x.real j ≤ (opts.tolerance * P.scaling.f) ^ 2 := fun j _ => by
    have := pow_le_pow_left₀ (abs_nonneg _) (h6 j) 2
    rw [sq_abs] at this
    nlinarith
  refine (Finset.sum_le_card_nsmul _ _ _ this).trans ?_
  simp

/-- From 1.1, `x - log x`, which is defined for positive values only, is minimised to within 0.0625 with a tolerance of
0.05. The limit fits an `int`. -/
example : ∃ z, 0 < z 0 ∧ ∃ res, newton plainEnv ⟨0.05, 2000000000, .pinf, false⟩ logNlp [] logGuess .start = some res ∧
    res.status = .success ∧ 0.8 ^ 2 * ((res.x.real - z) ⬝ᵥ (res.x.real - z)) ≤ 0.05 ^ 2 := by
  obtain ⟨z, hz, hmin, h⟩ := newton_convex (env := plainEnv) (fun S _ hS => plainEnv_plain hS.solvable)
    (opts := ⟨0.05, 2000000000, .pinf, false⟩) (by norm_num) logNlp_isCost one_pos (x := logGuess) (fun _ => rfl)
    (show (0 : ℝ) < 1.1 by norm_num) logLevel_closed logLevel_convex logLevel_box (a := 0.8) (b := 2) (by norm_num)
    (by norm_num) (by norm_num) logHessian (cbs := []) (by simp) rfl
  obtain ⟨res, h1, h2, -, h3⟩ := h (by
    have hz0 : (0 : ℝ) < z 0 := hz
    have a1 := Real.log_le_sub_one_of_pos hz0
    have a2 := Real.one_sub_inv_le_log_of_pos (show (0 : ℝ) < 1.1 by norm_num)
    show 1.1 - Real.log 1.1 - (z 0 - Real.log (z 0)) < ((2000000000 : ℤ) : ℝ) * descentPerStep 0.8 2 (0.05 * 1)
    have e : descentPerStep 0.8 2 (0.05 * 1) = 4.95e-12 := by
      rw [descentPerStep, min_eq_right (by norm_num)]; norm_num
    rw [e]
    push_cast
    norm_num at a2 ⊢
    linarith)
  refine ⟨z, hz, res, h1, h2, ?_⟩
  have e : ((1 : ℕ) : ℝ) * ((0.05 : ℝ) * 1) ^ 2 = 0.05 ^ 2 := by norm_num
  exact h3.trans e.le

end Slp
