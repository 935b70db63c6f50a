import Verif.Solver.LinearSpec
import Verif.Solver.SqpRegularProps
import Verif.Solver.QuadraticProps

/-! C83: linear constraints. -/

namespace Slp

open Classical Matrix

variable {n m k : ℕ}

theorem Vec.fin_real {x : Vec n} (h : x.Finite) : x = fun j => .fin (x.real j) := funext fun j => Fl.finite_toReal (h j)

theorem LinearConstraints.eqs_move (q : LinearConstraints n m k) {v p : Fin n → ℝ} {u κ : ℝ}
    (hp : q.A *ᵥ p = -(κ • q.eqs v)) : q.eqs (v + u • p) = (1 - u * κ) • q.eqs v := by
  unfold LinearConstraints.eqs at *
  rw [mulVec_add, mulVec_smul, hp]
  funext i
  simp only [Pi.sub_apply, Pi.add_apply, Pi.smul_apply, Pi.neg_apply, smul_eq_mul]
  ring

theorem LinearConstraints.ineqs_move (q : LinearConstraints n m k) {v p : Fin n → ℝ} {s r : Fin k → ℝ} {u κ : ℝ}
    (hr : r = κ • q.ineqs v s + q.B *ᵥ p) : q.ineqs (v + u • p) (s + u • r) = (1 - u * κ) • q.ineqs v s := by
  rw [hr]
  unfold LinearConstraints.ineqs
  rw [mulVec_add, mulVec_smul]
  funext i
  simp only [Pi.sub_apply, Pi.add_apply, Pi.smul_apply, smul_eq_mul]
  ring

/-- A Newton step for multiples of the violations. -/
theorem newton_linear {P : Nlp n m k} {q : LinearConstraints n m k} (hq : P.HasLinear q) {st : IpmState n m k}
    (h : st.Sound P) {ce : Vec m} {cis : Vec k} {p : IpmStep n m k} (hN : st.NewtonStep ce cis p (fun _ γ => γ = 0)) {κ : ℝ}
    (hce : ce.real = q.eqs st.x.real) (hcis : cis.real = κ • q.ineqs st.x.real st.s.real) :
    q.A *ᵥ p.real.px = -((1 : ℝ) • q.eqs st.x.real) ∧
      p.real.ps = κ • q.ineqs st.x.real st.s.real + q.B *ᵥ p.real.px := by
  obtain ⟨-, δ, γ, -, -, rfl, hS⟩ := hN
  have eA : st.e.Ae.real = q.A := by
    funext i j
    show (st.e.Ae i j).toReal = _
    rw [h.e, show (P.eval st.x st.y st.z).Ae = P.Ae st.x from rfl, hq.Ae _ h.x]; rfl
  have eB : st.e.Ai.real = q.B := by
    funext i j
    show (st.e.Ai i j).toReal = _
    rw [h.e, show (P.eval st.x st.y st.z).Ai = P.Ai st.x from rfl, hq.Ai _ h.x]; rfl
  rw [eA, eB, hce, hcis] at hS
  constructor
  · funext i
    have := hS.equality i
    rw [zero_mul, add_zero] at this
    rw [one_smul]
    exact this
  · funext i
    have := hS.inequality i
    have e : (q.B *ᵥ p.real.px) i = ∑ l, q.B i l * p.real.px l := rfl
    rw [Pi.add_apply, e]
    linarith

theorem HasLinear.ce_real {P : Nlp n m k} {q : LinearConstraints n m k} (hq : P.HasLinear q) {x : Vec n} (hx : x.Finite) :
    (P.ce x).real = q.eqs x.real := by
  funext i; show (P.ce x i).toReal = _; rw [hq.ce x hx]; rfl

theorem HasLinear.ci_real {P : Nlp n m k} {q : LinearConstraints n m k} (hq : P.HasLinear q) {x : Vec n} (hx : x.Finite)
    (s : Fin k → ℝ) : (P.ci x).real - s = q.ineqs x.real s := by
  funext i; show (P.ci x i).toReal - _ = _; rw [hq.ci x hx]; rfl

theorem real_of_fin {x : Vec n} {v : Fin n → ℝ} (h : ∀ j, x j = .fin (v j)) : x.Finite ∧ x.real = v :=
  ⟨fun j => by rw [h]; rfl, funext fun j => by show (x j).toReal = _; rw [h]; rfl⟩

/-- With linear constraints a second-order correction corrects nothing, except that the slacks may have become the
constraint values. -/
theorem values_linear {opts : SolverOptions} {P : Nlp n m k} {q : LinearConstraints n m k} (hq : P.HasLinear q)
    {st : IpmState n m k} (h : st.Sound P) {ce : Vec m} {cis : Vec k} (hV : StepValues opts P st (fun _ γ => γ = 0) ce cis) :
    ce.real = q.eqs st.x.real ∧ ∃ κ : ℝ, 0 < κ ∧ κ ≤ 1 ∧ cis.real = κ • q.ineqs st.x.real st.s.real := by
  induction hV with
  | plain =>
    refine ⟨by rw [h.e]; exact HasLinear.ce_real hq h.x, 1, one_pos, le_rfl, ?_⟩
    rw [one_smul, ← HasLinear.ci_real hq h.x, h.e]
    funext j
    have h1 : (P.eval st.x st.y st.z).ci j = .fin _ := hq.ci _ h.x j
    obtain ⟨a, ha, -⟩ := h.s j
    show Fl.toReal ((P.eval st.x st.y st.z).ci j - st.s j) = (P.ci st.x j).toReal - (st.s j).toReal
    rw [h1, ha, hq.ci _ h.x j, Fl.fin_sub]; rfl
  | @corrected ce cis p a x s hV newton size hx hs ce' cis' hce hcis ih =>
    obtain ⟨i1, κ, hκ0, hκ1, i2⟩ := ih
    obtain ⟨m1, m2⟩ := newton_linear hq h newton i1 i2
    obtain ⟨fx, rx⟩ := real_of_fin hx
    have rx' : x.real = st.x.real + a • p.real.px := rx
    have e1 : q.eqs x.real = (1 - a * 1) • q.eqs st.x.real := by rw [rx']; exact q.eqs_move m1
    obtain ⟨-, rce⟩ := real_of_fin hce
    obtain ⟨-, rcis⟩ := real_of_fin hcis
    constructor
    · rw [rce, HasLinear.ce_real hq fx, i1, e1]
      funext j
      simp only [Pi.smul_apply, smul_eq_mul]
      ring
    rcases hs with hs | ⟨-, -, hs⟩
    · refine ⟨1, one_pos, le_rfl, ?_⟩
      obtain ⟨-, rs⟩ := real_of_fin hs
      have e2 : q.ineqs x.real s.real = (1 - a * κ) • q.ineqs st.x.real st.s.real := by
        rw [rx', show s.real = st.s.real + a • p.real.ps from rs]; exact q.ineqs_move m2
      rw [rcis, i2, one_smul]
      funext j
      have e3 := congrFun e2 j
      have e4 := congrFun (HasLinear.ci_real hq fx s.real) j
      simp only [Pi.smul_apply, smul_eq_mul, Pi.sub_apply] at e3 e4 ⊢
      rw [add_sub_assoc, e4, e3]
      ring
    · refine ⟨a * κ, mul_pos size.1 hκ0, ?_, ?_⟩
      · have := mul_le_mul size.2 hκ1 hκ0.le zero_le_one
        linarith
      rw [rcis, i2, hs]
      funext j
      simp only [Pi.smul_apply, smul_eq_mul]
      ring

theorem moved_closer {opts : SolverOptions} {P : Nlp n m k} {q : LinearConstraints n m k} (hq : P.HasLinear q)
    {st st' : IpmState n m k} (h : st.Sound P) (hM : NewtonMove (fun _ γ => γ = 0) opts P st st') :
    q.Closer st.x.real st.s.real st'.x.real st'.s.real := by
  obtain ⟨ce, cis, u, v, p, hM⟩ := hM
  obtain ⟨v1, κ, hκ0, hκ1, v2⟩ := values_linear hq h hM.values
  obtain ⟨m1, m2⟩ := newton_linear hq h hM.newton v1 v2
  obtain ⟨fx, rx⟩ := real_of_fin hM.x
  have rx' : st'.x.real = st.x.real + u • p.real.px := rx
  have hu := hM.primal
  have huκ : u * κ ≤ 1 := by
    have := mul_le_mul hu.2 hκ1 hκ0.le zero_le_one
    linarith
  have huκ0 := mul_pos hu.1 hκ0
  have e1 : q.eqs st'.x.real = (1 - u * 1) • q.eqs st.x.real := by rw [rx']; exact q.eqs_move m1
  rcases hM.s with hs | ⟨-, -, hs⟩
  · obtain ⟨-, rs⟩ := real_of_fin hs
    refine ⟨1 - u * 1, 1 - u * κ, by linarith, by linarith, by linarith, by linarith, e1, ?_⟩
    rw [rx', show st'.s.real = st.s.real + u • p.real.ps from rs]
    exact q.ineqs_move m2
  · refine ⟨1 - u * 1, 0, by linarith, by linarith, le_rfl, one_pos, e1, ?_⟩
    rw [← HasLinear.ci_real hq fx, hs, sub_self, zero_smul]

theorem violation_fl {P : Nlp n m k} {q : LinearConstraints n m k} (hq : P.HasLinear q) {x : Vec n} {s : Vec k}
    (hx : x.Finite) (hs : s.Finite) :
    norm1 (List.ofFn (P.ce x)) + norm1 (List.ofFn fun i => P.ci x i - s i) = .fin (q.violation x.real s.real) := by
  have e1 : P.ce x = fun i => .fin (q.eqs x.real i) := funext fun i => hq.ce x hx i
  have e2 : (fun i => P.ci x i - s i) = fun i => .fin (q.ineqs x.real s.real i) := funext fun i => by
    rw [hq.ci x hx i, Fl.finite_toReal (hs i), Fl.fin_sub]; rfl
  rw [e1, e2, norm1_fin, norm1_fin, Fl.fin_add]
  rfl

theorem shown_next {opts : SolverOptions} {P : Nlp n m k} {q : LinearConstraints n m k} (hq : P.HasLinear q)
    {cbs : List Callback} {a b : Snapshot} (h : NextShown (fun _ γ => γ = 0) opts P (Restored cbs P) a b) : q.Next cbs a b := by
  obtain ⟨st, st', h1, h2, ha, -, -, hb, hM⟩ := h
  refine ⟨st.x.real, st.s.real, st'.x.real, st'.s.real, ⟨?_, ?_⟩, ⟨?_, ?_⟩, ?_⟩
  · rw [ha, ← Vec.fin_real h1.x]; rfl
  · rw [ha, ← Vec.fin_real h1.s.finite]; rfl
  · rw [hb, ← Vec.fin_real h2.x]; rfl
  · rw [hb, ← Vec.fin_real h2.s.finite]; rfl
  rcases hM with hM | ⟨-, hM, -⟩
  · exact .inl (moved_closer hq h1 hM)
  · rcases hM with ⟨cb, hcb, calls, info, hc, -⟩ | hM
    · exact .inr (.inr ⟨cb, hcb, calls, info, hc⟩)
    · rw [violation_fl hq h1.x h1.s.finite, violation_fl hq h2.x h2.s.finite, Fl.fin_mul, Fl.fin_lt] at hM
      exact .inr (.inl hM)

theorem outer_eq (w : World) : w.outer = ownSnapshots false w.trace := by
  unfold World.outer ownSnapshots
  refine List.filter_congr fun s _ => ?_
  cases s.inner <;> rfl

/-- C83: the iterates of the interior-point solver on a problem with linear constraints whose systems are solved exactly
and without a regularisation of the equality constraints: from each to the next the violation of all equality constraints
shrinks by the same factor, and that of the inequality constraints, unless feasibility restoration reduced the total
violation. The result is the last iterate, unless feasibility restoration fails. -/
theorem ipm_linear {env : Env} (hE : env.ExactSolve) (hE' : env.ExactEstimate) {opts : SolverOptions} {P : Nlp n m k}
    (hP : P.Total) {q : LinearConstraints n m k} (hq : P.HasLinear q)
    (hA : ∀ st : IpmState n m k, st.Sound P → st.Answers env (fun _ γ => γ = 0)) (htol : 0 < opts.tolerance) (hS : 0 < P.scaling.f)
    {cbs : List Callback} {v : Fin n → ℝ} {res : IpmResult n m k}
    (hres : interiorPoint env opts P cbs (fun j => .fin (v j)) .start = some res) :
    res.world.outer.IsChain (q.Next cbs) ∧
    (res.status = .locallyInfeasible ∨ res.status = .feasibilityRestorationFailed ∨
      LinkedFrom (q.Next cbs) res.world.outer v (fun _ : Fin k => 1) res.x.real res.s.real) := by
  obtain ⟨h1, h2, -, -, -, h3, first, h4, h5, h6⟩ := solve_shown hE hE' hP hA htol hS (fun _ => rfl) hres
  refine ⟨h3.imp fun _ _ h => shown_next hq h, h6.imp id (Or.imp id ?_)⟩
  rintro ⟨b, hb1, hb2, L, hL, hc, hf⟩
  refine ⟨L, first, b, by rwa [outer_eq], hc.imp fun _ _ h => shown_next hq h, hf, ⟨h4, ?_⟩, ?_, ?_⟩
  · rw [h5, ← List.ofFn_const]; rfl
  · rw [hb1, ← Vec.fin_real h1]
  · rw [hb2, ← Vec.fin_real h2.finite]

/-! ### The SQP solver -/

theorem sqp_newton_linear {P : Nlp n m 0} {q : LinearConstraints n m 0} (hq : P.HasLinear q) {st : SqpState n m}
    (h : st.Sound P) {ce : Vec m} {p : SqpStep n m} (hN : st.NewtonStep ce p (fun _ γ => γ = 0)) (hce : ce.real = q.eqs st.x.real) :
    q.A *ᵥ p.px.real = -((1 : ℝ) • q.eqs st.x.real) := by
  obtain ⟨-, δ, γ, -, -, rfl, -, hS⟩ := hN
  have eA : st.e.Ae.real = q.A := by
    funext i j
    show (st.e.Ae i j).toReal = _
    rw [h.e, show (P.eval st.x st.y Fin.elim0).Ae = P.Ae st.x from rfl, hq.Ae _ h.x]; rfl
  rw [eA, hce] at hS
  funext i
  have := hS i
  rw [zero_mul, add_zero] at this
  rw [one_smul]
  exact this

theorem sqp_values_linear {P : Nlp n m 0} {q : LinearConstraints n m 0} (hq : P.HasLinear q) {st : SqpState n m}
    (h : st.Sound P) {ce : Vec m} (hV : SqpStepValues P st (fun _ γ => γ = 0) ce) : ce.real = q.eqs st.x.real := by
  induction hV with
  | plain => rw [h.e]; exact HasLinear.ce_real hq h.x
  | @corrected ce p x hV newton hx ce' hce ih =>
    have m1 := sqp_newton_linear hq h newton ih
    obtain ⟨fx, rx⟩ := real_of_fin hx
    have rx' : x.real = st.x.real + (1 : ℝ) • p.px.real := by rw [rx, one_smul]; rfl
    have e1 : q.eqs x.real = (1 - 1 * 1 : ℝ) • q.eqs st.x.real := by rw [rx']; exact q.eqs_move m1
    obtain ⟨-, rce⟩ := real_of_fin hce
    rw [rce, HasLinear.ce_real hq fx, ih, e1]
    funext j
    simp only [Pi.smul_apply, smul_eq_mul]
    ring

theorem sqp_shown_next {P : Nlp n m 0} {q : LinearConstraints n m 0} (hq : P.HasLinear q) {cbs : List Callback}
    {a b : Snapshot} (h : SqpNextShown (fun _ γ => γ = 0) cbs P a b) : q.Next cbs a b := by
  obtain ⟨st, st', h1, h2, ha, hb, hM⟩ := h
  refine ⟨st.x.real, Fin.elim0, st'.x.real, Fin.elim0, ⟨?_, ?_⟩, ⟨?_, ?_⟩, ?_⟩
  · rw [ha, ← Vec.fin_real h1.x]; rfl
  · rw [ha]; rfl
  · rw [hb, ← Vec.fin_real h2.x]; rfl
  · rw [hb]; rfl
  rcases hM with ⟨ce, u, p, hM⟩ | ⟨hM, -⟩
  · have m1 := sqp_newton_linear hq h1 hM.newton (sqp_values_linear hq h1 hM.values)
    obtain ⟨-, rx⟩ := real_of_fin hM.x
    have rx' : st'.x.real = st.x.real + u • p.px.real := rx
    have hu := hM.size
    exact .inl ⟨1 - u * 1, 0, by linarith, by linarith, le_rfl, one_pos, by rw [rx']; exact q.eqs_move m1,
      funext fun i => i.elim0⟩
  · rcases hM with ⟨cb, hcb, calls, info, hc, -⟩ | hM
    · exact .inr (.inr ⟨cb, hcb, calls, info, hc⟩)
    · have e : ∀ {x : Vec n}, x.Finite → norm1 (List.ofFn (P.ce x)) = .fin (q.violation x.real Fin.elim0) := fun {x} hx => by
        rw [show P.ce x = fun i => .fin (q.eqs x.real i) from funext fun i => hq.ce x hx i, norm1_fin]
        simp [LinearConstraints.violation]
      rw [e h1.x, e h2.x, Fl.fin_mul, Fl.fin_lt] at hM
      exact .inr (.inl hM)

/-- C83: the same for the SQP solver. -/
theorem sqp_linear {env : Env} (hE : env.ExactSolve) (hE' : env.ExactEstimate) {opts : SolverOptions} {P : Nlp n m 0}
    (hP : P.Total) {q : LinearConstraints n m 0} (hq : P.HasLinear q)
    (hA : ∀ st : SqpState n m, st.Sound P → st.Answers env (fun _ γ => γ = 0)) (htol : 0 < opts.tolerance)
    {cbs : List Callback} {v : Fin n → ℝ} {res : SqpResult n m}
    (hres : sqp env opts P cbs (fun j => .fin (v j)) .start = some res) :
    res.world.outer.IsChain (q.Next cbs) ∧
    (res.status = .locallyInfeasible ∨ res.status = .feasibilityRestorationFailed ∨
      LinkedFrom (q.Next cbs) res.world.outer v Fin.elim0 res.x.real Fin.elim0) := by
  obtain ⟨h1, -, -, h3, first, h4, h5, h6⟩ := sqp_shown hE hE' hP hA htol (fun _ => rfl) hres
  refine ⟨h3.imp fun _ _ h => sqp_shown_next hq h, h6.imp id (Or.imp id ?_)⟩
  rintro ⟨b, hb1, hb2, L, hL, hc, hf⟩
  refine ⟨L, first, b, by rwa [outer_eq], hc.imp fun _ _ h => sqp_shown_next hq h, hf, ⟨h4, by rw [h5]; rfl⟩, ?_,
    by rw [hb2]; rfl⟩
  rw [hb1, ← Vec.fin_real h1]

/-! ### The violation never grows -/

theorem Snapshot.At.unique {a : Snapshot} {v v' : Fin n → ℝ} {s s' : Fin k → ℝ} (h : a.At v s) (h' : a.At v' s') :
    v = v' ∧ s = s' := by
  have e1 := List.ofFn_injective (h.1.symm.trans h'.1)
  have e2 := List.ofFn_injective (h.2.symm.trans h'.2)
  exact ⟨funext fun j => Fl.fin.inj (congrFun e1 j), funext fun j => Fl.fin.inj (congrFun e2 j)⟩

theorem LinearConstraints.Closer.violation {q : LinearConstraints n m k} {v v' : Fin n → ℝ} {s s' : Fin k → ℝ}
    (h : q.Closer v s v' s') : q.violation v' s' ≤ q.violation v s := by
  obtain ⟨θ, φ, h1, h2, h3, h4, h5, h6⟩ := h
  unfold LinearConstraints.violation
  refine add_le_add (Finset.sum_le_sum fun i _ => ?_) (Finset.sum_le_sum fun i _ => ?_)
  · rw [h5, Pi.smul_apply, smul_eq_mul, abs_mul, abs_of_nonneg h1]
    exact mul_le_of_le_one_left (abs_nonneg _) h2.le
  · rw [h6, Pi.smul_apply, smul_eq_mul, abs_mul, abs_of_nonneg h3]
    exact mul_le_of_le_one_left (abs_nonneg _) h4.le

theorem LinearConstraints.violation_nonneg (q : LinearConstraints n m k) (v : Fin n → ℝ) (s : Fin k → ℝ) :
    0 ≤ q.violation v s :=
  add_nonneg (Finset.sum_nonneg fun _ _ => abs_nonneg _) (Finset.sum_nonneg fun _ _ => abs_nonneg _)

theorem LinearConstraints.chain_notWorse {q : LinearConstraints n m k} {cbs : List Callback}
    (hcb : ∀ cb ∈ cbs, ∀ calls info, cb calls info = false) {l : List Snapshot} (h : l.IsChain (q.Next cbs)) :
    l.Pairwise q.NotWorse := by
  have : Trans q.NotWorse q.NotWorse q.NotWorse := ⟨by
    rintro a b c ⟨v, s, v', s', h1, h2, h3⟩ ⟨u, r, u', r', k1, k2, k3⟩
    obtain ⟨rfl, rfl⟩ := h2.unique k1
    exact ⟨v, s, u', r', h1, k2, k3.trans h3⟩⟩
  refine List.isChain_iff_pairwise.1 (h.imp ?_)
  rintro a b ⟨v, s, v', s', h1, h2, h3⟩
  refine ⟨v, s, v', s', h1, h2, ?_⟩
  rcases h3 with h3 | h3 | ⟨cb, hm, calls, info, hc⟩
  · exact h3.violation
  · have := q.violation_nonneg v s
    linarith
  · rw [hcb cb hm] at hc
    cases hc

/-- Everything shown, and the result, are between the guess and the end. -/
theorem LinkedFrom.notWorse {q : LinearConstraints n m k} {cbs : List Callback}
    (hcb : ∀ cb ∈ cbs, ∀ calls info, cb calls info = false) {shown : List Snapshot} {v₀ v : Fin n → ℝ} {s₀ s : Fin k → ℝ}
    (h : LinkedFrom (q.Next cbs) shown v₀ s₀ v s) : q.violation v s ≤ q.violation v₀ s₀ ∧
    ∀ a ∈ shown, ∃ u r, a.At u r ∧ q.violation u r ≤ q.violation v₀ s₀ ∧ q.violation v s ≤ q.violation u r := by
  obtain ⟨l, first, last, hs, hc, hf, h1, h2⟩ := h
  have hp := LinearConstraints.chain_notWorse hcb hc
  have key : ∀ a ∈ l ++ [last], ∃ u r, a.At u r ∧ q.violation u r ≤ q.violation v₀ s₀ ∧ q.violation v s ≤ q.violation u r := by
    intro a ha
    have up : ∀ u r, a.At u r → q.violation u r ≤ q.violation v₀ s₀ := by
      intro u r hu
      cases hl : l ++ [last] with
      | nil => simp at hl
      | cons b l' =>
        rw [hl] at hf hp ha
        obtain rfl : b = first := Option.some.inj hf
        rcases List.mem_cons.1 ha with rfl | ha
        · obtain ⟨rfl, rfl⟩ := hu.unique h1; exact le_rfl
        · obtain ⟨w, t, w', t', k1, k2, k3⟩ := List.rel_of_pairwise_cons hp ha
          obtain ⟨rfl, rfl⟩ := k1.unique h1
          obtain ⟨rfl, rfl⟩ := k2.unique hu
          exact k3
    rcases List.mem_append.1 ha with ha | ha
    · obtain ⟨w, t, w', t', k1, k2, k3⟩ := (List.pairwise_append.1 hp).2.2 a ha last (by simp)
      obtain ⟨rfl, rfl⟩ := k2.unique h2
      exact ⟨w, t, k1, up w t k1, k3⟩
    · obtain rfl := List.mem_singleton.1 ha
      exact ⟨v, s, h2, up v s h2, le_rfl⟩
  have hlast := key last (by simp)
  obtain ⟨u, r, k1, k2, -⟩ := hlast
  obtain ⟨rfl, rfl⟩ := k1.unique h2
  refine ⟨k2, fun a ha => key a ?_⟩
  rcases hs with rfl | rfl
  · exact ha
  · exact List.mem_append_left _ ha

/-- C83: with linear constraints, and callbacks that do not stop the solver, no iterate violates the constraints more
than an earlier one, and the result does not violate them more than any iterate or the guess, unless restoring
feasibility fails. -/
theorem ipm_violation {env : Env} (hE : env.ExactSolve) (hE' : env.ExactEstimate) {opts : SolverOptions} {P : Nlp n m k}
    (hP : P.Total) {q : LinearConstraints n m k} (hq : P.HasLinear q)
    (hA : ∀ st : IpmState n m k, st.Sound P → st.Answers env (fun _ γ => γ = 0)) (htol : 0 < opts.tolerance) (hS : 0 < P.scaling.f)
    {cbs : List Callback} (hcb : ∀ cb ∈ cbs, ∀ calls info, cb calls info = false) {v : Fin n → ℝ} {res : IpmResult n m k}
    (hres : interiorPoint env opts P cbs (fun j => .fin (v j)) .start = some res) :
    res.world.outer.Pairwise q.NotWorse ∧
    (res.status = .locallyInfeasible ∨ res.status = .feasibilityRestorationFailed ∨
      q.violation res.x.real res.s.real ≤ q.violation v (fun _ => 1) ∧
      ∀ a ∈ res.world.outer, ∃ u r, a.At u r ∧ q.violation u r ≤ q.violation v (fun _ => 1) ∧
        q.violation res.x.real res.s.real ≤ q.violation u r) := by
  obtain ⟨h1, h2⟩ := ipm_linear hE hE' hP hq hA htol hS hres
  exact ⟨LinearConstraints.chain_notWorse hcb h1, h2.imp id (Or.imp id fun h => h.notWorse hcb)⟩

/-- C83: the same for the SQP solver. -/
theorem sqp_violation {env : Env} (hE : env.ExactSolve) (hE' : env.ExactEstimate) {opts : SolverOptions} {P : Nlp n m 0}
    (hP : P.Total) {q : LinearConstraints n m 0} (hq : P.HasLinear q)
    (hA : ∀ st : SqpState n m, st.Sound P → st.Answers env (fun _ γ => γ = 0)) (htol : 0 < opts.tolerance)
    {cbs : List Callback} (hcb : ∀ cb ∈ cbs, ∀ calls info, cb calls info = false) {v : Fin n → ℝ} {res : SqpResult n m}
    (hres : sqp env opts P cbs (fun j => .fin (v j)) .start = some res) :
    res.world.outer.Pairwise q.NotWorse ∧
    (res.status = .locallyInfeasible ∨ res.status = .feasibilityRestorationFailed ∨
      q.violation res.x.real Fin.elim0 ≤ q.violation v Fin.elim0 ∧
      ∀ a ∈ res.world.outer, ∃ u r, a.At u r ∧ q.violation u r ≤ q.violation v Fin.elim0 ∧
        q.violation res.x.real Fin.elim0 ≤ q.violation u r) := by
  obtain ⟨h1, h2⟩ := sqp_linear hE hE' hP hq hA htol hres
  exact ⟨LinearConstraints.chain_notWorse hcb h1, h2.imp id (Or.imp id fun h => h.notWorse hcb)⟩

/-- C83: started at a point that satisfies linear equality constraints, the SQP solver shows only such points to the
callbacks and returns such a point, unless restoring feasibility fails. -/
theorem sqp_stays_feasible {env : Env} (hE : env.ExactSolve) (hE' : env.ExactEstimate) {opts : SolverOptions} {P : Nlp n m 0}
    (hP : P.Total) {q : LinearConstraints n m 0} (hq : P.HasLinear q)
    (hA : ∀ st : SqpState n m, st.Sound P → st.Answers env (fun _ γ => γ = 0)) (htol : 0 < opts.tolerance)
    {cbs : List Callback} (hcb : ∀ cb ∈ cbs, ∀ calls info, cb calls info = false) {v : Fin n → ℝ} (hv : q.A *ᵥ v = q.b)
    {res : SqpResult n m} (hres : sqp env opts P cbs (fun j => .fin (v j)) .start = some res)
    (h1 : res.status ≠ .locallyInfeasible) (h2 : res.status ≠ .feasibilityRestorationFailed) :
    q.A *ᵥ res.x.real = q.b ∧ ∀ a ∈ res.world.outer, ∃ u, a.At u (Fin.elim0 : Fin 0 → ℝ) ∧ q.A *ᵥ u = q.b := by
  have h0 : q.violation v Fin.elim0 = 0 := by simp [LinearConstraints.violation, LinearConstraints.eqs, hv]
  have key : ∀ u (r : Fin 0 → ℝ), q.violation u r ≤ 0 → q.A *ᵥ u = q.b := by
    intro u r h
    have hs : ∑ i, |q.eqs u i| = 0 := le_antisymm
      (by unfold LinearConstraints.violation at h; simpa using h) (Finset.sum_nonneg fun _ _ => abs_nonneg _)
    funext i
    have := (Finset.sum_eq_zero_iff_of_nonneg fun _ _ => abs_nonneg _).1 hs i (Finset.mem_univ i)
    exact sub_eq_zero.1 (abs_eq_zero.1 this)
  rcases (sqp_violation hE hE' hP hq hA htol hcb hres).2 with h | h | ⟨k1, k2⟩
  · exact absurd h h1
  · exact absurd h h2
  · rw [h0] at k1 k2
    refine ⟨key _ _ k1, fun a ha => ?_⟩
    obtain ⟨u, r, ha, hu, -⟩ := k2 a ha
    exact ⟨u, by rwa [Subsingleton.elim Fin.elim0 r], key _ _ hu⟩

end Slp
