import Verif.Problem.StationaryProps
import Verif.Problem.StatusProps
import Verif.Solver.RestartProps

/-! C88: `solve()` from a solution of a problem with equality constraints. -/

namespace Slp

open Classical Matrix

/-- The constraints of a system are linearly independent, and enter it as the solvers arrange them. -/
structure LinSystem.Independent (S : LinSystem) : Prop where
  symm : ∀ (i : Fin S.m) (a : Fin S.n), S.lhs.real (Fin.castAdd S.m a) (Fin.natAdd S.n i) =
    S.lhs.real (Fin.natAdd S.n i) (Fin.castAdd S.m a)
  zero : ∀ i j : Fin S.m, S.lhs.real (Fin.natAdd S.n i) (Fin.natAdd S.n j) = 0
  rank : ∀ w : Fin S.m → ℝ, (∀ a : Fin S.n, ∑ i, S.lhs.real (Fin.natAdd S.n i) (Fin.castAdd S.m a) * w i = 0) → w = 0

/-- The constraints' gradients with respect to the decision variables are linearly independent. -/
def Problem.IndependentEqs (p : Problem) (v : ℕ → ℝ) : Prop :=
  ∀ w : Fin (p.eqs.map UserExpr.term).length → ℝ,
    (∀ j ∈ p.vars, ∑ i, w i * pderiv j (p.eqs.map UserExpr.term)[i].eval v = 0) → w = 0

/-- The gradient of the cost is a combination of those of the constraints: the Lagrange conditions. -/
def Problem.Lagrange (p : Problem) (v : ℕ → ℝ) : Prop :=
  ∃ y : Fin (p.eqs.map UserExpr.term).length → ℝ,
    ∀ j ∈ p.vars, pderiv j p.objective.term.eval v = ∑ i, y i * pderiv j (p.eqs.map UserExpr.term)[i].eval v

theorem independent_le {n m : ℕ} {A : Matrix (Fin m) (Fin n) ℝ} (h : ∀ w, Aᵀ *ᵥ w = 0 → w = 0) : m ≤ n := by
  have h1 : Function.Injective Aᵀ.mulVecLin := by
    rw [← LinearMap.ker_eq_bot, LinearMap.ker_eq_bot']
    exact h
  have h2 := LinearMap.finrank_le_finrank_of_injective h1
  simpa using h2

/-- C88: let a problem have equality constraints but no inequality constraints, and let the values of the variables
satisfy the constraints and the Lagrange conditions, with linearly independent gradients of the constraints. Then
`solve()` changes no value and makes at most one iteration. It reports SUCCESS unless a callback, the timeout or an
iteration limit of one stops it. -/
theorem solve_restart {p : Problem} {s : Store} (ad : Autodiff) {env : Env}
    (hE : ∀ S : LinSystem, S.Finite → S.Independent → env.Convexifies S) (hfac : env.factor 0 = true) {opts : SolverOptions}
    (htol : 0 ≤ opts.tolerance) (spy : Bool) (he : p.eqs ≠ []) (hi : p.ineqs = []) (hc : ¬ p.Constant) (hfin : AllFinite s.val)
    (hsm : p.Smooth (reals s.val)) (hbox : ∀ j ∈ p.vars, |reals s.val j| ≤ 1e10)
    (hfeas : ∀ e ∈ p.eqs, e.term.eval (reals s.val) = 0) (hL : p.Lagrange (reals s.val))
    (hind : p.IndependentEqs (reals s.val)) :
    ∃ o, p.solve ad env opts spy s = some (o, s) ∧ o.iterations ≤ 1 ∧
      (o.status = .success ∨ o.status = .callbackRequestedStop ∨ o.status = .timeout ∨
        o.status = .maxIterationsExceeded ∧ opts.maxIterations ≤ 1) := by
  have hkeep : assign s.val p.vars (List.ofFn (p.guess s)) = s.val := by
    rw [show List.ofFn (p.guess s) = _ from ofFn_guess p s, assign_self]
  have hsm' : AllSmooth p.objective.term (p.eqs.map UserExpr.term) [] (reals s.val) := ⟨hsm.f, hsm.eqs, by simp⟩
  obtain ⟨df, de, di, hS, -, hv⟩ := callbacks_correct ad s.val p.vars p.objective.term (p.eqs.map UserExpr.term) []
    (p.guess s) (by rw [hkeep]; exact hfin) (by rw [hkeep]; exact hsm')
  obtain ⟨v1, v2, v3, v4, -, -, v7⟩ := hv (p.guess s) (by rw [hkeep]; exact hfin) (by rw [hkeep]; exact hsm')
  rw [hkeep] at v1 v2 v3 v4 v7
  set P := p.sqpNlp ad s with hP
  set x := p.guess s with hx
  set r := reals s.val with hr
  have hgf : (P.g x).Finite := Vec.finite_fin v2
  have hgr : (P.g x).real = fun j => df * pderiv p.vars[j] p.objective.term.eval r := Vec.real_fin v2
  have hce : ∀ i, P.ce x i = .fin 0 := fun i => by
    refine (v3 i).trans ?_
    obtain ⟨e, h1, h2⟩ := List.mem_map.1 (List.getElem_mem (l := p.eqs.map UserExpr.term) i.isLt)
    have h3 : (p.eqs.map UserExpr.term)[i].eval r = 0 := by
      rw [show (p.eqs.map UserExpr.term)[i] = e.term from h2.symm]; exact hfeas e h1
    rw [h3, mul_zero]
  have hAr : (P.Ae x).real = fun i j => de i * pderiv p.vars[j] (p.eqs.map UserExpr.term)[i].eval r := by
    funext i j
    exact congrArg Fl.toReal (v4 i j)
  have hAf : (P.Ae x).Finite := fun i j => (congrArg Fl.isFinite (v4 i j)).trans rfl
  have hcf : (P.ce x).Finite := fun i => (congrArg Fl.isFinite (hce i)).trans rfl
  have hH : (P.H x (fun _ => 0) Fin.elim0).Finite := fun i j => by
    have h1 := v7 (fun _ => 0) Fin.elim0 i j
    have h2 : (Fin.elim0 : Vec 0) = fun i => .fin ((Fin.elim0 : Fin 0 → ℝ) i) := funext fun i => i.elim0
    have h3 := congrArg Fl.isFinite h1
    rw [h2]
    refine h3.trans ?_
    split_ifs <;> rfl
  have hxf : x.Finite := fun j => hfin _
  have hpos : P.scaling.PositiveFactors := by
    rw [show P.scaling = _ from hS.eq]
    exact ⟨hS.f.1, fun i => (hS.ce i).1, fun i => (hS.ci i).1⟩
  have hrank : ∀ w, (P.Ae x).realᵀ *ᵥ w = 0 → w = 0 := by
    intro w hw
    have h1 := hind (fun i => de i * w i) fun j hj => by
      obtain ⟨k, hk, rfl⟩ := List.mem_iff_getElem.1 hj
      have h2 := congrFun hw ⟨k, hk⟩
      rw [hAr] at h2
      refine Eq.trans (Finset.sum_congr rfl fun i _ => ?_) h2
      show _ = de i * pderiv p.vars[k] (p.eqs.map UserExpr.term)[i].eval r * w i
      ring
    funext i
    have h2 : de i * w i = 0 := congrFun h1 i
    rcases mul_eq_zero.1 h2 with h3 | h3
    · exact absurd h3 (hS.ce i).1.ne'
    · exact h3
  obtain ⟨y, hy⟩ := hL
  have hg : (P.g x).real = (P.Ae x).realᵀ *ᵥ fun i => df * y i / de i := by
    rw [hgr, hAr]
    funext j
    show df * _ = ∑ i, de i * pderiv p.vars[j] (p.eqs.map UserExpr.term)[i].eval r * (df * y i / de i)
    rw [hy p.vars[j] (List.getElem_mem _), Finset.mul_sum]
    refine Finset.sum_congr rfl fun i _ => ?_
    have := (hS.ce i).1.ne'
    field_simp
  have hreg : (sqpInit env P x fun _ => 0).Regular := ⟨hxf, fun _ => rfl, hgf, hH, hcf, hAf⟩
  have hsys : env.Convexifies ((sqpInit env P x fun _ => 0).system env (P.ce x)) := by
    obtain ⟨-, b2, b3, b4⟩ := hreg.blocks (env := env) (P.ce x)
    have hsf := sqp_system_finite (env := env) hreg hcf
    refine hE _ hsf ⟨fun i a => (b3 i a).trans (b2 i a).symm, fun i j => b4 i j, fun w hw => hrank w ?_⟩
    funext a
    have h1 : ∑ i : Fin (p.eqs.map UserExpr.term).length, (P.Ae x).real i a * w i = 0 := by
      refine Eq.trans ?_ (hw a)
      exact Finset.sum_congr rfl fun i _ => congrArg (· * w i) (b2 i a).symm
    exact h1
  obtain ⟨res, h1, h2, h3, h4⟩ := sqp_restart (env := env) htol (P := P) hpos (cbs := p.allCallbacks spy) hxf
    (fun j => hbox _ (List.getElem_mem _)) (independent_le hrank) hfac
    ⟨(congrArg Fl.isFinite v1).trans rfl, hgf, hH, hcf, hAf, fun i => i.elim0, fun i => i.elim0⟩ hce hg hsys
  refine ⟨.sqp res, ?_, h3, h4⟩
  unfold Problem.solve
  rw [if_neg (fun h => hc (p.constant_iff.1 h)), if_neg (fun h => he h.1), if_pos hi, h1, Option.map_some, h2]
  unfold Store.write
  rw [hkeep]

/-! ### Case -/

/-- A linear solver that regularises as little as it may. -/
noncomputable def convexEnv : Env where
  factor _ := true
  solve _ S := if h : ∃ p δ, 0 ≤ δ ∧ S.Solved p δ 0 ∧ ∀ q : Fin S.n → ℝ,
      (∀ l : Fin S.m, ∑ j, S.lhs.real (Fin.natAdd S.n l) (Fin.castAdd S.m j) * q j = 0) → q ≠ 0 →
        0 < ∑ a, q a * (∑ b, S.lhs.real (Fin.castAdd S.m a) (Fin.castAdd S.m b) * q b + δ * q a)
    then h.choose else S.solvable.choose
  estimate _ A := A.solvable.choose
  clock _ := 0
  junk _ _ := .nan

/-- There is such a linear solver. -/
theorem convexEnv_convexifies (S : LinSystem) (h : S.Independent) : convexEnv.Convexifies S := by
  intro i
  obtain ⟨p, δ, h1, h2, h3⟩ := S.solvable_curved (fun i a => S.lhs.real (Fin.natAdd S.n i) (Fin.castAdd S.m a))
    (fun y hy => h.rank y fun a => congrFun hy a) (fun i a => h.symm i a) (fun _ _ => rfl) h.zero
  have hex : ∃ p δ, 0 ≤ δ ∧ S.Solved p δ 0 ∧ ∀ q : Fin S.n → ℝ,
      (∀ l : Fin S.m, ∑ j, S.lhs.real (Fin.natAdd S.n l) (Fin.castAdd S.m j) * q j = 0) → q ≠ 0 →
        0 < ∑ a, q a * (∑ b, S.lhs.real (Fin.castAdd S.m a) (Fin.castAdd S.m b) * q b + δ * q a) :=
    ⟨p, δ, h1, h2, fun q _ hq => h3 q hq⟩
  simp only [convexEnv, dif_pos hex]
  exact hex.choose_spec

/-- `x₀x₁ - 1`, a hyperbola. -/
def branchExpr : UserExpr := ⟨.bin .sub (.bin .mul (.var 0) (.var 1)) (.lit 1), .quadratic⟩

/-- Minimise `x₀ + x₁` on the hyperbola `x₀x₁ = 1`. -/
def branchUser : Problem := ⟨[0, 1], some ⟨.bin .add (.var 0) (.var 1), .linear⟩, [branchExpr], [], [], []⟩

/-- From its minimum `(1, 1)`, where the gradient of the cost is `(1, 1)` like that of the constraint. -/
example (ad : Autodiff) : ∃ o, branchUser.solve ad convexEnv ⟨1e-8, 5000, .pinf, false⟩ false ⟨2, fun _ => 1⟩ = some (o, ⟨2, fun _ => 1⟩) ∧
    o.iterations ≤ 1 ∧ (o.status = .success ∨ o.status = .callbackRequestedStop ∨ o.status = .timeout ∨
      o.status = .maxIterationsExceeded ∧ (5000 : ℤ) ≤ 1) := by
  have hv : reals (fun _ => (1 : Fl)) = fun _ => (1 : ℝ) := rfl
  have g : ∀ j ∈ [0, 1], pderiv j branchUser.objective.term.eval (fun _ => 1) = 1 ∧
      pderiv j branchExpr.term.eval (fun _ => 1) = 1 := by
    intro j hj
    have hj' : j = 0 ∨ j = 1 := by simpa using hj
    unfold pderiv
    rcases hj' with rfl | rfl
    · have e1 : (fun a => branchUser.objective.term.eval (Function.update (fun _ => (1 : ℝ)) 0 a)) = fun a => a + 1 := by
        funext a; simp [branchUser, Problem.objective, Term.eval, BinOp.eval]
      have e2 : (fun a => branchExpr.term.eval (Function.update (fun _ => (1 : ℝ)) 0 a)) = fun a => a - 1 := by
        funext a; simp [branchExpr, Term.eval, BinOp.eval]
      rw [e1, e2]
      exact ⟨((hasDerivAt_id' (1 : ℝ)).add_const 1).deriv, ((hasDerivAt_id' (1 : ℝ)).sub_const 1).deriv⟩
    · have e1 : (fun a => branchUser.objective.term.eval (Function.update (fun _ => (1 : ℝ)) 1 a)) = fun a => 1 + a := by
        funext a; simp [branchUser, Problem.objective, Term.eval, BinOp.eval]
      have e2 : (fun a => branchExpr.term.eval (Function.update (fun _ => (1 : ℝ)) 1 a)) = fun a => a - 1 := by
        funext a; simp [branchExpr, Term.eval, BinOp.eval]
      rw [e1, e2]
      exact ⟨((hasDerivAt_id' (1 : ℝ)).const_add 1).deriv, ((hasDerivAt_id' (1 : ℝ)).sub_const 1).deriv⟩
  refine solve_restart (p := branchUser) (s := ⟨2, fun _ => 1⟩) ad (fun S _ h => convexEnv_convexifies S h) rfl
    (opts := ⟨1e-8, 5000, .pinf, false⟩) (by norm_num) false (by simp [branchUser]) rfl ?_ (fun _ => rfl) ?_ ?_ ?_ ?_ ?_
  · intro h
    have := h.2.1 branchExpr (by simp [branchUser])
    simp [branchExpr, Ty.rank] at this
  · exact ⟨by simp [branchUser, Problem.objective, Term.Smooth, BinOp.Smooth],
      by simp [branchUser, branchExpr, Term.Smooth, BinOp.Smooth], by simp [branchUser]⟩
  · intro j _
    rw [hv]
    norm_num
  · intro e he
    obtain rfl : e = branchExpr := by simpa [branchUser] using he
    simp [branchExpr, Term.eval, BinOp.eval, hv]
  · refine ⟨fun _ => 1, fun j hj => ?_⟩
    rw [hv, (g j hj).1]
    have : ∀ i : Fin (branchUser.eqs.map UserExpr.term).length, (branchUser.eqs.map UserExpr.term)[i] = branchExpr.term :=
      fun i => by obtain rfl : i = (0 : Fin 1) := Subsingleton.elim (α := Fin 1) i 0; rfl
    simp only [this, (g j hj).2]
    exact ((Fin.sum_univ_one fun _ : Fin 1 => (1 : ℝ) * 1).trans (mul_one 1)).symm
  · intro w hw
    have h1 := hw 0 (by simp [branchUser])
    rw [hv] at h1
    have : ∀ i : Fin (branchUser.eqs.map UserExpr.term).length, (branchUser.eqs.map UserExpr.term)[i] = branchExpr.term :=
      fun i => by obtain rfl : i = (0 : Fin 1) := Subsingleton.elim (α := Fin 1) i 0; rfl
    simp only [this, (g 0 (by simp)).2, mul_one] at h1
    funext i
    obtain rfl : i = (0 : Fin 1) := Subsingleton.elim (α := Fin 1) i 0
    exact (Fin.sum_univ_one (show Fin 1 → ℝ from w)).symm.trans h1

end Slp
