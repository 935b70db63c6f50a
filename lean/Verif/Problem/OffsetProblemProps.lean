import Verif.Problem.StatusProps
import Verif.Solver.OffsetProps

/-! C85: a constant in the expression given to `minimize()`. -/

namespace Slp

open Classical

/-- `e'` is `e` plus the constant `c`, in value and in type. -/
structure UserExpr.Plus (e e' : UserExpr) (c : ℝ) : Prop where
  eval : ∀ env, e'.term.eval env = e.term.eval env + c
  dom : ∀ env, e'.term.Dom env ↔ e.term.Dom env
  smooth : ∀ env, e'.term.Smooth env ↔ e.term.Smooth env
  ty : e'.ty = e.ty

/-- What autodiff returns where `e` has no meaning (`expression.hpp:243-274`): a sum adds the values of its operands, and a
constant passes nothing to the derivatives. -/
structure Autodiff.Adds (ad : Autodiff) (e e' : UserExpr) (c : ℝ) : Prop where
  value : ∀ v, ad.value e'.term v = ad.value e.term v + .fin c
  partialAt : ∀ k v, ad.partialAt e'.term k v = ad.partialAt e.term k v
  second : ∀ k l v, ad.second e'.term k l v = ad.second e.term k l v

variable {e e' : UserExpr} {c : ℝ}

theorem UserExpr.Plus.pd (h : e.Plus e' c) (k : ℕ) (env : ℕ → ℝ) :
    (Term.pd k e'.term).eval env = (Term.pd k e.term).eval env := by
  simp only [Term.eval, h.eval, deriv_add_const]

theorem UserExpr.Plus.pd2 (h : e.Plus e' c) (k l : ℕ) (env : ℕ → ℝ) :
    (Term.pd l (Term.pd k e'.term)).eval env = (Term.pd l (Term.pd k e.term)).eval env := by
  rw [Term.eval, Term.eval]
  simp only [h.pd]

theorem Autodiff.Adds.eval_eq {ad : Autodiff} (a : ad.Adds e e' c) (h : e.Plus e' c) (v : ℕ → Fl) :
    ad.eval e'.term v = ad.eval e.term v + .fin c := by
  unfold Autodiff.eval
  simp only [h.dom, h.eval, a.value]
  split_ifs <;> rfl

theorem Autodiff.Adds.pd_eq {ad : Autodiff} (a : ad.Adds e e' c) (h : e.Plus e' c) (k : ℕ) (v : ℕ → Fl) :
    ad.pd e'.term k v = ad.pd e.term k v := by
  unfold Autodiff.pd
  simp only [h.smooth, h.pd, a.partialAt]

theorem Autodiff.Adds.pd2_eq {ad : Autodiff} (a : ad.Adds e e' c) (h : e.Plus e' c) (k l : ℕ) (v : ℕ → Fl) :
    ad.pd2 e'.term k l v = ad.pd2 e.term k l v := by
  unfold Autodiff.pd2
  simp only [h.smooth, h.pd2, a.second]

theorem matrixCallbacks_plus {ad : Autodiff} (a : ad.Adds e e' c) (h : e.Plus e' c) (v : ℕ → Fl) (vars : List ℕ)
    (eqs ineqs : List Term) (x0 : Vec vars.length) :
    ∃ d, (matrixCallbacks ad v vars e.term eqs ineqs x0).CostPlus (matrixCallbacks ad v vars e'.term eqs ineqs x0) d := by
  have hg : ∀ k w, ad.pd e'.term k w = ad.pd e.term k w := a.pd_eq h
  have hH : ∀ k l w, ad.pd2 e'.term k l w = ad.pd2 e.term k l w := a.pd2_eq h
  refine ⟨(matrixCallbacks ad v vars e.term eqs ineqs x0).scaling.f * c, fun x => ?_, fun x => ?_, fun x y z => ?_,
    fun x => ?_, fun x => ?_, fun x => ?_, fun x => ?_, ?_, fun x => ?_⟩ <;>
    simp only [matrixCallbacks, hg, hH, a.eval_eq h, Scaling.fF]
  generalize ad.eval e.term _ = y
  generalize Scaling.f _ = a
  have hm : ∀ b : ℝ, Fl.fin a * Fl.fin b = Fl.fin (a * b) := fun _ => rfl
  have ha : ∀ b d : ℝ, Fl.fin b + Fl.fin d = Fl.fin (b + d) := fun _ _ => rfl
  rcases y with b | _ | _ | _
  · simp only [hm, ha, mul_add]
  · show Fl.infMul true a = Fl.infMul true a + .fin (a * c)
    unfold Fl.infMul
    split_ifs <;> rfl
  · show Fl.infMul false a = Fl.infMul false a + .fin (a * c)
    unfold Fl.infMul
    split_ifs <;> rfl
  · rfl

/-- C85: adding a constant to the cost changes nothing: `solve()` does and returns the same. -/
theorem cost_constant (p : Problem) {ad : Autodiff} (a : ad.Adds e e' c) (h : e.Plus e' c) (env : Env) (opts : SolverOptions)
    (spy : Bool) (s : Store) : (p.minimize e').solve ad env opts spy s = (p.minimize e).solve ad env opts spy s := by
  have h1 : newton env opts ((p.minimize e').newtonNlp ad s) (p.allCallbacks spy) (p.guess s) .start =
      newton env opts ((p.minimize e).newtonNlp ad s) (p.allCallbacks spy) (p.guess s) .start := by
    obtain ⟨d, hd⟩ := matrixCallbacks_plus a h s.val p.vars [] [] (p.guess s)
    exact newton_cost_constant env opts hd _ _ _
  have h2 : sqp env opts ((p.minimize e').sqpNlp ad s) (p.allCallbacks spy) (p.guess s) .start =
      sqp env opts ((p.minimize e).sqpNlp ad s) (p.allCallbacks spy) (p.guess s) .start := by
    obtain ⟨d, hd⟩ := matrixCallbacks_plus a h s.val p.vars (p.eqs.map UserExpr.term) [] (p.guess s)
    exact sqp_cost_constant env opts hd _ _ _
  have h3 : interiorPoint env opts ((p.minimize e').ipmNlp ad s) (p.allCallbacks spy) (p.guess s) .start =
      interiorPoint env opts ((p.minimize e).ipmNlp ad s) (p.allCallbacks spy) (p.guess s) .start := by
    obtain ⟨d, hd⟩ := matrixCallbacks_plus a h s.val p.vars (p.eqs.map UserExpr.term) (p.ineqs.map UserExpr.term) (p.guess s)
    exact interior_point_cost_constant env opts hd _ _ _
  have h0 : (p.minimize e').costType = (p.minimize e).costType := h.ty
  unfold Problem.solve
  rw [h0]
  refine ite_congr rfl (fun _ => rfl) fun _ => ite_congr rfl (fun _ => ?_) fun _ => ite_congr rfl (fun _ => ?_) fun _ => ?_
  · exact congrArg (Option.map _) h1
  · exact congrArg (Option.map _) h2
  · refine congrArg (Option.bind _) (funext fun b => ite_congr rfl (fun _ => rfl) fun _ => ?_)
    exact congrArg (Option.map _) h3

/-- `−(e + c)` is `−e` plus `−c`. -/
theorem UserExpr.Plus.neg (h : e.Plus e' c) : e.neg.Plus e'.neg (-c) where
  eval := fun env => by
    show -(e'.term.eval env) = -(e.term.eval env) + -c
    rw [h.eval]; ring
  dom := fun env => and_congr (h.dom env) Iff.rfl
  smooth := fun env => and_congr (h.smooth env) Iff.rfl
  ty := h.ty

/-- C85: the same for objectives to maximize. -/
theorem objective_constant (p : Problem) {ad : Autodiff} (a : ad.Adds e.neg e'.neg (-c)) (h : e.Plus e' c) (env : Env)
    (opts : SolverOptions) (spy : Bool) (s : Store) :
    (p.maximize e').solve ad env opts spy s = (p.maximize e).solve ad env opts spy s :=
  cost_constant p a h.neg env opts spy s

/-- `e + c` is `e` plus `c`. -/
theorem UserExpr.plus_lit (e : UserExpr) (c : ℝ) : e.Plus ⟨.bin .add e.term (.lit c), e.ty⟩ c where
  eval := fun _ => rfl
  dom := fun _ => by simp [Term.Dom, BinOp.Dom]
  smooth := fun _ => by simp [Term.Smooth, BinOp.Smooth]
  ty := rfl

/-- Minimising `x² + 3` subject to `x ≥ 1` is minimising `x²` subject to `x ≥ 1`, with any options and at any guess. -/
example (env : Env) (opts : SolverOptions) (s : Store) :
    let x2 : UserExpr := ⟨.bin .mul (.var 0) (.var 0), .quadratic⟩
    let p := ((Problem.new.decisionVariable s).2.1.subjectToIneq [⟨.bin .sub (.var 0) (.lit 1), .linear⟩])
    (p.minimize ⟨.bin .add x2.term (.lit 3), .quadratic⟩).solve storeAll env opts false s =
      (p.minimize x2).solve storeAll env opts false s := by
  intro x2 p
  have h : storeAll.Adds x2 ⟨.bin .add x2.term (.lit 3), .quadratic⟩ 3 := ⟨fun _ => rfl, fun _ _ => rfl, fun _ _ _ => rfl⟩
  exact cost_constant p h (UserExpr.plus_lit x2 3) _ _ _ _

end Slp
