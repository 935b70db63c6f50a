import Verif.Problem.CallbackProps
import Verif.Problem.DeclareProps
import Verif.Solver.IpmProps
import Verif.Solver.SqpProps
import Verif.Solver.NewtonProps
import Verif.Solver.BoundsProps

/-! C21, C39 and, for `solve()`, C22: the whole of `Problem`, for every autodiff result at points where expressions are
not smooth, every linear solver, every clock and every behaviour of callbacks. -/

namespace Slp

open Classical

/-! ### C21 -/

/-- No expression of the problem depends on variables, by its type. -/
def Problem.Constant (p : Problem) : Prop :=
  (∀ e ∈ p.cost, e.ty.rank ≤ Ty.constant.rank) ∧ (∀ e ∈ p.eqs, e.ty.rank ≤ Ty.constant.rank) ∧
    ∀ e ∈ p.ineqs, e.ty.rank ≤ Ty.constant.rank

theorem maxType_le (es : List UserExpr) :
    (maxType es).rank ≤ Ty.constant.rank ↔ ∀ e ∈ es, e.ty.rank ≤ Ty.constant.rank := by
  rcases eq_or_ne es [] with rfl | hne
  · simp [maxType, Ty.rank]
  · obtain ⟨⟨a, ha, h4⟩, h5⟩ := (maxType_correct es).2 hne
    exact ⟨fun h e he => (h5 e he).trans h, fun h => by rw [h4]; exact h a ha⟩

theorem Problem.constant_iff (p : Problem) :
    p.costType.rank ≤ Ty.constant.rank ∧ p.eqType.rank ≤ Ty.constant.rank ∧ p.ineqType.rank ≤ Ty.constant.rank ↔
      p.Constant := by
  unfold Problem.eqType Problem.ineqType Problem.Constant
  rw [maxType_le, maxType_le]
  unfold Problem.costType
  rcases p.cost with _ | e
  · simp [Ty.rank]
  · simp

/-- What `solve()` returned, case by case. -/
theorem solve_cases {p : Problem} {ad : Autodiff} {env : Env} {opts : SolverOptions} {spy : Bool} {s s' : Store}
    {o : p.Outcome} (h : p.solve ad env opts spy s = some (o, s')) :
    (p.Constant ∧ o = .noop ∧ s' = s) ∨
    (¬ p.Constant ∧ p.eqs = [] ∧ p.ineqs = [] ∧ ∃ res,
      newton env opts (p.newtonNlp ad s) (p.allCallbacks spy) (p.guess s) .start = some res ∧ o = .newton res ∧
      s' = s.write p.vars (List.ofFn res.x)) ∨
    (¬ p.Constant ∧ p.eqs ≠ [] ∧ p.ineqs = [] ∧ ∃ res,
      sqp env opts (p.sqpNlp ad s) (p.allCallbacks spy) (p.guess s) .start = some res ∧ o = .sqp res ∧
      s' = s.write p.vars (List.ofFn res.x)) ∨
    (¬ p.Constant ∧ p.ineqs ≠ [] ∧ ∃ b, p.bounds ad s = some b ∧ b.1.conflicts ≠ [] ∧ o = .conflict ∧
      s' = s.write p.vars (List.ofFn fun i : Fin p.vars.length => b.2 i)) ∨
    (¬ p.Constant ∧ p.ineqs ≠ [] ∧ ∃ b res, p.bounds ad s = some b ∧ b.1.conflicts = [] ∧
      interiorPoint env opts (p.ipmNlp ad s) (p.allCallbacks spy) (p.guess s) .start = some res ∧ o = .ipm res ∧
      s' = s.write p.vars (List.ofFn res.x)) := by
  unfold Problem.solve at h
  by_cases hc : p.Constant
  · rw [if_pos (p.constant_iff.2 hc)] at h
    cases h
    exact .inl ⟨hc, rfl, rfl⟩
  rw [if_neg fun h => hc (p.constant_iff.1 h)] at h
  by_cases h1 : p.eqs = [] ∧ p.ineqs = []
  · rw [if_pos h1, Option.map_eq_some_iff] at h
    obtain ⟨res, h2, h3⟩ := h
    cases h3
    exact .inr (.inl ⟨hc, h1.1, h1.2, res, h2, rfl, rfl⟩)
  rw [if_neg h1] at h
  by_cases h2 : p.ineqs = []
  · rw [if_pos h2, Option.map_eq_some_iff] at h
    obtain ⟨res, h3, h4⟩ := h
    cases h4
    exact .inr (.inr (.inl ⟨hc, fun he => h1 ⟨he, h2⟩, h2, res, h3, rfl, rfl⟩))
  rw [if_neg h2, Option.bind_eq_some_iff] at h
  obtain ⟨b, hb, h⟩ := h
  by_cases h3 : b.1.conflicts ≠ []
  · rw [if_pos h3] at h
    cases h
    exact .inr (.inr (.inr (.inl ⟨hc, h2, b, hb, h3, rfl, rfl⟩)))
  · rw [if_neg h3, Option.map_eq_some_iff] at h
    obtain ⟨res, h4, h5⟩ := h
    cases h5
    exact .inr (.inr (.inr (.inr ⟨hc, h2, b, res, hb, not_not.1 h3, h4, rfl, rfl⟩)))

/-- C21: the solver is selected by the constraints that are present. (`conflict` is the check of bounds before the
interior-point method.) -/
theorem solver_selected {p : Problem} {ad : Autodiff} {env : Env} {opts : SolverOptions} {spy : Bool} {s s' : Store}
    {o : p.Outcome} (h : p.solve ad env opts spy s = some (o, s')) :
    (o = .noop ↔ p.Constant) ∧
    ((∃ r, o = .newton r) ↔ ¬ p.Constant ∧ p.eqs = [] ∧ p.ineqs = []) ∧
    ((∃ r, o = .sqp r) ↔ ¬ p.Constant ∧ p.eqs ≠ [] ∧ p.ineqs = []) ∧
    ((o = .conflict ∨ ∃ r, o = .ipm r) ↔ ¬ p.Constant ∧ p.ineqs ≠ []) ∧
    (o = .noop → o.status = .success ∧ s' = s) := by
  rcases solve_cases h with ⟨h1, rfl, h2⟩ | ⟨h1, h2, h3, r, -, rfl, -⟩ | ⟨h1, h2, h3, r, -, rfl, -⟩ |
    ⟨h1, h2, b, -, -, rfl, -⟩ | ⟨h1, h2, b, r, -, -, -, rfl, -⟩
  · simp [h1, h2, Outcome.status]
  · simp [h1, h2, h3]
  · simp [h1, h2, h3]
  · simp [h1, h2]
  · simp [h1, h2]

/-! ### C39 -/

theorem assign_self (vars : List ℕ) (v : ℕ → Fl) : assign v vars (vars.map v) = v := by
  induction vars with
  | nil => rfl
  | cons k vars ih =>
    show assign (Function.update v k (v k)) vars (vars.map v) = v
    rw [Function.update_eq_self]
    exact ih

theorem evalAtZero_keeps (c : Bounds.Constraint) (x : ℕ → Fl) (j : ℕ) : (Bounds.evalAtZero c x j).2 = x := by
  unfold Bounds.evalAtZero
  split
  · simp
  · rfl

theorem bounds_keep (n : ℕ) (cs : List Bounds.Constraint) : ∀ (k : ℕ) (st : Bounds.State) (x : ℕ → Fl)
    {r : Bounds.State × (ℕ → Fl)}, Bounds.loop n k cs st x = some r → r.2 = x := by
  induction cs with
  | nil => intro k st x r h; cases h; rfl
  | cons c cs ih =>
    intro k st x r h
    rw [Bounds.loop, Option.bind_eq_some_iff] at h
    obtain ⟨q, hq, h⟩ := h
    rw [ih _ _ _ h]
    unfold Bounds.State.step at hq
    by_cases hl : c.linear = false
    · rw [if_pos hl] at hq; cases hq; rfl
    · rw [if_neg hl] at hq
      split at hq
      · cases hq
      · rename_i j a _
        by_cases hj : j < n
        · simp only [if_pos hj] at hq
          by_cases ha : a ≠ Fl.fin 0 ∧ (Bounds.evalAtZero c x j).1.isFinite = true ∧ a.isFinite = true
          · rw [if_pos ha] at hq
            obtain rfl := Option.some.inj hq
            exact evalAtZero_keeps _ _ _
          · rw [if_neg ha] at hq; cases hq
        · rw [if_neg hj] at hq; cases hq
      · cases hq; rfl

theorem ofFn_guess (p : Problem) (s : Store) : (List.ofFn fun i => p.guess s i) = p.vars.map s.val := by
  apply List.ext_getElem
  · simp
  · intro i h1 h2
    simp [Problem.guess]

/-- The final iterate of the solver that ran. -/
def Outcome.final {n m k : ℕ} : Outcome n m k → Option (Vec n)
  | .noop => none
  | .conflict => none
  | .newton res => some res.x
  | .sqp res => some res.x
  | .ipm res => some res.x

/-- C39: afterwards each decision variable holds its element of the final iterate, and every other variable its value;
if no solver ran, nothing changed. (After any program, `p.Ok s` holds: `variables_distinct`.) -/
theorem solution_written {p : Problem} {s : Store} (hok : p.Ok s) {ad : Autodiff} {env : Env} {opts : SolverOptions}
    {spy : Bool} {s' : Store} {o : p.Outcome} (h : p.solve ad env opts spy s = some (o, s')) :
    s'.next = s.next ∧ (∀ k, k ∉ p.vars → s'.val k = s.val k) ∧
    (∀ x, o.final = some x → ∀ i : Fin p.vars.length, s'.val p.vars[i] = x i) ∧ (o.final = none → s' = s) := by
  have hn := hok.nodup
  have hw (x : Vec p.vars.length) : (s.write p.vars (List.ofFn x)).next = s.next ∧
      (∀ k, k ∉ p.vars → (s.write p.vars (List.ofFn x)).val k = s.val k) ∧
      ∀ i : Fin p.vars.length, (s.write p.vars (List.ofFn x)).val p.vars[i] = x i := by
    refine ⟨rfl, fun k hk => assign_other _ _ _ hk, fun i => ?_⟩
    have := assign_get p.vars s.val (List.ofFn x) hn (by simp) i i.2 (by simp)
    simpa [Store.write] using this
  rcases solve_cases h with ⟨-, rfl, rfl⟩ | ⟨-, -, -, r, -, rfl, rfl⟩ | ⟨-, -, -, r, -, rfl, rfl⟩ |
    ⟨-, -, b, hb, -, rfl, rfl⟩ | ⟨-, -, b, r, -, -, -, rfl, rfl⟩
  · exact ⟨rfl, fun _ _ => rfl, by simp [Outcome.final], fun _ => rfl⟩
  · exact ⟨rfl, (hw r.x).2.1, fun x hx => by cases hx; exact (hw r.x).2.2, by simp [Outcome.final]⟩
  · exact ⟨rfl, (hw r.x).2.1, fun x hx => by cases hx; exact (hw r.x).2.2, by simp [Outcome.final]⟩
  · have e : s.write p.vars (List.ofFn fun i : Fin p.vars.length => b.2 i) = s := by
      have := bounds_keep _ _ _ _ _ hb
      rw [this]
      have e2 : (List.ofFn fun i : Fin p.vars.length => (if h : (i : ℕ) < p.vars.length then p.guess s ⟨i, h⟩ else 0)) =
          p.vars.map s.val := by
        rw [← ofFn_guess]
        congr 1
        funext i
        rw [dif_pos i.2]
      unfold Store.write
      rw [e2, assign_self]
    rw [e]
    exact ⟨rfl, fun _ _ => rfl, by simp [Outcome.final], fun _ => rfl⟩
  · exact ⟨rfl, (hw r.x).2.1, fun x hx => by cases hx; exact (hw r.x).2.2, by simp [Outcome.final]⟩

/-! ### C22 -/

/-- The first-order conditions hold within a tolerance, for the problem as the user stated it. -/
structure NearKkt (tol : ℝ) (v : ℕ → ℝ) (vars : List ℕ) (f : Term) (eqs ineqs : List Term) (ys zs ss : List ℝ) :
    Prop where
  eq : ∀ t ∈ eqs, |t.eval v| ≤ tol
  ineq : ∀ t ∈ ineqs, -tol ≤ t.eval v
  multipliers : ys.length = eqs.length ∧ zs.length = ineqs.length
  slack : List.Forall₂ (fun t s => 0 < s ∧ |t.eval v - s| ≤ tol) ineqs ss
  complementary : List.Forall₂ (fun s z => |s * z| ≤ tol * Max.max 1 ((zs.map fun a => |a|).sum / zs.length / 100)) ss zs
  stationary : ∀ j ∈ vars, |pderiv j f.eval v - (List.zipWith (fun y t => y * pderiv j t.eval v) ys eqs).sum -
    (List.zipWith (fun z t => z * pderiv j t.eval v) zs ineqs).sum| ≤
      tol * Max.max 1 (((ys.map fun a => |a|).sum + (zs.map fun a => |a|).sum) / (ys.length + zs.length) / 100)

theorem zipWith_sum (ts : List Term) (y : Fin ts.length → ℝ) (F : Term → ℝ) :
    (List.zipWith (fun y t => y * F t) (List.ofFn y) ts).sum = ∑ i, y i * F ts[i] := by
  have : List.zipWith (fun y t => y * F t) (List.ofFn y) ts = List.ofFn fun i => y i * F ts[i] := by
    apply List.ext_getElem
    · simp
    · intro i h1 h2; simp
  rw [this, List.sum_ofFn]

theorem abs_sum {q : ℕ} (y : Fin q → ℝ) : ((List.ofFn y).map fun a => |a|).sum = ∑ i, |y i| := by
  rw [List.map_ofFn, List.sum_ofFn]; rfl

/-- The interior-point solver entered its loop. -/
theorem interiorPoint_started {n m k : ℕ} {env : Env} {opts : SolverOptions} {P : Nlp n m k} {cbs : List Callback}
    {x : Vec n} {w : World} {res : IpmResult n m k} (h : interiorPoint env opts P cbs x w = some res)
    (h1 : res.status ≠ .tooFewDofs) (h2 : res.status ≠ .nonfiniteInitialGuess) :
    m ≤ n ∧ (P.eval x (fun _ => 0) fun _ => 1).Finite := by
  unfold interiorPoint ipmRun at h
  simp only at h
  by_cases hm : m > n
  · rw [if_pos hm] at h
    obtain rfl := Option.some.inj h
    exact absurd rfl h1
  · rw [if_neg hm] at h
    refine ⟨not_lt.1 hm, ?_⟩
    by_contra hf
    rw [if_pos (show ¬ (ipmInit env P x (fun _ => 1) (fun _ => 0) (fun _ => 1) _ 0).e.Finite from hf)] at h
    obtain rfl := Option.some.inj h
    exact absurd rfl h2

/-- The multipliers and slacks that the solver ended with are finite. -/
def Outcome.Finite {n m k : ℕ} : Outcome n m k → Prop
  | .sqp res => res.y.Finite
  | .ipm res => res.s.Finite ∧ res.y.Finite ∧ res.z.Finite
  | _ => True

/-- The inequality multipliers that the solver ended with are positive. -/
def Outcome.Positive {n m k : ℕ} : Outcome n m k → Prop
  | .ipm res => res.z.Pos
  | _ => True

/-- The expressions of a problem are smooth at a point. -/
def Problem.Smooth (p : Problem) (v : ℕ → ℝ) : Prop :=
  AllSmooth p.objective.term (p.eqs.map UserExpr.term) (p.ineqs.map UserExpr.term) v

theorem Vec.real_fin {n : ℕ} {v : Vec n} {r : Fin n → ℝ} (h : ∀ i, v i = .fin (r i)) : v.real = r := by
  funext i
  show (v i).toReal = r i
  rw [h]; rfl

theorem FMat.real_fin {n m : ℕ} {v : FMat m n} {r : Fin m → Fin n → ℝ} (h : ∀ i j, v i j = .fin (r i j)) : v.real = r := by
  funext i j
  show (v i j).toReal = r i j
  rw [h]; rfl

theorem Vec.finite_fin {n : ℕ} {v : Vec n} {r : Fin n → ℝ} (h : ∀ i, v i = .fin (r i)) : v.Finite := by
  intro i; rw [h]; rfl

theorem FMat.finite_fin {n m : ℕ} {v : FMat m n} {r : Fin m → Fin n → ℝ} (h : ∀ i j, v i j = .fin (r i j)) : v.Finite := by
  intro i j; rw [h]; rfl

/-- C22: SUCCESS of the interior-point method, for the problem as stated. -/
theorem ipm_solved {p : Problem} {ad : Autodiff} {env : Env} {opts : SolverOptions} {cbs : List Callback} {s : Store}
    (htol : 0 < opts.tolerance) {res : IpmResult p.vars.length _ _}
    (hres : interiorPoint env opts (p.ipmNlp ad s) cbs (p.guess s) .start = some res) (hs : res.status = .success)
    (hfin : AllFinite (s.write p.vars (List.ofFn res.x)).val)
    (hsm : p.Smooth (reals (s.write p.vars (List.ofFn res.x)).val)) (hm : res.s.Finite ∧ res.y.Finite ∧ res.z.Finite)
    (hx : res.x.Finite) :
    ∃ ys zs ss, NearKkt opts.tolerance (reals (s.write p.vars (List.ofFn res.x)).val) p.vars p.objective.term
      (p.eqs.map UserExpr.term) (p.ineqs.map UserExpr.term) ys zs ss ∧
      ((opts.feasibleIpm = false ∧ ∀ i a j, env.estimate i a j ≠ .nan) ∨ res.z.Pos → ∀ z ∈ zs, 0 < z) := by
  obtain ⟨-, h0⟩ := interiorPoint_started hres (by rw [hs]; simp) (by rw [hs]; simp)
  obtain ⟨df, de, di, hS⟩ := callbacks_scaling ad s.val p.vars p.objective.term (p.eqs.map UserExpr.term)
    (p.ineqs.map UserExpr.term) (p.guess s) h0.2.1 h0.2.2.2.2.1 h0.2.2.2.2.2.2
  obtain ⟨-, hg, hce, hAe, hci, hAi, -⟩ := callbacks_values ad s.val p.vars p.objective.term (p.eqs.map UserExpr.term)
    (p.ineqs.map UserExpr.term) (p.guess s) hS.eq res.x hfin hsm
  have hSe : (p.ipmNlp ad s).scaling = .factors df de di := hS.eq
  have hSf : 0 < (p.ipmNlp ad s).scaling.f := by rw [hSe]; exact hS.f.1
  obtain ⟨h1, h2⟩ := ipm_success htol hSf hres hs hx ⟨Vec.finite_fin hg, FMat.finite_fin hAe, Vec.finite_fin hce,
    FMat.finite_fin hAi, Vec.finite_fin hci, hm.1, hm.2.1, hm.2.2⟩
  have hzpos : (opts.feasibleIpm = false ∧ ∀ i a j, env.estimate i a j ≠ .nan) ∨ res.z.Pos → ∀ i, 0 < res.z.real i := by
    rintro (⟨hf, he⟩ | hz)
    rotate_left
    · exact hz.real_pos
    obtain ⟨res', h3, h4, -⟩ := interiorPoint_ok (Z := True) env opts (p.ipmNlp ad s) cbs (p.guess s) htol hSf
      (fun _ h => by rw [hf] at h; cases h) (fun _ => he)
    obtain rfl := Option.some.inj (h3.symm.trans hres)
    exact (((h4.success hs).2 hx hm.1).2 trivial).real_pos
  rw [hSe, show ((p.ipmNlp ad s).g res.x).real = _ from Vec.real_fin hg,
    show ((p.ipmNlp ad s).Ae res.x).real = _ from FMat.real_fin hAe,
    show ((p.ipmNlp ad s).ce res.x).real = _ from Vec.real_fin hce,
    show ((p.ipmNlp ad s).Ai res.x).real = _ from FMat.real_fin hAi,
    show ((p.ipmNlp ad s).ci res.x).real = _ from Vec.real_fin hci] at h1
  have key := unscaled_error_ipm hS.f.1 (fun i => (hS.ce i).1) (fun i => (hS.ci i).1)
    (fun j : Fin p.vars.length => pderiv p.vars[j] p.objective.term.eval (reals (assign s.val p.vars (List.ofFn res.x))))
    (fun i j => pderiv p.vars[j] (p.eqs.map UserExpr.term)[i].eval (reals (assign s.val p.vars (List.ofFn res.x))))
    (fun i => (p.eqs.map UserExpr.term)[i].eval (reals (assign s.val p.vars (List.ofFn res.x))))
    (fun i j => pderiv p.vars[j] (p.ineqs.map UserExpr.term)[i].eval (reals (assign s.val p.vars (List.ofFn res.x))))
    (fun i => (p.ineqs.map UserExpr.term)[i].eval (reals (assign s.val p.vars (List.ofFn res.x))))
    res.s.real res.y.real res.z.real 0
  have h3 := key ▸ h1
  obtain ⟨b1, b2, b3, b4, b5⟩ := error_bounds_ipm h3
  have hpos : ∀ i, 0 < res.s.real i / di i := fun i => div_pos (h2 i) (hS.ci i).1
  refine ⟨List.ofFn fun i => de i * res.y.real i / df, List.ofFn fun i => di i * res.z.real i / df,
    List.ofFn fun i => res.s.real i / di i, ⟨?_, ?_, by simp, ?_, ?_, ?_⟩, ?_⟩
  · intro t ht
    obtain ⟨i, hi, rfl⟩ := List.getElem_of_mem ht
    exact b1 ⟨i, hi⟩
  · intro t ht
    obtain ⟨i, hi, rfl⟩ := List.getElem_of_mem ht
    exact b3 (fun i => (hpos i).le) ⟨i, hi⟩
  · rw [List.forall₂_iff_get]
    refine ⟨by simp, fun i h4 h5 => ?_⟩
    have h6 := b2 ⟨i, h4⟩
    have h7 := hpos ⟨i, h4⟩
    simp only [List.get_eq_getElem, List.getElem_ofFn]
    exact ⟨h7, h6⟩
  · rw [List.forall₂_iff_get]
    refine ⟨by simp, fun i h4 h5 => ?_⟩
    have h6 := b5 ⟨i, by simpa using h4⟩
    rw [abs_sum]
    simp only [List.get_eq_getElem, List.getElem_ofFn, List.length_ofFn]
    simpa using h6
  · intro j' hj'
    obtain ⟨j, hj, rfl⟩ := List.getElem_of_mem hj'
    have h6 := b4 ⟨j, hj⟩
    rw [abs_sum, abs_sum, zipWith_sum _ _ fun t => pderiv p.vars[j] t.eval _, zipWith_sum _ _ fun t => pderiv p.vars[j] t.eval _]
    simp only [List.length_ofFn]
    push_cast at h6
    exact h6
  · intro hf z hz
    obtain ⟨i, rfl⟩ := (List.mem_ofFn' _ _).1 hz
    exact div_pos (mul_pos (hS.ci i).1 (hzpos hf i)) hS.f.1

/-- C22: SUCCESS of the SQP method, for the problem as stated. -/
theorem sqp_solved {p : Problem} {ad : Autodiff} {env : Env} {opts : SolverOptions} {cbs : List Callback} {s : Store}
    (htol : 0 < opts.tolerance) (hi : p.ineqs = []) {res : SqpResult p.vars.length _}
    (hres : sqp env opts (p.sqpNlp ad s) cbs (p.guess s) .start = some res) (hs : res.status = .success)
    (hfin : AllFinite (s.write p.vars (List.ofFn res.x)).val)
    (hsm : p.Smooth (reals (s.write p.vars (List.ofFn res.x)).val)) (hm : res.y.Finite) :
    ∃ ys, NearKkt opts.tolerance (reals (s.write p.vars (List.ofFn res.x)).val) p.vars p.objective.term
      (p.eqs.map UserExpr.term) (p.ineqs.map UserExpr.term) ys [] [] := by
  obtain ⟨res', e1, e2, e3, -, -, -, -, h1, -⟩ := sqp_correct_partial env opts (p.sqpNlp ad s) cbs (p.guess s) htol
  obtain rfl := Option.some.inj (e1.symm.trans hres)
  have h0 : ((p.sqpNlp ad s).eval (p.guess s) (fun _ => 0) Fin.elim0).Finite := by
    by_contra hf
    by_cases hmn : (p.eqs.map UserExpr.term).length > p.vars.length
    · rw [e2.2 hmn] at hs; cases hs
    · rw [e3.2 ⟨not_lt.1 hmn, hf⟩] at hs; cases hs
  obtain ⟨df, de, di, hS⟩ := callbacks_scaling ad s.val p.vars p.objective.term (p.eqs.map UserExpr.term)
    [] (p.guess s) h0.2.1 h0.2.2.2.2.1 h0.2.2.2.2.2.2
  obtain ⟨-, hg, hce, hAe, -⟩ := callbacks_values ad s.val p.vars p.objective.term (p.eqs.map UserExpr.term)
    [] (p.guess s) hS.eq res'.x hfin ⟨hsm.f, hsm.eqs, by simp⟩
  have hSe : (p.sqpNlp ad s).scaling = .factors df de di := hS.eq
  have h1 := h1 hs (Vec.finite_fin hg) (FMat.finite_fin hAe) (Vec.finite_fin hce) hm
  rw [hSe, show ((p.sqpNlp ad s).g res'.x).real = _ from Vec.real_fin hg,
    show ((p.sqpNlp ad s).Ae res'.x).real = _ from FMat.real_fin hAe,
    show ((p.sqpNlp ad s).ce res'.x).real = _ from Vec.real_fin hce] at h1
  have key := unscaled_error_sqp hS.f.1 (fun i => (hS.ce i).1)
    (fun j : Fin p.vars.length => pderiv p.vars[j] p.objective.term.eval (reals (assign s.val p.vars (List.ofFn res'.x))))
    (fun i j => pderiv p.vars[j] (p.eqs.map UserExpr.term)[i].eval (reals (assign s.val p.vars (List.ofFn res'.x))))
    (fun i => (p.eqs.map UserExpr.term)[i].eval (reals (assign s.val p.vars (List.ofFn res'.x))))
    res'.y.real di
  have h3 := key ▸ h1
  obtain ⟨b1, b4⟩ := error_bounds_sqp h3
  rw [hi]
  refine ⟨List.ofFn fun i => de i * res'.y.real i / df, ?_, by simp, by simp, .nil, .nil, ?_⟩
  · intro t ht
    obtain ⟨i, hi, rfl⟩ := List.getElem_of_mem ht
    exact b1 ⟨i, hi⟩
  · intro j' hj'
    obtain ⟨j, hj, rfl⟩ := List.getElem_of_mem hj'
    have h6 := b4 ⟨j, hj⟩
    rw [abs_sum, zipWith_sum _ _ fun t => pderiv p.vars[j] t.eval _]
    simp only [List.length_ofFn, List.map_nil, List.zipWith_nil_left, List.sum_nil, List.length_nil, Nat.cast_zero,
      add_zero, sub_zero]
    exact h6

/-- C22: SUCCESS of Newton's method, for the problem as stated. -/
theorem newton_solved {p : Problem} {ad : Autodiff} {env : Env} {opts : SolverOptions} {cbs : List Callback} {s : Store}
    (htol : 0 < opts.tolerance) (he : p.eqs = []) (hi : p.ineqs = []) {res : NewtonResult p.vars.length}
    (hres : newton env opts (p.newtonNlp ad s) cbs (p.guess s) .start = some res) (hs : res.status = .success)
    (hfin : AllFinite (s.write p.vars (List.ofFn res.x)).val)
    (hsm : p.Smooth (reals (s.write p.vars (List.ofFn res.x)).val)) :
    NearKkt opts.tolerance (reals (s.write p.vars (List.ofFn res.x)).val) p.vars p.objective.term
      (p.eqs.map UserExpr.term) (p.ineqs.map UserExpr.term) [] [] [] := by
  obtain ⟨res', e1, e2, -, -, -, h1, -⟩ := newton_correct env opts (p.newtonNlp ad s) cbs (p.guess s)
  obtain rfl := Option.some.inj (e1.symm.trans hres)
  have h0 : ((p.newtonNlp ad s).g (p.guess s)).Finite := by
    by_contra hf
    rw [e2.2 fun h => hf h.2.1] at hs
    cases hs
  obtain ⟨df, de, di, hS⟩ := callbacks_scaling ad s.val p.vars p.objective.term []
    [] (p.guess s) h0 (fun i => i.elim0) (fun i => i.elim0)
  obtain ⟨-, hg, -⟩ := callbacks_values ad s.val p.vars p.objective.term []
    [] (p.guess s) hS.eq res'.x hfin ⟨hsm.f, by simp, by simp⟩
  have hSe : (p.newtonNlp ad s).scaling = .factors df de di := hS.eq
  have h1 := h1 hs (Vec.finite_fin hg)
  rw [hSe, show ((p.newtonNlp ad s).g res'.x).real = _ from Vec.real_fin hg] at h1
  have key := unscaled_error_newton hS.f.1
    (fun j : Fin p.vars.length => pderiv p.vars[j] p.objective.term.eval (reals (assign s.val p.vars (List.ofFn res'.x))))
    de di
  have h3 := key ▸ h1
  have b := error_bounds_newton h3
  rw [hi, he]
  refine ⟨by simp, by simp, by simp, .nil, .nil, ?_⟩
  intro j' hj'
  obtain ⟨j, hj, rfl⟩ := List.getElem_of_mem hj'
  have h6 := b ⟨j, hj⟩
  simp only [List.map_nil, List.zipWith_nil_left, List.sum_nil, List.length_nil, Nat.cast_zero,
      add_zero, sub_zero, zero_div]
  refine h6.trans (le_mul_of_one_le_right htol.le (le_max_left _ _))

/-- C22: if `solve()` returns SUCCESS after running a solver, and the values of all variables and of the solver's
multipliers and slacks are finite and the expressions smooth there, then the values of the variables meet the
first-order conditions of the stated problem within the tolerance. -/
theorem solve_success {p : Problem} {s : Store} (hok : p.Ok s) {ad : Autodiff} {env : Env} {opts : SolverOptions}
    {spy : Bool} {s' : Store} {o : p.Outcome} (h : p.solve ad env opts spy s = some (o, s'))
    (htol : 0 < opts.tolerance) (hs : o.status = .success) (hc : ¬ p.Constant) (hfin : AllFinite s'.val)
    (ho : o.Finite) (hsm : p.Smooth (reals s'.val)) :
    ∃ ys zs ss, NearKkt opts.tolerance (reals s'.val) p.vars p.objective.term (p.eqs.map UserExpr.term)
      (p.ineqs.map UserExpr.term) ys zs ss ∧
      ((opts.feasibleIpm = false ∧ ∀ i a j, env.estimate i a j ≠ .nan) ∨ o.Positive → ∀ z ∈ zs, 0 < z) := by
  have hwr := solution_written hok h
  rcases solve_cases h with ⟨h1, -⟩ | ⟨-, h2, h3, r, h4, rfl, rfl⟩ | ⟨-, h2, h3, r, h4, rfl, rfl⟩ |
    ⟨-, -, b, -, -, rfl, -⟩ | ⟨-, -, b, r, -, -, h4, rfl, rfl⟩
  · exact absurd h1 hc
  · exact ⟨[], [], [], newton_solved htol h2 h3 h4 hs hfin hsm, by simp⟩
  · obtain ⟨ys, h5⟩ := sqp_solved htol h3 h4 hs hfin hsm ho
    exact ⟨ys, [], [], h5, by simp⟩
  · cases hs
  · refine ipm_solved htol h4 hs hfin hsm ho fun i => ?_
    have h5 : _ = r.x i := hwr.2.2.1 r.x rfl i
    rw [← h5]
    exact hfin _

end Slp
