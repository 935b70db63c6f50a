import Verif.Problem.SliceLemmas

/-! C93: how the formulas are written does not matter to `solve()`. C94: variables that are not decision variables act as the
constants that they hold. -/

namespace Slp

open Classical

/-! ### C94 -/

/-- What is seen of `solve()` if one looks at some variables only: the exit status, all that happened on the way, and the
values of these variables afterwards. -/
def decisionView (vars : List ℕ) {n m k : ℕ} (r : Outcome n m k × Store) : ExitStatus × World × List Fl :=
  (r.1.status, r.1.world, vars.map r.2.val)

/-- C94: let two problems have the same decision variables with the same initial values, and let the cost and the constraints
be the same functions of them, given the values that the other variables have in each case. Then `solve()` does the same for
both. (The expressions are smooth for all values of the decision variables, all values are finite, and the linear solver is
exact.) -/
theorem only_functions_matter {ad ad' : Autodiff} {p q : Problem} {s s' : Store} (hpq : p.SameOn ad ad' s q s')
    (hp : p.SmoothAround s) (hq : q.SmoothAround s') {env : Env} (hE : env.ExactSolve) (hE' : env.ExactEstimate)
    {opts : SolverOptions} (htol : 0 < opts.tolerance) (hfin : AllFinite s.val) (hfin' : AllFinite s'.val) (spy : Bool) :
    (p.solve ad env opts spy s).map (decisionView p.vars) = (q.solve ad' env opts spy s').map (decisionView q.vars) := by
  obtain ⟨o, h1, h2⟩ := solve_same_on hpq hp hq hE hE' htol hfin hfin' spy
  have hv : ∀ {n m k : ℕ} (vars : List ℕ) (r : Option (Outcome n m k × Store)), r.map (decisionView vars) =
      (r.map solveView).map fun r => (r.1, r.2.1, vars.map r.2.2.val) := fun vars r => by
    rw [Option.map_map]; rfl
  rw [hv, hv, h1, h2, Option.map_map, Option.map_map, ← hpq.vars]
  congr 1
  funext r
  refine Prod.ext rfl (Prod.ext rfl ?_)
  refine List.map_congr_left fun k hk => ?_
  show (r.2.2.elim s (s.write p.vars)).val k = (r.2.2.elim s' (s'.write p.vars)).val k
  cases r.2.2 with
  | none => exact hpq.guess k hk
  | some xs => exact assign_same p.vars _ _ xs hpq.guess k hk

/-- The term with the values `v` in place of all variables but the given ones. -/
noncomputable def Term.fill (vars : List ℕ) (v : ℕ → ℝ) : Term → Term
  | .lit c => .lit c
  | .var k => if k ∈ vars then .var k else .lit (v k)
  | .un f t => .un f (t.fill vars v)
  | .bin f s t => .bin f (s.fill vars v) (t.fill vars v)
  | .pd k t => .pd k (t.fill vars v)

/-- Derivatives that are part of the term are by the given variables. -/
def Term.DiffOnly (vars : List ℕ) : Term → Prop
  | .lit _ => True
  | .var _ => True
  | .un _ t => t.DiffOnly vars
  | .bin _ s t => s.DiffOnly vars ∧ t.DiffOnly vars
  | .pd k t => k ∈ vars ∧ t.DiffOnly vars

theorem Term.fill_same {vars : List ℕ} {v : ℕ → Fl} (v' : ℕ → Fl) (t : Term) (h : t.DiffOnly vars) :
    t.SameOn vars v v' (t.fill vars (reals v)) := by
  induction t with
  | lit c => intro w w' _; rfl
  | var k =>
    intro w w' ht
    by_cases hk : k ∈ vars
    · rw [Term.fill, if_pos hk]; exact ht.same k hk
    · rw [Term.fill, if_neg hk]; exact ht.left k hk
  | un f t ih => intro w w' ht; exact congrArg f.eval (ih h w w' ht)
  | bin f s t ih1 ih2 =>
    intro w w' ht
    show f.eval (s.eval w) (t.eval w) = f.eval _ _
    rw [ih1 h.1 w w' ht, ih2 h.2 w w' ht]
  | pd k t ih => exact pderiv_twin (ih h.2) h.1

theorem Term.fill_smooth {vars : List ℕ} {v : ℕ → Fl} (v' : ℕ → Fl) (t : Term) (h : t.DiffOnly vars) {w w' : ℕ → ℝ}
    (ht : Twin vars v v' w w') (hs : t.Smooth w) : (t.fill vars (reals v)).Smooth w' := by
  induction t with
  | lit c => trivial
  | var k => rw [Term.fill]; split <;> trivial
  | un f t ih =>
    refine ⟨ih h hs.1, ?_⟩
    rw [← Term.fill_same v' t h w w' ht]; exact hs.2
  | bin f s t ih1 ih2 =>
    refine ⟨ih1 h.1 hs.1, ih2 h.2 hs.2.1, ?_⟩
    rw [← Term.fill_same v' s h.1 w w' ht, ← Term.fill_same v' t h.2 w w' ht]
    have hl : t.IsLit → (t.fill vars (reals v)).IsLit := by
      cases t <;> simp [Term.IsLit, Term.fill]
    have := hs.2.2
    cases f <;> first | exact this | (rcases this with h | ⟨h1, h2⟩; exacts [.inl h, .inr ⟨hl h1, h2⟩])
  | pd k t ih => exact ih h.2 hs

/-- `q` is `p` with constants in place of the variables that are not decision variables: their values in `s`. The types of
the expressions may differ, since a product with a constant is linear where one with a variable is quadratic, but linear
inequality constraints must remain so. -/
structure Problem.Filled (ad ad' : Autodiff) (p : Problem) (s : Store) (q : Problem) : Prop where
  vars : p.vars = q.vars
  callbacks : p.callbacks = q.callbacks
  persistent : p.persistent = q.persistent
  cost : q.objective.term = p.objective.term.fill p.vars (reals s.val)
  eqs : List.Forall₂ (fun e e' => e'.term = e.term.fill p.vars (reals s.val)) p.eqs q.eqs
  ineqs : List.Forall₂ (fun e e' => e'.term = e.term.fill p.vars (reals s.val) ∧ (e.ty = .linear ↔ e'.ty = .linear) ∧
    (e.ty = .linear → ∀ j ∈ p.vars, ad.stored e.term j = ad'.stored e'.term j)) p.ineqs q.ineqs
  constant : p.Constant ↔ q.Constant

/-- Derivatives that are part of the expressions are by decision variables. -/
structure Problem.DiffOnly (p : Problem) : Prop where
  cost : p.objective.term.DiffOnly p.vars
  eqs : ∀ e ∈ p.eqs, e.term.DiffOnly p.vars
  ineqs : ∀ e ∈ p.ineqs, e.term.DiffOnly p.vars

theorem forall₂_mem {α β : Type} {R : α → β → Prop} {P : α → Prop} {l : List α} {l' : List β} (h : List.Forall₂ R l l')
    (hP : ∀ a ∈ l, P a) : List.Forall₂ (fun a b => R a b ∧ P a) l l' := by
  induction h with
  | nil => exact .nil
  | cons h _ ih => exact .cons ⟨h, hP _ (by simp)⟩ (ih fun a ha => hP a (by simp [ha]))

theorem forall₂_right {α β : Type} {R : α → β → Prop} {l : List α} {l' : List β} (h : List.Forall₂ R l l') :
    ∀ b ∈ l', ∃ a ∈ l, R a b := by
  induction h with
  | nil => intro b hb; cases hb
  | @cons a b l l' h _ ih =>
    intro c hc
    rcases List.mem_cons.1 hc with rfl | hc
    · exact ⟨a, by simp, h⟩
    · obtain ⟨d, hd, hr⟩ := ih c hc
      exact ⟨d, by simp [hd], hr⟩

/-- C94: a variable that is not a decision variable acts as a constant: `solve()` does the same as for the problem that has
the value of the variable in its place, which does not depend on how other variables are set. -/
theorem parameters_are_constants {ad ad' : Autodiff} {p q : Problem} {s s' : Store} (hpq : p.Filled ad ad' s q)
    (hd : p.DiffOnly) (hp : p.SmoothAround s) (hg : ∀ k ∈ p.vars, s.val k = s'.val k) {env : Env} (hE : env.ExactSolve)
    (hE' : env.ExactEstimate) {opts : SolverOptions} (htol : 0 < opts.tolerance) (hfin : AllFinite s.val)
    (hfin' : AllFinite s'.val) (spy : Bool) :
    (p.solve ad env opts spy s).map (decisionView p.vars) = (q.solve ad' env opts spy s').map (decisionView q.vars) := by
  refine only_functions_matter ⟨hpq.vars, hpq.callbacks, hpq.persistent, hg, ?_, ?_, ?_, hpq.constant⟩ hp (fun w hw => ?_) hE hE' htol
    hfin hfin' spy
  · rw [hpq.cost]; exact Term.fill_same _ _ hd.cost
  · exact (forall₂_mem hpq.eqs hd.eqs).imp fun e e' h => by rw [h.1]; exact Term.fill_same _ _ h.2
  · exact (forall₂_mem hpq.ineqs hd.ineqs).imp fun e e' h =>
      ⟨by rw [h.1.1]; exact Term.fill_same _ _ h.2, h.1.2.1, h.1.2.2⟩
  · rw [← hpq.vars] at hw
    have ht : Twin p.vars s.val s'.val (fun k => if k ∈ p.vars then w k else reals s.val k) w :=
      ⟨fun k hk => if_pos hk, fun k hk => if_neg hk, hw⟩
    have hs := hp _ ht.left
    refine ⟨?_, fun t h => ?_, fun t h => ?_⟩
    · rw [hpq.cost]; exact Term.fill_smooth _ _ hd.cost ht hs.f
    · obtain ⟨e', he', rfl⟩ := List.mem_map.1 h
      obtain ⟨e, he, h1⟩ := forall₂_right hpq.eqs e' he'
      rw [h1]; exact Term.fill_smooth _ _ (hd.eqs e he) ht (hs.eqs _ (List.mem_map_of_mem he))
    · obtain ⟨e', he', rfl⟩ := List.mem_map.1 h
      obtain ⟨e, he, h1⟩ := forall₂_right hpq.ineqs e' he'
      rw [h1.1]; exact Term.fill_smooth _ _ (hd.ineqs e he) ht (hs.ineqs _ (List.mem_map_of_mem he))

/-! ### C93 -/

/-- The two constraints are the same function. -/
def UserExpr.SameFunction (e e' : UserExpr) : Prop := ∀ w, e.term.eval w = e'.term.eval w

/-- The two inequality constraints are the same function, and if their type is linear, the same derivatives are stored,
which is what the detection of bounds looks at. -/
structure UserExpr.SameInequality (ad ad' : Autodiff) (vars : List ℕ) (e e' : UserExpr) : Prop where
  value : e.SameFunction e'
  linear : e.ty = .linear ↔ e'.ty = .linear
  stored : e.ty = .linear → ∀ j ∈ vars, ad.stored e.term j = ad'.stored e'.term j

/-- The two problems have the same variables and callbacks, and the cost and the constraints are the same functions, however
they are written; `ad` and `ad'` are two ways of differentiating. -/
structure Problem.SameFunctions (ad ad' : Autodiff) (p q : Problem) : Prop where
  vars : p.vars = q.vars
  callbacks : p.callbacks = q.callbacks
  persistent : p.persistent = q.persistent
  cost : ∀ w, p.objective.term.eval w = q.objective.term.eval w
  eqs : List.Forall₂ UserExpr.SameFunction p.eqs q.eqs
  ineqs : List.Forall₂ (UserExpr.SameInequality ad ad' p.vars) p.ineqs q.ineqs
  constant : p.Constant ↔ q.Constant

/-- C93: let two problems be given by formulas that are the same functions, though they may be written differently, and that
are smooth for all values of the decision variables; let the initial values be finite and the linear solver exact. Then
`solve()` does the same for both: the same exit status, the same iterates shown to the callbacks, and the same values of all
variables afterwards. -/
theorem formulas_do_not_matter {ad ad' : Autodiff} {p q : Problem} (hpq : p.SameFunctions ad ad' q) {s : Store}
    (hp : p.SmoothAround s) (hq : q.SmoothAround s) {env : Env} (hE : env.ExactSolve) (hE' : env.ExactEstimate)
    {opts : SolverOptions} (htol : 0 < opts.tolerance) (hfin : AllFinite s.val) (spy : Bool) :
    (p.solve ad env opts spy s).map solveView = (q.solve ad' env opts spy s).map solveView := by
  have key : ∀ {t t' : Term}, (∀ w, t.eval w = t'.eval w) → t.SameOn p.vars s.val s.val t' := fun {t t'} h w w' ht => by
    obtain rfl : w = w' := funext fun k => by
      by_cases hk : k ∈ p.vars
      · exact ht.same k hk
      · rw [ht.left k hk, ht.right k hk]
    exact h w
  obtain ⟨o, h1, h2⟩ := solve_same_on (s := s) (s' := s) ⟨hpq.vars, hpq.callbacks, hpq.persistent, fun _ _ => rfl, key hpq.cost,
    hpq.eqs.imp fun _ _ h => key h, hpq.ineqs.imp fun _ _ h => ⟨key h.value, h.linear, h.stored⟩, hpq.constant⟩ hp hq hE hE' htol
    hfin hfin spy
  rw [h1, h2, hpq.vars]

/-! ### Examples -/

/-- Minimise `x₀²` subject to `x₀² = 4` and `x₀³ ≥ 0`. -/
def plainUser : Problem :=
  ⟨[0], some ⟨.bin .mul (.var 0) (.var 0), .quadratic⟩, [⟨.bin .sub (.bin .mul (.var 0) (.var 0)) (.lit 4), .quadratic⟩],
    [⟨.bin .mul (.bin .mul (.var 0) (.var 0)) (.var 0), .nonlinear⟩], [], []⟩

/-- The same problem: minimise `(x₀ + 1)(x₀ - 1) + 1` subject to `(x₀ - 2)(x₀ + 2) = 0` and `x₀(x₀x₀) ≥ 0`. -/
def clumsyUser : Problem :=
  ⟨[0], some ⟨.bin .add (.bin .mul (.bin .add (.var 0) (.lit 1)) (.bin .sub (.var 0) (.lit 1))) (.lit 1), .quadratic⟩,
    [⟨.bin .mul (.bin .sub (.var 0) (.lit 2)) (.bin .add (.var 0) (.lit 2)), .quadratic⟩],
    [⟨.bin .mul (.var 0) (.bin .mul (.var 0) (.var 0)), .nonlinear⟩], [], []⟩

/-- The hypotheses of `formulas_do_not_matter` hold for them, whichever derivatives are stored. -/
example (factor : ℕ → Bool) (clock : ℕ → ℝ) (junk : ℕ → List Fl → Fl) (ad ad' : Autodiff) (v : ℕ → Fl) (hv : AllFinite v) :
    (plainUser.solve ad (exactEnv factor clock junk) ⟨1e-8, 5000, .pinf, false⟩ false ⟨1, v⟩).map solveView =
      (clumsyUser.solve ad' (exactEnv factor clock junk) ⟨1e-8, 5000, .pinf, false⟩ false ⟨1, v⟩).map solveView := by
  have h1 : plainUser.SameFunctions ad ad' clumsyUser := by
    refine ⟨rfl, rfl, rfl, fun w => ?_, .cons (fun w => ?_) .nil, .cons ⟨fun w => ?_, ?_, ?_⟩ .nil, ?_⟩
    · simp only [plainUser, clumsyUser, Problem.objective, Term.eval, BinOp.eval, Option.getD_some]; ring
    · simp only [Term.eval, BinOp.eval]; ring
    · simp only [Term.eval, BinOp.eval]; ring
    · simp
    · simp
    · simp [plainUser, clumsyUser, Problem.Constant, Ty.rank]
  have h2 : ∀ w, plainUser.Smooth w := fun w => by
    refine ⟨?_, ?_, ?_⟩ <;> simp [plainUser, Problem.objective, Term.Smooth, BinOp.Smooth]
  have h3 : ∀ w, clumsyUser.Smooth w := fun w => by
    refine ⟨?_, ?_, ?_⟩ <;> simp [clumsyUser, Problem.objective, Term.Smooth, BinOp.Smooth]
  have ht : (0 : ℝ) < (⟨1e-8, 5000, .pinf, false⟩ : SolverOptions).tolerance := by norm_num
  have hx := exactEnv_exact factor clock junk
  exact formulas_do_not_matter h1 (fun w _ => h2 w) (fun w _ => h3 w) hx.1 hx.2 ht hv false

/-- `clashProblem`, that is `x₀ ≥ 1` and `x₀ ≤ 0`, with the constraints written as `x₀x₀ + x₀ - 1 - x₀x₀ ≥ 0` and
`x₀x₀ - x₀ - x₀x₀ ≥ 0`, whose type is quadratic. -/
noncomputable def disguisedClash : Problem :=
  ⟨[0], none, [], [⟨.bin .sub (.bin .add (.bin .mul (.var 0) (.var 0)) (.bin .sub (.var 0) (.lit 1))) (.bin .mul (.var 0) (.var 0)),
    .quadratic⟩, ⟨.bin .sub (.bin .sub (.bin .mul (.var 0) (.var 0)) (.var 0)) (.bin .mul (.var 0) (.var 0)), .quadratic⟩], [], []⟩

/-- Why `UserExpr.SameInequality` asks for more than the same function: bounds are only recognised if the type of the
constraint is linear. The same bounds that conflict are reported as GLOBALLY_INFEASIBLE when written one way, and not when
written another way. -/
theorem formulas_of_bounds_matter (env : Env) (opts : SolverOptions) (htol : 0 < opts.tolerance) :
    List.Forall₂ UserExpr.SameFunction clashProblem.ineqs disguisedClash.ineqs ∧
      (∃ o s', clashProblem.solve storeAll env opts false ⟨1, fun _ => .fin 7⟩ = some (o, s') ∧
        o.status = .globallyInfeasible) ∧
      ∃ o s', disguisedClash.solve storeAll env opts false ⟨1, fun _ => .fin 7⟩ = some (o, s') ∧
        o.status ≠ .globallyInfeasible := by
  refine ⟨.cons (fun w => ?_) (.cons (fun w => ?_) .nil), clash_infeasible env opts htol, ?_⟩
  · simp only [lowerExpr, Term.eval, BinOp.eval]; ring
  · simp only [upperExpr, Term.eval, BinOp.eval]; ring
  have hb : ∃ b, disguisedClash.bounds storeAll ⟨1, fun _ => .fin 7⟩ = some b ∧ b.1.conflicts = [] := by
    refine ⟨_, rfl, rfl⟩
  obtain ⟨b, hb, hc⟩ := hb
  obtain ⟨o, s', h1, -⟩ := solve_returns disguisedClash storeAll env opts false ⟨1, fun _ => .fin 7⟩ htol
    fun _ => by rw [hb]; simp
  refine ⟨o, s', h1, fun hst => ?_⟩
  obtain rfl := (solve_statuses htol h1).2.1.1 hst
  rcases solve_cases h1 with ⟨-, h, -⟩ | ⟨-, -, -, r, -, h, -⟩ | ⟨-, -, -, r, -, h, -⟩ | ⟨-, -, b', hb', hc', -, -⟩ |
    ⟨-, -, b, r, -, -, -, h, -⟩
  · cases h
  · cases h
  · cases h
  · obtain rfl := Option.some.inj (hb.symm.trans hb')
    exact hc' hc
  · cases h

/-- Minimise `(x₀ - x₁)²` subject to `x₀ ≥ x₁` and `x₀ / x₁ = 2`; only `x₀` is a decision variable. -/
def parameterUser : Problem :=
  ⟨[0], some ⟨.bin .mul (.bin .sub (.var 0) (.var 1)) (.bin .sub (.var 0) (.var 1)), .quadratic⟩,
    [⟨.bin .sub (.bin .div (.var 0) (.var 1)) (.lit 2), .nonlinear⟩], [⟨.bin .sub (.var 0) (.var 1), .linear⟩], [], []⟩

/-- The same with 3 instead of `x₁`. -/
def constantUser : Problem :=
  ⟨[0], some ⟨.bin .mul (.bin .sub (.var 0) (.lit 3)) (.bin .sub (.var 0) (.lit 3)), .quadratic⟩,
    [⟨.bin .sub (.bin .div (.var 0) (.lit 3)) (.lit 2), .linear⟩], [⟨.bin .sub (.var 0) (.lit 3), .linear⟩], [], []⟩

/-- The hypotheses of `parameters_are_constants` hold if `x₁` is set to 3, whatever it is for the second problem. -/
example (factor : ℕ → Bool) (clock : ℕ → ℝ) (junk : ℕ → List Fl → Fl) (c : ℝ) :
    (parameterUser.solve storeAll (exactEnv factor clock junk) ⟨1e-8, 5000, .pinf, false⟩ false
        ⟨2, fun k => if k = 0 then .fin 5 else .fin 3⟩).map (decisionView [0]) =
      (constantUser.solve storeAll (exactEnv factor clock junk) ⟨1e-8, 5000, .pinf, false⟩ false
        ⟨2, fun k => if k = 0 then .fin 5 else .fin c⟩).map (decisionView [0]) := by
  have h1 : parameterUser.Filled storeAll storeAll ⟨2, fun k => if k = 0 then .fin 5 else .fin 3⟩ constantUser := by
    refine ⟨rfl, rfl, rfl, ?_, .cons ?_ .nil, .cons ⟨?_, ?_, ?_⟩ .nil, ?_⟩
    · simp [parameterUser, constantUser, Problem.objective, Term.fill, reals, Fl.toReal]
    · simp [parameterUser, Term.fill, reals, Fl.toReal]
    · simp [parameterUser, Term.fill, reals, Fl.toReal]
    · simp
    · simp [storeAll]
    · simp [parameterUser, constantUser, Problem.Constant, Ty.rank]
  have h2 : parameterUser.DiffOnly := by
    refine ⟨?_, ?_, ?_⟩ <;> simp [parameterUser, Problem.objective, Term.DiffOnly]
  have h3 : parameterUser.SmoothAround ⟨2, fun k => if k = 0 then .fin 5 else .fin 3⟩ := by
    intro w hw
    have h : w 1 = 3 := by rw [hw 1 (by simp [parameterUser])]; simp [reals, Fl.toReal]
    refine ⟨?_, ?_, ?_⟩ <;> simp [parameterUser, Problem.objective, Term.Smooth, BinOp.Smooth, Term.eval, h]
  have ht : (0 : ℝ) < (⟨1e-8, 5000, .pinf, false⟩ : SolverOptions).tolerance := by norm_num
  have hx := exactEnv_exact factor clock junk
  refine parameters_are_constants h1 h2 h3 ?_ hx.1 hx.2 ht ?_ ?_ false
  · simp [parameterUser]
  · intro k; show Fl.isFinite (if k = 0 then _ else _) = true; split <;> rfl
  · intro k; show Fl.isFinite (if k = 0 then _ else _) = true; split <;> rfl

end Slp
