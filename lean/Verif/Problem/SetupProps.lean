import Verif.Problem.RequestOkLemmas

/-!
C47 and C50: the calls of the autodiff API that `solve()` makes, from the setup to the assignment of the solution.

The program `cs` that the user has run before `solve()` is arbitrary. The problem's variables, cost and constraints are
objects that it has left behind.
-/

namespace Slp

variable {cs : List (Cmd ℝ)} {a : SolveArgs} {vars : List ℕ} {f : Term} {eqs ineqs : List Term}

/-- The user's program, and then the setup of autodiff in `solve()`. -/
noncomputable def SolveArgs.started (a : SolveArgs) (cs : List (Cmd ℝ)) : List (Cmd ℝ) :=
  cs ++ a.setup (stateAfter cs).sizes

theorem names_vars (h : Allowed cs) {is : List ℕ} {ts : List Term} (hn : (stateAfter cs).Names is ts) :
    ∀ t ∈ ts, t.Vars (stateAfter cs).n := by
  obtain ⟨vs, s, I, -, -⟩ := result_snoc h
  induction hn with
  | nil => simp
  | @cons i t is ts hi _ ih =>
    intro u hu
    rcases List.mem_cons.1 hu with rfl | hu
    · obtain ⟨t', o, h1, -, -, h2⟩ := I.obj (get_lt_of hi)
      rw [hi] at h1
      cases h1
      exact h2.vars
    · exact ih u hu

theorem SolveArgs.Describes.below (h : Allowed cs) (d : a.Describes (stateAfter cs) vars f eqs ineqs) :
    Below (stateAfter cs).n vars f eqs ineqs where
  vars k hk := names_vars h d.x (.var k) (List.mem_map_of_mem hk)
  f := by
    have hf := d.f
    cases hc : a.f with
    | none => rw [hc] at hf; subst hf; trivial
    | some i =>
      rw [hc] at hf
      exact names_vars h (is := [i]) (ts := [f]) (.cons hf .nil) f (by simp)
  eqs := names_vars h d.eqs
  ineqs := names_vars h d.ineqs

theorem after_started (ds : List (Cmd ℝ)) : stateAfter (a.started cs ++ ds) =
    ((stateAfter cs).after (a.setup (stateAfter cs).sizes)).after ds := by
  unfold stateAfter SolveArgs.started
  rw [after_append, after_append]
  rfl

/-- The setup respects the preconditions of all API calls that it makes. -/
theorem setup_allowed (h : Allowed cs) (d : a.Describes (stateAfter cs) vars f eqs ineqs) : Allowed (a.started cs) :=
  allowed_append.2 ⟨h, d.setup_ok.1⟩

/-- C47: the matrix callbacks, as the calls of the autodiff API that they are. The user's program has defined the problem.
The setup in `solve()`, and then any further calls `ds` (of callbacks, or by the user in an iteration callback) that leave
the objects of `solve()` alone, have been made. Then a matrix callback called at any point at which the problem is defined
runs, and returns the scaled values and derivatives of the problem's expressions at that point, other variables having the
values that they have at the time. -/
theorem api_callbacks_correct (h : Allowed cs) (d : a.Describes (stateAfter cs) vars f eqs ineqs) {ds : List (Cmd ℝ)}
    (hds : Allowed (a.started cs ++ ds))
    (hi : ∀ c ∈ ds, ∀ i, a.Internal (stateAfter cs).sizes i → ¬ c.Assigns i) (S : Factors eqs.length ineqs.length)
    (q : Request vars.length eqs.length ineqs.length) (hv : q.Available eqs ineqs)
    (hq : q.Defined f eqs ineqs (setReals (stateAfter (a.started cs ++ ds)).env vars (List.ofFn q.point))) :
    ∃ os s os' s', run (a.started cs ++ ds) Api.empty = some (os, s) ∧
      run (q.cmds a (stateAfter cs).sizes S) s = some (os', s') ∧
      q.answer S os' = some (q.expected vars f eqs ineqs S
        (setReals (stateAfter (a.started cs ++ ds)).env vars (List.ofFn q.point))) := by
  obtain ⟨-, l2, l3⟩ := d.lengths
  have R : a.Ready (stateAfter cs).sizes (stateAfter cs).n vars f eqs ineqs (stateAfter (a.started cs ++ ds)) := by
    rw [after_started]
    exact d.setup_ok.2.1.after hi
  obtain ⟨os, s, e1, -, I⟩ := run_ok inv_empty _ hds
  obtain ⟨os', s', e2, r, -⟩ := run_ok I _ (request_valid R l2 l3 S q hv).1
  exact ⟨os, s, os', s', e1, e2, request_ok R (d.below h) l2 l3 S q hv os' r hq⟩

/-! ### A whole solve -/

/-- The calls of matrix callbacks in a solve: each has the factors of the scaling (one for all while the scaling is
computed) and the point. -/
abbrev Calls (n m k : ℕ) := List (Factors m k × Request n m k)

/-- The API calls of all these callbacks. -/
noncomputable def Calls.cmds {n m k : ℕ} (qs : Calls n m k) (a : SolveArgs) (N : TableSizes) : List (Cmd ℝ) :=
  qs.flatMap fun p => p.2.cmds a N p.1

/-- The user's program followed by `solve()`, in which the solver calls the callbacks `qs` and ends at `x`. -/
noncomputable def SolveArgs.solved {n m k : ℕ} (a : SolveArgs) (cs : List (Cmd ℝ)) (qs : Calls n m k) (x : List ℝ) :
    List (Cmd ℝ) :=
  a.started cs ++ qs.cmds a (stateAfter cs).sizes ++ a.finish x

theorem setup_not_assigns (N : TableSizes) {c : Cmd ℝ} (hc : c ∈ a.setup N) (i : ℕ) : ¬ c.Assigns i := by
  have dl : ∀ (ps : List (ℕ × ℕ)) (p q : ℕ), ∀ c ∈ dotLoop p q ps, ¬ c.Assigns i := by
    intro ps
    induction ps with
    | nil => intro p q c hc; simp [dotLoop] at hc
    | cons x ps ih =>
      intro p q c hc
      simp only [dotLoop, List.mem_cons] at hc
      rcases hc with rfl | rfl | hc
      · exact id
      · exact id
      · exact ih _ _ c hc
  have dc : ∀ (ps : List (ℕ × ℕ)) (q : ℕ), ∀ c ∈ dotCmds q ps, ¬ c.Assigns i := by
    intro ps q c hc
    simp only [dotCmds, List.mem_cons] at hc
    rcases hc with rfl | hc
    · exact id
    · exact dl _ _ _ c hc
  have cp : ∀ c ∈ a.copies, ¬ c.Assigns i := by
    intro c hc
    unfold SolveArgs.copies at hc
    simp only [List.mem_append, List.mem_map, List.mem_singleton, List.mem_replicate] at hc
    rcases hc with ((((⟨_, _, rfl⟩ | rfl) | ⟨_, _, rfl⟩) | ⟨_, _, rfl⟩) | ⟨_, rfl⟩) | ⟨_, rfl⟩
    all_goals first | exact id | (cases a.f <;> exact id)
  have lc : ∀ c ∈ a.lagrangianCmds N, ¬ c.Assigns i := by
    intro c hc
    unfold SolveArgs.lagrangianCmds at hc
    simp only [List.mem_append, List.mem_map] at hc
    rcases hc with (⟨_, _, rfl⟩ | hc) | hc
    · exact id
    · exact dc _ _ c hc
    · split at hc
      · simp at hc
      · simp only [List.mem_append, List.mem_singleton] at hc
        rcases hc with hc | rfl
        · exact dc _ _ c hc
        · exact id
  unfold SolveArgs.setup at hc
  simp only [List.mem_append, List.mem_cons, List.not_mem_nil, or_false] at hc
  rcases hc with (hc | rfl | rfl) | hc
  · exact cp c hc
  · exact id
  · exact id
  · split at hc
    · simp at hc
    · simp only [List.mem_append, List.mem_cons, List.not_mem_nil, or_false] at hc
      rcases hc with (hc | rfl | rfl) | hc
      · exact lc c hc
      · exact id
      · exact id
      · split at hc
        · simp at hc
        · simp only [List.mem_cons, List.not_mem_nil, or_false] at hc
          subst hc
          exact id

/-- The calls of callbacks respect all preconditions, and change the values of the decision variables and of the
multipliers only. -/
theorem calls_ok {N : TableSizes} {n : ℕ} {σ : Spec} (R : a.Ready N n vars f eqs ineqs σ)
    (l2 : a.eqs.length = eqs.length) (l3 : a.ineqs.length = ineqs.length)
    (qs : Calls vars.length eqs.length ineqs.length) (hv : ∀ p ∈ qs, p.2.Available eqs ineqs) :
    ValidAll (qs.cmds a N) σ ∧ ∃ w, σ.after (qs.cmds a N) = { σ with env := w } ∧
      ∀ i, i < n → i ∉ vars → w i = σ.env i := by
  induction qs generalizing σ with
  | nil => exact ⟨trivial, σ.env, rfl, fun _ _ _ => rfl⟩
  | cons p qs ih =>
    obtain ⟨h1, w, h2, hw⟩ := request_valid R l2 l3 p.1 p.2 (hv p (by simp))
    obtain ⟨h3, u, h4, hu⟩ := ih (σ := { σ with env := w }) (R.env w) fun p' hp => hv p' (by simp [hp])
    have h := validAll_and_after ⟨h1, h2⟩ ⟨h3, h4⟩
    refine ⟨h.1, u, h.2, fun i hi hiv => ?_⟩
    rw [hu i hi hiv]
    show w i = _
    rw [hw i hi, setReals_other _ _ _ hiv]

/-- What a whole solve does to the program's state: it only adds objects, and sets the decision variables to the solution.
-/
theorem solved_state (h : Allowed cs) (d : a.Describes (stateAfter cs) vars f eqs ineqs)
    (qs : Calls vars.length eqs.length ineqs.length) (hv : ∀ p ∈ qs, p.2.Available eqs ineqs) (x : List ℝ)
    (hx : x.length = vars.length) :
    Allowed (a.solved cs qs x) ∧
      (∀ (i : ℕ) (t : Term), (stateAfter cs).terms[i]? = some t → (stateAfter (a.solved cs qs x)).terms[i]? = some t) ∧
      (∀ (j : ℕ) (J : List Term × List ℕ), (stateAfter cs).jacs[j]? = some J →
        (stateAfter (a.solved cs qs x)).jacs[j]? = some J) ∧
      (∀ (j : ℕ) (H : Bool × Term × List ℕ), (stateAfter cs).hess[j]? = some H →
        (stateAfter (a.solved cs qs x)).hess[j]? = some H) ∧
      ∀ k, k < (stateAfter cs).n → (stateAfter (a.solved cs qs x)).env k = setReals (stateAfter cs).env vars x k := by
  obtain ⟨-, l2, l3⟩ := d.lengths
  obtain ⟨s1, R, -, senv, -⟩ := d.setup_ok
  obtain ⟨c1, w, c2, hw⟩ := calls_ok R l2 l3 qs hv
  set σ := stateAfter cs with hσ
  have t1 : ∀ (i : ℕ) (t : Term), σ.terms[i]? = some t → (σ.after (a.setup σ.sizes)).terms[i]? = some t :=
    fun i t ht => after_terms ht fun c hc => setup_not_assigns _ hc i
  set τ := σ.after (a.setup σ.sizes) with hτ
  have names : ({ τ with env := w } : Spec).Names a.x (vars.map .var) := d.x.mono fun i _ t ht => t1 i t ht
  have f1 := setAll_ok names x
  have hall := validAll_and_after (validAll_and_after ⟨s1, hτ.symm⟩ ⟨c1, c2⟩) f1
  have hst : stateAfter (a.solved cs qs x) = { τ with env := setReals w vars x } := by
    unfold SolveArgs.solved SolveArgs.started stateAfter
    rw [List.append_assoc, List.append_assoc, after_append, ← List.append_assoc]
    exact hall.2
  refine ⟨?_, ?_, ?_, ?_, ?_⟩
  · unfold SolveArgs.solved SolveArgs.started
    rw [List.append_assoc, List.append_assoc, ← List.append_assoc (a.setup _)]
    exact allowed_append.2 ⟨h, hall.1⟩
  · rw [hst]; exact t1
  · rw [hst]; exact fun j J hj => after_jacs hj
  · rw [hst]; exact fun j H hj => after_hess hj
  · rw [hst]
    intro k hk
    refine setReals_congr vars d.nodup hx fun hkv => ?_
    rw [hw k hk hkv, senv k hk]

/-- C50: after `solve()` every `Variable` that the program has stands for the same expression as before, and its `value()`
is that of the expression with the decision variables at the solution and all other variables at their old values. -/
theorem value_after_solve (h : Allowed cs) (d : a.Describes (stateAfter cs) vars f eqs ineqs)
    (qs : Calls vars.length eqs.length ineqs.length) (hv : ∀ p ∈ qs, p.2.Available eqs ineqs) (x : List ℝ)
    (hx : x.length = vars.length) {i : ℕ} {t : Term} (ht : (stateAfter cs).terms[i]? = some t)
    (hd : t.Dom (setReals (stateAfter cs).env vars x)) :
    result (a.solved cs qs x ++ [.value i]) = some (.num (t.eval (setReals (stateAfter cs).env vars x))) := by
  obtain ⟨h1, h2, -, -, h3⟩ := solved_state h d qs hv x hx
  have tv := names_vars h (is := [i]) (ts := [t]) (.cons ht .nil) t (by simp)
  rw [value_correct h1 (h2 i t ht) ((t.dom_congr tv h3).2 hd), t.eval_congr tv h3]

/-- C50: the user's Jacobians are taken at the solution. -/
theorem jacobian_after_solve (h : Allowed cs) (d : a.Describes (stateAfter cs) vars f eqs ineqs)
    (qs : Calls vars.length eqs.length ineqs.length) (hv : ∀ p ∈ qs, p.2.Available eqs ineqs) (x : List ℝ)
    (hx : x.length = vars.length) {j : ℕ} {ts : List Term} {ks : List ℕ} (hj : (stateAfter cs).jacs[j]? = some (ts, ks))
    (hs : ∀ t ∈ ts, t.Smooth (setReals (stateAfter cs).env vars x)) :
    result (a.solved cs qs x ++ [.jacValue j]) = some (.mat (List.ofFn fun r : Fin ts.length =>
      List.ofFn fun c : Fin ks.length => pderiv ks[c] ts[r].eval (setReals (stateAfter cs).env vars x))) := by
  obtain ⟨h1, -, h2, -, h3⟩ := solved_state h d qs hv x hx
  obtain ⟨vs, s, I, -, -⟩ := result_snoc h
  obtain ⟨J, -, jo⟩ := forall2_get I.jacs j hj
  obtain ⟨v1, v2⟩ := jacValue_ok (h2 j _ hj)
  obtain ⟨o, e, r⟩ := returns_last (c := .jacValue j) (allowed_snoc.mpr ⟨h1, v1⟩)
  rw [e, v2 o r fun t ht => (t.smooth_congr (jo.tv t ht) h3).2 (hs t ht)]
  congr 3
  funext r
  congr 1
  funext c
  exact Term.eval_congr (Term.pd ks[c] ts[r]) ⟨jo.kv _ (List.getElem_mem _), jo.tv _ (List.getElem_mem _)⟩ h3

/-- C50: the user's Hessians are taken at the solution. -/
theorem hessian_after_solve (h : Allowed cs) (d : a.Describes (stateAfter cs) vars f eqs ineqs)
    (qs : Calls vars.length eqs.length ineqs.length) (hv : ∀ p ∈ qs, p.2.Available eqs ineqs) (x : List ℝ)
    (hx : x.length = vars.length) {j : ℕ} {lower : Bool} {t : Term} {ks : List ℕ}
    (hj : (stateAfter cs).hess[j]? = some (lower, t, ks)) (hs : t.Smooth (setReals (stateAfter cs).env vars x)) :
    result (a.solved cs qs x ++ [.hessValue j]) = some (.mat (List.ofFn fun r : Fin ks.length =>
      List.ofFn fun c : Fin ks.length => if lower = true ∧ r < c then 0
        else pderiv ks[c] (pderiv ks[r] t.eval) (setReals (stateAfter cs).env vars x))) := by
  obtain ⟨h1, -, -, h2, h3⟩ := solved_state h d qs hv x hx
  obtain ⟨vs, s, I, -, -⟩ := result_snoc h
  obtain ⟨H, -, ho⟩ := forall2_get I.hess j hj
  have v1 : Valid (.hessValue j) (stateAfter (a.solved cs qs x)) := get_lt_of (h2 j _ hj)
  obtain ⟨o, e, m, rfl, r⟩ := returns_last (c := .hessValue j) (allowed_snoc.mpr ⟨h1, v1⟩)
  rw [e, matIs_ofFn (r lower t ks (h2 j _ hj)) fun r c => if lower = true ∧ r < c then 0
        else pderiv ks[c] (pderiv ks[r] t.eval) (setReals (stateAfter cs).env vars x)]
  intro r c y hy
  have tv : (Term.pd ks[r] t).Vars (stateAfter cs).n := ho.2.tv _ (List.mem_map_of_mem (List.getElem_mem _))
  have kv : ks[c] < (stateAfter cs).n := ho.2.kv _ (List.getElem_mem _)
  rw [hy ks[r] ks[c] (List.getElem?_eq_getElem r.2) (List.getElem?_eq_getElem c.2)
    ((t.smooth_congr tv.2 h3).2 hs)]
  rw [Term.eval_congr (Term.pd ks[c] (Term.pd ks[r] t)) ⟨kv, tv⟩ h3]
  rfl

end Slp
