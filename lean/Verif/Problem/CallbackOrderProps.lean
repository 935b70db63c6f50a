import Verif.Problem.StatusProps

/-! C24 for `solve()`: which callbacks are called, in which order, and what a stop returns. -/

namespace Slp

open Classical

/-- The calls in groups, one for each iterate shown; the first part of a snapshot tells whether it is one of a
feasibility restoration. -/
structure CallbackProtocol (cbs : List Callback) (status : ExitStatus) (values : List Fl) (calls : List Call)
    (bs : Batches) : Prop where
  calls : calls = bs.calls
  ok : Batches.Ok cbs [] bs
  quiet : ∀ b ∈ bs, b.1.inner = false → (∃ c ∈ b.2, c.result = true) →
    status = .callbackRequestedStop ∧ bs.getLast? = some b
  stop : status = .callbackRequestedStop → ∃ b, bs.getLast? = some b ∧ b.1.inner = false ∧
    (∃ c ∈ b.2, c.result = true) ∧ b.1.info.x = values

theorem CallbackProtocol.nil {cbs : List Callback} {status : ExitStatus} {values : List Fl}
    (h : status ≠ .callbackRequestedStop) : CallbackProtocol cbs status values [] [] :=
  ⟨rfl, trivial, by simp, fun hs => absurd hs h⟩

/-- How the callbacks of a problem are called. -/
theorem solve_protocol {p : Problem} {ad : Autodiff} {env : Env} {opts : SolverOptions} (htol : 0 < opts.tolerance)
    {spy : Bool} {s s' : Store} (hok : p.Ok s) {o : p.Outcome} (h : p.solve ad env opts spy s = some (o, s')) :
    ∃ bs, CallbackProtocol (p.allCallbacks spy) o.status (p.vars.map s'.val) o.calls bs := by
  obtain ⟨-, -, hw, -⟩ := solution_written hok h
  have hv (x : Vec p.vars.length) (hx : o.final = some x) : List.ofFn x = p.vars.map s'.val := by
    apply List.ext_getElem
    · simp
    · intro i h1 h2
      have := hw x hx ⟨i, by simpa using h2⟩
      simp only [List.getElem_ofFn, List.getElem_map]
      exact this.symm
  rcases solve_cases h with ⟨h1, rfl, h2⟩ | ⟨h1, h2, h3, r, hr, rfl, -⟩ | ⟨h1, h2, h3, r, hr, rfl, -⟩ |
    ⟨h1, h2, b, -, -, rfl, -⟩ | ⟨h1, h2, b, r, -, -, hr, rfl, -⟩
  · exact ⟨[], .nil (by simp [Outcome.status])⟩
  · obtain ⟨r', hr', -, -, -, ⟨bs, hbs⟩, -⟩ := newton_correct env opts (p.newtonNlp ad s) (p.allCallbacks spy) (p.guess s)
    obtain rfl := Option.some.inj (hr'.symm.trans hr)
    refine ⟨bs, hbs.calls, hbs.ok, fun b hb _ => hbs.quiet b hb, fun hst => ?_⟩
    obtain ⟨b, k1, k3, k4⟩ := hbs.stop hst
    exact ⟨b, k1, hbs.own b (List.mem_of_getLast? k1), k3, by rw [k4]; exact hv _ rfl⟩
  · obtain ⟨r', hr', -, -, -, -, ⟨bs, hbs⟩, -⟩ := sqp_correct_partial env opts (p.sqpNlp ad s)
      (p.allCallbacks spy) (p.guess s) htol
    obtain rfl := Option.some.inj (hr'.symm.trans hr)
    refine ⟨bs, hbs.calls, hbs.ok, hbs.quiet, fun hst => ?_⟩
    obtain ⟨b, k1, k2, k3, k4⟩ := hbs.stop hst
    exact ⟨b, k1, k2, k3, by rw [k4]; exact hv _ rfl⟩
  · exact ⟨[], .nil (by simp [Outcome.status])⟩
  · by_cases h0 : (p.eqs.map UserExpr.term).length ≤ p.vars.length ∧
        ((p.ipmNlp ad s).eval (p.guess s) (fun _ => 0) fun _ => 1).Finite
    · obtain ⟨df, de, di, hS⟩ := callbacks_scaling ad s.val p.vars p.objective.term (p.eqs.map UserExpr.term)
        (p.ineqs.map UserExpr.term) (p.guess s) h0.2.2.1 h0.2.2.2.2.2.1 h0.2.2.2.2.2.2.2
      have hSe : (p.ipmNlp ad s).scaling = .factors df de di := hS.eq
      have hSf : 0 < (p.ipmNlp ad s).scaling.f := by rw [hSe]; exact hS.f.1
      obtain ⟨bs, k1, k2, k3, k4, k5⟩ := ipm_callbacks_partial htol hSf hr
      refine ⟨bs, k2, k3, k4, fun hst => ?_⟩
      obtain ⟨b, l1, l2, l3, l4⟩ := k5 hst
      exact ⟨b, l1, l2, l3, by rw [l4]; exact hv _ rfl⟩
    · unfold interiorPoint ipmRun at hr
      simp only at hr
      by_cases hm : (p.eqs.map UserExpr.term).length > p.vars.length
      · rw [if_pos hm] at hr
        obtain rfl := Option.some.inj hr
        exact ⟨[], .nil (by simp [Outcome.status, IpmState.exit])⟩
      · rw [if_neg hm] at hr
        have hf : ¬ ((p.ipmNlp ad s).eval (p.guess s) (fun _ => 0) fun _ => 1).Finite := fun h => h0 ⟨not_lt.1 hm, h⟩
        rw [if_pos (by simpa [ipmInit] using hf)] at hr
        obtain rfl := Option.some.inj hr
        exact ⟨[], .nil (by simp [Outcome.status, IpmState.exit])⟩

/-- C24: the callbacks of a solve are those registered since callbacks were last cleared, then the persistent ones, each
in the order of registration, then that of the sparsity plots. At each iterate they are called in this order until one
returns true. If that happens at an iterate of the solver itself, no more callbacks are called, the status is
CALLBACK_REQUESTED_STOP, and the decision variables hold the iterate that was shown; and only then is that the status.
Missing: a callback that returns true during a feasibility restoration ends the restoration, not the solve
(`restoration_ignores_stop`). -/
theorem solve_callbacks_partial {cs cs1 cs2 : List ProblemCmd} (hcs : cs = cs1 ++ cs2)
    (hs : cs1 = [] ∨ ∃ cs0, cs1 = cs0 ++ [.clearCallbacks]) (hc : ∀ c ∈ cs2, c.isClear = false) {ad : Autodiff} {env : Env}
    {opts : SolverOptions} (htol : 0 < opts.tolerance) {spy : Bool} {s s' : Store} (hok : (Problem.after cs).1.Ok s)
    {o : (Problem.after cs).1.Outcome} (h : (Problem.after cs).1.solve ad env opts spy s = some (o, s')) :
    ∃ bs, CallbackProtocol
      (cs2.flatMap ProblemCmd.registers ++ cs.flatMap ProblemCmd.persists ++ if spy then [fun _ _ => false] else [])
      o.status ((Problem.after cs).1.vars.map s'.val) o.calls bs := by
  obtain ⟨-, -, -, hp1, hp2⟩ := program_builds cs
  have e : (Problem.after cs).1.allCallbacks spy =
      cs2.flatMap ProblemCmd.registers ++ cs.flatMap ProblemCmd.persists ++ if spy then [fun _ _ => false] else [] := by
    unfold Problem.allCallbacks
    rw [hp1 cs1 cs2 hcs hs hc, hp2]
  rw [← e]
  exact solve_protocol htol hok h

/-- Only the second ordinary callback is left; the persistent one, registered earlier, comes after it. -/
example (a b c : Callback) (ad : Autodiff) (env : Env) (opts : SolverOptions) (htol : 0 < opts.tolerance) (s' : Store)
    (o : (Problem.after [.variable, .addCallback a, .addPersistent c, .clearCallbacks, .addCallback b]).1.Outcome)
    (h : (Problem.after [.variable, .addCallback a, .addPersistent c, .clearCallbacks, .addCallback b]).1.solve ad env opts
      false (Problem.after [.variable, .addCallback a, .addPersistent c, .clearCallbacks, .addCallback b]).2 = some (o, s')) :
    ∃ bs, o.calls = Batches.calls bs ∧ Batches.Ok [b, c] [] bs := by
  obtain ⟨bs, h⟩ := solve_callbacks_partial
    (cs1 := [.variable, .addCallback a, .addPersistent c, .clearCallbacks]) (cs2 := [.addCallback b]) rfl
    (.inr ⟨[.variable, .addCallback a, .addPersistent c], rfl⟩) (by simp [ProblemCmd.isClear]) htol
    (variables_distinct _) h
  exact ⟨bs, h.calls, h.ok⟩

end Slp
