import Verif.Problem.ReportModel
import Verif.Problem.CallbackOrderProps
import Verif.Problem.DeclareProps
import Verif.Solver.DescentProps
import Verif.Problem.SolveExample

/-! C96: what `solve()` prints about the problem before it starts. -/

namespace Slp

open Classical

/-! ## Exit conditions -/

/-- A callback that stops the solve was registered: the one of the sparsity plots never does. -/
theorem stop_registered {p : Problem} {spy : Bool} {bs : Batches} (h : Batches.Ok (p.allCallbacks spy) [] bs)
    {b : Snapshot × List Call} (hb : b ∈ bs) {c : Call} (hc : c ∈ b.2) (hr : c.result = true) :
    p.callbacks ≠ [] ∨ p.persistent ≠ [] := by
  by_contra hn
  push Not at hn
  obtain ⟨before, hB⟩ := Batches.ok_mem h hb
  obtain ⟨i, hi, rfl⟩ := List.getElem_of_mem hc
  have hl : i < (p.allCallbacks spy).length := hi.trans_le hB.length
  have h1 := hB.results i hi hl
  have h2 : ∀ f ∈ p.allCallbacks spy, ∀ a b, f a b = false := by
    intro f hf
    unfold Problem.allCallbacks at hf
    rw [hn.1, hn.2] at hf
    cases spy <;> simp at hf
    subst hf
    intros
    rfl
  rw [h2 _ (List.getElem_mem hl)] at h1
  rw [h1] at hr
  exact absurd hr (by simp)

/-- A solve that ends with TIMEOUT measured a time above the limit. -/
theorem timeout_exceeded {p : Problem} {ad : Autodiff} {env : Env} {opts : SolverOptions} (htol : 0 < opts.tolerance)
    {spy : Bool} {s s' : Store} {o : p.Outcome} (h : p.solve ad env opts spy s = some (o, s'))
    (ho : o.status = .timeout) : ∃ t : ℝ, Fl.fin t > opts.timeout := by
  rcases solve_cases h with ⟨h1, rfl, h2⟩ | ⟨h1, h2, h3, r, hr, rfl, -⟩ | ⟨h1, h2, h3, r, hr, rfl, -⟩ |
    ⟨h1, h2, b, -, -, rfl, -⟩ | ⟨h1, h2, b, r, -, -, hr, rfl, -⟩
  · simp [Outcome.status] at ho
  · obtain ⟨r', hr', -, -, -, ⟨bs, hbs⟩, -⟩ := newton_correct env opts (p.newtonNlp ad s) (p.allCallbacks spy) (p.guess s)
    obtain rfl := Option.some.inj (hr'.symm.trans hr)
    obtain ⟨e, -, he⟩ := hbs.timeout ho
    exact ⟨_, he⟩
  · obtain ⟨r', hr', -, -, -, -, ⟨bs, hbs⟩, -⟩ := sqp_correct_partial env opts (p.sqpNlp ad s)
      (p.allCallbacks spy) (p.guess s) htol
    obtain rfl := Option.some.inj (hr'.symm.trans hr)
    obtain ⟨e, -, he⟩ := hbs.timeout ho
    exact ⟨_, he⟩
  · simp [Outcome.status] at ho
  · by_cases h0 : (p.eqs.map UserExpr.term).length ≤ p.vars.length ∧
        ((p.ipmNlp ad s).eval (p.guess s) (fun _ => 0) fun _ => 1).Finite
    · obtain ⟨df, de, di, hS⟩ := callbacks_scaling ad s.val p.vars p.objective.term (p.eqs.map UserExpr.term)
        (p.ineqs.map UserExpr.term) (p.guess s) h0.2.2.1 h0.2.2.2.2.2.1 h0.2.2.2.2.2.2.2
      have hSe : (p.ipmNlp ad s).scaling = .factors df de di := hS.eq
      have hSf : 0 < (p.ipmNlp ad s).scaling.f := by rw [hSe]; exact hS.f.1
      obtain ⟨t, -, ht⟩ := (ipm_timeout_partial htol hSf hr).1.1 ho
      exact ⟨t, ht⟩
    · unfold interiorPoint ipmRun at hr
      simp only at hr
      by_cases hm : (p.eqs.map UserExpr.term).length > p.vars.length
      · rw [if_pos hm] at hr
        obtain rfl := Option.some.inj hr
        simp [Outcome.status, IpmState.exit] at ho
      · rw [if_neg hm] at hr
        have hf : ¬ ((p.ipmNlp ad s).eval (p.guess s) (fun _ => 0) fun _ => 1).Finite := fun h => h0 ⟨not_lt.1 hm, h⟩
        rw [if_pos (by simpa [ipmInit] using hf)] at hr
        obtain rfl := Option.some.inj hr
        simp [Outcome.status, IpmState.exit] at ho

/-- **C96.** A solve ends for a configured reason only if that reason is among the exit conditions printed before it: the
tolerance, the request of a callback, the number of iterations, and the time, for time limits other than −∞. -/
theorem exit_conditions_listed {p : Problem} {ad : Autodiff} {env : Env} {opts : SolverOptions} (htol : 0 < opts.tolerance)
    {spy : Bool} {s s' : Store} (hok : p.Ok s) {o : p.Outcome} (h : p.solve ad env opts spy s = some (o, s')) :
    (o.status = .success → .errorBelow opts.tolerance ∈ p.exitConditions opts) ∧
      (o.status = .callbackRequestedStop → .callbackStop ∈ p.exitConditions opts) ∧
      (o.status = .maxIterationsExceeded → .executed opts.maxIterations ∈ p.exitConditions opts) ∧
      (o.status = .timeout → opts.timeout ≠ .ninf → .elapsed opts.timeout ∈ p.exitConditions opts) := by
  refine ⟨fun _ => ?_, fun ho => ?_, fun _ => ?_, fun ho hn => ?_⟩
  · simp [Problem.exitConditions]
  · obtain ⟨bs, hb⟩ := solve_protocol htol hok h
    obtain ⟨b, h1, -, ⟨c, hc, hr⟩, -⟩ := hb.stop ho
    have := stop_registered hb.ok (List.mem_of_getLast? h1) hc hr
    simp [Problem.exitConditions, this]
  · simp [Problem.exitConditions]
  · obtain ⟨t, ht⟩ := timeout_exceeded htol h ho
    have hf : opts.timeout.isFinite = true := by
      cases hv : opts.timeout with
      | fin a => rfl
      | ninf => exact absurd hv hn
      | pinf => rw [hv] at ht; exact absurd ht (by rintro ⟨⟩)
      | nan => rw [hv] at ht; exact absurd ht (by rintro ⟨⟩)
    simp [Problem.exitConditions, hf]

/-- **C96.** Each condition is printed at most once, and the callbacks and the time only if a callback is registered and the
time is limited. -/
theorem exit_conditions_apply (p : Problem) (opts : SolverOptions) :
    (.callbackStop ∈ p.exitConditions opts → ∃ c, c ∈ p.callbacks ++ p.persistent) ∧
      (∀ t, .elapsed t ∈ p.exitConditions opts → t = opts.timeout ∧ ∃ x, t = .fin x) ∧
      (p.exitConditions opts).Nodup := by
  unfold Problem.exitConditions
  refine ⟨fun h => ?_, fun t h => ?_, ?_⟩
  · by_cases hc : p.callbacks ≠ [] ∨ p.persistent ≠ []
    · rcases hc with hc | hc
      · obtain ⟨c, l, e⟩ := List.exists_cons_of_ne_nil hc
        exact ⟨c, by simp [e]⟩
      · obtain ⟨c, l, e⟩ := List.exists_cons_of_ne_nil hc
        exact ⟨c, by simp [e]⟩
    · exfalso
      rw [if_neg hc] at h
      split at h <;> simp at h
  · by_cases hf : opts.timeout.isFinite
    · rw [if_pos hf] at h
      have : t = opts.timeout := by split at h <;> simpa using h
      exact ⟨this, by rw [this]; exact Fl.isFinite_iff.1 hf⟩
    · rw [if_neg hf] at h
      exfalso
      split at h <;> simp at h
  · split <;> split <;> simp

/-! ## Problem structure -/

/-- The five classes, the simplest first. -/
def Ty.all : List Ty := [.none, .constant, .linear, .quadratic, .nonlinear]

/-- How a class of constraints is called. -/
def Ty.className : Ty → String
  | .none => "empty" | .constant => "constant" | .linear => "linear" | .quadratic => "quadratic" | .nonlinear => "nonlinear"

/-- How the class of the cost function, of the equality or of the inequality constraints is called. -/
def Ty.structureName : Ty → String
  | .none => "no" | t => t.className

theorem classCounts_eq (es : List UserExpr) : classCounts es = Ty.all.map fun t => es.countP fun e => e.ty = t := by
  induction es using List.reverseRecOn with
  | nil => simp [classCounts, Ty.all]
  | append_singleton es d ih =>
    have h : classCounts (es ++ [d]) = (classCounts es).modify d.ty.rank (· + 1) := by
      unfold classCounts
      rw [List.foldl_append]
      rfl
    rw [h, ih]
    cases hd : d.ty <;> simp [Ty.all, Ty.rank, List.countP_append, hd, List.modify_cons]

theorem counts_sum (es : List UserExpr) : (Ty.all.map fun t => es.countP fun e => e.ty = t).sum = es.length := by
  induction es with
  | nil => simp [Ty.all]
  | cons e es ih =>
    simp only [Ty.all, List.map_cons, List.map_nil, List.sum_cons, List.sum_nil, List.countP_cons,
      List.length_cons] at ih ⊢
    cases hd : e.ty <;> simp <;> omega

/-- **C96.** The lines below the number of constraints list the classes that occur, the simplest first, each with the number
of constraints of that class; the numbers add up to the number of constraints, and the class called the structure of the
constraints is the last one listed. -/
theorem classes_correct (es : List UserExpr) :
    classLines es = (Ty.all.filter fun t => ∃ e ∈ es, e.ty = t).map (fun t => (es.countP fun e => e.ty = t, t.className)) ∧
      ((classLines es).map Prod.fst).sum = es.length ∧
      (es ≠ [] → (classLines es).getLast?.map Prod.snd = some (maxType es).className) := by
  have h1 : classLines es = (Ty.all.filter fun t => ∃ e ∈ es, e.ty = t).map
      (fun t => (es.countP fun e => e.ty = t, t.className)) := by
    have hz : (classCounts es).zip classNames = Ty.all.map fun t => (es.countP fun e => e.ty = t, t.className) := by
      rw [classCounts_eq]
      rfl
    unfold classLines
    rw [hz, List.filter_map]
    congr 1
    apply List.filter_congr
    intro t _
    simp [List.countP_pos_iff]
  refine ⟨h1, ?_, fun hne => ?_⟩
  · have hs : ∀ l : List (ℕ × String), ((l.filter fun x => x.1 > 0).map Prod.fst).sum = (l.map Prod.fst).sum := by
      intro l
      induction l with
      | nil => rfl
      | cons a l ih =>
        by_cases ha : a.1 > 0
        · rw [List.filter_cons_of_pos (by simpa using ha), List.map_cons, List.map_cons, List.sum_cons, List.sum_cons, ih]
        · rw [List.filter_cons_of_neg (by simpa using ha), ih, List.map_cons, List.sum_cons]
          omega
    unfold classLines
    rw [hs, List.map_fst_zip (by rw [classCounts_eq]; simp [Ty.all, classNames]), classCounts_eq, counts_sum]
  · obtain ⟨⟨e, he, hm⟩, hle⟩ := (maxType_correct es).2 hne
    rw [h1, List.getLast?_map, Option.map_map]
    have hcase : ∀ t : Ty, (maxType es).rank < t.rank → ¬ ∃ e ∈ es, e.ty = t := by
      rintro t ht ⟨e', he', rfl⟩
      exact absurd (hle e' he') (not_le.2 ht)
    have hmem : ∃ e ∈ es, e.ty = maxType es := ⟨e, he, hm.symm⟩
    have hl : (Ty.all.filter fun t => ∃ e ∈ es, e.ty = t).getLast? = some (maxType es) := by
      generalize maxType es = M at hcase hmem
      have e1 : ∃ a b, Ty.all = a ++ M :: b ∧ ∀ t ∈ b, M.rank < t.rank := by
        cases M
        · exact ⟨[], [.constant, .linear, .quadratic, .nonlinear], rfl, by decide⟩
        · exact ⟨[.none], [.linear, .quadratic, .nonlinear], rfl, by decide⟩
        · exact ⟨[.none, .constant], [.quadratic, .nonlinear], rfl, by decide⟩
        · exact ⟨[.none, .constant, .linear], [.nonlinear], rfl, by decide⟩
        · exact ⟨[.none, .constant, .linear, .quadratic], [], rfl, by simp⟩
      obtain ⟨a, b, e1, hb⟩ := e1
      have hn : (b.filter fun t => ∃ e ∈ es, e.ty = t) = [] :=
        List.filter_eq_nil_iff.2 fun t ht => by simpa using hcase t (hb t ht)
      rw [e1, List.filter_append, List.filter_cons_of_pos (by simpa using hmem), hn]
      simp
    rw [hl]
    rfl

/-- **C96.** The report on a problem: the classes named first are those the problem reports through its functions. -/
theorem analysis_correct (p : Problem) :
    p.analysis.cost = p.costType.structureName ∧ p.analysis.equality = p.eqType.structureName ∧
      p.analysis.inequality = p.ineqType.structureName ∧ p.analysis.numVariables = p.vars.length ∧
      p.analysis.equalities = p.eqs.length ∧ p.analysis.inequalities = p.ineqs.length ∧
      p.analysis.equalityClasses = classLines p.eqs ∧ p.analysis.inequalityClasses = classLines p.ineqs := by
  have h (t : Ty) : structureNames[t.rank]?.getD "?" = t.structureName := by cases t <;> rfl
  exact ⟨h _, h _, h _, rfl, rfl, rfl, rfl, rfl⟩

/-! ## Conflicting bounds -/

/-- **C96.** If a solve ends with GLOBALLY_INFEASIBLE, lines about conflicting bounds are printed, and each names two
inequality constraints, counted from 0, such that the first is a lower bound on a decision variable that is greater than
the upper bound on the same variable that the second is. -/
theorem conflict_lines_correct {p : Problem} {ad : Autodiff} {env : Env} {opts : SolverOptions} {spy : Bool}
    {s s' : Store} {o : p.Outcome} (htol : 0 < opts.tolerance) (h : p.solve ad env opts spy s = some (o, s'))
    (hok : p.Ok s) (hv : AllFinite s.val) (hlin : ∀ e ∈ p.ineqs, e.ty = .linear → LinearOk ad p.vars e.term)
    (hst : o.status = .globallyInfeasible) :
    p.conflictLines ad s ≠ [] ∧ ∀ l ∈ p.conflictLines ad s, ∃ (i i' : ℕ) (e e' : UserExpr), l = (↑i, ↑i') ∧
      p.ineqs[i]? = some e ∧ p.ineqs[i']? = some e' ∧ ∃ v ∈ p.vars, ∃ lower upper : ℝ, upper < lower ∧
        ∀ w : ℕ → ℝ, (∀ k, k ∉ p.vars → w k = reals s.val k) →
          (0 ≤ e.term.eval w ↔ lower ≤ w v) ∧ (0 ≤ e'.term.eval w ↔ w v ≤ upper) := by
  obtain rfl := (solve_statuses htol h).2.1.1 hst
  rcases solve_cases h with ⟨-, h1, -⟩ | ⟨-, -, -, r, -, h1, -⟩ | ⟨-, -, -, r, -, h1, -⟩ | ⟨-, -, b, hb, hc, -, -⟩ |
    ⟨-, -, b, r, -, -, -, h1, -⟩
  · cases h1
  · cases h1
  · cases h1
  · have hl : p.conflictLines ad s = b.1.conflicts := by rw [Problem.conflictLines, hb]; rfl
    rw [hl]
    refine ⟨hc, fun q hq => ?_⟩
    unfold Problem.bounds at hb
    rw [guess_fin hv] at hb
    have hs : ∀ c ∈ p.ineqs.map (boundConstraint ad s.val p.vars), Bounds.Sound p.vars.length c := by
      intro c hc
      obtain ⟨e, he, rfl⟩ := List.mem_map.1 hc
      exact boundConstraint_sound hok.nodup (hlin e he) hv
    obtain ⟨r', hr, -, -, -, -, -, hp⟩ := Bounds.bounds_tight hs
      (fun j => if h : j < p.vars.length then reals s.val p.vars[j] else 0)
    obtain rfl := Option.some.inj (hb.symm.trans hr)
    obtain ⟨i, i', c, c', j, a, b, a', b', hqe, h1, h2, h3, h4, h5, h6, h7⟩ := hp q hq
    rw [List.getElem?_map] at h1 h2
    obtain ⟨e, he, rfl⟩ := Option.map_eq_some_iff.1 h1
    obtain ⟨e', he', rfl⟩ := Option.map_eq_some_iff.1 h2
    have hty : e.ty = .linear := by simpa [boundConstraint] using h3.1
    have hty' : e'.ty = .linear := by simpa [boundConstraint] using h4.1
    have hj : j < p.vars.length := by
      have : (j, Fl.fin a) ∈ (boundConstraint ad s.val p.vars e).row := by rw [h3.2.1]; simp
      unfold boundConstraint at this
      simp only [List.mem_filterMap] at this
      obtain ⟨q, -, hq⟩ := this
      by_cases hst : ad.stored e.term p.vars[q]
      · rw [if_pos hst] at hq
        have := congrArg Prod.fst (Option.some.inj hq)
        simp only at this
        omega
      · rw [if_neg hst] at hq; cases hq
    have key (e : UserExpr) (he : e ∈ p.ineqs) (hty : e.ty = .linear) (a b : ℝ)
        (hb : Bounds.IsBound (boundConstraint ad s.val p.vars e) j a b) (w : ℕ → ℝ)
        (hw : ∀ k, k ∉ p.vars → w k = reals s.val k) : e.term.eval w = a * w p.vars[j] + b := by
      have := hb.2.2.2 fun i => if h : i < p.vars.length then w p.vars[i] else 0
      rw [boundConstraint_value (hlin e he hty) hv, dif_pos hj] at this
      rw [← Fl.fin.inj this]
      congr 1
      funext k
      obtain ⟨hx1, hx2⟩ := reals_assign hok.nodup s.val fun i => if h : i < p.vars.length then w p.vars[i] else 0
      by_cases hk : k ∈ p.vars
      · obtain ⟨i, hi, rfl⟩ := List.getElem_of_mem hk
        rw [hx2 i hi, dif_pos hi]
      · rw [hx1 k hk, hw k hk]
    refine ⟨i, i', e, e', hqe, he, he', p.vars[j], List.getElem_mem hj, -b / a, -b' / a', h7, fun w hw => ⟨?_, ?_⟩⟩
    · rw [key e (List.mem_of_getElem? he) hty a b h3 w hw, Bounds.lower_iff h5]
    · rw [key e' (List.mem_of_getElem? he') hty' a' b' h4 w hw, Bounds.upper_iff h6]
  · cases h1

/-- The hypotheses hold of a problem with a lower bound of 1 and an upper bound of 0. -/
example (env : Env) (opts : SolverOptions) (htol : 0 < opts.tolerance) :
    clashProblem.conflictLines storeAll ⟨1, fun _ => .fin 7⟩ ≠ [] := by
  obtain ⟨o, s', h, hst⟩ := clash_infeasible env opts htol
  have hok : clashProblem.Ok ⟨1, fun _ => .fin 7⟩ := ⟨by simp [clashProblem], by simp [clashProblem]⟩
  refine (conflict_lines_correct htol h hok (fun _ => rfl) ?_ hst).1
  intro e he _
  simp only [clashProblem, List.mem_cons, List.not_mem_nil, or_false] at he
  rcases he with rfl | rfl
  · exact lower_ok
  · exact upper_ok

/-- Three constraints of two classes. -/
example : classLines [⟨.var 0, .linear⟩, ⟨.bin .mul (.var 0) (.var 1), .quadratic⟩, ⟨.var 1, .linear⟩] =
    [(2, "linear"), (1, "quadratic")] := by decide

/-- The hypotheses of `exit_conditions_listed` hold of a solve that ends with SUCCESS. -/
example (ad : Autodiff) (env : Env) : ∃ o s', squareUser.Ok squareStore ∧
    squareUser.solve ad env ⟨2, 100, .fin 5, false⟩ false squareStore = some (o, s') ∧
    (o.status = .timeout → .elapsed (.fin 5) ∈ squareUser.exitConditions ⟨2, 100, .fin 5, false⟩) := by
  obtain ⟨hok, o, s', h, -⟩ := square_solved ad env 100 (.fin 5)
  exact ⟨o, s', hok, h, fun ho => (exit_conditions_listed (by norm_num) hok h).2.2.2 ho (by simp)⟩

end Slp
