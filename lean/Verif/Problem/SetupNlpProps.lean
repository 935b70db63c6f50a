import Verif.Problem.SetupProps

/-!
C47: the problem that the models of the solvers are given (`matrixCallbacks`) is the one that the matrix callbacks compute
with the autodiff API. Also a concrete program that meets the hypotheses of C47 and C50.
-/

namespace Slp

variable {cs : List (Cmd ℝ)} {a : SolveArgs} {vars : List ℕ} {f : Term} {eqs ineqs : List Term}

/-- A vector of finite numbers. -/
def finVec {n : ℕ} (x : Fin n → ℝ) : Vec n := fun i => .fin (x i)

/-- What a solver is told when it calls a matrix callback. (`Hc` is called in restoration only, where its result has no
effect: see `restoration_hessian_wrong`. The models of the solvers do not have it.) -/
def Nlp.reply {n m k : ℕ} (P : Nlp n m k) : Request n m k → Option (List (List Fl))
  | .f x => some [[P.f (finVec x)]]
  | .g x => some [List.ofFn (P.g (finVec x))]
  | .H x y z => some (List.ofFn fun i => List.ofFn (P.H (finVec x) (finVec y) (finVec z) i))
  | .Hc _ _ _ => none
  | .ce x => some (List.ofFn fun i => [P.ce (finVec x) i])
  | .Ae x => some (List.ofFn fun i => List.ofFn (P.Ae (finVec x) i))
  | .ci x => some (List.ofFn fun i => [P.ci (finVec x) i])
  | .Ai x => some (List.ofFn fun i => List.ofFn (P.Ai (finVec x) i))

theorem AllSmooth.defined {n m k : ℕ} {r : ℕ → ℝ} (hs : AllSmooth f eqs ineqs r) (q : Request n m k) :
    q.Defined f eqs ineqs r := by
  cases q with
  | f => exact f.smooth_dom hs.f
  | g => exact hs.f
  | H => exact hs
  | Hc => exact hs
  | ce => exact fun t ht => t.smooth_dom (hs.eqs t ht)
  | Ae => exact hs.eqs
  | ci => exact fun t ht => t.smooth_dom (hs.ineqs t ht)
  | Ai => exact hs.ineqs

/-- What a callback must return depends on the first `n` variables only. -/
theorem Below.expected {n : ℕ} (B : Below n vars f eqs ineqs) (S : Factors eqs.length ineqs.length)
    (q : Request vars.length eqs.length ineqs.length) {v w : ℕ → ℝ} (h : ∀ i, i < n → v i = w i)
    (hs : AllSmooth f eqs ineqs v) : q.expected vars f eqs ineqs S v = q.expected vars f eqs ineqs S w := by
  have pd : ∀ (t : Term), t.Vars n → ∀ j : Fin vars.length, pderiv vars[j] t.eval v = pderiv vars[j] t.eval w :=
    fun t ht j => Term.eval_congr (Term.pd vars[j] t) ⟨B.vars _ (List.getElem_mem _), ht⟩ h
  have he : ∀ i : Fin eqs.length, eqs[i].Vars n := fun i => B.eqs _ (List.getElem_mem _)
  have hi : ∀ i : Fin ineqs.length, ineqs[i].Vars n := fun i => B.ineqs _ (List.getElem_mem _)
  have hess : ∀ (df : ℝ) (ye : Fin eqs.length → ℝ) (zi : Fin ineqs.length → ℝ),
      lowerHessian vars (Slp.lagrangian df f eqs ineqs ye zi) v = lowerHessian vars (Slp.lagrangian df f eqs ineqs ye zi) w := by
    intro df ye zi
    unfold lowerHessian
    congr 1
    funext i
    congr 1
    funext j
    rw [B.lagrangian (k := vars[i]) (l := vars[j]) (B.vars _ (List.getElem_mem _)) (B.vars _ (List.getElem_mem _)) h hs]
  cases q with
  | f => simp only [Request.expected, f.eval_congr B.f h]
  | g => simp only [Request.expected, pd f B.f]
  | H => exact hess _ _ _
  | Hc => exact hess _ _ _
  | ce =>
    simp only [Request.expected]
    congr 1
    funext i
    rw [Term.eval_congr eqs[i] (he i) h]
  | Ae =>
    simp only [Request.expected]
    congr 1
    funext i
    congr 1
    funext j
    rw [pd _ (he i)]
  | ci =>
    simp only [Request.expected]
    congr 1
    funext i
    rw [Term.eval_congr ineqs[i] (hi i) h]
  | Ai =>
    simp only [Request.expected]
    congr 1
    funext i
    congr 1
    funext j
    rw [pd _ (hi i)]

theorem map_fin_ofFn {p q : ℕ} (G : Fin p → Fin q → ℝ) (F : Fin p → Fin q → Fl) (h : ∀ i j, F i j = .fin (G i j)) :
    (List.ofFn fun i => List.ofFn (F i)) = (List.ofFn fun i => List.ofFn (G i)).map (List.map Fl.fin) := by
  rw [map_ofFn']
  congr 1
  funext i
  rw [map_ofFn']
  congr 1
  funext j
  exact h i j

/-- The model's callbacks return what they must. -/
theorem nlp_expected (ad : Autodiff) (v : ℕ → ℝ) (x0 : Vec vars.length) (S : Factors eqs.length ineqs.length)
    (hP : (matrixCallbacks ad (fun k => .fin (v k)) vars f eqs ineqs x0).scaling = .factors S.f S.ce S.ci)
    (q : Request vars.length eqs.length ineqs.length)
    (hs : AllSmooth f eqs ineqs (setReals v vars (List.ofFn q.point))) (B : List (List Fl))
    (hB : (matrixCallbacks ad (fun k => .fin (v k)) vars f eqs ineqs x0).reply q = some B) :
    B = (q.expected vars f eqs ineqs S (setReals v vars (List.ofFn q.point))).map (List.map Fl.fin) := by
  have ea : assign (fun k => .fin (v k)) vars (List.ofFn (finVec q.point)) =
      fun k => .fin (setReals v vars (List.ofFn q.point) k) := by
    rw [← assign_reals, map_ofFn']; rfl
  have er : reals (assign (fun k => .fin (v k)) vars (List.ofFn (finVec q.point))) =
      setReals v vars (List.ofFn q.point) := by
    rw [ea]; rfl
  have hc := callbacks_values ad (fun k => .fin (v k)) vars f eqs ineqs x0 hP (finVec q.point)
    (by rw [ea]; exact fun _ => rfl)
  rw [er] at hc
  obtain ⟨h1, h2, h3, h4, h5, h6, h7⟩ := hc hs
  cases q with
  | f x =>
    have := Option.some.inj hB
    rw [← this]
    exact congrArg (fun u => [[u]]) h1
  | g x =>
    have := Option.some.inj hB
    rw [← this]
    simp only [Request.expected, List.map_cons, List.map_nil]
    rw [map_ofFn']
    exact congrArg (fun u => [List.ofFn u]) (funext h2)
  | H x y z =>
    have := Option.some.inj hB
    rw [← this]
    exact map_fin_ofFn _ _ fun i j => (h7 y z i j).trans (by split <;> rfl)
  | Hc x y z => simp [Nlp.reply] at hB
  | ce x =>
    have := Option.some.inj hB
    rw [← this]
    simp only [Request.expected]
    rw [map_ofFn']
    exact congrArg List.ofFn (funext fun i => congrArg (fun u => [u]) (h3 i))
  | Ae x =>
    have := Option.some.inj hB
    rw [← this]
    exact map_fin_ofFn _ _ h4
  | ci x =>
    have := Option.some.inj hB
    rw [← this]
    simp only [Request.expected]
    rw [map_ofFn']
    exact congrArg List.ofFn (funext fun i => congrArg (fun u => [u]) (h5 i))
  | Ai x =>
    have := Option.some.inj hB
    rw [← this]
    exact map_fin_ofFn _ _ h6

/-- C47: during `solve()`, after any calls `qs` of callbacks, the API calls of a matrix callback return what the models of
the solvers are told, where the expressions are smooth. -/
theorem api_matches_model (h : Allowed cs) (d : a.Describes (stateAfter cs) vars f eqs ineqs)
    (qs : Calls vars.length eqs.length ineqs.length) (hqs : ∀ p ∈ qs, p.2.Available eqs ineqs)
    (S : Factors eqs.length ineqs.length) (ad : Autodiff) (x0 : Vec vars.length)
    (hP : (matrixCallbacks ad (fun k => .fin ((stateAfter cs).env k)) vars f eqs ineqs x0).scaling =
      .factors S.f S.ce S.ci)
    (q : Request vars.length eqs.length ineqs.length) (hv : q.Available eqs ineqs)
    (hs : AllSmooth f eqs ineqs (setReals (stateAfter cs).env vars (List.ofFn q.point))) (B : List (List Fl))
    (hB : (matrixCallbacks ad (fun k => .fin ((stateAfter cs).env k)) vars f eqs ineqs x0).reply q = some B) :
    ∃ os s os' s' A, run (a.started cs ++ qs.cmds a (stateAfter cs).sizes) Api.empty = some (os, s) ∧
      run (q.cmds a (stateAfter cs).sizes S) s = some (os', s') ∧ q.answer S os' = some A ∧
      B = A.map (List.map Fl.fin) := by
  obtain ⟨-, l2, l3⟩ := d.lengths
  obtain ⟨s1, R, -, senv, -⟩ := d.setup_ok
  obtain ⟨c1, w, c2, hw⟩ := calls_ok R l2 l3 qs hqs
  have hall : Allowed (a.started cs ++ qs.cmds a (stateAfter cs).sizes) := by
    unfold SolveArgs.started
    rw [List.append_assoc]
    exact allowed_append.2 ⟨h, (validAll_append _ _ _).2 ⟨s1, c1⟩⟩
  have hst : stateAfter (a.started cs ++ qs.cmds a (stateAfter cs).sizes) =
      { (stateAfter cs).after (a.setup (stateAfter cs).sizes) with env := w } := by
    rw [after_started]; exact c2
  have hag : ∀ i, i < (stateAfter cs).n → setReals (stateAfter cs).env vars (List.ofFn q.point) i =
      setReals w vars (List.ofFn q.point) i := fun i hi =>
    setReals_congr vars d.nodup (by simp) fun hiv => by rw [hw i hi hiv, senv i hi]
  have R' := R.env w
  obtain ⟨os, s, e1, -, I⟩ := run_ok inv_empty _ hall
  have I' : Inv { (stateAfter cs).after (a.setup (stateAfter cs).sizes) with env := w } s := by rw [← hst]; exact I
  obtain ⟨os', s', e2, r, -⟩ := run_ok I' _ (request_valid R' l2 l3 S q hv).1
  have hs' := (d.below h).allSmooth hag hs
  have ans := request_ok R' (d.below h) l2 l3 S q hv os' r (hs'.defined q)
  refine ⟨os, s, os', s', _, e1, e2, ans, ?_⟩
  rw [nlp_expected ad _ x0 S hP q hs B hB, (d.below h).expected S q hag hs]

/-! ### A concrete program -/

/-- `Variable x, y; Variable p = x * y; Variable q = x - y; x.set_value(3);` The problem is to minimise `p` subject to
`q == 0` and `y >= 0`. -/
def setupDemo : List (Cmd ℝ) := [.decl, .decl, .bin .mul 0 1, .bin .sub 0 1, .setValue 0 3, .jac [2] [0, 1]]

/-- Its problem. -/
def setupDemoArgs : SolveArgs := ⟨[0, 1], some 2, [3], [1]⟩

theorem setupDemo_state : (stateAfter setupDemo).terms =
      [.var 0, .var 1, .bin .mul (.var 0) (.var 1), .bin .sub (.var 0) (.var 1)] ∧
    (stateAfter setupDemo).jacs = [([.bin .mul (.var 0) (.var 1)], [0, 1])] ∧ (stateAfter setupDemo).env 0 = 3 ∧
    (stateAfter setupDemo).n = 2 := by
  simp [stateAfter, Spec.after, setupDemo, Spec.next, Spec.empty, Term.varOf, Spec.exprs, Spec.vars]

theorem setupDemo_allowed : Allowed setupDemo := by
  simp [Allowed, setupDemo, ValidAll, Valid, Spec.next, Spec.empty, Term.varOf, Spec.WrtOK, Spec.vars]

theorem setupDemo_describes : setupDemoArgs.Describes (stateAfter setupDemo) [0, 1] (.bin .mul (.var 0) (.var 1))
    [.bin .sub (.var 0) (.var 1)] [.var 1] := by
  obtain ⟨h1, -⟩ := setupDemo_state
  constructor
  · exact .cons (by rw [h1]; rfl) (.cons (by rw [h1]; rfl) .nil)
  · simp
  · show (stateAfter setupDemo).terms[2]? = _
    rw [h1]; rfl
  · exact .cons (by rw [h1]; rfl) .nil
  · exact .cons (by rw [h1]; rfl) .nil

/-- The hypotheses of `api_callbacks_correct`: the Hessian of the Lagrangian, after the gradient has been asked for. -/
example : ∃ os s os' s', run (setupDemoArgs.started setupDemo ++
      (Request.g (n := 2) (m := 1) (k := 1) ![1, 2]).cmds setupDemoArgs (stateAfter setupDemo).sizes ⟨1, 1, 1⟩)
      Api.empty = some (os, s) ∧
    run ((Request.H (n := 2) (m := 1) (k := 1) ![5, 7] 1 1).cmds setupDemoArgs (stateAfter setupDemo).sizes
      ⟨1, 1, 1⟩) s = some (os', s') ∧
    ∃ A, (Request.H (n := 2) (m := 1) (k := 1) ![5, 7] 1 1).answer ⟨1, 1, 1⟩ os' = some A := by
  obtain ⟨s1, R, -⟩ := setupDemo_describes.setup_ok
  have hv := request_valid R rfl rfl ⟨1, 1, 1⟩ (.g ![1, 2]) trivial
  obtain ⟨os, s, os', s', e1, e2, e3⟩ := api_callbacks_correct setupDemo_allowed setupDemo_describes
    (ds := (Request.g (n := 2) (m := 1) (k := 1) ![1, 2]).cmds setupDemoArgs (stateAfter setupDemo).sizes ⟨1, 1, 1⟩)
    (allowed_append.2 ⟨setup_allowed setupDemo_allowed setupDemo_describes, by
      have e : stateAfter (setupDemoArgs.started setupDemo) =
        (stateAfter setupDemo).after (setupDemoArgs.setup (stateAfter setupDemo).sizes) := by
        have := after_started (a := setupDemoArgs) (cs := setupDemo) []
        rwa [List.append_nil] at this
      rw [e]; exact hv.1⟩)
    (by
      intro c hc i _
      simp only [Request.cmds, setAll, List.mem_append, List.mem_singleton] at hc
      rcases hc with hc | rfl
      · simp [SolveArgs.xAd, setupDemoArgs, List.range', List.ofFn_succ] at hc
        rcases hc with rfl | rfl <;> exact id
      · exact id)
    ⟨1, 1, 1⟩ (.H ![5, 7] 1 1) trivial
    ⟨by simp [Term.Smooth, BinOp.Smooth], by simp [Term.Smooth, BinOp.Smooth], by simp [Term.Smooth]⟩
  exact ⟨os, s, os', s', e1, e2, _, e3⟩

/-- The hypotheses of C50: after a solve that ends at `(4, 6)`, the cost is 24. -/
example : result (setupDemoArgs.solved (n := 2) (m := 1) (k := 1) setupDemo [(⟨1, 1, 1⟩, .Ai ![0, 0]), (⟨1, 2, 3⟩, .H ![1, 2] 3 4)] [4, 6] ++
    [.value 2]) = some (.num 24) := by
  obtain ⟨h1, -⟩ := setupDemo_state
  have := value_after_solve setupDemo_allowed setupDemo_describes
    [(⟨1, 1, 1⟩, .Ai ![0, 0]), (⟨1, 2, 3⟩, .H ![1, 2] 3 4)]
    (by simp [Request.Available]) [4, 6] rfl (i := 2) (by rw [h1]; rfl) (by simp [Term.Dom, BinOp.Dom])
  rw [this]
  simp [Term.eval, BinOp.eval, setReals]
  norm_num

/-- And the gradient of the cost, which the program has made before, is `(6, 4)`. -/
example : result (setupDemoArgs.solved (n := 2) (m := 1) (k := 1) setupDemo [(⟨1, 1, 1⟩, .Ai ![0, 0])] [4, 6] ++ [.jacValue 0]) =
    some (.mat [[6, 4]]) := by
  obtain ⟨-, h1, -⟩ := setupDemo_state
  have := jacobian_after_solve setupDemo_allowed setupDemo_describes [(⟨1, 1, 1⟩, .Ai ![0, 0])]
    (by simp [Request.Available]) [4, 6] rfl (j := 0) (ts := [.bin .mul (.var 0) (.var 1)]) (ks := [0, 1])
    (by rw [h1]; rfl) (by simp [Term.Smooth, BinOp.Smooth])
  rw [this]
  simp [Term.eval, BinOp.eval, setReals, pderiv, List.ofFn_succ]

end Slp
