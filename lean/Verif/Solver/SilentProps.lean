import Verif.Solver.SilentLemmas
import Verif.Problem.StatusProps

/-! C86: callbacks that do not stop the solver do not change it. -/

namespace Slp

open Classical

variable {n m k : ℕ} {v v' : List Call → List Call}

/-! ### Lists of callbacks -/

theorem runRegistered_any {info : Info} {stop : Callback → Bool} : ∀ {cbs : List Callback},
    (∀ cb ∈ cbs, ∀ calls, cb calls info = stop cb) → ∀ i calls, (runRegistered info i cbs calls).2 = cbs.any stop
  | [], _, _, _ => rfl
  | cb :: cbs, h, i, calls => by
    rw [runRegistered, h cb (by simp), List.any_cons]
    cases hs : stop cb with
    | true => simp
    | false =>
      rw [if_neg (by simp), Bool.false_or]
      exact runRegistered_any (fun c hc => h c (by simp [hc])) _ _

/-- Callbacks whose decisions depend on the iterate only decide alike if some callback of one list stops exactly where some
callback of the other does. -/
theorem decideAlike_of_any {cbs cbs' : List Callback} (stop stop' : Callback → Info → Bool)
    (h : ∀ cb ∈ cbs, ∀ calls info, cb calls info = stop cb info) (h' : ∀ cb ∈ cbs', ∀ calls info, cb calls info = stop' cb info)
    (ha : ∀ info, (cbs.any fun cb => stop cb info) = cbs'.any fun cb => stop' cb info) :
    DecideAlike (fun _ => []) (fun _ => []) cbs cbs' := by
  intro info calls calls' _
  rw [runRegistered_any (stop := fun cb => stop cb info) fun cb hcb calls => h cb hcb calls info,
    runRegistered_any (stop := fun cb => stop' cb info) fun cb hcb calls => h' cb hcb calls info, ha]
  exact ⟨rfl, rfl⟩

/-- Callbacks that never stop the solver decide as none. -/
theorem decideAlike_none {cbs : List Callback} (h : ∀ cb ∈ cbs, ∀ calls info, cb calls info = false) :
    DecideAlike (fun _ => []) (fun _ => []) cbs [] :=
  decideAlike_of_any (fun _ _ => false) (fun _ _ => false) h (by simp) fun info => by simp

/-- The calls of the first `N` callbacks. -/
def firstCalls (N : ℕ) (calls : List Call) : List Call := calls.filter (·.index < N)

theorem runRegistered_first {info : Info} {N : ℕ} : ∀ (i : ℕ) (cbs rest : List Callback) (calls : List Call), i + cbs.length = N →
    (∀ cb ∈ cbs, ∀ calls info, cb calls info = cb (firstCalls N calls) info) → (∀ cb ∈ rest, ∀ calls info, cb calls info = false) →
    firstCalls N (runRegistered info i (cbs ++ rest) calls).1 = (runRegistered info i cbs (firstCalls N calls)).1 ∧
      (runRegistered info i (cbs ++ rest) calls).2 = (runRegistered info i cbs (firstCalls N calls)).2
  | i, [], rest, calls, hi, _, hr => by
    rw [List.nil_append]
    show _ = firstCalls N calls ∧ _ = false
    have hi : N ≤ i := by simp at hi; omega
    clear * - hi hr
    induction rest generalizing i calls with
    | nil => exact ⟨rfl, rfl⟩
    | cons cb rest ih =>
      rw [runRegistered, hr cb (by simp), if_neg (by simp)]
      obtain ⟨h1, h2⟩ := ih (i + 1) (calls ++ [⟨i, info, false⟩]) (fun c hc => hr c (by simp [hc])) (by omega)
      refine ⟨h1.trans ?_, h2⟩
      simp only [firstCalls, List.filter_append, List.filter_singleton]
      rw [decide_eq_false (by omega)]
      simp
  | i, cb :: cbs, rest, calls, hi, hc, hr => by
    have hlt : i < N := by simp at hi; omega
    have hf : ∀ b, firstCalls N (calls ++ [⟨i, info, b⟩]) = firstCalls N calls ++ [⟨i, info, b⟩] := fun b => by
      simp only [firstCalls, List.filter_append, List.filter_singleton]
      rw [decide_eq_true hlt]
      rfl
    rw [List.cons_append, runRegistered, runRegistered, hc cb (by simp) calls]
    split
    · exact ⟨hf true, rfl⟩
    · rw [← hf false]
      exact runRegistered_first (i + 1) cbs rest _ (by simp at hi; omega) (fun c h => hc c (by simp [h])) hr

/-- Further callbacks that never stop the solver, after callbacks that do not know of them. -/
theorem decideAlike_append {cbs rest : List Callback}
    (hc : ∀ cb ∈ cbs, ∀ calls info, cb calls info = cb (firstCalls cbs.length calls) info)
    (hr : ∀ cb ∈ rest, ∀ calls info, cb calls info = false) : DecideAlike (firstCalls cbs.length) id (cbs ++ rest) cbs := by
  intro info calls calls' h
  obtain rfl : firstCalls cbs.length calls = calls' := h
  exact runRegistered_first 0 cbs rest calls (by simp) hc hr

/-! ### Solvers -/

/-- C86: Newton's method does the same, with views of the calls. -/
theorem newton_silent (env : Env) (opts : SolverOptions) (P : Nlp n 0 0) {cbs cbs' : List Callback}
    (hc : DecideAlike v v' cbs cbs') (x : Vec n) {w w' : World} (hw : w.view v = w'.view v') :
    (newton env opts P cbs x w).map (NewtonResult.view v) = (newton env opts P cbs' x w').map (NewtonResult.view v') := by
  obtain ⟨cs, rfl, hv⟩ := World.view_eq hw
  unfold newton
  refine ite_view ?_ fun _ => newtonLoop_view env opts P hc _ _ _ (by exact World.view_mk rfl hv)
  exact congrArg (fun w => some (NewtonResult.mk _ _ _ w)) (World.view_mk rfl hv)

/-- C86: the SQP solver does the same. -/
theorem sqp_silent (env : Env) (opts : SolverOptions) (P : Nlp n m 0) {cbs cbs' : List Callback}
    (hc : DecideAlike v v' cbs cbs') (x : Vec n) {w w' : World} (hw : w.view v = w'.view v') :
    (sqp env opts P cbs x w).map (SqpResult.view v) = (sqp env opts P cbs' x w').map (SqpResult.view v') := by
  obtain ⟨cs, rfl, hv⟩ := World.view_eq hw
  unfold sqp sqpRun
  refine ite_view ?_ fun _ => ite_view ?_ fun _ => sqpLoop_view env opts P hc _ _ _ (by exact World.view_mk rfl hv)
  all_goals exact congrArg (fun w => some (SqpResult.mk _ _ _ _ w)) (World.view_mk rfl hv)

/-- C86: the interior-point solver does the same. -/
theorem interior_point_silent (env : Env) (opts : SolverOptions) (P : Nlp n m k) {cbs cbs' : List Callback}
    (hc : DecideAlike v v' cbs cbs') (x : Vec n) {w w' : World} (hw : w.view v = w'.view v') :
    (interiorPoint env opts P cbs x w).map (IpmResult.view v) = (interiorPoint env opts P cbs' x w').map (IpmResult.view v') := by
  unfold interiorPoint
  exact ipmRun_view env opts P hc _ _ (restoreIpm_alike env opts P hc) _ _ _ _ _ _ hw _

/-! ### `solve()` -/

/-- The outcome, with a view of the calls of callbacks. -/
def Outcome.view (v : List Call → List Call) : Outcome n m k → Outcome n m k
  | .noop => .noop
  | .conflict => .conflict
  | .newton r => .newton (r.view v)
  | .sqp r => .sqp (r.view v)
  | .ipm r => .ipm (r.view v)

/-- The problem with other callbacks. -/
def Problem.withCallbacks (p : Problem) (cs ps : List Callback) : Problem := { p with callbacks := cs, persistent := ps }

/-- C86: `solve()` with callbacks that decide alike: the same result and the same values of all variables. -/
theorem silent_solve (p : Problem) {cs ps cs' ps' : List Callback} {spy spy' : Bool}
    (hc : DecideAlike v v' ((p.withCallbacks cs ps).allCallbacks spy) ((p.withCallbacks cs' ps').allCallbacks spy'))
    (hv : v [] = v' []) (ad : Autodiff) (env : Env) (opts : SolverOptions) (s : Store) :
    ((p.withCallbacks cs ps).solve ad env opts spy s).map (fun r => (Outcome.view v r.1, r.2)) =
      ((p.withCallbacks cs' ps').solve ad env opts spy' s).map fun r => (Outcome.view v' r.1, r.2) := by
  have hw : World.start.view v = World.start.view v' := by simp only [World.view, World.start, hv]
  have h1 := newton_silent env opts (p.newtonNlp ad s) hc (p.guess s) hw
  have h2 := sqp_silent env opts (p.sqpNlp ad s) hc (p.guess s) hw
  have h3 := interior_point_silent env opts (p.ipmNlp ad s) hc (p.guess s) hw
  unfold Problem.solve
  refine ite_view rfl fun _ => ite_view ?_ fun _ => ite_view ?_ fun _ => bind_view (q := id) (q' := id) rfl fun b b' hb => ?_
  · refine map_view h1 fun r r' h => ?_
    exact Prod.ext (congrArg Outcome.newton h) (by exact (congrArg (fun r => s.write p.vars (List.ofFn (NewtonResult.x r))) h :))
  · refine map_view h2 fun r r' h => ?_
    exact Prod.ext (congrArg Outcome.sqp h) (by exact (congrArg (fun r => s.write p.vars (List.ofFn (SqpResult.x r))) h :))
  · obtain rfl : b = b' := hb
    refine ite_view rfl fun _ => map_view h3 fun r r' h => ?_
    exact Prod.ext (congrArg Outcome.ipm h) (by exact (congrArg (fun r => s.write p.vars (List.ofFn (IpmResult.x r))) h :))

/-- C86: callbacks that never return true, whether persistent or not, and `spy` change nothing: `solve()` does the same as
without them. -/
theorem silent_callbacks (p : Problem) (h : ∀ cb ∈ p.callbacks ++ p.persistent, ∀ calls info, cb calls info = false)
    (ad : Autodiff) (env : Env) (opts : SolverOptions) (spy : Bool) (s : Store) :
    (p.solve ad env opts spy s).map (fun r => (r.1.view fun _ => [], r.2)) =
      ((p.withCallbacks [] []).solve ad env opts false s).map fun r => (Outcome.view (fun _ => []) r.1, r.2) := by
  refine silent_solve p (cs := p.callbacks) (ps := p.persistent) (cs' := []) (ps' := []) ?_ rfl ad env opts s
  refine decideAlike_none fun cb hcb => ?_
  rcases List.mem_append.1 hcb with hcb | hcb
  · exact h cb hcb
  · cases spy
    · simp at hcb
    · obtain rfl : cb = fun _ _ => false := by simpa using hcb
      exact fun _ _ => rfl

/-- C86: one more persistent callback that never returns true changes nothing, not even the calls of the others, which
may count calls or stop the solver. -/
theorem silent_persistent (p : Problem) (cb : Callback) (hcb : ∀ calls info, cb calls info = false)
    (h : ∀ c ∈ p.callbacks ++ p.persistent, ∀ calls info,
      c calls info = c (firstCalls (p.callbacks ++ p.persistent).length calls) info)
    (ad : Autodiff) (env : Env) (opts : SolverOptions) (s : Store) :
    ((p.addPersistent cb).solve ad env opts false s).map
        (fun r => (r.1.view (firstCalls (p.callbacks ++ p.persistent).length), r.2)) = p.solve ad env opts false s := by
  have hd : DecideAlike (firstCalls (p.callbacks ++ p.persistent).length) id
      ((p.withCallbacks p.callbacks (p.persistent ++ [cb])).allCallbacks false)
      ((p.withCallbacks p.callbacks p.persistent).allCallbacks false) := by
    have := decideAlike_append h (rest := [cb]) fun c hc => by
      obtain rfl : c = cb := by simpa using hc
      exact hcb
    simpa only [Problem.allCallbacks, Problem.withCallbacks, List.append_assoc, Bool.false_eq_true, if_false, List.append_nil]
      using this
  have := silent_solve p hd (v' := id) (by simp [firstCalls]) ad env opts s
  refine (this.trans ?_)
  have hid : (fun r : p.Outcome × Store => (Outcome.view id r.1, r.2)) = id := by
    funext r
    rcases r with ⟨_ | _ | r | r | r, s⟩ <;> rfl
  exact (congrArg (Option.map · _) hid).trans (Option.map_id_apply)

/-- C86: `spy` changes nothing, not even the calls of callbacks. -/
theorem spy_silent (p : Problem) (h : ∀ c ∈ p.callbacks ++ p.persistent, ∀ calls info,
      c calls info = c (firstCalls (p.callbacks ++ p.persistent).length calls) info)
    (ad : Autodiff) (env : Env) (opts : SolverOptions) (s : Store) :
    (p.solve ad env opts true s).map (fun r => (r.1.view (firstCalls (p.callbacks ++ p.persistent).length), r.2)) =
      p.solve ad env opts false s := by
  have hd : DecideAlike (firstCalls (p.callbacks ++ p.persistent).length) id
      ((p.withCallbacks p.callbacks p.persistent).allCallbacks true)
      ((p.withCallbacks p.callbacks p.persistent).allCallbacks false) := by
    have := decideAlike_append h (rest := [fun _ _ => false]) fun c hc => by
      obtain rfl : c = fun _ _ => false := by simpa using hc
      exact fun _ _ => rfl
    simpa only [Problem.allCallbacks, Problem.withCallbacks, Bool.false_eq_true, if_false, List.append_nil, if_true]
      using this
  have := silent_solve p hd (v' := id) (by simp [firstCalls]) ad env opts s
  refine (this.trans ?_)
  have hid : (fun r : p.Outcome × Store => (Outcome.view id r.1, r.2)) = id := by
    funext r
    rcases r with ⟨_ | _ | r | r | r, s⟩ <;> rfl
  exact (congrArg (Option.map · _) hid).trans (Option.map_id_apply)

/-- A callback that stops at its tenth call does not notice `spy`. -/
example (p : Problem) (ad : Autodiff) (env : Env) (opts : SolverOptions) (s : Store) :
    let c : Callback := fun calls _ => decide (9 ≤ (calls.filter (·.index = 0)).length)
    ((p.withCallbacks [c] []).solve ad env opts true s).map (fun r => (Outcome.view (firstCalls 1) r.1, r.2)) =
      (p.withCallbacks [c] []).solve ad env opts false s := by
  intro c
  refine spy_silent (p.withCallbacks [c] []) (fun d hd calls info => ?_) ad env opts s
  obtain rfl : d = c := by simpa [Problem.withCallbacks] using hd
  simp only [c, firstCalls, List.filter_filter]
  congr 4
  funext a
  simp [Problem.withCallbacks]

end Slp
