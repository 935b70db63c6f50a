import Verif.Solver.SqpModel
import Verif.Solver.NewtonModel

/-! Lemmas for C86: callbacks that decide alike pass through the solvers alike. -/

namespace Slp

open Classical

variable {n m k : ℕ}

variable {v v' : List Call → List Call}

/-- What happened, apart from the calls of callbacks. -/
def World.quiet (w : World) : World := { w with calls := [] }

/-- What happened, with a view of the calls of callbacks. -/
def World.view (v : List Call → List Call) (w : World) : World := { w with calls := v w.calls }

theorem World.view_eq {w w' : World} (h : w.view v = w'.view v') : ∃ cs, w' = { w with calls := cs } ∧ v w.calls = v' cs := by
  obtain ⟨c, t, e, f, s, es, r, v, se⟩ := w
  obtain ⟨c', t', e', f', s', es', r', v', se'⟩ := w'
  simp only [World.view, World.mk.injEq] at h
  obtain ⟨hv, rfl, rfl, rfl, rfl, rfl, rfl, rfl, rfl⟩ := h
  exact ⟨c', rfl, hv⟩

theorem World.view_mk {w w' : World} (h : w.quiet = w'.quiet) (hv : v w.calls = v' w'.calls) : w.view v = w'.view v' := by
  obtain ⟨c, t, e, f, s, es, r, vs, se⟩ := w
  obtain ⟨c', t', e', f', s', es', r', vs', se'⟩ := w'
  simp only [World.quiet, World.view, World.mk.injEq, true_and] at h ⊢
  exact ⟨hv, h⟩

/-- Two lists of callbacks that decide alike after calls that look alike in two views, and whose calls look alike. -/
def DecideAlike (v v' : List Call → List Call) (cbs cbs' : List Callback) : Prop :=
  ∀ info calls calls', v calls = v' calls' → v (runRegistered info 0 cbs calls).1 = v' (runRegistered info 0 cbs' calls').1 ∧
    (runRegistered info 0 cbs calls).2 = (runRegistered info 0 cbs' calls').2

theorem bind_view {α β γ δ : Type} {q q' : α → γ} {r r' : β → δ} {a a' : Option α} {f f' : α → Option β}
    (h : a.map q = a'.map q') (hf : ∀ x x', q x = q' x' → (f x).map r = (f' x').map r') :
    (a.bind f).map r = (a'.bind f').map r' := by
  rcases a with _ | x <;> rcases a' with _ | x'
  · rfl
  · simp at h
  · simp at h
  · exact hf x x' (by simpa using h)

theorem map_view {α β γ δ : Type} {q q' : α → γ} {r r' : β → δ} {a a' : Option α} {f f' : α → β} (h : a.map q = a'.map q')
    (hf : ∀ x x', q x = q' x' → r (f x) = r' (f' x')) : (a.map f).map r = (a'.map f').map r' := by
  rcases a with _ | x <;> rcases a' with _ | x'
  · rfl
  · simp at h
  · simp at h
  · simpa using hf x x' (by simpa using h)

theorem ite_view {β γ : Type} {q q' : β → γ} {p : Prop} [Decidable p] {a b a' b' : Option β} (h1 : a.map q = a'.map q')
    (h2 : ¬ p → b.map q = b'.map q') : (if p then a else b).map q = (if p then a' else b').map q' := by
  split_ifs with h
  · exact h1
  · exact h2 h

/-- The result, with a view of the calls of callbacks. -/
def IpmResult.view (v : List Call → List Call) (r : IpmResult n m k) : IpmResult n m k := { r with world := r.world.view v }

/-- What an iteration leads to, with a view of the calls of callbacks. -/
def Moved.view (v : List Call → List Call) : Moved n m k → Moved n m k
  | .stop r => .stop (r.view v)
  | .go st w E => .go st (w.view v) E

/-- Two ways to restore feasibility that do the same, with views of the calls of callbacks. -/
def RestoreFn.Alike (v v' : List Call → List Call) (restore restore' : RestoreFn n m k) : Prop :=
  ∀ st α w w' E, w.view v = w'.view v' → (restore st α w E).map (Moved.view v) = (restore' st α w' E).map (Moved.view v')

theorem exit_view (st : IpmState n m k) (s : ExitStatus) (E : Filter) {w w' : World} (h : w.view v = w'.view v') :
    (some (st.exit s w E)).map (IpmResult.view v) = (some (st.exit s w' E)).map (IpmResult.view v') := by
  simp only [Option.map_some, IpmState.exit, IpmResult.view, h]

theorem stop_view (st : IpmState n m k) (s : ExitStatus) (E : Filter) {w w' : World} (h : w.view v = w'.view v') :
    (some (Moved.stop (st.exit s w E))).map (Moved.view v) = (some (Moved.stop (st.exit s w' E))).map (Moved.view v') := by
  simp only [Option.map_some, Moved.view, IpmState.exit, IpmResult.view, h]

theorem go_view (st : IpmState n m k) (E : Filter) {w w' : World} (h : w.view v = w'.view v') :
    (some (Moved.go st w E)).map (Moved.view v) = (some (Moved.go st w' E)).map (Moved.view v') := by
  simp only [Option.map_some, Moved.view, h]

theorem ipmMove_view (env : Env) (opts : SolverOptions) (P : Nlp n m k) {restore restore' : RestoreFn n m k}
    (hr : restore.Alike v v' restore') (st : IpmState n m k) {w w' : World} (h : w.view v = w'.view v') (E : Filter) :
    (ipmMove env opts P restore st w E).map (Moved.view v) = (ipmMove env opts P restore' st w' E).map (Moved.view v') := by
  obtain ⟨cs, rfl, hv⟩ := World.view_eq h
  unfold ipmMove
  refine ite_view (by exact stop_view _ _ _ (World.view_mk rfl hv)) fun _ => ?_
  refine bind_view (q := id) (q' := id) rfl fun ls ls' hl => ?_
  obtain rfl : ls = ls' := hl
  refine ite_view (hr _ _ _ _ _ (by exact World.view_mk rfl hv)) fun _ => ?_
  cases ls.accepted with
  | none => exact hr _ _ _ _ _ (by exact World.view_mk rfl hv)
  | some b => exact go_view _ _ (by exact World.view_mk rfl hv)

theorem notify_view {cbs cbs' : List Callback} (hc : DecideAlike v v' cbs cbs') (extra : Extra) (inner : Bool) (st : IpmState n m k)
    {w w' : World} (h : w.view v = w'.view v') (E : Filter) :
    (ipmNotify cbs extra inner st w E).1.view v = (ipmNotify cbs' extra inner st w' E).1.view v' ∧
      (ipmNotify cbs extra inner st w E).2 = (ipmNotify cbs' extra inner st w' E).2 := by
  obtain ⟨cs, rfl, hv⟩ := World.view_eq h
  obtain ⟨h1, h2⟩ := hc st.info w.calls cs hv
  unfold ipmNotify runCallbacks
  simp only [← h2]
  split_ifs
  · exact ⟨World.view_mk rfl h1, rfl⟩
  · exact ⟨World.view_mk rfl h1, rfl⟩

theorem ipmLoop_view (env : Env) (opts : SolverOptions) (P : Nlp n m k) {cbs cbs' : List Callback} (hc : DecideAlike v v' cbs cbs')
    (extra : Extra) (inner : Bool) {restore restore' : RestoreFn n m k} (hr : restore.Alike v v' restore') (start : ℝ) (r : ℕ)
    (st : IpmState n m k) {w w' : World} (h : w.view v = w'.view v') (E : Filter) :
    (ipmLoop env opts P cbs extra inner restore start r st w E).map (IpmResult.view v) =
      (ipmLoop env opts P cbs' extra inner restore' start r st w' E).map (IpmResult.view v') := by
  induction r generalizing st w w' E with
  | zero => rw [ipmLoop, ipmLoop, Option.map_none, Option.map_none]
  | succ r ih =>
    obtain ⟨hn1, hn2⟩ := notify_view hc extra inner st h E
    rw [ipmLoop, ipmLoop]
    refine ite_view (exit_view _ _ _ h) fun _ => ite_view (exit_view _ _ _ h) fun _ => ite_view (exit_view _ _ _ h) fun _ =>
      ite_view (exit_view _ _ _ h) fun _ => ?_
    simp only
    rw [← hn2]
    refine ite_view (exit_view _ _ _ hn1) fun _ => bind_view (ipmMove_view env opts P hr st hn1 _) fun M M' hM => ?_
    rcases M with a | ⟨st2, w2, E2⟩ <;> rcases M' with a' | ⟨st2', w2', E2'⟩
    · simp only [Moved.view, Moved.stop.injEq] at hM
      simp only [Moved.elim, Option.map_some, hM]
    · simp [Moved.view] at hM
    · simp [Moved.view] at hM
    · simp only [Moved.view, Moved.go.injEq] at hM
      obtain ⟨rfl, hw, rfl⟩ := hM
      refine bind_view (q := id) (q' := id) rfl fun st3 st3' h3 => ?_
      obtain rfl : st3 = st3' := h3
      obtain ⟨cs, rfl, hv⟩ := World.view_eq hw
      refine ite_view (exit_view _ _ _ hw) fun _ => ite_view (exit_view _ _ _ (by exact World.view_mk rfl hv)) fun _ => ?_
      exact ih st3 (by exact World.view_mk rfl hv) E2

theorem ipmRun_view (env : Env) (opts : SolverOptions) (P : Nlp n m k) {cbs cbs' : List Callback} (hc : DecideAlike v v' cbs cbs')
    (extra : Extra) (inner : Bool) {restore restore' : RestoreFn n m k} (hr : restore.Alike v v' restore')
    (x : Vec n) (s : Vec k) (y : Vec m) (z : Vec k) (μ : Fl) (iterations : ℕ) {w w' : World} (h : w.view v = w'.view v')
    (E : Filter) : (ipmRun env opts P cbs extra inner restore x s y z μ iterations w E).map (IpmResult.view v) =
      (ipmRun env opts P cbs' extra inner restore' x s y z μ iterations w' E).map (IpmResult.view v') := by
  obtain ⟨cs, rfl, hv⟩ := World.view_eq h
  unfold ipmRun
  exact ite_view (exit_view _ _ _ (by exact World.view_mk rfl hv)) fun _ => ite_view (exit_view _ _ _ (by exact World.view_mk rfl hv)) fun _ => ipmLoop_view env opts P hc extra inner hr _ _ _ (by exact World.view_mk rfl hv) E

theorem restoreInner_alike : (restoreInner : RestoreFn n m k).Alike v v' restoreInner := fun st _ w w' E h => by
  simp only [restoreInner, Option.map_some, Moved.view, IpmState.exit, IpmResult.view, h]

theorem frRun_view (env : Env) (opts : SolverOptions) (P : Nlp n m k) {cbs cbs' : List Callback} (hc : DecideAlike v v' cbs cbs')
    (extra : Extra) (x : Vec n) (s : Vec k) (μ : Fl) (iterations : ℕ) {w w' : World} (h : w.view v = w'.view v') (E : Filter) :
    (frRun env opts P cbs extra x s μ iterations w E).map (IpmResult.view v) =
      (frRun env opts P cbs' extra x s μ iterations w' E).map (IpmResult.view v') :=
  ipmRun_view env opts _ hc extra true restoreInner_alike _ _ _ _ _ _ h E

theorem IpmResult.view_eq {r r' : IpmResult n m k} (h : r.view v = r'.view v') :
    ∃ cs, r' = { r with world := { r.world with calls := cs } } ∧ v r.world.calls = v' cs := by
  obtain ⟨a, b, c, d, e, f, w, E⟩ := r
  obtain ⟨a', b', c', d', e', f', w', E'⟩ := r'
  simp only [IpmResult.view, IpmResult.mk.injEq] at h
  obtain ⟨rfl, rfl, rfl, rfl, rfl, rfl, hw, rfl⟩ := h
  obtain ⟨cs, rfl, hv⟩ := World.view_eq hw
  exact ⟨cs, rfl, hv⟩

theorem restoreIpm_alike (env : Env) (opts : SolverOptions) (P : Nlp n m k) {cbs cbs' : List Callback} (hc : DecideAlike v v' cbs cbs') :
    (restoreIpm env opts P cbs).Alike v v' (restoreIpm env opts P cbs') := by
  intro st α w w' E h
  unfold restoreIpm
  have := frRun_view env opts P hc (extraIpm env P st α) st.x st.s st.μ st.iterations h st.filter
  refine map_view this fun res res' hres => ?_
  obtain ⟨cs, rfl, hv⟩ := IpmResult.view_eq hres
  simp only
  split_ifs
  · exact congrArg (Moved.go _ · E) (World.view_mk rfl hv)
  all_goals exact congrArg (fun w => Moved.stop ⟨_, _, _, _, _, _, w, E⟩) (World.view_mk rfl hv)

/-! ### SQP -/

/-- The result, with a view of the calls of callbacks. -/
def SqpResult.view (v : List Call → List Call) (r : SqpResult n m) : SqpResult n m := { r with world := r.world.view v }

/-- What an iteration leads to, with a view of the calls of callbacks. -/
def SqpMoved.view (v : List Call → List Call) : SqpMoved n m → SqpMoved n m
  | .stop r => .stop (r.view v)
  | .go st w => .go st (w.view v)

theorem sqpStop_view (st : SqpState n m) (s : ExitStatus) {w w' : World} (h : w.view v = w'.view v') :
    (some (SqpMoved.stop (st.exit s w))).map (SqpMoved.view v) = (some (SqpMoved.stop (st.exit s w'))).map (SqpMoved.view v') := by
  simp only [Option.map_some, SqpMoved.view, SqpState.exit, SqpResult.view, h]

theorem sqpGo_view (st : SqpState n m) {w w' : World} (h : w.view v = w'.view v') :
    (some (SqpMoved.go st w)).map (SqpMoved.view v) = (some (SqpMoved.go st w')).map (SqpMoved.view v') := by
  simp only [Option.map_some, SqpMoved.view, h]

theorem restoreSqp_view (env : Env) (opts : SolverOptions) (P : Nlp n m 0) {cbs cbs' : List Callback} (hc : DecideAlike v v' cbs cbs')
    (st : SqpState n m) (α : Fl) {w w' : World} (h : w.view v = w'.view v') :
    (restoreSqp env opts P cbs st α w).map (SqpMoved.view v) = (restoreSqp env opts P cbs' st α w').map (SqpMoved.view v') := by
  unfold restoreSqp
  refine map_view (frRun_view env opts P hc _ _ _ _ _ h _) fun res res' hres => ?_
  obtain ⟨cs, rfl, hv⟩ := IpmResult.view_eq hres
  simp only
  split_ifs
  · exact congrArg (SqpMoved.go _) (World.view_mk rfl hv)
  all_goals exact congrArg (fun w => SqpMoved.stop ⟨_, _, _, _, w⟩) (World.view_mk rfl hv)

theorem sqpMove_view (env : Env) (opts : SolverOptions) (P : Nlp n m 0) {cbs cbs' : List Callback} (hc : DecideAlike v v' cbs cbs')
    (st : SqpState n m) {w w' : World} (h : w.view v = w'.view v') :
    (sqpMove env opts P cbs st w).map (SqpMoved.view v) = (sqpMove env opts P cbs' st w').map (SqpMoved.view v') := by
  obtain ⟨cs, rfl, hv⟩ := World.view_eq h
  unfold sqpMove
  refine ite_view (by exact sqpStop_view _ _ (World.view_mk rfl hv)) fun _ => ?_
  refine bind_view (q := id) (q' := id) rfl fun ls ls' hl => ?_
  obtain rfl : ls = ls' := hl
  cases ls.accepted with
  | none => exact restoreSqp_view env opts P hc _ _ (by exact World.view_mk rfl hv)
  | some b => exact sqpGo_view _ (by exact World.view_mk rfl hv)

theorem sqpLoop_view (env : Env) (opts : SolverOptions) (P : Nlp n m 0) {cbs cbs' : List Callback} (hc : DecideAlike v v' cbs cbs')
    (start : ℝ) (r : ℕ) (st : SqpState n m) {w w' : World} (h : w.view v = w'.view v') :
    (sqpLoop env opts P cbs start r st w).map (SqpResult.view v) =
      (sqpLoop env opts P cbs' start r st w').map (SqpResult.view v') := by
  induction r generalizing st w w' with
  | zero => rw [sqpLoop, sqpLoop, Option.map_none, Option.map_none]
  | succ r ih =>
    have hx : ∀ (st : SqpState n m) s {w w' : World}, w.view v = w'.view v' →
        (some (st.exit s w)).map (SqpResult.view v) = (some (st.exit s w')).map (SqpResult.view v') := fun st s w w' h => by
      simp only [Option.map_some, SqpState.exit, SqpResult.view, h]
    obtain ⟨cs, rfl, hv⟩ := World.view_eq h
    rw [sqpLoop, sqpLoop]
    refine ite_view (hx _ _ h) fun _ => ite_view (hx _ _ h) fun _ => ite_view (hx _ _ h) fun _ => ?_
    simp only
    obtain ⟨h1, h2⟩ := hc st.info w.calls cs hv
    rw [← h2]
    refine ite_view (hx _ _ (by exact World.view_mk rfl h1)) fun _ => bind_view (sqpMove_view env opts P hc st (by exact World.view_mk rfl h1)) fun M M' hM => ?_
    rcases M with a | ⟨st2, w2⟩ <;> rcases M' with a' | ⟨st2', w2'⟩
    · simp only [SqpMoved.view, SqpMoved.stop.injEq] at hM
      simp only [SqpMoved.elim, Option.map_some, hM]
    · simp [SqpMoved.view] at hM
    · simp [SqpMoved.view] at hM
    · simp only [SqpMoved.view, SqpMoved.go.injEq] at hM
      obtain ⟨rfl, hw⟩ := hM
      obtain ⟨cs, rfl, hv⟩ := World.view_eq hw
      exact ite_view (hx _ _ hw) fun _ => ite_view (hx _ _ (by exact World.view_mk rfl hv)) fun _ => ih _ (by exact World.view_mk rfl hv)

/-! ### Newton's method -/

/-- The result, with a view of the calls of callbacks. -/
def NewtonResult.view (v : List Call → List Call) (r : NewtonResult n) : NewtonResult n := { r with world := r.world.view v }

theorem newtonLoop_view (env : Env) (opts : SolverOptions) (P : Nlp n 0 0) {cbs cbs' : List Callback} (hc : DecideAlike v v' cbs cbs')
    (start : ℝ) (r : ℕ) (st : NewtonState n) {w w' : World} (h : w.view v = w'.view v') :
    (newtonLoop env opts P cbs start r st w).map (NewtonResult.view v) =
      (newtonLoop env opts P cbs' start r st w').map (NewtonResult.view v') := by
  induction r generalizing st w w' with
  | zero => rw [newtonLoop, newtonLoop, Option.map_none, Option.map_none]
  | succ r ih =>
    have hx : ∀ (st : NewtonState n) s {w w' : World}, w.view v = w'.view v' →
        (some (st.exit s w)).map (NewtonResult.view v) = (some (st.exit s w')).map (NewtonResult.view v') := fun st s w w' h => by
      simp only [Option.map_some, NewtonState.exit, NewtonResult.view, h]
    obtain ⟨cs, rfl, hv⟩ := World.view_eq h
    rw [newtonLoop, newtonLoop]
    refine ite_view (hx _ _ h) fun _ => ite_view (hx _ _ h) fun _ => ?_
    simp only
    obtain ⟨h1, h2⟩ := hc st.info w.calls cs hv
    rw [← h2]
    refine ite_view (hx _ _ (by exact World.view_mk rfl h1)) fun _ => bind_view (q := id) (q' := id) rfl fun ls ls' hl => ?_
    obtain rfl : ls = ls' := hl
    cases ls.accepted with
    | none => exact hx _ _ (by exact World.view_mk rfl h1)
    | some b => exact ite_view (hx _ _ (by exact World.view_mk rfl h1)) fun _ => ite_view (hx _ _ (by exact World.view_mk rfl h1)) fun _ => ih _ (by exact World.view_mk rfl h1)

end Slp
