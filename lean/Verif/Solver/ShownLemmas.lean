import Verif.Solver.SeenLemmas
import Verif.Solver.IpmLemmas

/-! What callbacks are shown: lemmas about the loops of the solvers. -/

namespace Slp

variable {n m k : ℕ}

/-- The information shown to callbacks at an iterate of a problem. -/
structure Info.Of (P : Nlp n m k) (X : Vec n) (S : Vec k) (Y : Vec m) (Z : Vec k) (i : Info) : Prop where
  x : i.x = List.ofFn X
  s : i.s = List.ofFn S
  y : i.y = List.ofFn Y
  z : i.z = List.ofFn Z
  g : i.g = List.ofFn (P.g X)
  H : i.H = FMat.rows (P.H X Y Z)
  Ae : i.Ae = FMat.rows (P.Ae X)
  Ai : i.Ai = FMat.rows (P.Ai X)

/-- Everything shown satisfies `Q`, and every call was shown one of these. -/
structure World.Shows (Q : Snapshot → Prop) (w : World) : Prop where
  trace : ∀ s ∈ w.trace, Q s
  calls : ∀ c ∈ w.calls, ∃ s ∈ w.trace, s.info = c.info

theorem World.Shows.start (Q : Snapshot → Prop) : World.start.Shows Q := ⟨by simp [World.start], by simp [World.start]⟩

theorem World.Shows.same {Q : Snapshot → Prop} {w w' : World} (h : w.Shows Q) (h1 : w'.trace = w.trace)
    (h2 : w'.calls = w.calls) : w'.Shows Q := ⟨h1 ▸ h.trace, h1 ▸ h2 ▸ h.calls⟩

theorem World.Shows.show {Q : Snapshot → Prop} {w w' : World} (h : w.Shows Q) {s : Snapshot} {l : List Call} (hs : Q s)
    (h1 : w'.trace = w.trace ++ [s]) (h2 : w'.calls = w.calls ++ l) (h3 : ∀ c ∈ l, c.info = s.info) : w'.Shows Q := by
  refine ⟨fun a ha => ?_, fun c hc => ?_⟩
  · rw [h1, List.mem_append, List.mem_singleton] at ha
    rcases ha with ha | rfl
    · exact h.trace a ha
    · exact hs
  · rw [h2, List.mem_append] at hc
    rw [h1]
    rcases hc with hc | hc
    · obtain ⟨a, ha, e⟩ := h.calls c hc
      exact ⟨a, List.mem_append_left _ ha, e⟩
    · exact ⟨s, by simp, (h3 c hc).symm⟩

theorem World.Shows.mono {Q Q' : Snapshot → Prop} {w : World} (h : w.Shows Q) (hq : ∀ s, Q s → Q' s) : w.Shows Q' :=
  ⟨fun s hs => hq s (h.trace s hs), h.calls⟩

/-- The derivatives in local variables are those at the iterate. -/
structure IpmState.Current (P : Nlp n m k) (st : IpmState n m k) : Prop where
  g : st.e.g = P.g st.x
  H : st.e.H = P.H st.x st.y st.z
  Ae : st.e.Ae = P.Ae st.x
  Ai : st.e.Ai = P.Ai st.x

theorem IpmState.Current.info {P : Nlp n m k} {st : IpmState n m k} (h : st.Current P) :
    st.info.Of P st.x st.s st.y st.z :=
  ⟨rfl, rfl, rfl, rfl, by rw [← h.g]; rfl, by rw [← h.H]; rfl, by rw [← h.Ae]; rfl, by rw [← h.Ai]; rfl⟩

theorem barrierLoop_current {env : Env} {P : Nlp n m k} {μmin : Fl} (r : ℕ) {st st' : IpmState n m k}
    (hst : barrierLoop env μmin r st = some st') (h : st.Current P) : st'.Current P := by
  induction r generalizing st with
  | zero => simp [barrierLoop] at hst
  | succ r ih =>
    rw [barrierLoop] at hst
    split at hst
    · exact ih hst ⟨h.g, h.H, h.Ae, h.Ai⟩
    · obtain rfl := Option.some.inj hst; exact h

theorem ipmFinish_current {env : Env} {opts : SolverOptions} {P : Nlp n m k} {st st' : IpmState n m k}
    (hst : ipmFinish env opts P st = some st') (h : st.Current P) : st'.Current P := by
  unfold ipmFinish at hst
  simp only at hst
  obtain ⟨st2, h2, rfl⟩ := Option.map_eq_some_iff.1 hst
  split at h2
  · obtain ⟨a, b, c, d⟩ := barrierLoop_current (P := P) (st := { st with E0 := errZeroIpm env P.scaling st.e st.s st.y st.z })
      (st' := st2) _ h2 ⟨h.g, h.H, h.Ae, h.Ai⟩
    exact ⟨a, b, c, d⟩
  · obtain rfl := Option.some.inj h2; exact ⟨h.g, h.H, h.Ae, h.Ai⟩

/-- What follows a step, or feasibility restoration. -/
def Moved.Shows (Q : Snapshot → Prop) (P : Nlp n m k) : Moved n m k → Prop
  | .stop r => r.world.Shows Q
  | .go st w _ => w.Shows Q ∧ st.Current P

/-- Feasibility restoration. -/
def RestoreShows (Q : Snapshot → Prop) (P : Nlp n m k) (restore : RestoreFn n m k) : Prop :=
  ∀ st α w E mv, w.Shows Q → restore st α w E = some mv → mv.Shows Q P

theorem ipmMove_shows {Q : Snapshot → Prop} {env : Env} {opts : SolverOptions} {P : Nlp n m k} {restore : RestoreFn n m k}
    (hR : RestoreShows Q P restore) {st : IpmState n m k} {w : World} {E : Filter} (hw : w.Shows Q) {mv : Moved n m k}
    (h : ipmMove env opts P restore st w E = some mv) : mv.Shows Q P := by
  unfold ipmMove at h
  split at h
  · obtain rfl := Option.some.inj h
    exact hw.same rfl rfl
  simp only at h
  obtain ⟨ls, -, h⟩ := Option.bind_eq_some_iff.1 h
  split at h
  · exact hR _ _ _ _ _ (hw.same (w' := { w with factors := w.factors + 1, solves := ls.solves }) rfl rfl) h
  cases hacc : ls.accepted with
  | none =>
    rw [hacc] at h
    exact hR _ _ _ _ _ (hw.same (w' := { w with factors := w.factors + 1, solves := ls.solves }) rfl rfl) h
  | some b =>
    rw [hacc] at h
    obtain rfl := Option.some.inj h
    exact ⟨hw.same rfl rfl, ⟨rfl, rfl, rfl, rfl⟩⟩

theorem ipmLoop_shows {Q : Snapshot → Prop} {env : Env} {opts : SolverOptions} {P : Nlp n m k} {cbs : List Callback}
    {extra : Extra} {inner : Bool} {restore : RestoreFn n m k} {start : ℝ}
    (hQ : ∀ x s y z i μ τ, Info.Of P x s y z i → Q ⟨inner, i, μ, τ⟩) (hR : RestoreShows Q P restore) (r : ℕ)
    {st : IpmState n m k} {w : World} {E : Filter} (hw : w.Shows Q) (hv : st.Current P) {res : IpmResult n m k}
    (h : ipmLoop env opts P cbs extra inner restore start r st w E = some res) : res.world.Shows Q := by
  induction r generalizing st w E with
  | zero => simp [ipmLoop] at h
  | succ r ih =>
    rw [ipmLoop] at h
    split at h
    · obtain rfl := Option.some.inj h; exact hw
    split at h
    · obtain rfl := Option.some.inj h; exact hw
    split at h
    · obtain rfl := Option.some.inj h; exact hw
    split at h
    · obtain rfl := Option.some.inj h; exact hw
    have hn : (ipmNotify cbs extra inner st w E).1.Shows Q := by
      obtain ⟨l, h1, h2⟩ := runCallbacks_calls cbs extra st.info w.calls E
      exact hw.show (hQ _ _ _ _ _ st.μ st.τ hv.info) rfl h1 h2
    simp only at h
    split at h
    · obtain rfl := Option.some.inj h; exact hn
    obtain ⟨mv, h1, h2⟩ := Option.bind_eq_some_iff.1 h
    have hm := ipmMove_shows hR hn h1
    cases mv with
    | stop r =>
      obtain rfl := Option.some.inj h2
      exact hm
    | go st2 w2 E2 =>
      obtain ⟨st3, h3, h4⟩ := Option.bind_eq_some_iff.1 h2
      split at h4
      · obtain rfl := Option.some.inj h4; exact hm.1
      split at h4
      · obtain rfl := Option.some.inj h4; exact hm.1.same rfl rfl
      · refine ih ?_ (ipmFinish_current h3 hm.2) h4
        exact hm.1.same rfl rfl

theorem ipmRun_shows {Q : Snapshot → Prop} {env : Env} {opts : SolverOptions} {P : Nlp n m k} {cbs : List Callback}
    {extra : Extra} {inner : Bool} {restore : RestoreFn n m k}
    (hQ : ∀ x s y z i μ τ, Info.Of P x s y z i → Q ⟨inner, i, μ, τ⟩) (hR : RestoreShows Q P restore) {x : Vec n}
    {s : Vec k} {y : Vec m} {z : Vec k} {μ : Fl} {it : ℕ} {w : World} {E : Filter} (hw : w.Shows Q)
    {res : IpmResult n m k} (h : ipmRun env opts P cbs extra inner restore x s y z μ it w E = some res) :
    res.world.Shows Q := by
  unfold ipmRun at h
  simp only at h
  split at h
  · obtain rfl := Option.some.inj h; exact hw.same rfl rfl
  split at h
  · obtain rfl := Option.some.inj h; exact hw.same rfl rfl
  · refine ipmLoop_shows hQ hR _ ?_ ?_ h
    · exact hw.same rfl rfl
    · exact ⟨rfl, rfl, rfl, rfl⟩

theorem restoreInner_shows (Q : Snapshot → Prop) (P : Nlp n m k) : RestoreShows Q P restoreInner := by
  intro st α w E mv hw h
  obtain rfl := Option.some.inj h
  exact hw.same rfl rfl

/-- What is shown during a solve of `P`: its own derivatives, or those of a restoration problem. -/
def ShownOf (env : Env) (P : Nlp n m k) (a : Snapshot) : Prop :=
  (a.inner = false → ∃ x s y z, Info.Of P x s y z a.info) ∧
    (a.inner = true → ∃ xr μ x s y z, Info.Of (frProblem env P xr μ) x s y z a.info)

theorem frRun_shows {env : Env} {opts : SolverOptions} {P : Nlp n m k} {cbs : List Callback} {extra : Extra} {x : Vec n}
    {s : Vec k} {μ : Fl} {it : ℕ} {w : World} {E : Filter} (hw : w.Shows (ShownOf env P))
    {res : IpmResult (n + relaxed m k) m (k + relaxed m k)}
    (h : frRun env opts P cbs extra x s μ it w E = some res) : res.world.Shows (ShownOf env P) :=
  ipmRun_shows (fun x s y z i μ τ hi => ⟨by simp, fun _ => ⟨_, _, x, s, y, z, hi⟩⟩) (restoreInner_shows _ _) hw h

theorem restoreIpm_shows {env : Env} {opts : SolverOptions} {P : Nlp n m k} {cbs : List Callback} :
    RestoreShows (ShownOf env P) P (restoreIpm env opts P cbs) := by
  intro st α w E mv hw h
  obtain ⟨res, h1, h2⟩ := Option.map_eq_some_iff.1 h
  have hr := frRun_shows hw h1
  simp only at h2
  split at h2
  · subst h2; exact ⟨hr.same rfl rfl, ⟨rfl, rfl, rfl, rfl⟩⟩
  · subst h2; exact hr

theorem interiorPoint_shows {env : Env} {opts : SolverOptions} {P : Nlp n m k} {cbs : List Callback} {x : Vec n}
    {res : IpmResult n m k} (h : interiorPoint env opts P cbs x .start = some res) : res.world.Shows (ShownOf env P) :=
  ipmRun_shows (fun x s y z i μ τ hi => ⟨fun _ => ⟨x, s, y, z, hi⟩, by simp⟩) restoreIpm_shows (.start _) h

/-- The derivatives in local variables are those at the iterate. -/
structure SqpState.Current (P : Nlp n m 0) (st : SqpState n m) : Prop where
  g : st.e.g = P.g st.x
  H : st.e.H = P.H st.x st.y Fin.elim0
  Ae : st.e.Ae = P.Ae st.x

theorem SqpState.Current.info {P : Nlp n m 0} {st : SqpState n m} (h : st.Current P) :
    st.info.Of P st.x Fin.elim0 st.y Fin.elim0 :=
  ⟨rfl, by simp [SqpState.info], rfl, by simp [SqpState.info], by rw [← h.g]; rfl, by rw [← h.H]; rfl, by rw [← h.Ae]; rfl,
    by simp [SqpState.info, FMat.rows]⟩

theorem restoreSqp_shows {env : Env} {opts : SolverOptions} {P : Nlp n m 0} {cbs : List Callback} {st : SqpState n m}
    {α : Fl} {w : World} (hw : w.Shows (ShownOf env P)) {mv : SqpMoved n m}
    (h : restoreSqp env opts P cbs st α w = some mv) :
    mv.elim (fun r => r.world.Shows (ShownOf env P)) fun st w => w.Shows (ShownOf env P) ∧ st.Current P := by
  obtain ⟨res, h1, h2⟩ := Option.map_eq_some_iff.1 h
  have hr := frRun_shows hw h1
  simp only at h2
  split at h2
  · subst h2; exact ⟨hr.same rfl rfl, ⟨rfl, rfl, rfl⟩⟩
  · subst h2; exact hr

theorem sqpMove_shows {env : Env} {opts : SolverOptions} {P : Nlp n m 0} {cbs : List Callback} {st : SqpState n m}
    {w : World} (hw : w.Shows (ShownOf env P)) {mv : SqpMoved n m} (h : sqpMove env opts P cbs st w = some mv) :
    mv.elim (fun r => r.world.Shows (ShownOf env P)) fun st w => w.Shows (ShownOf env P) ∧ st.Current P := by
  unfold sqpMove at h
  split at h
  · obtain rfl := Option.some.inj h
    exact hw.same rfl rfl
  simp only at h
  obtain ⟨ls, -, h⟩ := Option.bind_eq_some_iff.1 h
  cases hacc : ls.accepted with
  | none =>
    rw [hacc] at h
    exact restoreSqp_shows (hw.same (w' := { w with factors := w.factors + 1, solves := ls.solves }) rfl rfl) h
  | some b =>
    rw [hacc] at h
    obtain rfl := Option.some.inj h
    exact ⟨hw.same rfl rfl, ⟨rfl, rfl, rfl⟩⟩

theorem sqpLoop_shows {env : Env} {opts : SolverOptions} {P : Nlp n m 0} {cbs : List Callback} {start : ℝ} (r : ℕ)
    {st : SqpState n m} {w : World} (hw : w.Shows (ShownOf env P)) (hv : st.Current P) {res : SqpResult n m}
    (h : sqpLoop env opts P cbs start r st w = some res) : res.world.Shows (ShownOf env P) := by
  induction r generalizing st w with
  | zero => simp [sqpLoop] at h
  | succ r ih =>
    rw [sqpLoop] at h
    split at h
    · obtain rfl := Option.some.inj h; exact hw
    split at h
    · obtain rfl := Option.some.inj h; exact hw
    split at h
    · obtain rfl := Option.some.inj h; exact hw
    have hn : World.Shows (ShownOf env P) { w with
        calls := (runRegistered st.info 0 cbs w.calls).1, trace := w.trace ++ [⟨false, st.info, 0, 0⟩]
        seen := w.seen ++ [w.vars] } := by
      obtain ⟨l, h1, h2⟩ := runRegistered_calls st.info 0 cbs w.calls
      exact hw.show (s := ⟨false, st.info, 0, 0⟩) ⟨fun _ => ⟨_, _, _, _, hv.info⟩, by simp⟩ rfl h1 h2
    simp only at h
    split at h
    · obtain rfl := Option.some.inj h; exact hn
    obtain ⟨mv, h1, h2⟩ := Option.bind_eq_some_iff.1 h
    have hm := sqpMove_shows hn h1
    cases mv with
    | stop r =>
      obtain rfl := Option.some.inj h2
      exact hm
    | go st2 w2 =>
      simp only [SqpMoved.elim] at h2
      split at h2
      · obtain rfl := Option.some.inj h2; exact hm.1
      split at h2
      · obtain rfl := Option.some.inj h2; exact hm.1.same rfl rfl
      · refine ih ?_ ?_ h2
        · exact hm.1.same rfl rfl
        · exact ⟨hm.2.g, hm.2.H, hm.2.Ae⟩

theorem sqp_shows {env : Env} {opts : SolverOptions} {P : Nlp n m 0} {cbs : List Callback} {x : Vec n}
    {res : SqpResult n m} (h : sqp env opts P cbs x .start = some res) : res.world.Shows (ShownOf env P) := by
  unfold sqp sqpRun at h
  simp only at h
  split at h
  · obtain rfl := Option.some.inj h
    exact (World.Shows.start _).same rfl rfl
  split at h
  · obtain rfl := Option.some.inj h
    exact (World.Shows.start _).same rfl rfl
  · refine sqpLoop_shows _ ?_ ?_ h
    · exact (World.Shows.start _).same rfl rfl
    · exact ⟨rfl, rfl, rfl⟩

theorem newtonLoop_shows {env : Env} {opts : SolverOptions} {P : Nlp n 0 0} {cbs : List Callback} {start : ℝ} (r : ℕ)
    {st : NewtonState n} {w : World} (hw : w.Shows (ShownOf env P)) (hg : st.g = P.g st.x)
    (hH : st.H = P.H st.x Fin.elim0 Fin.elim0) {res : NewtonResult n}
    (h : newtonLoop env opts P cbs start r st w = some res) : res.world.Shows (ShownOf env P) := by
  induction r generalizing st w with
  | zero => simp [newtonLoop] at h
  | succ r ih =>
    rw [newtonLoop] at h
    split at h
    · obtain rfl := Option.some.inj h; exact hw
    split at h
    · obtain rfl := Option.some.inj h; exact hw
    have hi : st.info.Of P st.x Fin.elim0 Fin.elim0 Fin.elim0 :=
      ⟨rfl, by simp [NewtonState.info], by simp [NewtonState.info], by simp [NewtonState.info], by rw [← hg]; rfl,
        by rw [← hH]; rfl, by simp [NewtonState.info, FMat.rows], by simp [NewtonState.info, FMat.rows]⟩
    have hn : World.Shows (ShownOf env P) { w with
        calls := (runRegistered st.info 0 cbs w.calls).1, trace := w.trace ++ [⟨false, st.info, 0, 0⟩]
        seen := w.seen ++ [w.vars] } := by
      obtain ⟨l, h1, h2⟩ := runRegistered_calls st.info 0 cbs w.calls
      exact hw.show (s := ⟨false, st.info, 0, 0⟩) ⟨fun _ => ⟨_, _, _, _, hi⟩, by simp⟩ rfl h1 h2
    simp only at h
    split at h
    · obtain rfl := Option.some.inj h; exact hn
    obtain ⟨ls, -, h⟩ := Option.bind_eq_some_iff.1 h
    cases hacc : ls.accepted with
    | none =>
      rw [hacc] at h
      obtain rfl := Option.some.inj h; exact hn.same rfl rfl
    | some b =>
      rw [hacc, Option.elim_some] at h
      split at h
      · obtain rfl := Option.some.inj h; exact hn.same rfl rfl
      split at h
      · obtain rfl := Option.some.inj h; exact hn.same rfl rfl
      · refine ih ?_ ?_ ?_ h
        · exact hn.same rfl rfl
        · rfl
        · rfl

theorem newton_shows {env : Env} {opts : SolverOptions} {P : Nlp n 0 0} {cbs : List Callback} {x : Vec n}
    {res : NewtonResult n} (h : newton env opts P cbs x .start = some res) : res.world.Shows (ShownOf env P) := by
  unfold newton at h
  simp only at h
  split at h
  · obtain rfl := Option.some.inj h
    exact (World.Shows.start _).same rfl rfl
  · refine newtonLoop_shows _ ?_ ?_ ?_ h
    · exact (World.Shows.start _).same rfl rfl
    · rfl
    · rfl

end Slp
