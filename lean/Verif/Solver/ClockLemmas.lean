import Verif.Solver.RestoreLoopModel
import Verif.Solver.SqpModel
import Verif.Solver.NewtonModel

/-! When the solvers read the clock: lemmas about their loops. -/

namespace Slp

variable {n m k : ℕ}

/-- The times at which iterations ended are differences of readings of the clock, `readings` having the positions of the
readings at the start of the solver and at the end of the iteration. Each iteration's end is a reading later than all
earlier ones; the solve itself is measured from the first reading. -/
structure ClockReadings (clock : ℕ → ℝ) (ends : List (Bool × ℝ)) (readings : List (ℕ × ℕ)) : Prop where
  times : List.Forall₂ (fun e r => e.2 = clock r.2 - clock r.1 ∧ (e.1 = false → r.1 = 0)) ends readings
  after : ∀ r ∈ readings, r.1 < r.2
  fresh : readings.Pairwise fun r r' => r.2 < r'.2

/-- How often callbacks were called at iterates of the solver itself. -/
def World.ownShown (w : World) : ℕ := w.trace.countP (!·.inner)

/-- How often the solver itself compared the time with the limit. -/
def World.ownEnds (w : World) : ℕ := w.ends.countP (!·.1)

/-- The times that were recorded so far are readings so far. Of the solver's own iterations, all but `d` had their end
recorded. -/
def World.Clocked (clock : ℕ → ℝ) (d : ℕ) (w : World) : Prop :=
  (∃ readings, ClockReadings clock w.ends readings ∧ ∀ r ∈ readings, r.2 < w.reads) ∧ w.ownShown = w.ownEnds + d

theorem World.Clocked.start (clock : ℕ → ℝ) : World.start.Clocked clock 0 := ⟨⟨[], ⟨.nil, by simp, .nil⟩, by simp⟩, rfl⟩

theorem World.Clocked.same {clock : ℕ → ℝ} {d : ℕ} {w w' : World} (h : w.Clocked clock d) (h1 : w'.ends = w.ends)
    (h2 : w.reads ≤ w'.reads) (h0 : w'.trace = w.trace) : w'.Clocked clock d := by
  obtain ⟨⟨l, h3, h4⟩, h5⟩ := h
  refine ⟨⟨l, h1 ▸ h3, fun r hr => (h4 r hr).trans_le h2⟩, ?_⟩
  unfold World.ownShown World.ownEnds at *
  rw [h0, h1]; exact h5

/-- One more iteration if `inner` is false. -/
def pendingOf (inner : Bool) : ℕ := if inner then 0 else 1

theorem World.Clocked.shown {clock : ℕ → ℝ} {d : ℕ} {w w' : World} (h : w.Clocked clock d) {s : Snapshot}
    (h1 : w'.ends = w.ends) (h2 : w.reads ≤ w'.reads) (h0 : w'.trace = w.trace ++ [s]) :
    w'.Clocked clock (d + pendingOf s.inner) := by
  obtain ⟨⟨l, h3, h4⟩, h5⟩ := h
  refine ⟨⟨l, h1 ▸ h3, fun r hr => (h4 r hr).trans_le h2⟩, ?_⟩
  unfold World.ownShown World.ownEnds pendingOf at *
  rw [h0, h1, List.countP_append, h5]
  cases hs : s.inner <;> simp [hs, add_assoc]

theorem World.Clocked.tick {clock : ℕ → ℝ} {d : ℕ} {w : World} {inner : Bool} (h : w.Clocked clock (d + pendingOf inner))
    {j : ℕ} (hj : j < w.reads) (hi : inner = false → j = 0) :
    (w.tick inner (clock w.reads - clock j)).Clocked clock d := by
  obtain ⟨⟨l, h3, h4⟩, h5⟩ := h
  refine ⟨⟨l ++ [(j, w.reads)], ⟨List.rel_append h3.times (.cons ⟨rfl, hi⟩ .nil), ?_, ?_⟩, ?_⟩, ?_⟩
  · intro r hr
    rw [List.mem_append, List.mem_singleton] at hr
    rcases hr with hr | rfl
    · exact h3.after r hr
    · exact hj
  · refine List.pairwise_append.2 ⟨h3.fresh, List.pairwise_singleton _ _, fun a ha b hb => ?_⟩
    rw [List.mem_singleton] at hb
    subst hb
    exact h4 a ha
  · intro r hr
    show r.2 < w.reads + 1
    rw [List.mem_append, List.mem_singleton] at hr
    rcases hr with hr | rfl
    · exact (h4 r hr).trans (Nat.lt_succ_self _)
    · exact Nat.lt_succ_self _
  · unfold World.ownShown World.ownEnds pendingOf World.tick at *
    rw [List.countP_append, h5]
    cases inner
    · simp; omega
    · simp

/-- What follows a step, or feasibility restoration: `r` is the number of readings before. -/
def Moved.Clocked (clock : ℕ → ℝ) (d r : ℕ) : Moved n m k → Prop
  | .stop res => res.world.Clocked clock d ∧ r ≤ res.world.reads
  | .go _ w _ => w.Clocked clock d ∧ r ≤ w.reads

/-- Feasibility restoration. -/
def RestoreClocked (clock : ℕ → ℝ) (restore : RestoreFn n m k) : Prop :=
  ∀ st α w E mv d, w.Clocked clock d → restore st α w E = some mv → mv.Clocked clock d w.reads

theorem ipmMove_clocked {env : Env} {opts : SolverOptions} {P : Nlp n m k} {restore : RestoreFn n m k}
    (hR : RestoreClocked env.clock restore) {st : IpmState n m k} {w : World} {E : Filter} {d : ℕ}
    (hw : w.Clocked env.clock d) {mv : Moved n m k} (h : ipmMove env opts P restore st w E = some mv) :
    mv.Clocked env.clock d w.reads := by
  unfold ipmMove at h
  split at h
  · obtain rfl := Option.some.inj h
    exact ⟨hw.same rfl le_rfl rfl, le_rfl⟩
  simp only at h
  obtain ⟨ls, -, h⟩ := Option.bind_eq_some_iff.1 h
  have hw' : World.Clocked env.clock d { w with factors := w.factors + 1, solves := ls.solves } := hw.same rfl le_rfl rfl
  split at h
  · have := hR _ _ _ _ _ _ hw' h; exact this
  cases hacc : ls.accepted with
  | none =>
    rw [hacc] at h
    have := hR _ _ _ _ _ _ hw' h; exact this
  | some b =>
    rw [hacc] at h
    obtain rfl := Option.some.inj h
    exact ⟨hw.same rfl le_rfl rfl, le_rfl⟩

theorem ipmLoop_clocked {env : Env} {opts : SolverOptions} {P : Nlp n m k} {cbs : List Callback}
    {extra : Extra} {inner : Bool} {restore : RestoreFn n m k} {j : ℕ} (hi : inner = false → j = 0)
    (hR : RestoreClocked env.clock restore) (r : ℕ)
    {st : IpmState n m k} {w : World} {E : Filter} {d : ℕ} (hw : w.Clocked env.clock d) (hj : j < w.reads)
    {res : IpmResult n m k} (h : ipmLoop env opts P cbs extra inner restore (env.clock j) r st w E = some res) :
    (∃ d' ∈ Set.Icc d (d + pendingOf inner), res.world.Clocked env.clock d') ∧ w.reads ≤ res.world.reads := by
  induction r generalizing st w E with
  | zero => simp [ipmLoop] at h
  | succ r ih =>
    rw [ipmLoop] at h
    split at h
    · obtain rfl := Option.some.inj h; exact ⟨⟨d, by simp, hw⟩, le_rfl⟩
    split at h
    · obtain rfl := Option.some.inj h; exact ⟨⟨d, by simp, hw⟩, le_rfl⟩
    split at h
    · obtain rfl := Option.some.inj h; exact ⟨⟨d, by simp, hw⟩, le_rfl⟩
    split at h
    · obtain rfl := Option.some.inj h; exact ⟨⟨d, by simp, hw⟩, le_rfl⟩
    have hn : (ipmNotify cbs extra inner st w E).1.Clocked env.clock (d + pendingOf inner) :=
      hw.shown (s := ⟨inner, st.info, st.μ, st.τ⟩) rfl le_rfl rfl
    simp only at h
    split at h
    · obtain rfl := Option.some.inj h; exact ⟨⟨_, by simp, hn⟩, le_rfl⟩
    obtain ⟨mv, h1, h2⟩ := Option.bind_eq_some_iff.1 h
    have hm := ipmMove_clocked hR hn h1
    cases mv with
    | stop r =>
      obtain rfl := Option.some.inj h2
      exact ⟨⟨_, by simp, hm.1⟩, hm.2⟩
    | go st2 w2 E2 =>
      have hm2 : w.reads ≤ w2.reads := hm.2
      obtain ⟨st3, h3, h4⟩ := Option.bind_eq_some_iff.1 h2
      split at h4
      · obtain rfl := Option.some.inj h4; exact ⟨⟨_, by simp, hm.1⟩, hm.2⟩
      have ht := hm.1.tick (inner := inner) (j := j) (hj.trans_le hm.2) hi
      split at h4
      · obtain rfl := Option.some.inj h4
        exact ⟨⟨d, by simp, ht⟩, hm2.trans (Nat.le_succ _)⟩
      · obtain ⟨h5, h6⟩ := ih ht (hj.trans_le (hm2.trans (Nat.le_succ _))) h4
        exact ⟨h5, (hm2.trans (Nat.le_succ _)).trans h6⟩

theorem ipmRun_clocked {env : Env} {opts : SolverOptions} {P : Nlp n m k} {cbs : List Callback}
    {extra : Extra} {inner : Bool} {restore : RestoreFn n m k} (hR : RestoreClocked env.clock restore) {x : Vec n}
    {s : Vec k} {y : Vec m} {z : Vec k} {μ : Fl} {it : ℕ} {w : World} {E : Filter} (hi : inner = false → w.reads = 0)
    {d : ℕ} (hw : w.Clocked env.clock d)
    {res : IpmResult n m k} (h : ipmRun env opts P cbs extra inner restore x s y z μ it w E = some res) :
    (∃ d' ∈ Set.Icc d (d + pendingOf inner), res.world.Clocked env.clock d') ∧ w.reads ≤ res.world.reads := by
  unfold ipmRun at h
  simp only at h
  have hw1 : World.Clocked env.clock d { w with reads := w.reads + 1, vars := P.vars x } := hw.same rfl (Nat.le_succ _) rfl
  split at h
  · obtain rfl := Option.some.inj h; exact ⟨⟨d, by simp, hw1⟩, Nat.le_succ _⟩
  split at h
  · obtain rfl := Option.some.inj h; exact ⟨⟨d, by simp, hw1⟩, Nat.le_succ _⟩
  · obtain ⟨h5, h6⟩ := ipmLoop_clocked hi hR _ hw1 (Nat.lt_succ_self _) h
    exact ⟨h5, (Nat.le_succ _).trans h6⟩

theorem restoreInner_clocked (clock : ℕ → ℝ) : RestoreClocked clock (restoreInner (n := n) (m := m) (k := k)) := by
  intro st α w E mv d hw h
  obtain rfl := Option.some.inj h
  exact ⟨hw, le_rfl⟩

theorem frRun_clocked {env : Env} {opts : SolverOptions} {P : Nlp n m k} {cbs : List Callback} {extra : Extra} {x : Vec n}
    {s : Vec k} {μ : Fl} {it : ℕ} {w : World} {E : Filter} {d : ℕ} (hw : w.Clocked env.clock d)
    {res : IpmResult (n + relaxed m k) m (k + relaxed m k)}
    (h : frRun env opts P cbs extra x s μ it w E = some res) :
    res.world.Clocked env.clock d ∧ w.reads ≤ res.world.reads := by
  obtain ⟨⟨d', ⟨h1, h2⟩, h3⟩, h4⟩ := ipmRun_clocked (restoreInner_clocked _) (by simp) hw h
  obtain rfl : d' = d := le_antisymm h2 h1
  exact ⟨h3, h4⟩

theorem restoreIpm_clocked {env : Env} {opts : SolverOptions} {P : Nlp n m k} {cbs : List Callback} :
    RestoreClocked env.clock (restoreIpm env opts P cbs) := by
  intro st α w E mv d hw h
  obtain ⟨res, h1, h2⟩ := Option.map_eq_some_iff.1 h
  have hr := frRun_clocked hw h1
  simp only at h2
  split at h2
  · subst h2; exact ⟨hr.1.same rfl le_rfl rfl, hr.2⟩
  · subst h2; exact hr

theorem interiorPoint_clocked {env : Env} {opts : SolverOptions} {P : Nlp n m k} {cbs : List Callback} {x : Vec n}
    {res : IpmResult n m k} (h : interiorPoint env opts P cbs x .start = some res) : ∃ d ≤ 1, res.world.Clocked env.clock d := by
  obtain ⟨⟨d, h1, h2⟩, -⟩ := ipmRun_clocked restoreIpm_clocked (fun _ => rfl) (.start _) h
  exact ⟨d, by simpa [pendingOf] using h1.2, h2⟩

theorem sqpMove_clocked {env : Env} {opts : SolverOptions} {P : Nlp n m 0} {cbs : List Callback} {st : SqpState n m}
    {w : World} {d : ℕ} (hw : w.Clocked env.clock d) {mv : SqpMoved n m} (h : sqpMove env opts P cbs st w = some mv) :
    mv.elim (fun r => r.world.Clocked env.clock d) fun _ w' => w'.Clocked env.clock d ∧ w.reads ≤ w'.reads := by
  have hres : ∀ {st α w2 mv}, w2.reads = w.reads → w2.Clocked env.clock d → restoreSqp env opts P cbs st α w2 = some mv →
      mv.elim (fun r => r.world.Clocked env.clock d) fun _ w' => w'.Clocked env.clock d ∧ w.reads ≤ w'.reads := by
    intro st α w2 mv he hw2 h
    obtain ⟨res, h1, h2⟩ := Option.map_eq_some_iff.1 h
    have hr := frRun_clocked hw2 h1
    simp only at h2
    split at h2
    · subst h2; exact ⟨hr.1.same rfl le_rfl rfl, he ▸ hr.2⟩
    · subst h2; exact hr.1
  unfold sqpMove at h
  split at h
  · obtain rfl := Option.some.inj h
    exact hw.same rfl le_rfl rfl
  simp only at h
  obtain ⟨ls, -, h⟩ := Option.bind_eq_some_iff.1 h
  cases hacc : ls.accepted with
  | none =>
    rw [hacc] at h
    exact hres (w2 := { w with factors := w.factors + 1, solves := ls.solves }) rfl (hw.same rfl le_rfl rfl) h
  | some b =>
    rw [hacc] at h
    obtain rfl := Option.some.inj h
    exact ⟨hw.same rfl le_rfl rfl, le_rfl⟩

theorem sqpLoop_clocked {env : Env} {opts : SolverOptions} {P : Nlp n m 0} {cbs : List Callback} (r : ℕ)
    {st : SqpState n m} {w : World} (hw : w.Clocked env.clock 0) (hj : 0 < w.reads) {res : SqpResult n m}
    (h : sqpLoop env opts P cbs (env.clock 0) r st w = some res) : ∃ d ≤ 1, res.world.Clocked env.clock d := by
  induction r generalizing st w with
  | zero => simp [sqpLoop] at h
  | succ r ih =>
    rw [sqpLoop] at h
    split at h
    · obtain rfl := Option.some.inj h; exact ⟨0, by simp, hw⟩
    split at h
    · obtain rfl := Option.some.inj h; exact ⟨0, by simp, hw⟩
    split at h
    · obtain rfl := Option.some.inj h; exact ⟨0, by simp, hw⟩
    have hn : World.Clocked env.clock 1 { w with
        calls := (runRegistered st.info 0 cbs w.calls).1, trace := w.trace ++ [⟨false, st.info, 0, 0⟩]
        seen := w.seen ++ [w.vars] } := hw.shown (s := ⟨false, st.info, 0, 0⟩) rfl le_rfl rfl
    simp only at h
    split at h
    · obtain rfl := Option.some.inj h; exact ⟨1, le_rfl, hn⟩
    obtain ⟨mv, h1, h2⟩ := Option.bind_eq_some_iff.1 h
    have hm := sqpMove_clocked hn h1
    cases mv with
    | stop r =>
      obtain rfl := Option.some.inj h2
      exact ⟨1, le_rfl, hm⟩
    | go st2 w2 =>
      have hm2 : w.reads ≤ w2.reads := hm.2
      simp only [SqpMoved.elim] at h2
      split at h2
      · obtain rfl := Option.some.inj h2; exact ⟨1, le_rfl, hm.1⟩
      have ht := hm.1.tick (d := 0) (inner := false) (j := 0) (hj.trans_le hm2) fun _ => rfl
      split at h2
      · obtain rfl := Option.some.inj h2; exact ⟨0, by simp, ht⟩
      · exact ih ht (Nat.succ_pos _) h2

theorem sqp_clocked {env : Env} {opts : SolverOptions} {P : Nlp n m 0} {cbs : List Callback} {x : Vec n}
    {res : SqpResult n m} (h : sqp env opts P cbs x .start = some res) : ∃ d ≤ 1, res.world.Clocked env.clock d := by
  unfold sqp sqpRun at h
  simp only at h
  have hw1 : World.Clocked env.clock 0 { World.start with reads := World.start.reads + 1, vars := P.vars x } :=
    (World.Clocked.start _).same rfl (Nat.le_succ _) rfl
  split at h
  · obtain rfl := Option.some.inj h
    exact ⟨0, by simp, hw1⟩
  split at h
  · obtain rfl := Option.some.inj h
    exact ⟨0, by simp, hw1⟩
  · exact sqpLoop_clocked _ hw1 (Nat.succ_pos _) h

theorem newtonLoop_clocked {env : Env} {opts : SolverOptions} {P : Nlp n 0 0} {cbs : List Callback} (r : ℕ)
    {st : NewtonState n} {w : World} (hw : w.Clocked env.clock 0) (hj : 0 < w.reads) {res : NewtonResult n}
    (h : newtonLoop env opts P cbs (env.clock 0) r st w = some res) : ∃ d ≤ 1, res.world.Clocked env.clock d := by
  induction r generalizing st w with
  | zero => simp [newtonLoop] at h
  | succ r ih =>
    rw [newtonLoop] at h
    split at h
    · obtain rfl := Option.some.inj h; exact ⟨0, by simp, hw⟩
    split at h
    · obtain rfl := Option.some.inj h; exact ⟨0, by simp, hw⟩
    have hn : World.Clocked env.clock 1 { w with
        calls := (runRegistered st.info 0 cbs w.calls).1, trace := w.trace ++ [⟨false, st.info, 0, 0⟩]
        seen := w.seen ++ [w.vars] } := hw.shown (s := ⟨false, st.info, 0, 0⟩) rfl le_rfl rfl
    simp only at h
    split at h
    · obtain rfl := Option.some.inj h; exact ⟨1, le_rfl, hn⟩
    obtain ⟨ls, -, h⟩ := Option.bind_eq_some_iff.1 h
    cases hacc : ls.accepted with
    | none =>
      rw [hacc] at h
      obtain rfl := Option.some.inj h; exact ⟨1, le_rfl, hn.same rfl le_rfl rfl⟩
    | some b =>
      rw [hacc, Option.elim_some] at h
      split at h
      · obtain rfl := Option.some.inj h; exact ⟨1, le_rfl, hn.same rfl le_rfl rfl⟩
      split at h
      · obtain rfl := Option.some.inj h
        exact ⟨0, by simp, World.Clocked.tick (d := 0) (inner := false) (hn.same rfl le_rfl rfl) hj fun _ => rfl⟩
      · refine ih ?_ ?_ h
        · exact World.Clocked.tick (d := 0) (inner := false) (hn.same rfl le_rfl rfl) hj fun _ => rfl
        · exact Nat.succ_pos _

theorem newton_clocked {env : Env} {opts : SolverOptions} {P : Nlp n 0 0} {cbs : List Callback} {x : Vec n}
    {res : NewtonResult n} (h : newton env opts P cbs x .start = some res) : ∃ d ≤ 1, res.world.Clocked env.clock d := by
  unfold newton at h
  simp only at h
  have hw1 : World.Clocked env.clock 0 { World.start with reads := World.start.reads + 1, vars := P.vars x } :=
    (World.Clocked.start _).same rfl (Nat.le_succ _) rfl
  split at h
  · obtain rfl := Option.some.inj h
    exact ⟨0, by simp, hw1⟩
  · exact newtonLoop_clocked _ hw1 (Nat.succ_pos _) h

end Slp
