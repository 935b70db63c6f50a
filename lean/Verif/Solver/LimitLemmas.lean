import Verif.Solver.SqpModel
import Verif.Solver.NewtonModel

/-! Lemmas for C87: runs of the solvers with other limits on iterations and time. -/

namespace Slp

open Classical

variable {n m k : ℕ}

/-- What was shown and called in `w` is the beginning of what was shown and called in `w'`. -/
structure World.Before (w w' : World) : Prop where
  calls : w.calls <+: w'.calls
  trace : w.trace <+: w'.trace
  seen : w.seen <+: w'.seen
  ends : w.ends <+: w'.ends

theorem World.Before.refl (w : World) : w.Before w :=
  ⟨List.prefix_refl _, List.prefix_refl _, List.prefix_refl _, List.prefix_refl _⟩

theorem World.Before.trans {w w' w'' : World} (h : w.Before w') (h' : w'.Before w'') : w.Before w'' :=
  ⟨h.calls.trans h'.calls, h.trace.trans h'.trace, h.seen.trans h'.seen, h.ends.trans h'.ends⟩

theorem World.Before.tick (w : World) (inner : Bool) (t : ℝ) : w.Before (w.tick inner t) :=
  ⟨List.prefix_refl _, List.prefix_refl _, List.prefix_refl _, List.prefix_append _ _⟩

/-- A limit ended the solver: that of this solver, or that of its feasibility restoration. -/
def ExitStatus.Limit (s : ExitStatus) : Prop := s = .maxIterationsExceeded ∨ s = .timeout ∨ s = .feasibilityRestorationFailed

/-- The same options with higher limits. -/
structure SolverOptions.Within (opts opts' : SolverOptions) : Prop where
  tolerance : opts'.tolerance = opts.tolerance
  feasibleIpm : opts'.feasibleIpm = opts.feasibleIpm
  maxIterations : opts.maxIterations ≤ opts'.maxIterations
  timeout : opts.timeout ≤ opts'.timeout

theorem SolverOptions.Within.time {opts opts' : SolverOptions} (h : opts.Within opts') {t : ℝ} (ht : Fl.fin t > opts'.timeout) :
    Fl.fin t > opts.timeout := by
  have h1 := h.timeout
  revert h1 ht
  generalize opts.timeout = a
  generalize opts'.timeout = b
  intro ht h1
  cases a <;> cases b <;> first | exact trivial | exact absurd h1 id | exact absurd ht id | exact lt_of_le_of_lt ((Fl.fin_le _ _).1 h1) ht

theorem runRegistered_prefix (info : Info) (i : ℕ) (cbs : List Callback) (calls : List Call) :
    calls <+: (runRegistered info i cbs calls).1 := by
  induction cbs generalizing i calls with
  | nil => exact List.prefix_refl _
  | cons cb cbs ih =>
    rw [runRegistered]
    split
    · exact List.prefix_append _ _
    · exact (List.prefix_append _ _).trans (ih _ _)

/-! ### The interior-point solver -/

/-- What happened up to the new iterate. -/
def Moved.after : Moved n m k → World
  | .stop r => r.world
  | .go _ w _ => w

/-- A way to restore feasibility that does not undo what happened. -/
def RestoreFn.Extends (restore : RestoreFn n m k) : Prop :=
  ∀ st α w E M, restore st α w E = some M → w.Before M.after

/-- A way to restore feasibility, with higher limits. -/
def RestoreFn.Limits (restore restore' : RestoreFn n m k) : Prop :=
  ∀ st α w E M M', restore st α w E = some M → restore' st α w E = some M' →
    M = M' ∨ ∃ a, M = .stop a ∧ a.status.Limit ∧ a.world.Before M'.after

theorem ipmNotify_before (cbs : List Callback) (extra : Extra) (inner : Bool) (st : IpmState n m k) (w : World) (E : Filter) :
    w.Before (ipmNotify cbs extra inner st w E).1 := by
  refine ⟨?_, List.prefix_append _ _, List.prefix_append _ _, List.prefix_refl _⟩
  show w.calls <+: (runCallbacks cbs extra st.info w.calls E).1
  unfold runCallbacks
  simp only
  split <;> exact runRegistered_prefix _ _ _ _

theorem ipmMove_before (env : Env) (opts : SolverOptions) (P : Nlp n m k) {restore : RestoreFn n m k} (hr : restore.Extends)
    (st : IpmState n m k) (w : World) (E : Filter) {M : Moved n m k} (h : ipmMove env opts P restore st w E = some M) :
    w.Before M.after := by
  have hs : ∀ f s, w.Before { w with factors := f, solves := s } := fun _ _ =>
    ⟨List.prefix_refl _, List.prefix_refl _, List.prefix_refl _, List.prefix_refl _⟩
  unfold ipmMove at h
  split at h
  · obtain rfl := Option.some.inj h
    exact hs _ w.solves
  · obtain ⟨ls, -, h⟩ := Option.bind_eq_some_iff.1 h
    simp only at h
    split at h
    · exact (hs _ _).trans (hr _ _ _ _ _ h)
    · cases hl : ls.accepted with
      | none =>
        rw [hl] at h
        exact (hs _ _).trans (hr _ _ _ _ _ h)
      | some b =>
        rw [hl] at h
        obtain rfl := Option.some.inj h
        exact ⟨List.prefix_refl _, List.prefix_refl _, List.prefix_refl _, List.prefix_refl _⟩

theorem ipmLoop_before (env : Env) (opts : SolverOptions) (P : Nlp n m k) (cbs : List Callback) (extra : Extra) (inner : Bool)
    {restore : RestoreFn n m k} (hr : restore.Extends) (start : ℝ) (r : ℕ) (st : IpmState n m k) (w : World) (E : Filter)
    {b : IpmResult n m k} (h : ipmLoop env opts P cbs extra inner restore start r st w E = some b) : w.Before b.world := by
  induction r generalizing st w E with
  | zero => simp [ipmLoop] at h
  | succ r ih =>
    rw [ipmLoop] at h
    split at h
    · obtain rfl := Option.some.inj h; exact .refl _
    split at h
    · obtain rfl := Option.some.inj h; exact .refl _
    split at h
    · obtain rfl := Option.some.inj h; exact .refl _
    split at h
    · obtain rfl := Option.some.inj h; exact .refl _
    simp only at h
    have hn := ipmNotify_before cbs extra inner st w E
    split at h
    · obtain rfl := Option.some.inj h; exact hn
    · obtain ⟨M, hM, h⟩ := Option.bind_eq_some_iff.1 h
      have hm := hn.trans (ipmMove_before env opts P hr _ _ _ hM)
      rcases M with a | ⟨st2, w2, E2⟩
      · obtain rfl := Option.some.inj h; exact hm
      · obtain ⟨st3, -, h⟩ := Option.bind_eq_some_iff.1 h
        split_ifs at h
        · obtain rfl := Option.some.inj h; exact hm
        · obtain rfl := Option.some.inj h; exact hm.trans (.tick _ _ _)
        · exact hm.trans ((World.Before.tick _ _ _).trans (ih _ _ _ h))

theorem ipmLineSearch_limits (env : Env) {opts opts' : SolverOptions} (ho : opts.Within opts') (P : Nlp n m k) (st : IpmState n m k)
    (p : IpmStep n m k) (αmax αz D : Fl) (r : ℕ) (α : Fl) (F : Filter) (c i : ℕ) :
    ipmLineSearch env opts' P st p αmax αz D r α F c i = ipmLineSearch env opts P st p αmax αz D r α F c i := by
  induction r generalizing α F c i with
  | zero => rfl
  | succ r ih =>
    have hf : feasibleMode opts' st = feasibleMode opts st := by unfold feasibleMode; rw [ho.feasibleIpm]
    rw [ipmLineSearch, ipmLineSearch]
    simp only [ih, hf]

theorem ipmMove_limits (env : Env) {opts opts' : SolverOptions} (ho : opts.Within opts') (P : Nlp n m k)
    {restore restore' : RestoreFn n m k} (hr : restore.Limits restore') (st : IpmState n m k) (w : World) (E : Filter)
    {M M' : Moved n m k} (h : ipmMove env opts P restore st w E = some M) (h' : ipmMove env opts' P restore' st w E = some M') :
    M = M' ∨ ∃ a, M = .stop a ∧ a.status.Limit ∧ a.world.Before M'.after := by
  unfold ipmMove at h h'
  simp only [ipmLineSearch_limits env ho] at h'
  split at h
  · rename_i hf
    rw [if_pos hf] at h'
    exact .inl (Option.some.inj (h.symm.trans h'))
  · rename_i hf
    rw [if_neg hf] at h'
    obtain ⟨ls, hls, h⟩ := Option.bind_eq_some_iff.1 h
    obtain ⟨ls', hls', h'⟩ := Option.bind_eq_some_iff.1 h'
    obtain rfl : ls = ls' := Option.some.inj (hls.symm.trans hls')
    simp only at h h'
    split at h
    · rename_i ha
      rw [if_pos ha] at h'
      exact hr _ _ _ _ _ _ h h'
    · rename_i ha
      rw [if_neg ha] at h'
      cases hl : ls.accepted with
      | none =>
        rw [hl] at h h'
        exact hr _ _ _ _ _ _ h h'
      | some b =>
        rw [hl] at h h'
        exact .inl (Option.some.inj (h.symm.trans h'))

theorem ipmFinish_limits (env : Env) {opts opts' : SolverOptions} (ho : opts.Within opts') (P : Nlp n m k) (st : IpmState n m k) :
    ipmFinish env opts' P st = ipmFinish env opts P st := by
  unfold ipmFinish muMin
  rw [ho.tolerance]

theorem ipmLoop_limits (env : Env) {opts opts' : SolverOptions} (ho : opts.Within opts') (P : Nlp n m k) (cbs : List Callback)
    (extra : Extra) (inner : Bool) {restore restore' : RestoreFn n m k} (hr : restore.Limits restore') (hx : restore'.Extends)
    (start : ℝ) (r r' : ℕ) (st : IpmState n m k) (w : World) (E : Filter) {a b : IpmResult n m k}
    (h : ipmLoop env opts P cbs extra inner restore start r st w E = some a)
    (h' : ipmLoop env opts' P cbs extra inner restore' start r' st w E = some b) :
    a = b ∨ a.status.Limit ∧ a.world.Before b.world := by
  induction r generalizing st w E r' with
  | zero => simp [ipmLoop] at h
  | succ r ih =>
    rcases r' with _ | r'
    · simp [ipmLoop] at h'
    have hb := h'
    rw [ipmLoop] at h h'
    rw [ho.tolerance] at h'
    split at h
    · rename_i hc; rw [if_pos hc] at h'; exact .inl (Option.some.inj (h.symm.trans h'))
    rename_i hc; rw [if_neg hc] at h'
    split at h
    · rename_i hc; rw [if_pos hc] at h'; exact .inl (Option.some.inj (h.symm.trans h'))
    rename_i hc; rw [if_neg hc] at h'
    split at h
    · rename_i hc; rw [if_pos hc] at h'; exact .inl (Option.some.inj (h.symm.trans h'))
    rename_i hc; rw [if_neg hc] at h'
    split at h
    · rename_i hc; rw [if_pos hc] at h'; exact .inl (Option.some.inj (h.symm.trans h'))
    rename_i hc; rw [if_neg hc] at h'
    simp only at h h'
    split at h
    · rename_i hc; rw [if_pos hc] at h'; exact .inl (Option.some.inj (h.symm.trans h'))
    rename_i hc; rw [if_neg hc] at h'
    obtain ⟨M, hM, h⟩ := Option.bind_eq_some_iff.1 h
    obtain ⟨M', hM', h'⟩ := Option.bind_eq_some_iff.1 h'
    have hafter : M'.after.Before b.world := by
      rcases M' with a' | ⟨st2, w2, E2⟩
      · obtain rfl := Option.some.inj h'; exact .refl _
      · obtain ⟨st3, -, h'⟩ := Option.bind_eq_some_iff.1 h'
        split_ifs at h'
        · obtain rfl := Option.some.inj h'; exact .refl _
        · obtain rfl := Option.some.inj h'; exact .tick _ _ _
        · exact (World.Before.tick _ _ _).trans (ipmLoop_before env opts' P cbs extra inner hx _ _ _ _ _ h')
    rcases ipmMove_limits env ho P hr _ _ _ hM hM' with rfl | ⟨a', rfl, ha, hw⟩
    · rcases M with a' | ⟨st2, w2, E2⟩
      · exact .inl (Option.some.inj (h.symm.trans h'))
      · obtain ⟨st3, h3, h⟩ := Option.bind_eq_some_iff.1 h
        obtain ⟨st3', h3', h'⟩ := Option.bind_eq_some_iff.1 h'
        rw [ipmFinish_limits env ho] at h3'
        obtain rfl : st3 = st3' := Option.some.inj (h3.symm.trans h3')
        split at h
        · obtain rfl := Option.some.inj h
          exact .inr ⟨.inl rfl, hafter⟩
        · rename_i hi
          rw [if_neg fun hi' => hi (ho.maxIterations.trans hi')] at h'
          split at h
          · obtain rfl := Option.some.inj h
            refine .inr ⟨.inr (.inl rfl), ?_⟩
            show (w2.tick _ _).Before _
            split at h'
            · obtain rfl := Option.some.inj h'; exact .refl _
            · exact ipmLoop_before env opts' P cbs extra inner hx _ _ _ _ _ h'
          · rename_i ht
            rw [if_neg fun ht' => ht (ho.time ht')] at h'
            exact ih _ _ _ _ h h'
    · obtain rfl := Option.some.inj h
      exact .inr ⟨ha, hw.trans hafter⟩

theorem ipmRun_before (env : Env) (opts : SolverOptions) (P : Nlp n m k) (cbs : List Callback) (extra : Extra) (inner : Bool)
    {restore : RestoreFn n m k} (hr : restore.Extends) (x : Vec n) (s : Vec k) (y : Vec m) (z : Vec k) (μ : Fl) (iterations : ℕ)
    (w : World) (E : Filter) {b : IpmResult n m k} (h : ipmRun env opts P cbs extra inner restore x s y z μ iterations w E = some b) :
    w.Before b.world := by
  have h0 : w.Before { w with reads := w.reads + 1, vars := P.vars x } :=
    ⟨List.prefix_refl _, List.prefix_refl _, List.prefix_refl _, List.prefix_refl _⟩
  unfold ipmRun at h
  simp only at h
  split at h
  · obtain rfl := Option.some.inj h; exact h0
  split at h
  · obtain rfl := Option.some.inj h; exact h0
  · exact h0.trans (ipmLoop_before env opts P cbs extra inner hr _ _ _ _ _ h)

theorem ipmRun_limits (env : Env) {opts opts' : SolverOptions} (ho : opts.Within opts') (P : Nlp n m k) (cbs : List Callback)
    (extra : Extra) (inner : Bool) {restore restore' : RestoreFn n m k} (hr : restore.Limits restore') (hx : restore'.Extends)
    (x : Vec n) (s : Vec k) (y : Vec m) (z : Vec k) (μ : Fl) (iterations : ℕ) (w : World) (E : Filter) {a b : IpmResult n m k}
    (h : ipmRun env opts P cbs extra inner restore x s y z μ iterations w E = some a)
    (h' : ipmRun env opts' P cbs extra inner restore' x s y z μ iterations w E = some b) :
    a = b ∨ a.status.Limit ∧ a.world.Before b.world := by
  unfold ipmRun at h h'
  simp only at h h'
  split at h
  · rename_i hc; rw [if_pos hc] at h'; exact .inl (Option.some.inj (h.symm.trans h'))
  rename_i hc; rw [if_neg hc] at h'
  split at h
  · rename_i hc; rw [if_pos hc] at h'; exact .inl (Option.some.inj (h.symm.trans h'))
  rename_i hc; rw [if_neg hc] at h'
  exact ipmLoop_limits env ho P cbs extra inner hr hx _ _ _ _ _ _ h h'

theorem restoreInner_extends : (restoreInner : RestoreFn n m k).Extends := fun st α w E M h => by
  obtain rfl := Option.some.inj h
  exact .refl _

theorem restoreInner_limits : (restoreInner : RestoreFn n m k).Limits restoreInner := fun _ _ _ _ _ _ h h' =>
  .inl (Option.some.inj (h.symm.trans h'))

theorem restoreIpm_extends (env : Env) (opts : SolverOptions) (P : Nlp n m k) (cbs : List Callback) :
    (restoreIpm env opts P cbs).Extends := by
  intro st α w E M h
  obtain ⟨res, hres, h⟩ := Option.map_eq_some_iff.1 h
  have hb : w.Before res.world := ipmRun_before env opts _ cbs _ _ restoreInner_extends _ _ _ _ _ _ _ _ hres
  subst h
  simp only
  split
  · exact hb.trans ⟨List.prefix_refl _, List.prefix_refl _, List.prefix_refl _, List.prefix_refl _⟩
  · exact hb

theorem ExitStatus.Limit.ne {s : ExitStatus} (h : s.Limit) : s ≠ .callbackRequestedStop ∧ s ≠ .success := by
  rcases h with rfl | rfl | rfl <;> exact ⟨by simp, by simp⟩

theorem restoreIpm_limits (env : Env) {opts opts' : SolverOptions} (ho : opts.Within opts') (P : Nlp n m k) (cbs : List Callback) :
    (restoreIpm env opts P cbs).Limits (restoreIpm env opts' P cbs) := by
  intro st α w E M M' h h'
  obtain ⟨res, hres, h⟩ := Option.map_eq_some_iff.1 h
  obtain ⟨res', hres', h'⟩ := Option.map_eq_some_iff.1 h'
  rcases ipmRun_limits env ho _ cbs _ _ restoreInner_limits restoreInner_extends _ _ _ _ _ _ _ _ hres hres' with rfl | ⟨hs, hw⟩
  · exact .inl (h.symm.trans h')
  · simp only at h
    rw [if_neg hs.ne.1, if_neg hs.ne.2] at h
    refine .inr ⟨_, h.symm, .inr (.inr rfl), hw.trans ?_⟩
    subst h'
    simp only
    split
    · exact ⟨List.prefix_refl _, List.prefix_refl _, List.prefix_refl _, List.prefix_refl _⟩
    · exact .refl _

/-! ### SQP -/

/-- What happened up to the new iterate. -/
def SqpMoved.after : SqpMoved n m → World
  | .stop r => r.world
  | .go _ w => w

theorem restoreSqp_before (env : Env) (opts : SolverOptions) (P : Nlp n m 0) (cbs : List Callback) (st : SqpState n m) (α : Fl)
    (w : World) {M : SqpMoved n m} (h : restoreSqp env opts P cbs st α w = some M) : w.Before M.after := by
  obtain ⟨res, hres, h⟩ := Option.map_eq_some_iff.1 h
  have hb : w.Before res.world := ipmRun_before env opts _ cbs _ _ restoreInner_extends _ _ _ _ _ _ _ _ hres
  subst h
  simp only
  split
  · exact hb.trans ⟨List.prefix_refl _, List.prefix_refl _, List.prefix_refl _, List.prefix_refl _⟩
  · exact hb

theorem restoreSqp_limits (env : Env) {opts opts' : SolverOptions} (ho : opts.Within opts') (P : Nlp n m 0) (cbs : List Callback)
    (st : SqpState n m) (α : Fl) (w : World) {M M' : SqpMoved n m} (h : restoreSqp env opts P cbs st α w = some M)
    (h' : restoreSqp env opts' P cbs st α w = some M') :
    M = M' ∨ ∃ a, M = .stop a ∧ a.status.Limit ∧ a.world.Before M'.after := by
  unfold restoreSqp at h h'
  rw [ho.tolerance] at h'
  obtain ⟨res, hres, h⟩ := Option.map_eq_some_iff.1 h
  obtain ⟨res', hres', h'⟩ := Option.map_eq_some_iff.1 h'
  rcases ipmRun_limits env ho _ cbs _ _ restoreInner_limits restoreInner_extends _ _ _ _ _ _ _ _ hres hres' with rfl | ⟨hs, hw⟩
  · exact .inl (h.symm.trans h')
  · simp only at h
    rw [if_neg hs.ne.1, if_neg hs.ne.2] at h
    refine .inr ⟨_, h.symm, .inr (.inr rfl), hw.trans ?_⟩
    subst h'
    simp only
    split
    · exact ⟨List.prefix_refl _, List.prefix_refl _, List.prefix_refl _, List.prefix_refl _⟩
    · exact .refl _

theorem sqpMove_before (env : Env) (opts : SolverOptions) (P : Nlp n m 0) (cbs : List Callback)
    (st : SqpState n m) (w : World) {M : SqpMoved n m} (h : sqpMove env opts P cbs st w = some M) : w.Before M.after := by
  have hs : ∀ f s, w.Before { w with factors := f, solves := s } := fun _ _ =>
    ⟨List.prefix_refl _, List.prefix_refl _, List.prefix_refl _, List.prefix_refl _⟩
  unfold sqpMove at h
  split at h
  · obtain rfl := Option.some.inj h
    exact hs _ w.solves
  · obtain ⟨ls, -, h⟩ := Option.bind_eq_some_iff.1 h
    cases hl : ls.accepted with
    | none =>
      rw [hl] at h
      exact (hs _ _).trans (restoreSqp_before env opts P cbs _ _ _ h)
    | some b =>
      rw [hl] at h
      obtain rfl := Option.some.inj h
      exact ⟨List.prefix_refl _, List.prefix_refl _, List.prefix_refl _, List.prefix_refl _⟩

theorem sqpMove_limits (env : Env) {opts opts' : SolverOptions} (ho : opts.Within opts') (P : Nlp n m 0) (cbs : List Callback)
    (st : SqpState n m) (w : World) {M M' : SqpMoved n m} (h : sqpMove env opts P cbs st w = some M)
    (h' : sqpMove env opts' P cbs st w = some M') :
    M = M' ∨ ∃ a, M = .stop a ∧ a.status.Limit ∧ a.world.Before M'.after := by
  unfold sqpMove at h h'
  split at h
  · rename_i hf
    rw [if_pos hf] at h'
    exact .inl (Option.some.inj (h.symm.trans h'))
  · rename_i hf
    rw [if_neg hf] at h'
    obtain ⟨ls, hls, h⟩ := Option.bind_eq_some_iff.1 h
    obtain ⟨ls', hls', h'⟩ := Option.bind_eq_some_iff.1 h'
    obtain rfl : ls = ls' := Option.some.inj (hls.symm.trans hls')
    cases hl : ls.accepted with
    | none =>
      rw [hl] at h h'
      exact restoreSqp_limits env ho P cbs _ _ _ h h'
    | some b =>
      rw [hl] at h h'
      exact .inl (Option.some.inj (h.symm.trans h'))

theorem notify_before (cbs : List Callback) (info : Info) (i : ℕ) (s : Snapshot) (w : World) :
    w.Before { w with calls := (runRegistered info i cbs w.calls).1, trace := w.trace ++ [s], seen := w.seen ++ [w.vars] } :=
  ⟨runRegistered_prefix _ _ _ _, List.prefix_append _ _, List.prefix_append _ _, List.prefix_refl _⟩

theorem sqpLoop_before (env : Env) (opts : SolverOptions) (P : Nlp n m 0) (cbs : List Callback) (start : ℝ) (r : ℕ)
    (st : SqpState n m) (w : World) {b : SqpResult n m} (h : sqpLoop env opts P cbs start r st w = some b) : w.Before b.world := by
  induction r generalizing st w with
  | zero => simp [sqpLoop] at h
  | succ r ih =>
    rw [sqpLoop] at h
    split at h
    · obtain rfl := Option.some.inj h; exact .refl _
    split at h
    · obtain rfl := Option.some.inj h; exact .refl _
    split at h
    · obtain rfl := Option.some.inj h; exact .refl _
    simp only at h
    have hn := notify_before cbs st.info 0 ⟨false, st.info, 0, 0⟩ w
    split at h
    · obtain rfl := Option.some.inj h; exact hn
    · obtain ⟨M, hM, h⟩ := Option.bind_eq_some_iff.1 h
      have hm := hn.trans (sqpMove_before env opts P cbs _ _ hM)
      rcases M with a | ⟨st2, w2⟩
      · obtain rfl := Option.some.inj h; exact hm
      · simp only [SqpMoved.elim] at h
        split_ifs at h
        · obtain rfl := Option.some.inj h; exact hm
        · obtain rfl := Option.some.inj h; exact hm.trans (.tick _ _ _)
        · exact hm.trans ((World.Before.tick _ _ _).trans (ih _ _ h))

theorem sqpLoop_limits (env : Env) {opts opts' : SolverOptions} (ho : opts.Within opts') (P : Nlp n m 0) (cbs : List Callback)
    (start : ℝ) (r r' : ℕ) (st : SqpState n m) (w : World) {a b : SqpResult n m}
    (h : sqpLoop env opts P cbs start r st w = some a) (h' : sqpLoop env opts' P cbs start r' st w = some b) :
    a = b ∨ a.status.Limit ∧ a.world.Before b.world := by
  induction r generalizing st w r' with
  | zero => simp [sqpLoop] at h
  | succ r ih =>
    rcases r' with _ | r'
    · simp [sqpLoop] at h'
    rw [sqpLoop] at h h'
    rw [ho.tolerance] at h'
    split at h
    · rename_i hc; rw [if_pos hc] at h'; exact .inl (Option.some.inj (h.symm.trans h'))
    rename_i hc; rw [if_neg hc] at h'
    split at h
    · rename_i hc; rw [if_pos hc] at h'; exact .inl (Option.some.inj (h.symm.trans h'))
    rename_i hc; rw [if_neg hc] at h'
    split at h
    · rename_i hc; rw [if_pos hc] at h'; exact .inl (Option.some.inj (h.symm.trans h'))
    rename_i hc; rw [if_neg hc] at h'
    simp only at h h'
    split at h
    · rename_i hc; rw [if_pos hc] at h'; exact .inl (Option.some.inj (h.symm.trans h'))
    rename_i hc; rw [if_neg hc] at h'
    obtain ⟨M, hM, h⟩ := Option.bind_eq_some_iff.1 h
    obtain ⟨M', hM', h'⟩ := Option.bind_eq_some_iff.1 h'
    have hafter : M'.after.Before b.world := by
      rcases M' with a' | ⟨st2, w2⟩
      · obtain rfl := Option.some.inj h'; exact .refl _
      · simp only [SqpMoved.elim] at h'
        split_ifs at h'
        · obtain rfl := Option.some.inj h'; exact .refl _
        · obtain rfl := Option.some.inj h'; exact .tick _ _ _
        · exact (World.Before.tick _ _ _).trans (sqpLoop_before env opts' P cbs _ _ _ _ h')
    rcases sqpMove_limits env ho P cbs _ _ hM hM' with rfl | ⟨a', rfl, ha, hw⟩
    · rcases M with a' | ⟨st2, w2⟩
      · exact .inl (Option.some.inj (h.symm.trans h'))
      · simp only [SqpMoved.elim] at h h'
        split at h
        · obtain rfl := Option.some.inj h
          exact .inr ⟨.inl rfl, hafter⟩
        · rename_i hi
          rw [if_neg fun hi' => hi (ho.maxIterations.trans hi')] at h'
          split at h
          · obtain rfl := Option.some.inj h
            refine .inr ⟨.inr (.inl rfl), ?_⟩
            show (w2.tick _ _).Before _
            split at h'
            · obtain rfl := Option.some.inj h'; exact .refl _
            · exact sqpLoop_before env opts' P cbs _ _ _ _ h'
          · rename_i ht
            rw [if_neg fun ht' => ht (ho.time ht')] at h'
            exact ih _ _ _ h h'
    · obtain rfl := Option.some.inj h
      exact .inr ⟨ha, hw.trans hafter⟩

/-! ### Newton's method -/

theorem newtonLoop_before (env : Env) (opts : SolverOptions) (P : Nlp n 0 0) (cbs : List Callback) (start : ℝ) (r : ℕ)
    (st : NewtonState n) (w : World) {b : NewtonResult n} (h : newtonLoop env opts P cbs start r st w = some b) :
    w.Before b.world := by
  induction r generalizing st w with
  | zero => simp [newtonLoop] at h
  | succ r ih =>
    rw [newtonLoop] at h
    split at h
    · obtain rfl := Option.some.inj h; exact .refl _
    split at h
    · obtain rfl := Option.some.inj h; exact .refl _
    simp only at h
    have hn := notify_before cbs st.info 0 ⟨false, st.info, 0, 0⟩ w
    split at h
    · obtain rfl := Option.some.inj h; exact hn
    · obtain ⟨ls, -, h⟩ := Option.bind_eq_some_iff.1 h
      have hs : ∀ {w : World} f s v, w.Before { w with factors := f, solves := s, vars := v } := fun _ _ _ =>
        ⟨List.prefix_refl _, List.prefix_refl _, List.prefix_refl _, List.prefix_refl _⟩
      cases hl : ls.accepted with
      | none =>
        rw [hl] at h
        obtain rfl := Option.some.inj h
        exact hn.trans (hs _ _ w.vars)
      | some b =>
        rw [hl] at h
        simp only [Option.elim_some] at h
        split_ifs at h
        · obtain rfl := Option.some.inj h; exact hn.trans (hs _ _ _)
        · obtain rfl := Option.some.inj h; exact hn.trans ((hs _ _ _).trans (.tick _ _ _))
        · exact hn.trans ((hs _ _ _).trans ((World.Before.tick _ _ _).trans (ih _ _ h)))

theorem newtonLoop_limits (env : Env) {opts opts' : SolverOptions} (ho : opts.Within opts') (P : Nlp n 0 0) (cbs : List Callback)
    (start : ℝ) (r r' : ℕ) (st : NewtonState n) (w : World) {a b : NewtonResult n}
    (h : newtonLoop env opts P cbs start r st w = some a) (h' : newtonLoop env opts' P cbs start r' st w = some b) :
    a = b ∨ a.status.Limit ∧ a.world.Before b.world := by
  induction r generalizing st w r' with
  | zero => simp [newtonLoop] at h
  | succ r ih =>
    rcases r' with _ | r'
    · simp [newtonLoop] at h'
    rw [newtonLoop] at h h'
    rw [ho.tolerance] at h'
    split at h
    · rename_i hc; rw [if_pos hc] at h'; exact .inl (Option.some.inj (h.symm.trans h'))
    rename_i hc; rw [if_neg hc] at h'
    split at h
    · rename_i hc; rw [if_pos hc] at h'; exact .inl (Option.some.inj (h.symm.trans h'))
    rename_i hc; rw [if_neg hc] at h'
    simp only at h h'
    split at h
    · rename_i hc; rw [if_pos hc] at h'; exact .inl (Option.some.inj (h.symm.trans h'))
    rename_i hc; rw [if_neg hc] at h'
    obtain ⟨ls, hls, h⟩ := Option.bind_eq_some_iff.1 h
    obtain ⟨ls', hls', h'⟩ := Option.bind_eq_some_iff.1 h'
    obtain rfl : ls = ls' := Option.some.inj (hls.symm.trans hls')
    cases hl : ls.accepted with
    | none =>
      rw [hl] at h h'
      exact .inl (Option.some.inj (h.symm.trans h'))
    | some c =>
      rw [hl] at h h'
      simp only [Option.elim_some] at h h'
      split at h
      · obtain rfl := Option.some.inj h
        refine .inr ⟨.inl rfl, ?_⟩
        split_ifs at h'
        · obtain rfl := Option.some.inj h'; exact .refl _
        · obtain rfl := Option.some.inj h'; exact .tick _ _ _
        · exact (World.Before.tick _ _ _).trans (newtonLoop_before env opts' P cbs _ _ _ _ h')
      · rename_i hi
        rw [if_neg fun hi' => hi (ho.maxIterations.trans hi')] at h'
        split at h
        · obtain rfl := Option.some.inj h
          refine .inr ⟨.inr (.inl rfl), ?_⟩
          show (World.tick _ _ _).Before _
          split at h'
          · obtain rfl := Option.some.inj h'; exact .refl _
          · exact newtonLoop_before env opts' P cbs _ _ _ _ h'
        · rename_i ht
          rw [if_neg fun ht' => ht (ho.time ht')] at h'
          exact ih _ _ _ h h'

end Slp
