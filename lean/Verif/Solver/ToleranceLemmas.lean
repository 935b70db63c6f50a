import Verif.Solver.LimitLemmas

/-! Lemmas for C90: runs of `newton()` and `sqp()` with another tolerance. -/

namespace Slp

open Classical

variable {n m k : ℕ}

/-- The same options with a tolerance that is not larger and limits that are not lower. -/
structure SolverOptions.Tightens (opts opts' : SolverOptions) : Prop where
  tolerance : opts'.tolerance ≤ opts.tolerance
  maxIterations : opts.maxIterations ≤ opts'.maxIterations
  timeout : opts.timeout ≤ opts'.timeout

theorem SolverOptions.Tightens.time {opts opts' : SolverOptions} (h : opts.Tightens opts') {t : ℝ}
    (ht : Fl.fin t > opts'.timeout) : Fl.fin t > opts.timeout :=
  SolverOptions.Within.time (opts := opts) (opts' := { opts' with tolerance := opts.tolerance, feasibleIpm := opts.feasibleIpm })
    ⟨rfl, rfl, h.maxIterations, h.timeout⟩ ht

theorem SolverOptions.Tightens.error {opts opts' : SolverOptions} (h : opts.Tightens opts') {E : Fl}
    (hE : E > .fin opts.tolerance) : E > .fin opts'.tolerance := by
  revert hE
  cases E with
  | fin e => exact fun hE => lt_of_le_of_lt h.tolerance hE
  | pinf => exact fun _ => trivial
  | ninf => exact fun hE => hE
  | nan => exact fun hE => hE

/-- The solver reached its tolerance or a limit. -/
def ExitStatus.Pausing (s : ExitStatus) : Prop := s = .success ∨ s = .maxIterationsExceeded ∨ s = .timeout

/-! ### Newton's method -/

/-- The run that ended in `b` went through the iterate at which the one that ended in `a` stopped: it ended there, or
showed it to callbacks. -/
def NewtonResult.Reaches (b a : NewtonResult n) : Prop :=
  b.x = a.x ∧ b.iterations = a.iterations ∨
    ∃ s ∈ b.world.trace, s.inner = false ∧ s.info.x = List.ofFn a.x ∧ s.info.iteration = a.iterations

theorem newtonLoop_reaches (env : Env) (opts : SolverOptions) (P : Nlp n 0 0) (cbs : List Callback) (start : ℝ) (r : ℕ)
    (st : NewtonState n) (w : World) {b : NewtonResult n} (h : newtonLoop env opts P cbs start r st w = some b)
    (status : ExitStatus) (w' : World) : b.Reaches (st.exit status w') := by
  rcases r with _ | r
  · simp [newtonLoop] at h
  rw [newtonLoop] at h
  split at h
  · obtain rfl := Option.some.inj h; exact .inl ⟨rfl, rfl⟩
  split at h
  · obtain rfl := Option.some.inj h; exact .inl ⟨rfl, rfl⟩
  simp only at h
  split at h
  · obtain rfl := Option.some.inj h; exact .inl ⟨rfl, rfl⟩
  · refine .inr ⟨⟨false, st.info, 0, 0⟩, ?_, rfl, rfl, rfl⟩
    have hp : ∀ {w2 : World}, w2.trace = w.trace ++ [⟨false, st.info, 0, 0⟩] → w2.Before b.world →
        (⟨false, st.info, 0, 0⟩ : Snapshot) ∈ b.world.trace := fun he hb =>
      hb.trace.subset (he ▸ List.mem_append_right _ (List.mem_singleton_self _))
    obtain ⟨ls, -, h⟩ := Option.bind_eq_some_iff.1 h
    cases hl : ls.accepted with
    | none =>
      rw [hl] at h
      obtain rfl := Option.some.inj h
      exact hp rfl (.refl _)
    | some c =>
      rw [hl] at h
      simp only [Option.elim_some] at h
      split_ifs at h
      · obtain rfl := Option.some.inj h; exact hp rfl (.refl _)
      · obtain rfl := Option.some.inj h; exact hp rfl (.refl _)
      · refine hp ?_ (newtonLoop_before env opts P cbs _ _ _ _ h); rfl

theorem newtonLoop_tightens (env : Env) {opts opts' : SolverOptions} (ho : opts.Tightens opts') (P : Nlp n 0 0)
    (cbs : List Callback) (start : ℝ) (r r' : ℕ) (st : NewtonState n) (w : World) {a b : NewtonResult n}
    (h : newtonLoop env opts P cbs start r st w = some a) (h' : newtonLoop env opts' P cbs start r' st w = some b) :
    a = b ∨ a.status.Pausing ∧ a.world.Before b.world ∧ b.Reaches a := by
  induction r generalizing st w r' with
  | zero => simp [newtonLoop] at h
  | succ r ih =>
    have hre := newtonLoop_reaches env opts' P cbs start r' st w h'
    have hbe := newtonLoop_before env opts' P cbs start r' st w h'
    rcases r' with _ | r'
    · simp [newtonLoop] at h'
    rw [newtonLoop] at h h'
    split at h
    · obtain rfl := Option.some.inj h
      exact .inr ⟨.inl rfl, hbe, hre _ _⟩
    rename_i hc; rw [if_neg (not_not.2 (ho.error (not_not.1 hc)))] at h'
    split at h
    · rename_i hc; rw [if_pos hc] at h'; exact .inl (Option.some.inj (h.symm.trans h'))
    rename_i hc; rw [if_neg hc] at h'
    simp only at h h'
    split at h
    · rename_i hc; rw [if_pos hc] at h'; exact .inl (Option.some.inj (h.symm.trans h'))
    rename_i hc; rw [if_neg hc] at h'
    obtain ⟨ls, hls, h⟩ := Option.bind_eq_some_iff.1 h
    obtain ⟨ls', hls', h'⟩ := Option.bind_eq_some_iff.1 h'
    obtain rfl : ls = ls' := Option.some.inj (hls.symm.trans hls')
    cases hl : ls.accepted with
    | none =>
      rw [hl] at h h'
      exact .inl (Option.some.inj (h.symm.trans h'))
    | some c =>
      rw [hl] at h h'
      simp only [Option.elim_some] at h h'
      split at h
      · obtain rfl := Option.some.inj h
        refine .inr ⟨.inr (.inl rfl), ?_, ?_⟩
        · split_ifs at h'
          · obtain rfl := Option.some.inj h'; exact .refl _
          · obtain rfl := Option.some.inj h'; exact .tick _ _ _
          · exact (World.Before.tick _ _ _).trans (newtonLoop_before env opts' P cbs _ _ _ _ h')
        · split_ifs at h'
          · obtain rfl := Option.some.inj h'; exact .inl ⟨rfl, rfl⟩
          · obtain rfl := Option.some.inj h'; exact .inl ⟨rfl, rfl⟩
          · exact newtonLoop_reaches env opts' P cbs _ _ _ _ h' _ _
      · rename_i hi
        rw [if_neg fun hi' => hi (ho.maxIterations.trans hi')] at h'
        split at h
        · obtain rfl := Option.some.inj h
          refine .inr ⟨.inr (.inr rfl), ?_⟩
          split at h'
          · obtain rfl := Option.some.inj h'; exact ⟨.refl _, .inl ⟨rfl, rfl⟩⟩
          · exact ⟨newtonLoop_before env opts' P cbs _ _ _ _ h', newtonLoop_reaches env opts' P cbs _ _ _ _ h' _ _⟩
        · rename_i ht
          rw [if_neg fun ht' => ht (ho.time ht')] at h'
          exact ih _ _ _ h h'

/-! ### Feasibility restorations -/

/-- How many solvers were started, feasibility restorations included: each reads the clock when it starts and at the end
of iterations. -/
def World.starts (w : World) : ℤ := w.reads - w.ends.length

theorem World.starts_tick (w : World) (inner : Bool) (t : ℝ) : (w.tick inner t).starts = w.starts := by
  simp [World.starts, World.tick]

theorem ipmMove_starts (env : Env) (opts : SolverOptions) (P : Nlp n m k) (st : IpmState n m k) (w : World) (E : Filter)
    {M : Moved n m k} (h : ipmMove env opts P restoreInner st w E = some M) : M.after.starts = w.starts := by
  unfold ipmMove at h
  split at h
  · obtain rfl := Option.some.inj h; rfl
  simp only at h
  obtain ⟨ls, -, h⟩ := Option.bind_eq_some_iff.1 h
  split at h
  · obtain rfl := Option.some.inj h; rfl
  cases hacc : ls.accepted with
  | none => rw [hacc] at h; obtain rfl := Option.some.inj h; rfl
  | some b => rw [hacc] at h; obtain rfl := Option.some.inj h; rfl

theorem ipmLoop_starts (env : Env) (opts : SolverOptions) (P : Nlp n m k) (cbs : List Callback) (extra : Extra) (inner : Bool)
    (start : ℝ) (r : ℕ) (st : IpmState n m k) (w : World) (E : Filter) {b : IpmResult n m k}
    (h : ipmLoop env opts P cbs extra inner restoreInner start r st w E = some b) : b.world.starts = w.starts := by
  induction r generalizing st w E with
  | zero => simp [ipmLoop] at h
  | succ r ih =>
    rw [ipmLoop] at h
    split at h
    · obtain rfl := Option.some.inj h; rfl
    split at h
    · obtain rfl := Option.some.inj h; rfl
    split at h
    · obtain rfl := Option.some.inj h; rfl
    split at h
    · obtain rfl := Option.some.inj h; rfl
    simp only at h
    split at h
    · obtain rfl := Option.some.inj h; rfl
    obtain ⟨mv, h1, h2⟩ := Option.bind_eq_some_iff.1 h
    have hm := ipmMove_starts env opts P _ _ _ h1
    have hn : (ipmNotify cbs extra inner st w E).1.starts = w.starts := rfl
    cases mv with
    | stop r =>
      obtain rfl := Option.some.inj h2
      exact hm.trans hn
    | go st2 w2 E2 =>
      obtain ⟨st3, h3, h4⟩ := Option.bind_eq_some_iff.1 h2
      split at h4
      · obtain rfl := Option.some.inj h4; exact hm.trans hn
      split at h4
      · obtain rfl := Option.some.inj h4; exact (World.starts_tick _ _ _).trans (hm.trans hn)
      · exact (ih _ _ _ h4).trans ((World.starts_tick _ _ _).trans (hm.trans hn))

theorem restoreSqp_starts (env : Env) (opts : SolverOptions) (P : Nlp n m 0) (cbs : List Callback) (st : SqpState n m) (α : Fl)
    (w : World) {M : SqpMoved n m} (h : restoreSqp env opts P cbs st α w = some M) : M.after.starts = w.starts + 1 := by
  obtain ⟨res, hres, h⟩ := Option.map_eq_some_iff.1 h
  have hb : res.world.starts = w.starts + 1 := by
    unfold frRun ipmRun at hres
    simp only at hres
    have h1 : ∀ v, World.starts { w with reads := w.reads + 1, vars := v } = w.starts + 1 := fun v => by
      simp only [World.starts]; push_cast; ring
    split at hres
    · obtain rfl := Option.some.inj hres; exact h1 _
    split at hres
    · obtain rfl := Option.some.inj hres; exact h1 _
    · exact (ipmLoop_starts env opts _ cbs _ _ _ _ _ _ _ hres).trans (h1 _)
  subst h
  simp only
  split
  · exact hb
  · exact hb

theorem sqpMove_starts (env : Env) (opts : SolverOptions) (P : Nlp n m 0) (cbs : List Callback)
    (st : SqpState n m) (w : World) {M : SqpMoved n m} (h : sqpMove env opts P cbs st w = some M) :
    w.starts ≤ M.after.starts := by
  unfold sqpMove at h
  split at h
  · obtain rfl := Option.some.inj h; exact le_rfl
  · obtain ⟨ls, -, h⟩ := Option.bind_eq_some_iff.1 h
    cases hl : ls.accepted with
    | none =>
      rw [hl] at h
      have := restoreSqp_starts env opts P cbs _ _ _ h
      rw [this]
      exact Int.le_of_lt (Int.lt_succ _)
    | some b =>
      rw [hl] at h
      obtain rfl := Option.some.inj h
      exact le_rfl

theorem sqpLoop_starts (env : Env) (opts : SolverOptions) (P : Nlp n m 0) (cbs : List Callback) (start : ℝ) (r : ℕ)
    (st : SqpState n m) (w : World) {b : SqpResult n m} (h : sqpLoop env opts P cbs start r st w = some b) :
    w.starts ≤ b.world.starts := by
  induction r generalizing st w with
  | zero => simp [sqpLoop] at h
  | succ r ih =>
    rw [sqpLoop] at h
    split at h
    · obtain rfl := Option.some.inj h; exact le_rfl
    split at h
    · obtain rfl := Option.some.inj h; exact le_rfl
    split at h
    · obtain rfl := Option.some.inj h; exact le_rfl
    simp only at h
    split at h
    · obtain rfl := Option.some.inj h; exact le_rfl
    · obtain ⟨M, hM, h⟩ := Option.bind_eq_some_iff.1 h
      have hm : w.starts ≤ M.after.starts := by
        have := sqpMove_starts env opts P cbs _ _ hM; exact this
      rcases M with a | ⟨st2, w2⟩
      · obtain rfl := Option.some.inj h; exact hm
      · simp only [SqpMoved.elim] at h
        split_ifs at h
        · obtain rfl := Option.some.inj h; exact hm
        · obtain rfl := Option.some.inj h; exact hm.trans (World.starts_tick _ _ _).ge
        · exact hm.trans ((World.starts_tick _ _ _).ge.trans (ih _ _ h))

/-! ### SQP -/

/-- The run that ended in `b` went through the iterate at which the one that ended in `a` stopped: it ended there, or
showed it to callbacks. -/
def SqpResult.Reaches (b a : SqpResult n m) : Prop :=
  b.x = a.x ∧ b.y = a.y ∧ b.iterations = a.iterations ∨
    ∃ s ∈ b.world.trace, s.inner = false ∧ s.info.x = List.ofFn a.x ∧ s.info.y = List.ofFn a.y ∧
      s.info.iteration = a.iterations

theorem sqpLoop_reaches (env : Env) (opts : SolverOptions) (P : Nlp n m 0) (cbs : List Callback) (start : ℝ) (r : ℕ)
    (st : SqpState n m) (w : World) {b : SqpResult n m} (h : sqpLoop env opts P cbs start r st w = some b)
    (status : ExitStatus) (w' : World) : b.Reaches (st.exit status w') := by
  rcases r with _ | r
  · simp [sqpLoop] at h
  rw [sqpLoop] at h
  split at h
  · obtain rfl := Option.some.inj h; exact .inl ⟨rfl, rfl, rfl⟩
  split at h
  · obtain rfl := Option.some.inj h; exact .inl ⟨rfl, rfl, rfl⟩
  split at h
  · obtain rfl := Option.some.inj h; exact .inl ⟨rfl, rfl, rfl⟩
  simp only at h
  split at h
  · obtain rfl := Option.some.inj h; exact .inl ⟨rfl, rfl, rfl⟩
  · refine .inr ⟨⟨false, st.info, 0, 0⟩, ?_, rfl, rfl, rfl, rfl⟩
    obtain ⟨M, hM, h⟩ := Option.bind_eq_some_iff.1 h
    have hm := sqpMove_before env opts P cbs _ _ hM
    have hb : M.after.Before b.world := by
      rcases M with a | ⟨st2, w2⟩
      · obtain rfl := Option.some.inj h; exact .refl _
      · simp only [SqpMoved.elim] at h
        split_ifs at h
        · obtain rfl := Option.some.inj h; exact .refl _
        · obtain rfl := Option.some.inj h; exact .tick _ _ _
        · exact (World.Before.tick _ _ _).trans (sqpLoop_before env opts P cbs _ _ _ _ h)
    exact (hm.trans hb).trace.subset (List.mem_append_right _ (List.mem_singleton_self _))

theorem sqpLoop_tightens (env : Env) {opts opts' : SolverOptions} (ho : opts.Tightens opts') (P : Nlp n m 0)
    (cbs : List Callback) (start : ℝ) (r r' : ℕ) (st : SqpState n m) (w : World) {a b : SqpResult n m}
    (h : sqpLoop env opts P cbs start r st w = some a) (h' : sqpLoop env opts' P cbs start r' st w = some b)
    (hs : a.world.starts = w.starts) : a = b ∨ a.status.Pausing ∧ a.world.Before b.world ∧ b.Reaches a := by
  induction r generalizing st w r' with
  | zero => simp [sqpLoop] at h
  | succ r ih =>
    have hre := sqpLoop_reaches env opts' P cbs start r' st w h'
    have hbe := sqpLoop_before env opts' P cbs start r' st w h'
    rcases r' with _ | r'
    · simp [sqpLoop] at h'
    rw [sqpLoop] at h h'
    split at h
    · obtain rfl := Option.some.inj h
      exact .inr ⟨.inl rfl, hbe, hre _ _⟩
    rename_i hc; rw [if_neg (not_not.2 (ho.error (not_not.1 hc)))] at h'
    split at h
    · rename_i hc; rw [if_pos hc] at h'; exact .inl (Option.some.inj (h.symm.trans h'))
    rename_i hc; rw [if_neg hc] at h'
    split at h
    · rename_i hc; rw [if_pos hc] at h'; exact .inl (Option.some.inj (h.symm.trans h'))
    rename_i hc; rw [if_neg hc] at h'
    simp only at h h'
    split at h
    · rename_i hc; rw [if_pos hc] at h'; exact .inl (Option.some.inj (h.symm.trans h'))
    rename_i hc; rw [if_neg hc] at h'
    obtain ⟨M, hM, h⟩ := Option.bind_eq_some_iff.1 h
    obtain ⟨M', hM', h'⟩ := Option.bind_eq_some_iff.1 h'
    have hm : M.after.starts ≤ a.world.starts := by
      rcases M with c | ⟨st2, w2⟩
      · obtain rfl := Option.some.inj h; exact le_rfl
      · simp only [SqpMoved.elim] at h
        split_ifs at h
        · obtain rfl := Option.some.inj h; exact le_rfl
        · obtain rfl := Option.some.inj h; exact (World.starts_tick _ _ _).ge
        · exact (World.starts_tick _ _ _).ge.trans (sqpLoop_starts env opts P cbs _ _ _ _ h)
    have hMM : M = M' ∧ M.after.starts = w.starts := by
      have hm0 := hm.trans hs.le
      unfold sqpMove at hM hM'
      split at hM
      · rename_i hf
        rw [if_pos hf] at hM'
        refine ⟨Option.some.inj (hM.symm.trans hM'), ?_⟩
        obtain rfl := Option.some.inj hM; rfl
      · rename_i hf
        rw [if_neg hf] at hM'
        obtain ⟨ls, hls, hM⟩ := Option.bind_eq_some_iff.1 hM
        obtain ⟨ls', hls', hM'⟩ := Option.bind_eq_some_iff.1 hM'
        obtain rfl : ls = ls' := Option.some.inj (hls.symm.trans hls')
        cases hl : ls.accepted with
        | none =>
          rw [hl] at hM
          have h2 := restoreSqp_starts env opts P cbs _ _ _ hM
          rw [h2] at hm0
          exact absurd hm0 (not_le.2 (Int.lt_succ _))
        | some c =>
          rw [hl] at hM hM'
          refine ⟨Option.some.inj (hM.symm.trans hM'), ?_⟩
          obtain rfl := Option.some.inj hM; rfl
    obtain ⟨rfl, hm1⟩ := hMM
    rcases M with c | ⟨st2, w2⟩
    · exact .inl (Option.some.inj (h.symm.trans h'))
    · simp only [SqpMoved.elim] at h h'
      split at h
      · obtain rfl := Option.some.inj h
        refine .inr ⟨.inr (.inl rfl), ?_, ?_⟩
        · split_ifs at h'
          · obtain rfl := Option.some.inj h'; exact .refl _
          · obtain rfl := Option.some.inj h'; exact .tick _ _ _
          · exact (World.Before.tick _ _ _).trans (sqpLoop_before env opts' P cbs _ _ _ _ h')
        · split_ifs at h'
          · obtain rfl := Option.some.inj h'; exact .inl ⟨rfl, rfl, rfl⟩
          · obtain rfl := Option.some.inj h'; exact .inl ⟨rfl, rfl, rfl⟩
          · exact sqpLoop_reaches env opts' P cbs _ _ _ _ h' _ _
      · rename_i hi
        rw [if_neg fun hi' => hi (ho.maxIterations.trans hi')] at h'
        split at h
        · obtain rfl := Option.some.inj h
          refine .inr ⟨.inr (.inr rfl), ?_⟩
          split at h'
          · obtain rfl := Option.some.inj h'; exact ⟨.refl _, .inl ⟨rfl, rfl, rfl⟩⟩
          · exact ⟨sqpLoop_before env opts' P cbs _ _ _ _ h', sqpLoop_reaches env opts' P cbs _ _ _ _ h' _ _⟩
        · rename_i ht
          rw [if_neg fun ht' => ht (ho.time ht')] at h'
          exact ih _ _ _ h h' (hs.trans (hm1.symm.trans (World.starts_tick w2 _ _).symm))

end Slp
