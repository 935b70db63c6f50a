import Verif.Solver.RegularLemmas

/-! Lemmas for C51: the limits of the filter during a whole run, and the chain of iterates without assumptions about the
linear solver. -/

namespace Slp

open Classical

variable {n m k : ℕ}

/-- A property of filters that everything the solvers do to one preserves. -/
structure Filter.Kept (Q : Filter → Prop) : Prop where
  tryAdd : ∀ F c t D α, Q F → Q (F.tryAdd c t D α).1
  shrink : ∀ F, Q F → Q F.shrink
  reset : ∀ F, Q F → Q F.reset

theorem socLoop_filter {Q : Filter → Prop} (hQ : Filter.Kept Q) {env : Env} {P : Nlp n m k} {st : IpmState n m k} {D α : Fl}
    (r : ℕ) {αs : Fl} {ce : Vec m} {cis : Vec k} {t : Trial n m k} {viol : Fl} {F : Filter} {i : ℕ} (h : Q F) :
    Q (socLoop env P st D α r αs ce cis t viol F i).filter := by
  induction r generalizing αs ce cis t viol F i with
  | zero => exact h
  | succ r ih =>
    rw [socLoop]
    split_ifs
    · exact hQ.tryAdd _ _ _ _ _ h
    · exact hQ.tryAdd _ _ _ _ _ h
    · exact ih (hQ.tryAdd _ _ _ _ _ h)

theorem ipmSoc_filter {Q : Filter → Prop} (hQ : Filter.Kept Q) {env : Env} {P : Nlp n m k} {st : IpmState n m k}
    {D α αmax : Fl} {t : Trial n m k} {F : Filter} {i : ℕ} (h : Q F) : Q (ipmSoc env P st D α αmax t F i).filter := by
  unfold ipmSoc
  split
  · exact socLoop_filter hQ 5 h
  · exact h

theorem ipmLineSearch_filter {Q : Filter → Prop} (hQ : Filter.Kept Q) {env : Env} {opts : SolverOptions} {P : Nlp n m k}
    {st : IpmState n m k} {p : IpmStep n m k} {αmax αz D : Fl} (r : ℕ) {α : Fl} {F : Filter} {c i : ℕ}
    {ls : LineSearch n m k} (h : Q F) (hls : ipmLineSearch env opts P st p αmax αz D r α F c i = some ls) : Q ls.filter := by
  induction r generalizing α F c i with
  | zero => simp [ipmLineSearch] at hls
  | succ r ih =>
    rw [ipmLineSearch] at hls
    simp only at hls
    split at hls
    · split at hls
      · obtain rfl := Option.some.inj hls; exact h
      · exact ih h hls
    · split at hls
      · obtain rfl := Option.some.inj hls; exact hQ.tryAdd _ _ _ _ _ h
      · have hs : Q (ipmSoc env P st D α αmax (ipmTrial P st p α αz (feasibleMode opts st)) (F.tryAdd st.entry
            ((ipmTrial P st p α αz (feasibleMode opts st)).entry st.μ) D α).1 i).filter :=
          ipmSoc_filter hQ (hQ.tryAdd _ _ _ _ _ h)
        generalize ipmSoc env P st D α αmax _ _ i = soc at hs hls
        cases hso : soc.accepted with
        | some b => rw [hso] at hls; obtain rfl := Option.some.inj hls; exact hs
        | none =>
          rw [hso] at hls
          simp only [Option.elim] at hls
          by_cases h1 : (if α = αmax then c + 1 else c) ≥ 4 ∧ soc.filter.maxViolation > st.entry.violation / .fin 10 ∧
              soc.filter.lastRejectionDueToFilter = true
          · rw [if_pos h1] at hls; exact ih (hQ.shrink _ hs) hls
          rw [if_neg h1] at hls
          by_cases h2 : α * .fin 0.5 < alphaMin
          · rw [if_pos h2] at hls
            split at hls <;> (obtain rfl := Option.some.inj hls; exact hs)
          · rw [if_neg h2] at hls; exact ih hs hls

theorem barrierLoop_filter {Q : Filter → Prop} (hQ : Filter.Kept Q) {env : Env} {μmin : Fl} (r : ℕ) {st st' : IpmState n m k}
    (h : Q st.filter) (hst : barrierLoop env μmin r st = some st') : Q st'.filter := by
  induction r generalizing st with
  | zero => simp [barrierLoop] at hst
  | succ r ih =>
    rw [barrierLoop] at hst
    split at hst
    · exact ih (st := st.updateBarrier μmin) (hQ.reset _ h) hst
    · obtain rfl := Option.some.inj hst; exact h

theorem ipmFinish_filter {Q : Filter → Prop} (hQ : Filter.Kept Q) {env : Env} {opts : SolverOptions} {P : Nlp n m k}
    {st st' : IpmState n m k} (h : Q st.filter) (hst : ipmFinish env opts P st = some st') : Q st'.filter := by
  unfold ipmFinish at hst
  simp only at hst
  obtain ⟨st2, h2, rfl⟩ := Option.map_eq_some_iff.1 hst
  split at h2
  · exact barrierLoop_filter (st := { st with E0 := errZeroIpm env P.scaling st.e st.s st.y st.z }) (st' := st2) hQ _ h h2
  · obtain rfl := Option.some.inj h2; exact h

/-- The two ways to a new iterate. -/
theorem ipmMove_go {Q : Filter → Prop} (hQ : Filter.Kept Q) {env : Env} {opts : SolverOptions} {P : Nlp n m k}
    {restore : RestoreFn n m k} {st : IpmState n m k} (hτ : ∃ t, st.τ = .fin t ∧ 0.99 ≤ t ∧ t < 1) (hs : st.s.Pos)
    (hF : Q st.filter) {w : World} {E : Filter} {st2 : IpmState n m k} {w2 : World} {E2 : Filter}
    (h : ipmMove env opts P restore st w E = some (.go st2 w2 E2)) :
    (∃ F c α w', Q F ∧ restore { st with filter := F, rejected := c } α w' E = some (.go st2 w2 E2)) ∨
    ∃ F c α a R t used, let p := ipmComputeStep env st (st.rhs env) (fun i => st.e.ci i - st.s i) w.solves
      Q F ∧ 1e-7 ≤ a ∧ a ≤ 1 ∧
      Acceptable env opts P st p a (boundaryF st.z p.pz st.τ) (ipmSlope env st p) st.filter st.rejected R t used ∧
      st2 = ({ st with filter := F, rejected := c } : IpmState n m k).accept P t α (.fin a) := by
  obtain ⟨t, ht, ht0, -⟩ := hτ
  obtain ⟨a, ha, ha0, ha1⟩ := boundaryF_range (by linarith : 0 < t) hs
    (ipmComputeStep env st (st.rhs env) (fun i => st.e.ci i - st.s i) w.solves).ps
  rw [← ht] at ha
  unfold ipmMove at h
  split at h
  · simp at h
  obtain ⟨ls, hls, h⟩ := Option.bind_eq_some_iff.1 h
  have hq := ipmLineSearch_filter hQ _ hF hls
  rw [ha] at hls h
  simp only at h
  by_cases hmin : Fl.fin a < alphaMin
  · rw [if_pos hmin] at h; exact .inl ⟨_, _, _, _, hq, h⟩
  rw [if_neg hmin] at h
  cases hacc : ls.accepted with
  | none => rw [hacc] at h; exact .inl ⟨_, _, _, _, hq, h⟩
  | some b =>
    rw [hacc] at h
    obtain ⟨rfl, rfl, rfl⟩ := Moved.go.inj (Option.some.inj h)
    exact .inr ⟨ls.filter, ls.rejected, ls.α, a, b.1, b.2.1, b.2.2, hq, not_lt.1 hmin, ha1,
      line_search_sound env opts P st _ _ _ a st.filter _ _ ha0 ls hls b.1 b.2.1 b.2.2 hacc, rfl⟩

/-- How consecutive iterates shown to the callbacks relate: as `T` says of the states. -/
def Linked (P : Nlp n m k) (T : IpmState n m k → IpmState n m k → Prop) (a b : Snapshot) : Prop :=
  ∃ st st' : IpmState n m k, st.e = P.eval st.x st.y st.z ∧ a.info = st.info ∧ a.μ = st.μ ∧
    b.info = { st'.info with iteration := st'.iterations + 1 } ∧ T st st'

theorem ipmLoop_linked {env : Env} {opts : SolverOptions} {P : Nlp n m k} (htol : 0 < opts.tolerance)
    (hS : 0 < P.scaling.f) {cbs : List Callback} {extra : Extra} {inner : Bool} {restore : RestoreFn n m k}
    (hR : RestoreOk False env opts P restore) (hH : RestoreHistory cbs inner restore) {Q : Filter → Prop} (hQ : Filter.Kept Q)
    {T : IpmState n m k → IpmState n m k → Prop}
    (hT : ∀ st w E st2 w2 E2, Good False P st → st.x.Finite → st.s.Finite → Q st.filter →
      ipmMove env opts P restore st w E = some (.go st2 w2 E2) → T st st2 ∧ Q st2.filter)
    {start : ℝ} {l0 : List Snapshot} (r : ℕ) (st : IpmState n m k) (w : World)
    (E : Filter) (hst : Good False P st) (hF : Q st.filter) (hp : w.Pos False) (hw : w.trace = l0) (res : IpmResult n m k)
    (hres : ipmLoop env opts P cbs extra inner restore start r st w E = some res) :
    ∃ l, res.world.trace = l0 ++ l ∧ Shown (Linked P T) inner ⟨inner, st.info, st.μ, st.τ⟩ l := by
  set first : Snapshot := ⟨inner, st.info, st.μ, st.τ⟩ with hf
  have hN (st : IpmState n m k) (w : World) (E : Filter) (l : List Snapshot) (h : w.trace = l0 ++ l) :
      (ipmNotify cbs extra inner st w E).1.trace = l0 ++ (l ++ [⟨inner, st.info, st.μ, st.τ⟩]) := by
    rw [← List.append_assoc, ← h]; rfl
  have hM {st : IpmState n m k} {w : World} {E : Filter} {mv : Moved n m k} (hG : Good False P st) (hs : st.s.Finite)
      (h : ipmMove env opts P restore st w E = some mv) :
      ∃ l', mv.world.trace = w.trace ++ l' ∧ ∀ s ∈ l', inner = false ∧ s.inner = true := by
    obtain ⟨⟨bs, es, h1, h2, -⟩, -⟩ := ipmMove_history hH hG.barrier hs h
    refine ⟨_, h1.trace, fun s hs => ?_⟩
    obtain ⟨b, hb, rfl⟩ := List.mem_map.1 hs
    exact (h2 b hb).symm
  refine ipmLoop_rule
    (fun st w _ => Good False P st ∧ Q st.filter ∧ w.Pos False ∧ ∃ l, w.trace = l0 ++ l ∧
      Shown (Linked P T) inner first (l ++ [⟨inner, st.info, st.μ, st.τ⟩]))
    (fun res => ∃ l, res.world.trace = l0 ++ l ∧ Shown (Linked P T) inner first l)
    ?_ ?_ ?_ ?_ ?_ ?_ r st w E ⟨hst, hF, hp, [], by simpa using hw, ?_⟩ res hres
  · rintro st w E ⟨-, -, -, l, h1, h2⟩ -
    exact ⟨l, h1, h2.before⟩
  · rintro st w E ⟨-, -, -, l, h1, h2⟩ - -
    exact ⟨l, h1, h2.before⟩
  · rintro st w E ⟨-, -, -, l, h1, h2⟩ - -
    exact ⟨l, h1, h2.before⟩
  · rintro st w E ⟨-, -, -, l, h1, h2⟩ - -
    exact ⟨_, hN _ _ _ _ h1, h2⟩
  · rintro st w E res ⟨hG, hq, -, l, h1, h2⟩ hat - hmv
    obtain ⟨l', h3, h4⟩ := hM hG hat.s_finite hmv
    exact ⟨_, by rw [← List.append_assoc, ← hN st w E _ h1]; exact h3, h2.other h4⟩
  · rintro st w E st2 w2 E2 st3 ⟨hG, hq, hw, l, h1, h2⟩ hat - hmv hfin
    obtain ⟨l', h3, h4⟩ := hM hG hat.s_finite hmv
    obtain ⟨k1, k2⟩ := hT _ _ _ _ _ _ hG hat.x_finite hat.s_finite hq hmv
    obtain ⟨hsp, hzp⟩ := hG.pos hat.x_finite hat.s_finite
    obtain ⟨mv, hmv', -, hgo⟩ := ipmMove_ok (env := env) (opts := opts) (by simp) hR hG hat.x_finite hat.s_finite
      (hw.notify cbs extra inner hsp hzp E) (ipmNotify cbs extra inner st w E).2.1
    rw [hmv] at hmv'
    obtain ⟨hG2, hw2, -⟩ := hgo st2 w2 E2 (Option.some.inj hmv').symm
    obtain ⟨st3', f1, hG3, -⟩ := hG2.finish (env := env) htol hS
    rw [hfin] at f1
    obtain rfl := Option.some.inj f1
    have f2 : st3.info = { st2.info with iteration := st2.iterations + 1 } := by
      obtain ⟨st4, e1, -, e3, e4, e5, e6, e7, e8, -⟩ := ipmFinish_correct (env := env) htol hS hG2.barrier
      obtain rfl := Option.some.inj (hfin.symm.trans e1)
      unfold IpmState.info
      rw [e3, e4, e5, e6, e7, e8]
    have e : w2.trace = l0 ++ (l ++ [⟨inner, st.info, st.μ, st.τ⟩] ++ l') := by
      rw [← List.append_assoc, ← hN st w E _ h1]; exact h3
    exact ⟨fun _ => ⟨_, e, h2.other h4⟩, fun _ => ⟨fun _ => ⟨_, e, h2.other h4⟩,
      fun _ => ⟨hG3, ipmFinish_filter hQ k2 hfin, ⟨hw2.trace, hw2.calls⟩, _, e,
        h2.next rfl rfl h4 ⟨st, st2, hG.eval, rfl, rfl, f2, k1⟩⟩⟩⟩
  · exact Shown.start _ first

/-- The limits of the filter of a run that starts with the violation `v`: at least as strict as at the start. -/
def Filter.Limits (v : ℝ) (F : Filter) : Prop :=
  F.minViolation = .fin (1e-4 * Max.max 1 v) ∧ ∃ b, F.maxViolation = .fin b ∧ 0 ≤ b ∧ b ≤ 1e4 * Max.max 1 v

theorem Filter.tryAdd_limits (F : Filter) (c t : FilterEntry) (D α : Fl) :
    (F.tryAdd c t D α).1.minViolation = F.minViolation ∧ (F.tryAdd c t D α).1.maxViolation = F.maxViolation := by
  rcases hF : F.tryAdd c t D α with ⟨F', b⟩
  cases b with
  | false => exact (Filter.tryAdd_false hF).2
  | true =>
    obtain ⟨-, -, -, h4⟩ := Filter.tryAdd_true hF
    rcases (Filter.finish_true h4).2 with ⟨-, rfl⟩ | ⟨-, -, rfl⟩ <;> exact ⟨rfl, rfl⟩

theorem Filter.limits_kept (v : ℝ) : Filter.Kept (Filter.Limits v) where
  tryAdd F c t D α h := by
    obtain ⟨h1, h2⟩ := Filter.tryAdd_limits F c t D α
    unfold Filter.Limits
    rw [h1, h2]; exact h
  shrink F h := by
    obtain ⟨h1, b, h2, h3, h4⟩ := h
    refine ⟨h1, b * 0.1, ?_, by linarith, by linarith⟩
    show F.maxViolation * .fin 0.1 = _
    rw [h2, Fl.fin_mul]
  reset F h := h

theorem Filter.make_limits (v : ℝ) : (Filter.make (.fin v)).Limits v := by
  have h : Fl.max 1 (.fin v) = .fin (Max.max 1 v) := by rw [Fl.one_def, Fl.max_fin]
  refine ⟨?_, 1e4 * Max.max 1 v, ?_, by have := le_max_left 1 v; positivity, le_rfl⟩
  · show Fl.fin 1e-4 * Fl.max 1 (.fin v) = _
    rw [h, Fl.fin_mul]
  · show Fl.fin 1e4 * Fl.max 1 (.fin v) = _
    rw [h, Fl.fin_mul]

end Slp
