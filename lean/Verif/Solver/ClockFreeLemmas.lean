import Verif.Solver.SilentLemmas

/-! # What of a run depends on the clock: lemmas -/

namespace Slp
open Classical
variable {n m k : ℕ}

/-- The same environment with another clock. -/
def Env.withClock (env : Env) (clock : ℕ → ℝ) : Env := { env with clock }

/-! ### The parts that do not read the clock -/

section Parts
variable (env : Env) (c : ℕ → ℝ)

theorem barrierLoop_clock (μmin : Fl) (r : ℕ) (st : IpmState n m k) :
    barrierLoop (env.withClock c) μmin r st = barrierLoop env μmin r st := by
  induction r generalizing st with
  | zero => rw [barrierLoop, barrierLoop]
  | succ r ih => rw [barrierLoop, barrierLoop, ih]; rfl

theorem ipmComputeStep_clock : @ipmComputeStep n m k (env.withClock c) = ipmComputeStep env := rfl

theorem socLoop_clock (P : Nlp n m k) (st : IpmState n m k) (D α : Fl) (r : ℕ) (αs : Fl) (ce : Vec m) (cis : Vec k)
    (t : Trial n m k) (viol : Fl) (F : Filter) (i : ℕ) :
    socLoop (env.withClock c) P st D α r αs ce cis t viol F i = socLoop env P st D α r αs ce cis t viol F i := by
  induction r generalizing αs ce cis t viol F i with
  | zero => rw [socLoop, socLoop]
  | succ r ih =>
    rw [socLoop, socLoop]
    simp only [ih, ipmComputeStep_clock]
    rfl

theorem ipmSoc_clock : @ipmSoc n m k (env.withClock c) = ipmSoc env := by
  funext P st D α αmax t F i
  unfold ipmSoc
  rw [socLoop_clock]

theorem errOneIpm_clock : @errOneIpm n m k (env.withClock c) = errOneIpm env := rfl

theorem ipmLineSearch_clock (opts : SolverOptions) (P : Nlp n m k) (st : IpmState n m k) (p : IpmStep n m k)
    (αmax αz D : Fl) (r : ℕ) (α : Fl) (F : Filter) (j i : ℕ) :
    ipmLineSearch (env.withClock c) opts P st p αmax αz D r α F j i = ipmLineSearch env opts P st p αmax αz D r α F j i := by
  induction r generalizing α F j i with
  | zero => rw [ipmLineSearch, ipmLineSearch]
  | succ r ih =>
    rw [ipmLineSearch, ipmLineSearch]
    simp only [ih, ipmSoc_clock, errOneIpm_clock]

theorem errZeroIpm_clock : @errZeroIpm n m k (env.withClock c) = errZeroIpm env := rfl

theorem ipmFinish_clock : @ipmFinish n m k (env.withClock c) = ipmFinish env := by
  funext opts P st
  unfold ipmFinish
  simp only [barrierLoop_clock, errZeroIpm_clock]

theorem sqpComputeStep_clock : @sqpComputeStep n m (env.withClock c) = sqpComputeStep env := rfl

theorem sqpSocLoop_clock (P : Nlp n m 0) (st : SqpState n m) (D α : Fl) (r : ℕ) (ce : Vec m) (t : SqpTrial n m) (viol : Fl)
    (F : Filter) (i : ℕ) :
    sqpSocLoop (env.withClock c) P st D α r ce t viol F i = sqpSocLoop env P st D α r ce t viol F i := by
  induction r generalizing ce t viol F i with
  | zero => rw [sqpSocLoop, sqpSocLoop]
  | succ r ih =>
    rw [sqpSocLoop, sqpSocLoop]
    simp only [ih, sqpComputeStep_clock]

theorem sqpSoc_clock : @sqpSoc n m (env.withClock c) = sqpSoc env := by
  funext P st D α t F i
  unfold sqpSoc
  rw [sqpSocLoop_clock]

theorem errOneSqp_clock : @errOneSqp n m (env.withClock c) = errOneSqp env := rfl

theorem sqpLineSearch_clock (P : Nlp n m 0) (st : SqpState n m) (p : SqpStep n m) (D : Fl) (r : ℕ) (α : Fl) (F : Filter)
    (j i : ℕ) : sqpLineSearch (env.withClock c) P st p D r α F j i = sqpLineSearch env P st p D r α F j i := by
  induction r generalizing α F j i with
  | zero => rw [sqpLineSearch, sqpLineSearch]
  | succ r ih =>
    rw [sqpLineSearch, sqpLineSearch]
    simp only [ih, sqpSoc_clock, errOneSqp_clock]

theorem newtonPoint_clock : @newtonPoint n (env.withClock c) = newtonPoint env := rfl

theorem errOneNewton_clock : @errOneNewton n (env.withClock c) = errOneNewton env := rfl

theorem newtonLineSearch_clock (P : Nlp n 0 0) (st : NewtonState n) (i : ℕ) (D : Fl) (r : ℕ) (α : Fl) (F : Filter) :
    newtonLineSearch (env.withClock c) P st i D r α F = newtonLineSearch env P st i D r α F := by
  induction r generalizing α F with
  | zero => rw [newtonLineSearch, newtonLineSearch]
  | succ r ih =>
    rw [newtonLineSearch, newtonLineSearch]
    simp only [ih, newtonPoint_clock, errOneNewton_clock]
    rfl

end Parts

/-! ### Runs, apart from the readings of the clock -/

/-- What happened, apart from the readings of the clock. -/
def World.timeless (w : World) : World := { w with ends := [] }

theorem World.timeless_eq {w w' : World} (h : w.timeless = w'.timeless) : ∃ es, w' = { w with ends := es } := by
  obtain ⟨c, t, e, f, s, es, r, v, se⟩ := w
  obtain ⟨c', t', e', f', s', es', r', v', se'⟩ := w'
  simp only [World.timeless, World.mk.injEq] at h
  obtain ⟨rfl, rfl, -, rfl, rfl, rfl, rfl, rfl, rfl⟩ := h
  exact ⟨_, rfl⟩

/-- The result, apart from the readings of the clock. -/
def IpmResult.timeless (r : IpmResult n m k) : IpmResult n m k := { r with world := r.world.timeless }

/-- What an iteration leads to, apart from the readings of the clock. -/
def Moved.timeless : Moved n m k → Moved n m k
  | .stop r => .stop r.timeless
  | .go st w E => .go st w.timeless E

/-- Two ways to restore feasibility that do the same, apart from the readings of the clock. -/
def RestoreFn.SameUntimed (restore restore' : RestoreFn n m k) : Prop :=
  ∀ st α w w' E, w.timeless = w'.timeless → (restore st α w E).map Moved.timeless = (restore' st α w' E).map Moved.timeless

theorem exit_timeless (st : IpmState n m k) (s : ExitStatus) (E : Filter) {w w' : World} (h : w.timeless = w'.timeless) :
    (some (st.exit s w E)).map IpmResult.timeless = (some (st.exit s w' E)).map IpmResult.timeless := by
  simp only [Option.map_some, IpmState.exit, IpmResult.timeless, h]

theorem stop_timeless (st : IpmState n m k) (s : ExitStatus) (E : Filter) {w w' : World} (h : w.timeless = w'.timeless) :
    (some (Moved.stop (st.exit s w E))).map Moved.timeless = (some (Moved.stop (st.exit s w' E))).map Moved.timeless := by
  simp only [Option.map_some, Moved.timeless, IpmState.exit, IpmResult.timeless, h]

theorem go_timeless (st : IpmState n m k) (E : Filter) {w w' : World} (h : w.timeless = w'.timeless) :
    (some (Moved.go st w E)).map Moved.timeless = (some (Moved.go st w' E)).map Moved.timeless := by
  simp only [Option.map_some, Moved.timeless, h]

theorem Fl.not_gt_pinf (t : ℝ) : ¬ Fl.fin t > .pinf := id

section Runs
variable (env : Env) (c : ℕ → ℝ) {opts : SolverOptions} (ho : opts.timeout = .pinf)

theorem ipmMove_timeless (opts : SolverOptions) (P : Nlp n m k) {restore restore' : RestoreFn n m k}
    (hr : restore.SameUntimed restore') (st : IpmState n m k) {w w' : World} (h : w.timeless = w'.timeless) (E : Filter) :
    (ipmMove (env.withClock c) opts P restore st w E).map Moved.timeless =
      (ipmMove env opts P restore' st w' E).map Moved.timeless := by
  obtain ⟨es, rfl⟩ := World.timeless_eq h
  unfold ipmMove
  rw [ipmComputeStep_clock]
  simp only [ipmLineSearch_clock]
  refine ite_view (by exact stop_timeless _ _ _ rfl) fun _ => ?_
  refine bind_view (q := id) (q' := id) rfl fun ls ls' hl => ?_
  obtain rfl : ls = ls' := hl
  refine ite_view (hr _ _ _ _ _ (by exact rfl)) fun _ => ?_
  cases ls.accepted with
  | none => exact hr _ _ _ _ _ (by exact rfl)
  | some b => exact go_timeless _ _ (by exact rfl)

theorem notify_timeless (cbs : List Callback) (extra : Extra) (inner : Bool) (st : IpmState n m k) {w w' : World}
    (h : w.timeless = w'.timeless) (E : Filter) :
    (ipmNotify cbs extra inner st w E).1.timeless = (ipmNotify cbs extra inner st w' E).1.timeless ∧
      (ipmNotify cbs extra inner st w E).2 = (ipmNotify cbs extra inner st w' E).2 := by
  obtain ⟨es, rfl⟩ := World.timeless_eq h
  exact ⟨rfl, rfl⟩

include ho in
theorem ipmLoop_timeless (P : Nlp n m k) (cbs : List Callback) (extra : Extra) (inner : Bool)
    {restore restore' : RestoreFn n m k} (hr : restore.SameUntimed restore') (start start' : ℝ) (r : ℕ) (st : IpmState n m k)
    {w w' : World} (h : w.timeless = w'.timeless) (E : Filter) :
    (ipmLoop (env.withClock c) opts P cbs extra inner restore start r st w E).map IpmResult.timeless =
      (ipmLoop env opts P cbs extra inner restore' start' r st w' E).map IpmResult.timeless := by
  induction r generalizing st w w' E with
  | zero => rw [ipmLoop, ipmLoop, Option.map_none]
  | succ r ih =>
    obtain ⟨hn1, hn2⟩ := notify_timeless cbs extra inner st h E
    rw [ipmLoop, ipmLoop]
    refine ite_view (exit_timeless _ _ _ h) fun _ => ite_view (exit_timeless _ _ _ h) fun _ =>
      ite_view (exit_timeless _ _ _ h) fun _ => ite_view (exit_timeless _ _ _ h) fun _ => ?_
    simp only
    rw [← hn2, ipmFinish_clock]
    refine ite_view (exit_timeless _ _ _ hn1) fun _ => bind_view (ipmMove_timeless env c opts P hr st hn1 _) fun M M' hM => ?_
    rcases M with a | ⟨st2, w2, E2⟩ <;> rcases M' with a' | ⟨st2', w2', E2'⟩
    · simp only [Moved.timeless, Moved.stop.injEq] at hM
      simp only [Moved.elim, Option.map_some, hM]
    · simp [Moved.timeless] at hM
    · simp [Moved.timeless] at hM
    · simp only [Moved.timeless, Moved.go.injEq] at hM
      obtain ⟨rfl, hw, rfl⟩ := hM
      refine bind_view (q := id) (q' := id) rfl fun st3 st3' h3 => ?_
      obtain rfl : st3 = st3' := h3
      obtain ⟨es, rfl⟩ := World.timeless_eq hw
      refine ite_view (exit_timeless _ _ _ hw) fun _ => ?_
      rw [if_neg (by rw [ho]; exact Fl.not_gt_pinf _), if_neg (by rw [ho]; exact Fl.not_gt_pinf _)]
      exact ih st3 (by exact rfl) E2

include ho in
theorem ipmRun_timeless (P : Nlp n m k) (cbs : List Callback) (extra : Extra) (inner : Bool)
    {restore restore' : RestoreFn n m k} (hr : restore.SameUntimed restore') (x : Vec n) (s : Vec k) (y : Vec m) (z : Vec k)
    (μ : Fl) (iterations : ℕ) {w w' : World} (h : w.timeless = w'.timeless) (E : Filter) :
    (ipmRun (env.withClock c) opts P cbs extra inner restore x s y z μ iterations w E).map IpmResult.timeless =
      (ipmRun env opts P cbs extra inner restore' x s y z μ iterations w' E).map IpmResult.timeless := by
  obtain ⟨es, rfl⟩ := World.timeless_eq h
  unfold ipmRun
  exact ite_view (exit_timeless _ _ _ (by exact rfl)) fun _ => ite_view (exit_timeless _ _ _ (by exact rfl)) fun _ =>
    ipmLoop_timeless env c ho P cbs extra inner hr _ _ _ _ (by exact rfl) E

theorem restoreInner_untimed : (restoreInner : RestoreFn n m k).SameUntimed restoreInner := fun st _ w w' E h => by
  simp only [restoreInner, Option.map_some, Moved.timeless, IpmState.exit, IpmResult.timeless, h]

include ho in
theorem frRun_timeless (P : Nlp n m k) (cbs : List Callback) (extra : Extra) (x : Vec n) (s : Vec k) (μ : Fl)
    (iterations : ℕ) {w w' : World} (h : w.timeless = w'.timeless) (E : Filter) :
    (frRun (env.withClock c) opts P cbs extra x s μ iterations w E).map IpmResult.timeless =
      (frRun env opts P cbs extra x s μ iterations w' E).map IpmResult.timeless :=
  ipmRun_timeless env c ho _ cbs extra true restoreInner_untimed _ _ _ _ _ _ h E

theorem IpmResult.timeless_eq {r r' : IpmResult n m k} (h : r.timeless = r'.timeless) :
    ∃ es, r' = { r with world := { r.world with ends := es } } := by
  obtain ⟨a, b, c, d, e, f, w, E⟩ := r
  obtain ⟨a', b', c', d', e', f', w', E'⟩ := r'
  simp only [IpmResult.timeless, IpmResult.mk.injEq] at h
  obtain ⟨rfl, rfl, rfl, rfl, rfl, rfl, hw, rfl⟩ := h
  obtain ⟨es, rfl⟩ := World.timeless_eq hw
  exact ⟨es, rfl⟩

include ho in
theorem restoreIpm_untimed (P : Nlp n m k) (cbs : List Callback) :
    (restoreIpm (env.withClock c) opts P cbs).SameUntimed (restoreIpm env opts P cbs) := by
  intro st α w w' E h
  unfold restoreIpm
  refine map_view (frRun_timeless env c ho P cbs (extraIpm env P st α) st.x st.s st.μ st.iterations h st.filter)
    fun res res' hres => ?_
  obtain ⟨es, rfl⟩ := IpmResult.timeless_eq hres
  simp only
  split_ifs <;> rfl

/-! ### SQP -/

/-- The result, apart from the readings of the clock. -/
def SqpResult.timeless (r : SqpResult n m) : SqpResult n m := { r with world := r.world.timeless }

/-- What an iteration leads to, apart from the readings of the clock. -/
def SqpMoved.timeless : SqpMoved n m → SqpMoved n m
  | .stop r => .stop r.timeless
  | .go st w => .go st w.timeless

include ho in
theorem restoreSqp_timeless (P : Nlp n m 0) (cbs : List Callback) (st : SqpState n m) (α : Fl) {w w' : World}
    (h : w.timeless = w'.timeless) :
    (restoreSqp (env.withClock c) opts P cbs st α w).map SqpMoved.timeless =
      (restoreSqp env opts P cbs st α w').map SqpMoved.timeless := by
  unfold restoreSqp
  refine map_view (frRun_timeless env c ho P cbs (extraSqp env P st α) _ _ _ _ h _) fun res res' hres => ?_
  obtain ⟨es, rfl⟩ := IpmResult.timeless_eq hres
  simp only
  split_ifs <;> rfl

include ho in
theorem sqpMove_timeless (P : Nlp n m 0) (cbs : List Callback) (st : SqpState n m) {w w' : World}
    (h : w.timeless = w'.timeless) :
    (sqpMove (env.withClock c) opts P cbs st w).map SqpMoved.timeless =
      (sqpMove env opts P cbs st w').map SqpMoved.timeless := by
  obtain ⟨es, rfl⟩ := World.timeless_eq h
  unfold sqpMove
  rw [sqpComputeStep_clock]
  simp only [sqpLineSearch_clock]
  refine ite_view (by exact rfl) fun _ => ?_
  refine bind_view (q := id) (q' := id) rfl fun ls ls' hl => ?_
  obtain rfl : ls = ls' := hl
  cases ls.accepted with
  | none => exact restoreSqp_timeless env c ho P cbs _ _ (by exact rfl)
  | some b => exact rfl

include ho in
theorem sqpLoop_timeless (P : Nlp n m 0) (cbs : List Callback) (start start' : ℝ) (r : ℕ) (st : SqpState n m) {w w' : World}
    (h : w.timeless = w'.timeless) :
    (sqpLoop (env.withClock c) opts P cbs start r st w).map SqpResult.timeless =
      (sqpLoop env opts P cbs start' r st w').map SqpResult.timeless := by
  induction r generalizing st w w' with
  | zero => rw [sqpLoop, sqpLoop, Option.map_none]
  | succ r ih =>
    have hx : ∀ (st : SqpState n m) s {w w' : World}, w.timeless = w'.timeless →
        (some (st.exit s w)).map SqpResult.timeless = (some (st.exit s w')).map SqpResult.timeless := fun st s w w' h => by
      simp only [Option.map_some, SqpState.exit, SqpResult.timeless, h]
    obtain ⟨es, rfl⟩ := World.timeless_eq h
    rw [sqpLoop, sqpLoop]
    refine ite_view (hx _ _ h) fun _ => ite_view (hx _ _ h) fun _ => ite_view (hx _ _ h) fun _ => ?_
    simp only
    refine ite_view (hx _ _ (by exact rfl)) fun _ => bind_view (sqpMove_timeless env c ho P cbs st (by exact rfl)) fun M M' hM => ?_
    rcases M with a | ⟨st2, w2⟩ <;> rcases M' with a' | ⟨st2', w2'⟩
    · simp only [SqpMoved.timeless, SqpMoved.stop.injEq] at hM
      simp only [SqpMoved.elim, Option.map_some, hM]
    · simp [SqpMoved.timeless] at hM
    · simp [SqpMoved.timeless] at hM
    · simp only [SqpMoved.timeless, SqpMoved.go.injEq] at hM
      obtain ⟨rfl, hw⟩ := hM
      obtain ⟨es, rfl⟩ := World.timeless_eq hw
      refine ite_view (hx _ _ hw) fun _ => ?_
      rw [if_neg (by rw [ho]; exact Fl.not_gt_pinf _), if_neg (by rw [ho]; exact Fl.not_gt_pinf _)]
      exact ih _ (by exact rfl)

/-! ### Newton's method -/

/-- The result, apart from the readings of the clock. -/
def NewtonResult.timeless (r : NewtonResult n) : NewtonResult n := { r with world := r.world.timeless }

include ho in
theorem newtonLoop_timeless (P : Nlp n 0 0) (cbs : List Callback) (start start' : ℝ) (r : ℕ) (st : NewtonState n)
    {w w' : World} (h : w.timeless = w'.timeless) :
    (newtonLoop (env.withClock c) opts P cbs start r st w).map NewtonResult.timeless =
      (newtonLoop env opts P cbs start' r st w').map NewtonResult.timeless := by
  induction r generalizing st w w' with
  | zero => rw [newtonLoop, newtonLoop, Option.map_none]
  | succ r ih =>
    have hx : ∀ (st : NewtonState n) s {w w' : World}, w.timeless = w'.timeless →
        (some (st.exit s w)).map NewtonResult.timeless = (some (st.exit s w')).map NewtonResult.timeless := fun st s w w' h => by
      simp only [Option.map_some, NewtonState.exit, NewtonResult.timeless, h]
    obtain ⟨es, rfl⟩ := World.timeless_eq h
    rw [newtonLoop, newtonLoop]
    refine ite_view (hx _ _ h) fun _ => ite_view (hx _ _ h) fun _ => ?_
    simp only [newtonLineSearch_clock]
    refine ite_view (hx _ _ (by exact rfl)) fun _ => bind_view (q := id) (q' := id) rfl fun ls ls' hl => ?_
    obtain rfl : ls = ls' := hl
    cases ls.accepted with
    | none => exact hx _ _ (by exact rfl)
    | some b =>
      refine ite_view (hx _ _ (by exact rfl)) fun _ => ?_
      rw [if_neg (by rw [ho]; exact Fl.not_gt_pinf _), if_neg (by rw [ho]; exact Fl.not_gt_pinf _)]
      exact ih _ (by exact rfl)

end Runs

end Slp
