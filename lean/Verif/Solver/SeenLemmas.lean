import Verif.Solver.RestoreLoopModel
import Verif.Solver.SqpModel
import Verif.Solver.NewtonModel

/-! What the user's decision variables hold while callbacks run: lemmas about the loops of the solvers. -/

namespace Slp

variable {n m k : ℕ}

/-- Each time callbacks were called, the variables held the first `N` elements of the point they were shown. -/
def World.Seen (N : ℕ) (w : World) : Prop :=
  (w.seen = w.trace.map fun s => s.info.x.take N) ∧ ∀ l ∈ w.seen, l.length = N

theorem World.Seen.start (N : ℕ) : World.start.Seen N := ⟨rfl, by simp [World.start]⟩

theorem World.Seen.show {N : ℕ} {w w' : World} (h : w.Seen N) {s : Snapshot} (h1 : w'.trace = w.trace ++ [s])
    (h2 : w'.seen = w.seen ++ [w.vars]) (h3 : w.vars = s.info.x.take N)
    (h4 : w.vars.length = N) : w'.Seen N := by
  refine ⟨by rw [h1, h2, h.1, h3]; simp, fun l hl => ?_⟩
  rw [h2, List.mem_append, List.mem_singleton] at hl
  rcases hl with hl | rfl
  · exact h.2 l hl
  · exact h4

theorem World.Seen.same {N : ℕ} {w w' : World} (h : w.Seen N) (h1 : w'.trace = w.trace) (h2 : w'.seen = w.seen) :
    w'.Seen N := by
  unfold World.Seen at *
  rw [h1, h2]; exact h

theorem barrierLoop_x {env : Env} {μmin : Fl} (r : ℕ) {st st' : IpmState n m k}
    (hst : barrierLoop env μmin r st = some st') : st'.x = st.x := by
  induction r generalizing st with
  | zero => simp [barrierLoop] at hst
  | succ r ih =>
    rw [barrierLoop] at hst
    split at hst
    · rw [ih hst]; rfl
    · obtain rfl := Option.some.inj hst; rfl

theorem ipmFinish_x {env : Env} {opts : SolverOptions} {P : Nlp n m k} {st st' : IpmState n m k}
    (hst : ipmFinish env opts P st = some st') : st'.x = st.x := by
  unfold ipmFinish at hst
  simp only at hst
  obtain ⟨st2, h2, rfl⟩ := Option.map_eq_some_iff.1 hst
  split at h2
  · have := barrierLoop_x (st := { st with E0 := errZeroIpm env P.scaling st.e st.s st.y st.z }) (st' := st2) _ h2
    exact this
  · obtain rfl := Option.some.inj h2; rfl

/-- What follows a step, or feasibility restoration. -/
def Moved.Seen (N : ℕ) (P : Nlp n m k) : Moved n m k → Prop
  | .stop r => r.world.Seen N
  | .go st w _ => w.Seen N ∧ w.vars = P.vars st.x

/-- Feasibility restoration, which may begin with any values in the variables. -/
def RestoreSeen (N : ℕ) (P : Nlp n m k) (restore : RestoreFn n m k) : Prop :=
  ∀ st α w E mv, w.Seen N → restore st α w E = some mv → mv.Seen N P

theorem ipmMove_seen {N : ℕ} {env : Env} {opts : SolverOptions} {P : Nlp n m k} {restore : RestoreFn n m k}
    (hR : RestoreSeen N P restore) {st : IpmState n m k} {w : World} {E : Filter} (hw : w.Seen N) {mv : Moved n m k}
    (h : ipmMove env opts P restore st w E = some mv) : mv.Seen N P := by
  unfold ipmMove at h
  split at h
  · obtain rfl := Option.some.inj h
    exact hw.same rfl rfl
  simp only at h
  obtain ⟨ls, -, h⟩ := Option.bind_eq_some_iff.1 h
  split at h
  · exact hR _ _ _ _ _ (hw.same (w' := { w with factors := w.factors + 1, solves := ls.solves }) rfl rfl) h
  cases hacc : ls.accepted with
  | none =>
    rw [hacc] at h
    exact hR _ _ _ _ _ (hw.same (w' := { w with factors := w.factors + 1, solves := ls.solves }) rfl rfl) h
  | some b =>
    rw [hacc] at h
    obtain rfl := Option.some.inj h
    exact ⟨hw.same rfl rfl, rfl⟩

theorem ipmLoop_seen {N : ℕ} {env : Env} {opts : SolverOptions} {P : Nlp n m k} {cbs : List Callback} {extra : Extra}
    {inner : Bool} {restore : RestoreFn n m k} {start : ℝ} (hN : N ≤ n) (hP : ∀ x, P.vars x = (List.ofFn x).take N)
    (hR : RestoreSeen N P restore) (r : ℕ) {st : IpmState n m k} {w : World} {E : Filter} (hw : w.Seen N)
    (hv : w.vars = P.vars st.x) {res : IpmResult n m k}
    (h : ipmLoop env opts P cbs extra inner restore start r st w E = some res) : res.world.Seen N := by
  induction r generalizing st w E with
  | zero => simp [ipmLoop] at h
  | succ r ih =>
    rw [ipmLoop] at h
    split at h
    · obtain rfl := Option.some.inj h; exact hw
    split at h
    · obtain rfl := Option.some.inj h; exact hw
    split at h
    · obtain rfl := Option.some.inj h; exact hw
    split at h
    · obtain rfl := Option.some.inj h; exact hw
    have hn : (ipmNotify cbs extra inner st w E).1.Seen N := hw.show rfl rfl (hv.trans (hP _))
      (by rw [hv, hP]; simp [hN])
    simp only at h
    split at h
    · obtain rfl := Option.some.inj h; exact hn
    obtain ⟨mv, h1, h2⟩ := Option.bind_eq_some_iff.1 h
    have hm := ipmMove_seen hR hn h1
    cases mv with
    | stop r =>
      obtain rfl := Option.some.inj h2
      exact hm
    | go st2 w2 E2 =>
      obtain ⟨st3, h3, h4⟩ := Option.bind_eq_some_iff.1 h2
      split at h4
      · obtain rfl := Option.some.inj h4; exact hm.1
      split at h4
      · obtain rfl := Option.some.inj h4; exact hm.1.same rfl rfl
      · refine ih ?_ ?_ h4
        · exact hm.1.same rfl rfl
        · rw [ipmFinish_x h3]; exact hm.2

theorem ipmRun_seen {N : ℕ} {env : Env} {opts : SolverOptions} {P : Nlp n m k} {cbs : List Callback} {extra : Extra}
    {inner : Bool} {restore : RestoreFn n m k} (hN : N ≤ n) (hP : ∀ x, P.vars x = (List.ofFn x).take N)
    (hR : RestoreSeen N P restore) {x : Vec n} {s : Vec k} {y : Vec m} {z : Vec k} {μ : Fl} {it : ℕ} {w : World}
    {E : Filter} (hw : w.Seen N) {res : IpmResult n m k}
    (h : ipmRun env opts P cbs extra inner restore x s y z μ it w E = some res) : res.world.Seen N := by
  unfold ipmRun at h
  simp only at h
  split at h
  · obtain rfl := Option.some.inj h; exact hw.same rfl rfl
  split at h
  · obtain rfl := Option.some.inj h; exact hw.same rfl rfl
  · refine ipmLoop_seen hN hP hR _ ?_ rfl h
    exact hw.same rfl rfl

theorem restoreInner_seen (N : ℕ) (P : Nlp n m k) : RestoreSeen N P restoreInner := by
  intro st α w E mv hw h
  obtain rfl := Option.some.inj h
  exact hw.same rfl rfl

/-- The variables of the original problem come first. -/
theorem take_origin (xp : Vec (n + relaxed m k)) : List.ofFn (frOrigin xp) = (List.ofFn xp).take n := by
  refine List.ext_getElem (by simp) fun i h1 h2 => ?_
  simp [frOrigin, Fin.castAdd, Fin.castLE]

theorem frRun_seen {env : Env} {opts : SolverOptions} {P : Nlp n m k} (hP : ∀ x, P.vars x = List.ofFn x)
    {cbs : List Callback} {extra : Extra} {x : Vec n} {s : Vec k} {μ : Fl} {it : ℕ} {w : World} {E : Filter}
    (hw : w.Seen n) {res : IpmResult (n + relaxed m k) m (k + relaxed m k)}
    (h : frRun env opts P cbs extra x s μ it w E = some res) : res.world.Seen n :=
  ipmRun_seen (P := frProblem env P x (frMu env (P.ce x) (fun i => P.ci x i - s i) μ))
    (Nat.le_add_right _ _) (fun xp => (hP _).trans (take_origin xp)) (restoreInner_seen _ _) hw h

theorem restoreIpm_seen {env : Env} {opts : SolverOptions} {P : Nlp n m k} (hP : ∀ x, P.vars x = List.ofFn x)
    {cbs : List Callback} : RestoreSeen n P (restoreIpm env opts P cbs) := by
  intro st α w E mv hw h
  obtain ⟨res, h1, h2⟩ := Option.map_eq_some_iff.1 h
  have hr := frRun_seen hP hw h1
  simp only at h2
  split at h2
  · subst h2; exact ⟨hr.same rfl rfl, rfl⟩
  · subst h2; exact hr

theorem restoreSqp_seen {env : Env} {opts : SolverOptions} {P : Nlp n m 0} (hP : ∀ x, P.vars x = List.ofFn x)
    {cbs : List Callback} {st : SqpState n m} {α : Fl} {w : World} (hw : w.Seen n) {mv : SqpMoved n m}
    (h : restoreSqp env opts P cbs st α w = some mv) :
    mv.elim (fun r => r.world.Seen n) fun st w => w.Seen n ∧ w.vars = P.vars st.x := by
  obtain ⟨res, h1, h2⟩ := Option.map_eq_some_iff.1 h
  have hr := frRun_seen hP hw h1
  simp only at h2
  split at h2
  · subst h2; exact ⟨hr.same rfl rfl, rfl⟩
  · subst h2; exact hr

theorem sqpMove_seen {env : Env} {opts : SolverOptions} {P : Nlp n m 0} (hP : ∀ x, P.vars x = List.ofFn x)
    {cbs : List Callback} {st : SqpState n m} {w : World} (hw : w.Seen n) {mv : SqpMoved n m}
    (h : sqpMove env opts P cbs st w = some mv) :
    mv.elim (fun r => r.world.Seen n) fun st w => w.Seen n ∧ w.vars = P.vars st.x := by
  unfold sqpMove at h
  split at h
  · obtain rfl := Option.some.inj h
    exact hw.same rfl rfl
  simp only at h
  obtain ⟨ls, -, h⟩ := Option.bind_eq_some_iff.1 h
  cases hacc : ls.accepted with
  | none =>
    rw [hacc] at h
    exact restoreSqp_seen hP (hw.same (w' := { w with factors := w.factors + 1, solves := ls.solves }) rfl rfl) h
  | some b =>
    rw [hacc] at h
    obtain rfl := Option.some.inj h
    exact ⟨hw.same rfl rfl, rfl⟩

theorem take_ofFn (x : Vec n) : List.ofFn x = (List.ofFn x).take n := by
  rw [List.take_of_length_le (by simp)]

theorem sqpLoop_seen {env : Env} {opts : SolverOptions} {P : Nlp n m 0} (hP : ∀ x, P.vars x = List.ofFn x)
    {cbs : List Callback} {start : ℝ} (r : ℕ) {st : SqpState n m} {w : World} (hw : w.Seen n)
    (hv : w.vars = P.vars st.x) {res : SqpResult n m} (h : sqpLoop env opts P cbs start r st w = some res) :
    res.world.Seen n := by
  induction r generalizing st w with
  | zero => simp [sqpLoop] at h
  | succ r ih =>
    rw [sqpLoop] at h
    split at h
    · obtain rfl := Option.some.inj h; exact hw
    split at h
    · obtain rfl := Option.some.inj h; exact hw
    split at h
    · obtain rfl := Option.some.inj h; exact hw
    have hn : World.Seen n { w with
        calls := (runRegistered st.info 0 cbs w.calls).1, trace := w.trace ++ [⟨false, st.info, 0, 0⟩]
        seen := w.seen ++ [w.vars] } := hw.show rfl rfl (hv.trans ((hP _).trans (take_ofFn _))) (by rw [hv, hP]; simp)
    simp only at h
    split at h
    · obtain rfl := Option.some.inj h; exact hn
    obtain ⟨mv, h1, h2⟩ := Option.bind_eq_some_iff.1 h
    have hm := sqpMove_seen hP hn h1
    cases mv with
    | stop r =>
      obtain rfl := Option.some.inj h2
      exact hm
    | go st2 w2 =>
      simp only [SqpMoved.elim] at h2
      split at h2
      · obtain rfl := Option.some.inj h2; exact hm.1
      split at h2
      · obtain rfl := Option.some.inj h2; exact hm.1.same rfl rfl
      · refine ih ?_ ?_ h2
        · exact hm.1.same rfl rfl
        · exact hm.2

theorem newtonLoop_seen {env : Env} {opts : SolverOptions} {P : Nlp n 0 0} (hP : ∀ x, P.vars x = List.ofFn x)
    {cbs : List Callback} {start : ℝ} (r : ℕ) {st : NewtonState n} {w : World} (hw : w.Seen n)
    (hv : w.vars = P.vars st.x) {res : NewtonResult n} (h : newtonLoop env opts P cbs start r st w = some res) :
    res.world.Seen n := by
  induction r generalizing st w with
  | zero => simp [newtonLoop] at h
  | succ r ih =>
    rw [newtonLoop] at h
    split at h
    · obtain rfl := Option.some.inj h; exact hw
    split at h
    · obtain rfl := Option.some.inj h; exact hw
    have hn : World.Seen n { w with
        calls := (runRegistered st.info 0 cbs w.calls).1, trace := w.trace ++ [⟨false, st.info, 0, 0⟩]
        seen := w.seen ++ [w.vars] } := hw.show rfl rfl (hv.trans ((hP _).trans (take_ofFn _))) (by rw [hv, hP]; simp)
    simp only at h
    split at h
    · obtain rfl := Option.some.inj h; exact hn
    obtain ⟨ls, -, h⟩ := Option.bind_eq_some_iff.1 h
    cases hacc : ls.accepted with
    | none =>
      rw [hacc] at h
      obtain rfl := Option.some.inj h; exact hn.same rfl rfl
    | some b =>
      rw [hacc, Option.elim_some] at h
      split at h
      · obtain rfl := Option.some.inj h; exact hn.same rfl rfl
      split at h
      · obtain rfl := Option.some.inj h; exact hn.same rfl rfl
      · refine ih ?_ ?_ h
        · exact hn.same rfl rfl
        · rfl

end Slp
