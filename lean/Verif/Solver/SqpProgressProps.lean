import Verif.Solver.ProgressProps
import Verif.Solver.SqpRegularProps

/-! C51 for the SQP solver and Newton's method. -/

namespace Slp

open Classical

variable {n m : ℕ}

theorem sqpSocLoop_filter {Q : Filter → Prop} (hQ : Filter.Kept Q) {env : Env} {P : Nlp n m 0} {st : SqpState n m} {D α : Fl}
    (r : ℕ) {ce : Vec m} {t : SqpTrial n m} {viol : Fl} {F : Filter} {i : ℕ} (h : Q F) :
    Q (sqpSocLoop env P st D α r ce t viol F i).filter := by
  induction r generalizing ce t viol F i with
  | zero => exact h
  | succ r ih =>
    rw [sqpSocLoop]
    split_ifs
    · exact hQ.tryAdd _ _ _ _ _ h
    · exact hQ.tryAdd _ _ _ _ _ h
    · exact ih (hQ.tryAdd _ _ _ _ _ h)

theorem sqpLineSearch_filter {Q : Filter → Prop} (hQ : Filter.Kept Q) {env : Env} {P : Nlp n m 0} {st : SqpState n m}
    {p : SqpStep n m} {D : Fl} (r : ℕ) {α : Fl} {F : Filter} {c i : ℕ} {ls : SqpLineSearch n m} (h : Q F)
    (hls : sqpLineSearch env P st p D r α F c i = some ls) : Q ls.filter := by
  induction r generalizing α F c i with
  | zero => simp [sqpLineSearch] at hls
  | succ r ih =>
    rw [sqpLineSearch] at hls
    simp only at hls
    split at hls
    · split at hls
      · obtain rfl := Option.some.inj hls; exact h
      · exact ih h hls
    · split at hls
      · obtain rfl := Option.some.inj hls; exact hQ.tryAdd _ _ _ _ _ h
      · have hs : Q (sqpSoc env P st D α (sqpTrial P st p α) (F.tryAdd st.entry
            (sqpEntry (sqpTrial P st p α).f (sqpTrial P st p α).ce) D α).1 i).filter := by
          unfold sqpSoc
          split
          · exact sqpSocLoop_filter hQ 5 (hQ.tryAdd _ _ _ _ _ h)
          · exact hQ.tryAdd _ _ _ _ _ h
        generalize sqpSoc env P st D α _ _ i = soc at hs hls
        cases hso : soc.accepted with
        | some b => rw [hso] at hls; obtain rfl := Option.some.inj hls; exact hs
        | none =>
          rw [hso] at hls
          simp only [Option.elim] at hls
          by_cases h1 : (if α = 1 then c + 1 else c) ≥ 4 ∧ soc.filter.maxViolation > st.entry.violation / .fin 10 ∧
              soc.filter.lastRejectionDueToFilter = true
          · rw [if_pos h1] at hls; exact ih (hQ.shrink _ hs) hls
          rw [if_neg h1] at hls
          by_cases h2 : α * .fin 0.5 < alphaMin
          · rw [if_pos h2] at hls
            split at hls <;> (obtain rfl := Option.some.inj hls; exact hs)
          · rw [if_neg h2] at hls; exact ih hs hls

/-- The cost and the sum of the violations of the equality constraints. -/
noncomputable def equalityEntry (P : Nlp n m 0) (x : Vec n) : FilterEntry := ⟨P.f x, norm1 (List.ofFn (P.ce x))⟩

/-- Progress of the SQP solver from the iterate `a` to `b` (compare `IpmProgress`). -/
def SqpStepProgress (env : Env) (P : Nlp n m 0) (cbs : List Callback) (v : ℝ) (a b : Snapshot) : Prop :=
  ∃ (x : Vec n) (y : Vec m) (x' : Vec n) (y' : Vec m), a.info.x = List.ofFn x ∧ a.info.y = List.ofFn y ∧
    b.info.x = List.ofFn x' ∧ b.info.y = List.ofFn y' ∧
    ((∃ α, 1e-7 ≤ α ∧ α ≤ 1 ∧ FilterProgress v α (equalityEntry P x) (equalityEntry P x')) ∨
      errOneSqp env (P.eval x' y' Fin.elim0) y' ≤ .fin 0.999 * errOneSqp env (P.eval x y Fin.elim0) y ∨
      ((equalityEntry P x').violation < .fin 0.9 * (equalityEntry P x).violation ∧
        ¬ (equalityEntry P x').violation > .fin (1e4 * Max.max 1 v)) ∨
      ∃ cb ∈ cbs, ∃ calls info, cb calls info = true ∧ info.x.take n = List.ofFn x')

/-- The relation between the states. -/
def SqpMadeProgress (env : Env) (P : Nlp n m 0) (cbs : List Callback) (v : ℝ) (st st' : SqpState n m) : Prop :=
  (∃ α, 1e-7 ≤ α ∧ α ≤ 1 ∧ FilterProgress v α (equalityEntry P st.x) (equalityEntry P st'.x)) ∨
  errOneSqp env (P.eval st'.x st'.y Fin.elim0) st'.y ≤ .fin 0.999 * errOneSqp env (P.eval st.x st.y Fin.elim0) st.y ∨
  ((equalityEntry P st'.x).violation < .fin 0.9 * (equalityEntry P st.x).violation ∧
    ¬ (equalityEntry P st'.x).violation > .fin (1e4 * Max.max 1 v)) ∨
  ∃ cb ∈ cbs, ∃ calls info, cb calls info = true ∧ info.x.take n = List.ofFn st'.x

theorem sqpMove_progress {env : Env} {opts : SolverOptions} {P : Nlp n m 0} {cbs : List Callback} {v : ℝ}
    {st : SqpState n m} (he : st.e = P.eval st.x st.y Fin.elim0) (hF : st.filter.Limits v) {w : World}
    {st2 : SqpState n m} {w2 : World} (h : sqpMove env opts P cbs st w = some (.go st2 w2)) :
    SqpMadeProgress env P cbs v st st2 ∧ st2.filter.Limits v := by
  unfold sqpMove at h
  split at h
  · simp at h
  obtain ⟨ls, hls, h⟩ := Option.bind_eq_some_iff.1 h
  have hq := sqpLineSearch_filter (Filter.limits_kept v) _ hF hls
  cases hacc : ls.accepted with
  | none =>
    rw [hacc] at h
    obtain ⟨-, h1⟩ := sqp_restoration_returns (st := { st with filter := ls.filter, rejected := ls.rejected })
      (congrArg Eval.ce he) h
    rcases h1 with ⟨c, -, -, ⟨cb, hcb, calls, hc⟩, h2, h4⟩ | ⟨h2, G, h3, h4⟩
    · refine ⟨.inr (.inr (.inr ⟨cb, hcb, calls, _, hc, h2⟩)), ?_⟩
      unfold Filter.Limits
      rw [h4.min, h4.max]; exact hq
    · have hG' : G.Limits v := by unfold Filter.Limits; rw [h3.min, h3.max]; exact hq
      have hG2 := hG'
      obtain ⟨-, B, hB, -, hBv⟩ := hG2
      refine ⟨.inr (.inr (.inl ⟨h2, beyond_limit (hB ▸ (accepted_sound h4).2.1) hBv⟩)), ?_⟩
      exact (congrArg (Filter.Limits v) (congrArg Prod.fst h4)).mp ((Filter.limits_kept v).tryAdd G _ _ _ _ hG')
  | some b =>
    rw [hacc] at h
    obtain ⟨rfl, rfl⟩ := SqpMoved.go.inj (Option.some.inj h)
    have hacc' := sqp_line_search_sound env P st _ _ st.filter _ _ ls hls b.1 b.2.1 b.2.2 hacc
    refine ⟨?_, hq⟩
    obtain ⟨e1, e2⟩ := hacc'.eval
    have hen : sqpEntry b.2.1.f b.2.1.ce = equalityEntry P b.2.1.x := by rw [e1, e2]; rfl
    have hen0 : st.entry = equalityEntry P st.x := by unfold SqpState.entry; rw [he]; rfl
    rcases b with ⟨R, t, used⟩
    cases R with
    | filter =>
      obtain ⟨u, rfl, hu, hu1, -, -, -, hacc'⟩ := hacc'
      rw [hen0, show sqpEntry t.f t.ce = _ from hen] at hacc'
      exact .inl ⟨u, hu, hu1, hacc'.progress hF (by linarith)⟩
    | correction =>
      obtain ⟨l, ce, w, -, -, -, hacc', -⟩ := hacc'
      rw [hen0, show sqpEntry t.f t.ce = _ from hen, Fl.one_def] at hacc'
      exact .inl ⟨1, by norm_num, le_rfl, hacc'.progress hF one_pos⟩
    | kktError =>
      obtain ⟨-, -, hacc'⟩ := hacc'
      refine .inr (.inl ?_)
      have : t.eval P = P.eval t.x t.y Fin.elim0 := by
        simp only at e1 e2
        unfold SqpTrial.eval
        rw [e1, e2]
        show Eval.mk _ _ _ _ _ _ _ = Eval.mk _ _ _ _ _ _ _
        congr 1 <;> funext i <;> exact i.elim0
      rw [this, he] at hacc'
      exact hacc'

/-- How consecutive iterates relate: as `T` says of the states. -/
def SqpLinked (T : SqpState n m → SqpState n m → Prop) (a b : Snapshot) : Prop :=
  ∃ st st' : SqpState n m, a.info = st.info ∧ b.info = { st'.info with iteration := st'.iterations + 1 } ∧ T st st'

theorem sqpLoop_progress {env : Env} {opts : SolverOptions} {P : Nlp n m 0} (htol : 0 < opts.tolerance)
    {cbs : List Callback} {v : ℝ} {start : ℝ} {first : Snapshot} (r : ℕ) (st : SqpState n m) (w : World)
    (he : st.e = P.eval st.x st.y Fin.elim0) (hF : st.filter.Limits v) (hp : w.Pos True)
    (hw : Shown (SqpLinked (SqpMadeProgress env P cbs v)) false first (w.trace ++ [⟨false, st.info, 0, 0⟩]))
    (res : SqpResult n m) (hres : sqpLoop env opts P cbs start r st w = some res) :
    Shown (SqpLinked (SqpMadeProgress env P cbs v)) false first res.world.trace := by
  induction r generalizing st w with
  | zero => simp [sqpLoop] at hres
  | succ r ih =>
    rw [sqpLoop] at hres
    split at hres
    · obtain rfl := Option.some.inj hres; exact hw.before
    split at hres
    · obtain rfl := Option.some.inj hres; exact hw.before
    split at hres
    · obtain rfl := Option.some.inj hres; exact hw.before
    simp only at hres
    split at hres
    · obtain rfl := Option.some.inj hres; exact hw
    obtain ⟨mv, hmv, hres⟩ := Option.bind_eq_some_iff.1 hres
    have hp1 : World.Pos True
        { w with calls := (runRegistered st.info 0 cbs w.calls).1, trace := w.trace ++ [⟨false, st.info, 0, 0⟩], seen := w.seen ++ [w.vars] } := by
      have hi : st.info.Pos True := ⟨by simp [SqpState.info], by simp [SqpState.info]⟩
      obtain ⟨l, h1, h2⟩ := runRegistered_calls st.info 0 cbs w.calls
      refine ⟨fun s hs => ?_, fun c hc => ?_⟩
      · rcases List.mem_append.1 hs with h | h
        · exact hp.trace s h
        · rw [List.mem_singleton] at h; rw [h]; exact hi
      · rw [show ((runRegistered st.info 0 cbs w.calls).1) = w.calls ++ l from h1] at hc
        rcases List.mem_append.1 hc with h | h
        · exact hp.calls c h
        · rw [h2 c h]; exact hi
    obtain ⟨mv', hmv', hok⟩ := sqpMove_ok (env := env) (P := P) (cbs := cbs) htol st hp1
    obtain rfl := Option.some.inj (hmv.symm.trans hmv')
    obtain ⟨bs, es, h1, h2, -⟩ := hok.history
    have h3 : ∀ s ∈ bs.map Prod.fst, false = false ∧ s.inner = true := fun s hs => by
      obtain ⟨b, hb, rfl⟩ := List.mem_map.1 hs
      exact ⟨rfl, h2 b hb⟩
    cases mv with
    | stop r =>
      obtain rfl : r = res := Option.some.inj hres
      rw [show r.world.trace = _ from h1.trace]
      exact hw.other h3
    | go st2 w2 =>
      obtain ⟨k1, k2⟩ := sqpMove_progress he hF hmv
      have e : w2.trace = _ := h1.trace
      simp only [SqpMoved.elim] at hres
      split at hres
      · obtain rfl := Option.some.inj hres
        show Shown _ _ _ w2.trace
        rw [e]; exact hw.other h3
      split at hres
      · obtain rfl := Option.some.inj hres
        show Shown _ _ _ w2.trace
        rw [e]; exact hw.other h3
      · refine ih _ _ ?_ ?_ ?_ ?_ hres
        · exact (hok.go st2 w2 rfl).1
        · exact k2
        · exact ⟨hok.pos.trace, hok.pos.calls⟩
        show Shown _ _ _ (w2.trace ++ _)
        rw [e]
        exact hw.next rfl rfl h3 ⟨st, st2, rfl, rfl, k1⟩

/-- C51: likewise for the SQP solver. -/
theorem sqp_progress {env : Env} {opts : SolverOptions} {P : Nlp n m 0} {cbs : List Callback} {x : Vec n}
    (htol : 0 < opts.tolerance) {res : SqpResult n m} (hres : sqp env opts P cbs x .start = some res) :
    res.world.outer = [] ∨ ∃ v, norm1 (List.ofFn (P.ce x)) = .fin v ∧
      res.world.outer.IsChain (SqpStepProgress env P cbs v) := by
  unfold sqp sqpRun at hres
  simp only at hres
  split at hres
  · obtain rfl := Option.some.inj hres; exact .inl rfl
  split at hres
  · obtain rfl := Option.some.inj hres; exact .inl rfl
  rename_i hfin
  rw [not_not] at hfin
  obtain ⟨v, hv⟩ := Fl.isFinite_iff.1 (norm1_finite (show (P.ce x).Finite from hfin.2.2.2.1))
  have h2 := sqpLoop_progress (v := v) htol _ _ _ rfl
    (by
      have := Filter.make_limits v
      rw [← hv] at this; exact this)
    ⟨by simp [World.start], by simp [World.start]⟩ (Shown.start _ ⟨false, (sqpInit env P x fun _ => 0).info, 0, 0⟩) _ hres
  refine .inr ⟨v, hv, ?_⟩
  refine h2.chain.imp ?_
  rintro a b ⟨st, st', ha, hb, hT⟩
  refine ⟨st.x, st.y, st'.x, st'.y, ?_, ?_, ?_, ?_, hT⟩
  · rw [ha]; rfl
  · rw [ha]; rfl
  · rw [hb]; rfl
  · rw [hb]; rfl

/-! ### Newton's method -/

theorem newtonLineSearch_filter {Q : Filter → Prop} (hQ : Filter.Kept Q) {env : Env} {P : Nlp n 0 0} {st : NewtonState n}
    {i : ℕ} {D : Fl} (r : ℕ) {α : Fl} {F : Filter} {ls : NewtonLineSearch n} (h : Q F)
    (hls : newtonLineSearch env P st i D r α F = some ls) : Q ls.filter := by
  induction r generalizing α F with
  | zero => simp [newtonLineSearch] at hls
  | succ r ih =>
    rw [newtonLineSearch] at hls
    simp only at hls
    split_ifs at hls
    all_goals first
      | (obtain rfl := Option.some.inj hls; first | exact h | exact hQ.tryAdd _ _ _ _ _ h)
      | exact ih h hls
      | exact ih (hQ.tryAdd _ _ _ _ _ h) hls

/-- Progress of Newton's method from the iterate `a` to `b`, a fraction `α` of the step `p`: the cost decreases unless `p`
is no direction of descent, or the norm of the gradient decreases by a thousandth. -/
def NewtonProgress (env : Env) (P : Nlp n 0 0) (a b : Snapshot) : Prop :=
  ∃ (x x' p : Vec n) (α : ℝ), a.info.x = List.ofFn x ∧ b.info.x = List.ofFn x' ∧ 1e-20 ≤ α ∧ α ≤ 1 ∧
    (∀ j, x' j = x j + .fin α * p j) ∧
    ((∃ c, P.f x' = .fin c) ∧ (dotF env (P.g x) p < 0 → P.f x' < P.f x) ∨
      α = 1 ∧ errOneNewton env (P.g x') ≤ .fin 0.999 * errOneNewton env (P.g x))

theorem steep {D : Fl} {α : ℝ} (hα : 0 < α) (hD : D < 0) : Fl.fin α * Fl.pow (-D) 2.3 > Fl.pow 0 1.1 := by
  have h0 : Fl.pow 0 1.1 = .fin 0 := by
    rw [Fl.zero_def, Fl.pow_fin le_rfl, Real.zero_rpow (by norm_num)]
  rw [h0]
  cases D with
  | fin d =>
    rw [Fl.zero_def, Fl.fin_lt] at hD
    rw [Fl.fin_neg, Fl.pow_fin (by linarith), Fl.fin_mul]
    exact mul_pos hα (Real.rpow_pos_of_pos (by linarith) _)
  | pinf => exact hD.elim
  | ninf =>
    show Fl.fin 0 < Fl.infMul true α
    unfold Fl.infMul
    rw [if_neg hα.ne', if_pos (by simp [hα])]
    trivial
  | nan => exact hD.elim

theorem newton_accepted_progress {env : Env} {P : Nlp n 0 0} {st : NewtonState n} {i : ℕ} (hf : st.f = P.f st.x)
    (hg : st.g = P.g st.x) (hF : st.filter.Limits 0) {R : Reason} {x : Vec n} {f used : Fl}
    (h : NewtonAcceptable env P st i (dotF env st.g (newtonStep env st i)) st.filter R x f used) :
    ∃ α : ℝ, 1e-20 ≤ α ∧ α ≤ 1 ∧ (∀ j, x j = st.x j + .fin α * newtonStep env st i j) ∧ f = P.f x ∧
    ((∃ c, P.f x = .fin c) ∧ (dotF env (P.g st.x) (newtonStep env st i) < 0 → P.f x < P.f st.x) ∨
      α = 1 ∧ errOneNewton env (P.g x) ≤ .fin 0.999 * errOneNewton env (P.g st.x)) := by
  cases R with
  | filter =>
    obtain ⟨a, rfl, ha, ha1, rfl, rfl, hfin, hacc⟩ := h
    have hap : 0 < a := by linarith
    refine ⟨a, ha, ha1, fun _ => rfl, rfl, .inl ⟨Fl.isFinite_iff.1 hfin, fun hD => ?_⟩⟩
    obtain ⟨⟨c, h1⟩, -, -, h3⟩ := accepted_sound (F' := (st.filter.tryAdd _ _ _ _).1) (Prod.ext rfl hacc)
    rw [← hg] at hD
    have hmin : (newtonEntry st.f).violation ≤ st.filter.minViolation := by
      rw [hF.1]
      show (0 : ℝ) ≤ _
      positivity
    rw [if_pos ⟨hmin, hD, steep hap hD⟩] at h3
    have := lower_of_armijo h1 hap hD h3
    rw [← hf]; exact this
  | correction => exact h.elim
  | kktError =>
    obtain ⟨rfl, rfl, rfl, herr⟩ := h
    rw [hg] at herr
    exact ⟨1, by norm_num, le_rfl, fun _ => rfl, rfl, .inr ⟨rfl, herr⟩⟩

theorem newtonLoop_progress {env : Env} {opts : SolverOptions} {P : Nlp n 0 0} {cbs : List Callback} {start : ℝ}
    {first : Snapshot} (r : ℕ) (st : NewtonState n) (w : World) (hf : st.f = P.f st.x) (hg : st.g = P.g st.x)
    (hF : st.filter.Limits 0) (hw : Shown (NewtonProgress env P) false first (w.trace ++ [⟨false, st.info, 0, 0⟩]))
    (res : NewtonResult n) (hres : newtonLoop env opts P cbs start r st w = some res) :
    Shown (NewtonProgress env P) false first res.world.trace := by
  induction r generalizing st w with
  | zero => simp [newtonLoop] at hres
  | succ r ih =>
    rw [newtonLoop] at hres
    split at hres
    · obtain rfl := Option.some.inj hres; exact hw.before
    split at hres
    · obtain rfl := Option.some.inj hres; exact hw.before
    simp only at hres
    split at hres
    · obtain rfl := Option.some.inj hres; exact hw
    obtain ⟨ls, hls, hres⟩ := Option.bind_eq_some_iff.1 hres
    have hq := newtonLineSearch_filter (Filter.limits_kept 0) _ hF hls
    cases hacc : ls.accepted with
    | none =>
      rw [hacc] at hres
      obtain rfl := Option.some.inj hres
      exact hw
    | some b =>
      obtain ⟨R, x, f, used⟩ := b
      obtain ⟨α, h1, h2, h3, h4, h5⟩ := newton_accepted_progress hf hg hF
        (newton_line_search_sound env P st _ _ _ ls hls R x f used hacc)
      rw [hacc] at hres
      simp only [Option.elim] at hres
      split at hres
      · obtain rfl := Option.some.inj hres
        exact hw
      split at hres
      · obtain rfl := Option.some.inj hres
        exact hw
      · refine ih _ _ h4 rfl hq ?_ hres
        have := hw.next (l' := []) (s' := ⟨false, ⟨⟨st.iterations + 1, List.ofFn x, [], [], []⟩,
          List.ofFn (P.g x), FMat.rows (P.H x Fin.elim0 Fin.elim0), [], []⟩, 0, 0⟩) rfl rfl (by simp)
          ⟨st.x, x, _, α, rfl, rfl, h1, h2, h3, h5⟩
        rw [List.append_nil] at this
        exact this

/-- C51: Newton's method decreases the cost in every iteration whose step is a direction of descent, unless it decreases
the norm of the gradient. -/
theorem newton_progress {env : Env} {opts : SolverOptions} {P : Nlp n 0 0} {cbs : List Callback} {x : Vec n}
    {res : NewtonResult n} (hres : newton env opts P cbs x .start = some res) :
    res.world.outer.IsChain (NewtonProgress env P) := by
  have key : Shown (NewtonProgress env P) false ⟨false, (newtonInit env P x).info, 0, 0⟩ res.world.trace := by
    unfold newton at hres
    simp only at hres
    split at hres
    · obtain rfl := Option.some.inj hres
      exact .nil _ _ _
    exact newtonLoop_progress _ _ _ rfl rfl (Filter.make_limits 0)
      (Shown.start _ ⟨false, (newtonInit env P x).info, 0, 0⟩) _ hres
  exact key.chain

/-- Runs that meet the hypotheses, from any guess and with any answers of the linear solver. -/
example (env : Env) (cbs : List Callback) (P : Nlp 2 1 0) (x : Vec 2) :
    ∃ res, sqp env ⟨1e-8, 5000, .pinf, false⟩ P cbs x .start = some res ∧
      (res.world.outer = [] ∨ ∃ v, norm1 (List.ofFn (P.ce x)) = .fin v ∧
        res.world.outer.IsChain (SqpStepProgress env P cbs v)) := by
  have ht : (0 : ℝ) < (⟨1e-8, 5000, .pinf, false⟩ : SolverOptions).tolerance := by norm_num
  obtain ⟨res, h1, -⟩ := sqp_correct_partial env ⟨1e-8, 5000, .pinf, false⟩ P cbs x ht
  exact ⟨res, h1, sqp_progress ht h1⟩

example (env : Env) (cbs : List Callback) (x : Vec 1) :
    ∃ res, newton env ⟨1e-8, 5000, .pinf, false⟩ squareProblem cbs x .start = some res ∧
      res.world.outer.IsChain (NewtonProgress env squareProblem) := by
  obtain ⟨res, h1, -⟩ := newton_correct env ⟨1e-8, 5000, .pinf, false⟩ squareProblem cbs x
  exact ⟨res, h1, newton_progress h1⟩

end Slp
