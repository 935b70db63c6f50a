import Verif.Solver.IpmLemmas
import Mathlib.Data.List.Pairwise

/-! Lemmas for C23, C24 and C26: what a run of the interior-point solver adds to the history of callback calls,
clock readings and barrier parameters. -/

namespace Slp

open Classical

variable {n m k : ℕ}

/-! ### Callback calls -/

/-- The calls at one iterate: the callbacks in registration order until one returns true, each shown the iterate
and asked after `before`. -/
structure Batch (cbs : List Callback) (before : List Call) (info : Info) (l : List Call) : Prop where
  order : l.map Call.index = List.range l.length
  shown : ∀ c ∈ l, c.info = info
  length : l.length ≤ cbs.length
  results : ∀ i (h : i < l.length) (h' : i < cbs.length), l[i].result = cbs[i] (before ++ l.take i) info
  first : ∀ c ∈ l.dropLast, c.result = false
  all : (∀ c ∈ l, c.result = false) → l.length = cbs.length

theorem runRegistered_batch (info : Info) (i : ℕ) (cbs : List Callback) (calls : List Call) :
    ∃ l, (runRegistered info i cbs calls).1 = calls ++ l ∧
      ((runRegistered info i cbs calls).2 = true ↔ ∃ c ∈ l, c.result = true) ∧
      l.map Call.index = List.range' i l.length ∧ (∀ c ∈ l, c.info = info) ∧ l.length ≤ cbs.length ∧
      (∀ j (h : j < l.length) (h' : j < cbs.length), l[j].result = cbs[j] (calls ++ l.take j) info) ∧
      (∀ c ∈ l.dropLast, c.result = false) ∧ ((∀ c ∈ l, c.result = false) → l.length = cbs.length) := by
  induction cbs generalizing i calls with
  | nil => exact ⟨[], by simp [runRegistered]⟩
  | cons cb cbs ih =>
    unfold runRegistered
    by_cases hc : cb calls info = true
    · rw [if_pos hc]
      refine ⟨[⟨i, info, true⟩], rfl, by simp, by simp, by simp, by simp, ?_, by simp, by simp⟩
      intro j h _
      obtain rfl : j = 0 := by simpa using h
      simp [hc]
    · rw [if_neg hc]
      obtain ⟨l, h1, h2, h3, h4, h5, h6, h7, h8⟩ := ih (i + 1) (calls ++ [⟨i, info, false⟩])
      refine ⟨⟨i, info, false⟩ :: l, by rw [h1]; simp, by rw [h2]; simp, by simp [h3, List.range'], ?_, by simpa using h5,
        ?_, ?_, ?_⟩
      · intro c hc
        rcases List.mem_cons.1 hc with rfl | hc
        · rfl
        · exact h4 c hc
      · intro j h h'
        cases j with
        | zero => simpa using hc
        | succ j =>
          have := h6 j (by simpa using h) (by simpa using h')
          simpa using this
      · intro c hc
        cases l with
        | nil => simp at hc
        | cons a l =>
          rw [List.dropLast_cons_cons] at hc
          rcases List.mem_cons.1 hc with rfl | hc
          · rfl
          · exact h7 c hc
      · intro hall
        have := h8 fun c hc => hall c (by simp [hc])
        simpa using this

theorem runRegistered_correct (cbs : List Callback) (info : Info) (calls : List Call) :
    ∃ l, (runRegistered info 0 cbs calls).1 = calls ++ l ∧ Batch cbs calls info l ∧
      ((runRegistered info 0 cbs calls).2 = true ↔ ∃ c ∈ l, c.result = true) := by
  obtain ⟨l, h1, h2, h3, h4, h5, h6, h7, h8⟩ := runRegistered_batch info 0 cbs calls
  exact ⟨l, h1, ⟨by rw [h3, List.range_eq_range'], h4, h5, h6, h7, h8⟩, h2⟩

/-- Iterates shown to callbacks, each with the calls. -/
abbrev Batches := List (Snapshot × List Call)

/-- Every group of calls is as described. -/
def Batches.Ok (cbs : List Callback) : List Call → Batches → Prop
  | _, [] => True
  | before, b :: bs => Batch cbs before b.1.info b.2 ∧ Batches.Ok cbs (before ++ b.2) bs

/-- All calls in order. -/
def Batches.calls (bs : Batches) : List Call := (bs.map Prod.snd).flatten

theorem Batches.ok_append {cbs : List Callback} {before : List Call} {bs bs' : Batches} :
    Batches.Ok cbs before (bs ++ bs') ↔ Batches.Ok cbs before bs ∧ Batches.Ok cbs (before ++ bs.calls) bs' := by
  induction bs generalizing before with
  | nil => simp [Batches.Ok, Batches.calls]
  | cons b bs ih =>
    simp only [List.cons_append, Batches.Ok, ih, and_assoc]
    simp [Batches.calls, List.append_assoc]

/-- How the world changed: the iterates shown with the calls, and the times. -/
structure History (cbs : List Callback) (w0 w : World) (bs : Batches) (es : List (Bool × ℝ)) : Prop where
  trace : w.trace = w0.trace ++ bs.map Prod.fst
  calls : w.calls = w0.calls ++ bs.calls
  ends : w.ends = w0.ends ++ es
  ok : Batches.Ok cbs w0.calls bs

theorem History.refl (cbs : List Callback) {w w' : World} (h1 : w'.trace = w.trace) (h2 : w'.calls = w.calls)
    (h3 : w'.ends = w.ends) : History cbs w w' [] [] :=
  ⟨by simp [h1], by simp [h2, Batches.calls], by simp [h3], trivial⟩

theorem History.trans {cbs : List Callback} {w0 w1 w2 : World} {bs bs' : Batches} {es es' : List (Bool × ℝ)}
    (h : History cbs w0 w1 bs es) (h' : History cbs w1 w2 bs' es') : History cbs w0 w2 (bs ++ bs') (es ++ es') where
  trace := by rw [h'.trace, h.trace]; simp
  calls := by rw [h'.calls, h.calls]; simp [Batches.calls]
  ends := by rw [h'.ends, h.ends]; simp
  ok := Batches.ok_append.2 ⟨h.ok, by rw [← h.calls]; exact h'.ok⟩

theorem ipmNotify_history (cbs : List Callback) (extra : Extra) (inner : Bool) (st : IpmState n m k) (w : World)
    (E : Filter) :
    ∃ l, History cbs w (ipmNotify cbs extra inner st w E).1 [(⟨inner, st.info, st.μ, st.τ⟩, l)] [] ∧
      ((∃ c ∈ l, c.result = true) → (ipmNotify cbs extra inner st w E).2.2 = true) ∧
      ((ipmNotify cbs extra inner st w E).2.2 = true → (∃ c ∈ l, c.result = true) ∨ (extra E st.info).2 = true) := by
  obtain ⟨l, h1, h2, h3⟩ := runRegistered_correct cbs st.info w.calls
  have hcalls : (runCallbacks cbs extra st.info w.calls E).1 = w.calls ++ l := by
    unfold runCallbacks; simp only; split <;> exact h1
  refine ⟨l, ⟨rfl, ?_, ?_, h2, trivial⟩, ?_, ?_⟩
  · show (runCallbacks cbs extra st.info w.calls E).1 = _
    rw [hcalls]; simp [Batches.calls]
  · simp [ipmNotify]
  · intro h
    show (runCallbacks cbs extra st.info w.calls E).2.2 = true
    unfold runCallbacks
    rw [if_pos (h3.2 h)]
  · intro h
    change (runCallbacks cbs extra st.info w.calls E).2.2 = true at h
    unfold runCallbacks at h
    simp only at h
    split at h
    · rename_i h'; exact .inl (h3.1 h')
    · exact .inr h

theorem tick_history (cbs : List Callback) (w : World) (inner : Bool) (t : ℝ) :
    History cbs w (w.tick inner t) [] [(inner, t)] :=
  ⟨by simp [World.tick], by simp [World.tick, Batches.calls], rfl, trivial⟩

/-! ### One run -/

/-- The world after a part of an iteration. -/
def Moved.world : Moved n m k → World
  | .stop r => r.world
  | .go _ w _ => w

/-- What is assumed about the restoration: it adds only entries of an inner run, it keeps the barrier parameter,
and its own statuses are reported. -/
def RestoreHistory (cbs : List Callback) (inner : Bool) (restore : RestoreFn n m k) : Prop :=
  ∀ st α w E mv, BarrierOk st → st.s.Finite → restore st α w E = some mv →
    (∃ bs es, History cbs w mv.world bs es ∧ (∀ b ∈ bs, b.1.inner = true ∧ inner = false) ∧
      ∀ e ∈ es, e.1 = true ∧ inner = false) ∧
    (∀ res, mv = .stop res → (res.status = .locallyInfeasible ∨ res.status = .feasibilityRestorationFailed) ∧
      st.iterations ≤ res.iterations) ∧
    ∀ st2 w2 E2, mv = .go st2 w2 E2 → st2.μ = st.μ ∧ st2.τ = st.τ ∧ st.iterations ≤ st2.iterations

theorem ipmMove_history {env : Env} {opts : SolverOptions} {P : Nlp n m k} {cbs : List Callback} {inner : Bool}
    {restore : RestoreFn n m k} (hR : RestoreHistory cbs inner restore) {st : IpmState n m k} (hB : BarrierOk st)
    (hs : st.s.Finite) {w : World} {E : Filter} {mv : Moved n m k} (h : ipmMove env opts P restore st w E = some mv) :
    (∃ bs es, History cbs w mv.world bs es ∧ (∀ b ∈ bs, b.1.inner = true ∧ inner = false) ∧
      ∀ e ∈ es, e.1 = true ∧ inner = false) ∧
    (∀ res, mv = .stop res → (res.status = .factorizationFailed ∨ res.status = .locallyInfeasible ∨
      res.status = .feasibilityRestorationFailed) ∧ st.iterations ≤ res.iterations) ∧
    ∀ st2 w2 E2, mv = .go st2 w2 E2 → st2.μ = st.μ ∧ st2.τ = st.τ ∧ st.iterations ≤ st2.iterations := by
  unfold ipmMove at h
  split at h
  · obtain rfl := Option.some.inj h
    refine ⟨⟨[], [], .refl cbs rfl rfl rfl, by simp, by simp⟩, ?_, by simp⟩
    intro res h
    obtain rfl := Moved.stop.inj h
    exact ⟨.inl rfl, le_rfl⟩
  · obtain ⟨ls, -, h⟩ := Option.bind_eq_some_iff.1 h
    have hrest (α : Fl) (h : restore { st with filter := ls.filter, rejected := ls.rejected } α
        { w with factors := w.factors + 1, solves := ls.solves } E = some mv) :
        (∃ bs es, History cbs w mv.world bs es ∧ (∀ b ∈ bs, b.1.inner = true ∧ inner = false) ∧
          ∀ e ∈ es, e.1 = true ∧ inner = false) ∧
        (∀ res, mv = .stop res → (res.status = .factorizationFailed ∨ res.status = .locallyInfeasible ∨
          res.status = .feasibilityRestorationFailed) ∧ st.iterations ≤ res.iterations) ∧
        ∀ st2 w2 E2, mv = .go st2 w2 E2 → st2.μ = st.μ ∧ st2.τ = st.τ ∧ st.iterations ≤ st2.iterations := by
      obtain ⟨⟨bs, es, h1, h2, h3⟩, h4, h5⟩ := hR { st with filter := ls.filter, rejected := ls.rejected } α _ E mv
        ⟨hB.μ, hB.τ⟩ hs h
      refine ⟨⟨bs, es, ?_, h2, h3⟩, fun res hr => ⟨.inr (h4 res hr).1, (h4 res hr).2⟩, h5⟩
      exact ⟨h1.trace, h1.calls, h1.ends, h1.ok⟩
    simp only at h
    split at h
    · exact hrest _ h
    · cases hacc : ls.accepted with
      | none => rw [hacc] at h; exact hrest _ h
      | some b =>
        rw [hacc] at h
        obtain rfl := Option.some.inj h
        refine ⟨⟨[], [], .refl cbs rfl rfl rfl, by simp, by simp⟩, by simp, ?_⟩
        intro st2 w2 E2 h
        obtain ⟨rfl, rfl, rfl⟩ := Moved.go.inj h
        exact ⟨rfl, rfl, le_rfl⟩

/-- The snapshots of a run itself, without those of restorations it called. -/
def Batches.own (inner : Bool) (bs : Batches) : List Snapshot := (bs.map Prod.fst).filter fun s => s.inner == inner

theorem Batches.own_append (inner : Bool) (bs bs' : Batches) :
    Batches.own inner (bs ++ bs') = Batches.own inner bs ++ Batches.own inner bs' := by simp [Batches.own]

/-- The barrier parameters of a run: they do not increase and stay between `lo` and `hi`; the factor of the
fraction-to-the-boundary rule stays in `[0.99, 1)`. -/
structure BarrierHistory (lo hi : ℝ) (l : List Snapshot) : Prop where
  decreasing : l.Pairwise fun a b => b.μ ≤ a.μ
  range : ∀ s ∈ l, ∃ a t, s.μ = .fin a ∧ lo ≤ a ∧ a ≤ hi ∧ s.τ = .fin t ∧ 0.99 ≤ t ∧ t < 1

/-- The iteration numbers a run that starts with number `it` shows increase, and each is the first or below the
limit. -/
structure Numbers (opts : SolverOptions) (it : ℕ) (l : List Snapshot) : Prop where
  increasing : l.Pairwise fun a b => a.info.iteration < b.info.iteration
  range : ∀ s ∈ l, MayContinue opts it s.info.iteration

/-- The result of a run that starts with iteration number `it`. -/
structure RunHistory (opts : SolverOptions) (extra : Extra) (inner : Bool) (it : ℕ) (lo hi : ℝ) (bs : Batches)
    (es : List (Bool × ℝ)) (res : IpmResult n m k) : Prop where
  quiet : ∀ b ∈ bs, b.1.inner = inner → (∃ c ∈ b.2, c.result = true) →
    res.status = .callbackRequestedStop ∧ bs.getLast? = some b
  stop : res.status = .callbackRequestedStop → ∃ b, bs.getLast? = some b ∧ b.1.inner = inner ∧
    b.1.info.toIterate = ⟨res.iterations, List.ofFn res.x, List.ofFn res.s, List.ofFn res.y, List.ofFn res.z⟩ ∧
    ((∃ c ∈ b.2, c.result = true) ∨ ∃ F, (extra F b.1.info).2 = true)
  late : ∀ e ∈ es, e.1 = inner → Fl.fin e.2 > opts.timeout → res.status = .timeout ∧ es.getLast? = some e
  timeout : res.status = .timeout → ∃ t, es.getLast? = some (inner, t) ∧ Fl.fin t > opts.timeout
  barrier : BarrierHistory lo hi (Batches.own inner bs)
  flags : inner = true → (∀ b ∈ bs, b.1.inner = true) ∧ ∀ e ∈ es, e.1 = true
  numbers : Numbers opts it (Batches.own inner bs)
  ge : it ≤ res.iterations

/-- What the loop maintains. -/
structure Progress (opts : SolverOptions) (inner : Bool) (it : ℕ) (lo hi : ℝ) (bs : Batches) (es : List (Bool × ℝ))
    (st : IpmState n m k) : Prop where
  barrier : BarrierOk st
  quiet : ∀ b ∈ bs, b.1.inner = inner → ∀ c ∈ b.2, c.result = false
  late : ∀ e ∈ es, e.1 = inner → ¬ Fl.fin e.2 > opts.timeout
  range : ∃ a, st.μ = .fin a ∧ lo ≤ a ∧ a ≤ hi
  below : ∀ s ∈ Batches.own inner bs, st.μ ≤ s.μ
  history : BarrierHistory lo hi (Batches.own inner bs)
  flags : inner = true → (∀ b ∈ bs, b.1.inner = true) ∧ ∀ e ∈ es, e.1 = true
  numbers : Numbers opts it (Batches.own inner bs)

theorem Progress.exit {opts : SolverOptions} {inner : Bool} {it : ℕ} {lo hi : ℝ} {bs : Batches} {es : List (Bool × ℝ)}
    {st : IpmState n m k} (h : Progress opts inner it lo hi bs es st) {extra : Extra} {res : IpmResult n m k}
    (h1 : res.status ≠ .callbackRequestedStop) (h2 : res.status ≠ .timeout) (h3 : it ≤ res.iterations) :
    RunHistory opts extra inner it lo hi bs es res where
  quiet := by
    rintro b hb hi ⟨c, hc, ht⟩
    rw [h.quiet b hb hi c hc] at ht
    exact absurd ht (by simp)
  stop := fun h => absurd h h1
  late := fun e he hi hl => absurd hl (h.late e he hi)
  timeout := fun h => absurd h h2
  barrier := h.history
  flags := h.flags
  numbers := h.numbers
  ge := h3

/-- The callbacks were called and none returned true. -/
theorem Progress.notify {opts : SolverOptions} {inner : Bool} {it : ℕ} {lo hi : ℝ} {bs : Batches} {es : List (Bool × ℝ)}
    {st : IpmState n m k} (h : Progress opts inner it lo hi bs es st) (hit : MayContinue opts it st.iterations)
    (hlt : ∀ s ∈ Batches.own inner bs, s.info.iteration < st.iterations) {l : List Call} :
    BarrierHistory lo hi (Batches.own inner (bs ++ [(⟨inner, st.info, st.μ, st.τ⟩, l)])) ∧
    (∀ s ∈ Batches.own inner (bs ++ [(⟨inner, st.info, st.μ, st.τ⟩, l)]), st.μ ≤ s.μ) ∧
    Numbers opts it (Batches.own inner (bs ++ [(⟨inner, st.info, st.μ, st.τ⟩, l)])) ∧
    ∀ s ∈ Batches.own inner (bs ++ [(⟨inner, st.info, st.μ, st.τ⟩, l)]), s.info.iteration ≤ st.iterations := by
  obtain ⟨a, ha, ha1, ha2⟩ := h.range
  obtain ⟨t, ht, ht1, ht2⟩ := h.barrier.τ
  have hown : Batches.own inner [((⟨inner, st.info, st.μ, st.τ⟩ : Snapshot), l)] = [⟨inner, st.info, st.μ, st.τ⟩] := by
    simp [Batches.own]
  have hrefl : st.μ ≤ st.μ := by rw [ha]; exact le_refl a
  rw [Batches.own_append, hown]
  refine ⟨⟨?_, ?_⟩, ?_, ⟨?_, ?_⟩, ?_⟩
  · rw [List.pairwise_append]
    refine ⟨h.history.decreasing, by simp, ?_⟩
    intro s hs s' hs'
    rw [List.mem_singleton] at hs'
    subst hs'
    exact h.below s hs
  · intro s hs
    rcases List.mem_append.1 hs with hs | hs
    · exact h.history.range s hs
    · rw [List.mem_singleton] at hs
      subst hs
      exact ⟨a, t, ha, ha1, ha2, ht, ht1, ht2⟩
  · intro s hs
    rcases List.mem_append.1 hs with hs | hs
    · exact h.below s hs
    · rw [List.mem_singleton] at hs
      subst hs
      exact hrefl
  · rw [List.pairwise_append]
    refine ⟨h.numbers.increasing, by simp, ?_⟩
    intro s hs s' hs'
    rw [List.mem_singleton] at hs'
    subst hs'
    exact hlt s hs
  · intro s hs
    rcases List.mem_append.1 hs with hs | hs
    · exact h.numbers.range s hs
    · rw [List.mem_singleton] at hs
      subst hs
      exact hit
  · intro s hs
    rcases List.mem_append.1 hs with hs | hs
    · exact (hlt s hs).le
    · rw [List.mem_singleton] at hs
      subst hs
      exact le_rfl

/-- The callbacks were called without a stop, and a restoration may have run. -/
theorem Progress.move {opts : SolverOptions} {inner : Bool} {it : ℕ} {lo hi : ℝ} {bs bs' : Batches} {es es' : List (Bool × ℝ)}
    {st : IpmState n m k} (h : Progress opts inner it lo hi bs es st) (hit : MayContinue opts it st.iterations)
    (hlt : ∀ s ∈ Batches.own inner bs, s.info.iteration < st.iterations) {l : List Call} (hl : ∀ c ∈ l, c.result = false)
    (hb : ∀ b ∈ bs', b.1.inner = true ∧ inner = false) (he : ∀ e ∈ es', e.1 = true ∧ inner = false) :
    Progress opts inner it lo hi (bs ++ [(⟨inner, st.info, st.μ, st.τ⟩, l)] ++ bs') (es ++ [] ++ es') st ∧
    ∀ s ∈ Batches.own inner (bs ++ [(⟨inner, st.info, st.μ, st.τ⟩, l)] ++ bs'), s.info.iteration ≤ st.iterations := by
  have hown : Batches.own inner bs' = [] := by
    rw [Batches.own, List.filter_eq_nil_iff]
    intro s hs
    obtain ⟨b, hb', rfl⟩ := List.mem_map.1 hs
    have := hb b hb'
    rw [this.1, this.2]; simp
  refine ⟨⟨h.barrier, ?_, ?_, h.range, ?_, ?_, ?_, ?_⟩, ?_⟩
  · intro b hb1 hi
    rcases List.mem_append.1 hb1 with hb1 | hb1
    · rcases List.mem_append.1 hb1 with hb1 | hb1
      · exact h.quiet b hb1 hi
      · rw [List.mem_singleton] at hb1; subst hb1; exact hl
    · have := hb b hb1; rw [this.1, this.2] at hi; exact absurd hi (by simp)
  · intro e he1 hi
    rcases List.mem_append.1 he1 with he1 | he1
    · exact h.late e (by simpa using he1) hi
    · have := he e he1; rw [this.1, this.2] at hi; exact absurd hi (by simp)
  · rw [Batches.own_append, hown, List.append_nil]; exact (h.notify hit hlt).2.1
  · rw [Batches.own_append, hown, List.append_nil]; exact (h.notify hit hlt).1
  · intro hi
    refine ⟨fun b hb1 => ?_, fun e he1 => ?_⟩
    · rcases List.mem_append.1 hb1 with hb1 | hb1
      · rcases List.mem_append.1 hb1 with hb1 | hb1
        · exact (h.flags hi).1 b hb1
        · rw [List.mem_singleton] at hb1; subst hb1; exact hi
      · exact (hb b hb1).1
    · rcases List.mem_append.1 he1 with he1 | he1
      · exact (h.flags hi).2 e (by simpa using he1)
      · exact (he e he1).1
  · rw [Batches.own_append, hown, List.append_nil]; exact (h.notify hit hlt).2.2.1
  · rw [Batches.own_append, hown, List.append_nil]; exact (h.notify hit hlt).2.2.2

/-- What the loop adds to the history. -/
theorem ipmLoop_history {env : Env} {opts : SolverOptions} {P : Nlp n m k} {cbs : List Callback} {extra : Extra}
    {inner : Bool} {restore : RestoreFn n m k} {start : ℝ} (htol : 0 < opts.tolerance) (hS : 0 < P.scaling.f)
    (hR : RestoreHistory cbs inner restore) {lo hi : ℝ} (hlo : lo ≤ P.scaling.f * opts.tolerance / 10)
    (w0 : World) (r : ℕ) (st : IpmState n m k) (w : World) (E : Filter)
    (h0 : History cbs w0 w [] []) (hst : Progress opts inner st.iterations lo hi [] [] st) (res : IpmResult n m k)
    (hres : ipmLoop env opts P cbs extra inner restore start r st w E = some res) :
    ∃ bs es, History cbs w0 res.world bs es ∧ RunHistory opts extra inner st.iterations lo hi bs es res := by
  generalize hit0 : st.iterations = it at hst
  refine ipmLoop_rule (fun st w _ => ∃ bs es, History cbs w0 w bs es ∧ Progress opts inner it lo hi bs es st ∧
      MayContinue opts it st.iterations ∧ ∀ s ∈ Batches.own inner bs, s.info.iteration < st.iterations)
    (fun res => ∃ bs es, History cbs w0 res.world bs es ∧ RunHistory opts extra inner it lo hi bs es res)
    ?_ ?_ ?_ ?_ ?_ ?_ r st w E ⟨[], [], h0, hst, ⟨hit0.ge, .inl hit0⟩, by simp [Batches.own]⟩ res hres
  · rintro st w E ⟨bs, es, h1, h2, hit, hlt⟩ -
    exact ⟨bs, es, h1, h2.exit (by simp [IpmState.exit]) (by simp [IpmState.exit]) hit.1⟩
  · rintro st w E ⟨bs, es, h1, h2, hit, hlt⟩ - -
    exact ⟨bs, es, h1, h2.exit (by simp [IpmState.exit]) (by simp [IpmState.exit]) hit.1⟩
  · rintro st w E ⟨bs, es, h1, h2, hit, hlt⟩ - -
    exact ⟨bs, es, h1, h2.exit (by simp [IpmState.exit]) (by simp [IpmState.exit]) hit.1⟩
  · rintro st w E ⟨bs, es, h1, h2, hit, hlt⟩ - hstop
    obtain ⟨l, h3, -, h5⟩ := ipmNotify_history cbs extra inner st w E
    refine ⟨_, _, h1.trans h3, ?_⟩
    constructor
    · rintro b hb hi ⟨c, hc, ht⟩
      rcases List.mem_append.1 hb with hb | hb
      · rw [h2.quiet b hb hi c hc] at ht
        exact absurd ht (by simp)
      · rw [List.mem_singleton] at hb
        subst hb
        exact ⟨rfl, by simp⟩
    · intro _
      refine ⟨_, by simp; rfl, rfl, rfl, ?_⟩
      rcases h5 hstop with h | h
      · exact .inl h
      · exact .inr ⟨E, h⟩
    · intro e he hi hl
      exact absurd hl (h2.late e (by simpa using he) hi)
    · intro h; simp [IpmState.exit] at h
    · exact (h2.notify hit hlt).1
    · intro hi
      refine ⟨?_, by simpa using (h2.flags hi).2⟩
      intro b hb
      rcases List.mem_append.1 hb with hb | hb
      · exact (h2.flags hi).1 b hb
      · rw [List.mem_singleton] at hb; subst hb; exact hi
    · exact (h2.notify hit hlt).2.2.1
    · exact hit.1
  · rintro st w E res ⟨bs, es, h1, h2, hit, hlt⟩ hat hstop hmv
    obtain ⟨l, h3, h4, -⟩ := ipmNotify_history cbs extra inner st w E
    obtain ⟨⟨bs', es', h6, h7, h8⟩, h9, -⟩ := ipmMove_history hR h2.barrier hat.s_finite hmv
    have hl : ∀ c ∈ l, c.result = false := by
      intro c hc
      by_contra ht
      rw [h4 ⟨c, hc, by simpa using ht⟩] at hstop
      exact absurd hstop (by simp)
    refine ⟨_, _, (h1.trans h3).trans h6, (h2.move hit hlt hl h7 h8).1.exit ?_ ?_ (hit.1.trans (h9 res rfl).2)⟩
    · rcases (h9 res rfl).1 with h | h | h <;> simp [h]
    · rcases (h9 res rfl).1 with h | h | h <;> simp [h]
  · rintro st w E st2 w2 E2 st3 ⟨bs, es, h1, h2, hit, hlt⟩ hat hstop hmv hfin
    obtain ⟨l, h3, h4, -⟩ := ipmNotify_history cbs extra inner st w E
    obtain ⟨⟨bs', es', h6, h7, h8⟩, -, h9⟩ := ipmMove_history hR h2.barrier hat.s_finite hmv
    have hl : ∀ c ∈ l, c.result = false := by
      intro c hc
      by_contra ht
      rw [h4 ⟨c, hc, by simpa using ht⟩] at hstop
      exact absurd hstop (by simp)
    obtain ⟨h10, h11, h12⟩ := h9 st2 w2 E2 rfl
    have hB2 : BarrierOk st2 := ⟨by rw [h10]; exact h2.barrier.μ, by rw [h11]; exact h2.barrier.τ⟩
    obtain ⟨st', f1, f2, -, -, -, -, -, f7, -, a, a', f3, f4, f5, f6, -⟩ :=
      ipmFinish_correct (env := env) htol hS hB2
    obtain rfl : st' = st3 := Option.some.inj (f1.symm.trans hfin)
    have hH := (h1.trans h3).trans h6
    obtain ⟨hp, hle⟩ := h2.move hit hlt hl h7 h8
    have hp' : Progress opts inner it lo hi (bs ++ [(⟨inner, st.info, st.μ, st.τ⟩, l)] ++ bs') (es ++ [] ++ es') st' := by
      refine ⟨f2, hp.quiet, hp.late, ?_, ?_, hp.history, hp.flags, hp.numbers⟩
      · obtain ⟨b, hb1, hb2, hb3⟩ := hp.range
        rw [h10, hb1] at f3
        obtain rfl := Fl.fin.inj f3
        exact ⟨a', f4, (le_min hb2 hlo).trans f5, f6.trans hb3⟩
      · intro s hs
        obtain ⟨b, t, hb, -⟩ := hp.history.range s hs
        have := hp.below s hs
        rw [← h10, f3, hb] at this
        rw [f4, hb]
        exact le_trans f6 this
    have hge : it ≤ st'.iterations := by have := hit.1; omega
    refine ⟨fun _ => ⟨_, _, hH, hp'.exit (by simp [IpmState.exit]) (by simp [IpmState.exit]) hge⟩, fun hmax => ⟨fun ht => ?_, fun ht => ?_⟩⟩
    · refine ⟨_, _, hH.trans (tick_history cbs w2 inner _), ?_⟩
      rw [List.append_nil]
      constructor
      · rintro b hb hi ⟨c, hc, hcr⟩
        rw [hp'.quiet b hb hi c hc] at hcr
        exact absurd hcr (by simp)
      · intro h; simp [IpmState.exit] at h
      · intro e he hi hl
        rcases List.mem_append.1 he with he | he
        · exact absurd hl (hp'.late e he hi)
        · rw [List.mem_singleton] at he
          subst he
          exact ⟨rfl, by simp⟩
      · intro _
        exact ⟨_, by simp, ht⟩
      · exact hp'.history
      · intro hi
        refine ⟨(hp'.flags hi).1, fun e he => ?_⟩
        rcases List.mem_append.1 he with he | he
        · exact (hp'.flags hi).2 e he
        · rw [List.mem_singleton] at he; subst he; exact hi
      · exact hp'.numbers
      · exact hge
    · refine ⟨_, _, hH.trans (tick_history cbs w2 inner _), ?_⟩
      rw [List.append_nil]
      refine ⟨⟨hp'.barrier, hp'.quiet, ?_, hp'.range, hp'.below, hp'.history, ?_, hp'.numbers⟩, ⟨hge, .inr hmax⟩,
        fun s hs => by have := hle s hs; omega⟩
      · intro e he hi
        rcases List.mem_append.1 he with he | he
        · exact hp'.late e he hi
        · rw [List.mem_singleton] at he; subst he; exact ht
      · intro hi
        refine ⟨(hp'.flags hi).1, fun e he => ?_⟩
        rcases List.mem_append.1 he with he | he
        · exact (hp'.flags hi).2 e he
        · rw [List.mem_singleton] at he; subst he; exact hi

/-- What a run adds to the history. -/
theorem ipmRun_history {env : Env} {opts : SolverOptions} {P : Nlp n m k} {cbs : List Callback} {extra : Extra}
    {inner : Bool} {restore : RestoreFn n m k} (htol : 0 < opts.tolerance) (hS : 0 < P.scaling.f)
    (hR : RestoreHistory cbs inner restore) {x : Vec n} {s : Vec k} {y : Vec m} {z : Vec k} {μ : Fl} {it : ℕ} {w : World}
    {E : Filter} (hinit : (P.eval x y z).Finite → ∃ a, μ = .fin a ∧ 0 < a) {res : IpmResult n m k}
    (hres : ipmRun env opts P cbs extra inner restore x s y z μ it w E = some res) :
    ∃ bs es, History cbs w res.world bs es ∧
      RunHistory opts extra inner it (min μ.toReal (P.scaling.f * opts.tolerance / 10)) μ.toReal bs es res := by
  unfold ipmRun at hres
  simp only at hres
  have hnil {res : IpmResult n m k} (h1 : res.status ≠ .callbackRequestedStop) (h2 : res.status ≠ .timeout)
      (h3 : it ≤ res.iterations) :
      RunHistory opts extra inner it (min μ.toReal (P.scaling.f * opts.tolerance / 10)) μ.toReal [] [] res :=
    ⟨by simp, fun h => absurd h h1, by simp, fun h => absurd h h2, ⟨by simp [Batches.own], by simp [Batches.own]⟩, by simp,
      ⟨by simp [Batches.own], by simp [Batches.own]⟩, h3⟩
  split at hres
  · obtain rfl := Option.some.inj hres
    exact ⟨[], [], .refl cbs rfl rfl rfl, hnil (by simp [IpmState.exit]) (by simp [IpmState.exit]) le_rfl⟩
  · split at hres
    · obtain rfl := Option.some.inj hres
      exact ⟨[], [], .refl cbs rfl rfl rfl, hnil (by simp [IpmState.exit]) (by simp [IpmState.exit]) le_rfl⟩
    · rename_i hfin
      obtain ⟨a, ha, ha0⟩ := hinit (by simpa [ipmInit] using hfin)
      refine ipmLoop_history htol hS hR (min_le_right _ _) w _ _ _ _ ?_ ?_ res hres
      · exact .refl cbs rfl rfl rfl
      refine ⟨⟨⟨a, ha, ha0⟩, 0.99, rfl, by norm_num, by norm_num⟩, by simp, by simp, ⟨a, ha, ?_, ?_⟩, by simp [Batches.own],
        ⟨by simp [Batches.own], by simp [Batches.own]⟩, by simp, ⟨by simp [Batches.own], by simp [Batches.own]⟩⟩
      · rw [ha]; exact min_le_left _ _
      · rw [ha]; exact le_refl a

theorem restoreInner_history (cbs : List Callback) :
    RestoreHistory cbs true (restoreInner : RestoreFn n m k) := by
  intro st α w E mv _ _ h
  obtain rfl := Option.some.inj h
  refine ⟨⟨[], [], .refl cbs rfl rfl rfl, by simp, by simp⟩, ?_, by simp⟩
  intro res h
  obtain rfl := Moved.stop.inj h
  exact ⟨.inr rfl, le_rfl⟩

/-- What the solver's run for a restoration adds to the history. -/
theorem frRun_history {env : Env} {opts : SolverOptions} {P : Nlp n m k} {cbs : List Callback} {extra : Extra}
    (htol : 0 < opts.tolerance) {x : Vec n} {s : Vec k} (hs : s.Finite) {μ : ℝ} (hμ : 0 < μ) {it : ℕ} {w : World}
    {E : Filter} {res : IpmResult (n + relaxed m k) m (k + relaxed m k)}
    (hres : frRun env opts P cbs extra x s (.fin μ) it w E = some res) :
    ∃ bs es lo hi, History cbs w res.world bs es ∧ RunHistory opts extra true it lo hi bs es res := by
  unfold frRun at hres
  obtain ⟨bs, es, h1, h2⟩ := ipmRun_history htol (by rw [frScaling_f]; exact one_pos) (restoreInner_history cbs) (by
    intro hfin
    obtain ⟨h1, h2⟩ := frInit_finite hs hfin
    obtain ⟨a, ha, ha0, -⟩ := frMu_pos (env := env) h1 h2 hμ
    exact ⟨a, ha, ha0⟩) hres
  exact ⟨bs, es, _, _, h1, h2⟩

theorem restoreIpm_history {env : Env} {opts : SolverOptions} {P : Nlp n m k} {cbs : List Callback}
    (htol : 0 < opts.tolerance) : RestoreHistory cbs false (restoreIpm env opts P cbs) := by
  intro st α w E mv hB hs h
  obtain ⟨a, ha, ha0⟩ := hB.μ
  unfold restoreIpm at h
  obtain ⟨res, hres, h⟩ := Option.map_eq_some_iff.1 h
  rw [ha] at hres
  obtain ⟨bs, es, lo, hi, h1, h2⟩ := frRun_history htol hs ha0 hres
  obtain ⟨h3, h4⟩ := h2.flags rfl
  have hH : History cbs w mv.world bs es := by
    subst h
    simp only
    split
    · exact ⟨h1.trace, h1.calls, h1.ends, h1.ok⟩
    · exact h1
  refine ⟨⟨bs, es, hH, fun b hb => ⟨h3 b hb, rfl⟩, fun e he => ⟨h4 e he, rfl⟩⟩, ?_, ?_⟩
  · intro r hr
    subst h
    simp only at hr
    split at hr
    · simp at hr
    · obtain rfl := Moved.stop.inj hr
      refine ⟨?_, h2.ge⟩
      show (if _ then _ else _ : ExitStatus) = _ ∨ (if _ then _ else _ : ExitStatus) = _
      split <;> simp
  · intro st2 w2 E2 hr
    subst h
    simp only at hr
    split at hr
    · obtain ⟨rfl, rfl, rfl⟩ := Moved.go.inj hr
      exact ⟨rfl, rfl, h2.ge⟩
    · simp at hr

end Slp
