import Verif.Util.ScopeModel
import Mathlib.Tactic.FieldSimp
import Mathlib.Tactic.Ring
import Mathlib.Data.List.Induction

/-! C18: guards run their function once, profilers stop once, averages are total over count. -/

namespace Slp.Scope

/-- What has become of one function: a guard holds it, it was given up by `release()`, or it was
called. -/
inductive Fate where
  | unborn
  | held (g : ℕ)
  | released
  | called
deriving DecidableEq

/-- Follows the `k`-th object's function through a history, `n` objects existing so far: `move` passes it
to a new object, `release` of its holder gives it up and destruction of its holder calls it. -/
def fateFrom (k : ℕ) : ℕ → Fate → List Op → Fate
  | _, f, [] => f
  | n, f, .make :: ops => fateFrom k (n + 1) (if n = k then .held k else f) ops
  | n, f, .move g :: ops => fateFrom k (n + 1) (if f = .held g then .held n else f) ops
  | n, f, .release g :: ops => fateFrom k n (if f = .held g then .released else f) ops
  | n, f, .destroy g :: ops => fateFrom k n (if f = .held g then .called else f) ops

/-- The fate of function `k` after a history. -/
def fate (k : ℕ) (ops : List Op) : Fate := fateFrom k 0 .unborn ops

/-- The invariant for one function. -/
structure Inv (k : ℕ) (s : State) (f : Fate) : Prop where
  count : s.log.count k = if f = .called then 1 else 0
  holder : ∀ (g : ℕ) (x : Guard), s.guards[g]? = some x → x.alive = true → x.active = true → x.fn = k →
    f = .held g
  held : ∀ g : ℕ, f = .held g → s.guards[g]? = some ⟨k, true, true⟩
  early : s.guards.length ≤ k → f = .unborn
  small : ∀ (g : ℕ) (x : Guard), s.guards[g]? = some x → x.fn < s.guards.length

theorem State.live_spec {s : State} {g : ℕ} {x : Guard} (h : s.live g = some x) :
    s.guards[g]? = some x ∧ x.alive = true := by
  unfold State.live at h
  rw [Option.filter_eq_some_iff] at h
  exact h

theorem getElem?_set_append {β : Type} {l : List β} {g i : ℕ} {a b : β} (hg : g < l.length) :
    (l.set g a ++ [b])[i]? = if i = g then some a else if i = l.length then some b else l[i]? := by
  by_cases h1 : i = g
  · subst h1; simp [hg, List.getElem?_append]
  · by_cases h2 : i = l.length
    · subst h2; simp [h1]
    · rw [if_neg h1, if_neg h2]
      by_cases h3 : i < l.length
      · rw [List.getElem?_append_left (by simpa using h3), List.getElem?_set_ne (Ne.symm h1)]
      · rw [List.getElem?_eq_none (l := l.set g a ++ [b]) (by simp; omega),
          List.getElem?_eq_none (l := l) (by omega)]

theorem getElem?_set' {β : Type} {l : List β} {g i : ℕ} {a : β} (hg : g < l.length) :
    (l.set g a)[i]? = if i = g then some a else l[i]? := by
  by_cases h1 : i = g
  · subst h1; simp [hg]
  · rw [if_neg h1, List.getElem?_set_ne (Ne.symm h1)]

theorem Inv.run {k : ℕ} {ops : List Op} : ∀ {s s' : State} {f : Fate}, Inv k s f →
    ops.foldlM step s = some s' → Inv k s' (fateFrom k s.guards.length f ops) := by
  induction ops with
  | nil => intro s s' f h hs; simp only [List.foldlM_nil] at hs; cases hs; exact h
  | cons op ops ih =>
      intro s s' f h hs
      rw [List.foldlM_cons] at hs
      obtain ⟨s1, h1, h2⟩ := Option.bind_eq_some_iff.1 hs
      cases op with
      | make =>
          simp only [step, Option.some.injEq] at h1
          subst h1
          have := ih (f := if s.guards.length = k then .held k else f) (s := ⟨s.guards ++ [⟨s.guards.length, true, true⟩], s.log⟩) ?_ h2
          · simpa [fateFrom] using this
          · by_cases hk : s.guards.length = k
            · rw [if_pos hk]
              have hf := h.early (by omega)
              have hc := h.count
              refine ⟨by simpa [hf] using hc, ?_, ?_, ?_, ?_⟩
              · intro g x hg _ _ hx
                simp only [List.getElem?_append] at hg
                by_cases hlt : g < s.guards.length
                · rw [if_pos hlt] at hg
                  have := h.small g x hg; omega
                · rw [if_neg hlt] at hg
                  have := (List.getElem?_eq_some_iff.1 hg).1
                  simp at this
                  congr 1; omega
              · intro g hg
                cases hg
                subst hk; simp
              · simp; omega
              · intro g x hg
                simp only [List.getElem?_append] at hg
                by_cases hlt : g < s.guards.length
                · rw [if_pos hlt] at hg
                  have := h.small g x hg; simp; omega
                · rw [if_neg hlt] at hg
                  obtain ⟨hl, rfl⟩ := List.getElem?_eq_some_iff.1 hg
                  simp
            · rw [if_neg hk]
              refine ⟨h.count, ?_, ?_, ?_, ?_⟩
              · intro g x hg ha hb hx
                simp only [List.getElem?_append] at hg
                by_cases hlt : g < s.guards.length
                · rw [if_pos hlt] at hg
                  exact h.holder g x hg ha hb hx
                · rw [if_neg hlt] at hg
                  obtain ⟨hl, rfl⟩ := List.getElem?_eq_some_iff.1 hg
                  simp at hx; omega
              · intro g hg
                have := h.held g hg
                rw [List.getElem?_append_left (List.getElem?_eq_some_iff.1 this).1]
                exact this
              · intro hl; apply h.early; simp at hl; omega
              · intro g x hg
                simp only [List.getElem?_append] at hg
                by_cases hlt : g < s.guards.length
                · rw [if_pos hlt] at hg
                  have := h.small g x hg; simp; omega
                · rw [if_neg hlt] at hg
                  obtain ⟨hl, rfl⟩ := List.getElem?_eq_some_iff.1 hg
                  simp
      | move g =>
          obtain ⟨x, hx, h1⟩ := Option.bind_eq_some_iff.1 h1
          simp only [Option.some.injEq] at h1
          subst h1
          obtain ⟨hx, hal⟩ := State.live_spec hx
          have hgl := (List.getElem?_eq_some_iff.1 hx).1
          have hfx := h.small g x hx
          have := ih (f := if f = .held g then .held s.guards.length else f) (s := ⟨s.guards.set g { x with active := false } ++ [⟨x.fn, x.active, true⟩], s.log⟩) ?_ h2
          · simpa [fateFrom] using this
          · refine ⟨?_, ?_, ?_, ?_, ?_⟩
            · rw [h.count]; by_cases hf : f = .held g <;> simp [hf]
            · intro g' x' hg' ha hb hk
              simp only [getElem?_set_append hgl] at hg'
              split_ifs at hg' with c1 c2
              · cases hg'; cases hb
              · cases hg'
                rw [if_pos (h.holder g x hx hal hb hk), c2]
              · have h5 := h.holder g' x' hg' ha hb hk
                rw [h5, if_neg (by simpa using c1)]
            · intro g' hg'
              simp only [getElem?_set_append hgl]
              by_cases hf : f = .held g
              · rw [if_pos hf] at hg'
                cases hg'
                have h5 := h.held g hf
                rw [hx] at h5; cases h5
                rw [if_neg (by omega), if_pos rfl]
              · rw [if_neg hf] at hg'
                have h5 := h.held g' hg'
                have h6 := (List.getElem?_eq_some_iff.1 h5).1
                rw [if_neg (by rintro rfl; exact hf hg'), if_neg (by omega)]
                exact h5
            · intro hl
              simp at hl
              have := h.early (by omega)
              rw [if_neg (by rw [this]; simp), this]
            · intro g' x' hg'
              simp only [getElem?_set_append hgl] at hg'
              simp only [List.length_append, List.length_set, List.length_singleton]
              split_ifs at hg' with c1 c2
              · cases hg'; simp; omega
              · cases hg'; simp; omega
              · have := h.small g' x' hg'; omega
      | release g =>
          obtain ⟨x, hx, h1⟩ := Option.bind_eq_some_iff.1 h1
          simp only [Option.some.injEq] at h1
          subst h1
          obtain ⟨hx, hal⟩ := State.live_spec hx
          have hgl := (List.getElem?_eq_some_iff.1 hx).1
          have hfx := h.small g x hx
          have := ih (f := if f = .held g then .released else f) (s := ⟨s.guards.set g { x with active := false }, s.log⟩) ?_ h2
          · simpa [fateFrom] using this
          · refine ⟨?_, ?_, ?_, ?_, ?_⟩
            · rw [h.count]; by_cases hf : f = .held g <;> simp [hf]
            · intro g' x' hg' ha hb hk
              simp only [getElem?_set' hgl] at hg'
              split_ifs at hg' with c1
              · cases hg'; cases hb
              · have h5 := h.holder g' x' hg' ha hb hk
                rw [h5, if_neg (by simpa using c1)]
            · intro g' hg'
              simp only [getElem?_set' hgl]
              by_cases hf : f = .held g
              · rw [if_pos hf] at hg'; cases hg'
              · rw [if_neg hf] at hg'
                rw [if_neg (by rintro rfl; exact hf hg')]
                exact h.held g' hg'
            · intro hl
              simp at hl
              have := h.early (by omega)
              rw [if_neg (by rw [this]; simp), this]
            · intro g' x' hg'
              simp only [getElem?_set' hgl] at hg'
              simp only [List.length_set]
              split_ifs at hg' with c1
              · cases hg'; exact hfx
              · exact h.small g' x' hg'
      | destroy g =>
          obtain ⟨x, hx, h1⟩ := Option.bind_eq_some_iff.1 h1
          simp only [Option.some.injEq] at h1
          subst h1
          obtain ⟨hx, hal⟩ := State.live_spec hx
          have hgl := (List.getElem?_eq_some_iff.1 hx).1
          have hfx := h.small g x hx
          have := ih (f := if f = .held g then .called else f) (s := ⟨s.guards.set g { x with alive := false }, if x.active then s.log ++ [x.fn] else s.log⟩) ?_ h2
          · simpa [fateFrom] using this
          · refine ⟨?_, ?_, ?_, ?_, ?_⟩
            · by_cases hf : f = .held g
              · have h5 := h.held g hf
                rw [hx] at h5; cases h5
                have := h.count
                simp [hf] at this
                simp [hf, this]
              · rw [if_neg hf, ← h.count]
                by_cases ha : x.active = true
                · have : x.fn ≠ k := fun hk => hf (h.holder g x hx hal ha hk)
                  simp [ha, this]
                · simp [ha]
            · intro g' x' hg' ha hb hk
              simp only [getElem?_set' hgl] at hg'
              split_ifs at hg' with c1
              · cases hg'; cases ha
              · have h5 := h.holder g' x' hg' ha hb hk
                rw [h5, if_neg (by simpa using c1)]
            · intro g' hg'
              simp only [getElem?_set' hgl]
              by_cases hf : f = .held g
              · rw [if_pos hf] at hg'; cases hg'
              · rw [if_neg hf] at hg'
                rw [if_neg (by rintro rfl; exact hf hg')]
                exact h.held g' hg'
            · intro hl
              simp at hl
              have := h.early (by omega)
              rw [if_neg (by rw [this]; simp), this]
            · intro g' x' hg'
              simp only [getElem?_set' hgl] at hg'
              simp only [List.length_set]
              split_ifs at hg' with c1
              · cases hg'; exact hfx
              · exact h.small g' x' hg'

theorem Inv.init (k : ℕ) : Inv k ⟨[], []⟩ .unborn := by
  refine ⟨by simp, ?_, ?_, ?_, ?_⟩ <;> simp

/-- C18: whatever the history, a function has been called once if the object that held it was destroyed
while holding it, and has not been called otherwise. As this also holds for every shorter history, the
call happens at that destruction. -/
theorem called_iff {ops : List Op} {s : State} (h : run ops = some s) (k : ℕ) :
    s.log.count k = if fate k ops = .called then 1 else 0 :=
  (Inv.run (Inv.init k) h).count

/-- C18: when all guards have been destroyed, every function that was put into a guard has been called
exactly once or was given up by `release()`. -/
theorem exactly_once {ops : List Op} {s : State} (h : run ops = some s)
    (hdead : ∀ (g : ℕ) (x : Guard), s.guards[g]? = some x → x.alive = false) (k : ℕ)
    (hborn : fate k ops ≠ .unborn) (hrel : fate k ops ≠ .released) : s.log.count k = 1 := by
  have hinv := Inv.run (Inv.init k) h
  rw [called_iff h]
  change Inv k s (fate k ops) at hinv
  cases hf : fate k ops with
  | unborn => exact absurd hf hborn
  | released => exact absurd hf hrel
  | called => simp
  | held g =>
      have h1 := hinv.held g hf
      have := hdead g _ h1
      cases this

/-- A guard is created, moved, released after the move and destroyed: the function runs once, when the
second object is destroyed. A second guard is released. -/
example : ∃ s, run [.make, .move 0, .release 0, .destroy 0, .make, .release 2, .destroy 1, .destroy 2] = some s ∧
    s.log = [0] ∧ fate 0 [.make, .move 0, .release 0, .destroy 0, .make, .release 2, .destroy 1, .destroy 2]
      = .called ∧
    fate 2 [.make, .move 0, .release 0, .destroy 0, .make, .release 2, .destroy 1, .destroy 2]
      = .released := ⟨_, rfl, rfl, by decide, by decide⟩

end Slp.Scope

namespace Slp.Profile

/-- The number of measurements started on profiler `p`. -/
def started (p : ℕ) : List Op → ℕ
  | [] => 0
  | .make q _ :: ops => (if q = p then 1 else 0) + started p ops
  | _ :: ops => started p ops

/-- The object still measures for profiler `p`. -/
def measuring (p : ℕ) (x : Scoped) : Bool := x.profiler = p && x.active && x.alive

/-- The number of objects that still measure for profiler `p`. -/
def State.running (s : State) (p : ℕ) : ℕ := s.scopes.countP (measuring p)

/-- The invariant of a profiler. -/
structure Good (p : Solve) : Prop where
  average : p.average * p.num = p.total
  fresh : p.num = 0 → p.average = 0 ∧ p.total = 0

theorem Good.start {p : Solve} (h : Good p) (now : ℝ) : Good (p.start now) := ⟨h.average, h.fresh⟩

theorem Good.stop {p : Solve} (h : Good p) (now : ℝ) : Good (p.stop now) := by
  refine ⟨?_, by simp [Solve.stop]⟩
  simp only [Solve.stop]
  rw [← h.average]
  push_cast
  have : (p.num : ℝ) + 1 ≠ 0 := Nat.cast_add_one_ne_zero p.num
  field_simp
  ring

theorem countP_set {β : Type} (q : β → Bool) : ∀ {l : List β} {g : ℕ} {a b : β}, l[g]? = some a →
    (l.set g b).countP q + (if q a then 1 else 0) = l.countP q + if q b then 1 else 0
  | [], g, a, b, h => by simp at h
  | x :: l, 0, a, b, h => by
      simp only [List.getElem?_cons_zero, Option.some.injEq] at h
      subst h
      simp only [List.set_cons_zero, List.countP_cons]
      omega
  | x :: l, g + 1, a, b, h => by
      simp only [List.getElem?_cons_succ] at h
      have := countP_set q (b := b) h
      simp only [List.set_cons_succ, List.countP_cons]
      omega

theorem State.live_spec {s : State} {g : ℕ} {x : Scoped} (h : s.live g = some x) :
    s.scopes[g]? = some x ∧ x.alive = true := by
  unfold State.live at h
  rw [Option.filter_eq_some_iff] at h
  exact h

theorem step_counts {s s' : State} {op : Op} (h : step s op = some s') (p : ℕ) :
    (s'.profilers p).num + s'.running p = (s.profilers p).num + s.running p + started p [op] ∧
      (Good (s.profilers p) → Good (s'.profilers p)) := by
  cases op with
  | make q now =>
      simp only [step, Option.some.injEq] at h
      subst h
      refine ⟨?_, ?_⟩
      · by_cases hq : p = q
        · subst hq
          have : measuring p ⟨p, true, true⟩ = true := by simp [measuring]
          simp [State.running, Solve.start, started, this]; omega
        · have hq' : q ≠ p := fun h => hq h.symm
          have : measuring p ⟨q, true, true⟩ = false := by simp [measuring, hq']
          simp [State.running, hq, hq', started, this]
      · intro hg
        by_cases hq : p = q
        · subst hq; simpa using hg.start now
        · simpa [hq] using hg
  | move g =>
      obtain ⟨x, hx, h⟩ := Option.bind_eq_some_iff.1 h
      simp only [Option.some.injEq] at h
      subst h
      obtain ⟨hx, ha⟩ := State.live_spec hx
      refine ⟨?_, id⟩
      have := countP_set (measuring p) (b := { x with active := false }) hx
      have e1 : measuring p { x with active := false } = false := by simp [measuring]
      have e2 : measuring p ⟨x.profiler, x.active, true⟩ = measuring p x := by simp [measuring, ha]
      simp only [State.running, List.countP_append, List.countP_singleton, started, e1, e2, Bool.false_eq_true,
        if_false] at this ⊢
      omega
  | stop g now =>
      obtain ⟨x, hx, h⟩ := Option.bind_eq_some_iff.1 h
      obtain ⟨hx, ha⟩ := State.live_spec hx
      by_cases hact : x.active = true
      · rw [if_pos hact] at h
        simp only [Option.some.injEq] at h
        subst h
        have := countP_set (measuring p) (b := { x with active := false }) hx
        have e1 : measuring p { x with active := false } = false := by simp [measuring]
        refine ⟨?_, ?_⟩
        · simp only [State.running, started, State.stopProfiler, e1] at this ⊢
          by_cases hq : p = x.profiler
          · have e2 : measuring p x = true := by simp [measuring, hq, hact, ha]
            rw [e2] at this
            subst hq
            simp only [Function.update_self, Solve.stop]
            simp only [if_true, Bool.false_eq_true, if_false] at this
            omega
          · have e2 : measuring p x = false := by
              have hq' : x.profiler ≠ p := fun h => hq h.symm
              simp [measuring, hq']
            rw [e2] at this
            rw [Function.update_of_ne hq]
            omega
        · intro hg
          simp only [State.stopProfiler]
          by_cases hq : p = x.profiler
          · subst hq; simpa using hg.stop now
          · simpa [hq] using hg
      · rw [if_neg hact] at h
        simp only [Option.some.injEq] at h
        subst h
        exact ⟨by simp [started], id⟩
  | destroy g now =>
      obtain ⟨x, hx, h⟩ := Option.bind_eq_some_iff.1 h
      simp only [Option.some.injEq] at h
      subst h
      obtain ⟨hx, ha⟩ := State.live_spec hx
      have := countP_set (measuring p) (b := { x with alive := false }) hx
      have e1 : measuring p { x with alive := false } = false := by simp [measuring]
      refine ⟨?_, ?_⟩
      · simp only [State.running, started, State.stopProfiler, e1] at this ⊢
        by_cases hact : x.active = true
        · rw [if_pos hact]
          by_cases hq : p = x.profiler
          · have e2 : measuring p x = true := by simp [measuring, hq, hact, ha]
            rw [e2] at this
            subst hq
            simp only [Function.update_self, Solve.stop]
            simp only [if_true, Bool.false_eq_true, if_false] at this
            omega
          · have e2 : measuring p x = false := by
              have hq' : x.profiler ≠ p := fun h => hq h.symm
              simp [measuring, hq']
            rw [e2] at this
            rw [Function.update_of_ne hq]
            omega
        · have e2 : measuring p x = false := by simp [measuring, hact]
          rw [e2] at this
          rw [if_neg hact]
          omega
      · intro hg
        by_cases hact : x.active = true
        · simp only [State.stopProfiler, if_pos hact]
          by_cases hq : p = x.profiler
          · subst hq; simpa using hg.stop now
          · simpa [hq] using hg
        · simpa [hact] using hg

theorem started_cons (p : ℕ) (op : Op) (ops : List Op) : started p (op :: ops) = started p [op] + started p ops := by
  cases op <;> simp [started]

theorem run_counts (p : ℕ) {ops : List Op} : ∀ {s s' : State}, ops.foldlM step s = some s' →
    (s'.profilers p).num + s'.running p = (s.profilers p).num + s.running p + started p ops ∧
      (Good (s.profilers p) → Good (s'.profilers p)) := by
  induction ops with
  | nil => intro s s' h; simp only [List.foldlM_nil] at h; cases h; exact ⟨by simp [started], id⟩
  | cons op ops ih =>
      intro s s' h
      rw [List.foldlM_cons] at h
      obtain ⟨s1, h1, h2⟩ := Option.bind_eq_some_iff.1 h
      obtain ⟨a, b⟩ := step_counts h1 p
      obtain ⟨c, d⟩ := ih h2
      exact ⟨by rw [started_cons]; omega, fun hg => d (b hg)⟩

/-- C18: at any time, the number of completed measurements of a profiler is the number of scopes opened
for it, less the scopes that are still open. So no history of moves, `stop()` calls and destructions
counts a scope twice or misses one. -/
theorem stops_once {ops : List Op} {s : State} (h : run ops = some s) (p : ℕ) :
    (s.profilers p).num + s.running p = started p ops := by
  have := (run_counts p h).1
  simpa [Solve.init, State.running] using this

/-- C18: when all scopes are closed, each was counted exactly once. -/
theorem all_stopped {ops : List Op} {s : State} (h : run ops = some s)
    (hdead : ∀ x ∈ s.scopes, x.alive = false) (p : ℕ) : (s.profilers p).num = started p ops := by
  have h1 := stops_once h p
  have h2 : s.running p = 0 := by
    unfold State.running
    rw [List.countP_eq_zero]
    intro x hx
    simp [measuring, hdead x hx]
  omega

/-- C18: the average is the total divided by the number of measurements. -/
theorem average_correct {ops : List Op} {s : State} (h : run ops = some s) (p : ℕ)
    (hn : (s.profilers p).num ≠ 0) :
    (s.profilers p).average = (s.profilers p).total / (s.profilers p).num := by
  have hg := (run_counts p h).2 ⟨by simp [Solve.init], by simp [Solve.init]⟩
  rw [← hg.average]
  have : ((s.profilers p).num : ℝ) ≠ 0 := by exact_mod_cast hn
  field_simp

/-- A sequence of start and stop calls at the given times. -/
noncomputable def measure (l : List (ℝ × ℝ)) : Solve :=
  l.foldl (fun p t => (p.start t.1).stop t.2) .init

/-- C18: after any sequence of measurements, the profiler reports their number, the sum of their
durations, their average and the duration of the last one. -/
theorem measure_correct (l : List (ℝ × ℝ)) :
    (measure l).num = l.length ∧ (measure l).total = (l.map fun t => t.2 - t.1).sum ∧
      (measure l).average * l.length = (l.map fun t => t.2 - t.1).sum ∧
      ∀ t, l.getLast? = some t → (measure l).current = t.2 - t.1 := by
  induction l using List.reverseRecOn with
  | nil => simp [measure, Solve.init]
  | append_singleton l t ih =>
      obtain ⟨h1, h2, h3, -⟩ := ih
      have hm : measure (l ++ [t]) = ((measure l).start t.1).stop t.2 := by simp [measure]
      rw [hm]
      have hn : ((measure l).num : ℝ) = l.length := by rw [h1]
      refine ⟨by simp [Solve.stop, Solve.start, h1], by simp [Solve.stop, Solve.start, h2], ?_, ?_⟩
      · simp only [Solve.stop, Solve.start, List.length_append, List.length_singleton, List.map_append,
          List.map_cons, List.map_nil, List.sum_append, List.sum_cons, List.sum_nil, add_zero]
        push_cast
        rw [hn, ← h3]
        have : (l.length : ℝ) + 1 ≠ 0 := Nat.cast_add_one_ne_zero l.length
        field_simp
        ring
      · intro u hu
        simp only [List.getLast?_append_of_ne_nil _ (List.cons_ne_nil t []), List.getLast?_singleton,
          Option.some.injEq] at hu
        subst hu
        rfl

/-- C18: the setup profiler reports the duration of its last measurement. -/
theorem setup_correct (p : Setup) (a b : ℝ) : ((p.start a).stop b).duration = b - a := rfl

/-- Two scopes, one of which is moved and stopped early. -/
example : ∃ s, run [.make 3 1, .move 0, .stop 1 2, .destroy 1 5, .make 3 7, .destroy 2 9, .destroy 0 9] = some s ∧
    (∀ x ∈ s.scopes, x.alive = false) ∧ (s.profilers 3).num = 2 := by
  refine ⟨_, rfl, ?_, ?_⟩
  · simp
  · simp [State.stopProfiler, Solve.stop, Solve.start, Solve.init]

end Slp.Profile
