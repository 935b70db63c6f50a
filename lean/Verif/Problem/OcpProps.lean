import Verif.Problem.OcpLemmas

/-! C40-C43: optimal control problems, for every dynamics, number of states, inputs and steps. -/

namespace Slp

variable {ns ni : ℕ}

/-! ### Variables -/

/-- How many decision variables the timesteps need. -/
def TimestepMethod.count (steps : ℕ) : TimestepMethod → ℕ
  | .fixed => 0
  | .variableSingle => 1
  | .variable => steps + 1

/-- What the timesteps are: `first` is the number of the first of their variables. -/
def TimestepMethod.Is (tm : TimestepMethod) (steps : ℕ) (dt : ℝ) (first : ℕ) (DT : ℕ → Term) : Prop :=
  match tm with
  | .fixed => ∀ k, k ≤ steps → DT k = .lit dt
  | .variableSingle => ∀ k, k ≤ steps → DT k = .var first
  | .variable => ∀ k, k ≤ steps → DT k = .var (first + k)

theorem makeTimesteps_correct (p : Problem) (s : Store) (dt : ℝ) (steps : ℕ) (tm : TimestepMethod) :
    let d := makeTimesteps p s dt steps tm
    d.1.vars = p.vars ++ List.range' s.next (tm.count steps) ∧ d.2.1.next = s.next + tm.count steps ∧
    (∀ k, s.next ≤ k → k < s.next + tm.count steps → d.2.1.val k = .fin dt) ∧
    (∀ k, k < s.next ∨ s.next + tm.count steps ≤ k → d.2.1.val k = s.val k) ∧
    (d.1.cost = p.cost ∧ d.1.eqs = p.eqs ∧ d.1.ineqs = p.ineqs ∧ d.1.callbacks = p.callbacks ∧
      d.1.persistent = p.persistent) ∧ tm.Is steps dt s.next d.2.2 := by
  cases tm with
  | fixed =>
    exact ⟨by simp [makeTimesteps, TimestepMethod.count], rfl, fun k h1 h2 => by simp [TimestepMethod.count] at h2; omega,
      fun _ _ => rfl, ⟨rfl, rfl, rfl, rfl, rfl⟩, fun _ _ => rfl⟩
  | variableSingle =>
    refine ⟨by simp [makeTimesteps, TimestepMethod.count, Problem.decisionVariable, Store.fresh], rfl, ?_, ?_,
      ⟨rfl, rfl, rfl, rfl, rfl⟩, fun _ _ => rfl⟩
    · intro k h1 h2
      obtain rfl : k = s.next := by simp [TimestepMethod.count] at h2; omega
      simp [makeTimesteps, Store.setAll, Problem.decisionVariable, Store.fresh]
    · intro k h
      have : k ≠ s.next := by simp [TimestepMethod.count] at h; omega
      simp [makeTimesteps, Store.setAll, Problem.decisionVariable, Store.fresh, this]
  | «variable» =>
    obtain ⟨h1, h2⟩ := decision_matrix_correct p s 1 (steps + 1)
    have hmem : ∀ k, k ∈ (List.range (steps + 1)).filterMap ((p.decisionMatrix s 1 (steps + 1)).table 0) ↔
        s.next ≤ k ∧ k < s.next + (steps + 1) := by
      intro k
      simp only [List.mem_filterMap, List.mem_range, h2]
      constructor
      · rintro ⟨j, hj, hk⟩
        rw [if_pos ⟨by omega, hj⟩] at hk
        have := Option.some.inj hk
        omega
      · rintro ⟨h3, h4⟩
        refine ⟨k - s.next, by omega, ?_⟩
        rw [if_pos ⟨by omega, by omega⟩]
        congr 1; omega
    refine ⟨by simpa [makeTimesteps, TimestepMethod.count] using h1.vars,
      by simpa [makeTimesteps, TimestepMethod.count, Store.setAll] using h1.next, ?_, ?_, h1.rest, ?_⟩
    · intro k h3 h4
      show (if k ∈ _ then _ else _) = _
      rw [if_pos ((hmem k).2 ⟨h3, h4⟩)]
    · intro k h3
      show (if k ∈ _ then _ else _) = _
      have h4 : k < s.next ∨ s.next + (steps + 1) ≤ k := h3
      rw [if_neg fun h => by have := (hmem k).1 h; omega, h1.old k (by omega)]
    · intro k hk
      show VarTable.col (n := 1) _ k 0 = _
      unfold VarTable.col
      rw [h2, if_pos ⟨by simp, by omega⟩]
      simp

theorem col_var {t : VarTable} {first rows cols : ℕ}
    (h : ∀ i j, t i j = if i < rows ∧ j < cols then some (first + (i * cols + j)) else none) (k : ℕ) (hk : k < cols)
    (r : Fin rows) : t.col k r = .var (first + (r * cols + k)) := by
  unfold VarTable.col
  rw [h, if_pos ⟨r.2, hk⟩]
  rfl

/-- Whether the states are decision variables. -/
def TranscriptionMethod.stateVariables : TranscriptionMethod → Bool
  | .singleShooting => false
  | _ => true

theorem transcribe_rest (ty : Term → Ty) (f : Dynamics ns ni) (X : ℕ → Fin ns → Term) (U : ℕ → Fin ni → Term)
    (DT : ℕ → Term) (dyn : DynamicsType) (steps : ℕ) (p : Problem) :
    ∃ l, transcribe ty f X U DT dyn steps p = p.subjectToEq l :=
  (loop_correct (es := fun i t => eqConstraints ty (X (i + 1)) (advance f dyn (X i) (U i) t (DT i))) (fun _ _ => rfl) p
    (fun _ => 0) steps).2.1

theorem collocate_rest (ty : Term → Ty) (f : Dynamics ns ni) (X : ℕ → Fin ns → Term) (U : ℕ → Fin ni → Term)
    (DT : ℕ → Term) (steps : ℕ) (p : Problem) : ∃ l, collocate ty f X U DT steps p = p.subjectToEq l :=
  (loop_correct (es := fun i t => eqConstraints ty (collocationSides f X U DT i t).1 (collocationSides f X U DT i t).2)
    (fun _ _ => rfl) p (fun _ => 0) steps).2.1

theorem shoot_first (f : Dynamics ns ni) (X : ℕ → Fin ns → Term) (U : ℕ → Fin ni → Term) (DT : ℕ → Term)
    (dyn : DynamicsType) (steps : ℕ) : shoot f X U DT dyn steps 0 = X 0 := by
  unfold shoot
  induction steps with
  | zero => rfl
  | succ n ih =>
    simp only [List.range_succ, List.foldl_append, List.foldl_cons, List.foldl_nil, shootStep]
    rw [Function.update_of_ne (by omega), ih]

/-- The layout of the variables of a new optimal control problem. They are numbered from `s.next` on: inputs, timesteps,
states. -/
structure Ocp.Layout (o : Ocp ns ni) (s : Store) (dt : ℝ) (steps : ℕ) (tm : TimestepMethod)
    (method : TranscriptionMethod) : Prop where
  horizon : o.steps = steps
  /-- exactly these are decision variables; with single shooting, the states are not -/
  vars : o.problem.vars = List.range' s.next (ni * (steps + 1) + tm.count steps +
    if method.stateVariables then ns * (steps + 1) else 0)
  next : o.store.next = s.next + ni * (steps + 1) + tm.count steps + ns * (steps + 1)
  inputs : ∀ k ≤ steps, ∀ r : Fin ni, o.U k r = .var (s.next + (r * (steps + 1) + k))
  timesteps : tm.Is steps dt (s.next + ni * (steps + 1)) o.DT
  /-- with single shooting, only the first state consists of variables -/
  states : ∀ k ≤ steps, method.stateVariables = true ∨ k = 0 → ∀ r : Fin ns,
    o.X k r = .var (s.next + ni * (steps + 1) + tm.count steps + (r * (steps + 1) + k))
  /-- the initial guess: timesteps `dt`, everything else zero -/
  zero : ∀ k, s.next ≤ k → k < s.next + ni * (steps + 1) ∨ s.next + ni * (steps + 1) + tm.count steps ≤ k →
    k < o.store.next → o.store.val k = 0
  guess : ∀ k, s.next + ni * (steps + 1) ≤ k → k < s.next + ni * (steps + 1) + tm.count steps → o.store.val k = .fin dt
  old : ∀ k, k < s.next → o.store.val k = s.val k
  /-- no cost, inequality constraints and callbacks yet -/
  rest : o.problem.cost = none ∧ o.problem.ineqs = [] ∧ o.problem.callbacks = [] ∧ o.problem.persistent = []

/-- C43, C19: the variables of a new optimal control problem. All of them are different, exist, are decision variables
of the problem as documented and have the documented initial values. -/
theorem ocp_variables {ty : Term → Ty} {dt : ℝ} {steps : ℕ} {f : Dynamics ns ni} {dyn : DynamicsType}
    {tm : TimestepMethod} {method : TranscriptionMethod} {s : Store} {o : Ocp ns ni}
    (h : Ocp.new ty ns ni dt steps f dyn tm method s = some o) : o.Layout s dt steps tm method := by
  obtain ⟨u1, u2⟩ := decision_matrix_correct Problem.new s ni (steps + 1)
  obtain ⟨d1, d2, d3, d4, d5, d6⟩ := makeTimesteps_correct (Problem.new.decisionMatrix s ni (steps + 1)).problem
    (Problem.new.decisionMatrix s ni (steps + 1)).store dt steps tm
  rw [u1.next] at d1 d2 d3 d4 d6
  rw [u1.vars] at d1
  rw [u1.rest.1, u1.rest.2.1, u1.rest.2.2.1, u1.rest.2.2.2.1, u1.rest.2.2.2.2] at d5
  -- what all methods have in common
  have key (q : Problem) (hq : q.cost = none ∧ q.ineqs = [] ∧ q.callbacks = [] ∧ q.persistent = []) (x : Declaring)
      (p0 : Problem)
      (hx : x = p0.decisionMatrix (makeTimesteps (Problem.new.decisionMatrix s ni (steps + 1)).problem
        (Problem.new.decisionMatrix s ni (steps + 1)).store dt steps tm).2.1 ns (steps + 1))
      (hv : q.vars = List.range' s.next (ni * (steps + 1) + tm.count steps +
        if method.stateVariables then ns * (steps + 1) else 0)) (X : ℕ → Fin ns → Term)
      (hX : ∀ k, method.stateVariables = true ∨ k = 0 → X k = x.table.col k) :
      Ocp.Layout (ns := ns) (ni := ni) ⟨q, x.store, steps, X, (Problem.new.decisionMatrix s ni (steps + 1)).table.col,
        (makeTimesteps (Problem.new.decisionMatrix s ni (steps + 1)).problem
          (Problem.new.decisionMatrix s ni (steps + 1)).store dt steps tm).2.2⟩ s dt steps tm method := by
    subst hx
    obtain ⟨x1, x2⟩ := decision_matrix_correct p0 (makeTimesteps (Problem.new.decisionMatrix s ni (steps + 1)).problem
      (Problem.new.decisionMatrix s ni (steps + 1)).store dt steps tm).2.1 ns (steps + 1)
    have hn := x1.next
    rw [d2] at x2 hn
    refine ⟨rfl, hv, hn, fun k hk r => col_var u2 k (by omega) r, d6, fun k hk hm r => ?_, fun k h1 h2 h3 => ?_,
      fun k h1 h2 => ?_, fun k hk => ?_, hq⟩
    · show X k r = _
      rw [hX k hm]
      exact col_var x2 k (by omega) r
    · have h3' : k < s.next + ni * (steps + 1) + tm.count steps + ns * (steps + 1) := by
        rw [← hn]; exact h3
      show (Problem.decisionMatrix _ _ _ _).store.val k = 0
      rcases h2 with h2 | h2
      · rw [x1.old k (by rw [d2]; omega), d4 k (by omega), u1.zero k h1 h2]
      · exact x1.zero k (by rw [d2]; omega) (by rw [d2]; omega)
    · show (Problem.decisionMatrix _ _ _ _).store.val k = _
      rw [x1.old k (by rw [d2]; omega), d3 k h1 h2]
    · show (Problem.decisionMatrix _ _ _ _).store.val k = _
      rw [x1.old k (by rw [d2]; omega), d4 k (by omega), u1.old k (by omega)]
  have dv : (makeTimesteps (Problem.new.decisionMatrix s ni (steps + 1)).problem
      (Problem.new.decisionMatrix s ni (steps + 1)).store dt steps tm).1.vars =
      List.range' s.next (ni * (steps + 1) + tm.count steps) := by
    rw [d1]
    simp [Problem.new, List.range'_append_1]
  obtain ⟨x1, x2⟩ := decision_matrix_correct (makeTimesteps (Problem.new.decisionMatrix s ni (steps + 1)).problem
    (Problem.new.decisionMatrix s ni (steps + 1)).store dt steps tm).1
    (makeTimesteps (Problem.new.decisionMatrix s ni (steps + 1)).problem
      (Problem.new.decisionMatrix s ni (steps + 1)).store dt steps tm).2.1 ns (steps + 1)
  have xv := x1.vars
  rw [dv, d2, add_assoc s.next, List.range'_append_1] at xv
  have xr : _ ∧ _ ∧ _ ∧ _ ∧ _ := x1.rest
  rw [d5.1, d5.2.1, d5.2.2.1, d5.2.2.2.1, d5.2.2.2.2] at xr
  cases method with
  | directTranscription =>
    cases h
    obtain ⟨l, hl⟩ := transcribe_rest ty f ((makeTimesteps (Problem.new.decisionMatrix s ni (steps + 1)).problem
      (Problem.new.decisionMatrix s ni (steps + 1)).store dt steps tm).1.decisionMatrix (makeTimesteps
        (Problem.new.decisionMatrix s ni (steps + 1)).problem (Problem.new.decisionMatrix s ni (steps + 1)).store dt steps
        tm).2.1 ns (steps + 1)).table.col (Problem.new.decisionMatrix s ni (steps + 1)).table.col
      (makeTimesteps (Problem.new.decisionMatrix s ni (steps + 1)).problem
        (Problem.new.decisionMatrix s ni (steps + 1)).store dt steps tm).2.2 dyn steps
      ((makeTimesteps (Problem.new.decisionMatrix s ni (steps + 1)).problem
        (Problem.new.decisionMatrix s ni (steps + 1)).store dt steps tm).1.decisionMatrix (makeTimesteps
        (Problem.new.decisionMatrix s ni (steps + 1)).problem (Problem.new.decisionMatrix s ni (steps + 1)).store dt steps
        tm).2.1 ns (steps + 1)).problem
    refine key _ ?_ _ _ rfl ?_ _ fun _ _ => rfl
    · rw [hl]; exact ⟨xr.1, xr.2.2.1, xr.2.2.2.1, xr.2.2.2.2⟩
    · rw [hl]; exact xv
  | directCollocation =>
    cases dyn with
    | discrete => cases h
    | explicitOde =>
      cases h
      obtain ⟨l, hl⟩ := collocate_rest ty f ((makeTimesteps (Problem.new.decisionMatrix s ni (steps + 1)).problem
        (Problem.new.decisionMatrix s ni (steps + 1)).store dt steps tm).1.decisionMatrix (makeTimesteps
          (Problem.new.decisionMatrix s ni (steps + 1)).problem (Problem.new.decisionMatrix s ni (steps + 1)).store dt steps
          tm).2.1 ns (steps + 1)).table.col (Problem.new.decisionMatrix s ni (steps + 1)).table.col
        (makeTimesteps (Problem.new.decisionMatrix s ni (steps + 1)).problem
          (Problem.new.decisionMatrix s ni (steps + 1)).store dt steps tm).2.2 steps
        ((makeTimesteps (Problem.new.decisionMatrix s ni (steps + 1)).problem
          (Problem.new.decisionMatrix s ni (steps + 1)).store dt steps tm).1.decisionMatrix (makeTimesteps
          (Problem.new.decisionMatrix s ni (steps + 1)).problem (Problem.new.decisionMatrix s ni (steps + 1)).store dt steps
          tm).2.1 ns (steps + 1)).problem
      refine key _ ?_ _ _ rfl ?_ _ fun _ _ => rfl
      · rw [hl]; exact ⟨xr.1, xr.2.2.1, xr.2.2.2.1, xr.2.2.2.2⟩
      · rw [hl]; exact xv
  | singleShooting =>
    cases h
    refine key _ ⟨d5.1, d5.2.2.1, d5.2.2.2.1, d5.2.2.2.2⟩ _ Problem.new rfl (by rw [dv]; simp [TranscriptionMethod.stateVariables]) _ ?_
    rintro k (hk | rfl)
    · simp [TranscriptionMethod.stateVariables] at hk
    · exact shoot_first _ _ _ _ _ _

/-! ### C40 -/

/-- The problem before the dynamics are added has no constraints. -/
theorem no_constraints (dt : ℝ) (steps : ℕ) (tm : TimestepMethod) (s : Store) (ni : ℕ) :
    let u := Problem.new.decisionMatrix s ni (steps + 1)
    let d := makeTimesteps u.problem u.store dt steps tm
    d.1.eqs = [] ∧ d.1.ineqs = [] ∧ ∀ ns, (d.1.decisionMatrix d.2.1 ns (steps + 1)).problem.eqs = [] := by
  obtain ⟨u1, -⟩ := decision_matrix_correct Problem.new s ni (steps + 1)
  obtain ⟨-, -, -, -, d5, -⟩ := makeTimesteps_correct (Problem.new.decisionMatrix s ni (steps + 1)).problem
    (Problem.new.decisionMatrix s ni (steps + 1)).store dt steps tm
  refine ⟨d5.2.1.trans u1.rest.2.1, d5.2.2.1.trans u1.rest.2.2.1, fun ns => ?_⟩
  obtain ⟨x1, -⟩ := decision_matrix_correct (makeTimesteps (Problem.new.decisionMatrix s ni (steps + 1)).problem
    (Problem.new.decisionMatrix s ni (steps + 1)).store dt steps tm).1
    (makeTimesteps (Problem.new.decisionMatrix s ni (steps + 1)).problem
      (Problem.new.decisionMatrix s ni (steps + 1)).store dt steps tm).2.1 ns (steps + 1)
  exact x1.rest.2.1.trans (d5.2.1.trans u1.rest.2.1)

/-- C40: with direct transcription, a point satisfies the constraints exactly if every state is the Runge-Kutta step
from (or the transition function of) the state before; there is one constraint per state and step. -/
theorem transcription_correct (ty : Term → Ty) (dt : ℝ) (steps : ℕ) {f : Dynamics ns ni} {F : RealDynamics ns ni}
    (hf : Denotes f F) (dyn : DynamicsType) (tm : TimestepMethod) (s : Store) :
    ∃ o, Ocp.new ty ns ni dt steps f dyn tm .directTranscription s = some o ∧
      o.problem.eqs.length = steps * ns ∧ o.problem.ineqs = [] ∧
      ∀ v, o.problem.Feasible v ↔ ∀ k < steps,
        o.state v (k + 1) = nextState F dyn (o.time v k) (o.state v k) (o.input v k) (o.timestep v k) := by
  obtain ⟨o, ho⟩ : ∃ o, Ocp.new ty ns ni dt steps f dyn tm .directTranscription s = some o := ⟨_, rfl⟩
  have hL := ocp_variables ho
  obtain ⟨q, hq, hp⟩ : ∃ q : Problem, q.eqs = [] ∧ o.problem = transcribe ty f o.X o.U o.DT dyn steps q := by
    cases ho
    exact ⟨_, (no_constraints dt steps tm s ni).2.2 ns, rfl⟩
  have key (v : ℕ → ℝ) := (loop_correct (DT := o.DT) (step := transcribeStep ty f o.X o.U o.DT dyn)
    (es := fun i t => eqConstraints ty (o.X (i + 1)) (advance f dyn (o.X i) (o.U i) t (o.DT i)))
    (fun _ _ => rfl) q v steps).2.2
  unfold transcribe at hp
  simp only [← hp, hq] at key
  refine ⟨o, ho, by simpa using (key fun _ => 0).1 ns fun i t => by simp [eqConstraints], hL.rest.2.1, fun v => ?_⟩
  unfold Problem.Feasible
  rw [(key v).2 (fun e => e.term.eval v = 0) (fun k => o.state v (k + 1) = nextState F dyn (o.time v k) (o.state v k) (o.input v k) (o.timestep v k))
    fun i _ t ht => by rw [eqConstraints_hold, advance_correct hf, ht]; rfl, hL.rest.2.1]
  simp

/-! ### C41 -/

theorem shoot_loop {f : Dynamics ns ni} {F : RealDynamics ns ni} (hf : Denotes f F) (X : ℕ → Fin ns → Term)
    (U : ℕ → Fin ni → Term) (DT : ℕ → Term) (dyn : DynamicsType) (v : ℕ → ℝ) (n : ℕ) :
    let st := (List.range n).foldl (shootStep f U DT dyn) (X, .lit 0)
    st.2.eval v = ∑ i ∈ Finset.range n, (DT i).eval v ∧
    ∀ k < n, values (st.1 (k + 1)) v = nextState F dyn (∑ i ∈ Finset.range k, (DT i).eval v) (values (st.1 k) v)
      (values (U k) v) ((DT k).eval v) := by
  induction n with
  | zero => exact ⟨by simp [Term.eval], fun k hk => absurd hk (Nat.not_lt_zero _)⟩
  | succ n ih =>
    simp only [List.range_succ, List.foldl_append, List.foldl_cons, List.foldl_nil] at ih ⊢
    obtain ⟨h1, h2⟩ := ih
    refine ⟨by rw [Finset.sum_range_succ, ← h1]; rfl, fun k hk => ?_⟩
    simp only [shootStep]
    rcases Nat.lt_succ_iff_lt_or_eq.1 hk with hk | rfl
    · rw [Function.update_of_ne (by omega), Function.update_of_ne (by omega)]
      exact h2 k hk
    · rw [Function.update_self, Function.update_of_ne (by omega), advance_correct hf, h1]

/-- C41: with single shooting, the state expressions are the iterated dynamics from the first state, whatever the values
of the variables; no constraints are added. (The variables of the first state are not decision variables:
`ocp_variables`.) -/
theorem shooting_correct (ty : Term → Ty) (dt : ℝ) (steps : ℕ) {f : Dynamics ns ni} {F : RealDynamics ns ni}
    (hf : Denotes f F) (dyn : DynamicsType) (tm : TimestepMethod) (s : Store) :
    ∃ o, Ocp.new ty ns ni dt steps f dyn tm .singleShooting s = some o ∧
      o.problem.eqs = [] ∧ o.problem.ineqs = [] ∧
      (∀ r : Fin ns, ∃ a, o.X 0 r = .var a ∧ a ∉ o.problem.vars ∧ o.store.val a = 0) ∧
      ∀ v, ∀ k < steps,
        o.state v (k + 1) = nextState F dyn (o.time v k) (o.state v k) (o.input v k) (o.timestep v k) := by
  obtain ⟨o, ho⟩ : ∃ o, Ocp.new ty ns ni dt steps f dyn tm .singleShooting s = some o := ⟨_, rfl⟩
  have hL := ocp_variables ho
  have he := (no_constraints dt steps tm s ni).1
  refine ⟨o, ho, ?_, hL.rest.2.1, fun r => ⟨_, hL.states 0 (Nat.zero_le _) (.inr rfl) r, ?_, ?_⟩, fun v k hk => ?_⟩
  · cases ho; exact he
  · rw [hL.vars, List.mem_range'_1]
    simp [TranscriptionMethod.stateVariables]
    omega
  · refine hL.zero _ (by omega) (.inr (by omega)) ?_
    rw [hL.next]
    have : (r : ℕ) * (steps + 1) + (steps + 1) ≤ ns * (steps + 1) := by
      rw [← Nat.succ_mul]; exact Nat.mul_le_mul_right _ r.2
    omega
  · cases ho
    exact (shoot_loop hf _ _ _ dyn v steps).2 k hk

/-! ### C42 -/

theorem collocation_sides {f : Dynamics ns ni} {F : RealDynamics ns ni} (hf : Denotes f F) (X : ℕ → Fin ns → Term)
    (U : ℕ → Fin ni → Term) (DT : ℕ → Term) (i : ℕ) (t : Term) (v : ℕ → ℝ) (hh : (DT i).eval v ≠ 0)
    {P : Fin ns → Polynomial ℝ}
    (hP : ∀ r, IsHermite (P r) (t.eval v) ((DT i).eval v) (values (X i) v r)
      (F (t.eval v) (values (X i) v) (values (U i) v) ((DT i).eval v) r) (values (X (i + 1)) v r)
      (F (t.eval v + (DT i).eval v) (values (X (i + 1)) v) (values (U (i + 1)) v) ((DT i).eval v) r)) :
    values (collocationSides f X U DT i t).1 v = (fun r => (P r).derivative.eval (t.eval v + (DT i).eval v / 2)) ∧
    values (collocationSides f X U DT i t).2 v = F (t.eval v + (DT i).eval v / 2)
      (fun r => (P r).eval (t.eval v + (DT i).eval v / 2)) ((1 / 2 : ℝ) • (values (U i) v + values (U (i + 1)) v))
      ((DT i).eval v) := by
  have hf' : ∀ t x u dt v, values (f t x u dt) v = F (t.eval v) (values x v) (values u v) (dt.eval v) := hf
  unfold collocationSides
  simp only [values_add, values_sub, values_mul, hf', Term.eval, BinOp.eval]
  constructor
  · funext r
    rw [(hermite_mid (hP r) hh).2]
    simp only [Pi.sub_apply, Pi.smul_apply, Pi.add_apply, smul_eq_mul]
    field_simp
    ring
  · congr 1
    · ring
    · funext r
      rw [(hermite_mid (hP r) hh).1]
      simp only [Pi.sub_apply, Pi.smul_apply, Pi.add_apply, smul_eq_mul]
      ring
    · norm_num

/-- The trajectory satisfies the dynamics in the middle of step `k`: the cubic polynomials through the states at both
ends of the step, with the slopes of the dynamics there, have the slope of the dynamics in the middle. -/
def Ocp.Collocated (o : Ocp ns ni) (F : RealDynamics ns ni) (v : ℕ → ℝ) (k : ℕ) : Prop :=
  ∀ P : Fin ns → Polynomial ℝ,
    (∀ r, IsHermite (P r) (o.time v k) (o.timestep v k) (o.state v k r)
      (F (o.time v k) (o.state v k) (o.input v k) (o.timestep v k) r) (o.state v (k + 1) r)
      (F (o.time v (k + 1)) (o.state v (k + 1)) (o.input v (k + 1)) (o.timestep v k) r)) →
    ∀ r, (P r).derivative.eval (o.time v k + o.timestep v k / 2) = F (o.time v k + o.timestep v k / 2)
      (fun r => (P r).eval (o.time v k + o.timestep v k / 2)) ((1 / 2 : ℝ) • (o.input v k + o.input v (k + 1)))
      (o.timestep v k) r

/-- C42: with direct collocation, a point at which no timestep is zero satisfies the constraints exactly if the cubic
Hermite interpolant satisfies the dynamics in the middle of every step. The interpolant exists, so this is not
vacuous. -/
theorem collocation_correct (ty : Term → Ty) (dt : ℝ) (steps : ℕ) {f : Dynamics ns ni} {F : RealDynamics ns ni}
    (hf : Denotes f F) (tm : TimestepMethod) (s : Store) :
    ∃ o, Ocp.new ty ns ni dt steps f .explicitOde tm .directCollocation s = some o ∧
      o.problem.eqs.length = steps * ns ∧ o.problem.ineqs = [] ∧
      ∀ v, (∀ k < steps, o.timestep v k ≠ 0) → (o.problem.Feasible v ↔ ∀ k < steps, o.Collocated F v k) := by
  obtain ⟨o, ho⟩ : ∃ o, Ocp.new ty ns ni dt steps f .explicitOde tm .directCollocation s = some o := ⟨_, rfl⟩
  have hL := ocp_variables ho
  obtain ⟨q, hq, hp⟩ : ∃ q : Problem, q.eqs = [] ∧ o.problem = collocate ty f o.X o.U o.DT steps q := by
    cases ho
    exact ⟨_, (no_constraints dt steps tm s ni).2.2 ns, rfl⟩
  have key (v : ℕ → ℝ) := (loop_correct (DT := o.DT) (step := collocateStep ty f o.X o.U o.DT)
    (es := fun i t => eqConstraints ty (collocationSides f o.X o.U o.DT i t).1 (collocationSides f o.X o.U o.DT i t).2)
    (fun _ _ => rfl) q v steps).2.2
  unfold collocate at hp
  simp only [← hp, hq] at key
  refine ⟨o, ho, by simpa using (key fun _ => 0).1 ns fun i t => by simp [eqConstraints], hL.rest.2.1, fun v hh => ?_⟩
  unfold Problem.Feasible
  rw [(key v).2 (fun e => e.term.eval v = 0) (fun k => o.Collocated F v k) fun i hi t ht => ?_, hL.rest.2.1]
  · simp
  rw [eqConstraints_hold]
  have ht' : o.time v i = t.eval v := ht.symm
  have hs : o.time v (i + 1) = t.eval v + (o.DT i).eval v := by
    unfold Ocp.time; rw [Finset.sum_range_succ, ← ht']; rfl
  constructor
  · intro h P hP r
    rw [ht', hs] at hP
    obtain ⟨e1, e2⟩ := collocation_sides hf o.X o.U o.DT i t v (hh i hi) hP
    rw [e1, e2] at h
    rw [ht']
    exact congrFun h r
  · intro h
    choose P hP using fun r => hermite_exists (t.eval v) (hh i hi) (values (o.X i) v r)
      (F (t.eval v) (values (o.X i) v) (values (o.U i) v) ((o.DT i).eval v) r) (values (o.X (i + 1)) v r)
      (F (t.eval v + (o.DT i).eval v) (values (o.X (i + 1)) v) (values (o.U (i + 1)) v) ((o.DT i).eval v) r)
    obtain ⟨e1, e2⟩ := collocation_sides hf o.X o.U o.DT i t v (hh i hi) hP
    rw [e1, e2]
    funext r
    have := h P (by rw [ht', hs]; exact hP) r
    rw [ht'] at this
    exact this

/-- C42: discrete dynamics cannot be collocated; the constructor asserts. -/
theorem collocation_rejects (ty : Term → Ty) (dt : ℝ) (steps : ℕ) (f : Dynamics ns ni) (tm : TimestepMethod) (s : Store) :
    Ocp.new ty ns ni dt steps f .discrete tm .directCollocation s = none := rfl

/-- C42: a trajectory that consists of cubic polynomials satisfying the dynamics at the ends and in the middle of a step
is collocated there. -/
theorem collocation_exact {o : Ocp ns ni} {F : RealDynamics ns ni} {v : ℕ → ℝ} {k : ℕ} (hh : o.timestep v k ≠ 0)
    {x : Fin ns → Polynomial ℝ} (hx : ∀ r, (x r).natDegree ≤ 3)
    (h0 : o.state v k = fun r => (x r).eval (o.time v k)) (h1 : o.state v (k + 1) = fun r => (x r).eval (o.time v (k + 1)))
    (d0 : ∀ r, (x r).derivative.eval (o.time v k) = F (o.time v k) (o.state v k) (o.input v k) (o.timestep v k) r)
    (d1 : ∀ r, (x r).derivative.eval (o.time v (k + 1)) =
      F (o.time v (k + 1)) (o.state v (k + 1)) (o.input v (k + 1)) (o.timestep v k) r)
    (dm : ∀ r, (x r).derivative.eval (o.time v k + o.timestep v k / 2) = F (o.time v k + o.timestep v k / 2)
      (fun r => (x r).eval (o.time v k + o.timestep v k / 2)) ((1 / 2 : ℝ) • (o.input v k + o.input v (k + 1)))
      (o.timestep v k) r) : o.Collocated F v k := by
  intro P hP r
  have hs : o.time v (k + 1) = o.time v k + o.timestep v k := by
    unfold Ocp.time; rw [Finset.sum_range_succ]
  have hX : ∀ r, IsHermite (x r) (o.time v k) (o.timestep v k) (o.state v k r)
      (F (o.time v k) (o.state v k) (o.input v k) (o.timestep v k) r) (o.state v (k + 1) r)
      (F (o.time v (k + 1)) (o.state v (k + 1)) (o.input v (k + 1)) (o.timestep v k) r) := fun r =>
    ⟨hx r, by rw [h0], d0 r, by rw [h1, hs], by rw [← hs]; exact d1 r⟩
  have e : (fun r => (P r).eval (o.time v k + o.timestep v k / 2)) = fun r => (x r).eval (o.time v k + o.timestep v k / 2) := by
    funext r
    rw [(hermite_mid (hP r) hh).1, (hermite_mid (hX r) hh).1]
  rw [e, (hermite_mid (hP r) hh).2, ← (hermite_mid (hX r) hh).2]
  exact dm r

/-! ### C43 -/

/-- C43: `for_each_step` calls the callback once for each of the `steps + 1` points, in order, with state, input and
timestep of that point and the time as the sum of the timesteps before. -/
theorem for_each_step_correct {σ : Type} (o : Ocp ns ni)
    (callback : Term → (Fin ns → Term) → (Fin ni → Term) → Term → σ → σ) (s : σ) :
    ∃ times : ℕ → Term, (∀ k v, (times k).eval v = o.time v k) ∧
      o.forEachStep callback s =
        (List.range (o.steps + 1)).foldl (fun st k => callback (times k) (o.X k) (o.U k) (o.DT k) st) s := by
  obtain ⟨times, h0, h1⟩ : ∃ times : ℕ → Term, times 0 = .lit 0 ∧ ∀ k, times (k + 1) = .bin .add (times k) (o.DT k) :=
    ⟨fun k => Nat.rec (.lit 0) (fun k t => .bin .add t (o.DT k)) k, rfl, fun _ => rfl⟩
  refine ⟨times, fun k v => ?_, ?_⟩
  · induction k with
    | zero => rw [h0]; simp [Term.eval, Ocp.time]
    | succ k ih =>
      rw [h1]
      simp only [Term.eval, BinOp.eval, ih]
      unfold Ocp.time
      rw [Finset.sum_range_succ]; rfl
  · unfold Ocp.forEachStep
    have : ∀ n, (List.range n).foldl (fun (st : σ × Term) i =>
        (callback st.2 (o.X i) (o.U i) (o.DT i) st.1, Term.bin .add st.2 (o.DT i))) (s, .lit 0) =
        ((List.range n).foldl (fun st k => callback (times k) (o.X k) (o.U k) (o.DT k) st) s, times n) := by
      intro n
      induction n with
      | zero => simp [h0]
      | succ n ih => simp only [List.range_succ, List.foldl_append, List.foldl_cons, List.foldl_nil, ih, h1]
    rw [this]

/-- C43: the same for callbacks without time. -/
theorem for_each_step_two_correct {σ : Type} (o : Ocp ns ni) (callback : (Fin ns → Term) → (Fin ni → Term) → σ → σ)
    (s : σ) : o.forEachStepTwo callback s =
      (List.range (o.steps + 1)).foldl (fun st k => callback (o.X k) (o.U k) st) s := rfl

theorem feasible_eq (p : Problem) (l : List UserExpr) (v : ℕ → ℝ) :
    (p.subjectToEq l).Feasible v ↔ p.Feasible v ∧ ∀ e ∈ l, e.term.eval v = 0 := by
  simp only [Problem.Feasible, Problem.subjectToEq, List.mem_append]
  constructor
  · rintro ⟨h1, h2⟩
    exact ⟨⟨fun e he => h1 e (.inl he), h2⟩, fun e he => h1 e (.inr he)⟩
  · rintro ⟨⟨h1, h2⟩, h3⟩
    exact ⟨fun e he => he.elim (h1 e) (h3 e), h2⟩

theorem feasible_ineq (p : Problem) (l : List UserExpr) (v : ℕ → ℝ) :
    (p.subjectToIneq l).Feasible v ↔ p.Feasible v ∧ ∀ e ∈ l, 0 ≤ e.term.eval v := by
  simp only [Problem.Feasible, Problem.subjectToIneq, List.mem_append]
  constructor
  · rintro ⟨h1, h2⟩
    exact ⟨⟨h1, fun e he => h2 e (.inl he)⟩, fun e he => h2 e (.inr he)⟩
  · rintro ⟨⟨h1, h2⟩, h3⟩
    exact ⟨h1, fun e he => he.elim (h2 e) (h3 e)⟩

theorem feasible_fold (p : Problem) (l : ℕ → List UserExpr) (v : ℕ → ℝ) (n : ℕ) :
    ((List.range n).foldl (fun p i => p.subjectToIneq (l i)) p).Feasible v ↔
      p.Feasible v ∧ ∀ k < n, ∀ e ∈ l k, 0 ≤ e.term.eval v := by
  induction n with
  | zero => simp
  | succ n ih =>
    simp only [List.range_succ, List.foldl_append, List.foldl_cons, List.foldl_nil]
    rw [feasible_ineq, ih]
    constructor
    · rintro ⟨⟨h1, h2⟩, h3⟩
      refine ⟨h1, fun k hk => ?_⟩
      rcases Nat.lt_succ_iff_lt_or_eq.1 hk with hk | rfl
      · exact h2 k hk
      · exact h3
    · rintro ⟨h1, h2⟩
      exact ⟨⟨h1, fun k hk => h2 k (hk.trans (Nat.lt_succ_self _))⟩, h2 n (Nat.lt_succ_self _)⟩

/-- C43: what each of the methods that add constraints means, on top of the constraints before. The matrices of the
problem stay the same. -/
theorem ocp_constraints (ty : Term → Ty) (o : Ocp ns ni) (v : ℕ → ℝ) :
    (∀ x, (o.constrainInitial ty x).problem.Feasible v ↔ o.problem.Feasible v ∧ o.state v 0 = values x v) ∧
    (∀ x, (o.constrainFinal ty x).problem.Feasible v ↔ o.problem.Feasible v ∧ o.state v o.steps = values x v) ∧
    (∀ b, (o.setLowerInput ty b).problem.Feasible v ↔
      o.problem.Feasible v ∧ ∀ k ≤ o.steps, ∀ r, values b v r ≤ o.input v k r) ∧
    (∀ b, (o.setUpperInput ty b).problem.Feasible v ↔
      o.problem.Feasible v ∧ ∀ k ≤ o.steps, ∀ r, o.input v k r ≤ values b v r) ∧
    (∀ d, (o.setMinTimestep ty d).problem.Feasible v ↔ o.problem.Feasible v ∧ ∀ k ≤ o.steps, d ≤ o.timestep v k) ∧
    (∀ d, (o.setMaxTimestep ty d).problem.Feasible v ↔ o.problem.Feasible v ∧ ∀ k ≤ o.steps, o.timestep v k ≤ d) := by
  refine ⟨fun x => ?_, fun x => ?_, fun b => ?_, fun b => ?_, fun d => ?_, fun d => ?_⟩
  · show (o.problem.subjectToEq _).Feasible v ↔ _
    rw [feasible_eq, eqConstraints_hold]; rfl
  · show (o.problem.subjectToEq _).Feasible v ↔ _
    rw [feasible_eq, eqConstraints_hold]; rfl
  · show ((List.range (o.steps + 1)).foldl _ o.problem).Feasible v ↔ _
    rw [feasible_fold]
    simp only [geConstraints_hold, Nat.lt_succ_iff]; rfl
  · show ((List.range (o.steps + 1)).foldl _ o.problem).Feasible v ↔ _
    rw [feasible_fold]
    simp only [geConstraints_hold, Nat.lt_succ_iff]; rfl
  · show (o.problem.subjectToIneq _).Feasible v ↔ _
    rw [feasible_ineq, geConstraints_hold]
    exact and_congr_right fun _ => ⟨fun h k hk => h ⟨k, Nat.lt_succ_iff.2 hk⟩, fun h i => h i (Nat.lt_succ_iff.1 i.2)⟩
  · show (o.problem.subjectToIneq _).Feasible v ↔ _
    rw [feasible_ineq, geConstraints_hold]
    exact and_congr_right fun _ => ⟨fun h k hk => h ⟨k, Nat.lt_succ_iff.2 hk⟩, fun h i => h i (Nat.lt_succ_iff.1 i.2)⟩

/-! ### An example -/

/-- `x₀' = x₁`, `x₁' = u`, as expressions. -/
def doubleIntegrator : Dynamics 2 1 := fun _ x u _ => ![x 1, u 0]

theorem doubleIntegrator_denotes : Denotes doubleIntegrator fun _ x u _ => ![x 1, u 0] := by
  intro t x u dt v
  funext r
  fin_cases r <;> rfl

/-- The hypotheses of C40-C42 hold for the double integrator. Over one step of a constant acceleration, the constraints
of direct transcription are the exact solution. -/
example (ty : Term → Ty) (s : Store) :
    ∃ o, Ocp.new ty 2 1 0.5 3 doubleIntegrator .explicitOde .fixed .directTranscription s = some o ∧
      o.problem.eqs.length = 6 ∧
      ∀ v, o.problem.Feasible v ↔ ∀ k < 3,
        o.state v (k + 1) 0 = o.state v k 0 + 0.5 * o.state v k 1 + 0.125 * o.input v k 0 ∧
        o.state v (k + 1) 1 = o.state v k 1 + 0.5 * o.input v k 0 := by
  obtain ⟨o, h1, h2, -, h3⟩ := transcription_correct ty 0.5 3 doubleIntegrator_denotes .explicitOde .fixed s
  refine ⟨o, h1, h2, fun v => ?_⟩
  rw [h3]
  have hL := ocp_variables h1
  refine forall₂_congr fun k hk => ?_
  have hdt : o.timestep v k = 0.5 := by
    unfold Ocp.timestep
    rw [show o.DT k = .lit 0.5 from hL.timesteps k (by omega)]
    rfl
  rw [hdt, funext_iff, Fin.forall_fin_two]
  simp only [nextState, classicRk4, Pi.add_apply, Pi.smul_apply, smul_eq_mul, Matrix.cons_val_zero, Matrix.cons_val_one]
  constructor
  · rintro ⟨a, b⟩; exact ⟨by rw [a]; norm_num; ring, by rw [b]; norm_num; ring⟩
  · rintro ⟨a, b⟩; exact ⟨by rw [a]; norm_num; ring, by rw [b]; norm_num; ring⟩

/-- C40, C41, C42 for dynamics that do not depend on the time and the timestep: they apply with the same function of
states and inputs. -/
theorem two_argument_dynamics {f : (Fin ns → Term) → (Fin ni → Term) → Fin ns → Term}
    {F : (Fin ns → ℝ) → (Fin ni → ℝ) → Fin ns → ℝ} (hf : ∀ x u v, values (f x u) v = F (values x v) (values u v)) :
    Denotes (Dynamics.ofTwo f) fun _ x u _ => F x u := fun _ x u _ v => hf x u v

/-- The double integrator. -/
example : ∃ F : RealDynamics 2 1, Denotes (Dynamics.ofTwo fun x u => ![x 1, u 0]) F ∧
    F 0 ![1, 2] ![3] 0 = ![2, 3] :=
  ⟨_, two_argument_dynamics (F := fun x u => ![x 1, u 0]) fun x u v => by
    funext r; fin_cases r <;> rfl, rfl⟩

end Slp
