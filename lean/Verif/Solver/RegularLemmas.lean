import Verif.Solver.RestoreExitProps
import Verif.Solver.SqpStepProps

/-! Lemmas for C49: with an exact linear solver and functions with finite values, all values stay finite. -/

namespace Slp

open Classical

variable {n m k : ℕ}

theorem frWeight_finite {x : Fl} (h : x.isFinite = true) : (frWeight x).isFinite = true := by
  rw [Fl.finite_toReal h]
  unfold frWeight
  rw [Fl.fin_mul]
  by_cases h0 : x.toReal * x.toReal = 0
  · rw [h0, show (1 : Fl) / .fin 0 = .pinf from by show Fl.div _ _ = _; simp [Fl.div],
      show Fl.min .pinf 1 = .fin 1 from if_pos trivial]
    rfl
  · rw [Fl.one_def, Fl.fin_div h0, Fl.min_fin]; rfl

theorem finite_append {p q : ℕ} {u : Vec p} {v : Vec q} (hu : u.Finite) (hv : v.Finite) : Vec.Finite (Fin.append u v) := by
  intro i
  refine Fin.addCases (fun j => ?_) (fun j => ?_) i
  · rw [Fin.append_left]; exact hu j
  · rw [Fin.append_right]; exact hv j

/-- The restoration problem has finite values if the original problem has. -/
theorem frProblem_total {env : Env} {P : Nlp n m k} (hP : P.Total) {x : Vec n} (hx : x.Finite) {μ : ℝ} (hμ : 0 < μ) :
    (frProblem env P x (.fin μ)).Total := by
  have hsq : (Fl.sqrt (.fin μ)).isFinite = true := by
    rw [show Fl.sqrt (.fin μ) = .fin (Real.sqrt μ) from if_neg (not_lt.2 hμ.le)]; rfl
  have ho (xp : Vec (n + relaxed m k)) (h : xp.Finite) : (frOrigin xp).Finite := fun j => h _
  refine ⟨fun xp h => ?_, fun xp h => ?_, fun xp y z h _ _ i j => ?_, fun xp h i => ?_, fun xp h i => ?_, fun xp h => ?_,
    fun xp h i j => ?_⟩
  · show Fl.isFinite (ite _ _ _) = true
    rw [if_pos ⟨h, hx, rfl⟩]; rfl
  · show Vec.Finite (Fin.append (fun j => Fl.sqrt (.fin μ) * frWeight (x j) * (frOrigin xp j - x j)) fun _ => .fin 1000)
    exact finite_append (fun j => Fl.finite_mul.2 ⟨Fl.finite_mul.2 ⟨hsq, frWeight_finite (hx j)⟩,
      Fl.finite_sub.2 ⟨ho xp h j, hx j⟩⟩) (fun _ => rfl)
  · show Fl.isFinite (ite _ _ _) = true
    split
    · exact finite_append (fun j => Fl.finite_mul.2 ⟨hsq, frWeight_finite (hx j)⟩) (fun _ => rfl) i
    · rfl
  · exact Fl.finite_add.2 ⟨Fl.finite_sub.2 ⟨hP.ce _ (ho xp h) i, h _⟩, h _⟩
  · show Vec.Finite (Fin.append (fun j => P.Ae (frOrigin xp) i j) fun j =>
      if (j : ℕ) = i then -1 else if (j : ℕ) = m + i then 1 else 0)
    refine finite_append (fun j => hP.Ae _ (ho xp h) i j) (fun j => ?_)
    split <;> [rfl; (split <;> rfl)]
  · rw [frProblem_ci]
    exact finite_append (fun i => Fl.finite_add.2 ⟨Fl.finite_sub.2 ⟨hP.ci _ (ho xp h) i, h _⟩, h _⟩) fun i => h _
  · rw [frProblem_Ai]
    refine finite_append (fun j => ?_) (fun j => ?_) j
    · exact finite_append (fun i => hP.Ai _ (ho xp h) i j) (fun _ => rfl) i
    · refine finite_append (fun i => ?_) (fun i => ?_) i
      · split <;> [rfl; (split <;> rfl)]
      · split <;> rfl

/-- The state at the head of the loop: finite values, positive slacks, multipliers and barrier parameter. -/
structure IpmState.Sound (P : Nlp n m k) (st : IpmState n m k) : Prop where
  barrier : BarrierOk st
  x : st.x.Finite
  s : st.s.Pos
  y : st.y.Finite
  z : st.z.Pos
  e : st.e = P.eval st.x st.y st.z

theorem IpmState.Sound.regular {P : Nlp n m k} (hP : P.Total) {st : IpmState n m k} (h : st.Sound P) : st.Regular := by
  obtain ⟨⟨⟨a, ha, -⟩, -⟩, hx, hs, hy, hz, he⟩ := h
  refine ⟨?_, ?_, by rw [ha]; rfl, hs⟩
  · rw [he]
    exact ⟨hP.g _ hx, hP.Ae _ hx, hP.ce _ hx, hP.Ai _ hx, hP.ci _ hx, hs.finite, hy, hz.finite⟩
  · rw [he]
    exact hP.H _ _ _ hx hy hz.finite

/-- What is returned is finite. -/
structure IpmResult.Finite (res : IpmResult n m k) : Prop where
  x : res.x.Finite
  s : res.s.Pos
  y : res.y.Finite
  z : res.z.Pos

theorem IpmState.Sound.exit {P : Nlp n m k} {st : IpmState n m k} (h : st.Sound P) (status : ExitStatus) (w : World)
    (E : Filter) : (st.exit status w E).Finite := ⟨h.x, h.s, h.y, h.z⟩

theorem IpmState.Sound.finish {env : Env} {opts : SolverOptions} {P : Nlp n m k} (htol : 0 < opts.tolerance)
    (hS : 0 < P.scaling.f) {st st' : IpmState n m k} (h : st.Sound P) (hf : ipmFinish env opts P st = some st') :
    st'.Sound P ∧ st'.info = { st.info with iteration := st.iterations + 1 } := by
  obtain ⟨st1, h1, h2, h3, h4, h5, h6, h7, h8, -⟩ := ipmFinish_correct (env := env) htol hS h.barrier
  obtain rfl : st1 = st' := Option.some.inj (h1.symm.trans hf)
  refine ⟨⟨h2, h3 ▸ h.x, h4 ▸ h.s, h5 ▸ h.y, h6 ▸ h.z, by rw [h7, h3, h5, h6]; exact h.e⟩, ?_⟩
  unfold IpmState.info
  rw [h3, h4, h5, h6, h7, h8]

/-- Two states in a row between which the solver moved along a Newton step; the regularisations were
among `Γ`. -/
def NewtonMove (Γ : ℝ → ℝ → Prop) (opts : SolverOptions) (P : Nlp n m k) (st st' : IpmState n m k) : Prop :=
  ∃ ce cis u v p, MovedAlong opts P st ce cis st' u v p Γ

/-- How an iterate `a` that is shown to the callbacks relates to the next one, `b`: values are finite, slacks and
multipliers positive, and the solver moved along a Newton step or as `R` says. -/
def NextShown (Γ : ℝ → ℝ → Prop) (opts : SolverOptions) (P : Nlp n m k) (R : IpmState n m k → IpmState n m k → Prop)
    (a b : Snapshot) : Prop :=
  ∃ st st' : IpmState n m k, st.Sound P ∧ st'.Sound P ∧ a.info = st.info ∧ a.μ = st.μ ∧ a.τ = st.τ ∧
    b.info = { st'.info with iteration := st'.iterations + 1 } ∧ (NewtonMove Γ opts P st st' ∨ R st st')

/-- The snapshots of the run itself or of restorations within. -/
def ownSnapshots (inner : Bool) (l : List Snapshot) : List Snapshot := l.filter fun s => s.inner = inner

/-- What a restoration function must do. -/
def RestoreSound (P : Nlp n m k) (inner : Bool) (R : IpmState n m k → IpmState n m k → Prop) (restore : RestoreFn n m k) :
    Prop :=
  ∀ (st : IpmState n m k) (α : Fl) (w : World) (E : Filter) (mv : Moved n m k), st.Sound P → restore st α w E = some mv →
    (∀ res, mv = .stop res → (res.Finite ∧ (res.status = .locallyInfeasible ∨ res.status = .feasibilityRestorationFailed)) ∧
      ∃ l, res.world.trace = w.trace ++ l ∧ ∀ s ∈ l, inner = false ∧ s.inner = true) ∧
    ∀ st' w' E', mv = .go st' w' E' → st'.Sound P ∧ R st st' ∧
      ∃ l, w'.trace = w.trace ++ l ∧ ∀ s ∈ l, inner = false ∧ s.inner = true

theorem IpmState.Sound.withFilter {P : Nlp n m k} {st : IpmState n m k} (h : st.Sound P) (F : Filter) (c : ℕ) :
    ({ st with filter := F, rejected := c } : IpmState n m k).Sound P :=
  ⟨⟨h.barrier.μ, h.barrier.τ⟩, h.x, h.s, h.y, h.z, h.e⟩

/-- The snapshots that a run has added so far: they start with `first`, and consecutive ones are related. -/
structure Shown (Q : Snapshot → Snapshot → Prop) (inner : Bool) (first : Snapshot) (l : List Snapshot) : Prop where
  first : ∀ s ∈ (ownSnapshots inner l).head?, s = first
  chain : (ownSnapshots inner l).IsChain Q
  inner : inner = true → ∀ s ∈ l, s.inner = true

theorem ownSnapshots_append (inner : Bool) (l l' : List Snapshot) :
    ownSnapshots inner (l ++ l') = ownSnapshots inner l ++ ownSnapshots inner l' := List.filter_append ..

theorem ownSnapshots_other {inner : Bool} {l : List Snapshot} (h : ∀ s ∈ l, inner = false ∧ s.inner = true) :
    ownSnapshots inner l = [] := by
  refine List.filter_eq_nil_iff.2 fun s hs => ?_
  obtain ⟨h1, h2⟩ := h s hs
  simp [h1, h2]

theorem Shown.nil (Q : Snapshot → Snapshot → Prop) (inner : Bool) (first : Snapshot) : Shown Q inner first [] :=
  ⟨by simp [ownSnapshots], by simp [ownSnapshots], by simp⟩

theorem Shown.start (Q : Snapshot → Snapshot → Prop) (first : Snapshot) : Shown Q first.inner first ([] ++ [first]) :=
  ⟨by simp [ownSnapshots], by simp [ownSnapshots], by simp⟩

theorem Shown.other {Q : Snapshot → Snapshot → Prop} {inner : Bool} {first : Snapshot} {l : List Snapshot}
    (h : Shown Q inner first l) {l' : List Snapshot} (h' : ∀ s ∈ l', inner = false ∧ s.inner = true) :
    Shown Q inner first (l ++ l') := by
  have e : ownSnapshots inner (l ++ l') = ownSnapshots inner l := by
    rw [ownSnapshots_append, ownSnapshots_other h', List.append_nil]
  refine ⟨e ▸ h.first, e ▸ h.chain, fun hi s hs => ?_⟩
  rcases List.mem_append.1 hs with hs | hs
  · exact h.inner hi s hs
  · exact (h' s hs).2

theorem Shown.before {Q : Snapshot → Snapshot → Prop} {inner : Bool} {first : Snapshot} {l : List Snapshot} {s : Snapshot}
    (h : Shown Q inner first (l ++ [s])) : Shown Q inner first l := by
  obtain ⟨h1, h2, h3⟩ := h
  rw [ownSnapshots_append] at h1 h2
  refine ⟨fun s hs => h1 s ?_, h2.left_of_append, fun hi s hs => h3 hi s (List.mem_append_left _ hs)⟩
  rw [List.head?_append]
  rw [Option.mem_def] at hs ⊢
  rw [hs]; rfl

theorem Shown.next {Q : Snapshot → Snapshot → Prop} {inner : Bool} {first : Snapshot} {l l' : List Snapshot}
    {s s' : Snapshot} (h : Shown Q inner first (l ++ [s])) (hs : s.inner = inner) (hs' : s'.inner = inner)
    (h' : ∀ s ∈ l', inner = false ∧ s.inner = true) (hq : Q s s') : Shown Q inner first (l ++ [s] ++ l' ++ [s']) := by
  obtain ⟨k1, k2, k3⟩ := Shown.other h h'
  have e : ownSnapshots inner (l ++ [s] ++ l') = ownSnapshots inner l ++ [s] := by
    rw [ownSnapshots_append, ownSnapshots_other h', List.append_nil, ownSnapshots_append]
    simp [ownSnapshots, hs]
  have e2 : ownSnapshots inner [s'] = [s'] := by simp [ownSnapshots, hs']
  refine ⟨?_, ?_, fun hi s hs => ?_⟩
  · rw [ownSnapshots_append, e, e2, List.append_assoc, List.head?_append]
    rw [e, List.head?_append] at k1
    cases ha : (ownSnapshots inner l).head? <;> rw [ha] at k1 <;> exact k1
  · rw [ownSnapshots_append, e, e2, List.append_assoc]
    exact List.isChain_append_cons_cons.2 ⟨e ▸ k2, hq, List.isChain_singleton _⟩
  · rcases List.mem_append.1 hs with hs | hs
    · exact k3 hi s hs
    · obtain rfl := List.mem_singleton.1 hs; exact hs'.trans hi

/-- The solver ended at the iterate `b`, which was the last one shown or would have been shown next. -/
def EndsAt (Q : Snapshot → Snapshot → Prop) (inner : Bool) (first : Snapshot) (l : List Snapshot) (b : Snapshot) : Prop :=
  ∃ L, (ownSnapshots inner l = L ++ [b] ∨ ownSnapshots inner l = L) ∧ (L ++ [b]).IsChain Q ∧ (L ++ [b]).head? = some first

theorem Shown.ends {Q : Snapshot → Snapshot → Prop} {inner : Bool} {first b : Snapshot} {l : List Snapshot}
    (h : Shown Q inner first (l ++ [b])) (hb : b.inner = inner) : EndsAt Q inner first l b := by
  have e : ownSnapshots inner (l ++ [b]) = ownSnapshots inner l ++ [b] := by
    rw [ownSnapshots_append]; simp [ownSnapshots, hb]
  refine ⟨ownSnapshots inner l, .inr rfl, e ▸ h.chain, ?_⟩
  have := h.first
  rw [e] at this
  cases hl : (ownSnapshots inner l ++ [b]).head? with
  | none => simp at hl
  | some a => rw [hl] at this; rw [this a rfl]

theorem Shown.ended {Q : Snapshot → Snapshot → Prop} {inner : Bool} {first b : Snapshot} {l l' : List Snapshot}
    (h : Shown Q inner first (l ++ [b])) (hb : b.inner = inner) (h' : ∀ s ∈ l', inner = false ∧ s.inner = true) :
    EndsAt Q inner first (l ++ [b] ++ l') b := by
  obtain ⟨L, -, h2, h3⟩ := h.ends hb
  have e : ownSnapshots inner (l ++ [b] ++ l') = ownSnapshots inner l ++ [b] := by
    rw [ownSnapshots_append, ownSnapshots_other h', List.append_nil, ownSnapshots_append]
    simp [ownSnapshots, hb]
  have e' : ownSnapshots inner (l ++ [b]) = ownSnapshots inner l ++ [b] := by
    rw [ownSnapshots_append]; simp [ownSnapshots, hb]
  refine ⟨ownSnapshots inner l, .inl e, e' ▸ h.chain, ?_⟩
  have := h.first
  rw [e'] at this
  cases hl : (ownSnapshots inner l ++ [b]).head? with
  | none => simp at hl
  | some a => rw [hl] at this; rw [this a rfl]

/-- The result is the iterate at which the solver ended, unless restoring feasibility failed. -/
def IpmResult.EndsAt (Q : Snapshot → Snapshot → Prop) (inner : Bool) (first : Snapshot) (l : List Snapshot)
    (res : IpmResult n m k) : Prop :=
  res.status = .locallyInfeasible ∨ res.status = .feasibilityRestorationFailed ∨
    ∃ b : Snapshot, b.info.x = List.ofFn res.x ∧ b.info.s = List.ofFn res.s ∧ Slp.EndsAt Q inner first l b

theorem ipmLoop_sound {env : Env} {Γ : ℝ → ℝ → Prop} {opts : SolverOptions} {P : Nlp n m k} (hP : P.Total)
    (hE : ∀ st : IpmState n m k, st.Sound P → st.Answers env Γ)
    (htol : 0 < opts.tolerance) (hS : 0 < P.scaling.f) {cbs : List Callback} {extra : Extra} {inner : Bool}
    {restore : RestoreFn n m k} {R : IpmState n m k → IpmState n m k → Prop}
    (hR' : ∀ st st' F c, R { st with filter := F, rejected := c } st' → R st st')
    (hR : RestoreSound P inner R restore) {start : ℝ} {l0 : List Snapshot} (r : ℕ) (st : IpmState n m k) (w : World)
    (E : Filter) (hst : st.Sound P) (hw : w.trace = l0) (res : IpmResult n m k)
    (hres : ipmLoop env opts P cbs extra inner restore start r st w E = some res) :
    res.Finite ∧ ∃ l, res.world.trace = l0 ++ l ∧ Shown (NextShown Γ opts P R) inner ⟨inner, st.info, st.μ, st.τ⟩ l ∧
      res.EndsAt (NextShown Γ opts P R) inner ⟨inner, st.info, st.μ, st.τ⟩ l := by
  set first : Snapshot := ⟨inner, st.info, st.μ, st.τ⟩ with hf
  have hN (st : IpmState n m k) (w : World) (E : Filter) (l : List Snapshot) (h : w.trace = l0 ++ l) :
      (ipmNotify cbs extra inner st w E).1.trace = l0 ++ (l ++ [⟨inner, st.info, st.μ, st.τ⟩]) := by
    rw [← List.append_assoc, ← h]; rfl
  refine ipmLoop_rule
    (fun st w _ => st.Sound P ∧ ∃ l, w.trace = l0 ++ l ∧ Shown (NextShown Γ opts P R) inner first (l ++ [⟨inner, st.info, st.μ, st.τ⟩]))
    (fun res => res.Finite ∧ ∃ l, res.world.trace = l0 ++ l ∧ Shown (NextShown Γ opts P R) inner first l ∧
      res.EndsAt (NextShown Γ opts P R) inner first l)
    ?_ ?_ ?_ ?_ ?_ ?_ r st w E ⟨hst, [], by simpa using hw, ?_⟩ res hres
  · rintro st w E ⟨h, l, h1, h2⟩ -
    exact ⟨h.exit _ _ _, l, h1, h2.before, .inr (.inr ⟨_, rfl, rfl, h2.ends rfl⟩)⟩
  · rintro st w E ⟨h, l, h1, h2⟩ - -
    exact ⟨h.exit _ _ _, l, h1, h2.before, .inr (.inr ⟨_, rfl, rfl, h2.ends rfl⟩)⟩
  · rintro st w E ⟨h, l, h1, h2⟩ - -
    exact ⟨h.exit _ _ _, l, h1, h2.before, .inr (.inr ⟨_, rfl, rfl, h2.ends rfl⟩)⟩
  · rintro st w E ⟨h, l, h1, h2⟩ - -
    exact ⟨h.exit _ _ _, _, hN _ _ _ _ h1, h2, .inr (.inr ⟨_, rfl, rfl, by simpa using h2.ended rfl (l' := []) (by simp)⟩)⟩
  · rintro st w E res ⟨h, l, h1, h2⟩ - - hmv
    rcases iteration_newton opts hP restore (hE _ h) h.barrier (h.regular hP) h.x h.z _ _ with h3 | ⟨F, c, α, i, h3⟩ |
      ⟨st', w', ce, cis, u, v, p, h3, -⟩
    · rw [h3.2] at hmv
      obtain rfl := Moved.stop.inj (Option.some.inj hmv)
      exact ⟨h.exit _ _ _, _, hN st w E _ h1, h2,
        .inr (.inr ⟨_, rfl, rfl, by simpa using h2.ended rfl (l' := []) (by simp)⟩)⟩
    · rw [h3] at hmv
      obtain ⟨⟨h4, h4'⟩, l', h5, h6⟩ := (hR _ _ _ _ _ (h.withFilter F c) hmv).1 _ rfl
      exact ⟨h4, _, by rw [h5, ← List.append_assoc, ← hN st w E _ h1], h2.other h6, h4'.imp id .inl⟩
    · rw [h3] at hmv
      cases hmv
  · rintro st w E st2 w2 E2 st3 ⟨h, l, h1, h2⟩ - - hmv hfin
    have key : st2.Sound P ∧ (NewtonMove Γ opts P st st2 ∨ R st st2) ∧
        ∃ l', w2.trace = (ipmNotify cbs extra inner st w E).1.trace ++ l' ∧ ∀ s ∈ l', inner = false ∧ s.inner = true := by
      rcases iteration_newton opts hP restore (hE _ h) h.barrier (h.regular hP) h.x h.z _ _ with h3 | ⟨F, c, α, i, h3⟩ |
        ⟨st', w', ce, cis, u, v, p, h3, hM, h4, h5, h6, h7, h8, h9, h10, h11, h12⟩
      · rw [h3.2] at hmv
        cases hmv
      · rw [h3] at hmv
        obtain ⟨h4, h5, h6⟩ := (hR _ _ _ _ _ (h.withFilter F c) hmv).2 _ _ _ rfl
        exact ⟨h4, .inr (hR' _ _ _ _ h5), h6⟩
      · rw [h3] at hmv
        obtain ⟨rfl, rfl, rfl⟩ := Moved.go.inj (Option.some.inj hmv)
        refine ⟨⟨?_, h5, h4.s, fun j => by rw [hM.y]; rfl, h6, h7⟩, .inl ⟨ce, cis, u, v, p, hM⟩, [], ?_, by simp⟩
        · obtain ⟨b1, b2⟩ := h.barrier
          exact ⟨h8 ▸ b1, h9 ▸ b2⟩
        · rw [h11, List.append_nil]
    obtain ⟨k1, k2, l', k3, k4⟩ := key
    obtain ⟨f1, f2⟩ := k1.finish htol hS hfin
    have e : w2.trace = l0 ++ (l ++ [⟨inner, st.info, st.μ, st.τ⟩] ++ l') := by
      rw [k3, hN st w E _ h1, List.append_assoc]
    have hn := h2.next (s' := ⟨inner, st3.info, st3.μ, st3.τ⟩) rfl rfl k4 ⟨st, st2, h, k1, rfl, rfl, rfl, f2, k2⟩
    have he : ∀ status, (st3.exit status w2 E2).EndsAt (NextShown Γ opts P R) inner first
        (l ++ [⟨inner, st.info, st.μ, st.τ⟩] ++ l') := fun _ => .inr (.inr ⟨_, rfl, rfl, hn.ends rfl⟩)
    exact ⟨fun _ => ⟨f1.exit _ _ _, _, e, h2.other k4, he _⟩, fun _ => ⟨fun _ => ⟨f1.exit _ _ _, _, e, h2.other k4, he _⟩,
      fun _ => ⟨f1, _, e, hn⟩⟩⟩
  · exact Shown.start _ first

theorem ipmRun_sound {env : Env} {Γ : ℝ → ℝ → Prop} {opts : SolverOptions} {P : Nlp n m k} (hP : P.Total)
    (hE : ∀ st : IpmState n m k, st.Sound P → st.Answers env Γ)
    (htol : 0 < opts.tolerance) (hS : 0 < P.scaling.f) {cbs : List Callback} {extra : Extra} {inner : Bool}
    {restore : RestoreFn n m k} {R : IpmState n m k → IpmState n m k → Prop}
    (hR' : ∀ st st' F c, R { st with filter := F, rejected := c } st' → R st st')
    (hR : RestoreSound P inner R restore) {x : Vec n} {s : Vec k} {y : Vec m} {z : Vec k} {μ : ℝ} (hx : x.Finite) (hs : s.Pos)
    (hy : y.Finite) (hz : z.Pos) (hμ : 0 < μ) {it : ℕ} {w : World} {E : Filter} {res : IpmResult n m k}
    (hres : ipmRun env opts P cbs extra inner restore x s y z (.fin μ) it w E = some res) :
    res.Finite ∧ ∃ l, res.world.trace = w.trace ++ l ∧ Shown (NextShown Γ opts P R) inner
        ⟨inner, (ipmInit env P x s y z (.fin μ) it).info, .fin μ, .fin 0.99⟩ l ∧
      res.EndsAt (NextShown Γ opts P R) inner ⟨inner, (ipmInit env P x s y z (.fin μ) it).info, .fin μ, .fin 0.99⟩ l := by
  have h : (ipmInit env P x s y z (.fin μ) it).Sound P :=
    ⟨⟨⟨μ, rfl, hμ⟩, 0.99, rfl, by norm_num, by norm_num⟩, hx, hs, hy, hz, rfl⟩
  unfold ipmRun at hres
  simp only at hres
  split at hres
  · obtain rfl := Option.some.inj hres
    exact ⟨h.exit _ _ _, [], by simp [IpmState.exit], .nil _ _ _, .inr (.inr ⟨_, rfl, rfl, (Shown.start _ _).ends rfl⟩)⟩
  split at hres
  · obtain rfl := Option.some.inj hres
    exact ⟨h.exit _ _ _, [], by simp [IpmState.exit], .nil _ _ _, .inr (.inr ⟨_, rfl, rfl, (Shown.start _ _).ends rfl⟩)⟩
  exact ipmLoop_sound hP hE htol hS hR' hR _ _ { w with reads := w.reads + 1, vars := P.vars x } _ h rfl _ hres

theorem restoreInner_sound (P : Nlp n m k) : RestoreSound P true (fun _ _ => False) restoreInner := by
  intro st α w E mv h hmv
  obtain rfl := Option.some.inj hmv
  refine ⟨?_, by simp⟩
  rintro res hr
  obtain rfl := Moved.stop.inj hr
  exact ⟨⟨h.exit _ _ _, .inr rfl⟩, [], by simp [IpmState.exit]⟩

/-- The run of the solver that restores feasibility. -/
theorem frRun_sound {env : Env} (hE : env.ExactSolve) {opts : SolverOptions} {P : Nlp n m k} (hP : P.Total)
    (htol : 0 < opts.tolerance) {cbs : List Callback} {extra : Extra} {x : Vec n} {s : Vec k} {μ : ℝ} (hx : x.Finite)
    (hs : s.Pos) (hμ : 0 < μ) {it : ℕ} {w : World} {E : Filter} {res : IpmResult (n + relaxed m k) m (k + relaxed m k)}
    (hres : frRun env opts P cbs extra x s (.fin μ) it w E = some res) :
    res.Finite ∧ ∃ μ' first l, res.world.trace = w.trace ++ l ∧
      Shown (NextShown (fun _ _ => True) opts (frProblem env P x (.fin μ')) fun _ _ => False) true first l := by
  have h1 := hP.ce _ hx
  have h2 : Vec.Finite fun i => P.ci x i - s i := fun i => Fl.finite_sub.2 ⟨hP.ci _ hx i, hs.finite i⟩
  obtain ⟨a, ha, ha0, -⟩ := frMu_pos (env := env) h1 h2 hμ
  unfold frRun at hres
  simp only [ha] at hres
  have hpn := frPN_pos h1 h2 ha0
  obtain ⟨h3, l, h4, h5, -⟩ := ipmRun_sound (frProblem_total hP hx ha0)
    (fun _ h => hE.answers (h.regular (frProblem_total hP hx ha0))) htol (by rw [frScaling_f]; exact one_pos)
    (by simp) (restoreInner_sound _) (finite_append hx hpn.finite) (append_pos hs fun _ => ⟨1, rfl, one_pos⟩) (fun _ => rfl)
    (append_pos (fun i => by
        obtain ⟨b, hb, hb0⟩ := hs i
        refine ⟨a * (1 / b), ?_, by positivity⟩
        simp only [hb]
        rw [Fl.one_def, Fl.fin_div hb0.ne']; rfl) fun i => by
        obtain ⟨b, hb, hb0⟩ := hpn i
        refine ⟨a * (1 / b), ?_, by positivity⟩
        simp only [hb]
        rw [Fl.one_def, Fl.fin_div hb0.ne']; rfl) ha0 hres
  exact ⟨h3, a, _, l, h4, h5⟩

end Slp
