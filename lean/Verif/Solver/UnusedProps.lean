import Verif.Solver.RegularProps
import Verif.Solver.SqpRegularProps

/-!
C89: a variable that no function depends on keeps its value, in all three solvers and while restoring feasibility, provided
that the linear solver accepts no singular matrix.
-/

namespace Slp

open Classical

variable {n m k : ℕ}

/-- No function depends on the variable: its derivatives are zero. -/
structure Nlp.Unused (P : Nlp n m k) (i : Fin n) : Prop where
  g : ∀ x, x.Finite → (P.g x).real i = 0
  Ae : ∀ x, x.Finite → ∀ l, (P.Ae x).real l i = 0
  Ai : ∀ x, x.Finite → ∀ l, (P.Ai x).real l i = 0
  H : ∀ x y z, x.Finite → y.Finite → z.Finite → ∀ j, lowerSym (P.H x y z).real i j = 0

/-- Where the variable is `a`, a step has no reason to change it. In the problem that restores feasibility, the cost pulls
the variable towards `a`. -/
structure Nlp.Idle (P : Nlp n m k) (i : Fin n) (a : ℝ) : Prop where
  g : ∀ x, x.Finite → x i = .fin a → (P.g x).real i = 0
  Ae : ∀ x, x.Finite → ∀ l, (P.Ae x).real l i = 0
  Ai : ∀ x, x.Finite → ∀ l, (P.Ai x).real l i = 0
  H : ∀ x y z, x.Finite → y.Finite → z.Finite → ∀ j, j ≠ i → lowerSym (P.H x y z).real i j = 0

theorem Nlp.Unused.idle {P : Nlp n m k} {i : Fin n} (h : P.Unused i) (a : ℝ) : P.Idle i a :=
  ⟨fun x hx _ => h.g x hx, h.Ae, h.Ai, fun x y z hx hy hz j _ => h.H x y z hx hy hz j⟩

/-- The callbacks saw the value `a` at position `i` whenever they were called. -/
def World.Keeps (w : World) (i : ℕ) (a : ℝ) : Prop := ∀ s ∈ w.trace, s.info.x[i]? = some (.fin a)

theorem World.keeps_start (i : ℕ) (a : ℝ) : World.start.Keeps i a := by simp [World.Keeps, World.start]

theorem World.Keeps.snoc {w w' : World} {i : ℕ} {a : ℝ} (h : w.Keeps i a) {s : Snapshot} (hw : w'.trace = w.trace ++ [s])
    (hs : s.info.x[i]? = some (.fin a)) : w'.Keeps i a := by
  intro t ht
  rw [hw] at ht
  rcases List.mem_append.1 ht with ht | ht
  · exact h t ht
  · rw [List.mem_singleton.1 ht]; exact hs

theorem ofFn_at {x : Vec n} {i : Fin n} {a : ℝ} (h : x i = .fin a) : (List.ofFn x)[(i : ℕ)]? = some (.fin a) := by
  rw [List.getElem?_ofFn, dif_pos i.isLt, ← h]

/-- A row of the linear system that only has a diagonal entry. -/
theorem row_idle {H : Matrix (Fin n) (Fin n) ℝ} {i : Fin n} {δ : ℝ} {p : Fin n → ℝ} (hH : ∀ j, j ≠ i → H i j = 0)
    (hd : 0 < H i i + δ) (h : (∑ l, H i l * p l) + δ * p i = 0) : p i = 0 := by
  rw [Finset.sum_eq_single i (fun j _ hj => by rw [hH j hj, zero_mul]) (by simp), ← add_mul] at h
  exact (mul_eq_zero.1 h).resolve_left hd.ne'

theorem NewtonSystem.idle {H : Matrix (Fin n) (Fin n) ℝ} {δ γ : ℝ} {g : Fin n → ℝ} {Ae : Matrix (Fin m) (Fin n) ℝ}
    {ce : Fin m → ℝ} {Ai : Matrix (Fin k) (Fin n) ℝ} {c s : Fin k → ℝ} {y : Fin m → ℝ} {z : Fin k → ℝ} {μ : ℝ}
    {p : PStep n m k} (h : NewtonSystem H δ γ g Ae ce Ai c s y z μ p) {i : Fin n} (hg : g i = 0) (hAe : ∀ l, Ae l i = 0)
    (hAi : ∀ l, Ai l i = 0) (hH : ∀ j, j ≠ i → H i j = 0) (hd : 0 < H i i + δ) : p.px i = 0 := by
  refine row_idle hH hd ?_
  have := h.stationarity i
  simp only [hAe, hAi, hg, zero_mul, Finset.sum_const_zero, sub_zero, neg_zero] at this
  exact this

/-- The linear solver regularises enough for the variable's row: see `Env.NonsingularSolve`. -/
def Nlp.Curved (P : Nlp n m k) (i : Fin n) (Γ : ℝ → ℝ → Prop) : Prop :=
  ∀ δ γ, 0 ≤ δ → Γ δ γ → ∀ x y z, x.Finite → y.Finite → z.Finite → 0 < lowerSym (P.H x y z).real i i + δ

theorem NewtonMove.idle {Γ : ℝ → ℝ → Prop} {opts : SolverOptions} {P : Nlp n m k} {st st' : IpmState n m k} {i : Fin n} {a : ℝ}
    (hI : P.Idle i a) (hΓ : P.Curved i Γ) (h : st.Sound P) (hx : st.x i = .fin a) (hM : NewtonMove Γ opts P st st') :
    st'.x i = .fin a := by
  obtain ⟨ce, cis, u, v, p, hM⟩ := hM
  obtain ⟨-, δ, γ, h0, -, h1, h2⟩ := hM.newton
  rw [h.e] at h2
  have hp : p.real.px i = 0 := h2.idle (hI.g _ h.x hx) (hI.Ae _ h.x) (hI.Ai _ h.x)
    (hI.H _ _ _ h.x h.y h.z.finite) (hΓ δ γ h0 h1 _ _ _ h.x h.y h.z.finite)
  rw [hM.x, hp, mul_zero, add_zero]
  show Fl.fin (Fl.toReal (st.x i)) = _
  rw [hx]; rfl

/-- What a restoration function must do. -/
def RestoreIdle (P : Nlp n m k) (i : Fin n) (a : ℝ) (restore : RestoreFn n m k) : Prop :=
  ∀ (st : IpmState n m k) (α : Fl) (w : World) (E : Filter) (mv : Moved n m k), st.Sound P → st.x i = .fin a → w.Keeps i a →
    restore st α w E = some mv → (∀ res, mv = .stop res → res.x i = .fin a ∧ res.world.Keeps i a) ∧
      ∀ st' w' E', mv = .go st' w' E' → st'.Sound P ∧ st'.x i = .fin a ∧ w'.Keeps i a

theorem ipmLoop_idle {env : Env} {Γ : ℝ → ℝ → Prop} {opts : SolverOptions} {P : Nlp n m k} (hP : P.Total)
    (hE : ∀ st : IpmState n m k, st.Sound P → st.Answers env Γ) (htol : 0 < opts.tolerance) (hS : 0 < P.scaling.f)
    {i : Fin n} {a : ℝ} (hI : P.Idle i a) (hΓ : P.Curved i Γ) {cbs : List Callback} {extra : Extra} {inner : Bool}
    {restore : RestoreFn n m k} (hR : RestoreIdle P i a restore) {start : ℝ} (r : ℕ) (st : IpmState n m k) (w : World)
    (E : Filter) (hst : st.Sound P) (hx : st.x i = .fin a) (hw : w.Keeps i a) (res : IpmResult n m k)
    (hres : ipmLoop env opts P cbs extra inner restore start r st w E = some res) :
    res.x i = .fin a ∧ res.world.Keeps i a := by
  have hN (st : IpmState n m k) (w : World) (E : Filter) (hx : st.x i = .fin a) (h : w.Keeps i a) :
      (ipmNotify cbs extra inner st w E).1.Keeps i a :=
    h.snoc (s := ⟨inner, st.info, st.μ, st.τ⟩) rfl (ofFn_at hx)
  refine ipmLoop_rule (fun st w _ => st.Sound P ∧ st.x i = .fin a ∧ w.Keeps i a)
    (fun res => res.x i = .fin a ∧ res.world.Keeps i a) ?_ ?_ ?_ ?_ ?_ ?_ r st w E ⟨hst, hx, hw⟩ res hres
  · rintro st w E ⟨h, h1, h2⟩ -
    exact ⟨h1, h2⟩
  · rintro st w E ⟨h, h1, h2⟩ - -
    exact ⟨h1, h2⟩
  · rintro st w E ⟨h, h1, h2⟩ - -
    exact ⟨h1, h2⟩
  · rintro st w E ⟨h, h1, h2⟩ - -
    exact ⟨h1, hN st w E h1 h2⟩
  · rintro st w E res ⟨h, h1, h2⟩ - - hmv
    rcases iteration_newton opts hP restore (hE _ h) h.barrier (h.regular hP) h.x h.z _ _ with h3 | ⟨F, c, α, l, h3⟩ |
      ⟨st', w', ce, cis, u, v, p, h3, -⟩
    · rw [h3.2] at hmv
      obtain rfl := Moved.stop.inj (Option.some.inj hmv)
      exact ⟨h1, hN st w E h1 h2⟩
    · rw [h3] at hmv
      exact (hR _ _ _ _ _ (h.withFilter F c) h1 (by exact hN st w E h1 h2) hmv).1 _ rfl
    · rw [h3] at hmv
      cases hmv
  · rintro st w E st2 w2 E2 st3 ⟨h, h1, h2⟩ - - hmv hfin
    have key : st2.Sound P ∧ st2.x i = .fin a ∧ w2.Keeps i a := by
      rcases iteration_newton opts hP restore (hE _ h) h.barrier (h.regular hP) h.x h.z _ _ with h3 | ⟨F, c, α, l, h3⟩ |
        ⟨st', w', ce, cis, u, v, p, h3, hM, h4, h5, h6, h7, h8, h9, h10, h11, h12⟩
      · rw [h3.2] at hmv
        cases hmv
      · rw [h3] at hmv
        exact (hR _ _ _ _ _ (h.withFilter F c) h1 (by exact hN st w E h1 h2) hmv).2 _ _ _ rfl
      · rw [h3] at hmv
        obtain ⟨rfl, rfl, rfl⟩ := Moved.go.inj (Option.some.inj hmv)
        refine ⟨⟨?_, h5, h4.s, fun j => by rw [hM.y]; rfl, h6, h7⟩, NewtonMove.idle hI hΓ h h1 ⟨ce, cis, u, v, p, hM⟩, ?_⟩
        · obtain ⟨b1, b2⟩ := h.barrier
          exact ⟨h8 ▸ b1, h9 ▸ b2⟩
        · intro s hs
          rw [h11] at hs
          exact hN st w E h1 h2 s hs
    obtain ⟨k1, k2, k3⟩ := key
    obtain ⟨st1, f1, -, f3, -⟩ := ipmFinish_correct (env := env) htol hS k1.barrier
    obtain rfl : st1 = st3 := Option.some.inj (f1.symm.trans hfin)
    have k4 : st1.x i = .fin a := by rw [f3]; exact k2
    exact ⟨fun _ => ⟨k4, k3⟩, fun _ => ⟨fun _ => ⟨k4, k3⟩, fun _ => ⟨(k1.finish htol hS hfin).1, k4, k3⟩⟩⟩

theorem ipmRun_idle {env : Env} {Γ : ℝ → ℝ → Prop} {opts : SolverOptions} {P : Nlp n m k} (hP : P.Total)
    (hE : ∀ st : IpmState n m k, st.Sound P → st.Answers env Γ) (htol : 0 < opts.tolerance) (hS : 0 < P.scaling.f)
    {i : Fin n} {a : ℝ} (hI : P.Idle i a) (hΓ : P.Curved i Γ) {cbs : List Callback} {extra : Extra} {inner : Bool}
    {restore : RestoreFn n m k} (hR : RestoreIdle P i a restore) {x : Vec n} {s : Vec k} {y : Vec m} {z : Vec k} {μ : ℝ}
    (hx : x.Finite) (hs : s.Pos) (hy : y.Finite) (hz : z.Pos) (hμ : 0 < μ) (ha : x i = .fin a) {it : ℕ} {w : World}
    (hw : w.Keeps i a) {E : Filter} {res : IpmResult n m k}
    (hres : ipmRun env opts P cbs extra inner restore x s y z (.fin μ) it w E = some res) :
    res.x i = .fin a ∧ res.world.Keeps i a := by
  have h : (ipmInit env P x s y z (.fin μ) it).Sound P :=
    ⟨⟨⟨μ, rfl, hμ⟩, 0.99, rfl, by norm_num, by norm_num⟩, hx, hs, hy, hz, rfl⟩
  unfold ipmRun at hres
  simp only at hres
  split at hres
  · obtain rfl := Option.some.inj hres
    exact ⟨ha, hw⟩
  split at hres
  · obtain rfl := Option.some.inj hres
    exact ⟨ha, hw⟩
  exact ipmLoop_idle hP hE htol hS hI hΓ hR _ _ { w with reads := w.reads + 1, vars := P.vars x } _ h ha hw _ hres

theorem restoreInner_idle (P : Nlp n m k) (i : Fin n) (a : ℝ) : RestoreIdle P i a restoreInner := by
  intro st α w E mv h h1 h2 hmv
  obtain rfl := Option.some.inj hmv
  refine ⟨?_, by simp⟩
  rintro res hr
  obtain rfl := Moved.stop.inj hr
  exact ⟨h1, h2⟩

theorem frWeight_pos {x : Fl} (h : x.isFinite = true) : 0 < (frWeight x).toReal := by
  rw [Fl.finite_toReal h]
  unfold frWeight
  rw [Fl.fin_mul]
  by_cases h0 : x.toReal * x.toReal = 0
  · rw [h0, show (1 : Fl) / .fin 0 = .pinf from by show Fl.div _ _ = _; simp [Fl.div],
      show Fl.min .pinf 1 = .fin 1 from if_pos trivial]
    exact one_pos
  · rw [Fl.one_def, Fl.fin_div h0, Fl.min_fin]
    have : 0 < x.toReal * x.toReal := lt_of_le_of_ne (mul_self_nonneg _) (Ne.symm h0)
    exact lt_min (by positivity) one_pos

/-- The problem that restores feasibility pulls the variable to where it is. -/
theorem frProblem_idle {env : Env} {P : Nlp n m k} {x : Vec n} (hx : x.Finite) {μ : ℝ} (hμ : 0 < μ) {i : Fin n} {a : ℝ}
    (hI : P.Idle i a) (ha : x i = .fin a) :
    (frProblem env P x (.fin μ)).Idle (Fin.castAdd _ i) a ∧
      (frProblem env P x (.fin μ)).Curved (Fin.castAdd _ i) fun _ _ => True := by
  have hsq : Fl.sqrt (.fin μ) = .fin (Real.sqrt μ) := if_neg (not_lt.2 hμ.le)
  have hw := frWeight_finite (hx i)
  refine ⟨⟨fun xp _ hxa => ?_, fun xp h l => ?_, fun xp h l => ?_, fun xp y z _ _ _ j hj => ?_⟩, ?_⟩
  · show Fl.toReal (Fin.append (fun j => Fl.sqrt (.fin μ) * frWeight (x j) * (frOrigin xp j - x j)) (fun _ => .fin 1000)
      (Fin.castAdd _ i)) = 0
    rw [Fin.append_left, show frOrigin xp i = .fin a from hxa, hsq, Fl.finite_toReal hw, ha]
    rw [Fl.fin_mul, Fl.fin_sub, Fl.fin_mul, sub_self, mul_zero]; rfl
  · show Fl.toReal (Fin.append (fun j => P.Ae (frOrigin xp) l j) (fun j : Fin (relaxed m k) =>
      if (j : ℕ) = l then -1 else if (j : ℕ) = m + l then 1 else 0) (Fin.castAdd _ i)) = 0
    rw [Fin.append_left]
    exact hI.Ae _ (fun j => h _) l
  · show Fl.toReal ((frProblem env P x (.fin μ)).Ai xp l (Fin.castAdd _ i)) = 0
    rw [frProblem_Ai, Fin.append_left]
    refine Fin.addCases (fun j => ?_) (fun j => ?_) l
    · rw [Fin.append_left]; exact hI.Ai _ (fun j => h _) j
    · rw [Fin.append_right]; rfl
  · unfold lowerSym
    split
    · show Fl.toReal (ite _ _ _) = 0
      rw [if_neg (Ne.symm hj)]; rfl
    · show Fl.toReal (ite _ _ _) = 0
      rw [if_neg hj]; rfl
  · intro δ γ h0 _ xp y z _ _ _
    have : lowerSym ((frProblem env P x (.fin μ)).H xp y z).real (Fin.castAdd _ i) (Fin.castAdd _ i) =
        Real.sqrt μ * (frWeight (x i)).toReal := by
      unfold lowerSym
      rw [if_pos le_rfl]
      show Fl.toReal (if _ then Fin.append (fun j => Fl.sqrt (.fin μ) * frWeight (x j)) (fun _ => 0) (Fin.castAdd _ i) else 0) = _
      rw [if_pos rfl, Fin.append_left, hsq, Fl.finite_toReal hw, Fl.fin_mul]; rfl
    rw [this]
    have := mul_pos (Real.sqrt_pos.2 hμ) (frWeight_pos (hx i))
    linarith

theorem frRun_idle {env : Env} (hE : env.ExactSolve) {opts : SolverOptions} {P : Nlp n m k} (hP : P.Total)
    (htol : 0 < opts.tolerance) {i : Fin n} {a : ℝ} (hI : P.Idle i a) {cbs : List Callback} {extra : Extra} {x : Vec n}
    {s : Vec k} {μ : ℝ} (hx : x.Finite) (hs : s.Pos) (hμ : 0 < μ) (ha : x i = .fin a) {it : ℕ} {w : World} (hw : w.Keeps i a)
    {E : Filter} {res : IpmResult (n + relaxed m k) m (k + relaxed m k)}
    (hres : frRun env opts P cbs extra x s (.fin μ) it w E = some res) :
    res.x (Fin.castAdd _ i) = .fin a ∧ res.world.Keeps i a := by
  have h1 := hP.ce _ hx
  have h2 : Vec.Finite fun i => P.ci x i - s i := fun i => Fl.finite_sub.2 ⟨hP.ci _ hx i, hs.finite i⟩
  obtain ⟨b, hb, hb0, -⟩ := frMu_pos (env := env) h1 h2 hμ
  unfold frRun at hres
  simp only [hb] at hres
  have hpn := frPN_pos h1 h2 hb0
  have hdiv : ∀ {q : ℕ} {v : Vec q}, v.Pos → Vec.Pos fun i => .fin b * (1 / v i) := fun hv i => by
    obtain ⟨c, hc, hc0⟩ := hv i
    refine ⟨b * (1 / c), ?_, by positivity⟩
    simp only [hc]
    rw [Fl.one_def, Fl.fin_div hc0.ne']; rfl
  obtain ⟨k1, k2⟩ := frProblem_idle (env := env) hx hb0 hI ha
  exact ipmRun_idle (frProblem_total hP hx hb0) (fun _ h => hE.answers (h.regular (frProblem_total hP hx hb0))) htol
    (by rw [frScaling_f]; exact one_pos) k1 k2 (restoreInner_idle _ _ _) (finite_append hx hpn.finite)
    (append_pos hs fun _ => ⟨1, rfl, one_pos⟩) (fun _ => rfl) (append_pos (hdiv hs) (hdiv hpn)) hb0
    (by rw [Fin.append_left]; exact ha) hw hres

theorem restoreIpm_idle {env : Env} (hE : env.ExactSolve) (hE' : env.ExactEstimate) {opts : SolverOptions} {P : Nlp n m k}
    (hP : P.Total) (htol : 0 < opts.tolerance) {i : Fin n} {a : ℝ} (hI : P.Idle i a) {cbs : List Callback} :
    RestoreIdle P i a (restoreIpm env opts P cbs) := by
  intro st α w E mv h h1 h2 hmv
  obtain ⟨μ, hμ, hμ0⟩ := h.barrier.μ
  have hsound := ((restoreIpm_sound hE hE' hP htol st α w E mv h hmv).2)
  unfold restoreIpm at hmv
  obtain ⟨res, hres, hmv⟩ := Option.map_eq_some_iff.1 hmv
  rw [hμ] at hres
  obtain ⟨k1, k2⟩ := frRun_idle hE hP htol hI h.x h.s hμ0 h1 h2 hres
  by_cases hst : res.status = .callbackRequestedStop
  · simp only [if_pos hst] at hmv
    subst hmv
    refine ⟨by simp, fun st' w' E' hgo => ⟨(hsound _ _ _ hgo).1, ?_⟩⟩
    obtain ⟨rfl, rfl, rfl⟩ := Moved.go.inj hgo
    exact ⟨k1, k2⟩
  · simp only [if_neg hst] at hmv
    subst hmv
    refine ⟨fun r hr => ?_, by simp⟩
    obtain rfl := Moved.stop.inj hr
    exact ⟨k1, k2⟩

/-- A matrix with a zero column is singular unless the regularisation of the Hessian is positive. -/
theorem LinSystem.Nonsingular.pos {S : LinSystem} {δ γ : ℝ} (h : S.Nonsingular δ γ) (h0 : 0 ≤ δ) (j : Fin (S.n + S.m))
    (hj : (j : ℕ) < S.n) (hc : ∀ l, S.lhs.real l j = 0) : 0 < δ := by
  refine lt_of_le_of_ne h0 fun hδ => ?_
  have := congrFun (h (Pi.single j 1) fun l => ?_) j
  · rw [Pi.single_eq_same] at this
    exact one_ne_zero this
  · rw [Finset.sum_eq_single j (fun b _ hb => by rw [Pi.single_eq_of_ne hb, mul_zero]) (by simp), hc, ← hδ]
    by_cases hl : l = j
    · subst hl; simp [hj]
    · simp [hl]

theorem kktDense_column {H : Matrix (Fin n) (Fin n) ℝ} {σ : Fin k → ℝ} {Ae : Matrix (Fin m) (Fin n) ℝ}
    {Ai : Matrix (Fin k) (Fin n) ℝ} {i : Fin n} (hAe : ∀ l, Ae l i = 0) (hAi : ∀ l, Ai l i = 0)
    (hH : ∀ j, lowerSym H i j = 0) (l : Fin (n + m)) : kktDense H σ Ae Ai l (Fin.castAdd m i) = 0 := by
  have hH' : ∀ j, lowerSym H j i = 0 := fun j => by
    have := hH j
    unfold lowerSym at this ⊢
    by_cases h1 : j = i
    · subst h1; simpa using this
    · rcases lt_or_gt_of_ne h1 with h2 | h2
      · rw [if_neg (not_le.2 h2)]; rwa [if_pos h2.le] at this
      · rw [if_pos h2.le]; rwa [if_neg (not_le.2 h2)] at this
  unfold kktDense
  refine Fin.addCases (fun b => ?_) (fun b => ?_) l
  · rw [Fin.addCases_left, Fin.addCases_left, hH']
    simp [hAi]
  · rw [Fin.addCases_right, Fin.addCases_left, hAe]

theorem Env.NonsingularSolve.answers {env : Env} (hE : env.NonsingularSolve) {P : Nlp n m k} (hP : P.Total) {i : Fin n}
    (hU : P.Unused i) {st : IpmState n m k} (h : st.Sound P) : st.Answers env fun δ _ => 0 < δ := fun l rhs hr => by
  obtain ⟨f1, f2⟩ := kktLhsF_real (env := env) (h.regular hP)
  obtain ⟨δ, γ, h0, h1, hS, hN⟩ := hE l (st.system env rhs) ⟨f1, hr⟩
  refine ⟨δ, γ, h0, h1, ?_, hS⟩
  refine hN.pos h0 (Fin.castAdd m i) i.isLt fun l => (congrFun (congrFun f2 l) _).trans ?_
  rw [h.e]
  exact kktDense_column (hU.Ae _ h.x) (hU.Ai _ h.x) (hU.H _ _ _ h.x h.y h.z.finite) l

theorem Nlp.Unused.curved {P : Nlp n m k} {i : Fin n} (hU : P.Unused i) : P.Curved i fun δ _ => 0 < δ :=
  fun δ _ _ hδ x y z hx hy hz => by rw [hU.H x y z hx hy hz, zero_add]; exact hδ

/-- C89: the interior-point solver returns the value that the unused variable had, and shows it in every call of the
callbacks. -/
theorem ipm_unused {env : Env} (hE : env.NonsingularSolve) (hE' : env.ExactEstimate) {opts : SolverOptions} {P : Nlp n m k}
    (hP : P.Total) (htol : 0 < opts.tolerance) (hS : 0 < P.scaling.f) {i : Fin n} (hU : P.Unused i) {cbs : List Callback}
    {x : Vec n} (hx : x.Finite) {res : IpmResult n m k} (hres : interiorPoint env opts P cbs x .start = some res) :
    res.x i = x i ∧ ∀ s ∈ res.world.trace, s.info.x[(i : ℕ)]? = some (x i) := by
  obtain ⟨a, ha⟩ := Fl.isFinite_iff.1 (hx i)
  have := ipmRun_idle hP (fun _ h => hE.answers hP hU h) htol hS (hU.idle a) hU.curved
    (restoreIpm_idle hE.exact hE' hP htol (hU.idle a)) hx (fun _ => ⟨1, rfl, one_pos⟩) (fun _ => rfl)
    (fun _ => ⟨1, rfl, one_pos⟩) (by positivity) ha (World.keeps_start _ _) hres
  rw [ha]
  exact this

/-! ### SQP -/

theorem restoreSqp_idle {env : Env} (hE : env.ExactSolve) {opts : SolverOptions} {P : Nlp n m 0}
    (hP : P.Total) (htol : 0 < opts.tolerance) {i : Fin n} {a : ℝ} (hI : P.Idle i a) {cbs : List Callback} {st : SqpState n m}
    {α : Fl} {w : World} {mv : SqpMoved n m} (h : st.Sound P) (h1 : st.x i = .fin a) (h2 : w.Keeps i a)
    (hmv : restoreSqp env opts P cbs st α w = some mv) :
    (∀ res, mv = .stop res → res.x i = .fin a ∧ res.world.Keeps i a) ∧
      ∀ st' w', mv = .go st' w' → st'.x i = .fin a ∧ w'.Keeps i a := by
  unfold restoreSqp at hmv
  obtain ⟨res, hres, hmv⟩ := Option.map_eq_some_iff.1 hmv
  obtain ⟨k1, k2⟩ := frRun_idle hE hP htol hI h.x (fun i => i.elim0) (by positivity) h1 h2 hres
  by_cases hst : res.status = .callbackRequestedStop
  · simp only [if_pos hst] at hmv
    subst hmv
    refine ⟨by simp, fun st' w' hgo => ?_⟩
    obtain ⟨rfl, rfl⟩ := SqpMoved.go.inj hgo
    exact ⟨k1, k2⟩
  · simp only [if_neg hst] at hmv
    subst hmv
    refine ⟨fun r hr => ?_, by simp⟩
    obtain rfl := SqpMoved.stop.inj hr
    exact ⟨k1, k2⟩

theorem Env.NonsingularSolve.sqpAnswers {env : Env} (hE : env.NonsingularSolve) {P : Nlp n m 0} (hP : P.Total) {i : Fin n}
    (hU : P.Unused i) {st : SqpState n m} (h : st.Sound P) : st.Answers env fun δ _ => 0 < δ := fun l ce hc => by
  have hr := h.regular hP
  obtain ⟨δ, γ, h0, h1, hS, hN⟩ := hE l _ (sqp_system_finite env hr hc)
  refine ⟨δ, γ, h0, h1, ?_, hS⟩
  refine hN.pos h0 (Fin.castAdd m i) i.isLt fun l => ?_
  have hl : kktLhsF env st.e (Fin.elim0 : Vec 0) Fin.elim0 l (Fin.castAdd m i) = .fin (kktDense st.e.H.real
      (sigma (Vec.real (Fin.elim0 : Vec 0)) (Vec.real (Fin.elim0 : Vec 0))) st.e.Ae.real st.e.Ai.real l (Fin.castAdd m i)) :=
    if_pos ⟨hr.H, hr.Ae, fun i => i.elim0, fun i => i.elim0, fun i => i.elim0, fun i => i.elim0⟩
  refine (congrArg Fl.toReal hl).trans ?_
  show kktDense _ _ _ _ _ _ = 0
  rw [h.e]
  exact kktDense_column (hU.Ae _ h.x) (fun l => l.elim0) (hU.H _ _ _ h.x h.y fun i => i.elim0) l

theorem sqpLoop_unused {env : Env} (hE : env.NonsingularSolve) (hE' : env.ExactEstimate) {opts : SolverOptions} {P : Nlp n m 0}
    (hP : P.Total) (htol : 0 < opts.tolerance) {i : Fin n} {a : ℝ} (hU : P.Unused i) {cbs : List Callback} {start : ℝ} (r : ℕ)
    (st : SqpState n m) (w : World) (h : st.Sound P) (hx : st.x i = .fin a) (hw : w.Keeps i a)
    (res : SqpResult n m) (hres : sqpLoop env opts P cbs start r st w = some res) :
    res.x i = .fin a ∧ res.world.Keeps i a := by
  induction r generalizing st w with
  | zero => simp [sqpLoop] at hres
  | succ r ih =>
    rw [sqpLoop] at hres
    split at hres
    · obtain rfl := Option.some.inj hres; exact ⟨hx, hw⟩
    split at hres
    · obtain rfl := Option.some.inj hres; exact ⟨hx, hw⟩
    split at hres
    · obtain rfl := Option.some.inj hres; exact ⟨hx, hw⟩
    simp only at hres
    have hN : ∀ w' : World, w'.trace = w.trace ++ [⟨false, st.info, 0, 0⟩] → w'.Keeps i a := fun w' h' =>
      hw.snoc h' (ofFn_at hx)
    split at hres
    · obtain rfl := Option.some.inj hres; exact ⟨hx, hN _ rfl⟩
    obtain ⟨mv, hmv, hres⟩ := Option.bind_eq_some_iff.1 hres
    have hA := hE.sqpAnswers hP hU h
    have hsound := (sqpMove_sound hE.exact hE' hP htol h hA hmv).2
    have key : (∀ res, mv = .stop res → res.x i = .fin a ∧ res.world.Keeps i a) ∧
        ∀ st' w', mv = .go st' w' → st'.x i = .fin a ∧ w'.Keeps i a := by
      rcases sqp_iteration_newton opts hP cbs hA (h.regular hP) _ with h1 | ⟨F, c, α, l, h1⟩ |
        ⟨st', w', ce, u, p, h1, hM, h3, h4, -, h5⟩
      · rw [h1.2] at hmv
        obtain rfl := Option.some.inj hmv
        refine ⟨fun r hr => ?_, by simp⟩
        obtain rfl := SqpMoved.stop.inj hr
        exact ⟨hx, hN _ rfl⟩
      · rw [h1] at hmv
        exact restoreSqp_idle (st := { st with filter := F, rejected := c }) hE.exact hP htol (hU.idle a) ⟨h.x, h.y, h.e⟩
          hx (hN _ rfl) hmv
      · rw [h1] at hmv
        obtain rfl := Option.some.inj hmv
        refine ⟨by simp, fun st2 w2 hgo => ?_⟩
        obtain ⟨rfl, rfl⟩ := SqpMoved.go.inj hgo
        refine ⟨?_, hN _ h5⟩
        obtain ⟨-, δ, γ, h0, -, hδ, k1, -⟩ := hM.newton
        have k2 := k1 i
        rw [h.e] at k2
        have hAe : ∀ l, (P.eval st.x st.y Fin.elim0).Ae.real l i = 0 := hU.Ae _ h.x
        simp only [hAe, zero_mul, Finset.sum_const_zero, sub_zero] at k2
        have hg : (P.eval st.x st.y Fin.elim0).g.real i = 0 := hU.g _ h.x
        rw [hg, neg_zero] at k2
        have hH : ∀ j, lowerSym (P.eval st.x st.y Fin.elim0).H.real i j = 0 :=
          hU.H _ _ _ h.x h.y fun i => i.elim0
        have hp : p.px.real i = 0 := row_idle (fun j _ => hH j) (by rw [hH, zero_add]; exact hδ) k2
        rw [hM.x, hp, mul_zero, add_zero]
        show Fl.fin (Fl.toReal (st.x i)) = _
        rw [hx]; rfl
    cases mv with
    | stop r =>
      obtain rfl : r = res := Option.some.inj hres
      exact key.1 r rfl
    | go st2 w2 =>
      obtain ⟨k1, k2⟩ := key.2 st2 w2 rfl
      obtain ⟨k3, -⟩ := hsound st2 w2 rfl
      simp only [SqpMoved.elim] at hres
      split at hres
      · obtain rfl := Option.some.inj hres; exact ⟨k1, k2⟩
      split at hres
      · obtain rfl := Option.some.inj hres; exact ⟨k1, k2⟩
      · refine ih _ _ ?_ ?_ ?_ hres
        · exact ⟨k3.x, k3.y, k3.e⟩
        · exact k1
        · exact k2

/-- C89: likewise the SQP solver. -/
theorem sqp_unused {env : Env} (hE : env.NonsingularSolve) (hE' : env.ExactEstimate) {opts : SolverOptions} {P : Nlp n m 0}
    (hP : P.Total) (htol : 0 < opts.tolerance) {i : Fin n} (hU : P.Unused i) {cbs : List Callback} {x : Vec n} (hx : x.Finite)
    {res : SqpResult n m} (hres : sqp env opts P cbs x .start = some res) :
    res.x i = x i ∧ ∀ s ∈ res.world.trace, s.info.x[(i : ℕ)]? = some (x i) := by
  obtain ⟨a, ha⟩ := Fl.isFinite_iff.1 (hx i)
  have h : (sqpInit env P x fun _ => 0).Sound P := ⟨hx, fun _ => rfl, rfl⟩
  rw [ha]
  unfold sqp sqpRun at hres
  simp only at hres
  split at hres
  · obtain rfl := Option.some.inj hres
    exact ⟨ha, World.keeps_start _ _⟩
  split at hres
  · obtain rfl := Option.some.inj hres
    exact ⟨ha, World.keeps_start _ _⟩
  refine sqpLoop_unused hE hE' hP htol hU _ _ _ h ha ?_ _ hres
  exact World.keeps_start _ _

/-! ### Newton's method -/

theorem newton_accepted_unused {env : Env} (hE : env.NonsingularSolve) {P : Nlp n 0 0} {st : NewtonState n} (hx : st.x.Finite)
    (hg : st.g.Finite) (hH : st.H.Finite) {j : Fin n} (hHj : ∀ l, lowerSym st.H.real j l = 0) (hgj : st.g.real j = 0) {a : ℝ}
    (ha : st.x j = .fin a) {i : ℕ} {D : Fl} {F : Filter} {ls : NewtonLineSearch n}
    (hls : newtonLineSearch env P st i D newtonRounds 1 F = some ls) {R : Reason} {x : Vec n} {f used : Fl}
    (hacc : ls.accepted = some (R, x, f, used)) : x j = .fin a := by
  obtain ⟨δ, γ, h0, -, hS, hN⟩ := hE i _ (newton_system_finite hg hH)
  obtain ⟨hf, h2⟩ := newton_step_solved hg hS
  have hcol : ∀ l : Fin n, Fl.toReal (if j ≤ l then st.H l j else st.H j l) = 0 := fun l => by
    have h3 := hHj l
    unfold lowerSym at h3
    by_cases h4 : l = j
    · subst h4; simpa [FMat.real] using h3
    · rcases lt_or_gt_of_ne h4 with h5 | h5
      · rw [if_neg (not_le.2 h5)]; rwa [if_pos h5.le] at h3
      · rw [if_pos h5.le]; rwa [if_neg (not_le.2 h5)] at h3
  have hδ : 0 < δ := hN.pos h0 j j.isLt hcol
  have hp : (newtonStep env st i).real j = 0 := row_idle (fun l _ => hHj l) (by rw [hHj, zero_add]; exact hδ)
    (by rw [h2, hgj, neg_zero])
  have key : ∀ u : ℝ, x = newtonPoint env st i (.fin u) → x j = .fin a := fun u hxe => by
    rw [hxe]
    refine (fin_move (hx j) (hf j)).trans ?_
    rw [show (newtonStep env st i j).toReal = 0 from hp, mul_zero, add_zero, ha]; rfl
  have hL := newton_line_search_sound env P st i D F ls hls R x f used hacc
  cases R with
  | filter => obtain ⟨u, rfl, -, -, hxe, -⟩ := hL; exact key u hxe
  | correction => exact hL.elim
  | kktError => obtain ⟨rfl, hxe, -⟩ := hL; exact key 1 hxe

theorem newtonLoop_unused {env : Env} (hE : env.NonsingularSolve) {opts : SolverOptions} {P : Nlp n 0 0}
    (hP : P.Total) {i : Fin n} {a : ℝ} (hU : P.Unused i) {cbs : List Callback} {start : ℝ} (r : ℕ) (st : NewtonState n)
    (w : World) (hx : st.x.Finite) (hg : st.g = P.g st.x) (hH : st.H = P.H st.x Fin.elim0 Fin.elim0) (ha : st.x i = .fin a)
    (hw : w.Keeps i a) (res : NewtonResult n) (hres : newtonLoop env opts P cbs start r st w = some res) :
    res.x i = .fin a ∧ res.world.Keeps i a := by
  induction r generalizing st w with
  | zero => simp [newtonLoop] at hres
  | succ r ih =>
    rw [newtonLoop] at hres
    split at hres
    · obtain rfl := Option.some.inj hres; exact ⟨ha, hw⟩
    split at hres
    · obtain rfl := Option.some.inj hres; exact ⟨ha, hw⟩
    simp only at hres
    have hN : ∀ w' : World, w'.trace = w.trace ++ [⟨false, st.info, 0, 0⟩] → w'.Keeps i a := fun w' h' =>
      hw.snoc h' (ofFn_at ha)
    split at hres
    · obtain rfl := Option.some.inj hres; exact ⟨ha, hN _ rfl⟩
    obtain ⟨ls, hls, hres⟩ := Option.bind_eq_some_iff.1 hres
    cases hacc : ls.accepted with
    | none =>
      rw [hacc] at hres
      obtain rfl := Option.some.inj hres
      exact ⟨ha, hN _ rfl⟩
    | some b =>
      obtain ⟨R, x, f, used⟩ := b
      have hgf : st.g.Finite := by rw [hg]; exact hP.g _ hx
      have hHf : st.H.Finite := by rw [hH]; exact hP.H _ _ _ hx (fun i => i.elim0) fun i => i.elim0
      obtain ⟨u, δ', p', -, -, -, -, h5⟩ := newton_accepted_newton hE.exact hx hgf hHf hls hacc
      have hx' : x.Finite := fun j => by rw [h5]; rfl
      have hxi : x i = .fin a := newton_accepted_unused hE hx hgf hHf (fun j => by
        rw [hH]; exact hU.H _ _ _ hx (fun i => i.elim0) (fun i => i.elim0) j) (by rw [hg]; exact hU.g _ hx) ha hls hacc
      rw [hacc] at hres
      simp only [Option.elim] at hres
      split at hres
      · obtain rfl := Option.some.inj hres; exact ⟨hxi, hN _ rfl⟩
      split at hres
      · obtain rfl := Option.some.inj hres; exact ⟨hxi, hN _ rfl⟩
      · exact ih _ _ hx' rfl rfl hxi (hN _ rfl) hres

/-- C89: likewise Newton's method. -/
theorem newton_unused {env : Env} (hE : env.NonsingularSolve) {opts : SolverOptions} {P : Nlp n 0 0} (hP : P.Total) {i : Fin n}
    (hU : P.Unused i) {cbs : List Callback} {x : Vec n} (hx : x.Finite) {res : NewtonResult n}
    (hres : newton env opts P cbs x .start = some res) :
    res.x i = x i ∧ ∀ s ∈ res.world.trace, s.info.x[(i : ℕ)]? = some (x i) := by
  obtain ⟨a, ha⟩ := Fl.isFinite_iff.1 (hx i)
  rw [ha]
  unfold newton at hres
  simp only at hres
  split at hres
  · obtain rfl := Option.some.inj hres
    exact ⟨ha, World.keeps_start _ _⟩
  refine newtonLoop_unused hE hP hU _ _ _ hx rfl rfl ha ?_ _ hres
  exact World.keeps_start _ _

end Slp
