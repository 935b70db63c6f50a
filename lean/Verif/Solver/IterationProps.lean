import Verif.Solver.IpmLemmas

/-! C27: the size of an accepted step of the interior-point solver. -/

namespace Slp

open Classical

variable {n m k : ℕ}

/-- C27: the step by which the interior-point solver moves is positive and at most 1, and no slack moves by more
than the fraction-to-the-boundary rule allows: in the direction the solver takes, the step size is at most the one
the rule returns for it. The direction is the computed step, or that of a second-order correction. -/
theorem accepted_step_size {env : Env} {opts : SolverOptions} {P : Nlp n m k} {st : IpmState n m k} {i : ℕ}
    (hB : BarrierOk st) (hs : st.s.Pos) {rhs : Vec (n + m)} {cis : Vec k} {a : ℝ}
    (ha : boundaryF st.s (ipmComputeStep env st rhs cis i).ps st.τ = .fin a) (ha0 : 1e-7 ≤ a) (ha1 : a ≤ 1) {αz D : Fl}
    {F : Filter} {r : ℕ} {R : Reason} {t : Trial n m k} {used : Fl}
    (h : Acceptable env opts P st (ipmComputeStep env st rhs cis i) a αz D F r R t used) :
    ∃ u, used = .fin u ∧ 0 < u ∧ u ≤ 1 ∧
      ∃ i' rhs' cis' b, boundaryF st.s (ipmComputeStep env st rhs' cis' i').ps st.τ = .fin b ∧ u ≤ b ∧
        (R ≠ .correction → i' = i ∧ rhs' = rhs ∧ cis' = cis) ∧
        ∀ j, t.x j = st.x j + .fin u * (ipmComputeStep env st rhs' cis' i').px j := by
  obtain ⟨τ, hτ, hτ0, hτ1⟩ := hB.τ
  have hτp : 0 < τ := by linarith
  cases R with
  | filter =>
    obtain ⟨b, rfl, hb0, hb1, hb2, rfl, -, -⟩ := h
    refine ⟨b, rfl, ?_, hb1.trans ha1, i, rhs, cis, a, ha, hb1, fun _ => ⟨rfl, rfl, rfl⟩, fun _ => rfl⟩
    rcases hb2 with rfl | hb2 <;> linarith
  | correction =>
    obtain ⟨l, ce', cis', wv, -, hcor, hacc, -⟩ := h
    obtain ⟨i', hu, rfl⟩ := hcor.step
    set rhs' := st.socRhs env ce' cis'
    obtain ⟨b, hb, hb0, hb1⟩ := boundaryF_range hτp hs (ipmComputeStep env st rhs' cis' i').ps
    rw [← hτ] at hb
    rw [hb] at hu
    subst hu
    have hpos := entry_finite hacc.finite
    have hs' : (ipmTrial P st (ipmComputeStep env st rhs' cis' i') (.fin b)
        (boundaryF st.z (ipmComputeStep env st rhs' cis' i').pz st.τ) False).s =
        fun j => st.s j + .fin b * (ipmComputeStep env st rhs' cis' i').ps j := if_neg not_false
    rw [hs'] at hpos
    have hp : Vec.Finite (ipmComputeStep env st rhs' cis' i').ps :=
      fun j => (Fl.finite_mul.1 (Fl.finite_add.1 (hpos.finite j)).2).2
    have hbp : 0 < b := by
      have h1 := hb
      rw [hτ, boundaryF_finite hs.finite hp hτp hs.real_pos] at h1
      rw [← Fl.fin.inj h1]
      refine (boundary_correct hτp _ ?_).1.1
      intro e he
      obtain ⟨j, rfl⟩ := (List.mem_ofFn' _ _).1 he
      exact hs.real_pos j
    exact ⟨b, rfl, hbp, hb1, i', rhs', cis', b, hb, le_rfl, fun h => absurd rfl h, fun _ => rfl⟩
  | kktError =>
    obtain ⟨rfl, rfl, -⟩ := h
    exact ⟨a, rfl, by linarith, ha1, i, rhs, cis, a, ha, le_rfl, fun _ => ⟨rfl, rfl, rfl⟩, fun _ => rfl⟩

/-- C27: the part of an iteration that follows the callbacks always has a result: the solver stops because the
factorisation failed, calls feasibility restoration, or moves to a point that the line search accepted with a legal
step size. -/
theorem iteration_moves_legally (env : Env) (opts : SolverOptions) (P : Nlp n m k) (restore : RestoreFn n m k)
    {st : IpmState n m k} (hB : BarrierOk st) (hs : st.s.Pos) (w : World) (E : Filter) :
    (env.factor w.factors = false ∧ ipmMove env opts P restore st w E =
      some (.stop (st.exit .factorizationFailed { w with factors := w.factors + 1 } E))) ∨
    (∃ F c α i, ipmMove env opts P restore st w E = restore { st with filter := F, rejected := c } α
      { w with factors := w.factors + 1, solves := i } E) ∨
    ∃ F c α a i R t u, let p := ipmComputeStep env st (st.rhs env) (fun i => st.e.ci i - st.s i) w.solves
      ipmMove env opts P restore st w E = some (.go (({ st with filter := F, rejected := c } : IpmState n m k).accept P t α (.fin a))
        { w with factors := w.factors + 1, solves := i, vars := P.vars t.x } E) ∧
      Acceptable env opts P st p a (boundaryF st.z p.pz st.τ) (ipmSlope env st p) st.filter st.rejected R t (.fin u) ∧ 0 < u ∧ u ≤ 1 ∧
      boundaryF st.s p.ps st.τ = .fin a ∧ (R ≠ .correction → u ≤ a) := by
  rcases ipmMove_cases env opts P restore hB.τ hs w E with h | ⟨ls, a, ha, ha0, ha1, h | ⟨R, t, used, hacc, hmin, h⟩⟩
  · exact .inl h
  · exact .inr (.inl ⟨_, _, _, _, h⟩)
  · obtain ⟨u, rfl, hu0, hu1, i', rhs', cis', b, hb, hub, hR, -⟩ := accepted_step_size hB hs ha hmin ha1 hacc
    refine .inr (.inr ⟨ls.filter, ls.rejected, ls.α, a, ls.solves, R, t, u, h, hacc, hu0, hu1, ha, fun hne => ?_⟩)
    obtain ⟨rfl, rfl, rfl⟩ := hR hne
    rw [ha] at hb
    rw [Fl.fin.inj hb]; exact hub

end Slp
