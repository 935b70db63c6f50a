import Verif.Solver.ProgressLemmas
import Verif.Solver.RegularProps

/-!
C51: every iteration makes progress, for every problem, every answer of the linear solver, every clock and every behaviour
of the callbacks.
-/

namespace Slp

open Classical

variable {n m k : ℕ}

/-- Progress from a point with a cost and a violation of the constraints to another one, for a run that starts with the
violation `v`. The new cost is finite and the new violation does not exceed `10⁴ max(1, v)`; the cost is lower and the old
violation at most `10⁻⁴ max(1, v)`, or the cost or the violation decreases in proportion to the old violation. -/
def FilterProgress (v α : ℝ) (a b : FilterEntry) : Prop :=
  (∃ c, b.cost = .fin c) ∧ ¬ b.violation > .fin (1e4 * Max.max 1 v) ∧
  (a.violation ≤ .fin (1e-4 * Max.max 1 v) ∧ b.cost < a.cost ∨
    b.cost ≤ a.cost - .fin (α ^ (1.5 : ℝ)) * .fin 1e-8 * a.violation ∨
    b.violation ≤ (1 - .fin (α ^ (1.5 : ℝ)) * .fin 1e-5) * a.violation)

/-- The iterate `a` was shown to the callbacks. -/
structure Snapshot.Shows (a : Snapshot) (x : Vec n) (s : Vec k) (y : Vec m) (z : Vec k) : Prop where
  x : a.info.x = List.ofFn x
  s : a.info.s = List.ofFn s
  y : a.info.y = List.ofFn y
  z : a.info.z = List.ofFn z

/-- Progress of the interior-point solver from the iterate `a` to `b`, with the barrier parameter at `a`:
the step was accepted by the filter for a step size of at least `10⁻⁷`;
or the KKT error, before the multipliers are brought into their interval, decreased by a thousandth;
or feasibility restoration decreased the violation by a tenth;
or a callback asked to stop during feasibility restoration. -/
def IpmProgress (env : Env) (P : Nlp n m k) (cbs : List Callback) (v : ℝ) (a b : Snapshot) : Prop :=
  ∃ x s y z x' s' y' z', a.Shows (n := n) (m := m) (k := k) x s y z ∧ b.Shows (n := n) (m := m) (k := k) x' s' y' z' ∧
    ((∃ α, 1e-7 ≤ α ∧ α ≤ 1 ∧ FilterProgress v α (barrierEntry P x s a.μ) (barrierEntry P x' s' a.μ)) ∨
      (∃ z0 : Vec k, (∀ i, z' i = clampDualF a.μ (s' i) (z0 i)) ∧
        errOneIpm env (P.eval x' y' z0) s' y' z0 a.μ ≤ .fin 0.999 * errOneIpm env (P.eval x y z) s y z a.μ) ∨
      ((barrierEntry P x' s' a.μ).violation < .fin 0.9 * (barrierEntry P x s a.μ).violation ∧
        ¬ (barrierEntry P x' s' a.μ).violation > .fin (1e4 * Max.max 1 v)) ∨
      ∃ cb ∈ cbs, ∃ calls info, cb calls info = true ∧ info.x.take n = List.ofFn x' ∧ info.s.take k = List.ofFn s')

theorem lower_of_armijo {a b D : Fl} {c α : ℝ} (hb : b = .fin c) (hα : 0 < α) (hD : D < 0)
    (h : b ≤ a + Fl.fin 1e-8 * .fin α * D) : b < a := by
  subst hb
  have h8 : (0 : ℝ) < 1e-8 * α := mul_pos (by norm_num) hα
  cases D with
  | fin d =>
    rw [Fl.zero_def, Fl.fin_lt] at hD
    have := mul_neg_of_pos_of_neg h8 hD
    cases a with
    | fin x =>
      simp only [Fl.fin_mul, Fl.fin_add, Fl.fin_le] at h
      rw [Fl.fin_lt]; linarith
    | pinf => trivial
    | ninf => exact h.elim
    | nan => exact h.elim
  | pinf => exact hD.elim
  | ninf =>
    exfalso
    have : (Fl.fin 1e-8 * Fl.fin α * Fl.ninf) = Fl.ninf := by
      show Fl.infMul false (1e-8 * α) = _
      unfold Fl.infMul
      rw [if_neg h8.ne', if_neg]
      simp [h8]
    rw [this] at h
    cases a <;> exact h.elim
  | nan => exact hD.elim

theorem beyond_limit {t : Fl} {b B : ℝ} (h : ¬ t > .fin b) (hb : b ≤ B) : ¬ t > .fin B := fun hc =>
  h (by
    cases t with
    | fin x => exact lt_of_le_of_lt hb hc
    | pinf => trivial
    | ninf => exact hc.elim
    | nan => exact hc.elim)

theorem Filter.Limits.accepts {v : ℝ} {F F' : Filter} (hF : F.Limits v) {a b : FilterEntry} {D : Fl} {α : ℝ} (hα : 0 < α)
    (h : F.tryAdd a b D (.fin α) = (F', true)) : FilterProgress v α a b := by
  obtain ⟨⟨c, h1⟩, h2, -, h3⟩ := accepted_sound h
  obtain ⟨hmin, B, hB, -, hBv⟩ := hF
  refine ⟨⟨c, h1⟩, beyond_limit (hB ▸ h2) hBv, ?_⟩
  rw [Fl.pow_fin hα.le] at h3
  split at h3
  · rename_i hc
    exact .inl ⟨hmin ▸ hc.1, lower_of_armijo h1 hα hc.2.1 h3⟩
  · exact .inr h3

theorem FilterAccepts.progress {v : ℝ} {F : Filter} (hF : F.Limits v) {c : ℕ} {a b : FilterEntry} {D : Fl} {α : ℝ}
    (hα : 0 < α) (h : FilterAccepts F c a b D (.fin α)) : FilterProgress v α a b := by
  rcases h with h | ⟨-, h⟩
  · exact hF.accepts hα (F' := (F.tryAdd a b D (.fin α)).1) (Prod.ext rfl h)
  · exact ((Filter.limits_kept v).shrink F hF).accepts hα (F' := (F.shrink.tryAdd a b D (.fin α)).1) (Prod.ext rfl h)

/-- The relation between the states. -/
def MadeProgress (env : Env) (P : Nlp n m k) (cbs : List Callback) (v : ℝ) (st st' : IpmState n m k) : Prop :=
  (∃ α, 1e-7 ≤ α ∧ α ≤ 1 ∧ FilterProgress v α (barrierEntry P st.x st.s st.μ) (barrierEntry P st'.x st'.s st.μ)) ∨
  (∃ z0 : Vec k, (∀ i, st'.z i = clampDualF st.μ (st'.s i) (z0 i)) ∧
    errOneIpm env (P.eval st'.x st'.y z0) st'.s st'.y z0 st.μ ≤
      .fin 0.999 * errOneIpm env (P.eval st.x st.y st.z) st.s st.y st.z st.μ) ∨
  ((barrierEntry P st'.x st'.s st.μ).violation < .fin 0.9 * (barrierEntry P st.x st.s st.μ).violation ∧
    ¬ (barrierEntry P st'.x st'.s st.μ).violation > .fin (1e4 * Max.max 1 v)) ∨
  ∃ cb ∈ cbs, ∃ calls info, cb calls info = true ∧ info.x.take n = List.ofFn st'.x ∧ info.s.take k = List.ofFn st'.s

theorem entry_barrier {P : Nlp n m k} {st : IpmState n m k} (h : st.e = P.eval st.x st.y st.z) :
    st.entry = barrierEntry P st.x st.s st.μ := by
  rw [← ipmEntry_eq]
  unfold IpmState.entry
  rw [h]; rfl

theorem ipmMove_progress {env : Env} {opts : SolverOptions} {P : Nlp n m k} {cbs : List Callback} {v : ℝ}
    {st : IpmState n m k} (hG : Good False P st) (hx : st.x.Finite) (hs : st.s.Finite) (hF : st.filter.Limits v) {w : World}
    {E : Filter} {st2 : IpmState n m k} {w2 : World} {E2 : Filter}
    (h : ipmMove env opts P (restoreIpm env opts P cbs) st w E = some (.go st2 w2 E2)) :
    MadeProgress env P cbs v st st2 ∧ st2.filter.Limits v := by
  rcases ipmMove_go (Filter.limits_kept v) hG.barrier.τ (hG.pos hx hs).1 hF h with
    ⟨F, c, α, w', hq, h⟩ | ⟨F, c, α, a, R, t, used, hq, ha, ha1, hacc, rfl⟩
  · obtain ⟨-, -, -, -, h1⟩ := restoration_returns (st := { st with filter := F, rejected := c })
      (congrArg Eval.ce hG.eval) (congrArg Eval.ci hG.eval) h
    rcases h1 with ⟨c, -, -, ⟨cb, hcb, calls, hc⟩, h2, h3, h4⟩ | ⟨h2, G, h3, h4⟩
    · refine ⟨.inr (.inr (.inr ⟨cb, hcb, calls, _, hc, h2, h3⟩)), ?_⟩
      unfold Filter.Limits
      rw [h4.min, h4.max]; exact hq
    · have hG' : G.Limits v := by unfold Filter.Limits; rw [h3.min, h3.max]; exact hq
      have hG2 := hG'
      obtain ⟨-, B, hB, -, hBv⟩ := hG2
      refine ⟨.inr (.inr (.inl ⟨h2, beyond_limit (hB ▸ (accepted_sound h4).2.1) hBv⟩)), ?_⟩
      exact (congrArg (Filter.Limits v) (congrArg Prod.fst h4)).mp ((Filter.limits_kept v).tryAdd G _ _ _ _ hG')
  · refine ⟨?_, hq⟩
    obtain ⟨e1, e2, e3⟩ := hacc.eval
    have he : t.entry st.μ = barrierEntry P t.x t.s st.μ := by
      unfold Trial.entry
      rw [e1, e2, e3, ipmEntry_eq]
    cases R with
    | filter =>
      obtain ⟨u, rfl, hu0, hu1, hu2, -, -, hacc⟩ := hacc
      have hu : 1e-7 ≤ u := by rcases hu2 with rfl | hu2 <;> assumption
      rw [entry_barrier hG.eval, he] at hacc
      exact .inl ⟨u, hu, hu1.trans ha1, hacc.progress hF (by linarith)⟩
    | correction =>
      obtain ⟨l, ce, cis, w, -, -, hacc, -⟩ := hacc
      rw [entry_barrier hG.eval, he] at hacc
      exact .inl ⟨a, ha, ha1, hacc.progress hF (by linarith)⟩
    | kktError =>
      obtain ⟨-, -, hacc⟩ := hacc
      refine .inr (.inl ⟨t.z, fun i => rfl, ?_⟩)
      rw [hG.eval] at hacc
      have : t.eval P = P.eval t.x t.y t.z := by unfold Trial.eval; rw [e1, e2, e3]; rfl
      rw [this] at hacc
      exact hacc

theorem norm1_finite {v : Vec m} (h : v.Finite) : (norm1 (List.ofFn v)).isFinite = true := by
  have key (l : List Fl) (h : ∀ x ∈ l, x.isFinite = true) : (norm1 l).isFinite = true := by
    unfold norm1
    induction l with
    | nil => rfl
    | cons a l ih =>
      rw [List.map_cons, List.foldr_cons]
      refine Fl.finite_add.2 ⟨?_, ih fun x hx => h x (List.mem_cons_of_mem _ hx)⟩
      rw [Fl.finite_toReal (h a List.mem_cons_self), Fl.abs_fin]; rfl
  refine key _ fun x hx => ?_
  obtain ⟨i, rfl⟩ := (List.mem_ofFn' _ _).1 hx; exact h i

theorem violationF_finite {ce : Vec m} {ci s : Vec k} (h1 : ce.Finite) (h2 : ci.Finite) (h3 : s.Finite) :
    ∃ v, violationF ce ci s = .fin v :=
  Fl.isFinite_iff.1 (Fl.finite_add.2 ⟨norm1_finite h1, norm1_finite fun i => Fl.finite_sub.2 ⟨h2 i, h3 i⟩⟩)

/-- C51: consecutive iterates that the interior-point solver shows to the callbacks differ by progress. The limits depend
only on the violation of the constraints at the initial guess, where all slacks are one. -/
theorem ipm_progress {env : Env} {opts : SolverOptions} {P : Nlp n m k} {cbs : List Callback} {x : Vec n}
    (htol : 0 < opts.tolerance) (hS : 0 < P.scaling.f) {res : IpmResult n m k}
    (hres : interiorPoint env opts P cbs x .start = some res) :
    res.world.outer = [] ∨ ∃ v, norm1 (List.ofFn (P.ce x)) + norm1 (List.ofFn fun i => P.ci x i - 1) = .fin v ∧
      res.world.outer.IsChain (IpmProgress env P cbs v) := by
  unfold interiorPoint ipmRun at hres
  simp only at hres
  split at hres
  · obtain rfl := Option.some.inj hres; exact .inl rfl
  split at hres
  · obtain rfl := Option.some.inj hres; exact .inl rfl
  rename_i hfin
  rw [not_not] at hfin
  obtain ⟨v, hv⟩ := violationF_finite (s := fun _ : Fin k => (1 : Fl)) hfin.2.2.2.1 hfin.2.2.2.2.2.1 (fun _ => rfl)
  obtain ⟨l, h1, h2⟩ := ipmLoop_linked htol hS (restoreIpm_ok htol (by simp) (by simp)) (restoreIpm_history htol)
    (Filter.limits_kept v) (T := MadeProgress env P cbs v)
    (fun st w E st2 w2 E2 hG hx hs hF h => ipmMove_progress hG hx hs hF h) _ _ _ _
    ⟨⟨⟨0.1 * P.scaling.f, rfl, by positivity⟩, 0.99, rfl, le_rfl, by norm_num⟩, rfl,
      fun _ _ => ⟨fun _ => ⟨1, rfl, one_pos⟩, by simp⟩⟩
    (by
      have := Filter.make_limits v
      rw [← hv] at this; exact this)
    ⟨by simp [World.start], by simp [World.start]⟩ rfl _ hres
  have e : res.world.outer = ownSnapshots false l := by
    unfold World.outer ownSnapshots
    rw [h1]; simp [World.start]
  refine .inr ⟨v, hv, ?_⟩
  rw [e]
  refine h2.chain.imp ?_
  rintro a b ⟨st, st', -, ha, hμ, hb, hT⟩
  refine ⟨st.x, st.s, st.y, st.z, st'.x, st'.s, st'.y, st'.z, ⟨?_, ?_, ?_, ?_⟩, ⟨?_, ?_, ?_, ?_⟩, ?_⟩
  · rw [ha]; rfl
  · rw [ha]; rfl
  · rw [ha]; rfl
  · rw [ha]; rfl
  · rw [hb]; rfl
  · rw [hb]; rfl
  · rw [hb]; rfl
  · rw [hb]; rfl
  · rw [hμ]; exact hT

/-- Runs that meet the hypotheses, from any guess and with any answers of the linear solver. -/
example (env : Env) (cbs : List Callback) (x : Vec 2) :
    ∃ res, interiorPoint env ⟨1e-8, 5000, .pinf, false⟩ hyperbolaNlp cbs x .start = some res ∧
      (res.world.outer = [] ∨ ∃ v, norm1 (List.ofFn (hyperbolaNlp.ce x)) +
          norm1 (List.ofFn fun i => hyperbolaNlp.ci x i - 1) = .fin v ∧
        res.world.outer.IsChain (IpmProgress env hyperbolaNlp cbs v)) := by
  have hS : 0 < hyperbolaNlp.scaling.f := one_pos
  have ht : (0 : ℝ) < (⟨1e-8, 5000, .pinf, false⟩ : SolverOptions).tolerance := by norm_num
  obtain ⟨res, h1, -⟩ := ipm_ends env ⟨1e-8, 5000, .pinf, false⟩ hyperbolaNlp cbs x ht hS
  exact ⟨res, h1, ipm_progress ht hS h1⟩

end Slp
