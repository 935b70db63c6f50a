import Verif.Solver.LinearCase
import Verif.Solver.HistoryLemmas

/-!
C84: linear inequality constraints that are satisfied stay satisfied. That this is not so for other inequality constraints,
although `feasible_ipm` promises it, is shown in `FeasibleWitness`.
-/

namespace Slp

open Classical Matrix

variable {n m k : ℕ}

/-- The inequality constraints of `P` are `Bv ≥ d`, with their derivatives. -/
structure Nlp.LinearIneqs (P : Nlp n m k) (B : Matrix (Fin k) (Fin n) ℝ) (d : Fin k → ℝ) : Prop where
  ci : ∀ x, x.Finite → ∀ i, P.ci x i = .fin ((B *ᵥ x.real) i - d i)
  Ai : ∀ x, x.Finite → ∀ i j, P.Ai x i j = .fin (B i j)

/-- The snapshot is of a point at which the constraints `Bv ≥ d` hold with at least the slacks, which are positive. -/
def Snapshot.Satisfies (a : Snapshot) (B : Matrix (Fin k) (Fin n) ℝ) (d : Fin k → ℝ) : Prop :=
  ∃ v s, a.At v s ∧ ∀ i, 0 < s i ∧ s i ≤ (B *ᵥ v) i - d i

/-! ### Restorations show iterates -/

theorem restoration_shows {env : Env} {opts : SolverOptions} {P : Nlp n m k} (htol : 0 < opts.tolerance) {cbs : List Callback}
    {st : IpmState n m k} (h : st.Sound P) {α : Fl} {w : World} {E : Filter} {st' : IpmState n m k} {w' : World} {E' : Filter}
    (hgo : restoreIpm env opts P cbs st α w E = some (.go st' w' E')) :
    ∃ l, l ≠ [] ∧ w'.trace = w.trace ++ l ∧ ∀ s ∈ l, s.inner = true := by
  unfold restoreIpm at hgo
  obtain ⟨res, hres, hmv⟩ := Option.map_eq_some_iff.1 hgo
  obtain ⟨μ, hμ, hμ0⟩ := h.barrier.μ
  rw [hμ] at hres
  obtain ⟨bs, es, lo, hi, h1, h2⟩ := frRun_history htol h.s.finite hμ0 hres
  by_cases hst : res.status = .callbackRequestedStop
  · simp only [if_pos hst] at hmv
    obtain ⟨-, rfl, -⟩ := Moved.go.inj hmv
    obtain ⟨b, hb, -⟩ := h2.stop hst
    refine ⟨bs.map Prod.fst, ?_, h1.trace, fun s hs => ?_⟩
    · intro hn
      rw [List.map_eq_nil_iff] at hn
      rw [hn] at hb
      cases hb
    · obtain ⟨b, hb, rfl⟩ := List.mem_map.1 hs
      exact (h2.flags rfl).1 b hb
  · simp only [if_neg hst] at hmv
    cases hmv

/-- Two iterates in a row, with no restoration between them, are linked by a Newton step. -/
def Adjacent (opts : SolverOptions) (P : Nlp n m k) (a b : Snapshot) : Prop :=
  a.inner = false → b.inner = false → NextShown (fun _ _ => True) opts P (fun _ _ => False) a b

/-- How a run ended: with a failed restoration, or at an iterate `b` that was shown last or follows the one shown last. -/
def IpmResult.After (opts : SolverOptions) (P : Nlp n m k) (first : Snapshot) (res : IpmResult n m k) : Prop :=
  res.status = .locallyInfeasible ∨ res.status = .feasibilityRestorationFailed ∨
    ∃ b : Snapshot, b.inner = false ∧ b.info.x = List.ofFn res.x ∧ b.info.s = List.ofFn res.s ∧
      ∃ l, (res.world.trace = l ++ [b] ∨ res.world.trace = l) ∧ (l ++ [b]).IsChain (Adjacent opts P) ∧
        (l ++ [b]).head? = some first

theorem solve_adjacent {env : Env} (hE : env.ExactSolve) (hE' : env.ExactEstimate) {opts : SolverOptions} {P : Nlp n m k}
    (hP : P.Total) (htol : 0 < opts.tolerance) (hS : 0 < P.scaling.f) {cbs : List Callback} {x : Vec n} (hx : x.Finite)
    {res : IpmResult n m k} (hres : interiorPoint env opts P cbs x .start = some res) :
    res.Finite ∧ res.world.trace.IsChain (Adjacent opts P) ∧
    (∀ a ∈ res.world.trace.head?, a.inner = false ∧ a.info.x = List.ofFn x ∧ a.info.s = List.replicate k 1) ∧
    ∃ first : Snapshot, first.inner = false ∧ first.info.x = List.ofFn x ∧ first.info.s = List.replicate k 1 ∧
      res.After opts P first := by
  set st0 := ipmInit env P x (fun _ => 1) (fun _ => 0) (fun _ => 1) (.fin (0.1 * P.scaling.f)) 0 with hst0
  have h0 : st0.Sound P := ⟨⟨⟨_, rfl, by positivity⟩, 0.99, rfl, by norm_num, by norm_num⟩, hx, fun _ => ⟨1, rfl, one_pos⟩,
    fun _ => rfl, fun _ => ⟨1, rfl, one_pos⟩, rfl⟩
  set first : Snapshot := ⟨false, st0.info, st0.μ, st0.τ⟩ with hf
  have hfirst : first.inner = false ∧ first.info.x = List.ofFn x ∧ first.info.s = List.replicate k 1 :=
    ⟨rfl, rfl, List.ofFn_const ..⟩
  suffices key : res.Finite ∧ res.world.trace.IsChain (Adjacent opts P) ∧ (∀ a ∈ res.world.trace.head?, a = first) ∧
      res.After opts P first by
    obtain ⟨k1, k2, k3, k4⟩ := key
    exact ⟨k1, k2, fun a ha => by rw [k3 a ha]; exact hfirst, first, hfirst.1, hfirst.2.1, hfirst.2.2, k4⟩
  have hstart : ∀ status (w : World) E, w.trace = [] → (st0.exit status w E).Finite ∧
      (st0.exit status w E).world.trace.IsChain (Adjacent opts P) ∧
      (∀ a ∈ (st0.exit status w E).world.trace.head?, a = first) ∧ (st0.exit status w E).After opts P first := by
    intro status w E hw
    have e : (st0.exit status w E).world.trace = [] := hw
    refine ⟨h0.exit _ _ _, by rw [e]; exact .nil, by rw [e]; simp, .inr (.inr ⟨first, rfl, rfl, rfl, [], .inr e, ?_, rfl⟩)⟩
    exact List.isChain_singleton _
  unfold interiorPoint ipmRun at hres
  simp only at hres
  split at hres
  · obtain rfl := Option.some.inj hres; exact hstart _ _ _ rfl
  split at hres
  · obtain rfl := Option.some.inj hres; exact hstart _ _ _ rfl
  have headleft : ∀ (l : List Snapshot) (b : Snapshot), (l ++ [b]).head? = some first → ∀ a ∈ l.head?, a = first := by
    intro l b h a ha
    rw [List.head?_append, Option.mem_def.1 ha] at h
    exact Option.some.inj h
  refine ipmLoop_rule
    (fun (st : IpmState n m k) (w : World) _ => st.Sound P ∧ (w.trace ++ [(⟨false, st.info, st.μ, st.τ⟩ : Snapshot)]).IsChain (Adjacent opts P) ∧
      (w.trace ++ [(⟨false, st.info, st.μ, st.τ⟩ : Snapshot)]).head? = some first)
    (fun res => res.Finite ∧ res.world.trace.IsChain (Adjacent opts P) ∧ (∀ a ∈ res.world.trace.head?, a = first) ∧
      res.After opts P first)
    ?_ ?_ ?_ ?_ ?_ ?_ _ _ _ _ ⟨h0, List.isChain_singleton _, rfl⟩ res hres
  · rintro st w E ⟨h, h1, h2⟩ -
    exact ⟨h.exit _ _ _, h1.left_of_append, headleft _ _ h2, .inr (.inr ⟨_, rfl, rfl, rfl, _, .inr rfl, h1, h2⟩)⟩
  · rintro st w E ⟨h, h1, h2⟩ - -
    exact ⟨h.exit _ _ _, h1.left_of_append, headleft _ _ h2, .inr (.inr ⟨_, rfl, rfl, rfl, _, .inr rfl, h1, h2⟩)⟩
  · rintro st w E ⟨h, h1, h2⟩ - -
    exact ⟨h.exit _ _ _, h1.left_of_append, headleft _ _ h2, .inr (.inr ⟨_, rfl, rfl, rfl, _, .inr rfl, h1, h2⟩)⟩
  · rintro st w E ⟨h, h1, h2⟩ - -
    exact ⟨h.exit _ _ _, h1, fun a ha => Option.some.inj (ha.symm.trans h2),
      .inr (.inr ⟨_, rfl, rfl, rfl, _, .inl rfl, h1, h2⟩)⟩
  · rintro st w E res ⟨h, h1, h2⟩ - - hmv
    rcases iteration_newton opts hP (restoreIpm env opts P cbs) (hE.answers (h.regular hP)) h.barrier (h.regular hP) h.x h.z _ _
      with h3 | ⟨F, c, α, i, h3⟩ | ⟨st', w', ce, cis, u, v, p, h3, -⟩
    · rw [h3.2] at hmv
      obtain rfl := Moved.stop.inj (Option.some.inj hmv)
      exact ⟨h.exit _ _ _, h1, fun a ha => Option.some.inj (ha.symm.trans h2),
        .inr (.inr ⟨_, rfl, rfl, rfl, _, .inl rfl, h1, h2⟩)⟩
    · rw [h3] at hmv
      obtain ⟨⟨h4, h4'⟩, l', h5, h6⟩ := (restoreIpm_sound hE hE' hP htol _ _ _ _ _ (h.withFilter F c) hmv).1 _ rfl
      have h5' : res.world.trace = w.trace ++ [(⟨false, st.info, st.μ, st.τ⟩ : Snapshot)] ++ l' := h5
      refine ⟨h4, ?_, ?_, h4'.imp id .inl⟩
      · rw [h5']
        refine List.isChain_append.2 ⟨h1, ?_, ?_⟩
        · exact (List.pairwise_of_forall_mem_list fun a ha b hb k => by rw [(h6 a ha).2] at k; cases k).isChain
        · intro a _ b hb _ k
          rw [(h6 b (List.mem_of_mem_head? hb)).2] at k
          cases k
      · intro a ha
        rw [h5', List.head?_append, h2] at ha
        exact (Option.some.inj ha).symm
    · rw [h3] at hmv
      cases hmv
  · rintro st w E st2 w2 E2 st3 ⟨h, h1, h2⟩ - - hmv hfin
    have key : st2.Sound P ∧ ∃ l', w2.trace = w.trace ++ [(⟨false, st.info, st.μ, st.τ⟩ : Snapshot)] ++ l' ∧
        (∀ s ∈ l', s.inner = true) ∧ (l' = [] → NewtonMove (fun _ _ => True) opts P st st2) := by
      rcases iteration_newton opts hP (restoreIpm env opts P cbs) (hE.answers (h.regular hP)) h.barrier (h.regular hP) h.x h.z
        _ _ with h3 | ⟨F, c, α, i, h3⟩ | ⟨st', w', ce, cis, u, v, p, h3, hM, h4, h5, h6, h7, h8, h9, h10, h11, h12⟩
      · rw [h3.2] at hmv
        cases hmv
      · rw [h3] at hmv
        obtain ⟨h4, -⟩ := (restoreIpm_sound hE hE' hP htol _ _ _ _ _ (h.withFilter F c) hmv).2 _ _ _ rfl
        obtain ⟨l', h5, h6, h7⟩ := restoration_shows htol (h.withFilter F c) hmv
        exact ⟨h4, l', h6, h7, fun hn => absurd hn h5⟩
      · rw [h3] at hmv
        obtain ⟨rfl, rfl, rfl⟩ := Moved.go.inj (Option.some.inj hmv)
        refine ⟨⟨?_, h5, h4.s, fun j => by rw [hM.y]; rfl, h6, h7⟩, [], ?_, by simp, fun _ => ⟨ce, cis, u, v, p, hM⟩⟩
        · obtain ⟨b1, b2⟩ := h.barrier
          exact ⟨h8 ▸ b1, h9 ▸ b2⟩
        · rw [h11, List.append_nil]; rfl
    obtain ⟨k1, l', k3, k4, k5⟩ := key
    obtain ⟨f1, f2⟩ := k1.finish htol hS hfin
    have hin : l'.IsChain (Adjacent opts P) :=
      (List.pairwise_of_forall_mem_list fun a ha b hb k => by rw [k4 a ha] at k; cases k).isChain
    have hc1 : w2.trace.IsChain (Adjacent opts P) := by
      rw [k3]
      refine List.isChain_append.2 ⟨h1, hin, ?_⟩
      intro a _ b hb _ k
      rw [k4 b (List.mem_of_mem_head? hb)] at k
      cases k
    have hc2 : (w2.trace ++ [(⟨false, st3.info, st3.μ, st3.τ⟩ : Snapshot)]).IsChain (Adjacent opts P) := by
      refine List.isChain_append.2 ⟨hc1, List.isChain_singleton _, ?_⟩
      intro a ha b hb
      obtain rfl := Option.some.inj hb
      intro hai _
      rw [k3] at ha
      cases hl : l' with
      | nil =>
        rw [hl, List.append_nil, List.getLast?_append] at ha
        obtain rfl := Option.some.inj ha
        exact ⟨st, st2, h, k1, rfl, rfl, rfl, f2, .inl (k5 hl)⟩
      | cons c l'' =>
        rw [List.getLast?_append] at ha
        have : a ∈ l' := by
          obtain ⟨d, hd⟩ : ∃ d, l'.getLast? = some d := by
            rw [hl]; exact ⟨_, List.getLast?_eq_some_getLast (by simp)⟩
          rw [hd] at ha
          obtain rfl := Option.some.inj ha
          exact List.mem_of_getLast? hd
        rw [k4 a this] at hai
        cases hai
    have hh : w2.trace.head? = some first := by
      rw [k3, List.head?_append, h2]; rfl
    have hh' : ∀ a ∈ w2.trace.head?, a = first := fun a ha => Option.some.inj (ha.symm.trans hh)
    have hh2 : (w2.trace ++ [(⟨false, st3.info, st3.μ, st3.τ⟩ : Snapshot)]).head? = some first := by
      rw [List.head?_append, hh]; rfl
    have he : ∀ status w, w.trace = w2.trace → (st3.exit status w E2).After opts P first := fun _ w hw =>
      .inr (.inr ⟨_, rfl, rfl, rfl, _, .inr hw, hc2, hh2⟩)
    exact ⟨fun _ => ⟨f1.exit _ _ _, hc1, hh', he _ _ rfl⟩, fun _ => ⟨fun _ => ⟨f1.exit _ _ _, hc1, hh', he _ _ rfl⟩,
      fun _ => ⟨f1, hc2, hh2⟩⟩⟩

/-! ### Linear inequality constraints -/

section
variable {P : Nlp n m k} {B : Matrix (Fin k) (Fin n) ℝ} {d : Fin k → ℝ}

theorem newton_ineqs (hq : P.LinearIneqs B d) {st : IpmState n m k} (h : st.Sound P) {ce : Vec m} {cis : Vec k}
    {p : IpmStep n m k} {Γ : ℝ → ℝ → Prop} (hN : st.NewtonStep ce cis p Γ) : p.real.ps = cis.real + B *ᵥ p.real.px := by
  obtain ⟨-, δ, γ, -, -, -, hS⟩ := hN
  have eB : st.e.Ai.real = B := by
    funext i j
    show (st.e.Ai i j).toReal = _
    rw [h.e, show (P.eval st.x st.y st.z).Ai = P.Ai st.x from rfl, hq.Ai _ h.x]; rfl
  rw [eB] at hS
  funext i
  have := hS.inequality i
  have e : (B *ᵥ p.real.px) i = ∑ l, B i l * p.real.px l := rfl
  rw [Pi.add_apply, e]
  linarith

theorem LinearIneqs.ci_real (hq : P.LinearIneqs B d) {x : Vec n} (hx : x.Finite) : (P.ci x).real = B *ᵥ x.real - d := by
  funext i; show (P.ci x i).toReal = _; rw [hq.ci x hx]; rfl

theorem ineqs_after (B : Matrix (Fin k) (Fin n) ℝ) (d : Fin k → ℝ) {v p : Fin n → ℝ} {s r : Fin k → ℝ} {u κ : ℝ}
    (hr : r = κ • (B *ᵥ v - d - s) + B *ᵥ p) :
    B *ᵥ (v + u • p) - d - (s + u • r) = (1 - u * κ) • (B *ᵥ v - d - s) := by
  rw [hr, mulVec_add, mulVec_smul]
  funext i
  simp only [Pi.sub_apply, Pi.add_apply, Pi.smul_apply, smul_eq_mul]
  ring

theorem values_ineqs (hq : P.LinearIneqs B d) {opts : SolverOptions} {st : IpmState n m k} (h : st.Sound P) {Γ : ℝ → ℝ → Prop}
    {ce : Vec m} {cis : Vec k} (hV : StepValues opts P st Γ ce cis) :
    ∃ κ : ℝ, 0 < κ ∧ κ ≤ 1 ∧ cis.real = κ • (B *ᵥ st.x.real - d - st.s.real) := by
  induction hV with
  | plain =>
    refine ⟨1, one_pos, le_rfl, ?_⟩
    rw [one_smul, ← LinearIneqs.ci_real hq h.x, h.e]
    funext j
    have h1 : (P.eval st.x st.y st.z).ci j = .fin _ := hq.ci _ h.x j
    obtain ⟨a, ha, -⟩ := h.s j
    show Fl.toReal ((P.eval st.x st.y st.z).ci j - st.s j) = (P.ci st.x j).toReal - (st.s j).toReal
    rw [h1, ha, hq.ci _ h.x j, Fl.fin_sub]; rfl
  | @corrected ce cis p a x s hV newton size hx hs ce' cis' hce hcis ih =>
    obtain ⟨κ, hκ0, hκ1, i2⟩ := ih
    have m2 := newton_ineqs hq h newton
    rw [i2] at m2
    obtain ⟨fx, rx⟩ := real_of_fin hx
    have rx' : x.real = st.x.real + a • p.real.px := rx
    obtain ⟨-, rcis⟩ := real_of_fin hcis
    rcases hs with hs | ⟨-, -, hs⟩
    · refine ⟨1, one_pos, le_rfl, ?_⟩
      obtain ⟨-, rs⟩ := real_of_fin hs
      have e2 : (P.ci x).real - s.real = (1 - a * κ) • (B *ᵥ st.x.real - d - st.s.real) := by
        rw [LinearIneqs.ci_real hq fx, rx', show s.real = st.s.real + a • p.real.ps from rs]
        exact ineqs_after B d m2
      rw [rcis, i2, one_smul]
      funext j
      have e3 := congrFun e2 j
      simp only [Pi.smul_apply, smul_eq_mul, Pi.sub_apply] at e3 ⊢
      rw [add_sub_assoc, e3]
      ring
    · refine ⟨a * κ, mul_pos size.1 hκ0, ?_, ?_⟩
      · have := mul_le_mul size.2 hκ1 hκ0.le zero_le_one
        linarith
      rw [rcis, i2, hs]
      funext j
      simp only [Pi.smul_apply, smul_eq_mul]
      ring

theorem moved_ineqs (hq : P.LinearIneqs B d) {opts : SolverOptions} {st st' : IpmState n m k} (h : st.Sound P) {Γ : ℝ → ℝ → Prop}
    (hM : NewtonMove Γ opts P st st') : ∃ φ : ℝ, 0 ≤ φ ∧ φ < 1 ∧
      B *ᵥ st'.x.real - d - st'.s.real = φ • (B *ᵥ st.x.real - d - st.s.real) := by
  obtain ⟨ce, cis, u, v, p, hM⟩ := hM
  obtain ⟨κ, hκ0, hκ1, v2⟩ := values_ineqs hq h hM.values
  have m2 := newton_ineqs hq h hM.newton
  rw [v2] at m2
  obtain ⟨fx, rx⟩ := real_of_fin hM.x
  have rx' : st'.x.real = st.x.real + u • p.real.px := rx
  have hu := hM.primal
  have huκ : u * κ ≤ 1 := by
    have := mul_le_mul hu.2 hκ1 hκ0.le zero_le_one
    linarith
  have huκ0 := mul_pos hu.1 hκ0
  rcases hM.s with hs | ⟨-, -, hs⟩
  · obtain ⟨-, rs⟩ := real_of_fin hs
    refine ⟨1 - u * κ, by linarith, by linarith, ?_⟩
    rw [rx', show st'.s.real = st.s.real + u • p.real.ps from rs]
    exact ineqs_after B d m2
  · refine ⟨0, le_rfl, one_pos, ?_⟩
    rw [← LinearIneqs.ci_real hq fx, hs, sub_self, zero_smul]

/-- A Newton step keeps satisfied constraints satisfied. -/
theorem adjacent_satisfies (hq : P.LinearIneqs B d) {opts : SolverOptions} {a b : Snapshot} (hab : Adjacent opts P a b)
    (ha : a.inner = false) (hb : b.inner = false) (h : a.Satisfies B d) : b.Satisfies B d := by
  obtain ⟨st, st', h1, h2, ea, -, -, eb, hM | hM⟩ := hab ha hb
  · have aAt : a.At st.x.real st.s.real := ⟨by rw [ea, ← Vec.fin_real h1.x]; rfl, by rw [ea, ← Vec.fin_real h1.s.finite]; rfl⟩
    have bAt : b.At st'.x.real st'.s.real := ⟨by rw [eb, ← Vec.fin_real h2.x]; rfl, by rw [eb, ← Vec.fin_real h2.s.finite]; rfl⟩
    obtain ⟨v, s, hvs, hsat⟩ := h
    obtain ⟨rfl, rfl⟩ := hvs.unique aAt
    obtain ⟨φ, h3, -, h4⟩ := moved_ineqs hq h1 hM
    refine ⟨_, _, bAt, fun i => ⟨h2.s.real_pos i, ?_⟩⟩
    have e := congrFun h4 i
    simp only [Pi.smul_apply, smul_eq_mul, Pi.sub_apply] at e
    have := mul_nonneg h3 (sub_nonneg.2 (hsat i).2)
    linarith
  · exact hM.elim

theorem chain_satisfies (hq : P.LinearIneqs B d) {opts : SolverOptions} {a : Snapshot} {l : List Snapshot}
    (hc : (a :: l).IsChain (Adjacent opts P)) (hl : ∀ b ∈ a :: l, b.inner = false) (h : a.Satisfies B d) :
    ∀ b ∈ a :: l, b.Satisfies B d := by
  induction l generalizing a with
  | nil => intro b hb; obtain rfl := List.mem_singleton.1 hb; exact h
  | cons c l ih =>
    obtain ⟨h1, h2⟩ := List.isChain_cons_cons.1 hc
    have hcs := adjacent_satisfies hq h1 (hl a (by simp)) (hl c (by simp)) h
    intro b hb
    rcases List.mem_cons.1 hb with rfl | hb
    · exact h
    · exact ih h2 (fun b hb => hl b (List.mem_cons_of_mem _ hb)) hcs b hb

/-- C84: if all linear inequality constraints hold at an iterate with at least the slacks, they hold so at all later ones
until feasibility is restored. -/
theorem linear_ineqs_stay_partial {env : Env} (hE : env.ExactSolve) (hE' : env.ExactEstimate) {opts : SolverOptions}
    (hP : P.Total) (hq : P.LinearIneqs B d) (htol : 0 < opts.tolerance) (hS : 0 < P.scaling.f) {cbs : List Callback}
    {x : Vec n} (hx : x.Finite) {res : IpmResult n m k} (hres : interiorPoint env opts P cbs x .start = some res)
    {l l' : List Snapshot} {a : Snapshot} (ht : res.world.trace = l ++ a :: l') (hl : ∀ b ∈ a :: l', b.inner = false)
    (ha : a.Satisfies B d) :
    (∀ b ∈ a :: l', b.Satisfies B d) ∧
    (res.status = .locallyInfeasible ∨ res.status = .feasibilityRestorationFailed ∨
      ∀ i, 0 < res.s.real i ∧ res.s.real i ≤ (B *ᵥ res.x.real) i - d i) := by
  obtain ⟨h1, h2, -, first, -, -, -, h3⟩ := solve_adjacent hE hE' hP htol hS hx hres
  have hc : (a :: l').IsChain (Adjacent opts P) := by rw [ht] at h2; exact h2.right_of_append
  have hall := chain_satisfies hq hc hl ha
  refine ⟨hall, h3.imp id (Or.imp id ?_)⟩
  rintro ⟨b, hb, hbx, hbs, L, hL, hLc, -⟩
  have hbAt : b.At res.x.real res.s.real := ⟨by rw [hbx, ← Vec.fin_real h1.x], by rw [hbs, ← Vec.fin_real h1.s.finite]⟩
  have hsat : b.Satisfies B d := by
    rcases hL with hL | hL
    · refine hall b ?_
      have : (l ++ a :: l').getLast? = some b := by rw [← ht, hL]; simp
      rw [List.getLast?_append_of_ne_nil _ (by simp)] at this
      exact List.mem_of_getLast? this
    · rw [← hL, ht] at hLc
      have hc' : (a :: (l' ++ [b])).IsChain (Adjacent opts P) := by
        rw [List.append_assoc] at hLc
        exact hLc.right_of_append
      refine chain_satisfies hq hc' ?_ ha b (by simp)
      intro c hc
      rcases List.mem_append.1 (show c ∈ (a :: l') ++ [b] from hc) with hc | hc
      · exact hl c hc
      · obtain rfl := List.mem_singleton.1 hc; exact hb
  obtain ⟨v, s, hvs, hs⟩ := hsat
  obtain ⟨rfl, rfl⟩ := hvs.unique hbAt
  exact hs

/-- C84: in a run without feasibility restoration from a guess at which all linear inequality constraints hold with at least
1, they hold at every iterate and at the result. -/
theorem linear_ineqs_hold_partial {env : Env} (hE : env.ExactSolve) (hE' : env.ExactEstimate) {opts : SolverOptions}
    (hP : P.Total) (hq : P.LinearIneqs B d) (htol : 0 < opts.tolerance) (hS : 0 < P.scaling.f) {cbs : List Callback}
    {v : Fin n → ℝ} (hv : ∀ i, 1 ≤ (B *ᵥ v) i - d i) {res : IpmResult n m k}
    (hres : interiorPoint env opts P cbs (fun j => .fin (v j)) .start = some res)
    (hl : ∀ b ∈ res.world.trace, b.inner = false) :
    (∀ b ∈ res.world.trace, b.Satisfies B d) ∧
    (res.status = .locallyInfeasible ∨ res.status = .feasibilityRestorationFailed ∨
      ∀ i, 0 < res.s.real i ∧ res.s.real i ≤ (B *ᵥ res.x.real) i - d i) := by
  have hfirst : ∀ a : Snapshot, a.info.x = List.ofFn (fun j => Fl.fin (v j)) → a.info.s = List.replicate k 1 →
      a.Satisfies B d := fun a h1 h2 =>
    ⟨v, fun _ => 1, ⟨h1, by rw [h2, ← List.ofFn_const]; rfl⟩, fun i => ⟨one_pos, hv i⟩⟩
  obtain ⟨h1, h2, h3, first, -, f1, f2, h4⟩ := solve_adjacent hE hE' hP htol hS (fun _ => rfl) hres
  cases ht : res.world.trace with
  | nil =>
    refine ⟨by simp, h4.imp id (Or.imp id ?_)⟩
    rintro ⟨b, -, hbx, hbs, L, hL, -, hh⟩
    rw [ht] at hL
    obtain rfl : L = [] := by rcases hL with hL | hL <;> simp at hL; exact hL
    obtain rfl := Option.some.inj hh
    have hbAt : b.At res.x.real res.s.real := ⟨by rw [hbx, ← Vec.fin_real h1.x], by rw [hbs, ← Vec.fin_real h1.s.finite]⟩
    obtain ⟨v', s', hvs, hs⟩ := hfirst b f1 f2
    obtain ⟨rfl, rfl⟩ := hvs.unique hbAt
    exact hs
  | cons a l' =>
    obtain ⟨-, a1, a2⟩ := h3 a (by rw [ht]; rfl)
    exact linear_ineqs_stay_partial hE hE' hP hq htol hS (fun _ => rfl) hres (l := []) ht (ht ▸ hl) (hfirst a a1 a2)

end

/-- A run that meets the hypotheses, unless it restores feasibility: `x² + y²` subject to `x + y = 1` and `x ≥ 0` from (2, 3). -/
example (factor : ℕ → Bool) (clock : ℕ → ℝ) (junk : ℕ → List Fl → Fl) :
    ∃ res, interiorPoint (exactEnv factor clock junk) ⟨1e-8, 5000, .pinf, true⟩ lineNlp [] (fun j => .fin (![2, 3] j)) .start =
      some res ∧ ((∀ b ∈ res.world.trace, b.inner = false) → res.status = .success → 0 < res.x.real 0) := by
  have ht : (0 : ℝ) < 1e-8 := by norm_num
  have hS : 0 < lineNlp.scaling.f := one_pos
  obtain ⟨res, h1, -⟩ := ipm_ends (exactEnv factor clock junk) ⟨1e-8, 5000, .pinf, true⟩ lineNlp []
    (fun j => .fin (![2, 3] j)) ht hS
  refine ⟨res, h1, fun hl hs => ?_⟩
  rcases (linear_ineqs_hold_partial (exactEnv_exact ..).1 (exactEnv_exact ..).2 lineNlp_total
    (B := lineConstraints.B) (d := lineConstraints.d) ⟨lineNlp_linear.ci, lineNlp_linear.Ai⟩ ht hS (v := ![2, 3])
    (fun i => by fin_cases i; norm_num [lineConstraints, mulVec, dotProduct]) h1 hl).2 with h | h | h
  · rw [hs] at h; cases h
  · rw [hs] at h; cases h
  · have := lt_of_lt_of_le (h 0).1 (h 0).2
    simpa [lineConstraints, mulVec, dotProduct] using this

end Slp
