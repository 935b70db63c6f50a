import Verif.Solver.RegularProps
import Verif.Solver.SqpRegularProps

/-! Lemmas for C93: the solvers use the functions only at finite arguments. -/

namespace Slp

open Classical

variable {n m k : ℕ}

/-- The two problems' functions have the same values at finite arguments. -/
structure Nlp.Agree (P Q : Nlp n m k) : Prop where
  f : ∀ x, x.Finite → P.f x = Q.f x
  g : ∀ x, x.Finite → P.g x = Q.g x
  H : ∀ x y z, x.Finite → y.Finite → z.Finite → P.H x y z = Q.H x y z
  ce : ∀ x, x.Finite → P.ce x = Q.ce x
  Ae : ∀ x, x.Finite → P.Ae x = Q.Ae x
  ci : ∀ x, x.Finite → P.ci x = Q.ci x
  Ai : ∀ x, x.Finite → P.Ai x = Q.Ai x
  scaling : P.scaling = Q.scaling
  vars : ∀ x, x.Finite → P.vars x = Q.vars x

theorem Nlp.Agree.eval {P Q : Nlp n m k} (hA : P.Agree Q) {x : Vec n} {y : Vec m} {z : Vec k} (hx : x.Finite) (hy : y.Finite)
    (hz : z.Finite) : P.eval x y z = Q.eval x y z := by
  unfold Nlp.eval
  rw [hA.f _ hx, hA.g _ hx, hA.H _ _ _ hx hy hz, hA.ce _ hx, hA.Ae _ hx, hA.ci _ hx, hA.Ai _ hx]

theorem move_finite {q : ℕ} {x p : Vec q} {α : Fl} (hx : x.Finite) (hp : p.Finite) (hα : α.isFinite = true) :
    Vec.Finite fun i => x i + α * p i := fun i => Fl.finite_add.2 ⟨hx i, Fl.finite_mul.2 ⟨hα, hp i⟩⟩

theorem trial_agree {P Q : Nlp n m k} (hA : P.Agree Q) {st : IpmState n m k} (hx : st.x.Finite) {p : IpmStep n m k}
    (hp : p.Finite) {α : Fl} (hα : α.isFinite = true) (αz : Fl) (c : Prop) :
    ipmTrial P st p α αz c = ipmTrial Q st p α αz c := by
  have h := move_finite hx hp.1 hα
  unfold ipmTrial
  simp only [hA.f _ h, hA.ce _ h, hA.ci _ h]

/-- The state of an iteration with a solvable system. -/
structure IpmState.Ready (st : IpmState n m k) (env : Env) : Prop where
  answers : st.Answers env fun _ _ => True
  barrier : BarrierOk st
  regular : st.Regular
  x : st.x.Finite
  z : st.z.Pos

theorem IpmState.Ready.boundary {st : IpmState n m k} {env : Env} (h : st.Ready env) {v p : Vec k} (hv : v.Pos) (hp : p.Finite) :
    (boundaryF v p st.τ).isFinite = true := by
  obtain ⟨τ, hτ, h0, -⟩ := h.barrier.τ
  obtain ⟨b, hb, -⟩ := boundaryF_pos (show 0 < τ by linarith) hv hp
  rw [hτ, hb]; rfl

theorem socLoop_agree {P Q : Nlp n m k} (hP : P.Total) (hA : P.Agree Q) {env : Env} {st : IpmState n m k} (h : st.Ready env)
    (D α : Fl) (r : ℕ) {αs : Fl} {ce : Vec m} {cis : Vec k} {t : Trial n m k} (hα : αs.isFinite = true) (hce : ce.Finite)
    (hcis : cis.Finite) (ht1 : t.ce.Finite) (ht2 : t.ci.Finite) (ht3 : t.s.Finite) (viol : Fl) (F : Filter) (i : ℕ) :
    socLoop env P st D α r αs ce cis t viol F i = socLoop env Q st D α r αs ce cis t viol F i := by
  induction r generalizing αs ce cis t viol F i with
  | zero => rw [socLoop, socLoop]
  | succ r ih =>
    have h1 : Vec.Finite fun j => αs * ce j + t.ce j := fun j =>
      Fl.finite_add.2 ⟨Fl.finite_mul.2 ⟨hα, hce j⟩, ht1 j⟩
    have h2 : Vec.Finite fun j => αs * cis j + t.ci j - t.s j := fun j =>
      Fl.finite_sub.2 ⟨Fl.finite_add.2 ⟨Fl.finite_mul.2 ⟨hα, hcis j⟩, ht2 j⟩, ht3 j⟩
    obtain ⟨hp, -⟩ := ipm_correction_newton h.answers h.regular h1 h2 i
    rw [socLoop, socLoop]
    set p := ipmComputeStep env st (st.socRhs env (fun j => αs * ce j + t.ce j) fun j => αs * cis j + t.ci j - t.s j)
      (fun j => αs * cis j + t.ci j - t.s j) i
    have hb := h.boundary h.regular.s hp.2.1
    rw [← trial_agree hA h.x hp hb]
    have hx := move_finite h.x hp.1 hb
    set t' := ipmTrial P st p (boundaryF st.s p.ps st.τ) (boundaryF st.z p.pz st.τ) False with ht'
    have ht : t'.s.Finite := by
      have e : t'.s = fun i => st.s i + boundaryF st.s p.ps st.τ * p.ps i := if_neg id
      rw [e]
      exact move_finite h.regular.s.finite hp.2.1 hb
    rw [ih (t := t') hb h1 h2 (hP.ce _ hx) (hP.ci _ hx) ht]

theorem ipmSoc_agree {P Q : Nlp n m k} (hP : P.Total) (hA : P.Agree Q) {env : Env} {st : IpmState n m k} (h : st.Ready env)
    (D αmax : Fl) {α : Fl} {t : Trial n m k} (hα : α.isFinite = true) (ht1 : t.ce.Finite) (ht2 : t.ci.Finite) (ht3 : t.s.Finite)
    (F : Filter) (i : ℕ) : ipmSoc env P st D α αmax t F i = ipmSoc env Q st D α αmax t F i := by
  obtain ⟨-, -, hce, -, hci, hs, -, -⟩ := h.regular.error
  unfold ipmSoc
  rw [socLoop_agree hP hA h D α 5 hα hce (fun j => Fl.finite_sub.2 ⟨hci j, hs j⟩) ht1 ht2 ht3]

theorem half_finite {α : Fl} (hα : α.isFinite = true) : (α * .fin 0.5).isFinite = true := Fl.finite_mul.2 ⟨hα, rfl⟩

theorem ipmLineSearch_agree {P Q : Nlp n m k} (hP : P.Total) (hA : P.Agree Q) {env : Env} (opts : SolverOptions)
    {st : IpmState n m k} (h : st.Ready env) {p : IpmStep n m k} (hp : p.Finite) {αmax αz : Fl} (hm : αmax.isFinite = true)
    (hz : αz.isFinite = true) (D : Fl) (r : ℕ) {α : Fl} (hα : α.isFinite = true) (F : Filter) (c i : ℕ) :
    ipmLineSearch env opts P st p αmax αz D r α F c i = ipmLineSearch env opts Q st p αmax αz D r α F c i := by
  induction r generalizing α F c i with
  | zero => rw [ipmLineSearch, ipmLineSearch]
  | succ r ih =>
    obtain ⟨-, -, -, -, -, hs, hy, hzf⟩ := h.regular.error
    have hx := move_finite h.x hp.1 hα
    have hxm := move_finite h.x hp.1 hm
    have ht : (ipmTrial P st p α αz (feasibleMode opts st)).s.Finite := by
      show Vec.Finite (if feasibleMode opts st then P.ci _ else fun i => _)
      split
      · exact hP.ci _ hx
      · exact move_finite hs hp.2.1 hα
    have he : (ipmTrial P st p αmax αz False).eval P = (ipmTrial P st p αmax αz False).eval Q := by
      unfold Trial.eval
      rw [hA.g _ (by exact hxm), hA.Ae _ (by exact hxm), hA.Ai _ (by exact hxm), hA.H _ _ _ (by exact hxm)
        (by exact move_finite hy hp.2.2.1 hz) (by exact move_finite hzf hp.2.2.2 hz)]
    rw [ipmLineSearch, ipmLineSearch]
    simp only
    rw [← trial_agree hA h.x hp hα, ← trial_agree hA h.x hp hm,
      ← ipmSoc_agree hP hA h D αmax hα (hP.ce _ hx) (hP.ci _ hx) ht, he]
    simp only [ih hα, ih (half_finite hα)]

theorem ipmMove_agree {P Q : Nlp n m k} (hP : P.Total) (hA : P.Agree Q) {env : Env} (hE : env.ExactSolve) (opts : SolverOptions)
    {restore restore' : RestoreFn n m k} (hr : ∀ st α w E, st.Sound P → restore st α w E = restore' st α w E)
    {st : IpmState n m k} (h : st.Sound P) (w : World) (E : Filter) :
    ipmMove env opts P restore st w E = ipmMove env opts Q restore' st w E := by
  have hreg := h.regular hP
  have hR : st.Ready env := ⟨hE.answers hreg, h.barrier, hreg, h.x, h.z⟩
  have hit := iteration_newton opts hP restoreInner (hE.answers hreg) h.barrier hreg h.x h.z w E
  unfold ipmMove at hit ⊢
  by_cases hf : env.factor w.factors = false
  · rw [if_pos hf, if_pos hf]
  rw [if_neg hf] at hit
  rw [if_neg hf, if_neg hf]
  obtain ⟨hp, -⟩ := ipm_step_newton (hE.answers hreg) hreg w.solves
  simp only at hit ⊢
  set p := ipmComputeStep env st (st.rhs env) (fun i => st.e.ci i - st.s i) w.solves
  have hb := hR.boundary h.s hp.2.1
  rw [← ipmLineSearch_agree hP hA opts hR hp hb (hR.boundary h.z hp.2.2.2) _ _ hb]
  cases hls : ipmLineSearch env opts P st p (boundaryF st.s p.ps st.τ) (boundaryF st.z p.pz st.τ) (ipmSlope env st p)
    lineSearchRounds (boundaryF st.s p.ps st.τ) st.filter st.rejected (w.solves + 1) with
  | none => rfl
  | some ls =>
    rw [hls] at hit
    simp only [Option.bind_some] at hit ⊢
    by_cases ha : boundaryF st.s p.ps st.τ < alphaMin
    · rw [if_pos ha, if_pos ha]
      exact hr _ _ _ _ (h.withFilter _ _)
    rw [if_neg ha] at hit
    rw [if_neg ha, if_neg ha]
    cases hacc : ls.accepted with
    | none => exact hr _ _ _ _ (h.withFilter _ _)
    | some b =>
      rw [hacc] at hit
      simp only [Option.elim] at hit ⊢
      rcases hit with h1 | ⟨F, c, α, i, h1⟩ | ⟨st', w', ce, cis, u, v, q, h1, hM, -, h3, h4, -⟩
      · exact absurd h1.1 hf
      · simp [restoreInner] at h1
      · obtain ⟨rfl, rfl, -⟩ := Moved.go.inj (Option.some.inj h1)
        have hx : b.2.1.x.Finite := h3
        have hy : b.2.1.y.Finite := fun j => by
          have := hM.y j
          exact (congrArg Fl.isFinite this).trans rfl
        unfold IpmState.accept
        simp only
        rw [hA.g _ hx, hA.H _ _ _ hx hy (by exact h4.finite), hA.Ae _ hx, hA.Ai _ hx, hA.vars _ hx]

theorem ipmMove_sound {P : Nlp n m k} (hP : P.Total) {env : Env} (hE : env.ExactSolve) (opts : SolverOptions)
    {restore : RestoreFn n m k} (hr : ∀ st α w E st' w' E', st.Sound P → restore st α w E = some (.go st' w' E') → st'.Sound P)
    {st : IpmState n m k} (h : st.Sound P) {w : World} {E : Filter} {st2 : IpmState n m k} {w2 : World} {E2 : Filter}
    (hmv : ipmMove env opts P restore st w E = some (.go st2 w2 E2)) : st2.Sound P := by
  rcases iteration_newton opts hP restore (hE.answers (h.regular hP)) h.barrier (h.regular hP) h.x h.z w E with h3 |
    ⟨F, c, α, i, h3⟩ | ⟨st', w', ce, cis, u, v, p, h3, hM, h4, h5, h6, h7, h8, h9, h10, h11, h12⟩
  · rw [h3.2] at hmv
    cases hmv
  · rw [h3] at hmv
    exact hr _ _ _ _ _ _ _ (h.withFilter F c) hmv
  · rw [h3] at hmv
    obtain ⟨rfl, rfl, rfl⟩ := Moved.go.inj (Option.some.inj hmv)
    refine ⟨?_, h5, h4.s, fun j => by rw [hM.y]; rfl, h6, h7⟩
    obtain ⟨b1, b2⟩ := h.barrier
    exact ⟨h8 ▸ b1, h9 ▸ b2⟩

theorem ipmLoop_agree {P Q : Nlp n m k} (hP : P.Total) (hA : P.Agree Q) {env : Env} (hE : env.ExactSolve) {opts : SolverOptions}
    (htol : 0 < opts.tolerance) (hS : 0 < P.scaling.f) (cbs : List Callback) {extra extra' : Extra}
    (hx : ∀ F (st : IpmState n m k), st.Sound P → extra F st.info = extra' F st.info) (inner : Bool)
    {restore restore' : RestoreFn n m k} (hr : ∀ st α w E, st.Sound P → restore st α w E = restore' st α w E)
    (hrs : ∀ st α w E st' w' E', st.Sound P → restore st α w E = some (.go st' w' E') → st'.Sound P) (start : ℝ) (r : ℕ)
    {st : IpmState n m k} (h : st.Sound P) (w : World) (E : Filter) :
    ipmLoop env opts P cbs extra inner restore start r st w E = ipmLoop env opts Q cbs extra' inner restore' start r st w E := by
  induction r generalizing st w E with
  | zero => rw [ipmLoop, ipmLoop]
  | succ r ih =>
    have hn : ipmNotify cbs extra inner st w E = ipmNotify cbs extra' inner st w E := by
      unfold ipmNotify runCallbacks
      rw [hx _ _ h]
    have hf : ∀ st, ipmFinish env opts P st = ipmFinish env opts Q st := fun st => by
      unfold ipmFinish
      rw [hA.scaling]
    rw [ipmLoop, ipmLoop]
    simp only
    rw [← hn, ← ipmMove_agree hP hA hE opts hr h]
    cases hmv : ipmMove env opts P restore st (ipmNotify cbs extra inner st w E).1 (ipmNotify cbs extra inner st w E).2.1 with
    | none => rfl
    | some mv =>
      cases mv with
      | stop res => rfl
      | go st2 w2 E2 =>
        have h2 := ipmMove_sound hP hE opts hrs h hmv
        simp only [Option.bind_some, Moved.elim]
        rw [← hf]
        cases hfin : ipmFinish env opts P st2 with
        | none => rfl
        | some st3 =>
          have h3 := (h2.finish htol hS hfin).1
          simp only [Option.bind_some]
          rw [ih h3]

theorem ipmRun_agree {P Q : Nlp n m k} (hP : P.Total) (hA : P.Agree Q) {env : Env} (hE : env.ExactSolve) {opts : SolverOptions}
    (htol : 0 < opts.tolerance) (hS : 0 < P.scaling.f) (cbs : List Callback) {extra extra' : Extra}
    (hx : ∀ F (st : IpmState n m k), st.Sound P → extra F st.info = extra' F st.info) (inner : Bool)
    {restore restore' : RestoreFn n m k} (hr : ∀ st α w E, st.Sound P → restore st α w E = restore' st α w E)
    (hrs : ∀ st α w E st' w' E', st.Sound P → restore st α w E = some (.go st' w' E') → st'.Sound P) {x : Vec n} {s : Vec k}
    {y : Vec m} {z : Vec k} {μ : ℝ} (h1 : x.Finite) (h2 : s.Pos) (h3 : y.Finite) (h4 : z.Pos) (hμ : 0 < μ) (it : ℕ) (w : World)
    (E : Filter) : ipmRun env opts P cbs extra inner restore x s y z (.fin μ) it w E =
      ipmRun env opts Q cbs extra' inner restore' x s y z (.fin μ) it w E := by
  have h : (ipmInit env P x s y z (.fin μ) it).Sound P :=
    ⟨⟨⟨μ, rfl, hμ⟩, 0.99, rfl, by norm_num, by norm_num⟩, h1, h2, h3, h4, rfl⟩
  have hi : ipmInit env P x s y z (.fin μ) it = ipmInit env Q x s y z (.fin μ) it := by
    unfold ipmInit
    rw [hA.eval h1 h3 h4.finite, hA.scaling]
  unfold ipmRun
  simp only
  rw [← hi, ← hA.vars _ h1, ipmLoop_agree hP hA hE htol hS cbs hx inner hr hrs _ _ h]

/-! ### Feasibility restoration -/

theorem frProblem_agree {P Q : Nlp n m k} (hA : P.Agree Q) (env : Env) (x : Vec n) (μ : Fl) :
    (frProblem env P x μ).Agree (frProblem env Q x μ) := by
  have ho (xp : Vec (n + relaxed m k)) (h : xp.Finite) : (frOrigin xp).Finite := fun j => h _
  refine ⟨fun _ _ => rfl, fun _ _ => rfl, fun _ _ _ _ _ _ => rfl, fun xp h => ?_, fun xp h => ?_, fun xp h => ?_, fun xp h => ?_,
    ?_, fun xp h => ?_⟩
  · show (fun i => P.ce (frOrigin xp) i - _ + _) = _
    rw [hA.ce _ (ho _ h)]; rfl
  · unfold frProblem
    simp only [hA.Ae _ (ho _ h)]
  · show Fin.append (fun i => P.ci (frOrigin xp) i - _ + _) _ = _
    rw [hA.ci _ (ho _ h)]; rfl
  · unfold frProblem
    simp only [hA.Ai _ (ho _ h)]
  · unfold frProblem
    simp only [hA.scaling]
  · exact hA.vars _ (ho _ h)

theorem frRun_agree {P Q : Nlp n m k} (hP : P.Total) (hA : P.Agree Q) {env : Env} (hE : env.ExactSolve) {opts : SolverOptions}
    (htol : 0 < opts.tolerance) (cbs : List Callback) {extra extra' : Extra}
    (hx : ∀ F (st : IpmState (n + relaxed m k) m (k + relaxed m k)), st.x.Finite → st.s.Finite → extra F st.info = extra' F st.info)
    {x : Vec n} {s : Vec k} {μ : ℝ} (hxf : x.Finite) (hs : s.Pos) (hμ : 0 < μ) (it : ℕ) (w : World) (E : Filter) :
    frRun env opts P cbs extra x s (.fin μ) it w E = frRun env opts Q cbs extra' x s (.fin μ) it w E := by
  have h1 := hP.ce _ hxf
  have h2 : Vec.Finite fun i => P.ci x i - s i := fun i => Fl.finite_sub.2 ⟨hP.ci _ hxf i, hs.finite i⟩
  obtain ⟨a, ha, ha0, -⟩ := frMu_pos (env := env) h1 h2 hμ
  have hpn := frPN_pos h1 h2 ha0
  unfold frRun
  simp only
  rw [← hA.ce _ hxf, ← hA.ci _ hxf, ha]
  refine ipmRun_agree (frProblem_total hP hxf ha0) (frProblem_agree hA env x _) hE htol (by rw [frScaling_f]; exact one_pos) cbs
    (fun F st h => hx F st h.x h.s.finite) true (fun _ _ _ _ _ => rfl) (by simp [restoreInner]) (finite_append hxf hpn.finite)
    (append_pos hs fun _ => ⟨1, rfl, one_pos⟩) (fun _ => rfl) ?_ ha0 it w E
  refine append_pos (fun i => ?_) fun i => ?_
  · obtain ⟨b, hb, hb0⟩ := hs i
    refine ⟨a * (1 / b), ?_, by positivity⟩
    simp only [hb]
    rw [Fl.one_def, Fl.fin_div hb0.ne']; rfl
  · obtain ⟨b, hb, hb0⟩ := hpn i
    refine ⟨a * (1 / b), ?_, by positivity⟩
    simp only [hb]
    rw [Fl.one_def, Fl.fin_div hb0.ne']; rfl

theorem getD_finite {q l : ℕ} {x : Vec (q + l)} (h : x.Finite) : Vec.Finite fun i : Fin q => (List.ofFn x).getD i .nan := fun i => by
  show ((List.ofFn x).getD i .nan).isFinite = true
  rw [List.getD_eq_getElem _ _ (by rw [List.length_ofFn]; omega), List.getElem_ofFn]
  exact h _

theorem restoreIpm_agree {P Q : Nlp n m k} (hP : P.Total) (hA : P.Agree Q) {env : Env} (hE : env.ExactSolve)
    (hE' : env.ExactEstimate) {opts : SolverOptions} (htol : 0 < opts.tolerance) (cbs : List Callback) {st : IpmState n m k}
    (h : st.Sound P) (α : Fl) (w : World) (E : Filter) :
    restoreIpm env opts P cbs st α w E = restoreIpm env opts Q cbs st α w E := by
  obtain ⟨μ, hμ, hμ0⟩ := h.barrier.μ
  have hfr := frRun_agree hP hA hE htol cbs (extra := extraIpm env P st α) (extra' := extraIpm env Q st α) (fun F st' h1 h2 => by
    have hx : Vec.Finite fun i : Fin n => (st'.info.x).getD i .nan := getD_finite h1
    unfold extraIpm
    simp only
    rw [hA.f _ h.x, hA.f _ hx, hA.ce _ hx, hA.ci _ hx]) h.x h.s hμ0 st.iterations w st.filter
  rw [← hμ] at hfr
  have hsound := restoreIpm_sound hE hE' hP htol (cbs := cbs) st α w E
  unfold restoreIpm at hsound ⊢
  rw [← hfr]
  cases hres : frRun env opts P cbs (extraIpm env P st α) st.x st.s st.μ st.iterations w st.filter with
  | none => rfl
  | some res =>
    rw [hres] at hsound
    have hf := (frRun_sound hE hP htol h.x h.s hμ0 (by rw [← hμ]; exact hres)).1
    simp only [Option.map_some] at hsound ⊢
    by_cases hst : res.status = .callbackRequestedStop
    · simp only [if_pos hst] at hsound ⊢
      have hS := ((hsound _ h rfl).2 _ _ _ rfl).1
      have hx : Vec.Finite fun i => res.x (Fin.castAdd (relaxed m k) i) := fun i => hf.x _
      have e := hA.eval hS.x hS.y hS.z.finite
      simp only at e
      rw [e, hA.g _ hx, hA.Ae _ hx, hA.Ai _ hx, hA.vars _ hx]
    · simp only [if_neg hst]

theorem interiorPoint_agree {P Q : Nlp n m k} (hP : P.Total) (hA : P.Agree Q) {env : Env} (hE : env.ExactSolve)
    (hE' : env.ExactEstimate) {opts : SolverOptions} (htol : 0 < opts.tolerance) (hS : 0 < P.scaling.f) (cbs : List Callback)
    {x : Vec n} (hx : x.Finite) (w : World) : interiorPoint env opts P cbs x w = interiorPoint env opts Q cbs x w := by
  unfold interiorPoint
  rw [← hA.scaling]
  exact ipmRun_agree hP hA hE htol hS cbs (fun _ _ _ => rfl) false
    (fun st α w E h => restoreIpm_agree hP hA hE hE' htol cbs h α w E)
    (fun st α w E st' w' E' h hgo => ((restoreIpm_sound hE hE' hP htol st α w E _ h hgo).2 _ _ _ rfl).1) hx
    (fun _ => ⟨1, rfl, one_pos⟩) (fun _ => rfl) (fun _ => ⟨1, rfl, one_pos⟩) (by positivity) 0 w _

/-! ### SQP -/

theorem sqpTrial_agree {P Q : Nlp n m 0} (hA : P.Agree Q) {st : SqpState n m} (hx : st.x.Finite) {p : SqpStep n m}
    (hp : p.px.Finite) {α : Fl} (hα : α.isFinite = true) : sqpTrial P st p α = sqpTrial Q st p α := by
  have h := move_finite hx hp hα
  unfold sqpTrial
  simp only [hA.f _ h, hA.ce _ h]

theorem SqpTrial.eval_agree {P Q : Nlp n m 0} (hA : P.Agree Q) {t : SqpTrial n m} (hx : t.x.Finite) (hy : t.y.Finite) :
    t.eval P = t.eval Q := by
  unfold SqpTrial.eval
  rw [hA.g _ hx, hA.H _ _ _ hx hy fun i => i.elim0, hA.Ae _ hx]

theorem sqpSocLoop_agree {P Q : Nlp n m 0} (hP : P.Total) (hA : P.Agree Q) {env : Env} (hE : env.ExactSolve) {st : SqpState n m}
    (h : st.Regular) (D : Fl) {α : Fl} (hα : α.isFinite = true) (r : ℕ) {ce : Vec m} {t : SqpTrial n m} (hce : ce.Finite)
    (ht : t.ce.Finite) (viol : Fl) (F : Filter) (i : ℕ) :
    sqpSocLoop env P st D α r ce t viol F i = sqpSocLoop env Q st D α r ce t viol F i := by
  induction r generalizing ce t viol F i with
  | zero => rw [sqpSocLoop, sqpSocLoop]
  | succ r ih =>
    have h1 : Vec.Finite fun j => α * ce j + t.ce j := fun j => Fl.finite_add.2 ⟨Fl.finite_mul.2 ⟨hα, hce j⟩, ht j⟩
    obtain ⟨hp, -⟩ := sqp_step_newton (hE.sqpAnswers h) h h1 i
    rw [sqpSocLoop, sqpSocLoop]
    rw [← sqpTrial_agree hA h.x hp.1 hα]
    set t' := sqpTrial P st (sqpComputeStep env st (fun j => α * ce j + t.ce j) i) α
    rw [ih (t := t') h1 (hP.ce _ (move_finite h.x hp.1 hα))]

theorem sqpSoc_agree {P Q : Nlp n m 0} (hP : P.Total) (hA : P.Agree Q) {env : Env} (hE : env.ExactSolve) {st : SqpState n m}
    (h : st.Regular) (D : Fl) {α : Fl} (hα : α.isFinite = true) {t : SqpTrial n m} (ht : t.ce.Finite) (F : Filter) (i : ℕ) :
    sqpSoc env P st D α t F i = sqpSoc env Q st D α t F i := by
  unfold sqpSoc
  rw [sqpSocLoop_agree hP hA hE h D hα 5 h.ce ht]

theorem sqpLineSearch_agree {P Q : Nlp n m 0} (hP : P.Total) (hA : P.Agree Q) {env : Env} (hE : env.ExactSolve)
    {st : SqpState n m} (h : st.Regular) {p : SqpStep n m} (hp : p.px.Finite ∧ p.py.Finite) (D : Fl) (r : ℕ) {α : Fl}
    (hα : α.isFinite = true) (F : Filter) (c i : ℕ) :
    sqpLineSearch env P st p D r α F c i = sqpLineSearch env Q st p D r α F c i := by
  induction r generalizing α F c i with
  | zero => rw [sqpLineSearch, sqpLineSearch]
  | succ r ih =>
    have h1 : (1 : Fl).isFinite = true := rfl
    have he : (sqpTrial P st p 1).eval P = (sqpTrial P st p 1).eval Q :=
      SqpTrial.eval_agree hA (move_finite h.x hp.1 h1) (move_finite h.y hp.2 h1)
    rw [sqpLineSearch, sqpLineSearch]
    simp only
    rw [← sqpTrial_agree hA h.x hp.1 hα, ← sqpTrial_agree hA h.x hp.1 h1,
      ← sqpSoc_agree hP hA hE h D hα (hP.ce _ (move_finite h.x hp.1 hα)), he]
    simp only [ih hα, ih (half_finite hα)]

theorem restoreSqp_agree {P Q : Nlp n m 0} (hP : P.Total) (hA : P.Agree Q) {env : Env} (hE : env.ExactSolve)
    (hE' : env.ExactEstimate) {opts : SolverOptions} (htol : 0 < opts.tolerance) (cbs : List Callback) {st : SqpState n m}
    (h : st.Sound P) (α : Fl) (w : World) : restoreSqp env opts P cbs st α w = restoreSqp env opts Q cbs st α w := by
  have hfr := frRun_agree hP hA hE htol cbs (extra := extraSqp env P st α) (extra' := extraSqp env Q st α) (fun F st' h1 _ => by
    have hx : Vec.Finite fun i : Fin n => (st'.info.x).getD i .nan := getD_finite h1
    unfold extraSqp
    simp only
    rw [hA.f _ h.x, hA.f _ hx, hA.ce _ hx]) h.x (s := Fin.elim0) (fun i => i.elim0)
    (show 0 < opts.tolerance / 10 by positivity) st.iterations w st.filter
  have hsound := @restoreSqp_sound _ _ env hE hE' opts P hP htol cbs st α w
  unfold restoreSqp at hsound ⊢
  rw [← hfr]
  cases hres : frRun env opts P cbs (extraSqp env P st α) st.x Fin.elim0 (.fin (opts.tolerance / 10)) st.iterations w
    st.filter with
  | none => rfl
  | some res =>
    rw [hres] at hsound
    have hf := (frRun_sound hE hP htol h.x (fun i => i.elim0) (show 0 < opts.tolerance / 10 by positivity) hres).1
    simp only [Option.map_some] at hsound ⊢
    by_cases hst : res.status = .callbackRequestedStop
    · simp only [if_pos hst] at hsound ⊢
      have hS := ((hsound h rfl).2 _ _ rfl).1
      have hx : Vec.Finite fun i => res.x (Fin.castAdd (relaxed m 0) i) := fun i => hf.x _
      have e := hA.eval hS.x hS.y (z := Fin.elim0) fun i => i.elim0
      simp only at e
      rw [e, hA.g _ hx, hA.Ae _ hx, hA.vars _ hx]
    · simp only [if_neg hst]

theorem sqpMove_agree {P Q : Nlp n m 0} (hP : P.Total) (hA : P.Agree Q) {env : Env} (hE : env.ExactSolve)
    (hE' : env.ExactEstimate) {opts : SolverOptions} (htol : 0 < opts.tolerance) (cbs : List Callback) {st : SqpState n m}
    (h : st.Sound P) (w : World) : sqpMove env opts P cbs st w = sqpMove env opts Q cbs st w := by
  have hreg := h.regular hP
  have hsound := @sqpMove_sound _ _ env (fun _ _ => True) hE hE' opts P hP htol cbs st w
  obtain ⟨hp, -⟩ := sqp_step_newton (hE.sqpAnswers hreg) hreg hreg.ce w.solves
  unfold sqpMove at hsound ⊢
  by_cases hf : env.factor w.factors = false
  · rw [if_pos hf, if_pos hf]
  rw [if_neg hf] at hsound
  rw [if_neg hf, if_neg hf]
  simp only at hsound ⊢
  rw [← sqpLineSearch_agree hP hA hE hreg hp _ _ rfl]
  cases hls : sqpLineSearch env P st (sqpComputeStep env st st.e.ce w.solves)
    (dotF env st.e.g (sqpComputeStep env st st.e.ce w.solves).px) lineSearchRounds 1 st.filter st.rejected (w.solves + 1) with
  | none => rfl
  | some ls =>
    rw [hls] at hsound
    simp only [Option.bind_some] at hsound ⊢
    cases hacc : ls.accepted with
    | none =>
      have h' : SqpState.Sound P { st with filter := ls.filter, rejected := ls.rejected } := ⟨h.x, h.y, h.e⟩
      exact restoreSqp_agree hP hA hE hE' htol cbs h' _ _
    | some b =>
      rw [hacc] at hsound
      simp only [Option.elim] at hsound ⊢
      have hS := ((hsound h (hE.sqpAnswers hreg) rfl).2 _ _ rfl).1
      have hx : b.2.1.x.Finite := hS.x
      unfold SqpState.accept
      rw [SqpTrial.eval_agree hA hx (by exact hS.y), hA.vars _ hx]

theorem sqpLoop_agree {P Q : Nlp n m 0} (hP : P.Total) (hA : P.Agree Q) {env : Env} (hE : env.ExactSolve)
    (hE' : env.ExactEstimate) {opts : SolverOptions} (htol : 0 < opts.tolerance) (cbs : List Callback) (start : ℝ) (r : ℕ)
    {st : SqpState n m} (h : st.Sound P) (w : World) :
    sqpLoop env opts P cbs start r st w = sqpLoop env opts Q cbs start r st w := by
  induction r generalizing st w with
  | zero => rw [sqpLoop, sqpLoop]
  | succ r ih =>
    rw [sqpLoop, sqpLoop]
    simp only
    rw [← sqpMove_agree hP hA hE hE' htol cbs h, ← hA.scaling]
    generalize ({ w with calls := (runRegistered st.info 0 cbs w.calls).1, trace := w.trace ++ [⟨false, st.info, 0, 0⟩],
                         seen := w.seen ++ [w.vars] } : World) = w1
    cases hmv : sqpMove env opts P cbs st w1 with
    | none => rfl
    | some mv =>
      cases mv with
      | stop res => rfl
      | go st2 w2 =>
        have h2 := ((sqpMove_sound hE hE' hP htol h (hE.sqpAnswers (h.regular hP)) hmv).2 _ _ rfl).1
        simp only [Option.bind_some, SqpMoved.elim]
        rw [ih (st := { st2 with E0 := errZeroSqp env P.scaling st2.e st2.y, iterations := st2.iterations + 1 })
          ⟨h2.x, h2.y, h2.e⟩]

theorem sqp_agree {P Q : Nlp n m 0} (hP : P.Total) (hA : P.Agree Q) {env : Env} (hE : env.ExactSolve) (hE' : env.ExactEstimate)
    {opts : SolverOptions} (htol : 0 < opts.tolerance) (cbs : List Callback) {x : Vec n} (hx : x.Finite) (w : World) :
    sqp env opts P cbs x w = sqp env opts Q cbs x w := by
  have h : (sqpInit env P x fun _ => 0).Sound P := ⟨hx, fun _ => rfl, rfl⟩
  have hi : (sqpInit env P x fun _ => 0) = sqpInit env Q x fun _ => 0 := by
    unfold sqpInit
    rw [hA.eval hx (fun _ => rfl) fun i => i.elim0, hA.scaling]
  unfold sqp sqpRun
  simp only
  rw [← hi, ← hA.vars _ hx, sqpLoop_agree hP hA hE hE' htol cbs _ _ h]

/-! ### Newton's method -/

theorem newtonLineSearch_agree {P Q : Nlp n 0 0} (hA : P.Agree Q) {env : Env} {st : NewtonState n} (hx : st.x.Finite) {i : ℕ}
    (hp : (newtonStep env st i).Finite) (D : Fl) (r : ℕ) {α : Fl} (hα : α.isFinite = true) (F : Filter) :
    newtonLineSearch env P st i D r α F = newtonLineSearch env Q st i D r α F := by
  induction r generalizing α F with
  | zero => rw [newtonLineSearch, newtonLineSearch]
  | succ r ih =>
    have h1 : (newtonPoint env st i α).Finite := move_finite hx hp hα
    have h2 : (newtonPoint env st i 1).Finite := move_finite hx hp rfl
    rw [newtonLineSearch, newtonLineSearch]
    simp only [hA.f _ h1, hA.f _ h2, hA.g _ h2, ih (half_finite hα)]

theorem newtonLoop_agree {P Q : Nlp n 0 0} (hP : P.Total) (hA : P.Agree Q) {env : Env} (hE : env.ExactSolve)
    {opts : SolverOptions} (cbs : List Callback) (start : ℝ) (r : ℕ) {st : NewtonState n} (hx : st.x.Finite) (hg : st.g.Finite)
    (hH : st.H.Finite) (w : World) : newtonLoop env opts P cbs start r st w = newtonLoop env opts Q cbs start r st w := by
  induction r generalizing st w with
  | zero => rw [newtonLoop, newtonLoop]
  | succ r ih =>
    rw [newtonLoop, newtonLoop]
    simp only
    rw [← newtonLineSearch_agree hA hx (newton_step_newton hE hg hH w.solves).1 _ _ rfl, ← hA.scaling]
    cases hls : newtonLineSearch env P st w.solves (dotF env st.g (newtonStep env st w.solves)) newtonRounds 1 st.filter with
    | none => rfl
    | some ls =>
      simp only [Option.bind_some]
      cases hacc : ls.accepted with
      | none => rfl
      | some b =>
        obtain ⟨R, x, f, used⟩ := b
        obtain ⟨u, δ', p', -, -, -, -, h5⟩ := newton_accepted_newton hE hx hg hH hls hacc
        have hx' : x.Finite := fun j => by rw [h5]; rfl
        have hH' := hP.H _ (Fin.elim0 : Vec 0) (Fin.elim0 : Vec 0) hx' (fun i => i.elim0) fun i => i.elim0
        simp only [Option.elim]
        rw [← hA.g _ hx', ← hA.H _ _ _ hx' (fun i => i.elim0) fun i => i.elim0, ← hA.vars _ hx']
        rw [ih (st := ⟨x, f, P.g x, P.H x Fin.elim0 Fin.elim0, ls.filter, st.iterations + 1, errZeroNewton env P.scaling (P.g x)⟩)
          hx' (hP.g _ hx') hH']

theorem newton_agree {P Q : Nlp n 0 0} (hP : P.Total) (hA : P.Agree Q) {env : Env} (hE : env.ExactSolve) (opts : SolverOptions)
    (cbs : List Callback) {x : Vec n} (hx : x.Finite) (w : World) : newton env opts P cbs x w = newton env opts Q cbs x w := by
  have hi : newtonInit env P x = newtonInit env Q x := by
    unfold newtonInit
    rw [hA.f _ hx, hA.g _ hx, hA.H _ _ _ hx (fun i => i.elim0) fun i => i.elim0, hA.scaling]
  unfold newton
  simp only
  rw [← hi, ← hA.vars _ hx, newtonLoop_agree hP hA hE cbs _ _ (st := newtonInit env P x) hx (hP.g _ hx)
    (hP.H _ _ _ hx (fun i => i.elim0) fun i => i.elim0)]

end Slp
