import Verif.Autodiff.TermSpec
import Verif.Autodiff.JacObjLemmas

/-! How an expression node represents a mathematical expression, and that smooth expressions are
differentiable. -/

namespace Slp

open ScalarOps Filter Topology

theorem UnOp.smooth_dom {f : UnOp} {x : ℝ} (h : f.Smooth x) : f.Dom x := by
  cases f <;> simp only [UnOp.Smooth, UnOp.Dom] at h ⊢ <;>
    first | trivial | exact h | exact h.le | exact ⟨h.1.le, h.2.le⟩

theorem BinOp.smooth_dom {f : BinOp} {l : Prop} {x y : ℝ} (h : f.Smooth l x y) : f.Dom x y := by
  cases f <;> simp only [BinOp.Smooth, BinOp.Dom] at h ⊢ <;> try first | trivial | exact h
  rcases h with h | ⟨_, k, hk, h⟩
  · exact Or.inl h
  · rcases lt_trichotomy x 0 with hx | hx | hx
    · exact Or.inr (Or.inr ⟨hx, k, hk⟩)
    · refine Or.inr (Or.inl ⟨hx, ?_⟩)
      have h1 : 1 ≤ k := by tauto
      rw [hk]
      exact_mod_cast lt_of_lt_of_le zero_lt_one h1
    · exact Or.inl hx

theorem Term.smooth_dom (t : Term) {env : ℕ → ℝ} (h : t.Smooth env) : t.Dom env := by
  induction t with
  | lit => trivial
  | var => trivial
  | un f t ih => exact ⟨ih h.1, UnOp.smooth_dom h.2⟩
  | bin f s t ih1 ih2 => exact ⟨ih1 h.1, ih2 h.2.1, BinOp.smooth_dom h.2.2⟩
  | pd k t _ => exact h

/-- Node `e` of `h` represents `t`, where `vs k` is the node of variable `k`. -/
structure Rep (h : Heap ℝ) (vs : ℕ → ℕ) (t : Term) (e : ℕ) : Prop where
  lt : e < h.next
  sem : ∀ η : ℕ → ℝ, t.Dom (fun k => η (vs k)) → ev h η e = t.eval (fun k => η (vs k))
  sm : ∀ η : ℕ → ℝ, t.Smooth (fun k => η (vs k)) → Sm h η e
  lit : t.IsLit → h.op e = .constant

theorem Rep.mono {h h' : Heap ℝ} {vs : ℕ → ℕ} {t : Term} {e : ℕ} (r : Rep h vs t e)
    (g : Mono h h') : Rep h' vs t e where
  lt := g.lt r.lt
  sem η hd := by rw [g.ev η r.lt]; exact r.sem η hd
  sm η hs := (g.Sm η r.lt).mpr (r.sm η hs)
  lit hl := by rw [g.op e r.lt]; exact r.lit hl

theorem UnOp.builds (f : UnOp) {h : Heap ℝ} (wf : WF h) {a : ℕ} (ha : a < h.next) :
    Builds (f.build a) h (fun η => f.eval (ev h η a)) (fun η => Sm h η a ∧ f.Smooth (ev h η a)) := by
  cases f
  case pos => exact Builds.pure wf ha (fun η => rfl) fun η p => p.1
  case neg => exact (neg_builds wf ha).congr (fun _ => rfl) fun _ p => p
  case abs => exact (abs_builds wf ha).congr (fun _ => rfl) fun _ p => p
  case acos => exact (acos_builds wf ha).congr (fun _ => rfl) fun _ p => p
  case asin => exact (asin_builds wf ha).congr (fun _ => rfl) fun _ p => p
  case atan => exact (atan_builds wf ha).congr (fun _ => rfl) fun _ p => p
  case cbrt => exact (cbrt_builds wf ha).congr (fun _ => rfl) fun _ p => p
  case cos => exact (cos_builds wf ha).congr (fun _ => rfl) fun _ p => p
  case cosh => exact (cosh_builds wf ha).congr (fun _ => rfl) fun _ p => p
  case erf => exact (erf_builds wf ha).congr (fun _ => rfl) fun _ p => p
  case exp => exact (exp_builds wf ha).congr (fun _ => rfl) fun _ p => p
  case log => exact (log_builds wf ha).congr (fun _ => rfl) fun _ p => p
  case log10 => exact (log10_builds wf ha).congr (fun _ => rfl) fun _ p => p
  case sign => exact (sign_builds wf ha).congr (fun _ => rfl) fun _ p => p
  case sin => exact (sin_builds wf ha).congr (fun _ => rfl) fun _ p => p
  case sinh => exact (sinh_builds wf ha).congr (fun _ => rfl) fun _ p => p
  case sqrt => exact (sqrt_builds wf ha).congr (fun _ => rfl) fun _ p => p
  case tan => exact (tan_builds wf ha).congr (fun _ => rfl) fun _ p => p
  case tanh => exact (tanh_builds wf ha).congr (fun _ => rfl) fun _ p => p

theorem Rep.un {h : Heap ℝ} (wf : WF h) {vs : ℕ → ℕ} {t : Term} {e : ℕ} (r : Rep h vs t e)
    (f : UnOp) : WF (f.build e h).2 ∧ Grow h (f.build e h).2 ∧
      Rep (f.build e h).2 vs (.un f t) (f.build e h).1 := by
  have b := f.builds wf r.lt
  refine ⟨b.wf, b.grow, b.lt, ?_, ?_, fun hl => absurd hl (by simp [Term.IsLit])⟩
  · intro η hd
    rw [b.sem, r.sem η hd.1]; rfl
  · intro η hs
    refine b.sm η ⟨r.sm η hs.1, ?_⟩
    rw [r.sem η (t.smooth_dom hs.1)]
    exact hs.2

theorem Rep.bin {h : Heap ℝ} (wf : WF h) {vs : ℕ → ℕ} {s t : Term} {a b : ℕ} (ra : Rep h vs s a)
    (rb : Rep h vs t b) (f : BinOp) : WF (f.build a b h).2 ∧ Grow h (f.build a b h).2 ∧
      Rep (f.build a b h).2 vs (.bin f s t) (f.build a b h).1 := by
  have key : ∀ (m : HM ℝ ℕ) {F : (ℕ → ℝ) → ℝ} {P : (ℕ → ℝ) → Prop}, Builds m h F P →
      (∀ η, f.Dom (ev h η a) (ev h η b) → F η = f.eval (ev h η a) (ev h η b)) →
      (∀ η, Sm h η a → Sm h η b → f.Smooth t.IsLit (ev h η a) (ev h η b) → P η) →
      WF (m h).2 ∧ Grow h (m h).2 ∧ Rep (m h).2 vs (.bin f s t) (m h).1 := by
    intro m F P bl hF hP
    refine ⟨bl.wf, bl.grow, bl.lt, ?_, ?_, fun hl => absurd hl (by simp [Term.IsLit])⟩
    · intro η hd
      obtain ⟨h1, h2, h3⟩ := hd
      rw [← ra.sem η h1, ← rb.sem η h2] at h3
      rw [bl.sem, hF η h3, ra.sem η h1, rb.sem η h2]; rfl
    · intro η hs
      obtain ⟨h1, h2, h3⟩ := hs
      refine bl.sm η (hP η (ra.sm η h1) (rb.sm η h2) ?_)
      rw [ra.sem η (s.smooth_dom h1), rb.sem η (t.smooth_dom h2)]
      exact h3
  have ha := ra.lt
  have hb := rb.lt
  cases f
  case add => exact key _ (add_builds wf ha hb) (fun _ _ => rfl) fun _ p q s => ⟨p, q, s⟩
  case sub => exact key _ (sub_builds wf ha hb) (fun _ _ => rfl) fun _ p q s => ⟨p, q, s⟩
  case mul => exact key _ (mul_builds wf ha hb) (fun _ _ => rfl) fun _ p q s => ⟨p, q, s⟩
  case div => exact key _ (div_builds wf ha hb) (fun _ _ => rfl) fun _ p q s => ⟨p, q, s⟩
  case atan2 => exact key _ (atan2_builds wf ha hb) (fun _ _ => rfl) fun _ p q s => ⟨p, q, s⟩
  case hypot => exact key _ (hypot_builds wf ha hb) (fun _ _ => rfl) fun _ p q s => ⟨p, q, s⟩
  case max => exact key _ (max_builds wf ha hb) (fun _ _ => rfl) fun _ p q s => ⟨p, q, s⟩
  case min => exact key _ (min_builds wf ha hb) (fun _ _ => rfl) fun _ p q s => ⟨p, q, s⟩
  case pow =>
    refine key _ (pow_builds wf ha hb) (fun η hd => ?_) fun η p q s => ⟨p, q, ?_⟩
    · by_cases hc : isConst h a zero = true
      · have h0 : ev h η a = 0 := isConst_ev wf ha hc η
        rw [if_pos hc]
        simp only [BinOp.Dom, h0] at hd
        simp only [BinOp.eval, h0]
        rcases hd with hd | ⟨_, hd⟩ | ⟨hd, _⟩
        · exact absurd hd (lt_irrefl _)
        · rw [Real.zero_rpow hd.ne']
        · exact absurd hd (lt_irrefl _)
      · rw [if_neg hc]; rfl
    · rcases s with s | ⟨hl, k, hk, hk'⟩
      · exact Or.inl s
      · refine Or.inr ⟨rb.lit hl, k, hk, ?_⟩
        rcases hk' with e | e
        · exact Or.inl e
        · exact Or.inr (by omega)

/-! ### Dependence on the variables that occur -/

theorem Term.vars_mono {N M : ℕ} (hNM : N ≤ M) (t : Term) (h : t.Vars N) : t.Vars M := by
  induction t with
  | lit => trivial
  | var => exact lt_of_lt_of_le h hNM
  | un f t ih => exact ih h
  | bin f s t ih1 ih2 => exact ⟨ih1 h.1, ih2 h.2⟩
  | pd k t ih => exact ⟨lt_of_lt_of_le h.1 hNM, ih h.2⟩

theorem Term.exists_vars (t : Term) : ∃ N, t.Vars N := by
  induction t with
  | lit => exact ⟨0, trivial⟩
  | var k => exact ⟨k + 1, Nat.lt_succ_self k⟩
  | un f t ih => exact ih
  | bin f s t ih1 ih2 =>
    obtain ⟨N, hN⟩ := ih1
    obtain ⟨M, hM⟩ := ih2
    exact ⟨Max.max N M, s.vars_mono (le_max_left _ _) hN, t.vars_mono (le_max_right _ _) hM⟩
  | pd k t ih =>
    obtain ⟨N, hN⟩ := ih
    exact ⟨Max.max N (k + 1), lt_of_lt_of_le (Nat.lt_succ_self k) (le_max_right _ _),
      t.vars_mono (le_max_left _ _) hN⟩

theorem Term.eval_congr {N : ℕ} (t : Term) (h : t.Vars N) {env env' : ℕ → ℝ}
    (he : ∀ k, k < N → env k = env' k) : t.eval env = t.eval env' := by
  induction t generalizing env env' with
  | lit => rfl
  | var k => exact he k h
  | un f t ih => simp only [Term.eval]; rw [ih h he]
  | bin f s t ih1 ih2 => simp only [Term.eval]; rw [ih1 h.1 he, ih2 h.2 he]
  | pd k t ih =>
    simp only [Term.eval]
    rw [he k h.1]
    congr 1
    funext x
    apply ih h.2
    intro j hj
    by_cases hjk : j = k
    · subst hjk; simp
    · simp [hjk, he j hj]

theorem Term.smooth_congr {N : ℕ} (t : Term) (h : t.Vars N) {env env' : ℕ → ℝ}
    (he : ∀ k, k < N → env k = env' k) : t.Smooth env ↔ t.Smooth env' := by
  induction t with
  | lit => rfl
  | var k => rfl
  | un f t ih => simp only [Term.Smooth]; rw [ih h, Term.eval_congr t h he]
  | bin f s t ih1 ih2 =>
    simp only [Term.Smooth]
    rw [ih1 h.1, ih2 h.2, Term.eval_congr s h.1 he, Term.eval_congr t h.2 he]
  | pd k t ih => exact ih h.2

theorem Term.dom_congr {N : ℕ} (t : Term) (h : t.Vars N) {env env' : ℕ → ℝ}
    (he : ∀ k, k < N → env k = env' k) : t.Dom env ↔ t.Dom env' := by
  induction t with
  | lit => rfl
  | var k => rfl
  | un f t ih => simp only [Term.Dom]; rw [ih h, Term.eval_congr t h he]
  | bin f s t ih1 ih2 =>
    simp only [Term.Dom]
    rw [ih1 h.1, ih2 h.2, Term.eval_congr s h.1 he, Term.eval_congr t h.2 he]
  | pd k t ih => exact Term.smooth_congr t h.2 he

/-! ### Smoothness is an open condition -/

theorem UnOp.smooth_open (f : UnOp) {g : ℝ → ℝ} {x : ℝ} (hg : ContinuousAt g x)
    (h : f.Smooth (g x)) : ∀ᶠ y in 𝓝 x, f.Smooth (g y) := by
  cases f <;> simp only [UnOp.Smooth] at h ⊢ <;>
    first
    | exact Eventually.of_forall fun _ => trivial
    | exact hg.eventually_ne h
    | exact (hg.eventually (lt_mem_nhds h.1)).and (hg.eventually (gt_mem_nhds h.2))
    | exact hg.eventually (lt_mem_nhds h)
    | exact (Real.continuous_cos.continuousAt.comp hg).eventually_ne h

theorem BinOp.smooth_open (f : BinOp) {l : Prop} {g k : ℝ → ℝ} {x : ℝ} (hg : ContinuousAt g x)
    (hk : ContinuousAt k x) (hl : l → ∀ y, k y = k x) (h : f.Smooth l (g x) (k x)) :
    ∀ᶠ y in 𝓝 x, f.Smooth l (g y) (k y) := by
  cases f <;> simp only [BinOp.Smooth] at h ⊢
  case div => exact hk.eventually_ne h
  case atan2 =>
    rcases h with h | h
    · exact (hg.eventually_ne h).mono fun _ => Or.inl
    · exact (hk.eventually (lt_mem_nhds h)).mono fun _ => Or.inr
  case hypot =>
    rcases h with h | h
    · exact (hg.eventually_ne h).mono fun _ => Or.inl
    · exact (hk.eventually_ne h).mono fun _ => Or.inr
  case max =>
    have := (hg.sub hk).eventually_ne (sub_ne_zero.mpr h)
    exact this.mono fun y hy => sub_ne_zero.mp hy
  case min =>
    have := (hg.sub hk).eventually_ne (sub_ne_zero.mpr h)
    exact this.mono fun y hy => sub_ne_zero.mp hy
  case pow =>
    rcases h with h | ⟨h1, m, hm, h2⟩
    · exact (hg.eventually (lt_mem_nhds h)).mono fun _ => Or.inl
    · rcases h2 with h2 | h2
      · exact (hg.eventually_ne h2).mono fun y hy =>
          Or.inr ⟨h1, m, (hl h1 y).trans hm, Or.inl hy⟩
      · exact Eventually.of_forall fun y => Or.inr ⟨h1, m, (hl h1 y).trans hm, Or.inr h2⟩
  all_goals exact Eventually.of_forall fun _ => trivial

/-- Smoothness of `t` is open along each coordinate. -/
def OpenSm (t : Term) : Prop :=
  ∀ env k, t.Smooth env → ∀ᶠ x in 𝓝 (env k), t.Smooth (Function.update env k x)

/-- Variables of the API and their nodes. -/
structure VarsOK {S : Type} (h : Heap S) (vs : ℕ → ℕ) (N : ℕ) : Prop where
  lt : ∀ k, k < N → vs k < h.next
  op : ∀ k, k < N → h.op (vs k) = .variable
  inj : ∀ j k, j < N → k < N → vs j = vs k → j = k

theorem VarsOK.mono {S : Type} [ScalarOps S] {h h' : Heap S} {vs : ℕ → ℕ} {N : ℕ} (v : VarsOK h vs N) (g : Mono h h') :
    VarsOK h' vs N :=
  ⟨fun k hk => g.lt (v.lt k hk), fun k hk => by rw [g.op _ (v.lt k hk)]; exact v.op k hk, v.inj⟩

theorem VarsOK.update {h : Heap ℝ} {vs : ℕ → ℕ} {N k : ℕ} (v : VarsOK h vs N) (hk : k < N)
    (η : ℕ → ℝ) (x : ℝ) : ∀ j, j < N →
      Function.update η (vs k) x (vs j) = Function.update (fun j => η (vs j)) k x j := by
  intro j hj
  by_cases h1 : j = k
  · subst h1; simp
  · have : vs j ≠ vs k := fun e => h1 (v.inj j k hj hk e)
    simp [h1, this]

/-- Where it is smooth, a represented expression has the derivative that reverse accumulation
computes. -/
theorem Rep.hasDerivAt {h : Heap ℝ} (wf : WF h) {vs : ℕ → ℕ} {N : ℕ} (v : VarsOK h vs N) {t : Term}
    {e : ℕ} (r : Rep h vs t e) (hv : t.Vars N) (ho : OpenSm t) {k : ℕ} (hk : k < N) (η : ℕ → ℝ)
    (hs : t.Smooth (fun j => η (vs j))) :
    HasDerivAt (fun x => t.eval (Function.update (fun j => η (vs j)) k x))
      (tgv h (ev h η) (dir (vs k)) e) (η (vs k)) := by
  have h1 : HasDerivAt (fun s => ev h (Function.update η (vs k) s) e)
      (tgv h (ev h (Function.update η (vs k) (η (vs k)))) (dir (vs k)) e) (η (vs k)) := by
    apply hasDerivAt_ev wf (fun s => Function.update η (vs k) s) (dir (vs k)) (η (vs k)) _ e r.lt
    · simp only [Function.update_eq_self]
      exact r.sm η hs
    · intro n
      by_cases hn : n = vs k
      · subst hn
        simp only [Function.update_self, dir, if_true]
        exact hasDerivAt_id _
      · simp only [Function.update_of_ne hn, dir, if_neg hn]
        exact hasDerivAt_const _ _
  rw [Function.update_eq_self] at h1
  refine h1.congr_of_eventuallyEq ?_
  refine (ho _ k hs).mono fun x hx => ?_
  have hc := v.update hk η x
  have hx' : t.Smooth (fun j => Function.update η (vs k) x (vs j)) :=
    (Term.smooth_congr t hv hc).mpr hx
  show _ = ev h (Function.update η (vs k) x) e
  rw [r.sem _ (t.smooth_dom hx')]
  exact (Term.eval_congr t hv hc).symm

theorem Rep.pd {h h' : Heap ℝ} (wf : WF h) {vs : ℕ → ℕ} {N : ℕ} (v : VarsOK h vs N) {t : Term}
    {e : ℕ} (r : Rep h vs t e) (hv : t.Vars N) (ho : OpenSm t) {k g : ℕ} (hk : k < N)
    (ig : IsGradE h h' e (vs k) g) : Rep h' vs (.pd k t) g where
  lt := ig.lt
  sem η hd := by
    rw [ig.sem η]
    exact (r.hasDerivAt wf v hv ho hk η hd).deriv.symm
  sm η hs := ig.sm η (r.sm η hs)
  lit hl := absurd hl (by simp [Term.IsLit])

/-- One gradient expression, as used by `get()`. -/
theorem exists_grad {h : Heap ℝ} (wf : WF h) (hcl : Clean h) {e w : ℕ} (he : e < h.next)
    (hw : w < h.next) (hop : h.op w = .variable) :
    ∃ h' g, WF h' ∧ Clean h' ∧ Ext h h' ∧ IsGradE h h' e w g := by
  obtain ⟨top, _, ht⟩ := topoSort_topOf wf he
  obtain ⟨es, h', _, wf', cl', ex', f⟩ := getRows_spec wf hcl [w] (by simp)
    (by intro x hx; simp at hx; subst hx; exact ⟨hw, hop⟩) [e] [top] (.cons ht .nil)
  rcases f with _ | ⟨f1, f2⟩
  rcases f1 with _ | ⟨f3, f4⟩
  exact ⟨h', _, wf', cl', ex', f3⟩

theorem base_heap (N : ℕ) : ∃ h : Heap ℝ, WF h ∧ Clean h ∧ VarsOK h id N := by
  suffices H : ∃ h : Heap ℝ, WF h ∧ Clean h ∧ h.next = N ∧ ∀ k, k < N → h.op k = .variable by
    obtain ⟨h, a, b, c, d⟩ := H
    exact ⟨h, a, b, fun k hk => by rw [c]; exact hk, d, fun j k _ _ e => e⟩
  induction N with
  | zero =>
    refine ⟨⟨0, fun _ => .constant, fun _ => .none, fun _ => (none, none), fun _ => 0, fun _ => 0,
      fun _ => none, fun _ => -1⟩, ?_, fun _ => rfl, rfl, by simp⟩
    constructor
    · intro n c hc; simp [Graph.kids, List.reduceOption] at hc
    all_goals simp
  | succ N ih =>
    obtain ⟨h, wf, cl, hn, hop⟩ := ih
    have b := mkVar_builds wf
    refine ⟨(mkVar h).2, b.wf, fun n => by rw [b.grow.adjE_eq wf b.wf]; exact cl n, ?_, ?_⟩
    · simp [mkVar, alloc, hn]
    · intro k hk
      by_cases h1 : k < N
      · rw [b.grow.op k (by omega)]; exact hop k h1
      · have : k = h.next := by omega
        subst this; simp [mkVar, alloc]

/-- Any expression over existing variables can be built, and smooth expressions stay smooth nearby. -/
theorem exists_rep_open (t : Term) :
    OpenSm t ∧ ∀ N (h : Heap ℝ) vs, t.Vars N → WF h → Clean h → VarsOK h vs N →
      ∃ h' e, WF h' ∧ Clean h' ∧ Ext h h' ∧ Rep h' vs t e := by
  -- continuity follows from the other two facts
  have cont : ∀ t : Term, (OpenSm t ∧ ∀ N (h : Heap ℝ) vs, t.Vars N → WF h → Clean h →
      VarsOK h vs N → ∃ h' e, WF h' ∧ Clean h' ∧ Ext h h' ∧ Rep h' vs t e) → ∀ env k,
      t.Smooth env → ContinuousAt (fun x => t.eval (Function.update env k x)) (env k) := by
    intro t ⟨ho, hr⟩ env k hs
    obtain ⟨N0, hN0⟩ := t.exists_vars
    have hN := t.vars_mono (le_max_left N0 (k + 1)) hN0
    obtain ⟨h, wf, cl, hv⟩ := base_heap (Max.max N0 (k + 1))
    obtain ⟨h', e, wf', cl', ex, r⟩ := hr _ h id hN wf cl hv
    have := r.hasDerivAt wf' (hv.mono ex.mono) hN ho
      (lt_of_lt_of_le (Nat.lt_succ_self k) (le_max_right _ _)) env hs
    exact this.continuousAt
  have clean : ∀ {h h' : Heap ℝ}, WF h → WF h' → Grow h h' → Clean h → Clean h' :=
    fun wf wf' g cl n => by rw [g.adjE_eq wf wf']; exact cl n
  induction t with
  | lit c =>
    refine ⟨fun _ _ _ => Eventually.of_forall fun _ => trivial, fun N h vs _ wf cl hv => ?_⟩
    have b := mkConst_builds wf c
    exact ⟨_, _, b.wf, clean wf b.wf b.grow cl, b.grow.ext, b.lt, fun η _ => b.sem η,
      fun η _ => b.sm η trivial, fun _ => by simp [mkConst, alloc]⟩
  | var k =>
    refine ⟨fun _ _ _ => Eventually.of_forall fun _ => trivial, fun N h vs hk wf cl hv => ?_⟩
    have hargs : h.args (vs k) = (none, none) := by
      have := wf.arity _ (hv.lt k hk)
      rw [hv.op k hk] at this
      simpa [ArityOK, Op.arity] using this
    refine ⟨h, vs k, wf, cl, Ext.refl h, hv.lt k hk, fun η _ => ?_, fun η _ => ?_,
      fun hl => absurd hl (by simp [Term.IsLit])⟩
    · rw [ev_leaf (by rw [hargs]), if_neg (by rw [hv.op k hk]; simp)]; rfl
    · exact Sm_leaf (by rw [hargs])
  | un f t ih =>
    refine ⟨fun env k hs => ?_, fun N h vs hN wf cl hv => ?_⟩
    · have h1 := ih.1 env k hs.1
      have h2 := UnOp.smooth_open f (cont t ih env k hs.1) (by
        simp only [Function.update_eq_self]; exact hs.2)
      exact h1.and h2
    · obtain ⟨h1, e, wf1, cl1, ex1, r⟩ := ih.2 N h vs hN wf cl hv
      obtain ⟨wf2, g2, r2⟩ := r.un wf1 f
      exact ⟨_, _, wf2, clean wf1 wf2 g2 cl1, ex1.trans g2.ext, r2⟩
  | bin f s t ih1 ih2 =>
    refine ⟨fun env k hs => ?_, fun N h vs hN wf cl hv => ?_⟩
    · have h1 := ih1.1 env k hs.1
      have h2 := ih2.1 env k hs.2.1
      have h3 := BinOp.smooth_open f (l := t.IsLit) (cont s ih1 env k hs.1) (cont t ih2 env k hs.2.1)
        (by
          intro hl y
          cases t with
          | lit c => rfl
          | _ => exact absurd hl (by simp [Term.IsLit]))
        (by simp only [Function.update_eq_self]; exact hs.2.2)
      exact h1.and (h2.and h3)
    · obtain ⟨h1, e1, wf1, cl1, ex1, r1⟩ := ih1.2 N h vs hN.1 wf cl hv
      obtain ⟨h2, e2, wf2, cl2, ex2, r2⟩ := ih2.2 N h1 vs hN.2 wf1 cl1 (hv.mono ex1.mono)
      obtain ⟨wf3, g3, r3⟩ := (r1.mono ex2.mono).bin wf2 r2 f
      exact ⟨_, _, wf3, clean wf2 wf3 g3 cl2, (ex1.trans ex2).trans g3.ext, r3⟩
  | pd k t ih =>
    refine ⟨ih.1, fun N h vs hN wf cl hv => ?_⟩
    obtain ⟨h1, e, wf1, cl1, ex1, r⟩ := ih.2 N h vs hN.2 wf cl hv
    have hv1 := hv.mono ex1.mono
    obtain ⟨h2, g, wf2, cl2, ex2, ig⟩ := exists_grad wf1 cl1 r.lt (hv1.lt k hN.1) (hv1.op k hN.1)
    exact ⟨h2, g, wf2, cl2, ex1.trans ex2, r.pd wf1 hv1 hN.2 ih.1 hN.1 ig⟩

theorem Term.openSm (t : Term) : OpenSm t := (exists_rep_open t).1

/-- Partial derivatives of smooth expressions exist, so `pd` is not a conventional value. -/
theorem Term.hasDerivAt (t : Term) {env : ℕ → ℝ} (k : ℕ) (hs : t.Smooth env) :
    HasDerivAt (fun x => t.eval (Function.update env k x)) ((Term.pd k t).eval env) (env k) := by
  obtain ⟨N0, hN0⟩ := t.exists_vars
  have hN := t.vars_mono (le_max_left N0 (k + 1)) hN0
  obtain ⟨h, wf, cl, hv⟩ := base_heap (Max.max N0 (k + 1))
  obtain ⟨h', e, wf', cl', ex, r⟩ := (exists_rep_open t).2 _ h id hN wf cl hv
  have := r.hasDerivAt wf' (hv.mono ex.mono) hN t.openSm
    (lt_of_lt_of_le (Nat.lt_succ_self k) (le_max_right _ _)) env hs
  exact this.differentiableAt.hasDerivAt

end Slp
