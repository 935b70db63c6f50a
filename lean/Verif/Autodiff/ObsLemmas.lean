import Verif.Autodiff.StepLemmas

/-! Closed forms of what the API returns, valid also outside the domain of the expressions, and what
later calls leave alone. -/

set_option linter.unusedSimpArgs false

namespace Slp

theorem dense_congr {m m' : ℕ → ℕ → ℝ} {rows cols : ℕ}
    (h : ∀ r c, r < rows → c < cols → m r c = m' r c) : dense m rows cols = dense m' rows cols := by
  unfold dense
  refine List.map_congr_left fun r hr => List.map_congr_left fun c hc => h r c ?_ ?_
  · simpa using hr
  · simpa using hc

/-- Entries of a derivative object at the current values of the variables. -/
noncomputable def entry (h : Heap ℝ) (J : JacObj ℝ) (r c : ℕ) : ℝ :=
  rowGrad h (J.wrt.getD c 0) (J.vars.getD r none)

/-- Closed form of the observation calls. -/
noncomputable def observe (s : Api ℝ) : Cmd ℝ → Option (Obs ℝ)
  | .value i => (s.objs[i]?).map fun x => .num (ev s.heap s.heap.val x.expr)
  | .type i => (s.objs[i]?).map fun x => .ty (s.heap.ty x.expr)
  | .jacValue j => (s.jacs[j]?).map fun J =>
      .mat (dense (entry s.heap J) J.vars.length J.wrt.length)
  | .hessValue j => (s.hess[j]?).map fun p =>
      .mat (dense (fun r c => if p.1 && r < c then 0 else entry s.heap p.2 r c) p.2.vars.length
        p.2.wrt.length)
  | _ => none

/-- Calls that return something. -/
def Cmd.Observes : Cmd ℝ → Prop
  | .value _ | .type _ | .jacValue _ | .hessValue _ => True
  | _ => False

theorem value_entry {h : Heap ℝ} (wf : WF h) {J : JacObj ℝ} (jo : JacOK h J) {r c : ℕ}
    (hr : r < J.vars.length) (hc : c < J.wrt.length) : (J.value h).1 r c = entry h J r c := by
  obtain ⟨_, _, _, _, hv⟩ := JacObj.value_spec wf jo
  obtain ⟨v, e⟩ := get_lt hr
  rw [hv r c v e hc, entry, getD_get e]

theorem step_observe {vs : ℕ → ℕ} {σ : Spec} {s : Api ℝ} (I : InvV vs σ s) {c : Cmd ℝ}
    (hc : c.Observes) : (step c s).map Prod.fst = observe s c := by
  cases c <;> simp only [Cmd.Observes] at hc
  case value i =>
    rcases hx : s.objs[i]? with _ | x
    · simp [step, observe, hx]
    · obtain ⟨s', e, _⟩ := I.value hx
      simp [e, observe, hx]
  case type i =>
    rcases hx : s.objs[i]? with _ | x <;> simp [step, observe, hx]
  case jacValue j =>
    rcases hx : s.jacs[j]? with _ | J
    · simp [step, observe, hx]
    · obtain ⟨p, _, jo⟩ := forall2_get_r I.jacs j hx
      simp only [step, observe, hx, Option.map_some]
      rw [dense_congr fun r c hr hc => value_entry I.wf jo.ok hr hc]
  case hessValue j =>
    rcases hx : s.hess[j]? with _ | ⟨lower, J⟩
    · simp [step, observe, hx]
    · obtain ⟨p, _, _, jo⟩ := forall2_get_r I.hess j hx
      simp only [step, observe, hx, Option.map_some]
      refine congrArg some (congrArg Obs.mat (dense_congr fun r c hr hc => ?_))
      simp only [hessianValue]
      rw [value_entry I.wf jo.ok hr hc]
      rfl

/-! ### What later calls leave alone -/

/-- `c` assigns to object `i`. -/
def Cmd.Assigns (i : ℕ) : Cmd ℝ → Prop
  | .assign k _ | .assignLit k _ => k = i
  | _ => False

/-- `c` changes what existing objects stand for. -/
def Cmd.Mutates : Cmd ℝ → Prop
  | .assign _ _ | .assignLit _ _ | .setValue _ _ => True
  | _ => False

structure Later (s s' : Api ℝ) : Prop where
  mono : Mono s.heap s'.heap
  jacs : ∀ (j : ℕ) (J : JacObj ℝ), s.jacs[j]? = some J → ∃ J' : JacObj ℝ, s'.jacs[j]? = some J' ∧ J'.vars = J.vars ∧ J'.wrt = J.wrt
  hess : ∀ (j : ℕ) (b : Bool) (J : JacObj ℝ), s.hess[j]? = some (b, J) →
    ∃ J' : JacObj ℝ, s'.hess[j]? = some (b, J') ∧ J'.vars = J.vars ∧ J'.wrt = J.wrt

theorem Later.refl (s : Api ℝ) : Later s s :=
  ⟨Mono.refl _, fun _ J h => ⟨J, h, rfl, rfl⟩, fun _ _ J h => ⟨J, h, rfl, rfl⟩⟩

theorem Later.trans {s s' s'' : Api ℝ} (a : Later s s') (b : Later s' s'') : Later s s'' where
  mono := a.mono.trans b.mono
  jacs j J h := by
    obtain ⟨J1, h1, e1, e2⟩ := a.jacs j J h
    obtain ⟨J2, h2, e3, e4⟩ := b.jacs j J1 h1
    exact ⟨J2, h2, e3.trans e1, e4.trans e2⟩
  hess j f J h := by
    obtain ⟨J1, h1, e1, e2⟩ := a.hess j f J h
    obtain ⟨J2, h2, e3, e4⟩ := b.hess j f J1 h1
    exact ⟨J2, h2, e3.trans e1, e4.trans e2⟩

/-- Object `i` refers to node `e`. -/
def At (s : Api ℝ) (i e : ℕ) : Prop := ∃ x, s.objs[i]? = some x ∧ x.expr = e

theorem getElem?_append_some {α : Type} {l m : List α} {i : ℕ} {a : α} (h : l[i]? = some a) :
    (l ++ m)[i]? = some a := by
  rw [List.getElem?_append_left (List.getElem?_eq_some_iff.mp h).1]; exact h

theorem at_append {s : Api ℝ} {h' : Heap ℝ} {m : List VarObj} {i e : ℕ} (a : At s i e) :
    At { s with heap := h', objs := s.objs ++ m } i e := by
  obtain ⟨x, hx, hxe⟩ := a
  exact ⟨x, getElem?_append_some hx, hxe⟩

theorem later_objs {s : Api ℝ} {h' : Heap ℝ} {m : List VarObj} (g : Mono s.heap h') :
    Later s { s with heap := h', objs := m } :=
  ⟨g, fun _ J h => ⟨J, h, rfl, rfl⟩, fun _ _ J h => ⟨J, h, rfl, rfl⟩⟩

theorem step_later {vs : ℕ → ℕ} {σ : Spec} {s s' : Api ℝ} (I : InvV vs σ s) {c : Cmd ℝ}
    (hv : Valid c σ) {o : Obs ℝ} (hs : step c s = some (o, s')) :
    Later s s' ∧ (∀ i e, ¬ c.Assigns i → At s i e → At s' i e) ∧
      (¬ c.Mutates → ∀ n, n < s.heap.next → s.heap.op n = .variable →
        s'.heap.val n = s.heap.val n) := by
  have hleaf : ∀ n, n < s.heap.next → s.heap.op n = .variable → (s.heap.args n).1 = none := by
    intro n hn ho
    have := I.wf.arity n hn
    rw [ho] at this
    simp [ArityOK, Op.arity] at this
    rw [this]
  have push : ∀ m : HM ℝ ℕ, Grow s.heap (m s.heap).2 → s' = s.push m →
      Later s s' ∧ (∀ i e, ¬ c.Assigns i → At s i e → At s' i e) ∧
      (¬ c.Mutates → ∀ n, n < s.heap.next → s.heap.op n = .variable →
        s'.heap.val n = s.heap.val n) := by
    intro m g e
    subst e
    exact ⟨later_objs g.ext.mono, fun i e _ a => at_append a, fun _ n hn _ => g.val n hn⟩
  have num : ∀ h', Num s.heap h' → ∀ n, n < s.heap.next → s.heap.op n = .variable →
      h'.val n = s.heap.val n := fun h' g n hn ho => g.leaf n (hleaf n hn ho)
  cases c with
  | decl => cases hs; exact push _ (mkVar_builds I.wf).grow rfl
  | lit c => cases hs; exact push _ (mkConst_builds I.wf c).grow rfl
  | un f i =>
    obtain ⟨t, x, ht, hx, hd, ob⟩ := I.obj hv
    simp only [step, hx] at hs
    cases hs
    exact push _ (ob.rep.un I.wf f).2.1 rfl
  | bin f i j =>
    obtain ⟨t, x, ht, hx, hd, ob⟩ := I.obj hv.1
    obtain ⟨t', x', ht', hx', hd', ob'⟩ := I.obj hv.2
    simp only [step, hx, hx'] at hs
    cases hs
    exact push _ (ob.rep.bin I.wf ob'.rep f).2.1 rfl
  | hypot3 i j k =>
    obtain ⟨t, x, ht, hx, hd, ob⟩ := I.obj hv.1
    obtain ⟨t', x', ht', hx', hd', ob'⟩ := I.obj hv.2.1
    obtain ⟨t2, x2, ht2, hx2, hd2, ob2⟩ := I.obj hv.2.2
    simp only [step, hx, hx', hx2] at hs
    cases hs
    exact push _ (hypot3_rep I.wf ob.rep ob'.rep ob2.rep).2.1 rfl
  | copy i =>
    obtain ⟨t, x, ht, hx, hd, ob⟩ := I.obj hv
    simp only [step, hx] at hs
    cases hs
    exact ⟨later_objs (Mono.refl _), fun i e _ a => at_append a, fun _ _ _ _ => rfl⟩
  | assign i j =>
    obtain ⟨t, x, ht, hx, hd, ob⟩ := I.obj hv.1
    obtain ⟨t', x', ht', hx', hd', ob'⟩ := I.obj hv.2
    simp only [step, hx, hx'] at hs
    cases hs
    refine ⟨later_objs (Mono.refl _), fun k e hk a => ?_, fun hm => absurd trivial hm⟩
    obtain ⟨y, hy, hye⟩ := a
    exact ⟨y, by rw [List.getElem?_set_ne hk]; exact hy, hye⟩
  | assignLit i c =>
    obtain ⟨t, x, ht, hx, hd, ob⟩ := I.obj hv
    simp only [step, hx] at hs
    cases hs
    refine ⟨later_objs (mkConst_builds I.wf c).grow.ext.mono, fun k e hk a => ?_,
      fun hm => absurd trivial hm⟩
    obtain ⟨y, hy, hye⟩ := a
    exact ⟨y, by rw [List.getElem?_set_ne hk]; exact hy, hye⟩
  | setValue i v =>
    obtain ⟨k, hk⟩ := hv
    obtain ⟨x, hx, ob⟩ := forall2_get I.objs i hk
    simp only [step, hx] at hs
    cases hs
    have g := (setVal_spec I.wf ob.rep.lt (by rw [ob.var k rfl]; exact I.vok.op k ob.vars) v).2
    exact ⟨later_objs g, fun _ _ _ a => a, fun hm => absurd trivial hm⟩
  | value i =>
    obtain ⟨t, x, ht, hx, hd, ob⟩ := I.obj hv
    obtain ⟨l, h', e, g, hl⟩ := value_spec I.wf ob
    simp only [step, hx, e] at hs
    cases hs
    refine ⟨later_objs (g.mono I.wf), fun k e _ a => ?_, fun _ => num _ g⟩
    obtain ⟨y, hy, hye⟩ := a
    by_cases hik : i = k
    · subst hik
      rw [hx] at hy
      cases hy
      exact ⟨⟨x.expr, some l⟩, by
        simp only [List.getElem?_set_self (List.getElem?_eq_some_iff.mp hx).1], hye⟩
    · exact ⟨y, by simp only [List.getElem?_set_ne hik]; exact hy, hye⟩
  | type i =>
    obtain ⟨t, x, ht, hx, hd, ob⟩ := I.obj hv
    simp only [step, hx] at hs
    cases hs
    exact ⟨Later.refl _, fun _ _ _ a => a, fun _ _ _ _ => rfl⟩
  | jac rows wrt =>
    obtain ⟨J, h', e, g, jo, _⟩ := I.jacStep rows wrt hv.1 hv.2
    simp only [step, e] at hs
    cases hs
    exact ⟨⟨g.mono I.wf, fun j J' h => ⟨J', getElem?_append_some h, rfl, rfl⟩,
      fun _ _ J h => ⟨J, h, rfl, rfl⟩⟩, fun _ _ _ a => a, fun _ => num _ g⟩
  | jacValue j =>
    obtain ⟨⟨ts, ks⟩, hp⟩ := get_lt hv
    obtain ⟨J, hJ, jo⟩ := forall2_get I.jacs j hp
    obtain ⟨g, jo', e1, e2, _⟩ := JacObj.value_spec I.wf jo.ok
    simp only [step, hJ] at hs
    cases hs
    refine ⟨⟨g.mono I.wf, fun k J' h => ?_, fun _ _ J h => ⟨J, h, rfl, rfl⟩⟩, fun _ _ _ a => a,
      fun _ => num _ g⟩
    by_cases hjk : j = k
    · subst hjk
      rw [hJ] at h
      cases h
      exact ⟨_, List.getElem?_set_self (List.getElem?_eq_some_iff.mp hJ).1, e1, e2⟩
    · exact ⟨J', by rw [List.getElem?_set_ne hjk]; exact h, rfl, rfl⟩
  | jacGet j =>
    obtain ⟨⟨ts, ks⟩, hp⟩ := get_lt hv
    obtain ⟨J, hJ, jo⟩ := forall2_get I.jacs j hp
    obtain ⟨es, h', e, _, _, ex, _⟩ := jo.get I.wf I.clean I.vok
    simp only [step, hJ, e] at hs
    cases hs
    exact ⟨later_objs ex.mono, fun i e _ a => at_append a, fun _ n hn _ => ex.val n hn⟩
  | hess lower i wrt =>
    obtain ⟨t, x, ht, hx, hd, ob⟩ := I.obj hv.1
    obtain ⟨e1, hk⟩ := wrt_eq I wrt hv.2.1
    obtain ⟨H, h', h1, e, wf', cl', jo, hH, ex, wf1, nu, f⟩ := hessian_spec I.wf I.clean ob.rep.lt
      ((σ.vars wrt).map vs) (nodup_map_vs I.vok hk hv.2.2)
      (by
        intro w hw'
        obtain ⟨k, hk', rfl⟩ := List.mem_map.mp hw'
        exact ⟨I.vok.lt k (hk k hk'), I.vok.op k (hk k hk')⟩)
    simp only [step, hx, e1, e] at hs
    cases hs
    refine ⟨⟨ex.mono.trans (nu.mono wf1), fun _ J h => ⟨J, h, rfl, rfl⟩,
      fun j b J' h => ⟨J', getElem?_append_some h, rfl, rfl⟩⟩, fun _ _ _ a => a, fun _ n hn ho => ?_⟩
    rw [nu.leaf n (by rw [ex.args n hn]; exact hleaf n hn ho), ex.val n hn]
  | hessValue j =>
    obtain ⟨⟨lower, t, ks⟩, hp⟩ := get_lt hv
    obtain ⟨⟨lower', J⟩, hJ, hl0, jo⟩ := forall2_get I.hess j hp
    obtain ⟨g, jo', e1, e2, _⟩ := JacObj.value_spec I.wf jo.ok
    simp only [step, hJ, hessianValue] at hs
    cases hs
    refine ⟨⟨g.mono I.wf, fun _ J h => ⟨J, h, rfl, rfl⟩, fun k b J' h => ?_⟩, fun _ _ _ a => a,
      fun _ => num _ g⟩
    by_cases hjk : j = k
    · subst hjk
      rw [hJ] at h
      cases h
      exact ⟨_, List.getElem?_set_self (List.getElem?_eq_some_iff.mp hJ).1, e1, e2⟩
    · exact ⟨J', by rw [List.getElem?_set_ne hjk]; exact h, rfl, rfl⟩
  | hessGet j =>
    obtain ⟨⟨lower, t, ks⟩, hp⟩ := get_lt hv
    obtain ⟨⟨lower', J⟩, hJ, hl0, jo⟩ := forall2_get I.hess j hp
    obtain ⟨es, h', e, _, _, ex, _⟩ := jo.get I.wf I.clean I.vok
    simp only [step, hJ, e] at hs
    cases hs
    exact ⟨later_objs ex.mono, fun i e _ a => at_append a, fun _ n hn _ => ex.val n hn⟩

theorem run_later {σ : Spec} {s s' : Api ℝ} (I : Inv σ s) {cs : List (Cmd ℝ)} (hv : ValidAll cs σ)
    {os : List (Obs ℝ)} (hs : run cs s = some (os, s')) :
    Later s s' ∧ (∀ i e, (∀ c ∈ cs, ¬ c.Assigns i) → At s i e → At s' i e) ∧
      ((∀ c ∈ cs, ¬ c.Mutates) → ∀ n, n < s.heap.next → s.heap.op n = .variable →
        s'.heap.val n = s.heap.val n) := by
  induction cs generalizing σ s os with
  | nil => cases hs; exact ⟨Later.refl _, fun _ _ _ a => a, fun _ _ _ _ => rfl⟩
  | cons c cs ih =>
    obtain ⟨o, s1, e1, r1, I1⟩ := step_ok I c hv.1
    obtain ⟨os2, s2, e2, _, _⟩ := run_ok I1 cs hv.2
    simp only [run, e1, e2] at hs
    cases hs
    obtain ⟨vs, I⟩ := I
    obtain ⟨l1, a1, m1⟩ := step_later I hv.1 e1
    obtain ⟨l2, a2, m2⟩ := ih I1 hv.2 e2
    refine ⟨l1.trans l2, fun i e hi a => a2 i e (fun c hc => hi c (by simp [hc]))
      (a1 i e (hi c (by simp)) a), fun hm n hn ho => ?_⟩
    rw [m2 (fun c hc => hm c (by simp [hc])) n (l1.mono.lt hn) (by rw [l1.mono.op n hn]; exact ho),
      m1 (hm c (by simp)) n hn ho]

theorem run_append {S : Type} [ScalarOps S] (cs ds : List (Cmd S)) (s : Api S) :
    run (cs ++ ds) s = match run cs s with
      | none => none
      | some (os, s1) => match run ds s1 with
        | none => none
        | some (os', s2) => some (os ++ os', s2) := by
  induction cs generalizing s with
  | nil => simp only [List.nil_append, run]; rcases run ds s with _ | ⟨a, b⟩ <;> rfl
  | cons c cs ih =>
    simp only [List.cons_append, run]
    rcases step c s with _ | ⟨o, s1⟩
    · rfl
    · simp only [ih]
      rcases run cs s1 with _ | ⟨os, s2⟩
      · rfl
      · rcases h : run ds s2 with _ | ⟨a, b⟩ <;> simp [h]

theorem validAll_append (cs ds : List (Cmd ℝ)) (σ : Spec) :
    ValidAll (cs ++ ds) σ ↔ ValidAll cs σ ∧ ValidAll ds (σ.after cs) := by
  induction cs generalizing σ with
  | nil => simp [ValidAll, Spec.after]
  | cons c cs ih =>
    simp only [List.cons_append, ValidAll, ih, and_assoc]
    rfl

theorem after_append (cs ds : List (Cmd ℝ)) (σ : Spec) :
    σ.after (cs ++ ds) = (σ.after cs).after ds := by
  simp [Spec.after]

/-! ### Denotations of old nodes in a later heap -/

theorem leaf_var {h : Heap ℝ} (wf : WF h) {n : ℕ} (hn : n < h.next) (ha : (h.args n).1 = none)
    (hc : h.op n ≠ .constant) : h.op n = .variable := by
  have := wf.arity n hn
  cases hop : h.op n <;> rw [hop] at this hc <;> simp [ArityOK, Op.arity] at this hc ⊢ <;>
    (rcases hx : h.args n with ⟨a, b⟩; rw [hx] at this ha; simp_all)

theorem evVal_mono {h h' : Heap ℝ} (wf : WF h) (g : Mono h h')
    (hval : ∀ n, n < h.next → h.op n = .variable → h'.val n = h.val n) {n : ℕ} (hn : n < h.next) :
    ev h' h'.val n = ev h h.val n :=
  ev_congr g.same (fun m hm h1 h2 => hval m hm (leaf_var wf hm h1 h2)) n hn

theorem rowGradAt_mono {h h' : Heap ℝ} (wf : WF h) (g : Mono h h') (η : ℕ → ℝ) (w : ℕ)
    {v : Option ℕ} (hv : ∀ r, v = some r → r < h.next) :
    rowGradAt h' η w v = rowGradAt h η w v := by
  cases v with
  | none => rfl
  | some r =>
    simp only [rowGradAt]
    rw [g.tgv _ _ (hv r rfl)]
    exact tgv_congr_v wf r fun n hn => g.ev η (reach_lt wf (hv r rfl) hn)

theorem rowGrad_mono {h h' : Heap ℝ} (wf : WF h) (g : Mono h h')
    (hval : ∀ n, n < h.next → h.op n = .variable → h'.val n = h.val n) (w : ℕ)
    {v : Option ℕ} (hv : ∀ r, v = some r → r < h.next) : rowGrad h' w v = rowGrad h w v := by
  cases v with
  | none => rfl
  | some r =>
    simp only [rowGrad]
    rw [g.tgv _ _ (hv r rfl)]
    exact tgv_congr_v wf r fun n hn => evVal_mono wf g hval (reach_lt wf (hv r rfl) hn)

end Slp
