import Verif.Rounding.FloatJacLemmas

/-! Each API call in floating-point arithmetic preserves the invariant and is as accurate as the specification says. -/

set_option linter.unusedSimpArgs false

namespace Slp

open ScalarOps

namespace FloatMath

variable {A : FloatMath}

structure FObjOK (h : Heap A.Num) (vs : ℕ → ℕ) (N : ℕ) (t : Term) (o : VarObj) : Prop where
  rep : GRep h vs t o.expr
  vars : t.Vars N
  var : ∀ k, t = .var k → o.expr = vs k
  graph : ∀ l, o.graph = some l → TopOf h o.expr l

theorem FObjOK.mono {h h' : Heap A.Num} {vs vs' : ℕ → ℕ} {N N' : ℕ} {t : Term} {o : VarObj}
    (r : FObjOK h vs N t o) (wf : WF h) (g : Mono h h') (hN : N ≤ N')
    (hvs : ∀ k, k < N → vs' k = vs k) : FObjOK h' vs' N' t o where
  rep := (r.rep.mono wf g).change r.vars hvs
  vars := t.vars_mono hN r.vars
  var k hk := by
    have hv := r.vars
    rw [hk] at hv
    rw [hvs k hv]; exact r.var k hk
  graph l hl := (r.graph l hl).mono wf g

structure FJac (h : Heap A.Num) (vs : ℕ → ℕ) (N : ℕ) (ts : List Term) (ks : List ℕ) (J : JacObj A.Num) :
    Prop where
  ok : JacF h J
  wrt : J.wrt = ks.map vs
  rows : List.Forall₂ (fun t v => ∃ e, v = some e ∧ GRep h vs t e) ts J.vars
  tv : ∀ t ∈ ts, t.Vars N
  kv : ∀ k ∈ ks, k < N

theorem FJac.mono {h h' : Heap A.Num} {vs vs' : ℕ → ℕ} {N N' : ℕ} {ts : List Term} {ks : List ℕ}
    {J : JacObj A.Num} (r : FJac h vs N ts ks J) (wf : WF h) (g : Mono h h') (hN : N ≤ N')
    (hvs : ∀ k, k < N → vs' k = vs k) : FJac h' vs' N' ts ks J where
  ok := r.ok.mono wf g
  wrt := by
    rw [r.wrt]
    exact List.map_congr_left fun k hk => (hvs k (r.kv k hk)).symm
  rows := forall2_imp_mem r.rows fun t v ht ⟨e, he, rr⟩ =>
    ⟨e, he, (rr.mono wf g).change (r.tv t ht) hvs⟩
  tv t ht := t.vars_mono hN (r.tv t ht)
  kv k hk := lt_of_lt_of_le (r.kv k hk) hN

/-- The invariant; `vs k` is the node of declared variable `k`. -/
structure FInvV (vs : ℕ → ℕ) (σ : Spec) (s : Api A.Num) : Prop where
  wf : WF s.heap
  vok : VarsOK s.heap vs σ.n
  env : ∀ k, k < σ.n → toReal (s.heap.val (vs k)) = σ.env k
  objs : List.Forall₂ (FObjOK s.heap vs σ.n) σ.terms s.objs
  jacs : List.Forall₂ (fun p J => FJac s.heap vs σ.n p.1 p.2 J) σ.jacs s.jacs

def FInv (σ : Spec) (s : Api A.Num) : Prop := ∃ vs, FInvV vs σ s

theorem finv_empty : FInv Spec.empty (Api.empty : Api A.Num) :=
  ⟨fun _ => 0, ⟨fun n c hc => by simp [Api.empty, Graph.kids] at hc, fun n _ => rfl,
    fun n hn => absurd hn (by simp [Api.empty]), fun n hn => absurd hn (by simp [Api.empty]),
    fun n hn => absurd hn (by simp [Api.empty]), fun n => rfl, fun n _ => rfl⟩,
    ⟨fun k hk => absurd hk (by simp [Spec.empty]), fun k hk => absurd hk (by simp [Spec.empty]),
      fun k _ hk => absurd hk (by simp [Spec.empty])⟩,
    fun k hk => absurd hk (by simp [Spec.empty]), .nil, .nil⟩

theorem FInvV.heap {vs : ℕ → ℕ} {σ : Spec} {s : Api A.Num} (I : FInvV vs σ s) {h' : Heap A.Num} (wf : WF h')
    (g : Mono s.heap h') (hv : ∀ k, k < σ.n → h'.val (vs k) = s.heap.val (vs k)) :
    FInvV vs σ { s with heap := h' } where
  wf := wf
  vok := I.vok.mono g
  env k hk := (congrArg toReal (hv k hk)).trans (I.env k hk)
  objs := I.objs.imp fun _ _ o => o.mono I.wf g le_rfl fun _ _ => rfl
  jacs := I.jacs.imp fun _ _ o => o.mono I.wf g le_rfl fun _ _ => rfl

theorem FInvV.grow {vs : ℕ → ℕ} {σ : Spec} {s : Api A.Num} (I : FInvV vs σ s) {h' : Heap A.Num} (wf : WF h')
    (g : Grow s.heap h') : FInvV vs σ { s with heap := h' } :=
  I.heap wf g.ext.mono fun k hk => g.val _ (I.vok.lt k hk)

theorem FInvV.num {vs : ℕ → ℕ} {σ : Spec} {s : Api A.Num} (I : FInvV vs σ s) {h' : Heap A.Num}
    (g : Slp.Num s.heap h') : FInvV vs σ { s with heap := h' } :=
  I.heap (g.wf I.wf) (g.mono I.wf) fun k hk => g.leaf _ (by rw [I.vok.args I.wf hk])

theorem FInvV.push {vs : ℕ → ℕ} {σ : Spec} {s : Api A.Num} (I : FInvV vs σ s) {m : HM A.Num ℕ} {t : Term}
    (b : MakesT vs m s.heap t) (hv : t.Vars σ.n) (hnv : ∀ k, t ≠ .var k) :
    FInvV vs { σ with terms := σ.terms ++ [t] } (s.push m) := by
  have J := I.grow b.1 b.2.1
  exact ⟨J.wf, J.vok, J.env, forall2_append J.objs (.cons ⟨b.2.2, hv, fun k hk => absurd hk (hnv k),
    by simp [freshObj]⟩ .nil), J.jacs⟩

theorem lit_makes {h : Heap A.Num} (wf : WF h) (vs : ℕ → ℕ) (c : A.Num) :
    MakesT vs (mkConst c) h (.lit (toReal c)) :=
  ⟨(mkConst_made wf c).wf, (mkConst_made wf c).grow, lit_rep wf vs c⟩

theorem FInvV.decl {vs : ℕ → ℕ} {σ : Spec} {s : Api A.Num} (I : FInvV vs σ s) :
    ∃ vs', FInvV vs' (σ.next .decl) (s.push mkVar) := by
  have b := mkVar_made I.wf
  have hmv : (mkVar s.heap).1 = s.heap.next := rfl
  have g := b.grow.ext.mono
  have hvs : ∀ k, k < σ.n → Function.update vs σ.n s.heap.next k = vs k := fun k hk => by
    simp [ne_of_lt hk]
  refine ⟨Function.update vs σ.n s.heap.next, ⟨b.wf, ⟨?_, ?_, ?_⟩, ?_, ?_, ?_⟩⟩
  · intro k hk
    rcases Nat.lt_succ_iff_lt_or_eq.mp hk with hk | rfl
    · rw [hvs k hk]; exact g.lt (I.vok.lt k hk)
    · rw [Function.update_self]; exact b.lt
  · intro k hk
    rcases Nat.lt_succ_iff_lt_or_eq.mp hk with hk | rfl
    · rw [hvs k hk]; exact (g.op _ (I.vok.lt k hk)).trans (I.vok.op k hk)
    · simp [Api.push, mkVar, alloc]
  · intro j k hj hk e
    rcases Nat.lt_succ_iff_lt_or_eq.mp hj with hj | rfl <;>
      rcases Nat.lt_succ_iff_lt_or_eq.mp hk with hk | rfl
    · rw [hvs j hj, hvs k hk] at e; exact I.vok.inj j k hj hk e
    · rw [hvs j hj, Function.update_self] at e
      exact absurd e (ne_of_lt (I.vok.lt j hj))
    · rw [hvs k hk, Function.update_self] at e
      exact absurd e (ne_of_gt (I.vok.lt k hk))
    · rfl
  · intro k hk
    rcases Nat.lt_succ_iff_lt_or_eq.mp hk with hk | rfl
    · rw [hvs k hk]
      show _ = Function.update σ.env σ.n 0 k
      rw [Function.update_of_ne (ne_of_lt hk), ← I.env k hk]
      exact congrArg toReal (b.grow.val _ (I.vok.lt k hk))
    · show _ = Function.update σ.env σ.n 0 σ.n
      simp [Api.push, mkVar, alloc]
  · refine forall2_append (I.objs.imp fun _ _ o => o.mono I.wf g (Nat.le_succ _) hvs) (.cons ?_ .nil)
    refine ⟨var_rep I.wf _ (by simp), Nat.lt_succ_self _, fun k hk => ?_, by simp [freshObj]⟩
    cases hk; simp [freshObj, hmv]
  · exact I.jacs.imp fun _ _ o => o.mono I.wf g (Nat.le_succ _) hvs

theorem FInvV.setVal {vs : ℕ → ℕ} {σ : Spec} {s : Api A.Num} (I : FInvV vs σ s) {k : ℕ} (hk : k < σ.n)
    (v : A.Num) : FInvV vs { σ with env := Function.update σ.env k (toReal v) }
      { s with heap := { s.heap with val := Function.update s.heap.val (vs k) v } } := by
  obtain ⟨wf, g⟩ := setVal_spec I.wf (I.vok.lt k hk) (I.vok.op k hk) v
  refine ⟨wf, I.vok.mono g, ?_, I.objs.imp fun _ _ o => o.mono I.wf g le_rfl fun _ _ => rfl,
    I.jacs.imp fun _ _ o => o.mono I.wf g le_rfl fun _ _ => rfl⟩
  intro j hj
  show toReal (Function.update s.heap.val (vs k) v (vs j)) = Function.update σ.env k (toReal v) j
  by_cases e : j = k
  · subst e; simp
  · have : vs j ≠ vs k := fun e' => e (I.vok.inj j k hj hk e')
    rw [Function.update_of_ne e, Function.update_of_ne this]
    exact I.env j hj

theorem fvalue_spec {h : Heap A.Num} (wf : WF h) {vs : ℕ → ℕ} {N : ℕ} {t : Term} {x : VarObj}
    (o : FObjOK h vs N t x) : ∃ l h', value x h = some (ev h h.val x.expr, ⟨x.expr, some l⟩, h') ∧
      Slp.Num h h' ∧ TopOf h x.expr l := by
  unfold value
  rcases hx : x.graph with _ | l
  · obtain ⟨l, e, ht⟩ := topoSort_topOf wf o.rep.lt
    rw [e]
    exact ⟨l, _, by simp [ht.update wf], num_updateValues l h, ht⟩
  · have ht := o.graph l hx
    refine ⟨l, _, ?_, num_updateValues l h, ht⟩
    simp only [ht.update wf]
    rw [← hx]

theorem FInvV.value {vs : ℕ → ℕ} {σ : Spec} {s : Api A.Num} (I : FInvV vs σ s) {i : ℕ} {x : VarObj}
    (hx : s.objs[i]? = some x) : ∃ s', step (.value i) s = some (.num (ev s.heap s.heap.val x.expr), s') ∧
      FInvV vs σ s' := by
  obtain ⟨t, ht, o⟩ := forall2_get_r I.objs i hx
  obtain ⟨l, h', e, g, hl⟩ := fvalue_spec I.wf o
  refine ⟨{ s with heap := h', objs := s.objs.set i ⟨x.expr, some l⟩ }, by simp [step, hx, e], ?_⟩
  have J := I.num g
  refine ⟨J.wf, J.vok, J.env, ?_, J.jacs⟩
  refine forall2_setr J.objs i fun t' ht' => ?_
  rw [ht] at ht'
  cases ht'
  have o' := o.mono I.wf (g.mono I.wf) le_rfl fun _ _ => rfl
  exact ⟨o'.rep, o'.vars, o'.var, fun l' hl' => by
    cases hl'; exact hl.mono I.wf (g.mono I.wf)⟩

theorem FInvV.obj {vs : ℕ → ℕ} {σ : Spec} {s : Api A.Num} (I : FInvV vs σ s) {i : ℕ}
    (hi : i < σ.terms.length) : ∃ t o, σ.terms[i]? = some t ∧ s.objs[i]? = some o ∧
      σ.terms.getD i (.lit 0) = t ∧ FObjOK s.heap vs σ.n t o := by
  obtain ⟨t, ht⟩ := get_lt hi
  obtain ⟨o, ho, r⟩ := forall2_get I.objs i ht
  exact ⟨t, o, ht, ho, getD_get ht, r⟩

theorem fexprs_eq {vs : ℕ → ℕ} {σ : Spec} {s : Api A.Num} (I : FInvV vs σ s) (is : List ℕ)
    (hi : ∀ i ∈ is, i < σ.terms.length) :
    List.Forall₂ (fun t e => GRep s.heap vs t e ∧ t.Vars σ.n) (σ.exprs is) (exprs s.objs is) := by
  induction is with
  | nil => exact .nil
  | cons i is ih =>
    obtain ⟨t, ht⟩ := get_lt (hi i (by simp))
    obtain ⟨o, ho, r⟩ := forall2_get I.objs i ht
    simp only [Spec.exprs, exprs, List.filterMap_cons, ht, ho, Option.map_some]
    exact .cons ⟨r.rep, r.vars⟩ (ih fun j hj => hi j (by simp [hj]))

theorem fwrt_eq {vs : ℕ → ℕ} {σ : Spec} {s : Api A.Num} (I : FInvV vs σ s) (is : List ℕ)
    (hi : ∀ i ∈ is, ∃ k, σ.terms[i]? = some (.var k)) :
    exprs s.objs is = (σ.vars is).map vs ∧ ∀ k ∈ σ.vars is, k < σ.n := by
  induction is with
  | nil => exact ⟨rfl, by simp [Spec.vars]⟩
  | cons i is ih =>
    obtain ⟨k, hk⟩ := hi i (by simp)
    obtain ⟨o, ho, r⟩ := forall2_get I.objs i hk
    obtain ⟨h1, h2⟩ := ih fun j hj => hi j (by simp [hj])
    have hkn : k < σ.n := r.vars
    simp only [Spec.vars, exprs, List.filterMap_cons, hk, ho, Option.map_some, Option.bind_some,
      Term.varOf, List.map_cons] at h1 h2 ⊢
    refine ⟨by rw [h1, r.var k rfl], ?_⟩
    intro j hj
    rcases List.mem_cons.mp hj with e | e
    · rw [e]; exact hkn
    · exact h2 j e

theorem FInvV.jacStep {vs : ℕ → ℕ} {σ : Spec} {s : Api A.Num} (I : FInvV vs σ s) (rows wrt : List ℕ)
    (hr : ∀ i ∈ rows, i < σ.terms.length) (hw : σ.WrtOK wrt) :
    ∃ J h', jacobian ((exprs s.objs rows).map some) (exprs s.objs wrt) s.heap = some (J, h') ∧
      Slp.Num s.heap h' ∧ FJac h' vs σ.n (σ.exprs rows) (σ.vars wrt) J := by
  have he := fexprs_eq I rows hr
  obtain ⟨e1, hk⟩ := fwrt_eq I wrt hw.1
  rw [e1]
  have hm : ∀ r, some r ∈ (exprs s.objs rows).map some → ∃ t, GRep s.heap vs t r := by
    intro r hr
    simp only [List.mem_map, Option.some.injEq, exists_eq_right] at hr
    obtain ⟨i, hi⟩ := List.getElem?_of_mem hr
    obtain ⟨t, _, ht⟩ := forall2_get_r he i hi
    exact ⟨t, ht.1⟩
  obtain ⟨J, h', e, g, jo, hJ1, hJ2⟩ := jacobian_float I.wf ((exprs s.objs rows).map some)
    ((σ.vars wrt).map vs)
    (fun r hr => by obtain ⟨t, ht⟩ := hm r hr; exact ht.lt)
    (nodup_map_vs I.vok hk hw.2)
    (by
      intro w hw'
      obtain ⟨k, hk', rfl⟩ := List.mem_map.mp hw'
      exact ⟨I.vok.lt k (hk k hk'), I.vok.op k (hk k hk')⟩)
  have hall : ∀ t ∈ σ.exprs rows, t.Vars σ.n := by
    intro t ht
    obtain ⟨i, hi⟩ := List.getElem?_of_mem ht
    obtain ⟨e, _, r⟩ := forall2_get he i hi
    exact r.2
  refine ⟨J, h', e, g, ⟨jo, hJ2, ?_, hall, hk⟩⟩
  rw [hJ1, List.forall₂_map_right_iff]
  exact he.imp fun t e r => ⟨e, rfl, r.1.mono I.wf (g.mono I.wf)⟩

theorem FJac.value {h : Heap A.Num} (wf : WF h) {vs : ℕ → ℕ} {N : ℕ}
    {ts : List Term} {ks : List ℕ} {J : JacObj A.Num} (j : FJac h vs N ts ks J) :
    Slp.Num h (J.value h).2.2 ∧ FJac (J.value h).2.2 vs N ts ks (J.value h).2.1 := by
  obtain ⟨g, jo, e1, e2, hval⟩ := jac_value_float wf j.ok
  refine ⟨g, ⟨jo, e2.trans j.wrt, ?_, j.tv, j.kv⟩⟩
  rw [e1]
  exact forall2_imp_mem j.rows fun t o ht ⟨e, he, r⟩ => ⟨e, he, r.mono wf (g.mono wf)⟩

/-- `x` is the entry of a Jacobian for `t` and variable `k`, up to `(κ + 2) size + 1` roundings, if all partial
derivatives are computed up to `κ` roundings. -/
def JacEntry (A : FloatMath) (env : ℕ → ℝ) (k : ℕ) (t : Term) (x : ℝ) : Prop :=
  ∃ v T P O, Tang A env (fun j => if j = k then 1 else 0) t v T P O ∧ 0 ≤ P ∧
    ∀ κ, (5 ≤ κ ∨ 1 ≤ κ ∧ ∀ op rc x y, O op rc x y → PolyOp op) →
      (∀ op rc (a b : A.Num), O op rc (toReal a) (toReal b) → Local A κ op rc a b) →
      |x - T| ≤ (A.up ((κ + 2) * t.size + 1) - 1) * P

/-- An entry of a Jacobian. -/
theorem fjac_entry {vs : ℕ → ℕ} {σ : Spec} {s : Api A.Num} (I : FInvV vs σ s) {ts : List Term}
    {ks : List ℕ} {J : JacObj A.Num} (j : FJac s.heap vs σ.n ts ks J) {r c k : ℕ} {t : Term}
    (ht : ts[r]? = some t) (hk : ks[c]? = some k) : JacEntry A σ.env k t (toReal ((J.value s.heap).1 r c)) := by
  have htm := List.mem_of_getElem? ht
  have hkm := j.kv k (List.mem_of_getElem? hk)
  have htv := j.tv t htm
  obtain ⟨o, ho, e, rfl, rep⟩ := forall2_get j.rows r ht
  obtain ⟨_, _, _, _, hval⟩ := jac_value_float I.wf j.ok
  have hc : c < J.wrt.length := by
    rw [j.wrt, List.length_map]
    exact (List.getElem?_eq_some_iff.mp hk).1
  have hb := hval r c e ho hc
  have hw : J.wrt.getD c 0 = vs k := by simp [List.getD, j.wrt, hk]
  rw [hw] at hb
  have hdir : ∀ i, i < σ.n → dir (vs k) (vs i) = if i = k then (1 : ℝ) else 0 := by
    intro i hi
    by_cases e : i = k
    · subst e; simp [dir]
    · have : vs i ≠ vs k := fun e' => e (I.vok.inj i k hi hkm e')
      simp [dir, e, this]
  have hP := tgvAbs_nonneg (wf_real I.wf).acyc (evR s.heap s.heap.val) (dir (vs k)) e
  refine ⟨_, _, _, _, (rep.tang s.heap.val (dir (vs k))).congr I.env hdir htv, hP, fun κ hκ hl => ?_⟩
  refine (hb κ ?_ ?_).trans (mul_le_mul_of_nonneg_right ?_ hP)
  · refine hκ.imp_right fun h => ⟨h.1, fun n hn => ?_⟩
    obtain ⟨l, hl⟩ := opSet_isSome e n hn
    exact h.2 _ _ _ _ ⟨n, hn, l, hl, rfl, rfl, rfl, rfl⟩
  · exact fun n hn l hl' => hl _ _ _ _ ⟨n, hn, l, hl', rfl, rfl, rfl, rfl⟩
  · have : A.up (expo κ s.heap e + 1) ≤ A.up ((κ + 2) * t.size + 1) :=
      A.up_mono (Nat.succ_le_succ (Nat.mul_le_mul_left _ rep.ops))
    linarith

theorem hypot3_makes {h : Heap A.Num} (wf : WF h) {vs : ℕ → ℕ} {x y z : Term} {a b c : ℕ}
    (ra : GRep h vs x a) (rb : GRep h vs y b) (rc : GRep h vs z c) :
    MakesT vs (hypot3 a b c) h (Term.hypot3 x y z) := by
  have two_makes : ∀ {h : Heap A.Num}, WF h → MakesT vs (mkConst (two : A.Num)) h (.lit 2) := by
    intro h wf
    have := lit_makes wf vs (two : A.Num)
    rwa [f_two] at this
  unfold hypot3
  refine (two_makes wf).bind fun h1 n1 w1 g1 r1 => ?_
  refine MakesT.bind (s := .bin .pow x (.lit 2)) ((ra.grow wf g1).bin w1 r1 .pow) fun h2 n2 w2 g2 r2 => ?_
  refine (two_makes w2).bind fun h3 n3 w3 g3 r3 => ?_
  have g03 := (g1.trans g2).trans g3
  refine MakesT.bind (s := .bin .pow y (.lit 2)) ((rb.grow wf g03).bin w3 r3 .pow) fun h4 n4 w4 g4 r4 => ?_
  refine (two_makes w4).bind fun h5 n5 w5 g5 r5 => ?_
  have g05 := (g03.trans g4).trans g5
  refine MakesT.bind (s := .bin .pow z (.lit 2)) ((rc.grow wf g05).bin w5 r5 .pow) fun h6 n6 w6 g6 r6 => ?_
  refine MakesT.bind (s := .bin .add (.bin .pow x (.lit 2)) (.bin .pow y (.lit 2)))
    ((r2.grow w2 (((g3.trans g4).trans g5).trans g6)).bin w6 (r4.grow w4 (g5.trans g6)) .add)
    fun h7 n7 w7 g7 r7 => ?_
  refine MakesT.bind (r7.bin w7 (r6.grow w6 g7) .add) fun h8 n8 w8 g8 r8 => ?_
  exact r8.un w8 .sqrt

/-- What a call returns, in terms of the computation. -/
def RawReturns (A : FloatMath) (c : Cmd ℝ) (σ : Spec) (o : Obs A.Num) : Prop :=
  match c with
  | .value i => ∃ x, o = .num x ∧ ∀ t, σ.terms[i]? = some t → ∃ T P O, 0 ≤ P ∧ Tang A σ.env 0 t (toReal x) T P O
  | .type _ => ∃ ty, o = .ty ty
  | .jacValue j => ∃ m : List (List A.Num), o = .mat m ∧ ∀ ts ks, σ.jacs[j]? = some (ts, ks) →
      MatIs ts.length ks.length (fun r c x => ∀ t k, ts[r]? = some t → ks[c]? = some k → JacEntry A σ.env k t x)
        (m.map fun row => row.map toReal)
  | _ => o = .unit

theorem gstep_ok {σ : Spec} {s : Api A.Num} (I : FInv σ s) (c : Cmd ℝ) (hv : Valid c σ) (hp : c.FirstOrder) :
    ∃ o s', step (Cmd.float A c) s = some (o, s') ∧ A.RawReturns c σ o ∧ FInv (σ.next c) s' := by
  obtain ⟨vs, I⟩ := I
  cases c with
  | decl =>
    obtain ⟨vs', J⟩ := I.decl
    exact ⟨_, _, rfl, rfl, vs', J⟩
  | lit c =>
    exact ⟨_, _, rfl, rfl, vs, I.push (lit_makes I.wf vs c) trivial (by simp)⟩
  | un f i =>
    obtain ⟨t, x, ht, hx, hd, o⟩ := I.obj hv
    have b : MakesT vs (f.build x.expr) s.heap (.un f t) := o.rep.un I.wf f
    refine ⟨.unit, s.push (f.build x.expr), ?_, rfl, vs, ?_⟩
    · show step (.un f i : Cmd A.Num) s = _
      simp only [step, hx]
    · simp only [Spec.next, hd]
      exact I.push b o.vars (by simp)
  | bin f i j =>
    obtain ⟨t, x, ht, hx, hd, o⟩ := I.obj hv.1
    obtain ⟨t', x', ht', hx', hd', o'⟩ := I.obj hv.2
    have b : MakesT vs (f.build x.expr x'.expr) s.heap (.bin f t t') := o.rep.bin I.wf o'.rep f
    refine ⟨.unit, s.push (f.build x.expr x'.expr), ?_, rfl, vs, ?_⟩
    · show step (.bin f i j : Cmd A.Num) s = _
      simp only [step, hx, hx']
    · simp only [Spec.next, hd, hd']
      exact I.push b ⟨o.vars, o'.vars⟩ (by simp)
  | copy i =>
    obtain ⟨t, x, ht, hx, hd, o⟩ := I.obj hv
    refine ⟨.unit, { s with objs := s.objs ++ [x] }, ?_, rfl, vs, ?_⟩
    · show step (.copy i : Cmd A.Num) s = _
      simp only [step, hx]
    · simp only [Spec.next, hd]
      exact ⟨I.wf, I.vok, I.env, forall2_append I.objs (.cons o .nil), I.jacs⟩
  | assign i j =>
    obtain ⟨t, x, ht, hx, hd, o⟩ := I.obj hv.1
    obtain ⟨t', x', ht', hx', hd', o'⟩ := I.obj hv.2
    refine ⟨.unit, { s with objs := s.objs.set i x' }, ?_, rfl, vs, ?_⟩
    · show step (.assign i j : Cmd A.Num) s = _
      simp only [step, hx, hx']
    · simp only [Spec.next, hd']
      exact ⟨I.wf, I.vok, I.env, forall2_set I.objs i o', I.jacs⟩
  | assignLit i c =>
    obtain ⟨t, x, ht, hx, hd, o⟩ := I.obj hv
    have b := lit_makes (A := A) I.wf vs c
    have J := I.grow b.1 b.2.1
    refine ⟨.unit, { s with heap := (mkConst (c : A.Num) s.heap).2,
                            objs := s.objs.set i (freshObj (mkConst (c : A.Num) s.heap).1) }, ?_, rfl, vs, ?_⟩
    · show step (.assignLit i c : Cmd A.Num) s = _
      simp only [step, hx]
      rfl
    · exact ⟨J.wf, J.vok, J.env, forall2_set J.objs i ⟨b.2.2, trivial, by simp,
        by simp [freshObj]⟩, J.jacs⟩
  | setValue i v =>
    obtain ⟨k, hk⟩ := hv
    obtain ⟨x, hx, o⟩ := forall2_get I.objs i hk
    refine ⟨.unit, { s with heap := setValue x (v : A.Num) s.heap }, ?_, rfl, vs, ?_⟩
    · show step (.setValue i v : Cmd A.Num) s = _
      simp only [step, hx]
    · simp only [Spec.next, hk, Option.bind_some, Term.varOf, setValue, o.var k rfl]
      exact I.setVal o.vars v
  | value i =>
    obtain ⟨t, x, ht, hx, hd, o⟩ := I.obj hv
    obtain ⟨s', e, I'⟩ := I.value hx
    refine ⟨_, s', e, ⟨_, rfl, fun t' ht' => ?_⟩, vs, I'⟩
    rw [ht] at ht'
    cases ht'
    exact ⟨_, _, _, tgvAbs_nonneg (wf_real I.wf).acyc _ _ _,
      (o.rep.tang s.heap.val 0).congr I.env (fun _ _ => rfl) o.vars⟩
  | type i =>
    obtain ⟨t, x, ht, hx, hd, o⟩ := I.obj hv
    refine ⟨.ty (s.heap.ty x.expr), s, ?_, ⟨_, rfl⟩, vs, I⟩
    show step (.type i : Cmd A.Num) s = _
    simp only [step, hx]
  | jac rows wrt =>
    obtain ⟨J, h', e, g, jo⟩ := I.jacStep rows wrt hv.1 hv.2
    have I' := I.num g
    refine ⟨.unit, { s with heap := h', jacs := s.jacs ++ [J] }, ?_, rfl, vs,
      I'.wf, I'.vok, I'.env, I'.objs, forall2_append I'.jacs (.cons jo .nil)⟩
    show step (.jac rows wrt : Cmd A.Num) s = _
    simp only [step, e]
  | jacValue j =>
    obtain ⟨⟨ts, ks⟩, hp⟩ := get_lt hv
    obtain ⟨J, hJ, jo⟩ := forall2_get I.jacs j hp
    obtain ⟨g, jo'⟩ := jo.value I.wf
    have I' := I.num g
    refine ⟨.mat (dense (J.value s.heap).1 J.vars.length J.wrt.length),
      { s with heap := (J.value s.heap).2.2, jacs := s.jacs.set j (J.value s.heap).2.1 }, ?_, ⟨_, rfl, ?_⟩, vs,
      I'.wf, I'.vok, I'.env, I'.objs, forall2_setr I'.jacs j ?_⟩
    · show step (.jacValue j : Cmd A.Num) s = _
      simp only [step, hJ]
    · intro ts' ks' he
      rw [hp] at he
      cases he
      have hl : J.vars.length = ts.length := jo.rows.length_eq.symm
      have hl' : J.wrt.length = ks.length := by rw [jo.wrt, List.length_map]
      rw [hl, hl']
      have : (dense (J.value s.heap).1 ts.length ks.length).map (fun row => row.map toReal) =
          dense (fun r c => toReal ((J.value s.heap).1 r c)) ts.length ks.length := by
        simp [dense, Function.comp_def]
      rw [this]
      exact dense_is fun r c hr hc t k ht hk => fjac_entry I jo ht hk
    · intro p hp'
      rw [hp] at hp'
      cases hp'
      exact jo'
  | hypot3 i j k =>
    obtain ⟨t, x, ht, hx, hd, o⟩ := I.obj hv.1
    obtain ⟨t', x', ht', hx', hd', o'⟩ := I.obj hv.2.1
    obtain ⟨t2, x2, ht2, hx2, hd2, o2⟩ := I.obj hv.2.2
    refine ⟨.unit, s.push (hypot3 x.expr x'.expr x2.expr), ?_, rfl, vs, ?_⟩
    · show step (.hypot3 i j k : Cmd A.Num) s = _
      simp only [step, hx, hx', hx2]
    · simp only [Spec.next, hd, hd', hd2]
      exact I.push (hypot3_makes I.wf o.rep o'.rep o2.rep)
        (by simp [Term.hypot3, Term.Vars, o.vars, o'.vars, o2.vars]) (by simp [Term.hypot3])
  | jacGet j => exact hp.elim
  | hess lower i wrt => exact hp.elim
  | hessValue j => exact hp.elim
  | hessGet j => exact hp.elim

/-- The same for sequences of calls. -/
def RawReturnsAll (A : FloatMath) : List (Cmd ℝ) → Spec → List (Obs A.Num) → Prop
  | [], _, os => os = []
  | c :: cs, σ, o :: os => A.RawReturns c σ o ∧ RawReturnsAll A cs (σ.next c) os
  | _ :: _, _, [] => False

theorem grun_ok {σ : Spec} {s : Api A.Num} (I : FInv σ s) (cs : List (Cmd ℝ)) (hv : ValidAll cs σ)
    (hp : ∀ c ∈ cs, c.FirstOrder) : ∃ os s', run (cs.map (Cmd.float A)) s = some (os, s') ∧
      A.RawReturnsAll cs σ os ∧ FInv (σ.after cs) s' := by
  induction cs generalizing σ s with
  | nil => exact ⟨[], s, rfl, rfl, I⟩
  | cons c cs ih =>
    obtain ⟨o, s1, e, r, I1⟩ := gstep_ok I c hv.1 (hp c (by simp))
    obtain ⟨os, s2, e2, r2, I2⟩ := ih I1 hv.2 fun c hc => hp c (by simp [hc])
    exact ⟨o :: os, s2, by simp [run, e, e2], ⟨r, r2⟩, I2⟩

/-! ### Polynomials -/

/-- All expressions are polynomials. -/
def PolySpec (σ : Spec) : Prop := (∀ t ∈ σ.terms, t.Poly) ∧ ∀ p ∈ σ.jacs, ∀ t ∈ p.1, t.Poly

theorem PolySpec.getD {σ : Spec} (h : PolySpec σ) (i : ℕ) : (σ.terms.getD i (.lit 0)).Poly := by
  rcases hi : σ.terms[i]? with _ | t
  · simp [List.getD, hi, Term.Poly]
  · simpa [List.getD, hi] using h.1 t (List.mem_of_getElem? hi)

theorem PolySpec.next {σ : Spec} (h : PolySpec σ) {c : Cmd ℝ} (hc : c.Poly) : PolySpec (σ.next c) := by
  have push : ∀ t, t.Poly → ∀ t' ∈ σ.terms ++ [t], t'.Poly := by
    intro t ht t' ht'
    rcases List.mem_append.mp ht' with h1 | h1
    · exact h.1 t' h1
    · rw [List.mem_singleton.mp h1]; exact ht
  have set : ∀ i t, t.Poly → ∀ t' ∈ σ.terms.set i t, t'.Poly := by
    intro i t ht t' ht'
    rcases List.mem_or_eq_of_mem_set ht' with h1 | h1
    · exact h.1 t' h1
    · rw [h1]; exact ht
  cases c with
  | decl => exact ⟨push _ trivial, h.2⟩
  | lit c => exact ⟨push _ trivial, h.2⟩
  | un f i => exact ⟨push _ ⟨hc, h.getD i⟩, h.2⟩
  | bin f i j => exact ⟨push _ ⟨hc, h.getD i, h.getD j⟩, h.2⟩
  | copy i => exact ⟨push _ (h.getD i), h.2⟩
  | assign i j => exact ⟨set i _ (h.getD j), h.2⟩
  | assignLit i c => exact ⟨set i _ trivial, h.2⟩
  | setValue i v =>
    simp only [Spec.next]
    split
    · exact h
    · exact h
  | value i => exact h
  | type i => exact h
  | jacValue i => exact h
  | jac rows wrt =>
    refine ⟨h.1, fun p hp => ?_⟩
    rcases List.mem_append.mp hp with h1 | h1
    · exact h.2 p h1
    · rw [List.mem_singleton.mp h1]
      intro t ht
      obtain ⟨i, _, hi⟩ := List.mem_filterMap.mp ht
      exact h.1 t (List.mem_of_getElem? hi)
  | hypot3 i j k => exact hc.elim
  | jacGet j => exact hc.elim
  | hess lower i wrt => exact hc.elim
  | hessValue j => exact hc.elim
  | hessGet j => exact hc.elim

theorem Cmd.Poly.firstOrder {c : Cmd ℝ} (h : c.Poly) : c.FirstOrder := by
  cases c <;> trivial

theorem JacEntry.poly {env : ℕ → ℝ} {k : ℕ} {t : Term} {x : ℝ} (hp : t.Poly) (h : JacEntry A env k t x) :
    |x - (Term.pd k t).eval env| ≤
      A.error (4 * t.size + 1) * (Term.pd k t.majorant).eval (fun k => |env k|) := by
  obtain ⟨v, X, P, O, ht, hP, hb⟩ := h
  obtain ⟨_, hd, ha, ho⟩ := ht.poly hp hP
  have hb := hb 1 (Or.inr ⟨le_rfl, ho⟩) fun op rc a b o => local_poly (ho _ _ _ _ o) a b rc
  have hM : t.majorant.dd (fun i => |env i|) (fun i => |if i = k then (1 : ℝ) else 0|) =
      t.majorant.dd (fun i => |env i|) (fun i => if i = k then 1 else 0) := by
    congr 1
    funext i
    split <;> simp
  rw [hM] at hd ha
  rw [Term.pd_eq_dd hp, Term.pd_eq_dd (Term.poly_majorant hp)]
  set D := t.dd env fun j => if j = k then 1 else 0
  set M := t.majorant.dd (fun i => |env i|) fun j => if j = k then 1 else 0
  have hM0 : 0 ≤ M := (abs_nonneg _).trans hd.le
  have h2 := A.one_le_up (3 * t.size + 1)
  calc |x - D| ≤ |x - X| + |X - D| := abs_sub_le _ _ _
    _ ≤ (A.up (3 * t.size + 1) - 1) * P + (A.up t.size - 1) * M := add_le_add hb hd.err
    _ ≤ (A.up (3 * t.size + 1) - 1) * (A.up t.size * M) + (A.up t.size - 1) * M := by
        have := mul_le_mul_of_nonneg_left ha (show 0 ≤ A.up (3 * t.size + 1) - 1 by linarith)
        linarith
    _ = (A.up (3 * t.size + 1) * A.up t.size - 1) * M := by ring
    _ = A.error (4 * t.size + 1) * M := by
        rw [← A.up_add, show 3 * t.size + 1 + t.size = 4 * t.size + 1 by ring]; rfl

theorem RawReturns.poly {c : Cmd ℝ} {σ : Spec} {o : Obs A.Num} (hσ : PolySpec σ) (h : A.RawReturns c σ o) :
    A.Returns c σ o := by
  cases c with
  | value i =>
    obtain ⟨x, e, h⟩ := h
    refine ⟨x, e, fun t ht => ?_⟩
    obtain ⟨T, P, O, hP, h⟩ := h t ht
    exact (h.poly (hσ.1 t (List.mem_of_getElem? ht)) hP).1.err
  | jacValue j =>
    obtain ⟨m, e, h⟩ := h
    refine ⟨m, e, fun ts ks hj => ?_⟩
    obtain ⟨h1, h2⟩ := h ts ks hj
    refine ⟨h1, fun r hr => ?_⟩
    obtain ⟨row, e1, l, h3⟩ := h2 r hr
    refine ⟨row, e1, l, fun c hc => ?_⟩
    obtain ⟨x, e2, h4⟩ := h3 c hc
    exact ⟨x, e2, fun t k ht hk => (h4 t k ht hk).poly
      (hσ.2 _ (List.mem_of_getElem? hj) t (List.mem_of_getElem? ht))⟩
  | _ => exact h

theorem fstep_ok {σ : Spec} {s : Api A.Num} (I : FInv σ s) (hσ : PolySpec σ) (c : Cmd ℝ) (hv : Valid c σ)
    (hp : c.Poly) : ∃ o s', step (Cmd.float A c) s = some (o, s') ∧ A.Returns c σ o ∧ FInv (σ.next c) s' := by
  obtain ⟨o, s', e, r, I'⟩ := gstep_ok I c hv (Cmd.Poly.firstOrder hp)
  exact ⟨o, s', e, r.poly hσ, I'⟩

theorem frun_ok {σ : Spec} {s : Api A.Num} (I : FInv σ s) (hσ : PolySpec σ) (cs : List (Cmd ℝ))
    (hv : ValidAll cs σ) (hp : ∀ c ∈ cs, c.Poly) : ∃ os s', run (cs.map (Cmd.float A)) s = some (os, s') ∧
      A.ReturnsAll cs σ os ∧ FInv (σ.after cs) s' ∧ PolySpec (σ.after cs) := by
  induction cs generalizing σ s with
  | nil => exact ⟨[], s, rfl, rfl, I, hσ⟩
  | cons c cs ih =>
    obtain ⟨o, s1, e, r, I1⟩ := fstep_ok I hσ c hv.1 (hp c (by simp))
    obtain ⟨os, s2, e2, r2, I2, h2⟩ := ih I1 (hσ.next (hp c (by simp))) hv.2 fun c hc => hp c (by simp [hc])
    exact ⟨o :: os, s2, by simp [run, e, e2], ⟨r, r2⟩, I2, h2⟩

theorem polySpec_empty : PolySpec Spec.empty := by simp [PolySpec, Spec.empty]

end FloatMath

end Slp
