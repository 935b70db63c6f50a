import Verif.Autodiff.DirectLemmas

/-! Every API call keeps the formulas that the objects stand for, for any scalar type. -/

set_option linter.unusedSectionVars false

namespace Slp

open ScalarOps

namespace Direct

variable {S : Type} [ScalarOps S] {P : S → Prop}

/-! ### Numeric passes change no formula -/

theorem num_addAdjoint (h : Heap S) (x : ℕ) (d : S) : Num h (addAdjoint h x d) := num_adjoint h _

theorem num_accumulate (h : Heap S) (n : ℕ) : Num h (accumulate h n) := by
  unfold accumulate
  split
  · exact Num.refl h
  · split
    · exact (num_addAdjoint _ _ _).trans (num_addAdjoint _ _ _)
    · exact num_addAdjoint _ _ _

theorem num_foldl {α : Type} (f : Heap S → α → Heap S) (hf : ∀ h a, Num h (f h a)) (l : List α) (h : Heap S) :
    Num h (l.foldl f h) := by
  induction l generalizing h with
  | nil => exact Num.refl h
  | cons a l ih => exact (hf h a).trans (ih _)

theorem num_appendTriplets (top : List ℕ) (out : List (ℕ × ℕ)) (row : ℕ) (h : Heap S) :
    Num h (appendTriplets top out row h).2 := by
  cases top with
  | nil => exact Num.refl h
  | cons r t =>
    show Num h ((r :: t).foldl accumulate (initAdjoints (r :: t) h))
    refine Num.trans ?_ (num_foldl _ num_accumulate _ _)
    unfold initAdjoints
    exact (num_adjoint h _).trans (num_foldl _ (fun h _ => num_adjoint h _) _ _)

theorem num_cacheRows (vs : List (Option ℕ)) (ts : List (List ℕ)) (os : List (List (ℕ × ℕ))) (row : ℕ)
    (h : Heap S) : Num h (cacheRows vs ts os row h).2.2 := by
  induction vs generalizing ts os row h with
  | nil => exact Num.refl h
  | cons v vs ih =>
    cases ts with
    | nil => exact Num.refl h
    | cons t ts =>
      cases os with
      | nil => exact Num.refl h
      | cons o os =>
        cases v with
        | none => exact ih ts os (row + 1) h
        | some e =>
          simp only [cacheRows]
          split
          · exact (num_appendTriplets t o row h).trans (ih ts os (row + 1) _)
          · split
            · exact ih ts os (row + 1) h
            · exact ih ts os (row + 1) h

theorem num_nonlinear (J : JacObj S) (rows : List ℕ) (h : Heap S) : Num h (nonlinearTriplets J rows h).2 := by
  induction rows generalizing h with
  | nil => exact Num.refl h
  | cons r rs ih => exact (num_appendTriplets _ _ _ h).trans (ih _)

theorem num_jacValue (J : JacObj S) (h : Heap S) : Num h (J.value h).2.2 := by
  unfold JacObj.value
  split
  · exact Num.refl h
  · exact (num_foldl _ (fun h l => num_updateValues l h) _ _).trans (num_nonlinear _ _ _)

theorem markCols_notMem (wrt : List ℕ) (c : ℕ) (sc : Graph.Scratch) (n : ℕ) (hn : n ∉ wrt) :
    markCols wrt c sc n = sc n := by
  induction wrt generalizing c sc with
  | nil => rfl
  | cons w ws ih =>
    simp only [List.mem_cons, not_or] at hn
    rw [markCols, ih _ _ hn.2, Function.update_of_ne hn.1]

theorem jacobian_num {h : Heap S} (wf : WF h) (vars : List (Option ℕ)) (wrt : List ℕ)
    (hv : ∀ r, some r ∈ vars → r < h.next) : ∃ J h', jacobian vars wrt h = some (J, h') ∧ Num h h' := by
  obtain ⟨tops, e, _⟩ := sortAll_spec wf vars hv
  have hsc : unmarkCols wrt (markCols wrt 0 h.scratch) = h.scratch := by
    funext n
    rw [unmarkCols_spec]
    by_cases h1 : n ∈ wrt
    · simp [h1, wf.scratch]
    · simp [h1, markCols_notMem]
  unfold jacobian
  simp only [e, hsc]
  exact ⟨_, _, rfl, num_cacheRows _ _ _ _ _⟩

/-! ### Representation of formulas -/

/-- All variables of the formula are among the first `N`. -/
def Below (N : ℕ) : Form S → Prop
  | .lit _ => True
  | .var k => k < N
  | .un _ t => Below N t
  | .bin _ s t => Below N s ∧ Below N t

theorem Below.mono {N M : ℕ} (h : N ≤ M) {t : Form S} (ht : Below N t) : Below M t := by
  induction t with
  | lit c => trivial
  | var k => exact lt_of_lt_of_le ht h
  | un f t ih => exact ih ht
  | bin f s t ih1 ih2 => exact ⟨ih1 ht.1, ih2 ht.2⟩

theorem calc_congr {N : ℕ} {env env' : ℕ → S} (he : ∀ k, k < N → env k = env' k) {t : Form S} (ht : Below N t) :
    t.calc env = t.calc env' := by
  induction t with
  | lit c => rfl
  | var k => exact he k ht
  | un f t ih => simp only [Form.calc]; rw [ih ht]
  | bin f s t ih1 ih2 => simp only [Form.calc]; rw [ih1 ht.1, ih2 ht.2]

theorem proper_congr {N : ℕ} {env env' : ℕ → S} (he : ∀ k, k < N → env k = env' k) {t : Form S} (ht : Below N t)
    (hp : t.Proper P env) : t.Proper P env' := by
  induction t with
  | lit c => exact hp
  | var k => simp only [Form.Proper] at hp ⊢; rw [← he k ht]; exact hp
  | un f t ih =>
    refine ⟨ih ht hp.1, ?_⟩
    rw [← calc_congr (t := t) he ht]; exact hp.2
  | bin f s t ih1 ih2 =>
    refine ⟨ih1 ht.1 hp.1, ih2 ht.2 hp.2.1, ?_⟩
    rw [← calc_congr (t := s) he ht.1, ← calc_congr (t := t) he ht.2]; exact hp.2.2

theorem proper_calc {env : ℕ → S} {t : Form S} (h : t.Proper P env) : P (t.calc env) := by
  cases t with
  | lit c => exact h
  | var k => exact h
  | un f t => exact h.2
  | bin f s t => exact h.2.2.1

/-- Node `e` computes the formula `t`; `vs k` is the node of variable `k`. -/
structure FRep (P : S → Prop) (h : Heap S) (vs : ℕ → ℕ) (t : Form S) (e : ℕ) : Prop where
  lt : e < h.next
  val : ∀ η : ℕ → S, t.Proper P (fun k => η (vs k)) → ev h η e = t.calc fun k => η (vs k)

theorem FRep.mono {h h' : Heap S} {vs : ℕ → ℕ} {t : Form S} {e : ℕ} (r : FRep P h vs t e) (g : Mono h h') :
    FRep P h' vs t e :=
  ⟨g.lt r.lt, fun η hp => (g.ev η r.lt).trans (r.val η hp)⟩

theorem FRep.change {h : Heap S} {vs vs' : ℕ → ℕ} {N : ℕ} {t : Form S} {e : ℕ} (r : FRep P h vs t e)
    (ht : Below N t) (hvs : ∀ k, k < N → vs' k = vs k) : FRep P h vs' t e := by
  refine ⟨r.lt, fun η hp => ?_⟩
  have he : ∀ k, k < N → η (vs' k) = η (vs k) := fun k hk => by rw [hvs k hk]
  rw [r.val η (proper_congr he ht hp), calc_congr he ht]

/-- `m` makes a node for the formula `t`. -/
def Makes (P : S → Prop) (vs : ℕ → ℕ) (m : HM S ℕ) (h : Heap S) (t : Form S) : Prop :=
  WF (m h).2 ∧ Grow h (m h).2 ∧ FRep P (m h).2 vs t (m h).1

section
variable {h : Heap S} {vs : ℕ → ℕ} {s t : Form S} {a b : ℕ}

theorem FRep.un (L : ScalarLaws S P) (wf : WF h) (r : FRep P h vs t a) (f : UnOp) :
    Makes P vs (f.build a) h (.un f t) := by
  have c := un_calcs L wf r.lt f
  refine ⟨c.wf, c.grow, c.lt, fun η hp => ?_⟩
  have e := r.val η hp.1
  rw [c.val η (by rw [e]; exact hp.2)]
  simp only [Form.calc]; rw [e]

theorem FRep.bin (L : ScalarLaws S P) (wf : WF h) (ra : FRep P h vs s a) (rb : FRep P h vs t b) (f : BinOp) :
    Makes P vs (f.build a b) h (.bin f s t) := by
  have c := bin_calcs L wf ra.lt rb.lt f
  refine ⟨c.wf, c.grow, c.lt, fun η hp => ?_⟩
  have e1 := ra.val η hp.1
  have e2 := rb.val η hp.2.1
  rw [c.val η (by rw [e1, e2]; exact ⟨proper_calc hp.1, proper_calc hp.2.1, hp.2.2⟩)]
  simp only [Form.calc]; rw [e1, e2]

theorem lit_makes (wf : WF h) (vs : ℕ → ℕ) (c : S) : Makes P vs (mkConst c) h (.lit c) := by
  have d : Calcs (mkConst c) h (fun _ => True) (fun _ => c) := mkConst_calcs wf c fun _ _ => rfl
  exact ⟨d.wf, d.grow, d.lt, fun η _ => d.val η trivial⟩

theorem Makes.bind {m : HM S ℕ} {k : ℕ → HM S ℕ} (hm : Makes P vs m h s)
    (hk : ∀ h' n, WF h' → Grow h h' → FRep P h' vs s n → Makes P vs (k n) h' t) : Makes P vs (m >>= k) h t := by
  obtain ⟨w, g, r⟩ := hm
  obtain ⟨w', g', r'⟩ := hk (m h).2 (m h).1 w g r
  exact ⟨w', g.trans g', r'⟩

theorem FRep.grow {h' : Heap S} (g : Grow h h') (r : FRep P h vs t a) : FRep P h' vs t a := r.mono g.ext.mono

/-- The formula that `hypot(x, y, z)` stands for. -/
def root3 (x y z : Form S) : Form S :=
  .un .sqrt (.bin .add (.bin .add (.bin .pow x (.lit two)) (.bin .pow y (.lit two))) (.bin .pow z (.lit two)))

theorem hypot3_makes (L : ScalarLaws S P) (wf : WF h) {x y z : Form S} {c : ℕ} (ra : FRep P h vs x a)
    (rb : FRep P h vs y b) (rc : FRep P h vs z c) : Makes P vs (hypot3 a b c) h (root3 x y z) := by
  unfold hypot3
  refine (lit_makes wf vs two).bind fun h1 n1 w1 g1 r1 => ?_
  refine Makes.bind (s := .bin .pow x (.lit two)) ((ra.grow g1).bin L w1 r1 .pow) fun h2 n2 w2 g2 r2 => ?_
  refine (lit_makes w2 vs two).bind fun h3 n3 w3 g3 r3 => ?_
  have g03 := (g1.trans g2).trans g3
  refine Makes.bind (s := .bin .pow y (.lit two)) ((rb.grow g03).bin L w3 r3 .pow) fun h4 n4 w4 g4 r4 => ?_
  refine (lit_makes w4 vs two).bind fun h5 n5 w5 g5 r5 => ?_
  have g05 := (g03.trans g4).trans g5
  refine Makes.bind (s := .bin .pow z (.lit two)) ((rc.grow g05).bin L w5 r5 .pow) fun h6 n6 w6 g6 r6 => ?_
  refine Makes.bind (s := .bin .add (.bin .pow x (.lit two)) (.bin .pow y (.lit two)))
    ((r2.grow (((g3.trans g4).trans g5).trans g6)).bin L w6 (r4.grow (g5.trans g6)) .add)
    fun h7 n7 w7 g7 r7 => ?_
  refine Makes.bind (r7.bin L w7 (r6.grow g7) .add) fun h8 n8 w8 g8 r8 => ?_
  exact r8.un L w8 .sqrt

end

/-! ### The invariant -/

structure DObj (P : S → Prop) (h : Heap S) (vs : ℕ → ℕ) (N : ℕ) (t : Form S) (o : VarObj) : Prop where
  rep : FRep P h vs t o.expr
  below : Below N t
  var : ∀ k, t = .var k → o.expr = vs k
  graph : ∀ l, o.graph = some l → TopOf h o.expr l

theorem DObj.mono {h h' : Heap S} {vs vs' : ℕ → ℕ} {N N' : ℕ} {t : Form S} {o : VarObj} (r : DObj P h vs N t o)
    (wf : WF h) (g : Mono h h') (hN : N ≤ N') (hvs : ∀ k, k < N → vs' k = vs k) : DObj P h' vs' N' t o where
  rep := (r.rep.mono g).change r.below hvs
  below := r.below.mono hN
  var k hk := by
    have hv := r.below
    rw [hk] at hv
    rw [hvs k hv]; exact r.var k hk
  graph l hl := (r.graph l hl).mono wf g

structure DInvV (P : S → Prop) (vs : ℕ → ℕ) (σ : Forms S) (s : Api S) : Prop where
  wf : WF s.heap
  vok : VarsOK s.heap vs σ.n
  env : ∀ k, k < σ.n → s.heap.val (vs k) = σ.env k
  objs : List.Forall₂ (DObj P s.heap vs σ.n) σ.forms s.objs
  jacs : s.jacs.length = σ.jacs

def DInv (P : S → Prop) (σ : Forms S) (s : Api S) : Prop := ∃ vs, DInvV P vs σ s

theorem dinv_empty : DInv P (Forms.empty : Forms S) Api.empty :=
  ⟨fun _ => 0, ⟨fun n c hc => by simp [Api.empty, Graph.kids] at hc, fun n _ => rfl,
    fun n hn => absurd hn (by simp [Api.empty]), fun n hn => absurd hn (by simp [Api.empty]),
    fun n hn => absurd hn (by simp [Api.empty]), fun n => rfl, fun n _ => rfl⟩,
    ⟨fun k hk => absurd hk (by simp [Forms.empty]), fun k hk => absurd hk (by simp [Forms.empty]),
      fun k _ hk => absurd hk (by simp [Forms.empty])⟩,
    fun k hk => absurd hk (by simp [Forms.empty]), .nil, rfl⟩

section
variable {vs : ℕ → ℕ} {σ : Forms S} {s : Api S}

theorem DInvV.heap (I : DInvV P vs σ s) {h' : Heap S} (wf : WF h') (g : Mono s.heap h')
    (hv : ∀ k, k < σ.n → h'.val (vs k) = s.heap.val (vs k)) : DInvV P vs σ { s with heap := h' } where
  wf := wf
  vok := I.vok.mono g
  env k hk := (hv k hk).trans (I.env k hk)
  objs := I.objs.imp fun _ _ o => o.mono I.wf g le_rfl fun _ _ => rfl
  jacs := I.jacs

theorem DInvV.grow (I : DInvV P vs σ s) {h' : Heap S} (wf : WF h') (g : Grow s.heap h') :
    DInvV P vs σ { s with heap := h' } :=
  I.heap wf g.ext.mono fun k hk => g.val _ (I.vok.lt k hk)

theorem DInvV.num (I : DInvV P vs σ s) {h' : Heap S} (g : Num s.heap h') : DInvV P vs σ { s with heap := h' } :=
  I.heap (g.wf I.wf) (g.mono I.wf) fun k hk => g.leaf _ (by rw [I.vok.args I.wf hk])

theorem DInvV.push (I : DInvV P vs σ s) {m : HM S ℕ} {t : Form S} (b : Makes P vs m s.heap t) (hv : Below σ.n t)
    (hnv : ∀ k, t ≠ .var k) : DInvV P vs { σ with forms := σ.forms ++ [t] } (s.push m) := by
  have J := I.grow b.1 b.2.1
  exact ⟨J.wf, J.vok, J.env, forall2_append J.objs (.cons ⟨b.2.2, hv, fun k hk => absurd hk (hnv k),
    by simp [freshObj]⟩ .nil), J.jacs⟩

theorem DInvV.decl (I : DInvV P vs σ s) : ∃ vs', DInvV P vs' (σ.next .decl) (s.push mkVar) := by
  have b := mkVar_calcs I.wf
  have hmv : (mkVar s.heap).1 = s.heap.next := rfl
  have g := b.grow.ext.mono
  have hvs : ∀ k, k < σ.n → Function.update vs σ.n s.heap.next k = vs k := fun k hk => by
    simp [ne_of_lt hk]
  refine ⟨Function.update vs σ.n s.heap.next, ⟨b.wf, ⟨?_, ?_, ?_⟩, ?_, ?_, I.jacs⟩⟩
  · intro k hk
    rcases Nat.lt_succ_iff_lt_or_eq.mp hk with hk | rfl
    · rw [hvs k hk]; exact g.lt (I.vok.lt k hk)
    · rw [Function.update_self]; exact b.lt
  · intro k hk
    rcases Nat.lt_succ_iff_lt_or_eq.mp hk with hk | rfl
    · rw [hvs k hk]; exact (g.op _ (I.vok.lt k hk)).trans (I.vok.op k hk)
    · simp [Api.push, mkVar, alloc]
  · intro j k hj hk e
    rcases Nat.lt_succ_iff_lt_or_eq.mp hj with hj | rfl <;>
      rcases Nat.lt_succ_iff_lt_or_eq.mp hk with hk | rfl
    · rw [hvs j hj, hvs k hk] at e; exact I.vok.inj j k hj hk e
    · rw [hvs j hj, Function.update_self] at e
      exact absurd e (ne_of_lt (I.vok.lt j hj))
    · rw [hvs k hk, Function.update_self] at e
      exact absurd e (ne_of_gt (I.vok.lt k hk))
    · rfl
  · intro k hk
    rcases Nat.lt_succ_iff_lt_or_eq.mp hk with hk | rfl
    · rw [hvs k hk]
      show _ = Function.update σ.env σ.n zero k
      rw [Function.update_of_ne (ne_of_lt hk), ← I.env k hk]
      exact b.grow.val _ (I.vok.lt k hk)
    · show _ = Function.update σ.env σ.n zero σ.n
      simp [Api.push, mkVar, alloc]
  · refine forall2_append (I.objs.imp fun _ _ o => o.mono I.wf g (Nat.le_succ _) hvs) (.cons ?_ .nil)
    refine ⟨⟨b.lt, fun η _ => ?_⟩, Nat.lt_succ_self _, fun k hk => ?_, by simp [freshObj]⟩
    · show ev (mkVar s.heap).2 η (mkVar s.heap).1 = η _
      rw [b.val η trivial]; simp
    · cases hk; simp [freshObj, hmv]

theorem DInvV.setVal (I : DInvV P vs σ s) {k : ℕ} (hk : k < σ.n) (v : S) :
    DInvV P vs { σ with env := Function.update σ.env k v }
      { s with heap := { s.heap with val := Function.update s.heap.val (vs k) v } } := by
  obtain ⟨wf, g⟩ := setVal_spec I.wf (I.vok.lt k hk) (I.vok.op k hk) v
  refine ⟨wf, I.vok.mono g, ?_, I.objs.imp fun _ _ o => o.mono I.wf g le_rfl fun _ _ => rfl, I.jacs⟩
  intro j hj
  show Function.update s.heap.val (vs k) v (vs j) = Function.update σ.env k v j
  by_cases e : j = k
  · subst e; simp
  · have : vs j ≠ vs k := fun e' => e (I.vok.inj j k hj hk e')
    rw [Function.update_of_ne e, Function.update_of_ne this]
    exact I.env j hj

theorem DInvV.value (I : DInvV P vs σ s) {i : ℕ} {x : VarObj} (hx : s.objs[i]? = some x) :
    ∃ s', step (.value i) s = some (.num (ev s.heap s.heap.val x.expr), s') ∧ DInvV P vs σ s' := by
  obtain ⟨t, ht, o⟩ := forall2_get_r I.objs i hx
  have hval : ∃ l h', Slp.value x s.heap = some (ev s.heap s.heap.val x.expr, ⟨x.expr, some l⟩, h') ∧
      Num s.heap h' ∧ TopOf s.heap x.expr l := by
    unfold Slp.value
    rcases hg : x.graph with _ | l
    · obtain ⟨l, e, ht⟩ := topoSort_topOf I.wf o.rep.lt
      rw [e]
      exact ⟨l, _, by simp [ht.update I.wf], num_updateValues l _, ht⟩
    · have ht := o.graph l hg
      refine ⟨l, _, ?_, num_updateValues l _, ht⟩
      simp only [ht.update I.wf]
      rw [← hg]
  obtain ⟨l, h', e, g, hl⟩ := hval
  refine ⟨{ s with heap := h', objs := s.objs.set i ⟨x.expr, some l⟩ }, by simp [step, hx, e], ?_⟩
  have J := I.num g
  refine ⟨J.wf, J.vok, J.env, ?_, J.jacs⟩
  refine forall2_setr J.objs i fun t' ht' => ?_
  rw [ht] at ht'
  cases ht'
  have o' := o.mono I.wf (g.mono I.wf) le_rfl fun _ _ => rfl
  exact ⟨o'.rep, o'.below, o'.var, fun l' hl' => by cases hl'; exact hl.mono I.wf (g.mono I.wf)⟩

theorem DInvV.obj (I : DInvV P vs σ s) {i : ℕ} (hi : i < σ.forms.length) :
    ∃ o, s.objs[i]? = some o ∧ DObj P s.heap vs σ.n (σ.form i) o := by
  obtain ⟨t, ht⟩ := get_lt hi
  obtain ⟨o, ho, r⟩ := forall2_get I.objs i ht
  refine ⟨o, ho, ?_⟩
  rw [Forms.form, getD_get ht]; exact r

theorem exprs_lt (I : DInvV P vs σ s) (is : List ℕ) : ∀ r ∈ exprs s.objs is, r < s.heap.next := by
  intro r hr
  obtain ⟨i, _, hi⟩ := List.mem_filterMap.mp hr
  rcases ho : s.objs[i]? with _ | o
  · simp [ho] at hi
  · obtain ⟨t, _, d⟩ := forall2_get_r I.objs i ho
    simp [ho] at hi
    rw [← hi]; exact d.rep.lt

end

theorem dstep_ok (L : ScalarLaws S P) {σ : Forms S} {s : Api S} (I : DInv P σ s) (c : Cmd S) (hv : σ.Valid c) :
    ∃ o s', step c s = some (o, s') ∧ σ.Returns P c o ∧ DInv P (σ.next c) s' := by
  obtain ⟨vs, I⟩ := I
  cases c with
  | decl =>
    obtain ⟨vs', J⟩ := I.decl
    exact ⟨_, _, rfl, rfl, vs', J⟩
  | lit c => exact ⟨_, _, rfl, rfl, vs, I.push (lit_makes I.wf vs c) trivial (by simp)⟩
  | un f i =>
    obtain ⟨x, hx, o⟩ := I.obj hv
    exact ⟨.unit, s.push (f.build x.expr), by simp only [step, hx], rfl, vs,
      I.push (o.rep.un L I.wf f) o.below (by simp)⟩
  | bin f i j =>
    obtain ⟨x, hx, o⟩ := I.obj hv.1
    obtain ⟨y, hy, o'⟩ := I.obj hv.2
    exact ⟨.unit, s.push (f.build x.expr y.expr), by simp only [step, hx, hy], rfl, vs,
      I.push (o.rep.bin L I.wf o'.rep f) ⟨o.below, o'.below⟩ (by simp)⟩
  | hypot3 i j k =>
    obtain ⟨x, hx, o⟩ := I.obj hv.1
    obtain ⟨y, hy, o'⟩ := I.obj hv.2.1
    obtain ⟨z, hz, o2⟩ := I.obj hv.2.2
    refine ⟨.unit, s.push (hypot3 x.expr y.expr z.expr), by simp only [step, hx, hy, hz], rfl, vs, ?_⟩
    exact I.push (hypot3_makes L I.wf o.rep o'.rep o2.rep)
      (by simp [Below, o.below, o'.below, o2.below]) (by simp)
  | copy i =>
    obtain ⟨x, hx, o⟩ := I.obj hv
    exact ⟨.unit, { s with objs := s.objs ++ [x] }, by simp only [step, hx], rfl, vs,
      I.wf, I.vok, I.env, forall2_append I.objs (.cons o .nil), I.jacs⟩
  | assign i j =>
    obtain ⟨x, hx, o⟩ := I.obj hv.1
    obtain ⟨y, hy, o'⟩ := I.obj hv.2
    exact ⟨.unit, { s with objs := s.objs.set i y }, by simp only [step, hx, hy], rfl, vs,
      I.wf, I.vok, I.env, forall2_set I.objs i o', I.jacs⟩
  | assignLit i c =>
    obtain ⟨x, hx, o⟩ := I.obj hv
    have b : Makes P vs (mkConst c) s.heap (.lit c) := lit_makes I.wf vs c
    have J := I.grow b.1 b.2.1
    exact ⟨.unit, { s with heap := (mkConst c s.heap).2, objs := s.objs.set i (freshObj (mkConst c s.heap).1) },
      by simp only [step, hx], rfl, vs, J.wf, J.vok, J.env,
      forall2_set J.objs i ⟨b.2.2, trivial, by simp, by simp [freshObj]⟩, J.jacs⟩
  | setValue i v =>
    obtain ⟨k, hk⟩ := hv
    obtain ⟨x, hx, o⟩ := forall2_get I.objs i hk
    refine ⟨.unit, { s with heap := setValue x v s.heap }, by simp only [step, hx], rfl, vs, ?_⟩
    simp only [Forms.next, hk, setValue, o.var k rfl]
    exact I.setVal o.below v
  | value i =>
    obtain ⟨x, hx, o⟩ := I.obj hv
    obtain ⟨s', e, I'⟩ := I.value hx
    refine ⟨_, s', e, ⟨_, rfl, fun hp => ?_⟩, vs, I'⟩
    have he : ∀ k, k < σ.n → s.heap.val (vs k) = σ.env k := I.env
    rw [o.rep.val s.heap.val (proper_congr (fun k hk => (he k hk).symm) o.below hp), calc_congr he o.below]
  | type i =>
    obtain ⟨x, hx, o⟩ := I.obj hv
    exact ⟨.ty (s.heap.ty x.expr), s, by simp only [step, hx], ⟨_, rfl⟩, vs, I⟩
  | jac rows wrt =>
    obtain ⟨J, h', e, g⟩ := jacobian_num I.wf ((exprs s.objs rows).map some) (exprs s.objs wrt)
      (fun r hr => exprs_lt I rows r (by simpa using hr))
    have I' := I.num g
    refine ⟨.unit, { s with heap := h', jacs := s.jacs ++ [J] }, by simp only [step, e], rfl, vs,
      I'.wf, I'.vok, I'.env, I'.objs, ?_⟩
    show (s.jacs ++ [J]).length = σ.jacs + 1
    simp [I.jacs]
  | jacValue j =>
    have hv : j < σ.jacs := hv
    rw [← I.jacs] at hv
    obtain ⟨J, hJ⟩ := get_lt hv
    have I' := I.num (num_jacValue J s.heap)
    refine ⟨.mat (dense (J.value s.heap).1 J.vars.length J.wrt.length),
      { s with heap := (J.value s.heap).2.2, jacs := s.jacs.set j (J.value s.heap).2.1 },
      by simp only [step, hJ], ⟨_, rfl⟩, vs, I'.wf, I'.vok, I'.env, I'.objs, ?_⟩
    show (s.jacs.set j _).length = σ.jacs
    simp [I.jacs]
  | jacGet j => exact hv.elim
  | hess lower i wrt => exact hv.elim
  | hessValue j => exact hv.elim
  | hessGet j => exact hv.elim

theorem drun_ok (L : ScalarLaws S P) {σ : Forms S} {s : Api S} (I : DInv P σ s) (cs : List (Cmd S))
    (hv : Forms.ValidAll cs σ) : ∃ os s', run cs s = some (os, s') ∧ Forms.ReturnsAll P cs σ os := by
  induction cs generalizing σ s with
  | nil => exact ⟨[], s, rfl, rfl⟩
  | cons c cs ih =>
    obtain ⟨o, s1, e, r, I1⟩ := dstep_ok L I c hv.1
    obtain ⟨os, s2, e2, r2⟩ := ih I1 hv.2
    exact ⟨o :: os, s2, by simp [run, e, e2], ⟨r, r2⟩⟩

end Direct

end Slp
