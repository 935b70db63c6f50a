import Verif.Autodiff.DerivLemmas

/-! The expression-level reverse pass (`gradient_tree`) simulates numeric reverse accumulation at
every assignment of the independent variables at once. -/

namespace Slp

open ScalarOps

/-- Like `Grow`, but `adjoint_expr` links may have changed. -/
structure Ext {S : Type} (h h' : Heap S) : Prop where
  next : h.next ≤ h'.next
  op : ∀ n, n < h.next → h'.op n = h.op n
  ty : ∀ n, n < h.next → h'.ty n = h.ty n
  args : ∀ n, n < h.next → h'.args n = h.args n
  val : ∀ n, n < h.next → h'.val n = h.val n

theorem Ext.refl {S : Type} [ScalarOps S] (h : Heap S) : Ext h h :=
  ⟨le_rfl, fun _ _ => rfl, fun _ _ => rfl, fun _ _ => rfl, fun _ _ => rfl⟩

theorem Ext.trans {S : Type} [ScalarOps S] {h1 h2 h3 : Heap S} (a : Ext h1 h2) (b : Ext h2 h3) : Ext h1 h3 where
  next := a.next.trans b.next
  op n hn := (b.op n (lt_of_lt_of_le hn a.next)).trans (a.op n hn)
  ty n hn := (b.ty n (lt_of_lt_of_le hn a.next)).trans (a.ty n hn)
  args n hn := (b.args n (lt_of_lt_of_le hn a.next)).trans (a.args n hn)
  val n hn := (b.val n (lt_of_lt_of_le hn a.next)).trans (a.val n hn)

theorem Grow.ext {S : Type} [ScalarOps S] {h h' : Heap S} (g : Grow h h') : Ext h h' := ⟨g.next, g.op, g.ty, g.args, g.val⟩

theorem Ext.same {S : Type} [ScalarOps S] {h h' : Heap S} (g : Ext h h') : SameUpTo h.next h h' :=
  ⟨g.op, g.args, fun n hn _ => g.val n hn⟩

theorem Ext.ev {S : Type} [ScalarOps S] {h h' : Heap S} (g : Ext h h') (η : ℕ → S) {n : ℕ} (hn : n < h.next) :
    ev h' η n = ev h η n :=
  ev_congr g.same (fun _ _ _ _ => rfl) n hn

theorem Ext.Sm {h h' : Heap ℝ} (g : Ext h h') (η : ℕ → ℝ) {n : ℕ} (hn : n < h.next) :
    Sm h' η n ↔ Sm h η n :=
  Sm_congr g.same (fun _ _ _ _ => rfl) n hn

theorem Ext.lt {S : Type} [ScalarOps S] {h h' : Heap S} (g : Ext h h') {n : ℕ} (hn : n < h.next) : n < h'.next :=
  lt_of_lt_of_le hn g.next

theorem Ext.isConst {h h' : Heap ℝ} (g : Ext h h') {n : ℕ} (hn : n < h.next) (c : ℝ) :
    isConst h' n c = isConst h n c := by
  unfold Slp.isConst; rw [g.ty n hn, g.val n hn]

section setAdjE
variable (h : Heap ℝ) (f : ℕ → Option ℕ)

theorem ext_setAdjE : Ext h { h with adjE := f } :=
  ⟨le_rfl, fun _ _ => rfl, fun _ _ => rfl, fun _ _ => rfl, fun _ _ => rfl⟩

theorem ext_setAdjE' : Ext { h with adjE := f } h :=
  ⟨le_rfl, fun _ _ => rfl, fun _ _ => rfl, fun _ _ => rfl, fun _ _ => rfl⟩

theorem same_setAdjE (N : ℕ) : SameUpTo N h { h with adjE := f } :=
  ⟨fun _ _ => rfl, fun _ _ => rfl, fun _ _ _ => rfl⟩

theorem ev_setAdjE (η : ℕ → ℝ) (n : ℕ) : ev { h with adjE := f } η n = ev h η n :=
  ev_congr (same_setAdjE h f (n + 1)) (fun _ _ _ _ => rfl) n (Nat.lt_succ_self n)

theorem Sm_setAdjE (η : ℕ → ℝ) (n : ℕ) : Sm { h with adjE := f } η n ↔ Sm h η n :=
  Sm_congr (same_setAdjE h f (n + 1)) (fun _ _ _ _ => rfl) n (Nat.lt_succ_self n)

variable {h f}

theorem WF.setAdjE (wf : WF h) (hf : ∀ n, h.next ≤ n → f n = none) : WF { h with adjE := f } :=
  ⟨wf.acyc, wf.bound, wf.arity, wf.typ, wf.powBase, wf.scratch, hf⟩

end setAdjE

/-- Invariant of the loop of `gradient_tree` started in heap `h0`. -/
structure TI (h0 h : Heap ℝ) : Prop where
  wf : WF h
  ext : Ext h0 h
  fresh : ∀ n, h0.next ≤ n → h.adjE n = none
  tgt : ∀ n e, h.adjE n = some e → e < h.next

/-- The value denoted by the (possibly null) adjoint expression of a node. -/
noncomputable def adjV (h : Heap ℝ) (η : ℕ → ℝ) (n : ℕ) : ℝ :=
  match h.adjE n with
  | none => 0
  | some e => ev h η e

/-- The adjoint expressions of non-constant nodes are smooth at `η`. -/
def adjSm (h0 h : Heap ℝ) (η : ℕ → ℝ) : Prop :=
  ∀ m e, h0.op m ≠ .constant → h.adjE m = some e → Sm h η e

theorem Grow.adjNone {S : Type} [ScalarOps S] {h h' : Heap S} (g : Grow h h') (wf : WF h') {n : ℕ} (hn : h.next ≤ n) :
    h'.adjE n = none := by
  by_cases hlt : n < h'.next
  · exact g.adjNew n hn hlt
  · exact wf.fresh n (not_lt.mp hlt)

theorem Grow.adjE_eq {S : Type} [ScalarOps S] {h h' : Heap S} (g : Grow h h') (wf : WF h) (wf' : WF h') (n : ℕ) :
    h'.adjE n = h.adjE n := by
  by_cases hlt : n < h.next
  · exact g.adjE n hlt
  · rw [g.adjNone wf' (not_lt.mp hlt), wf.fresh n (not_lt.mp hlt)]

theorem TI.grow {h0 h h' : Heap ℝ} (ti : TI h0 h) (wf : WF h') (g : Grow h h') : TI h0 h' where
  wf := wf
  ext := ti.ext.trans g.ext
  fresh n hn := by rw [g.adjE_eq ti.wf wf]; exact ti.fresh n hn
  tgt n e he := by rw [g.adjE_eq ti.wf wf] at he; exact g.lt (ti.tgt n e he)

theorem adjV_grow {h0 h h' : Heap ℝ} (ti : TI h0 h) (wf : WF h') (g : Grow h h') (η : ℕ → ℝ) :
    adjV h' η = adjV h η := by
  funext n
  unfold adjV
  rw [g.adjE_eq ti.wf wf]
  rcases he : h.adjE n with _ | e
  · rfl
  · exact g.ev η (ti.tgt n e he)

theorem adjSm_grow {h0 h h' : Heap ℝ} (ti : TI h0 h) (wf : WF h') (g : Grow h h') {η : ℕ → ℝ}
    (hs : adjSm h0 h η) : adjSm h0 h' η := by
  intro m e hm he
  rw [g.adjE_eq ti.wf wf] at he
  exact (g.Sm η (ti.tgt m e he)).mpr (hs m e hm he)

/-- `x->adjoint_expr += e`. -/
theorem addAdjE_spec {h0 h : Heap ℝ} (ti : TI h0 h) {x e : ℕ} (hx : x < h0.next)
    (he : e < h.next) :
    TI h0 (addAdjE x e h) ∧ Ext h (addAdjE x e h) ∧
      (∀ η, adjV (addAdjE x e h) η = Function.update (adjV h η) x (adjV h η x + ev h η e)) ∧
      ((addAdjE x e h).adjE x ≠ none) ∧
      (∀ m, m ≠ x → (addAdjE x e h).adjE m = h.adjE m) ∧
      (∀ η, adjSm h0 h η → (h0.op x ≠ .constant → Sm h η e) → adjSm h0 (addAdjE x e h) η) := by
  rcases hx' : h.adjE x with _ | l
  · have e1 : addAdjE x e h = { h with adjE := Function.update h.adjE x (some e) } := by
      unfold addAdjE addOpt; rw [hx']; rfl
    rw [e1]
    refine ⟨⟨?_, ?_, ?_, ?_⟩, ext_setAdjE _ _, ?_, by simp, ?_, ?_⟩
    · apply ti.wf.setAdjE
      intro n hn
      rw [Function.update_of_ne]
      · exact ti.wf.fresh n hn
      · have := ti.ext.lt hx; omega
    · exact ti.ext.trans (ext_setAdjE _ _)
    · intro n hn
      show Function.update h.adjE x (some e) n = none
      rw [Function.update_of_ne (by omega)]
      exact ti.fresh n hn
    · intro n e' h'
      change Function.update h.adjE x (some e) n = some e' at h'
      by_cases hn : n = x
      · subst hn; simp at h'; subst h'; exact he
      · rw [Function.update_of_ne hn] at h'; exact ti.tgt n e' h'
    · intro η
      funext n
      unfold adjV
      by_cases hn : n = x
      · subst hn
        simp only [Function.update_self, hx', zero_add]
        exact ev_setAdjE _ _ _ _
      · simp only [Function.update_of_ne hn]
        rcases h.adjE n with _ | e'
        · rfl
        · exact ev_setAdjE _ _ _ _
    · intro m hm; simp [hm]
    · intro η hs hse m e' hm h'
      change Function.update h.adjE x (some e) m = some e' at h'
      rw [Sm_setAdjE]
      by_cases hn : m = x
      · subst hn; simp at h'; subst h'; exact hse hm
      · rw [Function.update_of_ne hn] at h'; exact hs m e' hm h'
  · have hl := ti.tgt x l hx'
    have b := add_builds ti.wf hl he
    set r := (add l e h).1 with hr
    set h1 := (add l e h).2 with hh1
    have e1 : addAdjE x e h = { h1 with adjE := Function.update h1.adjE x (some r) } := by
      unfold addAdjE addOpt; rw [hx']; rfl
    have ti1 := ti.grow b.wf b.grow
    rw [e1]
    refine ⟨⟨?_, ?_, ?_, ?_⟩, b.grow.ext.trans (ext_setAdjE _ _), ?_, by simp, ?_, ?_⟩
    · apply b.wf.setAdjE
      intro n hn
      rw [Function.update_of_ne]
      · exact b.wf.fresh n hn
      · have := ti1.ext.lt hx; omega
    · exact ti1.ext.trans (ext_setAdjE _ _)
    · intro n hn
      show Function.update h1.adjE x (some r) n = none
      rw [Function.update_of_ne (by omega)]
      exact ti1.fresh n hn
    · intro n e' h'
      change Function.update h1.adjE x (some r) n = some e' at h'
      by_cases hn : n = x
      · subst hn; simp at h'; subst h'; exact b.lt
      · rw [Function.update_of_ne hn] at h'; exact ti1.tgt n e' h'
    · intro η
      funext n
      by_cases hn : n = x
      · subst hn
        unfold adjV
        simp only [Function.update_self, hx']
        rw [ev_setAdjE]
        exact b.sem η
      · rw [Function.update_of_ne hn, ← adjV_grow ti b.wf b.grow η]
        unfold adjV
        simp only [Function.update_of_ne hn, ← hh1]
        rcases h1.adjE n with _ | e'
        · rfl
        · exact ev_setAdjE _ _ _ _
    · intro m hm
      show Function.update h1.adjE x (some r) m = _
      rw [Function.update_of_ne hm]
      exact b.grow.adjE_eq ti.wf b.wf m
    · intro η hs hse m e' hm h'
      change Function.update h1.adjE x (some r) m = some e' at h'
      rw [Sm_setAdjE]
      by_cases hn : m = x
      · subst hn
        simp at h'
        subst h'
        exact b.sm η ⟨hs m l hm hx', hse hm, trivial⟩
      · rw [Function.update_of_ne hn] at h'
        exact adjSm_grow ti b.wf b.grow hs m e' hm h'

/-- `tgv` and `accN` look only at the original graph. -/
theorem treeStep_spec {h0 h : Heap ℝ} (wf0 : WF h0) (ti : TI h0 h) {n : ℕ} (hn : n < h0.next)
    (hnn : (h0.args n).1 = none ∨ h.adjE n ≠ none) :
    ∃ h', treeStep h n = some h' ∧ TI h0 h' ∧
      (∀ η, adjV h' η = accN h0 (ev h0 η) (adjV h η) n) ∧
      (∀ m, m ∉ Graph.kids h0.args n → h'.adjE m = h.adjE m) ∧
      (∀ m ∈ Graph.kids h0.args n, h'.adjE m ≠ none) ∧
      (∀ η, adjSm h0 h η → (h0.op n ≠ .constant → Sm h0 η n) → adjSm h0 h' η) := by
  have hargs := ti.ext.args n hn
  have hopn := ti.ext.op n hn
  rcases hh : h0.args n with ⟨a, b⟩
  rw [hh] at hargs
  cases a with
  | none =>
    refine ⟨h, by simp [treeStep, hargs], ti, ?_, ?_, ?_, ?_⟩
    · intro η; rw [accN_leaf (by rw [hh])]
    · intros; rfl
    · intro m hm
      have har := wf0.arity n hn
      have : b = none := by
        unfold ArityOK at har
        split at har
        · rw [hh] at har; simp at har; exact har
        · obtain ⟨x, har⟩ := har; rw [hh] at har; simp at har
        · obtain ⟨x, y, har⟩ := har; rw [hh] at har; simp at har
      subst this
      simp [Graph.kids, hh, List.reduceOption] at hm
    · intro η hs _; exact hs
  | some l =>
    have hlk := mem_kids_left (args := h0.args) (n := n) (l := l) (by rw [hh])
    have hl : l < n := wf0.acyc n l hlk
    have hl0 : l < h0.next := hl.trans hn
    have hl' := ti.ext.lt hl0
    have hnn' : h.adjE n ≠ none := by
      rcases hnn with h1 | h1
      · rw [hh] at h1; simp at h1
      · exact h1
    obtain ⟨a, ha⟩ := Option.ne_none_iff_exists'.mp hnn'
    have hat := ti.tgt n a ha
    have hpow : h0.op n = .pow → isConst h0 l zero = false := fun e =>
      wf0.powBase n hn e l (by rw [hh])
    have hpow' : h.op n = .pow → isConst h l zero = false := fun e => by
      rw [ti.ext.isConst hl0]; exact hpow (by rw [← hopn]; exact e)
    have hopc : (∃ a, b = some a) ∨ (h0.op n).arity = 1 := by
      have har := wf0.arity n hn
      unfold ArityOK at har
      split at har
      · rw [hh] at har; simp at har
      · right; assumption
      · obtain ⟨x, y, har⟩ := har; rw [hh] at har; simp at har; left; exact ⟨_, har.2⟩
    have hnc : h0.op n ≠ .constant := by
      intro e
      have har := wf0.arity n hn
      rw [e] at har
      simp [ArityOK, Op.arity, hh] at har
    have hadjn : ∀ η, adjV h η n = ev h η a := fun η => by simp [adjV, ha]
    cases b with
    | none =>
      have h1 : (h0.op n).arity = 1 := by
        rcases hopc with ⟨x, hx⟩ | h1
        · simp at hx
        · exact h1
      have bl := gradEL_builds ti.wf hat hl' hl' (h.op n) hpow'
      have ti1 := ti.grow bl.wf bl.grow
      obtain ⟨t2, ex2, v2, nn2, o2, s2⟩ := addAdjE_spec ti1 hl0 bl.lt
      refine ⟨_, by simp [treeStep, hargs, ha], t2, ?_, ?_, ?_, ?_⟩
      · intro η
        rw [v2, adjV_grow ti bl.wf bl.grow, bl.sem, ti.ext.ev η hl0, hopn]
        have e1 : accN h0 (ev h0 η) (adjV h η) n = Function.update (adjV h η) l
            (adjV h η l + gradL (h0.op n) (adjV h η n) (ev h0 η l) 0) := by
          unfold accN; rw [hh]
        rw [e1, hadjn, gradL_unary h1 _ _ _ 0]
      · intro m hm
        have hml : m ≠ l := by rintro rfl; exact hm hlk
        rw [o2 m hml, bl.grow.adjE_eq ti.wf bl.wf]
      · intro m hm
        have : m = l := by simpa [Graph.kids, hh, List.reduceOption] using hm
        rw [this]; exact nn2
      · intro η hs hsm
        refine s2 η (adjSm_grow ti bl.wf bl.grow hs) fun _ => bl.sm η ?_
        have := (Sm_un wf0.acyc hh).mp (hsm hnc)
        have sl := (ti.ext.Sm η hl0).mpr this.1
        refine ⟨hs n a hnc ha, sl, sl, ?_⟩
        rw [ti.ext.ev η hl0, hopn]
        have h3 := this.2
        revert h3 h1
        generalize h0.op n = o
        intro h1 h3
        cases o <;> simp only [Op.arity] at h1 <;> first | exact h3 | omega
    | some r =>
      have hrk := mem_kids_right (args := h0.args) (n := n) (r := r) (by rw [hh])
      have hr : r < n := wf0.acyc n r hrk
      have hr0 : r < h0.next := hr.trans hn
      have hr' := ti.ext.lt hr0
      have bl := gradEL_builds ti.wf hat hl' hr' (h.op n) hpow'
      have ti1 := ti.grow bl.wf bl.grow
      obtain ⟨t2, ex2, v2, nn2, o2, s2⟩ := addAdjE_spec ti1 hl0 bl.lt
      set h1 := addAdjE l (gradEL (h.op n) a l r h).1 (gradEL (h.op n) a l r h).2 with hh1
      have hln : n ≠ l := by omega
      have ha1 : h1.adjE n = some a := by
        rw [o2 n hln, bl.grow.adjE_eq ti.wf bl.wf, ha]
      have hat1 := t2.tgt n a ha1
      have hl1 := t2.ext.lt hl0
      have hr1 := t2.ext.lt hr0
      have hopn1 := t2.ext.op n hn
      have hpow1 : h1.op n = .pow → isConst h1 l zero = false := fun e => by
        rw [t2.ext.isConst hl0]; exact hpow (by rw [← hopn1]; exact e)
      have br := gradER_builds t2.wf hat1 hl1 hr1 (h1.op n) hpow1
      have ti3 := t2.grow br.wf br.grow
      obtain ⟨t4, ex4, v4, nn4, o4, s4⟩ := addAdjE_spec ti3 hr0 br.lt
      refine ⟨_, by simp [treeStep, hargs, ha, ← hh1, ha1], t4, ?_, ?_, ?_, ?_⟩
      · intro η
        have e2 : adjV h1 η = Function.update (adjV h η) l
            (adjV h η l + gradL (h0.op n) (adjV h η n) (ev h0 η l) (ev h0 η r)) := by
          rw [v2, adjV_grow ti bl.wf bl.grow, bl.sem, ti.ext.ev η hl0, ti.ext.ev η hr0, hopn,
            hadjn]
        have e3 : ev h1 η a = adjV h1 η n := by simp [adjV, ha1]
        rw [v4, adjV_grow t2 br.wf br.grow, br.sem, t2.ext.ev η hl0, t2.ext.ev η hr0, hopn1, e3, e2]
        unfold accN; rw [hh]
      · intro m hm
        have hml : m ≠ l := by rintro rfl; exact hm hlk
        have hmr : m ≠ r := by rintro rfl; exact hm hrk
        rw [o4 m hmr, br.grow.adjE_eq t2.wf br.wf, o2 m hml, bl.grow.adjE_eq ti.wf bl.wf]
      · intro m hm
        have hm' : m = l ∨ m = r := by simpa [Graph.kids, hh, List.reduceOption] using hm
        by_cases hmr : m = r
        · rw [hmr]; exact nn4
        · have hml : m = l := by tauto
          rw [o4 m hmr, br.grow.adjE_eq t2.wf br.wf, hml]; exact nn2
      · intro η hs hsm
        have hS := (Sm_bin wf0.acyc hh).mp (hsm hnc)
        have sl := (ti.ext.Sm η hl0).mpr hS.1
        have sr := (ti.ext.Sm η hr0).mpr hS.2.1
        have hs1 : adjSm h0 h1 η := by
          refine s2 η (adjSm_grow ti bl.wf bl.grow hs) fun _ => bl.sm η ⟨hs n a hnc ha, sl, sr, ?_⟩
          rw [ti.ext.ev η hl0, ti.ext.ev η hr0, hopn, ti.ext.op r hr0]
          exact hS.2.2
        refine s4 η (adjSm_grow t2 br.wf br.grow hs1) fun hrc => br.sm η
          ⟨hs1 n a hnc ha1, (t2.ext.Sm η hl0).mpr hS.1, (t2.ext.Sm η hr0).mpr hS.2.1, ?_⟩
        rw [t2.ext.ev η hl0, t2.ext.ev η hr0, hopn1]
        have := hS.2.2
        simpa [hrc] using this

end Slp
