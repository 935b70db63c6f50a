import Verif.Autodiff.TreeLemmas

/-! `gradient_tree` as a whole: what the returned expressions denote, and that no `adjoint_expr` link
is left behind. -/

namespace Slp

open ScalarOps

/-- No `adjoint_expr` link is set. -/
def Clean {S : Type} (h : Heap S) : Prop := ∀ n, h.adjE n = none

theorem foldlM_treeStep {h0 : Heap ℝ} (wf0 : WF h0) (s : List ℕ) (hs : Topo h0.args s)
    (hlt : ∀ n ∈ s, n < h0.next) (h : Heap ℝ) (ti : TI h0 h)
    (hfed : ∀ n ∈ s, h.adjE n ≠ none ∨ ∃ m ∈ s, n ∈ Graph.kids h0.args m) :
    ∃ h', s.foldlM treeStep h = some h' ∧ TI h0 h' ∧
      (∀ η, adjV h' η = s.foldl (accN h0 (ev h0 η)) (adjV h η)) ∧
      (∀ m, m ∉ s → h'.adjE m = h.adjE m) ∧
      (∀ η, adjSm h0 h η → (∀ n ∈ s, Sm h0 η n) → adjSm h0 h' η) := by
  induction s generalizing h with
  | nil => exact ⟨h, rfl, ti, fun _ => rfl, fun _ _ => rfl, fun _ hs _ => hs⟩
  | cons n t ih =>
    have hnn : h.adjE n ≠ none := by
      rcases hfed n (by simp) with e | ⟨m, hm, hk⟩
      · exact e
      · rcases List.mem_cons.mp hm with e | e
        · subst e; exact absurd (wf0.acyc _ _ hk) (lt_irrefl _)
        · exact absurd (hs.2.2.closed m e n hk) hs.1
    obtain ⟨h1, e1, ti1, v1, o1, k1, s1⟩ := treeStep_spec wf0 ti (hlt n (by simp)) (Or.inr hnn)
    obtain ⟨h2, e2, ti2, v2, o2, s2⟩ := ih hs.2.2 (fun m hm => hlt m (by simp [hm])) h1 ti1 (by
      intro m hm
      by_cases hk : m ∈ Graph.kids h0.args n
      · exact Or.inl (k1 m hk)
      · rcases hfed m (by simp [hm]) with e | ⟨p, hp, hpk⟩
        · left; rw [o1 m hk]; exact e
        · rcases List.mem_cons.mp hp with e | e
          · subst e; exact absurd hpk hk
          · exact Or.inr ⟨p, e, hpk⟩)
    refine ⟨h2, ?_, ti2, ?_, ?_, ?_⟩
    · simp [List.foldlM_cons, e1, e2]
    · intro η; rw [v2, v1]; rfl
    · intro m hm
      simp only [List.mem_cons, not_or] at hm
      rw [o2 m hm.2, o1 m (fun hk => hm.2 (hs.2.1 m hk))]
    · intro η h3 h4
      exact s2 η (s1 η h3 fun _ => h4 n (by simp)) fun m hm => h4 m (by simp [hm])

theorem takeAdjE_spec (ws : List ℕ) (h : Heap ℝ) (hn : ws.Nodup) :
    (takeAdjE ws h).1 = ws.map h.adjE ∧
      (takeAdjE ws h).2 = { h with adjE := fun n => if n ∈ ws then none else h.adjE n } := by
  induction ws generalizing h with
  | nil => simp [takeAdjE]
  | cons w ws ih =>
    have hn' := List.nodup_cons.mp hn
    obtain ⟨e1, e2⟩ := ih { h with adjE := Function.update h.adjE w none } hn'.2
    unfold takeAdjE
    simp only [e1, e2, List.map_cons]
    refine ⟨?_, ?_⟩
    · congr 1
      apply List.map_congr_left
      intro m hm
      have : m ≠ w := by rintro rfl; exact hn'.1 hm
      simp [this]
    · congr 1
      funext n
      by_cases h1 : n = w
      · subst h1; simp
      · simp [h1]

theorem clearAdjE_spec (l : List ℕ) (h : Heap ℝ) :
    clearAdjE l h = { h with adjE := fun n => if n ∈ l then none else h.adjE n } := by
  induction l generalizing h with
  | nil => simp [clearAdjE]
  | cons w l ih =>
    have := ih { h with adjE := Function.update h.adjE w none }
    unfold clearAdjE at this ⊢
    rw [List.foldl_cons, this]
    congr 1
    funext n
    by_cases h1 : n = w
    · subst h1; simp
    · simp [h1]

theorem args_snd {S : Type} [ScalarOps S] {h : Heap S} (wf : WF h) {n : ℕ} (h1 : (h.args n).1 = none) :
    h.args n = (none, none) := by
  by_cases hn : n < h.next
  · have ha := wf.arity n hn
    unfold ArityOK at ha
    split at ha
    · exact ha
    · obtain ⟨x, e⟩ := ha; rw [e] at h1; simp at h1
    · obtain ⟨x, y, e⟩ := ha; rw [e] at h1; simp at h1
  · exact wf.bound n (not_lt.mp hn)

theorem Sm_reach {h : Heap ℝ} (wf : WF h) {η : ℕ → ℝ} {r n : ℕ} (hr : Sm h η r)
    (hreach : Graph.Reach h.args r n) : Sm h η n := by
  induction hreach with
  | refl => exact hr
  | @tail b c _ hc ih =>
    rcases hh : h.args b with ⟨x, y⟩
    cases x with
    | none =>
      have := args_snd wf (n := b) (by rw [hh])
      simp [Graph.kids, this, List.reduceOption] at hc
    | some x =>
      cases y with
      | none =>
        have : c = x := by simpa [Graph.kids, hh, List.reduceOption] using hc
        rw [this]; exact ((Sm_un wf.acyc hh).mp ih).1
      | some y =>
        have : c = x ∨ c = y := by simpa [Graph.kids, hh, List.reduceOption] using hc
        have h2 := (Sm_bin wf.acyc hh).mp ih
        rcases this with e | e
        · rw [e]; exact h2.1
        · rw [e]; exact h2.2.1

/-- A list returned by `topological_sort` for root `r` (of any type). -/
structure TopOf {S : Type} (h : Heap S) (r : ℕ) (l : List ℕ) : Prop where
  lt : r < h.next
  const : h.ty r = .constant → l = []
  topo : Topo h.args l
  mem : h.ty r ≠ .constant → ∀ n, n ∈ l ↔ Graph.Reach h.args r n
  head : h.ty r ≠ .constant → ∃ t, l = r :: t

theorem topoSort_topOf {S : Type} [ScalarOps S] {h : Heap S} (wf : WF h) {r : ℕ} (hr : r < h.next) :
    ∃ l, topoSort h (some r) = some (l, h) ∧ TopOf h r l := by
  by_cases hc : h.ty r = .constant
  · exact ⟨[], topoSort_const hc, hr, fun _ => rfl, trivial, fun h1 => absurd hc h1,
      fun h1 => absurd hc h1⟩
  · obtain ⟨l, h1, h2, h3, h4⟩ := topoSort_spec wf r hc
    refine ⟨l, h1, hr, fun h1 => absurd h1 hc, h2, fun _ => h3, fun _ => ?_⟩
    cases l with
    | nil => simp at h4
    | cons a t => simp at h4; exact ⟨t, by rw [h4]⟩

theorem reach_ext {S : Type} [ScalarOps S] {h h' : Heap S} (wf : WF h) (g : Ext h h') {r n : ℕ} (hr : r < h.next) :
    Graph.Reach h'.args r n ↔ Graph.Reach h.args r n := by
  constructor
  · intro hh
    induction hh with
    | refl => exact Relation.ReflTransGen.refl
    | @tail b c _ hc ih =>
      refine ih.tail ?_
      have hb := reach_lt wf hr ih
      simpa [Graph.kids, g.args b hb] using hc
  · intro hh
    induction hh with
    | refl => exact Relation.ReflTransGen.refl
    | @tail b c hb' hc ih =>
      refine ih.tail ?_
      have hb := reach_lt wf hr hb'
      simpa [Graph.kids, g.args b hb] using hc

theorem topo_ext {S : Type} [ScalarOps S] {h h' : Heap S} (g : Ext h h') {l : List ℕ} (hl : ∀ n ∈ l, n < h.next)
    (ht : Topo h.args l) : Topo h'.args l := by
  induction l with
  | nil => trivial
  | cons n t ih =>
    refine ⟨ht.1, ?_, ih (fun m hm => hl m (by simp [hm])) ht.2.2⟩
    have := g.args n (hl n (by simp))
    intro c hc
    exact ht.2.1 c (by simpa [Graph.kids, this] using hc)

theorem TopOf.mem_lt {S : Type} [ScalarOps S] {h : Heap S} (wf : WF h) {r : ℕ} {l : List ℕ} (t : TopOf h r l) :
    ∀ n ∈ l, n < h.next := by
  intro n hn
  by_cases hc : h.ty r = .constant
  · rw [t.const hc] at hn; simp at hn
  · exact reach_lt wf t.lt ((t.mem hc n).mp hn)

theorem TopOf.ext {S : Type} [ScalarOps S] {h h' : Heap S} (wf : WF h) (g : Ext h h') {r : ℕ} {l : List ℕ}
    (t : TopOf h r l) : TopOf h' r l where
  lt := g.lt t.lt
  const hc := t.const (by rw [← g.ty r t.lt]; exact hc)
  topo := topo_ext g (t.mem_lt wf) t.topo
  mem hc n := by
    rw [g.ty r t.lt] at hc
    rw [t.mem hc, reach_ext wf g t.lt]
  head hc := by
    rw [g.ty r t.lt] at hc
    exact t.head hc

/-- The value of a possibly null expression. -/
noncomputable def gval (h : Heap ℝ) (η : ℕ → ℝ) : Option ℕ → ℝ
  | none => 0
  | some e => ev h η e

/-- `g` is a (possibly null) expression in `h'` for the derivative of node `r` of `h` with respect to
`w`. -/
structure IsGrad (h h' : Heap ℝ) (r w : ℕ) (g : Option ℕ) : Prop where
  lt : ∀ e, g = some e → e < h'.next
  sem : ∀ η, gval h' η g = tgv h (ev h η) (dir w) r
  sm : ∀ η, Sm h η r → ∀ e, g = some e → Sm h' η e

theorem tgv_const {h : Heap ℝ} (wf : WF h) {r : ℕ} (hr : r < h.next) (hc : h.ty r = .constant)
    (v d : ℕ → ℝ) : tgv h v d r = 0 := by
  rw [tgv_leaf (by rw [const_args wf hr hc]), if_pos ((ty_constant_iff wf hr).mp hc)]

theorem gradientTree_spec {h : Heap ℝ} (wf : WF h) (hcl : Clean h) {r : ℕ} {top : List ℕ}
    (ht : TopOf h r top) (wrt : List ℕ) (hnd : wrt.Nodup)
    (hw : ∀ w ∈ wrt, w < h.next ∧ h.op w = .variable) :
    ∃ g h', gradientTree top wrt h = some (g, h') ∧ WF h' ∧ Clean h' ∧ Ext h h' ∧
      List.Forall₂ (fun w g => IsGrad h h' r w g) wrt g := by
  by_cases hc : h.ty r = .constant
  · rw [ht.const hc]
    refine ⟨_, h, rfl, wf, hcl, Ext.refl h, ?_⟩
    rw [List.forall₂_map_right_iff, List.forall₂_same]
    intro w _
    exact ⟨by simp, fun η => (tgv_const wf ht.lt hc _ _).symm, by simp⟩
  obtain ⟨t, hlt⟩ := ht.head hc
  have hmem := ht.mem hc
  have htopo := ht.topo
  have hltn := ht.mem_lt wf
  -- the heap in which the loop starts
  have b := mkConst_builds wf (1 : ℝ)
  set c := (mkConst (one : ℝ) h).1 with hcdef
  set h1 := (mkConst (one : ℝ) h).2 with hh1
  set h2 : Heap ℝ := { h1 with adjE := Function.update h1.adjE r (some c) } with hh2
  have b : Builds (mkConst (one : ℝ)) h (fun _ => 1) (fun _ => True) := b
  have hclean1 : ∀ n, h1.adjE n = none := fun n => by
    rw [hh1, b.grow.adjE_eq wf b.wf]; exact hcl n
  have hr1 := b.grow.lt ht.lt
  have ti : TI h h2 := by
    refine ⟨?_, b.grow.ext.trans (ext_setAdjE _ _), ?_, ?_⟩
    · apply b.wf.setAdjE
      intro n hn
      rw [Function.update_of_ne (by omega)]
      exact hclean1 n
    · intro n hn
      have := ht.lt
      show Function.update h1.adjE r (some c) n = none
      rw [Function.update_of_ne (by omega)]
      exact hclean1 n
    · intro n e he
      change Function.update h1.adjE r (some c) n = some e at he
      by_cases hn : n = r
      · subst hn; simp at he; subst he; exact b.lt
      · rw [Function.update_of_ne hn, hclean1] at he; simp at he
  obtain ⟨h3, e3, ti3, v3, o3, s3⟩ := foldlM_treeStep wf top htopo hltn h2 ti (by
    intro n hn
    by_cases hnr : n = r
    · left; subst hnr; show Function.update h1.adjE n (some c) n ≠ none; simp
    · right
      have hre := (hmem n).mp hn
      rcases Relation.ReflTransGen.cases_tail hre with e | ⟨m, hm, hk⟩
      · exact absurd e hnr
      · exact ⟨m, (hmem m).mpr hm, hk⟩)
  have hadj0 : ∀ η, adjV h2 η = fun n => if n = r then 1 else 0 := by
    intro η
    funext n
    unfold adjV
    by_cases hn : n = r
    · subst hn
      have : h2.adjE n = some c := by show Function.update h1.adjE n (some c) n = _; simp
      rw [this]
      simp only [if_true]
      rw [hh2, ev_setAdjE]
      exact b.sem η
    · have : h2.adjE n = none := by
        show Function.update h1.adjE r (some c) n = _
        rw [Function.update_of_ne hn]; exact hclean1 n
      rw [this]; simp [hn]
  have hsm0 : ∀ η, adjSm h h2 η := by
    intro η m e _ he
    change Function.update h1.adjE r (some c) m = some e at he
    rw [Sm_setAdjE]
    by_cases hn : m = r
    · subst hn; simp at he; subst he; exact b.sm η trivial
    · rw [Function.update_of_ne hn, hclean1] at he; simp at he
  obtain ⟨t1, t2⟩ := takeAdjE_spec wrt h3 hnd
  set adjF : ℕ → Option ℕ := fun n => if n ∈ top then none else if n ∈ wrt then none else h3.adjE n
    with hadjF
  have hfinal : clearAdjE top (takeAdjE wrt h3).2 = { h3 with adjE := adjF } := by
    rw [t2, clearAdjE_spec]
  have hadjF0 : ∀ n, adjF n = none := by
    intro n
    simp only [hadjF]
    by_cases h5 : n ∈ top
    · simp [h5]
    · have hnr : n ≠ r := by rintro rfl; exact h5 ((hmem _).mpr Relation.ReflTransGen.refl)
      have : h3.adjE n = none := by
        rw [o3 n h5]
        show Function.update h1.adjE r (some c) n = _
        rw [Function.update_of_ne hnr]; exact hclean1 n
      simp [this]
  refine ⟨wrt.map h3.adjE, { h3 with adjE := adjF }, ?_, ti3.wf.setAdjE fun n _ => hadjF0 n,
    hadjF0, ti3.ext.trans (ext_setAdjE _ _), ?_⟩
  · rw [hlt]
    rw [hlt] at e3 hfinal
    unfold gradientTree
    simp only [← hcdef, ← hh1, ← hh2, e3, hfinal, t1]
  · rw [List.forall₂_map_right_iff, List.forall₂_same]
    intro w hwm
    obtain ⟨hwlt, hwop⟩ := hw w hwm
    refine ⟨?_, ?_, ?_⟩
    · intro e he; exact ti3.tgt w e he
    · intro η
      have e1 : gval { h3 with adjE := adjF } η (h3.adjE w) = adjV h3 η w := by
        unfold gval adjV
        rcases h3.adjE w with _ | e
        · rfl
        · exact ev_setAdjE _ _ _ _
      rw [e1, v3, hadj0]
      by_cases hwt : w ∈ top
      · rw [hlt]
        rw [hlt] at htopo hwt
        refine accN_dir wf (ev h η) r t htopo w hwt hwop hwlt _ (by simp) ?_
        intro m hm
        have : m ≠ r := by rintro rfl; exact htopo.1 hm
        simp [this]
      · rw [foldl_accN_other top htopo w hwt]
        have hwr : w ≠ r := by rintro rfl; exact hwt ((hmem _).mpr Relation.ReflTransGen.refl)
        simp only [hwr, if_false]
        symm
        apply tgv_indep wf.acyc
        intro n hn _ _
        have : n ≠ w := by rintro rfl; exact hwt ((hmem _).mpr hn)
        simp [dir, this]
    · intro η hs e he
      rw [Sm_setAdjE]
      refine s3 η (hsm0 η) (fun n hn => Sm_reach wf hs ((hmem n).mp hn)) w e ?_ he
      rw [hwop]; simp

end Slp
