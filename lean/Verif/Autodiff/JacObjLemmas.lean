import Verif.Autodiff.JacLemmas

/-! The `Jacobian` / `Hessian` object invariant, and what the constructor, `value()` and `get()` do. -/

namespace Slp

open ScalarOps

/-- What any sequence of API calls leaves alone: existing nodes keep their class, type and operands,
and constants keep their value. -/
structure Mono {S : Type} (h h' : Heap S) : Prop where
  next : h.next ≤ h'.next
  op : ∀ n, n < h.next → h'.op n = h.op n
  ty : ∀ n, n < h.next → h'.ty n = h.ty n
  args : ∀ n, n < h.next → h'.args n = h.args n
  const : ∀ n, n < h.next → h.op n = .constant → h'.val n = h.val n

theorem Mono.refl {S : Type} [ScalarOps S] (h : Heap S) : Mono h h :=
  ⟨le_rfl, fun _ _ => rfl, fun _ _ => rfl, fun _ _ => rfl, fun _ _ _ => rfl⟩

theorem Mono.trans {S : Type} [ScalarOps S] {h1 h2 h3 : Heap S} (a : Mono h1 h2) (b : Mono h2 h3) : Mono h1 h3 where
  next := a.next.trans b.next
  op n hn := (b.op n (lt_of_lt_of_le hn a.next)).trans (a.op n hn)
  ty n hn := (b.ty n (lt_of_lt_of_le hn a.next)).trans (a.ty n hn)
  args n hn := (b.args n (lt_of_lt_of_le hn a.next)).trans (a.args n hn)
  const n hn hc := (b.const n (lt_of_lt_of_le hn a.next) (by rw [a.op n hn, hc])).trans
    (a.const n hn hc)

theorem Ext.mono {S : Type} [ScalarOps S] {h h' : Heap S} (g : Ext h h') : Mono h h' :=
  ⟨g.next, g.op, g.ty, g.args, fun n hn _ => g.val n hn⟩

theorem Num.mono {S : Type} [ScalarOps S] {h h' : Heap S} (g : Num h h') (wf : WF h) : Mono h h' :=
  ⟨g.next.ge, fun _ _ => by rw [g.op], fun _ _ => by rw [g.ty], fun _ _ => by rw [g.args],
    (g.same wf).const⟩

theorem Mono.same {S : Type} [ScalarOps S] {h h' : Heap S} (g : Mono h h') : SameUpTo h.next h h' := ⟨g.op, g.args, g.const⟩

theorem Mono.ev {S : Type} [ScalarOps S] {h h' : Heap S} (g : Mono h h') (η : ℕ → S) {n : ℕ} (hn : n < h.next) :
    ev h' η n = ev h η n :=
  ev_congr g.same (fun _ _ _ _ => rfl) n hn

theorem Mono.Sm {h h' : Heap ℝ} (g : Mono h h') (η : ℕ → ℝ) {n : ℕ} (hn : n < h.next) :
    Sm h' η n ↔ Sm h η n :=
  Sm_congr g.same (fun _ _ _ _ => rfl) n hn

theorem Mono.lt {S : Type} [ScalarOps S] {h h' : Heap S} (g : Mono h h') {n : ℕ} (hn : n < h.next) : n < h'.next :=
  lt_of_lt_of_le hn g.next

/-- A heap with the old values, to reuse the lemmas on `Ext`. -/
theorem Mono.toExt {S : Type} [ScalarOps S] {h h' : Heap S} (g : Mono h h') :
    Ext h { h' with val := fun n => if n < h.next then h.val n else h'.val n } :=
  ⟨g.next, g.op, g.ty, g.args, fun n hn => by simp [hn]⟩

theorem TopOf.mono {S : Type} [ScalarOps S] {h h' : Heap S} (wf : WF h) (g : Mono h h') {r : ℕ} {l : List ℕ}
    (t : TopOf h r l) : TopOf h' r l := by
  have := t.ext wf g.toExt
  exact ⟨this.lt, this.const, this.topo, this.mem, this.head⟩

theorem tgv_congr {h h' : Heap ℝ} {N : ℕ} (hop : ∀ n, n < N → h'.op n = h.op n)
    (hargs : ∀ n, n < N → h'.args n = h.args n) (v d : ℕ → ℝ) (n : ℕ) (hn : n < N) :
    tgv h' v d n = tgv h v d n := by
  induction n using Nat.strong_induction_on with
  | _ n ih =>
    rw [tgv, tgv, hargs n hn, hop n hn]
    rcases hh : h.args n with ⟨a, b⟩
    cases a with
    | none => rfl
    | some l =>
      cases b with
      | none =>
        simp only
        by_cases hl : l < n
        · simp [hl, ih l hl (by omega)]
        · simp [hl]
      | some r =>
        simp only
        by_cases hl : l < n
        · by_cases hr : r < n
          · simp [hl, hr, ih l hl (by omega), ih r hr (by omega)]
          · simp [hl, hr]
        · simp [hl]

theorem Mono.tgv {h h' : Heap ℝ} (g : Mono h h') (v d : ℕ → ℝ) {n : ℕ} (hn : n < h.next) :
    tgv h' v d n = tgv h v d n :=
  tgv_congr g.op g.args v d n hn

/-- Row `v` (null for an absent gradient) has topological list `l`. -/
def RowTop {S : Type} (h : Heap S) (v : Option ℕ) (l : List ℕ) : Prop :=
  match v with
  | none => l = []
  | some r => TopOf h r l

theorem RowTop.mono {S : Type} [ScalarOps S] {h h' : Heap S} (wf : WF h) (g : Mono h h') {v : Option ℕ} {l : List ℕ}
    (t : RowTop h v l) : RowTop h' v l := by
  cases v with
  | none => exact t
  | some r => exact TopOf.mono wf g t

/-- The derivative of a row at the stored values of the independent variables. -/
noncomputable def rowGrad (h : Heap ℝ) (w : ℕ) (v : Option ℕ) : ℝ :=
  match v with
  | none => 0
  | some r => tgv h (ev h h.val) (dir w) r

/-- What the cached triplets contribute to the row of `v`, for node values `x`. -/
noncomputable def linEntry (h : Heap ℝ) (x : ℕ → ℝ) (wrt : List ℕ) (v : Option ℕ) (j : ℕ) : ℝ :=
  match v with
  | none => 0
  | some r => if h.ty r = .linear ∧ j < wrt.length then tgv h x (dir (wrt.getD j 0)) r else 0

/-- The row of `v` is recomputed by `value()`. -/
def isNL {S : Type} (h : Heap S) (v : Option ℕ) : Prop :=
  match v with
  | none => False
  | some r => 2 < (h.ty r).rank

structure JacOK (h : Heap ℝ) (J : JacObj ℝ) : Prop where
  wrtVar : ∀ w ∈ J.wrt, w < h.next ∧ h.op w = .variable
  nodup : J.wrt.Nodup
  tops : List.Forall₂ (RowTop h) J.vars J.topLists
  outLists : J.outLists = J.topLists.map (outs J.wrt)
  nlNodup : J.nonlinear.Nodup
  nl : ∀ i, i ∈ J.nonlinear ↔ ∃ v, J.vars[i]? = some v ∧ isNL h v
  cached : ∀ x : ℕ → ℝ, (∀ n, n < h.next → h.op n = .constant → x n = h.val n) → ∀ i j,
    tsum J.cached i j = match J.vars[i]? with
      | none => 0
      | some v => linEntry h x J.wrt v j
  mat : J.nonlinear = [] → J.mat = fromTriplets J.cached

theorem forall2_get {α β : Type} {R : α → β → Prop} {l : List α} {m : List β}
    (h : List.Forall₂ R l m) (i : ℕ) {a : α} (ha : l[i]? = some a) : ∃ b, m[i]? = some b ∧ R a b := by
  induction h generalizing i with
  | nil => simp at ha
  | cons h1 _ ih =>
    cases i with
    | zero => simp at ha; subst ha; exact ⟨_, rfl, h1⟩
    | succ i => simpa using ih i (by simpa using ha)

theorem JacOK.row_lt {h : Heap ℝ} {J : JacObj ℝ} (jo : JacOK h J) {i r : ℕ}
    (hi : J.vars[i]? = some (some r)) : r < h.next := by
  obtain ⟨l, _, hl⟩ := forall2_get jo.tops i hi
  exact TopOf.lt hl

theorem JacOK.mono {h h' : Heap ℝ} (wf : WF h) (g : Mono h h') {J : JacObj ℝ} (jo : JacOK h J) :
    JacOK h' J where
  wrtVar w hw := by
    obtain ⟨h1, h2⟩ := jo.wrtVar w hw
    exact ⟨g.lt h1, by rw [g.op w h1, h2]⟩
  nodup := jo.nodup
  tops := jo.tops.imp fun _ _ t => RowTop.mono wf g t
  outLists := jo.outLists
  nlNodup := jo.nlNodup
  nl i := by
    rw [jo.nl]
    apply exists_congr
    intro v
    apply and_congr_right
    intro hv
    cases v with
    | none => rfl
    | some r => simp only [isNL]; rw [g.ty r (jo.row_lt hv)]
  cached x hx i j := by
    rw [jo.cached x (fun n hn hc => by
      rw [← g.const n hn hc]; exact hx n (g.lt hn) (by rw [g.op n hn, hc])) i j]
    rcases hv : J.vars[i]? with _ | v
    · rfl
    · cases v with
      | none => rfl
      | some r =>
        simp only [linEntry]
        rw [g.ty r (jo.row_lt hv), g.tgv _ _ (jo.row_lt hv)]
  mat := jo.mat

/-! ### Construction -/

theorem sortAll_spec {S : Type} [ScalarOps S] {h : Heap S} (wf : WF h) (vars : List (Option ℕ))
    (hv : ∀ r, some r ∈ vars → r < h.next) :
    ∃ tops, sortAll vars h = some (tops, h) ∧ List.Forall₂ (RowTop h) vars tops := by
  induction vars with
  | nil => exact ⟨[], rfl, .nil⟩
  | cons v vs ih =>
    obtain ⟨ts, e, f⟩ := ih fun r hr => hv r (by simp [hr])
    cases v with
    | none => exact ⟨[] :: ts, by simp [sortAll, topoSort, e], .cons rfl f⟩
    | some r =>
      obtain ⟨l, e1, t⟩ := topoSort_topOf wf (hv r (by simp))
      exact ⟨l :: ts, by simp [sortAll, e1, e], .cons t f⟩

theorem mem_outs {wrt top : List ℕ} {cn : ℕ × ℕ} (h : cn ∈ outs wrt top) :
    cn.2 ∈ top ∧ cn.2 ∈ wrt := by
  unfold outs at h
  rw [List.mem_map] at h
  obtain ⟨n, hn, rfl⟩ := h
  rw [List.mem_filter] at hn
  exact ⟨hn.1, by simpa using hn.2⟩

theorem wf_adjoint {S : Type} [ScalarOps S] {h : Heap S} (wf : WF h) (f : ℕ → S) : WF { h with adjoint := f } :=
  (num_adjoint h f).wf wf

/-- The triplets of one row of a Jacobian. -/
theorem row_triplets {h : Heap ℝ} (wf : WF h) {r : ℕ} {top wrt : List ℕ} (ht : TopOf h r top)
    (hnd : wrt.Nodup) (hw : ∀ w ∈ wrt, w < h.next ∧ h.op w = .variable)
    (hc : h.ty r ≠ .constant) (f : ℕ → ℝ) (row : ℕ) :
    (∀ i j, tsum (appendTriplets top (outs wrt top) row { h with adjoint := f }).1 i j =
      if i = row ∧ j < wrt.length then tgv h h.val (dir (wrt.getD j 0)) r else 0) ∧
    ∃ adj, (appendTriplets top (outs wrt top) row { h with adjoint := f }).2 =
      { h with adjoint := adj } := by
  obtain ⟨t, e⟩ := ht.head hc
  have htopo := ht.topo
  have hmem := ht.mem hc
  have sp := appendTriplets_spec (h := { h with adjoint := f }) (wf_adjoint wf f) r t
    (by rw [← e]; exact htopo) (outs wrt top) row (by
      intro cn hcn
      obtain ⟨h1, h2⟩ := mem_outs hcn
      rw [← e]
      exact ⟨h1, (hw _ h2).2, (hw _ h2).1⟩)
  rw [← e] at sp
  refine ⟨?_, ?_⟩
  · intro i j
    rw [sp.1]
    have := tsum_outs wrt top hnd htopo.nodup row
      (fun n => tgv { h with adjoint := f } h.val (dir n) r) i j
    rw [this]
    have htg : ∀ v d, tgv { h with adjoint := f } v d r = tgv h v d r := fun v d =>
      tgv_congr (h := h) (h' := { h with adjoint := f }) (N := r + 1) (fun _ _ => rfl) (fun _ _ => rfl) v d r (Nat.lt_succ_self r)
    simp only [htg]
    by_cases h1 : i = row ∧ j < wrt.length
    · rw [dif_pos h1, if_pos h1]
      have hg : wrt.getD j 0 = wrt[j]'h1.2 := by simp [List.getD, h1.2]
      rw [hg]
      by_cases hm : wrt[j]'h1.2 ∈ top
      · rw [if_pos hm]
      · rw [if_neg hm]
        symm
        apply tgv_indep wf.acyc
        intro n hn _ _
        have : n ≠ wrt[j]'h1.2 := by
          intro e2; apply hm; rw [← e2]; exact (hmem n).mpr hn
        simp [dir, this]
    · rw [dif_neg h1, if_neg h1]
  · obtain ⟨adj, e2⟩ := sp.2
    exact ⟨adj, e2⟩

theorem cacheRows_spec {h : Heap ℝ} (wf : WF h) (wrt : List ℕ) (hnd : wrt.Nodup)
    (hw : ∀ w ∈ wrt, w < h.next ∧ h.op w = .variable) (vars : List (Option ℕ))
    (tops : List (List ℕ)) (ht : List.Forall₂ (RowTop h) vars tops) (row : ℕ) (f : ℕ → ℝ) :
    ∃ c nl adj, cacheRows vars tops (tops.map (outs wrt)) row { h with adjoint := f } =
        (c, nl, { h with adjoint := adj }) ∧
      (∀ i j, tsum c i j = if row ≤ i then (match vars[i - row]? with
        | none => 0
        | some v => linEntry h h.val wrt v j) else 0) ∧
      nl.Nodup ∧ (∀ i, i ∈ nl ↔ row ≤ i ∧ ∃ v, vars[i - row]? = some v ∧ isNL h v) := by
  induction ht generalizing row f with
  | nil => exact ⟨[], [], f, rfl, by simp [tsum], by simp, by simp⟩
  | @cons v t vs ts hvt hrest ih =>
    have hidx : ∀ i, row ≤ i → i ≠ row →
        ((v :: vs)[i - row]?) = vs[i - (row + 1)]? := by
      intro i h1 h2
      have : i - row = (i - (row + 1)) + 1 := by omega
      rw [this]; rfl
    -- contribution of the later rows, extended by the empty contribution of this one
    have comb : ∀ (c : List (Triplet ℝ)) (i j : ℕ), (∀ i j, tsum c i j =
        if row + 1 ≤ i then (match vs[i - (row + 1)]? with
          | none => 0
          | some v => linEntry h h.val wrt v j) else 0) →
        (if i = row then linEntry h h.val wrt v j else 0) + tsum c i j =
          if row ≤ i then (match (v :: vs)[i - row]? with
            | none => 0
            | some v => linEntry h h.val wrt v j) else 0 := by
      intro c i j hc
      rw [hc]
      by_cases h1 : i = row
      · subst h1; simp
      · by_cases h2 : row ≤ i
        · rw [hidx i h2 h1, if_pos h2, if_neg h1, if_pos (by omega), zero_add]
        · rw [if_neg h1, if_neg h2, if_neg (by omega), zero_add]
    have combN : ∀ (nl : List ℕ), (∀ i, i ∈ nl ↔ row + 1 ≤ i ∧
        ∃ v, vs[i - (row + 1)]? = some v ∧ isNL h v) → ∀ i,
        ((i = row ∧ isNL h v) ∨ i ∈ nl) ↔ (row ≤ i ∧ ∃ u, (v :: vs)[i - row]? = some u ∧ isNL h u) := by
      intro nl hnl i
      rw [hnl]
      by_cases h1 : i = row
      · subst h1; simp
      · by_cases h2 : row ≤ i
        · rw [hidx i h2 h1]
          have : row + 1 ≤ i := by omega
          simp [h1, h2, this]
        · have : ¬ row + 1 ≤ i := by omega
          simp [h1, h2, this]
    cases v with
    | none =>
      obtain ⟨c, nl, adj, e, hc, hnd', hnl⟩ := ih (row + 1) f
      refine ⟨c, nl, adj, ?_, ?_, hnd', ?_⟩
      · rw [List.map_cons, cacheRows, e]
      · intro i j
        rw [← comb c i j hc]
        simp [linEntry]
      · intro i
        rw [← combN nl hnl i]
        simp [isNL]
    | some r =>
      have hto : TopOf h r t := hvt
      by_cases hlin : h.ty r = .linear
      · obtain ⟨ha, adj1, hadj1⟩ := row_triplets wf hto hnd hw (by rw [hlin]; simp) f row
        obtain ⟨c, nl, adj, e, hc, hnd', hnl⟩ := ih (row + 1) adj1
        refine ⟨(appendTriplets t (outs wrt t) row { h with adjoint := f }).1 ++ c, nl, adj, ?_, ?_,
          hnd', ?_⟩
        · rw [List.map_cons, cacheRows]
          simp only [hlin, if_true]
          rw [hadj1, e]
        · intro i j
          rw [tsum_append, ha, ← comb c i j hc]
          congr 1
          simp only [linEntry, hlin, true_and]
          by_cases h1 : i = row
          · simp [h1]
          · simp [h1]
        · intro i
          rw [← combN nl hnl i]
          simp [isNL, hlin, Ty.rank]
      · obtain ⟨c, nl, adj, e, hc, hnd', hnl⟩ := ih (row + 1) f
        have hz : ∀ i j, (if i = row then linEntry h h.val wrt (some r) j else 0) = 0 := by
          intro i j; simp [linEntry, hlin]
        by_cases hr : 2 < (h.ty r).rank
        · refine ⟨c, row :: nl, adj, ?_, ?_, ?_, ?_⟩
          · rw [List.map_cons, cacheRows]
            simp only [hlin, if_false]
            rw [e, if_pos (by simpa [Ty.rank] using hr)]
          · intro i j; rw [← comb c i j hc, hz, zero_add]
          · refine List.nodup_cons.mpr ⟨?_, hnd'⟩
            rw [hnl]; omega
          · intro i
            rw [← combN nl hnl i]
            simp [isNL, hr]
        · refine ⟨c, nl, adj, ?_, ?_, hnd', ?_⟩
          · rw [List.map_cons, cacheRows]
            simp only [hlin, if_false]
            rw [e, if_neg (by simpa [Ty.rank] using hr)]
          · intro i j; rw [← comb c i j hc, hz, zero_add]
          · intro i
            rw [← combN nl hnl i]
            simp [isNL, hr]

/-- `Jacobian(vars, wrt)`: total, changes only adjoints, and establishes the invariant. -/
theorem jacobian_spec {h : Heap ℝ} (wf : WF h) (vars : List (Option ℕ)) (wrt : List ℕ)
    (hv : ∀ r, some r ∈ vars → r < h.next) (hnd : wrt.Nodup)
    (hw : ∀ w ∈ wrt, w < h.next ∧ h.op w = .variable) :
    ∃ J h', jacobian vars wrt h = some (J, h') ∧ Num h h' ∧ JacOK h' J ∧ J.vars = vars ∧
      J.wrt = wrt := by
  obtain ⟨tops, e, ht⟩ := sortAll_spec wf vars hv
  have hsc : { h with scratch := unmarkCols wrt (markCols wrt 0 h.scratch) } =
      ({ h with adjoint := h.adjoint } : Heap ℝ) := by
    have : unmarkCols wrt (markCols wrt 0 h.scratch) = h.scratch := by
      funext n
      rw [unmarkCols_spec, markCols_spec wrt hnd]
      by_cases h1 : n ∈ wrt
      · simp [h1, wf.scratch]
      · simp [h1]
    rw [this]
  have houts : tops.map (outList (markCols wrt 0 h.scratch)) = tops.map (outs wrt) :=
    List.map_congr_left fun l _ => outList_eq wrt hnd _ wf.scratch l
  obtain ⟨c, nl, adj, ec, hc, hnn, hnl⟩ := cacheRows_spec wf wrt hnd hw vars tops ht 0 h.adjoint
  refine ⟨{ vars := vars, wrt := wrt, topLists := tops, outLists := tops.map (outs wrt), cached := c,
            nonlinear := nl,
            mat := if nl = [] then fromTriplets c else fun _ _ => zero },
    { h with adjoint := adj }, ?_, num_adjoint h adj, ?_, rfl, rfl⟩
  · unfold jacobian
    simp only [e, hsc, houts, ec]
  · refine JacOK.mono wf ((num_adjoint h adj).mono wf) ?_
    constructor
    · exact hw
    · exact hnd
    · exact ht
    · rfl
    · exact hnn
    · intro i; rw [hnl]; simp
    · intro x hx i j
      simp only [hc, Nat.zero_le, if_true, Nat.sub_zero]
      rcases hvi : vars[i]? with _ | v
      · rfl
      · cases v with
        | none => rfl
        | some r =>
          have hr : r < h.next := hv r (List.mem_of_getElem? hvi)
          simp only [linEntry]
          by_cases h1 : h.ty r = .linear ∧ j < wrt.length
          · rw [if_pos h1, if_pos h1]
            exact tgv_linear wf r hr (by rw [h1.1]; simp [Ty.rank])
              fun n hn hcn => (hx n hn hcn).symm
          · rw [if_neg h1, if_neg h1]
    · intro e0
      simp only at e0
      simp [e0]

/-! ### `value()` -/

/-- After updating all rows every node of every row holds what it denotes. -/
theorem updateAll_spec {S : Type} [ScalarOps S] {h : Heap S} (wf : WF h) (ls : List (List ℕ))
    (hl : ∀ l ∈ ls, Topo h.args l ∧ ∀ n ∈ l, n < h.next) :
    Num h (ls.foldl (fun h l => updateValues l h) h) ∧
      ∀ l ∈ ls, ∀ n ∈ l, (ls.foldl (fun h l => updateValues l h) h).val n = ev h h.val n := by
  suffices H : ∀ (ls : List (List ℕ)) (done : List ℕ) (h1 : Heap S),
      (∀ l ∈ ls, Topo h.args l ∧ ∀ n ∈ l, n < h.next) → Num h h1 →
      (∀ n ∈ done, h1.val n = ev h h.val n) →
      Num h (ls.foldl (fun h l => updateValues l h) h1) ∧
      (∀ n ∈ done, (ls.foldl (fun h l => updateValues l h) h1).val n = ev h h.val n) ∧
      ∀ l ∈ ls, ∀ n ∈ l, (ls.foldl (fun h l => updateValues l h) h1).val n = ev h h.val n from by
    obtain ⟨a, _, c⟩ := H ls [] h hl (Num.refl h) (by simp)
    exact ⟨a, c⟩
  intro ls
  induction ls with
  | nil => intro done h1 _ hn hd; exact ⟨hn, hd, by simp⟩
  | cons l ls ih =>
    intro done h1 hl hn hd
    have hn2 := hn.trans (num_updateValues l h1)
    have hl0 := hl l (by simp)
    have hsp := updateValues_spec (hn.wf wf) l (by rw [hn.args]; exact hl0.1)
      (by rw [hn.next]; exact hl0.2)
    have hval : ∀ n ∈ l, (updateValues l h1).val n = ev h h.val n := fun n hnl => by
      rw [hsp n hnl, hn.evVal wf (hl0.2 n hnl)]
    obtain ⟨a, b, c⟩ := ih (l ++ done) (updateValues l h1) (fun m hm => hl m (by simp [hm])) hn2 (by
      intro n hnm
      by_cases hnl : n ∈ l
      · exact hval n hnl
      · rw [updateValues_notMem l h1 n hnl]
        exact hd n (by simpa [hnl] using hnm))
    refine ⟨a, fun n hnd => b n (by simp [hnd]), ?_⟩
    intro m hm n hnm
    rcases List.mem_cons.mp hm with e | e
    · subst e; exact b n (by simp [hnm])
    · exact c m e n hnm

/-- The nodes of the rows are up to date. -/
def Current {S : Type} [ScalarOps S] (h : Heap S) (ls : List (List ℕ)) : Prop :=
  ∀ l ∈ ls, ∀ n ∈ l, h.val n = ev h h.val n

theorem nonlinearTriplets_spec {h : Heap ℝ} (wf : WF h) {J : JacObj ℝ} (jo : JacOK h J)
    (hcur : Current h J.topLists) (rows : List ℕ) (hnd : rows.Nodup)
    (hrows : ∀ i ∈ rows, i ∈ J.nonlinear) (f : ℕ → ℝ) :
    (∀ i j, j < J.wrt.length → tsum (nonlinearTriplets J rows { h with adjoint := f }).1 i j =
      if i ∈ rows then (match J.vars[i]? with
        | none => 0
        | some v => rowGrad h (J.wrt.getD j 0) v) else 0) ∧
    ∃ adj, (nonlinearTriplets J rows { h with adjoint := f }).2 = { h with adjoint := adj } := by
  induction rows generalizing f with
  | nil => exact ⟨by simp [nonlinearTriplets, tsum], f, rfl⟩
  | cons row rows ih =>
    have hnd' := List.nodup_cons.mp hnd
    obtain ⟨v, hv, hnl⟩ := (jo.nl row).mp (hrows row (by simp))
    cases v with
    | none => exact absurd hnl (by simp [isNL])
    | some r =>
      obtain ⟨l, hl, hto⟩ := forall2_get jo.tops row hv
      have hto : TopOf h r l := hto
      have hc : h.ty r ≠ .constant := by
        intro e; simp only [isNL, e, Ty.rank] at hnl; omega
      have ho : J.outLists.getD row [] = outs J.wrt l := by
        rw [jo.outLists]
        simp [List.getD, hl]
      have hl' : J.topLists.getD row [] = l := by simp [List.getD, hl]
      obtain ⟨ha, adj1, hadj1⟩ := row_triplets wf hto jo.nodup jo.wrtVar hc f row
      obtain ⟨hb, adj2, hadj2⟩ := ih hnd'.2 (fun i hi => hrows i (by simp [hi])) adj1
      rw [nonlinearTriplets]
      simp only [hl', ho, hadj1, hadj2]
      refine ⟨?_, adj2, rfl⟩
      intro i j hj
      rw [tsum_append, ha, hb i j hj]
      by_cases h1 : i = row
      · subst h1
        simp only [hj, and_self, if_true, hnd'.1, if_false, add_zero, List.mem_cons, true_or, hv,
          rowGrad]
        apply tgv_congr_v wf
        intro n hn
        exact hcur l (List.mem_of_getElem? hl) n ((hto.mem hc n).mpr hn)
      · simp [h1]

/-- `Jacobian::value`: every entry is the derivative at the current values of the independent
variables, whatever the other node values were; nothing but node values and adjoints changes, and
the object stays valid. -/
theorem JacObj.value_spec {h : Heap ℝ} (wf : WF h) {J : JacObj ℝ} (jo : JacOK h J) :
    Num h (J.value h).2.2 ∧ JacOK (J.value h).2.2 (J.value h).2.1 ∧
      (J.value h).2.1.vars = J.vars ∧ (J.value h).2.1.wrt = J.wrt ∧
      ∀ i j v, J.vars[i]? = some v → j < J.wrt.length →
        (J.value h).1 i j = rowGrad h (J.wrt.getD j 0) v := by
  have hev : ∀ n, n < h.next → h.op n = .constant → ev h h.val n = h.val n := fun n hn hc =>
    ev_const wf hn ((ty_constant_iff wf hn).mpr hc) _
  have hlin : ∀ i j v, J.vars[i]? = some v → j < J.wrt.length → ¬ isNL h v →
      tsum J.cached i j = rowGrad h (J.wrt.getD j 0) v := by
    intro i j v hv hj hnl
    rw [jo.cached (ev h h.val) hev i j, hv]
    cases v with
    | none => rfl
    | some r =>
      simp only [linEntry, rowGrad, hj, and_true]
      by_cases h1 : h.ty r = .linear
      · simp [h1]
      · rw [if_neg h1]
        have hr := jo.row_lt hv
        have h2 : h.ty r = .constant := by
          simp only [isNL] at hnl
          have ht := wf.typ r hr
          have har := wf.arity r hr
          cases hty : h.ty r <;> rw [hty] at hnl ht <;> simp [Ty.rank] at hnl h1
          · exfalso
            cases hop : h.op r <;> rw [hop] at ht har <;>
              simp only [ArityOK, Op.arity] at har <;>
              first
              | (simp [TyOK] at ht; done)
              | (obtain ⟨a, ha⟩ := har; rw [ha] at ht; simp [TyOK, Ty.rank] at ht)
              | (obtain ⟨a, b, ha⟩ := har; rw [ha] at ht; simp [TyOK, Ty.rank] at ht)
          · exact absurd hty h1
        rw [tgv_const wf hr h2]
  by_cases hn : J.nonlinear = []
  · have e : J.value h = (J.mat, J, h) := by unfold JacObj.value; rw [if_pos hn]
    rw [e]
    refine ⟨Num.refl h, jo, rfl, rfl, ?_⟩
    intro i j v hv hj
    show J.mat i j = _
    rw [jo.mat hn, fromTriplets_eq]
    refine hlin i j v hv hj ?_
    intro hnl
    have := (jo.nl i).mpr ⟨v, hv, hnl⟩
    rw [hn] at this
    simp at this
  · have hls : ∀ l ∈ J.topLists, Topo h.args l ∧ ∀ n ∈ l, n < h.next := by
      intro l hl
      obtain ⟨i, hi⟩ := List.getElem?_of_mem hl
      obtain ⟨v, _, ht⟩ := forall2_get jo.tops.flip i hi
      cases v with
      | none =>
        have : l = [] := ht
        subst this
        exact ⟨trivial, by simp⟩
      | some r =>
        have ht : TopOf h r l := ht
        exact ⟨ht.topo, ht.mem_lt wf⟩
    obtain ⟨hnum, hval⟩ := updateAll_spec wf J.topLists hls
    set h1 := J.topLists.foldl (fun h l => updateValues l h) h with hh1
    have wf1 := hnum.wf wf
    have jo1 := jo.mono wf (hnum.mono wf)
    have hcur : Current h1 J.topLists := by
      intro l hl n hnl
      rw [hval l hl n hnl, hnum.evVal wf ((hls l hl).2 n hnl)]
    obtain ⟨ht, adj, hadj⟩ := nonlinearTriplets_spec wf1 jo1 hcur J.nonlinear jo.nlNodup
      (fun _ hi => hi) h1.adjoint
    have hh : ({ h1 with adjoint := h1.adjoint } : Heap ℝ) = h1 := rfl
    rw [hh] at ht hadj
    have e : J.value h = (fromTriplets (J.cached ++ (nonlinearTriplets J J.nonlinear h1).1),
        { J with mat := fromTriplets (J.cached ++ (nonlinearTriplets J J.nonlinear h1).1) },
        { h1 with adjoint := adj }) := by
      unfold JacObj.value
      rw [if_neg hn, ← hadj]
    rw [e]
    have hnum2 : Num h { h1 with adjoint := adj } := hnum.trans (num_adjoint h1 adj)
    refine ⟨hnum2, ?_, rfl, rfl, ?_⟩
    · have jo2 := jo.mono wf (hnum2.mono wf)
      exact ⟨jo2.wrtVar, jo2.nodup, jo2.tops, jo2.outLists, jo2.nlNodup, jo2.nl, jo2.cached,
        fun e => absurd e hn⟩
    · intro i j v hv hj
      show fromTriplets _ i j = _
      rw [fromTriplets_eq, tsum_append, ht i j hj, hv]
      have hrg : rowGrad h1 (J.wrt.getD j 0) v = rowGrad h (J.wrt.getD j 0) v := by
        cases v with
        | none => rfl
        | some r =>
          have hr := jo.row_lt hv
          simp only [rowGrad]
          rw [(hnum.mono wf).tgv _ _ hr]
          apply tgv_congr_v wf
          intro n hn
          exact hnum.evVal wf (reach_lt wf hr hn)
      by_cases hnl : isNL h v
      · rw [if_pos ((jo.nl i).mpr ⟨v, hv, hnl⟩)]
        simp only [hrg]
        rw [jo.cached (ev h h.val) hev i j, hv]
        cases v with
        | none => exact absurd hnl (by simp [isNL])
        | some r =>
          have : h.ty r ≠ .linear := by
            intro e; simp only [isNL, e, Ty.rank] at hnl; omega
          simp [linEntry, this]
      · have : i ∉ J.nonlinear := by
          intro hi
          obtain ⟨u, hu, hu2⟩ := (jo.nl i).mp hi
          rw [hv] at hu
          simp at hu
          subst hu
          exact hnl hu2
        rw [if_neg this, add_zero]
        exact hlin i j v hv hj hnl

/-! ### `get()` and `Hessian` -/

theorem fillNull_spec {h : Heap ℝ} (wf : WF h) (hcl : Clean h) (gs : List (Option ℕ))
    (hg : ∀ e, some e ∈ gs → e < h.next) :
    WF (fillNull gs h).2 ∧ Clean (fillNull gs h).2 ∧ Ext h (fillNull gs h).2 ∧
      List.Forall₂ (fun g e => e < (fillNull gs h).2.next ∧
        (∀ η, ev (fillNull gs h).2 η e = gval h η g) ∧
        (∀ η, (∀ e', g = some e' → Sm h η e') → Sm (fillNull gs h).2 η e)) gs (fillNull gs h).1 := by
  induction gs generalizing h with
  | nil => exact ⟨wf, hcl, Ext.refl h, .nil⟩
  | cons g gs ih =>
    cases g with
    | some e =>
      obtain ⟨a, b, c, d⟩ := ih wf hcl fun e he => hg e (by simp [he])
      have he := hg e (by simp)
      exact ⟨a, b, c, .cons ⟨c.lt he, fun η => c.ev η he, fun η hs => (c.Sm η he).mpr (hs e rfl)⟩ d⟩
    | none =>
      have bb : Builds (mkConst (zero : ℝ)) h (fun _ => 0) (fun _ => True) := mkConst_builds wf 0
      have hcl1 : Clean (mkConst (zero : ℝ) h).2 := fun n => by
        rw [bb.grow.adjE_eq wf bb.wf]; exact hcl n
      obtain ⟨a, b, c, d⟩ := ih bb.wf hcl1 fun e he => bb.grow.lt (hg e (by simp [he]))
      refine ⟨a, b, bb.grow.ext.trans c, .cons ⟨c.lt bb.lt, fun η => ?_, fun η _ => ?_⟩ ?_⟩
      · show ev (fillNull gs (mkConst (zero : ℝ) h).2).2 η (mkConst (zero : ℝ) h).1 = 0
        rw [c.ev η bb.lt]; exact bb.sem η
      · exact (c.Sm η bb.lt).mpr (bb.sm η trivial)
      · refine (List.forall₂_iff_get.mpr ?_)
        obtain ⟨h1, h2⟩ := List.forall₂_iff_get.mp d
        refine ⟨h1, fun i hi hi2 => ?_⟩
        obtain ⟨p, q, s⟩ := h2 i hi hi2
        have hlt : ∀ e', gs.get ⟨i, hi⟩ = some e' → e' < h.next := fun e' he' =>
          hg e' (by rw [← he']; exact List.mem_cons_of_mem _ (List.get_mem _ _))
        refine ⟨p, fun η => ?_, fun η hs => s η fun e' he' => ?_⟩
        · refine (q η).trans ?_
          rcases hgi : gs.get ⟨i, hi⟩ with _ | e'
          · rfl
          · exact bb.grow.ext.ev η (hlt e' hgi)
        · exact (bb.grow.ext.Sm η (hlt e' he')).mpr (hs e' he')

/-- `e` is an expression of `h'` for the derivative of `r` (an expression of `h`) by `w`. -/
structure IsGradE (h h' : Heap ℝ) (r w e : ℕ) : Prop where
  lt : e < h'.next
  sem : ∀ η, ev h' η e = tgv h (ev h η) (dir w) r
  sm : ∀ η, Sm h η r → Sm h' η e

theorem IsGradE.ext {h h' h'' : Heap ℝ} {r w e : ℕ} (g : IsGradE h h' r w e) (x : Ext h' h'') :
    IsGradE h h'' r w e :=
  ⟨x.lt g.lt, fun η => (x.ev η g.lt).trans (g.sem η), fun η hs => (x.Sm η g.lt).mpr (g.sm η hs)⟩

theorem tgv_ext {h h' : Heap ℝ} (wf : WF h) (g : Ext h h') (η d : ℕ → ℝ) {r : ℕ} (hr : r < h.next) :
    tgv h' (ev h' η) d r = tgv h (ev h η) d r := by
  rw [g.mono.tgv _ _ hr]
  apply tgv_congr_v wf
  intro n hn
  exact g.ev η (reach_lt wf hr hn)

theorem getRows_spec {h : Heap ℝ} (wf : WF h) (hcl : Clean h) (wrt : List ℕ) (hnd : wrt.Nodup)
    (hw : ∀ w ∈ wrt, w < h.next ∧ h.op w = .variable) (rs : List ℕ) (tops : List (List ℕ))
    (ht : List.Forall₂ (TopOf h) rs tops) :
    ∃ es h', getRows wrt tops h = some (es, h') ∧ WF h' ∧ Clean h' ∧ Ext h h' ∧
      List.Forall₂ (fun r row => List.Forall₂ (fun w e => IsGradE h h' r w e) wrt row) rs es := by
  induction rs generalizing h tops with
  | nil =>
    cases ht
    exact ⟨[], h, rfl, wf, hcl, Ext.refl h, .nil⟩
  | cons r rs ih =>
    rcases ht with _ | ⟨hrt, hrest⟩
    rename_i t ts
    obtain ⟨g, h1, e1, wf1, cl1, ex1, f1⟩ := gradientTree_spec wf hcl hrt wrt hnd hw
    have hg : ∀ e, some e ∈ g → e < h1.next := by
      intro e he
      obtain ⟨i, hi⟩ := List.getElem?_of_mem he
      obtain ⟨w, _, hig⟩ := forall2_get f1.flip i hi
      exact hig.lt e rfl
    obtain ⟨wf2, cl2, ex2, f2⟩ := fillNull_spec wf1 cl1 g hg
    obtain ⟨es, h3, e3, wf3, cl3, ex3, f3⟩ := ih (h := (fillNull g h1).2) wf2 cl2
      (fun w hw' => ⟨(ex1.trans ex2).lt (hw w hw').1, by
        rw [(ex1.trans ex2).op w (hw w hw').1]; exact (hw w hw').2⟩)
      ts (hrest.imp fun _ _ t => t.ext wf (ex1.trans ex2))
    refine ⟨(fillNull g h1).1 :: es, h3, ?_, wf3, cl3, (ex1.trans ex2).trans ex3, .cons ?_ ?_⟩
    · simp [getRows, e1, e3]
    · rw [List.forall₂_iff_get] at f1 f2 ⊢
      refine ⟨f1.1.trans f2.1, fun i hi hi2 => ?_⟩
      have hi1 : i < g.length := by rw [← f1.1]; exact hi
      have a := f1.2 i hi hi1
      obtain ⟨p, q, s⟩ := f2.2 i hi1 hi2
      refine IsGradE.ext ⟨p, fun η => (q η).trans (a.sem η), fun η hs => s η fun e' he' => ?_⟩ ex3
      exact a.sm η hs e' he'
    · have hlt : ∀ r ∈ rs, r < h.next := by
        intro r hr
        obtain ⟨i, hi⟩ := List.getElem?_of_mem hr
        obtain ⟨l, _, hl⟩ := forall2_get hrest i hi
        exact hl.lt
      rw [List.forall₂_iff_get] at f3 ⊢
      refine ⟨f3.1, fun i hi hi2 => (f3.2 i hi hi2).imp fun w e ge => ?_⟩
      have hr := hlt _ (List.get_mem rs ⟨i, hi⟩)
      exact ⟨ge.lt, fun η => (ge.sem η).trans (tgv_ext wf (ex1.trans ex2) η _ hr),
        fun η hs => ge.sm η (((ex1.trans ex2).Sm η hr).mpr hs)⟩

/-- `Jacobian::get`. -/
theorem JacObj.get_spec {h : Heap ℝ} (wf : WF h) (hcl : Clean h) {J : JacObj ℝ} (jo : JacOK h J)
    (rs : List ℕ) (hrs : J.vars = rs.map some) :
    ∃ es h', J.get h = some (es, h') ∧ WF h' ∧ Clean h' ∧ Ext h h' ∧
      List.Forall₂ (fun r row => List.Forall₂ (fun w e => IsGradE h h' r w e) J.wrt row) rs es := by
  have ht := jo.tops
  rw [hrs, List.forall₂_map_left_iff] at ht
  exact getRows_spec wf hcl J.wrt jo.nodup jo.wrtVar rs J.topLists ht

/-- `Hessian(v, wrt)`: the rows of the object are gradient expressions. -/
theorem hessian_spec {h : Heap ℝ} (wf : WF h) (hcl : Clean h) {v : ℕ} (hv : v < h.next)
    (wrt : List ℕ) (hnd : wrt.Nodup) (hw : ∀ w ∈ wrt, w < h.next ∧ h.op w = .variable) :
    ∃ H h' h1, hessian v wrt h = some (H, h') ∧ WF h' ∧ Clean h' ∧ JacOK h' H ∧ H.wrt = wrt ∧
      Ext h h1 ∧ WF h1 ∧ Num h1 h' ∧ List.Forall₂ (fun w g => IsGrad h h1 v w g) wrt H.vars := by
  obtain ⟨top, e, ht⟩ := topoSort_topOf wf hv
  obtain ⟨g, h1, e1, wf1, cl1, ex1, f1⟩ := gradientTree_spec wf hcl ht wrt hnd hw
  have hg : ∀ e, some e ∈ g → e < h1.next := by
    intro e he
    obtain ⟨i, hi⟩ := List.getElem?_of_mem he
    obtain ⟨w, _, hig⟩ := forall2_get f1.flip i hi
    exact hig.lt e rfl
  obtain ⟨J, h2, e2, n2, jo2, hJ1, hJ2⟩ := jacobian_spec wf1 g wrt hg hnd
    (fun w hw' => ⟨ex1.lt (hw w hw').1, by rw [ex1.op w (hw w hw').1]; exact (hw w hw').2⟩)
  refine ⟨J, h2, h1, ?_, n2.wf wf1, n2.clean cl1, jo2, hJ2, ex1, wf1, n2, ?_⟩
  · simp [hessian, e, e1, e2]
  · rw [hJ1]; exact f1

end Slp
