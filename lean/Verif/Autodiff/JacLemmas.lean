import Verif.Autodiff.GradTreeLemmas

/-! `Jacobian` and `Hessian` objects: the invariant that ties their cached lists and triplets to the
heap, and what `value()` and `get()` return. -/

set_option linter.unusedSimpArgs false

namespace Slp

open ScalarOps

/-! ### Triplets -/

/-- Sum of the triplets at one position. -/
noncomputable def tsum (ts : List (Triplet ℝ)) (i j : ℕ) : ℝ :=
  (ts.map fun t => if t.row = i ∧ t.col = j then t.value else 0).sum

theorem fromTriplets_eq (ts : List (Triplet ℝ)) (i j : ℕ) : fromTriplets ts i j = tsum ts i j := by
  have key : ∀ acc : ℝ, ts.foldl (fun acc t => if t.row = i ∧ t.col = j then acc + t.value else acc)
      acc = acc + tsum ts i j := by
    induction ts with
    | nil => intro acc; simp [tsum]
    | cons t ts ih =>
      intro acc
      rw [List.foldl_cons, ih]
      unfold tsum
      simp only [List.map_cons, List.sum_cons]
      split <;> ring
  have := key 0
  rw [zero_add] at this
  exact this

theorem tsum_append (a b : List (Triplet ℝ)) (i j : ℕ) :
    tsum (a ++ b) i j = tsum a i j + tsum b i j := by
  simp [tsum]

theorem markCols_spec (wrt : List ℕ) (hnd : wrt.Nodup) (c : ℕ) (sc : Graph.Scratch) (n : ℕ) :
    markCols wrt c sc n = if n ∈ wrt then ((c + wrt.idxOf n : ℕ) : ℤ) else sc n := by
  induction wrt generalizing c sc with
  | nil => simp [markCols]
  | cons w ws ih =>
    have hnd' := List.nodup_cons.mp hnd
    rw [markCols, ih hnd'.2]
    by_cases h1 : n = w
    · subst h1
      simp [hnd'.1]
    · have h1' : w ≠ n := fun e => h1 e.symm
      by_cases h2 : n ∈ ws
      · simp [h2, List.idxOf_cons_ne _ h1']
        ring
      · simp [h2, h1]

theorem unmarkCols_spec (wrt : List ℕ) (sc : Graph.Scratch) (n : ℕ) :
    unmarkCols wrt sc n = if n ∈ wrt then -1 else sc n := by
  induction wrt generalizing sc with
  | nil => simp [unmarkCols]
  | cons w ws ih =>
    have := ih (Function.update sc w (-1))
    unfold unmarkCols at this ⊢
    rw [List.foldl_cons, this]
    by_cases h1 : n = w
    · subst h1; simp
    · simp [h1]

/-- The output list of a row in closed form. -/
def outs (wrt top : List ℕ) : List (ℕ × ℕ) :=
  (top.filter (· ∈ wrt)).map fun n => (wrt.idxOf n, n)

theorem outList_eq (wrt : List ℕ) (hnd : wrt.Nodup) (sc : Graph.Scratch) (hsc : ∀ n, sc n = -1)
    (top : List ℕ) : outList (markCols wrt 0 sc) top = outs wrt top := by
  unfold outList outs
  induction top with
  | nil => simp
  | cons n t ih =>
    rw [List.filterMap_cons, markCols_spec wrt hnd, ih]
    by_cases h1 : n ∈ wrt
    · rw [List.filter_cons_of_pos (by simpa using h1)]
      simp only [h1, if_true, zero_add, List.map_cons]
      rw [if_pos (by omega)]
      simp
    · rw [List.filter_cons_of_neg (by simpa using h1)]
      simp [h1, hsc]

theorem tsum_outs (wrt top : List ℕ) (hnd : wrt.Nodup) (htop : top.Nodup) (row : ℕ) (f : ℕ → ℝ)
    (i j : ℕ) :
    tsum ((outs wrt top).map fun cn => ⟨row, cn.1, f cn.2⟩) i j =
      if h : i = row ∧ j < wrt.length then (if wrt[j]'h.2 ∈ top then f (wrt[j]'h.2) else 0)
      else 0 := by
  unfold tsum outs
  rw [List.map_map, List.map_map]
  by_cases hi : i = row
  · subst hi
    simp only [Function.comp_def, true_and]
    by_cases hj : j < wrt.length
    · simp only [hj, dif_pos]
      have hidx : ∀ n ∈ wrt, wrt.idxOf n = j ↔ n = wrt[j] := by
        intro n hn
        constructor
        · rintro rfl; simp
        · rintro rfl; exact hnd.idxOf_getElem j hj
      by_cases hm : wrt[j] ∈ top
      · rw [if_pos hm]
        rw [sum_single _ (htop.filter _) wrt[j] (by simp [hm])]
        · simp [hnd.idxOf_getElem j hj]
        · intro m hm1 hm2
          rw [List.mem_filter] at hm1
          have := hidx m (by simpa using hm1.2)
          rw [if_neg]
          rw [this]; exact hm2
      · rw [if_neg hm]
        apply List.sum_eq_zero
        intro x hx
        rw [List.mem_map] at hx
        obtain ⟨m, hm1, rfl⟩ := hx
        rw [List.mem_filter] at hm1
        have := hidx m (by simpa using hm1.2)
        rw [if_neg]
        rw [this]
        rintro rfl
        exact hm hm1.1
    · simp only [hj, dif_neg, not_false_eq_true]
      apply List.sum_eq_zero
      intro x hx
      rw [List.mem_map] at hx
      obtain ⟨m, hm1, rfl⟩ := hx
      rw [List.mem_filter] at hm1
      rw [if_neg]
      intro e
      have := List.idxOf_lt_length_iff.mpr (show m ∈ wrt by simpa using hm1.2)
      omega
  · rw [dif_neg (by tauto)]
    apply List.sum_eq_zero
    intro x hx
    rw [List.mem_map] at hx
    obtain ⟨m, hm1, rfl⟩ := hx
    simp only [Function.comp_def]
    rw [if_neg]
    intro e; exact hi e.1.symm

/-! ### Which node values a tangent depends on -/

theorem tgv_congr_v {h : Heap ℝ} (wf : WF h) {v v' d : ℕ → ℝ} (r : ℕ)
    (hv : ∀ n, Graph.Reach h.args r n → v' n = v n) : tgv h v' d r = tgv h v d r := by
  induction r using Nat.strong_induction_on with
  | _ n ih =>
    rcases hh : h.args n with ⟨a, b⟩
    cases a with
    | none => rw [tgv_leaf (by rw [hh]), tgv_leaf (by rw [hh])]
    | some l =>
      have hlk := mem_kids_left (args := h.args) (n := n) (l := l) (by rw [hh])
      have hl := wf.acyc n l hlk
      have hrl : Graph.Reach h.args n l := Relation.ReflTransGen.single hlk
      cases b with
      | none =>
        rw [tgv_un wf.acyc hh, tgv_un wf.acyc hh, hv l hrl,
          ih l hl fun m hm => hv m (hrl.trans hm)]
      | some r =>
        have hrk := mem_kids_right (args := h.args) (n := n) (r := r) (by rw [hh])
        have hr := wf.acyc n r hrk
        have hrr : Graph.Reach h.args n r := Relation.ReflTransGen.single hrk
        rw [tgv_bin wf.acyc hh, tgv_bin wf.acyc hh, hv l hrl, hv r hrr,
          ih l hl fun m hm => hv m (hrl.trans hm), ih r hr fun m hm => hv m (hrr.trans hm)]

/-- For expressions of type LINEAR the tangent depends only on the constants. -/
theorem tgv_linear {h : Heap ℝ} (wf : WF h) {v v' d : ℕ → ℝ} (r : ℕ) (hr : r < h.next)
    (hty : (h.ty r).rank ≤ 2) (hv : ∀ n, n < h.next → h.op n = .constant → v' n = v n) :
    tgv h v' d r = tgv h v d r := by
  induction r using Nat.strong_induction_on with
  | _ n ih =>
    have ht := wf.typ n hr
    have har := wf.arity n hr
    rcases hh : h.args n with ⟨a, b⟩
    rw [hh] at ht har
    cases a with
    | none => rw [tgv_leaf (by rw [hh]), tgv_leaf (by rw [hh])]
    | some l =>
      have hlk := mem_kids_left (args := h.args) (n := n) (l := l) (by rw [hh])
      have hl := wf.acyc n l hlk
      have hl0 := hl.trans hr
      cases b with
      | none =>
        rw [tgv_un wf.acyc hh, tgv_un wf.acyc hh]
        cases hop : h.op n <;> rw [hop] at ht har <;>
          simp only [ArityOK, Op.arity, Prod.mk.injEq, reduceCtorEq, and_false, false_and,
            exists_false, exists_const] at har
        case neg =>
          simp only [gradL]
          rw [ih l hl hl0 (ht.2.trans hty)]
        all_goals
          exfalso
          simp only [TyOK] at ht
          rw [ht] at hty
          simp [Ty.rank] at hty
      | some r =>
        have hrk := mem_kids_right (args := h.args) (n := n) (r := r) (by rw [hh])
        have hr' := wf.acyc n r hrk
        have hr0 := hr'.trans hr
        rw [tgv_bin wf.acyc hh, tgv_bin wf.acyc hh]
        have hcl : h.ty l = .constant → v' l = v l ∧ (∀ w, tgv h w d l = 0) := fun e =>
          ⟨hv l hl0 ((ty_constant_iff wf hl0).mp e), fun w => tgv_const wf hl0 e w d⟩
        have hcr : h.ty r = .constant → v' r = v r ∧ (∀ w, tgv h w d r = 0) := fun e =>
          ⟨hv r hr0 ((ty_constant_iff wf hr0).mp e), fun w => tgv_const wf hr0 e w d⟩
        cases hop : h.op n <;> rw [hop] at ht har <;>
          simp only [ArityOK, Op.arity, Prod.mk.injEq, reduceCtorEq, and_false, false_and,
            exists_false, exists_const] at har
        case add =>
          simp only [gradL, gradR]
          rw [ih l hl hl0 (ht.2.1.trans hty), ih r hr' hr0 (ht.2.2.trans hty)]
        case sub =>
          simp only [gradL, gradR]
          rw [ih l hl hl0 (ht.2.1.trans hty), ih r hr' hr0 (ht.2.2.trans hty)]
        case mul =>
          simp only [gradL, gradR]
          rcases ht.2 with e | ⟨e, e2⟩ | ⟨e, e2⟩ | ⟨_, _, e⟩
          · rw [e] at hty; simp [Ty.rank] at hty
          · rw [(hcl e).1, (hcl e).2, (hcl e).2, ih r hr' hr0 (e2.trans hty)]; simp
          · rw [(hcr e).1, (hcr e).2, (hcr e).2, ih l hl hl0 (e2.trans hty)]; simp
          · rw [e] at hty; simp [Ty.rank] at hty
        case div =>
          simp only [gradL, gradR]
          rcases ht.2 with e | ⟨e, e2⟩
          · rw [e] at hty; simp [Ty.rank] at hty
          · rw [(hcr e).1, (hcr e).2, (hcr e).2, ih l hl hl0 (e2.trans hty)]; simp
        all_goals
          exfalso
          simp only [TyOK] at ht
          rw [ht] at hty
          simp [Ty.rank] at hty

/-! ### Numeric passes -/

/-- Only numeric fields changed, and no leaf value did. -/
structure Num {S : Type} (h h' : Heap S) : Prop where
  next : h'.next = h.next
  op : h'.op = h.op
  ty : h'.ty = h.ty
  args : h'.args = h.args
  adjE : h'.adjE = h.adjE
  scratch : h'.scratch = h.scratch
  leaf : ∀ n, (h.args n).1 = none → h'.val n = h.val n

theorem Num.refl {S : Type} [ScalarOps S] (h : Heap S) : Num h h := ⟨rfl, rfl, rfl, rfl, rfl, rfl, fun _ _ => rfl⟩

theorem Num.trans {S : Type} [ScalarOps S] {h1 h2 h3 : Heap S} (a : Num h1 h2) (b : Num h2 h3) : Num h1 h3 :=
  ⟨b.next.trans a.next, b.op.trans a.op, b.ty.trans a.ty, b.args.trans a.args,
    b.adjE.trans a.adjE, b.scratch.trans a.scratch,
    fun n hn => (b.leaf n (by rw [a.args]; exact hn)).trans (a.leaf n hn)⟩

theorem num_adjoint {S : Type} [ScalarOps S] (h : Heap S) (f : ℕ → S) : Num h { h with adjoint := f } :=
  ⟨rfl, rfl, rfl, rfl, rfl, rfl, fun _ _ => rfl⟩

theorem num_updateValues {S : Type} [ScalarOps S] (l : List ℕ) (h : Heap S) : Num h (updateValues l h) := by
  have o := updateValues_only l h
  exact ⟨o.next, o.op, o.ty, o.args, o.adjE, o.scratch, fun n hn => updateValues_leaf l h n hn⟩

theorem Num.wf {S : Type} [ScalarOps S] {h h' : Heap S} (n : Num h h') (wf : WF h) : WF h' where
  acyc := by rw [n.args]; exact wf.acyc
  bound m hm := by rw [n.args]; exact wf.bound m (by rw [← n.next]; exact hm)
  arity m hm := by rw [n.args, n.op]; exact wf.arity m (by rw [← n.next]; exact hm)
  typ m hm := by rw [n.args, n.op, n.ty]; exact wf.typ m (by rw [← n.next]; exact hm)
  powBase m hm ho b hb := by
    rw [n.next] at hm; rw [n.op] at ho; rw [n.args] at hb
    have := wf.powBase m hm ho b hb
    have hbm : b < h.next := (wf.acyc m b (mem_kids_left hb)).trans hm
    unfold isConst at this ⊢
    rw [n.ty]
    by_cases hc : h.ty b = .constant
    · rw [n.leaf b (by rw [const_args wf hbm hc])]; exact this
    · simp [hc]
  scratch m := by rw [n.scratch]; exact wf.scratch m
  fresh m hm := by rw [n.adjE]; exact wf.fresh m (by rw [← n.next]; exact hm)

theorem Num.clean {S : Type} [ScalarOps S] {h h' : Heap S} (n : Num h h') (c : Clean h) : Clean h' := by
  intro m; rw [n.adjE]; exact c m

theorem Num.same {S : Type} [ScalarOps S] {h h' : Heap S} (n : Num h h') (wf : WF h) : SameUpTo h.next h h' :=
  ⟨fun _ _ => by rw [n.op], fun _ _ => by rw [n.args], fun m hm hc =>
    n.leaf m (by rw [const_args wf hm ((ty_constant_iff wf hm).mpr hc)])⟩

theorem Num.ev {S : Type} [ScalarOps S] {h h' : Heap S} (g : Num h h') (wf : WF h) (η : ℕ → S) {n : ℕ} (hn : n < h.next) :
    ev h' η n = ev h η n :=
  ev_congr (g.same wf) (fun _ _ _ _ => rfl) n hn

/-- The denotation at the stored leaf values does not change either. -/
theorem Num.evVal {S : Type} [ScalarOps S] {h h' : Heap S} (g : Num h h') (wf : WF h) {n : ℕ} (hn : n < h.next) :
    Slp.ev h' h'.val n = Slp.ev h h.val n :=
  ev_congr (g.same wf) (fun m _ h1 _ => g.leaf m h1) n hn

end Slp
