import Verif.Rounding.FloatTermLemmas

/-! `Jacobian` objects in floating-point arithmetic. -/

set_option linter.unusedSectionVars false
set_option linter.unusedSimpArgs false

namespace Slp

open ScalarOps

section
variable {S : Type} [ScalarOps S]

/-- The triplets at one position, in order. -/
def ents (ts : List (Triplet S)) (i j : ℕ) : List S :=
  (ts.filter fun t => t.row = i ∧ t.col = j).map Triplet.value

theorem ents_append (a b : List (Triplet S)) (i j : ℕ) : ents (a ++ b) i j = ents a i j ++ ents b i j := by
  simp [ents]

theorem fromTriplets_ents (ts : List (Triplet S)) (i j : ℕ) :
    fromTriplets ts i j = (ents ts i j).foldl ScalarOps.add zero := by
  have key : ∀ acc : S, ts.foldl (fun acc t => if t.row = i ∧ t.col = j then ScalarOps.add acc t.value else acc)
      acc = (ents ts i j).foldl ScalarOps.add acc := by
    induction ts with
    | nil => intro acc; rfl
    | cons t ts ih =>
      intro acc
      rw [List.foldl_cons, ih]
      unfold ents
      by_cases h : t.row = i ∧ t.col = j
      · simp [h]
      · rw [if_neg h, List.filter_cons_of_neg (by simpa using h)]
  exact key zero

theorem ents_outs (wrt top : List ℕ) (hnd : wrt.Nodup) (htop : top.Nodup) (row : ℕ) (f : ℕ → S) (i j : ℕ) :
    ents ((outs wrt top).map fun cn => (⟨row, cn.1, f cn.2⟩ : Triplet S)) i j =
      if h : i = row ∧ j < wrt.length then (if wrt[j]'h.2 ∈ top then [f (wrt[j]'h.2)] else []) else [] := by
  have hidx : ∀ (hj : j < wrt.length), ∀ n ∈ wrt, wrt.idxOf n = j ↔ n = wrt[j] := by
    intro hj n hn
    constructor
    · rintro rfl; simp
    · rintro rfl; exact hnd.idxOf_getElem j hj
  have key : ∀ l : List ℕ, l.Nodup → (∀ n ∈ l, n ∈ wrt) →
      ents ((l.map fun n => (wrt.idxOf n, n)).map fun cn => (⟨row, cn.1, f cn.2⟩ : Triplet S)) i j =
      if h : i = row ∧ j < wrt.length then (if wrt[j]'h.2 ∈ l then [f (wrt[j]'h.2)] else []) else [] := by
    intro l
    induction l with
    | nil => intro _ _; simp [ents]
    | cons n l ih =>
      intro hl hw
      have hl' := List.nodup_cons.mp hl
      have ih := ih hl'.2 fun m hm => hw m (by simp [hm])
      have hn := hw n (by simp)
      simp only [List.map_cons]
      rw [← List.singleton_append, ents_append, ih]
      by_cases h1 : i = row ∧ j < wrt.length
      · simp only [dif_pos h1, List.mem_cons]
        by_cases h2 : wrt[j]'h1.2 = n
        · have : wrt.idxOf n = j := (hidx h1.2 n hn).mpr h2.symm
          have h3 : wrt[j]'h1.2 ∉ l := by rw [h2]; exact hl'.1
          simp [ents, h1.1, this, h2, hl'.1]
        · have : wrt.idxOf n ≠ j := fun e => h2 ((hidx h1.2 n hn).mp e).symm
          simp [ents, this, h2]
      · simp only [dif_neg h1]
        have : ¬ (row = i ∧ wrt.idxOf n = j) := by
          rintro ⟨rfl, rfl⟩
          exact h1 ⟨rfl, List.idxOf_lt_length_iff.mpr hn⟩
        rw [ents, List.filter_cons_of_neg (by simpa using this)]
        rfl
  have := key (top.filter (· ∈ wrt)) (htop.filter _) (by simp)
  unfold outs
  rw [this]
  by_cases h1 : i = row ∧ j < wrt.length
  · simp [h1]
  · simp [h1]

/-- Types that occur in well-formed graphs. -/
theorem ty_cases {h : Heap S} (wf : WF h) {r : ℕ} (hr : r < h.next) :
    h.ty r = .constant ∨ h.ty r = .linear ∨ 2 < (h.ty r).rank := by
  have ht := wf.typ r hr
  have har := wf.arity r hr
  cases hty : h.ty r <;> rw [hty] at ht <;> simp [Ty.rank]
  cases hop : h.op r <;> rw [hop] at ht har <;> simp only [ArityOK, Op.arity] at har <;>
    first
    | (simp [TyOK] at ht; done)
    | (obtain ⟨a, ha⟩ := har; rw [ha] at ht; simp [TyOK, Ty.rank] at ht)
    | (obtain ⟨a, b, ha⟩ := har; rw [ha] at ht; simp [TyOK, Ty.rank] at ht)

end

theorem tgvAbs_const {h : Heap ℝ} (wf : WF h) {r : ℕ} (hr : r < h.next) (hc : h.ty r = .constant)
    (v d : ℕ → ℝ) : tgvAbs h v d r = 0 := by
  rw [tgvAbs_leaf (by rw [const_args wf hr hc]), if_pos ((ty_constant_iff wf hr).mp hc)]

/-- For expressions of type LINEAR the tangent with absolute values depends only on the constants. -/
theorem tgvAbs_linear {h : Heap ℝ} (wf : WF h) {v v' d : ℕ → ℝ} (r : ℕ) (hr : r < h.next)
    (hty : (h.ty r).rank ≤ 2) (hv : ∀ n, n < h.next → h.op n = .constant → v' n = v n) :
    tgvAbs h v' d r = tgvAbs h v d r := by
  induction r using Nat.strong_induction_on with
  | _ n ih =>
    have ht := wf.typ n hr
    have har := wf.arity n hr
    rcases hh : h.args n with ⟨a, b⟩
    rw [hh] at ht har
    cases a with
    | none => rw [tgvAbs_leaf (by rw [hh]), tgvAbs_leaf (by rw [hh])]
    | some l =>
      have hlk := mem_kids_left (args := h.args) (n := n) (l := l) (by rw [hh])
      have hl := wf.acyc n l hlk
      have hl0 := hl.trans hr
      cases b with
      | none =>
        rw [tgvAbs_un wf.acyc hh, tgvAbs_un wf.acyc hh]
        cases hop : h.op n <;> rw [hop] at ht har <;>
          simp only [ArityOK, Op.arity, Prod.mk.injEq, reduceCtorEq, and_false, false_and,
            exists_false, exists_const] at har
        case neg =>
          simp only [gradL]
          rw [ih l hl hl0 (ht.2.trans hty)]
        all_goals
          exfalso
          simp only [TyOK] at ht
          rw [ht] at hty
          simp [Ty.rank] at hty
      | some r =>
        have hrk := mem_kids_right (args := h.args) (n := n) (r := r) (by rw [hh])
        have hr' := wf.acyc n r hrk
        have hr0 := hr'.trans hr
        rw [tgvAbs_bin wf.acyc hh, tgvAbs_bin wf.acyc hh]
        have hcl : h.ty l = .constant → v' l = v l ∧ (∀ w, tgvAbs h w d l = 0) := fun e =>
          ⟨hv l hl0 ((ty_constant_iff wf hl0).mp e), fun w => tgvAbs_const wf hl0 e w d⟩
        have hcr : h.ty r = .constant → v' r = v r ∧ (∀ w, tgvAbs h w d r = 0) := fun e =>
          ⟨hv r hr0 ((ty_constant_iff wf hr0).mp e), fun w => tgvAbs_const wf hr0 e w d⟩
        cases hop : h.op n <;> rw [hop] at ht har <;>
          simp only [ArityOK, Op.arity, Prod.mk.injEq, reduceCtorEq, and_false, false_and,
            exists_false, exists_const] at har
        case add =>
          simp only [gradL, gradR]
          rw [ih l hl hl0 (ht.2.1.trans hty), ih r hr' hr0 (ht.2.2.trans hty)]
        case sub =>
          simp only [gradL, gradR]
          rw [ih l hl hl0 (ht.2.1.trans hty), ih r hr' hr0 (ht.2.2.trans hty)]
        case mul =>
          simp only [gradL, gradR]
          rcases ht.2 with e | ⟨e, e2⟩ | ⟨e, e2⟩ | ⟨_, _, e⟩
          · rw [e] at hty; simp [Ty.rank] at hty
          · rw [(hcl e).1, (hcl e).2, (hcl e).2, ih r hr' hr0 (e2.trans hty)]; simp
          · rw [(hcr e).1, (hcr e).2, (hcr e).2, ih l hl hl0 (e2.trans hty)]; simp
          · rw [e] at hty; simp [Ty.rank] at hty
        case div =>
          simp only [gradL, gradR]
          rcases ht.2 with e | ⟨e, e2⟩
          · rw [e] at hty; simp [Ty.rank] at hty
          · rw [(hcr e).1, (hcr e).2, (hcr e).2, ih l hl hl0 (e2.trans hty)]; simp
        all_goals
          exfalso
          simp only [TyOK] at ht
          rw [ht] at hty
          simp [Ty.rank] at hty

namespace FloatMath

variable {A : FloatMath}

/-- The adjoint of an independent variable after accumulation is near the forward derivative of the root in its
direction. -/
theorem accS_dir {h : Heap A.Num} (wf : WF h) (c : ℕ) (v : ℕ → A.Num) (r : ℕ) (t : List ℕ)
    (ht : Topo h.args (r :: t)) (hloc : ∀ n ∈ r :: t, LocalAt c h v n) (w : ℕ) (hw : w ∈ r :: t)
    (hop : h.op w = .variable) (hwn : w < h.next) (adj : ℕ → A.Num) (h1 : adj r = one) (h0 : ∀ m ∈ t, adj m = zero) :
    |toReal ((r :: t).foldl (accS h v) adj w) - tgv (real h) (fun n => toReal (v n)) (dir w) r| ≤
      (A.up ((c + 2) * opCount h (r :: t)) - 1) * tgvAbs (real h) (fun n => toReal (v n)) (dir w) r := by
  have hargs : h.args w = (none, none) := by
    have := wf.arity w hwn
    rw [hop] at this
    simpa [ArityOK, Op.arity] using this
  have hd := (acc_drift wf.acyc c v (dir w) (r :: t) ht hloc adj).err
  have hR : ((r :: t).map fun m => toReal (adj m) * tgv (real h) (fun n => toReal (v n)) (dir w) m).sum =
      tgv (real h) (fun n => toReal (v n)) (dir w) r := by
    rw [List.map_cons, List.sum_cons, h1, f_one, one_mul]
    have : (t.map fun m => toReal (adj m) * tgv (real h) (fun n => toReal (v n)) (dir w) m).sum = 0 := by
      apply List.sum_eq_zero
      intro x hx
      obtain ⟨m, hm, rfl⟩ := List.mem_map.mp hx
      rw [h0 m hm, f_zero, zero_mul]
    rw [this, add_zero]
  have hM : ((r :: t).map fun m => |toReal (adj m)| * tgvAbs (real h) (fun n => toReal (v n)) (dir w) m).sum =
      tgvAbs (real h) (fun n => toReal (v n)) (dir w) r := by
    rw [List.map_cons, List.sum_cons, h1, f_one, abs_one, one_mul]
    have : (t.map fun m => |toReal (adj m)| * tgvAbs (real h) (fun n => toReal (v n)) (dir w) m).sum = 0 := by
      apply List.sum_eq_zero
      intro x hx
      obtain ⟨m, hm, rfl⟩ := List.mem_map.mp hx
      rw [h0 m hm, f_zero, abs_zero, zero_mul]
    rw [this, add_zero]
  rw [hR, hM] at hd
  rw [sum_single ((r :: t).filter (leafB (real h))) (ht.nodup.filter _) w] at hd
  · rw [tgv_leaf (h := real h) (n := w) (by simp [real, hargs]), if_neg (by simp [real, hop])] at hd
    simpa [dir] using hd
  · exact List.mem_filter.mpr ⟨hw, by simp [leafB, real, hargs]⟩
  · intro m hm hne
    have hl : ((real h).args m).1 = none := by
      have := (List.mem_filter.mp hm).2
      simpa [leafB, Option.isNone_iff_eq_none] using this
    rw [tgv_leaf hl]
    split <;> simp [dir, hne]

/-- A list of triplets at one position: none if the derivative is zero, and at most one. -/
def Ent (A : FloatMath) (k : ℕ) (T P : ℝ) (l : List A.Num) : Prop :=
  (l = [] ∧ T = 0) ∨ ∃ x, l = [x] ∧ |toReal x - T| ≤ (A.up k - 1) * P

/-- Exponent of the error bound of one derivative, if partial derivatives are computed up to `κ` roundings. -/
def expo (κ : ℕ) (h : Heap A.Num) (r : ℕ) : ℕ := (κ + 2) * (opSet h r).card

theorem Local.mono {c c' : ℕ} {op : Op} {rc : Prop} {x y : A.Num} (l : Local A c op rc x y) (h : c ≤ c') :
    Local A c' op rc x y := fun a => ⟨(l a).1.mono A.lt_one h, fun e => ((l a).2 e).mono A.lt_one h⟩

/-- Operations of expressions of type LINEAR. -/
def LinOp (op : Op) : Prop := PolyOp op ∨ op = .div

theorem local_lin {op : Op} (hop : LinOp op) (x y : A.Num) (rc : Prop) : Local A 5 op rc x y := by
  rcases hop with hop | rfl
  · exact (local_poly hop x y rc).mono (by norm_num)
  · have hu := A.lt_one
    have nr := fun z => Rounding.near_rnd (R := A.toRounding) hu z
    intro a
    refine ⟨?_, fun _ => ?_⟩
    · have := (nr (toReal a / toReal y)).mono hu (show 1 ≤ 5 by norm_num)
      simpa [gradL, div_eq_mul_inv] using this
    · have := (((nr (toReal a * -toReal x)).div hu (nr (toReal y * toReal y))).rnd hu).mono hu
        (show 1 + 1 + 1 ≤ 5 by norm_num)
      simpa [gradR, div_eq_mul_inv, mul_assoc] using this

/-- What the error bound of a row requires of the operations in it: those of rows of type LINEAR were computed when
the object was made. -/
def RowOK (κ : ℕ) (h : Heap A.Num) (r : ℕ) : Prop := 5 ≤ κ ∨ 1 ≤ κ ∧ ∀ n ∈ opSet h r, PolyOp (h.op n)

theorem lin_ops {h : Heap A.Num} (wf : WF h) (r : ℕ) (hr : r < h.next) (hty : (h.ty r).rank ≤ 2) :
    ∀ m ∈ opSet h r, LinOp (h.op m) := by
  induction r using Nat.strong_induction_on with
  | _ n ih =>
    intro m hm
    have ht := wf.typ n hr
    have har := wf.arity n hr
    rcases hh : h.args n with ⟨a, b⟩
    rw [hh] at ht har
    cases a with
    | none => rw [opSet_leaf (by rw [hh])] at hm; simp at hm
    | some l =>
      have hlk := mem_kids_left (args := h.args) (n := n) (l := l) (by rw [hh])
      have hl := wf.acyc n l hlk
      have hl0 := hl.trans hr
      cases b with
      | none =>
        rw [opSet_un wf.acyc hh, Finset.mem_insert] at hm
        cases hop : h.op n <;> rw [hop] at ht har <;>
          simp only [ArityOK, Op.arity, Prod.mk.injEq, reduceCtorEq, and_false, false_and,
            exists_false, exists_const] at har
        case neg =>
          rcases hm with rfl | hm
          · exact Or.inl (Or.inr (Or.inr (Or.inr hop)))
          · exact ih l hl hl0 (ht.2.trans hty) m hm
        all_goals
          exfalso
          simp only [TyOK] at ht
          rw [ht] at hty
          simp [Ty.rank] at hty
      | some r =>
        have hrk := mem_kids_right (args := h.args) (n := n) (r := r) (by rw [hh])
        have hr' := wf.acyc n r hrk
        have hr0 := hr'.trans hr
        rw [opSet_bin wf.acyc hh, Finset.mem_insert, Finset.mem_union] at hm
        have hc : ∀ k, k < h.next → h.ty k = .constant → m ∉ opSet h k := by
          intro k hk e
          rw [opSet_leaf (by rw [const_args wf hk e])]
          simp
        cases hop : h.op n <;> rw [hop] at ht har <;>
          simp only [ArityOK, Op.arity, Prod.mk.injEq, reduceCtorEq, and_false, false_and,
            exists_false, exists_const] at har
        case add =>
          rcases hm with rfl | hm | hm
          · exact Or.inl (Or.inl hop)
          · exact ih l hl hl0 (ht.2.1.trans hty) m hm
          · exact ih r hr' hr0 (ht.2.2.trans hty) m hm
        case sub =>
          rcases hm with rfl | hm | hm
          · exact Or.inl (Or.inr (Or.inl hop))
          · exact ih l hl hl0 (ht.2.1.trans hty) m hm
          · exact ih r hr' hr0 (ht.2.2.trans hty) m hm
        case mul =>
          rcases hm with rfl | hm | hm
          · exact Or.inl (Or.inr (Or.inr (Or.inl hop)))
          · rcases ht.2 with e | ⟨e, e2⟩ | ⟨e, e2⟩ | ⟨_, _, e⟩
            · rw [e] at hty; simp [Ty.rank] at hty
            · exact absurd hm (hc l hl0 e)
            · exact ih l hl hl0 (e2.trans hty) m hm
            · rw [e] at hty; simp [Ty.rank] at hty
          · rcases ht.2 with e | ⟨e, e2⟩ | ⟨e, e2⟩ | ⟨_, _, e⟩
            · rw [e] at hty; simp [Ty.rank] at hty
            · exact ih r hr' hr0 (e2.trans hty) m hm
            · exact absurd hm (hc r hr0 e)
            · rw [e] at hty; simp [Ty.rank] at hty
        case div =>
          rcases ht.2 with e | ⟨e, e2⟩
          · rw [e] at hty; simp [Ty.rank] at hty
          · rcases hm with rfl | hm | hm
            · exact Or.inr hop
            · exact ih l hl hl0 (e2.trans hty) m hm
            · exact absurd hm (hc r hr0 e)
        all_goals
          exfalso
          simp only [TyOK] at ht
          rw [ht] at hty
          simp [Ty.rank] at hty

theorem RowOK.local {κ : ℕ} {h : Heap A.Num} (wf : WF h) {r : ℕ} (ok : RowOK κ h r) (hr : r < h.next)
    (hty : (h.ty r).rank ≤ 2) (v : ℕ → A.Num) : ∀ n ∈ opSet h r, LocalAt κ h v n := by
  intro n hn l _
  rcases ok with h5 | ⟨h1, hp⟩
  · exact (local_lin (lin_ops wf r hr hty n hn) _ _ _).mono h5
  · exact (local_poly (hp n hn) _ _ _).mono h1

theorem opCount_le {h : Heap A.Num} (wf : WF h) {r : ℕ} {top : List ℕ} (ht : TopOf h r top)
    (hc : h.ty r ≠ .constant) : opCount h top ≤ (opSet h r).card := by
  unfold opCount
  have hnd : (top.filter fun n => (h.args n).1.isSome).Nodup := ht.topo.nodup.filter _
  rw [← List.toFinset_card_of_nodup hnd]
  apply Finset.card_le_card
  intro n hn
  rw [List.mem_toFinset, List.mem_filter] at hn
  exact mem_opSet wf.acyc (fun n h1 => args_snd wf h1) ((ht.mem hc n).mp hn.1) hn.2

/-- The triplets of one row of a Jacobian. -/
theorem row_ents {h : Heap A.Num} (wf : WF h) {r : ℕ} {top wrt : List ℕ} (ht : TopOf h r top)
    (hnd : wrt.Nodup) (hw : ∀ w ∈ wrt, w < h.next ∧ h.op w = .variable) (hc : h.ty r ≠ .constant)
    (f : ℕ → A.Num) (row : ℕ) :
    (∀ i j, (i = row ∧ j < wrt.length → ∀ κ, (∀ n ∈ opSet h r, LocalAt κ h h.val n) → Ent A (expo κ h r)
        (tgv (real h) (fun n => toReal (h.val n)) (dir (wrt.getD j 0)) r)
        (tgvAbs (real h) (fun n => toReal (h.val n)) (dir (wrt.getD j 0)) r)
        (ents (appendTriplets top (outs wrt top) row { h with adjoint := f }).1 i j)) ∧
      (¬ (i = row ∧ j < wrt.length) →
        ents (appendTriplets top (outs wrt top) row { h with adjoint := f }).1 i j = [])) ∧
    ∃ adj, (appendTriplets top (outs wrt top) row { h with adjoint := f }).2 =
      { h with adjoint := adj } := by
  obtain ⟨t, e⟩ := ht.head hc
  have htopo := ht.topo
  have hmem := ht.mem hc
  have hcount := opCount_le wf ht hc
  have hloc : ∀ κ, (∀ n ∈ opSet h r, LocalAt κ h h.val n) → ∀ n ∈ top, LocalAt κ h h.val n := by
    intro κ hκ n hn l hl
    exact hκ n (mem_opSet wf.acyc (fun n h1 => args_snd wf h1) ((hmem n).mp hn) (by rw [hl]; rfl)) l hl
  rw [e] at htopo hloc hcount hmem
  obtain ⟨adj, e1, h1, h0⟩ := initAdjoints_accS r t { h with adjoint := f } htopo.1
  have e2 : (r :: t).foldl accumulate { h with adjoint := adj } =
      { h with adjoint := (r :: t).foldl (accS h h.val) adj } := by
    rw [foldl_accumulate_accS]
    rfl
  have e3 : appendTriplets (r :: t) (outs wrt (r :: t)) row { h with adjoint := f } =
      ((outs wrt (r :: t)).map fun cn => ⟨row, cn.1, (r :: t).foldl (accS h h.val) adj cn.2⟩,
        { h with adjoint := (r :: t).foldl (accS h h.val) adj }) := by
    unfold appendTriplets
    simp only [e1]
    rw [e2]
  rw [e, e3]
  refine ⟨fun i j => ?_, _, rfl⟩
  rw [ents_outs wrt (r :: t) hnd htopo.nodup row (fun n => (r :: t).foldl (accS h h.val) adj n) i j]
  refine ⟨fun hij κ hκ => ?_, fun hij => by rw [dif_neg hij]⟩
  rw [dif_pos hij]
  have hg : wrt.getD j 0 = wrt[j]'hij.2 := by simp [List.getD, hij.2]
  rw [hg]
  have hwj := hw _ (List.getElem_mem hij.2)
  by_cases hm : wrt[j]'hij.2 ∈ r :: t
  · rw [if_pos hm]
    refine Or.inr ⟨_, rfl, ?_⟩
    refine (accS_dir wf κ h.val r t htopo (hloc κ hκ) _ hm hwj.2 hwj.1 adj h1 h0).trans ?_
    refine mul_le_mul_of_nonneg_right ?_ (tgvAbs_nonneg (wf_real wf).acyc _ _ _)
    have : A.up ((κ + 2) * opCount h (r :: t)) ≤ A.up (expo κ h r) := A.up_mono (Nat.mul_le_mul_left _ hcount)
    linarith
  · rw [if_neg hm]
    refine Or.inl ⟨rfl, ?_⟩
    apply tgv_indep (wf_real wf).acyc
    intro n hn _ _
    have : n ≠ wrt[j]'hij.2 := by
      intro e2; apply hm; rw [← e2]; exact (hmem n).mpr hn
    simp [dir, this]

/-- What the cached triplets contain for row `v`, for node values `x`. -/
def LinEnt (h : Heap A.Num) (x : ℕ → ℝ) (wrt : List ℕ) (v : Option (Option ℕ)) (j : ℕ) (l : List A.Num) : Prop :=
  match v with
  | some (some r) =>
    if h.ty r = .linear ∧ j < wrt.length then
      ∀ κ, RowOK κ h r →
        Ent A (expo κ h r) (tgv (real h) x (dir (wrt.getD j 0)) r) (tgvAbs (real h) x (dir (wrt.getD j 0)) r) l
    else l = []
  | _ => l = []

structure JacF (h : Heap A.Num) (J : JacObj A.Num) : Prop where
  wrtVar : ∀ w ∈ J.wrt, w < h.next ∧ h.op w = .variable
  nodup : J.wrt.Nodup
  tops : List.Forall₂ (RowTop h) J.vars J.topLists
  outLists : J.outLists = J.topLists.map (outs J.wrt)
  nlNodup : J.nonlinear.Nodup
  nl : ∀ i, i ∈ J.nonlinear ↔ ∃ v, J.vars[i]? = some v ∧ isNL h v
  cached : ∀ x : ℕ → ℝ, (∀ n, n < h.next → h.op n = .constant → x n = toReal (h.val n)) → ∀ i j,
    LinEnt h x J.wrt J.vars[i]? j (ents J.cached i j)
  mat : J.nonlinear = [] → J.mat = fromTriplets J.cached

theorem JacF.row_lt {h : Heap A.Num} {J : JacObj A.Num} (jo : JacF h J) {i r : ℕ}
    (hi : J.vars[i]? = some (some r)) : r < h.next := by
  obtain ⟨l, _, hl⟩ := forall2_get jo.tops i hi
  exact TopOf.lt hl

theorem mono_rowOK {h h' : Heap A.Num} (g : Mono h h') {κ r : ℕ} (hr : r < h.next) :
    RowOK κ h' r = RowOK κ h r := by
  unfold RowOK
  rw [opSet_congr g.args r hr]
  have : (∀ n ∈ opSet h r, PolyOp (h'.op n)) = ∀ n ∈ opSet h r, PolyOp (h.op n) :=
    propext (forall₂_congr fun m hm => by rw [g.op m (lt_of_le_of_lt (opSet_lt r m hm) hr)])
  rw [this]

theorem mono_expo {κ : ℕ} {h h' : Heap A.Num} (g : Mono h h') {r : ℕ} (hr : r < h.next) :
    expo κ h' r = expo κ h r := by
  unfold expo; rw [opSet_congr g.args r hr]

theorem JacF.mono {h h' : Heap A.Num} (wf : WF h) (g : Mono h h') {J : JacObj A.Num} (jo : JacF h J) :
    JacF h' J where
  wrtVar w hw := by
    obtain ⟨h1, h2⟩ := jo.wrtVar w hw
    exact ⟨g.lt h1, by rw [g.op w h1, h2]⟩
  nodup := jo.nodup
  tops := jo.tops.imp fun _ _ t => RowTop.mono wf g t
  outLists := jo.outLists
  nlNodup := jo.nlNodup
  nl i := by
    rw [jo.nl]
    apply exists_congr
    intro v
    apply and_congr_right
    intro hv
    cases v with
    | none => rfl
    | some r => simp only [isNL]; rw [g.ty r (jo.row_lt hv)]
  cached x hx i j := by
    have := jo.cached x (fun n hn hc => by
      rw [← g.const n hn hc]; exact hx n (g.lt hn) (by rw [g.op n hn, hc])) i j
    rcases hv : J.vars[i]? with _ | v
    · rw [hv] at this; exact this
    · rw [hv] at this
      cases v with
      | none => exact this
      | some r =>
        have hr := jo.row_lt hv
        simp only [LinEnt] at this ⊢
        rw [g.ty r hr]
        simp only [mono_expo g hr, mono_rowOK g hr]
        rw [tgv_congr2 (h := real h) (h' := real h') (N := h.next) g.op g.args (fun _ _ => rfl) _ r hr,
          tgvAbs_congr2 (h := real h) (h' := real h') (N := h.next) g.op g.args (fun _ _ => rfl) _ r hr]
        exact this
  mat := jo.mat

/-! ### Construction -/

theorem cacheRows_ents {h : Heap A.Num} (wf : WF h) (wrt : List ℕ) (hnd : wrt.Nodup)
    (hw : ∀ w ∈ wrt, w < h.next ∧ h.op w = .variable) (vars : List (Option ℕ))
    (tops : List (List ℕ)) (ht : List.Forall₂ (RowTop h) vars tops)
    (row : ℕ) (f : ℕ → A.Num) :
    ∃ c nl adj, cacheRows vars tops (tops.map (outs wrt)) row { h with adjoint := f } =
        (c, nl, { h with adjoint := adj }) ∧
      (∀ i j, (i < row → ents c i j = []) ∧
        (row ≤ i → LinEnt h (fun n => toReal (h.val n)) wrt vars[i - row]? j (ents c i j))) ∧
      nl.Nodup ∧ (∀ i, i ∈ nl ↔ row ≤ i ∧ ∃ v, vars[i - row]? = some v ∧ isNL h v) := by
  induction ht generalizing row f with
  | nil => exact ⟨[], [], f, rfl, fun i j => ⟨fun _ => rfl, fun _ => rfl⟩, by simp, by simp⟩
  | @cons v t vs ts hvt hrest ih =>
    have hidx : ∀ i, row ≤ i → i ≠ row → ((v :: vs)[i - row]?) = vs[i - (row + 1)]? := by
      intro i h1 h2
      have : i - row = (i - (row + 1)) + 1 := by omega
      rw [this]; rfl
    -- the triplets `a` of this row before those of the later rows
    have comb : ∀ (a c : List (Triplet A.Num)), (∀ i j, (i < row + 1 → ents c i j = []) ∧
        (row + 1 ≤ i → LinEnt h (fun n => toReal (h.val n)) wrt vs[i - (row + 1)]? j (ents c i j))) →
        (∀ i j, i ≠ row → ents a i j = []) →
        (∀ j, LinEnt h (fun n => toReal (h.val n)) wrt (some v) j (ents a row j)) → ∀ i j,
        (i < row → ents (a ++ c) i j = []) ∧
        (row ≤ i → LinEnt h (fun n => toReal (h.val n)) wrt (v :: vs)[i - row]? j (ents (a ++ c) i j)) := by
      intro a c hc ha1 ha2 i j
      rw [ents_append]
      by_cases h1 : i = row
      · subst h1
        refine ⟨fun h => absurd h (lt_irrefl _), fun _ => ?_⟩
        rw [(hc i j).1 (Nat.lt_succ_self _), List.append_nil, Nat.sub_self]
        exact ha2 j
      · rw [ha1 i j h1, List.nil_append]
        refine ⟨fun h => (hc i j).1 (by omega), fun h => ?_⟩
        rw [hidx i h h1]
        exact (hc i j).2 (by omega)
    have combN : ∀ (nl : List ℕ), (∀ i, i ∈ nl ↔ row + 1 ≤ i ∧
        ∃ v, vs[i - (row + 1)]? = some v ∧ isNL h v) → ∀ i,
        ((i = row ∧ isNL h v) ∨ i ∈ nl) ↔ (row ≤ i ∧ ∃ u, (v :: vs)[i - row]? = some u ∧ isNL h u) := by
      intro nl hnl i
      rw [hnl]
      by_cases h1 : i = row
      · subst h1; simp
      · by_cases h2 : row ≤ i
        · rw [hidx i h2 h1]
          have : row + 1 ≤ i := by omega
          simp [h1, h2, this]
        · have : ¬ row + 1 ≤ i := by omega
          simp [h1, h2, this]
    cases v with
    | none =>
      obtain ⟨c, nl, adj, e, hc, hnd', hnl⟩ := ih (row + 1) f
      refine ⟨c, nl, adj, ?_, ?_, hnd', ?_⟩
      · rw [List.map_cons, cacheRows, e]
      · exact comb [] c hc (fun _ _ _ => rfl) fun _ => rfl
      · intro i
        rw [← combN nl hnl i]
        simp [isNL]
    | some r =>
      have hto : TopOf h r t := hvt
      by_cases hlin : h.ty r = .linear
      · obtain ⟨ha, adj1, hadj1⟩ := row_ents wf hto hnd hw (by rw [hlin]; simp) f row
        obtain ⟨c, nl, adj, e, hc, hnd', hnl⟩ := ih (row + 1) adj1
        refine ⟨(appendTriplets t (outs wrt t) row { h with adjoint := f }).1 ++ c, nl, adj, ?_, ?_,
          hnd', ?_⟩
        · rw [List.map_cons, cacheRows]
          simp only [hlin, if_true]
          rw [hadj1, e]
        · refine comb _ c hc (fun i j hi => (ha i j).2 (by tauto)) fun j => ?_
          simp only [LinEnt, hlin, true_and]
          by_cases hj : j < wrt.length
          · rw [if_pos hj]
            exact fun κ ok => (ha row j).1 ⟨rfl, hj⟩ κ
              (ok.local wf hto.lt (by rw [hlin]; simp [Ty.rank]) h.val)
          · rw [if_neg hj]; exact (ha row j).2 (by tauto)
        · intro i
          rw [← combN nl hnl i]
          simp [isNL, hlin, Ty.rank]
      · obtain ⟨c, nl, adj, e, hc, hnd', hnl⟩ := ih (row + 1) f
        have hz := comb [] c hc (fun _ _ _ => rfl) fun j => by simp [LinEnt, hlin, ents]
        by_cases hr : 2 < (h.ty r).rank
        · refine ⟨c, row :: nl, adj, ?_, hz, ?_, ?_⟩
          · rw [List.map_cons, cacheRows]
            simp only [hlin, if_false]
            rw [e, if_pos (by simpa [Ty.rank] using hr)]
          · refine List.nodup_cons.mpr ⟨?_, hnd'⟩
            rw [hnl]; omega
          · intro i
            rw [← combN nl hnl i]
            simp [isNL, hr]
        · refine ⟨c, nl, adj, ?_, hz, hnd', ?_⟩
          · rw [List.map_cons, cacheRows]
            simp only [hlin, if_false]
            rw [e, if_neg (by simpa [Ty.rank] using hr)]
          · intro i
            rw [← combN nl hnl i]
            simp [isNL, hr]

/-- `Jacobian(vars, wrt)`: total, changes only adjoints, and establishes the invariant. -/
theorem jacobian_float {h : Heap A.Num} (wf : WF h) (vars : List (Option ℕ)) (wrt : List ℕ)
    (hv : ∀ r, some r ∈ vars → r < h.next)
    (hnd : wrt.Nodup) (hw : ∀ w ∈ wrt, w < h.next ∧ h.op w = .variable) :
    ∃ J h', jacobian vars wrt h = some (J, h') ∧ Slp.Num h h' ∧ JacF h' J ∧ J.vars = vars ∧
      J.wrt = wrt := by
  obtain ⟨tops, e, ht⟩ := sortAll_spec wf vars hv
  have hsc : { h with scratch := unmarkCols wrt (markCols wrt 0 h.scratch) } =
      ({ h with adjoint := h.adjoint } : Heap A.Num) := by
    have : unmarkCols wrt (markCols wrt 0 h.scratch) = h.scratch := by
      funext n
      rw [unmarkCols_spec, markCols_spec wrt hnd]
      by_cases h1 : n ∈ wrt
      · simp [h1, wf.scratch]
      · simp [h1]
    rw [this]
  have houts : tops.map (outList (markCols wrt 0 h.scratch)) = tops.map (outs wrt) :=
    List.map_congr_left fun l _ => outList_eq wrt hnd _ wf.scratch l
  obtain ⟨c, nl, adj, ec, hc, hnn, hnl⟩ := cacheRows_ents wf wrt hnd hw vars tops ht 0 h.adjoint
  refine ⟨{ vars := vars, wrt := wrt, topLists := tops, outLists := tops.map (outs wrt), cached := c,
            nonlinear := nl,
            mat := if nl = [] then fromTriplets c else fun _ _ => zero },
    { h with adjoint := adj }, ?_, num_adjoint h adj, ?_, rfl, rfl⟩
  · unfold jacobian
    simp only [e, hsc, houts, ec]
  · refine JacF.mono wf ((num_adjoint h adj).mono wf) ?_
    constructor
    · exact hw
    · exact hnd
    · exact ht
    · rfl
    · exact hnn
    · intro i; rw [hnl]; simp
    · intro x hx i j
      have := (hc i j).2 (Nat.zero_le _)
      rw [Nat.sub_zero] at this
      show LinEnt h x wrt vars[i]? j (ents c i j)
      rcases hvi : vars[i]? with _ | v
      · rw [hvi] at this; exact this
      · rw [hvi] at this
        cases v with
        | none => exact this
        | some r =>
          have hr : r < h.next := hv r (List.mem_of_getElem? hvi)
          simp only [LinEnt] at this ⊢
          by_cases h1 : h.ty r = .linear ∧ j < wrt.length
          · rw [if_pos h1] at this ⊢
            have hx' : ∀ n, n < (real h).next → (real h).op n = .constant → x n = toReal (h.val n) := hx
            have hty : ((real h).ty r).rank ≤ 2 := by show (h.ty r).rank ≤ 2; rw [h1.1]; simp [Ty.rank]
            rw [tgv_linear (wf_real wf) r hr hty hx', tgvAbs_linear (wf_real wf) r hr hty hx']
            exact this
          · rw [if_neg h1] at this ⊢; exact this
    · intro e0
      simp only at e0
      simp [e0]

/-! ### `value()` -/

theorem nonlinear_ents {h : Heap A.Num} (wf : WF h) {J : JacObj A.Num} (jo : JacF h J) (rows : List ℕ)
    (hnd : rows.Nodup) (hrows : ∀ i ∈ rows, i ∈ J.nonlinear) (f : ℕ → A.Num) :
    (∀ i j, (i ∉ rows → ents (nonlinearTriplets J rows { h with adjoint := f }).1 i j = []) ∧
      (i ∈ rows → j < J.wrt.length → ∀ r, J.vars[i]? = some (some r) →
        ∀ κ, (∀ n ∈ opSet h r, LocalAt κ h h.val n) → Ent A (expo κ h r)
        (tgv (real h) (fun n => toReal (h.val n)) (dir (J.wrt.getD j 0)) r)
        (tgvAbs (real h) (fun n => toReal (h.val n)) (dir (J.wrt.getD j 0)) r)
        (ents (nonlinearTriplets J rows { h with adjoint := f }).1 i j))) ∧
    ∃ adj, (nonlinearTriplets J rows { h with adjoint := f }).2 = { h with adjoint := adj } := by
  induction rows generalizing f with
  | nil => exact ⟨fun i j => ⟨fun _ => rfl, by simp⟩, f, rfl⟩
  | cons row rows ih =>
    have hnd' := List.nodup_cons.mp hnd
    obtain ⟨v, hv, hnl⟩ := (jo.nl row).mp (hrows row (by simp))
    cases v with
    | none => exact absurd hnl (by simp [isNL])
    | some r =>
      obtain ⟨l, hl, hto⟩ := forall2_get jo.tops row hv
      have hto : TopOf h r l := hto
      have hc : h.ty r ≠ .constant := by
        intro e; simp only [isNL, e, Ty.rank] at hnl; omega
      have ho : J.outLists.getD row [] = outs J.wrt l := by
        rw [jo.outLists]
        simp [List.getD, hl]
      have hl' : J.topLists.getD row [] = l := by simp [List.getD, hl]
      obtain ⟨ha, adj1, hadj1⟩ := row_ents wf hto jo.nodup jo.wrtVar hc f row
      obtain ⟨hb, adj2, hadj2⟩ := ih hnd'.2 (fun i hi => hrows i (by simp [hi])) adj1
      rw [nonlinearTriplets]
      simp only [hl', ho, hadj1, hadj2]
      refine ⟨fun i j => ?_, adj2, rfl⟩
      rw [ents_append]
      refine ⟨fun hi => ?_, fun hi hj r' hr' => ?_⟩
      · rw [List.mem_cons, not_or] at hi
        rw [(ha i j).2 (fun e => hi.1 e.1), (hb i j).1 hi.2, List.append_nil]
      · by_cases h1 : i = row
        · subst h1
          rw [(hb i j).1 hnd'.1, List.append_nil]
          rw [hv] at hr'
          cases hr'
          exact (ha i j).1 ⟨rfl, hj⟩
        · rw [(ha i j).2 (fun e => h1 e.1), List.nil_append]
          exact (hb i j).2 (by simpa [h1] using hi) hj r' hr'

theorem Ent.value {k : ℕ} {T P : ℝ} {l : List A.Num} (hT : |T| ≤ P) (e : Ent A k T P l) :
    |toReal (l.foldl ScalarOps.add zero) - T| ≤ (A.up (k + 1) - 1) * P := by
  have h1 := A.one_le_up (k + 1)
  have hP : 0 ≤ P := (abs_nonneg _).trans hT
  rcases e with ⟨rfl, h0⟩ | ⟨x, rfl, hx⟩
  · rw [h0]
    simpa using mul_nonneg (by linarith) hP
  · have a : Acc A k (toReal x) T P := ⟨hx, hT⟩
    have n : A.Near 1 (A.rnd (toReal x)) (toReal x) := Rounding.near_rnd A.lt_one _
    simpa using (a.near n).err

theorem tgvAbs_congr_v {h : Heap ℝ} (wf : WF h) {v v' d : ℕ → ℝ} (r : ℕ)
    (hv : ∀ n, Graph.Reach h.args r n → v' n = v n) : tgvAbs h v' d r = tgvAbs h v d r := by
  induction r using Nat.strong_induction_on with
  | _ n ih =>
    rcases hh : h.args n with ⟨a, b⟩
    cases a with
    | none => rw [tgvAbs_leaf (by rw [hh]), tgvAbs_leaf (by rw [hh])]
    | some l =>
      have hlk := mem_kids_left (args := h.args) (n := n) (l := l) (by rw [hh])
      have hl := wf.acyc n l hlk
      have hrl : Graph.Reach h.args n l := Relation.ReflTransGen.single hlk
      cases b with
      | none =>
        rw [tgvAbs_un wf.acyc hh, tgvAbs_un wf.acyc hh, hv l hrl,
          ih l hl fun m hm => hv m (hrl.trans hm)]
      | some r =>
        have hrk := mem_kids_right (args := h.args) (n := n) (r := r) (by rw [hh])
        have hr := wf.acyc n r hrk
        have hrr : Graph.Reach h.args n r := Relation.ReflTransGen.single hrk
        rw [tgvAbs_bin wf.acyc hh, tgvAbs_bin wf.acyc hh, hv l hrl, hv r hrr,
          ih l hl fun m hm => hv m (hrl.trans hm), ih r hr fun m hm => hv m (hrr.trans hm)]

theorem opSet_reach {h : Heap A.Num} (r : ℕ) : ∀ n ∈ opSet h r, Graph.Reach h.args r n := by
  induction r using Nat.strong_induction_on with
  | _ r ih =>
    intro n hn
    rw [opSet] at hn
    rcases hh : h.args r with ⟨a, b⟩
    rw [hh] at hn
    cases a with
    | none => simp at hn
    | some l =>
      have hlk := mem_kids_left (args := h.args) (n := r) (l := l) (by rw [hh])
      cases b with
      | none =>
        simp only at hn
        split_ifs at hn with h1
        · rcases Finset.mem_insert.mp hn with rfl | hn
          · exact .refl
          · exact (Relation.ReflTransGen.single hlk).trans (ih l h1 n hn)
        · simp at hn
      | some k =>
        have hrk := mem_kids_right (args := h.args) (n := r) (r := k) (by rw [hh])
        simp only at hn
        split_ifs at hn with h1 h2
        · rw [Finset.mem_insert, Finset.mem_union] at hn
          rcases hn with rfl | hn | hn
          · exact .refl
          · exact (Relation.ReflTransGen.single hlk).trans (ih l h1 n hn)
          · exact (Relation.ReflTransGen.single hrk).trans (ih k h2 n hn)
        · simp at hn
        · simp at hn

theorem opSet_isSome {h : Heap A.Num} (r : ℕ) : ∀ n ∈ opSet h r, ∃ l, (h.args n).1 = some l := by
  induction r using Nat.strong_induction_on with
  | _ r ih =>
    intro n hn
    rw [opSet] at hn
    rcases hh : h.args r with ⟨a, b⟩
    rw [hh] at hn
    cases a with
    | none => simp at hn
    | some l =>
      cases b with
      | none =>
        simp only at hn
        split_ifs at hn with h1
        · rcases Finset.mem_insert.mp hn with rfl | hn
          · exact ⟨l, by rw [hh]⟩
          · exact ih l h1 n hn
        · simp at hn
      | some k =>
        simp only at hn
        split_ifs at hn with h1 h2
        · rw [Finset.mem_insert, Finset.mem_union] at hn
          rcases hn with rfl | hn | hn
          · exact ⟨l, by rw [hh]⟩
          · exact ih l h1 n hn
          · exact ih k h2 n hn
        · simp at hn
        · simp at hn

theorem localAt_num {h h1 : Heap A.Num} (wf : WF h) (g : Slp.Num h h1) {κ n : ℕ} (hn : n < h.next)
    (hv : ∀ m ∈ Graph.kids h.args n, toReal (h1.val m) = evR h h.val m) (l : LocalAt κ h (ev h h.val) n) :
    LocalAt κ h1 h1.val n := by
  have m := g.mono wf
  intro k hk
  have ha := m.args n hn
  rw [ha] at hk
  have := l k hk
  have e1 : h1.val k = ev h h.val k := hv k (mem_kids_left hk)
  have e2 : rhs h1 h1.val n = rhs h (ev h h.val) n := by
    unfold rhs
    rw [ha]
    rcases hr : (h.args n).2 with _ | r
    · rfl
    · exact hv r (mem_kids_right hr)
  have e3 : RConst h1 n = RConst h n := by
    unfold RConst
    rw [ha]
    apply propext
    apply exists_congr
    intro r
    apply and_congr_right
    intro hr
    have hrN : r < h.next := (wf.acyc n r (mem_kids_right hr)).trans hn
    rw [m.args r hrN, m.op r hrN]
  rw [m.op n hn, e1, e2, e3]
  exact this

/-- `Jacobian::value`: every entry is near the derivative at the computed values; nothing but node values and adjoints
changes, and the object stays valid. -/
theorem jac_value_float {h : Heap A.Num} (wf : WF h) {J : JacObj A.Num} (jo : JacF h J) :
    Slp.Num h (J.value h).2.2 ∧ JacF (J.value h).2.2 (J.value h).2.1 ∧
      (J.value h).2.1.vars = J.vars ∧ (J.value h).2.1.wrt = J.wrt ∧
      ∀ i j r, J.vars[i]? = some (some r) → j < J.wrt.length → ∀ κ, RowOK κ h r →
        (∀ n ∈ opSet h r, LocalAt κ h (ev h h.val) n) → |toReal ((J.value h).1 i j) - tgv (real h) (evR h h.val) (dir (J.wrt.getD j 0)) r| ≤
          (A.up (expo κ h r + 1) - 1) * tgvAbs (real h) (evR h h.val) (dir (J.wrt.getD j 0)) r := by
  have hT : ∀ w r, |tgv (real h) (evR h h.val) (dir w) r| ≤ tgvAbs (real h) (evR h h.val) (dir w) r := fun w r =>
    tgv_le_tgvAbs (wf_real wf).acyc _ _ _
  have hev : ∀ n, n < h.next → h.op n = .constant → evR h h.val n = toReal (h.val n) := fun n hn hc =>
    congrArg toReal (ev_const wf hn ((ty_constant_iff wf hn).mpr hc) _)
  have hlin : ∀ i j r, J.vars[i]? = some (some r) → j < J.wrt.length → ¬ isNL h (some r) → ∀ κ, RowOK κ h r →
      Ent A (expo κ h r) (tgv (real h) (evR h h.val) (dir (J.wrt.getD j 0)) r)
        (tgvAbs (real h) (evR h h.val) (dir (J.wrt.getD j 0)) r) (ents J.cached i j) := by
    intro i j r hv hj hnl κ ok
    have := jo.cached (evR h h.val) hev i j
    rw [hv] at this
    simp only [LinEnt, hj, and_true] at this
    by_cases h1 : h.ty r = .linear
    · rw [if_pos h1] at this; exact this κ ok
    · rw [if_neg h1] at this
      refine Or.inl ⟨this, ?_⟩
      rcases ty_cases wf (jo.row_lt hv) with h2 | h2 | h2
      · exact tgv_const (wf_real wf) (jo.row_lt hv) h2 _ _
      · exact absurd h2 h1
      · exact absurd h2 hnl
  by_cases hn : J.nonlinear = []
  · have e : J.value h = (J.mat, J, h) := by unfold JacObj.value; rw [if_pos hn]
    rw [e]
    refine ⟨Slp.Num.refl h, jo, rfl, rfl, ?_⟩
    intro i j r hv hj κ ok _
    show |toReal (J.mat i j) - _| ≤ _
    rw [jo.mat hn, fromTriplets_ents]
    refine Ent.value (hT _ _) (hlin i j r hv hj ?_ κ ok)
    intro hnl
    have := (jo.nl i).mpr ⟨some r, hv, hnl⟩
    rw [hn] at this
    simp at this
  · have hls : ∀ l ∈ J.topLists, Topo h.args l ∧ ∀ n ∈ l, n < h.next := by
      intro l hl
      obtain ⟨i, hi⟩ := List.getElem?_of_mem hl
      obtain ⟨v, _, ht⟩ := forall2_get jo.tops.flip i hi
      cases v with
      | none =>
        have : l = [] := ht
        subst this
        exact ⟨trivial, by simp⟩
      | some r =>
        have ht : TopOf h r l := ht
        exact ⟨ht.topo, ht.mem_lt wf⟩
    obtain ⟨hnum, hval⟩ := updateAll_spec wf J.topLists hls
    set h1 := J.topLists.foldl (fun h l => updateValues l h) h with hh1
    have wf1 := hnum.wf wf
    have jo1 := jo.mono wf (hnum.mono wf)
    obtain ⟨ht, adj, hadj⟩ := nonlinear_ents wf1 jo1 J.nonlinear jo.nlNodup (fun _ hi => hi) h1.adjoint
    have hh : ({ h1 with adjoint := h1.adjoint } : Heap A.Num) = h1 := rfl
    rw [hh] at ht hadj
    have e : J.value h = (fromTriplets (J.cached ++ (nonlinearTriplets J J.nonlinear h1).1),
        { J with mat := fromTriplets (J.cached ++ (nonlinearTriplets J J.nonlinear h1).1) },
        { h1 with adjoint := adj }) := by
      unfold JacObj.value
      rw [if_neg hn, ← hadj]
    rw [e]
    have hnum2 : Slp.Num h { h1 with adjoint := adj } := hnum.trans (num_adjoint h1 adj)
    refine ⟨hnum2, ?_, rfl, rfl, ?_⟩
    · have jo2 := jo.mono wf (hnum2.mono wf)
      exact ⟨jo2.wrtVar, jo2.nodup, jo2.tops, jo2.outLists, jo2.nlNodup, jo2.nl, jo2.cached,
        fun e => absurd e hn⟩
    · intro i j r hv hj κ ok hκ
      show |toReal (fromTriplets _ i j) - _| ≤ _
      rw [fromTriplets_ents]
      refine Ent.value (hT _ _) ?_
      rw [ents_append]
      by_cases hnl : isNL h (some r)
      · have hi := (jo.nl i).mpr ⟨some r, hv, hnl⟩
        have hr := jo.row_lt hv
        have hcch := jo.cached (evR h h.val) hev i j
        rw [hv] at hcch
        have hlin' : h.ty r ≠ .linear := by
          intro e; simp only [isNL, e, Ty.rank] at hnl; omega
        have hcon : h.ty r ≠ .constant := by
          intro e; simp only [isNL, e, Ty.rank] at hnl; omega
        simp only [LinEnt, hlin', false_and, if_false] at hcch
        rw [hcch, List.nil_append]
        obtain ⟨l, hl, hto⟩ := forall2_get jo.tops i hv
        have hto : TopOf h r l := hto
        have hvv : ∀ n, Graph.Reach h.args r n → toReal (h1.val n) = evR h h.val n := fun n hn => by
          unfold evR
          rw [hval l (List.mem_of_getElem? hl) n ((hto.mem hcon n).mpr hn)]
        have hlo : ∀ n ∈ opSet h1 r, LocalAt κ h1 h1.val n := by
          intro n hn
          rw [opSet_congr (hnum.mono wf).args r hr] at hn
          exact localAt_num wf hnum (lt_of_le_of_lt (opSet_lt r n hn) hr)
            (fun m hm => hvv m ((opSet_reach r n hn).trans (.single hm))) (hκ n hn)
        have := (ht i j).2 hi hj r hv κ hlo
        rw [mono_expo (hnum.mono wf) hr,
          tgv_congr2 (h := real h) (h' := real h1) (N := h.next) (hnum.mono wf).op (hnum.mono wf).args
            (fun _ _ => rfl) _ r hr,
          tgvAbs_congr2 (h := real h) (h' := real h1) (N := h.next) (hnum.mono wf).op (hnum.mono wf).args
            (fun _ _ => rfl) _ r hr,
          tgv_congr_v (wf_real wf) r hvv, tgvAbs_congr_v (wf_real wf) r hvv] at this
        exact this
      · have : i ∉ J.nonlinear := by
          intro hi
          obtain ⟨u, hu, hu2⟩ := (jo.nl i).mp hi
          rw [hv] at hu
          simp at hu
          subst hu
          exact hnl hu2
        rw [(ht i j).1 this, List.append_nil]
        exact hlin i j r hv hj hnl κ ok

end FloatMath

end Slp
