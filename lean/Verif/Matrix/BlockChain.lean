import Verif.Matrix.BlockLemmas

/-! Chains of view-taking calls give views that name the selected positions. -/

namespace Slp.VMat

open Slp.Slicing

/-- A view of an `N` by `M` matrix names rows `R` and columns `C`. -/
structure Names (N M : ℕ) (b : Block) (R C : List ℤ) : Prop where
  row : Dim N b.rowSlice b.rows R
  col : Dim M b.colSlice b.cols C

/-- The argument with which `block()` slices one dimension. -/
def sub (off len : ℕ) : SliceArg := .range (some (off : ℤ)) (some ((off : ℤ) + len)) (some 1)

theorem sub_valid {off len n : ℕ} (h : off + len ≤ n) (hn : (n : ℤ) ≤ intMax) : (sub off len).Valid := by
  refine ⟨?_, ?_, ?_⟩ <;> rintro _ ⟨⟩
  · simp only [intMin, intMax] at *; omega
  · simp only [intMin, intMax] at *; omega
  · exact ⟨⟨by decide, by decide⟩, by decide⟩

theorem sub_selects {off len n : ℕ} (h : off + len ≤ n) :
    (sub off len).Selects n ((List.range len).map fun (k : ℕ) => ((off : ℤ) + k)) := by
  simp only [sub, SliceArg.Selects, PySelects, pyIndices, Option.getD_some, Option.elim]
  rw [if_neg (by omega), if_neg (by omega), if_neg (by omega), min_eq_left (by omega),
    min_eq_left (by omega)]
  refine ⟨?_, fun _ => by simp, fun hh => by omega⟩
  intro k x hx
  rw [List.getElem?_map, Option.map_eq_some_iff] at hx
  obtain ⟨j, hj, rfl⟩ := hx
  obtain ⟨h1, h2⟩ := List.getElem?_eq_some_iff.1 hj
  simp only [List.length_range, List.getElem_range] at h1 h2
  subst h2
  refine ⟨by ring, fun _ => by omega, fun hh => by omega⟩

theorem sub_picks {off len : ℕ} {R : List ℤ} (h : off + len ≤ R.length) :
    Picks R ((List.range len).map fun (k : ℕ) => ((off : ℤ) + k)) ((R.drop off).take len) := by
  refine ⟨by simp; omega, ?_⟩
  intro k x hx
  rw [List.getElem?_map, Option.map_eq_some_iff] at hx
  obtain ⟨j, hj, rfl⟩ := hx
  obtain ⟨h1, h2⟩ := List.getElem?_eq_some_iff.1 hj
  simp only [List.length_range, List.getElem_range] at h1 h2
  subst h2
  refine ⟨by omega, ?_⟩
  rw [List.getElem?_take, if_pos h1, List.getElem?_drop]
  congr 1

theorem picks_allOf {n : ℕ} {l : List ℤ} (h : ∀ x ∈ l, 0 ≤ x ∧ x < n) : Picks (allOf n) l l := by
  refine ⟨rfl, ?_⟩
  intro k x hx
  obtain ⟨h1, h2⟩ := h x (List.mem_of_getElem? hx)
  refine ⟨h1, ?_⟩
  rw [hx, allOf, List.getElem?_map, List.getElem?_range (by omega)]
  simp [h1]

theorem allOf_length (n : ℕ) : (allOf n).length = n := by simp [allOf]

theorem picks_allOf_eq {n : ℕ} {l R : List ℤ} (h : ∀ x ∈ l, 0 ≤ x ∧ x < n) (hp : Picks (allOf n) l R) :
    R = l := by
  have h2 := picks_allOf h
  apply List.ext_getElem?
  intro k
  rcases lt_or_ge k l.length with hk | hk
  · have e1 := (hp.2 k _ (List.getElem?_eq_getElem hk)).2
    have e2 := (h2.2 k _ (List.getElem?_eq_getElem hk)).2
    rw [e1, e2]
  · rw [List.getElem?_eq_none (by rw [hp.1]; exact hk), List.getElem?_eq_none hk]

/-- Slicing a matrix. -/
theorem ofSlices_names {N M : ℕ} {r c : SliceArg} (hN : (N : ℤ) ≤ intMax) (hM : (M : ℤ) ≤ intMax)
    (hr : r.Valid) (hc : c.Valid) {lr lc : List ℤ} (sr : r.Selects N lr) (sc : c.Selects M lc) {R C : List ℤ}
    (pr : Picks (allOf N) lr R) (pc : Picks (allOf M) lc C) :
    ∃ b, (r.toSlice.bind fun r => c.toSlice.bind fun c => Block.ofSlices N M r c) = some b ∧
      Names N M b R C ∧ b.rowSlice.step = codeStep r.step ∧ b.colSlice.step = codeStep c.step := by
  obtain ⟨x, hx, ax, sx⟩ := SliceArg.adjusted hr hN sr
  obtain ⟨y, hy, ay, sy⟩ := SliceArg.adjusted hc hM sc
  obtain ⟨rs, hrs, hx⟩ := Option.bind_eq_some_iff.1 hx
  obtain ⟨cs, hcs, hy⟩ := Option.bind_eq_some_iff.1 hy
  have hR : R = lr := picks_allOf_eq (fun z hz => by
    obtain ⟨k, hk⟩ := List.getElem?_of_mem hz; exact (ax.get k z hk).2) pr
  have hC : C = lc := picks_allOf_eq (fun z hz => by
    obtain ⟨k, hk⟩ := List.getElem?_of_mem hz; exact (ay.get k z hk).2) pc
  subst hR hC
  refine ⟨⟨x.2, x.1, y.2, y.1⟩, ?_, ⟨ax.dim, ay.dim⟩, sx, sy⟩
  rw [hrs, hcs]
  simp only [Option.bind_some, Block.ofSlices]
  rw [hx, hy]
  rfl

/-- Slicing a view. -/
theorem slices_names {N M : ℕ} {b : Block} {R C : List ℤ} (hb : Names N M b R C) {r c : SliceArg}
    (hN : N + |r.step * b.rowSlice.step| ≤ intMax) (hM : M + |c.step * b.colSlice.step| ≤ intMax)
    (hr : r.Valid) (hc : c.Valid) {lr lc : List ℤ} (sr : r.Selects R.length lr)
    (sc : c.Selects C.length lc) {R' C' : List ℤ} (pr : Picks R lr R') (pc : Picks C lc C') :
    ∃ b', (r.toSlice.bind fun r => c.toSlice.bind fun c => b.slices r c) = some b' ∧
      Names N M b' R' C' ∧ b'.rowSlice.step = r.step * b.rowSlice.step ∧
      b'.colSlice.step = c.step * b.colSlice.step := by
  have key : ∀ {a : SliceArg} {t : ℤ} {K : ℕ}, t ≠ 0 → K + |a.step * t| ≤ intMax → codeStep a.step = a.step := by
    intro a t K ht h
    unfold codeStep
    split
    · rename_i he
      rw [he, abs_mul] at h
      have h1 := Int.one_le_abs ht
      have h2 : |intMin| = 2147483648 := by decide
      rw [h2] at h
      simp only [intMax] at h
      omega
    · rfl
  have hlen : ∀ {K : ℕ} {s : Slice} {L : ℤ} {Q : List ℤ}, Dim K s L Q → (Q.length : ℤ) ≤ K := by
    intro K s L Q h
    rcases Nat.eq_zero_or_pos Q.length with h0 | hpos
    · omega
    · obtain ⟨a1, a2, a3⟩ := h.get 0 _ (List.getElem?_eq_getElem hpos)
      obtain ⟨c1, c2, c3⟩ := h.get (Q.length - 1) _ (List.getElem?_eq_getElem (by omega))
      generalize Q[0] = x0 at *
      generalize Q[Q.length - 1] = x1 at *
      push_cast [Nat.cast_sub hpos] at c1
      simp only [Nat.cast_zero, zero_mul, add_zero] at a1
      rcases lt_or_gt_of_ne h.step_ne with hs | hs <;> nlinarith
  have hRl := hlen hb.row
  have hCl := hlen hb.col
  have n1 := abs_nonneg (r.step * b.rowSlice.step)
  have n2 := abs_nonneg (c.step * b.colSlice.step)
  obtain ⟨x, hx, ax, sx⟩ := SliceArg.adjusted hr (by omega) sr
  obtain ⟨y, hy, ay, sy⟩ := SliceArg.adjusted hc (by omega) sc
  rw [key hb.row.step_ne hN] at sx
  rw [key hb.col.step_ne hM] at sy
  obtain ⟨rs, hrs, hx⟩ := Option.bind_eq_some_iff.1 hx
  obtain ⟨cs, hcs, hy⟩ := Option.bind_eq_some_iff.1 hy
  obtain ⟨s1, e1, d1, t1⟩ := hb.row.compose ax pr (by rw [sx]; exact hN)
  obtain ⟨s2, e2, d2, t2⟩ := hb.col.compose ay pc (by rw [sy]; exact hM)
  refine ⟨⟨s1, x.1, s2, y.1⟩, ?_, ⟨d1, d2⟩, by rw [← sx]; exact t1, by rw [← sy]; exact t2⟩
  rw [hrs, hcs]
  simp only [Option.bind_some, Block.slices]
  rw [hb.row.len, hb.col.len, hx, hy]
  simp only [Option.bind_eq_bind, Option.bind_some]
  rw [e1, e2]
  rfl

theorem toSlice_sub {off len n : ℕ} (h : off + len ≤ n) (hn : (n : ℤ) ≤ intMax) :
    (ck ((off : ℤ) + len)).bind (fun re => Slice.mk3 (some (off : ℤ)) (some re) (some 1)) =
      (sub off len).toSlice := by
  simp only [intMax] at hn
  rw [ck_some (by simp only [intMin]; omega) (by simp only [intMax]; omega)]
  rfl

theorem ofBlock_eq {N M ro co br bc : ℕ} (h1 : ro + br ≤ N) (h2 : co + bc ≤ M)
    (hN : (N : ℤ) ≤ intMax) (hM : (M : ℤ) ≤ intMax) :
    Block.ofBlock N M ro co br bc = (sub ro br).toSlice.bind fun r => (sub co bc).toSlice.bind fun c =>
      Block.ofSlices N M r c := by
  unfold Block.ofBlock
  rw [if_pos (by omega), ← toSlice_sub h1 hN, ← toSlice_sub h2 hM]
  simp only [intMax] at hN hM
  rw [ck_some (by simp only [intMin]; omega) (by simp only [intMax]; omega),
    ck_some (by simp only [intMin]; omega) (by simp only [intMax]; omega)]
  rfl

theorem block_eq {b : Block} {n m ro co br bc : ℕ} (hb1 : b.rows = n) (hb2 : b.cols = m)
    (h1 : ro + br ≤ n) (h2 : co + bc ≤ m) (hN : (n : ℤ) ≤ intMax) (hM : (m : ℤ) ≤ intMax) :
    b.block ro co br bc = (sub ro br).toSlice.bind fun r => (sub co bc).toSlice.bind fun c =>
      b.slices r c := by
  unfold Block.block
  rw [if_pos (by omega), ← toSlice_sub h1 hN, ← toSlice_sub h2 hM]
  simp only [intMax] at hN hM
  rw [ck_some (by simp only [intMin]; omega) (by simp only [intMax]; omega),
    ck_some (by simp only [intMin]; omega) (by simp only [intMax]; omega)]
  rfl

/-- Every call is a slicing with suitable arguments. -/
theorem Access.as_slices {R C R' C' : List ℤ} {a : Access} (h : Access.Selects R C a R' C')
    (hR : (R.length : ℤ) ≤ intMax) (hC : (C.length : ℤ) ≤ intMax) :
    ∃ (r c : SliceArg) (lr lc : List ℤ), r.Valid ∧ c.Valid ∧ r.Selects R.length lr ∧ c.Selects C.length lc ∧ Picks R lr R' ∧
      Picks C lc C' ∧ r.step = a.rowStep ∧ c.step = a.colStep ∧
      a.onMatrix R.length C.length = (r.toSlice.bind fun r => c.toSlice.bind fun c =>
        Block.ofSlices R.length C.length r c) ∧
      ∀ b : Block, b.rows = R.length → b.cols = C.length →
        a.onBlock b = r.toSlice.bind fun r => c.toSlice.bind fun c => b.slices r c := by
  have hone : ∀ {Q : List ℤ} {i : ℕ} {x : ℤ}, Q[i]? = some x → [x] = (Q.drop i).take 1 := by
    intro Q i x h
    obtain ⟨h1, rfl⟩ := List.getElem?_eq_some_iff.1 h
    rw [List.drop_eq_getElem_cons h1]; rfl
  have hfull : ∀ Q : List ℤ, Q = (Q.drop 0).take Q.length := by intro Q; simp
  cases h with
  | slices v1 v2 s1 s2 p1 p2 =>
      exact ⟨_, _, _, _, v1, v2, s1, s2, p1, p2, rfl, rfl, rfl, fun _ _ _ => rfl⟩
  | @block ro co br bc h1 h2 =>
      exact ⟨_, _, _, _, sub_valid h1 hR, sub_valid h2 hC, sub_selects h1, sub_selects h2, sub_picks h1,
        sub_picks h2, rfl, rfl, ofBlock_eq h1 h2 hR hC, fun b e1 e2 => block_eq e1 e2 h1 h2 hR hC⟩
  | @row i x hx =>
      have hi : i < R.length := (List.getElem?_eq_some_iff.1 hx).1
      have h1 : i + 1 ≤ R.length := hi
      have h2 : 0 + C.length ≤ C.length := by omega
      have p1 := sub_picks h1
      have p2 := sub_picks h2
      rw [← hone hx] at p1
      rw [← hfull] at p2
      refine ⟨_, _, _, _, sub_valid h1 hR, sub_valid h2 hC, sub_selects h1, sub_selects h2, p1,
        p2, rfl, rfl, ?_, fun b e1 e2 => ?_⟩
      · have := ofBlock_eq h1 h2 hR hC
        simp only [Access.onMatrix, Block.ofRow]
        rw [if_pos (by omega)]; exact this
      · have := block_eq e1 e2 h1 h2 hR hC
        simp only [Access.onBlock]
        rw [if_pos (by omega), e2]; exact this
  | @col j y hy =>
      have hj : j < C.length := (List.getElem?_eq_some_iff.1 hy).1
      have h1 : 0 + R.length ≤ R.length := by omega
      have h2 : j + 1 ≤ C.length := hj
      have p1 := sub_picks h1
      have p2 := sub_picks h2
      rw [← hone hy] at p2
      rw [← hfull] at p1
      refine ⟨_, _, _, _, sub_valid h1 hR, sub_valid h2 hC, sub_selects h1, sub_selects h2, p1,
        p2, rfl, rfl, ?_, fun b e1 e2 => ?_⟩
      · have := ofBlock_eq h1 h2 hR hC
        simp only [Access.onMatrix, Block.ofCol]
        rw [if_pos (by omega)]; exact this
      · have := block_eq e1 e2 h1 h2 hR hC
        simp only [Access.onBlock]
        rw [if_pos (by omega), e1]; exact this
  | @segment o l hc ho h1 =>
      have h2 : 0 + 1 ≤ C.length := by omega
      have p1 := sub_picks h1
      have p2 := sub_picks h2
      have p3 : C = (C.drop 0).take 1 := by rw [← hc]; exact hfull C
      rw [← p3] at p2
      refine ⟨sub o l, sub 0 1, _, _, sub_valid h1 hR, sub_valid h2 hC, sub_selects h1, sub_selects h2, p1,
        p2, rfl, rfl, ?_, fun b e1 e2 => ?_⟩
      · have := ofBlock_eq h1 h2 hR hC
        simp only [Access.onMatrix, Block.ofSegment]
        rw [if_pos ⟨hc, by omega, by omega, by omega, by omega⟩]; exact this
      · have := block_eq e1 e2 h1 h2 hR hC
        simp only [Access.onBlock]
        rw [if_pos ⟨by omega, by omega, by omega, by omega, by omega⟩]; exact this

theorem Access.step_ne {R C R' C' : List ℤ} {a : Access} (h : Access.Selects R C a R' C') :
    a.rowStep ≠ 0 ∧ a.colStep ≠ 0 := by
  cases h with
  | slices v1 v2 => exact ⟨SliceArg.step_ne v1, SliceArg.step_ne v2⟩
  | _ => exact ⟨one_ne_zero, one_ne_zero⟩

theorem ChainSelects.prod_ne {R C R' C' : List ℤ} {as : List Access} (h : ChainSelects R C as R' C') :
    (as.map Access.rowStep).prod ≠ 0 ∧ (as.map Access.colStep).prod ≠ 0 := by
  induction h with
  | nil => simp
  | cons ha _ ih =>
      simp only [List.map_cons, List.prod_cons]
      exact ⟨mul_ne_zero (Access.step_ne ha).1 ih.1, mul_ne_zero (Access.step_ne ha).2 ih.2⟩

theorem Dim.length_le {K : ℕ} {s : Slice} {L : ℤ} {Q : List ℤ} (h : Dim K s L Q) : Q.length ≤ K := by
  rcases Nat.eq_zero_or_pos Q.length with h0 | hpos
  · omega
  · obtain ⟨a1, a2, a3⟩ := h.get 0 _ (List.getElem?_eq_getElem hpos)
    obtain ⟨c1, c2, c3⟩ := h.get (Q.length - 1) _ (List.getElem?_eq_getElem (by omega))
    generalize Q[0] = x0 at *
    generalize Q[Q.length - 1] = x1 at *
    push_cast [Nat.cast_sub hpos] at c1
    simp only [Nat.cast_zero, zero_mul, add_zero] at a1
    have : (Q.length : ℤ) ≤ K := by
      rcases lt_or_gt_of_ne h.step_ne with hs | hs <;> nlinarith
    omega

theorem abs_le_abs_mul {a b : ℤ} (hb : b ≠ 0) : |a| ≤ |a * b| := by
  rw [abs_mul]
  have := Int.one_le_abs hb
  nlinarith [abs_nonneg a]

theorem rest_names {N M : ℕ} {R C R' C' : List ℤ} {as : List Access} (h : ChainSelects R C as R' C')
    {b : Block} (hb : Names N M b R C)
    (hN : as ≠ [] → N + |b.rowSlice.step * (as.map Access.rowStep).prod| ≤ intMax)
    (hM : as ≠ [] → M + |b.colSlice.step * (as.map Access.colStep).prod| ≤ intMax) :
    ∃ b', as.foldlM Access.onBlock b = some b' ∧ Names N M b' R' C' := by
  induction h generalizing b with
  | nil => exact ⟨b, rfl, hb⟩
  | @cons R C a R1 C1 as R2 C2 ha hrest ih =>
      have hN := hN (by simp)
      have hM := hM (by simp)
      simp only [List.map_cons, List.prod_cons] at hN hM
      obtain ⟨p1, p2⟩ := hrest.prod_ne
      have e1 : b.rowSlice.step * (a.rowStep * (as.map Access.rowStep).prod) =
        (a.rowStep * b.rowSlice.step) * (as.map Access.rowStep).prod := by ring
      have e2 : b.colSlice.step * (a.colStep * (as.map Access.colStep).prod) =
        (a.colStep * b.colSlice.step) * (as.map Access.colStep).prod := by ring
      rw [e1] at hN
      rw [e2] at hM
      have q1 := abs_le_abs_mul (a := a.rowStep * b.rowSlice.step) p1
      have q2 := abs_le_abs_mul (a := a.colStep * b.colSlice.step) p2
      have n1 := abs_nonneg (a.rowStep * b.rowSlice.step)
      have n2 := abs_nonneg (a.colStep * b.colSlice.step)
      have l1 := hb.row.length_le
      have l2 := hb.col.length_le
      obtain ⟨r, c, lr, lc, v1, v2, s1, s2, k1, k2, t1, t2, -, hob⟩ := Access.as_slices ha (by omega) (by omega)
      obtain ⟨b1, hb1, hn1, u1, u2⟩ := slices_names hb (r := r) (c := c) (by rw [t1]; omega)
        (by rw [t2]; omega) v1 v2 s1 s2 k1 k2
      rw [t1] at u1
      rw [t2] at u2
      obtain ⟨b2, hb2, hn2⟩ := ih hn1 (fun _ => by rw [u1]; omega) (fun _ => by rw [u2]; omega)
      refine ⟨b2, ?_, hn2⟩
      rw [List.foldlM_cons, hob b hb.row.len hb.col.len, hb1]
      exact hb2

theorem views_names {N M : ℕ} {R C : List ℤ} {first : Access} {rest : List Access}
    (h : ChainSelects (allOf N) (allOf M) (first :: rest) R C)
    (hN : (N : ℤ) ≤ intMax) (hM : (M : ℤ) ≤ intMax)
    (hN' : rest ≠ [] → N + |((first :: rest).map Access.rowStep).prod| ≤ intMax)
    (hM' : rest ≠ [] → M + |((first :: rest).map Access.colStep).prod| ≤ intMax) :
    ∃ b, views N M first rest = some b ∧ Names N M b R C := by
  cases h with
  | @cons _ _ _ R1 C1 _ _ _ ha hrest =>
      obtain ⟨r, c, lr, lc, v1, v2, s1, s2, k1, k2, t1, t2, hom, -⟩ := Access.as_slices ha
        (by rw [allOf_length]; exact hN) (by rw [allOf_length]; exact hM)
      rw [allOf_length, allOf_length] at hom
      rw [allOf_length] at s1 s2
      obtain ⟨b1, hb1, hn1, u1, u2⟩ := ofSlices_names hN hM v1 v2 s1 s2 k1 k2
      have key : ∀ {a : SliceArg} {t : ℤ} {K : ℕ}, t ≠ 0 → K + |a.step * t| ≤ intMax →
          codeStep a.step = a.step := by
        intro a t K ht h
        unfold codeStep
        split
        · rename_i he
          rw [he, abs_mul] at h
          have h1 := Int.one_le_abs ht
          have h2 : |intMin| = 2147483648 := by decide
          rw [h2] at h
          simp only [intMax] at h
          omega
        · rfl
      obtain ⟨p1, p2⟩ := hrest.prod_ne
      simp only [List.map_cons, List.prod_cons] at hN' hM'
      rw [← t1] at hN'
      rw [← t2] at hM'
      obtain ⟨b2, hb2, hn2⟩ := rest_names hrest hn1
        (fun hr => by rw [u1, key p1 (hN' hr)]; exact hN' hr)
        (fun hr => by rw [u2, key p2 (hM' hr)]; exact hM' hr)
      refine ⟨b2, ?_, hn2⟩
      unfold views
      rw [hom, hb1]
      exact hb2

end Slp.VMat
