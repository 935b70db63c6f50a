import Verif.Autodiff.GraphModel
import Mathlib.Algebra.BigOperators.Group.Finset.Basic
import Mathlib.Algebra.BigOperators.Intervals
import Mathlib.Algebra.Order.BigOperators.Group.Finset
import Mathlib.Data.Finset.Max
import Mathlib.Logic.Relation
import Mathlib.Data.List.ReduceOption
import Mathlib.Data.Finset.Card
import Mathlib.Tactic.Linarith
import Mathlib.Tactic.Ring
import Mathlib.Tactic.Positivity
import Mathlib.Tactic.Tauto

/-! Loop invariants of the two traversal passes. -/

namespace Slp.Graph

/-- The non-null operands of a node, in order. -/
def kids (args : Args) (n : ℕ) : List ℕ := [(args n).1, (args n).2].reduceOption

/-- Operands are older than the node using them. -/
def Acyclic (args : Args) : Prop := ∀ n, ∀ c ∈ kids args n, c < n

/-- `Reach args r n`: node `n` is a (transitive) dependency of `r`, or `r` itself. -/
def Reach (args : Args) (r n : ℕ) : Prop :=
  Relation.ReflTransGen (fun a b => b ∈ kids args a) r n

theorem Reach.le {args : Args} (h : Acyclic args) {r n : ℕ} (hr : Reach args r n) : n ≤ r := by
  induction hr with
  | refl => exact le_rfl
  | tail _ hc ih => exact le_trans (le_of_lt (h _ _ hc)) ih

/-- Number of edges from nodes in `S` to `c`. -/
def edges (args : Args) (S : Finset ℕ) (c : ℕ) : ℕ := ∑ n ∈ S, (kids args n).count c

theorem edges_insert {args : Args} {S : Finset ℕ} {n : ℕ} (hn : n ∉ S) (c : ℕ) :
    edges args (insert n S) c = (kids args n).count c + edges args S c := by
  simp [edges, Finset.sum_insert hn]

theorem edges_pos {args : Args} {S : Finset ℕ} {n c : ℕ} (hn : n ∈ S) (hc : c ∈ kids args n) :
    0 < edges args S c := by
  have h1 : 0 < (kids args n).count c := List.count_pos_iff.mpr hc
  have h2 : (kids args n).count c ≤ edges args S c :=
    Finset.single_le_sum (f := fun n => (kids args n).count c) (fun _ _ => Nat.zero_le _) hn
  omega

theorem foldl_option {β : Type*} (f : β → Option ℕ → β) (hf : ∀ b, f b none = b)
    (l : List (Option ℕ)) (b : β) :
    l.foldl f b = l.reduceOption.foldl (fun b a => f b (some a)) b := by
  induction l generalizing b with
  | nil => rfl
  | cons a l ih =>
    cases a with
    | none => simp [hf, ih]
    | some a => simp [ih]

theorem discover_fold (as : List ℕ) (stk : List ℕ) (sc : Scratch) (h : ∀ c, -1 ≤ sc c)
    (hn : stk.Nodup) (hd : ∀ c ∈ as, sc c = -1 → c ∉ stk) :
    let st := as.foldl (fun b a => discover b (some a)) (stk, sc)
    (∀ c, st.2 c = sc c + as.count c) ∧
    (∀ c, c ∈ st.1 ↔ c ∈ stk ∨ (c ∈ as ∧ sc c = -1)) ∧ st.1.Nodup := by
  induction as generalizing stk sc with
  | nil => simp [hn]
  | cons a as ih =>
    simp only [List.foldl_cons]
    set sc1 := Function.update sc a (sc a + 1) with hsc1
    have hsc1a : sc1 a = sc a + 1 := by simp [hsc1]
    have hsc1o : ∀ c, c ≠ a → sc1 c = sc c := fun c hc => by simp [hsc1, hc]
    have hge : ∀ c, -1 ≤ sc1 c := by
      intro c
      by_cases hc : c = a
      · subst hc; have := h c; omega
      · rw [hsc1o c hc]; exact h c
    by_cases h0 : sc1 a = 0
    · have hst : discover (stk, sc) (some a) = (a :: stk, sc1) := by
        simp only [discover]; rw [if_pos h0]
      rw [hst]
      have hsa : sc a = -1 := by omega
      have hnot : a ∉ stk := hd a (by simp) hsa
      obtain ⟨i1, i2, i3⟩ := ih (a :: stk) sc1 hge (List.nodup_cons.mpr ⟨hnot, hn⟩) (by
        intro c hc hc1
        by_cases hca : c = a
        · subst hca; omega
        · rw [hsc1o c hca] at hc1
          simp only [List.mem_cons, not_or]
          exact ⟨hca, hd c (by simp [hc]) hc1⟩)
      refine ⟨?_, ?_, i3⟩
      · intro c
        rw [i1 c]
        by_cases hca : c = a
        · subst hca; rw [hsc1a]; simp; ring
        · rw [hsc1o c hca, List.count_cons_of_ne (Ne.symm hca)]
      · intro c
        rw [i2 c]
        by_cases hca : c = a
        · subst hca; simp [hsa]
        · rw [hsc1o c hca]; simp [hca]
    · have hst : discover (stk, sc) (some a) = (stk, sc1) := by
        simp only [discover]; rw [if_neg h0]
      rw [hst]
      have hsa : sc a ≠ -1 := by omega
      obtain ⟨i1, i2, i3⟩ := ih stk sc1 hge hn (by
        intro c hc hc1
        by_cases hca : c = a
        · subst hca; have := h c; omega
        · rw [hsc1o c hca] at hc1; exact hd c (by simp [hc]) hc1)
      refine ⟨?_, ?_, i3⟩
      · intro c
        rw [i1 c]
        by_cases hca : c = a
        · subst hca; rw [hsc1a]; simp; ring
        · rw [hsc1o c hca, List.count_cons_of_ne (Ne.symm hca)]
      · intro c
        rw [i2 c]
        by_cases hca : c = a
        · subst hca
          have : sc1 c ≠ -1 := by have := h c; omega
          simp [hsa, this]
        · rw [hsc1o c hca]; simp [hca]

theorem release_fold (as : List ℕ) (stk : List ℕ) (sc : Scratch)
    (h : ∀ c ∈ as, -1 ≤ sc c - as.count c)
    (hn : stk.Nodup) (hd : ∀ c ∈ as, c ∉ stk) :
    let st := as.foldl (fun b a => release b (some a)) (stk, sc)
    (∀ c, st.2 c = sc c - as.count c) ∧
    (∀ c, c ∈ st.1 ↔ c ∈ stk ∨ (c ∈ as ∧ st.2 c = -1)) ∧ st.1.Nodup := by
  induction as generalizing stk sc with
  | nil => simp [hn]
  | cons a as ih =>
    simp only [List.foldl_cons]
    set sc1 := Function.update sc a (sc a - 1) with hsc1
    have hsc1a : sc1 a = sc a - 1 := by simp [hsc1]
    have hsc1o : ∀ c, c ≠ a → sc1 c = sc c := fun c hc => by simp [hsc1, hc]
    have hge : ∀ c ∈ as, -1 ≤ sc1 c - as.count c := by
      intro c hc
      have := h c (by simp [hc])
      by_cases hca : c = a
      · subst hca; rw [hsc1a]; simp at this; omega
      · rw [hsc1o c hca]; rw [List.count_cons_of_ne (Ne.symm hca)] at this; exact this
    have ha := h a (by simp)
    simp only [List.count_cons_self] at ha
    by_cases h0 : sc1 a = -1
    · have hst : release (stk, sc) (some a) = (a :: stk, sc1) := by
        simp only [release]; rw [if_pos h0]
      rw [hst]
      have hcnt : as.count a = 0 := by push_cast at ha; omega
      have hna : a ∉ as := List.count_eq_zero.mp hcnt
      obtain ⟨i1, i2, i3⟩ := ih (a :: stk) sc1 hge
        (List.nodup_cons.mpr ⟨hd a (by simp), hn⟩) (by
        intro c hc
        simp only [List.mem_cons, not_or]
        exact ⟨fun e => hna (e ▸ hc), hd c (by simp [hc])⟩)
      have key : ∀ c, (as.foldl (fun b a => release b (some a)) (a :: stk, sc1)).2 c
          = sc c - ((a :: as).count c : ℕ) := by
        intro c
        rw [i1 c]
        by_cases hca : c = a
        · subst hca; rw [hsc1a]; simp; ring
        · rw [hsc1o c hca, List.count_cons_of_ne (Ne.symm hca)]
      refine ⟨key, ?_, i3⟩
      intro c
      rw [i2 c]
      by_cases hca : c = a
      · subst hca
        have : (as.foldl (fun b a => release b (some a)) (c :: stk, sc1)).2 c = -1 := by
          rw [i1 c, hcnt]; simp; exact h0
        simp [this]
      · simp [hca]
    · have hst : release (stk, sc) (some a) = (stk, sc1) := by
        simp only [release]; rw [if_neg h0]
      rw [hst]
      obtain ⟨i1, i2, i3⟩ := ih stk sc1 hge hn (fun c hc => hd c (by simp [hc]))
      have key : ∀ c, (as.foldl (fun b a => release b (some a)) (stk, sc1)).2 c
          = sc c - ((a :: as).count c : ℕ) := by
        intro c
        rw [i1 c]
        by_cases hca : c = a
        · subst hca; rw [hsc1a]; simp; ring
        · rw [hsc1o c hca, List.count_cons_of_ne (Ne.symm hca)]
      refine ⟨key, ?_, i3⟩
      intro c
      rw [i2 c]
      by_cases hca : c = a
      · subst hca
        constructor
        · rintro (h1 | ⟨h1, h2⟩)
          · exact Or.inl h1
          · exact Or.inr ⟨by simp, h2⟩
        · rintro (h1 | ⟨_, h2⟩)
          · exact Or.inl h1
          · right
            refine ⟨?_, h2⟩
            by_contra hnot
            rw [i1 c, List.count_eq_zero.mpr hnot] at h2
            simp at h2
            exact h0 h2
      · simp [hca]

/-- Invariant of the first pass; `P` is the set of nodes already popped. -/
structure Inv1 (args : Args) (root : ℕ) (P : Finset ℕ) (stk : List ℕ) (sc : Scratch) : Prop where
  count : ∀ c, sc c = -1 + edges args P c
  nodup : stk.Nodup
  fresh : ∀ c ∈ stk, c ∉ P
  known : ∀ c, (c = root ∨ 0 ≤ sc c) ↔ (c ∈ P ∨ c ∈ stk)
  reach : ∀ c, c ∈ P ∨ c ∈ stk → Reach args root c

theorem countEdges_spec {args : Args} (hac : Acyclic args) {root : ℕ} (fuel : ℕ) (P : Finset ℕ)
    (stk : List ℕ) (sc : Scratch) (inv : Inv1 args root P stk sc)
    (hfuel : root + 1 ≤ fuel + P.card) :
    ∃ sc' P', countEdges args fuel stk sc = some sc' ∧ Inv1 args root P' [] sc' := by
  induction fuel generalizing P stk sc with
  | zero =>
    cases stk with
    | nil => exact ⟨sc, P, by simp [countEdges], inv⟩
    | cons n stk =>
      exfalso
      have hsub : insert n P ⊆ Finset.range (root + 1) := by
        intro c hc
        rw [Finset.mem_range]
        have : Reach args root c := by
          apply inv.reach
          rcases Finset.mem_insert.mp hc with h | h
          · right; simp [h]
          · left; exact h
        have := this.le hac
        omega
      have hcard := Finset.card_le_card hsub
      rw [Finset.card_insert_of_notMem (inv.fresh n (by simp)), Finset.card_range] at hcard
      omega
  | succ fuel ih =>
    cases stk with
    | nil => exact ⟨sc, P, by simp [countEdges], inv⟩
    | cons n stk =>
      have hnP : n ∉ P := inv.fresh n (by simp)
      have hnr : Reach args root n := inv.reach n (Or.inr (by simp))
      have hns : n ∉ stk := (List.nodup_cons.mp inv.nodup).1
      have hfold : [(args n).1, (args n).2].foldl discover (stk, sc)
          = (kids args n).foldl (fun b a => discover b (some a)) (stk, sc) :=
        foldl_option _ (fun b => rfl) _ _
      have hkr : ∀ c ∈ kids args n, c ≠ root := by
        intro c hc e
        have h1 := hac n c hc
        have h2 := hnr.le hac
        omega
      have hsp := discover_fold (kids args n) stk sc
        (fun c => by rw [inv.count c]; omega) (List.nodup_cons.mp inv.nodup).2 (by
          intro c hc hsc hcs
          have := (inv.known c).mpr (Or.inr (by simp [hcs]))
          rcases this with h | h
          · exact hkr c hc h
          · omega)
      simp only [countEdges]
      rw [hfold]
      obtain ⟨s1, s2, s3⟩ := hsp
      set st := (kids args n).foldl (fun b a => discover b (some a)) (stk, sc) with hst
      apply ih (insert n P) st.1 st.2
      · have hnk : n ∉ kids args n := fun h => absurd (hac n n h) (lt_irrefl _)
        refine ⟨?_, s3, ?_, ?_, ?_⟩
        · intro c
          rw [s1 c, inv.count c, edges_insert hnP]; push_cast; ring
        · intro c hc hcP
          rcases (s2 c).mp hc with h | ⟨h1, h2⟩
          · rcases Finset.mem_insert.mp hcP with h' | h'
            · exact hns (h' ▸ h)
            · exact inv.fresh c (by simp [h]) h'
          · rcases Finset.mem_insert.mp hcP with h' | h'
            · exact hnk (h' ▸ h1)
            · have := (inv.known c).mpr (Or.inl h')
              rcases this with h | h
              · exact hkr c h1 h
              · omega
        · intro c
          have hk := inv.known c
          have hcnt : (0:ℤ) ≤ ((kids args n).count c : ℤ) := by positivity
          have hscge : -1 ≤ sc c := by rw [inv.count c]; omega
          by_cases hmem : c ∈ kids args n
          · have : 0 < (kids args n).count c := List.count_pos_iff.mpr hmem
            have h0 : 0 ≤ st.2 c := by rw [s1 c]; omega
            constructor
            · intro _
              by_cases hm1 : sc c = -1
              · right; exact (s2 c).mpr (Or.inr ⟨hmem, hm1⟩)
              · rcases hk.mp (Or.inr (by omega)) with h | h
                · left; simp [h]
                · rcases List.mem_cons.mp h with h' | h'
                  · left; simp [h']
                  · right; exact (s2 c).mpr (Or.inl h')
            · intro _; right; exact h0
          · have hz : (kids args n).count c = 0 := List.count_eq_zero.mpr hmem
            rw [s1 c, hz, s2 c]
            simp only [Nat.cast_zero, add_zero, hmem, false_and, or_false, Finset.mem_insert]
            rw [hk]; simp only [List.mem_cons]; tauto
        · intro c hc
          rcases hc with h | h
          · rcases Finset.mem_insert.mp h with h' | h'
            · exact h' ▸ hnr
            · exact inv.reach c (Or.inl h')
          · rcases (s2 c).mp h with h' | ⟨h', _⟩
            · exact inv.reach c (Or.inr (by simp [h']))
            · exact hnr.tail h'
      · rw [Finset.card_insert_of_notMem hnP]; omega

theorem Inv1.done {args : Args} {root : ℕ} {P : Finset ℕ} {sc : Scratch}
    (inv : Inv1 args root P [] sc) (c : ℕ) : c ∈ P ↔ Reach args root c := by
  constructor
  · intro h; exact inv.reach c (Or.inl h)
  · intro h
    induction h with
    | refl =>
      rcases (inv.known root).mp (Or.inl rfl) with h | h
      · exact h
      · simp at h
    | @tail b c _ hc ih =>
      have hpos := edges_pos ih hc
      have hsc := inv.count c
      rcases (inv.known c).mp (Or.inr (by omega)) with h | h
      · exact h
      · simp at h

/-- Invariant of the second pass; `R` is the set of dependencies of the root. -/
structure Inv2 (args : Args) (R : Finset ℕ) (out stk : List ℕ) (sc : Scratch) : Prop where
  count : ∀ c, sc c = -1 + edges args (R \ out.toFinset) c
  nodup : (out ++ stk).Nodup
  mem : ∀ c ∈ out ++ stk, c ∈ R
  ready : ∀ c ∈ R, c ∈ out ++ stk ↔ sc c = -1
  order : out.Pairwise (fun a b => a ∉ kids args b)

theorem emit_spec {args : Args} (hac : Acyclic args) {R : Finset ℕ}
    (hcl : ∀ n ∈ R, ∀ c ∈ kids args n, c ∈ R) (fuel : ℕ) (out stk : List ℕ)
    (sc : Scratch) (inv : Inv2 args R out stk sc) (hfuel : R.card ≤ fuel + out.length) :
    ∃ out' sc', emit args fuel stk sc out = some (out', sc') ∧ Inv2 args R out' [] sc' := by
  induction fuel generalizing out stk sc with
  | zero =>
    cases stk with
    | nil => exact ⟨out, sc, by simp [emit], inv⟩
    | cons n stk =>
      exfalso
      have hsub : (out ++ n :: stk).toFinset ⊆ R := by
        intro c hc; exact inv.mem c (List.mem_toFinset.mp hc)
      have hcard := Finset.card_le_card hsub
      rw [List.toFinset_card_of_nodup inv.nodup] at hcard
      simp at hcard
      omega
  | succ fuel ih =>
    cases stk with
    | nil => exact ⟨out, sc, by simp [emit], inv⟩
    | cons n stk =>
      have hnR : n ∈ R := inv.mem n (by simp)
      have hnd := List.nodup_append.mp inv.nodup
      have hnout : n ∉ out := fun h => hnd.2.2 n h n (by simp) rfl
      have hns : n ∉ stk := (List.nodup_cons.mp hnd.2.1).1
      have hfold : [(args n).1, (args n).2].foldl release (stk, sc)
          = (kids args n).foldl (fun b a => release b (some a)) (stk, sc) :=
        foldl_option _ (fun b => rfl) _ _
      have hnk : n ∉ kids args n := fun h => absurd (hac n n h) (lt_irrefl _)
      have hset : R \ (out ++ [n]).toFinset = (R \ out.toFinset).erase n := by
        ext c; simp [Finset.mem_sdiff, Finset.mem_erase]; tauto
      have hin : n ∈ R \ out.toFinset := by simp [hnR, hnout]
      have hedge : ∀ c, edges args (R \ out.toFinset) c
          = (kids args n).count c + edges args (R \ (out ++ [n]).toFinset) c := by
        intro c
        rw [hset, ← edges_insert (Finset.notMem_erase n _), Finset.insert_erase hin]
      have hkid : ∀ c ∈ kids args n, c ∉ out ++ n :: stk := by
        intro c hc hmem
        have h1 := (inv.ready c (hcl n hnR c hc)).mp hmem
        rw [inv.count c] at h1
        have := edges_pos hin hc
        omega
      have hsp := release_fold (kids args n) stk sc
        (fun c _ => by rw [inv.count c, hedge c]; push_cast; omega)
        (List.nodup_cons.mp hnd.2.1).2
        (fun c hc hcs => hkid c hc (by simp [hcs]))
      simp only [emit]
      rw [hfold]
      obtain ⟨s1, s2, s3⟩ := hsp
      set st := (kids args n).foldl (fun b a => release b (some a)) (stk, sc) with hst
      apply ih (out ++ [n]) st.1 st.2
      · refine ⟨?_, ?_, ?_, ?_, ?_⟩
        · intro c
          rw [s1 c, inv.count c, hedge c]; push_cast; ring
        · rw [List.nodup_append]
          refine ⟨?_, s3, ?_⟩
          · rw [List.nodup_append]
            refine ⟨hnd.1, by simp, ?_⟩
            intro a ha b hb
            simp at hb; subst hb
            exact fun e => hnout (e ▸ ha)
          · intro a ha b hb e
            subst e
            rcases (s2 a).mp hb with h | ⟨h, _⟩
            · rcases List.mem_append.mp ha with h' | h'
              · exact hnd.2.2 a h' a (by simp [h]) rfl
              · simp at h'; subst h'; exact hns h
            · apply hkid a h
              rcases List.mem_append.mp ha with h' | h'
              · simp [h']
              · simp at h'; simp [h']
        · intro c hc
          rcases List.mem_append.mp hc with h | h
          · rcases List.mem_append.mp h with h' | h'
            · exact inv.mem c (by simp [h'])
            · simp at h'; exact h' ▸ hnR
          · rcases (s2 c).mp h with h' | ⟨h', _⟩
            · exact inv.mem c (by simp [h'])
            · exact hcl n hnR c h'
        · intro c hcR
          have hr := inv.ready c hcR
          by_cases hmem : c ∈ kids args n
          · have hcn := hkid c hmem
            have : c ≠ n := fun e => hnk (e ▸ hmem)
            simp only [List.mem_append, List.mem_cons, not_or] at hcn
            simp only [List.mem_append, List.mem_singleton, s2 c]
            constructor
            · rintro ((h | h) | (h | h))
              · exact absurd h hcn.1
              · exact absurd h this
              · exact absurd h hcn.2.2
              · exact h.2
            · intro h; right; right; exact ⟨hmem, h⟩
          · have hz : (kids args n).count c = 0 := List.count_eq_zero.mpr hmem
            have hst2 : st.2 c = sc c := by rw [s1 c, hz]; simp
            rw [hst2, ← hr]
            simp only [List.mem_append, s2 c, hmem, false_and, or_false, List.mem_cons]
            tauto
        · rw [List.pairwise_append]
          refine ⟨inv.order, by simp, ?_⟩
          intro a ha b hb hk
          simp at hb; subst hb
          exact hkid a hk (by simp [ha])
      · simp; omega

theorem Inv2.done {args : Args} (hac : Acyclic args) {R : Finset ℕ} {out : List ℕ} {sc : Scratch}
    (inv : Inv2 args R out [] sc) : out.toFinset = R ∧ ∀ c, sc c = -1 := by
  have hempty : R \ out.toFinset = ∅ := by
    by_contra hne
    obtain ⟨m, hm, hmax⟩ := (R \ out.toFinset).exists_max_image id
      (Finset.nonempty_iff_ne_empty.mpr hne)
    have hz : edges args (R \ out.toFinset) m = 0 := by
      apply Finset.sum_eq_zero
      intro n hn
      apply List.count_eq_zero.mpr
      intro hk
      have h1 := hac n m hk
      have h2 := hmax n hn
      simp at h2
      omega
    have hmR : m ∈ R := (Finset.mem_sdiff.mp hm).1
    have := (inv.ready m hmR).mpr (by rw [inv.count m, hz]; simp)
    simp at this
    simp [this] at hm
  constructor
  · apply Finset.Subset.antisymm
    · intro c hc
      exact inv.mem c (by simpa using hc)
    · exact Finset.sdiff_eq_empty_iff_subset.mp hempty
  · intro c
    rw [inv.count c, hempty]; simp [edges]

/-- Full correctness of the traversal, as one statement for use by other modules. -/
theorem sortFrom_spec {args : Args} (hac : Acyclic args) (root : ℕ) (sc : Scratch)
    (hsc : ∀ c, sc c = -1) :
    ∃ out, sortFrom args root sc = some (out, sc) ∧ out.Nodup ∧
      (∀ n, n ∈ out ↔ Reach args root n) ∧
      out.Pairwise (fun a b => a ∉ kids args b) ∧ out.head? = some root := by
  have inv0 : Inv1 args root ∅ [root] sc := by
    refine ⟨?_, by simp, by simp, ?_, ?_⟩
    · intro c; simp [hsc, edges]
    · intro c; rw [hsc c]; simp
    · intro c hc
      simp at hc; subst hc; exact Relation.ReflTransGen.refl
  obtain ⟨sc1, R, h1, inv1⟩ := countEdges_spec hac (root + 1) ∅ [root] sc inv0 (by simp)
  have hR := inv1.done
  have hRle : R ⊆ Finset.range (root + 1) := by
    intro c hc
    rw [Finset.mem_range]
    have := ((hR c).mp hc).le hac
    omega
  have hcard : R.card ≤ root + 1 := by
    have := Finset.card_le_card hRle
    simpa using this
  have hrootR : root ∈ R := (hR root).mpr Relation.ReflTransGen.refl
  have hroot0 : edges args R root = 0 := by
    apply Finset.sum_eq_zero
    intro n hn
    apply List.count_eq_zero.mpr
    intro hk
    have h1 := hac n root hk
    have h2 := ((hR n).mp hn).le hac
    omega
  have inv2 : Inv2 args R [] [root] sc1 := by
    refine ⟨?_, by simp, ?_, ?_, by simp⟩
    · intro c; simpa using inv1.count c
    · intro c hc; simp at hc; exact hc ▸ hrootR
    · intro c hc
      simp only [List.nil_append, List.mem_singleton]
      constructor
      · rintro rfl; rw [inv1.count, hroot0]; simp
      · intro h
        rcases Relation.ReflTransGen.cases_tail ((hR c).mp hc) with h' | ⟨p, hp, hpc⟩
        · exact h'
        · have := edges_pos ((hR p).mpr hp) hpc
          rw [inv1.count] at h; omega
  obtain ⟨out, sc2, h2, inv3⟩ := emit_spec hac
    (fun n hn c hc => (hR c).mpr (((hR n).mp hn).tail hc)) (root + 1) [] [root] sc1 inv2
    (by simpa using hcard)
  obtain ⟨d1, d2⟩ := inv3.done hac
  have hsceq : sc2 = sc := by funext c; rw [d2 c, hsc c]
  subst hsceq
  have hmem : ∀ n, n ∈ out ↔ Reach args root n := by
    intro n; rw [← hR n, ← d1]; simp
  refine ⟨out, ?_, ?_, hmem, inv3.order, ?_⟩
  · simp only [sortFrom, h1, h2]
  · simpa using inv3.nodup
  · cases out with
    | nil => exact absurd ((hmem root).mpr Relation.ReflTransGen.refl) (by simp)
    | cons a out =>
      simp only [List.head?_cons, Option.some.injEq]
      by_contra hne
      -- a dependency other than the root has a parent, which would have to come earlier
      rcases Relation.ReflTransGen.cases_tail ((hmem a).mp (by simp)) with h' | ⟨p, hp, hpa⟩
      · exact hne h'
      · have hpm := (hmem p).mpr hp
        rcases List.mem_cons.mp hpm with h | h
        · subst h; exact absurd (hac _ _ hpa) (lt_irrefl _)
        · exact (List.pairwise_cons.mp inv3.order).1 p h hpa

end Slp.Graph
