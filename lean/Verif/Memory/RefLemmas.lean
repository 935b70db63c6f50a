import Verif.Memory.RefSpec
import Mathlib.Algebra.BigOperators.Group.Finset.Basic
import Mathlib.Algebra.BigOperators.Group.Finset.Piecewise
import Mathlib.Algebra.Order.BigOperators.Group.Finset
import Mathlib.Data.Finset.Range

/-! Helper lemmas: the counting invariant of reference counts. -/

namespace Slp.Mem

open Finset

/-- Links out of a node, none if it is not allocated. -/
def outs (m : Memory) (k : ℕ) : List ℕ := (m k).elim [] Node.links

/-- Number of pointer fields of allocated nodes that hold `t`. -/
def inl (m : Memory) (next t : ℕ) : ℕ := ∑ k ∈ range next, (outs m k).count t

/-- Number of allocated nodes. -/
def live (m : Memory) (next : ℕ) : ℕ := ∑ k ∈ range next, if (m k).isSome then 1 else 0

theorem outs_update_ne {m : Memory} {e k : ℕ} {v : Option Node} (h : k ≠ e) :
    outs (Function.update m e v) k = outs m k := by
  simp [outs, Function.update_of_ne h]

theorem outs_update_self {m : Memory} {e : ℕ} {v : Option Node} :
    outs (Function.update m e v) e = v.elim [] Node.links := by
  simp [outs]

theorem inl_update {m : Memory} {next e t : ℕ} {v : Option Node} (he : e < next) :
    inl (Function.update m e v) next t + (outs m e).count t =
      inl m next t + (v.elim [] Node.links).count t := by
  unfold inl
  rw [← Finset.add_sum_erase _ _ (mem_range.2 he), ← Finset.add_sum_erase (range next) (fun k => (outs m k).count t) (mem_range.2 he)]
  rw [outs_update_self, Finset.sum_congr rfl (g := fun k => (outs m k).count t)]
  · omega
  · intro k hk
    rw [outs_update_ne (Finset.ne_of_mem_erase hk)]

theorem inl_same {m : Memory} {next e t : ℕ} {nd nd' : Node} (hm : m e = some nd)
    (hl : nd'.links = nd.links) (he : e < next) :
    inl (Function.update m e (some nd')) next t = inl m next t := by
  have := inl_update (m := m) (t := t) (v := some nd') he
  simp only [outs, hm, Option.elim, hl] at this
  omega

theorem live_update {m : Memory} {next e : ℕ} {v : Option Node} (he : e < next) :
    live (Function.update m e v) next + (if (m e).isSome then 1 else 0) =
      live m next + (if v.isSome then 1 else 0) := by
  unfold live
  rw [← Finset.add_sum_erase _ _ (mem_range.2 he), ← Finset.add_sum_erase (range next) (fun k => if (m k).isSome then 1 else 0) (mem_range.2 he)]
  rw [Function.update_self, Finset.sum_congr rfl (g := fun k => if (m k).isSome then 1 else 0)]
  · omega
  · intro k hk
    rw [Function.update_of_ne (Finset.ne_of_mem_erase hk)]

theorem live_le (m : Memory) (next : ℕ) : live m next ≤ next := by
  unfold live
  calc _ ≤ ∑ k ∈ range next, 1 := Finset.sum_le_sum fun k _ => by split <;> simp
    _ = next := by simp

theorem inl_pos {m : Memory} {next k t : ℕ} {nd : Node} (hk : k < next) (hm : m k = some nd)
    (ht : t ∈ nd.links) : 0 < inl m next t := by
  unfold inl
  refine Finset.sum_pos' (fun _ _ => Nat.zero_le _) ⟨k, mem_range.2 hk, ?_⟩
  simpa [outs, hm, List.count_pos_iff] using ht

theorem exists_of_inl {m : Memory} {next t : ℕ} (h : 0 < inl m next t) :
    ∃ k nd, k < next ∧ m k = some nd ∧ t ∈ nd.links := by
  unfold inl at h
  obtain ⟨k, hk, h⟩ := Finset.exists_ne_zero_of_sum_ne_zero (Nat.pos_iff_ne_zero.1 h)
  cases hm : m k with
  | none => simp [outs, hm] at h
  | some nd =>
    refine ⟨k, nd, mem_range.1 hk, hm, ?_⟩
    simp only [outs, hm, Option.elim] at h
    exact List.count_pos_iff.1 (Nat.pos_of_ne_zero h)

/-- Number of slots that hold `n`. -/
def cnt (slots : List (Option (Option ℕ))) (n : ℕ) : ℕ := slots.count (some (some n))

/-- The counting invariant, with the nodes on the stack of `dec_ref_count` counted as references. -/
structure Counts (m : Memory) (next : ℕ) (slots : List (Option (Option ℕ))) (stack : List ℕ) : Prop where
  bound : ∀ n nd, m n = some nd → n < next
  rc : ∀ n nd, m n = some nd → nd.rc = cnt slots n + inl m next n + stack.count n
  pos : ∀ n nd, m n = some nd → nd.rc ≠ 0
  closed : ∀ n, 0 < cnt slots n + inl m next n + stack.count n → ∃ nd, m n = some nd

/-- The pointer fields of `m'` are those of `m` on the nodes that remain. -/
def Shrinks (m m' : Memory) : Prop :=
  ∀ n nd', m' n = some nd' → ∃ nd, m n = some nd ∧ nd'.args = nd.args ∧ nd'.adj = nd.adj

theorem Shrinks.refl (m : Memory) : Shrinks m m := fun _ nd h => ⟨nd, h, rfl, rfl⟩

theorem Shrinks.trans {a b c : Memory} (h : Shrinks a b) (g : Shrinks b c) : Shrinks a c := by
  intro n nd hn
  obtain ⟨nd1, h1, e1, e2⟩ := g n nd hn
  obtain ⟨nd2, h2, e3, e4⟩ := h n nd1 h1
  exact ⟨nd2, h2, e1.trans e3, e2.trans e4⟩

theorem shrinks_update_rc {m : Memory} {e : ℕ} {nd : Node} {k : ℕ} (hm : m e = some nd) :
    Shrinks m (Function.update m e (some { nd with rc := k })) := by
  intro n nd' h
  by_cases hn : n = e
  · subst hn; rw [Function.update_self] at h; cases h; exact ⟨nd, hm, rfl, rfl⟩
  · rw [Function.update_of_ne hn] at h; exact ⟨nd', h, rfl, rfl⟩

theorem shrinks_update_none {m : Memory} {e : ℕ} : Shrinks m (Function.update m e none) := by
  intro n nd' h
  by_cases hn : n = e
  · subst hn; rw [Function.update_self] at h; cases h
  · rw [Function.update_of_ne hn] at h; exact ⟨nd', h, rfl, rfl⟩

theorem links_len (nd : Node) : nd.links.length ≤ 3 := by
  unfold Node.links
  rcases nd with ⟨⟨a, b⟩, c, r⟩
  cases a <;> cases b <;> cases c <;> simp

theorem decLoop_ok (fuel : ℕ) : ∀ (stack : List ℕ) (m : Memory) {next : ℕ}
    {slots : List (Option (Option ℕ))}, Counts m next slots stack →
    4 * live m next + stack.length ≤ fuel →
    ∃ m', decLoop fuel stack m = some m' ∧ Counts m' next slots [] ∧ Shrinks m m' := by
  induction fuel with
  | zero =>
    intro stack m next slots C hf
    cases stack with
    | nil => exact ⟨m, rfl, C, Shrinks.refl m⟩
    | cons e st => simp at hf
  | succ fuel ih =>
    intro stack m next slots C hf
    cases stack with
    | nil => exact ⟨m, rfl, C, Shrinks.refl m⟩
    | cons e st =>
      obtain ⟨nd, hm⟩ := C.closed e (by simp)
      have hb := C.bound e nd hm
      have hrc := C.rc e nd hm
      have hp := C.pos e nd hm
      simp only [decLoop, hm, hp, if_false]
      by_cases h1 : nd.rc = 1
      · simp only [h1, if_true]
        have hout : ∀ t, (outs m e).count t = nd.links.count t := by simp [outs, hm]
        have hl := live_update (m := m) (v := none) hb
        simp [hm] at hl
        have h0 : cnt slots e + inl m next e + st.count e = 0 := by
          have : (e :: st).count e = st.count e + 1 := by simp
          omega
        have hself : nd.links.count e = 0 := by
          by_contra hc
          have := inl_pos hb hm (List.count_pos_iff.1 (Nat.pos_of_ne_zero hc))
          omega
        have hupd : ∀ t, inl (Function.update m e none) next t + nd.links.count t = inl m next t := by
          intro t
          have := inl_update (m := m) (t := t) (v := none) hb
          simpa [hout] using this
        have key : ∀ t, t ≠ e → cnt slots t + inl (Function.update m e none) next t +
            (nd.links.reverse ++ st).count t = cnt slots t + inl m next t + (e :: st).count t := by
          intro t ht
          have := hupd t
          rw [List.count_append, List.count_reverse, List.count_cons_of_ne (Ne.symm ht)]
          omega
        suffices hs : Counts (Function.update m e none) next slots (nd.links.reverse ++ st) ∧
            4 * live (Function.update m e none) next + (nd.links.reverse ++ st).length ≤ fuel by
          obtain ⟨m', h, C', S⟩ := ih _ _ hs.1 hs.2
          exact ⟨m', h, C', shrinks_update_none.trans S⟩
        constructor
        · constructor
          · intro n nd' hn
            by_cases he : n = e
            · subst he; simp at hn
            · rw [Function.update_of_ne he] at hn; exact C.bound n nd' hn
          · intro n nd' hn
            by_cases he : n = e
            · subst he; simp at hn
            · rw [Function.update_of_ne he] at hn; rw [key n he]; exact C.rc n nd' hn
          · intro n nd' hn
            by_cases he : n = e
            · subst he; simp at hn
            · rw [Function.update_of_ne he] at hn; exact C.pos n nd' hn
          · intro n hn
            by_cases he : n = e
            · subst he
              have := hupd n
              rw [List.count_append, List.count_reverse] at hn
              omega
            · rw [key n he] at hn
              rw [Function.update_of_ne he]; exact C.closed n hn
        · have := links_len nd
          simp only [List.length_append, List.length_reverse, List.length_cons] at hf ⊢
          omega
      · simp only [h1, if_false]
        have hl := live_update (m := m) (v := some { nd with rc := nd.rc - 1 }) hb
        simp [hm] at hl
        have hin : ∀ t, inl (Function.update m e (some { nd with rc := nd.rc - 1 })) next t =
            inl m next t := fun t => inl_same hm rfl hb
        suffices hs : Counts (Function.update m e (some { nd with rc := nd.rc - 1 })) next slots st ∧
            4 * live (Function.update m e (some { nd with rc := nd.rc - 1 })) next + st.length ≤
              fuel by
          obtain ⟨m', h, C', S⟩ := ih _ _ hs.1 hs.2
          exact ⟨m', h, C', (shrinks_update_rc hm).trans S⟩
        constructor
        · constructor
          · intro n nd' hn
            by_cases he : n = e
            · subst he; exact hb
            · rw [Function.update_of_ne he] at hn; exact C.bound n nd' hn
          · intro n nd' hn
            by_cases he : n = e
            · subst he
              rw [Function.update_self] at hn; cases hn
              rw [hin]
              have : (n :: st).count n = st.count n + 1 := by simp
              simp only
              omega
            · rw [Function.update_of_ne he] at hn
              rw [hin, C.rc n nd' hn, List.count_cons_of_ne (Ne.symm he)]
          · intro n nd' hn
            by_cases he : n = e
            · subst he
              rw [Function.update_self] at hn; cases hn
              simp only; omega
            · rw [Function.update_of_ne he] at hn; exact C.pos n nd' hn
          · intro n hn
            by_cases he : n = e
            · subst he; exact ⟨_, Function.update_self ..⟩
            · rw [Function.update_of_ne he]
              rw [hin] at hn
              exact C.closed n (by rw [List.count_cons_of_ne (Ne.symm he)]; exact hn)
        · simp only [List.length_cons] at hf
          omega

/-- Releasing the pointer of a slot that is then overwritten. -/
theorem dec_ok {m : Memory} {next : ℕ} {slots slots' : List (Option (Option ℕ))} {p : Option ℕ}
    (C : Counts m next slots []) (h : ∀ n, cnt slots n = cnt slots' n + p.toList.count n) :
    ∃ m', dec p next m = some m' ∧ Counts m' next slots' [] ∧ Shrinks m m' := by
  have C' : Counts m next slots' p.toList := by
    constructor
    · exact C.bound
    · intro n nd hn; have := C.rc n nd hn; rw [h n] at this; simp only [List.count_nil] at this; omega
    · exact C.pos
    · intro n hn; apply C.closed n; rw [h n]; simp only [List.count_nil]; omega
  cases p with
  | none => exact ⟨m, rfl, C', Shrinks.refl m⟩
  | some n =>
    refine decLoop_ok _ [n] m C' ?_
    have := live_le m next
    simp only [List.length_cons, List.length_nil]
    omega

/-- Copying a pointer whose target is alive. -/
theorem inc_ok {m : Memory} {next : ℕ} {slots slots' : List (Option (Option ℕ))} {p : Option ℕ}
    (C : Counts m next slots []) (hp : ∀ n, p = some n → ∃ nd, m n = some nd)
    (h : ∀ n, cnt slots' n = cnt slots n + p.toList.count n) :
    ∃ m', inc p m = some m' ∧ Counts m' next slots' [] ∧ Shrinks m m' ∧
      (∀ n nd, m n = some nd → ∃ nd', m' n = some nd') := by
  cases p with
  | none =>
    refine ⟨m, rfl, ?_, Shrinks.refl m, fun n nd h => ⟨nd, h⟩⟩
    have h' : ∀ n, cnt slots' n = cnt slots n := fun n => by rw [h n]; simp
    exact ⟨C.bound, fun n nd hn => by rw [h']; exact C.rc n nd hn, C.pos,
      fun n hn => C.closed n (by rwa [h'] at hn)⟩
  | some e =>
    obtain ⟨nd, hm⟩ := hp e rfl
    have hb := C.bound e nd hm
    have hin : ∀ t, inl (Function.update m e (some { nd with rc := nd.rc + 1 })) next t =
        inl m next t := fun t => inl_same hm rfl hb
    have hne : ∀ n, n ≠ e → cnt slots' n = cnt slots n := by
      intro n hn; rw [h n]; simp [Ne.symm hn]
    have hself : cnt slots' e = cnt slots e + 1 := by rw [h e]; simp
    refine ⟨Function.update m e (some { nd with rc := nd.rc + 1 }), by simp [inc, hm], ?_,
      shrinks_update_rc hm, ?_⟩
    · constructor
      · intro n nd' hn
        by_cases he : n = e
        · subst he; exact hb
        · rw [Function.update_of_ne he] at hn; exact C.bound n nd' hn
      · intro n nd' hn
        by_cases he : n = e
        · subst he
          rw [Function.update_self] at hn; cases hn
          rw [hin, hself]
          have := C.rc n nd hm
          simp only
          omega
        · rw [Function.update_of_ne he] at hn
          rw [hin, hne n he, C.rc n nd' hn]
      · intro n nd' hn
        by_cases he : n = e
        · subst he; rw [Function.update_self] at hn; cases hn; simp
        · rw [Function.update_of_ne he] at hn; exact C.pos n nd' hn
      · intro n hn
        by_cases he : n = e
        · subst he; exact ⟨_, Function.update_self ..⟩
        · rw [Function.update_of_ne he]
          rw [hin, hne n he] at hn
          exact C.closed n hn
    · intro n nd' hn
      by_cases he : n = e
      · subst he; exact ⟨_, Function.update_self ..⟩
      · rw [Function.update_of_ne he]; exact ⟨nd', hn⟩

end Slp.Mem
