import Verif.Memory.RefLemmas
import Mathlib.Data.Finset.Max

/-! Helper lemmas: the reference-counted heap simulates the idealised one. -/

namespace Slp.Mem

open Finset

theorem cnt_append (slots : List (Option (Option ℕ))) (p : Option ℕ) (n : ℕ) :
    cnt (slots ++ [some p]) n = cnt slots n + p.toList.count n := by
  unfold cnt
  rw [List.count_append]
  cases p with
  | none => simp
  | some k => by_cases h : k = n <;> simp [h]

theorem cnt_set {slots : List (Option (Option ℕ))} {i : ℕ} {o : Option (Option ℕ)}
    (v : Option (Option ℕ)) (h : slots[i]? = some o) (n : ℕ) :
    cnt (slots.set i v) n + (o.elim [] Option.toList).count n =
      cnt slots n + (v.elim [] Option.toList).count n := by
  unfold cnt
  obtain ⟨hi, ho⟩ := List.getElem?_eq_some_iff.1 h
  have hone : ∀ w : Option (Option ℕ), (w.elim [] Option.toList).count n =
      if w = some (some n) then 1 else 0 := by
    intro w
    match w with
    | none => simp
    | some none => simp
    | some (some k) => by_cases h : k = n <;> simp [h]
  rw [List.count_set hi, hone, hone, ho]
  simp only [beq_iff_eq]
  have : o = some (some n) → 0 < slots.count (some (some n)) := by
    intro e
    exact List.count_pos_iff.2 (e ▸ ho ▸ List.getElem_mem hi)
  split <;> split <;> simp_all

theorem get_slot {s : State} {i : ℕ} {p : Option ℕ} (h : s.get i = some p) :
    s.slots[i]? = some (some p) := by
  unfold State.get at h
  cases e : s.slots[i]? with
  | none => simp [e] at h
  | some o => rw [e] at h; simpa using h

/-- The pointers of an idealised heap are in range, and operands are older than their users. -/
structure Ideal.Ok (g : Ideal) : Prop where
  slot : ∀ n, some (some n) ∈ g.slots → n < g.cells.length
  adj : ∀ (k : ℕ) (c : Cell) (t : ℕ), g.cells[k]? = some c → c.adj = some t → t < g.cells.length
  args : ∀ (k : ℕ) (c : Cell) (t : ℕ), g.cells[k]? = some c →
    c.args.1 = some t ∨ c.args.2 = some t → t < k

structure Rel (g : Ideal) (s : State) : Prop where
  counts : Counts s.mem s.next s.slots []
  slots : g.slots = s.slots
  len : g.cells.length = s.next
  cells : ∀ n nd, s.mem n = some nd → g.cells[n]? = some ⟨nd.args, nd.adj⟩
  ok : g.Ok

theorem rel_empty : Rel Ideal.empty State.empty := by
  refine ⟨⟨?_, ?_, ?_, ?_⟩, rfl, rfl, ?_, ⟨?_, ?_, ?_⟩⟩ <;> simp [State.empty, Ideal.empty, cnt, inl]

theorem Rel.get {g : Ideal} {s : State} (R : Rel g s) (i : ℕ) : s.get i = g.get i := by
  simp [State.get, Ideal.get, R.slots]

theorem Rel.slot_alive {g : Ideal} {s : State} (R : Rel g s) {n : ℕ} (h : some (some n) ∈ s.slots) :
    ∃ nd, s.mem n = some nd := by
  apply R.counts.closed
  have : 0 < cnt s.slots n := List.count_pos_iff.2 h
  omega

theorem Rel.get_alive {g : Ideal} {s : State} (R : Rel g s) {i n : ℕ} (h : s.get i = some (some n)) :
    ∃ nd, s.mem n = some nd :=
  R.slot_alive (List.mem_of_getElem? (get_slot h))

theorem Rel.link_alive {g : Ideal} {s : State} (R : Rel g s) {k n : ℕ} {nd : Node}
    (hk : s.mem k = some nd) (h : n ∈ nd.links) : ∃ nd, s.mem n = some nd := by
  apply R.counts.closed
  have := inl_pos (R.counts.bound k nd hk) hk h
  omega

theorem Rel.deref {g : Ideal} {s : State} (R : Rel g s) {i n : ℕ} {c : Cell}
    (h : g.deref i = some (n, c)) :
    s.get i = some (some n) ∧ ∃ nd, s.mem n = some nd ∧ s.deref i = some (n, nd) ∧ nd.args = c.args ∧
      nd.adj = c.adj := by
  unfold Ideal.deref at h
  rw [← R.get] at h
  cases e : s.get i with
  | none => rw [e] at h; simp at h
  | some p =>
    cases p with
    | none => rw [e] at h; simp at h
    | some k =>
      rw [e] at h
      simp only [Option.map_eq_some_iff, Prod.mk.injEq] at h
      obtain ⟨c', hc, rfl, rfl⟩ := h
      obtain ⟨nd, hm⟩ := R.get_alive e
      have := R.cells k nd hm
      rw [hc] at this
      cases this
      exact ⟨rfl, nd, hm, by simp [State.deref, e, hm], rfl, rfl⟩

theorem Rel.read {g : Ideal} {s : State} (R : Rel g s) {src : Src} {p : Option ℕ}
    (h : g.read src = some p) : s.read src = some p ∧ ∀ n, p = some n → ∃ nd, s.mem n = some nd := by
  cases src with
  | slot i =>
    have h : g.get i = some p := h
    rw [← R.get] at h
    exact ⟨h, fun n hn => R.get_alive (hn ▸ h)⟩
  | arg i right =>
    simp only [Ideal.read, Option.map_eq_some_iff, Prod.exists] at h
    obtain ⟨n, c, hd, rfl⟩ := h
    obtain ⟨-, nd, hm, hd', ha, -⟩ := R.deref hd
    refine ⟨by simp [State.read, hd', ha], fun t ht => R.link_alive hm ?_⟩
    rw [← ha] at ht
    unfold Node.links
    cases right <;> simp_all
  | adj i =>
    simp only [Ideal.read, Option.map_eq_some_iff, Prod.exists] at h
    obtain ⟨n, c, hd, rfl⟩ := h
    obtain ⟨-, nd, hm, hd', -, ha⟩ := R.deref hd
    refine ⟨by simp [State.read, hd', ha], fun t ht => R.link_alive hm ?_⟩
    rw [← ha] at ht
    unfold Node.links
    simp_all

/-- A pointer that a program can read is in range. -/
theorem Rel.lt {g : Ideal} {s : State} (R : Rel g s) {n : ℕ} (h : ∃ nd, s.mem n = some nd) :
    n < g.cells.length := by
  obtain ⟨nd, h⟩ := h
  rw [R.len]; exact R.counts.bound n nd h

theorem cells_shrink {g : Ideal} {m m' : Memory}
    (h : ∀ n nd, m n = some nd → g.cells[n]? = some ⟨nd.args, nd.adj⟩) (S : Shrinks m m') :
    ∀ n nd, m' n = some nd → g.cells[n]? = some ⟨nd.args, nd.adj⟩ := by
  intro n nd hn
  obtain ⟨nd0, h0, e1, e2⟩ := S n nd hn
  rw [e1, e2]; exact h n nd0 h0

theorem Ideal.Ok.withSlots {g : Ideal} (O : g.Ok) {slots : List (Option (Option ℕ))}
    (h : ∀ n, some (some n) ∈ slots → n < g.cells.length) : (⟨g.cells, slots⟩ : Ideal).Ok :=
  ⟨h, O.adj, O.args⟩

theorem mem_set_slot {slots : List (Option (Option ℕ))} {i n : ℕ} {v : Option (Option ℕ)}
    (h : some (some n) ∈ slots.set i v) : some (some n) ∈ slots ∨ v = some (some n) := by
  rcases List.mem_or_eq_of_mem_set h with h | h
  · exact .inl h
  · exact .inr h.symm

theorem mem_append_slot {slots : List (Option (Option ℕ))} {n : ℕ} {p : Option ℕ}
    (h : some (some n) ∈ slots ++ [some p]) : some (some n) ∈ slots ∨ p = some n := by
  rcases List.mem_append.1 h with h | h
  · exact .inl h
  · right; simpa using (List.mem_singleton.1 h).symm

/-- Constructing a node from two counted pointers, and the pointer to it. -/
theorem alloc_ok {m : Memory} {next : ℕ} {slots : List (Option (Option ℕ))} {pl pr : Option ℕ}
    (C : Counts m next (slots ++ [some pl] ++ [some pr]) []) :
    Counts (Function.update m next (some ⟨(pl, pr), none, 1⟩)) (next + 1)
      (slots ++ [some (some next)]) [] := by
  have hfresh : m next = none := by
    cases h : m next with
    | none => rfl
    | some nd => exact absurd (C.bound _ _ h) (lt_irrefl _)
  have hlinks : ∀ t, (Node.links ⟨(pl, pr), none, 1⟩).count t =
      pl.toList.count t + pr.toList.count t := by
    intro t; simp [Node.links]
  have hin : ∀ t, inl (Function.update m next (some ⟨(pl, pr), none, 1⟩)) (next + 1) t =
      inl m next t + (pl.toList.count t + pr.toList.count t) := by
    intro t
    unfold inl
    rw [Finset.sum_range_succ, outs_update_self, Option.elim, hlinks]
    congr 1
    exact Finset.sum_congr rfl fun k hk => by rw [outs_update_ne (Finset.mem_range.1 hk).ne]
  have hc : ∀ t, cnt (slots ++ [some pl] ++ [some pr]) t =
      cnt slots t + pl.toList.count t + pr.toList.count t := by
    intro t; rw [cnt_append, cnt_append]
  have hzero : cnt slots next + inl m next next + (pl.toList.count next + pr.toList.count next) = 0 := by
    by_contra h
    obtain ⟨nd, h⟩ := C.closed next (by rw [hc]; simp only [List.count_nil]; omega)
    rw [hfresh] at h; cases h
  have hnew : ∀ t, cnt (slots ++ [some (some next)]) t = cnt slots t + if t = next then 1 else 0 := by
    intro t
    rw [cnt_append]
    by_cases h : t = next
    · subst h; simp
    · simp [h, Ne.symm h]
  constructor
  · intro n nd hn
    by_cases he : n = next
    · subst he; exact Nat.lt_succ_self _
    · rw [Function.update_of_ne he] at hn; exact Nat.lt_succ_of_lt (C.bound n nd hn)
  · intro n nd hn
    rw [hin, hnew]
    by_cases he : n = next
    · subst he
      rw [Function.update_self] at hn; cases hn
      simp only [if_true, List.count_nil]; omega
    · rw [Function.update_of_ne he] at hn
      have := C.rc n nd hn
      rw [hc] at this
      simp only [he, if_false]; omega
  · intro n nd hn
    by_cases he : n = next
    · subst he; rw [Function.update_self] at hn; cases hn; simp
    · rw [Function.update_of_ne he] at hn; exact C.pos n nd hn
  · intro n hn
    by_cases he : n = next
    · subst he; exact ⟨_, Function.update_self ..⟩
    · rw [Function.update_of_ne he]
      rw [hin, hnew] at hn
      simp only [he, if_false] at hn
      apply C.closed; rw [hc]; omega

/-- Exchanging `adjoint_expr` of a node with a pointer of the program. -/
theorem swap_ok {m : Memory} {next : ℕ} {slots slots' : List (Option (Option ℕ))} {e : ℕ} {nd : Node}
    {q : Option ℕ} (C : Counts m next slots []) (hm : m e = some nd)
    (h : ∀ n, cnt slots' n + q.toList.count n = cnt slots n + nd.adj.toList.count n) :
    Counts (Function.update m e (some { nd with adj := q })) next slots' [] := by
  have hb := C.bound e nd hm
  have hkey : ∀ t, cnt slots' t + inl (Function.update m e (some { nd with adj := q })) next t =
      cnt slots t + inl m next t := by
    intro t
    have h1 := inl_update (m := m) (t := t) (v := some { nd with adj := q }) hb
    have h2 := h t
    simp only [outs, hm, Option.elim, Node.links, List.count_append] at h1
    omega
  constructor
  · intro n nd' hn
    by_cases he : n = e
    · subst he; exact hb
    · rw [Function.update_of_ne he] at hn; exact C.bound n nd' hn
  · intro n nd' hn
    rw [hkey]
    by_cases he : n = e
    · subst he; rw [Function.update_self] at hn; cases hn; exact C.rc n nd hm
    · rw [Function.update_of_ne he] at hn; exact C.rc n nd' hn
  · intro n nd' hn
    by_cases he : n = e
    · subst he; rw [Function.update_self] at hn; cases hn; exact C.pos n nd hm
    · rw [Function.update_of_ne he] at hn; exact C.pos n nd' hn
  · intro n hn
    rw [hkey] at hn
    by_cases he : n = e
    · subst he; exact ⟨_, Function.update_self ..⟩
    · rw [Function.update_of_ne he]; exact C.closed n hn

theorem swap_cells {g : Ideal} {m : Memory} {e : ℕ} {nd : Node} {c : Cell} {q : Option ℕ}
    (h : ∀ n nd, m n = some nd → g.cells[n]? = some ⟨nd.args, nd.adj⟩) (hm : m e = some nd)
    (ha : nd.args = c.args) :
    ∀ n nd', Function.update m e (some { nd with adj := q }) n = some nd' →
      (g.cells.set e { c with adj := q })[n]? = some ⟨nd'.args, nd'.adj⟩ := by
  intro n nd' hn
  have he := h e nd hm
  by_cases hne : n = e
  · subst hne
    rw [Function.update_self] at hn; cases hn
    rw [List.getElem?_set_self (List.getElem?_eq_some_iff.1 he).1]
    simp [ha]
  · rw [Function.update_of_ne hne] at hn
    rw [List.getElem?_set_ne (Ne.symm hne)]
    exact h n nd' hn

theorem Ideal.Ok.swap {g : Ideal} (O : g.Ok) {e : ℕ} {c : Cell} {q : Option ℕ}
    {slots : List (Option (Option ℕ))} (hc : g.cells[e]? = some c)
    (hq : ∀ t, q = some t → t < g.cells.length)
    (h : ∀ n, some (some n) ∈ slots → n < g.cells.length) :
    (⟨g.cells.set e { c with adj := q }, slots⟩ : Ideal).Ok := by
  have key : ∀ (k : ℕ) (d : Cell), (g.cells.set e { c with adj := q })[k]? = some d →
      ∃ d0, g.cells[k]? = some d0 ∧ d.args = d0.args ∧ (d.adj = d0.adj ∨ d.adj = q) := by
    intro k d hd
    by_cases hk : k = e
    · subst hk
      rw [List.getElem?_set_self (List.getElem?_eq_some_iff.1 hc).1] at hd
      cases hd
      exact ⟨c, hc, rfl, .inr rfl⟩
    · rw [List.getElem?_set_ne (Ne.symm hk)] at hd
      exact ⟨d, hd, rfl, .inl rfl⟩
  refine ⟨by simpa using h, ?_, ?_⟩
  · intro k d t hd ht
    obtain ⟨d0, h0, -, h1 | h1⟩ := key k d hd
    · simpa using O.adj k d0 t h0 (h1 ▸ ht)
    · simpa using hq t (h1 ▸ ht)
  · intro k d t hd ht
    obtain ⟨d0, h0, h1, -⟩ := key k d hd
    exact O.args k d0 t h0 (h1 ▸ ht)

theorem Rel.operand {g : Ideal} {s : State} (R : Rel g s) {l : Option ℕ} {p : Option ℕ}
    (h : g.operand l = some p) : s.operand l = some p ∧ ∀ n, p = some n → ∃ nd, s.mem n = some nd := by
  cases l with
  | none => cases h; exact ⟨rfl, by simp⟩
  | some i => exact R.read (src := .slot i) h

theorem step_ok {g g' : Ideal} {s : State} {o : Op} (R : Rel g s) (h : g.step o = some g') :
    ∃ s', step s o = some s' ∧ Rel g' s' := by
  obtain ⟨C, hs, hl, hc, O⟩ := R
  have R : Rel g s := ⟨C, hs, hl, hc, O⟩
  cases o with
  | null =>
    cases h
    refine ⟨{ s with slots := s.slots ++ [some none] }, rfl, ?_, by simp [hs], hl, hc, ?_⟩
    · have : ∀ n, cnt (s.slots ++ [some none]) n = cnt s.slots n := by intro n; rw [cnt_append]; simp
      exact ⟨C.bound, fun n nd hn => by rw [this]; exact C.rc n nd hn, C.pos,
        fun n hn => C.closed n (by rwa [this] at hn)⟩
    · exact O.withSlots fun n hn => (mem_append_slot hn).elim (O.slot n) (by simp)
  | make l r =>
    simp only [Ideal.step] at h
    cases hl' : g.operand l with
    | none => simp [hl'] at h
    | some pl =>
      cases hr' : g.operand r with
      | none => simp [hl', hr'] at h
      | some pr =>
        rw [hl', hr'] at h
        cases h
        obtain ⟨el, al⟩ := R.operand hl'
        obtain ⟨er, ar⟩ := R.operand hr'
        obtain ⟨m1, e1, C1, S1, P1⟩ := inc_ok C al (cnt_append s.slots pl)
        obtain ⟨m2, e2, C2, S2, P2⟩ := inc_ok C1 (fun n hn => by
          obtain ⟨nd, h⟩ := ar n hn; exact P1 n nd h) (cnt_append _ pr)
        refine ⟨⟨Function.update m2 s.next (some ⟨(pl, pr), none, 1⟩), s.next + 1,
          s.slots ++ [some (some s.next)]⟩, ?_, alloc_ok C2, ?_, ?_, ?_, ?_⟩
        · have e3 : ∀ m : Memory, inc (some s.next)
              (Function.update m s.next (some ⟨(pl, pr), none, 0⟩)) =
              some (Function.update m s.next (some ⟨(pl, pr), none, 1⟩)) := by
            intro m; simp [inc]
          simp only [step, el, er, Option.bind_eq_bind, Option.bind_some, e1, e2, e3]
        · simp [hs, hl]
        · simp [hl]
        · intro n nd hn
          simp only at hn
          by_cases he : n = s.next
          · subst he
            rw [Function.update_self] at hn; cases hn
            rw [← hl]; simp
          · rw [Function.update_of_ne he] at hn
            have := cells_shrink hc (S1.trans S2) n nd hn
            rw [List.getElem?_append_left (List.getElem?_eq_some_iff.1 this).1]
            exact this
        · have hlt : ∀ n, (∃ nd, s.mem n = some nd) → 
              n < (g.cells ++ [(⟨(pl, pr), none⟩ : Cell)]).length := by
            intro n hn; have := R.lt hn; simp; omega
          have key : ∀ (k : ℕ) (d : Cell), (g.cells ++ [⟨(pl, pr), none⟩])[k]? = some d →
              g.cells[k]? = some d ∨ k = g.cells.length ∧ d = ⟨(pl, pr), none⟩ := by
            intro k d hd
            rw [List.getElem?_append] at hd
            split at hd
            · exact .inl hd
            · rename_i hk
              obtain ⟨h1, h2⟩ := List.getElem?_eq_some_iff.1 hd
              simp only [List.length_singleton] at h1
              right
              refine ⟨by omega, ?_⟩
              rw [← h2]; simp
          refine ⟨?_, ?_, ?_⟩
          · intro n hn
            rcases mem_append_slot hn with hn | hn
            · exact hlt n (R.slot_alive (hs ▸ hn))
            · simp only [Option.some.injEq] at hn; subst hn; simp
          · intro k d t hd ht
            rcases key k d hd with h | ⟨-, rfl⟩
            · have := O.adj k d t h ht; simp; omega
            · cases ht
          · intro k d t hd ht
            rcases key k d hd with h | ⟨rfl, rfl⟩
            · exact O.args k d t h ht
            · rcases ht with ht | ht
              · exact R.lt (al t ht)
              · exact R.lt (ar t ht)
  | copy src =>
    simp only [Ideal.step, Option.map_eq_some_iff] at h
    obtain ⟨p, hp, rfl⟩ := h
    obtain ⟨e, a⟩ := R.read hp
    obtain ⟨m1, e1, C1, S1, -⟩ := inc_ok C a (cnt_append s.slots p)
    refine ⟨{ s with mem := m1, slots := s.slots ++ [some p] }, by simp [step, e, e1], C1,
      by simp [hs], hl, cells_shrink hc S1, ?_⟩
    exact O.withSlots fun n hn => (mem_append_slot hn).elim (O.slot n) fun hn => R.lt (a n hn)
  | move i =>
    simp only [Ideal.step, Option.map_eq_some_iff] at h
    obtain ⟨p, hp, rfl⟩ := h
    obtain ⟨e, a⟩ := R.read (src := .slot i) hp
    have e : s.get i = some p := e
    refine ⟨{ s with slots := s.slots.set i (some none) ++ [some p] }, by simp [step, e], ?_,
      by simp [hs], hl, hc, ?_⟩
    · have : ∀ n, cnt (s.slots.set i (some none) ++ [some p]) n = cnt s.slots n := by
        intro n
        have := cnt_set (some none) (get_slot e) n
        rw [cnt_append]
        simp at this
        omega
      exact ⟨C.bound, fun n nd hn => by rw [this]; exact C.rc n nd hn, C.pos,
        fun n hn => C.closed n (by rwa [this] at hn)⟩
    · refine O.withSlots fun n hn => (mem_append_slot hn).elim (fun hn => ?_) fun hn => R.lt (a n hn)
      rcases mem_set_slot hn with hn | hn
      · exact O.slot n hn
      · simp at hn
  | takeAdj i =>
    simp only [Ideal.step, Option.map_eq_some_iff, Prod.exists] at h
    obtain ⟨n, c, hd, rfl⟩ := h
    obtain ⟨-, nd, hm, hd', ha, hj⟩ := R.deref hd
    obtain ⟨hr, aj⟩ := R.read (src := .adj i) (p := c.adj) (by simp [Ideal.read, hd])
    refine ⟨⟨Function.update s.mem n (some { nd with adj := none }), s.next,
      s.slots ++ [some nd.adj]⟩, by simp [step, hd'], swap_ok C hm ?_, by simp [hs, hj],
      by simp [hl], swap_cells hc hm ha, ?_⟩
    · intro t; rw [cnt_append]; simp
    · refine O.swap (by rw [hc n nd hm]; simp [ha, hj]) (by simp) fun t ht => ?_
      exact (mem_append_slot ht).elim (O.slot t) fun ht => R.lt (aj t ht)
  | assign i src =>
    simp only [Ideal.step] at h
    split at h
    · rename_i hap
      cases hp : g.get i with
      | none => simp [hp] at h
      | some p =>
        cases hq : g.read src with
        | none => simp [hp, hq] at h
        | some q =>
          rw [hp, hq] at h
          cases h
          obtain ⟨ep, -⟩ := R.read (src := .slot i) hp
          have ep : s.get i = some p := ep
          obtain ⟨eq, aq⟩ := R.read hq
          by_cases hpq : p = q
          · subst hpq
            refine ⟨s, by simp [step, ep, eq], C, ?_, hl, hc, ?_⟩
            · simp only
              rw [← hs]
              have hgi := get_slot ep
              rw [← hs] at hgi
              obtain ⟨h1, h2⟩ := List.getElem?_eq_some_iff.1 hgi
              rw [← h2, List.set_getElem_self]
            · refine O.withSlots fun n hn => ?_
              rcases mem_set_slot hn with hn | hn
              · exact O.slot n hn
              · exact R.lt (aq n (by simpa using hn))
          · have hset := cnt_set (some none) (get_slot ep)
            obtain ⟨m1, e1, C1, S1⟩ := dec_ok (slots' := s.slots.set i (some none)) (p := p) C (by
              intro n; have := hset n; simp at this; omega)
            -- the state in which the assigned slot is empty
            have hgi := get_slot ep
            have hilt := (List.getElem?_eq_some_iff.1 hgi).1
            have alive1 : ∀ n, some (some n) ∈ s.slots.set i (some none) → ∃ nd, m1 n = some nd := by
              intro n hn
              apply C1.closed
              have : 0 < cnt (s.slots.set i (some none)) n := List.count_pos_iff.2 hn
              omega
            have derefs : ∀ j r, j ≠ i → s.deref j = some r → ∃ nd', m1 r.1 = some nd' ∧
                nd'.args = r.2.args ∧ nd'.adj = r.2.adj ∧
                ({ s with mem := m1 } : State).deref j = some (r.1, nd') := by
              intro j r hj hr
              unfold State.deref at hr
              cases ej : s.get j with
              | none => rw [ej] at hr; simp at hr
              | some pj =>
                cases pj with
                | none => rw [ej] at hr; simp at hr
                | some k =>
                  rw [ej] at hr
                  simp only [Option.map_eq_some_iff] at hr
                  obtain ⟨nd0, h0, rfl⟩ := hr
                  have hmem : some (some k) ∈ s.slots.set i (some none) := by
                    have := get_slot ej
                    apply List.mem_of_getElem? (i := j)
                    rw [List.getElem?_set_ne (Ne.symm hj)]; exact this
                  obtain ⟨nd', hn'⟩ := alive1 k hmem
                  obtain ⟨nd0', h0', a1, a2⟩ := S1 k nd' hn'
                  rw [h0] at h0'; cases h0'
                  refine ⟨nd', hn', a1, a2, ?_⟩
                  have ej' : ({ s with mem := m1 } : State).get j = some (some k) := ej
                  simp [State.deref, ej', hn']
            have link1 : ∀ k nd n, m1 k = some nd → n ∈ nd.links → ∃ nd, m1 n = some nd := by
              intro k nd n hk hn
              apply C1.closed
              have := inl_pos (C1.bound k nd hk) hk hn
              omega
            have hread : ({ s with mem := m1 } : State).read src = some q ∧
                ∀ n, q = some n → ∃ nd, m1 n = some nd := by
              cases src with
              | slot j =>
                have eq : s.get j = some q := eq
                refine ⟨eq, fun n hn => alive1 n ?_⟩
                have hj : j ≠ i := by
                  rintro rfl; rw [ep] at eq; exact hpq (by simpa using eq)
                apply List.mem_of_getElem? (i := j)
                rw [List.getElem?_set_ne (Ne.symm hj), get_slot eq, hn]
              | arg j right =>
                simp only [State.read, Option.map_eq_some_iff] at eq
                obtain ⟨r, hr, rfl⟩ := eq
                obtain ⟨nd', h1, h2, h3, h4⟩ := derefs j r hap hr
                refine ⟨by simp [State.read, h4, h2], fun n hn => link1 r.1 nd' n h1 ?_⟩
                rw [← h2] at hn
                unfold Node.links
                cases right <;> simp_all
              | adj j =>
                simp only [State.read, Option.map_eq_some_iff] at eq
                obtain ⟨r, hr, rfl⟩ := eq
                obtain ⟨nd', h1, h2, h3, h4⟩ := derefs j r hap hr
                refine ⟨by simp [State.read, h4, h3], fun n hn => link1 r.1 nd' n h1 ?_⟩
                rw [← h3] at hn
                unfold Node.links
                simp_all
            have hset2 := cnt_set (slots := s.slots) (some q) (get_slot ep)
            obtain ⟨m2, e2, C2, S2, -⟩ := inc_ok (slots' := s.slots.set i (some q)) C1 hread.2 (by
              intro n; have h1 := hset n; have h2 := hset2 n; simp at h1 h2; omega)
            refine ⟨{ s with mem := m2, slots := s.slots.set i (some q) }, ?_, C2, by simp [hs], hl,
              cells_shrink hc (S1.trans S2), ?_⟩
            · simp [step, ep, eq, hpq, e1, hread.1, e2]
            · refine O.withSlots fun n hn => ?_
              rcases mem_set_slot hn with hn | hn
              · exact O.slot n hn
              · exact R.lt (aq n (by simpa using hn))
    · cases h
  | moveAssign i j =>
    simp only [Ideal.step] at h
    cases hp : g.get i with
    | none => simp [hp] at h
    | some p =>
      cases hq : g.get j with
      | none => simp [hp, hq] at h
      | some q =>
        rw [hp, hq] at h
        cases h
        obtain ⟨ep, ap⟩ := R.read (src := .slot i) hp
        have ep : s.get i = some p := ep
        obtain ⟨eq, aq⟩ := R.read (src := .slot j) hq
        have eq : s.get j = some q := eq
        have hlt : ∀ n, some (some n) ∈ (g.slots.set i (some q)).set j (some p) →
            n < g.cells.length := by
          intro n hn
          rcases mem_set_slot hn with hn | hn
          · rcases mem_set_slot hn with hn | hn
            · exact O.slot n hn
            · exact R.lt (aq n (by simpa using hn))
          · exact R.lt (ap n (by simpa using hn))
        by_cases hpq : p = q
        · subst hpq
          refine ⟨s, by simp [step, ep, eq], C, ?_, hl, hc, O.withSlots hlt⟩
          have hgi := get_slot ep
          have hgj := get_slot eq
          rw [← hs] at hgi hgj
          obtain ⟨h1, h2⟩ := List.getElem?_eq_some_iff.1 hgi
          obtain ⟨h3, h4⟩ := List.getElem?_eq_some_iff.1 hgj
          have e1 : g.slots.set i (some p) = g.slots := by
            rw [← h2, List.set_getElem_self]
          simp only
          rw [e1, ← h4, List.set_getElem_self, hs]
        · have hij : i ≠ j := by
            rintro rfl; rw [ep] at eq; exact hpq (by simpa using eq)
          refine ⟨{ s with slots := (s.slots.set i (some q)).set j (some p) },
            by simp [step, ep, eq, hpq], ?_, by simp [hs], hl, hc, O.withSlots hlt⟩
          have : ∀ n, cnt ((s.slots.set i (some q)).set j (some p)) n = cnt s.slots n := by
            intro n
            have h1 := cnt_set (some q) (get_slot ep) n
            have h2 := cnt_set (slots := s.slots.set i (some q)) (i := j) (some p)
              (by rw [List.getElem?_set_ne hij]; exact get_slot eq) n
            simp at h1 h2
            omega
          exact ⟨C.bound, fun n nd hn => by rw [this]; exact C.rc n nd hn, C.pos,
            fun n hn => C.closed n (by rwa [this] at hn)⟩
  | moveToAdj i j =>
    simp only [Ideal.step] at h
    cases hd : g.deref i with
    | none => simp [hd] at h
    | some r =>
      cases hq : g.get j with
      | none => simp [hd, hq] at h
      | some q =>
        rw [hd, hq] at h
        cases h
        obtain ⟨n, c⟩ := r
        obtain ⟨-, nd, hm, hd', ha, hj⟩ := R.deref hd
        obtain ⟨-, aj⟩ := R.read (src := .adj i) (p := c.adj) (by simp [Ideal.read, hd])
        obtain ⟨eq, aq⟩ := R.read (src := .slot j) hq
        have eq : s.get j = some q := eq
        have hcn : g.cells[n]? = some c := by rw [hc n nd hm]; simp [ha, hj]
        have hO : (⟨g.cells.set n { c with adj := q }, g.slots.set j (some c.adj)⟩ : Ideal).Ok := by
          refine O.swap hcn (fun t ht => R.lt (aq t ht)) fun t ht => ?_
          rcases mem_set_slot ht with ht | ht
          · exact O.slot t ht
          · exact R.lt (aj t (by simpa using ht))
        by_cases hpq : nd.adj = q
        · refine ⟨s, by simp [step, hd', eq, hpq], C, ?_, by simp [hl], ?_, hO⟩
          · have hgj := get_slot eq
            rw [← hs] at hgj
            obtain ⟨h3, h4⟩ := List.getElem?_eq_some_iff.1 hgj
            simp only
            rw [← hj, hpq, ← h4, List.set_getElem_self, hs]
          · have e : (⟨c.args, q⟩ : Cell) = c := by rw [← hpq, hj]
            obtain ⟨h3, h4⟩ := List.getElem?_eq_some_iff.1 hcn
            simp only
            rw [e, ← h4, List.set_getElem_self]
            exact hc
        · refine ⟨⟨Function.update s.mem n (some { nd with adj := q }), s.next,
            s.slots.set j (some nd.adj)⟩, by simp [step, hd', eq, hpq], swap_ok C hm ?_,
            by simp [hs, hj], by simp [hl], swap_cells hc hm ha, hO⟩
          intro t
          have := cnt_set (some nd.adj) (get_slot eq) t
          simpa using this
  | destroy i =>
    simp only [Ideal.step, Option.map_eq_some_iff] at h
    obtain ⟨p, hp, rfl⟩ := h
    obtain ⟨ep, -⟩ := R.read (src := .slot i) hp
    have ep : s.get i = some p := ep
    have hset := cnt_set none (get_slot ep)
    obtain ⟨m1, e1, C1, S1⟩ := dec_ok (slots' := s.slots.set i none) (p := p) C (by
      intro n; have := hset n; simp at this; omega)
    refine ⟨{ s with mem := m1, slots := s.slots.set i none }, by simp [step, ep, e1], C1,
      by simp [hs], hl, cells_shrink hc S1, ?_⟩
    refine O.withSlots fun n hn => ?_
    rcases mem_set_slot hn with hn | hn
    · exact O.slot n hn
    · simp at hn

theorem run_ok {os : List Op} : ∀ {g g' : Ideal} {s : State}, Rel g s → g.run os = some g' →
    ∃ s', run os s = some s' ∧ Rel g' s' := by
  induction os with
  | nil => intro g g' s R h; cases h; exact ⟨s, rfl, R⟩
  | cons o os ih =>
    intro g g' s R h
    simp only [Ideal.run, Option.bind_eq_some_iff] at h
    obtain ⟨g1, h1, h2⟩ := h
    obtain ⟨s1, e1, R1⟩ := step_ok R h1
    obtain ⟨s2, e2, R2⟩ := ih R1 h2
    exact ⟨s2, by simp [run, e1, e2], R2⟩

theorem Rel.reach_alive {g : Ideal} {s : State} (R : Rel g s) {n : ℕ} (h : g.Reach n) :
    ∃ nd, s.mem n = some nd := by
  induction h with
  | handle h => exact R.slot_alive (R.slots ▸ h)
  | link h l ih =>
    obtain ⟨nd, hm⟩ := ih
    obtain ⟨c, hc, l⟩ := l
    have := R.cells _ nd hm
    rw [hc] at this
    cases this
    apply R.link_alive hm
    unfold Node.links
    rcases l with l | l | l <;> simp_all

theorem Rel.alive_reach {g : Ideal} {s : State} (R : Rel g s) (A : g.Acyclic) {n : ℕ} {nd : Node}
    (h : s.mem n = some nd) : g.Reach n := by
  obtain ⟨rank, hr⟩ := A
  by_contra hn
  -- an allocated unreachable node of largest rank
  classical
  have hfin : ((Finset.range s.next).filter fun k => (∃ nd, s.mem k = some nd) ∧ ¬ g.Reach k).Nonempty := by
    exact ⟨n, Finset.mem_filter.2 ⟨Finset.mem_range.2 (R.counts.bound n nd h), ⟨nd, h⟩, hn⟩⟩
  obtain ⟨k, hk, hmax⟩ := Finset.exists_max_image _ rank hfin
  obtain ⟨-, ⟨ndk, hmk⟩, hnk⟩ := Finset.mem_filter.1 hk
  have hp := R.counts.pos k ndk hmk
  have hc := R.counts.rc k ndk hmk
  by_cases h0 : 0 < cnt s.slots k
  · exact hnk (.handle (R.slots ▸ List.count_pos_iff.1 h0))
  · have : 0 < inl s.mem s.next k := by simp only [List.count_nil] at hc; omega
    obtain ⟨p, ndp, hlt, hmp, hin⟩ := exists_of_inl this
    have hl : g.Links p k := by
      refine ⟨_, R.cells p ndp hmp, ?_⟩
      simp only [Node.links, List.mem_append, Option.mem_toList] at hin
      rcases hin with (hin | hin) | hin <;> simp_all
    have hnp : ¬ g.Reach p := fun hp => hnk (.link hp hl)
    have := hmax p (Finset.mem_filter.2 ⟨Finset.mem_range.2 hlt, ⟨ndp, hmp⟩, hnp⟩)
    exact absurd (hr p k hl) (Nat.not_lt.2 this)

theorem Ideal.Ok.acyclic {g : Ideal} (O : g.Ok) (U : g.Unlinked) : g.Acyclic := by
  refine ⟨id, ?_⟩
  rintro n t ⟨c, hc, h⟩
  rcases h with h | h
  · rw [U n c hc] at h; cases h
  · exact O.args n c t hc h

end Slp.Mem
