import Verif.Memory.PoolModel
import Mathlib.Data.List.Perm.Basic
import Mathlib.Data.List.Nodup
import Mathlib.Data.List.Range
import Mathlib.Tactic.Ring
import Mathlib.Tactic.Linarith

/-! C11: the pool never hands out the same block twice. -/

namespace Slp.Pool

/-- The bytes of two blocks of `n` bytes do not overlap. -/
def Disjoint (n : ℕ) (a b : Addr) : Prop := a.1 ≠ b.1 ∨ a.2 + n ≤ b.2 ∨ b.2 + n ≤ a.2

/-- The block lies in memory the pool has allocated. -/
def Owned (p : Resource) (n : ℕ) (a : Addr) : Prop := ∃ size, p.chunks[a.1]? = some size ∧ a.2 + n ≤ size

/-- Every request asks for `n` bytes (the pool of the library only serves requests for
`sizeof(Expression)`-sized nodes, see `different_sizes_overlap`). -/
def Uniform (n : ℕ) (cs : List Call) : Prop := ∀ c ∈ cs, ∀ b, c = .allocate b → b = n

/-- Invariant: free and held blocks together are exactly the blocks of all chunks. -/
structure Inv (n : ℕ) (st : Resource × List Addr) : Prop where
  perm : (st.2 ++ st.1.free).Perm ((List.range st.1.chunks.length).flatMap fun c =>
    (List.range st.1.blocksPerChunk).map fun i => (c, n * i))
  size : ∀ s ∈ st.1.chunks, s = n * st.1.blocksPerChunk

theorem inv_new (n k : ℕ) : Inv n (Resource.new k, []) :=
  ⟨by simp [Resource.new], by simp [Resource.new]⟩

theorem inv_addChunk {n : ℕ} {p : Resource} {held : List Addr} (I : Inv n (p, held)) :
    Inv n (p.addChunk n, held) := by
  constructor
  · have h := I.perm
    simp only [Resource.addChunk, List.length_append, List.length_singleton] at h ⊢
    rw [List.range_succ, List.flatMap_append]
    simp only [List.flatMap_cons, List.flatMap_nil, List.append_nil]
    refine List.Perm.trans ?_ (List.Perm.append_right _ h)
    simp only [List.append_assoc]
    exact List.Perm.append_left _ List.perm_append_comm
  · intro s hs
    simp only [Resource.addChunk, List.mem_append, List.mem_singleton] at hs ⊢
    rcases hs with hs | hs
    · exact I.size s hs
    · exact hs

theorem step_inv {n : ℕ} {st st' : Resource × List Addr} {c : Call} (I : Inv n st)
    (hu : ∀ b, c = .allocate b → b = n) (h : step st c = some st') :
    Inv n st' ∧ st'.1.blocksPerChunk = st.1.blocksPerChunk := by
  obtain ⟨p, held⟩ := st
  cases c with
  | allocate b =>
    obtain rfl := hu b rfl
    simp only [step, Option.map_eq_some_iff, Resource.allocate] at h
    obtain ⟨⟨a, p'⟩, h, rfl⟩ := h
    have I' : Inv b (if p.free.isEmpty then p.addChunk b else p, held) := by
      split
      · exact inv_addChunk I
      · exact I
    have hbk : (if p.free.isEmpty then p.addChunk b else p).blocksPerChunk = p.blocksPerChunk := by
      split <;> rfl
    generalize (if p.free.isEmpty then p.addChunk b else p) = q at h I' hbk
    cases hf : q.free with
    | nil => simp [hf] at h
    | cons x rest =>
      simp only [hf, Option.some.injEq, Prod.mk.injEq] at h
      obtain ⟨rfl, rfl⟩ := h
      refine ⟨⟨?_, I'.size⟩, hbk⟩
      have hp := I'.perm
      rw [hf] at hp
      refine List.Perm.trans ?_ hp
      exact List.perm_middle.symm
  | deallocate a =>
    simp only [step] at h
    split at h
    · rename_i ha
      cases h
      refine ⟨⟨?_, I.size⟩, rfl⟩
      refine List.Perm.trans ?_ I.perm
      simp only [Resource.deallocate]
      refine List.perm_middle.trans ?_
      exact (List.perm_cons_erase ha).symm.append_right _
    · cases h

theorem run_inv {n : ℕ} {cs : List Call} : ∀ {st st' : Resource × List Addr}, Inv n st → Uniform n cs →
    run cs st = some st' → Inv n st' ∧ st'.1.blocksPerChunk = st.1.blocksPerChunk := by
  induction cs with
  | nil => intro st st' I _ h; cases h; exact ⟨I, rfl⟩
  | cons c cs ih =>
    intro st st' I hu h
    simp only [run, Option.bind_eq_some_iff] at h
    obtain ⟨st1, h1, h2⟩ := h
    obtain ⟨I1, e1⟩ := step_inv I (hu c (by simp)) h1
    obtain ⟨I2, e2⟩ := ih I1 (fun c hc => hu c (by simp [hc])) h2
    exact ⟨I2, e2.trans e1⟩

theorem blocks_nodup {n k m : ℕ} (hn : 0 < n) :
    ((List.range m).flatMap fun c => (List.range k).map fun i => ((c, n * i) : Addr)).Nodup := by
  rw [List.nodup_flatMap]
  constructor
  · intro c _
    refine List.Nodup.map ?_ List.nodup_range
    intro i j h
    simpa [Nat.pos_iff_ne_zero.1 hn] using h
  · refine List.Pairwise.imp ?_ (List.nodup_range (n := m))
    intro a b hab
    simp only [Function.onFun, List.Disjoint, List.mem_map]
    rintro ⟨x, y⟩ ⟨i, _, hi⟩ ⟨j, _, hj⟩
    simp only [Prod.mk.injEq] at hi hj
    exact hab (hi.1.trans hj.1.symm)

theorem mem_blocks {n k m : ℕ} {a : Addr}
    (h : a ∈ (List.range m).flatMap fun c => (List.range k).map fun i => ((c, n * i) : Addr)) :
    ∃ c i, c < m ∧ i < k ∧ a = (c, n * i) := by
  simp only [List.mem_flatMap, List.mem_range, List.mem_map] at h
  obtain ⟨c, hc, i, hi, rfl⟩ := h
  exact ⟨c, i, hc, hi, rfl⟩

theorem length_blocks (n k m : ℕ) :
    ((List.range m).flatMap fun c => (List.range k).map fun i => ((c, n * i) : Addr)).length =
      m * k := by
  simp

/-- C11: for a pool with at least one block per chunk, after any history of calls in which all requests
have the same positive size and only held blocks are returned: the held blocks do not overlap, none of
them is on the free list, each lies in memory the pool owns, and `blocks_in_use()` is their number. -/
theorem pool_correct {n k : ℕ} (hn : 0 < n) {cs : List Call} (hu : Uniform n cs)
    {p : Resource} {held : List Addr} (h : run cs (Resource.new k, []) = some (p, held)) :
    held.Pairwise (Disjoint n) ∧ (∀ a ∈ held, ∀ b ∈ p.free, Disjoint n a b) ∧
      (∀ a ∈ held, Owned p n a) ∧ p.blocksInUse = some held.length := by
  obtain ⟨I, hk⟩ := run_inv (inv_new n k) hu h
  have hnd : (held ++ p.free).Nodup := (I.perm.nodup_iff).2 (blocks_nodup hn)
  have hdis : ∀ a ∈ held ++ p.free, ∀ b ∈ held ++ p.free, a ≠ b → Disjoint n a b := by
    intro a ha b hb hab
    obtain ⟨c, i, _, _, rfl⟩ := mem_blocks (I.perm.mem_iff.1 ha)
    obtain ⟨d, j, _, _, rfl⟩ := mem_blocks (I.perm.mem_iff.1 hb)
    by_cases hcd : c = d
    · right
      subst hcd
      have hij : i ≠ j := by rintro rfl; exact hab rfl
      rcases Nat.lt_or_gt_of_ne hij with h | h
      · left; nlinarith [Nat.mul_le_mul_left n h]
      · right; nlinarith [Nat.mul_le_mul_left n h]
    · exact .inl hcd
  rw [List.nodup_append] at hnd
  obtain ⟨h1, h2, h3⟩ := hnd
  refine ⟨?_, ?_, ?_, ?_⟩
  · refine List.Pairwise.imp_of_mem ?_ h1
    intro a b ha hb hab
    exact hdis a (by simp [ha]) b (by simp [hb]) hab
  · intro a ha b hb
    exact hdis a (by simp [ha]) b (by simp [hb]) (h3 a ha b hb)
  · intro a ha
    obtain ⟨c, i, hc, hi, rfl⟩ := mem_blocks (I.perm.mem_iff.1 (List.mem_append_left _ ha))
    refine ⟨p.chunks[c], by simp, ?_⟩
    rw [I.size _ (List.getElem_mem hc)]
    simp only at hi ⊢
    nlinarith [Nat.mul_le_mul_left n hi]
  · have hl := I.perm.length_eq
    rw [length_blocks, List.length_append] at hl
    simp only at hl
    rw [Resource.blocksInUse, if_pos (by omega)]
    congr 1; omega

/-- C11: with at least one block per chunk no request fails. -/
theorem allocate_succeeds {n k : ℕ} (hk : 0 < k) {cs : List Call} (hu : Uniform n cs)
    {st : Resource × List Addr} (h : run cs (Resource.new k, []) = some st) :
    ∃ st', step st (.allocate n) = some st' := by
  obtain ⟨_, hk'⟩ := run_inv (inv_new n k) hu h
  obtain ⟨p, held⟩ := st
  simp only [step, Resource.allocate]
  by_cases hf : p.free.isEmpty
  · have : (p.addChunk n).free ≠ [] := by
      simp only [Resource.addChunk, ne_eq, List.append_eq_nil_iff, List.map_eq_nil_iff,
        List.range_eq_nil]
      rintro ⟨h0, _⟩
      simp only [Resource.new] at hk'
      omega
    cases hf' : (p.addChunk n).free with
    | nil => exact absurd hf' this
    | cons a rest => simp only [hf, if_true, hf']; exact ⟨_, rfl⟩
  · cases hf' : p.free with
    | nil => simp [hf'] at hf
    | cons a rest => simp [hf']

/-- A returned block is the next one handed out: a pool in steady state does not grow. -/
theorem reuse (p : Resource) (a : Addr) (n : ℕ) : (p.deallocate a).allocate n = some (a, p) := by
  simp [Resource.deallocate, Resource.allocate]

example : (run [.allocate 8, .allocate 8, .allocate 8, .deallocate (0, 8), .allocate 8]
    (Resource.new 2, [])).map (fun st => (st.2, st.1.blocksInUse)) =
      some ([(0, 8), (1, 0), (0, 0)], some 3) := rfl

example : Uniform 8 [.allocate 8, .allocate 8, .allocate 8, .deallocate (0, 8), .allocate 8] := by
  simp [Uniform]

/-- The size of the blocks is fixed by the first request that adds a chunk: a later, larger request is
served from the same chunk and overlaps its neighbour. -/
theorem different_sizes_overlap : ∃ p held,
    run [.allocate 8, .allocate 16] (Resource.new 2, []) = some (p, held) ∧
      held = [(0, 8), (0, 0)] ∧ ¬ Owned p 16 (0, 8) := by
  refine ⟨⟨[16], [], 2⟩, _, rfl, rfl, ?_⟩
  rintro ⟨s, h, hs⟩
  cases h
  omega

end Slp.Pool
