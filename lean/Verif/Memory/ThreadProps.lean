import Verif.Memory.ThreadModel
import Verif.Memory.PoolProps

/-! C65: expressions in programs with several threads. -/

namespace Slp.Pool

/-- The blocks share no byte. -/
def GDisjoint (n : ℕ) (a b : GAddr) : Prop := a.1 ≠ b.1 ∨ Disjoint n a.2 b.2

/-- The block lies in memory that exists. -/
def Live (w : Threads) (n : ℕ) (a : GAddr) : Prop :=
  a.1 ∉ w.ended ∧ ∃ size, (w.pool a.1).chunks[a.2.1]? = some size ∧ a.2.2 + n ≤ size

/-- No memory error so far: all expressions live in memory that exists, and no two share memory. -/
def Sound (w : Threads) (n : ℕ) : Prop := (∀ a ∈ w.held, Live w n a) ∧ w.held.Pairwise (GDisjoint n)

/-- The rule for programs: an expression is dropped by the thread that made it, before that thread ends. -/
def Rule (w : Threads) : Event → Prop
  | .make _ => True
  | .drop t a => a.1 = t
  | .finish t => ∀ a ∈ w.held, a.1 ≠ t

/-- A weaker rule: when a thread ends, no expression and no other running thread's free list has a block of it. -/
def CleanExit (w : Threads) : Event → Prop
  | .finish t => (∀ a ∈ w.held, a.1 ≠ t) ∧ ∀ u, u ∉ w.ended → u ≠ t → ∀ a ∈ (w.pool u).free, a.1 ≠ t
  | _ => True

/-- The history keeps to a rule. -/
def Keeps (P : Threads → Event → Prop) (n k : ℕ) : List Event → Threads → Prop
  | [], _ => True
  | e :: es, w => P w e ∧ ∀ w', w.step n k e = some w' → Keeps P n k es w'

/-! ### Clean exits -/

structure GInv (n k : ℕ) (w : Threads) : Prop where
  held : w.held.Nodup
  free : ∀ t, t ∉ w.ended → (w.pool t).free.Nodup
  apart : ∀ t u, t ∉ w.ended → u ∉ w.ended → t ≠ u → ∀ a ∈ (w.pool t).free, a ∉ (w.pool u).free
  used : ∀ t, t ∉ w.ended → ∀ a ∈ (w.pool t).free, a ∉ w.held
  block : ∀ a, (a ∈ w.held ∨ ∃ t, t ∉ w.ended ∧ a ∈ (w.pool t).free) →
    a.1 ∉ w.ended ∧ ∃ c i, c < (w.pool a.1).chunks.length ∧ i < k ∧ a.2 = (c, n * i)
  size : ∀ t, ∀ s ∈ (w.pool t).chunks, s = n * k

theorem GInv.new (n k : ℕ) : GInv n k Threads.new := by
  constructor <;> simp [Threads.new]

theorem GInv.sound {n k : ℕ} {w : Threads} (I : GInv n k w) : Sound w n := by
  constructor
  · intro a ha
    obtain ⟨h1, c, i, hc, hi, e⟩ := I.block a (.inl ha)
    refine ⟨h1, (w.pool a.1).chunks[c], by rw [e]; simp, ?_⟩
    rw [I.size _ _ (List.getElem_mem hc), e]
    dsimp only
    nlinarith [Nat.mul_le_mul_left n hi]
  · refine List.Pairwise.imp_of_mem ?_ I.held
    intro a b ha hb hab
    obtain ⟨-, c, i, -, -, ea⟩ := I.block a (.inl ha)
    obtain ⟨-, d, j, -, -, eb⟩ := I.block b (.inl hb)
    by_cases h : a.1 = b.1
    · refine .inr ?_
      rw [ea, eb]
      by_cases hcd : c = d
      · subst hcd
        have hij : i ≠ j := by
          rintro rfl
          exact hab (Prod.ext h (ea.trans eb.symm))
        right
        rcases Nat.lt_or_gt_of_ne hij with h | h
        · left; dsimp only; nlinarith [Nat.mul_le_mul_left n h]
        · right; dsimp only; nlinarith [Nat.mul_le_mul_left n h]
      · exact .inl hcd
    · exact .inl h

theorem GInv.addChunk {n k : ℕ} (hn : 0 < n) {w : Threads} (I : GInv n k w) {t : ℕ} (ht : t ∉ w.ended)  :
    GInv n k { w with pool := Function.update w.pool t ((w.pool t).addChunk n k t) } := by
  have hfresh : ∀ i, ∀ a, (a ∈ w.held ∨ ∃ t, t ∉ w.ended ∧ a ∈ (w.pool t).free) →
      a ≠ (t, (w.pool t).chunks.length, n * i) := by
    rintro i a ha rfl
    obtain ⟨-, c, j, hc, -, e⟩ := I.block _ ha
    have := congrArg Prod.fst e
    dsimp only at this hc
    omega
  have hmem : ∀ a, a ∈ ((w.pool t).addChunk n k t).free ↔
      (∃ i < k, (t, (w.pool t).chunks.length, n * i) = a) ∨ a ∈ (w.pool t).free := by
    intro a; simp [Local.addChunk]
  constructor
  · exact I.held
  · intro u hu
    by_cases h : u = t
    · subst h
      simp only [Function.update_self]
      refine List.nodup_append.2 ⟨List.Nodup.map ?_ List.nodup_range, I.free u hu, ?_⟩
      · intro i j h
        simpa [Nat.pos_iff_ne_zero.1 hn] using h
      · rintro a ha b hb rfl
        simp only [List.mem_map, List.mem_range] at ha
        obtain ⟨i, -, rfl⟩ := ha
        exact hfresh i _ (.inr ⟨u, hu, hb⟩) rfl
    · simp only [Function.update_of_ne h]; exact I.free u hu
  · intro u u' hu hu' hne a ha ha'
    by_cases h : u = t
    · subst h
      simp only [Function.update_self, Function.update_of_ne hne.symm] at ha ha'
      rcases (hmem a).1 ha with ⟨i, -, rfl⟩ | ha
      · exact hfresh i _ (.inr ⟨u', hu', ha'⟩) rfl
      · exact I.apart u u' hu hu' hne a ha ha'
    · by_cases h' : u' = t
      · subst h'
        simp only [Function.update_self, Function.update_of_ne h] at ha ha'
        rcases (hmem a).1 ha' with ⟨i, -, rfl⟩ | ha'
        · exact hfresh i _ (.inr ⟨u, hu, ha⟩) rfl
        · exact I.apart u u' hu hu' hne a ha ha'
      · simp only [Function.update_of_ne h, Function.update_of_ne h'] at ha ha'
        exact I.apart u u' hu hu' hne a ha ha'
  · intro u hu a ha ha'
    by_cases h : u = t
    · subst h
      simp only [Function.update_self] at ha
      rcases (hmem a).1 ha with ⟨i, -, rfl⟩ | ha
      · exact hfresh i _ (.inl ha') rfl
      · exact I.used u hu a ha ha'
    · simp only [Function.update_of_ne h] at ha
      exact I.used u hu a ha ha'
  · intro a ha
    have key : (a.1 = t ∧ ∃ i < k, a.2 = ((w.pool t).chunks.length, n * i)) ∨
        (a ∈ w.held ∨ ∃ t, t ∉ w.ended ∧ a ∈ (w.pool t).free) := by
      rcases ha with ha | ⟨u, hu, ha⟩
      · exact .inr (.inl ha)
      · by_cases h : u = t
        · subst h
          simp only [Function.update_self] at ha
          rcases (hmem a).1 ha with ⟨i, hi, rfl⟩ | ha
          · exact .inl ⟨rfl, i, hi, rfl⟩
          · exact .inr (.inr ⟨u, hu, ha⟩)
        · simp only [Function.update_of_ne h] at ha
          exact .inr (.inr ⟨u, hu, ha⟩)
    rcases key with ⟨e, i, hi, e2⟩ | ha
    · refine ⟨by rw [e]; exact ht, _, i, ?_, hi, e2⟩
      rw [e]
      simp [Local.addChunk]
    · obtain ⟨h1, c, i, hc, hi, e⟩ := I.block a ha
      refine ⟨h1, c, i, ?_, hi, e⟩
      by_cases h : a.1 = t
      · rw [h] at hc ⊢
        simp only [Function.update_self, Local.addChunk, List.length_append, List.length_singleton]
        omega
      · simp only [Function.update_of_ne h]; exact hc
  · intro u s hs
    by_cases h : u = t
    · subst h
      simp only [Function.update_self, Local.addChunk, List.mem_append, List.mem_singleton] at hs
      rcases hs with hs | hs
      · exact I.size u s hs
      · exact hs
    · simp only [Function.update_of_ne h] at hs
      exact I.size u s hs

/-- Moving a block from the free list of a thread to the program. -/
theorem GInv.pop {n k : ℕ} {w : Threads} (I : GInv n k w) {t : ℕ} (ht : t ∉ w.ended) {a : GAddr} {rest : List GAddr}
    (hf : (w.pool t).free = a :: rest) :
    GInv n k { w with pool := Function.update w.pool t { w.pool t with free := rest }, held := a :: w.held } := by
  have ha : a ∈ (w.pool t).free := by rw [hf]; simp
  have hnd := I.free t ht
  rw [hf, List.nodup_cons] at hnd
  have hsub : ∀ u, ∀ b ∈ (Function.update w.pool t { w.pool t with free := rest } u).free, b ∈ (w.pool u).free := by
    intro u b hb
    by_cases h : u = t
    · subst h
      simp only [Function.update_self] at hb
      rw [hf]; simp [hb]
    · simpa only [Function.update_of_ne h] using hb
  have hne : ∀ u, u ∉ w.ended → ∀ b ∈ (Function.update w.pool t { w.pool t with free := rest } u).free, b ≠ a := by
    rintro u hu b hb rfl
    by_cases h : u = t
    · subst h
      simp only [Function.update_self] at hb
      exact hnd.1 hb
    · simp only [Function.update_of_ne h] at hb
      exact I.apart u t hu ht h b hb ha
  have hch : ∀ u, (Function.update w.pool t { w.pool t with free := rest } u).chunks = (w.pool u).chunks := by
    intro u
    by_cases h : u = t
    · subst h; simp
    · simp [h]
  constructor
  · exact List.nodup_cons.2 ⟨I.used t ht a ha, I.held⟩
  · intro u hu
    by_cases h : u = t
    · subst h; simp only [Function.update_self]; exact hnd.2
    · simp only [Function.update_of_ne h]; exact I.free u hu
  · exact fun u u' hu hu' h b hb hb' => I.apart u u' hu hu' h b (hsub u b hb) (hsub u' b hb')
  · intro u hu b hb hb'
    rcases List.mem_cons.1 hb' with rfl | hb'
    · exact hne u hu b hb rfl
    · exact I.used u hu b (hsub u b hb) hb'
  · intro b hb
    simp only [hch]
    refine I.block b ?_
    rcases hb with hb | ⟨u, hu, hb⟩
    · rcases List.mem_cons.1 hb with rfl | hb
      · exact .inr ⟨t, ht, ha⟩
      · exact .inl hb
    · exact .inr ⟨u, hu, hsub u b hb⟩
  · intro u; simp only [hch]; exact I.size u

theorem GInv.push {n k : ℕ} {w : Threads} (I : GInv n k w) {t : ℕ} (ht : t ∉ w.ended) {a : GAddr} (ha : a ∈ w.held) :
    GInv n k { w with pool := Function.update w.pool t ((w.pool t).deallocate a), held := w.held.erase a } := by
  have hsub : ∀ u, ∀ b ∈ (Function.update w.pool t ((w.pool t).deallocate a) u).free,
      (b = a ∧ u = t) ∨ b ∈ (w.pool u).free := by
    intro u b hb
    by_cases h : u = t
    · subst h
      simp only [Function.update_self, Local.deallocate, List.mem_cons] at hb
      rcases hb with hb | hb
      · exact .inl ⟨hb, rfl⟩
      · exact .inr hb
    · exact .inr (by simpa only [Function.update_of_ne h] using hb)
  have hch : ∀ u, (Function.update w.pool t ((w.pool t).deallocate a) u).chunks = (w.pool u).chunks := by
    intro u
    by_cases h : u = t
    · subst h; simp [Local.deallocate]
    · simp [h]
  constructor
  · exact I.held.erase a
  · intro u hu
    by_cases h : u = t
    · subst h
      simp only [Function.update_self, Local.deallocate]
      exact List.nodup_cons.2 ⟨fun h => I.used u hu a h ha, I.free u hu⟩
    · simp only [Function.update_of_ne h]; exact I.free u hu
  · intro u u' hu hu' h b hb hb'
    rcases hsub u b hb with ⟨e, e'⟩ | h1 <;> rcases hsub u' b hb' with ⟨e2, e2'⟩ | h2
    · exact h (e'.trans e2'.symm)
    · exact I.used u' hu' b h2 (e ▸ ha)
    · exact I.used u hu b h1 (e2 ▸ ha)
    · exact I.apart u u' hu hu' h b h1 h2
  · intro u hu b hb hb'
    rcases hsub u b hb with ⟨rfl, rfl⟩ | hb
    · exact (I.held.mem_erase_iff.1 hb').1 rfl
    · exact I.used u hu b hb (List.mem_of_mem_erase hb')
  · intro b hb
    simp only [hch]
    refine I.block b ?_
    rcases hb with hb | ⟨u, hu, hb⟩
    · exact .inl (List.mem_of_mem_erase hb)
    · rcases hsub u b hb with ⟨rfl, rfl⟩ | hb
      · exact .inl ha
      · exact .inr ⟨u, hu, hb⟩
  · intro u; simp only [hch]; exact I.size u

theorem GInv.step {n k : ℕ} (hn : 0 < n) {w w' : Threads} {e : Event} (I : GInv n k w) (hc : CleanExit w e)
    (h : w.step n k e = some w') : GInv n k w' := by
  unfold Threads.step at h
  split at h
  · cases h
  rename_i hend
  cases e with
  | make t =>
    replace hend : t ∉ w.ended := hend
    simp only [Option.map_eq_some_iff] at h
    obtain ⟨⟨a, p⟩, h, rfl⟩ := h
    unfold Local.allocate at h
    by_cases hf : (w.pool t).free.isEmpty = true
    · simp only [hf, if_true] at h
      have I' := I.addChunk hn hend
      cases hf' : ((w.pool t).addChunk n k t).free with
      | nil => simp [hf'] at h
      | cons x rest =>
        simp only [hf', Option.some.injEq, Prod.mk.injEq] at h
        obtain ⟨rfl, rfl⟩ := h
        have := I'.pop (t := t) hend (a := x) (rest := rest) (by simpa using hf')
        simpa using this
    · simp only [hf] at h
      cases hf' : (w.pool t).free with
      | nil => simp [hf'] at hf
      | cons x rest =>
        simp [hf'] at h
        obtain ⟨rfl, rfl⟩ := h
        exact I.pop hend hf'
  | drop t a =>
    simp only at h
    split at h
    · rename_i ha
      cases h
      exact I.push hend ha
    · cases h
  | finish t =>
    cases h
    obtain ⟨c1, c2⟩ := hc
    refine ⟨I.held, fun u hu => I.free u (List.not_mem_of_not_mem_cons hu), fun u u' hu hu' => I.apart u u'
      (List.not_mem_of_not_mem_cons hu) (List.not_mem_of_not_mem_cons hu'), fun u hu => I.used u
      (List.not_mem_of_not_mem_cons hu), fun a ha => ?_, I.size⟩
    have hne : a.1 ≠ t := by
      rcases ha with ha | ⟨u, hu, ha⟩
      · exact c1 a ha
      · exact c2 u (List.not_mem_of_not_mem_cons hu) (List.ne_of_not_mem_cons hu) a ha
    obtain ⟨h1, h2⟩ := I.block a (ha.imp id fun ⟨u, hu, ha⟩ => ⟨u, List.not_mem_of_not_mem_cons hu, ha⟩)
    exact ⟨List.not_mem_cons_of_ne_of_not_mem hne h1, h2⟩

theorem GInv.run {n k : ℕ} (hn : 0 < n) : ∀ {es : List Event} {w w' : Threads}, GInv n k w → Keeps CleanExit n k es w →
    Threads.run n k es w = some w' → GInv n k w'
  | [], w, w', I, _, h => by cases h; exact I
  | e :: es, w, w', I, hc, h => by
    simp only [Threads.run, Option.bind_eq_some_iff] at h
    obtain ⟨w1, h1, h2⟩ := h
    exact GInv.run hn (I.step hn hc.1 h1) (hc.2 w1 h1) h2

/-- C65: programs may drop expressions on any thread, as long as no thread ends while another one uses or may reuse its
memory. In particular, nothing goes wrong before the first thread ends. -/
theorem threads_sound {n k : ℕ} (hn : 0 < n) {es : List Event} (hc : Keeps CleanExit n k es .new) {w : Threads}
    (h : Threads.run n k es .new = some w) : Sound w n :=
  (GInv.run hn (.new n k) hc h).sound

/-! ### The rule -/

/-- Each thread sees a pool of its own. -/
structure Private (n k : ℕ) (w : Threads) : Prop where
  own : ∀ t, t ∉ w.ended → ∀ a ∈ (w.pool t).free, a.1 = t
  pool : ∀ t, t ∉ w.ended → Inv n (⟨(w.pool t).chunks, (w.pool t).free.map Prod.snd, k⟩,
    (w.held.filter fun a => a.1 = t).map Prod.snd)
  live : ∀ a ∈ w.held, a.1 ∉ w.ended

theorem allocate_private {n k t : ℕ} {p q : Local} {a : GAddr} (own : ∀ a ∈ p.free, a.1 = t)
    (h : p.allocate n k t = some (a, q)) : a.1 = t ∧ (∀ a ∈ q.free, a.1 = t) ∧
      (⟨p.chunks, p.free.map Prod.snd, k⟩ : Resource).allocate n =
        some (a.2, ⟨q.chunks, q.free.map Prod.snd, k⟩) := by
  unfold Local.allocate at h
  have own' : ∀ a ∈ (if p.free.isEmpty then p.addChunk n k t else p).free, a.1 = t := by
    split
    · intro a ha
      simp only [Local.addChunk, List.mem_append, List.mem_map] at ha
      rcases ha with ⟨i, -, rfl⟩ | ha
      · rfl
      · exact own a ha
    · exact own
  have hq : (if (⟨p.chunks, p.free.map Prod.snd, k⟩ : Resource).free.isEmpty then
      (⟨p.chunks, p.free.map Prod.snd, k⟩ : Resource).addChunk n else ⟨p.chunks, p.free.map Prod.snd, k⟩) =
      ⟨(if p.free.isEmpty then p.addChunk n k t else p).chunks,
        (if p.free.isEmpty then p.addChunk n k t else p).free.map Prod.snd, k⟩ := by
    by_cases hf : p.free.isEmpty = true
    · have : (p.free.map Prod.snd).isEmpty = true := by simpa using hf
      simp only [this, hf, if_true, Resource.addChunk, Local.addChunk, List.map_append, List.map_map]
      rfl
    · have : ¬(p.free.map Prod.snd).isEmpty = true := by simpa using hf
      simp only [this, hf]
      rfl
  unfold Resource.allocate
  rw [hq]
  generalize (if p.free.isEmpty then p.addChunk n k t else p) = r at h own' ⊢
  cases hf : r.free with
  | nil => simp [hf] at h
  | cons x rest =>
    simp only [hf, Option.some.injEq, Prod.mk.injEq] at h
    obtain ⟨rfl, rfl⟩ := h
    rw [hf] at own'
    exact ⟨own' x (by simp), fun a ha => own' a (by simp [ha]), rfl⟩

theorem erase_own {t : ℕ} {a : GAddr} (ha : a.1 = t) (l : List GAddr) :
    ((l.erase a).filter fun b => b.1 = t).map Prod.snd = ((l.filter fun b => b.1 = t).map Prod.snd).erase a.2 := by
  induction l with
  | nil => rfl
  | cons x l ih =>
    by_cases hx : x = a
    · subst hx
      simp [ha]
    · rw [List.erase_cons_tail (by simpa using hx)]
      by_cases ht : x.1 = t
      · have h2 : x.2 ≠ a.2 := fun h => hx (Prod.ext (ht.trans ha.symm) h)
        simp only [List.filter_cons, ht, decide_true, if_true, List.map_cons]
        rw [List.erase_cons_tail (by simpa using h2), ih]
      · simpa only [List.filter_cons, ht, decide_false, Bool.false_eq_true, if_false] using ih

theorem erase_other {t : ℕ} {a : GAddr} (ha : ¬a.1 = t) (l : List GAddr) :
    ((l.erase a).filter fun b => b.1 = t) = l.filter fun b => b.1 = t := by
  induction l with
  | nil => rfl
  | cons x l ih =>
    by_cases hx : x = a
    · subst hx
      simp [ha]
    · rw [List.erase_cons_tail (by simpa using hx), List.filter_cons, List.filter_cons, ih]

theorem Private.step {n k : ℕ} {w w' : Threads} {e : Event} (I : Private n k w) (hr : Rule w e)
    (h : w.step n k e = some w') : Private n k w' := by
  unfold Threads.step at h
  split at h
  · cases h
  rename_i hend
  cases e with
  | make t =>
    replace hend : t ∉ w.ended := hend
    simp only [Option.map_eq_some_iff] at h
    obtain ⟨⟨a, p⟩, h, rfl⟩ := h
    obtain ⟨h1, h2, h3⟩ := allocate_private (I.own t hend) h
    constructor
    · intro u hu
      by_cases hut : u = t
      · subst hut; simpa only [Function.update_self] using h2
      · simpa only [Function.update_of_ne hut] using I.own u hu
    · intro u hu
      by_cases hut : u = t
      · subst hut
        simp only [Function.update_self, List.filter_cons, h1, decide_true, if_true, List.map_cons]
        exact (step_inv (c := .allocate n) (I.pool u hu) (fun b hb => by cases hb; rfl) (by
          simp only [Pool.step, h3, Option.map_some])).1
      · have hau : ¬a.1 = u := fun h => hut (h.symm.trans h1)
        simp only [Function.update_of_ne hut, List.filter_cons, hau, decide_false]
        exact I.pool u hu
    · intro b hb
      rcases List.mem_cons.1 hb with rfl | hb
      · rw [h1]; exact hend
      · exact I.live b hb
  | drop t a =>
    replace hend : t ∉ w.ended := hend
    simp only at h
    split at h
    · rename_i ha
      cases h
      have h1 : a.1 = t := hr
      constructor
      · intro u hu
        by_cases hut : u = t
        · subst hut
          simp only [Function.update_self, Local.deallocate, List.mem_cons]
          rintro b (rfl | hb)
          · exact h1
          · exact I.own u hu b hb
        · simpa only [Function.update_of_ne hut] using I.own u hu
      · intro u hu
        by_cases hut : u = t
        · subst hut
          simp only [Function.update_self]
          have hm : a ∈ w.held.filter fun a => a.1 = u := by simp [ha, h1]
          have he : ((w.held.erase a).filter fun a => a.1 = u).map Prod.snd =
              ((w.held.filter fun a => a.1 = u).map Prod.snd).erase a.2 := erase_own h1 _
          rw [he]
          refine (step_inv (c := .deallocate a.2) (I.pool u hu) (fun b hb => by cases hb) ?_).1
          simp only [Pool.step]
          rw [if_pos (List.mem_map.2 ⟨a, hm, rfl⟩)]
          rfl
        · have hau : ¬a.1 = u := fun h => hut (h.symm.trans h1)
          simp only [Function.update_of_ne hut]
          have he : ((w.held.erase a).filter fun a => a.1 = u) = w.held.filter fun a => a.1 = u :=
            erase_other hau _
          rw [he]
          exact I.pool u hu
      · exact fun b hb => I.live b (List.mem_of_mem_erase hb)
    · cases h
  | finish t =>
    cases h
    exact ⟨fun u hu => I.own u (List.not_mem_of_not_mem_cons hu), fun u hu => I.pool u (List.not_mem_of_not_mem_cons hu),
      fun a ha => List.not_mem_cons_of_ne_of_not_mem (hr a ha) (I.live a ha)⟩

theorem Private.clean {n k : ℕ} {w : Threads} (I : Private n k w) {e : Event} (hr : Rule w e) : CleanExit w e := by
  cases e with
  | finish t => exact ⟨hr, fun u hu hne a ha h => hne ((I.own u hu a ha).symm.trans h)⟩
  | make t => trivial
  | drop t a => trivial

theorem Private.run {n k : ℕ} : ∀ {es : List Event} {w w' : Threads}, Private n k w → Keeps Rule n k es w →
    Threads.run n k es w = some w' → Private n k w' ∧ Keeps CleanExit n k es w
  | [], w, w', I, _, h => by cases h; exact ⟨I, trivial⟩
  | e :: es, w, w', I, hr, h => by
    simp only [Threads.run, Option.bind_eq_some_iff] at h
    obtain ⟨w1, h1, h2⟩ := h
    obtain ⟨I', h3⟩ := Private.run (I.step hr.1 h1) (hr.2 w1 h1) h2
    refine ⟨I', I.clean hr.1, fun w2 hw2 => ?_⟩
    obtain rfl : w1 = w2 := Option.some_injective _ (h1.symm.trans hw2)
    exact h3

/-- C65: programs whose threads drop the expressions they made, and only those, before they end, have no memory errors,
and `blocks_in_use()` on each thread is the number of its expressions, whatever the interleaving. -/
theorem threads_private {n k : ℕ} (hn : 0 < n) {es : List Event} (hr : Keeps Rule n k es .new) {w : Threads}
    (h : Threads.run n k es .new = some w) :
    Sound w n ∧ ∀ t, t ∉ w.ended → (w.pool t).blocksInUse k = some (w.held.countP fun a => a.1 = t) := by
  have I0 : Private n k .new := ⟨by simp [Threads.new], fun t _ => inv_new n k, by simp [Threads.new]⟩
  obtain ⟨I, hc⟩ := I0.run hr h
  refine ⟨threads_sound hn hc h, fun t ht => ?_⟩
  have hl := (I.pool t ht).perm.length_eq
  simp only [length_blocks, List.length_append, List.length_map, ← List.countP_eq_length_filter] at hl
  unfold Local.blocksInUse
  rw [if_pos (by omega)]
  congr 1
  omega

/-- No thread ever waits for memory: making an expression succeeds on every running thread. -/
theorem threads_progress {n k : ℕ} (hk : 0 < k) (w : Threads) {t : ℕ} (ht : t ∉ w.ended) :
    ∃ w', w.step n k (.make t) = some w' := by
  unfold Threads.step
  rw [if_neg (show ¬(Event.make t).thread ∈ w.ended from ht)]
  simp only [Option.map_eq_some_iff, Local.allocate]
  cases hf : (w.pool t).free with
  | nil =>
    cases k with
    | zero => omega
    | succ k => simp [Local.addChunk, hf, List.range_succ_eq_map]
  | cons a rest => simp [hf]

/-! ### What goes wrong without the rule -/

theorem dangling {w : Threads} {a : GAddr} {n : ℕ} (h1 : w.held = [a]) (h2 : w.ended = [a.1]) : ¬ Sound w n := fun h =>
  (h.1 a (by rw [h1]; simp)).1 (by rw [h2]; simp)

/-- C65: an expression that outlives its thread, such as one returned by a solve of `multistart()`. -/
theorem returned_expression_dangles : ∃ w, Threads.run 8 2 [.make 1, .finish 1] .new = some w ∧
    w.held = [(1, 0, 0)] ∧ ¬ Sound w 8 :=
  ⟨_, rfl, rfl, dangling rfl rfl⟩

/-- C65: an expression dropped, in time, by another thread. Its memory is reused by that thread, and a later expression of
that thread dangles as soon as the first thread ends. -/
theorem foreign_drop_dangles : ∃ w, Threads.run 8 2 [.make 1, .drop 0 (1, 0, 0), .finish 1, .make 0] .new = some w ∧
    w.held = [(1, 0, 0)] ∧ ¬ Sound w 8 :=
  ⟨_, rfl, rfl, dangling rfl rfl⟩

/-- C65: `blocks_in_use()` wraps around in a thread that drops expressions of other threads. -/
theorem foreign_drop_wraps : ∃ w, Threads.run 8 2 [.make 1, .drop 0 (1, 0, 0)] .new = some w ∧
    (w.pool 0).blocksInUse 2 = none := ⟨_, rfl, rfl⟩

/-- A multistart solve that keeps to the rule: two threads at once. -/
example : ∃ w, Threads.run 8 2 [.make 0, .make 1, .make 2, .make 1, .drop 2 (2, 0, 0), .drop 1 (1, 0, 0), .finish 2,
    .drop 1 (1, 0, 8), .finish 1, .make 0] .new = some w ∧ w.held = [(0, 0, 8), (0, 0, 0)] ∧
    (w.pool 0).blocksInUse 2 = some 2 := ⟨_, rfl, rfl, rfl⟩

example : Keeps Rule 8 2 [.make 0, .make 1, .drop 1 (1, 0, 0), .finish 1, .make 0] .new := by
  refine ⟨trivial, fun w h => ?_⟩; cases h
  refine ⟨trivial, fun w h => ?_⟩; cases h
  refine ⟨rfl, fun w h => ?_⟩; cases h
  refine ⟨fun a ha => ?_, fun w h => ⟨trivial, fun _ _ => trivial⟩⟩
  have : a = (0, 0, 0) := List.mem_singleton.1 ha
  rw [this]
  exact Nat.zero_ne_one

/-- The weaker rule allows one thread to drop the expressions of another that ends later. -/
example : Keeps CleanExit 8 2 [.make 0, .drop 1 (0, 0, 0), .make 1, .drop 1 (0, 0, 0), .finish 1] .new := by
  refine ⟨trivial, fun w h => ?_⟩; cases h
  refine ⟨trivial, fun w h => ?_⟩; cases h
  refine ⟨trivial, fun w h => ?_⟩; cases h
  refine ⟨trivial, fun w h => ?_⟩; cases h
  refine ⟨⟨fun a ha => absurd (show a ∈ [] from ha) (by simp), fun u _ hu a ha => ?_⟩, fun _ _ => trivial⟩
  by_cases h0 : u = 0
  · subst h0
    have : a = (0, 0, 8) := List.mem_singleton.1 ha
    rw [this]
    exact Nat.zero_ne_one
  · simp [Function.update, Threads.new, h0, hu] at ha

end Slp.Pool
