import Verif.Python.PyViewLemmas

/-!
The model follows the rule that access is defined for matrices that names keep.
-/

namespace Slp.PyView

variable {α : Type}

/-- What object `o` is to the user, whether or not it still exists. -/
def Den (len : ℕ) (d : Doc α) (H : ℕ → Handle) (o : ℕ) : Kind α → Option ℕ → Prop
  | .matrix vs, keeps => H o = ⟨o, List.range vs.length, true, none⟩ ∧ d.mats o = vs ∧ keeps = none
  | .block t sel, keeps => (H o).mat = t ∧ (H o).sel = sel ∧ (H o).iter = none ∧ t < len ∧
      (∀ j ∈ sel, j < (d.mats t).length) ∧
      match keeps with
      | none => (H o).keep = false
      | some p => (H p).mat = t ∧ (H p).keep = (H o).keep
  | .iter src pos, keeps => keeps = some src ∧ H o = { H src with iter := some o } ∧ (H src).iter = none ∧ d.pos o = pos ∧
      ∀ j ∈ (H o).sel, j < (d.mats (H o).mat).length

structure Views (s : State α) (d : Doc α) (H : ℕ → Handle) (owed : List ℕ) : Prop where
  heap : Heap s.objects s.names owed
  den : ∀ (o : ℕ) (x : Obj α), s.objects[o]? = some x → Den s.objects.length d H o x.kind x.keeps
  names : d.names = s.names.map (Option.map H)
  count : d.count = s.objects.length
  log : d.log = s.log

/-- Both end in the same way. -/
def Agree (a : Except Fault (State α)) (b : Except Fault (Doc α)) : Prop :=
  match a, b with
  | .ok s, .ok d => ∃ H, Views s d H []
  | .error e, .error f => e = f
  | _, _ => False

theorem Heap.kept {objs : List (Obj α)} {names : List (Option ℕ)} {owed : List ℕ} (h : Heap objs names owed)
    {o p : ℕ} {x : Obj α} (hx : objs[o]? = some x) (hl : x.refs ≠ 0) (hk : x.keeps = some p) :
    ∃ y, objs[p]? = some y ∧ y.refs ≠ 0 := by
  have hp : p < objs.length := lt_trans (h.older o x p hx hk) (lt_of_get hx)
  refine ⟨objs[p], List.getElem?_eq_getElem hp, ?_⟩
  have hc := h.count p objs[p] (List.getElem?_eq_getElem hp)
  have : 0 < keepers objs p := List.countP_pos_iff.2 ⟨x, List.mem_of_getElem? hx, by simp [Obj.keeper, hl, hk]⟩
  omega

theorem Heap.named {objs : List (Obj α)} {names : List (Option ℕ)} {owed : List ℕ} (h : Heap objs names owed)
    {o : ℕ} (ho : some o ∈ names ∨ o ∈ owed) : ∃ y, objs[o]? = some y ∧ y.refs ≠ 0 := by
  have hp := h.dom o ho
  refine ⟨objs[o], List.getElem?_eq_getElem hp, ?_⟩
  have hc := h.count o objs[o] (List.getElem?_eq_getElem hp)
  rcases ho with ho | ho
  · have := List.count_pos_iff.2 ho
    omega
  · have := List.count_pos_iff.2 ho
    omega

/-- What keeps a matrix keeps it existing. -/
theorem Views.matrix_live {s : State α} {d : Doc α} {H : ℕ → Handle} {owed : List ℕ} (h : Views s d H owed) (o : ℕ)
    (x : Obj α) (hx : s.objects[o]? = some x) (hl : x.refs ≠ 0) (hk : (H o).keep = true) :
    ∃ y vs, s.objects[(H o).mat]? = some y ∧ y.refs ≠ 0 ∧ y.kind = .matrix vs ∧ d.mats (H o).mat = vs := by
  induction o using Nat.strong_induction_on generalizing x with
  | _ o ih =>
    have hd := h.den o x hx
    cases hkind : x.kind with
    | matrix vs =>
      rw [hkind] at hd
      obtain ⟨h1, h2, -⟩ := hd
      exact ⟨x, vs, by rw [h1]; exact hx, hl, hkind, by rw [h1]; exact h2⟩
    | block t sel =>
      rw [hkind] at hd
      obtain ⟨h1, h2, h3, h4, h5, h6⟩ := hd
      cases hkeep : x.keeps with
      | none =>
        rw [hkeep] at h6
        rw [h6] at hk
        cases hk
      | some p =>
        rw [hkeep] at h6
        obtain ⟨y, hy, hyl⟩ := h.heap.kept hx hl hkeep
        have := ih p (h.heap.older o x p hx hkeep) y hy hyl (h6.2.trans hk)
        rwa [h6.1, ← h1] at this
    | iter src pos =>
      rw [hkind] at hd
      obtain ⟨h1, h2, h3, h4, h5⟩ := hd
      obtain ⟨y, hy, hyl⟩ := h.heap.kept hx hl h1
      have := ih src (h.heap.older o x src hx h1) y hy hyl (by rw [h2] at hk; exact hk)
      rw [h2]
      exact this

/-- What exists is kept by a name. -/
theorem Views.held_of_live {s : State α} {d : Doc α} {H : ℕ → Handle} (h : Views s d H []) (n o : ℕ)
    (hn : s.objects.length - o = n) (x : Obj α) (hx : s.objects[o]? = some x) (hl : x.refs ≠ 0)
    (hk : (H o).keep = true) : d.held (H o).mat = true := by
  induction n using Nat.strong_induction_on generalizing o x with
  | _ n ih =>
    have hc := h.heap.count o x hx
    have hol := lt_of_get hx
    rw [List.count_nil] at hc
    rcases Nat.eq_zero_or_pos (s.names.count (some o)) with h0 | h0
    · have hpos : 0 < keepers s.objects o := by omega
      obtain ⟨y, hy, hyk⟩ := List.countP_pos_iff.1 hpos
      obtain ⟨q, hq⟩ := List.mem_iff_getElem?.1 hy
      simp only [Obj.keeper, Bool.and_eq_true, bne_iff_ne, ne_eq, beq_iff_eq] at hyk
      have hql := lt_of_get hq
      have hoq := h.heap.older q y o hq hyk.2
      have hd := h.den q y hq
      have key : (H q).mat = (H o).mat ∧ (H q).keep = true := by
        rw [hyk.2] at hd
        cases hkind : y.kind with
        | matrix vs =>
          rw [hkind] at hd
          cases hd.2.2
        | block t sel =>
          rw [hkind] at hd
          obtain ⟨h1, h2, h3, h4, h5, h6⟩ := hd
          exact ⟨h1.trans h6.1.symm, h6.2.symm.trans hk⟩
        | iter src pos =>
          rw [hkind] at hd
          obtain ⟨h1, h2, h3, h4, h5⟩ := hd
          obtain rfl := Option.some.inj h1
          rw [h2]
          exact ⟨rfl, hk⟩
      have := ih (s.objects.length - q) (by omega) q rfl y hq hyk.1 key.2
      rwa [key.1] at this
    · have hmem := List.count_pos_iff.1 h0
      unfold Doc.held
      rw [List.any_eq_true]
      refine ⟨some (H o), ?_, by simp [hk]⟩
      rw [h.names]
      exact List.mem_map.2 ⟨some o, hmem, rfl⟩

theorem Views.held_iff {s : State α} {d : Doc α} {H : ℕ → Handle} (h : Views s d H []) (m : ℕ) :
    d.held m = true ↔ ∃ y vs, s.objects[m]? = some y ∧ y.refs ≠ 0 ∧ y.kind = .matrix vs := by
  constructor
  · intro hh
    unfold Doc.held at hh
    rw [h.names, List.any_eq_true] at hh
    obtain ⟨a, ha, hp⟩ := hh
    obtain ⟨b, hb, rfl⟩ := List.mem_map.1 ha
    cases b with
    | none => simp at hp
    | some o =>
      simp only [Option.map_some, Option.any_some, Bool.and_eq_true, beq_iff_eq] at hp
      obtain ⟨x, hx, hl⟩ := h.heap.named (Or.inl hb)
      obtain ⟨y, vs, h1, h2, h3, -⟩ := h.matrix_live o x hx hl hp.1
      rw [hp.2] at h1
      exact ⟨y, vs, h1, h2, h3⟩
  · rintro ⟨y, vs, h1, h2, h3⟩
    have hd := h.den m y h1
    rw [h3] at hd
    have := h.held_of_live _ m rfl y h1 h2 (by rw [hd.1])
    rwa [hd.1] at this

theorem Views.values {s : State α} {d : Doc α} {H : ℕ → Handle} (h : Views s d H []) (t : ℕ) :
    s.values t = if d.held t then .ok (d.mats t) else .error .undefined := by
  by_cases hh : d.held t = true
  · rw [if_pos hh]
    obtain ⟨y, vs, h1, h2, h3⟩ := (h.held_iff t).1 hh
    have hd := h.den t y h1
    rw [h3] at hd
    rw [State.values, State.live, h1]
    simp only [if_neg h2]
    show (match y.kind with | .matrix vs => _ | _ => _) = _
    rw [h3, hd.2.1]
  · rw [if_neg hh]
    rw [State.values, State.live]
    cases hx : s.objects[t]? with
    | none => rfl
    | some x =>
      by_cases hl : x.refs = 0
      · simp only [if_pos hl]
        rfl
      · simp only [if_neg hl]
        show (match x.kind with | .matrix vs => _ | _ => _) = _
        cases hk : x.kind with
        | matrix vs => exact absurd ((h.held_iff t).2 ⟨x, vs, hx, hl, hk⟩) hh
        | block _ _ => rfl
        | iter _ _ => rfl

/-- A handle's values can be read. -/
theorem Views.bound {s : State α} {d : Doc α} {H : ℕ → Handle} {owed : List ℕ} (h : Views s d H owed) (o : ℕ)
    (x : Obj α) (hx : s.objects[o]? = some x) : ∀ j ∈ (H o).sel, j < (d.mats (H o).mat).length := by
  have hd := h.den o x hx
  cases hkind : x.kind with
  | matrix vs =>
    rw [hkind] at hd
    intro j hj
    rw [hd.1] at hj ⊢
    rw [hd.2.1]
    simpa using hj
  | block t sel =>
    rw [hkind] at hd
    intro j hj
    rw [hd.2.1] at hj
    rw [hd.1]
    exact hd.2.2.2.2.1 j hj
  | iter src pos =>
    rw [hkind] at hd
    exact hd.2.2.2.2

theorem Views.mat_lt {s : State α} {d : Doc α} {H : ℕ → Handle} {owed : List ℕ} (h : Views s d H owed) (o : ℕ)
    (x : Obj α) (hx : s.objects[o]? = some x) : (H o).mat < s.objects.length := by
  induction o using Nat.strong_induction_on generalizing x with
  | _ o ih =>
    have hd := h.den o x hx
    have hol := lt_of_get hx
    cases hkind : x.kind with
    | matrix vs =>
      rw [hkind] at hd
      rw [hd.1]
      exact hol
    | block t sel =>
      rw [hkind] at hd
      rw [hd.1]
      exact hd.2.2.2.1
    | iter src pos =>
      rw [hkind] at hd
      have hlt := h.heap.older o x src hx hd.1
      rw [hd.2.1]
      exact ih src hlt _ (List.getElem?_eq_getElem (by omega))

theorem Views.selection {s : State α} {d : Doc α} {H : ℕ → Handle} (h : Views s d H []) {o : ℕ}
    (x : Obj α) (hx : s.objects[o]? = some x) (hl : x.refs ≠ 0) :
    s.selection o = if (H o).iter = none then .ok ((H o).mat, (H o).sel) else .error .type := by
  have hd := h.den o x hx
  rw [State.selection, State.live, hx]
  simp only [if_neg hl]
  show (match x.kind with | .matrix vs => _ | .block _ _ => _ | .iter _ _ => _) = _
  cases hkind : x.kind with
  | matrix vs =>
    rw [hkind] at hd
    rw [hd.1]
    rfl
  | block t sel =>
    rw [hkind] at hd
    rw [if_pos hd.2.2.1, hd.1, hd.2.1]
  | iter src pos =>
    rw [hkind] at hd
    rw [hd.2.1]
    rfl

/-- Names agree. -/
theorem Views.load {s : State α} {d : Doc α} {H : ℕ → Handle} {owed : List ℕ} (h : Views s d H owed) (m : ℕ) :
    (s.load m = .error .name ∧ d.load m = .error .name) ∨
      ∃ o x, s.load m = .ok o ∧ d.load m = .ok (H o) ∧ s.objects[o]? = some x ∧ x.refs ≠ 0 := by
  rw [State.load, Doc.load, h.names, List.getElem?_map]
  cases hn : s.names[m]? with
  | none => exact Or.inl ⟨rfl, rfl⟩
  | some a =>
    cases a with
    | none => exact Or.inl ⟨rfl, rfl⟩
    | some o =>
      obtain ⟨x, hx, hl⟩ := h.heap.named (Or.inl (List.mem_of_getElem? hn))
      exact Or.inr ⟨o, x, rfl, rfl, hx, hl⟩

/-- Storing a result. -/
theorem Views.store {s : State α} {d : Doc α} {H : ℕ → Handle} (n : ℕ) (new : Option ℕ) (h : Views s d H new.toList) :
    Agree (s.store n new) (d.store n (new.map H)) := by
  rw [State.store, Doc.store]
  have hlen : d.names.length = s.names.length := by rw [h.names, List.length_map]
  cases hn : s.names[n]? with
  | none =>
    have : ¬ n < d.names.length := by
      rw [hlen]
      intro hc
      rw [List.getElem?_eq_getElem hc] at hn
      cases hn
    rw [if_neg this]
    exact rfl
  | some old =>
    have hlt : n < d.names.length := by
      rw [hlen]
      exact lt_of_get hn
    rw [if_pos hlt]
    have hset := set_heap s.objects s.names n old new hn h.heap
    have hnames : d.names.set n (new.map H) = (s.names.set n new).map (Option.map H) := by
      rw [h.names, List.map_set]
    cases old with
    | none => exact ⟨H, ⟨hset, h.den, hnames, h.count, h.log⟩⟩
    | some q =>
      have hq : q < s.objects.length := h.heap.dom q (Or.inl (List.mem_of_getElem? hn))
      obtain ⟨h1, h2, h3⟩ := decRef_heap s.objects.length s.objects (s.names.set n new) [] q hset hq
      refine ⟨H, ⟨h1, ?_, hnames, by rw [h2]; exact h.count, h.log⟩⟩
      intro o x hx
      have := h3 o
      rw [hx] at this
      cases ho : s.objects[o]? with
      | none =>
        rw [ho] at this
        cases this
      | some y =>
        rw [ho] at this
        have hs : x.shape = y.shape := Option.some.inj this
        have hd := h.den o y ho
        have e1 : x.kind = y.kind := congrArg Prod.fst hs
        have e2 : x.keeps = y.keeps := congrArg Prod.snd hs
        show Den (decRef s.objects.length s.objects q).length d H o x.kind x.keeps
        rw [e1, e2, h2]
        exact hd

/-- Denotations do not depend on younger objects. -/
theorem Den.mono {len len' : ℕ} {d d' : Doc α} {H H' : ℕ → Handle} {o : ℕ} {k : Kind α} {keeps : Option ℕ}
    (hd : Den len d H o k keeps) (hlen : len ≤ len') (hmats : ∀ i < len, d'.mats i = d.mats i)
    (hpos : d'.pos o = d.pos o) (hH : ∀ i ≤ o, H' i = H i) (hkeep : ∀ p, keeps = some p → p ≤ o) (ho : o < len)
    (hm : (H o).mat < len) : Den len' d' H' o k keeps := by
  cases k with
  | matrix vs =>
    obtain ⟨h1, h2, h3⟩ := hd
    exact ⟨by rw [hH o (le_refl _)]; exact h1, by rw [hmats o ho]; exact h2, h3⟩
  | block t sel =>
    obtain ⟨h1, h2, h3, h4, h5, h6⟩ := hd
    refine ⟨by rw [hH o (le_refl _)]; exact h1, by rw [hH o (le_refl _)]; exact h2,
      by rw [hH o (le_refl _)]; exact h3, by omega, by rw [hmats t h4]; exact h5, ?_⟩
    cases keeps with
    | none =>
      rw [hH o (le_refl _)]
      exact h6
    | some p =>
      dsimp only at h6 ⊢
      rw [hH o (le_refl _), hH p (hkeep p rfl)]
      exact h6
  | iter src pos =>
    obtain ⟨h1, h2, h3, h4, h5⟩ := hd
    refine ⟨h1, by rw [hH o (le_refl _), hH src (hkeep src h1)]; exact h2, by rw [hH src (hkeep src h1)]; exact h3,
      by rw [hpos]; exact h4, ?_⟩
    rw [hH o (le_refl _), hmats _ hm]
    exact h5

/-- Making an object. -/
theorem Views.push {s : State α} {d d' : Doc α} {H : ℕ → Handle} (h : Views s d H []) (k : Kind α) (keeps : Option ℕ)
    (hk : ∀ p, keeps = some p → ∃ x, s.objects[p]? = some x ∧ x.refs ≠ 0) (hn : Handle)
    (hmats : ∀ i < s.objects.length, d'.mats i = d.mats i) (hpos : ∀ i < s.objects.length, d'.pos i = d.pos i)
    (hcount : d'.count = d.count + 1) (hnames : d'.names = d.names) (hlog : d'.log = d.log)
    (hd : Den (s.objects.length + 1) d' (Function.update H s.objects.length hn) s.objects.length k keeps) :
    Views (s.push k keeps) d' (Function.update H s.objects.length hn) [s.objects.length] := by
  have key : ∃ objs : List (Obj α), s.push k keeps = { s with objects := objs ++ [⟨k, keeps, 1⟩] } ∧
      Heap objs s.names keeps.toList ∧ objs.length = s.objects.length ∧
      (∀ i : ℕ, (objs[i]?).map Obj.shape = (s.objects[i]?).map Obj.shape) := by
    cases keeps with
    | none => exact ⟨s.objects, rfl, h.heap, rfl, fun _ => rfl⟩
    | some p =>
      obtain ⟨x, hx, hl⟩ := hk p rfl
      obtain ⟨h1, h2, h3⟩ := incRef_heap s.objects s.names [] p h.heap (lt_of_get hx) (fun y hy => by
        rw [hx] at hy
        cases hy
        exact hl)
      exact ⟨_, rfl, h1, h2, h3⟩
  obtain ⟨objs, hpush, h1, h2, h3⟩ := key
  rw [hpush]
  have hheap := append_heap objs s.names k keeps h1
  rw [h2] at hheap
  have hlen : (objs ++ [(⟨k, keeps, 1⟩ : Obj α)]).length = s.objects.length + 1 := by simp [h2]
  refine ⟨hheap, ?_, ?_, ?_, ?_⟩
  · intro o x hx
    show Den (objs ++ [(⟨k, keeps, 1⟩ : Obj α)]).length d' _ o x.kind x.keeps
    rw [hlen]
    have hx' : (objs ++ [(⟨k, keeps, 1⟩ : Obj α)])[o]? = some x := hx
    have hol := lt_of_get hx'
    rw [hlen] at hol
    rcases Nat.lt_or_ge o s.objects.length with hlt | hge
    · rw [List.getElem?_append_left (by omega)] at hx'
      have := h3 o
      rw [hx', List.getElem?_eq_getElem hlt] at this
      have hs : x.shape = s.objects[o].shape := Option.some.inj this
      have e1 : x.kind = s.objects[o].kind := congrArg Prod.fst hs
      have e2 : x.keeps = s.objects[o].keeps := congrArg Prod.snd hs
      have hy := List.getElem?_eq_getElem hlt
      rw [e1, e2]
      refine (h.den o _ hy).mono (Nat.le_succ _) hmats (hpos o hlt) ?_ ?_ hlt (h.mat_lt o _ hy)
      · intro i hi
        rw [Function.update_of_ne (by omega)]
      · intro p hp
        exact le_of_lt (h.heap.older o _ p hy hp)
    · have : o = s.objects.length := by omega
      subst this
      rw [List.getElem?_append_right (by omega), h2] at hx'
      simp only [Nat.sub_self, List.getElem?_cons_zero, Option.some.injEq] at hx'
      subst hx'
      exact hd
  · rw [hnames, h.names]
    apply List.map_congr_left
    intro a ha
    cases a with
    | none => rfl
    | some o =>
      have := h.heap.dom o (Or.inl ha)
      rw [Option.map_some, Option.map_some, Function.update_of_ne (by omega)]
  · show d'.count = (objs ++ [(⟨k, keeps, 1⟩ : Obj α)]).length
    rw [hlen, hcount, h.count]
  · exact hlog.trans h.log

theorem pick_mem {sel : List ℕ} {picks sel' : List ℕ} (h : pick sel picks = .ok sel') : ∀ j ∈ sel', j ∈ sel := by
  induction picks generalizing sel' with
  | nil =>
    cases h
    simp
  | cons k ks ih =>
    rw [pick] at h
    cases hk : sel[k]? with
    | none =>
      rw [hk] at h
      cases h
    | some j =>
      rw [hk] at h
      cases hp : pick sel ks with
      | error e =>
        rw [hp] at h
        cases h
      | ok l =>
        rw [hp] at h
        cases h
        intro i hi
        rcases List.mem_cons.1 hi with rfl | hi
        · exact List.mem_of_getElem? hk
        · exact ih hp i hi

/-- A change to one object's contents. -/
theorem Views.change {s : State α} {d d' : Doc α} {H : ℕ → Handle} (h : Views s d H []) (o : ℕ) (x y : Obj α)
    (hx : s.objects[o]? = some x) (hr : y.refs = x.refs) (hkp : y.keeps = x.keeps) (l : List (Option α))
    (hden : Den s.objects.length d' H o y.kind y.keeps)
    (hother : ∀ (i : ℕ) (z : Obj α), i ≠ o → s.objects[i]? = some z → Den s.objects.length d' H i z.kind z.keeps)
    (hnames : d'.names = d.names) (hcount : d'.count = d.count) (hlog : d'.log = l) :
    Views { s with objects := s.objects.set o y, log := l } d' H [] := by
  have hol := lt_of_get hx
  have hget : ∀ i z, (s.objects.set o y)[i]? = some z → (i = o ∧ z = y) ∨ (i ≠ o ∧ s.objects[i]? = some z) := by
    intro i z hz
    by_cases hi : o = i
    · subst hi
      rw [List.getElem?_set_self hol] at hz
      left
      exact ⟨rfl, (Option.some.inj hz).symm⟩
    · rw [List.getElem?_set_ne hi] at hz
      exact Or.inr ⟨fun h => hi h.symm, hz⟩
  have hks : ∀ q, keepers (s.objects.set o y) q = keepers s.objects q := by
    intro q
    have := countP_set_add (Obj.keeper q) s.objects o x y hx
    have h2 : Obj.keeper q y = Obj.keeper q x := by
      rw [Obj.keeper, Obj.keeper, hr, hkp]
    rw [h2] at this
    unfold keepers
    omega
  refine ⟨⟨?_, ?_, ?_⟩, ?_, hnames.trans h.names, ?_, hlog⟩
  · intro i z hz
    have hz' : (s.objects.set o y)[i]? = some z := hz
    show z.refs = s.names.count (some i) + keepers (s.objects.set o y) i + _
    rw [hks]
    rcases hget i z hz' with ⟨rfl, rfl⟩ | ⟨hi, hz'⟩
    · rw [hr]
      exact h.heap.count i x hx
    · exact h.heap.count i z hz'
  · intro i hi
    show i < (s.objects.set o y).length
    rw [List.length_set]
    exact h.heap.dom i hi
  · intro i z p hz hp
    rcases hget i z hz with ⟨rfl, rfl⟩ | ⟨hi, hz'⟩
    · exact h.heap.older i x p hx (hkp ▸ hp)
    · exact h.heap.older i z p hz' hp
  · intro i z hz
    show Den (s.objects.set o y).length d' H i z.kind z.keeps
    rw [List.length_set]
    rcases hget i z hz with ⟨rfl, rfl⟩ | ⟨hi, hz'⟩
    · exact hden
    · exact hother i z hi hz'
  · show d'.count = (s.objects.set o y).length
    rw [List.length_set, hcount, h.count]

/-- Sources of views agree. -/
theorem Views.source {s : State α} {d : Doc α} {H : ℕ → Handle} (h : Views s d H []) (m : ℕ) :
    (∃ e, s.load m = .error e ∧ d.source m = .error e) ∨
      (∃ o e, s.load m = .ok o ∧ s.selection o = .error e ∧ d.source m = .error e) ∨
      ∃ o x, s.load m = .ok o ∧ s.selection o = .ok ((H o).mat, (H o).sel) ∧ d.source m = .ok (H o) ∧
        s.objects[o]? = some x ∧ x.refs ≠ 0 ∧ (H o).iter = none := by
  rcases h.load m with ⟨h1, h2⟩ | ⟨o, x, h1, h2, hx, hl⟩
  · exact Or.inl ⟨.name, h1, by simp only [Doc.source, h2, bind, Except.bind]⟩
  · right
    have hs := h.selection x hx hl
    by_cases hi : (H o).iter = none
    · rw [if_pos hi] at hs
      exact Or.inr ⟨o, x, h1, hs, by simp only [Doc.source, h2, bind, Except.bind, if_pos hi], hx, hl, hi⟩
    · rw [if_neg hi] at hs
      exact Or.inl ⟨o, .type, h1, hs, by simp only [Doc.source, h2, bind, Except.bind, if_neg hi]⟩

/-- A new view of what a name refers to. -/
theorem Views.view {s : State α} {d : Doc α} {H : ℕ → Handle} (h : Views s d H []) (n : ℕ) {picks sel' : List ℕ}
    (keep : Bool) {o : ℕ} {x : Obj α} (hx : s.objects[o]? = some x) (hl : x.refs ≠ 0)
    (hp : pick (H o).sel picks = .ok sel') :
    Agree ((s.push (.block (H o).mat sel') (if keep then some o else none)).store n (some s.objects.length))
      ({ d with count := d.count + 1 : Doc α }.store n (some ⟨(H o).mat, sel', keep && (H o).keep, none⟩)) := by
  set hn : Handle := ⟨(H o).mat, sel', keep && (H o).keep, none⟩ with hhn
  have hol := lt_of_get hx
  have hv := h.push (d' := { d with count := d.count + 1 }) (.block (H o).mat sel') (if keep then some o else none)
    (by
      intro p hp
      cases keep with
      | false => cases hp
      | true =>
        cases hp
        exact ⟨x, hx, hl⟩) hn (fun _ _ => rfl) (fun _ _ => rfl) rfl rfl rfl (by
      refine ⟨by simp [hhn], by simp [hhn], by simp [hhn], ?_, ?_, ?_⟩
      · have := h.mat_lt o x hx
        omega
      · intro j hj
        exact h.bound o x hx j (pick_mem hp j hj)
      · cases keep with
        | false => simp [hhn]
        | true =>
          show _ ∧ _
          rw [Function.update_of_ne (by omega), Function.update_self]
          simp [hhn])
  have hs := Views.store n (some s.objects.length) hv
  rwa [Option.map_some, Function.update_self] at hs

theorem Views.access {s : State α} {d : Doc α} {H : ℕ → Handle} (h : Views s d H []) {o : ℕ} {x : Obj α}
    (hx : s.objects[o]? = some x) {j : ℕ} (hj : j ∈ (H o).sel) :
    (∃ vs v y, s.values (H o).mat = .ok vs ∧ vs[j]? = some v ∧ d.access true (H o) j = .ok j ∧
      d.mats (H o).mat = vs ∧ s.live (H o).mat = .ok y ∧ s.objects[(H o).mat]? = some y ∧ y.kind = .matrix vs) ∨
    (s.values (H o).mat = .error .undefined ∧ d.access true (H o) j = .error .undefined ∧
      ∀ e, s.live (H o).mat = .error e → e = .undefined) := by
  have hv := h.values (H o).mat
  by_cases hh : d.held (H o).mat = true
  · left
    have hjl := h.bound o x hx j hj
    rw [if_pos hh] at hv
    obtain ⟨y, vs, hy, hyl, hyk⟩ := (h.held_iff _).1 hh
    have hyd := h.den _ y hy
    rw [hyk] at hyd
    refine ⟨_, _, y, hv, List.getElem?_eq_getElem hjl, ?_, rfl, ?_, hy, ?_⟩
    · simp [Doc.access, hh]
    · rw [State.live, hy]
      exact if_neg hyl
    · rw [hyk, hyd.2.1]
  · right
    rw [if_neg hh] at hv
    refine ⟨hv, by simp [Doc.access, hh], fun e he => ?_⟩
    rw [State.live] at he
    split at he
    · split_ifs at he
      exact (Except.error.inj he).symm
    · exact (Except.error.inj he).symm

theorem Views.step {s : State α} {d : Doc α} {H : ℕ → Handle} (h : Views s d H []) (op : Op α) :
    Agree (PyView.step s op) (Doc.step true d op) := by
  cases op with
  | matrix n vs =>
    set hn : Handle := ⟨d.count, List.range vs.length, true, none⟩ with hhn
    have hv := h.push (d' := { d with count := d.count + 1, mats := Function.update d.mats d.count vs }) (.matrix vs) none
      (fun p hp => by cases hp) hn (fun i hi => by
        show Function.update d.mats d.count vs i = _
        rw [h.count, Function.update_of_ne (by omega)]) (fun _ _ => rfl) rfl rfl rfl (by
        refine ⟨?_, ?_, rfl⟩
        · rw [Function.update_self, hhn, h.count]
        · show Function.update d.mats d.count vs _ = _
          rw [h.count, Function.update_self])
    have hs := Views.store n (some s.objects.length) hv
    rwa [Option.map_some, Function.update_self] at hs
  | slice n m picks =>
    rcases h.source m with ⟨e, h1, h2⟩ | ⟨o, e, h1, h2, h3⟩ | ⟨o, x, h1, h2, h3, hx, hl, hi⟩
    · simp only [PyView.step, Doc.step, bind, Except.bind, h1, h2]
      exact rfl
    · simp only [PyView.step, Doc.step, bind, Except.bind, h1, h2, h3]
      exact rfl
    · simp only [PyView.step, Doc.step, bind, Except.bind, h1, h2, h3, choose_eq]
      cases hp : pick (H o).sel picks with
      | error e => exact rfl
      | ok sel' =>
        have := h.view n true hx hl hp
        rw [if_pos rfl, Bool.true_and] at this
        exact this
  | line n m picks =>
    rcases h.source m with ⟨e, h1, h2⟩ | ⟨o, e, h1, h2, h3⟩ | ⟨o, x, h1, h2, h3, hx, hl, hi⟩
    · simp only [PyView.step, Doc.step, bind, Except.bind, h1, h2]
      exact rfl
    · simp only [PyView.step, Doc.step, bind, Except.bind, h1, h2, h3]
      exact rfl
    · simp only [PyView.step, Doc.step, bind, Except.bind, h1, h2, h3, choose_eq]
      cases hp : pick (H o).sel picks with
      | error e => exact rfl
      | ok sel' =>
        have := h.view n false hx hl hp
        rw [if_neg (by decide), Bool.false_and] at this
        exact this
  | iter n m =>
    rcases h.source m with ⟨e, h1, h2⟩ | ⟨o, e, h1, h2, h3⟩ | ⟨o, x, h1, h2, h3, hx, hl, hi⟩
    · simp only [PyView.step, Doc.step, bind, Except.bind, h1, h2]
      exact rfl
    · simp only [PyView.step, Doc.step, bind, Except.bind, h1, h2, h3]
      exact rfl
    · simp only [PyView.step, Doc.step, bind, Except.bind, h1, h2, h3]
      set hn : Handle := ⟨(H o).mat, (H o).sel, (H o).keep, some d.count⟩ with hhn
      have hol := lt_of_get hx
      have hv := h.push (d' := { d with count := d.count + 1, pos := Function.update d.pos d.count 0 }) (.iter o 0)
        (some o) (by
          intro p hp
          cases hp
          exact ⟨x, hx, hl⟩) hn (fun _ _ => rfl) (fun i hi => by
          show Function.update d.pos d.count 0 i = _
          rw [h.count, Function.update_of_ne (by omega)]) rfl rfl rfl (by
          refine ⟨rfl, ?_, ?_, ?_, ?_⟩
          · rw [Function.update_self, Function.update_of_ne (by omega), hhn, h.count]
          · rw [Function.update_of_ne (by omega)]
            exact hi
          · show Function.update d.pos d.count 0 _ = _
            rw [h.count, Function.update_self]
          · rw [Function.update_self]
            exact h.bound o x hx)
      have hs := Views.store n (some s.objects.length) hv
      rwa [Option.map_some, Function.update_self] at hs
  | next m =>
    rcases h.load m with ⟨h1, h2⟩ | ⟨o, x, h1, h2, hx, hl⟩
    · simp only [PyView.step, Doc.step, bind, Except.bind, h1, h2]
      exact rfl
    · have hlive : s.live o = .ok x := by
        rw [State.live, hx]
        exact if_neg hl
      have hd := h.den o x hx
      simp only [PyView.step, Doc.step, bind, Except.bind, h1, h2, hlive]
      cases hkind : x.kind with
      | matrix vs =>
        rw [hkind] at hd
        rw [hd.1]
        exact rfl
      | block t sel =>
        rw [hkind] at hd
        rw [hd.2.2.1]
        exact rfl
      | iter src pos =>
        rw [hkind] at hd
        obtain ⟨e1, e2, e3, e4, e5⟩ := hd
        obtain ⟨y, hy, hyl⟩ := h.heap.kept hx hl e1
        have hsel : s.selection src = .ok ((H o).mat, (H o).sel) := by
          rw [h.selection y hy hyl, if_pos e3, e2]
        have hio : (H o).iter = some o := by rw [e2]
        simp only [hsel, hio, e4]
        cases hj : (H o).sel[pos]? with
        | none => exact ⟨H, ⟨h.heap, h.den, h.names, h.count, by show d.log ++ _ = s.log ++ _; rw [h.log]⟩⟩
        | some j =>
          rcases h.access hx (List.mem_of_getElem? hj) with ⟨vs, v, w, a1, a2, a3, a4, a5, a6, a7⟩ | ⟨a1, a2, -⟩
          · simp only [a1, a2, a3, a4]
            refine ⟨H, ?_⟩
            apply h.change o x { x with kind := .iter src (pos + 1) } hx rfl rfl _ ?_ ?_ ?_ ?_ ?_
            rotate_left 2
            · rfl
            · rfl
            · show d.log ++ _ = s.log ++ _
              rw [h.log]
            · refine ⟨e1, e2, e3, ?_, e5⟩
              show Function.update d.pos o (pos + 1) o = _
              rw [Function.update_self]
            · intro i z hi hz
              have hzd := h.den i z hz
              refine hzd.mono (le_refl _) (fun _ _ => rfl) ?_ (fun _ _ => rfl) ?_ (lt_of_get hz) (h.mat_lt i z hz)
              · show Function.update d.pos o (pos + 1) i = _
                rw [Function.update_of_ne hi]
              · intro p hp
                exact le_of_lt (h.heap.older i z p hz hp)
          · simp only [a1, a2]
            exact rfl
  | copy n m =>
    rcases h.load m with ⟨h1, h2⟩ | ⟨o, x, h1, h2, hx, hl⟩
    · simp only [PyView.step, Doc.step, bind, Except.bind, h1, h2]
      exact rfl
    · simp only [PyView.step, Doc.step, bind, Except.bind, h1, h2]
      obtain ⟨i1, i2, i3⟩ := incRef_heap s.objects s.names [] o h.heap (lt_of_get hx) (fun y hy => by
        rw [hx] at hy
        cases hy
        exact hl)
      refine Views.store (s := { s with objects := incRef s.objects o }) n (some o) ⟨i1, ?_, h.names, ?_, h.log⟩
      · intro i z hz
        have := i3 i
        have hz' : (incRef s.objects o)[i]? = some z := hz
        rw [hz'] at this
        cases hi : s.objects[i]? with
        | none =>
          rw [hi] at this
          cases this
        | some y =>
          rw [hi] at this
          have hs : z.shape = y.shape := Option.some.inj this
          have e1 : z.kind = y.kind := congrArg Prod.fst hs
          have e2 : z.keeps = y.keeps := congrArg Prod.snd hs
          show Den (incRef s.objects o).length d H i z.kind z.keeps
          rw [e1, e2, i2]
          exact h.den i y hi
      · show d.count = (incRef s.objects o).length
        rw [i2, h.count]
  | del n =>
    rcases h.load n with ⟨h1, h2⟩ | ⟨o, x, h1, h2, hx, hl⟩
    · simp only [PyView.step, Doc.step, bind, Except.bind, h1, h2]
      exact rfl
    · simp only [PyView.step, Doc.step, bind, Except.bind, h1, h2]
      exact Views.store n none h
  | get m k =>
    rcases h.source m with ⟨e, h1, h2⟩ | ⟨o, e, h1, h2, h3⟩ | ⟨o, x, h1, h2, h3, hx, hl, hi⟩
    · simp only [PyView.step, Doc.step, bind, Except.bind, h1, h2]
      exact rfl
    · simp only [PyView.step, Doc.step, bind, Except.bind, h1, h2, h3]
      exact rfl
    · simp only [PyView.step, Doc.step, bind, Except.bind, h1, h2, h3]
      cases hj : (H o).sel[k]? with
      | none => exact rfl
      | some j =>
        rcases h.access hx (List.mem_of_getElem? hj) with ⟨vs, v, w, a1, a2, a3, a4, a5, a6, a7⟩ | ⟨a1, a2, -⟩
        · simp only [a1, a2, a3, a4]
          exact ⟨H, ⟨h.heap, h.den, h.names, h.count, by show d.log ++ _ = s.log ++ _; rw [h.log]⟩⟩
        · simp only [a1, a2]
          exact rfl
  | set m k v =>
    rcases h.source m with ⟨e, h1, h2⟩ | ⟨o, e, h1, h2, h3⟩ | ⟨o, x, h1, h2, h3, hx, hl, hi⟩
    · simp only [PyView.step, Doc.step, bind, Except.bind, h1, h2]
      exact rfl
    · simp only [PyView.step, Doc.step, bind, Except.bind, h1, h2, h3]
      exact rfl
    · simp only [PyView.step, Doc.step, bind, Except.bind, h1, h2, h3]
      cases hj : (H o).sel[k]? with
      | none => exact rfl
      | some j =>
        have hjm := List.mem_of_getElem? hj
        rcases h.access hx hjm with ⟨vs, w, y, a1, a2, a3, a4, a5, a6, a7⟩ | ⟨a1, a2, a3⟩
        · have hyd := h.den _ y a6
          rw [a7] at hyd
          simp only [a1, a3, a5, if_pos (lt_of_get a2)]
          refine ⟨H, ?_⟩
          apply h.change (H o).mat y { y with kind := .matrix (vs.set j v) } a6 rfl rfl s.log ?_ ?_ ?_ ?_ ?_
          rotate_left 2
          · rfl
          · rfl
          · exact h.log
          · refine ⟨?_, ?_, hyd.2.2⟩
            · rw [hyd.1, List.length_set]
            · show Function.update d.mats _ _ _ = _
              rw [Function.update_self, a4]
          · intro i z hi hz
            have hlen : ∀ t, (Function.update d.mats (H o).mat ((d.mats (H o).mat).set j v) t).length =
                (d.mats t).length := by
              intro t
              by_cases ht : t = (H o).mat
              · rw [ht, Function.update_self, List.length_set]
              · rw [Function.update_of_ne ht]
            have hzd := h.den i z hz
            cases hzk : z.kind with
            | matrix ws =>
              rw [hzk] at hzd
              refine ⟨hzd.1, ?_, hzd.2.2⟩
              show Function.update d.mats _ _ _ = _
              rw [Function.update_of_ne hi]
              exact hzd.2.1
            | block t sel =>
              rw [hzk] at hzd
              obtain ⟨b1, b2, b3, b4, b5, b6⟩ := hzd
              refine ⟨b1, b2, b3, b4, ?_, b6⟩
              intro q hq
              show q < (Function.update d.mats _ _ t).length
              rw [hlen]
              exact b5 q hq
            | iter src pos =>
              rw [hzk] at hzd
              obtain ⟨b1, b2, b3, b4, b5⟩ := hzd
              refine ⟨b1, b2, b3, b4, ?_⟩
              intro q hq
              show q < (Function.update d.mats _ _ _).length
              rw [hlen]
              exact b5 q hq
        · cases hlive : s.live (H o).mat with
          | ok y =>
            simp only [a1, a2]
            exact rfl
          | error e =>
            simp only [a2]
            exact a3 e hlive

theorem Views.run {s : State α} {d : Doc α} {H : ℕ → Handle} (h : Views s d H []) (prog : List (Op α)) :
    Agree (prog.foldlM PyView.step s) (prog.foldlM (Doc.step true) d) := by
  induction prog generalizing s d H with
  | nil => exact ⟨H, h⟩
  | cons op prog ih =>
    have hs := h.step op
    rw [List.foldlM_cons, List.foldlM_cons]
    cases h1 : PyView.step s op with
    | error e =>
      cases h2 : Doc.step true d op with
      | error f =>
        rw [h1, h2] at hs
        exact hs
      | ok d' =>
        rw [h1, h2] at hs
        exact hs.elim
    | ok s' =>
      cases h2 : Doc.step true d op with
      | error f =>
        rw [h1, h2] at hs
        exact hs.elim
      | ok d' =>
        rw [h1, h2] at hs
        obtain ⟨H', hv⟩ := hs
        exact ih hv

theorem run_agree (k : ℕ) (prog : List (Op α)) : Agree (run k prog) (Doc.run true k prog) := by
  have h0 : Views (⟨[], List.replicate k none, []⟩ : State α) ⟨0, fun _ => [], fun _ => 0, List.replicate k none, []⟩
      (fun _ => ⟨0, [], false, none⟩) [] := by
    refine ⟨⟨?_, ?_, ?_⟩, ?_, ?_, rfl, rfl⟩
    · intro o x hx
      simp at hx
    · intro o ho
      rcases ho with ho | ho
      · have := List.eq_of_mem_replicate ho
        cases this
      · cases ho
    · intro o x p hx
      simp at hx
    · intro o x hx
      simp at hx
    · simp
  exact h0.run prog

end Slp.PyView
