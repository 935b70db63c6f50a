import Verif.Python.PyViewSpec
import Mathlib.Tactic.Linarith
import Mathlib.Tactic.SplitIfs

/-!
Reference counts are the numbers of references, so that the matrices that exist are those that names keep.
-/

namespace Slp.PyView

variable {α : Type}

/-- Whether the object exists and keeps `o`. -/
def Obj.keeper (o : ℕ) (x : Obj α) : Bool := x.refs != 0 && x.keeps == some o

/-- The number of objects that exist and keep `o`. -/
def keepers (objs : List (Obj α)) (o : ℕ) : ℕ := objs.countP (Obj.keeper o)

theorem countP_set_add {β : Type} (f : β → Bool) (l : List β) (i : ℕ) (x y : β) (h : l[i]? = some x) :
    (l.set i y).countP f + (if f x then 1 else 0) = l.countP f + (if f y then 1 else 0) := by
  induction l generalizing i with
  | nil => simp at h
  | cons a l ih =>
    cases i with
    | zero =>
      simp only [List.getElem?_cons_zero, Option.some.injEq] at h
      subst h
      simp only [List.set_cons_zero, List.countP_cons]
      omega
    | succ i =>
      simp only [List.getElem?_cons_succ] at h
      have := ih i h
      simp only [List.set_cons_succ, List.countP_cons]
      omega

/-- Every object has as many references as there are: from names, from objects that keep it, and from results that have
not been stored yet. -/
structure Heap (objs : List (Obj α)) (names : List (Option ℕ)) (owed : List ℕ) : Prop where
  count : ∀ (o : ℕ) (x : Obj α), objs[o]? = some x → x.refs = names.count (some o) + keepers objs o + owed.count o
  dom : ∀ o, some o ∈ names ∨ o ∈ owed → o < objs.length
  older : ∀ (o : ℕ) (x : Obj α) (p : ℕ), objs[o]? = some x → x.keeps = some p → p < o

/-- What a reference count cannot change. -/
def Obj.shape (x : Obj α) : Kind α × Option ℕ := (x.kind, x.keeps)

theorem getElem?_set_shape {objs : List (Obj α)} {o : ℕ} {x y : Obj α} (h : objs[o]? = some x) (hs : y.shape = x.shape)
    (i : ℕ) : ((objs.set o y)[i]?).map Obj.shape = (objs[i]?).map Obj.shape := by
  by_cases hi : o = i
  · subst hi
    have hl : o < objs.length := by
      by_contra hc
      rw [List.getElem?_eq_none (by omega)] at h
      cases h
    rw [List.getElem?_set_self hl, h]
    simp [hs]
  · rw [List.getElem?_set_ne hi]

theorem choose_eq (sel picks : List ℕ) : Doc.choose sel picks = pick sel picks := by
  induction picks with
  | nil => rfl
  | cons k ks ih =>
    rw [pick, ← ih, Doc.choose, Doc.choose, List.mapM_cons]
    cases sel[k]? with
    | none => rfl
    | some j =>
      simp only [bind, Option.bind, Except.bind]
      cases ks.mapM (sel[·]?) with
      | none => rfl
      | some l => rfl

theorem lt_of_get {β : Type} {l : List β} {i : ℕ} {x : β} (h : l[i]? = some x) : i < l.length := by
  by_contra hc
  rw [List.getElem?_eq_none (by omega)] at h
  cases h

theorem decRef_heap (fuel : ℕ) (objs : List (Obj α)) (names : List (Option ℕ)) (owed : List ℕ) (o : ℕ)
    (hh : Heap objs names (o :: owed)) (hf : o < fuel) :
    Heap (decRef fuel objs o) names owed ∧ (decRef fuel objs o).length = objs.length ∧
      ∀ i : ℕ, ((decRef fuel objs o)[i]?).map Obj.shape = (objs[i]?).map Obj.shape := by
  induction fuel generalizing objs o owed with
  | zero => omega
  | succ fuel ih =>
    have hol : o < objs.length := hh.dom o (Or.inr (by simp))
    obtain ⟨x, hx⟩ : ∃ x, objs[o]? = some x := ⟨objs[o], List.getElem?_eq_getElem hol⟩
    have hc := hh.count o x hx
    simp only [List.count_cons_self] at hc
    have hget : ∀ (y : Obj α) i z, (objs.set o y)[i]? = some z → (i = o ∧ z = y) ∨ (i ≠ o ∧ objs[i]? = some z) := by
      intro y i z hz
      by_cases hi : o = i
      · subst hi
        rw [List.getElem?_set_self hol] at hz
        left
        exact ⟨rfl, (Option.some.inj hz).symm⟩
      · rw [List.getElem?_set_ne hi] at hz
        exact Or.inr ⟨fun h => hi h.symm, hz⟩
    rw [decRef, hx]
    dsimp only
    by_cases h1 : x.refs = 1
    · simp only [if_pos h1]
      have hn0 : names.count (some o) = 0 := by omega
      have hk0 : keepers objs o = 0 := by omega
      have ho0 : owed.count o = 0 := by omega
      have hks : ∀ q, keepers (objs.set o { x with refs := 0 }) q + (if x.keeps = some q then 1 else 0) =
          keepers objs q := by
        intro q
        have := countP_set_add (Obj.keeper q) objs o x { x with refs := 0 } hx
        simpa [Obj.keeper, h1, keepers] using this
      have hself : x.keeps ≠ some o := fun h => by
        have := hh.older o x o hx h
        omega
      have hbase : ∀ owed' : List ℕ, (∀ q, owed'.count q = owed.count q + (if x.keeps = some q then 1 else 0)) →
          (∀ q, q ∈ owed' → q < objs.length) → Heap (objs.set o { x with refs := 0 }) names owed' := by
        intro owed' hcnt hdom
        refine ⟨?_, ?_, ?_⟩
        · intro i z hz
          rcases hget _ i z hz with ⟨rfl, rfl⟩ | ⟨hi, hz⟩
          · have h2 := hks i
            have h3 := hcnt i
            rw [if_neg hself] at h2 h3
            show 0 = _
            omega
          · have h2 := hks i
            have h3 := hcnt i
            have h4 := hh.count i z hz
            rw [List.count_cons_of_ne (fun h => hi h.symm)] at h4
            omega
        · intro i hi
          rw [List.length_set]
          rcases hi with hi | hi
          · exact hh.dom i (Or.inl hi)
          · exact hdom i hi
        · intro i z p hz hp
          rcases hget _ i z hz with ⟨rfl, rfl⟩ | ⟨hi, hz⟩
          · exact hh.older i x p hx hp
          · exact hh.older i z p hz hp
      have howed : ∀ q, q ∈ owed → q < objs.length := fun q hq => hh.dom q (Or.inr (by simp [hq]))
      cases hkeep : x.keeps with
      | none =>
        have hb := hbase owed (fun q => by simp [hkeep]) howed
        rw [hkeep] at hb
        refine ⟨hb, by simp, ?_⟩
        exact fun i => getElem?_set_shape hx (by simp [Obj.shape, hkeep]) i
      | some p =>
        have hpo : p < o := hh.older o x p hx hkeep
        have := ih (objs.set o { x with refs := 0 }) (owed) p
          (hbase (p :: owed) (fun q => by
            rw [List.count_cons, hkeep]
            simp) (fun q hq => by
              rcases List.mem_cons.1 hq with rfl | hq
              · omega
              · exact howed q hq)) (by omega)
        rw [hkeep] at this
        refine ⟨this.1, by rw [this.2.1, List.length_set], fun i => ?_⟩
        rw [this.2.2 i]
        exact getElem?_set_shape hx (by simp [Obj.shape, hkeep]) i
    · simp only [if_neg h1]
      have hks : ∀ q, keepers (objs.set o { x with refs := x.refs - 1 }) q = keepers objs q := by
        intro q
        have := countP_set_add (Obj.keeper q) objs o x { x with refs := x.refs - 1 } hx
        have h2 : Obj.keeper q { x with refs := x.refs - 1 } = Obj.keeper q x := by
          have h3 : x.refs - 1 ≠ 0 := by omega
          have h4 : x.refs ≠ 0 := by omega
          have e3 : (x.refs - 1 != 0) = true := by simpa using h3
          have e4 : (x.refs != 0) = true := by simpa using h4
          simp only [Obj.keeper, e3, e4]
        rw [h2] at this
        unfold keepers
        omega
      refine ⟨⟨?_, ?_, ?_⟩, by simp, fun i => getElem?_set_shape hx (by simp [Obj.shape]) i⟩
      · intro i z hz
        rw [hks]
        rcases hget _ i z hz with ⟨rfl, rfl⟩ | ⟨hi, hz⟩
        · show x.refs - 1 = _
          omega
        · have h4 := hh.count i z hz
          rw [List.count_cons_of_ne (fun h => hi h.symm)] at h4
          exact h4
      · intro i hi
        rw [List.length_set]
        exact hh.dom i (hi.imp id fun h => by simp [h])
      · intro i z p hz hp
        rcases hget _ i z hz with ⟨rfl, rfl⟩ | ⟨hi, hz⟩
        · exact hh.older i x p hx hp
        · exact hh.older i z p hz hp

theorem incRef_heap (objs : List (Obj α)) (names : List (Option ℕ)) (owed : List ℕ) (o : ℕ)
    (hh : Heap objs names owed) (ho : o < objs.length) (hlive : ∀ x, objs[o]? = some x → x.refs ≠ 0) :
    Heap (incRef objs o) names (o :: owed) ∧ (incRef objs o).length = objs.length ∧
      (∀ i : ℕ, ((incRef objs o)[i]?).map Obj.shape = (objs[i]?).map Obj.shape) := by
  obtain ⟨x, hx⟩ : ∃ x, objs[o]? = some x := ⟨objs[o], List.getElem?_eq_getElem ho⟩
  have hl := hlive x hx
  have hget : ∀ (y : Obj α) i z, (objs.set o y)[i]? = some z → (i = o ∧ z = y) ∨ (i ≠ o ∧ objs[i]? = some z) := by
    intro y i z hz
    by_cases hi : o = i
    · subst hi
      rw [List.getElem?_set_self ho] at hz
      left
      exact ⟨rfl, (Option.some.inj hz).symm⟩
    · rw [List.getElem?_set_ne hi] at hz
      exact Or.inr ⟨fun h => hi h.symm, hz⟩
  rw [incRef, hx]
  dsimp only
  have hks : ∀ q, keepers (objs.set o { x with refs := x.refs + 1 }) q = keepers objs q := by
    intro q
    have := countP_set_add (Obj.keeper q) objs o x { x with refs := x.refs + 1 } hx
    have h2 : Obj.keeper q { x with refs := x.refs + 1 } = Obj.keeper q x := by
      simp [Obj.keeper, hl]
    rw [h2] at this
    unfold keepers
    omega
  refine ⟨⟨?_, ?_, ?_⟩, by simp, fun i => getElem?_set_shape hx (by simp [Obj.shape]) i⟩
  · intro i z hz
    rw [hks]
    rcases hget _ i z hz with ⟨rfl, rfl⟩ | ⟨hi, hz⟩
    · have := hh.count i x hx
      rw [List.count_cons_self]
      show x.refs + 1 = _
      omega
    · rw [List.count_cons_of_ne (fun h => hi h.symm)]
      exact hh.count i z hz
  · intro i hi
    rw [List.length_set]
    rcases hi with hi | hi
    · exact hh.dom i (Or.inl hi)
    · rcases List.mem_cons.1 hi with rfl | hi
      · exact ho
      · exact hh.dom i (Or.inr hi)
  · intro i z p hz hp
    rcases hget _ i z hz with ⟨rfl, rfl⟩ | ⟨hi, hz⟩
    · exact hh.older i x p hx hp
    · exact hh.older i z p hz hp

/-- A new object takes over a reference to what it keeps, and is owed one itself. -/
theorem append_heap (objs : List (Obj α)) (names : List (Option ℕ)) (k : Kind α) (keeps : Option ℕ)
    (hh : Heap objs names keeps.toList) : Heap (objs ++ [⟨k, keeps, 1⟩]) names [objs.length] := by
  have hget : ∀ i z, (objs ++ [(⟨k, keeps, 1⟩ : Obj α)])[i]? = some z →
      (i = objs.length ∧ z = ⟨k, keeps, 1⟩) ∨ (i < objs.length ∧ objs[i]? = some z) := by
    intro i z hz
    have hl := lt_of_get hz
    rw [List.length_append, List.length_singleton] at hl
    rcases Nat.lt_or_ge i objs.length with h | h
    · rw [List.getElem?_append_left h] at hz
      exact Or.inr ⟨h, hz⟩
    · have : i = objs.length := by omega
      subst this
      rw [List.getElem?_append_right (Nat.le_refl _)] at hz
      simp at hz
      exact Or.inl ⟨rfl, hz.symm⟩
  have hks : ∀ q, keepers (objs ++ [(⟨k, keeps, 1⟩ : Obj α)]) q = keepers objs q + (if keeps = some q then 1 else 0) := by
    intro q
    simp [keepers, List.countP_append, Obj.keeper, List.countP_cons]
  have hko : ∀ q, keeps = some q → q < objs.length := fun q hq => hh.dom q (Or.inr (by simp [hq]))
  have hdead : names.count (some objs.length) = 0 := List.count_eq_zero.2 fun h => by
    have := hh.dom _ (Or.inl h)
    omega
  have hnone : keepers objs objs.length = 0 := by
    unfold keepers
    rw [List.countP_eq_zero]
    intro x hx hk
    obtain ⟨i, hi⟩ := List.mem_iff_getElem?.1 hx
    have h2 : x.keeps = some objs.length := by
      simp [Obj.keeper] at hk
      exact hk.2
    have := hh.older i x _ hi h2
    have := lt_of_get hi
    omega
  refine ⟨?_, ?_, ?_⟩
  · intro i z hz
    rw [hks]
    rcases hget i z hz with ⟨rfl, rfl⟩ | ⟨hi, hz⟩
    · have : keeps ≠ some objs.length := fun h => by
        have := hko _ h
        omega
      rw [if_neg this]
      simp [hdead, hnone]
    · have h := hh.count i z hz
      have h2 : [objs.length].count i = 0 := List.count_eq_zero.2 (by simp; omega)
      have h3 : keeps.toList.count i = if keeps = some i then 1 else 0 := by
        cases keeps <;> simp [List.count_cons]
      omega
  · intro i hi
    rw [List.length_append, List.length_singleton]
    rcases hi with hi | hi
    · have := hh.dom i (Or.inl hi)
      omega
    · simp at hi
      omega
  · intro i z p hz hp
    rcases hget i z hz with ⟨rfl, rfl⟩ | ⟨hi, hz⟩
    · exact hko p hp
    · exact hh.older i z p hz hp

theorem set_heap (objs : List (Obj α)) (names : List (Option ℕ)) (n : ℕ) (old new : Option ℕ) (hn : names[n]? = some old)
    (hh : Heap objs names new.toList) : Heap objs (names.set n new) old.toList := by
  have hcount : ∀ a : ℕ, (names.set n new).count (some a) + (if old = some a then 1 else 0) =
      names.count (some a) + (if new = some a then 1 else 0) := by
    intro a
    have := countP_set_add (fun b => b == some a) names n old new hn
    simpa [List.count] using this
  have hl : ∀ (x : Option ℕ) (a : ℕ), x.toList.count a = if x = some a then 1 else 0 := by
    intro x a
    cases x <;> simp [List.count_cons]
  refine ⟨?_, ?_, hh.older⟩
  · intro i z hz
    have h1 := hh.count i z hz
    have h2 := hcount i
    rw [hl] at h1 ⊢
    omega
  · intro i hi
    rcases hi with hi | hi
    · rcases List.mem_or_eq_of_mem_set hi with h | h
      · exact hh.dom i (Or.inl h)
      · exact hh.dom i (Or.inr (by simp [← h]))
    · have : old = some i := by
        cases old with
        | none => simp at hi
        | some q => simp at hi; rw [hi]
      exact hh.dom i (Or.inl (this ▸ List.mem_of_getElem? hn))

end Slp.PyView
