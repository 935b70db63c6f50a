import Verif.Solver.BoundsModel
import Mathlib.Tactic.Linarith
import Mathlib.Tactic.FieldSimp
import Mathlib.Tactic.NormNum
import Mathlib.Tactic.Positivity
import Mathlib.Data.List.Induction

/-! C30, C31: bound detection and projection. -/

namespace Slp.Bounds

open Classical

/-- The constraint is `a xⱼ + b ≥ 0`. -/
def IsBound (c : Constraint) (j : ℕ) (a b : ℝ) : Prop :=
  c.linear = true ∧ c.row = [(j, .fin a)] ∧ a ≠ 0 ∧
    ∀ x : ℕ → ℝ, c.value (fun i => .fin (x i)) = .fin (a * x j + b)

/-- What the autodiff system guarantees for linear constraints: the row of the Jacobian is not empty; if it
has one entry, the constraint is an affine function of that variable with that coefficient. -/
def Sound (n : ℕ) (c : Constraint) : Prop :=
  c.linear = true → (∃ j a b, j < n ∧ IsBound c j a b) ∨ 2 ≤ c.row.length

theorem IsBound.unique {c : Constraint} {j j' : ℕ} {a b a' b' : ℝ} (h : IsBound c j a b)
    (h' : IsBound c j' a' b') : j = j' ∧ a = a' ∧ b = b' := by
  obtain ⟨-, h2, -, h4⟩ := h
  obtain ⟨-, h2', -, h4'⟩ := h'
  rw [h2] at h2'
  simp only [List.cons.injEq, Prod.mk.injEq, Fl.fin.injEq, and_true] at h2'
  refine ⟨h2'.1, h2'.2, ?_⟩
  have := (h4 0).symm.trans (h4' 0)
  simpa using this

/-- `lo` is the largest of the lower bounds on variable `j`, and constraint number `idx` gives it. -/
def Low (cs : List Constraint) (j : ℕ) (lo : Fl) (idx : ℤ) : Prop :=
  (lo = .ninf ∧ ∀ c ∈ cs, ∀ a b, IsBound c j a b → a < 0) ∨
    ∃ (i : ℕ) (c : Constraint) (a b : ℝ), lo = .fin (-b / a) ∧ idx = i ∧ cs[i]? = some c ∧
      IsBound c j a b ∧ 0 < a ∧ ∀ c' ∈ cs, ∀ a' b', IsBound c' j a' b' → 0 < a' → -b' / a' ≤ -b / a

/-- `hi` is the smallest of the upper bounds on variable `j`, and constraint number `idx` gives it. -/
def High (cs : List Constraint) (j : ℕ) (hi : Fl) (idx : ℤ) : Prop :=
  (hi = .pinf ∧ ∀ c ∈ cs, ∀ a b, IsBound c j a b → 0 < a) ∨
    ∃ (i : ℕ) (c : Constraint) (a b : ℝ), hi = .fin (-b / a) ∧ idx = i ∧ cs[i]? = some c ∧
      IsBound c j a b ∧ a < 0 ∧ ∀ c' ∈ cs, ∀ a' b', IsBound c' j a' b' → a' < 0 → -b / a ≤ -b' / a'

theorem getElem?_append_some {β : Type} {l : List β} {i : ℕ} {x y : β} (h : l[i]? = some x) :
    (l ++ [y])[i]? = some x := by
  rw [List.getElem?_append_left (List.getElem?_eq_some_iff.1 h).1, h]

theorem Low.keep {cs : List Constraint} {j : ℕ} {lo : Fl} {idx : ℤ} (h : Low cs j lo idx) {c : Constraint}
    (hc : ∀ a b, IsBound c j a b → 0 < a → ¬ lo < .fin (-b / a)) : Low (cs ++ [c]) j lo idx := by
  rcases h with ⟨rfl, h⟩ | ⟨i, c0, a0, b0, rfl, rfl, h1, h2, h3, h4⟩
  · left
    refine ⟨rfl, ?_⟩
    intro c' hc' a b hb
    rcases List.mem_append.1 hc' with hc' | hc'
    · exact h c' hc' a b hb
    · rw [List.mem_singleton] at hc'
      subst hc'
      rcases lt_or_gt_of_ne hb.2.2.1 with h0 | h0
      · exact h0
      · exact absurd trivial (hc a b hb h0)
  · right
    refine ⟨i, c0, a0, b0, rfl, rfl, getElem?_append_some h1, h2, h3, ?_⟩
    intro c' hc' a b hb ha
    rcases List.mem_append.1 hc' with hc' | hc'
    · exact h4 c' hc' a b hb ha
    · rw [List.mem_singleton] at hc'
      subst hc'
      have := hc a b hb ha
      rw [Fl.fin_lt] at this
      exact not_lt.1 this

theorem High.keep {cs : List Constraint} {j : ℕ} {hi : Fl} {idx : ℤ} (h : High cs j hi idx) {c : Constraint}
    (hc : ∀ a b, IsBound c j a b → a < 0 → ¬ Fl.fin (-b / a) < hi) : High (cs ++ [c]) j hi idx := by
  rcases h with ⟨rfl, h⟩ | ⟨i, c0, a0, b0, rfl, rfl, h1, h2, h3, h4⟩
  · left
    refine ⟨rfl, ?_⟩
    intro c' hc' a b hb
    rcases List.mem_append.1 hc' with hc' | hc'
    · exact h c' hc' a b hb
    · rw [List.mem_singleton] at hc'
      subst hc'
      rcases lt_or_gt_of_ne hb.2.2.1 with h0 | h0
      · exact absurd trivial (hc a b hb h0)
      · exact h0
  · right
    refine ⟨i, c0, a0, b0, rfl, rfl, getElem?_append_some h1, h2, h3, ?_⟩
    intro c' hc' a b hb ha
    rcases List.mem_append.1 hc' with hc' | hc'
    · exact h4 c' hc' a b hb ha
    · rw [List.mem_singleton] at hc'
      subst hc'
      have := hc a b hb ha
      rw [Fl.fin_lt] at this
      exact not_lt.1 this

theorem Low.tighten {cs : List Constraint} {j : ℕ} {lo : Fl} {idx : ℤ} (h : Low cs j lo idx) {c : Constraint}
    {a b : ℝ} (hb : IsBound c j a b) (ha : 0 < a) (hlt : lo < .fin (-b / a)) :
    Low (cs ++ [c]) j (.fin (-b / a)) (cs.length : ℕ) := by
  right
  refine ⟨cs.length, c, a, b, rfl, rfl, by simp, hb, ha, ?_⟩
  intro c' hc' a' b' hb' ha'
  rcases List.mem_append.1 hc' with hc' | hc'
  · rcases h with ⟨rfl, h⟩ | ⟨i, c0, a0, b0, rfl, rfl, h1, h2, h3, h4⟩
    · exact absurd (h c' hc' a' b' hb') (not_lt.2 ha'.le)
    · rw [Fl.fin_lt] at hlt
      exact (h4 c' hc' a' b' hb' ha').trans hlt.le
  · rw [List.mem_singleton] at hc'
    subst hc'
    obtain ⟨-, rfl, rfl⟩ := hb.unique hb'
    exact le_rfl

theorem High.tighten {cs : List Constraint} {j : ℕ} {hi : Fl} {idx : ℤ} (h : High cs j hi idx)
    {c : Constraint} {a b : ℝ} (hb : IsBound c j a b) (ha : a < 0) (hlt : Fl.fin (-b / a) < hi) :
    High (cs ++ [c]) j (.fin (-b / a)) (cs.length : ℕ) := by
  right
  refine ⟨cs.length, c, a, b, rfl, rfl, by simp, hb, ha, ?_⟩
  intro c' hc' a' b' hb' ha'
  rcases List.mem_append.1 hc' with hc' | hc'
  · rcases h with ⟨rfl, h⟩ | ⟨i, c0, a0, b0, rfl, rfl, h1, h2, h3, h4⟩
    · exact absurd (h c' hc' a' b' hb') (not_lt.2 ha'.le)
    · rw [Fl.fin_lt] at hlt
      exact hlt.le.trans (h4 c' hc' a' b' hb' ha')
  · rw [List.mem_singleton] at hc'
    subst hc'
    obtain ⟨-, rfl, rfl⟩ := hb.unique hb'
    exact le_rfl

/-- Constraints number `i` and `i'` are bounds that contradict each other. -/
def Conflict (cs : List Constraint) (p : ℤ × ℤ) : Prop :=
  ∃ (i i' : ℕ) (c c' : Constraint) (j : ℕ) (a b a' b' : ℝ), p = (↑i, ↑i') ∧ cs[i]? = some c ∧
    cs[i']? = some c' ∧ IsBound c j a b ∧ IsBound c' j a' b' ∧ 0 < a ∧ a' < 0 ∧ -b' / a' < -b / a

/-- The loop invariant. -/
structure Inv (n : ℕ) (cs : List Constraint) (s : State) : Prop where
  mask : s.mask = cs.map fun c => c.linear && c.row.length == 1
  low : ∀ j, Low cs j (s.bounds j).1 (s.indices j).1
  high : ∀ j, High cs j (s.bounds j).2 (s.indices j).2
  none : s.conflicts = [] → ∀ j, ¬ (s.bounds j).1 > (s.bounds j).2
  pairs : ∀ p ∈ s.conflicts, Conflict cs p

theorem conflict_of {cs : List Constraint} {j : ℕ} {lo hi : Fl} {i i' : ℤ} (h : Low cs j lo i)
    (h' : High cs j hi i') (hgt : lo > hi) : Conflict cs (i, i') := by
  rcases h with ⟨rfl, -⟩ | ⟨i, c, a, b, rfl, rfl, h1, h2, h3, -⟩
  · exfalso
    change Fl.lt hi .ninf at hgt
    cases hi <;> simp [Fl.lt] at hgt
  · rcases h' with ⟨rfl, -⟩ | ⟨i', c', a', b', rfl, rfl, h1', h2', h3', -⟩
    · exact absurd hgt (by change ¬ Fl.lt .pinf (.fin _); simp [Fl.lt])
    · exact ⟨i, i', c, c', j, a, b, a', b', rfl, h1, h1', h2, h2', h3, h3', by simpa using hgt⟩

theorem Conflict.append {cs : List Constraint} {p : ℤ × ℤ} (h : Conflict cs p) (c : Constraint) :
    Conflict (cs ++ [c]) p := by
  obtain ⟨i, i', c1, c2, j, a, b, a', b', rfl, h1, h2, h3⟩ := h
  exact ⟨i, i', c1, c2, j, a, b, a', b', rfl, getElem?_append_some h1, getElem?_append_some h2, h3⟩

/-- A constraint that is not a bound changes nothing but the mask. -/
theorem Inv.skip {n : ℕ} {cs : List Constraint} {s : State} (h : Inv n cs s) {c : Constraint}
    (hc : ∀ j a b, ¬ IsBound c j a b) (hm : (c.linear && c.row.length == 1) = false) :
    Inv n (cs ++ [c]) { s with mask := s.mask ++ [false] } :=
  ⟨by simp [h.mask, hm], fun j => (h.low j).keep fun a b hb => absurd hb (hc j a b),
    fun j => (h.high j).keep fun a b hb => absurd hb (hc j a b), h.none,
    fun p hp => (h.pairs p hp).append c⟩

/-- The last part of `updateBounds`: recording a conflict. -/
theorem Inv.check {n : ℕ} {cs : List Constraint} {s : State} (j : ℕ)
    (hm : s.mask ++ [true] = cs.map fun c => c.linear && c.row.length == 1)
    (hl : ∀ j, Low cs j (s.bounds j).1 (s.indices j).1) (hh : ∀ j, High cs j (s.bounds j).2 (s.indices j).2)
    (hn : s.conflicts = [] → ∀ j', j' ≠ j → ¬ (s.bounds j').1 > (s.bounds j').2)
    (hp : ∀ p ∈ s.conflicts, Conflict cs p) :
    Inv n cs { (if (s.bounds j).1 > (s.bounds j).2 then { s with conflicts := s.conflicts ++ [s.indices j] }
      else s) with mask := (if (s.bounds j).1 > (s.bounds j).2 then
        { s with conflicts := s.conflicts ++ [s.indices j] } else s).mask ++ [true] } := by
  by_cases hgt : (s.bounds j).1 > (s.bounds j).2
  · simp only [if_pos hgt]
    refine ⟨hm, hl, hh, by simp, ?_⟩
    intro p hp'
    rcases List.mem_append.1 hp' with hp' | hp'
    · exact hp p hp'
    · rw [List.mem_singleton] at hp'
      subst hp'
      exact conflict_of (hl j) (hh j) hgt
  · simp only [if_neg hgt]
    refine ⟨hm, hl, hh, ?_, hp⟩
    intro he j'
    by_cases hj : j' = j
    · subst hj; exact hgt
    · exact hn he j' hj

theorem Inv.bound {n : ℕ} {cs : List Constraint} {s : State} (h : Inv n cs s) {c : Constraint} {j : ℕ}
    {a b : ℝ} (hb : IsBound c j a b) :
    Inv n (cs ++ [c]) { s.updateBounds cs.length j (.fin a) (.fin b) with
      mask := (s.updateBounds cs.length j (.fin a) (.fin b)).mask ++ [true] } := by
  have hdet : (-Fl.fin b / Fl.fin a) = Fl.fin (-b / a) := by rw [Fl.fin_neg, Fl.fin_div hb.2.2.1]
  have hmask : (c.linear && c.row.length == 1) = true := by simp [hb.1, hb.2.1]
  have hpairs : ∀ p ∈ s.conflicts, Conflict (cs ++ [c]) p := fun p hp => (h.pairs p hp).append c
  have hother : ∀ j' a' b', j' ≠ j → ¬ IsBound c j' a' b' := fun j' a' b' hj hb' => hj (hb'.unique hb).1
  unfold State.updateBounds
  rw [hdet]
  simp only
  by_cases h1 : Fl.fin a < Fl.fin 0 ∧ Fl.fin (-b / a) < (s.bounds j).2
  · rw [if_pos h1]
    have ha : a < 0 := by simpa using h1.1
    apply Inv.check
    · simp [h.mask, hmask]
    · intro j'
      by_cases hj : j' = j
      · subst hj
        simp only [Function.update_self]
        exact (h.low j').keep fun a' b' hb' ha' => by
          obtain ⟨-, rfl, -⟩ := hb'.unique hb
          exact absurd ha' (not_lt.2 ha.le)
      · simp only [Function.update_of_ne hj]
        exact (h.low j').keep fun a' b' hb' => absurd hb' (hother j' a' b' hj)
    · intro j'
      by_cases hj : j' = j
      · subst hj
        simp only [Function.update_self]
        exact (h.high j').tighten hb ha h1.2
      · simp only [Function.update_of_ne hj]
        exact (h.high j').keep fun a' b' hb' => absurd hb' (hother j' a' b' hj)
    · intro he j' hj
      simp only [Function.update_of_ne hj]
      exact h.none he j'
    · exact hpairs
  · rw [if_neg h1]
    by_cases h2 : Fl.fin a > Fl.fin 0 ∧ Fl.fin (-b / a) > (s.bounds j).1
    · rw [if_pos h2]
      have ha : 0 < a := by simpa using h2.1
      apply Inv.check
      · simp [h.mask, hmask]
      · intro j'
        by_cases hj : j' = j
        · subst hj
          simp only [Function.update_self]
          exact (h.low j').tighten hb ha h2.2
        · simp only [Function.update_of_ne hj]
          exact (h.low j').keep fun a' b' hb' => absurd hb' (hother j' a' b' hj)
      · intro j'
        by_cases hj : j' = j
        · subst hj
          simp only [Function.update_self]
          exact (h.high j').keep fun a' b' hb' ha' => by
            obtain ⟨-, rfl, -⟩ := hb'.unique hb
            exact absurd ha' (not_lt.2 ha.le)
        · simp only [Function.update_of_ne hj]
          exact (h.high j').keep fun a' b' hb' => absurd hb' (hother j' a' b' hj)
      · intro he j' hj
        simp only [Function.update_of_ne hj]
        exact h.none he j'
      · exact hpairs
    · rw [if_neg h2]
      apply Inv.check
      · simp [h.mask, hmask]
      · intro j'
        refine (h.low j').keep fun a' b' hb' ha' hlt => ?_
        obtain ⟨rfl, rfl, rfl⟩ := hb'.unique hb
        exact h2 ⟨by simpa using ha', hlt⟩
      · intro j'
        refine (h.high j').keep fun a' b' hb' ha' hlt => ?_
        obtain ⟨rfl, rfl, rfl⟩ := hb'.unique hb
        exact h1 ⟨by simpa using ha', hlt⟩
      · intro he j' hj
        exact h.none he j'
      · exact hpairs

theorem evalAtZero_bound {c : Constraint} {j : ℕ} {a b : ℝ} (hb : IsBound c j a b) (x : ℕ → ℝ) :
    evalAtZero c (fun i => .fin (x i)) j = (.fin b, fun i => .fin (x i)) := by
  unfold evalAtZero
  by_cases h0 : x j = 0
  · rw [if_neg (by simp [h0]), hb.2.2.2 x, h0]
    simp
  · rw [if_pos (by simpa using h0)]
    have e1 : Function.update (fun i => Fl.fin (x i)) j (Fl.fin 0) =
        fun i => Fl.fin (Function.update x j 0 i) := by
      funext i
      by_cases hi : i = j
      · subst hi; simp
      · simp [hi]
    simp only [e1, hb.2.2.2, Function.update_self, mul_zero, zero_add, Prod.mk.injEq, true_and]
    funext i
    by_cases hi : i = j
    · subst hi; simp
    · simp [hi]

theorem Inv.loop {n : ℕ} (rest : List Constraint) : ∀ {cs : List Constraint} {s : State} (x : ℕ → ℝ),
    Inv n cs s → (∀ c ∈ rest, Sound n c) →
    ∃ s', loop n cs.length rest s (fun i => .fin (x i)) = some (s', fun i => .fin (x i)) ∧
      Inv n (cs ++ rest) s' := by
  induction rest with
  | nil => intro cs s x h _; exact ⟨s, rfl, by simpa using h⟩
  | cons c rest ih =>
      intro cs s x h hs
      have hstep : ∃ s1, s.step n cs.length c (fun i => .fin (x i)) = some (s1, fun i => .fin (x i)) ∧
          Inv n (cs ++ [c]) s1 := by
        unfold State.step
        by_cases hl : c.linear = false
        · rw [if_pos hl]
          refine ⟨_, rfl, h.skip ?_ (by simp [hl])⟩
          intro j a b hb
          rw [hb.1] at hl; cases hl
        · rw [if_neg hl]
          rcases hs c (by simp) (by simpa using hl) with ⟨j, a, b, hj, hb⟩ | h2
          · have hrow := hb.2.1
            simp only [hrow, if_pos hj, evalAtZero_bound hb]
            rw [if_pos (by simp [hb.2.2.1])]
            exact ⟨_, rfl, h.bound hb⟩
          · rcases hr : c.row with _ | ⟨p, _ | ⟨q, r⟩⟩
            · rw [hr] at h2; simp at h2
            · rw [hr] at h2; simp at h2
            · refine ⟨_, rfl, h.skip ?_ (by simp [hr])⟩
              intro j a b hb
              have := hb.2.1
              rw [hr] at this
              simp at this
      obtain ⟨s1, e1, hi⟩ := hstep
      obtain ⟨s', e2, hi'⟩ := ih x hi (fun c hc => hs c (by simp [hc]))
      refine ⟨s', ?_, by simpa using hi'⟩
      simp only [Slp.Bounds.loop, e1, Option.bind_some]
      simpa using e2

/-- The set of values of variable `j` that the lower bounds among the constraints allow, and likewise for
the upper bounds. -/
def LowerSet (cs : List Constraint) (j : ℕ) : Set ℝ :=
  { v | ∀ c ∈ cs, ∀ a b, IsBound c j a b → 0 < a → 0 ≤ a * v + b }

def UpperSet (cs : List Constraint) (j : ℕ) : Set ℝ :=
  { v | ∀ c ∈ cs, ∀ a b, IsBound c j a b → a < 0 → 0 ≤ a * v + b }

theorem lower_iff {a b v : ℝ} (ha : 0 < a) : 0 ≤ a * v + b ↔ -b / a ≤ v := by
  rw [div_le_iff₀ ha]
  constructor <;> intro h <;> linarith

theorem upper_iff {a b v : ℝ} (ha : a < 0) : 0 ≤ a * v + b ↔ v ≤ -b / a := by
  rw [le_div_iff_of_neg ha]
  constructor <;> intro h <;> linarith

/-- C30: `get_bounds` succeeds, leaves the variables as they were, marks exactly the linear constraints in
one variable, and its bounds for every variable are the tightest implied by the constraints: a value
respects the lower bound exactly if it satisfies the constraints that bound the variable from below, and
likewise above. -/
theorem bounds_tight {n : ℕ} {cs : List Constraint} (hs : ∀ c ∈ cs, Sound n c) (x : ℕ → ℝ) :
    ∃ r, getBounds n cs (fun i => .fin (x i)) = some (r, fun i => .fin (x i)) ∧
      r.mask.length = cs.length ∧
      (∀ (i : ℕ) (c : Constraint), cs[i]? = some c → (r.mask[i]? = some true ↔ ∃ j a b, IsBound c j a b)) ∧
      (∀ (j : ℕ) (v : ℝ), (r.bounds j).1 ≤ .fin v ↔ v ∈ LowerSet cs j) ∧
      (∀ (j : ℕ) (v : ℝ), .fin v ≤ (r.bounds j).2 ↔ v ∈ UpperSet cs j) ∧
      (r.conflicts ≠ [] ↔ ∃ j, LowerSet cs j ∩ UpperSet cs j = ∅) ∧
      ∀ p ∈ r.conflicts, Conflict cs p := by
  have h0 : Inv n [] State.init :=
    ⟨rfl, fun j => .inl ⟨rfl, by simp⟩, fun j => .inl ⟨rfl, by simp⟩,
      fun _ j => by show ¬ Fl.lt .pinf .ninf; simp [Fl.lt], by simp [State.init]⟩
  obtain ⟨r, hr, hi⟩ := Inv.loop cs x h0 hs
  rw [List.nil_append] at hi
  have hlow : ∀ (j : ℕ) (v : ℝ), (r.bounds j).1 ≤ .fin v ↔ v ∈ LowerSet cs j := by
    intro j v
    rcases hi.low j with ⟨he, h⟩ | ⟨i, c, a, b, he, -, h1, h2, h3, h4⟩
    · rw [he]
      exact ⟨fun _ c hc a b hb ha => absurd (h c hc a b hb) (not_lt.2 ha.le), fun _ => trivial⟩
    · rw [he, Fl.fin_le]
      constructor
      · intro hv c' hc' a' b' hb' ha'
        rw [lower_iff ha']
        exact (h4 c' hc' a' b' hb' ha').trans hv
      · intro hv
        exact (lower_iff h3).1 (hv c (List.mem_of_getElem? h1) a b h2 h3)
  have hhigh : ∀ (j : ℕ) (v : ℝ), .fin v ≤ (r.bounds j).2 ↔ v ∈ UpperSet cs j := by
    intro j v
    rcases hi.high j with ⟨he, h⟩ | ⟨i, c, a, b, he, -, h1, h2, h3, h4⟩
    · rw [he]
      exact ⟨fun _ c hc a b hb ha => absurd (h c hc a b hb) (not_lt.2 ha.le), fun _ => trivial⟩
    · rw [he, Fl.fin_le]
      constructor
      · intro hv c' hc' a' b' hb' ha'
        rw [upper_iff ha']
        exact hv.trans (h4 c' hc' a' b' hb' ha')
      · intro hv
        exact (upper_iff h3).1 (hv c (List.mem_of_getElem? h1) a b h2 h3)
  refine ⟨r, hr, by rw [hi.mask, List.length_map], ?_, hlow, hhigh, ?_, hi.pairs⟩
  · intro i c hc
    rw [hi.mask, List.getElem?_map, hc]
    simp only [Option.map_some, Option.some.injEq, Bool.and_eq_true, beq_iff_eq]
    constructor
    · rintro ⟨h1, h2⟩
      rcases hs c (List.mem_of_getElem? hc) h1 with ⟨j, a, b, -, hb⟩ | h3
      · exact ⟨j, a, b, hb⟩
      · omega
    · rintro ⟨j, a, b, hb⟩
      exact ⟨hb.1, by rw [hb.2.1]; rfl⟩
  · constructor
    · intro hne
      obtain ⟨p, hp⟩ := List.exists_mem_of_ne_nil _ hne
      obtain ⟨i, i', c, c', j, a, b, a', b', -, h1, h2, h3, h4, h5, h6, h7⟩ := hi.pairs p hp
      refine ⟨j, ?_⟩
      rw [Set.eq_empty_iff_forall_notMem]
      rintro v ⟨hv1, hv2⟩
      have e1 := (lower_iff h5).1 (hv1 c (List.mem_of_getElem? h1) a b h3 h5)
      have e2 := (upper_iff h6).1 (hv2 c' (List.mem_of_getElem? h2) a' b' h4 h6)
      linarith
    · rintro ⟨j, hj⟩ hempty
      have hng := hi.none hempty j
      suffices hv : (LowerSet cs j ∩ UpperSet cs j).Nonempty by
        rw [hj] at hv; exact Set.not_nonempty_empty hv
      · rcases hlo : (r.bounds j).1 with l | _ | _ | _
        · refine ⟨l, (hlow j l).1 (by rw [hlo]; simp), (hhigh j l).1 ?_⟩
          rcases hi.high j with ⟨he, -⟩ | ⟨_, _, a, b, he, -⟩
          · rw [he]; trivial
          · rw [he, Fl.fin_le]
            rw [hlo, he] at hng
            simpa using hng
        · exfalso; rcases hi.low j with ⟨he, -⟩ | ⟨_, _, a, b, he, -⟩ <;> rw [hlo] at he <;> cases he
        · rcases hi.high j with ⟨he, -⟩ | ⟨_, _, a, b, he, -⟩
          · exact ⟨0, (hlow j 0).1 (by rw [hlo]; trivial), (hhigh j 0).1 (by rw [he]; trivial)⟩
          · exact ⟨-b / a, (hlow j (-b / a)).1 (by rw [hlo]; trivial), (hhigh j (-b / a)).1 (by rw [he]; simp)⟩
        · exfalso; rcases hi.low j with ⟨he, -⟩ | ⟨_, _, a, b, he, -⟩ <;> rw [hlo] at he <;> cases he

/-- C30: `GLOBALLY_INFEASIBLE` (reported when conflicts are found) is right: no assignment satisfies all
inequality constraints. -/
theorem conflict_infeasible {n : ℕ} {cs : List Constraint} (hs : ∀ c ∈ cs, Sound n c) {x : ℕ → ℝ}
    {r : State} {x' : ℕ → Fl} (h : getBounds n cs (fun i => .fin (x i)) = some (r, x'))
    (hc : r.conflicts ≠ []) : ¬ ∃ y : ℕ → ℝ, ∀ c ∈ cs, Fl.fin 0 ≤ c.value fun i => .fin (y i) := by
  obtain ⟨r', hr, -, -, -, -, hiff, hp⟩ := bounds_tight hs x
  rw [h] at hr
  cases hr
  rintro ⟨y, hy⟩
  obtain ⟨p, hpm⟩ := List.exists_mem_of_ne_nil _ hc
  obtain ⟨i, i', c, c', j, a, b, a', b', -, h1, h2, h3, h4, h5, h6, h7⟩ := hp p hpm
  have e1 := hy c (List.mem_of_getElem? h1)
  have e2 := hy c' (List.mem_of_getElem? h2)
  rw [h3.2.2.2, Fl.fin_le, lower_iff h5] at e1
  rw [h4.2.2.2, Fl.fin_le, upper_iff h6] at e2
  linarith

/-- A linear constraint whose gradient has no stored entry (for example `y - y ≥ -1` after cancellation)
fails an assertion instead of being skipped. -/
theorem empty_row_asserts : getBounds 1 [⟨true, [], fun _ => .fin 1⟩] (fun _ => .fin 0) = none := by
  simp [getBounds, loop, State.step]

/-- `2 x₀ - 1 ≥ 0`, `-x₀ + 3 ≥ 0` and a constraint in two variables. -/
example : ∀ c ∈ [(⟨true, [(0, .fin 2)], fun x => .fin 2 * x 0 + .fin (-1)⟩ : Constraint),
    ⟨true, [(0, .fin (-1))], fun x => .fin (-1) * x 0 + .fin 3⟩,
    ⟨true, [(0, .fin 1), (1, .fin 1)], fun x => x 0 + x 1⟩], Sound 2 c := by
  intro c hc
  simp only [List.mem_cons, List.not_mem_nil, or_false] at hc
  rcases hc with rfl | rfl | rfl
  · exact fun _ => .inl ⟨0, 2, -1, by decide, rfl, rfl, by norm_num, fun x => by simp⟩
  · exact fun _ => .inl ⟨0, -1, 3, by decide, rfl, rfl, by norm_num, fun x => by simp⟩
  · exact fun _ => .inr (by simp)

/-- C31, both bounds: the projected value lies strictly between the bounds, is the value itself if that
already keeps the margins, and otherwise the nearer margin. -/
theorem project_two {κ1 κ2 l u : ℝ} (h1 : 0 < κ1) (h2 : 0 < κ2) (h3 : κ2 < 0.5) (hlu : l < u) (x : ℝ) :
    ∃ y pL pU : ℝ, projectOne (.fin κ1) (.fin κ2) (.fin l) (.fin u) (.fin x) = some (.fin y) ∧
      pL = min (κ1 * max 1 |l|) (κ2 * (u - l)) ∧ pU = min (κ1 * max 1 |u|) (κ2 * (u - l)) ∧
      l < y ∧ y < u ∧ l + pL ≤ y ∧ y ≤ u - pU ∧ (l + pL ≤ x → x ≤ u - pU → y = x) ∧
      (x < l + pL → y = l + pL) ∧ (u - pU < x → y = u - pU) := by
  have hd : 0 < u - l := by linarith
  have hk : 0 < κ2 * (u - l) := mul_pos h2 hd
  have hk2 : κ2 * (u - l) < 0.5 * (u - l) := mul_lt_mul_of_pos_right h3 hd
  have hm : ∀ z : ℝ, 0 < κ1 * max 1 |z| := fun z => mul_pos h1 (lt_of_lt_of_le one_pos (le_max_left _ _))
  have hL : 0 < min (κ1 * max 1 |l|) (κ2 * (u - l)) := lt_min (hm l) hk
  have hU : 0 < min (κ1 * max 1 |u|) (κ2 * (u - l)) := lt_min (hm u) hk
  have hL' : min (κ1 * max 1 |l|) (κ2 * (u - l)) ≤ κ2 * (u - l) := min_le_right _ _
  have hU' : min (κ1 * max 1 |u|) (κ2 * (u - l)) ≤ κ2 * (u - l) := min_le_right _ _
  have hord : l + min (κ1 * max 1 |l|) (κ2 * (u - l)) ≤ u - min (κ1 * max 1 |u|) (κ2 * (u - l)) := by
    norm_num at hk2 ⊢; linarith
  refine ⟨min (max (l + min (κ1 * max 1 |l|) (κ2 * (u - l))) x) (u - min (κ1 * max 1 |u|) (κ2 * (u - l))),
    _, _, ?_, rfl, rfl, ?_⟩
  · unfold projectOne
    rw [if_pos (by simpa using hlu.le), if_pos (by simp)]
    simp only [Fl.one_def, Fl.abs_fin, Fl.max_fin, Fl.fin_mul, Fl.fin_sub, Fl.min_fin, Fl.fin_add]
  · set a := l + min (κ1 * max 1 |l|) (κ2 * (u - l)) with ha
    set b := u - min (κ1 * max 1 |u|) (κ2 * (u - l)) with hb
    have hla : l < a := by rw [ha]; linarith
    have hbu : b < u := by rw [hb]; linarith
    have hy1 : a ≤ min (max a x) b := le_min (le_max_left _ _) hord
    have hy2 : min (max a x) b ≤ b := min_le_right _ _
    refine ⟨by linarith, by linarith, hy1, hy2, ?_, ?_, ?_⟩
    · intro c1 c2; rw [max_eq_right c1, min_eq_left c2]
    · intro c1; rw [max_eq_left c1.le, min_eq_left hord]
    · intro c1; rw [min_eq_right (le_trans c1.le (le_max_right _ _))]

/-- C31, equal bounds: the value becomes the bound. -/
theorem project_fixed {κ1 κ2 l : ℝ} (h1 : 0 < κ1) (x : ℝ) :
    projectOne (.fin κ1) (.fin κ2) (.fin l) (.fin l) (.fin x) = some (.fin l) := by
  unfold projectOne
  rw [if_pos (by simp), if_pos (by simp)]
  simp only [Fl.one_def, Fl.abs_fin, Fl.max_fin, Fl.fin_mul, Fl.fin_sub, Fl.min_fin, Fl.fin_add, sub_self,
    mul_zero]
  have hm : 0 < κ1 * max 1 |l| := mul_pos h1 (lt_of_lt_of_le one_pos (le_max_left _ _))
  rw [min_eq_right hm.le]
  simp

/-- C31, one bound. -/
theorem project_lower {κ1 κ2 l : ℝ} (h1 : 0 < κ1) (x : ℝ) :
    ∃ y, projectOne (.fin κ1) (.fin κ2) (.fin l) .pinf (.fin x) = some (.fin y) ∧ l < y ∧
      (l + κ1 * max 1 |l| ≤ x → y = x) ∧ (x < l + κ1 * max 1 |l| → y = l + κ1 * max 1 |l|) := by
  have hm : 0 < κ1 * max 1 |l| := mul_pos h1 (lt_of_lt_of_le one_pos (le_max_left _ _))
  refine ⟨max x (l + κ1 * max 1 |l|), ?_, ?_, fun h => max_eq_left h, fun h => max_eq_right h.le⟩
  · unfold projectOne
    rw [if_pos (show Fl.fin l ≤ Fl.pinf from trivial), if_neg (by simp [Fl.isFinite]),
      if_pos (by simp)]
    simp only [Fl.one_def, Fl.abs_fin, Fl.max_fin, Fl.fin_mul, Fl.fin_add]
  · exact lt_of_lt_of_le (by linarith) (le_max_right _ _)

theorem project_upper {κ1 κ2 u : ℝ} (h1 : 0 < κ1) (x : ℝ) :
    ∃ y, projectOne (.fin κ1) (.fin κ2) .ninf (.fin u) (.fin x) = some (.fin y) ∧ y < u ∧
      (x ≤ u - κ1 * max 1 |u| → y = x) ∧ (u - κ1 * max 1 |u| < x → y = u - κ1 * max 1 |u|) := by
  have hm : 0 < κ1 * max 1 |u| := mul_pos h1 (lt_of_lt_of_le one_pos (le_max_left _ _))
  refine ⟨min x (u - κ1 * max 1 |u|), ?_, ?_, fun h => min_eq_left h, fun h => min_eq_right h.le⟩
  · unfold projectOne
    rw [if_pos (show Fl.ninf ≤ Fl.fin u from trivial), if_neg (by simp [Fl.isFinite]),
      if_neg (by simp [Fl.isFinite]), if_pos (by simp)]
    simp only [Fl.one_def, Fl.abs_fin, Fl.max_fin, Fl.min_fin, Fl.fin_mul, Fl.fin_sub]
  · exact lt_of_le_of_lt (min_le_right _ _) (by linarith)

/-- C31, no bound: the value is left alone. -/
theorem project_free {κ1 κ2 x : Fl} : projectOne κ1 κ2 .ninf .pinf x = some x := by
  unfold projectOne
  rw [if_pos (show Fl.ninf ≤ Fl.pinf from trivial), if_neg (by simp [Fl.isFinite]),
    if_neg (by simp [Fl.isFinite]), if_neg (by simp [Fl.isFinite])]

theorem mapM_get {β γ : Type} {f : β → Option γ} : ∀ {l : List β} {r : List γ}, l.mapM f = some r →
    r.length = l.length ∧ ∀ (i : ℕ) (b : β), l[i]? = some b → ∃ c, r[i]? = some c ∧ f b = some c
  | [], r, h => by simp at h; subst h; simp
  | b :: l, r, h => by
      rw [List.mapM_cons] at h
      obtain ⟨c, h1, h⟩ := Option.bind_eq_some_iff.1 h
      obtain ⟨r', h2, h⟩ := Option.bind_eq_some_iff.1 h
      simp only [Option.pure_def, Option.some.injEq] at h
      subst h
      obtain ⟨i1, i2⟩ := mapM_get h2
      refine ⟨by simp [i1], ?_⟩
      intro i b' hb
      cases i with
      | zero => simp at hb; subst hb; exact ⟨c, by simp, h1⟩
      | succ i => simpa using i2 i b' (by simpa using hb)

theorem mapM_isSome {β γ : Type} {f : β → Option γ} : ∀ {l : List β}, (∀ b ∈ l, ∃ c, f b = some c) →
    ∃ r, l.mapM f = some r
  | [], _ => ⟨[], by simp⟩
  | b :: l, h => by
      obtain ⟨c, hc⟩ := h b (by simp)
      obtain ⟨r, hr⟩ := mapM_isSome (l := l) (fun b hb => h b (by simp [hb]))
      exact ⟨c :: r, by rw [List.mapM_cons, hc, hr]; rfl⟩

/-- C31: for legal parameters and one ordered pair of bounds per variable the projection is defined and
treats every variable by its own bounds; the four theorems above say what happens to it. -/
theorem project_each {κ1 κ2 : Fl} (h1 : κ1 > 0) (h2 : κ2 > 0) (h3 : κ2 < Fl.fin 0.5)
    {bounds : List (Fl × Fl)} {x : List Fl} (hlen : bounds.length = x.length)
    (hord : ∀ b ∈ bounds, b.1 ≤ b.2) :
    ∃ y, project κ1 κ2 bounds x = some y ∧ y.length = x.length ∧
      ∀ (i : ℕ) (l u v : Fl), bounds[i]? = some (l, u) → x[i]? = some v →
        ∃ w, y[i]? = some w ∧ projectOne κ1 κ2 l u v = some w := by
  obtain ⟨r, hr⟩ := mapM_isSome (f := fun p : (Fl × Fl) × Fl => projectOne κ1 κ2 p.1.1 p.1.2 p.2)
    (l := List.zip bounds x) (by
      rintro ⟨⟨l, u⟩, v⟩ hb
      have hlu : l ≤ u := hord (l, u) (List.of_mem_zip hb).1
      simp only [projectOne, if_pos hlu]
      split_ifs <;> exact ⟨_, rfl⟩)
  obtain ⟨e1, e2⟩ := mapM_get hr
  refine ⟨r, ?_, ?_, ?_⟩
  · unfold project
    rw [if_pos ⟨h1, h2, h3, hlen.le⟩, hr, hlen]
    simp
  · simp [e1, hlen]
  · intro i l u v hb hv
    have hz : (List.zip bounds x)[i]? = some ((l, u), v) := by
      rw [List.getElem?_zip_eq_some]; exact ⟨hb, hv⟩
    obtain ⟨c, hc, hp⟩ := e2 i _ hz
    exact ⟨c, hc, hp⟩

/-- The default parameters are legal. -/
example : Fl.fin 1e-2 > 0 ∧ Fl.fin 1e-2 < Fl.fin 0.5 := by
  constructor
  · rw [Fl.zero_def]; simp; norm_num
  · simp; norm_num

end Slp.Bounds
