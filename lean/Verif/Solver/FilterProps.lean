import Verif.Solver.FilterModel
import Mathlib.Data.Finset.Card
import Mathlib.Tactic.Linarith
import Mathlib.Tactic.NormNum
import Mathlib.Tactic.Positivity

/-! C29: what the filter accepts. -/

namespace Slp

open Classical

theorem FilterEntry.dominatedBy_trans {a b c : FilterEntry} (h1 : a.dominatedBy b) (h2 : b.dominatedBy c) :
    a.dominatedBy c :=
  ⟨Fl.le_trans' h2.1 h1.1, Fl.le_trans' h2.2 h1.2⟩

/-- What `finish` does. -/
theorem Filter.finish_true {F F' : Filter} {current trial : FilterEntry} {D α : Fl}
    (h : F.finish current trial D α = (F', true)) :
    ¬ F.inFilter trial ∧
      (((¬ switching current D α ∨ ¬ armijo current trial D α) ∧ F' = F.add (envelope current α)) ∨
        (switching current D α ∧ armijo current trial D α ∧ F' = F)) := by
  unfold Filter.finish at h
  split_ifs at h with h1 h2
  · simp at h
  · exact ⟨h1, .inl ⟨h2, (Prod.mk.inj h).1.symm⟩⟩
  · rw [not_or, not_not, not_not] at h2
    exact ⟨h1, .inr ⟨h2.1, h2.2, (Prod.mk.inj h).1.symm⟩⟩

theorem Filter.tryAdd_true {F F' : Filter} {current trial : FilterEntry} {D α : Fl}
    (h : F.tryAdd current trial D α = (F', true)) :
    trial.cost.isFinite = true ∧ ¬ trial.violation > F.maxViolation ∧
      (if current.violation ≤ F.minViolation ∧ switching current D α then armijo current trial D α
        else sufficientDecrease current trial α) ∧ F.finish current trial D α = (F', true) := by
  unfold Filter.tryAdd at h
  split_ifs at h with h1 h2 h3 h3
  · simp at h
  · rw [not_or] at h1
    rw [if_pos h2]
    exact ⟨by simpa using h1.1, h1.2, h3, h⟩
  · simp at h
  · rw [not_or] at h1
    rw [if_neg h2]
    exact ⟨by simpa using h1.1, h1.2, h3, h⟩
  · simp at h

theorem Filter.tryAdd_false {F F' : Filter} {current trial : FilterEntry} {D α : Fl}
    (h : F.tryAdd current trial D α = (F', false)) :
    F'.entries = F.entries ∧ F'.minViolation = F.minViolation ∧ F'.maxViolation = F.maxViolation := by
  unfold Filter.tryAdd Filter.finish at h
  split_ifs at h <;> first
    | (obtain rfl := (Prod.mk.inj h).1; exact ⟨rfl, rfl, rfl⟩)
    | (simp at h)

/-- C29: an accepted trial point has a finite cost, does not exceed the violation limit, is not dominated
by any remembered entry, and satisfies the Armijo condition (if the current violation is small and the slope `D` steep
enough) or else the sufficient decrease condition. -/
theorem accepted_sound {F F' : Filter} {current trial : FilterEntry} {D α : Fl}
    (h : F.tryAdd current trial D α = (F', true)) :
    (∃ c, trial.cost = .fin c) ∧ ¬ trial.violation > F.maxViolation ∧
      (∀ e ∈ F.entries, ¬ (e.cost ≤ trial.cost ∧ e.violation ≤ trial.violation)) ∧
      (if current.violation ≤ F.minViolation ∧ D < 0 ∧ α * Fl.pow (-D) 2.3 > Fl.pow current.violation 1.1 then
        trial.cost ≤ current.cost + Fl.fin 1e-8 * α * D
      else trial.cost ≤ current.cost - Fl.pow α 1.5 * Fl.fin 1e-8 * current.violation ∨
        trial.violation ≤ (1 - Fl.pow α 1.5 * Fl.fin 1e-5) * current.violation) := by
  obtain ⟨h1, h2, h3, h4⟩ := Filter.tryAdd_true h
  refine ⟨Fl.isFinite_iff.1 h1, h2, ?_, ?_⟩
  · intro e he hd
    exact (Filter.finish_true h4).1 ⟨e, he, hd⟩
  · by_cases hs : current.violation ≤ F.minViolation ∧ switching current D α
    · rw [if_pos hs] at h3
      rw [if_pos (show _ ∧ _ ∧ _ from hs)]
      exact h3
    · rw [if_neg hs] at h3
      rw [if_neg (show ¬ (_ ∧ _ ∧ _) from hs)]
      exact h3

/-- C29: conversely a trial point within the limits that satisfies the condition that applies and is not
dominated is accepted. -/
theorem accepted_complete {F : Filter} {current trial : FilterEntry} {D α : Fl} {c : ℝ}
    (h1 : trial.cost = .fin c) (h2 : ¬ trial.violation > F.maxViolation)
    (h3 : ∀ e ∈ F.entries, ¬ (e.cost ≤ trial.cost ∧ e.violation ≤ trial.violation))
    (h4 : if current.violation ≤ F.minViolation ∧ D < 0 ∧ α * Fl.pow (-D) 2.3 > Fl.pow current.violation 1.1 then
        trial.cost ≤ current.cost + Fl.fin 1e-8 * α * D
      else trial.cost ≤ current.cost - Fl.pow α 1.5 * Fl.fin 1e-8 * current.violation ∨
        trial.violation ≤ (1 - Fl.pow α 1.5 * Fl.fin 1e-5) * current.violation) :
    (F.tryAdd current trial D α).2 = true := by
  have hin : ¬ F.inFilter trial := fun ⟨e, he, hd⟩ => h3 e he hd
  have hfin : (F.finish current trial D α).2 = true := by
    unfold Filter.finish
    rw [if_neg hin]
    split_ifs <;> rfl
  unfold Filter.tryAdd
  rw [if_neg (by rw [h1]; simp [Fl.isFinite]; exact h2)]
  by_cases hs : current.violation ≤ F.minViolation ∧ switching current D α
  · rw [if_pos (show _ ∧ _ ∧ _ from hs)] at h4
    rw [if_pos hs]
    rw [if_neg (by rw [not_not]; exact h4)]
    exact hfin
  · rw [if_neg (show ¬ (_ ∧ _ ∧ _) from hs)] at h4
    rw [if_neg hs]
    rw [if_neg (by rw [not_not]; exact h4)]
    exact hfin

theorem Filter.inFilter_add {F : Filter} {e x : FilterEntry} (h : F.inFilter x) : (F.add e).inFilter x := by
  obtain ⟨y, hy, hd⟩ := h
  by_cases hye : y.dominatedBy e
  · exact ⟨e, by simp [Filter.add], FilterEntry.dominatedBy_trans hd hye⟩
  · exact ⟨y, by simp [Filter.add, hy, hye], hd⟩

theorem Filter.inFilter_tryAdd {F : Filter} {current trial x : FilterEntry} {D α : Fl} (h : F.inFilter x) :
    (F.tryAdd current trial D α).1.inFilter x := by
  rcases hF : F.tryAdd current trial D α with ⟨F', b⟩
  cases b with
  | false =>
      obtain ⟨h1, -, -⟩ := Filter.tryAdd_false hF
      obtain ⟨y, hy, hd⟩ := h
      exact ⟨y, by simpa [h1] using hy, hd⟩
  | true =>
      obtain ⟨-, -, -, h4⟩ := Filter.tryAdd_true hF
      rcases (Filter.finish_true h4).2 with ⟨-, rfl⟩ | ⟨-, -, rfl⟩
      · exact Filter.inFilter_add h
      · exact h

/-- What a solver does with a filter between resets. -/
structure Try where
  current : FilterEntry
  trial : FilterEntry
  D : Fl
  α : Fl

/-- The filter after some calls of `try_add`. -/
noncomputable def Filter.after (F : Filter) (l : List Try) : Filter :=
  l.foldl (fun F t => (F.tryAdd t.current t.trial t.D t.α).1) F

/-- C29: until a reset the set of rejected points only grows. -/
theorem region_shrinks (F : Filter) (l : List Try) (x : FilterEntry)
    (h : ∃ e ∈ F.entries, e.cost ≤ x.cost ∧ e.violation ≤ x.violation) :
    ∃ e ∈ (F.after l).entries, e.cost ≤ x.cost ∧ e.violation ≤ x.violation := by
  induction l generalizing F with
  | nil => exact h
  | cons t l ih => exact ih _ (Filter.inFilter_tryAdd h)

theorem Filter.after_limits (F : Filter) (l : List Try) :
    (F.after l).minViolation = F.minViolation ∧ (F.after l).maxViolation = F.maxViolation := by
  induction l generalizing F with
  | nil => exact ⟨rfl, rfl⟩
  | cons t l ih =>
      have : (F.tryAdd t.current t.trial t.D t.α).1.minViolation = F.minViolation ∧
          (F.tryAdd t.current t.trial t.D t.α).1.maxViolation = F.maxViolation := by
        rcases hF : F.tryAdd t.current t.trial t.D t.α with ⟨F', b⟩
        cases b with
        | false => exact (Filter.tryAdd_false hF).2
        | true =>
            obtain ⟨-, -, -, h4⟩ := Filter.tryAdd_true hF
            rcases (Filter.finish_true h4).2 with ⟨-, rfl⟩ | ⟨-, -, rfl⟩ <;> exact ⟨rfl, rfl⟩
      obtain ⟨h1, h2⟩ := ih (F.tryAdd t.current t.trial t.D t.α).1
      exact ⟨h1.trans this.1, h2.trans this.2⟩

/-- A point with finite values, as computed at a finite iterate. -/
def FilterEntry.Proper (e : FilterEntry) : Prop := ∃ c θ : ℝ, e = ⟨.fin c, .fin θ⟩ ∧ 0 ≤ θ

/-- The point dominates the envelope's owner. -/
theorem dominatedBy_envelope {e : FilterEntry} (he : e.Proper) {a : ℝ} (h0 : 0 < a) :
    e.dominatedBy (envelope e (.fin a)) := by
  obtain ⟨c, θ, rfl, hθ⟩ := he
  have hφ : 0 ≤ a ^ (1.5 : ℝ) := Real.rpow_nonneg h0.le _
  have h8 : (0 : ℝ) ≤ 1e-8 := by norm_num
  have h5 : (0 : ℝ) ≤ 1e-5 := by norm_num
  unfold FilterEntry.dominatedBy envelope
  simp only [Fl.pow_fin h0.le, Fl.fin_mul, Fl.fin_sub, Fl.one_def, Fl.fin_le]
  constructor
  · have := mul_nonneg (mul_nonneg hφ h8) hθ; linarith
  · have := mul_nonneg (mul_nonneg hφ h5) hθ; nlinarith

/-- A step accepted without remembering the point it leaves reduces the cost. -/
theorem armijo_decreases {current trial : FilterEntry} (hc : current.Proper) (ht : trial.Proper) {D : Fl}
    {a : ℝ} (h0 : 0 < a) (hs : switching current D (.fin a)) (ha : armijo current trial D (.fin a)) :
    trial.cost < current.cost := by
  obtain ⟨c, θ, rfl, hθ⟩ := hc
  obtain ⟨c', θ', rfl, hθ'⟩ := ht
  obtain ⟨hD, -⟩ := hs
  have h8 : (0 : ℝ) < 1e-8 := by norm_num
  cases D with
  | fin d =>
      simp only [armijo, Fl.fin_mul, Fl.fin_add, Fl.fin_le] at ha
      simp only [Fl.zero_def, Fl.fin_lt] at hD
      simp only [Fl.fin_lt]
      have : 1e-8 * a * d < 0 := mul_neg_of_pos_of_neg (mul_pos h8 h0) hD
      linarith
  | pinf => exact absurd hD (by simp [LT.lt, Fl.lt])
  | ninf =>
      exfalso
      have h9 : 1e-8 * a ≠ 0 := (mul_pos h8 h0).ne'
      have : (Fl.fin 1e-8 * Fl.fin a * Fl.ninf) = Fl.ninf := by
        show Fl.infMul false (1e-8 * a) = _
        unfold Fl.infMul
        rw [if_neg h9, if_neg]
        simp [mul_pos h8 h0]
      rw [armijo, this] at ha
      exact ha
  | nan => exact absurd hD (by simp [LT.lt, Fl.lt])

/-- C29: a point that was left by a step that extended the filter is remembered: whatever happens until
the next reset, no point with at least its cost and at least its violation is accepted. -/
theorem left_behind {F F' : Filter} {current trial : FilterEntry} {D : Fl} {a : ℝ} (hc : current.Proper)
    (h0 : 0 < a) (h : F.tryAdd current trial D (.fin a) = (F', true))
    (hadd : ¬ switching current D (.fin a) ∨ ¬ armijo current trial D (.fin a)) (l : List Try) (t : Try)
    (hdom : current.cost ≤ t.trial.cost ∧ current.violation ≤ t.trial.violation) :
    ((F'.after l).tryAdd t.current t.trial t.D t.α).2 = false := by
  obtain ⟨-, -, -, h4⟩ := Filter.tryAdd_true h
  have hF' : F' = F.add (envelope current (.fin a)) := by
    rcases (Filter.finish_true h4).2 with ⟨-, h⟩ | ⟨h5, h6, -⟩
    · exact h
    · exact absurd hadd (by tauto)
  have hin : F'.inFilter t.trial := by
    refine ⟨envelope current (.fin a), by simp [hF', Filter.add], ?_⟩
    exact FilterEntry.dominatedBy_trans (b := current) hdom (dominatedBy_envelope hc h0)
  have hin' := region_shrinks F' l t.trial hin
  by_contra hcon
  rw [Bool.not_eq_false] at hcon
  rcases hG : (F'.after l).tryAdd t.current t.trial t.D t.α with ⟨G, b⟩
  rw [hG] at hcon
  cases hcon
  exact (Filter.finish_true (Filter.tryAdd_true hG).2.2.2).1 hin'

/-- C29: no remembered entry is dominated by an entry that was added after it. -/
theorem entries_pairwise (v : Fl) (l : List Try) :
    ((Filter.make v).after l).entries.Pairwise fun old new => ¬ old.dominatedBy new := by
  have key : ∀ (l : List Try) (F : Filter), F.entries.Pairwise (fun old new => ¬ old.dominatedBy new) →
      (F.after l).entries.Pairwise fun old new => ¬ old.dominatedBy new := by
    intro l
    induction l with
    | nil => intro F h; exact h
    | cons t l ih =>
        intro F h
        apply ih
        show (F.tryAdd t.current t.trial t.D t.α).1.entries.Pairwise _
        rcases hF : F.tryAdd t.current t.trial t.D t.α with ⟨F', b⟩
        cases b with
        | false => rw [show (F', false).1 = F' from rfl, (Filter.tryAdd_false hF).1]; exact h
        | true =>
            rcases (Filter.finish_true (Filter.tryAdd_true hF).2.2.2).2 with ⟨-, rfl⟩ | ⟨-, -, rfl⟩
            · simp only [Filter.add]
              rw [List.pairwise_append]
              refine ⟨h.filter _, by simp, ?_⟩
              intro a ha b hb
              simp only [List.mem_singleton] at hb
              subst hb
              simpa using (List.mem_filter.1 ha).2
            · exact h
  exact key l _ (by simp [Filter.make])

/-- A run of a solver between resets: from the current point, trial points are rejected or accepted and
become the current point. The list holds the accepted points. -/
inductive Chain : Filter → FilterEntry → List FilterEntry → Prop where
  | nil {F current} : Chain F current []
  | reject {F F' current trial D α l} : F.tryAdd current trial D α = (F', false) → Chain F' current l →
      Chain F current l
  | accept {F F' : Filter} {current trial : FilterEntry} {D : Fl} {a : ℝ} {l} : 0 < a →
      F.tryAdd current trial D (.fin a) = (F', true) → Chain F' trial l → Chain F current (trial :: l)

/-- The members of `S` that the filter does not reject. -/
noncomputable def openOf (S : Finset FilterEntry) (F : Filter) : Finset FilterEntry :=
  S.filter fun e => ¬ F.inFilter e

/-- The members of `S` with a lower cost. -/
noncomputable def cheaper (S : Finset FilterEntry) (e : FilterEntry) : Finset FilterEntry :=
  S.filter fun x => x.cost < e.cost

theorem cheaper_lt {S : Finset FilterEntry} {a b : FilterEntry} (ha : a ∈ S) (hp : a.Proper) (hq : b.Proper)
    (h : a.cost < b.cost) : (cheaper S a).card < (cheaper S b).card := by
  obtain ⟨c, θ, rfl, -⟩ := hp
  obtain ⟨c', θ', rfl, -⟩ := hq
  apply Finset.card_lt_card
  rw [Finset.ssubset_iff_of_subset]
  · refine ⟨⟨.fin c, .fin θ⟩, ?_, ?_⟩
    · simp only [cheaper, Finset.mem_filter]; exact ⟨ha, h⟩
    · simp only [cheaper, Finset.mem_filter, Fl.fin_lt, lt_irrefl, and_false, not_false_eq_true]
  · intro x hx
    simp only [cheaper, Finset.mem_filter] at hx ⊢
    refine ⟨hx.1, ?_⟩
    have h2 : Fl.fin c ≤ Fl.fin c' := by
      simp only [Fl.fin_le]; simp only [Fl.fin_lt] at h; exact h.le
    exact Fl.lt_le_trans hx.2 h2

theorem cheaper_lt_card {S : Finset FilterEntry} {a : FilterEntry} (ha : a ∈ S) (hp : a.Proper) :
    (cheaper S a).card < S.card := by
  apply Finset.card_lt_card
  unfold cheaper
  rw [Finset.ssubset_iff_of_subset (Finset.filter_subset _ _)]
  refine ⟨a, ha, ?_⟩
  obtain ⟨c, θ, rfl, -⟩ := hp
  simp

/-- C29, no cycling: a run between resets that only visits points from a finite set `S` (for instance a
run that cycles) accepts at most `2 |S|² + |S|` steps, so the solver cannot cycle forever. -/
theorem no_cycling {F : Filter} {current : FilterEntry} {l : List FilterEntry} (h : Chain F current l)
    (S : Finset FilterEntry) (hcur : current ∈ S) (hl : ∀ e ∈ l, e ∈ S) (hS : ∀ e ∈ S, e.Proper) :
    l.length ≤ 2 * S.card ^ 2 + S.card := by
  have key : ∀ {F current l}, Chain F current l → current ∈ S → (∀ e ∈ l, e ∈ S) →
      l.length ≤ S.card * ((openOf S F).card + (insert current (openOf S F)).card) +
        (cheaper S current).card := by
    intro F current l h
    induction h with
    | nil => intro _ _; simp
    | @reject F F' current trial D α l hF _ ih =>
        intro hcur hl
        have hop : openOf S F' = openOf S F := by
          unfold openOf Filter.inFilter
          rw [(Filter.tryAdd_false hF).1]
        rw [← hop]
        exact ih hcur hl
    | @accept F F' current trial D a l h0 hF _ ih =>
        intro hcur hl
        have htr : trial ∈ S := hl trial (by simp)
        have ih := ih htr (fun e he => hl e (by simp [he]))
        obtain ⟨hnot, hcase⟩ := Filter.finish_true (Filter.tryAdd_true hF).2.2.2
        have htrial : trial ∈ openOf S F := by simp [openOf, htr, hnot]
        rcases hcase with ⟨-, rfl⟩ | ⟨hs, ha, rfl⟩
        · have hin : (F.add (envelope current (.fin a))).inFilter current :=
            ⟨_, by simp [Filter.add], dominatedBy_envelope (hS _ hcur) h0⟩
          have hsub : openOf S (F.add (envelope current (.fin a))) ⊆ openOf S F := by
            intro x hx
            simp only [openOf, Finset.mem_filter] at hx ⊢
            exact ⟨hx.1, fun h => hx.2 (Filter.inFilter_add h)⟩
          have hcn : current ∉ openOf S (F.add (envelope current (.fin a))) := by
            simp [openOf, hin]
          have hU : insert trial (openOf S (F.add (envelope current (.fin a)))) ⊆
              insert current (openOf S F) := by
            intro x hx
            rw [Finset.mem_insert] at hx ⊢
            rcases hx with rfl | hx
            · exact .inr htrial
            · exact .inr (hsub hx)
          have hB := Finset.card_le_card hsub
          have hUc := Finset.card_le_card hU
          have hdec : (openOf S (F.add (envelope current (.fin a)))).card +
              (insert trial (openOf S (F.add (envelope current (.fin a))))).card + 1 ≤
              (openOf S F).card + (insert current (openOf S F)).card := by
            by_cases htc : trial = current
            · have : (openOf S (F.add (envelope current (.fin a)))).card < (openOf S F).card := by
                apply Finset.card_lt_card
                rw [Finset.ssubset_iff_of_subset hsub]
                exact ⟨current, htc ▸ htrial, hcn⟩
              omega
            · have : (insert trial (openOf S (F.add (envelope current (.fin a))))).card <
                  (insert current (openOf S F)).card := by
                apply Finset.card_lt_card
                rw [Finset.ssubset_iff_of_subset hU]
                refine ⟨current, by simp, ?_⟩
                rw [Finset.mem_insert, not_or]
                exact ⟨fun h => htc h.symm, hcn⟩
              omega
          have hch := cheaper_lt_card htr (hS _ htr)
          simp only [List.length_cons]
          have := Nat.mul_le_mul_left S.card hdec
          rw [Nat.mul_add, Nat.mul_one] at this
          omega
        · have hch := cheaper_lt htr (hS _ htr) (hS _ hcur)
            (armijo_decreases (hS _ hcur) (hS _ htr) h0 hs ha)
          have hU : insert trial (openOf S F') ⊆ insert current (openOf S F') := by
            intro x hx
            rw [Finset.mem_insert] at hx ⊢
            rcases hx with rfl | hx
            · exact .inr htrial
            · exact .inr hx
          have := Nat.mul_le_mul_left S.card (Nat.add_le_add_left (Finset.card_le_card hU) (openOf S F').card)
          simp only [List.length_cons]
          omega
  have h1 := key h hcur hl
  have h2 : (openOf S F).card ≤ S.card := Finset.card_le_card (Finset.filter_subset _ _)
  have h3 : (insert current (openOf S F)).card ≤ S.card :=
    Finset.card_le_card (Finset.insert_subset hcur (Finset.filter_subset _ _))
  have h4 : (cheaper S current).card ≤ S.card := Finset.card_le_card (Finset.filter_subset _ _)
  have h5 := Nat.mul_le_mul_left S.card (Nat.add_le_add h2 h3)
  nlinarith

/-- C29: when the current point is not rejected by the filter, the entry added for it is not dominated by
an older one either. -/
theorem added_not_dominated {F : Filter} {current : FilterEntry} {a : ℝ} (hc : current.Proper) (h0 : 0 < a)
    (hin : ¬ F.inFilter current) : ∀ e ∈ F.entries, ¬ (envelope current (.fin a)).dominatedBy e :=
  fun e he hd => hin ⟨e, he, FilterEntry.dominatedBy_trans (dominatedBy_envelope hc h0) hd⟩

/-- C29: whatever happened since the filter was made for an initial violation `v`, a trial point is only accepted if
its violation is at most ten thousand times `max(1, v)` (or NaN), and it is only measured by the Armijo condition alone
if the violation at the current point is at most `max(1, v)` over ten thousand. -/
theorem violation_limits (v : ℝ) (l : List Try) {F' : Filter} {current trial : FilterEntry} {D α : Fl}
    (h : ((Filter.make (.fin v)).after l).tryAdd current trial D α = (F', true)) :
    (∀ θ : ℝ, trial.violation = .fin θ → θ ≤ 1e4 * Max.max 1 v) ∧ trial.violation ≠ .pinf ∧
      (∀ θ : ℝ, current.violation = .fin θ → 1e-4 * Max.max 1 v < θ →
        trial.cost ≤ current.cost - Fl.pow α 1.5 * Fl.fin 1e-8 * current.violation ∨
        trial.violation ≤ (1 - Fl.pow α 1.5 * Fl.fin 1e-5) * current.violation) := by
  obtain ⟨-, h2, -, h4⟩ := accepted_sound h
  obtain ⟨hmin, hmax⟩ := Filter.after_limits (.make (.fin v)) l
  have e1 : ((Filter.make (.fin v)).after l).maxViolation = .fin (1e4 * Max.max 1 v) := by
    rw [hmax]; simp [Filter.make, Fl.one_def]
  have e2 : ((Filter.make (.fin v)).after l).minViolation = .fin (1e-4 * Max.max 1 v) := by
    rw [hmin]; simp [Filter.make, Fl.one_def]
  rw [e1] at h2
  refine ⟨fun θ hθ => ?_, fun hp => ?_, fun θ hθ hlt => ?_⟩
  · rw [hθ, gt_iff_lt, Fl.fin_lt, not_lt] at h2; exact h2
  · rw [hp] at h2; exact h2 trivial
  · rw [if_neg] at h4
    · exact h4
    · rintro ⟨h5, -⟩
      rw [e2, hθ, Fl.fin_le] at h5
      linarith

/-- C29: `reset()` forgets all entries and keeps the limits. -/
theorem reset_correct (F : Filter) :
    F.reset.entries = [] ∧ F.reset.minViolation = F.minViolation ∧ F.reset.maxViolation = F.maxViolation ∧
      F.reset.lastRejectionDueToFilter = false := ⟨rfl, rfl, rfl, rfl⟩

/-- The point that a step leaves is not always remembered: an accepted step from cost 10 and violation 0
to cost 0 and violation 1 can be followed by an accepted step back. -/
theorem can_return : ((Filter.make 0).tryAdd ⟨.fin 10, .fin 0⟩ ⟨.fin 0, .fin 1⟩ (.fin (-1)) (.fin 1)).2 = true ∧
    (((Filter.make 0).tryAdd ⟨.fin 10, .fin 0⟩ ⟨.fin 0, .fin 1⟩ (.fin (-1)) (.fin 1)).1.tryAdd
      ⟨.fin 0, .fin 1⟩ ⟨.fin 10, .fin 0⟩ (.fin 0) (.fin 1)).2 = true := by
  have hs : switching ⟨.fin 10, .fin 0⟩ (.fin (-1)) (.fin 1) := by
    refine ⟨by simp [Fl.zero_def], ?_⟩
    simp only [Fl.fin_neg, neg_neg, gt_iff_lt]
    rw [Fl.pow_fin le_rfl, Fl.pow_fin zero_le_one, Real.one_rpow, Real.zero_rpow (by norm_num), Fl.fin_mul,
      Fl.fin_lt]
    norm_num
  have ha : armijo ⟨.fin 10, .fin 0⟩ ⟨.fin 0, .fin 1⟩ (.fin (-1)) (.fin 1) := by
    simp only [armijo, Fl.fin_mul, Fl.fin_add, Fl.fin_le]; norm_num
  have hmin : (Filter.make 0).minViolation = .fin 1e-4 := by
    simp [Filter.make, Fl.zero_def, Fl.one_def]
  have hmax : (Filter.make 0).maxViolation = .fin 1e4 := by
    simp [Filter.make, Fl.zero_def, Fl.one_def]
  have e1 : (Filter.make 0).tryAdd ⟨.fin 10, .fin 0⟩ ⟨.fin 0, .fin 1⟩ (.fin (-1)) (.fin 1) =
      (Filter.make 0, true) := by
    unfold Filter.tryAdd Filter.finish
    rw [if_neg (by rw [hmax]; simp [Fl.isFinite]; norm_num), if_pos ⟨by rw [hmin]; simp; norm_num, hs⟩,
      if_neg (by simp [ha]), if_neg (by simp [Filter.inFilter, Filter.make]), if_neg (by simp [hs, ha])]
  rw [e1]
  refine ⟨rfl, ?_⟩
  apply accepted_complete (c := 10) rfl
  · rw [hmax]; simp; norm_num
  · simp [Filter.make]
  · rw [if_neg (by simp [Fl.zero_def])]
    right
    rw [Fl.pow_fin zero_le_one, Real.one_rpow]
    simp only [Fl.one_def, Fl.fin_mul, Fl.fin_sub, Fl.fin_le]
    norm_num

/-- A point that the filter rejects can be the current point, because sufficient decrease from a feasible
point admits any cost when the direction is no descent direction. Then the entry added for it is
redundant: here the second entry is dominated by the first. -/
theorem redundant_entry :
    ((Filter.make 0).after [⟨⟨.fin 5, .fin 0⟩, ⟨.fin 7, .fin 0⟩, .fin 0, .fin 1⟩,
      ⟨⟨.fin 7, .fin 0⟩, ⟨.fin 1, .fin 0⟩, .fin 0, .fin 1⟩]).entries =
        [⟨.fin 5, .fin 0⟩, ⟨.fin 7, .fin 0⟩] ∧
      FilterEntry.dominatedBy ⟨.fin 7, .fin 0⟩ ⟨.fin 5, .fin 0⟩ := by
  have env : ∀ c : ℝ, envelope ⟨.fin c, .fin 0⟩ (.fin 1) = ⟨.fin c, .fin 0⟩ := by
    intro c
    simp [envelope, Fl.pow_fin zero_le_one, Fl.one_def]
  have nsw : ∀ e, ¬ switching e (.fin 0) (.fin 1) := by
    intro e; simp [switching, Fl.zero_def]
  have tr : ∀ (F : Filter) (c c' : ℝ), F.maxViolation = .fin 1e4 → (∀ e ∈ F.entries, ¬ e.cost ≤ .fin c') →
      F.tryAdd ⟨.fin c, .fin 0⟩ ⟨.fin c', .fin 0⟩ (.fin 0) (.fin 1) = (F.add ⟨.fin c, .fin 0⟩, true) := by
    intro F c c' hm he
    unfold Filter.tryAdd Filter.finish
    rw [if_neg (by rw [hm]; simp [Fl.isFinite]; norm_num), if_neg (by simp [nsw]),
      if_neg (by simp [sufficientDecrease, env]),
      if_neg (by rintro ⟨e, h1, h2⟩; exact he e h1 h2.1), if_pos (.inl (nsw _)), env]
  have hmax : (Filter.make 0).maxViolation = .fin 1e4 := by
    simp [Filter.make, Fl.zero_def, Fl.one_def]
  refine ⟨?_, by simp [FilterEntry.dominatedBy]; norm_num⟩
  simp only [Filter.after, List.foldl_cons, List.foldl_nil]
  rw [tr (Filter.make 0) 5 7 hmax (by simp [Filter.make])]
  simp only
  rw [tr _ 7 1 (by simpa [Filter.add] using hmax) (by simp [Filter.add, Filter.make])]
  have hnd : ¬ FilterEntry.dominatedBy ⟨.fin 5, .fin 0⟩ ⟨.fin 7, .fin 0⟩ := by
    simp [FilterEntry.dominatedBy]; norm_num
  simp [Filter.add, Filter.make, hnd]

/-- The hypotheses of `no_cycling` are met by the run of `can_return`. -/
example : ∃ F l, Chain F ⟨.fin 10, .fin 0⟩ l ∧ l = [⟨.fin 0, .fin 1⟩, ⟨.fin 10, .fin 0⟩] := by
  obtain ⟨h1, h2⟩ := can_return
  refine ⟨_, _, .accept (D := .fin (-1)) one_pos (Prod.ext rfl h1)
    (.accept (D := .fin 0) one_pos (Prod.ext rfl h2) .nil), rfl⟩

end Slp
