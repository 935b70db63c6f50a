import Verif.Problem.MultistartModel
import Mathlib.Tactic.NormNum

/-! C44: `multistart()`. -/

namespace Slp

variable {D E : Type}

/-! ### Choosing from a list -/

theorem minElement_mem {R : Type} (less : R → R → Bool) (first : R) (rest : List R) :
    minElement less first rest ∈ first :: rest := by
  unfold minElement
  induction rest generalizing first with
  | nil => simp
  | cons a l ih =>
    simp only [List.foldl_cons]
    have h := ih (if less a first then a else first)
    rcases List.mem_cons.1 h with h | h
    · rw [h]; split <;> simp
    · exact List.mem_cons_of_mem _ (List.mem_cons_of_mem _ h)

/-- The element of a list that `min_element` returns, if "not less" is transitive on the list: nothing is less. -/
theorem minElement_least {R : Type} {less : R → R → Bool} {first : R} {rest : List R}
    (trans : ∀ a ∈ first :: rest, ∀ b ∈ first :: rest, ∀ c ∈ first :: rest,
      less b a = false → less c b = false → less c a = false)
    (asymm : ∀ a ∈ first :: rest, ∀ b ∈ first :: rest, less a b = true → less b a = false)
    (irrefl : ∀ a ∈ first :: rest, less a a = false) :
    ∀ b ∈ first :: rest, less b (minElement less first rest) = false := by
  induction rest generalizing first with
  | nil => simpa [minElement] using irrefl
  | cons a l ih =>
    have hm : minElement less first (a :: l) = minElement less (if less a first then a else first) l := rfl
    rw [hm]
    by_cases h : less a first = true
    · rw [if_pos h]
      have sub : ∀ x ∈ a :: l, x ∈ first :: a :: l := fun x hx => List.mem_cons_of_mem _ hx
      have key := ih (first := a) (fun x hx y hy z hz => trans x (sub x hx) y (sub y hy) z (sub z hz))
        (fun x hx y hy => asymm x (sub x hx) y (sub y hy)) fun x hx => irrefl x (sub x hx)
      intro b hb
      rcases List.mem_cons.1 hb with rfl | hb
      · exact trans _ (sub _ (minElement_mem less a l)) a (by simp) b (by simp) (key a (by simp))
          (asymm a (by simp) b (by simp) h)
      · exact key b hb
    · rw [if_neg h]
      have sub : ∀ x ∈ first :: l, x ∈ first :: a :: l := fun x hx => by
        rcases List.mem_cons.1 hx with hx | hx
        · rw [hx]; exact List.mem_cons_self
        · exact List.mem_cons_of_mem _ (List.mem_cons_of_mem _ hx)
      have key := ih (first := first) (fun x hx y hy z hz => trans x (sub x hx) y (sub y hy) z (sub z hz))
        (fun x hx y hy => asymm x (sub x hx) y (sub y hy)) fun x hx => irrefl x (sub x hx)
      intro b hb
      rcases List.mem_cons.1 hb with rfl | hb
      · exact key _ (by simp)
      rcases List.mem_cons.1 hb with rfl | hb
      · exact trans _ (sub _ (minElement_mem less first l)) first (by simp) b (by simp) (key first (by simp))
          (by simpa using h)
      · exact key b (by simp [hb])

/-! ### Threads -/

/-- The invariant of the program: futures hold the result of their guess, and the calling thread has collected the
results of the first guesses in order. -/
structure Multistart.Ok (solve : D → Except E (MultistartResult D)) (guesses : List D) (m : Multistart D E) : Prop where
  length : m.futures.length = guesses.length
  stored : ∀ (i : ℕ) r, m.futures[i]? = some (some r) → ∃ g, guesses[i]? = some g ∧ r = solve g
  collected : m.collected.map .ok = (guesses.take m.collected.length).map solve
  outcome : match m.outcome with
    | .running => m.collected.length < guesses.length
    | .threw e => ∃ g, guesses[m.collected.length]? = some g ∧ solve g = .error e
    | o => m.collected.length = guesses.length ∧ o = chooseResult m.collected

theorem multistart_ok (solve : D → Except E (MultistartResult D)) (guesses : List D) (schedule : List MultistartStep) :
    (multistart solve guesses schedule).Ok solve guesses := by
  induction schedule using List.reverseRecOn with
  | nil =>
    refine ⟨by simp [multistart, Multistart.launch], fun i r h => ?_, by simp [multistart, Multistart.launch], ?_⟩
    · simp [multistart, Multistart.launch, List.getElem?_replicate] at h
    · cases guesses with
      | nil => simp [multistart, Multistart.launch, chooseResult]
      | cons g l => simp [multistart, Multistart.launch]
  | append_singleton schedule s ih =>
    have hm : multistart solve guesses (schedule ++ [s]) = (multistart solve guesses schedule).step solve guesses s := by
      simp [multistart]
    rw [hm]
    generalize multistart solve guesses schedule = m at ih
    obtain ⟨h1, h2, h3, h4⟩ := ih
    cases s with
    | finish i =>
      simp only [Multistart.step]
      split
      · rename_i g hg hf
        refine ⟨by simp [h1], fun j r h => ?_, h3, h4⟩
        simp only [List.getElem?_set] at h
        split at h
        · rename_i hij
          split at h
          · subst hij
            exact ⟨g, hg, by simpa using h.symm⟩
          · simp at h
        · exact h2 j r h
      · exact ⟨h1, h2, h3, h4⟩
    | collect =>
      simp only [Multistart.step]
      split
      · rename_i ho
        rw [ho] at h4
        simp only at h4
        split
        · rename_i r hr
          obtain ⟨g, hg, hs⟩ := h2 _ _ hr
          have hc : (m.collected ++ [r]).map .ok = (guesses.take (m.collected.length + 1)).map solve := by
            rw [List.take_add_one, hg]
            simp [h3, hs]
          refine ⟨h1, h2, by simpa using hc, ?_⟩
          by_cases he : m.collected.length + 1 = m.futures.length
          · rw [if_pos he]
            have : chooseResult (E := E) (m.collected ++ [r]) = .returned (minElement betterResult
                ((m.collected ++ [r]).head (by simp)) (m.collected ++ [r]).tail) := by
              cases m.collected <;> rfl
            rw [this]
            simp only [List.length_append, List.length_cons, List.length_nil]
            exact ⟨by omega, trivial⟩
          · rw [if_neg he]
            simp only [List.length_append, List.length_cons, List.length_nil]
            omega
        · rename_i e hr
          obtain ⟨g, hg, hs⟩ := h2 _ _ hr
          exact ⟨h1, h2, h3, g, hg, hs.symm⟩
        · refine ⟨h1, h2, h3, ?_⟩
          rw [ho]; exact h4
      · exact ⟨h1, h2, h3, h4⟩

theorem guesses_solved {solve : D → Except E (MultistartResult D)} {guesses : List D} {l : List (MultistartResult D)}
    (h : l.map .ok = (guesses.take l.length).map solve) (hl : l.length = guesses.length) :
    guesses.map solve = l.map .ok := by
  rw [h, hl, List.take_length]

/-- C44: however the threads are scheduled, when `multistart()` returns, its result is the same: the choice from the
results of all guesses, listed in the order of the guesses. In particular it is the result of a guess. -/
theorem multistart_deterministic (solve : D → Except E (MultistartResult D)) (guesses : List D)
    (schedule : List MultistartStep) {r : MultistartResult D}
    (h : (multistart solve guesses schedule).outcome = .returned r) :
    (∃ l : List (MultistartResult D), guesses.map solve = l.map .ok ∧ chooseResult (E := E) l = .returned r ∧ r ∈ l) ∧
    ∃ g ∈ guesses, solve g = .ok r := by
  obtain ⟨-, -, h3, h4⟩ := multistart_ok solve guesses schedule
  rw [h] at h4
  obtain ⟨h5, h6⟩ := h4
  have hs := guesses_solved h3 h5
  have hr : r ∈ (multistart solve guesses schedule).collected := by
    revert h6
    generalize (multistart solve guesses schedule).collected = l
    cases l with
    | nil => intro h6; cases h6
    | cons a l => intro h6; cases h6; exact minElement_mem _ _ _
  refine ⟨⟨_, hs, h6.symm, hr⟩, ?_⟩
  have : Except.ok r ∈ guesses.map solve := by rw [hs]; exact List.mem_map_of_mem hr
  obtain ⟨g, hg, hg'⟩ := List.mem_map.1 this
  exact ⟨g, hg, hg'⟩

/-- C44: if a solve throws, `multistart()` throws the exception of the first guess that does. -/
theorem multistart_throws (solve : D → Except E (MultistartResult D)) (guesses : List D)
    (schedule : List MultistartStep) {e : E} (h : (multistart solve guesses schedule).outcome = .threw e) :
    ∃ (k : ℕ) (g : D), guesses[k]? = some g ∧ solve g = .error e ∧ ∀ j < k, ∀ g', guesses[j]? = some g' → ∃ r, solve g' = .ok r := by
  obtain ⟨-, -, h3, h4⟩ := multistart_ok solve guesses schedule
  rw [h] at h4
  obtain ⟨g, hg, hs⟩ := h4
  refine ⟨_, g, hg, hs, fun j hj g' hg' => ?_⟩
  have : ((multistart solve guesses schedule).collected.map Except.ok)[j]? = some (solve g') := by
    rw [h3]; simp [hj, hg']
  rw [List.getElem?_map, List.getElem?_eq_getElem hj] at this
  exact ⟨_, (Option.some.inj this).symm⟩

/-- C44: `multistart()` without guesses is undefined behaviour, with guesses it is not. -/
theorem multistart_defined (solve : D → Except E (MultistartResult D)) (guesses : List D)
    (schedule : List MultistartStep) : (multistart solve guesses schedule).outcome = .undefined ↔ guesses = [] := by
  obtain ⟨-, -, -, h4⟩ := multistart_ok solve guesses schedule
  constructor
  · intro h
    rw [h] at h4
    obtain ⟨h5, h6⟩ := h4
    cases hc : (multistart solve guesses schedule).collected with
    | nil => rw [hc] at h5; exact List.length_eq_zero_iff.1 h5.symm
    | cons a l => rw [hc] at h6; cases h6
  · rintro rfl
    cases ho : (multistart solve [] schedule).outcome with
    | undefined => rfl
    | running => rw [ho] at h4; exact absurd h4 (Nat.not_lt_zero _)
    | threw e => rw [ho] at h4; obtain ⟨g, hg, -⟩ := h4; simp at hg
    | returned r =>
      rw [ho] at h4
      obtain ⟨h5, h6⟩ := h4
      rw [List.length_eq_zero_iff.1 h5] at h6; cases h6

/-- C44: every schedule that lets each solve end and then lets the calling thread run makes `multistart()` end. -/
theorem multistart_ends (solve : D → Except E (MultistartResult D)) (guesses : List D) :
    (multistart solve guesses ((List.range guesses.length).map .finish ++ List.replicate guesses.length .collect)).outcome
      ≠ .running := by
  have key : ∀ n : ℕ, n ≤ guesses.length → ∀ i < n,
      (multistart solve guesses ((List.range n).map .finish)).futures[i]? = (guesses[i]?).map fun g => some (solve g) := by
    intro n
    induction n with
    | zero => intro _ i hi; omega
    | succ n ih =>
      intro hn i hi
      have hok := (multistart_ok solve guesses ((List.range n).map .finish)).length
      have hst := (multistart_ok solve guesses ((List.range n).map .finish)).stored
      have hm : multistart solve guesses ((List.range (n + 1)).map .finish) =
          (multistart solve guesses ((List.range n).map .finish)).step solve guesses (.finish n) := by
        simp [multistart, List.range_succ]
      rw [hm]
      simp only [Multistart.step]
      split
      · rename_i g hg hf
        simp only [List.getElem?_set]
        by_cases hin : n = i
        · subst hin
          rw [if_pos rfl, if_pos (by omega), hg]; rfl
        · rw [if_neg hin]
          exact ih (by omega) i (by omega)
      · rename_i hno
        by_cases hin : n = i
        · subst hin
          rw [List.getElem?_eq_getElem (by omega : n < guesses.length)] at hno ⊢
          rcases hf : (multistart solve guesses ((List.range n).map .finish)).futures[n]? with _ | _ | r
          · rw [List.getElem?_eq_none_iff] at hf; omega
          · exact absurd hf (hno _ rfl)
          · obtain ⟨g, hg, hr⟩ := hst _ _ hf
            rw [List.getElem?_eq_getElem (by omega : n < guesses.length)] at hg
            rw [hr, ← Option.some.inj hg]; rfl
        · exact ih (by omega) i (by omega)
  have fin := key guesses.length le_rfl
  have hc : ∀ n, (multistart solve guesses ((List.range guesses.length).map .finish ++ List.replicate n .collect)).outcome
      ≠ .running ∨ ((multistart solve guesses ((List.range guesses.length).map .finish ++
        List.replicate n .collect)).collected.length = n ∧
        (multistart solve guesses ((List.range guesses.length).map .finish ++ List.replicate n .collect)).futures =
          (multistart solve guesses ((List.range guesses.length).map .finish)).futures) := by
    intro n
    induction n with
    | zero =>
      right
      refine ⟨?_, by simp⟩
      suffices h : ∀ l : List ℕ, (multistart solve guesses (l.map .finish)).collected = [] by simp [h]
      intro l
      induction l using List.reverseRecOn with
      | nil => rfl
      | append_singleton l i ih =>
        have hm : multistart solve guesses ((l ++ [i]).map .finish) =
            (multistart solve guesses (l.map .finish)).step solve guesses (.finish i) := by
          simp [multistart]
        rw [hm]
        simp only [Multistart.step]
        split <;> exact ih
    | succ n ih =>
      have hm : multistart solve guesses ((List.range guesses.length).map .finish ++ List.replicate (n + 1) .collect) =
          (multistart solve guesses ((List.range guesses.length).map .finish ++ List.replicate n .collect)).step solve
            guesses .collect := by
        rw [List.replicate_succ', ← List.append_assoc]
        simp only [multistart, List.foldl_append, List.foldl_cons, List.foldl_nil]
      rw [hm]
      have hok := multistart_ok solve guesses ((List.range guesses.length).map .finish ++ List.replicate n .collect)
      generalize multistart solve guesses ((List.range guesses.length).map .finish ++ List.replicate n .collect) = m
        at ih hok
      simp only [Multistart.step]
      rcases ih with ih | ⟨ih1, ih2⟩
      · left
        split
        · rename_i ho; exact absurd ho ih
        · exact ih
      · split
        · rename_i ho
          have hlt := hok.outcome
          rw [ho] at hlt
          simp only at hlt
          split
          · right
            exact ⟨by simp [ih1], ih2⟩
          · left; simp
          · rename_i h1 h2
            exfalso
            have := fin m.collected.length hlt
            rw [← ih2, List.getElem?_eq_getElem hlt] at this
            rcases hsv : solve guesses[m.collected.length] with e | r
            · rw [Option.map_some, hsv] at this; exact h2 _ this
            · rw [Option.map_some, hsv] at this; exact h1 _ this
        · rename_i hno
          left; exact hno
  rcases hc guesses.length with h | ⟨h1, -⟩
  · exact h
  · intro ho
    have := (multistart_ok solve guesses ((List.range guesses.length).map .finish ++
      List.replicate guesses.length .collect)).outcome
    rw [ho] at this
    simp only at this
    omega

/-! ### Which result is chosen -/

/-- C44, as documented, for a list of results and the one chosen. -/
def BestResult (l : List (MultistartResult D)) (r : MultistartResult D) : Prop :=
  ((∃ a ∈ l, a.status = .success) → r.status = .success) ∧
  (r.status = .success → ∀ a ∈ l, a.status = .success → ¬ a.cost < r.cost)

theorem better_false {a b : MultistartResult D} : betterResult a b = false ↔
    ¬ (a.status = .success ∧ b.status ≠ .success) ∧ ¬ a.cost < b.cost := by
  unfold betterResult
  split <;> simp_all

/-- C44 in part: the documented result is returned if no unsuccessful solve has a lower cost than a successful one, and
no cost is NaN. Missing: see `multistart_prefers_failure`, `multistart_not_lowest`. -/
theorem multistart_best_partial (solve : D → Except E (MultistartResult D)) (guesses : List D)
    (schedule : List MultistartStep) {r : MultistartResult D}
    (h : (multistart solve guesses schedule).outcome = .returned r)
    (hn : ∀ g ∈ guesses, ∀ a, solve g = .ok a → a.cost ≠ .nan)
    (hc : ∀ g ∈ guesses, ∀ g' ∈ guesses, ∀ a b, solve g = .ok a → solve g' = .ok b → a.status = .success →
      b.status ≠ .success → a.cost ≤ b.cost) :
    ∃ l : List (MultistartResult D), guesses.map solve = l.map .ok ∧ BestResult l r ∧ ∀ a ∈ l, ¬ a.cost < r.cost := by
  obtain ⟨⟨l, hl, hch, hr⟩, -⟩ := multistart_deterministic solve guesses schedule h
  have mem : ∀ a ∈ l, ∃ g ∈ guesses, solve g = .ok a := fun a ha => by
    have : Except.ok a ∈ guesses.map solve := by rw [hl]; exact List.mem_map_of_mem ha
    obtain ⟨g, hg, hg'⟩ := List.mem_map.1 this
    exact ⟨g, hg, hg'⟩
  have nn : ∀ a ∈ l, a.cost ≠ .nan := fun a ha => by
    obtain ⟨g, hg, hs⟩ := mem a ha
    exact hn g hg a hs
  have cc : ∀ a ∈ l, ∀ b ∈ l, a.status = .success → b.status ≠ .success → a.cost ≤ b.cost := fun a ha b hb => by
    obtain ⟨g, hg, hs⟩ := mem a ha
    obtain ⟨g', hg', hs'⟩ := mem b hb
    exact hc g hg g' hg' a b hs hs'
  have total : ∀ x y : Fl, x ≠ .nan → y ≠ .nan → (¬ x < y ↔ y ≤ x) := by
    intro x y hx hy
    cases x <;> cases y <;> first | exact absurd rfl hx | exact absurd rfl hy | skip
    all_goals first
      | (simp only [Fl.fin_lt, Fl.fin_le]; exact not_lt)
      | (simp [LT.lt, LE.le, Fl.lt, Fl.le])
  have key : ∀ b ∈ l, betterResult b r = false := by
    cases l with
    | nil => simp
    | cons a l =>
      cases hch
      apply minElement_least
      · intro a ha b hb c hc' h1 h2
        rw [better_false] at h1 h2 ⊢
        refine ⟨fun hs => ?_, ?_⟩
        · by_cases hbs : b.status = .success
          · exact h1.1 ⟨hbs, hs.2⟩
          · exact h2.1 ⟨hs.1, hbs⟩
        · rw [total _ _ (nn c hc') (nn a ha)]
          exact Fl.le_trans' ((total _ _ (nn b hb) (nn a ha)).1 h1.2) ((total _ _ (nn c hc') (nn b hb)).1 h2.2)
      · intro a ha b hb hab
        rw [better_false]
        unfold betterResult at hab
        split at hab
        · rename_i hs
          exact ⟨fun hs' => hs.2 hs'.1, (total _ _ (nn b hb) (nn a ha)).2 (cc a ha b hb hs.1 hs.2)⟩
        · rename_i hs
          have hlt : a.cost < b.cost := by simpa using hab
          have hnb : ¬ b.cost < a.cost := by
            rw [total _ _ (nn b hb) (nn a ha)]
            revert hlt
            cases a.cost <;> cases b.cost <;> simp [LT.lt, LE.le, Fl.lt, Fl.le]
            exact fun h => le_of_lt (α := ℝ) h
          refine ⟨fun hs' => ?_, hnb⟩
          exact (total _ _ (nn a ha) (nn b hb)).2 (cc b hb a ha hs'.1 hs'.2) hlt
      · intro a ha
        rw [better_false]
        exact ⟨fun hs => hs.2 hs.1, (total _ _ (nn a ha) (nn a ha)).2 (by
          have := nn a ha
          revert this
          cases a.cost with
          | fin x => intro _; exact (Fl.fin_le x x).2 le_rfl
          | _ => simp [LE.le, Fl.le])⟩
  refine ⟨l, hl, ⟨?_, fun hs a ha has => ((better_false.1 (key a ha)).2)⟩, fun a ha => (better_false.1 (key a ha)).2⟩
  rintro ⟨a, ha, has⟩
  by_contra hrs
  exact (better_false.1 (key a ha)).1 ⟨has, hrs⟩

/-- The comparison ignores costs of unsuccessful results only from one side: a successful solve loses to a later
unsuccessful one of lower cost. -/
theorem multistart_prefers_failure (x y : D) {c d : ℝ} (hcd : d < c) {st : ExitStatus} (hst : st ≠ .success) :
    chooseResult (E := E) [⟨.success, .fin c, x⟩, ⟨st, .fin d, y⟩] = .returned ⟨st, .fin d, y⟩ := by
  simp [chooseResult, minElement, betterResult, hst, hcd]

/-- The successful result returned need not be the one of lowest cost either. -/
theorem multistart_not_lowest (x y z : D) {st : ExitStatus} (hst : st ≠ .success) :
    chooseResult (E := E) [⟨.success, .fin 1, x⟩, ⟨st, .fin 0, y⟩, ⟨.success, .fin 2, z⟩] =
      .returned ⟨.success, .fin 2, z⟩ := by
  simp [chooseResult, minElement, betterResult, hst]

/-- So the documentation does not hold in general. -/
theorem multistart_not_best : ∃ (solve : Bool → Except Unit (MultistartResult Bool)) (guesses : List Bool)
    (schedule : List MultistartStep) (r : MultistartResult Bool),
    (multistart solve guesses schedule).outcome = .returned r ∧
    ¬ ∃ l : List (MultistartResult Bool), guesses.map solve = l.map .ok ∧ BestResult l r := by
  refine ⟨fun b => .ok (if b then ⟨.success, .fin 2, b⟩ else ⟨.timeout, .fin 1, b⟩), [true, false],
    [.finish 1, .collect, .finish 0, .collect, .collect], ⟨.timeout, .fin 1, false⟩, ?_, ?_⟩
  · simp [multistart, Multistart.launch, Multistart.step, chooseResult, minElement, betterResult]
  · rintro ⟨l, hl, h, -⟩
    have := h ⟨⟨.success, .fin 2, true⟩, ?_, rfl⟩
    · cases this
    · have : Except.ok (ε := Unit) (⟨.success, .fin 2, true⟩ : MultistartResult Bool) ∈ l.map Except.ok := by
        rw [← hl]; simp
      obtain ⟨a, ha, he⟩ := List.mem_map.1 this
      cases he; exact ha

/-- The hypotheses of `multistart_best_partial`: three guesses, the second solve fails with a high cost. -/
example : ∃ r, (multistart (E := Unit) (fun n : ℕ => .ok (if n = 1 then ⟨.timeout, .fin 9, n⟩ else ⟨.success, .fin n, n⟩))
    [2, 1, 3] [.finish 2, .collect, .finish 0, .collect, .finish 1, .collect, .collect]).outcome = .returned r ∧
    r.guess = 2 := by
  refine ⟨⟨.success, .fin 2, 2⟩, ?_, rfl⟩
  simp [multistart, Multistart.launch, Multistart.step, chooseResult, minElement, betterResult]
  norm_num

end Slp
