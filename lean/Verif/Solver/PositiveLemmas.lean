import Verif.Solver.LineSearchProps

/-! Lemmas for C25: slacks and multipliers of inequality constraints stay positive. -/

namespace Slp

open Classical

variable {n m k : ℕ}

/-- Every element is a positive number. -/
def Vec.Pos (v : Vec n) : Prop := ∀ i, ∃ a, v i = .fin a ∧ 0 < a

theorem Vec.Pos.finite {v : Vec n} (h : v.Pos) : v.Finite := fun i => by
  obtain ⟨a, ha, -⟩ := h i; rw [ha]; rfl

theorem Vec.Pos.real_pos {v : Vec n} (h : v.Pos) (i : Fin n) : 0 < v.real i := by
  obtain ⟨a, ha, hp⟩ := h i; unfold Vec.real; rw [ha]; exact hp

theorem clampDualF_pos {a b : ℝ} (ha : 0 < a) (hb : 0 < b) {z : Fl} (hz : z ≠ .nan) :
    ∃ c, clampDualF (.fin a) (.fin b) z = .fin c ∧ 0 < c ∧ 1 / 1e10 * a / b ≤ c ∧ c ≤ 1e10 * a / b := by
  have hlo : 1 / Fl.fin 1e10 * .fin a / .fin b = .fin (1 / 1e10 * a / b) := by
    rw [Fl.one_def, Fl.fin_div (by norm_num), Fl.fin_mul, Fl.fin_div hb.ne']
  have hhi : Fl.fin 1e10 * .fin a / .fin b = .fin (1e10 * a / b) := by
    rw [Fl.fin_mul, Fl.fin_div hb.ne']
  have h0 : 0 < 1 / 1e10 * a / b := by positivity
  have hle : 1 / 1e10 * a / b ≤ 1e10 * a / b := by
    apply div_le_div_of_nonneg_right _ hb.le
    apply mul_le_mul_of_nonneg_right _ ha.le
    norm_num
  unfold clampDualF clampF
  rw [hlo, hhi]
  split
  · exact ⟨_, rfl, h0, le_rfl, hle⟩
  · rename_i h1
    split
    · exact ⟨_, rfl, h0.trans_le hle, hle, le_rfl⟩
    · rename_i h2
      cases z with
      | nan => exact absurd rfl hz
      | pinf => exact absurd trivial h2
      | ninf => exact absurd trivial h1
      | fin c =>
        rw [Fl.fin_lt, not_lt] at h1 h2
        exact ⟨c, rfl, h0.trans_le h1, h1, h2⟩

/-- A move by at most the boundary rule's step size keeps a vector positive if the result is finite. -/
theorem move_pos {s p : Vec k} (hs : s.Pos) {t : ℝ} (ht : 0 < t) (ht1 : t < 1) {b a : ℝ}
    (hb : boundaryF s p (.fin t) = .fin b) (h0 : 0 ≤ a) (hab : a ≤ b)
    (hfin : Vec.Finite fun i => s i + .fin a * p i) : Vec.Pos fun i => s i + .fin a * p i := by
  have hp : p.Finite := fun i => (Fl.finite_mul.1 (Fl.finite_add.1 (hfin i)).2).2
  rw [boundaryF_finite hs.finite hp ht hs.real_pos] at hb
  obtain rfl := Fl.fin.inj hb
  intro i
  refine ⟨s.real i + a * p.real i, ?_, ?_⟩
  · show s i + .fin a * p i = _
    rw [Fl.finite_toReal (hs.finite i), Fl.finite_toReal (hp i)]; rfl
  · exact boundary_positive ht ht1 _ (by
      intro e he; obtain ⟨j, rfl⟩ := (List.mem_ofFn' _ _).1 he; exact hs.real_pos j) h0 hab
      (s.real i, p.real i) ((List.mem_ofFn' _ _).2 ⟨i, rfl⟩)

/-- What the loop maintains about the barrier parameter and the boundary rule's factor. -/
structure BarrierOk (st : IpmState n m k) : Prop where
  μ : ∃ a, st.μ = .fin a ∧ 0 < a
  τ : ∃ t, st.τ = .fin t ∧ 0.99 ≤ t ∧ t < 1

/-- The multipliers' step is finite if the slacks' step is. -/
theorem pz_finite {env : Env} {st : IpmState n m k} (hB : BarrierOk st) (hs : st.s.Pos) (hz : st.z.Pos)
    (rhs : Vec (n + m)) (cis : Vec k) (i : ℕ) (hp : (ipmComputeStep env st rhs cis i).ps.Finite) : (ipmComputeStep env st rhs cis i).pz.Finite := by
  obtain ⟨a, ha, -⟩ := hB.μ
  intro j
  obtain ⟨b, hb, hb0⟩ := hs j
  obtain ⟨c, hc, -⟩ := hz j
  have hpj := Fl.finite_toReal (hp j)
  show (st.μ * (1 / st.s j) - st.z j - 1 / st.s j * st.z j * (ipmComputeStep env st rhs cis i).ps j).isFinite = true
  rw [hpj, ha, hb, hc, Fl.one_def, Fl.fin_div hb0.ne']
  rfl

/-- The trial multipliers are finite if the slacks' step is. -/
theorem trial_z_finite {env : Env} {st : IpmState n m k} (hB : BarrierOk st) (hs : st.s.Pos) (hz : st.z.Pos)
    (rhs : Vec (n + m)) (cis : Vec k) (i : ℕ) (hp : (ipmComputeStep env st rhs cis i).ps.Finite) :
    Vec.Finite fun j => st.z j + boundaryF st.z (ipmComputeStep env st rhs cis i).pz st.τ *
      (ipmComputeStep env st rhs cis i).pz j := by
  obtain ⟨t, ht, ht0, -⟩ := hB.τ
  have hpz := pz_finite hB hs hz rhs cis i hp
  obtain ⟨b, hb, -⟩ := boundaryF_range (by linarith : 0 < t) hz (ipmComputeStep env st rhs cis i).pz
  intro j
  rw [ht, hb]
  exact Fl.finite_add.2 ⟨hz.finite j, Fl.finite_mul.2 ⟨rfl, hpz j⟩⟩

theorem not_nan_of_finite {a : Fl} (h : a.isFinite = true) : a ≠ .nan := by rintro rfl; simp [Fl.isFinite] at h

/-- A finite logarithm is that of a positive number. -/
theorem log_finite {a : Fl} (h : a.log.isFinite = true) : ∃ b, a = .fin b ∧ 0 < b := by
  cases a with
  | fin b =>
    refine ⟨b, rfl, ?_⟩
    simp only [Fl.log] at h
    split_ifs at h with h1 h2
    · simp [Fl.isFinite] at h
    · simp [Fl.isFinite] at h
    · exact lt_of_le_of_ne (not_lt.1 h1) (Ne.symm h2)
  | pinf => simp [Fl.log, Fl.isFinite] at h
  | ninf => simp [Fl.log, Fl.isFinite] at h
  | nan => simp [Fl.log, Fl.isFinite] at h

theorem sum_finite {l : List Fl} (h : (l.foldr (· + ·) 0).isFinite = true) : ∀ a ∈ l, a.isFinite = true := by
  induction l with
  | nil => simp
  | cons a l ih =>
    simp only [List.foldr_cons] at h
    obtain ⟨h1, h2⟩ := Fl.finite_add.1 h
    intro b hb
    rcases List.mem_cons.1 hb with rfl | hb
    · exact h1
    · exact ih h2 b hb

/-- An interior-point entry with a finite cost has positive slacks. -/
theorem entry_finite {f μ : Fl} {s ci : Vec k} {ce : Vec m} (h : (ipmEntry f s ce ci μ).cost.isFinite = true) :
    s.Pos := by
  have h2 := (Fl.finite_mul.1 (Fl.finite_sub.1 h).2).2
  intro i
  exact log_finite (sum_finite h2 _ (List.mem_map.2 ⟨s i, (List.mem_ofFn' _ _).2 ⟨i, rfl⟩, rfl⟩))

theorem tryAdd_finite {F : Filter} {c t : FilterEntry} {D α : Fl} (h : (F.tryAdd c t D α).2 = true) :
    t.cost.isFinite = true := by
  rcases hF : F.tryAdd c t D α with ⟨F', b⟩
  rw [hF] at h
  obtain rfl : b = true := h
  exact (Filter.tryAdd_true hF).1

theorem FilterAccepts.finite {F : Filter} {r : ℕ} {c t : FilterEntry} {D α : Fl} (h : FilterAccepts F r c t D α) :
    t.cost.isFinite = true := h.elim tryAdd_finite fun h => tryAdd_finite h.2

/-- With `feasible_ipm`, the constraints and their Jacobian are finite at finite points. -/
def FeasibleOk (opts : SolverOptions) (P : Nlp n m k) : Prop :=
  opts.feasibleIpm = true → ∀ x : Vec n, x.Finite → (P.ci x).Finite ∧ (P.Ai x).Finite

/-- An acceptable point's slacks and, after clamping, multipliers are positive if the point is finite. -/
theorem accept_pos {env : Env} {opts : SolverOptions} {P : Nlp n m k} {st : IpmState n m k} {rhs : Vec (n + m)}
    {cis : Vec k} {i : ℕ}
    (hB : BarrierOk st) (hx : st.x.Finite) (hs : st.s.Pos)
    (he1 : st.e.Ai = P.Ai st.x) (he2 : st.e.ci = P.ci st.x) (hcis : cis = fun j => st.e.ci j - st.s j)
    {amax : ℝ} {D : Fl} {F : Filter} {r : ℕ} {R : Reason} {t : Trial n m k} {used : Fl} (h0 : 0 ≤ amax)
    (hmax : boundaryF st.s (ipmComputeStep env st rhs cis i).ps st.τ = .fin amax)
    (h : Acceptable env opts P st (ipmComputeStep env st rhs cis i) amax
      (boundaryF st.z (ipmComputeStep env st rhs cis i).pz st.τ) D F r R t used)
    (htx : t.x.Finite) (hts : t.s.Finite) :
    t.s.Pos ∧ (FeasibleOk opts P → st.z.Pos → Vec.Pos fun j => clampDualF st.μ (t.s j) (t.z j)) := by
  obtain ⟨b, hb, hb0⟩ := hB.μ
  obtain ⟨τ, hτ, hτ0, hτ1⟩ := hB.τ
  have hτp : 0 < τ := by linarith
  have hclamp (s z : Vec k) (hs : s.Pos) (hz : z.Finite) : Vec.Pos fun j => clampDualF st.μ (s j) (z j) := by
    intro j
    obtain ⟨a, ha, ha0⟩ := hs j
    obtain ⟨c, hc, hc0, -⟩ := clampDualF_pos hb0 ha0 (not_nan_of_finite (hz j))
    exact ⟨c, by simp only [hb, ha, hc], hc0⟩
  -- a move along a step
  have hmove (rhs' : Vec (n + m)) (cis' : Vec k) (i' : ℕ) (a c : ℝ) (hc : boundaryF st.s (ipmComputeStep env st rhs' cis' i').ps st.τ = .fin c)
      (ha : 0 ≤ a) (hac : a ≤ c) (hf : Vec.Finite fun j => st.s j + .fin a * (ipmComputeStep env st rhs' cis' i').ps j) :
      (Vec.Pos fun j => st.s j + .fin a * (ipmComputeStep env st rhs' cis' i').ps j) ∧
        (st.z.Pos → Vec.Finite fun j => st.z j + boundaryF st.z (ipmComputeStep env st rhs' cis' i').pz st.τ *
          (ipmComputeStep env st rhs' cis' i').pz j) := by
    rw [hτ] at hc
    exact ⟨move_pos hs hτp hτ1 hc ha hac hf, fun hz =>
      trial_z_finite hB hs hz _ cis' i' fun j => (Fl.finite_mul.1 (Fl.finite_add.1 (hf j)).2).2⟩
  cases R with
  | filter =>
    obtain ⟨a, rfl, ha0, ha1, -, rfl, -, hacc⟩ := h
    by_cases hm : SlacksFollow opts st
    · have hpos : (ipmTrial P st (ipmComputeStep env st rhs cis i) (.fin a)
          (boundaryF st.z (ipmComputeStep env st rhs cis i).pz st.τ) (SlacksFollow opts st)).s.Pos :=
        entry_finite hacc.finite
      refine ⟨hpos, fun hP hz => hclamp _ _ hpos ?_⟩
      refine trial_z_finite hB hs hz _ cis i ?_
      obtain ⟨hci, hAi⟩ := hP hm.1 st.x hx
      have hpx : Vec.Finite (ipmComputeStep env st rhs cis i).px :=
        fun j => (Fl.finite_mul.1 (Fl.finite_add.1 (htx j)).2).2
      intro j
      show (cis j + mulVecF env st.e.Ai (ipmComputeStep env st rhs cis i).px j).isFinite = true
      rw [Fl.finite_add]
      constructor
      · rw [hcis, he2]; exact Fl.finite_sub.2 ⟨hci j, hs.finite j⟩
      · unfold mulVecF
        rw [if_pos ⟨by rw [he1]; exact hAi, hpx⟩]; rfl
    · have hs' : (ipmTrial P st (ipmComputeStep env st rhs cis i) (.fin a)
          (boundaryF st.z (ipmComputeStep env st rhs cis i).pz st.τ) (SlacksFollow opts st)).s =
          fun j => st.s j + .fin a * (ipmComputeStep env st rhs cis i).ps j := if_neg hm
      rw [hs'] at hts ⊢
      obtain ⟨h1, h2⟩ := hmove _ cis i a amax hmax ha0 ha1 hts
      exact ⟨h1, fun _ hz => hclamp _ _ h1 (h2 hz)⟩
  | correction =>
    obtain ⟨l, ce', cis', wv, -, hcor, -⟩ := h
    obtain ⟨i', hu, rfl⟩ := hcor.step
    set rhs' := st.socRhs env ce' cis'
    obtain ⟨c, hc, hc0, -⟩ := boundaryF_range hτp hs (ipmComputeStep env st rhs' cis' i').ps
    rw [← hτ] at hc
    rw [hc] at hu
    subst hu
    have hs' : (ipmTrial P st (ipmComputeStep env st rhs' cis' i') (.fin c)
        (boundaryF st.z (ipmComputeStep env st rhs' cis' i').pz st.τ) False).s =
        fun j => st.s j + .fin c * (ipmComputeStep env st rhs' cis' i').ps j := if_neg not_false
    rw [hs'] at hts ⊢
    obtain ⟨h1, h2⟩ := hmove _ cis' i' c c hc hc0 le_rfl hts
    exact ⟨h1, fun _ hz => hclamp _ _ h1 (h2 hz)⟩
  | kktError =>
    obtain ⟨rfl, rfl, -⟩ := h
    have hs' : (ipmTrial P st (ipmComputeStep env st rhs cis i) (.fin amax)
        (boundaryF st.z (ipmComputeStep env st rhs cis i).pz st.τ) False).s =
        fun j => st.s j + .fin amax * (ipmComputeStep env st rhs cis i).ps j := if_neg not_false
    rw [hs'] at hts ⊢
    obtain ⟨h1, h2⟩ := hmove _ cis i amax amax hmax h0 le_rfl hts
    exact ⟨h1, fun _ hz => hclamp _ _ h1 (h2 hz)⟩

end Slp
