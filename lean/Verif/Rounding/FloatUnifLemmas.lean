import Verif.Rounding.FloatConvLemmas
import Verif.Rounding.FloatConvSpec

/-! Errors of smooth expressions are at most proportional to the unit roundoff, for every accurate arithmetic. -/

namespace Slp

open ScalarOps Topology Asymptotics

namespace FloatMath

open Conv

/-- `S` holds for errors proportional to the unit roundoff, in every arithmetic that is accurate enough. -/
def Unif (S : FloatMath → ℝ → Prop) : Prop :=
  ∃ C u0 : ℝ, 0 ≤ C ∧ 0 < u0 ∧ ∀ A : FloatMath, A.Lib → A.u ≤ u0 → S A (C * A.u)

/-- If it holds for an error, it holds for larger ones. -/
def Up (S : FloatMath → ℝ → Prop) : Prop := ∀ A ε ε', ε ≤ ε' → S A ε → S A ε'

theorem Unif.and {S T : FloatMath → ℝ → Prop} (hs : Up S) (ht : Up T) (h : Unif S) (h' : Unif T) :
    Unif fun A ε => S A ε ∧ T A ε := by
  obtain ⟨C, u0, h1, h2, h3⟩ := h
  obtain ⟨C', u0', h1', h2', h3'⟩ := h'
  refine ⟨Max.max C C', Min.min u0 u0', le_max_of_le_left h1, lt_min h2 h2', fun A hA hu => ⟨?_, ?_⟩⟩
  · exact hs A _ _ (mul_le_mul_of_nonneg_right (le_max_left _ _) A.nonneg) (h3 A hA (hu.trans (min_le_left _ _)))
  · exact ht A _ _ (mul_le_mul_of_nonneg_right (le_max_right _ _) A.nonneg) (h3' A hA (hu.trans (min_le_right _ _)))

theorem Unif.mono {S T : FloatMath → ℝ → Prop} (h : Unif S) (i : ∀ A ε, S A ε → T A ε) : Unif T := by
  obtain ⟨C, u0, h1, h2, h3⟩ := h
  exact ⟨C, u0, h1, h2, fun A hA hu => i _ _ (h3 A hA hu)⟩

theorem Unif.of_forall {S : FloatMath → ℝ → Prop} (h : ∀ A ε, S A ε) : Unif S :=
  ⟨0, 1, le_rfl, one_pos, fun A _ _ => h A _⟩

theorem Unif.all {α : Type} {S : α → FloatMath → ℝ → Prop} (l : List α) (hs : ∀ a, Up (S a))
    (h : ∀ a ∈ l, Unif (S a)) : Unif fun A ε => ∀ a ∈ l, S a A ε := by
  induction l with
  | nil => exact .of_forall fun _ _ a ha => by simp at ha
  | cons a l ih =>
    have h2 := ih fun b hb => h b (by simp [hb])
    have u2 : Up fun A ε => ∀ b ∈ l, S b A ε := fun A ε ε' he h b hb => hs b A ε ε' he (h b hb)
    refine (Unif.and (hs a) u2 (h a (by simp)) h2).mono ?_
    intro A ε hh b hb
    rcases List.mem_cons.mp hb with rfl | hb
    · exact hh.1
    · exact hh.2 b hb

/-- From an error that is of the order of the unit roundoff along every sequence to a uniform constant. -/
theorem unif_of_bigO {X : FloatMath → ℝ → Prop} {e : ℝ}
    (h : To (_root_.Filter.comap (fun i : {p : FloatMath × ℝ // p.1.Lib ∧ X p.1 p.2} => i.1.1.u) (𝓝 0))
      (fun i => i.1.1.u) (fun i => i.1.2) e) : Unif fun A ε => ∀ x, X A x → |x - e| ≤ ε := by
  obtain ⟨C, hC⟩ := IsBigO.bound h
  rw [Filter.eventually_comap, Metric.eventually_nhds_iff] at hC
  obtain ⟨δ, hδ, hC⟩ := hC
  refine ⟨|C|, δ / 2, abs_nonneg _, by linarith, fun A hA hu x hx => ?_⟩
  have h0 : 0 ≤ A.u := A.nonneg
  have := hC (y := A.u) (by rw [Real.dist_eq, sub_zero, abs_of_nonneg h0]; linarith) ⟨(A, x), hA, hx⟩ rfl
  rw [Real.norm_eq_abs, Real.norm_of_nonneg h0] at this
  exact this.trans (mul_le_mul_of_nonneg_right (le_abs_self _) h0)

/-- Values of a smooth expression. -/
theorem value_unif {env : ℕ → ℝ} {t : Term} (hs : t.Smooth env) :
    Unif fun A ε => ∀ x, (∃ T P O, 0 ≤ P ∧ Tang A env 0 t x T P O) → |x - t.eval env| ≤ ε := by
  apply unif_of_bigO (X := fun A x => ∃ T P O, 0 ≤ P ∧ Tang A env 0 t x T P O)
  choose T P O h using fun i : {p : FloatMath × ℝ // p.1.Lib ∧ ∃ T P O, 0 ≤ P ∧ Tang p.1 env 0 t p.2 T P O} => i.2.2
  exact (Tang.conv (A := fun i => i.1.1) (fun i => i.2.1) Filter.tendsto_comap hs (fun i => (h i).2)
    fun i => (h i).1).val

/-- Partial derivatives of a smooth expression. -/
theorem jac_unif {env : ℕ → ℝ} {t : Term} (k : ℕ) (hs : t.Smooth env) :
    Unif fun A ε => ∀ x, JacEntry A env k t x → |x - (Term.pd k t).eval env| ≤ ε := by
  by_cases hp : t.Plain
  swap
  · exact .of_forall fun A ε x ⟨v, T, P, O, h, _⟩ => absurd h.plain hp
  apply unif_of_bigO (X := fun A x => JacEntry A env k t x)
  choose v T P O h hP hx using fun i : {p : FloatMath × ℝ // p.1.Lib ∧ JacEntry p.1 env k t p.2} => i.2.2
  have hU : Filter.Tendsto (fun i : {p : FloatMath × ℝ // p.1.Lib ∧ JacEntry p.1 env k t p.2} => i.1.1.u)
    (_root_.Filter.comap (fun i => i.1.1.u) (𝓝 0)) (𝓝 0) := Filter.tendsto_comap
  have r := Tang.conv (A := fun i => i.1.1) (fun i => i.2.1) hU hs h hP
  obtain ⟨K, hK⟩ := r.loc
  rw [← Term.slope_eq k hp hs]
  have h1 := (up_bigO (A := fun i => i.1.1) hU ((Max.max K 5 + 2) * t.size + 1)).mul r.abs
  simp only [mul_one] at h1
  have h2 : (fun i : {p : FloatMath × ℝ // p.1.Lib ∧ JacEntry p.1 env k t p.2} => i.1.2 - T i) =O[_root_.Filter.comap
      (fun i => i.1.1.u) (𝓝 0)] fun i => i.1.1.u := IsBigO.trans (IsBigO.of_bound 1 (hK.mono fun i hi => by
    have := hx i (Max.max K 5) (Or.inl (le_max_right _ _)) fun op rc a b o =>
      (hi op rc (toReal a) (toReal b) o).mono (le_max_left _ _)
    rw [one_mul, Real.norm_eq_abs, Real.norm_eq_abs]
    exact this.trans (le_abs_self _))) h1
  unfold To
  exact (h2.add r.tan).congr_left fun i => by ring

/-- What a call returns. -/
theorem returns_unif (c : Cmd ℝ) (σ : Spec) : Unif fun A ε => ∀ o, A.RawReturns c σ o → A.ReturnsWithin ε c σ o := by
  cases c <;> first | exact .of_forall fun A ε o ho => ho | skip
  case value i =>
    rcases ht : σ.terms[i]? with _ | t
    · refine .of_forall fun A ε o ⟨x, e, _⟩ => ⟨x, e, fun t h => ?_⟩
      rw [ht] at h; cases h
    · by_cases hs : t.Smooth σ.env
      · refine (value_unif hs).mono fun A ε h o ⟨x, e, hx⟩ => ⟨x, e, fun t' ht' _ => ?_⟩
        rw [ht, Option.some.injEq] at ht'
        subst ht'
        exact h (toReal x) (hx t ht)
      · refine .of_forall fun A ε o ⟨x, e, _⟩ => ⟨x, e, fun t' ht' hs' => ?_⟩
        rw [ht, Option.some.injEq] at ht'
        subst ht'
        exact absurd hs' hs
  case jacValue j =>
    rcases hj : σ.jacs[j]? with _ | ⟨ts, ks⟩
    · refine .of_forall fun A ε o ⟨m, e, _⟩ => ⟨m, e, fun ts ks h => ?_⟩
      rw [hj] at h; cases h
    · have key : Unif fun A ε => ∀ t ∈ ts, ∀ k ∈ ks, t.Smooth σ.env → ∀ x, JacEntry A σ.env k t x →
          |x - (Term.pd k t).eval σ.env| ≤ ε := by
        refine Unif.all (S := fun t A ε => ∀ k ∈ ks, t.Smooth σ.env → ∀ x, JacEntry A σ.env k t x →
          |x - (Term.pd k t).eval σ.env| ≤ ε) ts (fun t A ε ε' he h k hk hs x hx => (h k hk hs x hx).trans he) fun t _ => ?_
        refine Unif.all (S := fun k A ε => t.Smooth σ.env → ∀ x, JacEntry A σ.env k t x →
          |x - (Term.pd k t).eval σ.env| ≤ ε) ks (fun t A ε ε' he h hs x hx => (h hs x hx).trans he) fun k _ => ?_
        by_cases hs : t.Smooth σ.env
        · exact (jac_unif k hs).mono fun A ε h _ => h
        · exact .of_forall fun A ε h => absurd h hs
      refine key.mono fun A ε h o ⟨m, e, hm⟩ => ⟨m, e, fun ts' ks' hj' => ?_⟩
      rw [hj, Option.some.injEq, Prod.mk.injEq] at hj'
      obtain ⟨rfl, rfl⟩ := hj'
      obtain ⟨l0, h0⟩ := hm ts ks hj
      refine ⟨l0, fun r hr => ?_⟩
      obtain ⟨row, e1, l1, h1⟩ := h0 r hr
      refine ⟨row, e1, l1, fun c hc => ?_⟩
      obtain ⟨x, e2, h2⟩ := h1 c hc
      exact ⟨x, e2, fun t k ht hk hs => h t (List.mem_of_getElem? ht) k (List.mem_of_getElem? hk) hs x (h2 t k ht hk)⟩

theorem ReturnsWithin.mono {A : FloatMath} {ε ε' : ℝ} (he : ε ≤ ε') {c : Cmd ℝ} {σ : Spec} {o : Obs A.Num}
    (h : A.ReturnsWithin ε c σ o) : A.ReturnsWithin ε' c σ o := by
  cases c <;> first | exact h | skip
  · obtain ⟨x, e, hx⟩ := h
    exact ⟨x, e, fun t ht hs => (hx t ht hs).trans he⟩
  · obtain ⟨m, e, hm⟩ := h
    refine ⟨m, e, fun ts ks hj => ⟨(hm ts ks hj).1, fun r hr => ?_⟩⟩
    obtain ⟨row, e1, l1, h1⟩ := (hm ts ks hj).2 r hr
    refine ⟨row, e1, l1, fun c hc => ?_⟩
    obtain ⟨x, e2, h2⟩ := h1 c hc
    exact ⟨x, e2, fun t k ht hk hs => (h2 t k ht hk hs).trans he⟩

theorem ReturnsAllWithin.mono {A : FloatMath} {ε ε' : ℝ} (he : ε ≤ ε') {cs : List (Cmd ℝ)} {σ : Spec}
    {os : List (Obs A.Num)} (h : A.ReturnsAllWithin ε cs σ os) : A.ReturnsAllWithin ε' cs σ os := by
  induction cs generalizing σ os with
  | nil => exact h
  | cons c cs ih =>
    cases os with
    | nil => exact h
    | cons o os => exact ⟨h.1.mono he, ih h.2⟩

/-- What a sequence of calls returns. -/
theorem returnsAll_unif (cs : List (Cmd ℝ)) (σ : Spec) :
    Unif fun A ε => ∀ os, A.RawReturnsAll cs σ os → A.ReturnsAllWithin ε cs σ os := by
  induction cs generalizing σ with
  | nil => exact .of_forall fun A ε os h => h
  | cons c cs ih =>
    have u1 : Up fun A ε => ∀ o, A.RawReturns c σ o → A.ReturnsWithin ε c σ o :=
      fun A ε ε' he h o ho => (h o ho).mono he
    have u2 : Up fun A ε => ∀ os, A.RawReturnsAll cs (σ.next c) os → A.ReturnsAllWithin ε cs (σ.next c) os :=
      fun A ε ε' he h os ho => (h os ho).mono he
    refine (Unif.and u1 u2 (returns_unif c σ) (ih (σ.next c))).mono fun A ε h os ho => ?_
    cases os with
    | nil => exact ho
    | cons o os => exact ⟨h.1 o ho.1, h.2 os ho.2⟩

end FloatMath

end Slp
