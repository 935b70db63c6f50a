import Verif.Rounding.FloatProps
import Verif.Rounding.FloatUnifLemmas

/-!
C73: values and derivatives of all smooth expressions in floating-point arithmetic. The programs are those of
`ApiProps`, restricted to calls that do not build expressions for derivatives (`Cmd.FirstOrder`); they are the same
calls, run on numbers whose arithmetic rounds.
-/

namespace Slp

open ScalarOps Topology

namespace FloatMath

/-- C73. Every allowed program without expressions for derivatives runs to completion in floating-point arithmetic,
however inaccurate. -/
theorem float_programs_complete (A : FloatMath) (cs : List (Cmd ℝ)) (h : Allowed cs) (hp : ∀ c ∈ cs, c.FirstOrder) :
    ∃ os s, run (cs.map (Cmd.float A)) Api.empty = some (os, s) := by
  obtain ⟨os, s, e, _⟩ := grun_ok (A := A) finv_empty cs h hp
  exact ⟨os, s, e⟩

/-- C73. For every such program, the errors of all values and entries of Jacobians it returns, wherever the
expressions are smooth, are at most proportional to the unit roundoff: the same constant works for every arithmetic
that is accurate enough. -/
theorem float_programs_converge (cs : List (Cmd ℝ)) (h : Allowed cs) (hp : ∀ c ∈ cs, c.FirstOrder) :
    ∃ C u0 : ℝ, 0 < u0 ∧ ∀ A : FloatMath, A.Lib → A.u ≤ u0 →
      ∃ os s, run (cs.map (Cmd.float A)) Api.empty = some (os, s) ∧ A.ReturnsAllWithin (C * A.u) cs Spec.empty os := by
  obtain ⟨C, u0, _, h0, hC⟩ := returnsAll_unif cs Spec.empty
  refine ⟨C, u0, h0, fun A hA hu => ?_⟩
  obtain ⟨os, s, e, r, _⟩ := grun_ok (A := A) finv_empty cs h hp
  exact ⟨os, s, e, hC A hA hu os r⟩

theorem float_raw (A : FloatMath) {cs : List (Cmd ℝ)} {c : Cmd ℝ} (h : Allowed (cs ++ [c]))
    (hp : ∀ d ∈ cs, d.FirstOrder) (hc : c.FirstOrder) :
    ∃ o, result ((cs ++ [c]).map (Cmd.float A)) = some o ∧ A.RawReturns c (stateAfter cs) o := by
  obtain ⟨hcs, hv⟩ := allowed_snoc.mp h
  obtain ⟨os, s, e, _, I⟩ := grun_ok (A := A) finv_empty cs hcs hp
  obtain ⟨o, s', e', r, _⟩ := gstep_ok I c hv hc
  refine ⟨o, ?_, r⟩
  rw [List.map_append, List.map_singleton, result_of_run e, e']
  rfl

/-- C73 for `value()`, at the end of any program. The constant depends only on the expression and on the values of the
variables, not on the program that led to them. -/
theorem float_value_error {t : Term} {env : ℕ → ℝ} (hs : t.Smooth env) :
    ∃ C u0 : ℝ, 0 < u0 ∧ ∀ A : FloatMath, A.Lib → A.u ≤ u0 → ∀ (cs : List (Cmd ℝ)) (i : ℕ), Allowed cs →
      (∀ c ∈ cs, c.FirstOrder) → (stateAfter cs).terms[i]? = some t → (stateAfter cs).env = env →
      ∃ x : A.Num, result ((cs ++ [Cmd.value i]).map (Cmd.float A)) = some (.num x) ∧
        |toReal x - t.eval env| ≤ C * A.u := by
  obtain ⟨C, u0, _, h0, hC⟩ := value_unif hs
  refine ⟨C, u0, h0, fun A hA hu cs i h hp ht he => ?_⟩
  have hi : i < (stateAfter cs).terms.length := (List.getElem?_eq_some_iff.mp ht).1
  obtain ⟨o, e, x, rfl, hx⟩ := A.float_raw (c := .value i) (allowed_snoc.mpr ⟨h, hi⟩) hp trivial
  subst he
  exact ⟨x, e, hC A hA hu _ (hx t ht)⟩

/-- C73 for the entries of `Jacobian::value()`, at the end of any program. -/
theorem float_jacobian_error {t : Term} {env : ℕ → ℝ} (k : ℕ) (hs : t.Smooth env) :
    ∃ C u0 : ℝ, 0 < u0 ∧ ∀ A : FloatMath, A.Lib → A.u ≤ u0 → ∀ (cs : List (Cmd ℝ)) (j : ℕ) (ts : List Term)
      (ks : List ℕ) (r c : ℕ), Allowed cs → (∀ c ∈ cs, c.FirstOrder) → (stateAfter cs).jacs[j]? = some (ts, ks) →
      (stateAfter cs).env = env → ts[r]? = some t → ks[c]? = some k →
      ∃ m : List (List A.Num), result ((cs ++ [Cmd.jacValue j]).map (Cmd.float A)) = some (.mat m) ∧
        ∃ row : List A.Num, m[r]? = some row ∧ ∃ x, row[c]? = some x ∧
          |toReal x - (Term.pd k t).eval env| ≤ C * A.u := by
  obtain ⟨C, u0, _, h0, hC⟩ := jac_unif k hs
  refine ⟨C, u0, h0, fun A hA hu cs j ts ks r c h hp hj he ht hk => ?_⟩
  have hi : j < (stateAfter cs).jacs.length := (List.getElem?_eq_some_iff.mp hj).1
  obtain ⟨o, e, m, rfl, hm⟩ := A.float_raw (c := .jacValue j) (allowed_snoc.mpr ⟨h, hi⟩) hp trivial
  subst he
  obtain ⟨_, h2⟩ := hm ts ks hj
  obtain ⟨row, e1, l1, h3⟩ := h2 r (List.getElem?_eq_some_iff.mp ht).1
  rw [List.getElem?_map, Option.map_eq_some_iff] at e1
  obtain ⟨row', e2, rfl⟩ := e1
  obtain ⟨x, e3, h4⟩ := h3 c (List.getElem?_eq_some_iff.mp hk).1
  rw [List.getElem?_map, Option.map_eq_some_iff] at e3
  obtain ⟨x', e4, rfl⟩ := e3
  exact ⟨m, e, row', e2, x', e4, hC A hA hu _ (h4 t k ht hk)⟩

/-! ### A concrete case: binary numbers with ever more bits -/

theorem nearest_int {p : ℕ} (hp : 0 < p) (k : ℤ) (h : |(k : ℝ)| * 2 ^ (-p : ℤ) ≤ 1) : Rounding.nearest p k = k := by
  have h1 : |(k : ℝ)| ≤ 2 ^ (p : ℤ) := by
    rwa [zpow_neg, ← div_eq_mul_inv, div_le_one (by positivity)] at h
  rcases eq_or_ne k 0 with rfl | hk
  · simpa using Rounding.nearest_zero p
  have hk' : 0 < |(k : ℝ)| := abs_pos.mpr (by exact_mod_cast hk)
  rcases eq_or_lt_of_le h1 with h2 | h2
  · rcases abs_eq (by positivity) |>.mp h2 with h3 | h3 <;> rw [h3]
    · exact Rounding.nearest_two_zpow hp _
    · exact Rounding.nearest_neg_two_zpow hp _
  · have h3 : Int.log 2 |(k : ℝ)| < p := (Int.lt_zpow_iff_log_lt one_lt_two hk').mp (by simpa using h2)
    obtain ⟨n, hn⟩ := Int.le.dest (Int.add_one_le_iff.mpr h3)
    have h4 : Rounding.ulp p k = (2 ^ n : ℝ)⁻¹ := by
      unfold Rounding.ulp
      rw [← zpow_natCast, ← zpow_neg]
      congr 1
      omega
    have h5 : (k : ℝ) / (2 ^ n : ℝ)⁻¹ = ((k * 2 ^ n : ℤ) : ℝ) := by push_cast; field_simp
    unfold Rounding.nearest
    rw [h4, h5, round_intCast]
    push_cast
    field_simp

/-- Binary arithmetic with correctly rounded library functions is covered. -/
theorem binary_lib (p : ℕ) (hp : 0 < p) : (binary p hp).Lib where
  cpi_err := (Rounding.binary p).err _
  cerf_err := (Rounding.binary p).err _
  facos_err _ _ _ := (Rounding.binary p).err _
  fasin_err _ _ _ := (Rounding.binary p).err _
  fatan_err _ := (Rounding.binary p).err _
  fatan2_err _ _ := (Rounding.binary p).err _
  ferf_err _ := (Rounding.binary p).err _
  flog_err _ _ := (Rounding.binary p).err _
  flog10_err _ _ := (Rounding.binary p).err _
  fpow_err _ _ _ := (Rounding.binary p).err _
  ftan_err _ _ := (Rounding.binary p).err _
  ftanh_err _ := (Rounding.binary p).err _
  rnd_int k h := nearest_int hp k h

theorem binary_u_tendsto : Filter.Tendsto (fun p : ℕ => (binary (p + 1) p.succ_pos).u) Filter.atTop (𝓝 0) := by
  have h : ∀ p : ℕ, (binary (p + 1) p.succ_pos).u = (1 / 2 : ℝ) ^ (p + 1) := fun p => by
    show (2 : ℝ) ^ (-((p + 1 : ℕ) : ℤ)) = _
    rw [zpow_neg, zpow_natCast, one_div, inv_pow]
  simp only [h]
  exact (tendsto_pow_atTop_nhds_zero_of_lt_one (by norm_num) (by norm_num)).comp (Filter.tendsto_add_atTop_nat 1)

/-- With ever more bits, `value()` tends to the exact value. -/
theorem float_value_tendsto {cs : List (Cmd ℝ)} {i : ℕ} {t : Term} (h : Allowed cs) (hp : ∀ c ∈ cs, c.FirstOrder)
    (ht : (stateAfter cs).terms[i]? = some t) (hs : t.Smooth (stateAfter cs).env) :
    ∃ x : (p : ℕ) → (binary (p + 1) p.succ_pos).Num,
      (∀ p, result ((cs ++ [Cmd.value i]).map (Cmd.float (binary (p + 1) p.succ_pos))) = some (.num (x p))) ∧
      Filter.Tendsto (fun p => toReal (x p)) Filter.atTop (𝓝 (t.eval (stateAfter cs).env)) := by
  have hi : i < (stateAfter cs).terms.length := (List.getElem?_eq_some_iff.mp ht).1
  have hx : ∀ p, ∃ x, result ((cs ++ [Cmd.value i]).map (Cmd.float (binary (p + 1) p.succ_pos))) = some (.num x) := by
    intro p
    obtain ⟨o, e, x, rfl, _⟩ := (binary (p + 1) p.succ_pos).float_raw (c := .value i) (allowed_snoc.mpr ⟨h, hi⟩) hp trivial
    exact ⟨x, e⟩
  choose x hx using hx
  refine ⟨x, hx, ?_⟩
  obtain ⟨C, u0, h0, hC⟩ := float_value_error hs
  have hu := binary_u_tendsto
  rw [tendsto_iff_dist_tendsto_zero]
  refine squeeze_zero' (.of_forall fun _ => dist_nonneg) ?_ (by simpa using hu.const_mul C)
  filter_upwards [hu.eventually (eventually_lt_nhds h0)] with p hp'
  obtain ⟨y, e, hy⟩ := hC _ (binary_lib _ _) hp'.le cs i h hp ht rfl
  rw [hx p, Option.some.injEq, Obs.num.injEq] at e
  subst e
  exact hy

/-- With ever more bits, the entries of `Jacobian::value()` tend to the exact partial derivatives. -/
theorem float_jacobian_tendsto {cs : List (Cmd ℝ)} {j r c k : ℕ} {ts : List Term} {ks : List ℕ} {t : Term}
    (h : Allowed cs) (hp : ∀ c ∈ cs, c.FirstOrder) (hj : (stateAfter cs).jacs[j]? = some (ts, ks))
    (ht : ts[r]? = some t) (hk : ks[c]? = some k) (hs : t.Smooth (stateAfter cs).env) :
    ∃ x : (p : ℕ) → (binary (p + 1) p.succ_pos).Num,
      (∀ᶠ p in Filter.atTop, ∃ m row, result ((cs ++ [Cmd.jacValue j]).map (Cmd.float (binary (p + 1) p.succ_pos))) =
        some (.mat m) ∧ m[r]? = some row ∧ row[c]? = some (x p)) ∧
      Filter.Tendsto (fun p => toReal (x p)) Filter.atTop (𝓝 ((Term.pd k t).eval (stateAfter cs).env)) := by
  obtain ⟨C, u0, h0, hC⟩ := float_jacobian_error k hs
  have hu := binary_u_tendsto
  have hx : ∀ p, ∃ x : (binary (p + 1) p.succ_pos).Num, (binary (p + 1) p.succ_pos).u < u0 →
      (∃ m row, result ((cs ++ [Cmd.jacValue j]).map (Cmd.float (binary (p + 1) p.succ_pos))) =
        some (.mat m) ∧ m[r]? = some row ∧ row[c]? = some x) ∧
      |toReal x - (Term.pd k t).eval (stateAfter cs).env| ≤ C * (binary (p + 1) p.succ_pos).u := by
    intro p
    by_cases hp' : (binary (p + 1) p.succ_pos).u < u0
    · obtain ⟨m, e, row, e1, x, e2, hx⟩ := hC _ (binary_lib _ _) hp'.le cs j ts ks r c h hp hj rfl ht hk
      exact ⟨x, fun _ => ⟨⟨m, row, e, e1, e2⟩, hx⟩⟩
    · exact ⟨(0 : ℝ), fun h => absurd h hp'⟩
  choose x hx using hx
  refine ⟨x, (hu.eventually (eventually_lt_nhds h0)).mono fun p hp' => (hx p hp').1, ?_⟩
  rw [tendsto_iff_dist_tendsto_zero]
  refine squeeze_zero' (.of_forall fun _ => dist_nonneg) ?_ (by simpa using hu.const_mul C)
  filter_upwards [hu.eventually (eventually_lt_nhds h0)] with p hp'
  exact (hx p hp').2

/-- `exp(x) * sin(x) / pow(y, 3)` and its gradient. -/
noncomputable def demoC : List (Cmd ℝ) :=
  [.decl, .decl, .setValue 0 3, .setValue 1 (-1 / 3), .un .exp 0, .un .sin 0, .bin .mul 2 3, .lit 3, .bin .pow 1 5,
    .bin .div 4 6, .jac [7] [0, 1]]

theorem demoC_allowed : Allowed demoC := by
  simp [Allowed, demoC, ValidAll, Valid, Spec.next, Spec.empty, Spec.WrtOK, Spec.vars, Term.varOf]

theorem demoC_firstOrder : ∀ c ∈ demoC, c.FirstOrder := by simp [demoC, Cmd.FirstOrder]

/-- The expression of `demoC`. -/
noncomputable def demoT : Term :=
  .bin .div (.bin .mul (.un .exp (.var 0)) (.un .sin (.var 0))) (.bin .pow (.var 1) (.lit 3))

theorem demoC_state : (stateAfter demoC).terms[7]? = some demoT ∧
    (stateAfter demoC).jacs[0]? = some ([demoT], [0, 1]) ∧
    (stateAfter demoC).env 0 = 3 ∧ (stateAfter demoC).env 1 = -1 / 3 := by
  simp [stateAfter, demoC, demoT, Spec.after, Spec.next, Spec.empty, Spec.vars, Spec.exprs, Term.varOf]

theorem demoT_smooth : demoT.Smooth (stateAfter demoC).env := by
  have h3 : (3 : ℝ) = ((3 : ℤ) : ℝ) := by norm_num
  refine ⟨⟨⟨trivial, trivial⟩, ⟨trivial, trivial⟩, trivial⟩,
    ⟨trivial, trivial, Or.inr ⟨trivial, 3, h3, Or.inr (by norm_num)⟩⟩, ?_⟩
  simp only [BinOp.Smooth, Term.eval, BinOp.eval, demoC_state.2.2.2]
  have h : ((-1 / 3 : ℝ)) ^ (3 : ℝ) = (-1 / 3) ^ (3 : ℕ) := by exact_mod_cast Real.rpow_natCast (-1 / 3) 3
  rw [h]
  exact pow_ne_zero _ (by norm_num)

/-- The value and the derivative with respect to `y` tend to the exact ones. -/
example : ∃ x : (p : ℕ) → (binary (p + 1) p.succ_pos).Num,
    (∀ p, result ((demoC ++ [Cmd.value 7]).map (Cmd.float (binary (p + 1) p.succ_pos))) = some (.num (x p))) ∧
    Filter.Tendsto (fun p => toReal (x p)) Filter.atTop (𝓝 (demoT.eval (stateAfter demoC).env)) :=
  float_value_tendsto demoC_allowed demoC_firstOrder demoC_state.1 demoT_smooth

example : ∃ x : (p : ℕ) → (binary (p + 1) p.succ_pos).Num,
    (∀ᶠ p in Filter.atTop, ∃ m row, result ((demoC ++ [Cmd.jacValue 0]).map
      (Cmd.float (binary (p + 1) p.succ_pos))) = some (.mat m) ∧ m[0]? = some row ∧ row[1]? = some (x p)) ∧
    Filter.Tendsto (fun p => toReal (x p)) Filter.atTop (𝓝 ((Term.pd 1 demoT).eval (stateAfter demoC).env)) :=
  float_jacobian_tendsto demoC_allowed demoC_firstOrder demoC_state.2.1 rfl rfl demoT_smooth

/-- Arithmetic that is accurate enough for any given bound exists. -/
example (u0 : ℝ) (h : 0 < u0) : ∃ A : FloatMath, A.Lib ∧ A.u ≤ u0 := by
  obtain ⟨p, hp⟩ := (binary_u_tendsto.eventually (eventually_lt_nhds h)).exists
  exact ⟨_, binary_lib _ p.succ_pos, hp.le⟩

end FloatMath

end Slp
