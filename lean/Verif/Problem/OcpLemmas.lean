import Verif.Problem.OcpModel
import Verif.Problem.DeclareProps
import Mathlib.Algebra.Polynomial.Derivative
import Mathlib.Algebra.Polynomial.Eval.Degree
import Mathlib.Tactic.FieldSimp
import Mathlib.Tactic.LinearCombination

/-! Specification of C40-C43 and lemmas for them. -/

namespace Slp

/-! ### Specification -/

/-- The dynamics as a mathematical function of time, state, input and timestep. -/
abbrev RealDynamics (ns ni : ℕ) := ℝ → (Fin ns → ℝ) → (Fin ni → ℝ) → ℝ → Fin ns → ℝ

/-- The values of a column. -/
noncomputable def values {n : ℕ} (c : Fin n → Term) (v : ℕ → ℝ) : Fin n → ℝ := fun r => (c r).eval v

/-- The expressions built by `f` mean `F`. -/
def Denotes {ns ni : ℕ} (f : Dynamics ns ni) (F : RealDynamics ns ni) : Prop :=
  ∀ t x u dt v, values (f t x u dt) v = F (t.eval v) (values x v) (values u v) (dt.eval v)

/-- One step of the classical fourth order Runge-Kutta method for `x' = G(t, x)`. -/
noncomputable def classicRk4 {n : ℕ} (G : ℝ → (Fin n → ℝ) → Fin n → ℝ) (t h : ℝ) (x : Fin n → ℝ) : Fin n → ℝ :=
  let k₁ := G t x
  let k₂ := G (t + h / 2) (x + (h / 2) • k₁)
  let k₃ := G (t + h / 2) (x + (h / 2) • k₂)
  let k₄ := G (t + h) (x + h • k₃)
  x + (h / 6) • (k₁ + (2 : ℝ) • k₂ + (2 : ℝ) • k₃ + k₄)

/-- The state after one step: Runge-Kutta for differential equations (with the input held), otherwise the transition
function. -/
noncomputable def nextState {ns ni : ℕ} (F : RealDynamics ns ni) (dyn : DynamicsType) (t : ℝ) (x : Fin ns → ℝ)
    (u : Fin ni → ℝ) (h : ℝ) : Fin ns → ℝ :=
  match dyn with
  | .explicitOde => classicRk4 (fun t x => F t x u h) t h x
  | .discrete => F t x u h

/-- The constraints hold. -/
def Problem.Feasible (p : Problem) (v : ℕ → ℝ) : Prop :=
  (∀ e ∈ p.eqs, e.term.eval v = 0) ∧ ∀ e ∈ p.ineqs, 0 ≤ e.term.eval v

namespace Ocp

variable {ns ni : ℕ} (o : Ocp ns ni) (v : ℕ → ℝ)

/-- State number `k` of the trajectory. -/
noncomputable def state (k : ℕ) : Fin ns → ℝ := values (o.X k) v

/-- Input number `k`. -/
noncomputable def input (k : ℕ) : Fin ni → ℝ := values (o.U k) v

/-- Timestep number `k`. -/
noncomputable def timestep (k : ℕ) : ℝ := (o.DT k).eval v

/-- The time at the beginning of step `k`: the sum of the timesteps before. -/
noncomputable def time (k : ℕ) : ℝ := ∑ i ∈ Finset.range k, o.timestep v i

end Ocp

/-! ### Lemmas -/

section

variable {ns ni : ℕ}

theorem values_add {n : ℕ} (x y : Fin n → Term) (v : ℕ → ℝ) : values (colAdd x y) v = values x v + values y v := rfl

theorem values_sub {n : ℕ} (x y : Fin n → Term) (v : ℕ → ℝ) : values (colSub x y) v = values x v - values y v := rfl

theorem values_mul {n : ℕ} (x : Fin n → Term) (s : Term) (v : ℕ → ℝ) :
    values (colMul x s) v = s.eval v • values x v := by
  funext r
  show (x r).eval v * s.eval v = s.eval v * (x r).eval v
  ring

theorem rk4_correct {f : Dynamics ns ni} {F : RealDynamics ns ni} (hf : Denotes f F) (x : Fin ns → Term)
    (u : Fin ni → Term) (t dt : Term) (v : ℕ → ℝ) :
    values (rk4 f x u t dt) v = classicRk4 (fun t x => F t x (values u v) (dt.eval v)) (t.eval v) (dt.eval v) (values x v) := by
  have hf' : ∀ t x u dt v, values (f t x u dt) v = F (t.eval v) (values x v) (values u v) (dt.eval v) := hf
  unfold rk4 classicRk4
  simp only [values_add, values_mul, hf', Term.eval, BinOp.eval]
  have e : dt.eval v * 0.5 = dt.eval v / 2 := by norm_num; ring
  rw [e]

theorem advance_correct {f : Dynamics ns ni} {F : RealDynamics ns ni} (hf : Denotes f F) (dyn : DynamicsType)
    (x : Fin ns → Term) (u : Fin ni → Term) (t dt : Term) (v : ℕ → ℝ) :
    values (advance f dyn x u t dt) v = nextState F dyn (t.eval v) (values x v) (values u v) (dt.eval v) := by
  cases dyn with
  | explicitOde => exact rk4_correct hf x u t dt v
  | discrete => exact hf t x u dt v

theorem eqConstraints_hold (ty : Term → Ty) {n : ℕ} (l r : Fin n → Term) (v : ℕ → ℝ) :
    (∀ e ∈ eqConstraints ty l r, e.term.eval v = 0) ↔ values l v = values r v := by
  unfold eqConstraints
  simp only [List.mem_ofFn, forall_exists_index, forall_apply_eq_imp_iff, Term.eval, BinOp.eval, sub_eq_zero]
  exact ⟨fun h => funext h, fun h i => congrFun h i⟩

theorem eqConstraints_small (ty : Term → Ty) {n : ℕ} (l r : Fin n → Term) (v : ℕ → ℝ) (ε : ℝ) :
    (∀ e ∈ eqConstraints ty l r, |e.term.eval v| ≤ ε) ↔ ∀ i, |values l v i - values r v i| ≤ ε := by
  unfold eqConstraints
  simp only [List.mem_ofFn, forall_exists_index, forall_apply_eq_imp_iff, Term.eval, BinOp.eval]
  rfl

theorem geConstraints_hold (ty : Term → Ty) {n : ℕ} (l r : Fin n → Term) (v : ℕ → ℝ) :
    (∀ e ∈ geConstraints ty l r, 0 ≤ e.term.eval v) ↔ ∀ i, (r i).eval v ≤ (l i).eval v := by
  unfold geConstraints
  simp only [List.mem_ofFn, forall_exists_index, forall_apply_eq_imp_iff, Term.eval, BinOp.eval, sub_nonneg]

/-- A loop that keeps time and adds equality constraints. -/
theorem loop_correct {DT : ℕ → Term} {step : Problem × Term → ℕ → Problem × Term} {es : ℕ → Term → List UserExpr}
    (hstep : ∀ st i, step st i = (st.1.subjectToEq (es i st.2), .bin .add st.2 (DT i))) (p : Problem) (v : ℕ → ℝ) (n : ℕ) :
    let st := (List.range n).foldl step (p, .lit 0)
    st.2.eval v = ∑ i ∈ Finset.range n, (DT i).eval v ∧
    (∃ l, st.1 = p.subjectToEq l) ∧
    (∀ c, (∀ i t, (es i t).length = c) → st.1.eqs.length = p.eqs.length + n * c) ∧
    ∀ (P : UserExpr → Prop) (Q : ℕ → Prop), (∀ i < n, ∀ t, t.eval v = ∑ j ∈ Finset.range i, (DT j).eval v →
        ((∀ e ∈ es i t, P e) ↔ Q i)) →
      ((∀ e ∈ st.1.eqs, P e) ↔ (∀ e ∈ p.eqs, P e) ∧ ∀ k < n, Q k) := by
  induction n with
  | zero =>
    refine ⟨by simp [Term.eval], ⟨[], by simp [Problem.subjectToEq]⟩, by simp, fun P Q _ => by simp⟩
  | succ n ih =>
    simp only [List.range_succ, List.foldl_append, List.foldl_cons, List.foldl_nil] at ih ⊢
    obtain ⟨h1, ⟨l, h2⟩, h4, h3⟩ := ih
    rw [hstep]
    refine ⟨?_, ⟨l ++ es n ((List.range n).foldl step (p, .lit 0)).2, ?_⟩, fun c hc => ?_, fun P Q hQ => ?_⟩
    · rw [Finset.sum_range_succ, ← h1]; rfl
    · simp only [h2, Problem.subjectToEq, List.append_assoc]
    · simp only [Problem.subjectToEq, List.length_append]
      rw [h4 c hc, hc]; ring
    · have h5 := h3 P Q fun i hi => hQ i (hi.trans (Nat.lt_succ_self _))
      simp only [Problem.subjectToEq, List.mem_append]
      constructor
      · intro h
        obtain ⟨h6, h7⟩ := h5.1 fun e he => h e (.inl he)
        refine ⟨h6, fun k hk => ?_⟩
        rcases Nat.lt_succ_iff_lt_or_eq.1 hk with hk | rfl
        · exact h7 k hk
        · exact (hQ k (Nat.lt_succ_self _) _ h1).1 fun e he => h e (.inr he)
      · rintro ⟨h6, h7⟩ e (he | he)
        · exact h5.2 ⟨h6, fun k hk => h7 k (hk.trans (Nat.lt_succ_self _))⟩ e he
        · exact (hQ n (Nat.lt_succ_self _) _ h1).2 (h7 n (Nat.lt_succ_self _)) e he

end

/-! ### Hermite interpolation -/

open Polynomial in
/-- The cubic polynomial with given values and slopes at both ends of `[t, t + h]`. -/
structure IsHermite (p : Polynomial ℝ) (t h x₀ m₀ x₁ m₁ : ℝ) : Prop where
  cubic : p.natDegree ≤ 3
  left : p.eval t = x₀
  leftSlope : p.derivative.eval t = m₀
  right : p.eval (t + h) = x₁
  rightSlope : p.derivative.eval (t + h) = m₁

open Polynomial in
theorem cubic_form (p : Polynomial ℝ) (hp : p.natDegree ≤ 3) : ∃ a b c d : ℝ,
    (∀ s, p.eval s = a + b * s + c * s ^ 2 + d * s ^ 3) ∧
    ∀ s, p.derivative.eval s = b + 2 * c * s + 3 * d * s ^ 2 := by
  have h := p.as_sum_range_C_mul_X_pow' (show p.natDegree < 4 by omega)
  refine ⟨p.coeff 0, p.coeff 1, p.coeff 2, p.coeff 3, fun s => ?_, fun s => ?_⟩
  · conv_lhs => rw [h]
    simp [Finset.sum_range_succ]
  · conv_lhs => rw [h]
    simp [Finset.sum_range_succ]
    ring

theorem hermite_mid {p : Polynomial ℝ} {t h x₀ m₀ x₁ m₁ : ℝ} (hp : IsHermite p t h x₀ m₀ x₁ m₁) (hh : h ≠ 0) :
    p.eval (t + h / 2) = (x₀ + x₁) / 2 + h / 8 * (m₀ - m₁) ∧
    p.derivative.eval (t + h / 2) = 3 / (2 * h) * (x₁ - x₀) - (m₀ + m₁) / 4 := by
  obtain ⟨h1, h2, h3, h4, h5⟩ := hp
  obtain ⟨a, b, c, d, e1, e2⟩ := cubic_form p h1
  rw [e1] at h2 h4
  rw [e2] at h3 h5
  rw [e1, e2, ← h2, ← h3, ← h4, ← h5]
  constructor
  · ring
  · field_simp; ring

open Polynomial in
theorem hermite_exists (t : ℝ) {h : ℝ} (hh : h ≠ 0) (x₀ m₀ x₁ m₁ : ℝ) : ∃ p, IsHermite p t h x₀ m₀ x₁ m₁ := by
  obtain ⟨c, hc⟩ : ∃ c, c = (3 * (x₁ - x₀) - h * (2 * m₀ + m₁)) / h ^ 2 := ⟨_, rfl⟩
  obtain ⟨d, hd⟩ : ∃ d, d = (2 * (x₀ - x₁) + h * (m₀ + m₁)) / h ^ 3 := ⟨_, rfl⟩
  rw [eq_div_iff (by positivity)] at hc hd
  refine ⟨C x₀ + C m₀ * (X - C t) + C c * (X - C t) ^ 2 + C d * (X - C t) ^ 3, ?_, by simp, by simp [derivative_X_sub_C_pow], ?_, ?_⟩
  · have hd1 : (X - C t : ℝ[X]).natDegree ≤ 1 := by simp
    have hpow (k : ℕ) (b : ℝ) (hk : k ≤ 3) : (C b * (X - C t) ^ k).natDegree ≤ 3 :=
      (natDegree_C_mul_le _ _).trans ((natDegree_pow_le_of_le k hd1).trans (by omega))
    refine natDegree_add_le_of_degree_le (natDegree_add_le_of_degree_le (natDegree_add_le_of_degree_le (by simp) ?_) ?_) ?_
    · simpa using hpow 1 m₀ (by norm_num)
    · exact hpow 2 c (by norm_num)
    · exact hpow 3 d le_rfl
  · simp
    linear_combination hc + hd
  · simp [derivative_X_sub_C_pow]
    have : h * (m₀ + c * (2 * h) + d * (3 * h ^ 2)) = h * m₁ := by linear_combination 2 * hc + 3 * hd
    exact mul_left_cancel₀ hh (by linear_combination this)

end Slp
