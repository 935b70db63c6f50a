import Verif.Autodiff.ApiSpec
import Verif.Autodiff.TermLemmas
import Mathlib.Algebra.BigOperators.Ring.Finset

/-! Reported expression types are sound: constant, affine, at most quadratic. -/

set_option linter.unusedSimpArgs false

namespace Slp

open ScalarOps

variable {N : ℕ}

theorem Affine.const (c : ℝ) : Affine N (fun _ => c) := ⟨c, fun _ => 0, by simp⟩

theorem Affine.coord {k : ℕ} (hk : k < N) : Affine N (fun x => x k) :=
  ⟨0, fun j => if j = k then 1 else 0, fun x => by simp [hk]⟩

theorem Affine.add {f g : (ℕ → ℝ) → ℝ} (hf : Affine N f) (hg : Affine N g) :
    Affine N (fun x => f x + g x) := by
  obtain ⟨c, a, h1⟩ := hf
  obtain ⟨c', a', h2⟩ := hg
  refine ⟨c + c', fun k => a k + a' k, fun x => ?_⟩
  simp only [h1, h2, add_mul, Finset.sum_add_distrib]
  ring

theorem Affine.smul {f : (ℕ → ℝ) → ℝ} (s : ℝ) (hf : Affine N f) : Affine N (fun x => s * f x) := by
  obtain ⟨c, a, h1⟩ := hf
  refine ⟨s * c, fun k => s * a k, fun x => ?_⟩
  simp only [h1, mul_add, Finset.mul_sum, mul_assoc]

theorem Affine.quadratic {f : (ℕ → ℝ) → ℝ} (hf : Affine N f) : Quadratic N f := by
  obtain ⟨c, a, h1⟩ := hf
  exact ⟨c, a, fun _ _ => 0, fun x => by simp [h1]⟩

theorem Quadratic.add {f g : (ℕ → ℝ) → ℝ} (hf : Quadratic N f) (hg : Quadratic N g) :
    Quadratic N (fun x => f x + g x) := by
  obtain ⟨c, a, q, h1⟩ := hf
  obtain ⟨c', a', q', h2⟩ := hg
  refine ⟨c + c', fun k => a k + a' k, fun k l => q k l + q' k l, fun x => ?_⟩
  simp only [h1, h2, add_mul, Finset.sum_add_distrib]
  ring

theorem Quadratic.smul {f : (ℕ → ℝ) → ℝ} (s : ℝ) (hf : Quadratic N f) :
    Quadratic N (fun x => s * f x) := by
  obtain ⟨c, a, q, h1⟩ := hf
  refine ⟨s * c, fun k => s * a k, fun k l => s * q k l, fun x => ?_⟩
  simp only [h1, mul_add, Finset.mul_sum, mul_assoc]

theorem Affine.mul {f g : (ℕ → ℝ) → ℝ} (hf : Affine N f) (hg : Affine N g) :
    Quadratic N (fun x => f x * g x) := by
  obtain ⟨c, a, h1⟩ := hf
  obtain ⟨c', a', h2⟩ := hg
  refine ⟨c * c', fun k => c * a' k + c' * a k, fun k l => a k * a' l, fun x => ?_⟩
  have e : ∑ k ∈ Finset.range N, ∑ l ∈ Finset.range N, a k * a' l * (x k * x l) =
      (∑ k ∈ Finset.range N, a k * x k) * ∑ k ∈ Finset.range N, a' k * x k := by
    rw [Finset.sum_mul_sum]
    exact Finset.sum_congr rfl fun k _ => Finset.sum_congr rfl fun l _ => by ring
  rw [e]
  simp only [h1, h2, add_mul, Finset.sum_add_distrib, mul_assoc, ← Finset.mul_sum]
  ring

/-- An assignment of node values in which variable `k` has value `env k`. -/
noncomputable def etaOf (vs : ℕ → ℕ) (N : ℕ) (env : ℕ → ℝ) (m : ℕ) : ℝ :=
  match (List.range N).find? (fun k => vs k = m) with
  | some k => env k
  | none => 0

theorem etaOf_vs {h : Heap ℝ} {vs : ℕ → ℕ} (v : VarsOK h vs N) (env : ℕ → ℝ) {k : ℕ} (hk : k < N) :
    etaOf vs N env (vs k) = env k := by
  unfold etaOf
  rcases hf : (List.range N).find? (fun j => vs j = vs k) with _ | j
  · rw [List.find?_eq_none] at hf
    have := hf k (by simpa using hk)
    simp at this
  · have h1 := List.find?_some hf
    have h2 := List.mem_of_find?_eq_some hf
    simp at h1 h2
    rw [v.inj j k h2 hk h1]

theorem etaOf_affine (vs : ℕ → ℕ) (m : ℕ) : Affine N (fun env => etaOf vs N env m) := by
  unfold etaOf
  rcases hf : (List.range N).find? (fun j => vs j = m) with _ | j
  · exact Affine.const 0
  · have h2 := List.mem_of_find?_eq_some hf
    simp at h2
    exact Affine.coord h2

theorem ty_sound {h : Heap ℝ} (wf : WF h) (vs : ℕ → ℕ) (n : ℕ) (hn : n < h.next) :
    ((h.ty n).rank ≤ 2 → Affine N (fun env => ev h (etaOf vs N env) n)) ∧
      ((h.ty n).rank ≤ 3 → Quadratic N (fun env => ev h (etaOf vs N env) n)) := by
  induction n using Nat.strong_induction_on with
  | _ n ih =>
    have ht := wf.typ n hn
    have har := wf.arity n hn
    rcases hh : h.args n with ⟨a, b⟩
    rw [hh] at ht har
    -- it suffices to treat each rank separately
    cases a with
    | none =>
      have key : Affine N (fun env => ev h (etaOf vs N env) n) := by
        have e : (fun env => ev h (etaOf vs N env) n) =
            fun env => if h.op n = .constant then h.val n else etaOf vs N env n := by
          funext env; exact ev_leaf (by rw [hh])
        rw [e]
        by_cases hc : h.op n = .constant
        · simp only [hc, if_true]; exact Affine.const _
        · simp only [hc, if_false]; exact etaOf_affine vs n
      exact ⟨fun _ => key, fun _ => key.quadratic⟩
    | some l =>
      have hlk := mem_kids_left (args := h.args) (n := n) (l := l) (by rw [hh])
      have hl := wf.acyc n l hlk
      have hl0 := hl.trans hn
      have il := ih l hl hl0
      cases b with
      | none =>
        have e : (fun env => ev h (etaOf vs N env) n) =
            fun env => opVal (h.op n) (ev h (etaOf vs N env) l) zero := by
          funext env; exact ev_un wf.acyc hh
        rw [e]
        cases hop : h.op n <;> rw [hop] at ht har <;>
          simp only [ArityOK, Op.arity, Prod.mk.injEq, reduceCtorEq, and_false, false_and,
            exists_false, exists_const] at har
        case neg =>
          have e2 : (fun env => opVal Op.neg (ev h (etaOf vs N env) l) zero) =
              fun env => (-1) * ev h (etaOf vs N env) l := by
            funext env; simp [opVal]
          rw [e2]
          exact ⟨fun hr => (il.1 (ht.2.trans hr)).smul _, fun hr => (il.2 (ht.2.trans hr)).smul _⟩
        all_goals
          simp only [TyOK] at ht
          rw [ht]
          simp [Ty.rank]
      | some r =>
        have hrk := mem_kids_right (args := h.args) (n := n) (r := r) (by rw [hh])
        have hr := wf.acyc n r hrk
        have hr0 := hr.trans hn
        have ir := ih r hr hr0
        have e : (fun env => ev h (etaOf vs N env) n) =
            fun env => opVal (h.op n) (ev h (etaOf vs N env) l) (ev h (etaOf vs N env) r) := by
          funext env; exact ev_bin wf.acyc hh
        rw [e]
        have hcl : h.ty l = .constant → ∀ env, ev h (etaOf vs N env) l = h.val l := fun c env =>
          ev_const wf hl0 c _
        have hcr : h.ty r = .constant → ∀ env, ev h (etaOf vs N env) r = h.val r := fun c env =>
          ev_const wf hr0 c _
        cases hop : h.op n <;> rw [hop] at ht har <;>
          simp only [ArityOK, Op.arity, Prod.mk.injEq, reduceCtorEq, and_false, false_and,
            exists_false, exists_const] at har
        case add =>
          exact ⟨fun hk => (il.1 (ht.2.1.trans hk)).add (ir.1 (ht.2.2.trans hk)),
            fun hk => (il.2 (ht.2.1.trans hk)).add (ir.2 (ht.2.2.trans hk))⟩
        case sub =>
          have e2 : (fun env => opVal Op.sub (ev h (etaOf vs N env) l) (ev h (etaOf vs N env) r)) =
              fun env => ev h (etaOf vs N env) l + (-1) * ev h (etaOf vs N env) r := by
            funext env; simp [opVal]; ring
          rw [e2]
          exact ⟨fun hk => (il.1 (ht.2.1.trans hk)).add ((ir.1 (ht.2.2.trans hk)).smul _),
            fun hk => (il.2 (ht.2.1.trans hk)).add ((ir.2 (ht.2.2.trans hk)).smul _)⟩
        case mul =>
          rcases ht.2 with c | ⟨c, c2⟩ | ⟨c, c2⟩ | ⟨c, c1, c2⟩
          · rw [c]; simp [Ty.rank]
          · have e2 : (fun env => opVal Op.mul (ev h (etaOf vs N env) l)
                (ev h (etaOf vs N env) r)) = fun env => h.val l * ev h (etaOf vs N env) r := by
              funext env; simp [opVal, hcl c]
            rw [e2]
            exact ⟨fun hk => (ir.1 (c2.trans hk)).smul _, fun hk => (ir.2 (c2.trans hk)).smul _⟩
          · have e2 : (fun env => opVal Op.mul (ev h (etaOf vs N env) l)
                (ev h (etaOf vs N env) r)) = fun env => h.val r * ev h (etaOf vs N env) l := by
              funext env; simp [opVal, hcr c]; ring
            rw [e2]
            exact ⟨fun hk => (il.1 (c2.trans hk)).smul _, fun hk => (il.2 (c2.trans hk)).smul _⟩
          · rw [c2]
            refine ⟨fun hk => absurd hk (by simp [Ty.rank]), fun _ => ?_⟩
            exact (il.1 (by rw [c]; simp [Ty.rank])).mul (ir.1 (by rw [c1]; simp [Ty.rank]))
        case div =>
          rcases ht.2 with c | ⟨c, c2⟩
          · rw [c]; simp [Ty.rank]
          · have e2 : (fun env => opVal Op.div (ev h (etaOf vs N env) l)
                (ev h (etaOf vs N env) r)) = fun env => (h.val r)⁻¹ * ev h (etaOf vs N env) l := by
              funext env; simp [opVal, hcr c]; ring
            rw [e2]
            exact ⟨fun hk => (il.1 (c2.trans hk)).smul _, fun hk => (il.2 (c2.trans hk)).smul _⟩
        all_goals
          simp only [TyOK] at ht
          rw [ht]
          simp [Ty.rank]

theorem ty_ne_none {h : Heap ℝ} (wf : WF h) {n : ℕ} (hn : n < h.next) : h.ty n ≠ .none := by
  intro hty
  have ht := wf.typ n hn
  have har := wf.arity n hn
  rw [hty] at ht
  cases hop : h.op n <;> rw [hop] at ht har <;> simp only [ArityOK, Op.arity] at har <;>
    first
    | (simp [TyOK] at ht; done)
    | (obtain ⟨a, ha⟩ := har; rw [ha] at ht; simp [TyOK, Ty.rank] at ht)
    | (obtain ⟨a, b, ha⟩ := har; rw [ha] at ht; simp [TyOK, Ty.rank] at ht)

theorem typeMeans {h : Heap ℝ} (wf : WF h) {vs : ℕ → ℕ} (v : VarsOK h vs N) {t : Term} {e : ℕ}
    (r : Rep h vs t e) (hv : t.Vars N) : TypeMeans N t (h.ty e) := by
  have key : ∀ env, t.Dom env → t.eval env = ev h (etaOf vs N env) e := by
    intro env hd
    have hc : ∀ k, k < N → env k = etaOf vs N env (vs k) := fun k hk => (etaOf_vs v env hk).symm
    rw [Term.eval_congr t hv hc]
    exact (r.sem _ ((Term.dom_congr t hv hc).mp hd)).symm
  have s := ty_sound (N := N) wf vs e r.lt
  cases hty : h.ty e with
  | none => exact ty_ne_none wf r.lt hty
  | constant => exact ⟨h.val e, fun env hd => by rw [key env hd, ev_const wf r.lt hty]⟩
  | linear => exact ⟨_, s.1 (by rw [hty]; simp [Ty.rank]), key⟩
  | quadratic => exact ⟨_, s.2 (by rw [hty]; simp [Ty.rank]), key⟩
  | nonlinear => trivial

end Slp
