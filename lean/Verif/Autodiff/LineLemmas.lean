import Verif.Autodiff.TermLemmas

/-! Derivatives of smooth expressions along straight lines. -/

namespace Slp

open ScalarOps Filter Topology

/-- The tangent is linear in the direction. -/
theorem tgv_sum {h : Heap ℝ} (wf : WF h) {v d : ℕ → ℝ} {N : ℕ} (hd : ∀ k, N ≤ k → d k = 0) (n : ℕ) :
    tgv h v d n = ∑ k ∈ Finset.range N, d k * tgv h v (dir k) n := by
  induction n using Nat.strong_induction_on with
  | _ n ih =>
    rcases hh : h.args n with ⟨a, b⟩
    cases a with
    | none =>
      have e : ∀ d, tgv h v d n = if h.op n = .constant then 0 else d n := fun d => tgv_leaf (by rw [hh])
      simp only [e]
      by_cases hc : h.op n = .constant
      · simp [hc]
      · simp only [hc, if_false, dir, mul_ite, mul_one, mul_zero, Finset.sum_ite_eq, Finset.mem_range]
        by_cases hn : n < N
        · rw [if_pos hn]
        · rw [if_neg hn]; exact hd n (not_lt.1 hn)
    | some l =>
      have hl := wf.acyc n l (mem_kids_left (by rw [hh]))
      cases b with
      | none =>
        rw [tgv_un wf.acyc hh, ih l hl, Finset.mul_sum]
        refine Finset.sum_congr rfl fun k _ => ?_
        rw [tgv_un wf.acyc hh]; ring
      | some r =>
        have hr := wf.acyc n r (mem_kids_right (by rw [hh]))
        rw [tgv_bin wf.acyc hh, ih l hl, ih r hr, Finset.mul_sum, Finset.mul_sum, ← Finset.sum_add_distrib]
        refine Finset.sum_congr rfl fun k _ => ?_
        rw [tgv_bin wf.acyc hh]; ring

/-- Smooth expressions stay smooth along lines, for a while, and are continuous there. -/
theorem Term.openLine (t : Term) (env d : ℕ → ℝ) (hs : t.Smooth env) :
    ∀ᶠ x in 𝓝 (0 : ℝ), t.Smooth fun k => env k + x * d k := by
  have cont : ∀ t : Term, (∀ᶠ x in 𝓝 (0 : ℝ), t.Smooth fun k => env k + x * d k) → t.Smooth env →
      ContinuousAt (fun x : ℝ => t.eval fun k => env k + x * d k) 0 := by
    intro t ho hs
    obtain ⟨N, hN⟩ := t.exists_vars
    obtain ⟨h, wf, cl, hv⟩ := base_heap N
    obtain ⟨h', e, wf', cl', ex, r⟩ := (exists_rep_open t).2 _ h id hN wf cl hv
    have h1 := hasDerivAt_ev wf' (fun x k => env k + x * d k) d 0 (fun n => by
      have := ((hasDerivAt_id' (0 : ℝ)).mul_const (d n)).const_add (env n)
      rwa [one_mul] at this) e r.lt (r.sm _ (by simpa using hs))
    refine h1.continuousAt.congr ?_
    exact ho.mono fun x hx => r.sem _ (t.smooth_dom hx)
  induction t with
  | lit c => exact Eventually.of_forall fun _ => trivial
  | var k => exact Eventually.of_forall fun _ => trivial
  | un f t ih =>
    have h1 := ih hs.1
    exact h1.and (UnOp.smooth_open f (cont t h1 hs.1) (by simpa using hs.2))
  | bin f s t ih1 ih2 =>
    have h1 := ih1 hs.1
    have h2 := ih2 hs.2.1
    refine h1.and (h2.and (BinOp.smooth_open f (l := t.IsLit) (cont s h1 hs.1) (cont t h2 hs.2.1) ?_
      (by simpa using hs.2.2)))
    intro hl y
    cases t with
    | lit c => rfl
    | _ => exact absurd hl (by simp [Term.IsLit])
  | pd k t ih => exact ih hs

/-- The derivative of a smooth expression along a line. -/
theorem Term.hasDerivAt_line (t : Term) {env : ℕ → ℝ} {N : ℕ} {d : ℕ → ℝ} (hd : ∀ k, N ≤ k → d k = 0)
    (hs : t.Smooth env) : HasDerivAt (fun x : ℝ => t.eval fun k => env k + x * d k)
      (∑ k ∈ Finset.range N, d k * (Term.pd k t).eval env) 0 := by
  obtain ⟨N0, hN0⟩ := t.exists_vars
  have hN := t.vars_mono (le_max_left N0 N) hN0
  obtain ⟨h, wf, cl, hv⟩ := base_heap (Max.max N0 N)
  obtain ⟨h', e, wf', cl', ex, r⟩ := (exists_rep_open t).2 _ h id hN wf cl hv
  have he : (fun k => env k + (0 : ℝ) * d k) = env := by funext k; ring
  have h1 := hasDerivAt_ev wf' (fun x k => env k + x * d k) d 0 (fun n => by
    have := ((hasDerivAt_id' (0 : ℝ)).mul_const (d n)).const_add (env n)
    rwa [one_mul] at this) e r.lt (r.sm _ (by simpa using hs))
  rw [he, tgv_sum wf' hd] at h1
  have h2 : (∑ k ∈ Finset.range N, d k * tgv h' (ev h' env) (dir k) e) =
      ∑ k ∈ Finset.range N, d k * (Term.pd k t).eval env := by
    refine Finset.sum_congr rfl fun k hk => ?_
    have := r.hasDerivAt wf' (hv.mono ex.mono) hN t.openSm
      (lt_of_lt_of_le (Finset.mem_range.1 hk) (le_max_right _ _)) env hs
    congr 1
    exact this.deriv.symm
  rw [h2] at h1
  refine h1.congr_of_eventuallyEq ((t.openLine env d hs).mono fun x hx => ?_)
  exact (r.sem (fun k => env k + x * d k) (t.smooth_dom hx)).symm

end Slp
