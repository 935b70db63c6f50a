import Verif.Problem.FiniteProps
import Verif.Problem.SeenProps
import Verif.Solver.AgreeLemmas

/-! For C93 and C94: `solve()` of two problems that are the same functions of the decision variables. -/

namespace Slp

open Classical

/-! ### Detection of bounds -/

namespace Bounds

/-- `get_bounds()` cannot tell the constraints apart when the variables are finite. -/
structure Constraint.Same (n : ℕ) (c c' : Constraint) : Prop where
  linear : c.linear = c'.linear
  row : c.linear = true → c.row = c'.row
  value : c.linear = true → ∀ x : ℕ → Fl, (∀ j < n, (x j).isFinite = true) → c.value x = c'.value x

theorem evalAtZero_same {n : ℕ} {c c' : Constraint} (h : c.Same n c') (hl : c.linear = true) {x : ℕ → Fl}
    (hx : ∀ j < n, (x j).isFinite = true) (j : ℕ) :
    evalAtZero c x j = evalAtZero c' x j ∧ ∀ i < n, ((evalAtZero c x j).2 i).isFinite = true := by
  unfold evalAtZero
  split
  · refine ⟨?_, fun i hi => ?_⟩
    · simp only
      rw [h.value hl _ fun i hi => ?_]
      by_cases e : i = j
      · subst e; rw [Function.update_self]; rfl
      · rw [Function.update_of_ne e]; exact hx i hi
    · show (Function.update (Function.update x j (Fl.fin 0)) j (x j) i).isFinite = true
      rw [Function.update_idem, Function.update_eq_self]
      exact hx i hi
  · exact ⟨by rw [h.value hl _ hx], hx⟩

theorem step_same {n k : ℕ} {c c' : Constraint} (h : c.Same n c') (s : State) {x : ℕ → Fl}
    (hx : ∀ j < n, (x j).isFinite = true) : s.step n k c x = s.step n k c' x ∧
      ∀ r, s.step n k c x = some r → ∀ j < n, (r.2 j).isFinite = true := by
  unfold State.step
  by_cases hl : c.linear = false
  · rw [if_pos hl, if_pos (h.linear ▸ hl)]
    exact ⟨rfl, fun r hr => by obtain rfl := Option.some.inj hr; exact hx⟩
  rw [if_neg hl, if_neg (h.linear ▸ hl)]
  have hl' : c.linear = true := by simpa using hl
  rw [← h.row hl']
  split
  · simp
  · rename_i j a _
    obtain ⟨h1, h2⟩ := evalAtZero_same h hl' hx j
    refine ⟨by rw [h1], fun r hr => ?_⟩
    split at hr
    · simp only at hr
      split at hr
      · obtain rfl := Option.some.inj hr; exact h2
      · cases hr
    · cases hr
  · exact ⟨rfl, fun r hr => by obtain rfl := Option.some.inj hr; exact hx⟩

theorem loop_same {n : ℕ} {cs cs' : List Constraint} (h : List.Forall₂ (Constraint.Same n) cs cs') (k : ℕ) (s : State)
    {x : ℕ → Fl} (hx : ∀ j < n, (x j).isFinite = true) : loop n k cs s x = loop n k cs' s x := by
  induction h generalizing k s x with
  | nil => rfl
  | cons hc _ ih =>
    obtain ⟨h1, h2⟩ := step_same (k := k) hc s hx
    rw [loop, loop, ← h1]
    rename_i c c' _ _ _
    cases hs : s.step n k c x with
    | none => rfl
    | some r => exact ih _ _ (h2 r hs)

end Bounds

/-! ### The functions given to the solvers -/

/-- `matrixCallbacks` (`problem.hpp:384-398`, `479-508`, `618-660`) for constraints that are given as functions of their
numbers. -/
noncomputable def termCallbacks (ad : Autodiff) (v : ℕ → Fl) (vars : List ℕ) (f : Term) {m k : ℕ} (E : Fin m → Term)
    (I : Fin k → Term) (x0 : Vec vars.length) : Nlp vars.length m k :=
  let env (x : Vec vars.length) : ℕ → Fl := assign v vars (List.ofFn x)
  let g (x : Vec vars.length) : Vec vars.length := fun j => ad.pd f vars[j] (env x)
  let Ae (x : Vec vars.length) : FMat m vars.length := fun i j => ad.pd (E i) vars[j] (env x)
  let Ai (x : Vec vars.length) : FMat k vars.length := fun i j => ad.pd (I i) vars[j] (env x)
  let S := scalingAt ad (g x0) (Ae x0) (Ai x0)
  { f := fun x => S.fF * ad.eval f (env x)
    g := fun x j => S.fF * g x j
    H := fun x y z i j =>
      if j ≤ i then S.fF * ad.pd2 f vars[i] vars[j] (env x) +
        ad.hc (List.ofFn E ++ List.ofFn I) (List.ofFn (fun i => S.ceF i * y i) ++ List.ofFn fun i => S.ciF i * z i) vars[i]
          vars[j] (env x)
      else 0
    ce := fun x i => S.ceF i * ad.eval (E i) (env x)
    Ae := fun x i j => S.ceF i * Ae x i j
    ci := fun x i => S.ciF i * ad.eval (I i) (env x)
    Ai := fun x i j => S.ciF i * Ai x i j
    scaling := S }

theorem matrixCallbacks_terms (ad : Autodiff) (v : ℕ → Fl) (vars : List ℕ) (f : Term) (eqs ineqs : List Term)
    (x0 : Vec vars.length) : matrixCallbacks ad v vars f eqs ineqs x0 =
      termCallbacks ad v vars f (fun i : Fin eqs.length => eqs[i]) (fun i : Fin ineqs.length => ineqs[i]) x0 := by
  unfold matrixCallbacks termCallbacks
  simp only [Fin.getElem_fin, List.ofFn_getElem]

/-- The decision variables have the same values, and all others those of `v` and `v'`. -/
structure Twin (vars : List ℕ) (v v' : ℕ → Fl) (w w' : ℕ → ℝ) : Prop where
  same : ∀ k ∈ vars, w k = w' k
  left : ∀ k, k ∉ vars → w k = reals v k
  right : ∀ k, k ∉ vars → w' k = reals v' k

/-- The two terms are the same function of the decision variables, if the other variables have the values of `v` in the
first and of `v'` in the second. -/
def Term.SameOn (vars : List ℕ) (v v' : ℕ → Fl) (t t' : Term) : Prop := ∀ w w', Twin vars v v' w w' → t.eval w = t'.eval w'

/-- The term is smooth for all values of the decision variables, if the other variables have the values of `v`. -/
def Term.SmoothOn (vars : List ℕ) (v : ℕ → Fl) (t : Term) : Prop := ∀ w : ℕ → ℝ, (∀ k, k ∉ vars → w k = reals v k) → t.Smooth w

section Values

variable {vars : List ℕ} {v v' : ℕ → Fl}

theorem Twin.update {w w' : ℕ → ℝ} (h : Twin vars v v' w w') {k : ℕ} (hk : k ∈ vars) (a : ℝ) :
    Twin vars v v' (Function.update w k a) (Function.update w' k a) := by
  refine ⟨fun j hj => ?_, fun j hj => ?_, fun j hj => ?_⟩
  · by_cases e : j = k
    · subst e; rw [Function.update_self, Function.update_self]
    · rw [Function.update_of_ne e, Function.update_of_ne e, h.same j hj]
  · rw [Function.update_of_ne (fun e : j = k => hj (e ▸ hk)), h.left j hj]
  · rw [Function.update_of_ne (fun e : j = k => hj (e ▸ hk)), h.right j hj]

theorem pderiv_twin {F F' : (ℕ → ℝ) → ℝ} (hF : ∀ w w', Twin vars v v' w w' → F w = F' w') {k : ℕ} (hk : k ∈ vars)
    (w w' : ℕ → ℝ) (h : Twin vars v v' w w') : pderiv k F w = pderiv k F' w' := by
  unfold pderiv
  rw [h.same k hk]
  congr 1
  exact funext fun a => hF _ _ (h.update hk a)

theorem assign_same (vars : List ℕ) : ∀ (v v' : ℕ → Fl) (xs : List Fl), (∀ k ∈ vars, v k = v' k) →
    ∀ k ∈ vars, assign v vars xs k = assign v' vars xs k := by
  induction vars with
  | nil => intro v v' xs _ k hk; cases hk
  | cons a vars ih =>
    intro v v' xs h k hk
    cases xs with
    | nil => exact h k hk
    | cons x xs =>
      show assign (Function.update v a x) vars xs k = assign (Function.update v' a x) vars xs k
      by_cases hm : k ∈ vars
      · refine ih _ _ xs (fun j hj => ?_) k hm
        by_cases e : j = a
        · subst e; rw [Function.update_self, Function.update_self]
        · rw [Function.update_of_ne e, Function.update_of_ne e, h j (List.mem_cons_of_mem _ hj)]
      · obtain rfl : k = a := (List.mem_cons.1 hk).resolve_right hm
        rw [assign_other vars _ _ hm, assign_other vars _ _ hm, Function.update_self, Function.update_self]

theorem assign_twin (hvv : ∀ k ∈ vars, v k = v' k) (xs : List Fl) :
    Twin vars v v' (reals (assign v vars xs)) (reals (assign v' vars xs)) := by
  refine ⟨fun k hk => ?_, fun k hk => ?_, fun k hk => ?_⟩ <;> unfold reals
  · rw [assign_same vars v v' xs hvv k hk]
  · rw [assign_other vars _ _ hk]
  · rw [assign_other vars _ _ hk]

variable {ad ad' : Autodiff} {w w' : ℕ → Fl} {t t' : Term}

theorem eval_same (hw : AllFinite w) (hw' : AllFinite w') (ht : Twin vars v v' (reals w) (reals w')) (hs : t.SmoothOn vars v)
    (hs' : t'.SmoothOn vars v') (h : t.SameOn vars v v' t') : ad.eval t w = ad'.eval t' w' := by
  have e1 : ad.eval t w = .fin (t.eval (reals w)) := if_pos ⟨hw, t.smooth_dom (hs _ ht.left)⟩
  have e2 : ad'.eval t' w' = .fin (t'.eval (reals w')) := if_pos ⟨hw', t'.smooth_dom (hs' _ ht.right)⟩
  rw [e1, e2, h _ _ ht]

theorem pd_same (hw : AllFinite w) (hw' : AllFinite w') (ht : Twin vars v v' (reals w) (reals w')) (hs : t.SmoothOn vars v)
    (hs' : t'.SmoothOn vars v') (h : t.SameOn vars v v' t') {k : ℕ} (hk : k ∈ vars) : ad.pd t k w = ad'.pd t' k w' := by
  have e1 : ad.pd t k w = .fin (pderiv k t.eval (reals w)) := if_pos ⟨hw, hs _ ht.left⟩
  have e2 : ad'.pd t' k w' = .fin (pderiv k t'.eval (reals w')) := if_pos ⟨hw', hs' _ ht.right⟩
  rw [e1, e2, pderiv_twin h hk _ _ ht]

theorem pd_finite (hw : AllFinite w) (hs : t.Smooth (reals w)) (k : ℕ) : (ad.pd t k w).isFinite = true := by
  have e1 : ad.pd t k w = .fin (pderiv k t.eval (reals w)) := if_pos ⟨hw, hs⟩
  rw [e1]; rfl

theorem pd2_same (hw : AllFinite w) (hw' : AllFinite w') (ht : Twin vars v v' (reals w) (reals w')) (hs : t.SmoothOn vars v)
    (hs' : t'.SmoothOn vars v') (h : t.SameOn vars v v' t') {k l : ℕ} (hk : k ∈ vars) (hl : l ∈ vars) :
    ad.pd2 t k l w = ad'.pd2 t' k l w' := by
  have e1 : ad.pd2 t k l w = .fin (pderiv l (pderiv k t.eval) (reals w)) := if_pos ⟨hw, hs _ ht.left⟩
  have e2 : ad'.pd2 t' k l w' = .fin (pderiv l (pderiv k t'.eval) (reals w')) := if_pos ⟨hw', hs' _ ht.right⟩
  rw [e1, e2, pderiv_twin (pderiv_twin h hk) hl _ _ ht]

theorem hc_same {m k : ℕ} {E E' : Fin m → Term} {I I' : Fin k → Term} (hw : AllFinite w) (hw' : AllFinite w')
    (ht : Twin vars v v' (reals w) (reals w')) (hE : ∀ i, (E i).SmoothOn vars v) (hE' : ∀ i, (E' i).SmoothOn vars v')
    (hI : ∀ i, (I i).SmoothOn vars v) (hI' : ∀ i, (I' i).SmoothOn vars v') (h1 : ∀ i, (E i).SameOn vars v v' (E' i))
    (h2 : ∀ i, (I i).SameOn vars v v' (I' i)) {ys : List Fl} (hy : ∀ y ∈ ys, y.isFinite = true) {a b : ℕ} (ha : a ∈ vars)
    (hb : b ∈ vars) : ad.hc (List.ofFn E ++ List.ofFn I) ys a b w = ad'.hc (List.ofFn E' ++ List.ofFn I') ys a b w' := by
  have hmem : ∀ {v : ℕ → Fl} {w : ℕ → Fl} {E : Fin m → Term} {I : Fin k → Term}, (∀ i, (E i).SmoothOn vars v) →
      (∀ i, (I i).SmoothOn vars v) → (∀ k, k ∉ vars → reals w k = reals v k) →
      ∀ t ∈ List.ofFn E ++ List.ofFn I, t.Smooth (reals w) := fun hE hI hl t ht => by
    rcases List.mem_append.1 ht with ht | ht <;> obtain ⟨i, rfl⟩ := (List.mem_ofFn' _ _).1 ht
    · exact hE i _ hl
    · exact hI i _ hl
  unfold Autodiff.hc
  rw [if_pos ⟨hw, hmem hE hI ht.left, hy⟩, if_pos ⟨hw', hmem hE' hI' ht.right, hy⟩]
  set d : Term → ℝ := fun t => (Term.pd b (Term.pd a t)).eval (reals w) with hd
  set d' : Term → ℝ := fun t => (Term.pd b (Term.pd a t)).eval (reals w') with hd'
  have hds : ∀ {t t' : Term}, t.SameOn vars v v' t' → d t = d' t' := fun {t t'} h =>
    pderiv_twin (pderiv_twin h ha) hb _ _ ht
  have hz : ∀ (d : Term → ℝ) (ts : List Term), (ts.zip ys).map (fun p => p.2.toReal * d p.1) =
      ((ts.map d).zip ys).map fun p => p.2.toReal * p.1 := fun d ts => by
    rw [List.zip_map_left, List.map_map]; rfl
  have e : (List.ofFn E ++ List.ofFn I).map d = (List.ofFn E' ++ List.ofFn I').map d' := by
    rw [List.map_append, List.map_append, List.map_ofFn, List.map_ofFn, List.map_ofFn, List.map_ofFn]
    congr 2
    · exact funext fun i => hds (h1 i)
    · exact funext fun i => hds (h2 i)
  show Fl.fin (-((_ : List (Term × Fl)).map fun p => p.2.toReal * d p.1).sum) =
    Fl.fin (-((_ : List (Term × Fl)).map fun p => p.2.toReal * d' p.1).sum)
  rw [hz, hz, e]

end Values

theorem termCallbacks_agree (ad ad' : Autodiff) {v v' : ℕ → Fl} (hv : AllFinite v) (hv' : AllFinite v') (vars : List ℕ)
    (hvv : ∀ k ∈ vars, v k = v' k) {f f' : Term} {m k : ℕ}
    {E E' : Fin m → Term} {I I' : Fin k → Term} (hf : f.SmoothOn vars v) (hf' : f'.SmoothOn vars v') (hE : ∀ i, (E i).SmoothOn vars v)
    (hE' : ∀ i, (E' i).SmoothOn vars v') (hI : ∀ i, (I i).SmoothOn vars v) (hI' : ∀ i, (I' i).SmoothOn vars v') (h0 : f.SameOn vars v v' f')
    (h1 : ∀ i, (E i).SameOn vars v v' (E' i)) (h2 : ∀ i, (I i).SameOn vars v v' (I' i)) {x0 : Vec vars.length} (hx0 : x0.Finite) :
    (termCallbacks ad v vars f E I x0).Agree (termCallbacks ad' v' vars f' E' I' x0) := by
  have hm : ∀ j : Fin vars.length, vars[j] ∈ vars := fun j => List.getElem_mem _
  have has : ∀ {v : ℕ → Fl}, AllFinite v → ∀ x : Vec vars.length, x.Finite → AllFinite (assign v vars (List.ofFn x)) :=
    fun {v} hv x hx => assign_finite vars v _ hv fun a ha => by
      obtain ⟨i, rfl⟩ := (List.mem_ofFn' _ _).1 ha
      exact hx i
  have hS : (termCallbacks ad v vars f E I x0).scaling = (termCallbacks ad' v' vars f' E' I' x0).scaling := by
    have w0 := has hv _ hx0
    have w0' := has hv' _ hx0
    have tw := assign_twin hvv (List.ofFn x0)
    show scalingAt _ _ _ _ = scalingAt _ _ _ _
    have e1 : (fun j : Fin vars.length => ad.pd f vars[j] (assign v vars (List.ofFn x0))) =
        fun j : Fin vars.length => ad'.pd f' vars[j] (assign v' vars (List.ofFn x0)) :=
      funext fun j => pd_same w0 w0' tw hf hf' h0 (hm j)
    have e2 : (fun (i : Fin m) (j : Fin vars.length) => ad.pd (E i) vars[j] (assign v vars (List.ofFn x0))) =
        fun (i : Fin m) (j : Fin vars.length) => ad'.pd (E' i) vars[j] (assign v' vars (List.ofFn x0)) :=
      funext fun i => funext fun j => pd_same w0 w0' tw (hE i) (hE' i) (h1 i) (hm j)
    have e3 : (fun (i : Fin k) (j : Fin vars.length) => ad.pd (I i) vars[j] (assign v vars (List.ofFn x0))) =
        fun (i : Fin k) (j : Fin vars.length) => ad'.pd (I' i) vars[j] (assign v' vars (List.ofFn x0)) :=
      funext fun i => funext fun j => pd_same w0 w0' tw (hI i) (hI' i) (h2 i) (hm j)
    beta_reduce
    rw [e1, e2, e3]
    unfold scalingAt
    have hc : Vec.Finite (fun j : Fin vars.length => ad'.pd f' vars[j] (assign v' vars (List.ofFn x0))) ∧
        FMat.Finite (fun (i : Fin m) (j : Fin vars.length) => ad'.pd (E' i) vars[j] (assign v' vars (List.ofFn x0))) ∧
        FMat.Finite (fun (i : Fin k) (j : Fin vars.length) => ad'.pd (I' i) vars[j] (assign v' vars (List.ofFn x0))) :=
      ⟨fun j => pd_finite w0' (hf' _ tw.right) _, fun i j => pd_finite w0' (hE' i _ tw.right) _, fun i j => pd_finite w0' (hI' i _ tw.right) _⟩
    rw [if_pos hc, if_pos hc]
  set P := termCallbacks ad v vars f E I x0 with hP
  set Q := termCallbacks ad' v' vars f' E' I' x0 with hQ
  refine ⟨fun x hx => ?_, fun x hx => funext fun j => ?_, fun x y z hx hy hz => funext fun i => funext fun j => ?_,
    fun x hx => funext fun i => ?_, fun x hx => funext fun i => funext fun j => ?_, fun x hx => funext fun i => ?_,
    fun x hx => funext fun i => funext fun j => ?_, hS, fun x _ => rfl⟩
  · show P.scaling.fF * ad.eval f _ = Q.scaling.fF * ad'.eval f' _
    rw [hS, eval_same (has hv x hx) (has hv' x hx) (assign_twin hvv (List.ofFn x)) hf hf' h0]
  · show P.scaling.fF * ad.pd f _ _ = Q.scaling.fF * ad'.pd f' _ _
    beta_reduce
    rw [hS, pd_same (has hv x hx) (has hv' x hx) (assign_twin hvv (List.ofFn x)) hf hf' h0 (hm j)]
  · show (if j ≤ i then P.scaling.fF * ad.pd2 f vars[i] vars[j] (assign v vars (List.ofFn x)) +
        ad.hc (List.ofFn E ++ List.ofFn I) (List.ofFn (fun i => P.scaling.ceF i * y i) ++ List.ofFn fun i => P.scaling.ciF i * z i)
          vars[i] vars[j] (assign v vars (List.ofFn x)) else 0) =
      (if j ≤ i then Q.scaling.fF * ad'.pd2 f' vars[i] vars[j] (assign v' vars (List.ofFn x)) +
        ad'.hc (List.ofFn E' ++ List.ofFn I') (List.ofFn (fun i => Q.scaling.ceF i * y i) ++
          List.ofFn fun i => Q.scaling.ciF i * z i) vars[i] vars[j] (assign v' vars (List.ofFn x)) else 0)
    rw [hS, pd2_same (has hv x hx) (has hv' x hx) (assign_twin hvv (List.ofFn x)) hf hf' h0 (hm i) (hm j), hc_same (has hv x hx) (has hv' x hx) (assign_twin hvv (List.ofFn x)) hE hE' hI hI' h1 h2 ?_ (hm i)
      (hm j)]
    intro a ha
    rcases List.mem_append.1 ha with ha | ha <;> obtain ⟨i, rfl⟩ := (List.mem_ofFn' _ _).1 ha
    · obtain ⟨b, hb⟩ := Q.scaling.ceF_fin i
      exact Fl.finite_mul.2 ⟨by rw [hb]; rfl, hy i⟩
    · obtain ⟨b, hb⟩ := Q.scaling.ciF_fin i
      exact Fl.finite_mul.2 ⟨by rw [hb]; rfl, hz i⟩
  · show P.scaling.ceF i * ad.eval (E i) _ = Q.scaling.ceF i * ad'.eval (E' i) _
    rw [hS, eval_same (has hv x hx) (has hv' x hx) (assign_twin hvv (List.ofFn x)) (hE i) (hE' i) (h1 i)]
  · show P.scaling.ceF i * ad.pd (E i) _ _ = Q.scaling.ceF i * ad'.pd (E' i) _ _
    beta_reduce
    rw [hS, pd_same (has hv x hx) (has hv' x hx) (assign_twin hvv (List.ofFn x)) (hE i) (hE' i) (h1 i) (hm j)]
  · show P.scaling.ciF i * ad.eval (I i) _ = Q.scaling.ciF i * ad'.eval (I' i) _
    rw [hS, eval_same (has hv x hx) (has hv' x hx) (assign_twin hvv (List.ofFn x)) (hI i) (hI' i) (h2 i)]
  · show P.scaling.ciF i * ad.pd (I i) _ _ = Q.scaling.ciF i * ad'.pd (I' i) _ _
    beta_reduce
    rw [hS, pd_same (has hv x hx) (has hv' x hx) (assign_twin hvv (List.ofFn x)) (hI i) (hI' i) (h2 i) (hm j)]

/-! ### Runs of the solvers on the functions of two problems -/

/-- Two lists of smooth terms, position by position the same functions. -/
structure SameTerms (vars : List ℕ) (v v' : ℕ → Fl) (l l' : List Term) : Prop where
  length : l.length = l'.length
  smooth : ∀ t ∈ l, t.SmoothOn vars v
  smooth' : ∀ t ∈ l', t.SmoothOn vars v'
  same : ∀ (i : ℕ) (h : i < l.length) (h' : i < l'.length), l[i].SameOn vars v v' l'[i]

section Runs

variable {ad ad' : Autodiff} {v v' : ℕ → Fl} (hv : AllFinite v) (hv' : AllFinite v') (vars : List ℕ)
    (hvv : ∀ k ∈ vars, v k = v' k) {f f' : Term} {eqs eqs' ineqs ineqs' : List Term}
  (hf : f.SmoothOn vars v) (hf' : f'.SmoothOn vars v') (h0 : f.SameOn vars v v' f') (he : SameTerms vars v v' eqs eqs') (hi : SameTerms vars v v' ineqs ineqs')
  {x0 : Vec vars.length} (hx0 : x0.Finite)

include hv hv' hvv hf hf' h0 he hi hx0 in
/-- The functions agree, for any run that does not depend on how the numbers of constraints are written. -/
theorem callbacks_transfer {β : Type} (R : ∀ m k, Nlp vars.length m k → β)
    (hR : ∀ m k (P Q : Nlp vars.length m k), P.Total → 0 < P.scaling.f → P.Agree Q → R m k P = R m k Q) :
    R _ _ (matrixCallbacks ad v vars f eqs ineqs x0) = R _ _ (matrixCallbacks ad' v' vars f' eqs' ineqs' x0) := by
  obtain ⟨hT, hS⟩ := callbacks_total ad hv vars (f := f) (eqs := eqs) (ineqs := ineqs)
    (fun w hw => ⟨hf w hw, fun t ht => he.smooth t ht w hw, fun t ht => hi.smooth t ht w hw⟩) hx0
  rw [matrixCallbacks_terms] at hT hS ⊢
  rw [matrixCallbacks_terms]
  have key : ∀ (m m' k k' : ℕ) (hm : m = m') (hk : k = k') (E : Fin m → Term) (E' : Fin m' → Term) (I : Fin k → Term)
      (I' : Fin k' → Term), (∀ i, (E i).SmoothOn vars v) → (∀ i, (E' i).SmoothOn vars v') → (∀ i, (I i).SmoothOn vars v) →
      (∀ i, (I' i).SmoothOn vars v') → (∀ i, (E i).SameOn vars v v' (E' (Fin.cast hm i))) →
      (∀ i, (I i).SameOn vars v v' (I' (Fin.cast hk i))) → (termCallbacks ad v vars f E I x0).Total →
      0 < (termCallbacks ad v vars f E I x0).scaling.f →
      R _ _ (termCallbacks ad v vars f E I x0) = R _ _ (termCallbacks ad' v' vars f' E' I' x0) := by
    intro m m' k k' hm hk E E' I I' h1 h2 h3 h4 h5 h6 h7 h8
    subst hm hk
    exact hR _ _ _ _ h7 h8 (termCallbacks_agree ad ad' hv hv' vars hvv hf hf' h1 h2 h3 h4 h0 h5 h6 hx0)
  exact key _ _ _ _ he.length hi.length _ _ _ _ (fun i => he.smooth _ (List.getElem_mem _))
    (fun i => he.smooth' _ (List.getElem_mem _)) (fun i => hi.smooth _ (List.getElem_mem _))
    (fun i => hi.smooth' _ (List.getElem_mem _)) (fun i => he.same _ _ _) (fun i => hi.same _ _ _) hT hS

include hv hv' hvv hf hf' h0 he hx0 in
/-- Likewise without inequality constraints. -/
theorem callbacks_transfer_eq {β : Type} (R : ∀ m, Nlp vars.length m 0 → β)
    (hR : ∀ m (P Q : Nlp vars.length m 0), P.Total → P.Agree Q → R m P = R m Q) :
    R _ (matrixCallbacks ad v vars f eqs [] x0) = R _ (matrixCallbacks ad' v' vars f' eqs' [] x0) := by
  have hT := (callbacks_total ad hv vars (f := f) (eqs := eqs) (ineqs := [])
    (fun w hw => ⟨hf w hw, fun t ht => he.smooth t ht w hw, by simp⟩) hx0).1
  rw [matrixCallbacks_terms] at hT
  rw [matrixCallbacks_terms ad, matrixCallbacks_terms ad']
  have key : ∀ (m m' : ℕ) (hm : m = m') (E : Fin m → Term) (E' : Fin m' → Term) (I I' : Fin 0 → Term),
      (∀ i, (E i).SmoothOn vars v) → (∀ i, (E' i).SmoothOn vars v') → (∀ i, (E i).SameOn vars v v' (E' (Fin.cast hm i))) →
      (termCallbacks ad v vars f E I x0).Total →
      R _ (termCallbacks ad v vars f E I x0) = R _ (termCallbacks ad' v' vars f' E' I' x0) := by
    intro m m' hm E E' I I' h1 h2 h5 h7
    subst hm
    exact hR _ _ _ h7 (termCallbacks_agree ad ad' hv hv' vars hvv hf hf' h1 h2 (fun i => i.elim0) (fun i => i.elim0) h0 h5
      (fun i => i.elim0) hx0)
  exact key _ _ he.length _ _ _ _ (fun i => he.smooth _ (List.getElem_mem _))
    (fun i => he.smooth' _ (List.getElem_mem _)) (fun i => he.same _ _ _) hT

include hv hv' hvv hf hf' h0 hx0 in
/-- Likewise without constraints. -/
theorem callbacks_transfer_free {β : Type} (R : Nlp vars.length 0 0 → β)
    (hR : ∀ P Q : Nlp vars.length 0 0, P.Total → P.Agree Q → R P = R Q) :
    R (matrixCallbacks ad v vars f [] [] x0) = R (matrixCallbacks ad' v' vars f' [] [] x0) := by
  have hT := (callbacks_total ad hv vars (f := f) (eqs := []) (ineqs := []) (fun w hw => ⟨hf w hw, by simp, by simp⟩) hx0).1
  refine hR _ _ hT ?_
  rw [matrixCallbacks_terms, matrixCallbacks_terms]
  exact termCallbacks_agree ad ad' hv hv' vars hvv hf hf' (fun i => i.elim0) (fun i => i.elim0) (fun i => i.elim0) (fun i => i.elim0) h0
    (fun i => i.elim0) (fun i => i.elim0) hx0

end Runs

/-! ### `solve()` -/

/-- The two inequality constraints are the same function of the decision variables, and if their type is linear, the same
derivatives are stored, which is what the detection of bounds looks at. -/
structure UserExpr.SameInequalityOn (ad ad' : Autodiff) (vars : List ℕ) (v v' : ℕ → Fl) (e e' : UserExpr) : Prop where
  value : e.term.SameOn vars v v' e'.term
  linear : e.ty = .linear ↔ e'.ty = .linear
  stored : e.ty = .linear → ∀ j ∈ vars, ad.stored e.term j = ad'.stored e'.term j

/-- The two problems have the same decision variables with the same values and the same callbacks, and the cost and the
constraints are the same functions of the decision variables if all other variables have the values of `s` in the first and
those of `s'` in the second problem; `ad` and `ad'` are two ways of differentiating. -/
structure Problem.SameOn (ad ad' : Autodiff) (p : Problem) (s : Store) (q : Problem) (s' : Store) : Prop where
  vars : p.vars = q.vars
  callbacks : p.callbacks = q.callbacks
  persistent : p.persistent = q.persistent
  guess : ∀ k ∈ p.vars, s.val k = s'.val k
  cost : p.objective.term.SameOn p.vars s.val s'.val q.objective.term
  eqs : List.Forall₂ (fun e e' => e.term.SameOn p.vars s.val s'.val e'.term) p.eqs q.eqs
  ineqs : List.Forall₂ (UserExpr.SameInequalityOn ad ad' p.vars s.val s'.val) p.ineqs q.ineqs
  constant : p.Constant ↔ q.Constant

theorem SameTerms.of {vars : List ℕ} {v v' : ℕ → Fl} {l l' : List UserExpr}
    (h : List.Forall₂ (fun e e' => e.term.SameOn vars v v' e'.term) l l') (hs : ∀ t ∈ l.map UserExpr.term, t.SmoothOn vars v)
    (hs' : ∀ t ∈ l'.map UserExpr.term, t.SmoothOn vars v') :
    SameTerms vars v v' (l.map UserExpr.term) (l'.map UserExpr.term) := by
  refine ⟨by simp [h.length_eq], hs, hs', fun i h1 h2 => ?_⟩
  rw [List.getElem_map, List.getElem_map]
  exact (List.forall₂_iff_get.1 h).2 i (by simpa using h1) (by simpa using h2)

theorem bounds_same {ad ad' : Autodiff} {v v' : ℕ → Fl} (hv : AllFinite v) (hv' : AllFinite v') (vars : List ℕ)
    (hvv : ∀ k ∈ vars, v k = v' k) {l l' : List UserExpr}
    (h : List.Forall₂ (UserExpr.SameInequalityOn ad ad' vars v v') l l')
    (hs : ∀ t ∈ l.map UserExpr.term, t.SmoothOn vars v) (hs' : ∀ t ∈ l'.map UserExpr.term, t.SmoothOn vars v') {x : ℕ → Fl}
    (hx : ∀ j < vars.length, (x j).isFinite = true) :
    Bounds.getBounds vars.length (l.map (boundConstraint ad v vars)) x =
      Bounds.getBounds vars.length (l'.map (boundConstraint ad' v' vars)) x := by
  refine Bounds.loop_same ?_ 0 _ hx
  rw [List.forall₂_map_left_iff, List.forall₂_map_right_iff]
  have hm : ∀ {v : ℕ → Fl} {l : List UserExpr}, (∀ t ∈ l.map UserExpr.term, t.SmoothOn vars v) →
      ∀ e ∈ l, e.term.SmoothOn vars v := fun h e he => h _ (List.mem_map_of_mem he)
  have tw : Twin vars v v' (reals v) (reals v') :=
    ⟨fun k hk => by unfold reals; rw [hvv k hk], fun _ _ => rfl, fun _ _ => rfl⟩
  have key := hm hs
  have key' := hm hs'
  clear hs hs' hm
  induction h with
  | nil => exact .nil
  | @cons e e' l l' he hl ih =>
    have k1 := key e (by simp)
    have k2 := key' e' (by simp)
    refine .cons ⟨?_, fun hlin => ?_, fun hlin x hx => ?_⟩ (ih (fun e he => key e (by simp [he])) fun e he => key' e (by simp [he]))
    · show (e.ty == .linear) = (e'.ty == .linear)
      rw [Bool.eq_iff_iff, beq_iff_eq, beq_iff_eq]
      exact he.linear
    · have hlin' : e.ty = .linear := by simpa [boundConstraint] using hlin
      show List.filterMap _ _ = List.filterMap _ _
      congr 1
      funext j
      have hst : ad.stored e.term vars[j] = ad'.stored e'.term vars[j] := he.stored hlin' _ (List.getElem_mem _)
      have hpd : ad.pd e.term vars[j] v = ad'.pd e'.term vars[j] v' :=
        pd_same hv hv' tw k1 k2 he.value (List.getElem_mem _)
      rw [hst, hpd]
    · have hfa : ∀ {v : ℕ → Fl}, AllFinite v → AllFinite (assign v vars (List.ofFn fun i : Fin vars.length => x i)) :=
        fun {v} hv => assign_finite vars v _ hv fun a ha => by
          obtain ⟨i, rfl⟩ := (List.mem_ofFn' _ _).1 ha
          exact hx _ i.isLt
      exact eval_same (hfa hv) (hfa hv') (assign_twin hvv _) k1 k2 he.value

/-- What is seen of `solve()`: the exit status, all that happened on the way, and the variables afterwards. -/
def solveView {n m k : ℕ} (r : Outcome n m k × Store) : ExitStatus × World × Store := (r.1.status, r.1.world, r.2)

/-- The view of a run that ends in `r`: the status, all that happened, and the values that are written, if any. -/
def replay (s : Store) (vars : List ℕ) (r : ExitStatus × World × Option (List Fl)) : ExitStatus × World × Store :=
  (r.1, r.2.1, r.2.2.elim s (s.write vars))

/-- `solve()` does the same for both problems. -/
theorem solve_same_on {ad ad' : Autodiff} {p q : Problem} {s s' : Store} (hpq : p.SameOn ad ad' s q s') (hp : p.SmoothAround s)
    (hq : q.SmoothAround s') {env : Env} (hE : env.ExactSolve) (hE' : env.ExactEstimate) {opts : SolverOptions}
    (htol : 0 < opts.tolerance) (hfin : AllFinite s.val) (hfin' : AllFinite s'.val) (spy : Bool) :
    ∃ o : Option (ExitStatus × World × Option (List Fl)),
      (p.solve ad env opts spy s).map solveView = o.map (replay s p.vars) ∧
      (q.solve ad' env opts spy s').map solveView = o.map (replay s' q.vars) := by
  obtain ⟨vars, cost, eqs, ineqs, cbs, pers⟩ := p
  obtain ⟨vars', cost', eqs', ineqs', cbs', pers'⟩ := q
  obtain ⟨h1, h2, h3, hgs, h4, h5, h6, h7⟩ := hpq
  simp only at h1 h2 h3
  subst h1 h2 h3
  have he := SameTerms.of h5 (fun t ht w hw => (hp w hw).eqs t ht) fun t ht w hw => (hq w hw).eqs t ht
  have hi := SameTerms.of (h6.imp fun _ _ h => h.value) (fun t ht w hw => (hp w hw).ineqs t ht)
    fun t ht w hw => (hq w hw).ineqs t ht
  have hg : Vec.Finite fun i : Fin vars.length => s.val vars[i] := fun _ => hfin _
  have n1 : eqs = [] ↔ eqs' = [] := by rw [← List.length_eq_zero_iff, h5.length_eq, List.length_eq_zero_iff]
  have n2 : ineqs = [] ↔ ineqs' = [] := by rw [← List.length_eq_zero_iff, h6.length_eq, List.length_eq_zero_iff]
  have hmap : ∀ {n m k n' m' k' : ℕ} {α α' : Type} {o : Option α} {o' : Option α'} {g : α → ExitStatus × Vec vars.length × World}
      {g' : α' → ExitStatus × Vec vars.length × World} {F : α → Outcome n m k × Store} {F' : α' → Outcome n' m' k' × Store},
      o.map g = o'.map g' →
      (∀ a, solveView (F a) = replay s vars ((g a).1, (g a).2.2, some (List.ofFn (g a).2.1))) →
      (∀ a, solveView (F' a) = replay s' vars ((g' a).1, (g' a).2.2, some (List.ofFn (g' a).2.1))) →
      ∃ r : Option (ExitStatus × World × Option (List Fl)), (o.map F).map solveView = r.map (replay s vars) ∧
        (o'.map F').map solveView = r.map (replay s' vars) := by
    intro n m k n' m' k' α α' o o' g g' F F' h1 h2 h3
    refine ⟨o.map fun a => ((g a).1, (g a).2.2, some (List.ofFn (g a).2.1)), ?_, ?_⟩
    · cases o with
      | none => rfl
      | some a => exact congrArg some (h2 a)
    · cases o' with
      | none => cases o with
        | none => rfl
        | some a => cases h1
      | some a' => cases o with
        | none => cases h1
        | some a =>
          have h : g a = g' a' := Option.some.inj h1
          refine (congrArg some (h3 a')).trans ?_
          rw [← h]; rfl
  have hx0 : (fun i : Fin vars.length => s'.val vars[i]) = fun i => s.val vars[i] :=
    funext fun i => (hgs _ (List.getElem_mem _)).symm
  set cs := (⟨vars, cost, eqs, ineqs, cbs, pers⟩ : Problem).allCallbacks spy with hcs
  unfold Problem.solve
  have i1 := Problem.constant_iff ⟨vars, cost, eqs, ineqs, cbs, pers⟩
  have i2 := Problem.constant_iff ⟨vars, cost', eqs', ineqs', cbs, pers⟩
  by_cases hc : Problem.Constant ⟨vars, cost, eqs, ineqs, cbs, pers⟩
  · rw [if_pos (i1.2 hc), if_pos (i2.2 (h7.1 hc))]
    exact ⟨some (.success, .start, none), rfl, rfl⟩
  rw [if_neg fun h => hc (i1.1 h), if_neg fun h => hc (h7.2 (i2.1 h))]
  by_cases hn : eqs = [] ∧ ineqs = []
  · rw [if_pos (by exact hn), if_pos (by exact ⟨n1.1 hn.1, n2.1 hn.2⟩)]
    refine hmap (g := fun r => (r.status, r.x, r.world)) (g' := fun r => (r.status, r.x, r.world))
      (Eq.trans (callbacks_transfer_free (ad := ad) (ad' := ad') hfin hfin' vars hgs (fun w hw => (hp w hw).f) (fun w hw => (hq w hw).f) h4 hg
        (fun P => (newton env opts P cs (fun i => s.val vars[i]) .start).map fun r => (r.status, r.x, r.world))
        fun P Q hT hA => by rw [newton_agree hT hA hE opts cs hg]) ?_) (fun _ => rfl) fun _ => rfl
    rw [← hx0]; rfl
  have hm : ¬(eqs' = [] ∧ ineqs' = []) := fun h => hn ⟨n1.2 h.1, n2.2 h.2⟩
  simp only [if_neg hn, if_neg hm]
  by_cases hn' : ineqs = []
  · simp only [if_pos hn', if_pos (n2.1 hn')]
    refine hmap (g := fun r => (r.status, r.x, r.world)) (g' := fun r => (r.status, r.x, r.world))
      (Eq.trans (callbacks_transfer_eq (ad := ad) (ad' := ad') hfin hfin' vars hgs (fun w hw => (hp w hw).f) (fun w hw => (hq w hw).f) h4 he hg
        (fun m P => (sqp env opts P cs (fun i => s.val vars[i]) .start).map fun r => (r.status, r.x, r.world))
        fun m P Q hT hA => by rw [sqp_agree hT hA hE hE' htol cs hg]) ?_) (fun _ => rfl) fun _ => rfl
    rw [← hx0]; rfl
  have hm' : ¬ineqs' = [] := fun h => hn' (n2.2 h)
  simp only [if_neg hn', if_neg hm']
  have hb : Problem.bounds ⟨vars, cost, eqs, ineqs, cbs, pers⟩ ad s = Problem.bounds ⟨vars, cost', eqs', ineqs', cbs, pers⟩ ad' s' := by
    have e : (fun j => if h : j < vars.length then s'.val vars[j] else 0) =
        fun j => if h : j < vars.length then s.val vars[j] else (0 : Fl) := funext fun j => by
      by_cases h : j < vars.length
      · rw [dif_pos h, dif_pos h, hgs _ (List.getElem_mem _)]
      · rw [dif_neg h, dif_neg h]
    refine (bounds_same hfin hfin' vars hgs h6 (fun t ht w hw => (hp w hw).ineqs t ht) (fun t ht w hw => (hq w hw).ineqs t ht)
      (x := fun j => if h : j < vars.length then s.val vars[j] else 0) fun j hj => ?_).trans ?_
    · rw [dif_pos hj]; exact hfin _
    · rw [← e]; rfl
  rw [hb]
  cases Problem.bounds ⟨vars, cost', eqs', ineqs', cbs, pers⟩ ad' s' with
  | none => exact ⟨none, rfl, rfl⟩
  | some b =>
    simp only [Option.bind_some]
    by_cases hcf : b.1.conflicts ≠ []
    · rw [if_pos hcf, if_pos hcf]
      exact ⟨some (.globallyInfeasible, .start, some (List.ofFn fun i : Fin vars.length => b.2 i)), rfl, rfl⟩
    rw [if_neg hcf, if_neg hcf]
    refine hmap (g := fun r => (r.status, r.x, r.world)) (g' := fun r => (r.status, r.x, r.world))
      (Eq.trans (callbacks_transfer (ad := ad) (ad' := ad') hfin hfin' vars hgs (fun w hw => (hp w hw).f) (fun w hw => (hq w hw).f) h4 he hi hg
        (fun m k P => (interiorPoint env opts P cs (fun i => s.val vars[i]) .start).map fun r => (r.status, r.x, r.world))
        fun m k P Q hT hS hA => by rw [interiorPoint_agree hT hA hE hE' htol hS cs hg]) ?_) (fun _ => rfl) fun _ => rfl
    rw [← hx0]; rfl

end Slp
