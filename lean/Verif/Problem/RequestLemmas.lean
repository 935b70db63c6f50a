import Verif.Problem.SetupLemmas

/-! Lemmas for C47: what the matrix callbacks compute with the objects that `solve()` has set up. -/

namespace Slp

/-! ### The objects stay as they are -/

theorem next_jacs {σ : Spec} {c : Cmd ℝ} {j : ℕ} {J : List Term × List ℕ} (h : σ.jacs[j]? = some J) :
    (σ.next c).jacs[j]? = some J := by
  cases c <;> simp only [Spec.next] <;> first | exact h | exact getElem?_append_some h | (split <;> exact h)

theorem next_hess {σ : Spec} {c : Cmd ℝ} {j : ℕ} {H : Bool × Term × List ℕ} (h : σ.hess[j]? = some H) :
    (σ.next c).hess[j]? = some H := by
  cases c <;> simp only [Spec.next] <;> first | exact h | exact getElem?_append_some h | (split <;> exact h)

theorem next_n (σ : Spec) (c : Cmd ℝ) : σ.n ≤ (σ.next c).n := by
  cases c <;> simp only [Spec.next] <;> first | exact le_rfl | exact Nat.le_succ _ | (split <;> exact le_rfl)

theorem after_jacs {σ : Spec} {cs : List (Cmd ℝ)} {j : ℕ} {J : List Term × List ℕ} (h : σ.jacs[j]? = some J) :
    (σ.after cs).jacs[j]? = some J := by
  induction cs generalizing σ with
  | nil => exact h
  | cons c cs ih => exact ih (next_jacs h)

theorem after_hess {σ : Spec} {cs : List (Cmd ℝ)} {j : ℕ} {H : Bool × Term × List ℕ} (h : σ.hess[j]? = some H) :
    (σ.after cs).hess[j]? = some H := by
  induction cs generalizing σ with
  | nil => exact h
  | cons c cs ih => exact ih (next_hess h)

theorem after_n (σ : Spec) (cs : List (Cmd ℝ)) : σ.n ≤ (σ.after cs).n := by
  induction cs generalizing σ with
  | nil => exact le_rfl
  | cons c cs ih => exact (next_n σ c).trans (ih _)

section

variable {a : SolveArgs} {N : TableSizes} {n : ℕ} {σ : Spec} {vars : List ℕ} {f : Term} {eqs ineqs : List Term}

theorem SolveArgs.base_le (a : SolveArgs) (N : TableSizes) : a.base N ≤ a.lagrangianAd N := by
  unfold SolveArgs.lagrangianAd SolveArgs.base1
  split <;> omega

theorem SolveArgs.Ready.after (h : a.Ready N n vars f eqs ineqs σ) {ds : List (Cmd ℝ)}
    (hd : ∀ c ∈ ds, ∀ i, a.Internal N i → ¬ c.Assigns i) : a.Ready N n vars f eqs ineqs (σ.after ds) where
  toObjs := h.toObjs.mono fun i h1 h2 _ ht =>
    after_terms ht fun c hc => hd c hc i ⟨h1, h2.le.trans (a.base_le N)⟩
  g := after_jacs h.g
  hf := after_hess h.hf
  hc hn := after_hess (h.hc hn)
  ae hn := after_jacs (h.ae hn)
  ai hn := after_jacs (h.ai hn)

/-- The same objects with other values. -/
theorem SolveArgs.Ready.env (h : a.Ready N n vars f eqs ineqs σ) (v : ℕ → ℝ) :
    a.Ready N n vars f eqs ineqs { σ with env := v } where
  toObjs := h.toObjs.mono fun _ _ _ _ ht => ht
  g := h.g
  hf := h.hf
  hc := h.hc
  ae := h.ae
  ai := h.ai

end

/-! ### Setting values -/

/-- The values `xs` given to the variables `ks`. -/
def setReals (v : ℕ → ℝ) : List ℕ → List ℝ → ℕ → ℝ
  | k :: ks, x :: xs => setReals (Function.update v k x) ks xs
  | _, _ => v

theorem setReals_other (ks : List ℕ) : ∀ (v : ℕ → ℝ) (xs : List ℝ) {k : ℕ}, k ∉ ks → setReals v ks xs k = v k := by
  induction ks with
  | nil => intro v xs k _; rfl
  | cons a ks ih =>
    intro v xs k hk
    cases xs with
    | nil => rfl
    | cons x xs =>
      rw [List.mem_cons, not_or] at hk
      show setReals (Function.update v a x) ks xs k = v k
      rw [ih _ _ hk.2, Function.update_of_ne hk.1]

theorem setReals_get (ks : List ℕ) : ∀ (v : ℕ → ℝ) (xs : List ℝ), ks.Nodup →
    ∀ (i : ℕ) (h : i < ks.length) (h' : i < xs.length), setReals v ks xs ks[i] = xs[i] := by
  induction ks with
  | nil => intro v xs _ i h; simp at h
  | cons a ks ih =>
    intro v xs hn i h h'
    rw [List.nodup_cons] at hn
    cases xs with
    | nil => simp at h'
    | cons x xs =>
      show setReals (Function.update v a x) ks xs _ = _
      cases i with
      | zero =>
        simp only [List.getElem_cons_zero]
        rw [setReals_other ks _ _ hn.1, Function.update_self]
      | succ i =>
        simp only [List.getElem_cons_succ]
        exact ih _ _ hn.2 i _ _

/-- The values depend only on those of the other variables. -/
theorem setReals_congr (ks : List ℕ) (hn : ks.Nodup) {v w : ℕ → ℝ} {xs : List ℝ} (hl : xs.length = ks.length) {k : ℕ}
    (h : k ∉ ks → v k = w k) : setReals v ks xs k = setReals w ks xs k := by
  by_cases hk : k ∈ ks
  · obtain ⟨i, hi, rfl⟩ := List.getElem_of_mem hk
    rw [setReals_get ks v xs hn i hi (by omega), setReals_get ks w xs hn i hi (by omega)]
  · rw [setReals_other ks v xs hk, setReals_other ks w xs hk, h hk]

theorem assign_reals (vars : List ℕ) : ∀ (v : ℕ → ℝ) (xs : List ℝ),
    assign (fun k => .fin (v k)) vars (xs.map Fl.fin) = fun k => .fin (setReals v vars xs k) := by
  induction vars with
  | nil => intro v xs; cases xs <;> rfl
  | cons a vars ih =>
    intro v xs
    cases xs with
    | nil => rfl
    | cons x xs =>
      show assign (Function.update (fun k => Fl.fin (v k)) a (.fin x)) vars (xs.map Fl.fin) =
        fun k => .fin (setReals (Function.update v a x) vars xs k)
      rw [← ih]
      congr 1
      funext k
      by_cases hk : k = a
      · subst hk; simp
      · simp [hk]

theorem setAll_ok {σ : Spec} {is ks : List ℕ} (h : σ.Names is (ks.map .var)) (xs : List ℝ) :
    ValidAll (setAll is xs) σ ∧ σ.after (setAll is xs) = { σ with env := setReals σ.env ks xs } := by
  induction ks generalizing σ is xs with
  | nil => cases h; exact ⟨trivial, rfl⟩
  | cons k ks ih =>
    cases h with
    | @cons i _ is _ h h' =>
      cases xs with
      | nil => exact ⟨trivial, rfl⟩
      | cons x xs =>
        have e : σ.next (.setValue i x) = { σ with env := Function.update σ.env k x } := by
          simp only [Spec.next, h, Option.bind_some, Term.varOf]
        obtain ⟨h1, h2⟩ := ih (σ := { σ with env := Function.update σ.env k x }) (Spec.Names.mono h' fun _ _ _ ht => ht) xs
        refine ⟨⟨⟨k, h⟩, by rw [e]; exact h1⟩, ?_⟩
        show (σ.next (.setValue i x)).after (setAll is xs) = _
        rw [e, h2]
        rfl

theorem setAll_returns {is : List ℕ} {xs : List ℝ} {σ : Spec} {os : List (Obs ℝ)} (h : ReturnsAll (setAll is xs) σ os) :
    ∀ o ∈ os, o = .unit := by
  induction is generalizing xs σ os with
  | nil =>
    have : os = [] := by simpa [setAll, ReturnsAll] using h
    subst this; simp
  | cons i is ih =>
    cases xs with
    | nil =>
      have : os = [] := by simpa [setAll, ReturnsAll] using h
      subst this; simp
    | cons x xs =>
      cases os with
      | nil => simp
      | cons o os =>
        obtain ⟨h1, h2⟩ : Returns (.setValue i x) σ o ∧ ReturnsAll (setAll is xs) (σ.next (.setValue i x)) os := h
        intro o' ho
        rcases List.mem_cons.1 ho with rfl | ho
        · exact h1
        · exact ih h2 o' ho

theorem returnsAll_append {cs ds : List (Cmd ℝ)} {σ : Spec} {os : List (Obs ℝ)} (h : ReturnsAll (cs ++ ds) σ os) :
    ∃ os1 os2, os = os1 ++ os2 ∧ ReturnsAll cs σ os1 ∧ ReturnsAll ds (σ.after cs) os2 := by
  induction cs generalizing σ os with
  | nil => exact ⟨[], os, rfl, rfl, h⟩
  | cons c cs ih =>
    cases os with
    | nil => exact h.elim
    | cons o os =>
      obtain ⟨h1, h2⟩ := h
      obtain ⟨os1, os2, rfl, h3, h4⟩ := ih h2
      exact ⟨o :: os1, os2, rfl, ⟨h1, h3⟩, h4⟩

theorem numbers_units {os1 os2 : List (Obs ℝ)} (h : ∀ o ∈ os1, o = .unit) : numbers (os1 ++ os2) = numbers os2 := by
  unfold numbers
  rw [List.filterMap_append, List.filterMap_eq_nil_iff.2 fun o ho => by rw [h o ho], List.nil_append]

theorem matrices_units {os1 os2 : List (Obs ℝ)} (h : ∀ o ∈ os1, o = .unit) : matrices (os1 ++ os2) = matrices os2 := by
  unfold matrices
  rw [List.filterMap_append, List.filterMap_eq_nil_iff.2 fun o ho => by rw [h o ho], List.nil_append]

/-! ### Results -/

theorem values_ok {σ : Spec} {is : List ℕ} {ts : List Term} (h : σ.Names is ts) :
    ValidAll (is.map .value) σ ∧ ∀ os, ReturnsAll (is.map .value) σ os → (∀ t ∈ ts, t.Dom σ.env) →
      numbers os = ts.map fun t => t.eval σ.env := by
  induction h with
  | nil => exact ⟨trivial, fun os ho _ => by have : os = [] := ho; subst this; rfl⟩
  | @cons i t is ts h _ ih =>
    refine ⟨⟨get_lt_of h, ih.1⟩, fun os ho hd => ?_⟩
    cases os with
    | nil => exact ho.elim
    | cons o os =>
      obtain ⟨⟨x, rfl, hx⟩, h2⟩ := ho
      have := ih.2 os h2 fun u hu => hd u (by simp [hu])
      rw [List.map_cons, ← this, ← hx t h (hd t (by simp))]
      rfl

theorem matIs_ofFn {rows cols : ℕ} {e : ℕ → ℕ → ℝ → Prop} {m : List (List ℝ)} (h : MatIs rows cols e m)
    (G : Fin rows → Fin cols → ℝ) (he : ∀ (i : Fin rows) (j : Fin cols) x, e i j x → x = G i j) :
    m = List.ofFn fun i => List.ofFn (G i) := by
  obtain ⟨hl, hr⟩ := h
  apply List.ext_getElem (by simpa using hl)
  intro i h1 h2
  have hi : i < rows := by omega
  obtain ⟨row, hrow, hc, hrc⟩ := hr i hi
  rw [List.getElem?_eq_getElem h1, Option.some.injEq] at hrow
  rw [hrow, List.getElem_ofFn]
  apply List.ext_getElem (by simpa using hc)
  intro j h3 h4
  have hj : j < cols := by omega
  obtain ⟨x, hx, hex⟩ := hrc j hj
  rw [List.getElem?_eq_getElem h3, Option.some.injEq] at hx
  rw [hx, List.getElem_ofFn]
  exact he ⟨i, hi⟩ ⟨j, hj⟩ x hex

theorem jacValue_ok {σ : Spec} {j : ℕ} {ts : List Term} {ks : List ℕ} (h : σ.jacs[j]? = some (ts, ks)) :
    Valid (.jacValue j) σ ∧ ∀ o, Returns (.jacValue j) σ o → (∀ t ∈ ts, t.Smooth σ.env) →
      o = .mat (List.ofFn fun r : Fin ts.length => List.ofFn fun c : Fin ks.length => pderiv ks[c] ts[r].eval σ.env) := by
  refine ⟨get_lt_of h, fun o ⟨m, hm, ho⟩ hs => ?_⟩
  rw [hm, matIs_ofFn (ho ts ks h) (fun r c => pderiv ks[c] ts[r].eval σ.env)]
  intro r c x hx
  exact hx ts[r] ks[c] (List.getElem?_eq_getElem r.2) (List.getElem?_eq_getElem c.2) (hs _ (List.getElem_mem _))

theorem hessValue_ok {σ : Spec} {j : ℕ} {t : Term} {ks : List ℕ} (h : σ.hess[j]? = some (true, t, ks)) :
    Valid (.hessValue j) σ ∧ ∀ o, Returns (.hessValue j) σ o → t.Smooth σ.env →
      o = .mat (List.ofFn fun r : Fin ks.length => List.ofFn fun c : Fin ks.length =>
        if c ≤ r then pderiv ks[c] (pderiv ks[r] t.eval) σ.env else 0) := by
  refine ⟨get_lt_of h, fun o ⟨m, hm, ho⟩ hs => ?_⟩
  rw [hm, matIs_ofFn (ho true t ks h) (fun r c => if c ≤ r then pderiv ks[c] (pderiv ks[r] t.eval) σ.env else 0)]
  intro r c x hx
  rw [hx ks[r] ks[c] (List.getElem?_eq_getElem r.2) (List.getElem?_eq_getElem c.2) hs]
  by_cases hrc : c ≤ r
  · rw [if_pos hrc, if_neg (by simpa using hrc)]
    rfl
  · rw [if_neg hrc, if_pos ⟨rfl, by simpa using hrc⟩]

theorem zipWith_two_ofFn {α β γ : Type} {q : ℕ} (F : α → β → γ) (u : Fin q → α) (v : Fin q → β) :
    List.zipWith F (List.ofFn u) (List.ofFn v) = List.ofFn fun i => F (u i) (v i) := by
  apply List.ext_getElem (by simp)
  intro i h1 h2
  simp

theorem map_ofFn' {α β : Type} {q : ℕ} (F : α → β) (u : Fin q → α) :
    (List.ofFn u).map F = List.ofFn fun i => F (u i) := by
  rw [List.map_ofFn]; rfl

theorem map_eq_ofFn {α β : Type} (l : List α) (F : α → β) : l.map F = List.ofFn fun i : Fin l.length => F l[i] := by
  apply List.ext_getElem (by simp)
  intro i h1 h2
  simp

/-! ### The expression for `H_c` -/

theorem dotTerm_eval (ps : List (Term × Term)) (t : Term) (v : ℕ → ℝ) :
    (dotTerm t ps).eval v = t.eval v + (ps.map fun p => p.1.eval v * p.2.eval v).sum := by
  induction ps generalizing t with
  | nil => simp [dotTerm]
  | cons p ps ih =>
    obtain ⟨u, w⟩ := p
    simp only [dotTerm]
    rw [ih]
    simp only [Term.eval, BinOp.eval, List.map_cons, List.sum_cons]
    ring

theorem dotTerm_smooth (ps : List (Term × Term)) (t : Term) (v : ℕ → ℝ) (ht : t.Smooth v)
    (h : ∀ p ∈ ps, p.1.Smooth v ∧ p.2.Smooth v) : (dotTerm t ps).Smooth v := by
  induction ps generalizing t with
  | nil => exact ht
  | cons p ps ih =>
    obtain ⟨u, w⟩ := p
    have := h (u, w) (by simp)
    refine ih _ ?_ fun p hp => h p (by simp [hp])
    simp [Term.Smooth, BinOp.Smooth, ht, this.1, this.2]

theorem multiplierTerm_eval (n : ℕ) (f : Term) (eqs ineqs : List Term) (v : ℕ → ℝ) :
    (multiplierTerm n eqs ineqs).eval v = lagrangian 0 f eqs ineqs (fun i => v (n + i))
      (fun i => v (n + eqs.length + i)) v := by
  have e1 : (dotTerm (.lit 0) (((List.range' n eqs.length).map fun k => Term.un .neg (.var k)).zip eqs)).eval v =
      -∑ i : Fin eqs.length, v (n + i) * eqs[i].eval v := by
    rw [dotTerm_eval]
    have : ((((List.range' n eqs.length).map fun k => Term.un .neg (.var k)).zip eqs).map
        fun p => p.1.eval v * p.2.eval v) = List.ofFn fun i : Fin eqs.length => -(v (n + i) * eqs[i].eval v) := by
      apply List.ext_getElem (by simp)
      intro i h1 h2
      simp [Term.eval, UnOp.eval]
    rw [this, List.sum_ofFn, Finset.sum_neg_distrib]
    simp [Term.eval]
  have e2 : (dotTerm (.lit 0) (((List.range' (n + eqs.length) ineqs.length).map Term.var).zip ineqs)).eval v =
      ∑ i : Fin ineqs.length, v (n + eqs.length + i) * ineqs[i].eval v := by
    rw [dotTerm_eval]
    have : ((((List.range' (n + eqs.length) ineqs.length).map Term.var).zip ineqs).map
        fun p => p.1.eval v * p.2.eval v) =
          List.ofFn fun i : Fin ineqs.length => v (n + eqs.length + i) * ineqs[i].eval v := by
      apply List.ext_getElem (by simp)
      intro i h1 h2
      simp [Term.eval]
    rw [this, List.sum_ofFn]
    simp [Term.eval]
  unfold multiplierTerm lagrangian
  simp only
  split
  · rename_i h
    subst h
    rw [e1]
    simp
  · simp only [Term.eval, BinOp.eval]
    rw [e1, e2]
    ring

theorem multiplierTerm_smooth (n : ℕ) (eqs ineqs : List Term) (v : ℕ → ℝ) (he : ∀ t ∈ eqs, t.Smooth v)
    (hi : ∀ t ∈ ineqs, t.Smooth v) : (multiplierTerm n eqs ineqs).Smooth v := by
  have h1 : (dotTerm (.lit 0) (((List.range' n eqs.length).map fun k => Term.un .neg (.var k)).zip eqs)).Smooth v := by
    refine dotTerm_smooth _ _ _ trivial fun p hp => ?_
    obtain ⟨u, w⟩ := p
    have := List.of_mem_zip hp
    obtain ⟨k, -, rfl⟩ := List.mem_map.1 this.1
    exact ⟨by simp [Term.Smooth, UnOp.Smooth], he _ this.2⟩
  have h2 : (dotTerm (.lit 0) (((List.range' (n + eqs.length) ineqs.length).map Term.var).zip ineqs)).Smooth v := by
    refine dotTerm_smooth _ _ _ trivial fun p hp => ?_
    obtain ⟨u, w⟩ := p
    have := List.of_mem_zip hp
    obtain ⟨k, -, rfl⟩ := List.mem_map.1 this.1
    exact ⟨trivial, hi _ this.2⟩
  unfold multiplierTerm
  simp only
  split
  · exact h1
  · exact ⟨h1, h2, by simp [BinOp.Smooth]⟩

/-- Second derivatives with respect to variables below `n` see the variables from `n` on as constants. -/
theorem pderiv2_multiplierTerm (n : ℕ) (f : Term) (eqs ineqs : List Term) (v : ℕ → ℝ) {k l : ℕ} (hk : k < n) (hl : l < n) :
    pderiv l (pderiv k (multiplierTerm n eqs ineqs).eval) v =
      pderiv l (pderiv k (lagrangian 0 f eqs ineqs (fun i => v (n + i)) fun i => v (n + eqs.length + i))) v := by
  unfold pderiv
  congr 1
  funext b
  have e : ∀ x, (multiplierTerm n eqs ineqs).eval (Function.update (Function.update v l b) k x) =
      lagrangian 0 f eqs ineqs (fun i => v (n + i)) (fun i => v (n + eqs.length + i))
        (Function.update (Function.update v l b) k x) := by
    intro x
    rw [multiplierTerm_eval n f]
    congr 1
    · funext i
      rw [Function.update_of_ne (by omega), Function.update_of_ne (by omega)]
    · funext i
      rw [Function.update_of_ne (by omega), Function.update_of_ne (by omega)]
  simp only [e]

end Slp
