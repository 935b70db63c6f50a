import Verif.Problem.RequestLemmas
import Verif.Problem.SetupSpec

/-! Lemmas for C47: each matrix callback returns what it must. -/

namespace Slp

variable {a : SolveArgs} {N : TableSizes} {n : ℕ} {σ : Spec} {vars : List ℕ} {f : Term} {eqs ineqs : List Term}

/-- The expressions of the problem are made of the first `n` variables. -/
structure Below (n : ℕ) (vars : List ℕ) (f : Term) (eqs ineqs : List Term) : Prop where
  vars : ∀ k ∈ vars, k < n
  f : f.Vars n
  eqs : ∀ t ∈ eqs, t.Vars n
  ineqs : ∀ t ∈ ineqs, t.Vars n

theorem pderiv2_congr {t : Term} (ht : t.Vars n) {k l : ℕ} (hk : k < n) (hl : l < n) {v w : ℕ → ℝ}
    (h : ∀ i, i < n → v i = w i) : pderiv l (pderiv k t.eval) v = pderiv l (pderiv k t.eval) w :=
  Term.eval_congr (Term.pd l (Term.pd k t)) ⟨hl, hk, ht⟩ h

theorem Below.allSmooth (B : Below n vars f eqs ineqs) {v w : ℕ → ℝ} (h : ∀ i, i < n → v i = w i)
    (hs : AllSmooth f eqs ineqs v) : AllSmooth f eqs ineqs w :=
  ⟨(f.smooth_congr B.f h).1 hs.f, fun t ht => (t.smooth_congr (B.eqs t ht) h).1 (hs.eqs t ht),
    fun t ht => (t.smooth_congr (B.ineqs t ht) h).1 (hs.ineqs t ht)⟩

/-- Second derivatives of the Lagrangian depend on the first `n` variables only. -/
theorem Below.lagrangian (B : Below n vars f eqs ineqs) {df : ℝ} {ye : Fin eqs.length → ℝ} {zi : Fin ineqs.length → ℝ}
    {k l : ℕ} (hk : k < n) (hl : l < n) {v w : ℕ → ℝ} (h : ∀ i, i < n → v i = w i) (hs : AllSmooth f eqs ineqs v) :
    pderiv l (pderiv k (lagrangian df f eqs ineqs ye zi)) v = pderiv l (pderiv k (lagrangian df f eqs ineqs ye zi)) w := by
  have hw := B.allSmooth h hs
  rw [pderiv2_lagrangian hs.f hs.eqs hs.ineqs, pderiv2_lagrangian hw.f hw.eqs hw.ineqs, pderiv2_congr B.f hk hl h]
  congr 1
  · congr 1
    exact Finset.sum_congr rfl fun i _ => by rw [pderiv2_congr (B.eqs eqs[i] (List.getElem_mem _)) hk hl h]
  · exact Finset.sum_congr rfl fun i _ => by rw [pderiv2_congr (B.ineqs ineqs[i] (List.getElem_mem _)) hk hl h]

/-- The values that the callbacks of Hessians set. -/
theorem setXYZ_ok (R : a.Ready N n vars f eqs ineqs σ)
    (S : Factors eqs.length ineqs.length) (x : Fin vars.length → ℝ) (y : Fin eqs.length → ℝ) (z : Fin ineqs.length → ℝ) :
    ∃ w, ValidAll (a.setXYZ N S x y z) σ ∧ σ.after (a.setXYZ N S x y z) = { σ with env := w } ∧
      (∀ i, i < n → w i = setReals σ.env vars (List.ofFn x) i) ∧ (∀ i : Fin eqs.length, w (n + i) = S.ce i * y i) ∧
      (∀ i : Fin ineqs.length, w (n + eqs.length + i) = S.ci i * z i) := by
  have h1 := setAll_ok R.x (List.ofFn x)
  have h2 := setAll_ok (R.env (setReals σ.env vars (List.ofFn x))).y (List.ofFn fun i => S.ce i * y i)
  have h3 := setAll_ok (R.env (setReals (setReals σ.env vars (List.ofFn x)) (List.range' n eqs.length)
    (List.ofFn fun i => S.ce i * y i))).z (List.ofFn fun i => S.ci i * z i)
  have h := validAll_and_after (validAll_and_after h1 h2) h3
  refine ⟨_, h.1, h.2, fun i hi => ?_, fun i => ?_, fun i => ?_⟩
  · show setReals (setReals _ _ _) _ _ i = _
    rw [setReals_other _ _ _ (by simp; omega), setReals_other _ _ _ (by simp; omega)]
  · show setReals (setReals _ _ _) _ _ _ = _
    rw [setReals_other _ _ _ (by simp)]
    have := setReals_get (List.range' n eqs.length) (setReals σ.env vars (List.ofFn x))
      (List.ofFn fun i => S.ce i * y i) List.nodup_range' i (by simp) (by simp)
    simpa using this
  · show setReals (setReals _ _ _) _ _ _ = _
    have := setReals_get (List.range' (n + eqs.length) ineqs.length)
      (setReals (setReals σ.env vars (List.ofFn x)) (List.range' n eqs.length) (List.ofFn fun i => S.ce i * y i))
      (List.ofFn fun i => S.ci i * z i) List.nodup_range' i (by simp) (by simp)
    simpa using this

theorem setAll_returns_append {is : List ℕ} {xs : List ℝ} {ds : List (Cmd ℝ)} {τ : Spec} {os : List (Obs ℝ)}
    (h : ReturnsAll (setAll is xs ++ ds) σ os) (ha : σ.after (setAll is xs) = τ) :
    ∃ os2, numbers os = numbers os2 ∧ matrices os = matrices os2 ∧ ReturnsAll ds τ os2 := by
  obtain ⟨os1, os2, rfl, r1, r2⟩ := returnsAll_append h
  exact ⟨os2, numbers_units (setAll_returns r1), matrices_units (setAll_returns r1), by rw [← ha]; exact r2⟩

theorem setXYZ_returns_append {S : Factors eqs.length ineqs.length} {x : Fin vars.length → ℝ} {y : Fin eqs.length → ℝ}
    {z : Fin ineqs.length → ℝ} {ds : List (Cmd ℝ)} {τ : Spec} {os : List (Obs ℝ)}
    (h : ReturnsAll (a.setXYZ N S x y z ++ ds) σ os) (ha : σ.after (a.setXYZ N S x y z) = τ) :
    ∃ os2, matrices os = matrices os2 ∧ ReturnsAll ds τ os2 := by
  unfold SolveArgs.setXYZ at h ha
  rw [List.append_assoc, List.append_assoc] at h
  obtain ⟨o1, -, e1, r1⟩ := setAll_returns_append h rfl
  obtain ⟨o2, -, e2, r2⟩ := setAll_returns_append r1 rfl
  obtain ⟨o3, -, e3, r3⟩ := setAll_returns_append r2 rfl
  exact ⟨o3, by rw [e1, e2, e3], by rw [← ha, after_append, after_append]; exact r3⟩

theorem single_returns {c : Cmd ℝ} {os : List (Obs ℝ)} (h : ReturnsAll [c] σ os) : ∃ o, os = [o] ∧ Returns c σ o := by
  cases os with
  | nil => exact h.elim
  | cons o os =>
    have h2 : os = [] := h.2
    exact ⟨o, by rw [h2], h.1⟩

theorem pair_returns {c d : Cmd ℝ} {os : List (Obs ℝ)} (h : ReturnsAll [c, d] σ os) :
    ∃ o p, os = [o, p] ∧ Returns c σ o ∧ Returns d (σ.next c) p := by
  cases os with
  | nil => exact h.elim
  | cons o os =>
    obtain ⟨p, rfl, hp⟩ := single_returns h.2
    exact ⟨o, p, rfl, h.1, hp⟩

theorem after_values (is : List ℕ) (τ : Spec) : τ.after (is.map .value) = τ := by
  induction is with
  | nil => rfl
  | cons i is ih => exact ih

theorem scaleMat_ofFn {p q : ℕ} (c : ℝ) (G : Fin p → Fin q → ℝ) :
    scaleMat c (List.ofFn fun i => List.ofFn (G i)) = List.ofFn fun i => List.ofFn fun j => c * G i j := by
  unfold scaleMat
  rw [map_ofFn']
  congr 1
  funext i
  rw [map_ofFn']

theorem scaleRows_ofFn {p q : ℕ} (d : Fin p → ℝ) (G : Fin p → Fin q → ℝ) :
    scaleRows d (List.ofFn fun i => List.ofFn (G i)) = List.ofFn fun i => List.ofFn fun j => d i * G i j := by
  unfold scaleRows
  rw [zipWith_two_ofFn]
  congr 1
  funext i
  rw [map_ofFn']

theorem addMat_ofFn {p q : ℕ} (G K : Fin p → Fin q → ℝ) :
    addMat (List.ofFn fun i => List.ofFn (G i)) (List.ofFn fun i => List.ofFn (K i)) =
      List.ofFn fun i => List.ofFn fun j => G i j + K i j := by
  unfold addMat
  rw [zipWith_two_ofFn]
  congr 1
  funext i
  rw [zipWith_two_ofFn]

theorem column_values {ts : List Term} (d : Fin ts.length → ℝ) (r : ℕ → ℝ) :
    (cwiseProduct d (ts.map fun t => t.eval r)).map (fun v => [v]) =
      List.ofFn fun i : Fin ts.length => [d i * ts[i].eval r] := by
  unfold cwiseProduct
  rw [map_eq_ofFn ts, zipWith_two_ofFn, map_ofFn']

/-- The calls of a matrix callback respect all preconditions, and change the values of the decision variables and of the
multipliers only. -/
theorem request_valid (R : a.Ready N n vars f eqs ineqs σ)
    (hae : a.eqs.length = eqs.length) (hai : a.ineqs.length = ineqs.length) (S : Factors eqs.length ineqs.length)
    (q : Request vars.length eqs.length ineqs.length) (hv : q.Available eqs ineqs) :
    ValidAll (q.cmds a N S) σ ∧ ∃ w, σ.after (q.cmds a N S) = { σ with env := w } ∧
      ∀ i, i < n → w i = setReals σ.env vars (List.ofFn q.point) i := by
  have hnone : (a.eqs = [] ∧ a.ineqs = []) ↔ eqs = [] ∧ ineqs = [] := by
    rw [← List.length_eq_zero_iff, ← List.length_eq_zero_iff, hae, hai, List.length_eq_zero_iff, List.length_eq_zero_iff]
  have one : ∀ (x : Fin vars.length → ℝ) (c : Cmd ℝ), Valid c { σ with env := setReals σ.env vars (List.ofFn x) } →
      (∀ τ : Spec, τ.next c = τ) → ValidAll (setAll (a.xAd N) (List.ofFn x) ++ [c]) σ ∧
        ∃ w, σ.after (setAll (a.xAd N) (List.ofFn x) ++ [c]) = { σ with env := w } ∧
          ∀ i, i < n → w i = setReals σ.env vars (List.ofFn x) i := by
    intro x c hc hn
    have h := validAll_and_after (setAll_ok R.x (List.ofFn x)) (ds := [c]) ⟨⟨hc, trivial⟩, hn _⟩
    exact ⟨h.1, _, h.2, fun _ _ => rfl⟩
  have many : ∀ (x : Fin vars.length → ℝ) (is : List ℕ) (ts : List Term), σ.Names is ts →
      ValidAll (setAll (a.xAd N) (List.ofFn x) ++ is.map .value) σ ∧
        ∃ w, σ.after (setAll (a.xAd N) (List.ofFn x) ++ is.map .value) = { σ with env := w } ∧
          ∀ i, i < n → w i = setReals σ.env vars (List.ofFn x) i := by
    intro x is ts hn
    have h2 := values_ok (σ := { σ with env := setReals σ.env vars (List.ofFn x) }) (hn.mono fun _ _ _ h => h)
    have h := validAll_and_after (setAll_ok R.x (List.ofFn x)) ⟨h2.1, after_values is _⟩
    exact ⟨h.1, _, h.2, fun _ _ => rfl⟩
  cases q with
  | f x => exact one x _ (get_lt_of R.cost) fun _ => rfl
  | g x => exact one x _ (jacValue_ok (R.env (setReals σ.env vars (List.ofFn x))).g).1 fun _ => rfl
  | H x y z =>
    obtain ⟨w, h1, h2, hw, -, -⟩ := setXYZ_ok R S x y z
    have f1 := (hessValue_ok (R.env w).hf).1
    unfold Request.cmds
    by_cases hc : eqs = [] ∧ ineqs = []
    · rw [if_pos (hnone.2 hc)]
      have h := validAll_and_after ⟨h1, h2⟩ (ds := [.hessValue N.hess]) ⟨⟨f1, trivial⟩, rfl⟩
      exact ⟨h.1, w, h.2, hw⟩
    · rw [if_neg fun h => hc (hnone.1 h)]
      have c1 := (hessValue_ok ((R.env w).hc hc)).1
      have h := validAll_and_after ⟨h1, h2⟩ (ds := [.hessValue N.hess, .hessValue (N.hess + 1)])
        ⟨⟨f1, c1, trivial⟩, rfl⟩
      exact ⟨h.1, w, h.2, hw⟩
  | Hc x y z =>
    obtain ⟨w, h1, h2, hw, -, -⟩ := setXYZ_ok R S x y z
    have c1 := (hessValue_ok ((R.env w).hc hv)).1
    have h := validAll_and_after ⟨h1, h2⟩ (ds := [.hessValue (N.hess + 1)]) ⟨⟨c1, trivial⟩, rfl⟩
    exact ⟨h.1, w, h.2, hw⟩
  | ce x => exact many x _ _ R.ce
  | ci x => exact many x _ _ R.ci
  | Ae x => exact one x _ (jacValue_ok ((R.env (setReals σ.env vars (List.ofFn x))).ae hv)).1 fun _ => rfl
  | Ai x => exact one x _ (jacValue_ok ((R.env (setReals σ.env vars (List.ofFn x))).ai hv)).1 fun _ => rfl

/-- A matrix callback returns what it must. -/
theorem request_ok (R : a.Ready N n vars f eqs ineqs σ) (B : Below n vars f eqs ineqs)
    (hae : a.eqs.length = eqs.length) (hai : a.ineqs.length = ineqs.length) (S : Factors eqs.length ineqs.length)
    (q : Request vars.length eqs.length ineqs.length)
    (hv : q.Available eqs ineqs) (os : List (Obs ℝ)) (ho : ReturnsAll (q.cmds a N S) σ os)
    (hq : q.Defined f eqs ineqs (setReals σ.env vars (List.ofFn q.point))) :
      q.answer S os = some (q.expected vars f eqs ineqs S (setReals σ.env vars (List.ofFn q.point))) := by
  have hnone : (a.eqs = [] ∧ a.ineqs = []) ↔ eqs = [] ∧ ineqs = [] := by
    rw [← List.length_eq_zero_iff, ← List.length_eq_zero_iff, hae, hai, List.length_eq_zero_iff, List.length_eq_zero_iff]
  -- the callbacks that set `x` only
  have one : ∀ (x : Fin vars.length → ℝ) (c : Cmd ℝ),
      ∀ os, ReturnsAll (setAll (a.xAd N) (List.ofFn x) ++ [c]) σ os → ∃ o, numbers os = numbers [o] ∧
          matrices os = matrices [o] ∧ Returns c { σ with env := setReals σ.env vars (List.ofFn x) } o := by
    intro x c os ho
    obtain ⟨os2, e1, e2, r⟩ := setAll_returns_append ho (setAll_ok R.x (List.ofFn x)).2
    obtain ⟨o, rfl, hr⟩ := single_returns r
    exact ⟨o, e1, e2, hr⟩
  have many : ∀ (x : Fin vars.length → ℝ) (is : List ℕ) (ts : List Term), σ.Names is ts →
      ∀ os, ReturnsAll (setAll (a.xAd N) (List.ofFn x) ++ is.map .value) σ os →
          (∀ t ∈ ts, t.Dom (setReals σ.env vars (List.ofFn x))) →
          numbers os = ts.map fun t => t.eval (setReals σ.env vars (List.ofFn x)) := by
    intro x is ts hn os ho hd
    obtain ⟨os2, e1, e2, r⟩ := setAll_returns_append ho (setAll_ok R.x (List.ofFn x)).2
    rw [e1]
    exact (values_ok (σ := { σ with env := setReals σ.env vars (List.ofFn x) }) (hn.mono fun _ _ _ h => h)).2 os2 r hd
  -- the second derivatives
  have hess : ∀ (w v : ℕ → ℝ) (ye : Fin eqs.length → ℝ) (zi : Fin ineqs.length → ℝ), (∀ i, i < n → w i = v i) →
      (∀ i : Fin eqs.length, w (n + i) = ye i) → (∀ i : Fin ineqs.length, w (n + eqs.length + i) = zi i) →
      AllSmooth f eqs ineqs v → ∀ i j : Fin vars.length,
        pderiv vars[j] (pderiv vars[i] (multiplierTerm n eqs ineqs).eval) w =
          pderiv vars[j] (pderiv vars[i] (lagrangian 0 f eqs ineqs ye zi)) v := by
    intro w v ye zi hw hy hz hs i j
    have hk := B.vars vars[i] (List.getElem_mem _)
    have hl := B.vars vars[j] (List.getElem_mem _)
    rw [pderiv2_multiplierTerm n f eqs ineqs w hk hl, funext hy, funext hz]
    exact B.lagrangian hk hl hw (B.allSmooth (fun i hi => (hw i hi).symm) hs)
  cases q with
  | f x =>
    obtain ⟨o, e1, -, v, rfl, hv⟩ := one x (.value (a.fAd N)) os ho
    simp only [Request.answer, e1]
    rw [hv f R.cost hq]
    rfl
  | g x =>
    obtain ⟨-, j2⟩ := jacValue_ok (R.env (setReals σ.env vars (List.ofFn x))).g
    obtain ⟨o, -, e2, ho⟩ := one x (.jacValue N.jacs) os ho
    have hq' : f.Smooth (setReals σ.env vars (List.ofFn x)) := hq
    have := j2 o ho (by simpa using hq')
    subst this
    simp only [Request.answer, e2]
    show some (scaleMat S.f _) = _
    rw [scaleMat_ofFn]
    simp [Request.expected, Request.point]
  | H x y z =>
    obtain ⟨w, -, h2, hw, hy, hz⟩ := setXYZ_ok R S x y z
    have hs : AllSmooth f eqs ineqs w := B.allSmooth (fun i hi => (hw i hi).symm) hq
    obtain ⟨-, f2⟩ := hessValue_ok (R.env w).hf
    have e0 : ∀ i j : Fin vars.length, pderiv vars[j] (pderiv vars[i] f.eval) w =
        pderiv vars[j] (pderiv vars[i] f.eval) (setReals σ.env vars (List.ofFn x)) := fun i j =>
      pderiv2_congr B.f (B.vars _ (List.getElem_mem _)) (B.vars _ (List.getElem_mem _)) hw
    have hq' : AllSmooth f eqs ineqs (setReals σ.env vars (List.ofFn x)) := hq
    by_cases hc : eqs = [] ∧ ineqs = []
    · unfold Request.cmds at ho
      rw [if_pos (hnone.2 hc)] at ho
      obtain ⟨os2, e1, r⟩ := setXYZ_returns_append ho h2
      obtain ⟨o, rfl, hr⟩ := single_returns r
      have := f2 o hr hs.f
      subst this
      simp only [Request.answer, e1]
      show some (scaleMat S.f _) = _
      rw [scaleMat_ofFn]
      simp only [Request.expected, lowerHessian, Request.point]
      congr 2
      funext i
      congr 1
      funext j
      split
      · rw [pderiv2_lagrangian hq'.f hq'.eqs hq'.ineqs, e0]
        obtain ⟨rfl, rfl⟩ := hc
        simp
      · simp
    · obtain ⟨-, c2⟩ := hessValue_ok ((R.env w).hc hc)
      unfold Request.cmds at ho
      rw [if_neg (fun h => hc (hnone.1 h))] at ho
      obtain ⟨os2, e1, r⟩ := setXYZ_returns_append ho h2
      obtain ⟨o, p, rfl, hr, hr2⟩ := pair_returns r
      have e2 := f2 o hr hs.f
      have e3 := c2 p hr2 (multiplierTerm_smooth n eqs ineqs w hs.eqs hs.ineqs)
      subst e2 e3
      simp only [Request.answer, e1]
      show some (addMat (scaleMat S.f _) _) = _
      rw [scaleMat_ofFn, addMat_ofFn]
      simp only [Request.expected, lowerHessian, Request.point]
      congr 2
      funext i
      congr 1
      funext j
      split
      · have h3 := hess w (setReals σ.env vars (List.ofFn x)) _ _ hw hy hz hq' i j
        rw [pderiv2_lagrangian hq'.f hq'.eqs hq'.ineqs] at h3
        rw [pderiv2_lagrangian hq'.f hq'.eqs hq'.ineqs]
        show S.f * pderiv vars[j] (pderiv vars[i] f.eval) w +
          pderiv vars[j] (pderiv vars[i] (multiplierTerm n eqs ineqs).eval) w = _
        rw [h3, e0]
        ring
      · simp
  | Hc x y z =>
    obtain ⟨w, -, h2, hw, hy, hz⟩ := setXYZ_ok R S x y z
    have hs : AllSmooth f eqs ineqs w := B.allSmooth (fun i hi => (hw i hi).symm) hq
    obtain ⟨-, c2⟩ := hessValue_ok ((R.env w).hc hv)
    obtain ⟨os2, e1, r⟩ := setXYZ_returns_append ho h2
    obtain ⟨o, rfl, hr⟩ := single_returns r
    have := c2 o hr (multiplierTerm_smooth n eqs ineqs w hs.eqs hs.ineqs)
    subst this
    simp only [Request.answer, e1]
    show some (List.ofFn _) = _
    simp only [Request.expected, lowerHessian, Request.point]
    congr 2
    funext i
    congr 1
    funext j
    split
    · exact hess w (setReals σ.env vars (List.ofFn x)) _ _ hw hy hz hq i j
    · rfl
  | ce x =>
    simp only [Request.answer, many x _ _ R.ce os ho hq, column_values]
    rfl
  | ci x =>
    simp only [Request.answer, many x _ _ R.ci os ho hq, column_values]
    rfl
  | Ae x =>
    obtain ⟨-, j2⟩ := jacValue_ok ((R.env (setReals σ.env vars (List.ofFn x))).ae hv)
    obtain ⟨o, -, e2, ho⟩ := one x (.jacValue (N.jacs + 1)) os ho
    have := j2 o ho hq
    subst this
    simp only [Request.answer, e2]
    show some (scaleRows S.ce _) = _
    rw [scaleRows_ofFn]
    rfl
  | Ai x =>
    obtain ⟨-, j2⟩ := jacValue_ok ((R.env (setReals σ.env vars (List.ofFn x))).ai hv)
    obtain ⟨o, -, e2, ho⟩ := one x (.jacValue (N.jacs + 2)) os ho
    have := j2 o ho hq
    subst this
    simp only [Request.answer, e2]
    show some (scaleRows S.ci _) = _
    rw [scaleRows_ofFn]
    rfl

end Slp
