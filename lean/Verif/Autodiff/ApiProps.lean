import Verif.Autodiff.ObsLemmas

/-!
Properties of the autodiff API (C01, C03-C09). A program is a list of API calls; `result cs` is what
its last call returns. All theorems range over all programs that respect the preconditions `Valid`.
-/

namespace Slp

/-- What the last call of a program returns. -/
def result {S : Type} [ScalarOps S] (cs : List (Cmd S)) : Option (Obs S) :=
  match run cs Api.empty with
  | some (os, _) => os.getLast?
  | none => none

/-- The abstract state after a program. -/
noncomputable def stateAfter (cs : List (Cmd ℝ)) : Spec := Spec.empty.after cs

/-- The preconditions of all calls of a program hold. -/
def Allowed (cs : List (Cmd ℝ)) : Prop := ValidAll cs Spec.empty

theorem result_snoc {cs : List (Cmd ℝ)} (h : Allowed cs) :
    ∃ vs s, InvV vs (stateAfter cs) s ∧ (∃ os, run cs Api.empty = some (os, s)) ∧
      ∀ c, result (cs ++ [c]) = (step c s).map Prod.fst := by
  obtain ⟨os, s, e, _, vs, I⟩ := run_ok inv_empty cs h
  refine ⟨vs, s, I, ⟨os, e⟩, fun c => ?_⟩
  unfold result
  rw [run_append, e]
  simp only [run]
  rcases step c s with _ | ⟨o, s'⟩ <;> simp

theorem run_snoc {S : Type} [ScalarOps S] {cs : List (Cmd S)} {c : Cmd S} {os : List (Obs S)}
    {o : Obs S} {s s' : Api S} (h : run cs Api.empty = some (os, s)) (hc : step c s = some (o, s')) :
    ∃ os', run (cs ++ [c]) Api.empty = some (os', s') := by
  rw [run_append, h]
  simp [run, hc]

theorem result_of_run {S : Type} [ScalarOps S] {cs : List (Cmd S)} {os : List (Obs S)} {s : Api S}
    (h : run cs Api.empty = some (os, s)) (c : Cmd S) :
    result (cs ++ [c]) = (step c s).map Prod.fst := by
  unfold result
  rw [run_append, h]
  simp only [run]
  rcases step c s with _ | ⟨o, s'⟩ <;> simp

theorem allowed_append {cs ds : List (Cmd ℝ)} :
    Allowed (cs ++ ds) ↔ Allowed cs ∧ ValidAll ds (stateAfter cs) := validAll_append cs ds _

theorem allowed_snoc {cs : List (Cmd ℝ)} {c : Cmd ℝ} :
    Allowed (cs ++ [c]) ↔ Allowed cs ∧ Valid c (stateAfter cs) := by
  simp [allowed_append, ValidAll]

/-- Allowed programs run to completion and everything they return is right. -/
theorem program_correct (cs : List (Cmd ℝ)) (h : Allowed cs) :
    ∃ os s, run cs Api.empty = some (os, s) ∧ ReturnsAll cs Spec.empty os := by
  obtain ⟨os, s, e, r, _⟩ := run_ok inv_empty cs h
  exact ⟨os, s, e, r⟩

theorem returns_last {cs : List (Cmd ℝ)} {c : Cmd ℝ} (h : Allowed (cs ++ [c])) :
    ∃ o, result (cs ++ [c]) = some o ∧ Returns c (stateAfter cs) o := by
  obtain ⟨hcs, hc⟩ := allowed_snoc.mp h
  obtain ⟨vs, s, I, _, hr⟩ := result_snoc hcs
  obtain ⟨o, s', e, r, _⟩ := step_ok ⟨vs, I⟩ c hc
  exact ⟨o, by rw [hr, e]; rfl, r⟩

/-- C01: at the end of any program, `value()` of an object returns the value of the mathematical
expression it stands for at the current values of the variables. -/
theorem value_correct {cs : List (Cmd ℝ)} {i : ℕ} {t : Term} (h : Allowed cs)
    (ht : (stateAfter cs).terms[i]? = some t) (hd : t.Dom (stateAfter cs).env) :
    result (cs ++ [.value i]) = some (.num (t.eval (stateAfter cs).env)) := by
  have hi : i < (stateAfter cs).terms.length := (List.getElem?_eq_some_iff.mp ht).1
  obtain ⟨o, e, x, rfl, hx⟩ := returns_last (c := .value i) (allowed_snoc.mpr ⟨h, hi⟩)
  rw [e, hx t ht hd]

/-! ### C03 -/

/-- The states before and after the calls `c :: ds` at the end of a program. -/
theorem split_run {cs ds : List (Cmd ℝ)} {c : Cmd ℝ} (h : Allowed (cs ++ c :: ds)) :
    ∃ vs s o s1 vs3 s3, InvV vs (stateAfter cs) s ∧ step c s = some (o, s1) ∧
      Inv ((stateAfter cs).next c) s1 ∧ InvV vs3 (stateAfter (cs ++ c :: ds)) s3 ∧ Later s1 s3 ∧
      (∀ i e, (∀ c ∈ ds, ¬ c.Assigns i) → At s1 i e → At s3 i e) ∧
      (∀ d, result (cs ++ c :: ds ++ [d]) = (step d s3).map Prod.fst) ∧
      ∃ os, run (cs ++ c :: ds) Api.empty = some (os, s3) := by
  obtain ⟨hcs, hv, hds⟩ := allowed_append.mp h
  obtain ⟨vs, s, I, ⟨os, e⟩, _⟩ := result_snoc hcs
  obtain ⟨o1, s1, e1, _, I1⟩ := step_ok ⟨vs, I⟩ _ hv
  obtain ⟨os2, s2, e2, _, _⟩ := run_ok I1 ds hds
  obtain ⟨l2, a2, _⟩ := run_later I1 hds e2
  obtain ⟨vs3, s3, I3, ⟨os3, e3⟩, hr⟩ := result_snoc h
  have hs3 : s3 = s2 := by
    have e4 := e3
    rw [run_append, e] at e4
    simp only [run, e1, e2] at e4
    cases e4; rfl
  subst hs3
  exact ⟨vs, s, o1, s1, vs3, s3, I, e1, I1, I3, l2, a2, hr, os3, e3⟩

theorem value_at {vs : ℕ → ℕ} {σ : Spec} {s : Api ℝ} (I : InvV vs σ s) {i e : ℕ} (a : At s i e) :
    (step (.value i) s).map Prod.fst = some (.num (ev s.heap s.heap.val e)) := by
  obtain ⟨x, hx, rfl⟩ := a
  rw [step_observe (c := .value i) I trivial]
  simp [observe, hx]

/-- C03 for unary operations: whatever folding or pruning happens when an expression is built, its
value is the operation applied to the value of its operand, in every later state (`ds` are later
calls), also where the operand itself is outside its domain. -/
theorem construction_meaning_un {cs ds : List (Cmd ℝ)} {f : UnOp} {i : ℕ}
    (h : Allowed (cs ++ .un f i :: ds)) (hi : ∀ c ∈ ds, ¬ c.Assigns i)
    (hn : ∀ c ∈ ds, ¬ c.Assigns (stateAfter cs).terms.length) :
    ∃ x z, result (cs ++ .un f i :: ds ++ [.value i]) = some (.num x) ∧
      result (cs ++ .un f i :: ds ++ [.value (stateAfter cs).terms.length]) = some (.num z) ∧
      z = f.eval x := by
  obtain ⟨vs, s, o1, s1, vs3, s3, I, e1, I1, I3, l, a, hr, os3, hrun⟩ := split_run h
  obtain ⟨t, x, ht, hx, hd, o⟩ := I.obj (allowed_append.mp h).2.1
  have b := f.builds I.wf o.rep.lt
  simp only [step, hx] at e1
  cases e1
  have hlen : s.objs.length = (stateAfter cs).terms.length := I.objs.length_eq.symm
  have ax := a i x.expr hi ⟨x, by simp only [Api.push]; exact getElem?_append_some hx, rfl⟩
  have az := a _ (f.build x.expr s.heap).1 hn ⟨freshObj (f.build x.expr s.heap).1, by
    simp [Api.push, ← hlen], rfl⟩
  refine ⟨_, _, (hr _).trans (value_at I3 ax), (hr _).trans (value_at I3 az), ?_⟩
  rw [l.mono.ev _ b.lt, l.mono.ev _ (b.grow.lt o.rep.lt)]
  exact (b.sem _).trans (by
    rw [show ev (s.push (f.build x.expr)).heap s3.heap.val x.expr = _ from b.grow.ev _ o.rep.lt])

theorem BinOp.builds (f : BinOp) {h : Heap ℝ} (wf : WF h) {a b : ℕ} (ha : a < h.next)
    (hb : b < h.next) : ∃ F P, Builds (f.build a b) h F P ∧
      ∀ η, f.Dom (ev h η a) (ev h η b) → F η = f.eval (ev h η a) (ev h η b) := by
  cases f
  case add => exact ⟨_, _, add_builds wf ha hb, fun _ _ => rfl⟩
  case sub => exact ⟨_, _, sub_builds wf ha hb, fun _ _ => rfl⟩
  case mul => exact ⟨_, _, mul_builds wf ha hb, fun _ _ => rfl⟩
  case div => exact ⟨_, _, div_builds wf ha hb, fun _ _ => rfl⟩
  case atan2 => exact ⟨_, _, atan2_builds wf ha hb, fun _ _ => rfl⟩
  case hypot => exact ⟨_, _, hypot_builds wf ha hb, fun _ _ => rfl⟩
  case max => exact ⟨_, _, max_builds wf ha hb, fun _ _ => rfl⟩
  case min => exact ⟨_, _, min_builds wf ha hb, fun _ _ => rfl⟩
  case pow =>
    refine ⟨_, _, pow_builds wf ha hb, fun η hd => ?_⟩
    by_cases hc : isConst h a ScalarOps.zero = true
    · have h0 : ev h η a = 0 := isConst_ev wf ha hc η
      rw [if_pos hc]
      simp only [BinOp.Dom, h0] at hd
      simp only [BinOp.eval, h0]
      rcases hd with hd | ⟨_, hd⟩ | ⟨hd, _⟩
      · exact absurd hd (lt_irrefl _)
      · rw [Real.zero_rpow hd.ne']
      · exact absurd hd (lt_irrefl _)
    · rw [if_neg hc]; rfl

/-- C03 for binary operations. The only deviation from the operation itself is outside its domain:
see `pow_zero_zero`. -/
theorem construction_meaning_bin {cs ds : List (Cmd ℝ)} {f : BinOp} {i j : ℕ}
    (h : Allowed (cs ++ .bin f i j :: ds)) (hi : ∀ c ∈ ds, ¬ c.Assigns i ∧ ¬ c.Assigns j)
    (hn : ∀ c ∈ ds, ¬ c.Assigns (stateAfter cs).terms.length) :
    ∃ x y z, result (cs ++ .bin f i j :: ds ++ [.value i]) = some (.num x) ∧
      result (cs ++ .bin f i j :: ds ++ [.value j]) = some (.num y) ∧
      result (cs ++ .bin f i j :: ds ++ [.value (stateAfter cs).terms.length]) = some (.num z) ∧
      (f.Dom x y → z = f.eval x y) := by
  obtain ⟨vs, s, o1, s1, vs3, s3, I, e1, I1, I3, l, a, hr, os3, hrun⟩ := split_run h
  have hv := (allowed_append.mp h).2.1
  obtain ⟨t, x, ht, hx, hd, o⟩ := I.obj hv.1
  obtain ⟨t', x', ht', hx', hd', o'⟩ := I.obj hv.2
  obtain ⟨F, P, b, hF⟩ := f.builds I.wf o.rep.lt o'.rep.lt
  simp only [step, hx, hx'] at e1
  cases e1
  have hlen : s.objs.length = (stateAfter cs).terms.length := I.objs.length_eq.symm
  have ax := a i x.expr (fun c hc => (hi c hc).1)
    ⟨x, by simp only [Api.push]; exact getElem?_append_some hx, rfl⟩
  have ay := a j x'.expr (fun c hc => (hi c hc).2)
    ⟨x', by simp only [Api.push]; exact getElem?_append_some hx', rfl⟩
  have az := a _ (f.build x.expr x'.expr s.heap).1 hn
    ⟨freshObj (f.build x.expr x'.expr s.heap).1, by simp [Api.push, ← hlen], rfl⟩
  refine ⟨_, _, _, (hr _).trans (value_at I3 ax), (hr _).trans (value_at I3 ay),
    (hr _).trans (value_at I3 az), ?_⟩
  rw [l.mono.ev _ b.lt, l.mono.ev _ (b.grow.lt o.rep.lt), l.mono.ev _ (b.grow.lt o'.rep.lt)]
  rw [show ev (s.push (f.build x.expr x'.expr)).heap s3.heap.val x.expr = _ from
    b.grow.ev _ o.rep.lt, show ev (s.push (f.build x.expr x'.expr)).heap s3.heap.val x'.expr = _ from
    b.grow.ev _ o'.rep.lt]
  exact fun hd => (b.sem _).trans (hF _ hd)

/-! ### C04 -/

/-- C04: the reported type is sound. -/
theorem type_sound {cs : List (Cmd ℝ)} {i : ℕ} {t : Term} (h : Allowed cs)
    (ht : (stateAfter cs).terms[i]? = some t) :
    ∃ ty, result (cs ++ [.type i]) = some (.ty ty) ∧ TypeMeans (stateAfter cs).n t ty := by
  have hi : i < (stateAfter cs).terms.length := (List.getElem?_eq_some_iff.mp ht).1
  obtain ⟨o, e, x, rfl, hx⟩ := returns_last (c := .type i) (allowed_snoc.mpr ⟨h, hi⟩)
  exact ⟨x, e, hx t ht⟩

/-! ### C05, C08 -/

/-- C05: the entries of `Jacobian::value()` are the true partial derivatives of the mathematical
expressions of its rows, at the current values of the variables. -/
theorem jacobian_correct {cs : List (Cmd ℝ)} {j : ℕ} {ts : List Term} {ks : List ℕ} (h : Allowed cs)
    (hj : (stateAfter cs).jacs[j]? = some (ts, ks)) :
    ∃ m, result (cs ++ [.jacValue j]) = some (.mat m) ∧
      MatIs ts.length ks.length (fun r c x => ∀ t k, ts[r]? = some t → ks[c]? = some k →
        t.Smooth (stateAfter cs).env →
          HasDerivAt (fun u => t.eval (Function.update (stateAfter cs).env k u)) x
            ((stateAfter cs).env k)) m := by
  have hi : j < (stateAfter cs).jacs.length := (List.getElem?_eq_some_iff.mp hj).1
  obtain ⟨o, e, m, rfl, hm⟩ := returns_last (c := .jacValue j) (allowed_snoc.mpr ⟨h, hi⟩)
  obtain ⟨h1, h2⟩ := hm ts ks hj
  refine ⟨m, e, h1, fun r hr => ?_⟩
  obtain ⟨row, e1, e2, h3⟩ := h2 r hr
  refine ⟨row, e1, e2, fun c hc => ?_⟩
  obtain ⟨x, e3, h4⟩ := h3 c hc
  refine ⟨x, e3, fun t k ht hk hs => ?_⟩
  rw [h4 t k ht hk hs]
  exact t.hasDerivAt k hs

/-- C08: the entries of `Hessian::value()` are the true second partial derivatives; the lower
triangular variant has zeros above the diagonal. -/
theorem hessian_correct {cs : List (Cmd ℝ)} {j : ℕ} {lower : Bool} {t : Term} {ks : List ℕ}
    (h : Allowed cs) (hj : (stateAfter cs).hess[j]? = some (lower, t, ks))
    (hs : t.Smooth (stateAfter cs).env) :
    ∃ m, result (cs ++ [.hessValue j]) = some (.mat m) ∧
      MatIs ks.length ks.length (fun r c x => ∀ k l, ks[r]? = some k → ks[c]? = some l →
        (lower = true ∧ r < c → x = 0) ∧
        (¬ (lower = true ∧ r < c) → ∃ g : (ℕ → ℝ) → ℝ,
          (∀ env, t.Smooth env → HasDerivAt (fun u => t.eval (Function.update env k u)) (g env)
            (env k)) ∧
          HasDerivAt (fun u => g (Function.update (stateAfter cs).env l u)) x
            ((stateAfter cs).env l))) m := by
  have hi : j < (stateAfter cs).hess.length := (List.getElem?_eq_some_iff.mp hj).1
  obtain ⟨o, e, m, rfl, hm⟩ := returns_last (c := .hessValue j) (allowed_snoc.mpr ⟨h, hi⟩)
  obtain ⟨h1, h2⟩ := hm lower t ks hj
  refine ⟨m, e, h1, fun r hr => ?_⟩
  obtain ⟨row, e1, e2, h3⟩ := h2 r hr
  refine ⟨row, e1, e2, fun c hc => ?_⟩
  obtain ⟨x, e3, h4⟩ := h3 c hc
  refine ⟨x, e3, fun k l hk hl => ?_⟩
  have hx := h4 k l hk hl hs
  refine ⟨fun hu => by rw [hx, if_pos hu], fun hu => ?_⟩
  rw [hx, if_neg hu]
  exact ⟨(Term.pd k t).eval, fun env he => t.hasDerivAt k he, (Term.pd k t).hasDerivAt l hs⟩

/-! ### C06 -/

theorem next_terms {σ : Spec} {c : Cmd ℝ} {i : ℕ} {t : Term} (ht : σ.terms[i]? = some t)
    (hc : ¬ c.Assigns i) : (σ.next c).terms[i]? = some t := by
  cases c <;> simp only [Spec.next, Cmd.Assigns] at hc ⊢ <;>
    first
    | exact ht
    | exact getElem?_append_some ht
    | (rw [List.getElem?_set_ne hc]; exact ht)
    | (split <;> exact ht)

theorem after_terms {σ : Spec} {cs : List (Cmd ℝ)} {i : ℕ} {t : Term} (ht : σ.terms[i]? = some t)
    (hc : ∀ c ∈ cs, ¬ c.Assigns i) : (σ.after cs).terms[i]? = some t := by
  induction cs generalizing σ with
  | nil => exact ht
  | cons c cs ih =>
    exact ih (next_terms ht (hc c (by simp))) fun c' hc' => hc c' (by simp [hc'])

theorem exprs_congr {s s' : Api ℝ} {is : List ℕ} (h : ∀ i ∈ is, ∃ e, At s i e ∧ At s' i e) :
    exprs s'.objs is = exprs s.objs is := by
  induction is with
  | nil => rfl
  | cons i is ih =>
    obtain ⟨e, ⟨x, hx, hxe⟩, ⟨y, hy, hye⟩⟩ := h i (by simp)
    have := ih fun j hj => h j (by simp [hj])
    simp only [exprs, List.filterMap_cons, hx, hy, Option.map_some, hxe, hye] at this ⊢
    rw [this]

theorem entry_congr {h h' : Heap ℝ} (wf : WF h) (g : Mono h h')
    (hval : ∀ n, n < h.next → h.op n = .variable → h'.val n = h.val n) {J J' : JacObj ℝ}
    (jo : JacOK h J) (h1 : J'.vars = J.vars) (h2 : J'.wrt = J.wrt) (r c : ℕ) :
    entry h' J' r c = entry h J r c := by
  unfold entry
  rw [h1, h2]
  refine rowGrad_mono wf g hval _ fun e he => ?_
  rcases hx : J.vars[r]? with _ | v
  · simp [List.getD, hx] at he
  · rw [getD_get hx] at he
    subst he
    exact jo.row_lt hx

theorem var_leaf {h : Heap ℝ} (wf : WF h) {n : ℕ} (hn : n < h.next) (ho : h.op n = .variable) :
    (h.args n).1 = none := by
  have := wf.arity n hn
  rw [ho] at this
  simp [ArityOK, Op.arity] at this
  rw [this]

/-- C06: whatever happened since a Jacobian object was constructed, its `value()` is exactly that of
a Jacobian object constructed afresh from the same `Variable`s. -/
theorem jacobian_never_stale {cs ds : List (Cmd ℝ)} {rows wrt : List ℕ}
    (h : Allowed (cs ++ .jac rows wrt :: ds))
    (hn : ∀ c ∈ ds, ∀ i, i ∈ rows ∨ i ∈ wrt → ¬ c.Assigns i) :
    ∃ m, result (cs ++ .jac rows wrt :: ds ++ [.jacValue (stateAfter cs).jacs.length]) =
        some (.mat m) ∧
      result (cs ++ .jac rows wrt :: ds ++ [.jac rows wrt] ++
        [.jacValue (stateAfter (cs ++ .jac rows wrt :: ds)).jacs.length]) = some (.mat m) := by
  obtain ⟨vs, s, o1, s1, vs3, s3, I, e1, I1, I3, l, a, hr, os3, hrun⟩ := split_run h
  have hv := (allowed_append.mp h).2.1
  obtain ⟨J, h', e, g, jo, hJ1, hJ2⟩ := I.jacStep rows wrt hv.1 hv.2
  simp only [step, e] at e1
  cases e1
  -- the object in the last state
  have hlen : s.jacs.length = (stateAfter cs).jacs.length := I.jacs.length_eq.symm
  obtain ⟨J3, hJ3, ev3, ew3⟩ := l.jacs (stateAfter cs).jacs.length J (by simp [← hlen])
  obtain ⟨p3, _, jo3⟩ := forall2_get_r I3.jacs _ hJ3
  -- preconditions of the second construction
  have hσ : stateAfter (cs ++ .jac rows wrt :: ds) =
      ((stateAfter cs).next (.jac rows wrt)).after ds := by
    simp [stateAfter, Spec.after]
  have hterm : ∀ i t, i ∈ rows ∨ i ∈ wrt → (stateAfter cs).terms[i]? = some t →
      (stateAfter (cs ++ .jac rows wrt :: ds)).terms[i]? = some t := by
    intro i t hi ht
    rw [hσ]
    exact after_terms (σ := (stateAfter cs).next (.jac rows wrt)) ht fun c hc => hn c hc i hi
  have hvars : (stateAfter (cs ++ .jac rows wrt :: ds)).vars wrt = (stateAfter cs).vars wrt := by
    unfold Spec.vars
    refine List.filterMap_congr fun i hi => ?_
    obtain ⟨k, hk⟩ := hv.2.1 i hi
    rw [hk, hterm i _ (Or.inr hi) hk]
  have hv3 : Valid (.jac rows wrt) (stateAfter (cs ++ .jac rows wrt :: ds)) := by
    refine ⟨fun i hi => ?_, fun i hi => ?_, ?_⟩
    · obtain ⟨t, ht⟩ := get_lt (hv.1 i hi)
      exact (List.getElem?_eq_some_iff.mp (hterm i t (Or.inl hi) ht)).1
    · obtain ⟨k, hk⟩ := hv.2.1 i hi
      exact ⟨k, hterm i _ (Or.inr hi) hk⟩
    · rw [hvars]; exact hv.2.2
  -- the same nodes are used
  have hat : ∀ i, i ∈ rows ∨ i ∈ wrt → ∃ e, At s i e ∧ At s3 i e := by
    intro i hi
    have hl : i < (stateAfter cs).terms.length := by
      rcases hi with hi | hi
      · exact hv.1 i hi
      · obtain ⟨k, hk⟩ := hv.2.1 i hi
        exact (List.getElem?_eq_some_iff.mp hk).1
    obtain ⟨t, x, _, hx, _, _⟩ := I.obj hl
    exact ⟨x.expr, ⟨x, hx, rfl⟩, a i x.expr (fun c hc => hn c hc i hi) ⟨x, hx, rfl⟩⟩
  have er := exprs_congr (s := s) (s' := s3) (is := rows) fun i hi => hat i (Or.inl hi)
  have ew := exprs_congr (s := s) (s' := s3) (is := wrt) fun i hi => hat i (Or.inr hi)
  obtain ⟨J4, h4, e4, g4, jo4, hK1, hK2⟩ := I3.jacStep rows wrt hv3.1 hv3.2
  have hvars4 : J4.vars = J3.vars := by rw [hK1, er, ev3, hJ1]
  have hwrt4 : J4.wrt = J3.wrt := by rw [hK2, ew, ew3, hJ2]
  -- the state after the second construction
  have I4 : InvV vs3 ((stateAfter (cs ++ .jac rows wrt :: ds)).next (.jac rows wrt))
      { s3 with heap := h4, jacs := s3.jacs ++ [J4] } := by
    have I' := I3.num g4
    exact ⟨I'.wf, I'.clean, I'.vok, I'.env, I'.objs, forall2_append I'.jacs (.cons jo4 .nil), I'.hess⟩
  have hs4 : step (.jac rows wrt) s3 = some (.unit, { s3 with heap := h4, jacs := s3.jacs ++ [J4] }) := by
    simp only [step, e4]
  have hlen3 : s3.jacs.length = (stateAfter (cs ++ .jac rows wrt :: ds)).jacs.length :=
    I3.jacs.length_eq.symm
  obtain ⟨os', hrun'⟩ := run_snoc hrun hs4
  refine ⟨dense (entry s3.heap J3) J3.vars.length J3.wrt.length,
    (hr _).trans ((step_observe (c := .jacValue _) I3 trivial).trans (by
      simp only [observe, hJ3, Option.map_some])), ?_⟩
  rw [result_of_run hrun', step_observe (c := .jacValue _) I4 trivial]
  have hget : (s3.jacs ++ [J4])[(stateAfter (cs ++ .jac rows wrt :: ds)).jacs.length]? = some J4 := by
    simp [← hlen3]
  simp only [observe, hget, Option.map_some, hvars4, hwrt4]
  refine congrArg some (congrArg Obs.mat (dense_congr fun r c _ _ => ?_))
  exact entry_congr I3.wf (g4.mono I3.wf) (fun n hn ho => g4.leaf n (var_leaf I3.wf hn ho)) jo3.ok
    hvars4 hwrt4 r c

/-! ### C07 -/

theorem flatten_get {α : Type} {es : List (List α)} {cols : ℕ} (hl : ∀ row ∈ es, row.length = cols)
    {r c : ℕ} {row : List α} {x : α} (hr : es[r]? = some row) (hc : row[c]? = some x) :
    es.flatten[r * cols + c]? = some x := by
  induction es generalizing r with
  | nil => simp at hr
  | cons a es ih =>
    have ha := hl a (by simp)
    cases r with
    | zero =>
      simp at hr
      subst hr
      simp only [List.flatten_cons, Nat.zero_mul, Nat.zero_add]
      exact getElem?_append_some hc
    | succ r =>
      have := ih (fun row h => hl row (by simp [h])) (r := r) (by simpa using hr)
      rw [List.flatten_cons, List.getElem?_append_right (by rw [ha, Nat.succ_mul]; omega), ha, ← this]
      congr 1
      rw [Nat.succ_mul]; omega

theorem dense_entry {m : ℕ → ℕ → ℝ} {rows cols r c : ℕ} (hr : r < rows) (hc : c < cols) :
    ∃ row, (dense m rows cols)[r]? = some row ∧ row[c]? = some (m r c) :=
  ⟨(List.range cols).map fun j => m r j, by simp [dense, hr], by simp [hc]⟩

/-- The expression that `get()` returned for an entry keeps having the value of the entry. -/
theorem get_entry {vs : ℕ → ℕ} {σ : Spec} {s : Api ℝ} (I : InvV vs σ s) {ts : List Term}
    {ks : List ℕ} {J J3 : JacObj ℝ} (jo : JInv s.heap vs σ.n ts ks J) {es : List (List ℕ)}
    {h' : Heap ℝ} (hg : J.get s.heap = some (es, h')) {r c : ℕ} (hr : r < ts.length)
    (hc : c < ks.length) : ∃ e, es.flatten[r * ks.length + c]? = some e ∧
      ∀ h3 : Heap ℝ, WF h3 → Mono h' h3 → J3.vars = J.vars → J3.wrt = J.wrt →
        ev h3 h3.val e = entry h3 J3 r c := by
  obtain ⟨es', h'', e0, wf', _, ex, f, _⟩ := jo.get I.wf I.clean I.vok
  rw [hg] at e0
  cases e0
  have hwl : J.wrt.length = ks.length := by rw [jo.wrt, List.length_map]
  have hvl : J.vars.length = ts.length := jo.rows.length_eq.symm
  obtain ⟨v, hv⟩ := get_lt (l := J.vars) (i := r) (by omega)
  obtain ⟨w, hw⟩ := get_lt (l := J.wrt) (i := c) (by omega)
  obtain ⟨row, hrow, frow⟩ := forall2_get f r hv
  obtain ⟨e, he, ig⟩ := forall2_get frow c hw
  have hlen : ∀ row ∈ es, row.length = ks.length := by
    intro row hrow
    obtain ⟨i, hi⟩ := List.getElem?_of_mem hrow
    obtain ⟨v', _, fr⟩ := forall2_get_r f i hi
    rw [← fr.length_eq, hwl]
  refine ⟨e, flatten_get hlen hrow he, fun h3 wf3 g e1 e2 => ?_⟩
  have hlt : ∀ q, v = some q → q < s.heap.next := fun q hq => jo.ok.row_lt (by rw [hv, hq])
  rw [g.ev _ ig.lt, ig.sem, entry, e1, e2, getD_get hv, getD_get hw, rowGrad_eq,
    rowGradAt_mono I.wf (ex.mono.trans g) _ _ hlt]

/-- C07: each expression that `Jacobian::get()` returned has, in every later state, exactly the value
of the corresponding entry of `Jacobian::value()`. -/
theorem jacobian_get_eq_value {cs ds : List (Cmd ℝ)} {j r c : ℕ} {ts : List Term} {ks : List ℕ}
    (h : Allowed (cs ++ .jacGet j :: ds)) (hj : (stateAfter cs).jacs[j]? = some (ts, ks))
    (hr : r < ts.length) (hc : c < ks.length)
    (hn : ∀ d ∈ ds, ¬ d.Assigns ((stateAfter cs).terms.length + (r * ks.length + c))) :
    ∃ m row x, result (cs ++ .jacGet j :: ds ++ [.jacValue j]) = some (.mat m) ∧
      m[r]? = some row ∧ row[c]? = some x ∧
      result (cs ++ .jacGet j :: ds ++
        [.value ((stateAfter cs).terms.length + (r * ks.length + c))]) = some (.num x) := by
  obtain ⟨vs, s, o1, s1, vs3, s3, I, e1, I1, I3, l, a, hr3, os3, hrun⟩ := split_run h
  obtain ⟨J, hJ, jo⟩ := forall2_get I.jacs j hj
  obtain ⟨es, h', e, _⟩ := I.getStep jo
  simp only [step, hJ, e] at e1
  cases e1
  obtain ⟨J3, hJ3, ev3, ew3⟩ := l.jacs j J hJ
  obtain ⟨n, hn1, hn2⟩ := get_entry (J3 := J3) I jo e hr hc
  have hlen : s.objs.length = (stateAfter cs).terms.length := I.objs.length_eq.symm
  have az := a ((stateAfter cs).terms.length + (r * ks.length + c)) n hn ⟨freshObj n, by
    rw [← hlen, List.getElem?_append_right (by omega), Nat.add_sub_cancel_left, List.getElem?_map]
    exact congrArg (Option.map freshObj) hn1, rfl⟩
  have hwl : J3.wrt.length = ks.length := by rw [ew3, jo.wrt, List.length_map]
  have hvl : J3.vars.length = ts.length := by rw [ev3]; exact jo.rows.length_eq.symm
  obtain ⟨row, hrow, hx⟩ := dense_entry (m := entry s3.heap J3) (rows := J3.vars.length)
    (cols := J3.wrt.length) (r := r) (c := c) (by omega) (by omega)
  refine ⟨_, row, _, (hr3 _).trans ((step_observe (c := .jacValue j) I3 trivial).trans (by
      simp only [observe, hJ3, Option.map_some])), hrow, hx, ?_⟩
  rw [hr3, value_at I3 az, hn2 s3.heap I3.wf l.mono ev3 ew3]

/-- C07 for Hessians: each expression that `Hessian::get()` returned has, in every later state,
exactly the value of the corresponding entry of `Hessian::value()`, except above the diagonal of the
lower triangular variant. -/
theorem hessian_get_eq_value {cs ds : List (Cmd ℝ)} {j r c : ℕ} {lower : Bool} {t : Term}
    {ks : List ℕ} (h : Allowed (cs ++ .hessGet j :: ds))
    (hj : (stateAfter cs).hess[j]? = some (lower, t, ks)) (hr : r < ks.length) (hc : c < ks.length)
    (hu : ¬ (lower = true ∧ r < c))
    (hn : ∀ d ∈ ds, ¬ d.Assigns ((stateAfter cs).terms.length + (r * ks.length + c))) :
    ∃ m row x, result (cs ++ .hessGet j :: ds ++ [.hessValue j]) = some (.mat m) ∧
      m[r]? = some row ∧ row[c]? = some x ∧
      result (cs ++ .hessGet j :: ds ++
        [.value ((stateAfter cs).terms.length + (r * ks.length + c))]) = some (.num x) := by
  obtain ⟨vs, s, o1, s1, vs3, s3, I, e1, I1, I3, l, a, hr3, os3, hrun⟩ := split_run h
  obtain ⟨⟨lower', J⟩, hJ, hl0, jo⟩ := forall2_get I.hess j hj
  cases hl0
  obtain ⟨es, h', e, _⟩ := I.getStep jo
  simp only [step, hJ, e] at e1
  cases e1
  obtain ⟨J3, hJ3, ev3, ew3⟩ := l.hess j lower J hJ
  obtain ⟨n, hn1, hn2⟩ := get_entry (J3 := J3) I jo e (r := r) (c := c) (by simpa using hr) hc
  have hlen : s.objs.length = (stateAfter cs).terms.length := I.objs.length_eq.symm
  have az := a ((stateAfter cs).terms.length + (r * ks.length + c)) n hn ⟨freshObj n, by
    rw [← hlen, List.getElem?_append_right (by omega), Nat.add_sub_cancel_left, List.getElem?_map]
    exact congrArg (Option.map freshObj) hn1, rfl⟩
  have hwl : J3.wrt.length = ks.length := by rw [ew3, jo.wrt, List.length_map]
  have hvl : J3.vars.length = ks.length := by
    rw [ev3, ← jo.rows.length_eq, List.length_map]
  obtain ⟨row, hrow, hx⟩ := dense_entry
    (m := fun r c => if lower && r < c then 0 else entry s3.heap J3 r c) (rows := J3.vars.length)
    (cols := J3.wrt.length) (r := r) (c := c) (by omega) (by omega)
  refine ⟨_, row, _, (hr3 _).trans ((step_observe (c := .hessValue j) I3 trivial).trans (by
      simp only [observe, hJ3, Option.map_some])), hrow, hx, ?_⟩
  rw [hr3, value_at I3 az, hn2 s3.heap I3.wf l.mono ev3 ew3, if_neg (by simpa using hu)]

/-! ### C09 -/

/-- `s'` has everything that `s` has, and the variables have the same values. -/
structure Agree (s s' : Api ℝ) : Prop where
  later : Later s s'
  objs : ∀ i e, At s i e → At s' i e
  vals : ∀ n, n < s.heap.next → s.heap.op n = .variable → s'.heap.val n = s.heap.val n

theorem Agree.observe {vs : ℕ → ℕ} {σ : Spec} {s s' : Api ℝ} (I : InvV vs σ s) (g : Agree s s')
    {c : Cmd ℝ} (hv : Valid c σ) (hc : c.Observes) : observe s' c = observe s c := by
  cases c <;> simp only [Cmd.Observes] at hc
  case value i =>
    obtain ⟨t, x, ht, hx, hd, o⟩ := I.obj hv
    obtain ⟨y, hy, hye⟩ := g.objs i x.expr ⟨x, hx, rfl⟩
    simp [Slp.observe, hx, hy, hye, evVal_mono I.wf g.later.mono g.vals o.rep.lt]
  case type i =>
    obtain ⟨t, x, ht, hx, hd, o⟩ := I.obj hv
    obtain ⟨y, hy, hye⟩ := g.objs i x.expr ⟨x, hx, rfl⟩
    simp [Slp.observe, hx, hy, hye, g.later.mono.ty _ o.rep.lt]
  case jacValue j =>
    obtain ⟨p, hp⟩ := get_lt hv
    obtain ⟨J, hJ, jo⟩ := forall2_get I.jacs j hp
    obtain ⟨J', hJ', e1, e2⟩ := g.later.jacs j J hJ
    simp only [Slp.observe, hJ, hJ', Option.map_some, e1, e2]
    exact congrArg some (congrArg Obs.mat (dense_congr fun r c _ _ =>
      entry_congr I.wf g.later.mono g.vals jo.ok e1 e2 r c))
  case hessValue j =>
    obtain ⟨p, hp⟩ := get_lt hv
    obtain ⟨⟨lower, J⟩, hJ, _, jo⟩ := forall2_get I.hess j hp
    obtain ⟨J', hJ', e1, e2⟩ := g.later.hess j lower J hJ
    simp only [Slp.observe, hJ, hJ', Option.map_some, e1, e2]
    refine congrArg some (congrArg Obs.mat (dense_congr fun r c _ _ => ?_))
    rw [entry_congr I.wf g.later.mono g.vals jo.ok e1 e2 r c]

/-- `set_value` on both sides. -/
theorem Agree.setValue {vs : ℕ → ℕ} {σ : Spec} {s s' s1 s1' : Api ℝ} (I : InvV vs σ s)
    (g : Agree s s') {i : ℕ} {v : ℝ} {o o' : Obs ℝ} (hv : Valid (.setValue i v) σ)
    (h : step (.setValue i v) s = some (o, s1)) (h' : step (.setValue i v) s' = some (o', s1')) :
    Agree s1 s1' := by
  obtain ⟨k, hk⟩ := hv
  obtain ⟨x, hx, ob⟩ := forall2_get I.objs i hk
  obtain ⟨y, hy, hye⟩ := g.objs i x.expr ⟨x, hx, rfl⟩
  simp only [step, hx] at h
  simp only [step, hy] at h'
  cases h
  cases h'
  have hop : s.heap.op x.expr = .variable := by rw [ob.var k rfl]; exact I.vok.op k ob.vars
  have m := g.later.mono
  refine ⟨⟨⟨m.next, m.op, m.ty, m.args, fun n hn hc => ?_⟩, g.later.jacs, g.later.hess⟩, g.objs,
    fun n hn ho => ?_⟩
  · have hne : n ≠ x.expr := fun e => by
      change s.heap.op n = .constant at hc
      rw [e, hop] at hc; cases hc
    simp only [Slp.setValue, hye, Function.update_of_ne hne]
    exact m.const n hn hc
  · simp only [Slp.setValue, hye]
    by_cases hne : n = x.expr
    · rw [hne, Function.update_self, Function.update_self]
    · rw [Function.update_of_ne hne, Function.update_of_ne hne]
      exact g.vals n hn ho

theorem Agree.run {σ σ' : Spec} {s s' s1 s1' : Api ℝ} (I : Inv σ s) (I' : Inv σ' s')
    (g : Agree s s') {ms : List (Cmd ℝ)} (hms : ∀ c ∈ ms, ∃ i v, c = .setValue i v)
    (hv : ValidAll ms σ) (hv' : ValidAll ms σ') {os os' : List (Obs ℝ)}
    (h : run ms s = some (os, s1)) (h' : run ms s' = some (os', s1')) : Agree s1 s1' := by
  induction ms generalizing σ σ' s s' os os' with
  | nil => cases h; cases h'; exact g
  | cons c ms ih =>
    obtain ⟨i, v, rfl⟩ := hms c (by simp)
    obtain ⟨o2, s2, e2, _, I2⟩ := step_ok I _ hv.1
    obtain ⟨o2', s2', e2', _, I2'⟩ := step_ok I' _ hv'.1
    obtain ⟨os3, s3, e3, _, _⟩ := run_ok I2 ms hv.2
    obtain ⟨os3', s3', e3', _, _⟩ := run_ok I2' ms hv'.2
    simp only [Slp.run, e2, e3] at h
    simp only [Slp.run, e2', e3'] at h'
    cases h
    cases h'
    obtain ⟨vs, I⟩ := I
    exact ih I2 I2' (g.setValue I hv.1 e2 e2') (fun c hc => hms c (by simp [hc])) hv.2 hv'.2 e3 e3'

/-- C09: computing derivatives or values (and constructing any further objects) leaves no trace: if
the calls `ds` contain no assignment and no `set_value`, then every later observation `c`, also after
further updates `ms` of the variables, returns exactly what it would have returned without `ds`. -/
theorem derivatives_leave_no_trace {cs ds ms : List (Cmd ℝ)} {c : Cmd ℝ}
    (hd : ∀ d ∈ ds, ¬ d.Mutates) (hm : ∀ c ∈ ms, ∃ i v, c = .setValue i v) (hc : c.Observes)
    (h : Allowed (cs ++ ms ++ [c])) (h' : Allowed (cs ++ ds ++ ms ++ [c])) :
    result (cs ++ ds ++ ms ++ [c]) = result (cs ++ ms ++ [c]) := by
  obtain ⟨h1, hvc⟩ := allowed_snoc.mp h
  obtain ⟨h1', _⟩ := allowed_snoc.mp h'
  obtain ⟨hcs, hms⟩ := allowed_append.mp h1
  obtain ⟨hcds, hms'⟩ := allowed_append.mp h1'
  obtain ⟨_, hds⟩ := allowed_append.mp hcds
  obtain ⟨os, s, e, _, I⟩ := run_ok inv_empty cs hcs
  obtain ⟨os1, s1, e1, _, I1⟩ := run_ok I ds hds
  have I1' : Inv (stateAfter (cs ++ ds)) s1 := by
    unfold stateAfter; rw [after_append]; exact I1
  obtain ⟨os2, s2, e2, _, I2⟩ := run_ok I ms hms
  obtain ⟨os3, s3, e3, _, I3⟩ := run_ok I1' ms hms'
  obtain ⟨l, a, v⟩ := run_later I hds e1
  have hassign : ∀ i, ∀ d ∈ ds, ¬ d.Assigns i := by
    intro i d hd' ha
    have := hd d hd'
    cases d <;> simp_all [Cmd.Assigns, Cmd.Mutates]
  have g : Agree s s1 := ⟨l, fun i e' => a i e' (hassign i), v hd⟩
  have g2 := g.run I I1' hm hms hms' e2 e3
  have r2 : Slp.run (cs ++ ms) Api.empty = some (os ++ os2, s2) := by
    rw [run_append, e]; simp [e2]
  have r3 : Slp.run (cs ++ ds ++ ms) Api.empty = some (os ++ os1 ++ os3, s3) := by
    rw [run_append, run_append, e]; simp [e1, e3]
  have I2' : Inv (stateAfter (cs ++ ms)) s2 := by
    unfold stateAfter; rw [after_append]; exact I2
  have I3' : Inv (stateAfter (cs ++ ds ++ ms)) s3 := by
    unfold stateAfter; rw [after_append]; exact I3
  obtain ⟨vs2, I2'⟩ := I2'
  obtain ⟨vs3, I3'⟩ := I3'
  rw [result_of_run r2, result_of_run r3, step_observe I2' hc, step_observe I3' hc,
    g2.observe I2' hvc hc]

/-- C09, second part: after any program no expression node is linked to a derivative expression, and
the traversal bookkeeping of every node is in its default state. -/
theorem no_links_retained {cs : List (Cmd ℝ)} (h : Allowed cs) :
    ∃ os s, run cs Api.empty = some (os, s) ∧ ∀ n, s.heap.adjE n = none ∧ s.heap.scratch n = -1 := by
  obtain ⟨os, s, e, _, vs, I⟩ := run_ok inv_empty cs h
  exact ⟨os, s, e, fun n => ⟨I.clean n, I.wf.scratch n⟩⟩

/-! ### The hypotheses are met by concrete programs

`x, y` are variables, `z = sin(x * y)`, `J` is the Jacobian of `z` and `x * y`, `H` a Hessian of `z`. -/

/-- `Variable x, y; x.set_value(3); z = sin(x * y); J(z, x*y; x, y); H(z; x, y)`. -/
def demo : List (Cmd ℝ) :=
  [.decl, .decl, .setValue 0 3, .bin .mul 0 1, .un .sin 2, .jac [3, 2] [0, 1], .hess true 3 [0, 1]]

theorem demo_allowed : Allowed demo := by
  simp [Allowed, demo, ValidAll, Valid, Spec.next, Spec.empty, Spec.WrtOK, Spec.vars, Term.varOf]

theorem demo_state : (stateAfter demo).terms =
    [.var 0, .var 1, .bin .mul (.var 0) (.var 1), .un .sin (.bin .mul (.var 0) (.var 1))] ∧
    (stateAfter demo).jacs =
      [([.un .sin (.bin .mul (.var 0) (.var 1)), .bin .mul (.var 0) (.var 1)], [0, 1])] ∧
    (stateAfter demo).hess = [(true, .un .sin (.bin .mul (.var 0) (.var 1)), [0, 1])] ∧
    (stateAfter demo).env 0 = 3 := by
  simp [stateAfter, demo, Spec.after, Spec.next, Spec.empty, Spec.vars, Spec.exprs, Term.varOf]

example : ∃ os s, run demo Api.empty = some (os, s) ∧ ReturnsAll demo Spec.empty os :=
  program_correct demo demo_allowed

example : ∃ x, result (demo ++ [.value 3]) = some (.num x) :=
  ⟨_, value_correct demo_allowed (by rw [demo_state.1]; rfl) (by simp [Term.Dom, UnOp.Dom, BinOp.Dom])⟩

example : result (demo ++ [.value 0]) = some (.num 3) := by
  rw [value_correct demo_allowed (t := .var 0) (by rw [demo_state.1]; rfl) trivial]
  simp [Term.eval, demo_state.2.2.2]

example : ∃ ty, result (demo ++ [.type 2]) = some (.ty ty) ∧
    TypeMeans (stateAfter demo).n (.bin .mul (.var 0) (.var 1)) ty :=
  type_sound demo_allowed (by rw [demo_state.1]; rfl)

example : ∃ m, result (demo ++ [.jacValue 0]) = some (.mat m) := by
  obtain ⟨m, e, _⟩ := jacobian_correct (j := 0) demo_allowed (by rw [demo_state.2.1]; rfl)
  exact ⟨m, e⟩

example : ∃ m, result (demo ++ [.hessValue 0]) = some (.mat m) := by
  obtain ⟨m, e, _⟩ := hessian_correct (j := 0) demo_allowed (by rw [demo_state.2.2.1]; rfl)
    (by simp [Term.Smooth, UnOp.Smooth, BinOp.Smooth])
  exact ⟨m, e⟩

/-- The hypotheses of C06, with an update of `x` after the construction. -/
example : ∃ m : List (List ℝ), result ([.decl, .bin .mul 0 0] ++ .jac [1] [0] :: [.setValue 0 5] ++
    [.jacValue (stateAfter [.decl, .bin .mul 0 0]).jacs.length]) = some (.mat m) := by
  obtain ⟨m, e, _⟩ := jacobian_never_stale (cs := [.decl, .bin .mul 0 0]) (ds := [.setValue 0 5])
    (rows := [1]) (wrt := [0])
    (by simp [Allowed, ValidAll, Valid, Spec.next, Spec.empty, Spec.WrtOK, Spec.vars, Term.varOf])
    (by simp [Cmd.Assigns])
  exact ⟨m, e⟩

/-- The hypotheses of C07. -/
example : ∃ m row x, result (demo ++ .jacGet 0 :: [.setValue 1 2] ++ [.jacValue 0]) = some (.mat m) ∧
    m[0]? = some row ∧ row[1]? = some x ∧
      result (demo ++ .jacGet 0 :: [.setValue 1 2] ++ [.value 5]) = some (.num x) := by
  have h : Allowed (demo ++ .jacGet 0 :: [.setValue 1 2]) := by
    simp [Allowed, demo, ValidAll, Valid, Spec.next, Spec.empty, Spec.WrtOK, Spec.vars, Term.varOf]
  have := jacobian_get_eq_value (r := 0) (c := 1) h (by rw [demo_state.2.1]; rfl) (by simp) (by simp)
    (by simp [Cmd.Assigns])
  simpa [demo_state.1] using this

example : result (demo ++ [.jacGet 0, .hessValue 0, .jacValue 0] ++ [.setValue 0 7] ++ [.value 3]) =
    result (demo ++ [.setValue 0 7] ++ [.value 3]) :=
  derivatives_leave_no_trace (by simp [Cmd.Mutates]) (by simp) trivial
    (by simp [Allowed, demo, ValidAll, Valid, Spec.next, Spec.empty, Spec.WrtOK, Spec.vars, Term.varOf])
    (by simp [Allowed, demo, ValidAll, Valid, Spec.next, Spec.empty, Spec.WrtOK, Spec.vars, Term.varOf])

example : ∃ x y z, result ([.decl, .lit 0] ++ .bin .mul 0 1 :: [.setValue 0 4] ++ [.value 0]) =
      some (.num x) ∧
    result ([.decl, .lit 0] ++ .bin .mul 0 1 :: [.setValue 0 4] ++ [.value 1]) = some (.num y) ∧
    result ([.decl, .lit 0] ++ .bin .mul 0 1 :: [.setValue 0 4] ++
      [.value (stateAfter [.decl, .lit 0]).terms.length]) = some (.num z) ∧
    (BinOp.mul.Dom x y → z = BinOp.mul.eval x y) :=
  construction_meaning_bin (by simp [Allowed, ValidAll, Valid, Spec.next, Spec.empty])
    (by simp [Cmd.Assigns]) (by simp [Cmd.Assigns])

end Slp
