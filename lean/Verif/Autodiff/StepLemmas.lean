import Verif.Autodiff.ApiLemmas

/-! Each API call preserves the invariant and returns what the specification says. -/

set_option linter.unusedSimpArgs false

namespace Slp

theorem InvV.obj {vs : ℕ → ℕ} {σ : Spec} {s : Api ℝ} (I : InvV vs σ s) {i : ℕ}
    (hi : i < σ.terms.length) : ∃ t o, σ.terms[i]? = some t ∧ s.objs[i]? = some o ∧
      σ.terms.getD i (.lit 0) = t ∧ ObjOK s.heap vs σ.n t o := by
  obtain ⟨t, ht⟩ := get_lt hi
  obtain ⟨o, ho, r⟩ := forall2_get I.objs i ht
  exact ⟨t, o, ht, ho, getD_get ht, r⟩

theorem InvV.jacStep {vs : ℕ → ℕ} {σ : Spec} {s : Api ℝ} (I : InvV vs σ s) (rows wrt : List ℕ)
    (hr : ∀ i ∈ rows, i < σ.terms.length) (hw : σ.WrtOK wrt) :
    ∃ J h', jacobian ((exprs s.objs rows).map some) (exprs s.objs wrt) s.heap = some (J, h') ∧
      Num s.heap h' ∧ JInv h' vs σ.n (σ.exprs rows) (σ.vars wrt) J ∧
      J.vars = (exprs s.objs rows).map some ∧ J.wrt = exprs s.objs wrt := by
  have he := exprs_eq I rows hr
  obtain ⟨e1, hk⟩ := wrt_eq I wrt hw.1
  rw [e1]
  obtain ⟨J, h', e, g, jo, hJ1, hJ2⟩ := jacobian_spec I.wf ((exprs s.objs rows).map some)
    ((σ.vars wrt).map vs)
    (by
      intro r hr
      simp only [List.mem_map, Option.some.injEq, exists_eq_right] at hr
      obtain ⟨i, hi⟩ := List.getElem?_of_mem hr
      obtain ⟨t, _, ht⟩ := forall2_get_r he i hi
      exact ht.1.lt)
    (nodup_map_vs I.vok hk hw.2)
    (by
      intro w hw'
      obtain ⟨k, hk', rfl⟩ := List.mem_map.mp hw'
      exact ⟨I.vok.lt k (hk k hk'), I.vok.op k (hk k hk')⟩)
  refine ⟨J, h', e, g, ⟨jo, hJ2, ?_, ?_, hk⟩, hJ1, hJ2⟩
  · rw [hJ1, List.forall₂_map_right_iff]
    exact he.imp fun t e r => r.1.mono (g.mono I.wf)
  · intro t ht
    obtain ⟨i, hi⟩ := List.getElem?_of_mem ht
    obtain ⟨e, _, r⟩ := forall2_get he i hi
    exact r.2

theorem InvV.hessStep {vs : ℕ → ℕ} {σ : Spec} {s : Api ℝ} (I : InvV vs σ s) {t : Term} {o : VarObj}
    (ho : ObjOK s.heap vs σ.n t o) (wrt : List ℕ) (hw : σ.WrtOK wrt) :
    ∃ H h', hessian o.expr (exprs s.objs wrt) s.heap = some (H, h') ∧
      InvV vs σ { s with heap := h' } ∧
      JInv h' vs σ.n ((σ.vars wrt).map fun k => Term.pd k t) (σ.vars wrt) H := by
  obtain ⟨e1, hk⟩ := wrt_eq I wrt hw.1
  rw [e1]
  obtain ⟨H, h', h1, e, wf', cl', jo, hH, ex, wf1, nu, f⟩ := hessian_spec I.wf I.clean ho.rep.lt
    ((σ.vars wrt).map vs) (nodup_map_vs I.vok hk hw.2)
    (by
      intro w hw'
      obtain ⟨k, hk', rfl⟩ := List.mem_map.mp hw'
      exact ⟨I.vok.lt k (hk k hk'), I.vok.op k (hk k hk')⟩)
  have g : Mono s.heap h' := ex.mono.trans (nu.mono wf1)
  refine ⟨H, h', e, I.heap wf' cl' g fun k hk' => ?_, jo, hH, ?_, ?_, hk⟩
  · have hl := I.vok.lt k hk'
    rw [nu.leaf _ (by rw [ex.args _ hl, I.vok.args I.wf hk']), ex.val _ hl]
  · rw [List.forall₂_map_left_iff] at f ⊢
    refine forall2_imp_mem f fun k o' hk' ig => ?_
    have hkn := hk k hk'
    cases o' with
    | some e' =>
      exact (Rep.pd I.wf I.vok ho.rep ho.vars t.openSm hkn ⟨ig.lt e' rfl, ig.sem, fun η hs =>
        ig.sm η hs e' rfl⟩).mono (nu.mono wf1)
    | none =>
      intro env hd
      have hc : ∀ j, j < σ.n → env j = etaOf vs σ.n env (vs j) := fun j hj =>
        (etaOf_vs I.vok env hj).symm
      have hs := (Term.smooth_congr t ho.vars hc).mp hd
      rw [Term.eval_congr (.pd k t) ⟨hkn, ho.vars⟩ hc]
      have h1 := (Rep.hasDerivAt I.wf I.vok ho.rep ho.vars t.openSm hkn (etaOf vs σ.n env) hs).deriv
      have h2 := ig.sem (etaOf vs σ.n env)
      simp only [gval] at h2
      rw [← h2] at h1
      exact h1
  · intro t' ht'
    obtain ⟨k, hk', rfl⟩ := List.mem_map.mp ht'
    exact ⟨hk k hk', ho.vars⟩

theorem InvV.getStep {vs : ℕ → ℕ} {σ : Spec} {s : Api ℝ} (I : InvV vs σ s) {ts : List Term}
    {ks : List ℕ} {J : JacObj ℝ} (j : JInv s.heap vs σ.n ts ks J) :
    ∃ es h', J.get s.heap = some (es, h') ∧
      InvV vs { σ with terms := σ.terms ++ (ts.map fun t => ks.map fun k => Term.pd k t).flatten }
        { s with heap := h', objs := s.objs ++ es.flatten.map freshObj } := by
  obtain ⟨es, h', e, wf', cl', ex, _, f⟩ := j.get I.wf I.clean I.vok
  have I' := I.ext wf' cl' ex
  refine ⟨es, h', e, I'.wf, I'.clean, I'.vok, I'.env, forall2_append I'.objs ?_, I'.jacs, I'.hess⟩
  rw [List.forall₂_map_right_iff]
  exact forall2_flatten f

theorem jac_entry {vs : ℕ → ℕ} {σ : Spec} {s : Api ℝ} (I : InvV vs σ s) {ts : List Term}
    {ks : List ℕ} {J : JacObj ℝ} (j : JInv s.heap vs σ.n ts ks J) {r c k : ℕ} {t : Term}
    (ht : ts[r]? = some t) (hk : ks[c]? = some k) (hs : t.Smooth σ.env) :
    (J.value s.heap).1 r c = (Term.pd k t).eval σ.env := by
  obtain ⟨_, _, hv⟩ := j.value I.wf
  obtain ⟨o, ho, hr⟩ := forall2_get j.rows r ht
  rw [hv r c o k ho hk]
  exact RepO.rowGrad I hr (j.tv t (List.mem_of_getElem? ht)) (j.kv k (List.mem_of_getElem? hk)) hs

theorem step_ok {σ : Spec} {s : Api ℝ} (I : Inv σ s) (c : Cmd ℝ) (hv : Valid c σ) :
    ∃ o s', step c s = some (o, s') ∧ Returns c σ o ∧ Inv (σ.next c) s' := by
  obtain ⟨vs, I⟩ := I
  cases c with
  | decl =>
    obtain ⟨vs', J⟩ := I.decl
    exact ⟨_, _, rfl, rfl, vs', J⟩
  | lit c =>
    have b := mkConst_builds I.wf c
    exact ⟨_, _, rfl, rfl, vs, I.push b.wf b.grow (mkConst_rep I.wf vs c) trivial (by simp)⟩
  | un f i =>
    obtain ⟨t, x, ht, hx, hd, o⟩ := I.obj hv
    obtain ⟨w, g, r⟩ := o.rep.un I.wf f
    refine ⟨.unit, s.push (f.build x.expr), by simp only [step, hx], rfl, vs, ?_⟩
    simp only [Spec.next, hd]
    exact I.push w g r o.vars (by simp)
  | bin f i j =>
    obtain ⟨t, x, ht, hx, hd, o⟩ := I.obj hv.1
    obtain ⟨t', x', ht', hx', hd', o'⟩ := I.obj hv.2
    obtain ⟨w, g, r⟩ := o.rep.bin I.wf o'.rep f
    refine ⟨.unit, s.push (f.build x.expr x'.expr), by simp only [step, hx, hx'], rfl, vs, ?_⟩
    simp only [Spec.next, hd, hd']
    exact I.push w g r ⟨o.vars, o'.vars⟩ (by simp)
  | hypot3 i j k =>
    obtain ⟨t, x, ht, hx, hd, o⟩ := I.obj hv.1
    obtain ⟨t', x', ht', hx', hd', o'⟩ := I.obj hv.2.1
    obtain ⟨t2, x2, ht2, hx2, hd2, o2⟩ := I.obj hv.2.2
    obtain ⟨w, g, r⟩ := hypot3_rep I.wf o.rep o'.rep o2.rep
    refine ⟨.unit, s.push (hypot3 x.expr x'.expr x2.expr), by simp only [step, hx, hx', hx2], rfl, vs, ?_⟩
    simp only [Spec.next, hd, hd', hd2]
    refine I.push w g r ?_ (by simp [Term.hypot3])
    simp [Term.hypot3, Term.Vars, o.vars, o'.vars, o2.vars]
  | copy i =>
    obtain ⟨t, x, ht, hx, hd, o⟩ := I.obj hv
    refine ⟨.unit, { s with objs := s.objs ++ [x] }, by simp only [step, hx], rfl, vs, ?_⟩
    simp only [Spec.next, hd]
    exact ⟨I.wf, I.clean, I.vok, I.env, forall2_append I.objs (.cons o .nil), I.jacs, I.hess⟩
  | assign i j =>
    obtain ⟨t, x, ht, hx, hd, o⟩ := I.obj hv.1
    obtain ⟨t', x', ht', hx', hd', o'⟩ := I.obj hv.2
    refine ⟨.unit, { s with objs := s.objs.set i x' }, by simp only [step, hx, hx'], rfl, vs, ?_⟩
    simp only [Spec.next, hd']
    exact ⟨I.wf, I.clean, I.vok, I.env, forall2_set I.objs i o', I.jacs, I.hess⟩
  | assignLit i c =>
    obtain ⟨t, x, ht, hx, hd, o⟩ := I.obj hv
    have b := mkConst_builds I.wf c
    have J := I.ext b.wf (clean_grow I.wf b.wf b.grow I.clean) b.grow.ext
    refine ⟨.unit, { s with heap := (mkConst c s.heap).2,
                            objs := s.objs.set i (freshObj (mkConst c s.heap).1) },
      by simp only [step, hx], rfl, vs, ?_⟩
    exact ⟨J.wf, J.clean, J.vok, J.env, forall2_set J.objs i ⟨mkConst_rep I.wf vs c, trivial, by simp,
      by simp [freshObj]⟩, J.jacs, J.hess⟩
  | setValue i v =>
    obtain ⟨k, hk⟩ := hv
    obtain ⟨x, hx, o⟩ := forall2_get I.objs i hk
    refine ⟨.unit, { s with heap := setValue x v s.heap }, by simp only [step, hx], rfl, vs, ?_⟩
    simp only [Spec.next, hk, Option.bind_some, Term.varOf, setValue, o.var k rfl]
    exact I.setVal o.vars v
  | value i =>
    obtain ⟨t, x, ht, hx, hd, o⟩ := I.obj hv
    obtain ⟨s', e, I'⟩ := I.value hx
    refine ⟨_, s', e, ⟨_, rfl, fun t' ht' hdom => ?_⟩, vs, I'⟩
    rw [ht] at ht'
    cases ht'
    have hc : ∀ k, k < σ.n → (fun k => s.heap.val (vs k)) k = σ.env k := I.env
    rw [← Term.eval_congr t o.vars hc]
    exact o.rep.sem _ ((Term.dom_congr t o.vars hc).mpr hdom)
  | type i =>
    obtain ⟨t, x, ht, hx, hd, o⟩ := I.obj hv
    refine ⟨.ty (s.heap.ty x.expr), s, by simp only [step, hx], ⟨_, rfl, fun t' ht' => ?_⟩, vs, I⟩
    rw [ht] at ht'
    cases ht'
    exact typeMeans I.wf I.vok o.rep o.vars
  | jac rows wrt =>
    obtain ⟨J, h', e, g, jo, _⟩ := I.jacStep rows wrt hv.1 hv.2
    have I' := I.num g
    exact ⟨.unit, { s with heap := h', jacs := s.jacs ++ [J] }, by simp only [step, e], rfl, vs,
      I'.wf, I'.clean, I'.vok, I'.env, I'.objs, forall2_append I'.jacs (.cons jo .nil), I'.hess⟩
  | jacValue j =>
    obtain ⟨⟨ts, ks⟩, hp⟩ := get_lt hv
    obtain ⟨J, hJ, jo⟩ := forall2_get I.jacs j hp
    obtain ⟨g, jo', _⟩ := jo.value I.wf
    have I' := I.num g
    refine ⟨.mat (dense (J.value s.heap).1 J.vars.length J.wrt.length),
      { s with heap := (J.value s.heap).2.2, jacs := s.jacs.set j (J.value s.heap).2.1 },
      by simp only [step, hJ], ⟨_, rfl, ?_⟩, vs, I'.wf, I'.clean, I'.vok, I'.env,
      I'.objs, forall2_setr I'.jacs j ?_, I'.hess⟩
    · intro ts' ks' he
      rw [hp] at he
      cases he
      have hl : J.vars.length = ts.length := jo.rows.length_eq.symm
      have hl' : J.wrt.length = ks.length := by rw [jo.wrt, List.length_map]
      rw [hl, hl']
      exact dense_is fun r c hr hc t k ht hk hs => jac_entry I jo ht hk hs
    · intro p hp'
      rw [hp] at hp'
      cases hp'
      exact jo'
  | jacGet j =>
    obtain ⟨⟨ts, ks⟩, hp⟩ := get_lt hv
    obtain ⟨J, hJ, jo⟩ := forall2_get I.jacs j hp
    obtain ⟨es, h', e, I'⟩ := I.getStep jo
    refine ⟨.unit, _, by simp only [step, hJ, e]; rfl, rfl, vs, ?_⟩
    simp only [Spec.next, getD_get hp]
    exact I'
  | hess lower i wrt =>
    obtain ⟨t, x, ht, hx, hd, o⟩ := I.obj hv.1
    obtain ⟨H, h', e, I', jo⟩ := I.hessStep o wrt hv.2
    refine ⟨.unit, { s with heap := h', hess := s.hess ++ [(lower, H)] }, by simp only [step, hx, e],
      rfl, vs, ?_⟩
    simp only [Spec.next, hd]
    exact ⟨I'.wf, I'.clean, I'.vok, I'.env, I'.objs, I'.jacs,
      forall2_append I'.hess (.cons ⟨rfl, jo⟩ .nil)⟩
  | hessValue j =>
    obtain ⟨⟨lower, t, ks⟩, hp⟩ := get_lt hv
    obtain ⟨⟨lower', H⟩, hJ, hl0, jo⟩ := forall2_get I.hess j hp
    cases hl0
    obtain ⟨g, jo', _⟩ := jo.value I.wf
    have I' := I.num g
    refine ⟨.mat (dense (hessianValue lower H s.heap).1 H.vars.length H.wrt.length),
      { s with heap := (H.value s.heap).2.2, hess := s.hess.set j (lower, (H.value s.heap).2.1) },
      by simp only [step, hJ, hessianValue], ⟨_, rfl, ?_⟩, vs, I'.wf, I'.clean, I'.vok, I'.env,
      I'.objs, I'.jacs, forall2_setr I'.hess j ?_⟩
    · intro lower' t' ks' he
      rw [hp] at he
      cases he
      have hl : H.vars.length = ks.length := by rw [← jo.rows.length_eq, List.length_map]
      have hl' : H.wrt.length = ks.length := by rw [jo.wrt, List.length_map]
      rw [hl, hl']
      refine dense_is fun r c hr hc k l hk hl hs => ?_
      have := jac_entry I jo (r := r) (c := c) (k := l) (t := Term.pd k t) (by simp [hk]) hl hs
      simp only [hessianValue]
      by_cases hcond : lower = true ∧ r < c
      · rw [if_pos (by simpa using hcond), if_pos hcond]; rfl
      · rw [if_neg (by simpa using hcond), if_neg hcond]; exact this
    · intro p hp'
      rw [hp] at hp'
      cases hp'
      exact ⟨rfl, jo'⟩
  | hessGet j =>
    obtain ⟨⟨lower, t, ks⟩, hp⟩ := get_lt hv
    obtain ⟨⟨lower', H⟩, hJ, hl0, jo⟩ := forall2_get I.hess j hp
    obtain ⟨es, h', e, I'⟩ := I.getStep jo
    refine ⟨.unit, _, by simp only [step, hJ, e]; rfl, rfl, vs, ?_⟩
    simp only [Spec.next, getD_get hp]
    simpa only [List.map_map, Function.comp_def] using I'

theorem run_ok {σ : Spec} {s : Api ℝ} (I : Inv σ s) (cs : List (Cmd ℝ)) (hv : ValidAll cs σ) :
    ∃ os s', run cs s = some (os, s') ∧ ReturnsAll cs σ os ∧ Inv (σ.after cs) s' := by
  induction cs generalizing σ s with
  | nil => exact ⟨[], s, rfl, rfl, I⟩
  | cons c cs ih =>
    obtain ⟨o, s1, e, r, I1⟩ := step_ok I c hv.1
    obtain ⟨os, s2, e2, r2, I2⟩ := ih I1 hv.2
    exact ⟨o :: os, s2, by simp [run, e, e2], ⟨r, r2⟩, I2⟩

end Slp
