import Verif.Problem.SetupModel
import Verif.Problem.CallbackProps
import Verif.Autodiff.ApiProps
import Mathlib.Data.List.Forall2

/-! Lemmas for C47: the state of the API after the setup in `solve()`. -/

namespace Slp

/-- The objects `is` stand for the expressions `ts`. -/
def Spec.Names (σ : Spec) (is : List ℕ) (ts : List Term) : Prop := List.Forall₂ (fun i t => σ.terms[i]? = some t) is ts

/-- The sizes of the tables. -/
def Spec.sizes (σ : Spec) : TableSizes := ⟨σ.terms.length, σ.jacs.length, σ.hess.length⟩

theorem Spec.Names.mono {σ τ : Spec} {is : List ℕ} {ts : List Term} (h : σ.Names is ts)
    (hτ : ∀ i ∈ is, ∀ t, σ.terms[i]? = some t → τ.terms[i]? = some t) : τ.Names is ts := by
  induction h with
  | nil => exact .nil
  | @cons i t is ts h _ ih =>
    exact .cons (hτ i (by simp) t h) (ih fun j hj u hu => hτ j (by simp [hj]) u hu)

theorem get_lt_of {α : Type} {l : List α} {i : ℕ} {t : α} (h : l[i]? = some t) : i < l.length :=
  (List.getElem?_eq_some_iff.mp h).1

theorem Spec.Names.lt {σ : Spec} {is : List ℕ} {ts : List Term} (h : σ.Names is ts) : ∀ i ∈ is, i < σ.terms.length := by
  induction h with
  | nil => simp
  | @cons i t is ts h _ ih =>
    intro j hj
    rcases List.mem_cons.1 hj with rfl | hj
    · exact get_lt_of h
    · exact ih j hj

theorem Spec.Names.exprs {σ : Spec} {is : List ℕ} {ts : List Term} (h : σ.Names is ts) : σ.exprs is = ts := by
  induction h with
  | nil => rfl
  | @cons i t is ts h _ ih =>
    unfold Spec.exprs at ih ⊢
    rw [List.filterMap_cons, h]
    simp only
    rw [ih]

theorem Spec.Names.vars {σ : Spec} {is ks : List ℕ} (h : σ.Names is (ks.map .var)) : σ.vars is = ks := by
  induction ks generalizing is with
  | nil => cases h; rfl
  | cons k ks ih =>
    cases h with
    | @cons i _ is _ h h' =>
      have := ih h'
      unfold Spec.vars at this ⊢
      rw [List.filterMap_cons, h]
      simp only [Option.bind_some, Term.varOf]
      rw [this]

theorem Spec.Names.isVar {σ : Spec} {is ks : List ℕ} (h : σ.Names is (ks.map .var)) :
    ∀ i ∈ is, ∃ k, σ.terms[i]? = some (.var k) := by
  induction ks generalizing is with
  | nil => cases h; simp
  | cons k ks ih =>
    cases h with
    | @cons i _ is _ h h' =>
      intro j hj
      rcases List.mem_cons.1 hj with rfl | hj
      · exact ⟨k, h⟩
      · exact ih h' j hj

theorem Spec.Names.wrtOK {σ : Spec} {is ks : List ℕ} (h : σ.Names is (ks.map .var)) (hn : ks.Nodup) : σ.WrtOK is :=
  ⟨h.isVar, by rw [h.vars]; exact hn⟩

/-- A block of the table. -/
theorem Spec.names_block {σ : Spec} {pre ts post : List Term} (h : σ.terms = pre ++ (ts ++ post)) :
    σ.Names (List.range' pre.length ts.length) ts := by
  induction ts generalizing pre with
  | nil => exact .nil
  | cons t ts ih =>
    rw [List.length_cons, List.range'_succ]
    refine .cons (by rw [h]; simp) ?_
    have := ih (pre := pre ++ [t]) (by rw [h]; simp)
    simp only [List.length_append, List.length_singleton] at this
    exact this

/-- The same state with more objects. -/
def Spec.more (σ : Spec) (ts : List Term) : Spec := { σ with terms := σ.terms ++ ts }

theorem Spec.more_more (σ : Spec) (ts us : List Term) : (σ.more ts).more us = σ.more (ts ++ us) := by
  simp [Spec.more]

theorem Spec.more_nil (σ : Spec) : σ.more [] = σ := by simp [Spec.more]

theorem Spec.Names.more {σ : Spec} {is : List ℕ} {ts : List Term} (h : σ.Names is ts) (us : List Term) :
    (σ.more us).Names is ts := h.mono fun _ _ _ ht => getElem?_append_some ht

/-- Commands that each push an expression made of that of one object. -/
theorem pushes {c : ℕ → Cmd ℝ} {F : Term → Term} (hc : ∀ (σ : Spec) i t, σ.terms[i]? = some t →
    Valid (c i) σ ∧ σ.next (c i) = σ.more [F t]) {σ : Spec} {is : List ℕ} {ts : List Term} (h : σ.Names is ts) :
    ValidAll (is.map c) σ ∧ σ.after (is.map c) = σ.more (ts.map F) := by
  induction is generalizing σ ts with
  | nil => cases h; exact ⟨trivial, (σ.more_nil).symm⟩
  | cons i is ih =>
    cases h with
    | @cons _ t _ ts h h' =>
      obtain ⟨h1, h2⟩ := hc σ i t h
      obtain ⟨h3, h4⟩ := ih (σ := σ.next (c i)) (ts := ts) (by rw [h2]; exact Spec.Names.more h' _)
      refine ⟨⟨h1, h3⟩, ?_⟩
      show (σ.next (c i)).after (is.map c) = _
      rw [h4, h2, Spec.more_more]
      rfl

theorem copy_push (σ : Spec) (i : ℕ) (t : Term) (h : σ.terms[i]? = some t) :
    Valid (.copy i) σ ∧ σ.next (.copy i) = σ.more [t] :=
  ⟨get_lt_of h, by simp only [Spec.next, getD_get h]; rfl⟩

theorem neg_push (σ : Spec) (i : ℕ) (t : Term) (h : σ.terms[i]? = some t) :
    Valid (.un .neg i) σ ∧ σ.next (.un .neg i) = σ.more [.un .neg t] :=
  ⟨get_lt_of h, by simp only [Spec.next, getD_get h]; rfl⟩

theorem bin_push (σ : Spec) (f : BinOp) (i j : ℕ) (t u : Term) (h : σ.terms[i]? = some t) (h' : σ.terms[j]? = some u) :
    Valid (.bin f i j) σ ∧ σ.next (.bin f i j) = σ.more [.bin f t u] :=
  ⟨⟨get_lt_of h, get_lt_of h'⟩, by simp only [Spec.next, getD_get h, getD_get h']; rfl⟩

/-- The state with more declared variables. -/
def Spec.declared (σ : Spec) (m : ℕ) (env : ℕ → ℝ) : Spec :=
  { σ.more ((List.range' σ.n m).map .var) with n := σ.n + m, env := env }

theorem decls (m : ℕ) (σ : Spec) : ValidAll (List.replicate m .decl) σ ∧
    ∃ env, (∀ k, k < σ.n → env k = σ.env k) ∧ σ.after (List.replicate m .decl) = σ.declared m env := by
  induction m generalizing σ with
  | zero => exact ⟨trivial, σ.env, fun _ _ => rfl, by simp [Spec.declared, Spec.more, Spec.after]⟩
  | succ m ih =>
    obtain ⟨h1, env, h2, h3⟩ := ih (σ.next .decl)
    refine ⟨⟨trivial, h1⟩, env, fun k hk => ?_, ?_⟩
    · rw [h2 k (by simp [Spec.next]; omega)]
      simp only [Spec.next]
      rw [Function.update_of_ne (by omega)]
    · rw [List.replicate_succ]
      show (σ.next .decl).after _ = _
      rw [h3]
      simp [Spec.declared, Spec.more, Spec.next, List.range'_succ, Nat.add_comm, Nat.add_left_comm]

/-- The expression that the product of a row and a column builds. -/
def dotTerm : Term → List (Term × Term) → Term
  | t, [] => t
  | t, (u, v) :: ps => dotTerm (.bin .add t (.bin .mul u v)) ps

theorem dotLoop_ok (σ : Spec) {is js : List ℕ} {us vs : List Term} (hu : σ.Names is us) (hv : σ.Names js vs)
    (hl : is.length = js.length) (len : ℕ) (hlen : σ.terms.length = len + 1) (t : Term) (ht : σ.terms[len]? = some t) :
    ValidAll (dotLoop len (len + 1) (is.zip js)) σ ∧ ∃ ws, ws.length = 2 * is.length ∧
      σ.after (dotLoop len (len + 1) (is.zip js)) = σ.more ws ∧
      (σ.more ws).terms[len + 2 * is.length]? = some (dotTerm t (us.zip vs)) := by
  induction is generalizing σ js us vs len t with
  | nil =>
    cases hu
    exact ⟨trivial, [], rfl, σ.more_nil.symm, by rw [Spec.more_nil]; exact ht⟩
  | cons i is ih =>
    cases js with
    | nil => simp at hl
    | cons j js =>
      cases hu with
      | @cons _ u _ us hi hu =>
      cases hv with
      | @cons _ v _ vs hj hv =>
      obtain ⟨a1, a2⟩ := bin_push σ .mul i j u v hi hj
      have hm : (σ.more [.bin .mul u v]).terms[len + 1]? = some (.bin .mul u v) := by
        simp [Spec.more, ← hlen]
      obtain ⟨b1, b2⟩ := bin_push (σ.more [.bin .mul u v]) .add len (len + 1) t (.bin .mul u v)
        (getElem?_append_some ht) hm
      rw [Spec.more_more] at b2
      obtain ⟨c1, ws, c2, c3, c4⟩ := ih (σ.more ([.bin .mul u v] ++ [.bin .add t (.bin .mul u v)]))
        (Spec.Names.more hu _) (Spec.Names.more hv _) (by simpa using hl) (len + 2) (by simp [Spec.more, hlen])
        (.bin .add t (.bin .mul u v))
        (by simp only [Spec.more]
            rw [List.getElem?_append_right (by omega), hlen, show len + 2 - (len + 1) = 1 by omega]; rfl)
      rw [Spec.more_more] at c3 c4
      refine ⟨⟨a1, ?_, ?_⟩, [.bin .mul u v] ++ [.bin .add t (.bin .mul u v)] ++ ws, by simp [c2]; omega, ?_, ?_⟩
      · rw [a2]; exact b1
      · rw [a2, b2]; exact c1
      · show ((σ.next (.bin .mul i j)).next (.bin .add len (len + 1))).after _ = _
        rw [a2, b2]
        exact c3
      · rw [show len + 2 * (i :: is).length = len + 2 + 2 * is.length by simp; omega]
        exact c4

theorem dotCmds_ok (σ : Spec) {is js : List ℕ} {us vs : List Term} (hu : σ.Names is us) (hv : σ.Names js vs)
    (hl : is.length = js.length) (len : ℕ) (hlen : σ.terms.length = len) :
    ValidAll (dotCmds len (is.zip js)) σ ∧ ∃ ws, ws.length = 1 + 2 * is.length ∧
      σ.after (dotCmds len (is.zip js)) = σ.more ws ∧
      (σ.more ws).terms[len + 2 * is.length]? = some (dotTerm (.lit 0) (us.zip vs)) := by
  obtain ⟨c1, ws, c2, c3, c4⟩ := dotLoop_ok (σ.more [.lit 0]) (Spec.Names.more hu _) (Spec.Names.more hv _) hl len
    (by simp [Spec.more, hlen]) (.lit 0) (by simp [Spec.more, ← hlen])
  rw [Spec.more_more] at c3 c4
  exact ⟨⟨trivial, c1⟩, [Term.lit 0] ++ ws, by simp [c2]; omega, c3, c4⟩

/-- The expression whose Hessian is `H_c`; the multipliers are the variables from number `n` on. -/
def multiplierTerm (n : ℕ) (eqs ineqs : List Term) : Term :=
  let e := dotTerm (.lit 0) (((List.range' n eqs.length).map fun k => Term.un .neg (.var k)).zip eqs)
  if ineqs = [] then e
  else .bin .sub e (dotTerm (.lit 0) (((List.range' (n + eqs.length) ineqs.length).map Term.var).zip ineqs))

/-- What the problem's objects stand for: the decision variables, the cost and the constraints. -/
structure SolveArgs.Describes (a : SolveArgs) (σ : Spec) (vars : List ℕ) (f : Term) (eqs ineqs : List Term) : Prop where
  x : σ.Names a.x (vars.map .var)
  nodup : vars.Nodup
  f : match a.f with | some i => σ.terms[i]? = some f | none => f = .lit 0
  eqs : σ.Names a.eqs eqs
  ineqs : σ.Names a.ineqs ineqs

/-- The `Variable` objects that `solve()` works with, `n` variables having been declared before. -/
structure SolveArgs.Objs (a : SolveArgs) (N : TableSizes) (n : ℕ) (vars : List ℕ) (f : Term) (eqs ineqs : List Term)
    (σ : Spec) : Prop where
  x : σ.Names (a.xAd N) (vars.map .var)
  cost : σ.terms[a.fAd N]? = some f
  ce : σ.Names (a.ceAd N) eqs
  ci : σ.Names (a.ciAd N) ineqs
  y : σ.Names (a.yAd N) ((List.range' n eqs.length).map .var)
  z : σ.Names (a.zAd N) ((List.range' (n + eqs.length) ineqs.length).map .var)

/-- All objects that `solve()` works with. -/
structure SolveArgs.Ready (a : SolveArgs) (N : TableSizes) (n : ℕ) (vars : List ℕ) (f : Term) (eqs ineqs : List Term)
    (σ : Spec) : Prop extends a.Objs N n vars f eqs ineqs σ where
  g : σ.jacs[N.jacs]? = some ([f], vars)
  hf : σ.hess[N.hess]? = some (true, f, vars)
  hc : ¬ (eqs = [] ∧ ineqs = []) → σ.hess[N.hess + 1]? = some (true, multiplierTerm n eqs ineqs, vars)
  ae : ¬ (eqs = [] ∧ ineqs = []) → σ.jacs[N.jacs + 1]? = some (eqs, vars)
  ai : ineqs ≠ [] → σ.jacs[N.jacs + 2]? = some (ineqs, vars)

theorem validAll_and_after {cs ds : List (Cmd ℝ)} {σ τ ρ : Spec} (h1 : ValidAll cs σ ∧ σ.after cs = τ)
    (h2 : ValidAll ds τ ∧ τ.after ds = ρ) : ValidAll (cs ++ ds) σ ∧ σ.after (cs ++ ds) = ρ :=
  ⟨(validAll_append _ _ _).2 ⟨h1.1, by rw [h1.2]; exact h2.1⟩, by rw [after_append, h1.2, h2.2]⟩

theorem SolveArgs.Objs.mono {a : SolveArgs} {N : TableSizes} {n : ℕ} {vars : List ℕ} {f : Term} {eqs ineqs : List Term}
    {σ τ : Spec} (h : a.Objs N n vars f eqs ineqs σ)
    (hτ : ∀ i, N.objs ≤ i → i < a.base N → ∀ t, σ.terms[i]? = some t → τ.terms[i]? = some t) :
    a.Objs N n vars f eqs ineqs τ := by
  constructor
  · exact h.x.mono fun i hi => hτ i (by simp [SolveArgs.xAd] at hi; omega)
      (by simp [SolveArgs.xAd] at hi; unfold SolveArgs.base; omega)
  · exact hτ _ (by unfold SolveArgs.fAd; omega) (by unfold SolveArgs.fAd SolveArgs.base; omega) _ h.cost
  · exact h.ce.mono fun i hi => hτ i (by simp [SolveArgs.ceAd] at hi; omega)
      (by simp [SolveArgs.ceAd] at hi; unfold SolveArgs.base; omega)
  · exact h.ci.mono fun i hi => hτ i (by simp [SolveArgs.ciAd] at hi; omega)
      (by simp [SolveArgs.ciAd] at hi; unfold SolveArgs.base; omega)
  · exact h.y.mono fun i hi => hτ i (by simp [SolveArgs.yAd] at hi; omega)
      (by simp [SolveArgs.yAd] at hi; unfold SolveArgs.base; omega)
  · exact h.z.mono fun i hi => hτ i (by simp [SolveArgs.zAd] at hi; omega)
      (by simp [SolveArgs.zAd] at hi; unfold SolveArgs.base; omega)

theorem SolveArgs.Objs.more {a : SolveArgs} {N : TableSizes} {n : ℕ} {vars : List ℕ} {f : Term} {eqs ineqs : List Term}
    {σ : Spec} (h : a.Objs N n vars f eqs ineqs σ) (ws : List Term) : a.Objs N n vars f eqs ineqs (σ.more ws) :=
  h.mono fun _ _ _ _ ht => getElem?_append_some ht

section

variable {a : SolveArgs} {σ : Spec} {vars : List ℕ} {f : Term} {eqs ineqs : List Term}

theorem SolveArgs.Describes.lengths (h : a.Describes σ vars f eqs ineqs) :
    a.x.length = vars.length ∧ a.eqs.length = eqs.length ∧ a.ineqs.length = ineqs.length :=
  ⟨by simpa using h.x.length_eq, h.eqs.length_eq, h.ineqs.length_eq⟩

/-- The copies. -/
theorem SolveArgs.Describes.copies_ok (h : a.Describes σ vars f eqs ineqs) : ValidAll a.copies σ ∧
    ∃ env, (∀ k, k < σ.n → env k = σ.env k) ∧ σ.after a.copies =
      { σ with n := σ.n + eqs.length + ineqs.length, env := env
               terms := σ.terms ++ (vars.map .var ++ ([f] ++ (eqs ++ (ineqs ++
                 ((List.range' σ.n eqs.length).map .var ++
                   (List.range' (σ.n + eqs.length) ineqs.length).map .var))))) } := by
  obtain ⟨l1, l2, l3⟩ := h.lengths
  have h1 := pushes (F := id) copy_push h.x
  rw [List.map_id] at h1
  have h2 : ValidAll [match a.f with | some i => Cmd.copy i | none => .lit 0] (σ.more (vars.map .var)) ∧
      (σ.more (vars.map .var)).after [match a.f with | some i => Cmd.copy i | none => .lit 0] =
        (σ.more (vars.map .var)).more [f] := by
    have hf := h.f
    cases hc : a.f with
    | none =>
      rw [hc] at hf
      simp only at hf
      subst hf
      exact ⟨⟨trivial, trivial⟩, rfl⟩
    | some i =>
      rw [hc] at hf
      simp only at hf
      have := copy_push (σ.more (vars.map .var)) i f (getElem?_append_some hf)
      exact ⟨⟨this.1, trivial⟩, this.2⟩
  have h12 := validAll_and_after h1 h2
  have h3 := pushes (F := id) copy_push ((h.eqs.more (vars.map .var)).more [f])
  rw [List.map_id] at h3
  have h123 := validAll_and_after h12 h3
  have h4 := pushes (F := id) copy_push (((h.ineqs.more (vars.map .var)).more [f]).more eqs)
  rw [List.map_id] at h4
  have h1234 := validAll_and_after h123 h4
  obtain ⟨d1, env1, d2, d3⟩ := decls a.eqs.length ((((σ.more (vars.map .var)).more [f]).more eqs).more ineqs)
  have h5 := validAll_and_after h1234 ⟨d1, d3⟩
  obtain ⟨d4, env2, d5, d6⟩ := decls a.ineqs.length
    (((((σ.more (vars.map .var)).more [f]).more eqs).more ineqs).declared a.eqs.length env1)
  have h6 := validAll_and_after h5 ⟨d4, d6⟩
  refine ⟨h6.1, env2, fun k hk => ?_, ?_⟩
  · rw [d5 k (by simp [Spec.declared, Spec.more]; omega)]
    exact d2 k hk
  · refine h6.2.trans ?_
    simp [Spec.declared, Spec.more, l2, l3]

theorem SolveArgs.objs_of_terms {N : TableSizes} {n : ℕ} {pre post : List Term} (hx : a.x.length = vars.length)
    (he : a.eqs.length = eqs.length) (hi : a.ineqs.length = ineqs.length) (hN : N.objs = pre.length)
    (h : σ.terms = pre ++ (vars.map .var ++ ([f] ++ (eqs ++ (ineqs ++ ((List.range' n eqs.length).map .var ++
      ((List.range' (n + eqs.length) ineqs.length).map .var ++ post))))))) :
    a.Objs N n vars f eqs ineqs σ := by
  constructor
  · have := Spec.names_block h
    unfold SolveArgs.xAd
    rwa [hN, hx, ← List.length_map (f := Term.var)]
  · unfold SolveArgs.fAd
    rw [hN, hx, h, List.getElem?_append_right (by omega), List.getElem?_append_right (by simp)]
    simp
  · have := Spec.names_block (σ := σ) (pre := pre ++ (vars.map .var ++ [f])) (ts := eqs) (by rw [h]; simp; rfl)
    unfold SolveArgs.ceAd
    rw [hN, hx, he]
    simpa [Nat.add_assoc] using this
  · have := Spec.names_block (σ := σ) (pre := pre ++ (vars.map .var ++ ([f] ++ eqs))) (ts := ineqs)
      (by rw [h]; simp; rfl)
    unfold SolveArgs.ciAd
    rw [hN, hx, he, hi]
    simpa [Nat.add_assoc, Nat.add_comm, Nat.add_left_comm] using this
  · have := Spec.names_block (σ := σ) (pre := pre ++ (vars.map .var ++ ([f] ++ (eqs ++ ineqs))))
      (ts := (List.range' n eqs.length).map .var) (by rw [h]; simp; rfl)
    unfold SolveArgs.yAd
    rw [hN, hx, he, hi]
    simpa [Nat.add_assoc, Nat.add_comm, Nat.add_left_comm] using this
  · have := Spec.names_block (σ := σ)
      (pre := pre ++ (vars.map .var ++ ([f] ++ (eqs ++ (ineqs ++ (List.range' n eqs.length).map .var)))))
      (ts := (List.range' (n + eqs.length) ineqs.length).map .var) (post := post) (by rw [h]; simp)
    unfold SolveArgs.zAd
    rw [hN, hx, he, hi]
    simpa [Nat.add_assoc, Nat.add_comm, Nat.add_left_comm] using this

/-- The expression for `H_c`. -/
theorem SolveArgs.Objs.lagrangian_ok {N : TableSizes} {n : ℕ} (h : a.Objs N n vars f eqs ineqs σ)
    (he : a.eqs.length = eqs.length) (hi : a.ineqs.length = ineqs.length) (hb : σ.terms.length = a.base N) :
    ValidAll (a.lagrangianCmds N) σ ∧ ∃ ws, σ.after (a.lagrangianCmds N) = σ.more ws ∧
      (σ.more ws).terms[a.lagrangianAd N]? = some (multiplierTerm n eqs ineqs) := by
  have h1 := pushes (F := Term.un .neg) neg_push h.y
  rw [List.map_map] at h1
  set ys : List Term := (List.range' n eqs.length).map (Term.un .neg ∘ Term.var)
  have hn : (σ.more ys).Names (a.negY N) ys := by
    have := Spec.names_block (σ := σ.more ys) (pre := σ.terms) (ts := ys) (post := []) (by simp [Spec.more])
    unfold SolveArgs.negY
    rw [← hb, he]
    simpa [ys] using this
  obtain ⟨c1, ws, c2, c3, c4⟩ := dotCmds_ok (σ.more ys) hn (h.ce.more ys)
    (by simp [SolveArgs.negY, SolveArgs.ceAd]) (a.base1 N) (by simp [Spec.more, SolveArgs.base1, hb, he, ys])
  have h2 := validAll_and_after h1 ⟨c1, c3⟩
  rw [Spec.more_more] at h2 c4
  have hl : (a.negY N).length = a.eqs.length := by simp [SolveArgs.negY]
  rw [hl] at c2 c4
  by_cases hie : a.ineqs = []
  · have hie' : ineqs = [] := by rw [← List.length_eq_zero_iff, ← hi, hie]; rfl
    unfold SolveArgs.lagrangianCmds SolveArgs.lagrangianAd multiplierTerm
    rw [if_pos hie, if_pos hie, if_pos hie', List.append_nil]
    exact ⟨h2.1, _, h2.2, c4⟩
  · have hie' : ineqs ≠ [] := by
      intro h0
      exact hie (by rw [← List.length_eq_zero_iff, hi, h0]; rfl)
    obtain ⟨d1, us, d2, d3, d4⟩ := dotCmds_ok (σ.more (ys ++ ws)) (h.z.more _) (h.ci.more _)
      (by simp [SolveArgs.zAd, SolveArgs.ciAd]) (a.base1 N + 1 + 2 * a.eqs.length)
      (by simp [Spec.more, SolveArgs.base1, hb, he, ys, c2]; omega)
    have hl2 : (a.zAd N).length = a.ineqs.length := by simp [SolveArgs.zAd]
    rw [hl2] at d2 d4
    have h3 := validAll_and_after h2 ⟨d1, d3⟩
    rw [Spec.more_more] at h3 d4
    have e1 : (σ.more (ys ++ ws ++ us)).terms[a.base1 N + 2 * a.eqs.length]? =
        some (dotTerm (.lit 0) (ys.zip eqs)) := by
      rw [← Spec.more_more]
      exact getElem?_append_some c4
    obtain ⟨b1, b2⟩ := bin_push (σ.more (ys ++ ws ++ us)) .sub _ _ _ _ e1 d4
    have h4 := validAll_and_after h3 (ds := [.bin .sub (a.base1 N + 2 * a.eqs.length)
      (a.base1 N + 1 + 2 * a.eqs.length + 2 * a.ineqs.length)]) ⟨⟨b1, trivial⟩, b2⟩
    unfold SolveArgs.lagrangianCmds SolveArgs.lagrangianAd multiplierTerm
    rw [if_neg hie, if_neg hie, if_neg hie', ← List.append_assoc]
    have hlen : (σ.more (ys ++ ws ++ us)).terms.length = a.base1 N + 2 + 2 * a.eqs.length + 2 * a.ineqs.length := by
      simp [Spec.more, SolveArgs.base1, hb, he, ys, c2, d2]; omega
    refine ⟨h4.1, _, h4.2.trans (Spec.more_more _ _ _), ?_⟩
    rw [← Spec.more_more, ← hlen]
    simp only [Spec.more, List.getElem?_concat_length]
    rfl

/-- The setup: its calls respect all preconditions, and the objects are as intended. -/
theorem SolveArgs.Describes.setup_ok (h : a.Describes σ vars f eqs ineqs) :
    ValidAll (a.setup σ.sizes) σ ∧ a.Ready σ.sizes σ.n vars f eqs ineqs (σ.after (a.setup σ.sizes)) ∧
      (σ.after (a.setup σ.sizes)).n = σ.n + eqs.length + ineqs.length ∧
      (∀ k, k < σ.n → (σ.after (a.setup σ.sizes)).env k = σ.env k) ∧
      a.lagrangianAd σ.sizes ≤ (σ.after (a.setup σ.sizes)).terms.length := by
  obtain ⟨l1, l2, l3⟩ := h.lengths
  obtain ⟨h1, env, henv, h2⟩ := h.copies_ok
  set N := σ.sizes with hN
  set τ : Spec := { σ with n := σ.n + eqs.length + ineqs.length, env := env
                           terms := σ.terms ++ (vars.map .var ++ ([f] ++ (eqs ++ (ineqs ++
                             ((List.range' σ.n eqs.length).map .var ++
                               (List.range' (σ.n + eqs.length) ineqs.length).map .var))))) } with hτ
  have o1 : a.Objs N σ.n vars f eqs ineqs τ :=
    SolveArgs.objs_of_terms (pre := σ.terms) (post := []) l1 l2 l3 rfl (by simp [hτ])
  set τ2 : Spec := { τ with jacs := τ.jacs ++ [([f], vars)], hess := τ.hess ++ [(true, f, vars)] } with hτ2
  have o2 : a.Objs N σ.n vars f eqs ineqs τ2 := o1.mono fun _ _ _ _ h => h
  have hw := o1.x.wrtOK h.nodup
  have hf1 : τ.Names [a.fAd N] [f] := .cons o1.cost .nil
  have h3 : ValidAll [.jac [a.fAd N] (a.xAd N), .hess true (a.fAd N) (a.xAd N)] τ ∧
      τ.after [.jac [a.fAd N] (a.xAd N), .hess true (a.fAd N) (a.xAd N)] = τ2 := by
    refine ⟨⟨⟨hf1.lt, hw⟩, ⟨get_lt_of o1.cost, hw⟩, trivial⟩, ?_⟩
    simp only [Spec.after, List.foldl_cons, List.foldl_nil]
    simp only [Spec.next, hf1.exprs, o1.x.vars, getD_get o1.cost]
    unfold Spec.vars
    have := o1.x.vars
    unfold Spec.vars at this
    simp only [this, hτ2]
  have h4 := validAll_and_after ⟨h1, h2⟩ h3
  have hb : τ2.terms.length = a.base N := by
    simp [hτ2, hτ, SolveArgs.base, hN, Spec.sizes, l1, l2, l3]; omega
  have hj : τ2.jacs[N.jacs]? = some ([f], vars) := by simp [hτ2, hτ, hN, Spec.sizes]
  have hh : τ2.hess[N.hess]? = some (true, f, vars) := by simp [hτ2, hτ, hN, Spec.sizes]
  by_cases hc : eqs = [] ∧ ineqs = []
  · have hc' : a.eqs = [] ∧ a.ineqs = [] := by
      refine ⟨?_, ?_⟩
      · rw [← List.length_eq_zero_iff, l2, hc.1]; rfl
      · rw [← List.length_eq_zero_iff, l3, hc.2]; rfl
    have hs : a.setup N = a.copies ++ [.jac [a.fAd N] (a.xAd N), .hess true (a.fAd N) (a.xAd N)] := by
      unfold SolveArgs.setup; rw [if_pos hc', List.append_nil]
    rw [hs, h4.2]
    refine ⟨h4.1, ⟨o2, hj, hh, fun hn => absurd hc hn, fun hn => absurd hc hn, fun hn => absurd hc.2 hn⟩, rfl, henv, ?_⟩
    rw [hb]
    unfold SolveArgs.lagrangianAd SolveArgs.base1
    rw [if_pos hc'.2, hc'.1]
    simp
  · have hc' : ¬ (a.eqs = [] ∧ a.ineqs = []) := by
      intro hx
      refine hc ⟨?_, ?_⟩
      · rw [← List.length_eq_zero_iff, ← l2, hx.1]; rfl
      · rw [← List.length_eq_zero_iff, ← l3, hx.2]; rfl
    obtain ⟨g1, ws, g2, g3⟩ := o2.lagrangian_ok l2 l3 hb
    have h5 := validAll_and_after h4 ⟨g1, g2⟩
    have o3 := o2.more ws
    set τ4 : Spec := { τ2.more ws with
      jacs := τ2.jacs ++ [(eqs, vars)], hess := τ2.hess ++ [(true, multiplierTerm σ.n eqs ineqs, vars)] } with hτ4
    have h6 : ValidAll [.hess true (a.lagrangianAd N) (a.xAd N), .jac (a.ceAd N) (a.xAd N)] (τ2.more ws) ∧
        (τ2.more ws).after [.hess true (a.lagrangianAd N) (a.xAd N), .jac (a.ceAd N) (a.xAd N)] = τ4 := by
      have hw := o3.x.wrtOK h.nodup
      refine ⟨⟨⟨get_lt_of g3, hw⟩, ⟨o3.ce.lt, hw⟩, trivial⟩, ?_⟩
      simp only [Spec.after, List.foldl_cons, List.foldl_nil]
      have e1 := o3.x.vars
      have e2 := o3.ce.exprs
      unfold Spec.vars at e1
      unfold Spec.exprs at e2
      simp only [Spec.next, getD_get g3]
      unfold Spec.vars Spec.exprs
      simp only [e1, e2, hτ4]
      rfl
    have h7 := validAll_and_after h5 h6
    have o4 : a.Objs N σ.n vars f eqs ineqs τ4 := o3.mono fun _ _ _ _ h => h
    have hj4 : τ4.jacs[N.jacs]? = some ([f], vars) := getElem?_append_some hj
    have hh4 : τ4.hess[N.hess]? = some (true, f, vars) := getElem?_append_some hh
    have ha4 : τ4.jacs[N.jacs + 1]? = some (eqs, vars) := by
      have hl : τ2.jacs.length = N.jacs + 1 := by simp [hτ2, hτ, hN, Spec.sizes]
      show (τ2.jacs ++ [_])[_]? = _
      rw [← hl, List.getElem?_concat_length]
    have hc4 : τ4.hess[N.hess + 1]? = some (true, multiplierTerm σ.n eqs ineqs, vars) := by
      have hl : τ2.hess.length = N.hess + 1 := by simp [hτ2, hτ, hN, Spec.sizes]
      show (τ2.hess ++ [_])[_]? = _
      rw [← hl, List.getElem?_concat_length]
    have hlag : a.lagrangianAd N ≤ τ4.terms.length := (get_lt_of g3).le
    by_cases hi : ineqs = []
    · have hi' : a.ineqs = [] := by rw [← List.length_eq_zero_iff, l3, hi]; rfl
      have hs : a.setup N = a.copies ++ [.jac [a.fAd N] (a.xAd N), .hess true (a.fAd N) (a.xAd N)] ++
          a.lagrangianCmds N ++ [.hess true (a.lagrangianAd N) (a.xAd N), .jac (a.ceAd N) (a.xAd N)] := by
        unfold SolveArgs.setup
        rw [if_neg hc', if_pos hi', List.append_nil, List.append_assoc, List.append_assoc, List.append_assoc]
      rw [hs, h7.2]
      exact ⟨h7.1, ⟨o4, hj4, hh4, fun _ => hc4, fun _ => ha4, fun hn => absurd hi hn⟩, rfl, henv, hlag⟩
    · have hi' : a.ineqs ≠ [] := by
        intro h0
        exact hi (by rw [← List.length_eq_zero_iff, ← l3, h0]; rfl)
      set τ5 : Spec := { τ4 with jacs := τ4.jacs ++ [(ineqs, vars)] } with hτ5
      have h8 : ValidAll [.jac (a.ciAd N) (a.xAd N)] τ4 ∧ τ4.after [.jac (a.ciAd N) (a.xAd N)] = τ5 := by
        refine ⟨⟨⟨o4.ci.lt, o4.x.wrtOK h.nodup⟩, trivial⟩, ?_⟩
        simp only [Spec.after, List.foldl_cons, List.foldl_nil]
        simp only [Spec.next, o4.ci.exprs, o4.x.vars, hτ5]
      have h9 := validAll_and_after h7 h8
      have hs : a.setup N = a.copies ++ [.jac [a.fAd N] (a.xAd N), .hess true (a.fAd N) (a.xAd N)] ++
          a.lagrangianCmds N ++ [.hess true (a.lagrangianAd N) (a.xAd N), .jac (a.ceAd N) (a.xAd N)] ++
          [.jac (a.ciAd N) (a.xAd N)] := by
        unfold SolveArgs.setup
        rw [if_neg hc', if_neg hi']
        simp only [List.append_assoc]
      have o5 : a.Objs N σ.n vars f eqs ineqs τ5 := o4.mono fun _ _ _ _ h => h
      rw [hs, h9.2]
      refine ⟨h9.1, ⟨o5, getElem?_append_some hj4, hh4, fun _ => hc4, fun _ => getElem?_append_some ha4, fun _ => ?_⟩,
        rfl, henv, hlag⟩
      have hl : τ4.jacs.length = N.jacs + 2 := by simp [hτ4, hτ2, hτ, hN, Spec.sizes]
      show (τ4.jacs ++ [_])[_]? = _
      rw [← hl, List.getElem?_concat_length]

end

end Slp
