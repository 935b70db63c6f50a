import Verif.Autodiff.TermSpec
import Verif.Autodiff.ApiModel

/-!
Specification of the autodiff API: every `Variable` object stands for a mathematical expression over
the declared variables, which have current values. Nothing here refers to nodes, graphs or caches.
-/

namespace Slp

/-- Abstract state. Variables are numbered in the order of declaration. -/
structure Spec where
  n : ℕ
  env : ℕ → ℝ
  terms : List Term
  jacs : List (List Term × List ℕ)
  hess : List (Bool × Term × List ℕ)

def Spec.empty : Spec := ⟨0, fun _ => 0, [], [], []⟩

/-- The declared variable an object stands for, if it does. -/
def Term.varOf : Term → Option ℕ
  | .var k => some k
  | _ => none

/-- The declared variables named by a list of objects. -/
def Spec.vars (σ : Spec) (is : List ℕ) : List ℕ := is.filterMap fun i => (σ.terms[i]?).bind Term.varOf

/-- The expressions named by a list of objects. -/
def Spec.exprs (σ : Spec) (is : List ℕ) : List Term := is.filterMap fun i => σ.terms[i]?

/-- `wrt` names distinct declared variables. -/
def Spec.WrtOK (σ : Spec) (wrt : List ℕ) : Prop :=
  (∀ i ∈ wrt, ∃ k, σ.terms[i]? = some (.var k)) ∧ (σ.vars wrt).Nodup

/-- Precondition of each call: objects exist, `set_value` is called on declared variables only, and
derivatives are taken with respect to distinct declared variables. -/
def Valid (c : Cmd ℝ) (σ : Spec) : Prop :=
  match c with
  | .decl | .lit _ => True
  | .un _ i | .copy i | .assignLit i _ | .value i | .type i => i < σ.terms.length
  | .bin _ i j | .assign i j => i < σ.terms.length ∧ j < σ.terms.length
  | .hypot3 i j k => i < σ.terms.length ∧ j < σ.terms.length ∧ k < σ.terms.length
  | .setValue i _ => ∃ k, σ.terms[i]? = some (.var k)
  | .jac rows wrt => (∀ i ∈ rows, i < σ.terms.length) ∧ σ.WrtOK wrt
  | .jacValue j | .jacGet j => j < σ.jacs.length
  | .hess _ i wrt => i < σ.terms.length ∧ σ.WrtOK wrt
  | .hessValue j | .hessGet j => j < σ.hess.length

/-- Effect of each call. -/
noncomputable def Spec.next (c : Cmd ℝ) (σ : Spec) : Spec :=
  match c with
  | .decl => { σ with n := σ.n + 1, env := Function.update σ.env σ.n 0,
                      terms := σ.terms ++ [.var σ.n] }
  | .lit c => { σ with terms := σ.terms ++ [.lit c] }
  | .un f i => { σ with terms := σ.terms ++ [.un f (σ.terms.getD i (.lit 0))] }
  | .bin f i j =>
    { σ with terms := σ.terms ++ [.bin f (σ.terms.getD i (.lit 0)) (σ.terms.getD j (.lit 0))] }
  | .hypot3 i j k =>
    { σ with terms := σ.terms ++ [Term.hypot3 (σ.terms.getD i (.lit 0)) (σ.terms.getD j (.lit 0))
        (σ.terms.getD k (.lit 0))] }
  | .copy i => { σ with terms := σ.terms ++ [σ.terms.getD i (.lit 0)] }
  | .assign i j => { σ with terms := σ.terms.set i (σ.terms.getD j (.lit 0)) }
  | .assignLit i c => { σ with terms := σ.terms.set i (.lit c) }
  | .setValue i v =>
    match (σ.terms[i]?).bind Term.varOf with
    | some k => { σ with env := Function.update σ.env k v }
    | none => σ
  | .value _ | .type _ | .jacValue _ | .hessValue _ => σ
  | .jac rows wrt => { σ with jacs := σ.jacs ++ [(σ.exprs rows, σ.vars wrt)] }
  | .jacGet j =>
    let J := σ.jacs.getD j ([], [])
    { σ with terms := σ.terms ++ (J.1.map fun t => J.2.map fun k => Term.pd k t).flatten }
  | .hess lower i wrt =>
    { σ with hess := σ.hess ++ [(lower, σ.terms.getD i (.lit 0), σ.vars wrt)] }
  | .hessGet j =>
    let H := σ.hess.getD j (false, .lit 0, [])
    { σ with terms := σ.terms ++
        (H.2.2.map fun k => H.2.2.map fun l => Term.pd l (Term.pd k H.2.1)).flatten }

/-- `f` is an affine function of the first `N` variables. -/
def Affine (N : ℕ) (f : (ℕ → ℝ) → ℝ) : Prop :=
  ∃ (c : ℝ) (a : ℕ → ℝ), ∀ x, f x = c + ∑ k ∈ Finset.range N, a k * x k

/-- `f` is a polynomial of degree at most two in the first `N` variables. -/
def Quadratic (N : ℕ) (f : (ℕ → ℝ) → ℝ) : Prop :=
  ∃ (c : ℝ) (a : ℕ → ℝ) (q : ℕ → ℕ → ℝ), ∀ x, f x = c + ∑ k ∈ Finset.range N, a k * x k +
    ∑ k ∈ Finset.range N, ∑ l ∈ Finset.range N, q k l * (x k * x l)

/-- What a reported expression type promises about a mathematical expression. -/
def TypeMeans (N : ℕ) (t : Term) : Ty → Prop
  | .none => False
  | .constant => ∃ c, ∀ env, t.Dom env → t.eval env = c
  | .linear => ∃ f, Affine N f ∧ ∀ env, t.Dom env → t.eval env = f env
  | .quadratic => ∃ f, Quadratic N f ∧ ∀ env, t.Dom env → t.eval env = f env
  | .nonlinear => True

/-- The matrix has the given entries (`e r c` is the condition on the entry in row `r` and column
`c`). -/
def MatIs (rows cols : ℕ) (e : ℕ → ℕ → ℝ → Prop) (m : List (List ℝ)) : Prop :=
  m.length = rows ∧ ∀ r, r < rows → ∃ row, m[r]? = some row ∧ row.length = cols ∧
    ∀ c, c < cols → ∃ x, row[c]? = some x ∧ e r c x

/-- What each call must return. Values are promised where the expression is defined, derivatives
where it is smooth. -/
def Returns (c : Cmd ℝ) (σ : Spec) (o : Obs ℝ) : Prop :=
  match c with
  | .value i => ∃ x, o = .num x ∧ ∀ t, σ.terms[i]? = some t → t.Dom σ.env → x = t.eval σ.env
  | .type i => ∃ ty, o = .ty ty ∧ ∀ t, σ.terms[i]? = some t → TypeMeans σ.n t ty
  | .jacValue j => ∃ m, o = .mat m ∧ ∀ ts ks, σ.jacs[j]? = some (ts, ks) →
      MatIs ts.length ks.length (fun r c x => ∀ t k, ts[r]? = some t → ks[c]? = some k →
        t.Smooth σ.env → x = (Term.pd k t).eval σ.env) m
  | .hessValue j => ∃ m, o = .mat m ∧ ∀ lower t ks, σ.hess[j]? = some (lower, t, ks) →
      MatIs ks.length ks.length (fun r c x => ∀ k l, ks[r]? = some k → ks[c]? = some l →
        t.Smooth σ.env →
          x = if lower = true ∧ r < c then 0 else (Term.pd l (Term.pd k t)).eval σ.env) m
  | _ => o = .unit

/-- All preconditions hold along a sequence of calls. -/
def ValidAll : List (Cmd ℝ) → Spec → Prop
  | [], _ => True
  | c :: cs, σ => Valid c σ ∧ ValidAll cs (σ.next c)

/-- All results along a sequence of calls are right. -/
def ReturnsAll : List (Cmd ℝ) → Spec → List (Obs ℝ) → Prop
  | [], _, os => os = []
  | c :: cs, σ, o :: os => Returns c σ o ∧ ReturnsAll cs (σ.next c) os
  | _ :: _, _, [] => False

/-- The abstract state after a sequence of calls. -/
noncomputable def Spec.after (cs : List (Cmd ℝ)) (σ : Spec) : Spec := cs.foldl (fun σ c => σ.next c) σ

end Slp
