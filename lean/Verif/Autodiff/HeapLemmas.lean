import Verif.Autodiff.AutodiffModel
import Verif.Autodiff.GraphLemmas

/-! Well-formed heaps, the meaning of a node, and value propagation, for any scalar type. -/

set_option linter.unusedSectionVars false

namespace Slp

open ScalarOps

variable {S : Type} [ScalarOps S]

/-- Number of operands of each expression class. -/
def Op.arity : Op → ℕ
  | .constant | .variable => 0
  | .neg | .abs | .acos | .asin | .atan | .cbrt | .cos | .cosh | .erf | .exp | .isNonneg | .isPos
  | .log | .log10 | .sign | .sin | .sinh | .sqrt | .tan | .tanh => 1
  | .add | .sub | .mul | .div | .atan2 | .hypot | .max | .min | .pow => 2

/-- The operands fit the class. -/
def ArityOK (op : Op) (args : Option ℕ × Option ℕ) : Prop :=
  match op.arity with
  | 0 => args = (none, none)
  | 1 => ∃ a, args = (some a, none)
  | _ => ∃ a b, args = (some a, some b)

/-- What the reported type of a node promises about the reported types of its operands. -/
def TyOK (op : Op) (args : Option ℕ × Option ℕ) (ty : ℕ → Ty) (t : Ty) : Prop :=
  match op, args with
  | .constant, _ => t = .constant
  | .variable, _ => t = .linear
  | .add, (some l, some r) | .sub, (some l, some r) =>
    2 ≤ t.rank ∧ (ty l).rank ≤ t.rank ∧ (ty r).rank ≤ t.rank
  | .neg, (some l, _) => 2 ≤ t.rank ∧ (ty l).rank ≤ t.rank
  | .mul, (some l, some r) =>
    2 ≤ t.rank ∧ (t = .nonlinear ∨ (ty l = .constant ∧ (ty r).rank ≤ t.rank) ∨
      (ty r = .constant ∧ (ty l).rank ≤ t.rank) ∨
      (ty l = .linear ∧ ty r = .linear ∧ t = .quadratic))
  | .div, (some l, some r) =>
    2 ≤ t.rank ∧ (t = .nonlinear ∨ (ty r = .constant ∧ (ty l).rank ≤ t.rank))
  | _, _ => t = .nonlinear

/-- Structural well-formedness, which every API operation preserves. -/
structure WF (h : Heap S) : Prop where
  acyc : Graph.Acyclic h.args
  bound : ∀ n, h.next ≤ n → h.args n = (none, none)
  arity : ∀ n, n < h.next → ArityOK (h.op n) (h.args n)
  typ : ∀ n, n < h.next → TyOK (h.op n) (h.args n) h.ty (h.ty n)
  powBase : ∀ n, n < h.next → h.op n = .pow → ∀ b, (h.args n).1 = some b → isConst h b zero = false
  scratch : ∀ n, h.scratch n = -1
  fresh : ∀ n, h.next ≤ n → h.adjE n = none

/-- The value a node denotes when independent variables have the values `η`: constants denote their
stored value, operator nodes the operator applied to what their operands denote. -/
def ev (h : Heap S) (η : ℕ → S) (n : ℕ) : S :=
  match h.args n with
  | (none, _) => if h.op n = .constant then h.val n else η n
  | (some l, none) => if l < n then opVal (h.op n) (ev h η l) zero else zero
  | (some l, some r) =>
    if l < n then
      if r < n then opVal (h.op n) (ev h η l) (ev h η r) else zero
    else zero
termination_by n

theorem mem_kids_left {args : Graph.Args} {n l : ℕ} (h : (args n).1 = some l) :
    l ∈ Graph.kids args n := by
  simp [Graph.kids, h]

theorem mem_kids_right {args : Graph.Args} {n r : ℕ} (h : (args n).2 = some r) :
    r ∈ Graph.kids args n := by
  simp [Graph.kids, List.reduceOption, h]

theorem ev_leaf {h : Heap S} {η : ℕ → S} {n : ℕ} (ha : (h.args n).1 = none) :
    ev h η n = if h.op n = .constant then h.val n else η n := by
  rw [ev]
  rcases hh : h.args n with ⟨a, b⟩
  rw [hh] at ha
  simp at ha
  subst ha
  rfl

theorem ev_un {h : Heap S} (hac : Graph.Acyclic h.args) {η : ℕ → S} {n l : ℕ}
    (ha : h.args n = (some l, none)) : ev h η n = opVal (h.op n) (ev h η l) zero := by
  have hl : l < n := hac n l (mem_kids_left (by rw [ha]))
  rw [ev]
  simp [ha, hl]

theorem ev_bin {h : Heap S} (hac : Graph.Acyclic h.args) {η : ℕ → S} {n l r : ℕ}
    (ha : h.args n = (some l, some r)) :
    ev h η n = opVal (h.op n) (ev h η l) (ev h η r) := by
  have hl : l < n := hac n l (mem_kids_left (by rw [ha]))
  have hr : r < n := hac n r (mem_kids_right (by rw [ha]))
  rw [ev]
  simp [ha, hl, hr]

/-- Two heaps agree on everything `ev` looks at below `N`. -/
structure SameUpTo (N : ℕ) (h h' : Heap S) : Prop where
  op : ∀ n, n < N → h'.op n = h.op n
  args : ∀ n, n < N → h'.args n = h.args n
  const : ∀ n, n < N → h.op n = .constant → h'.val n = h.val n

theorem ev_congr {h h' : Heap S} {N : ℕ} (hs : SameUpTo N h h') {η η' : ℕ → S}
    (hη : ∀ n, n < N → (h.args n).1 = none → h.op n ≠ .constant → η' n = η n) (n : ℕ) (hn : n < N) :
    ev h' η' n = ev h η n := by
  induction n using Nat.strong_induction_on with
  | _ n ih =>
    rw [ev, ev, hs.args n hn, hs.op n hn]
    rcases hh : h.args n with ⟨a, b⟩
    cases a with
    | none =>
      simp only
      by_cases hc : h.op n = .constant
      · simp [hc, hs.const n hn hc]
      · simp [hc, hη n hn (by rw [hh]) hc]
    | some l =>
      cases b with
      | none =>
        simp only
        by_cases hl : l < n
        · simp [hl, ih l hl (by omega)]
        · simp [hl]
      | some r =>
        simp only
        by_cases hl : l < n
        · by_cases hr : r < n
          · simp [hl, hr, ih l hl (by omega), ih r hr (by omega)]
          · simp [hl, hr]
        · simp [hl]

/-- A list that enumerates nodes before their operands, without repetition, and is closed under
operands. -/
def Topo (args : Graph.Args) : List ℕ → Prop
  | [] => True
  | n :: t => n ∉ t ∧ (∀ c ∈ Graph.kids args n, c ∈ t) ∧ Topo args t

theorem topo_of_sort {args : Graph.Args} (hac : Graph.Acyclic args) (l : List ℕ) (hn : l.Nodup)
    (hp : l.Pairwise (fun a b => a ∉ Graph.kids args b))
    (hcl : ∀ n ∈ l, ∀ c ∈ Graph.kids args n, c ∈ l) : Topo args l := by
  suffices H : ∀ pre suf : List ℕ, (pre ++ suf).Nodup →
      (pre ++ suf).Pairwise (fun a b => a ∉ Graph.kids args b) →
      (∀ n ∈ suf, ∀ c ∈ Graph.kids args n, c ∈ pre ++ suf) → Topo args suf from
    H [] l (by simpa using hn) (by simpa using hp) (by simpa using hcl)
  intro pre suf
  induction suf generalizing pre with
  | nil => intros; trivial
  | cons n t ih =>
    intro hn hp hcl
    refine ⟨?_, ?_, ?_⟩
    · have := (List.nodup_append.mp hn).2.1
      exact (List.nodup_cons.mp this).1
    · intro c hc
      have hmem := hcl n (by simp) c hc
      rcases List.mem_append.mp hmem with h | h
      · exact absurd hc ((List.pairwise_append.mp hp).2.2 c h n (by simp))
      · rcases List.mem_cons.mp h with h | h
        · subst h; exact absurd (hac _ _ hc) (lt_irrefl _)
        · exact h
    · apply ih (pre ++ [n])
      · simpa using hn
      · simpa using hp
      · intro m hm c hc
        have := hcl m (by simp [hm]) c hc
        simpa using this

theorem Topo.nodup {args : Graph.Args} {l : List ℕ} (h : Topo args l) : l.Nodup := by
  induction l with
  | nil => simp
  | cons n t ih => exact List.nodup_cons.mpr ⟨h.1, ih h.2.2⟩

theorem Topo.closed {args : Graph.Args} {l : List ℕ} (h : Topo args l) :
    ∀ n ∈ l, ∀ c ∈ Graph.kids args n, c ∈ l := by
  induction l with
  | nil => simp
  | cons n t ih =>
    intro m hm c hc
    rcases List.mem_cons.mp hm with e | e
    · subst e; exact List.mem_cons_of_mem _ (h.2.1 c hc)
    · exact List.mem_cons_of_mem _ (ih h.2.2 m e c hc)

/-- Result of sorting a well-formed heap. -/
theorem topoSort_spec {h : Heap S} (wf : WF h) (r : ℕ) (hty : h.ty r ≠ .constant) :
    ∃ l, topoSort h (some r) = some (l, h) ∧ Topo h.args l ∧
      (∀ n, n ∈ l ↔ Graph.Reach h.args r n) ∧ l.head? = some r := by
  obtain ⟨l, h1, h2, h3, h4, h5⟩ := Graph.sortFrom_spec wf.acyc r h.scratch wf.scratch
  refine ⟨l, ?_, ?_, h3, h5⟩
  · simp [topoSort, hty, h1]
  · apply topo_of_sort wf.acyc l h2 h4
    intro n hn c hc
    exact (h3 c).mpr (((h3 n).mp hn).tail hc)

theorem topoSort_const {h : Heap S} {r : ℕ} (hty : h.ty r = .constant) :
    topoSort h (some r) = some ([], h) := by
  simp [topoSort, hty]

theorem reach_lt {h : Heap S} (wf : WF h) {r n : ℕ} (hr : r < h.next)
    (hreach : Graph.Reach h.args r n) : n < h.next :=
  lt_of_le_of_lt (hreach.le wf.acyc) hr

/-! ### Value propagation -/

theorem updateNode_val_ne {h : Heap S} {n m : ℕ} (hm : m ≠ n) :
    (updateNode h n).val m = h.val m := by
  unfold updateNode
  split <;> simp [hm]

theorem updateNode_val_leaf {h : Heap S} {n : ℕ} (ha : (h.args n).1 = none) :
    updateNode h n = h := by
  unfold updateNode; rw [ha]

/-- `updateNode` changes nothing but `val`. -/
structure OnlyVal (h h' : Heap S) : Prop where
  next : h'.next = h.next
  op : h'.op = h.op
  ty : h'.ty = h.ty
  args : h'.args = h.args
  adjoint : h'.adjoint = h.adjoint
  adjE : h'.adjE = h.adjE
  scratch : h'.scratch = h.scratch

theorem OnlyVal.refl (h : Heap S) : OnlyVal h h := ⟨rfl, rfl, rfl, rfl, rfl, rfl, rfl⟩

theorem OnlyVal.trans {h1 h2 h3 : Heap S} (a : OnlyVal h1 h2) (b : OnlyVal h2 h3) :
    OnlyVal h1 h3 :=
  ⟨b.next.trans a.next, b.op.trans a.op, b.ty.trans a.ty, b.args.trans a.args,
    b.adjoint.trans a.adjoint, b.adjE.trans a.adjE, b.scratch.trans a.scratch⟩

theorem updateNode_only (h : Heap S) (n : ℕ) : OnlyVal h (updateNode h n) := by
  unfold updateNode
  split <;> exact ⟨rfl, rfl, rfl, rfl, rfl, rfl, rfl⟩

theorem updateValues_cons (n : ℕ) (t : List ℕ) (h : Heap S) :
    updateValues (n :: t) h = updateNode (updateValues t h) n := by
  simp [updateValues]

theorem updateValues_only (l : List ℕ) (h : Heap S) : OnlyVal h (updateValues l h) := by
  induction l with
  | nil => exact OnlyVal.refl h
  | cons n t ih => rw [updateValues_cons]; exact ih.trans (updateNode_only _ _)

theorem updateValues_notMem (l : List ℕ) (h : Heap S) (m : ℕ) (hm : m ∉ l) :
    (updateValues l h).val m = h.val m := by
  induction l with
  | nil => rfl
  | cons n t ih =>
    simp only [List.mem_cons, not_or] at hm
    rw [updateValues_cons, updateNode_val_ne hm.1, ih hm.2]

theorem updateValues_leaf (l : List ℕ) (h : Heap S) (m : ℕ) (hm : (h.args m).1 = none) :
    (updateValues l h).val m = h.val m := by
  induction l with
  | nil => rfl
  | cons n t ih =>
    rw [updateValues_cons]
    by_cases hmn : m = n
    · subst hmn
      rw [updateNode_val_leaf]
      · exact ih
      · rw [(updateValues_only t h).args]; exact hm
    · rw [updateNode_val_ne hmn, ih]

/-- After `update_values` every node of the list holds the value it denotes, whatever it held
before; independent variables and constants are untouched. -/
theorem updateValues_spec {h : Heap S} (wf : WF h) (l : List ℕ) (hl : Topo h.args l)
    (hlt : ∀ n ∈ l, n < h.next) : ∀ n ∈ l, (updateValues l h).val n = ev h h.val n := by
  induction l with
  | nil => simp
  | cons n t ih =>
    have ih' := ih hl.2.2 (fun m hm => hlt m (List.mem_cons_of_mem _ hm))
    intro m hm
    by_cases hmn : m = n
    · subst hmn
      rw [updateValues_cons]
      have hon := updateValues_only t h
      have har := wf.arity m (hlt m (by simp))
      rcases hargs : h.args m with ⟨a, b⟩
      cases a with
      | none =>
        rw [updateNode_val_leaf (by rw [hon.args, hargs])]
        rw [updateValues_leaf _ _ _ (by rw [hargs]), ev_leaf (by rw [hargs])]
        split <;> rfl
      | some x =>
        have hx : x ∈ t := hl.2.1 x (mem_kids_left (by rw [hargs]))
        cases b with
        | none =>
          rw [ev_un wf.acyc hargs]
          simp [updateNode, hon.args, hon.op, hargs, ih' x hx]
        | some y =>
          have hy : y ∈ t := hl.2.1 y (mem_kids_right (by rw [hargs]))
          rw [ev_bin wf.acyc hargs]
          simp [updateNode, hon.args, hon.op, hargs, ih' x hx, ih' y hy]
    · rcases List.mem_cons.mp hm with e | e
      · exact absurd e hmn
      · rw [updateValues_cons, updateNode_val_ne hmn]; exact ih' m e

/-- `type() == CONSTANT` exactly for constant nodes. -/
theorem ty_constant_iff {h : Heap S} (wf : WF h) {n : ℕ} (hn : n < h.next) :
    h.ty n = .constant ↔ h.op n = .constant := by
  have ht := wf.typ n hn
  have ha := wf.arity n hn
  constructor
  · intro hc
    cases hop : h.op n <;> rw [hop] at ht ha <;> simp only [ArityOK, Op.arity] at ha <;>
      first
      | rfl
      | (obtain ⟨a, ha⟩ := ha; rw [ha] at ht; simp [TyOK, hc, Ty.rank] at ht)
      | (obtain ⟨a, b, ha⟩ := ha; rw [ha] at ht; simp [TyOK, hc, Ty.rank] at ht)
      | (simp [TyOK, hc] at ht)
  · intro hop
    rw [hop] at ht
    simpa [TyOK] using ht

theorem const_args {h : Heap S} (wf : WF h) {n : ℕ} (hn : n < h.next) (hc : h.ty n = .constant) :
    h.args n = (none, none) := by
  have := wf.arity n hn
  rw [(ty_constant_iff wf hn).mp hc] at this
  simpa [ArityOK, Op.arity] using this

theorem ev_const {h : Heap S} (wf : WF h) {n : ℕ} (hn : n < h.next) (hc : h.ty n = .constant)
    (η : ℕ → S) : ev h η n = h.val n := by
  rw [ev_leaf (by rw [const_args wf hn hc]), if_pos ((ty_constant_iff wf hn).mp hc)]

end Slp
