import Verif.Python.PyViewModel

/-!
What a user expects of views in Python: matrices are values that never end, and slices, rows, columns and iterators refer
to elements of one. There are no references to count. `held` is only for the rule that the code follows instead.
-/

namespace Slp.PyView

variable {α : Type}

/-- What a name refers to: elements of a matrix; whether this keeps the matrix; and, if it is an iterator, which one.
Matrices and iterators are numbered by what has been made before them. -/
structure Handle where
  mat : ℕ
  sel : List ℕ
  keep : Bool
  iter : Option ℕ
deriving DecidableEq

/-- The names' values, the matrices' elements, the iterators' positions, what has been read, and how many objects there
have been. -/
structure Doc (α : Type) where
  count : ℕ
  mats : ℕ → List α
  pos : ℕ → ℕ
  names : List (Option Handle)
  log : List (Option α)

/-- Whether a name keeps the matrix. -/
def Doc.held (d : Doc α) (m : ℕ) : Bool := d.names.any fun h => h.any fun h => h.keep && h.mat == m

def Doc.load (d : Doc α) (m : ℕ) : Except Fault Handle :=
  match d.names[m]? with
  | some (some h) => .ok h
  | _ => .error .name

def Doc.store (d : Doc α) (n : ℕ) (h : Option Handle) : Except Fault (Doc α) :=
  if n < d.names.length then .ok { d with names := d.names.set n h } else .error .name

/-- Selection from a selection: all the chosen elements, or an error. -/
def Doc.choose (sel picks : List ℕ) : Except Fault (List ℕ) :=
  match picks.mapM (sel[·]?) with
  | some l => .ok l
  | none => .error .index

/-- A name's value, which must not be an iterator. -/
def Doc.source (d : Doc α) (m : ℕ) : Except Fault Handle := do
  let h ← d.load m
  if h.iter = none then .ok h else .error .type

/-- The position of element `k`. With `strict`, access to matrices that no name keeps is undefined. -/
def Doc.access (strict : Bool) (d : Doc α) (h : Handle) (j : ℕ) : Except Fault ℕ :=
  if strict && !d.held h.mat then .error .undefined else .ok j

/-- The statements' effects. -/
def Doc.step (strict : Bool) (d : Doc α) : Op α → Except Fault (Doc α)
  | .matrix n vs =>
      { d with count := d.count + 1, mats := Function.update d.mats d.count vs : Doc α }.store n
        (some ⟨d.count, List.range vs.length, true, none⟩)
  | .slice n m picks => do
      let h ← d.source m
      let sel ← Doc.choose h.sel picks
      { d with count := d.count + 1 : Doc α }.store n (some ⟨h.mat, sel, h.keep, none⟩)
  | .line n m picks => do
      let h ← d.source m
      let sel ← Doc.choose h.sel picks
      { d with count := d.count + 1 : Doc α }.store n (some ⟨h.mat, sel, false, none⟩)
  | .iter n m => do
      let h ← d.source m
      { d with count := d.count + 1, pos := Function.update d.pos d.count 0 : Doc α }.store n
        (some ⟨h.mat, h.sel, h.keep, some d.count⟩)
  | .next m => do
      let h ← d.load m
      match h.iter with
      | none => .error .type
      | some i =>
          match h.sel[d.pos i]? with
          | none => .ok { d with log := d.log ++ [none] }
          | some j => do
              let j ← d.access strict h j
              .ok { d with pos := Function.update d.pos i (d.pos i + 1), log := d.log ++ [(d.mats h.mat)[j]?] }
  | .copy n m => do
      let h ← d.load m
      d.store n (some h)
  | .del n => do
      let _ ← d.load n
      d.store n none
  | .get m k => do
      let h ← d.source m
      match h.sel[k]? with
      | none => .error .index
      | some j => do
          let j ← d.access strict h j
          .ok { d with log := d.log ++ [(d.mats h.mat)[j]?] }
  | .set m k v => do
      let h ← d.source m
      match h.sel[k]? with
      | none => .error .index
      | some j => do
          let j ← d.access strict h j
          .ok { d with mats := Function.update d.mats h.mat ((d.mats h.mat).set j v) }

/-- A whole function. -/
def Doc.run (strict : Bool) (k : ℕ) (prog : List (Op α)) : Except Fault (Doc α) :=
  prog.foldlM (Doc.step strict) ⟨0, fun _ => [], fun _ => 0, List.replicate k none, []⟩

/-- A statement other than `n = m.row(…)` and `n = m.col(…)`. -/
def Op.NoLine : Op α → Prop
  | .line _ _ _ => False
  | _ => True

end Slp.PyView
