import Verif.Memory.RefModel

/-!
Specification of expression memory: the same operations on a heap that never releases anything, and
reachability in it. Nothing here mentions reference counts.
-/

namespace Slp.Mem

/-- Pointer fields of a node. -/
structure Cell where
  args : Option ℕ × Option ℕ
  adj : Option ℕ

/-- An idealised heap: every node ever created, and the live handles. -/
structure Ideal where
  cells : List Cell
  slots : List (Option (Option ℕ))

def Ideal.empty : Ideal := ⟨[], []⟩

/-- The value of a handle that has not been destroyed. -/
def Ideal.get (g : Ideal) (i : ℕ) : Option (Option ℕ) := (g.slots[i]?).join

/-- The node a live, non-null handle points to. -/
def Ideal.deref (g : Ideal) (i : ℕ) : Option (ℕ × Cell) :=
  match g.get i with
  | some (some n) => (g.cells[n]?).map (n, ·)
  | _ => none

def Ideal.read (g : Ideal) : Src → Option (Option ℕ)
  | .slot i => g.get i
  | .arg i right => (g.deref i).map fun r => if right then r.2.args.2 else r.2.args.1
  | .adj i => (g.deref i).map fun r => r.2.adj

def Ideal.operand (g : Ideal) : Option ℕ → Option (Option ℕ)
  | none => some none
  | some i => g.get i

/-- The source is not a field of the node the assigned handle points to (`x = x->args[0]`). -/
def Src.apart (i : ℕ) : Src → Prop
  | .slot _ => True
  | .arg j _ => j ≠ i
  | .adj j => j ≠ i

instance (i : ℕ) (src : Src) : Decidable (src.apart i) := by
  cases src <;> unfold Src.apart <;> infer_instance

/-- The operations; `none` if the program uses a handle it destroyed, follows a null handle, or assigns
a handle from a field of the node it points to. -/
def Ideal.step (g : Ideal) : Op → Option Ideal
  | .null => some { g with slots := g.slots ++ [some none] }
  | .make l r =>
    match g.operand l, g.operand r with
    | some pl, some pr =>
      some ⟨g.cells ++ [⟨(pl, pr), none⟩], g.slots ++ [some (some g.cells.length)]⟩
    | _, _ => none
  | .copy src => (g.read src).map fun p => { g with slots := g.slots ++ [some p] }
  | .move i => (g.get i).map fun p => { g with slots := g.slots.set i (some none) ++ [some p] }
  | .takeAdj i => (g.deref i).map fun r =>
      ⟨g.cells.set r.1 { r.2 with adj := none }, g.slots ++ [some r.2.adj]⟩
  | .assign i src =>
    if src.apart i then
      match g.get i, g.read src with
      | some _, some q => some { g with slots := g.slots.set i (some q) }
      | _, _ => none
    else none
  | .moveAssign i j =>
    match g.get i, g.get j with
    | some p, some q => some { g with slots := (g.slots.set i (some q)).set j (some p) }
    | _, _ => none
  | .moveToAdj i j =>
    match g.deref i, g.get j with
    | some r, some q =>
      some ⟨g.cells.set r.1 { r.2 with adj := q }, g.slots.set j (some r.2.adj)⟩
    | _, _ => none
  | .destroy i => (g.get i).map fun _ => { g with slots := g.slots.set i none }

def Ideal.run : List Op → Ideal → Option Ideal
  | [], g => some g
  | o :: os, g => (g.step o).bind (Ideal.run os)

/-- Node `n` has a pointer field to node `t`. -/
def Ideal.Links (g : Ideal) (n t : ℕ) : Prop :=
  ∃ c, g.cells[n]? = some c ∧ (c.adj = some t ∨ c.args.1 = some t ∨ c.args.2 = some t)

/-- A live handle can reach the node. -/
inductive Ideal.Reach (g : Ideal) : ℕ → Prop
  | handle {n : ℕ} (h : some (some n) ∈ g.slots) : Reach g n
  | link {n t : ℕ} (h : Reach g n) (l : g.Links n t) : Reach g t

/-- No derivative link is in place. (`gradient_tree` clears them before it returns, see
`Slp.no_links_retained`.) -/
def Ideal.Unlinked (g : Ideal) : Prop := ∀ (n : ℕ) (c : Cell), g.cells[n]? = some c → c.adj = none

/-- The links do not form a cycle. -/
def Ideal.Acyclic (g : Ideal) : Prop := ∃ rank : ℕ → ℕ, ∀ n t, g.Links n t → rank t < rank n

end Slp.Mem
