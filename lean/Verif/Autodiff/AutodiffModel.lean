import Verif.Autodiff.ExprModel

/-!
Model of `include/sleipnir/autodiff/expression_graph.hpp` (`update_values`, `append_triplets`),
`variable_matrix.hpp` (`gradient_tree`), `variable.hpp` (`Variable::set_value`, `Variable::value`),
`jacobian.hpp`, `gradient.hpp` and `hessian.hpp`.

Functions that can hit undefined behaviour (dereferencing a null `adjoint_expr`) or run out of loop
fuel return `none` in that case.
-/

namespace Slp

open ScalarOps

variable {S : Type} [ScalarOps S]

/-- `topological_sort` (`expression_graph.hpp:28-78`): empty for a null or CONSTANT root, otherwise
the two passes of `Graph.sortFrom`. -/
def topoSort (h : Heap S) (root : Option ℕ) : Option (List ℕ × Heap S) :=
  match root with
  | none => some ([], h)
  | some r =>
    if h.ty r = .constant then some ([], h)
    else match Graph.sortFrom h.args r h.scratch with
      | none => none
      | some (l, sc) => some (l, { h with scratch := sc })

/-- Body of the loop of `update_values` (`expression_graph.hpp:89-94`). -/
def updateNode (h : Heap S) (n : ℕ) : Heap S :=
  match (h.args n).1 with
  | none => h
  | some l =>
    let rv := match (h.args n).2 with
      | none => zero
      | some r => h.val r
    { h with val := Function.update h.val n (opVal (h.op n) (h.val l) rv) }

/-- `update_values` (`expression_graph.hpp:86-96`): from child to parent, that is in reverse. -/
def updateValues (l : List ℕ) (h : Heap S) : Heap S := l.reverse.foldl updateNode h

/-- Adjoint initialisation (`expression_graph.hpp:120-125`): one for the root, zero elsewhere. -/
def initAdjoints (l : List ℕ) (h : Heap S) : Heap S :=
  match l with
  | [] => h
  | r :: rest =>
    let h := { h with adjoint := Function.update h.adjoint r one }
    rest.foldl (fun h n => { h with adjoint := Function.update h.adjoint n zero }) h

/-- `x->adjoint += d` (`expression_graph.hpp:138-142`). -/
def addAdjoint (h : Heap S) (x : ℕ) (d : S) : Heap S :=
  { h with adjoint := Function.update h.adjoint x (ScalarOps.add (h.adjoint x) d) }

/-- Body of the accumulation loop of `append_triplets` (`expression_graph.hpp:132-144`). -/
def accumulate (h : Heap S) (n : ℕ) : Heap S :=
  match (h.args n).1 with
  | none => h
  | some l =>
    match (h.args n).2 with
    | some r =>
      let h1 := addAdjoint h l (gradL (h.op n) (h.adjoint n) (h.val l) (h.val r))
      addAdjoint h1 r (gradR (h1.op n) (h1.adjoint n) (h1.val l) (h1.val r))
    | none => addAdjoint h l (gradL (h.op n) (h.adjoint n) (h.val l) zero)

/-- An `Eigen::Triplet` (as used in `expression_graph.hpp:111,151`,
`jacobian.hpp:103,153`, `hessian.hpp:98,151`). -/
structure Triplet (S : Type) where
  row : ℕ
  col : ℕ
  value : S

/-- `append_triplets` (`expression_graph.hpp:106-153`). Returns the appended triplets. -/
def appendTriplets (top : List ℕ) (out : List (ℕ × ℕ)) (row : ℕ) (h : Heap S) :
    List (Triplet S) × Heap S :=
  match top with
  | [] => ([], h)
  | _ =>
    let h := initAdjoints top h
    let h := top.foldl accumulate h
    (out.map fun cn => ⟨row, cn.1, h.adjoint cn.2⟩, h)

/-- `Eigen::SparseMatrix::setFromTriplets` read as a function: duplicates are summed, absent entries
are zero (as used in `expression_graph.hpp:111,151`, `jacobian.hpp:103,153`,
`hessian.hpp:98,151`). -/
def fromTriplets (ts : List (Triplet S)) (i j : ℕ) : S :=
  ts.foldl (fun acc t => if t.row = i ∧ t.col = j then ScalarOps.add acc t.value else acc) zero

/-! ### `gradient_tree` -/

/-- `x->adjoint_expr += e` (`expression.hpp:279-282`). -/
def addAdjE (x e : ℕ) (h : Heap S) : Heap S :=
  let s := addOpt (h.adjE x) (some e) h
  { s.2 with adjE := Function.update s.2.adjE x s.1 }

/-- Body of the loop of `gradient_tree` (`variable_matrix.hpp:1775-1789`). `none` if the node's
`adjoint_expr` is null, which the C++ would dereference. -/
def treeStep (h : Heap S) (n : ℕ) : Option (Heap S) :=
  match (h.args n).1 with
  | none => some h
  | some l =>
    match h.adjE n with
    | none => none
    | some a =>
      match (h.args n).2 with
      | some r =>
        let g := gradEL (h.op n) a l r h
        let h1 := addAdjE l g.1 g.2
        match h1.adjE n with
        | none => none
        | some a' =>
          let g' := gradER (h1.op n) a' l r h1
          some (addAdjE r g'.1 g'.2)
      | none =>
        let g := gradEL (h.op n) a l l h
        some (addAdjE l g.1 g.2)

/-- Moving the gradients out of the `wrt` nodes (`variable_matrix.hpp:1792-1795`); a moved-from
pointer is null. -/
def takeAdjE : List ℕ → Heap S → List (Option ℕ) × Heap S
  | [], h => ([], h)
  | w :: ws, h =>
    let g := h.adjE w
    let rest := takeAdjE ws { h with adjE := Function.update h.adjE w none }
    (g :: rest.1, rest.2)

/-- Unlinking (`variable_matrix.hpp:1800-1802`). -/
def clearAdjE (l : List ℕ) (h : Heap S) : Heap S :=
  l.foldl (fun h n => { h with adjE := Function.update h.adjE n none }) h

/-- `gradient_tree` (`variable_matrix.hpp:1757-1805`): one (possibly null) expression per `wrt`. -/
def gradientTree (top wrt : List ℕ) (h : Heap S) : Option (List (Option ℕ) × Heap S) :=
  match top with
  | [] => some (wrt.map fun _ => none, h)
  | root :: _ =>
    let c := mkConst one h
    let h := { c.2 with adjE := Function.update c.2.adjE root (some c.1) }
    match top.foldlM treeStep h with
    | none => none
    | some h =>
      let g := takeAdjE wrt h
      some (g.1, clearAdjE top g.2)

/-! ### `Variable` -/

/-- The members of `Variable` (`variable.hpp:270-279`): the expression and the cached graph
(`none` while `m_graph_initialized` is false). -/
structure VarObj where
  expr : ℕ
  graph : Option (List ℕ)

/-- `Variable::set_value` (`variable.hpp:125-138`); the warning printed for dependent variables is
not modelled. -/
def setValue (x : VarObj) (v : S) (h : Heap S) : Heap S :=
  { h with val := Function.update h.val x.expr v }

/-- `Variable::value` (`variable.hpp:143-151`). -/
def value (x : VarObj) (h : Heap S) : Option (S × VarObj × Heap S) :=
  match x.graph with
  | some l =>
    let h := updateValues l h
    some (h.val x.expr, x, h)
  | none =>
    match topoSort h (some x.expr) with
    | none => none
    | some (l, h) =>
      let h := updateValues l h
      some (h.val x.expr, { x with graph := some l }, h)

/-! ### `Jacobian` and `Hessian` -/

/-- The members of `Jacobian` (`jacobian.hpp:159-177`) and of `Hessian` (`hessian.hpp:160-178`).
`vars` are the row expressions (null entries occur in `Hessian`), `mat` is `m_J` / `m_H`, read as a
function of row and column. -/
structure JacObj (S : Type) where
  vars : List (Option ℕ)
  wrt : List ℕ
  topLists : List (List ℕ)
  outLists : List (List (ℕ × ℕ))
  cached : List (Triplet S)
  nonlinear : List ℕ
  mat : ℕ → ℕ → S

/-- `topological_sort` of each row (`jacobian.hpp:60-62`, `hessian.hpp:55-57`). -/
def sortAll : List (Option ℕ) → Heap S → Option (List (List ℕ) × Heap S)
  | [], h => some ([], h)
  | v :: vs, h =>
    match topoSort h v with
    | none => none
    | some (l, h1) =>
      match sortAll vs h1 with
      | none => none
      | some (ls, h2) => some (l :: ls, h2)

/-- Assigning columns to `scratch` (`jacobian.hpp:65-67`, `hessian.hpp:60-62`), starting at column
`col`. -/
def markCols : List ℕ → ℕ → Graph.Scratch → Graph.Scratch
  | [], _, sc => sc
  | w :: ws, col, sc => markCols ws (col + 1) (Function.update sc w (col : ℤ))

/-- Resetting `scratch` (`jacobian.hpp:80-82`, `hessian.hpp:75-77`). -/
def unmarkCols (wrt : List ℕ) (sc : Graph.Scratch) : Graph.Scratch :=
  wrt.foldl (fun sc w => Function.update sc w (-1)) sc

/-- The output list of one row (`jacobian.hpp:71-76`, `hessian.hpp:66-71`): column-node pairs of the
nodes of the row that are in `wrt`. -/
def outList (sc : Graph.Scratch) (top : List ℕ) : List (ℕ × ℕ) :=
  top.filterMap fun n => if sc n ≠ -1 then some ((sc n).toNat, n) else none

/-- The row loop of the constructors (`jacobian.hpp:84-100`, `hessian.hpp:79-95`), starting at row
`row`: linear rows are cached, rows of higher type are remembered. -/
def cacheRows : List (Option ℕ) → List (List ℕ) → List (List (ℕ × ℕ)) → ℕ → Heap S →
    List (Triplet S) × List ℕ × Heap S
  | v :: vs, t :: ts, o :: os, row, h =>
    match v with
    | none => cacheRows vs ts os (row + 1) h
    | some e =>
      if h.ty e = .linear then
        let a := appendTriplets t o row h
        let rest := cacheRows vs ts os (row + 1) a.2
        (a.1 ++ rest.1, rest.2)
      else
        let rest := cacheRows vs ts os (row + 1) h
        if Ty.rank .linear < (h.ty e).rank then (rest.1, row :: rest.2.1, rest.2.2) else rest
  | _, _, _, _, h => ([], [], h)

/-- `Jacobian::Jacobian` (`jacobian.hpp:54-105`); also the part of `Hessian::Hessian` after
`gradient_tree` (`hessian.hpp:53-98`). -/
def jacobian (vars : List (Option ℕ)) (wrt : List ℕ) (h : Heap S) : Option (JacObj S × Heap S) :=
  match sortAll vars h with
  | none => none
  | some (tops, h) =>
    let sc := markCols wrt 0 h.scratch
    let outs := tops.map (outList sc)
    let h := { h with scratch := unmarkCols wrt sc }
    let c := cacheRows vars tops outs 0 h
    some ({ vars := vars, wrt := wrt, topLists := tops, outLists := outs, cached := c.1,
            nonlinear := c.2.1,
            mat := if c.2.1 = [] then fromTriplets c.1 else fun _ _ => zero }, c.2.2)

/-- Triplets of the nonlinear rows (`jacobian.hpp:148-151`, `hessian.hpp:146-149`). -/
def nonlinearTriplets (J : JacObj S) : List ℕ → Heap S → List (Triplet S) × Heap S
  | [], h => ([], h)
  | row :: rows, h =>
    let a := appendTriplets (J.topLists.getD row []) (J.outLists.getD row []) row h
    let rest := nonlinearTriplets J rows a.2
    (a.1 ++ rest.1, rest.2)

/-- `Jacobian::value` (`jacobian.hpp:134-156`); also `Hessian::value` without the triangular view
(`hessian.hpp:132-151`). -/
def JacObj.value (J : JacObj S) (h : Heap S) : (ℕ → ℕ → S) × JacObj S × Heap S :=
  if J.nonlinear = [] then (J.mat, J, h)
  else
    let h := J.topLists.foldl (fun h l => updateValues l h) h
    let r := nonlinearTriplets J J.nonlinear h
    let m := fromTriplets (J.cached ++ r.1)
    (m, { J with mat := m }, r.2)

/-- One entry of `Jacobian::get` (`jacobian.hpp:119-125`): a null gradient becomes the constant
zero. -/
def fillNull : List (Option ℕ) → Heap S → List ℕ × Heap S
  | [], h => ([], h)
  | some e :: gs, h =>
    let rest := fillNull gs h
    (e :: rest.1, rest.2)
  | none :: gs, h =>
    let c := mkConst zero h
    let rest := fillNull gs c.2
    (c.1 :: rest.1, rest.2)

/-- `Jacobian::get` (`jacobian.hpp:113-129`) and `Hessian::get` (`hessian.hpp:111-127`): a list of
rows of expressions. -/
def getRows (wrt : List ℕ) : List (List ℕ) → Heap S → Option (List (List ℕ) × Heap S)
  | [], h => some ([], h)
  | t :: ts, h =>
    match gradientTree t wrt h with
    | none => none
    | some (g, h1) =>
      let f := fillNull g h1
      match getRows wrt ts f.2 with
      | none => none
      | some (rs, h2) => some (f.1 :: rs, h2)

/-- `Jacobian::get` (`jacobian.hpp:113-129`). -/
def JacObj.get (J : JacObj S) (h : Heap S) : Option (List (List ℕ) × Heap S) :=
  getRows J.wrt J.topLists h

/-- `Hessian::Hessian` (`hessian.hpp:49-103`): the Jacobian of the gradient expressions. The lower
triangular view is applied in `hessianValue`. -/
def hessian (v : ℕ) (wrt : List ℕ) (h : Heap S) : Option (JacObj S × Heap S) :=
  match topoSort h (some v) with
  | none => none
  | some (top, h) =>
    match gradientTree top wrt h with
    | none => none
    | some (g, h) => jacobian g wrt h

/-- `Hessian::value` (`hessian.hpp:132-157`); `lower` is `UpLo == Eigen::Lower`, for which the upper
triangle is dropped. -/
def hessianValue (lower : Bool) (H : JacObj S) (h : Heap S) : (ℕ → ℕ → S) × JacObj S × Heap S :=
  let r := H.value h
  (fun i j => if lower && i < j then zero else r.1 i j, r.2)

end Slp
