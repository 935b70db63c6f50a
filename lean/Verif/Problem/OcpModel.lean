import Verif.Problem.ProblemModel

/-!
Model of `optimization/ocp.hpp`.

Columns of the state and input matrices are vectors of expressions. The dynamics function is a pure function of the
expressions it is given that returns a column of `num_states` rows. `ty` is the type that autodiff reports for an
expression (C04).
-/

namespace Slp

/-- `DynamicsType` (`ocp/dynamics_type.hpp:10-15`). -/
inductive DynamicsType where
  | explicitOde
  | discrete

/-- `TimestepMethod` (`ocp/timestep_method.hpp:10-18`). -/
inductive TimestepMethod where
  | fixed
  | variable
  | variableSingle

/-- `TranscriptionMethod` (`ocp/transcription_method.hpp:10-20`). -/
inductive TranscriptionMethod where
  | directTranscription
  | directCollocation
  | singleShooting

/-- The dynamics `f(t, x, u, dt)` for `ns` states and `ni` inputs (`ocp.hpp:107-121`). -/
abbrev Dynamics (ns ni : ℕ) := Term → (Fin ns → Term) → (Fin ni → Term) → Term → Fin ns → Term

/-- The dynamics of the constructor that takes `f(x, u)` (`ocp.hpp:77-85`). -/
def Dynamics.ofTwo {ns ni : ℕ} (f : (Fin ns → Term) → (Fin ni → Term) → Fin ns → Term) : Dynamics ns ni :=
  fun _ x u _ => f x u

/-- Matrix addition (`variable_matrix.hpp:751-763`). -/
def colAdd {n : ℕ} (x y : Fin n → Term) : Fin n → Term := fun r => .bin .add (x r) (y r)

/-- Matrix subtraction (`variable_matrix.hpp:843-855`). -/
def colSub {n : ℕ} (x y : Fin n → Term) : Fin n → Term := fun r => .bin .sub (x r) (y r)

/-- Matrix times scalar and scalar times matrix (`variable_matrix.hpp:574-637`). -/
def colMul {n : ℕ} (x : Fin n → Term) (s : Term) : Fin n → Term := fun r => .bin .mul (x r) s

/-- `rk4(f, x, u, t0, dt)` (`ocp.hpp:310-319`). -/
noncomputable def rk4 {ns ni : ℕ} (f : Dynamics ns ni) (x : Fin ns → Term) (u : Fin ni → Term) (t0 dt : Term) :
    Fin ns → Term :=
  let halfdt : Term := .bin .mul dt (.lit 0.5)
  let k1 := f t0 x u dt
  let k2 := f (.bin .add t0 halfdt) (colAdd x (colMul k1 halfdt)) u dt
  let k3 := f (.bin .add t0 halfdt) (colAdd x (colMul k2 halfdt)) u dt
  let k4 := f (.bin .add t0 dt) (colAdd x (colMul k3 dt)) u dt
  colAdd x (colMul (colAdd (colAdd (colAdd k1 (colMul k2 (.lit 2))) (colMul k3 (.lit 2))) k4) (.bin .div dt (.lit 6)))

/-- `OCP` (`ocp.hpp:49`, `291-301`). The matrices are given by columns. -/
structure Ocp (ns ni : ℕ) where
  problem : Problem
  store : Store
  steps : ℕ
  X : ℕ → Fin ns → Term
  U : ℕ → Fin ni → Term
  DT : ℕ → Term

/-- The constraints of `lhs == rhs` for columns (`variable.hpp:762-778`). -/
def eqConstraints (ty : Term → Ty) {n : ℕ} (lhs rhs : Fin n → Term) : List UserExpr :=
  List.ofFn fun r => let t : Term := .bin .sub (lhs r) (rhs r); ⟨t, ty t⟩

/-- The constraints of `lhs >= rhs` for columns (`variable.hpp:762-778`, `967-1001`). -/
def geConstraints (ty : Term → Ty) {n : ℕ} (lhs rhs : Fin n → Term) : List UserExpr :=
  List.ofFn fun r => let t : Term := .bin .sub (lhs r) (rhs r); ⟨t, ty t⟩

section

variable {ns ni : ℕ} (ty : Term → Ty) (f : Dynamics ns ni) (X : ℕ → Fin ns → Term) (U : ℕ → Fin ni → Term)
  (DT : ℕ → Term)

/-- The dynamics over one step: an RK4 step or the transition function (`ocp.hpp:367-376`, `390-397`). -/
noncomputable def advance (dyn : DynamicsType) (x : Fin ns → Term) (u : Fin ni → Term) (time dt : Term) :
    Fin ns → Term :=
  match dyn with
  | .explicitOde => rk4 f x u time dt
  | .discrete => f time x u dt

/-- The loop body of `constrain_direct_transcription()` (`ocp.hpp:362-379`). -/
noncomputable def transcribeStep (dyn : DynamicsType) (st : Problem × Term) (i : ℕ) : Problem × Term :=
  (st.1.subjectToEq (eqConstraints ty (X (i + 1)) (advance f dyn (X i) (U i) st.2 (DT i))),
    .bin .add st.2 (DT i))

/-- `constrain_direct_transcription()` (`ocp.hpp:358-380`). -/
noncomputable def transcribe (dyn : DynamicsType) (steps : ℕ) (p : Problem) : Problem :=
  ((List.range steps).foldl (transcribeStep ty f X U DT dyn) (p, .lit 0)).1

/-- The two sides of the collocation constraint (`ocp.hpp:329-352`). -/
noncomputable def collocationSides (i : ℕ) (t_begin : Term) : (Fin ns → Term) × (Fin ns → Term) :=
  let h := DT i
  let t_end : Term := .bin .add t_begin h
  let xdot_begin := f t_begin (X i) (U i) h
  let xdot_end := f t_end (X (i + 1)) (U (i + 1)) h
  let xdot_c := colSub (colMul (colSub (X i) (X (i + 1))) (.bin .div (.lit (-3)) (.bin .mul (.lit 2) h)))
    (colMul (colAdd xdot_begin xdot_end) (.lit 0.25))
  let t_c : Term := .bin .add t_begin (.bin .mul (.lit 0.5) h)
  let x_c := colAdd (colMul (colAdd (X i) (X (i + 1))) (.lit 0.5))
    (colMul (colSub xdot_begin xdot_end) (.bin .div h (.lit 8)))
  let u_c := colMul (colAdd (U i) (U (i + 1))) (.lit 0.5)
  (xdot_c, f t_c x_c u_c h)

/-- The loop body of `constrain_direct_collocation()` (`ocp.hpp:328-355`). -/
noncomputable def collocateStep (st : Problem × Term) (i : ℕ) : Problem × Term :=
  let s := collocationSides f X U DT i st.2
  (st.1.subjectToEq (eqConstraints ty s.1 s.2), .bin .add st.2 (DT i))

/-- `constrain_direct_collocation()` (`ocp.hpp:321-356`), after its assertion. -/
noncomputable def collocate (steps : ℕ) (p : Problem) : Problem :=
  ((List.range steps).foldl (collocateStep ty f X U DT) (p, .lit 0)).1

/-- The loop body of `constrain_single_shooting()` (`ocp.hpp:385-400`). -/
noncomputable def shootStep (dyn : DynamicsType) (st : (ℕ → Fin ns → Term) × Term) (i : ℕ) :
    (ℕ → Fin ns → Term) × Term :=
  (Function.update st.1 (i + 1) (advance f dyn (st.1 i) (U i) st.2 (DT i)), .bin .add st.2 (DT i))

/-- `constrain_single_shooting()` (`ocp.hpp:382-401`): the states afterwards. -/
noncomputable def shoot (dyn : DynamicsType) (steps : ℕ) : ℕ → Fin ns → Term :=
  ((List.range steps).foldl (shootStep f U DT dyn) (X, .lit 0)).1

end

/-- A column of a matrix of variables (`ocp.hpp:187-188,336-340,363-365`). -/
def VarTable.col (t : VarTable) {n : ℕ} (j : ℕ) (r : Fin n) : Term := ((t r j).map Term.var).getD (.lit 0)

/-- `set_value(v)` on the variables `ks` (`ocp.hpp:130,140`). -/
def Store.setAll (s : Store) (ks : List ℕ) (v : Fl) : Store := { s with val := fun k => if k ∈ ks then v else s.val k }

/-- The timesteps (`ocp.hpp:123-142`). With fixed timesteps, the variables with which the matrix is first filled are
all replaced and are left out. -/
noncomputable def makeTimesteps (p : Problem) (s : Store) (dt : ℝ) (steps : ℕ) :
    TimestepMethod → Problem × Store × (ℕ → Term)
  | .fixed => (p, s, fun _ => .lit dt)
  | .variableSingle =>
      let v := p.decisionVariable s
      (v.2.1, v.2.2.setAll [v.1] (.fin dt), fun _ => .var v.1)
  | .variable =>
      let d := p.decisionMatrix s 1 (steps + 1)
      (d.problem, d.store.setAll ((List.range (steps + 1)).filterMap (d.table 0)) (.fin dt),
        fun i => d.table.col (n := 1) i 0)

/-- The constructor (`ocp.hpp:107-157`) for sizes that are not negative. `none` is the failed assertion in
`constrain_direct_collocation()`. The variables of a matrix outside of the problem are created like those of a
decision matrix (`variable_matrix.hpp:55-60`). -/
noncomputable def Ocp.new (ty : Term → Ty) (ns ni : ℕ) (dt : ℝ) (steps : ℕ) (f : Dynamics ns ni) (dyn : DynamicsType)
    (tm : TimestepMethod) (method : TranscriptionMethod) (s : Store) : Option (Ocp ns ni) :=
  let u := Problem.new.decisionMatrix s ni (steps + 1)
  let d := makeTimesteps u.problem u.store dt steps tm
  match method with
  | .directTranscription =>
      let x := d.1.decisionMatrix d.2.1 ns (steps + 1)
      some ⟨transcribe ty f x.table.col u.table.col d.2.2 dyn steps x.problem, x.store, steps, x.table.col, u.table.col,
        d.2.2⟩
  | .directCollocation =>
      let x := d.1.decisionMatrix d.2.1 ns (steps + 1)
      match dyn with
      | .explicitOde =>
          some ⟨collocate ty f x.table.col u.table.col d.2.2 steps x.problem, x.store, steps, x.table.col, u.table.col,
            d.2.2⟩
      | .discrete => none
  | .singleShooting =>
      let x := Problem.new.decisionMatrix d.2.1 ns (steps + 1)
      some ⟨d.1, x.store, steps, shoot f x.table.col u.table.col d.2.2 dyn steps, u.table.col, d.2.2⟩

section

variable {ns ni : ℕ} (ty : Term → Ty) (o : Ocp ns ni)

/-- `constrain_initial_state(initial_state)` (`ocp.hpp:162-166`, `283`). A scalar counts for all rows. -/
def Ocp.constrainInitial (x : Fin ns → Term) : Ocp ns ni :=
  { o with problem := o.problem.subjectToEq (eqConstraints ty (o.X 0) x) }

/-- `constrain_final_state(final_state)` (`ocp.hpp:171-175`, `288`). -/
def Ocp.constrainFinal (x : Fin ns → Term) : Ocp ns ni :=
  { o with problem := o.problem.subjectToEq (eqConstraints ty (o.X o.steps) x) }

/-- `for_each_step(callback)` (`ocp.hpp:199-214`). The callback may do anything to the program's state `σ`. -/
noncomputable def Ocp.forEachStep {σ : Type} (callback : Term → (Fin ns → Term) → (Fin ni → Term) → Term → σ → σ)
    (s : σ) : σ :=
  ((List.range (o.steps + 1)).foldl (fun (st : σ × Term) i =>
    (callback st.2 (o.X i) (o.U i) (o.DT i) st.1, .bin .add st.2 (o.DT i))) (s, .lit 0)).1

/-- `for_each_step(callback)` for a callback of two parameters (`ocp.hpp:183-191`). -/
def Ocp.forEachStepTwo {σ : Type} (callback : (Fin ns → Term) → (Fin ni → Term) → σ → σ) (s : σ) : σ :=
  (List.range (o.steps + 1)).foldl (fun st i => callback (o.X i) (o.U i) st) s

/-- `set_lower_input_bound(lower_bound)` (`ocp.hpp:220-226`). -/
def Ocp.setLowerInput (b : Fin ni → Term) : Ocp ns ni :=
  { o with problem := (List.range (o.steps + 1)).foldl (fun p i => p.subjectToIneq (geConstraints ty (o.U i) b)) o.problem }

/-- `set_upper_input_bound(upper_bound)` (`ocp.hpp:232-238`); `a <= b` is `b >= a` (`variable.hpp:941-952`). -/
def Ocp.setUpperInput (b : Fin ni → Term) : Ocp ns ni :=
  { o with problem := (List.range (o.steps + 1)).foldl (fun p i => p.subjectToIneq (geConstraints ty b (o.U i))) o.problem }

/-- `set_min_timestep(min_timestep)` (`ocp.hpp:243-245`). -/
def Ocp.setMinTimestep (d : ℝ) : Ocp ns ni :=
  { o with problem := o.problem.subjectToIneq (geConstraints ty (fun i : Fin (o.steps + 1) => o.DT i) fun _ => .lit d) }

/-- `set_max_timestep(max_timestep)` (`ocp.hpp:250-252`). -/
def Ocp.setMaxTimestep (d : ℝ) : Ocp ns ni :=
  { o with problem := o.problem.subjectToIneq (geConstraints ty (fun _ => .lit d) fun i : Fin (o.steps + 1) => o.DT i) }

end

end Slp
