import Verif.Solver.RestoreLoopModel

/-!
Model of `sqp()` (`optimization/solver/sqp.hpp`) without diagnostics, in the style of `IpmModel`. The problem has
no inequality constraints.
-/

namespace Slp

open Classical

variable {n m : ℕ}

/-- `unscaled_kkt_error<INF_NORM_SCALED>(scaling, g, A_e, c_e, y)` (`sqp.hpp:243-244,566`). -/
noncomputable def errZeroSqp (env : Env) (S : Scaling m 0) (e : Eval n m 0) (y : Vec m) : Fl :=
  if e.g.Finite ∧ e.Ae.Finite ∧ e.ce.Finite ∧ y.Finite then
    .fin (unscaledInfSqp S e.g.real e.Ae.real e.ce.real y.real)
  else env.junk 9 (e.toList Fin.elim0 y Fin.elim0)

/-- `kkt_error<ONE_NORM>(g, A_e, c_e, y)` (`sqp.hpp:484-485,493-494`). -/
noncomputable def errOneSqp (env : Env) (e : Eval n m 0) (y : Vec m) : Fl :=
  if e.g.Finite ∧ e.Ae.Finite ∧ e.ce.Finite ∧ y.Finite then
    .fin (kktOneSqp e.g.real e.Ae.real e.ce.real y.real)
  else env.junk 10 (e.toList Fin.elim0 y Fin.elim0)

/-- The local variables at the head of the loop (`sqp.hpp:90-99,187-224`). -/
structure SqpState (n m : ℕ) where
  x : Vec n
  y : Vec m
  e : Eval n m 0
  filter : Filter
  rejected : ℕ
  iterations : ℕ
  E0 : Fl

/-- What `sqp()` returns (`sqp.hpp:90-99`). -/
structure SqpResult (n m : ℕ) where
  status : ExitStatus
  x : Vec n
  y : Vec m
  iterations : ℕ
  world : World

/-- `return status;` in the loop (the returns at `sqp.hpp:213,219,269,274,283,321,586,591`). -/
def SqpState.exit (st : SqpState n m) (status : ExitStatus) (w : World) : SqpResult n m :=
  ⟨status, st.x, st.y, st.iterations, w⟩

/-- `{iterations, x, {}, y, {}, g, H, A_e, {}}` (`sqp.hpp:282`). -/
def SqpState.info (st : SqpState n m) : Info :=
  ⟨⟨st.iterations, List.ofFn st.x, [], List.ofFn st.y, []⟩, List.ofFn st.e.g, FMat.rows st.e.H, FMat.rows st.e.Ae, []⟩

/-- A trial point (`sqp.hpp:345-350`). -/
structure SqpTrial (n m : ℕ) where
  x : Vec n
  y : Vec m
  f : Fl
  ce : Vec m

/-- The linear system of an iteration (`sqp.hpp:289-306`), `ce` being the constraint values in its right-hand side
(`sqp.hpp:419-420` for a second-order correction). -/
noncomputable def SqpState.system (st : SqpState n m) (env : Env) (ce : Vec m) : LinSystem :=
  ⟨n, m, kktLhsF env st.e Fin.elim0 Fin.elim0, fun i =>
    if st.e.g.Finite ∧ st.e.Ae.Finite ∧ st.y.Finite ∧ ce.Finite then
      .fin (sqpRhs st.e.g.real st.e.Ae.real ce.real st.y.real i)
    else env.junk 16 (.fin i :: st.e.toList Fin.elim0 st.y Fin.elim0 ++ List.ofFn ce)⟩

/-- `Step` (`sqp.hpp:102-107`). -/
structure SqpStep (n m : ℕ) where
  px : Vec n
  py : Vec m

/-- `compute_step()` (`sqp.hpp:327-333`) with the linear solver's answer number `i`. -/
noncomputable def sqpComputeStep (env : Env) (st : SqpState n m) (ce : Vec m) (i : ℕ) : SqpStep n m :=
  let p := env.solve i (st.system env ce)
  { px := fun j => p j
    py := fun j => -p (n + j) }

/-- The trial point (`sqp.hpp:346-350,424-428,487-491`). -/
noncomputable def sqpTrial (P : Nlp n m 0) (st : SqpState n m) (p : SqpStep n m) (α : Fl) : SqpTrial n m :=
  let x : Vec n := fun j => st.x j + α * p.px j
  ⟨x, fun j => st.y j + α * p.py j, P.f x, P.ce x⟩

/-- `FilterEntry{f, c_e}` (`sqp.hpp:341,366,431,513,527`). -/
noncomputable def sqpEntry (f : Fl) (ce : Vec m) : FilterEntry := .sqp f (List.ofFn ce)

/-- The derivatives at a trial point (`sqp.hpp:493-494`). -/
def SqpTrial.eval (t : SqpTrial n m) (P : Nlp n m 0) : Eval n m 0 :=
  ⟨t.f, P.g t.x, P.H t.x t.y Fin.elim0, t.ce, P.Ae t.x, Fin.elim0, Fin.elim0⟩

/-- `current_entry` (`sqp.hpp:341`). -/
noncomputable def SqpState.entry (st : SqpState n m) : FilterEntry := sqpEntry st.e.f st.e.ce

/-- The result of the second-order corrections (`sqp.hpp:382-449`). -/
structure SqpSoc (n m : ℕ) where
  filter : Filter
  solves : ℕ
  accepted : Option (SqpTrial n m)

/-- The second-order corrections (`sqp.hpp:390-450`): at most as many rounds as given, with `c_e_soc`, the trial point,
`soc_constraint_violation`, the filter and the number of answers of the linear solver so far. `α_soc` never changes. -/
noncomputable def sqpSocLoop (env : Env) (P : Nlp n m 0) (st : SqpState n m) (D α : Fl) :
    ℕ → Vec m → SqpTrial n m → Fl → Filter → ℕ → SqpSoc n m
  | 0, _, _, _, F, i => ⟨F, i, none⟩
  | r + 1, ce, t, viol, F, i =>
    let ce' : Vec m := fun j => α * ce j + t.ce j
    let t' := sqpTrial P st (sqpComputeStep env st ce' i) α
    let a := F.tryAdd st.entry (sqpEntry t'.f t'.ce) D α
    if a.2 then ⟨a.1, i + 1, some t'⟩
    else if norm1 (List.ofFn t'.ce) > .fin 0.99 * viol then ⟨a.1, i + 1, none⟩
    else sqpSocLoop env P st D α r ce' t' (norm1 (List.ofFn t'.ce)) a.1 (i + 1)

/-- The second-order corrections if they are to be tried (`sqp.hpp:372-387`). -/
noncomputable def sqpSoc (env : Env) (P : Nlp n m 0) (st : SqpState n m) (D α : Fl) (t : SqpTrial n m)
    (F : Filter) (i : ℕ) : SqpSoc n m :=
  if α = 1 ∧ norm1 (List.ofFn t.ce) ≥ norm1 (List.ofFn st.e.ce) then
    sqpSocLoop env P st D α 5 st.e.ce t (norm1 (List.ofFn t.ce)) F i
  else ⟨F, i, none⟩

/-- The values of the local variables after the line search (`sqp.hpp:345-505`). -/
structure SqpLineSearch (n m : ℕ) where
  accepted : Option (Reason × SqpTrial n m × Fl)
  α : Fl
  filter : Filter
  rejected : ℕ
  solves : ℕ

/-- The line search (`sqp.hpp:345-505`), at most as many rounds as given, for the step `p`. -/
noncomputable def sqpLineSearch (env : Env) (P : Nlp n m 0) (st : SqpState n m) (p : SqpStep n m) (D : Fl) :
    ℕ → Fl → Filter → ℕ → ℕ → Option (SqpLineSearch n m)
  | 0, _, _, _, _ => none
  | r + 1, α, F, c, i =>
    let t := sqpTrial P st p α
    if ¬ (t.f.isFinite = true ∧ t.ce.Finite) then
      if α * .fin 0.5 < alphaMin then some ⟨none, α * .fin 0.5, F, c, i⟩
      else sqpLineSearch env P st p D r (α * .fin 0.5) F c i
    else
      let a := F.tryAdd st.entry (sqpEntry t.f t.ce) D α
      if a.2 then some ⟨some (.filter, t, α), α, a.1, c, i⟩
      else
        let soc := sqpSoc env P st D α t a.1 i
        soc.accepted.elim
          (let c' := if α = 1 then c + 1 else c
           if c' ≥ 4 ∧ soc.filter.maxViolation > st.entry.violation / .fin 10 ∧
              soc.filter.lastRejectionDueToFilter then
            sqpLineSearch env P st p D r α soc.filter.shrink c' soc.solves
           else if α * .fin 0.5 < alphaMin then
            let t' := sqpTrial P st p 1
            if errOneSqp env (t'.eval P) t'.y ≤ .fin 0.999 * errOneSqp env st.e st.y then
              some ⟨some (.kktError, t', 1), α * .fin 0.5, soc.filter, c', soc.solves⟩
            else some ⟨none, α * .fin 0.5, soc.filter, c', soc.solves⟩
           else sqpLineSearch env P st p D r (α * .fin 0.5) soc.filter c' soc.solves)
          (fun t => some ⟨some (.correction, t, α), α, soc.filter, c, soc.solves⟩)

/-- The outcome of the part of an iteration up to the new iterate (`sqp.hpp:320-563`). -/
inductive SqpMoved (n m : ℕ) where
  | stop (r : SqpResult n m)
  | go (st : SqpState n m) (w : World)

/-- Case distinction (`sqp.hpp:320-563`). -/
def SqpMoved.elim {β : Type} (stop : SqpResult n m → β) (go : SqpState n m → World → β) : SqpMoved n m → β
  | .stop r => stop r
  | .go st w => go st w

/-- The callback that ends feasibility restoration (`sqp.hpp:521-535`), with the initial entry (`sqp.hpp:513`). -/
noncomputable def extraSqp (env : Env) (P : Nlp n m 0) (st : SqpState n m) (α : Fl) : Extra := fun F info =>
  let initial := sqpEntry (P.f st.x) st.e.ce
  let x : Vec n := fun i => info.x.getD i .nan
  let entry := sqpEntry (P.f x) (P.ce x)
  let D := dotF env st.e.g fun i => x i - st.x i
  if entry.violation < .fin 0.9 * initial.violation then F.tryAdd initial entry D α else (F, false)

/-- Feasibility restoration called by the SQP solver (`sqp.hpp:513-545`, `feasibility_restoration.hpp:117-325`).
The restoration problem (`feasibility_restoration.hpp:151-302`) is that of `frProblem` without inequality
constraints. -/
noncomputable def restoreSqp (env : Env) (opts : SolverOptions) (P : Nlp n m 0) (cbs : List Callback)
    (st : SqpState n m) (α : Fl) (w : World) : Option (SqpMoved n m) :=
  (frRun env opts P cbs (extraSqp env P st α) st.x Fin.elim0 (.fin (opts.tolerance / 10)) st.iterations w
    st.filter).map fun res =>
      let x : Vec n := fun i => res.x (Fin.castAdd _ i)
      if res.status = .callbackRequestedStop then
        let y : Vec m := fun i =>
          env.estimate res.world.estimates ⟨n, m, 0, P.g x, P.Ae x, Fin.elim0, Fin.elim0, 0⟩ i
        .go { st with x, y, e := P.eval x y Fin.elim0, filter := res.extraFilter, iterations := res.iterations }
          { res.world with estimates := res.world.estimates + 1, vars := P.vars x }
      else
        .stop ⟨if res.status = .success then .locallyInfeasible else .feasibilityRestorationFailed,
          x, st.y, res.iterations, res.world⟩

/-- The state after an accepted step (`sqp.hpp:547-557`), with derivatives (`561-563`). -/
noncomputable def SqpState.accept (st : SqpState n m) (P : Nlp n m 0) (t : SqpTrial n m) (α : Fl) :
    SqpState n m :=
  { st with x := t.x, y := t.y, rejected := if α = 1 then 0 else st.rejected, e := t.eval P }

/-- From the factorisation to the new iterate (`sqp.hpp:320-563`). -/
noncomputable def sqpMove (env : Env) (opts : SolverOptions) (P : Nlp n m 0) (cbs : List Callback)
    (st : SqpState n m) (w : World) : Option (SqpMoved n m) :=
  if env.factor w.factors = false then
    some (.stop (st.exit .factorizationFailed { w with factors := w.factors + 1 }))
  else
    let p := sqpComputeStep env st st.e.ce w.solves
    (sqpLineSearch env P st p (dotF env st.e.g p.px) lineSearchRounds 1 st.filter st.rejected
      (w.solves + 1)).bind fun ls =>
        let st' := { st with filter := ls.filter, rejected := ls.rejected }
        let w' := { w with factors := w.factors + 1, solves := ls.solves }
        ls.accepted.elim (restoreSqp env opts P cbs st' ls.α w') fun b =>
          some (.go (st'.accept P b.2.1 ls.α) { w' with vars := P.vars b.2.1.x })

/-- The solver's loop (`sqp.hpp:259-595`), at most as many rounds as given. -/
noncomputable def sqpLoop (env : Env) (opts : SolverOptions) (P : Nlp n m 0) (cbs : List Callback) (start : ℝ) :
    ℕ → SqpState n m → World → Option (SqpResult n m)
  | 0, _, _ => none
  | r + 1, st, w =>
    if ¬ st.E0 > .fin opts.tolerance then some (st.exit .success w)
    else if eqInfeasible env st.e.Ae st.e.ce then some (st.exit .locallyInfeasible w)
    else if diverging env st.x then some (st.exit .divergingIterates w)
    else
      let cb := runRegistered st.info 0 cbs w.calls
      let w1 := { w with calls := cb.1, trace := w.trace ++ [⟨false, st.info, 0, 0⟩], seen := w.seen ++ [w.vars] }
      if cb.2 then some (st.exit .callbackRequestedStop w1)
      else (sqpMove env opts P cbs st w1).bind <| SqpMoved.elim some fun st2 w2 =>
        let st3 := { st2 with E0 := errZeroSqp env P.scaling st2.e st2.y, iterations := st2.iterations + 1 }
        if (st3.iterations : ℤ) ≥ opts.maxIterations then some (st3.exit .maxIterationsExceeded w2)
        else
          let elapsed := env.clock w2.reads - start
          if Fl.fin elapsed > opts.timeout then some (st3.exit .timeout (w2.tick false elapsed))
          else sqpLoop env opts P cbs start r st3 (w2.tick false elapsed)

/-- The local variables before the loop (`sqp.hpp:187-244`). -/
noncomputable def sqpInit (env : Env) (P : Nlp n m 0) (x : Vec n) (y : Vec m) : SqpState n m :=
  let e := P.eval x y Fin.elim0
  { x, y, e, filter := .make (norm1 (List.ofFn e.ce)), rejected := 0, iterations := 0
    E0 := errZeroSqp env P.scaling e y }

/-- `sqp()` (`sqp.hpp:90-596`). -/
noncomputable def sqpRun (env : Env) (opts : SolverOptions) (P : Nlp n m 0) (cbs : List Callback)
    (x : Vec n) (y : Vec m) (w : World) : Option (SqpResult n m) :=
  let start := env.clock w.reads
  let w1 := { w with reads := w.reads + 1, vars := P.vars x }
  let st := sqpInit env P x y
  if m > n then some (st.exit .tooFewDofs w1)
  else if ¬ st.e.Finite then some (st.exit .nonfiniteInitialGuess w1)
  else sqpLoop env opts P cbs start (loopRounds opts 0) st w1

/-- `sqp()` as called by `Problem::solve()` (`sqp.hpp:55-66`). -/
noncomputable def sqp (env : Env) (opts : SolverOptions) (P : Nlp n m 0) (cbs : List Callback) (x : Vec n)
    (w : World) : Option (SqpResult n m) :=
  sqpRun env opts P cbs x (fun _ => 0) w

end Slp
