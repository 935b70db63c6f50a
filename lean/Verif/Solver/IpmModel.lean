import Verif.Solver.LoopModel

/-!
Model of `interior_point()` (`optimization/solver/interior_point.hpp`) without diagnostics and without
`SLEIPNIR_ENABLE_BOUND_PROJECTION`. A function that contains a `while` loop returns `none` if the loop does not
end within a number of rounds given here; that this does not happen is proved in the property files.
-/

namespace Slp

open Classical

variable {n m k : ℕ}

/-- The local variables of the solver at the head of its loop. `e` holds `f`, `g`, `H`, `c_e`, `A_e`, `c_i` and
`A_i`, `rejected` is `full_step_rejected_counter` (the local variables
`interior_point.hpp:131-134,245-251,301-304,358`). -/
structure IpmState (n m k : ℕ) where
  x : Vec n
  s : Vec k
  y : Vec m
  z : Vec k
  e : Eval n m k
  μ : Fl
  τ : Fl
  filter : Filter
  rejected : ℕ
  iterations : ℕ
  E0 : Fl

/-- What a solver returns: the exit status, the parameters passed by reference, the world and the filter of
the `Extra` callback (`interior_point.hpp:122-134`). -/
structure IpmResult (n m k : ℕ) where
  status : ExitStatus
  x : Vec n
  s : Vec k
  y : Vec m
  z : Vec k
  iterations : ℕ
  world : World
  extraFilter : Filter

/-- `return status;` in the loop (the returns at `interior_point.hpp:392,401,407,416,464,727,766,856,861`). -/
def IpmState.exit (st : IpmState n m k) (status : ExitStatus) (w : World) (E : Filter) : IpmResult n m k :=
  ⟨status, st.x, st.s, st.y, st.z, st.iterations, w, E⟩

/-- `{iterations, x, s, y, z, g, H, A_e, A_i}` (`interior_point.hpp:415`). -/
def IpmState.info (st : IpmState n m k) : Info :=
  ⟨⟨st.iterations, List.ofFn st.x, List.ofFn st.s, List.ofFn st.y, List.ofFn st.z⟩, List.ofFn st.e.g, FMat.rows st.e.H,
    FMat.rows st.e.Ae, FMat.rows st.e.Ai⟩

/-! ### Barrier parameter -/

/-- The update of `μ` (`interior_point.hpp:322`). -/
noncomputable def nextMu (μmin μ : Fl) : Fl := Fl.max μmin (Fl.min (.fin 0.2 * μ) (Fl.pow μ 1.5))

/-- The update of `τ` (`interior_point.hpp:329`). -/
noncomputable def nextTau (μ : Fl) : Fl := Fl.max (.fin 0.99) (1 - μ)

/-- `update_barrier_parameter_and_reset_filter()` (`interior_point.hpp:308-333`). -/
noncomputable def IpmState.updateBarrier (st : IpmState n m k) (μmin : Fl) : IpmState n m k :=
  { st with μ := nextMu μmin st.μ, τ := nextTau (nextMu μmin st.μ), filter := st.filter.reset }

/-- `μ_min` (`interior_point.hpp:294-295`). -/
noncomputable def muMin (S : Scaling m k) (opts : SolverOptions) : Fl := .fin (S.f * opts.tolerance / 10)

/-- The loop that decreases the barrier parameter (`interior_point.hpp:825-831`), at most as many rounds as
given. -/
noncomputable def barrierLoop (env : Env) (μmin : Fl) : ℕ → IpmState n m k → Option (IpmState n m k)
  | 0, _ => none
  | r + 1, st =>
    if st.μ > μmin ∧ errInfIpm env st.e st.s st.y st.z st.μ ≤ .fin 10 * st.μ then
      barrierLoop env μmin r (st.updateBarrier μmin)
    else some st

/-- A number of rounds that suffices (fuel of the loop at `interior_point.hpp:827`). -/
noncomputable def barrierRounds (μmin μ : Fl) : ℕ := ⌈μ.toReal / μmin.toReal⌉₊ + 2

/-! ### Steps -/

/-- `Step` (`interior_point.hpp:140-149`). -/
structure IpmStep (n m k : ℕ) where
  px : Vec n
  ps : Vec k
  py : Vec m
  pz : Vec k

/-- The linear system of an iteration (`interior_point.hpp:423-440`) with a right-hand side. -/
noncomputable def IpmState.system (st : IpmState n m k) (env : Env) (rhs : Vec (n + m)) : LinSystem :=
  ⟨n, m, kktLhsF env st.e st.s st.z, rhs⟩

/-- `rhs` of the Newton step (`interior_point.hpp:442-448`). -/
noncomputable def IpmState.rhs (st : IpmState n m k) (env : Env) : Vec (n + m) :=
  ipmRhsF env st.e st.s st.y st.z st.μ

/-- `rhs` of a second-order correction (`interior_point.hpp:613-616`). -/
noncomputable def IpmState.socRhs (st : IpmState n m k) (env : Env) (ce : Vec m) (cis : Vec k) : Vec (n + m) :=
  socRhsF env st.e st.s st.y st.z st.μ ce cis

/-- `compute_step()` (`interior_point.hpp:470-481`) with the linear solver's answer number `i`. -/
noncomputable def ipmComputeStep (env : Env) (st : IpmState n m k) (rhs : Vec (n + m)) (cis : Vec k) (i : ℕ) :
    IpmStep n m k :=
  let p := env.solve i (st.system env rhs)
  let px : Vec n := fun j => p j
  let ps : Vec k := fun j => cis j + mulVecF env st.e.Ai px j
  { px, ps
    py := fun j => -p (n + j)
    pz := fun j => st.μ * (1 / st.s j) - st.z j - 1 / st.s j * st.z j * ps j }

/-- A trial point (`interior_point.hpp:264-271`). -/
structure Trial (n m k : ℕ) where
  x : Vec n
  s : Vec k
  y : Vec m
  z : Vec k
  f : Fl
  ce : Vec m
  ci : Vec k

/-- The trial point for step sizes `α` and `αz` (`interior_point.hpp:513-528,626-633,695-702`); `feasible` tells
whether the slacks become the constraint values. -/
noncomputable def ipmTrial (P : Nlp n m k) (st : IpmState n m k) (p : IpmStep n m k) (α αz : Fl)
    (feasible : Prop) : Trial n m k :=
  let x : Vec n := fun i => st.x i + α * p.px i
  { x
    s := if feasible then P.ci x else fun i => st.s i + α * p.ps i
    y := fun i => st.y i + αz * p.py i
    z := fun i => st.z i + αz * p.pz i
    f := P.f x
    ce := P.ce x
    ci := P.ci x }

/-- `FilterEntry{f, s, c_e, c_i, μ}` (`interior_point.hpp:499,545,636,730`). -/
noncomputable def ipmEntry (f : Fl) (s : Vec k) (ce : Vec m) (ci : Vec k) (μ : Fl) : FilterEntry :=
  .ipm f (List.ofFn s) (List.ofFn ce) (List.ofFn ci) μ

/-- `c_e.lpNorm<1>() + (c_i - s).lpNorm<1>()` (`interior_point.hpp:551-555,650-652`). -/
noncomputable def violationF (ce : Vec m) (ci s : Vec k) : Fl :=
  norm1 (List.ofFn ce) + norm1 (List.ofFn fun i => ci i - s i)

/-- The entry of a trial point (`interior_point.hpp:545,636`). -/
noncomputable def Trial.entry (t : Trial n m k) (μ : Fl) : FilterEntry := ipmEntry t.f t.s t.ce t.ci μ

/-- `current_entry` (`interior_point.hpp:499`). -/
noncomputable def IpmState.entry (st : IpmState n m k) : FilterEntry := ipmEntry st.e.f st.s st.e.ce st.e.ci st.μ

/-- `D_ϕ` (`interior_point.hpp:508-509`). -/
noncomputable def ipmSlope (env : Env) (st : IpmState n m k) (p : IpmStep n m k) : Fl :=
  dotF env st.e.g p.px - st.μ * dotF env (fun i => 1 / st.s i) p.ps

/-! ### Line search -/

/-- The result of the second-order corrections: the filter, the number of answers of the linear solver, and the
accepted point with `α_soc` and `α_z_soc` (`interior_point.hpp:564-573,637-643`). -/
structure SocResult (n m k : ℕ) where
  filter : Filter
  solves : ℕ
  accepted : Option (Trial n m k × Fl × Fl)

/-- The second-order corrections (`interior_point.hpp:574-658`): at most as many rounds as given, with `α_soc`,
`c_e_soc`, `c_i_minus_s_soc`, the trial point, `soc_constraint_violation`, the filter and the number of answers of the
linear solver so far. -/
noncomputable def socLoop (env : Env) (P : Nlp n m k) (st : IpmState n m k) (D α : Fl) :
    ℕ → Fl → Vec m → Vec k → Trial n m k → Fl → Filter → ℕ → SocResult n m k
  | 0, _, _, _, _, _, F, i => ⟨F, i, none⟩
  | r + 1, αs, ce, cis, t, viol, F, i =>
    let ce' : Vec m := fun j => αs * ce j + t.ce j
    let cis' : Vec k := fun j => αs * cis j + t.ci j - t.s j
    let p := ipmComputeStep env st (st.socRhs env ce' cis') cis' i
    let αs' := boundaryF st.s p.ps st.τ
    let αz' := boundaryF st.z p.pz st.τ
    let t' := ipmTrial P st p αs' αz' False
    let a := F.tryAdd st.entry (t'.entry st.μ) D α
    if a.2 then ⟨a.1, i + 1, some (t', αs', αz')⟩
    else if violationF t'.ce t'.ci t'.s > .fin 0.99 * viol then ⟨a.1, i + 1, none⟩
    else socLoop env P st D α r αs' ce' cis' t' (violationF t'.ce t'.ci t'.s) a.1 (i + 1)

/-- The second-order corrections if they are to be tried (`interior_point.hpp:550-571`). -/
noncomputable def ipmSoc (env : Env) (P : Nlp n m k) (st : IpmState n m k) (D α αmax : Fl) (t : Trial n m k)
    (F : Filter) (i : ℕ) : SocResult n m k :=
  if α = αmax ∧ violationF t.ce t.ci t.s ≥ violationF st.e.ce st.e.ci st.s then
    socLoop env P st D α 5 α st.e.ce (fun j => st.e.ci j - st.s j) t (violationF t.ce t.ci t.s) F i
  else ⟨F, i, none⟩

/-- How a step was accepted: by the filter, by the filter after a second-order correction, or because the KKT
error decreased (`interior_point.hpp:546-549,637-642,709-712`). -/
inductive Reason where
  | filter
  | correction
  | kktError
  deriving DecidableEq

/-- The values of the local variables after the line search. `accepted` is the trial point if the loop ended
with `break` after a step was accepted, and empty if it set `call_feasibility_restoration`. `used` is the step
size of the accepted point, which is not `α` if the KKT error decided (`interior_point.hpp:454-457,512-717`). -/
structure LineSearch (n m k : ℕ) where
  accepted : Option (Reason × Trial n m k × Fl)
  α : Fl
  filter : Filter
  rejected : ℕ
  solves : ℕ

/-- `α_min` (`interior_point.hpp:356`). -/
noncomputable def alphaMin : Fl := .fin 1e-7

/-- The check whether a trial point's values are finite (`interior_point.hpp:532-533`). -/
def Trial.Finite (t : Trial n m k) : Prop := t.f.isFinite = true ∧ t.ce.Finite ∧ t.ci.Finite

/-- `max_constraint_violation *= 0.1` and `reset()` (`interior_point.hpp:681-682`). -/
noncomputable def Filter.shrink (F : Filter) : Filter :=
  Filter.reset { F with maxViolation := F.maxViolation * .fin 0.1 }

/-- Whether the slacks follow the constraints (`interior_point.hpp:515`). -/
def feasibleMode (opts : SolverOptions) (st : IpmState n m k) : Prop :=
  opts.feasibleIpm = true ∧ ∀ i, st.e.ci i > 0

/-- The derivatives at a trial point with its constraint values (`interior_point.hpp:704-706`). -/
def Trial.eval (t : Trial n m k) (P : Nlp n m k) : Eval n m k :=
  ⟨t.f, P.g t.x, P.H t.x t.y t.z, t.ce, P.Ae t.x, t.ci, P.Ai t.x⟩

/-- The line search (`interior_point.hpp:512-717`), at most as many rounds as given, with `α`, the filter,
`full_step_rejected_counter` and the number of answers of the linear solver so far. -/
noncomputable def ipmLineSearch (env : Env) (opts : SolverOptions) (P : Nlp n m k) (st : IpmState n m k)
    (p : IpmStep n m k) (αmax αz D : Fl) : ℕ → Fl → Filter → ℕ → ℕ → Option (LineSearch n m k)
  | 0, _, _, _, _ => none
  | r + 1, α, F, c, i =>
    let t := ipmTrial P st p α αz (feasibleMode opts st)
    if ¬ t.Finite then
      if α * .fin 0.5 < alphaMin then some ⟨none, α * .fin 0.5, F, c, i⟩
      else ipmLineSearch env opts P st p αmax αz D r (α * .fin 0.5) F c i
    else
      let a := F.tryAdd st.entry (t.entry st.μ) D α
      if a.2 then some ⟨some (.filter, t, α), α, a.1, c, i⟩
      else
        let soc := ipmSoc env P st D α αmax t a.1 i
        soc.accepted.elim
          (let c' := if α = αmax then c + 1 else c
           if c' ≥ 4 ∧ soc.filter.maxViolation > st.entry.violation / .fin 10 ∧
              soc.filter.lastRejectionDueToFilter then
            ipmLineSearch env opts P st p αmax αz D r α soc.filter.shrink c' soc.solves
           else if α * .fin 0.5 < alphaMin then
            let t' := ipmTrial P st p αmax αz False
            if errOneIpm env (t'.eval P) t'.s t'.y t'.z st.μ ≤
                .fin 0.999 * errOneIpm env st.e st.s st.y st.z st.μ then
              some ⟨some (.kktError, t', αmax), α * .fin 0.5, soc.filter, c', soc.solves⟩
            else some ⟨none, α * .fin 0.5, soc.filter, c', soc.solves⟩
           else ipmLineSearch env opts P st p αmax αz D r (α * .fin 0.5) soc.filter c' soc.solves)
          (fun b => some ⟨some (.correction, b.1, b.2.1), b.2.1, soc.filter, c, soc.solves⟩)

/-- A number of rounds that suffices: 24 halvings from one to below `α_min`, one filter reset. -/
def lineSearchRounds : ℕ := 26

/-! ### The loop -/

/-- The outcome of the part of an iteration up to the new iterate: the solver returns, or continues with an
iterate, `α` having served its purpose (`interior_point.hpp:463-812`). -/
inductive Moved (n m k : ℕ) where
  | stop (r : IpmResult n m k)
  | go (st : IpmState n m k) (w : World) (E : Filter)

/-- Case distinction (`interior_point.hpp:463-812`). -/
def Moved.elim {β : Type} (stop : IpmResult n m k → β) (go : IpmState n m k → World → Filter → β) :
    Moved n m k → β
  | .stop r => stop r
  | .go st w E => go st w E

/-- What to do when the line search asks for feasibility restoration: given the state (with the filter and
counter after the line search), `α`, the world and the `Extra` filter (`interior_point.hpp:721-771`). -/
abbrev RestoreFn (n m k : ℕ) := IpmState n m k → Fl → World → Filter → Option (Moved n m k)

/-- The state after an accepted step (`interior_point.hpp:773-806`), with derivatives (`809-812`). -/
noncomputable def IpmState.accept (st : IpmState n m k) (P : Nlp n m k) (t : Trial n m k) (α αmax : Fl) :
    IpmState n m k :=
  let z : Vec k := fun i => clampDualF st.μ (t.s i) (t.z i)
  { st with
    x := t.x, s := t.s, y := t.y, z
    rejected := if α = αmax then 0 else st.rejected
    e := ⟨t.f, P.g t.x, P.H t.x t.y z, t.ce, P.Ae t.x, t.ci, P.Ai t.x⟩ }

/-- From the factorisation to the new iterate (`interior_point.hpp:463-812`). -/
noncomputable def ipmMove (env : Env) (opts : SolverOptions) (P : Nlp n m k) (restore : RestoreFn n m k)
    (st : IpmState n m k) (w : World) (E : Filter) : Option (Moved n m k) :=
  if env.factor w.factors = false then
    some (.stop (st.exit .factorizationFailed { w with factors := w.factors + 1 } E))
  else
    let p := ipmComputeStep env st (st.rhs env) (fun i => st.e.ci i - st.s i) w.solves
    let αmax := boundaryF st.s p.ps st.τ
    let αz := boundaryF st.z p.pz st.τ
    (ipmLineSearch env opts P st p αmax αz (ipmSlope env st p) lineSearchRounds αmax st.filter st.rejected
      (w.solves + 1)).bind fun ls =>
        let st' := { st with filter := ls.filter, rejected := ls.rejected }
        let w' := { w with factors := w.factors + 1, solves := ls.solves }
        if αmax < alphaMin then restore st' ls.α w' E
        else ls.accepted.elim (restore st' ls.α w' E) fun b =>
          some (.go (st'.accept P b.2.1 ls.α αmax) { w' with vars := P.vars b.2.1.x } E)

/-- The end of an iteration (`interior_point.hpp:815-852`): the error, the barrier parameter and the
iteration counter. -/
noncomputable def ipmFinish (env : Env) (opts : SolverOptions) (P : Nlp n m k) (st : IpmState n m k) :
    Option (IpmState n m k) :=
  let st1 := { st with E0 := errZeroIpm env P.scaling st.e st.s st.y st.z }
  let μmin := muMin P.scaling opts
  (if st1.E0 > .fin opts.tolerance then barrierLoop env μmin (barrierRounds μmin st1.μ) st1 else some st1).map
    fun st2 => { st2 with iterations := st2.iterations + 1 }

/-- The callbacks' calls at the head of the loop (`interior_point.hpp:414-418`): the world and the `Extra` filter
afterwards, and whether a callback requested a stop. `inner` is `in_feasibility_restoration`. -/
def ipmNotify (cbs : List Callback) (extra : Extra) (inner : Bool) (st : IpmState n m k) (w : World) (E : Filter) :
    World × Filter × Bool :=
  let cb := runCallbacks cbs extra st.info w.calls E
  ({ w with calls := cb.1, trace := w.trace ++ [⟨inner, st.info, st.μ, st.τ⟩], seen := w.seen ++ [w.vars] }, cb.2.1, cb.2.2)

/-- The world after the clock was read at the end of an iteration (`interior_point.hpp:852-861`). -/
def World.tick (w : World) (inner : Bool) (elapsed : ℝ) : World :=
  { w with reads := w.reads + 1, ends := w.ends ++ [(inner, elapsed)] }

/-- The solver's loop (`interior_point.hpp:382-865`), at most as many rounds as given. `start` is
`solve_start_time`. -/
noncomputable def ipmLoop (env : Env) (opts : SolverOptions) (P : Nlp n m k) (cbs : List Callback) (extra : Extra)
    (inner : Bool) (restore : RestoreFn n m k) (start : ℝ) :
    ℕ → IpmState n m k → World → Filter → Option (IpmResult n m k)
  | 0, _, _, _ => none
  | r + 1, st, w, E =>
    if ¬ st.E0 > .fin opts.tolerance then some (st.exit .success w E)
    else if eqInfeasible env st.e.Ae st.e.ce then some (st.exit .locallyInfeasible w E)
    else if ineqInfeasible env st.e.Ai st.e.ci then some (st.exit .locallyInfeasible w E)
    else if diverging env st.x ∨ diverging env st.s then some (st.exit .divergingIterates w E)
    else
      let c := ipmNotify cbs extra inner st w E
      if c.2.2 then some (st.exit .callbackRequestedStop c.1 c.2.1)
      else (ipmMove env opts P restore st c.1 c.2.1).bind <| Moved.elim some fun st2 w2 E2 =>
        (ipmFinish env opts P st2).bind fun st3 =>
          if (st3.iterations : ℤ) ≥ opts.maxIterations then some (st3.exit .maxIterationsExceeded w2 E2)
          else
            let elapsed := env.clock w2.reads - start
            if Fl.fin elapsed > opts.timeout then some (st3.exit .timeout (w2.tick inner elapsed) E2)
            else ipmLoop env opts P cbs extra inner restore start r st3 (w2.tick inner elapsed) E2

/-- A number of rounds that suffices (fuel; the code bounds the loop at `interior_point.hpp:855`). -/
def loopRounds (opts : SolverOptions) (iterations : ℕ) : ℕ := max 1 (opts.maxIterations - iterations).toNat

/-- The local variables before the loop (`interior_point.hpp:245-362`). -/
noncomputable def ipmInit (env : Env) (P : Nlp n m k) (x : Vec n) (s : Vec k) (y : Vec m) (z : Vec k) (μ : Fl)
    (iterations : ℕ) : IpmState n m k :=
  let e := P.eval x y z
  { x, s, y, z, e, μ, τ := .fin 0.99, filter := .make (violationF e.ce e.ci s), rejected := 0, iterations
    E0 := errZeroIpm env P.scaling e s y z }

/-- `interior_point()` (`interior_point.hpp:122-866`). -/
noncomputable def ipmRun (env : Env) (opts : SolverOptions) (P : Nlp n m k) (cbs : List Callback) (extra : Extra)
    (inner : Bool) (restore : RestoreFn n m k) (x : Vec n) (s : Vec k) (y : Vec m) (z : Vec k) (μ : Fl)
    (iterations : ℕ) (w : World) (E : Filter) : Option (IpmResult n m k) :=
  let start := env.clock w.reads
  let w1 := { w with reads := w.reads + 1, vars := P.vars x }
  let st := ipmInit env P x s y z μ iterations
  if m > n then some (st.exit .tooFewDofs w1 E)
  else if ¬ st.e.Finite then some (st.exit .nonfiniteInitialGuess w1 E)
  else ipmLoop env opts P cbs extra inner restore start (loopRounds opts iterations) st w1 E

end Slp
