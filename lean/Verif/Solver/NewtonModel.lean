import Verif.Solver.IpmModel

/-!
Model of `newton()` (`optimization/solver/newton.hpp`) without diagnostics, in the style of `IpmModel`. The problem
has no constraints.
-/

namespace Slp

open Classical

variable {n : ℕ}

/-- `unscaled_kkt_error<INF_NORM_SCALED>(scaling, g)` (`newton.hpp:145-146,261`). -/
noncomputable def errZeroNewton (env : Env) (S : Scaling 0 0) (g : Vec n) : Fl :=
  if g.Finite then .fin (unscaledInfNewton S g.real) else env.junk 11 (List.ofFn g)

/-- `kkt_error<ONE_NORM>(g)` (`newton.hpp:230,234-235`). -/
noncomputable def errOneNewton (env : Env) (g : Vec n) : Fl :=
  if g.Finite then .fin (kktOneNewton g.real) else env.junk 12 (List.ofFn g)

/-- The local variables at the head of the loop (`newton.hpp:114-134`). -/
structure NewtonState (n : ℕ) where
  x : Vec n
  f : Fl
  g : Vec n
  H : FMat n n
  filter : Filter
  iterations : ℕ
  E0 : Fl

/-- What `newton()` returns (`newton.hpp:50-55`). -/
structure NewtonResult (n : ℕ) where
  status : ExitStatus
  x : Vec n
  iterations : ℕ
  world : World

/-- `return status;` in the loop (the returns at `newton.hpp:129,167,176,213,245,280,285`). -/
def NewtonState.exit (st : NewtonState n) (status : ExitStatus) (w : World) : NewtonResult n :=
  ⟨status, st.x, st.iterations, w⟩

/-- `{iterations, x, {}, {}, {}, g, H, {}, {}}` (`newton.hpp:175`). -/
def NewtonState.info (st : NewtonState n) : Info :=
  ⟨⟨st.iterations, List.ofFn st.x, [], [], []⟩, List.ofFn st.g, FMat.rows st.H, [], []⟩

/-- `FilterEntry{f}` (`filter.hpp:35-37`). -/
noncomputable def newtonEntry (f : Fl) : FilterEntry := ⟨f, 0⟩

/-- The linear system of an iteration (`newton.hpp:183-191`). -/
noncomputable def NewtonState.system (st : NewtonState n) : LinSystem :=
  ⟨n, 0, fun i j => if j ≤ i then st.H i j else st.H j i, fun i => -st.g i⟩

/-- `p_x` (`newton.hpp:191`), the linear solver's answer number `i`. -/
noncomputable def newtonStep (env : Env) (st : NewtonState n) (i : ℕ) : Vec n := fun j => env.solve i st.system j

/-- `x + α p_x` (`newton.hpp:203,232`). -/
noncomputable def newtonPoint (env : Env) (st : NewtonState n) (i : ℕ) (α : Fl) : Vec n :=
  fun j => st.x j + α * newtonStep env st i j

/-- `α_min` (`newton.hpp:142`). -/
noncomputable def newtonAlphaMin : Fl := .fin 1e-20

/-- The values after the line search: the accepted point with its cost and step size, empty if the search
failed (`newton.hpp:202-247`). -/
structure NewtonLineSearch (n : ℕ) where
  accepted : Option (Reason × Vec n × Fl × Fl)
  filter : Filter

/-- The line search (`newton.hpp:202-247`), at most as many rounds as given. -/
noncomputable def newtonLineSearch (env : Env) (P : Nlp n 0 0) (st : NewtonState n) (i : ℕ) (D : Fl) :
    ℕ → Fl → Filter → Option (NewtonLineSearch n)
  | 0, _, _ => none
  | r + 1, α, F =>
    let x := newtonPoint env st i α
    if ¬ (P.f x).isFinite = true then
      if α * .fin 0.5 < newtonAlphaMin then some ⟨none, F⟩
      else newtonLineSearch env P st i D r (α * .fin 0.5) F
    else
      let a := F.tryAdd (newtonEntry st.f) (newtonEntry (P.f x)) D α
      if a.2 then some ⟨some (.filter, x, P.f x, α), a.1⟩
      else if α * .fin 0.5 < newtonAlphaMin then
        let x' := newtonPoint env st i 1
        if errOneNewton env (P.g x') ≤ .fin 0.999 * errOneNewton env st.g then
          some ⟨some (.kktError, x', P.f x', 1), a.1⟩
        else some ⟨none, a.1⟩
      else newtonLineSearch env P st i D r (α * .fin 0.5) a.1

/-- A number of rounds that suffices (`newton.hpp:202-247`). -/
def newtonRounds : ℕ := 68

/-- The solver's loop (`newton.hpp:161-289`), at most as many rounds as given. A failed factorisation is not
noticed. -/
noncomputable def newtonLoop (env : Env) (opts : SolverOptions) (P : Nlp n 0 0) (cbs : List Callback) (start : ℝ) :
    ℕ → NewtonState n → World → Option (NewtonResult n)
  | 0, _, _ => none
  | r + 1, st, w =>
    if ¬ st.E0 > .fin opts.tolerance then some (st.exit .success w)
    else if diverging env st.x then some (st.exit .divergingIterates w)
    else
      let cb := runRegistered st.info 0 cbs w.calls
      let w1 := { w with calls := cb.1, trace := w.trace ++ [⟨false, st.info, 0, 0⟩], seen := w.seen ++ [w.vars] }
      if cb.2 then some (st.exit .callbackRequestedStop w1)
      else
        let w2 := { w1 with factors := w1.factors + 1, solves := w1.solves + 1 }
        (newtonLineSearch env P st w1.solves (dotF env st.g (newtonStep env st w1.solves)) newtonRounds 1
          st.filter).bind fun ls =>
            ls.accepted.elim (some (st.exit .lineSearchFailed w2)) fun b =>
              let x := b.2.1
              let st3 : NewtonState n :=
                { x, f := b.2.2.1, g := P.g x, H := P.H x Fin.elim0 Fin.elim0, filter := ls.filter
                  iterations := st.iterations + 1, E0 := errZeroNewton env P.scaling (P.g x) }
              let w3 := { w2 with vars := P.vars x }
              if (st3.iterations : ℤ) ≥ opts.maxIterations then some (st3.exit .maxIterationsExceeded w3)
              else
                let elapsed := env.clock w3.reads - start
                if Fl.fin elapsed > opts.timeout then some (st3.exit .timeout (w3.tick false elapsed))
                else newtonLoop env opts P cbs start r st3 (w3.tick false elapsed)

/-- The local variables before the loop (`newton.hpp:114-146`). -/
noncomputable def newtonInit (env : Env) (P : Nlp n 0 0) (x : Vec n) : NewtonState n :=
  { x, f := P.f x, g := P.g x, H := P.H x Fin.elim0 Fin.elim0, filter := .make 0, iterations := 0
    E0 := errZeroNewton env P.scaling (P.g x) }

/-- `newton()` (`newton.hpp:50-290`). -/
noncomputable def newton (env : Env) (opts : SolverOptions) (P : Nlp n 0 0) (cbs : List Callback) (x : Vec n)
    (w : World) : Option (NewtonResult n) :=
  let start := env.clock w.reads
  let w1 := { w with reads := w.reads + 1, vars := P.vars x }
  let st := newtonInit env P x
  if ¬ (st.f.isFinite = true ∧ st.g.Finite ∧ st.H.Finite) then some (st.exit .nonfiniteInitialGuess w1)
  else newtonLoop env opts P cbs start (loopRounds opts 0) st w1

end Slp
