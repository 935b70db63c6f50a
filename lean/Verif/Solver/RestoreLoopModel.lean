import Verif.Solver.IpmModel
import Verif.Solver.RestoreModel
import Mathlib.Data.Fin.Tuple.Basic

/-!
Model of `feasibility_restoration()` (`optimization/solver/util/feasibility_restoration.hpp`) as it is called by
the interior-point solver, and of the interior-point solver with feasibility restoration. The functions of the
restoration problem are those of `RestoreModel`, here for all floating-point arguments and with dense Jacobians.
-/

namespace Slp

open Classical

variable {n m k : ℕ}

/-- The number of relaxation variables `pₑ`, `nₑ`, `pᵢ` and `nᵢ` (`feasibility_restoration.hpp:408,411`). -/
abbrev relaxed (m k : ℕ) : ℕ := 2 * m + 2 * k

/-- `x_p.segment(0, num_vars)` (`feasibility_restoration.hpp:437,449`). -/
def frOrigin (xp : Vec (n + relaxed m k)) : Vec n := fun j => xp (Fin.castAdd _ j)

/-- The relaxation variables, `x_p.segment(num_vars, 2 * num_eq + 2 * num_ineq)`
(`feasibility_restoration.hpp:443`). -/
def frRelax (xp : Vec (n + relaxed m k)) : Vec (relaxed m k) := fun j => xp (Fin.natAdd _ j)

/-- `pₑ` (`feasibility_restoration.hpp:408-409,501-552`). -/
def frPe (pn : Vec (relaxed m k)) : Vec m := fun i => pn ⟨i, by have := i.2; unfold relaxed; omega⟩
/-- `nₑ` (`feasibility_restoration.hpp:408-409,501-552`). -/
def frNe (pn : Vec (relaxed m k)) : Vec m := fun i => pn ⟨m + i, by have := i.2; unfold relaxed; omega⟩
/-- `pᵢ` (`feasibility_restoration.hpp:408-409,501-552`). -/
def frPi (pn : Vec (relaxed m k)) : Vec k := fun i => pn ⟨2 * m + i, by have := i.2; unfold relaxed; omega⟩
/-- `nᵢ` (`feasibility_restoration.hpp:408-409,501-552`). -/
def frNi (pn : Vec (relaxed m k)) : Vec k := fun i => pn ⟨2 * m + k + i, by have := i.2; unfold relaxed; omega⟩

/-- An element of `Dᵣ` (`feasibility_restoration.hpp:163-164,405-406`). -/
noncomputable def frWeight (x : Fl) : Fl := Fl.min (1 / (x * x)) 1

/-- The restoration problem (`feasibility_restoration.hpp:426-594`), `xr` being the iterate at which the
restoration starts and `μ` being `fr_μ`. The constraint part of the Hessian is lost in `resize()` (see
`RestoreModel`). The parent's scaling has factors for all constraints unless it is default constructed, which
`Problem::solve()` never does. -/
noncomputable def frProblem (env : Env) (P : Nlp n m k) (xr : Vec n) (μ : Fl) :
    Nlp (n + relaxed m k) m (k + relaxed m k) where
  f xp :=
    if xp.Finite ∧ xr.Finite ∧ μ.isFinite = true then
      .fin (Restore.cost (ne := m) (ni := k) 1000 (Real.sqrt μ.toReal) xr.real
        fun j => xp.real ⟨j, by have := j.2; unfold relaxed; unfold Restore.size at this; omega⟩)
    else env.junk 8 (μ :: List.ofFn xr ++ List.ofFn xp)
  g xp := Fin.append (fun j => Fl.sqrt μ * frWeight (xr j) * (frOrigin xp j - xr j)) fun _ => .fin 1000
  H _ _ _ := fun i j => if i = j then Fin.append (fun j => Fl.sqrt μ * frWeight (xr j)) (fun _ => 0) i else 0
  ce xp := fun i => P.ce (frOrigin xp) i - frPe (frRelax xp) i + frNe (frRelax xp) i
  Ae xp := fun i => Fin.append (fun j => P.Ae (frOrigin xp) i j) fun j =>
    if (j : ℕ) = i then -1 else if (j : ℕ) = m + i then 1 else 0
  ci xp := Fin.append (fun i => P.ci (frOrigin xp) i - frPi (frRelax xp) i + frNi (frRelax xp) i)
    fun i => frRelax xp i
  Ai xp := fun i => Fin.append
    (fun j => Fin.append (fun i => P.Ai (frOrigin xp) i j) (fun _ => 0) i)
    fun j => Fin.append
      (fun i : Fin k => if (j : ℕ) = 2 * m + i then -1 else if (j : ℕ) = 2 * m + k + i then 1 else 0)
      (fun i => if i = j then 1 else 0) i
  scaling := match P.scaling with
    | .identity => .factors 1 (fun _ => 1) fun _ => 1
    | .factors _ de di => .factors 1 de (Fin.append di fun _ => 1)
  vars xp := P.vars (frOrigin xp)

/-- One round of the loop in `compute_p_n()` (`feasibility_restoration.hpp:90-97`): the element of `n`. -/
noncomputable def frN (c μ : Fl) : Fl :=
  let b := .fin 1000 * c - μ
  let c' := -μ * c / .fin 2
  (-b + Fl.sqrt (b * b - .fin 4 * .fin 1000 * c')) / (.fin 2 * .fin 1000)

/-- The element of `p` (`feasibility_restoration.hpp:96`). -/
noncomputable def frP (c μ : Fl) : Fl := c + frN c μ

/-- `p_e_0`, `n_e_0`, `p_i_0` and `n_i_0` (`feasibility_restoration.hpp:401-402`). -/
noncomputable def frPN (ce : Vec m) (cis : Vec k) (μ : Fl) : Vec (relaxed m k) := fun j =>
  if h : j < m then frP (ce ⟨j, h⟩) μ
  else if h2 : j < 2 * m then frN (ce ⟨j - m, by omega⟩) μ
  else if h3 : j < 2 * m + k then frP (cis ⟨j - 2 * m, by omega⟩) μ
  else frN (cis ⟨j - (2 * m + k), by have := j.2; unfold relaxed at this; omega⟩) μ

/-- `fr_μ` (`feasibility_restoration.hpp:396-397`). -/
noncomputable def frMu (env : Env) (ce : Vec m) (cis : Vec k) (μ : Fl) : Fl :=
  Fl.max (Fl.max μ (infNormF env ce)) (infNormF env cis)

/-- Feasibility restoration within feasibility restoration (`interior_point.hpp:726-728`). -/
def restoreInner : RestoreFn n m k := fun st _ w E => some (.stop (st.exit .feasibilityRestorationFailed w E))

/-- The call of `interior_point()` (`feasibility_restoration.hpp:393-421,602-607`) for an original problem with
values `ce`, `ci` at `x`. -/
noncomputable def frRun (env : Env) (opts : SolverOptions) (P : Nlp n m k) (cbs : List Callback) (extra : Extra)
    (x : Vec n) (s : Vec k) (μ : Fl) (iterations : ℕ) (w : World) (E : Filter) :
    Option (IpmResult (n + relaxed m k) m (k + relaxed m k)) :=
  let ce := P.ce x
  let cis : Vec k := fun i => P.ci x i - s i
  let fμ := frMu env ce cis μ
  let pn := frPN ce cis fμ
  ipmRun env opts (frProblem env P x fμ) cbs extra true restoreInner
    (Fin.append x pn) (Fin.append s fun _ => 1) (fun _ => 0)
    (Fin.append (fun i => fμ * (1 / s i)) fun j => fμ * (1 / pn j)) fμ iterations w E

/-- The callback that ends feasibility restoration (`interior_point.hpp:738-756`), with the initial entry
(`interior_point.hpp:730`). -/
noncomputable def extraIpm (env : Env) (P : Nlp n m k) (st : IpmState n m k) (α : Fl) : Extra := fun F info =>
  let initial := ipmEntry (P.f st.x) st.s st.e.ce st.e.ci st.μ
  let x : Vec n := fun i => info.x.getD i .nan
  let s : Vec k := fun i => info.s.getD i .nan
  let entry := ipmEntry (P.f x) s (P.ce x) (P.ci x) st.μ
  let D := dotF env st.e.g (fun i => x i - st.x i) -
    st.μ * dotF env (fun i => 1 / st.s i) fun i => s i - st.s i
  if entry.violation < .fin 0.9 * initial.violation then F.tryAdd initial entry D α else (F, false)

/-- Feasibility restoration called by the interior-point solver (`interior_point.hpp:730-771`,
`feasibility_restoration.hpp:602-627`). The callback changes the solver's own filter. -/
noncomputable def restoreIpm (env : Env) (opts : SolverOptions) (P : Nlp n m k) (cbs : List Callback) :
    RestoreFn n m k := fun st α w E =>
  (frRun env opts P cbs (extraIpm env P st α) st.x st.s st.μ st.iterations w st.filter).map fun res =>
    let x : Vec n := fun i => res.x (Fin.castAdd _ i)
    let s : Vec k := fun i => res.s (Fin.castAdd _ i)
    if res.status = .callbackRequestedStop then
      let sol := env.estimate res.world.estimates ⟨n, m, k, P.g x, P.Ae x, P.Ai x, s, st.μ⟩
      let y : Vec m := fun i => sol i
      let z : Vec k := fun i => clampDualF st.μ (s i) (sol (m + i))
      .go { st with x, s, y, z, e := P.eval x y z, filter := res.extraFilter, iterations := res.iterations }
        { res.world with estimates := res.world.estimates + 1, vars := P.vars x } E
    else
      .stop ⟨if res.status = .success then .locallyInfeasible else .feasibilityRestorationFailed,
        x, s, st.y, st.z, res.iterations, res.world, E⟩

/-- `interior_point()` as called by `Problem::solve()` (`interior_point.hpp:62-87`). -/
noncomputable def interiorPoint (env : Env) (opts : SolverOptions) (P : Nlp n m k) (cbs : List Callback)
    (x : Vec n) (w : World) : Option (IpmResult n m k) :=
  ipmRun env opts P cbs .none false (restoreIpm env opts P cbs) x (fun _ => 1) (fun _ => 0) (fun _ => 1)
    (.fin (0.1 * P.scaling.f)) 0 w (.make 0)

end Slp
