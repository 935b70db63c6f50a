import Verif.Problem.CallbackOrderProps
import Verif.Solver.SeenLemmas

/-! C66: what the decision variables hold while callbacks run. -/

namespace Slp

open Classical

/-- What happened during the solve. -/
def Outcome.world {n m k : ℕ} : Outcome n m k → World
  | .noop => .start
  | .conflict => .start
  | .newton res => res.world
  | .sqp res => res.world
  | .ipm res => res.world

/-- The variables held the iterates, whatever the solver. -/
theorem solve_seen {p : Problem} {ad : Autodiff} {env : Env} {opts : SolverOptions} {spy : Bool} {s s' : Store}
    {o : p.Outcome} (h : p.solve ad env opts spy s = some (o, s')) : o.world.Seen p.vars.length := by
  rcases solve_cases h with ⟨h1, rfl, h2⟩ | ⟨h1, h2, h3, r, hr, rfl, -⟩ | ⟨h1, h2, h3, r, hr, rfl, -⟩ |
    ⟨h1, h2, b, -, -, rfl, -⟩ | ⟨h1, h2, b, r, -, -, hr, rfl, -⟩
  · exact .start _
  · unfold newton at hr
    simp only at hr
    split at hr
    · obtain rfl := Option.some.inj hr
      exact (World.Seen.start _).same rfl rfl
    · refine newtonLoop_seen (P := p.newtonNlp ad s) (fun _ => rfl) _ ?_ rfl hr
      exact (World.Seen.start _).same rfl rfl
  · unfold sqp sqpRun at hr
    simp only at hr
    split at hr
    · obtain rfl := Option.some.inj hr
      exact (World.Seen.start _).same rfl rfl
    split at hr
    · obtain rfl := Option.some.inj hr
      exact (World.Seen.start _).same rfl rfl
    · refine sqpLoop_seen (P := p.sqpNlp ad s) (fun _ => rfl) _ ?_ rfl hr
      exact (World.Seen.start _).same rfl rfl
  · exact .start _
  · exact ipmRun_seen (P := p.ipmNlp ad s) le_rfl (fun x => take_ofFn x) (restoreIpm_seen fun _ => rfl) (.start _) hr

/-- C66: whenever callbacks run during a solve, each decision variable holds the element of the iterate they are shown
that belongs to it, also during a feasibility restoration, whose iterates have further elements after these; variables
of other problems keep their values. An exception thrown by a callback leaves the variables so. -/
theorem callbacks_see_iterate {p : Problem} {s s' : Store} (hok : p.Ok s) {ad : Autodiff} {env : Env}
    {opts : SolverOptions} {spy : Bool} {o : p.Outcome} (h : p.solve ad env opts spy s = some (o, s')) :
    o.world.seen.length = o.world.trace.length ∧
    ∀ (i : ℕ) (values : List Fl) (shown : Snapshot), o.world.seen[i]? = some values → o.world.trace[i]? = some shown →
      (∀ (j : ℕ) (hj : j < p.vars.length), shown.info.x[j]? = some ((s.write p.vars values).val p.vars[j])) ∧
      ∀ v, v ∉ p.vars → (s.write p.vars values).val v = s.val v := by
  obtain ⟨h1, h2⟩ := solve_seen h
  refine ⟨by rw [h1, List.length_map], fun i values shown hv hs => ⟨fun j hj => ?_, fun v hv' => assign_other _ _ _ hv'⟩⟩
  have hl := h2 values (List.mem_of_getElem? hv)
  rw [h1, List.getElem?_map, hs, Option.map_some, Option.some_inj] at hv
  have := assign_get p.vars s.val values hok.nodup hl j hj (by omega)
  show _ = some (assign s.val p.vars values p.vars[j])
  rw [this, ← List.getElem?_eq_getElem, ← hv, List.getElem?_take, if_pos hj]

/-- Minimise `x²`. -/
noncomputable def squareP : Nlp 1 0 0 where
  f x := x 0 * x 0
  g x := fun _ => .fin 2 * x 0
  H _ _ _ := fun _ _ => .fin 2
  ce _ := Fin.elim0
  Ae _ := Fin.elim0
  ci _ := Fin.elim0
  Ai _ := Fin.elim0
  scaling := .identity

/-- The callback stops the solve at the guess; the variable held it then. -/
example (env : Env) :
    ∃ res, newton env ⟨1e-8, 5000, .pinf, false⟩ squareP [fun _ _ => true] (fun _ => .fin 3) .start = some res ∧
      res.status = .callbackRequestedStop ∧ res.world.seen = [[.fin 3]] := by
  have hg : Vec.Finite (squareP.g fun _ => .fin 3) := fun _ => rfl
  have hE : errZeroNewton env squareP.scaling (squareP.g fun _ => .fin 3) = .fin 6 := by
    rw [errZeroNewton, if_pos hg]
    simp [squareP, unscaledInfNewton, Scaling.isIdentity, kktInfNewton, infNorm, Vec.real, Fl.toReal]
    norm_num
  have hd : ¬ diverging env (fun _ : Fin 1 => Fl.fin 3) := by
    have hf : Vec.Finite (fun _ : Fin 1 => Fl.fin 3) := fun _ => rfl
    rintro (h | h)
    · rw [infNormF, if_pos hf] at h
      simp [infNorm, Vec.real, Fl.toReal] at h
      norm_num at h
    · exact h hf
  unfold newton
  simp only
  rw [if_neg (by simp [newtonInit, hg]; exact ⟨rfl, fun _ _ => rfl⟩)]
  rw [show loopRounds ⟨1e-8, 5000, .pinf, false⟩ 0 = 4999 + 1 from by norm_num [loopRounds]; rfl, newtonLoop]
  rw [if_neg (by show ¬ ¬ (errZeroNewton _ _ _ > _); rw [hE, not_not]; show Fl.lt _ _; norm_num [Fl.lt])]
  rw [if_neg (by exact hd)]
  simp [runRegistered, NewtonState.exit, World.start, squareP]

end Slp
