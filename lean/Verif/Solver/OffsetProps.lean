import Verif.Solver.OffsetSqp
import Verif.Solver.OffsetNewton
import Verif.Solver.FeasibleWitness

/-! C85: a constant in the cost. -/

namespace Slp

open Classical

variable {n m k : ℕ}

/-- `P'` is the problem `P` with the constant `c` added to the cost. -/
structure Nlp.CostPlus (P P' : Nlp n m k) (c : ℝ) : Prop where
  f : ∀ x, P'.f x = P.f x + .fin c
  g : ∀ x, P'.g x = P.g x
  H : ∀ x y z, P'.H x y z = P.H x y z
  ce : ∀ x, P'.ce x = P.ce x
  Ae : ∀ x, P'.Ae x = P.Ae x
  ci : ∀ x, P'.ci x = P.ci x
  Ai : ∀ x, P'.Ai x = P.Ai x
  scaling : P'.scaling = P.scaling
  vars : ∀ x, P'.vars x = P.vars x

theorem Nlp.CostPlus.eq {P P' : Nlp n m k} {c : ℝ} (h : P.CostPlus P' c) : P' = P.offset c := by
  obtain ⟨f, g, H, ce, Ae, ci, Ai, S, vars⟩ := P'
  simp only [Nlp.offset, Nlp.mk.injEq]
  exact ⟨funext h.f, funext h.g, funext fun x => funext fun y => funext fun z => h.H x y z, funext h.ce, funext h.Ae,
    funext h.ci, funext h.Ai, h.scaling, funext h.vars⟩

/-- C85: Newton's method does the same. -/
theorem newton_cost_constant (env : Env) (opts : SolverOptions) {P P' : Nlp n 0 0} {c : ℝ} (h : P.CostPlus P' c)
    (cbs : List Callback) (x : Vec n) (w : World) : newton env opts P' cbs x w = newton env opts P cbs x w := by
  rw [h.eq]
  unfold newton
  have hi : newtonInit env (P.offset c) x = (newtonInit env P x).offset c := rfl
  simp only [hi, newtonLoop_offset, show ((newtonInit env P x).offset c).g = (newtonInit env P x).g from rfl,
    show ((newtonInit env P x).offset c).H = (newtonInit env P x).H from rfl,
    show ((newtonInit env P x).offset c).f.isFinite = (newtonInit env P x).f.isFinite from Fl.offset_isFinite _]
  split_ifs <;> rfl

/-- C85: the SQP solver does the same. -/
theorem sqp_cost_constant (env : Env) (opts : SolverOptions) {P P' : Nlp n m 0} {c : ℝ} (h : P.CostPlus P' c)
    (cbs : List Callback) (x : Vec n) (w : World) : sqp env opts P' cbs x w = sqp env opts P cbs x w := by
  rw [h.eq]
  unfold sqp sqpRun
  have hi : sqpInit env (P.offset c) x (fun _ => 0) = (sqpInit env P x fun _ => 0).offset c := rfl
  have hf : ((sqpInit env P x fun _ => 0).offset c).e.Finite ↔ (sqpInit env P x fun _ => 0).e.Finite := by
    unfold Eval.Finite
    exact and_congr (by rw [show ((sqpInit env P x fun _ => 0).offset c).e.f = _ + .fin c from rfl, Fl.offset_isFinite]) Iff.rfl
  simp only [hi, hf, sqpLoop_offset]
  split_ifs <;> rfl

/-- C85: the interior-point solver does the same, apart from costs: the same status, iterates, multipliers, callbacks, linear
systems and values of variables. -/
theorem interior_point_cost_constant (env : Env) (opts : SolverOptions) {P P' : Nlp n m k} {c : ℝ} (h : P.CostPlus P' c)
    (cbs : List Callback) (x : Vec n) (w : World) : interiorPoint env opts P' cbs x w = interiorPoint env opts P cbs x w := by
  rw [h.eq]
  unfold interiorPoint
  have he : Extra.none.Shifts .none 0 := fun F _ => by simp only [Extra.none, Filter.offset_zero]
  have := ipmRun_offset (c := c) (d := 0) env opts P cbs he false (restoreIpm_shifts env opts P cbs) x (fun _ => 1) (fun _ => 0)
    (fun _ => 1) (.fin (0.1 * P.scaling.f)) 0 w (.make 0)
  rw [Filter.offset_zero] at this
  refine this.trans ?_
  cases ipmRun env opts P cbs .none false (restoreIpm env opts P cbs) x (fun _ => 1) (fun _ => 0)
    (fun _ => 1) (.fin (0.1 * P.scaling.f)) 0 w (.make 0) with
  | none => rfl
  | some r => simp only [Option.map_some, IpmResult.offset, Filter.offset_zero]

/-- Minimising `100 − 4x` over the disc goes wrong as minimising `−4x` does (`feasible_ipm_leaves`). -/
example (clock : ℕ → ℝ) (junk : ℕ → List Fl → Fl) :
    ∃ res, interiorPoint (rawEnv clock junk) ⟨1e-8, 1, .pinf, true⟩ { discP with f := fun x => .fin (-4) * x 0 + .fin 100 } []
      discX .start = some res ∧ ∀ i, discP.ci res.x i < 0 := by
  obtain ⟨-, res, h1, -, h2⟩ := feasible_ipm_leaves (rawEnv_unregularised clock junk) ⟨1e-8, 1, .pinf, true⟩ rfl (by norm_num)
    (by norm_num) le_rfl
  refine ⟨res, ?_, h2⟩
  refine (interior_point_cost_constant _ _ (P := discP) (c := 100) ?_ _ _ _).trans h1
  exact ⟨fun _ => rfl, fun _ => rfl, fun _ _ _ => rfl, fun _ => rfl, fun _ => rfl, fun _ => rfl, fun _ => rfl, rfl, fun _ => rfl⟩

end Slp
