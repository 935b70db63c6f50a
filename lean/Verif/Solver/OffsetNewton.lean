import Verif.Solver.OffsetLemmas
import Verif.Solver.NewtonModel

/-! Lemmas for C85: how a constant in the cost passes through Newton's method. -/

namespace Slp

open Classical

variable {n : ℕ} {c : ℝ}

/-- A state. -/
noncomputable def NewtonState.offset (c : ℝ) (st : NewtonState n) : NewtonState n :=
  { st with f := st.f + .fin c, filter := st.filter.offset c }

/-- The line search. -/
noncomputable def NewtonLineSearch.offset (c : ℝ) (ls : NewtonLineSearch n) : NewtonLineSearch n :=
  ⟨ls.accepted.map fun b => (b.1, b.2.1, b.2.2.1 + .fin c, b.2.2.2), ls.filter.offset c⟩

theorem newtonEntry_offset (f : Fl) : newtonEntry (f + .fin c) = (newtonEntry f).offset c := rfl

theorem newtonLineSearch_offset (env : Env) (P : Nlp n 0 0) (st : NewtonState n) (i : ℕ) (D : Fl) (r : ℕ) (α : Fl) (F : Filter) :
    newtonLineSearch env (P.offset c) (st.offset c) i D r α (F.offset c) =
      (newtonLineSearch env P st i D r α F).map (.offset c) := by
  induction r generalizing α F with
  | zero => rfl
  | succ r ih =>
    rw [newtonLineSearch, newtonLineSearch]
    simp only [show newtonPoint env (st.offset c) = newtonPoint env st from rfl,
      show ∀ x, (P.offset c).f x = P.f x + .fin c from fun _ => rfl, Fl.offset_isFinite,
      show (st.offset c).f = st.f + .fin c from rfl, newtonEntry_offset, tryAdd_offset, ih,
      show (P.offset c).g = P.g from rfl, show (st.offset c).g = st.g from rfl]
    split_ifs <;> rfl

theorem newtonLoop_offset (env : Env) (opts : SolverOptions) (P : Nlp n 0 0) (cbs : List Callback) (start : ℝ) (r : ℕ)
    (st : NewtonState n) (w : World) :
    newtonLoop env opts (P.offset c) cbs start r (st.offset c) w = newtonLoop env opts P cbs start r st w := by
  induction r generalizing st w with
  | zero => rw [newtonLoop, newtonLoop]
  | succ r ih =>
    rw [newtonLoop, newtonLoop]
    simp only [show (st.offset c).E0 = st.E0 from rfl, show (st.offset c).x = st.x from rfl, show (st.offset c).g = st.g from rfl,
      show (st.offset c).info = st.info from rfl, show newtonStep env (st.offset c) = newtonStep env st from rfl,
      show (st.offset c).filter = st.filter.offset c from rfl, newtonLineSearch_offset]
    refine ite_congr rfl (fun _ => rfl) fun _ => ite_congr rfl (fun _ => rfl) fun _ => ite_congr rfl (fun _ => rfl) fun _ => ?_
    generalize newtonLineSearch env P st _ _ _ _ _ = ls
    obtain _ | ⟨_ | b, lF⟩ := ls
    · simp only [Option.map_none, Option.bind_none]
    · simp only [Option.map_some, Option.bind_some, NewtonLineSearch.offset, Option.map_none, Option.elim_none]
      rfl
    · have := fun w' => ih ⟨b.2.1, b.2.2.1, P.g b.2.1, P.H b.2.1 Fin.elim0 Fin.elim0, lF, st.iterations + 1,
        errZeroNewton env P.scaling (P.g b.2.1)⟩ w'
      simp only [Option.map_some, Option.bind_some, NewtonLineSearch.offset, Option.elim_some]
      exact ite_congr rfl (fun _ => rfl) fun _ => ite_congr rfl (fun _ => rfl) fun _ => this _

end Slp
