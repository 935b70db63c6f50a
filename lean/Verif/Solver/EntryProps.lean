import Verif.Solver.QuadraticProps
import Verif.Solver.IpmModel

/-! C29: what the solvers measure at a point: the cost, minus the barrier term, and the violation of the constraints. -/

namespace Slp

variable {n m k : ℕ}

theorem sum_fin (l : List ℝ) : (l.map Fl.fin).foldr (· + ·) 0 = Fl.fin l.sum := by
  induction l with
  | nil => rfl
  | cons a l ih => rw [List.map_cons, List.foldr_cons, ih, Fl.fin_add, List.sum_cons]

/-- C29: the entry of the interior-point solver. -/
theorem ipm_entry_value (f μ : ℝ) {s : Fin k → ℝ} (hs : ∀ i, 0 < s i) (ce : Fin m → ℝ) (ci : Fin k → ℝ) :
    ipmEntry (.fin f) (fun i => .fin (s i)) (fun i => .fin (ce i)) (fun i => .fin (ci i)) (.fin μ) =
      ⟨.fin (f - μ * ∑ i, Real.log (s i)), .fin ((∑ i, |ce i|) + ∑ i, |ci i - s i|)⟩ := by
  have h1 : ((List.ofFn fun i => Fl.fin (s i)).map Fl.log).foldr (· + ·) 0 = Fl.fin (∑ i, Real.log (s i)) := by
    rw [List.map_ofFn]
    have : (Fl.log ∘ fun i => Fl.fin (s i)) = Fl.fin ∘ fun i => Real.log (s i) := funext fun i => Fl.log_fin (hs i)
    rw [this, ← List.map_ofFn, sum_fin, List.sum_ofFn]
  have h2 : List.zipWith (· - ·) (List.ofFn fun i => Fl.fin (ci i)) (List.ofFn fun i => Fl.fin (s i)) =
      List.ofFn fun i => Fl.fin (ci i - s i) := by
    apply List.ext_getElem
    · simp
    · intro i h h'
      simp [Fl.fin_sub]
  unfold ipmEntry FilterEntry.ipm
  rw [h1, h2, norm1_fin, norm1_fin, Fl.fin_mul, Fl.fin_sub, Fl.fin_add]

/-- C29: the entry of the SQP solver. -/
theorem sqp_entry_value (f : ℝ) (ce : Fin m → ℝ) :
    sqpEntry (.fin f) (fun i => .fin (ce i)) = ⟨.fin f, .fin (∑ i, |ce i|)⟩ := by
  unfold sqpEntry FilterEntry.sqp
  rw [norm1_fin]

/-- C29: the entry of Newton's method. -/
theorem newton_entry_value (f : Fl) : newtonEntry f = ⟨f, .fin 0⟩ := rfl

/-- C29: a constraint whose value is infinite or NaN makes the violation infinite or NaN, too. -/
theorem entry_nonfinite {f : Fl} {ce : Vec m} {j : Fin m} (h : (ce j).isFinite = false) :
    (sqpEntry f ce).violation.isFinite = false := by
  by_contra hc
  rw [Bool.not_eq_false] at hc
  have key (l : List Fl) (h : (norm1 l).isFinite = true) : ∀ x ∈ l, x.isFinite = true := by
    induction l with
    | nil => simp
    | cons a l ih =>
      unfold norm1 at h
      rw [List.map_cons, List.foldr_cons] at h
      obtain ⟨h1, h2⟩ := Fl.finite_add.1 h
      intro x hx
      rcases List.mem_cons.1 hx with rfl | hx
      · cases x <;> first | rfl | exact h1
      · exact ih h2 x hx
  have := key _ hc (ce j) ((List.mem_ofFn' _ _).2 ⟨j, rfl⟩)
  rw [h] at this
  cases this

/-- With slack 2 and constraint value 3, and an equality constraint violated by 1. -/
example : ipmEntry (.fin 5) (fun _ : Fin 1 => .fin 2) (fun _ : Fin 1 => .fin (-1)) (fun _ : Fin 1 => .fin 3) (.fin 1) =
    ⟨.fin (5 - Real.log 2), .fin 2⟩ := by
  have := ipm_entry_value (m := 1) (k := 1) 5 1 (s := fun _ => 2) (fun _ => by norm_num) (fun _ => -1) (fun _ => 3)
  rw [this]
  norm_num

end Slp
