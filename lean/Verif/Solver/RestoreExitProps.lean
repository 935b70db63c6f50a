import Verif.Solver.RestoreExitLemmas
import Verif.Solver.LoopStepProps
import Verif.Solver.MultiplierProps

/-!
C48: how the solvers continue after feasibility restoration. The point is one that violates the constraints less by a
tenth and that the filter accepts, unless a user's callback asked to stop; the multipliers are the least-squares
estimates there.
-/

namespace Slp

open Classical

variable {n m k : ℕ}

/-- `cost − μ Σ log sᵢ` and the sum of the violations. -/
noncomputable def barrierEntry (P : Nlp n m k) (x : Vec n) (s : Vec k) (μ : Fl) : FilterEntry where
  cost := P.f x - μ * ((List.ofFn s).map Fl.log).foldr (· + ·) 0
  violation := norm1 (List.ofFn (P.ce x)) + norm1 (List.ofFn fun i => P.ci x i - s i)

theorem zipWith_ofFn (u v : Vec k) : List.zipWith (· - ·) (List.ofFn u) (List.ofFn v) = List.ofFn fun i => u i - v i := by
  apply List.ext_getElem
  · simp
  · intro i h1 h2; simp

theorem ipmEntry_eq (P : Nlp n m k) (x : Vec n) (s : Vec k) (μ : Fl) :
    ipmEntry (P.f x) s (P.ce x) (P.ci x) μ = barrierEntry P x s μ := by
  unfold ipmEntry FilterEntry.ipm barrierEntry
  rw [zipWith_ofFn]

theorem dotF_fin {env : Env} {u v : Vec n} (hu : u.Finite) (hv : v.Finite) :
    dotF env u v = .fin (∑ j, u.real j * v.real j) := if_pos ⟨hu, hv⟩

/-- C48: the interior-point solver continues after feasibility restoration only at a point at which a user's callback
asked to stop, or at a point whose violation is below nine tenths of that of the point at which the restoration
started and which the filter accepts as a step from there. The barrier parameter does not change. -/
theorem restoration_returns {env : Env} {opts : SolverOptions} {P : Nlp n m k} {cbs : List Callback}
    {st st' : IpmState n m k} {α : Fl} {w w' : World} {E E' : Filter} (hce : st.e.ce = P.ce st.x) (hci : st.e.ci = P.ci st.x)
    (h : restoreIpm env opts P cbs st α w E = some (.go st' w' E')) :
    st'.e = P.eval st'.x st'.y st'.z ∧ st'.μ = st.μ ∧ st'.τ = st.τ ∧ E' = E ∧
    ((∃ c, w'.calls.getLast? = some c ∧ c.result = true ∧ (∃ cb ∈ cbs, ∃ calls, cb calls c.info = true) ∧
        c.info.x.take n = List.ofFn st'.x ∧ c.info.s.take k = List.ofFn st'.s ∧ st.filter.Similar st'.filter) ∨
      (barrierEntry P st'.x st'.s st.μ).violation < .fin 0.9 * (barrierEntry P st.x st.s st.μ).violation ∧
      ∃ F, st.filter.Similar F ∧ F.tryAdd (barrierEntry P st.x st.s st.μ) (barrierEntry P st'.x st'.s st.μ)
        (dotF env st.e.g (fun i => st'.x i - st.x i) -
          st.μ * dotF env (fun i => 1 / st.s i) fun i => st'.s i - st.s i) α = (st'.filter, true)) := by
  unfold restoreIpm at h
  obtain ⟨res, hres, h⟩ := Option.map_eq_some_iff.1 h
  by_cases hst : res.status = .callbackRequestedStop
  swap
  · simp only [if_neg hst] at h; simp at h
  simp only [if_pos hst] at h
  obtain ⟨rfl, rfl, rfl⟩ := Moved.go.inj h
  refine ⟨rfl, rfl, rfl, rfl, ?_⟩
  obtain ⟨F, ⟨_, _, _, _, _⟩, hF, rfl, h1 | h1⟩ := frRun_stop (fun F info => extra_similar) hres hst
  · left
    obtain ⟨⟨⟨c, hc, hi, hr⟩, hu⟩, rfl⟩ := h1
    refine ⟨c, hc, hr, hi ▸ hu, ?_, ?_, hF⟩
    · rw [hi]; exact ofFn_take _
    · rw [hi]; exact ofFn_take _
  · right
    unfold IpmResult.iterate at h1
    simp only [ofFn_getD, hce, hci, ipmEntry_eq] at h1
    split at h1
    · rename_i hv; exact ⟨hv, F, hF, h1⟩
    · simp at h1

/-- C48: likewise for the SQP solver. -/
theorem sqp_restoration_returns {env : Env} {opts : SolverOptions} {P : Nlp n m 0} {cbs : List Callback}
    {st st' : SqpState n m} {α : Fl} {w w' : World} (hce : st.e.ce = P.ce st.x)
    (h : restoreSqp env opts P cbs st α w = some (.go st' w')) :
    st'.e = P.eval st'.x st'.y Fin.elim0 ∧
    ((∃ c, w'.calls.getLast? = some c ∧ c.result = true ∧ (∃ cb ∈ cbs, ∃ calls, cb calls c.info = true) ∧
        c.info.x.take n = List.ofFn st'.x ∧ st.filter.Similar st'.filter) ∨
      norm1 (List.ofFn (P.ce st'.x)) < .fin 0.9 * norm1 (List.ofFn (P.ce st.x)) ∧
      ∃ F, st.filter.Similar F ∧ F.tryAdd ⟨P.f st.x, norm1 (List.ofFn (P.ce st.x))⟩
        ⟨P.f st'.x, norm1 (List.ofFn (P.ce st'.x))⟩ (dotF env st.e.g fun i => st'.x i - st.x i) α = (st'.filter, true)) := by
  unfold restoreSqp at h
  obtain ⟨res, hres, h⟩ := Option.map_eq_some_iff.1 h
  by_cases hst : res.status = .callbackRequestedStop
  swap
  · simp only [if_neg hst] at h; simp at h
  simp only [if_pos hst] at h
  obtain ⟨rfl, rfl⟩ := SqpMoved.go.inj h
  refine ⟨rfl, ?_⟩
  obtain ⟨F, ⟨_, _, _, _, _⟩, hF, rfl, h1 | h1⟩ := frRun_stop (fun F info => extra_similar) hres hst
  · left
    obtain ⟨⟨⟨c, hc, hi, hr⟩, hu⟩, rfl⟩ := h1
    refine ⟨c, hc, hr, hi ▸ hu, ?_, hF⟩
    rw [hi]; exact ofFn_take _
  · right
    unfold IpmResult.iterate sqpEntry FilterEntry.sqp at h1
    simp only [ofFn_getD, hce] at h1
    split at h1
    · rename_i hv; exact ⟨hv, F, hF, h1⟩
    · simp at h1

/-- The multipliers minimise the residual of stationarity and complementarity. -/
def LeastSquares (g : Fin n → ℝ) (Ae : Matrix (Fin m) (Fin n) ℝ) (Ai : Matrix (Fin k) (Fin n) ℝ) (s : Fin k → ℝ) (μ : ℝ)
    (y : Fin m → ℝ) (z : Fin k → ℝ) : Prop :=
  ∀ (y' : Fin m → ℝ) (z' : Fin k → ℝ), ∑ j, (g j - ∑ i, Ae i j * y i - ∑ i, Ai i j * z i) ^ 2 + ∑ i, (s i * z i - μ) ^ 2 ≤
    ∑ j, (g j - ∑ i, Ae i j * y' i - ∑ i, Ai i j * z' i) ^ 2 + ∑ i, (s i * z' i - μ) ^ 2

theorem dense_least_squares {g : Fin n → ℝ} {Ae : Matrix (Fin m) (Fin n) ℝ} {Ai : Matrix (Fin k) (Fin n) ℝ} {s : Fin k → ℝ}
    {μ : ℝ} {sol : Fin (m + k) → ℝ} (h : SolvesNormal (aHatDense Ae Ai s) (rhsTemp g k μ) sol) :
    LeastSquares g Ae Ai s μ (fun i => sol (Fin.castAdd k i)) fun i => sol (Fin.natAdd m i) := by
  intro y' z'
  have key := normal_least_squares h (Fin.addCases y' z')
  have e : ∀ w : Fin (m + k) → ℝ, ∑ l, (rhsTemp g k μ l - ∑ i, aHatDense Ae Ai s i l * w i) ^ 2 =
      ∑ j : Fin n, (g j - ∑ i : Fin m, Ae i j * w (Fin.castAdd k i) - ∑ i : Fin k, Ai i j * w (Fin.natAdd m i)) ^ 2 +
        ∑ i, (s i * w (Fin.natAdd m i) - μ) ^ 2 := by
    intro w
    rw [Fin.sum_univ_add]
    congr 1
    · refine Finset.sum_congr rfl fun j _ => ?_
      unfold rhsTemp aHatDense
      rw [Fin.addCases_left, Fin.sum_univ_add]
      simp only [Fin.addCases_left, Fin.addCases_right]
      ring
    · refine Finset.sum_congr rfl fun j _ => ?_
      unfold rhsTemp aHatDense
      rw [Fin.addCases_right, Fin.sum_univ_add]
      simp only [Fin.addCases_left, Fin.addCases_right, zero_mul, Finset.sum_const_zero, ite_mul,
        Finset.sum_ite_eq', Finset.mem_univ, if_true]
      ring
  rw [e, e] at key
  simp only [Fin.addCases_left, Fin.addCases_right] at key
  exact key

/-- C48, C37: after feasibility restoration the multipliers of the interior-point solver are finite; they are the
least-squares estimates, those of the inequality constraints brought into `[μ/(κs), κμ/s]`. -/
theorem restoration_multipliers {env : Env} (hE : env.ExactEstimate) {opts : SolverOptions} {P : Nlp n m k} (hP : P.Total)
    {cbs : List Callback} {st st' : IpmState n m k} {α : Fl} {w w' : World} {E E' : Filter}
    (h : restoreIpm env opts P cbs st α w E = some (.go st' w' E')) (hx : st'.x.Finite) (hs : st'.s.Pos) {μ : ℝ}
    (hμ : st.μ = .fin μ) (hμ0 : 0 < μ) :
    st'.y.Finite ∧ ∃ z : Fin k → ℝ,
      LeastSquares (P.g st'.x).real (P.Ae st'.x).real (P.Ai st'.x).real st'.s.real μ st'.y.real z ∧
      ∀ i, st'.z i = .fin (Max.max (μ / (1e10 * st'.s.real i)) (Min.min (1e10 * μ / st'.s.real i) (z i))) := by
  unfold restoreIpm at h
  obtain ⟨res, hres, h⟩ := Option.map_eq_some_iff.1 h
  by_cases hst : res.status = .callbackRequestedStop
  swap
  · simp only [if_neg hst] at h; simp at h
  simp only [if_pos hst] at h
  obtain ⟨rfl, rfl, rfl⟩ := Moved.go.inj h
  simp only at hx hs ⊢
  set x : Vec n := fun i => res.x (Fin.castAdd (relaxed m k) i) with hxd
  set s : Vec k := fun i => res.s (Fin.castAdd (relaxed m k) i) with hsd
  obtain ⟨h1, h2⟩ := hE res.world.estimates ⟨n, m, k, P.g x, P.Ae x, P.Ai x, s, st.μ⟩
    ⟨hP.g _ hx, hP.Ae _ hx, hP.Ai _ hx, hs.finite, by rw [hμ]; rfl⟩
  refine ⟨fun i => h1 (Fin.castAdd k i), fun i =>
    (env.estimate res.world.estimates ⟨n, m, k, P.g x, P.Ae x, P.Ai x, s, st.μ⟩ (m + i)).toReal, ?_, fun i => ?_⟩
  · have := dense_least_squares h2
    rw [hμ] at this ⊢
    exact this
  · obtain ⟨a, ha, ha0⟩ := hs i
    have key (v : Fl) (hv : v.isFinite = true) : clampDualF (.fin μ) (s i) v =
        .fin (Max.max (μ / (1e10 * s.real i))
          (Min.min (1e10 * μ / s.real i) v.toReal)) := by
      rw [show s.real i = a from by show (s i).toReal = a; rw [ha]; rfl, ha, Fl.finite_toReal hv, clampDualF_eq hμ0 ha0]; rfl
    rw [hμ]
    rw [hμ] at h1
    exact key _ (h1 (Fin.natAdd m i))

/-- C48, C37: likewise for the SQP solver. -/
theorem sqp_restoration_multipliers {env : Env} (hE : env.ExactEstimate) {opts : SolverOptions} {P : Nlp n m 0}
    (hP : P.Total) {cbs : List Callback} {st st' : SqpState n m} {α : Fl} {w w' : World}
    (h : restoreSqp env opts P cbs st α w = some (.go st' w')) (hx : st'.x.Finite) :
    st'.y.Finite ∧ ∀ y' : Fin m → ℝ,
      ∑ j, ((P.g st'.x).real j - ∑ i, (P.Ae st'.x).real i j * st'.y.real i) ^ 2 ≤
        ∑ j, ((P.g st'.x).real j - ∑ i, (P.Ae st'.x).real i j * y' i) ^ 2 := by
  unfold restoreSqp at h
  obtain ⟨res, hres, h⟩ := Option.map_eq_some_iff.1 h
  by_cases hst : res.status = .callbackRequestedStop
  swap
  · simp only [if_neg hst] at h; simp at h
  simp only [if_pos hst] at h
  obtain ⟨rfl, rfl⟩ := SqpMoved.go.inj h
  simp only at hx ⊢
  set x : Vec n := fun i => res.x (Fin.castAdd (relaxed m 0) i) with hxd
  obtain ⟨h1, h2⟩ := hE res.world.estimates ⟨n, m, 0, P.g x, P.Ae x, Fin.elim0, Fin.elim0, 0⟩
    ⟨hP.g _ hx, hP.Ae _ hx, fun i => i.elim0, fun i => i.elim0, rfl⟩
  refine ⟨fun i => h1 (Fin.castAdd 0 i), fun y' => ?_⟩
  have := dense_least_squares h2 y' Fin.elim0
  simp only [Finset.univ_eq_empty, Finset.sum_empty, sub_zero, add_zero] at this
  exact this

end Slp
