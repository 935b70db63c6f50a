import Verif.Python.PySolveModel
import Mathlib.Data.List.Perm.Basic

/-! C71: `solve()` in Python uses exactly the options that it is given. -/

namespace Slp.Py

/-- The values that an option takes in Python: numbers for `tolerance` and `timeout`, integers of 32 bits for
`max_iterations`, `True` and `False` for the rest. `True` and `False` also count as 1 and 0. -/
inductive Means : String → Val → SolveOptions → Prop
  | tolerance {o x} : o.tolerance = x → Means "tolerance" (.float x) o
  | toleranceInt {o} {z : ℤ} : o.tolerance = .fin z → Means "tolerance" (.int z) o
  | toleranceBool {o b} : o.tolerance = .fin (if b then 1 else 0) → Means "tolerance" (.bool b) o
  | maxIterations {o z} : -2 ^ 31 ≤ z → z < 2 ^ 31 → o.maxIterations = z → Means "max_iterations" (.int z) o
  | maxIterationsBool {o b} : o.maxIterations = (if b then 1 else 0) → Means "max_iterations" (.bool b) o
  | timeout {o x} : o.timeout = x → Means "timeout" (.float x) o
  | timeoutInt {o} {z : ℤ} : o.timeout = .fin z → Means "timeout" (.int z) o
  | timeoutBool {o b} : o.timeout = .fin (if b then 1 else 0) → Means "timeout" (.bool b) o
  | feasibleIpm {o b} : o.feasibleIpm = b → Means "feasible_ipm" (.bool b) o
  | diagnostics {o b} : o.diagnostics = b → Means "diagnostics" (.bool b) o
  | spy {o b} : o.spy = b → Means "spy" (.bool b) o

/-- The options that exist. -/
def optionNames : List String := ["tolerance", "max_iterations", "timeout", "feasible_ipm", "diagnostics", "spy"]

/-- The options have the default values of the documentation where no argument is given. -/
structure Defaults (given : String → Prop) (o : SolveOptions) : Prop where
  tolerance : ¬ given "tolerance" → o.tolerance = .fin (1 / 10 ^ 8)
  maxIterations : ¬ given "max_iterations" → o.maxIterations = 5000
  timeout : ¬ given "timeout" → o.timeout = .pinf
  feasibleIpm : ¬ given "feasible_ipm" → o.feasibleIpm = false
  diagnostics : ¬ given "diagnostics" → o.diagnostics = false
  spy : ¬ given "spy" → o.spy = false

/-- The options agree except for the one with this name. -/
structure Same (key : String) (o o' : SolveOptions) : Prop where
  tolerance : key ≠ "tolerance" → o'.tolerance = o.tolerance
  maxIterations : key ≠ "max_iterations" → o'.maxIterations = o.maxIterations
  timeout : key ≠ "timeout" → o'.timeout = o.timeout
  feasibleIpm : key ≠ "feasible_ipm" → o'.feasibleIpm = o.feasibleIpm
  diagnostics : key ≠ "diagnostics" → o'.diagnostics = o.diagnostics
  spy : key ≠ "spy" → o'.spy = o.spy

theorem setOption_call {o o' : SolveOptions} {key : String} {v : Val} (h : setOption o key v = .call o') :
    Means key v o' ∧ Same key o o' := by
  unfold setOption at h
  split_ifs at h with h1 h2 h3 h4 h5 h6
  · subst h1
    cases v <;> simp only [castOptDouble, Option.elim, SolveCall.call.injEq, reduceCtorEq] at h <;> subst h
    · exact ⟨.toleranceBool rfl, by constructor <;> simp⟩
    · exact ⟨.toleranceInt rfl, by constructor <;> simp⟩
    · exact ⟨.tolerance rfl, by constructor <;> simp⟩
  · subst h2
    cases v <;> simp only [castOptInt, Option.elim, SolveCall.call.injEq, reduceCtorEq] at h
    · subst h; exact ⟨.maxIterationsBool rfl, by constructor <;> simp⟩
    · split_ifs at h with hz
      · simp only [SolveCall.call.injEq] at h
        subst h
        exact ⟨.maxIterations (by omega) (by omega) rfl, by constructor <;> simp⟩
  · subst h3
    cases v <;> simp only [castOptDouble, Option.elim, SolveCall.call.injEq, reduceCtorEq] at h <;> subst h
    · exact ⟨.timeoutBool rfl, by constructor <;> simp⟩
    · exact ⟨.timeoutInt rfl, by constructor <;> simp⟩
    · exact ⟨.timeout rfl, by constructor <;> simp⟩
  · subst h4
    cases v <;> simp only [castOptBool, Option.elim, SolveCall.call.injEq, reduceCtorEq] at h; subst h
    exact ⟨.feasibleIpm rfl, by constructor <;> simp⟩
  · subst h5
    cases v <;> simp only [castOptBool, Option.elim, SolveCall.call.injEq, reduceCtorEq] at h; subst h
    exact ⟨.diagnostics rfl, by constructor <;> simp⟩
  · subst h6
    cases v <;> simp only [castOptBool, Option.elim, SolveCall.call.injEq, reduceCtorEq] at h; subst h
    exact ⟨.spy rfl, by constructor <;> simp⟩

theorem Means.same {key key' : String} {v : Val} {o o' : SolveOptions} (h : Means key v o) (hs : Same key' o o')
    (hk : key' ≠ key) : Means key v o' := by
  cases h with
  | tolerance h => exact .tolerance (by rw [hs.tolerance hk, h])
  | toleranceInt h => exact .toleranceInt (by rw [hs.tolerance hk, h])
  | toleranceBool h => exact .toleranceBool (by rw [hs.tolerance hk, h])
  | maxIterations h1 h2 h => exact .maxIterations h1 h2 (by rw [hs.maxIterations hk, h])
  | maxIterationsBool h => exact .maxIterationsBool (by rw [hs.maxIterations hk, h])
  | timeout h => exact .timeout (by rw [hs.timeout hk, h])
  | timeoutInt h => exact .timeoutInt (by rw [hs.timeout hk, h])
  | timeoutBool h => exact .timeoutBool (by rw [hs.timeout hk, h])
  | feasibleIpm h => exact .feasibleIpm (by rw [hs.feasibleIpm hk, h])
  | diagnostics h => exact .diagnostics (by rw [hs.diagnostics hk, h])
  | spy h => exact .spy (by rw [hs.spy hk, h])

/-- What an argument means, by the name of its option. -/
theorem Means.read {key : String} {v : Val} {o : SolveOptions} (h : Means key v o) :
    (key = "tolerance" → castOptDouble v = some o.tolerance) ∧ (key = "max_iterations" → castOptInt v = some o.maxIterations) ∧
      (key = "timeout" → castOptDouble v = some o.timeout) ∧ (key = "feasible_ipm" → castOptBool v = some o.feasibleIpm) ∧
      (key = "diagnostics" → castOptBool v = some o.diagnostics) ∧ (key = "spy" → castOptBool v = some o.spy) := by
  cases h <;> simp_all [castOptDouble, castOptInt, castOptBool]
  omega

theorem Means.setOption {key : String} {v : Val} {o : SolveOptions} (h : Means key v o) (o₁ : SolveOptions) :
    ∃ o', setOption o₁ key v = .call o' := by
  cases h <;> simp_all [Py.setOption, castOptDouble, castOptInt, castOptBool]
  rename_i z h1 h2 _
  rw [if_pos (by omega)]
  exact ⟨_, rfl⟩

theorem setOptions_call : ∀ {l : List (String × Val)} {o o' : SolveOptions}, (l.map Prod.fst).Nodup →
    setOptions o l = .call o' → (∀ p ∈ l, Means p.1 p.2 o') ∧ ∀ key v, key ∉ l.map Prod.fst → Means key v o → Means key v o'
  | [], o, o', _, h => by
      obtain rfl : o = o' := by simpa [setOptions] using h
      exact ⟨by simp, fun _ _ _ h => h⟩
  | (k, v) :: l, o, o', hn, h => by
      rw [List.map_cons, List.nodup_cons] at hn
      rw [setOptions] at h
      cases hs : setOption o k v with
      | keyError => simp [hs] at h
      | castError => simp [hs] at h
      | call o₁ =>
          simp only [hs] at h
          obtain ⟨h1, h2⟩ := setOption_call hs
          obtain ⟨h3, h4⟩ := setOptions_call hn.2 h
          refine ⟨fun p hp => ?_, fun key w hk hm => ?_⟩
          · rcases List.mem_cons.1 hp with rfl | hp
            · exact h4 _ _ hn.1 h1
            · exact h3 p hp
          · rw [List.map_cons, List.mem_cons, not_or] at hk
            exact h4 _ _ hk.2 (hm.same h2 (Ne.symm hk.1))

/-- C71: if `solve()` is called, each option has the value of its keyword argument, or its default value. -/
theorem solve_options {kwargs : List (String × Val)} (hn : (kwargs.map Prod.fst).Nodup) {o : SolveOptions}
    (h : solveKwargs kwargs = .call o) :
    (∀ p ∈ kwargs, Means p.1 p.2 o) ∧ Defaults (· ∈ kwargs.map Prod.fst) o := by
  obtain ⟨h1, h2⟩ := setOptions_call hn h
  refine ⟨h1, fun hk => ?_, fun hk => ?_, fun hk => ?_, fun hk => ?_, fun hk => ?_, fun hk => ?_⟩
  · have := h2 "tolerance" (.float (.fin 1e-8)) hk (.tolerance rfl)
    have := this.read.1 rfl
    simp only [castOptDouble, Option.some.injEq] at this
    rw [← this]; norm_num
  · have := h2 "max_iterations" (.int 5000) hk (.maxIterations (by norm_num) (by norm_num) rfl)
    have := this.read.2.1 rfl
    simpa [castOptInt] using this.symm
  · have := h2 "timeout" (.float .pinf) hk (.timeout rfl)
    have := this.read.2.2.1 rfl
    simpa [castOptDouble] using this.symm
  · have := h2 "feasible_ipm" (.bool false) hk (.feasibleIpm rfl)
    have := this.read.2.2.2.1 rfl
    simpa [castOptBool] using this.symm
  · have := h2 "diagnostics" (.bool false) hk (.diagnostics rfl)
    have := this.read.2.2.2.2.1 rfl
    simpa [castOptBool] using this.symm
  · have := h2 "spy" (.bool false) hk (.spy rfl)
    have := this.read.2.2.2.2.2 rfl
    simpa [castOptBool] using this.symm

theorem setOptions_ok : ∀ {l : List (String × Val)} (o : SolveOptions), (∀ p ∈ l, ∃ o', Means p.1 p.2 o') →
    ∃ o', setOptions o l = .call o'
  | [], o, _ => ⟨o, rfl⟩
  | (k, v) :: l, o, h => by
      obtain ⟨o', ho'⟩ := h (k, v) List.mem_cons_self
      obtain ⟨o₁, h1⟩ := ho'.setOption o
      obtain ⟨o₂, h2⟩ := setOptions_ok o₁ fun p hp => h p (List.mem_cons_of_mem _ hp)
      exact ⟨o₂, by rw [setOptions, h1]; exact h2⟩

/-- C71: `solve()` is called exactly if all keyword arguments are options with values of their types; otherwise an
exception is raised before. -/
theorem solve_called_iff {kwargs : List (String × Val)} (hn : (kwargs.map Prod.fst).Nodup) :
    (∃ o, solveKwargs kwargs = .call o) ↔ ∀ p ∈ kwargs, ∃ o, Means p.1 p.2 o :=
  ⟨fun ⟨o, h⟩ p hp => ⟨o, (solve_options hn h).1 p hp⟩, fun h => setOptions_ok _ h⟩

theorem setOption_keyError {o : SolveOptions} {key : String} {v : Val} :
    setOption o key v = .keyError ↔ key ∉ optionNames := by
  unfold setOption optionNames
  split_ifs <;> simp_all <;> cases castOptDouble v <;> cases castOptInt v <;> cases castOptBool v <;> simp

theorem setOptions_keyError : ∀ {l : List (String × Val)} (o : SolveOptions),
    (∀ p ∈ l, p.1 ∈ optionNames → ∃ o', Means p.1 p.2 o') → (∃ p ∈ l, p.1 ∉ optionNames) → setOptions o l = .keyError
  | [], _, _, h => by simp at h
  | (k, v) :: l, o, h, hk => by
      by_cases hk' : k ∈ optionNames
      · obtain ⟨o', ho'⟩ := h (k, v) List.mem_cons_self hk'
        obtain ⟨o₁, h1⟩ := ho'.setOption o
        rw [setOptions, h1]
        refine setOptions_keyError o₁ (fun p hp => h p (List.mem_cons_of_mem _ hp)) ?_
        obtain ⟨p, hp, hp'⟩ := hk
        rcases List.mem_cons.1 hp with rfl | hp
        · exact absurd hk' hp'
        · exact ⟨p, hp, hp'⟩
      · rw [setOptions, setOption_keyError.2 hk']

/-- C71: an unknown keyword argument raises `KeyError`, if the others have values of their types. -/
theorem solve_unknown_option {kwargs : List (String × Val)}
    (h : ∀ p ∈ kwargs, p.1 ∈ optionNames → ∃ o, Means p.1 p.2 o) (hk : ∃ p ∈ kwargs, p.1 ∉ optionNames) :
    solveKwargs kwargs = .keyError := setOptions_keyError _ h hk

/-- `solve(timeout=2, spy=True, tolerance=0.5)`. -/
example : ∃ o, solveKwargs [("timeout", .int 2), ("spy", .bool true), ("tolerance", .float (.fin 0.5))] = .call o ∧
    o.timeout = .fin 2 ∧ o.spy = true ∧ o.tolerance = .fin 0.5 ∧ o.maxIterations = 5000 := by
  obtain ⟨o, h⟩ := (solve_called_iff (kwargs := [("timeout", .int 2), ("spy", .bool true),
    ("tolerance", .float (.fin 0.5))]) (by decide)).2 (by
      intro p hp
      simp only [List.mem_cons, List.not_mem_nil, or_false] at hp
      rcases hp with rfl | rfl | rfl
      · exact ⟨⟨0, 0, .fin 2, false, false, false⟩, .timeoutInt (by norm_num)⟩
      · exact ⟨⟨0, 0, 0, false, false, true⟩, .spy rfl⟩
      · exact ⟨⟨.fin 0.5, 0, 0, false, false, false⟩, .tolerance rfl⟩)
  obtain ⟨h1, h2⟩ := solve_options (by decide) h
  have a := h1 ("timeout", .int 2) (by simp)
  have b := h1 ("spy", .bool true) (by simp)
  have c := h1 ("tolerance", .float (.fin 0.5)) (by simp)
  have a := a.read.2.2.1 rfl
  have b := b.read.2.2.2.2.2 rfl
  have c := c.read.1 rfl
  simp only [castOptDouble, castOptBool, Option.some.injEq] at a b c
  exact ⟨o, h, by simpa using a.symm, b.symm, c.symm, h2.maxIterations (by decide)⟩

/-- `solve(max_iteration=10)` and `solve(max_iterations=10.0)`. -/
example : solveKwargs [("max_iteration", .int 10)] = .keyError ∧
    ¬ ∃ o, solveKwargs [("max_iterations", .float (.fin 10))] = .call o := by
  refine ⟨solve_unknown_option (by simp [optionNames]) ⟨_, List.mem_cons_self, by decide⟩, ?_⟩
  rw [solve_called_iff (by decide)]
  intro h
  obtain ⟨o, h⟩ := h _ List.mem_cons_self
  simpa [castOptInt] using h.read.2.1 rfl

end Slp.Py
