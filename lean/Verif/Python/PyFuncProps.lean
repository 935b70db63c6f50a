import Verif.Python.PyFuncLemmas

/-! C70: functions, powers and negation in Python, and `bounds`. -/

namespace Slp.Py

open Slp.VMat

variable {α : Type}

theorem map_operand {ev : α → ℝ} {m n : ℕ} {A : View α} {M : Matrix (Fin m) (Fin n) ℝ} (h : A.Is ev M) {f : α → α}
    {F : ℝ → ℝ} (hf : ∀ a, ev (f a) = F (ev a)) :
    ∃ C, (Ret.ofCpp ((map f A).map Res.mat)).last .mul = .ok (.mat C) ∧ C.Is ev (M.map F) := by
  obtain ⟨C, h1, h2⟩ := map_correct h f F fun a i j e => by rw [hf, e]
  exact ⟨C, by rw [h1]; rfl, h2⟩

/-- C70: a function of one argument applies to all elements of its argument. -/
theorem py_function_correct {ev : α → ℝ} {num : ℝ → α} (hnum : ∀ x, ev (num x) = x) {f : α → α} {F : ℝ → ℝ}
    (hf : ∀ a, ev (f a) = F (ev a)) {x : Obj α} {v : RealValue} (hx : x.Is ev v) (ha : x.kind ≠ .array) :
    ∃ y, unaryMath num f x = .ok y ∧ y.Is ev (v.map F) := by
  have hr : resolve num [[.float], [.var], [.mat], [.block]] [x] = some [x.operand num] := by
    refine resolve_takes ?_
    cases x <;> cases v <;> simp [Obj.Is, Obj.kind] at hx ha <;> simp [Takes, accepts]
  cases v with
  | scalar r =>
      obtain ⟨a, h1, h2⟩ := operand_scalar hnum hx
      exact ⟨.var (f a), by simp [unaryMath, hr, h1], by rw [← h2]; exact hf a⟩
  | matrix m n M =>
      obtain ⟨A, h1, h2⟩ := operand_matrix hnum hx
      obtain ⟨C, h3, h4⟩ := map_operand h2 hf
      exact ⟨.mat C, by simp only [unaryMath, hr, h1]; exact h3, h4⟩

/-- C70: functions of one argument do not take arrays. -/
theorem py_function_array {num : ℝ → α} (f : α → α) {x : Obj α} (ha : x.kind = .array) :
    unaryMath num f x = .typeError := by
  have hr : resolve num [[.float], [.var], [.mat], [.block]] [x] = none := by
    refine resolve_refuses ?_
    cases x <;> simp [Obj.kind] at ha
    simp [Takes, accepts]
  simp [unaryMath, hr]

theorem mathTypes_takes {num : ℝ → α} : ∀ {args : List (Obj α)}, (∀ o ∈ args, o.kind = .number ∨ o.kind = .var) →
    Takes num (mathTypes args.length) args
  | [], _ => ⟨[], by simp [mathTypes], .nil⟩
  | o :: args, h => by
      obtain ⟨tys, h1, h2⟩ := mathTypes_takes fun o ho => h o (List.mem_cons_of_mem _ ho)
      have ho := h o List.mem_cons_self
      cases o <;> simp [Obj.kind] at ho
      · exact ⟨.float :: tys, by simp [mathTypes, h1], .cons (by simp [accepts]) h2⟩
      · exact ⟨.float :: tys, by simp [mathTypes, h1], .cons (by simp [accepts]) h2⟩
      · exact ⟨.var :: tys, by simp [mathTypes, h1], .cons (by simp [accepts]) h2⟩

theorem takes_mathTypes {num : ℝ → α} : ∀ {n : ℕ} {args : List (Obj α)}, Takes num (mathTypes n) args →
    ∀ o ∈ args, o.kind = .number ∨ o.kind = .var
  | 0, args, h => by
      obtain ⟨tys, h1, h2⟩ := h
      simp only [mathTypes, List.mem_singleton] at h1
      subst h1
      cases h2
      simp
  | n + 1, args, h => by
      obtain ⟨tys, h1, h2⟩ := h
      simp only [mathTypes, List.mem_flatMap, List.mem_map] at h1
      obtain ⟨t, ht, tys, h1, rfl⟩ := h1
      cases h2 with
      | cons h3 h4 =>
          intro o ho
          rcases List.mem_cons.1 ho with rfl | ho
          · simp only [List.mem_cons, List.not_mem_nil, or_false] at ht
            rcases ht with rfl | rfl <;> cases o <;> simp_all [accepts, Obj.kind]
          · exact takes_mathTypes ⟨tys, h1, h4⟩ o ho

theorem mapM_scalars {ev : α → ℝ} {num : ℝ → α} (hnum : ∀ x, ev (num x) = x) {args : List (Obj α)} {xs : List ℝ}
    (h : List.Forall₂ (fun o x => o.Is ev (.scalar x)) args xs) :
    ∃ as, (args.map (Obj.operand num)).mapM scalarOf = some as ∧ as.map ev = xs := by
  induction h with
  | nil => exact ⟨[], rfl, rfl⟩
  | cons h _ ih =>
      obtain ⟨as, h1, h2⟩ := ih
      obtain ⟨a, h3, h4⟩ := operand_scalar hnum h
      exact ⟨a :: as, by simp [List.mapM_cons, h3, h1, scalarOf], by simp [h2, h4]⟩

/-- C70: functions of several scalars, such as `atan2` and `hypot`, take numbers and `Variable`s in any combination, and
keep their order. -/
theorem py_math_correct {ev : α → ℝ} {num : ℝ → α} (hnum : ∀ x, ev (num x) = x) {f : List α → α} {F : List ℝ → ℝ}
    (hf : ∀ as, ev (f as) = F (as.map ev)) {args : List (Obj α)} {xs : List ℝ}
    (h : List.Forall₂ (fun o x => o.Is ev (.scalar x)) args xs) : ∃ y, math num f args = .ok (.var y) ∧ ev y = F xs := by
  have hr : resolve num (mathTypes args.length) args = some (args.map (Obj.operand num)) := by
    refine resolve_takes (mathTypes_takes fun o ho => ?_)
    have hx : ∃ x, o.Is ev (.scalar x) := by
      clear f F hf
      induction h with
      | nil => simp at ho
      | cons h _ ih =>
          rcases List.mem_cons.1 ho with rfl | ho
          · exact ⟨_, h⟩
          · exact ih ho
    obtain ⟨x, hx⟩ := hx
    cases o <;> simp [Obj.Is, Obj.kind] at hx ⊢
  obtain ⟨as, h1, rfl⟩ := mapM_scalars hnum h
  exact ⟨f as, by simp only [math, hr, h1], hf as⟩

/-- C70: functions of several scalars do not take matrices, blocks or arrays. -/
theorem py_math_refuses {num : ℝ → α} (f : List α → α) {args : List (Obj α)} {o : Obj α} (ho : o ∈ args)
    (h1 : o.kind ≠ .number) (h2 : o.kind ≠ .var) : math num f args = .typeError := by
  have hr : resolve num (mathTypes args.length) args = none :=
    resolve_refuses fun h => (takes_mathTypes h o ho).elim h1 h2
  simp [math, hr]

/-- C70: `obj ** power` with an integer that fits an `int` raises all elements to that power. -/
theorem py_power_correct {ev : α → ℝ} {num : ℝ → α} (hnum : ∀ x, ev (num x) = x) {pow : α → α → α} {P : ℝ → ℝ → ℝ}
    (hp : ∀ a b, ev (pow a b) = P (ev a) (ev b)) {l : Obj α} {v : RealValue} (hl : l.Is ev v)
    (own : l.kind = .var ∨ l.kind = .mat ∨ l.kind = .block) {z : ℤ} (hz : -2 ^ 31 ≤ z ∧ z < 2 ^ 31) :
    ∃ y, power num pow l (.int z) = .ok y ∧ y.Is ev (v.map (P · z)) := by
  have hf : ∀ a, ev (pow a (num z)) = P (ev a) z := fun a => by rw [hp, hnum]
  have hz' : Slicing.intMin ≤ z ∧ z ≤ Slicing.intMax := by
    simp only [Slicing.intMin, Slicing.intMax]; omega
  cases l <;> cases v <;> simp [Obj.Is, Obj.kind] at hl own
  · rename_i a x
    refine ⟨.var (pow a (num z)), by simp [power, Obj.self?, accepts, hz'], ?_⟩
    rw [hl]
    exact hf _
  · obtain ⟨C, h1, h2⟩ := map_operand (f := (pow · (num z))) (F := (P · z)) hl.2 hf
    exact ⟨.mat C, by simpa [power, Obj.self?, accepts, hz'] using h1, h2⟩
  · obtain ⟨C, h1, h2⟩ := map_operand (f := (pow · (num z))) (F := (P · z)) hl hf
    exact ⟨.mat C, by simpa [power, Obj.self?, accepts, hz'] using h1, h2⟩

/-- C70: other exponents raise `TypeError`, also `2 ** x`. -/
theorem py_power_refuses {num : ℝ → α} (pow : α → α → α) {l r : Obj α}
    (h : l.kind = .var ∨ l.kind = .mat ∨ l.kind = .block ∨ r.kind = .var ∨ r.kind = .mat ∨ r.kind = .block)
    (hr : ∀ z, r = .int z → ¬ (-2 ^ 31 ≤ z ∧ z < 2 ^ 31)) : power num pow l r = .typeError := by
  have key : ∀ c, accepts num c .int r = none := by
    intro c
    cases r <;> simp [accepts]
    have := hr _ rfl
    simp only [Slicing.intMin, Slicing.intMax]
    omega
  cases l <;> simp only [power, Obj.self?, key, Option.none_or] <;> cases r <;> simp_all [Obj.kind]

/-- C70: negation. -/
theorem py_negation_correct [Neg α] {ev : α → ℝ} (hneg : ∀ a, ev (-a) = -ev a) {l : Obj α} {v : RealValue} (hl : l.Is ev v)
    (own : l.kind = .var ∨ l.kind = .mat ∨ l.kind = .block) : ∃ y, negation l = .ok y ∧ y.Is ev (v.map (- ·)) := by
  cases l <;> cases v <;> simp [Obj.Is, Obj.kind] at hl own
  · rename_i a x
    refine ⟨.var (-a), by simp [negation, Obj.self?], ?_⟩
    rw [hl]
    exact hneg _
  · obtain ⟨C, h1, h2⟩ := map_operand (F := (- ·)) hl.2 hneg
    exact ⟨.mat C, by simpa [negation, Obj.self?] using h1, h2⟩
  · obtain ⟨C, h1, h2⟩ := map_operand (F := (- ·)) hl hneg
    exact ⟨.mat C, by simpa [negation, Obj.self?] using h1, h2⟩

/-- `bounds` takes only arrays with elements of type `float64`. -/
def Obj.Plain : Obj α → Prop
  | .array a => a.dtype = .f64
  | _ => True

variable [Sub α]

omit [Sub α] in
theorem bounds_takes {ev : α → ℝ} {num : ℝ → α} {l x u : Obj α} {v w z : RealValue} (hl : l.Is ev v) (hx : x.Is ev w)
    (hu : u.Is ev z) (pl : l.Plain) (pu : u.Plain) (own : x.kind = .var ∨ x.kind = .mat ∨ x.kind = .block) :
    resolve num boundsTypes [l, x, u] = some [l.operand num, x.operand num, u.operand num] := by
  have key : ∀ {o : Obj α} {v : RealValue}, o.Is ev v → o.Plain →
      ∃ t ∈ [Ty.float, .int, .var, .mat, .block, .array], (accepts num true t o).isSome := by
    intro o v h p
    cases o <;> cases v <;> simp [Obj.Is, Obj.Plain] at h p <;> simp [accepts, *]
    simp [h.1.shape]
  have key' : ∃ t ∈ [Ty.var, .mat, .block], (accepts num true t x).isSome := by
    cases x <;> simp [Obj.kind] at own <;> simp [accepts]
  obtain ⟨t, ht, a⟩ := key hl pl
  obtain ⟨t', ht', a'⟩ := key' 
  obtain ⟨t'', ht'', a''⟩ := key hu pu
  refine resolve_takes ⟨[t, t', t''], ?_, .cons a (.cons a' (.cons a'' .nil))⟩
  simp only [boundsTypes, List.mem_flatMap, List.mem_map]
  exact ⟨t, ht, t', ht', t'', ht'', rfl⟩

/-- C70: `bounds(l, x, u)` gives inequality constraints that are true exactly if `l <= x` and `x <= u` for all
elements. -/
theorem py_bounds_correct {ev : α → ℝ} (hsub : ∀ a b, ev (a - b) = ev a - ev b) {num : ℝ → α}
    (hnum : ∀ x, ev (num x) = x) {l x u : Obj α} {v w z : RealValue} (hl : l.Is ev v) (hx : x.Is ev w) (hu : u.Is ev z)
    (pl : l.Plain) (pu : u.Plain) (own : x.kind = .var ∨ x.kind = .mat ∨ x.kind = .block) (h1 : v.Comparable w)
    (h2 : w.Comparable z) : ∃ c, pyBounds num l x u = .ok (.ineq c) ∧
      (c.toBool ev = true ↔ v.Holds (· ≤ ·) w ∧ w.Holds (· ≤ ·) z) := by
  obtain ⟨m, n, f, g, a1, a2, a3, a4⟩ := comparable_operands hnum hl hx h1
  obtain ⟨m', n', f', g', b1, b2, b3, b4⟩ := comparable_operands hnum hx hu h2
  obtain ⟨c, -, -, e1, -, -, -, e2⟩ := bounds_correct hsub a1 a2 a3 b1 b2 b3
  refine ⟨c, by simp [pyBounds, bounds_takes hl hx hu pl pu own, e1, Ret.ofCpp, Ret.last], ?_⟩
  rw [e2, a4 (· ≤ ·), b4 (· ≤ ·)]

/-- C70: bounds on a number or an array raise `TypeError`. -/
theorem py_bounds_refuses {num : ℝ → α} {l x u : Obj α} (hx : x.kind = .number ∨ x.kind = .array) :
    pyBounds num l x u = .typeError := by
  have hr : resolve num boundsTypes [l, x, u] = none := by
    refine resolve_refuses ?_
    rintro ⟨tys, h1, h2⟩
    simp only [boundsTypes, List.mem_flatMap, List.mem_map] at h1
    obtain ⟨t, -, t', ht', t'', -, rfl⟩ := h1
    cases h2 with
    | cons _ h2 => cases h2 with
      | cons h2 _ =>
          cases x <;> simp [Obj.kind] at hx <;> fin_cases ht' <;> simp [accepts] at h2
  simp [pyBounds, hr]

/-! ### Cases -/

/-- Expressions at the point `x0 = 1, x1 = 2, …`. -/
noncomputable def exEv (t : Term) : ℝ := t.eval fun k => (k : ℝ) + 1

/-- The 2×2 matrix with the variables `x0`, `x1` and two expressions. -/
def exMat : Mat Term := ⟨2, 2, [.var 0, .lit 3, .bin .mul (.var 0) (.var 1), .var 1]⟩

theorem exMat_is : (Obj.mat exMat).Is exEv (.matrix 2 2 !![1, 3; 2, 2]) := by
  refine ⟨rfl, rfl, rfl, fun i j => ?_⟩
  fin_cases i <;> fin_cases j
  · exact ⟨_, rfl, by simp [exEv, Term.eval]⟩
  · exact ⟨_, rfl, by simp [exEv, Term.eval]⟩
  · exact ⟨_, rfl, by simp [exEv, Term.eval, BinOp.eval]; norm_num⟩
  · exact ⟨_, rfl, by simp [exEv, Term.eval]; norm_num⟩

/-- The transpose of the array `[[1, 2], [3, 4]]`, by strides. -/
noncomputable def exArray : NdArray := ⟨.f64, [2, 2], [1, 2], fun z => z + 1⟩

theorem exArray_is : (Obj.array exArray : Obj Term).Is exEv (.matrix 2 2 !![1, 3; 2, 4]) := by
  refine ⟨⟨rfl, rfl, by simp [exArray], by norm_num⟩, fun i j => ?_⟩
  fin_cases i <;> fin_cases j <;> simp [exArray, NdArray.entry] <;> norm_num

/-- `array @ A`. -/
example : ∃ x, binary Term.lit .matmul (.array exArray) (.mat exMat) = .ok x ∧
    x.Is exEv (.matrix 2 2 !![7, 9; 10, 14]) := by
  have h := py_arith_correct (term_reals _) (num := Term.lit) (fun _ => rfl) (op := .matmul) exArray_is exMat_is
    (by simp [Own, Obj.kind]) (by simp [Supported, Obj.kind]) (.matmul _ _)
  have e : !![(1 : ℝ), 3; 2, 4] * !![1, 3; 2, 2] = !![7, 9; 10, 14] := by
    ext i j
    fin_cases i <;> fin_cases j <;> simp [Matrix.mul_apply, Fin.sum_univ_two] <;> norm_num
  rwa [e] at h

/-- `array <= A` holds for three of the four elements. -/
example : ∃ x, binary Term.lit .le (.array exArray) (.mat exMat) = .ok x ∧ x.truth exEv = some false := by
  obtain ⟨x, b, h1, -, h2, h3⟩ := py_compare_correct (term_reals _).sub (num := Term.lit) (fun _ => rfl) (op := .le) rfl
    exArray_is exMat_is (by simp [Own, Obj.kind]) ⟨rfl, rfl⟩
  refine ⟨x, h1, ?_⟩
  rw [h2]
  cases b
  · rfl
  · have := h3.1 rfl 1 1 (by norm_num) (by norm_num) (by norm_num) (by norm_num)
    norm_num at this

/-- `A * array` and `A + 1` are errors. -/
example : binary Term.lit .mul (.mat exMat) (.array exArray) = .typeError ∧
    binary Term.lit .add (.mat exMat) (.int 1) = .valueError := by
  refine ⟨py_unsupported exMat_is exArray_is (by simp [Own, Obj.kind]) (by simp [Supported, Obj.kind]), ?_⟩
  refine py_size_mismatch (ev := exEv) (fun _ => rfl) exMat_is (w := .scalar 1) (by simp [Obj.Is]) (by simp [Own, Obj.kind])
    (by simp [Supported]) (.inl rfl) fun z h => ?_
  cases h

/-- Adding an array with one dimension has no result. -/
example (x : Res Term) : binary Term.lit .add (.mat exMat) (.array ⟨.f64, [2], [1], fun _ => 0⟩) ≠ .ok x :=
  (py_array_dimension (.inl rfl) (by decide) x).1

/-- `atan2(1, x1)`. -/
example : ∃ y, math Term.lit (fun l => .bin .atan2 (l.getD 0 0) (l.getD 1 0)) [.int 1, .var (.var 1)] = .ok (.var y) ∧
    exEv y = BinOp.eval .atan2 1 2 := by
  have h := py_math_correct (ev := exEv) (num := Term.lit) (fun _ => rfl)
    (f := fun l => .bin .atan2 (l.getD 0 0) (l.getD 1 0)) (F := fun l => BinOp.eval .atan2 (l.getD 0 0) (l.getD 1 0))
    (fun as => by
      rcases as with _ | ⟨a, _ | ⟨b, as⟩⟩ <;> rfl)
    (args := [.int 1, .var (.var 1)]) (xs := [1, 2])
    (.cons (by simp [Obj.Is]) (.cons (by simp [Obj.Is, exEv, Term.eval]; norm_num) .nil))
  simpa using h

/-- `bounds(0, A, array)`. -/
example : ∃ c, pyBounds Term.lit (.int 0) (.mat exMat) (.array exArray) = .ok (.ineq c) ∧ c.toBool exEv = true := by
  obtain ⟨c, h1, h2⟩ := py_bounds_correct (term_reals _).sub (num := Term.lit) (fun _ => rfl) (l := .int 0) (v := .scalar 0)
    (by simp [Obj.Is]) exMat_is exArray_is trivial rfl (by simp [Obj.kind]) trivial ⟨rfl, rfl⟩
  refine ⟨c, h1, h2.2 ⟨fun i j => ?_, fun i j hi hj _ _ => ?_⟩⟩
  · fin_cases i <;> fin_cases j <;> norm_num
  · interval_cases i <;> interval_cases j <;> norm_num

end Slp.Py
