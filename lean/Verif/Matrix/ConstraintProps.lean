import Verif.Matrix.ConstraintModel
import Verif.Matrix.ArithProps

/-! C16: constraint lists have the truth value of the elementwise comparison. -/

namespace Slp.VMat

variable {α : Type}

/-- The operand takes part in an elementwise comparison of shape `m` by `n` with the values `f`: a scalar
is compared with every element, a matrix must have this shape. -/
def Operand.Is (ev : α → ℝ) (m n : ℕ) (f : ℕ → ℕ → ℝ) : Operand α → Prop
  | .scalar a => ∀ i j, i < m → j < n → ev a = f i j
  | .matrix A => A.rows = m ∧ A.cols = n ∧ ∀ i j : ℕ, i < m → j < n → ∃ a, A.get i j = some a ∧ ev a = f i j

/-- The comparison has the shape of a matrix operand, or is 1 by 1 if both operands are scalars. -/
def ShapeOk (m n : ℕ) : Operand α → Operand α → Prop
  | .scalar _, .scalar _ => m = 1 ∧ n = 1
  | _, _ => True

/-- `l` lists, in row-major order, one expression per element of an `m` by `n` comparison, with the values
`f`. -/
def Lists (ev : α → ℝ) (m n : ℕ) (f : ℕ → ℕ → ℝ) (l : List α) : Prop :=
  l.length = m * n ∧ ∀ i j, i < m → j < n → ∃ x, l[i * n + j]? = some x ∧ ev x = f i j

theorem mapM_pairs {ev : α → ℝ} {m n : ℕ} {f : ℕ → ℕ → ℝ} {F : ℕ × ℕ → Option α}
    (h : ∀ i j, i < m → j < n → ∃ a, F (i, j) = some a ∧ ev a = f i j) :
    ∃ l, (pairs m n).mapM F = some l ∧ Lists ev m n f l := by
  have hex : ∀ l : List (ℕ × ℕ), (∀ p ∈ l, p.1 < m ∧ p.2 < n) → ∃ r, l.mapM F = some r ∧
      List.Forall₂ (fun p a => F p = some a) l r := by
    intro l
    induction l with
    | nil => intro _; exact ⟨[], rfl, .nil⟩
    | cons p l ih =>
        intro hl
        obtain ⟨r, hr, hf⟩ := ih (fun q hq => hl q (by simp [hq]))
        obtain ⟨a, ha, -⟩ := h p.1 p.2 (hl p (by simp)).1 (hl p (by simp)).2
        refine ⟨a :: r, ?_, .cons ha hf⟩
        rw [List.mapM_cons]
        have ha : F p = some a := ha
        rw [ha, hr]; rfl
  obtain ⟨r, hr, hf⟩ := hex (pairs m n) (fun p hp => mem_pairs.1 hp)
  refine ⟨r, hr, by rw [← hf.length_eq, pairs_length], ?_⟩
  intro i j hi hj
  have hp := pairs_getElem? hi hj
  obtain ⟨hlt, hpe⟩ := List.getElem?_eq_some_iff.1 hp
  have hlt' : i * n + j < r.length := by rw [← hf.length_eq]; exact hlt
  have := hf.get hlt hlt'
  simp only [List.get_eq_getElem, hpe] at this
  obtain ⟨a, ha, ea⟩ := h i j hi hj
  refine ⟨_, List.getElem?_eq_getElem hlt', ?_⟩
  rw [ha] at this
  rw [← Option.some_injective _ this, ea]

theorem makeConstraints_correct [Sub α] {ev : α → ℝ} (hsub : ∀ a b, ev (a - b) = ev a - ev b) {m n : ℕ}
    {f g : ℕ → ℕ → ℝ} {l r : Operand α} (hl : l.Is ev m n f) (hr : r.Is ev m n g) (hs : ShapeOk m n l r) :
    ∃ c, makeConstraints l r = some c ∧ Lists ev m n (fun i j => f i j - g i j) c := by
  cases l with
  | scalar a =>
      cases r with
      | scalar b =>
          obtain ⟨rfl, rfl⟩ := hs
          refine ⟨[a - b], rfl, rfl, ?_⟩
          intro i j hi hj
          obtain rfl : i = 0 := by omega
          obtain rfl : j = 0 := by omega
          exact ⟨_, rfl, by rw [hsub, hl 0 0 hi hj, hr 0 0 hi hj]⟩
      | matrix B =>
          obtain ⟨b1, b2, b3⟩ := hr
          simp only [makeConstraints]
          rw [b1, b2]
          apply mapM_pairs
          intro i j hi hj
          obtain ⟨b, hb, eb⟩ := b3 i j hi hj
          exact ⟨a - b, by simp only [hb]; rfl, by rw [hsub, hl i j hi hj, eb]⟩
  | matrix A =>
      obtain ⟨a1, a2, a3⟩ := hl
      cases r with
      | scalar b =>
          simp only [makeConstraints]
          rw [a1, a2]
          apply mapM_pairs
          intro i j hi hj
          obtain ⟨a, ha, ea⟩ := a3 i j hi hj
          exact ⟨a - b, by simp only [ha]; rfl, by rw [hsub, hr i j hi hj, ea]⟩
      | matrix B =>
          obtain ⟨b1, b2, b3⟩ := hr
          simp only [makeConstraints]
          rw [if_pos (by omega), a1, a2]
          apply mapM_pairs
          intro i j hi hj
          obtain ⟨a, ha, ea⟩ := a3 i j hi hj
          obtain ⟨b, hb, eb⟩ := b3 i j hi hj
          exact ⟨a - b, by simp only [ha, hb]; rfl, by rw [hsub, ea, eb]⟩

theorem Lists.forall_iff {ev : α → ℝ} {m n : ℕ} {f : ℕ → ℕ → ℝ} {l : List α} (h : Lists ev m n f l)
    (P : ℝ → Prop) : (∀ x ∈ l, P (ev x)) ↔ ∀ i j, i < m → j < n → P (f i j) := by
  constructor
  · intro hx i j hi hj
    obtain ⟨x, h1, h2⟩ := h.2 i j hi hj
    rw [← h2]
    exact hx x (List.mem_of_getElem? h1)
  · intro hf x hx
    obtain ⟨k, hk⟩ := List.getElem?_of_mem hx
    have hlt := (List.getElem?_eq_some_iff.1 hk).1
    rw [h.1] at hlt
    have hn : 0 < n := by
      rcases Nat.eq_zero_or_pos n with h0 | h0
      · rw [h0] at hlt; omega
      · exact h0
    have h1 : k / n < m := Nat.div_lt_of_lt_mul (by rw [Nat.mul_comm]; exact hlt)
    have h2 : k % n < n := Nat.mod_lt _ hn
    obtain ⟨y, h3, h4⟩ := h.2 (k / n) (k % n) h1 h2
    have h5 : k / n * n + k % n = k := by rw [Nat.mul_comm]; exact Nat.div_add_mod k n
    rw [h5, hk] at h3
    rw [Option.some_injective _ h3, h4]
    exact hf _ _ h1 h2

variable [Sub α] {ev : α → ℝ}

/-- C16, `lhs == rhs`: one constraint per element in row-major order, and the constraint object converts
to `true` exactly if all elements are equal. -/
theorem eq_correct (hsub : ∀ a b, ev (a - b) = ev a - ev b) {m n : ℕ} {f g : ℕ → ℕ → ℝ}
    {l r : Operand α} (hl : l.Is ev m n f) (hr : r.Is ev m n g) (hs : ShapeOk m n l r) :
    ∃ c, eqOp l r = some c ∧ Lists ev m n (fun i j => f i j - g i j) c.constraints ∧
      (c.toBool ev = true ↔ ∀ i j, i < m → j < n → f i j = g i j) := by
  obtain ⟨c, hc, hL⟩ := makeConstraints_correct hsub hl hr hs
  refine ⟨⟨c⟩, by simp [eqOp, hc], hL, ?_⟩
  simp only [EqualityConstraints.toBool, List.all_eq_true, decide_eq_true_eq]
  rw [hL.forall_iff (fun z => z = 0)]
  simp only [sub_eq_zero]

/-- C16, `lhs >= rhs`. -/
theorem ge_correct (hsub : ∀ a b, ev (a - b) = ev a - ev b) {m n : ℕ} {f g : ℕ → ℕ → ℝ}
    {l r : Operand α} (hl : l.Is ev m n f) (hr : r.Is ev m n g) (hs : ShapeOk m n l r) :
    ∃ c, geOp l r = some c ∧ Lists ev m n (fun i j => f i j - g i j) c.constraints ∧
      (c.toBool ev = true ↔ ∀ i j, i < m → j < n → f i j ≥ g i j) := by
  obtain ⟨c, hc, hL⟩ := makeConstraints_correct hsub hl hr hs
  refine ⟨⟨c⟩, by simp [geOp, hc], hL, ?_⟩
  simp only [InequalityConstraints.toBool, List.all_eq_true, decide_eq_true_eq]
  rw [hL.forall_iff (fun z => 0 ≤ z)]
  simp only [sub_nonneg, ge_iff_le]

omit [Sub α] in
theorem ShapeOk.symm {m n : ℕ} {l r : Operand α} (h : ShapeOk m n l r) : ShapeOk m n r l := by
  cases l <;> cases r <;> exact h

/-- C16, `lhs <= rhs`. -/
theorem le_correct (hsub : ∀ a b, ev (a - b) = ev a - ev b) {m n : ℕ} {f g : ℕ → ℕ → ℝ}
    {l r : Operand α} (hl : l.Is ev m n f) (hr : r.Is ev m n g) (hs : ShapeOk m n l r) :
    ∃ c, leOp l r = some c ∧ Lists ev m n (fun i j => g i j - f i j) c.constraints ∧
      (c.toBool ev = true ↔ ∀ i j, i < m → j < n → f i j ≤ g i j) :=
  ge_correct hsub hr hl hs.symm

/-- `lhs < rhs` and `lhs > rhs` are the weak comparisons, so `x < x` holds. -/
theorem strict_is_weak (l r : Operand α) : ltOp l r = leOp l r ∧ gtOp l r = geOp l r := ⟨rfl, rfl⟩

/-- C16, `bounds(l, x, u)`: first the constraints `l <= x`, then the constraints `x <= u`. The two
comparisons may have different shapes. -/
theorem bounds_correct (hsub : ∀ a b, ev (a - b) = ev a - ev b) {m n m' n' : ℕ} {f g g' k : ℕ → ℕ → ℝ}
    {l x u : Operand α} (hl : l.Is ev m n f) (hx : x.Is ev m n g) (hs : ShapeOk m n l x)
    (hx' : x.Is ev m' n' g') (hu : u.Is ev m' n' k) (hs' : ShapeOk m' n' x u) :
    ∃ c a b, bounds l x u = some c ∧ c.constraints = a ++ b ∧
      Lists ev m n (fun i j => g i j - f i j) a ∧ Lists ev m' n' (fun i j => k i j - g' i j) b ∧
      (c.toBool ev = true ↔ (∀ i j, i < m → j < n → f i j ≤ g i j) ∧
        ∀ i j, i < m' → j < n' → g' i j ≤ k i j) := by
  obtain ⟨a, ha, hLa, hba⟩ := le_correct hsub hl hx hs
  obtain ⟨b, hb, hLb, hbb⟩ := le_correct hsub hx' hu hs'
  refine ⟨⟨a.constraints ++ b.constraints⟩, a.constraints, b.constraints, ?_, rfl, hLa, hLb, ?_⟩
  · unfold bounds
    rw [ha, hb]; rfl
  · rw [← hba, ← hbb]
    simp only [InequalityConstraints.toBool, List.all_append, Bool.and_eq_true]

omit [Sub α] in
/-- C16: a concatenation of constraints holds exactly if all parts hold. -/
theorem concat_correct (l : List (InequalityConstraints α)) (l' : List (EqualityConstraints α)) :
    ((InequalityConstraints.concat l).toBool ev = true ↔ ∀ c ∈ l, c.toBool ev = true) ∧
      ((EqualityConstraints.concat l').toBool ev = true ↔ ∀ c ∈ l', c.toBool ev = true) ∧
      (InequalityConstraints.concat l).constraints = (l.map (·.constraints)).flatten ∧
      (EqualityConstraints.concat l').constraints = (l'.map (·.constraints)).flatten := by
  have h1 : ∀ (l : List (InequalityConstraints α)) (acc : List α),
      l.foldl (fun acc e => acc ++ e.constraints) acc = acc ++ (l.map (·.constraints)).flatten := by
    intro l
    induction l with
    | nil => intro acc; simp
    | cons c l ih => intro acc; simp [ih]
  have h2 : ∀ (l : List (EqualityConstraints α)) (acc : List α),
      l.foldl (fun acc e => acc ++ e.constraints) acc = acc ++ (l.map (·.constraints)).flatten := by
    intro l
    induction l with
    | nil => intro acc; simp
    | cons c l ih => intro acc; simp [ih]
  have e1 : (InequalityConstraints.concat l).constraints = (l.map (·.constraints)).flatten := by
    have := h1 l []
    rwa [List.nil_append] at this
  have e2 : (EqualityConstraints.concat l').constraints = (l'.map (·.constraints)).flatten := by
    have := h2 l' []
    rwa [List.nil_append] at this
  refine ⟨?_, ?_, e1, e2⟩
  · simp only [InequalityConstraints.toBool, e1, List.all_eq_true, List.mem_flatten, List.mem_map]
    constructor
    · intro h c hc x hx; exact h x ⟨_, ⟨c, hc, rfl⟩, hx⟩
    · rintro h x ⟨_, ⟨c, hc, rfl⟩, hx⟩; exact h c hc x hx
  · simp only [EqualityConstraints.toBool, e2, List.all_eq_true, List.mem_flatten, List.mem_map]
    constructor
    · intro h c hc x hx; exact h x ⟨_, ⟨c, hc, rfl⟩, hx⟩
    · rintro h x ⟨_, ⟨c, hc, rfl⟩, hx⟩; exact h c hc x hx

/-- A 1 by 2 matrix of expressions compared with a scalar. -/
example : (Operand.matrix (⟨1, 2, [.var 0, .lit 3]⟩ : Mat Term).view).Is (fun t => t.eval fun _ => 1) 1 2
      (fun _ j => if j = 0 then 1 else 3) ∧
    (Operand.scalar (Term.lit 2)).Is (fun t => t.eval fun _ => 1) 1 2 (fun _ _ => 2) ∧
    ShapeOk 1 2 (Operand.matrix (⟨1, 2, [.var 0, .lit 3]⟩ : Mat Term).view) (.scalar (.lit 2)) := by
  refine ⟨⟨rfl, rfl, ?_⟩, fun _ _ _ _ => rfl, trivial⟩
  intro i j hi hj
  obtain rfl : i = 0 := by omega
  have hj : j = 0 ∨ j = 1 := by omega
  rcases hj with rfl | rfl
  · exact ⟨_, rfl, rfl⟩
  · exact ⟨_, rfl, rfl⟩

end Slp.VMat
