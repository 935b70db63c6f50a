import Verif.Autodiff.GradLemmas
import Mathlib.Algebra.BigOperators.Group.List.Basic
import Mathlib.Tactic.Ring

/-! Reverse accumulation computes the same number as forward propagation of a tangent. -/

namespace Slp

open ScalarOps

/-- Forward propagation of the tangent `d` of the independent variables to node `n`, when the nodes
have the values `v`. -/
noncomputable def tgv (h : Heap ℝ) (v d : ℕ → ℝ) (n : ℕ) : ℝ :=
  match h.args n with
  | (none, _) => if h.op n = .constant then 0 else d n
  | (some l, none) => if l < n then gradL (h.op n) 1 (v l) 0 * tgv h v d l else 0
  | (some l, some r) =>
    if l < n then
      if r < n then
        gradL (h.op n) 1 (v l) (v r) * tgv h v d l + gradR (h.op n) 1 (v l) (v r) * tgv h v d r
      else 0
    else 0
termination_by n

theorem tgv_leaf {h : Heap ℝ} {v d : ℕ → ℝ} {n : ℕ} (ha : (h.args n).1 = none) :
    tgv h v d n = if h.op n = .constant then 0 else d n := by
  rw [tgv]
  rcases hh : h.args n with ⟨a, b⟩
  rw [hh] at ha
  simp at ha
  subst ha
  rfl

theorem tgv_un {h : Heap ℝ} (hac : Graph.Acyclic h.args) {v d : ℕ → ℝ} {n l : ℕ}
    (ha : h.args n = (some l, none)) :
    tgv h v d n = gradL (h.op n) 1 (v l) 0 * tgv h v d l := by
  have hl : l < n := hac n l (mem_kids_left (by rw [ha]))
  rw [tgv]
  simp [ha, hl]

theorem tgv_bin {h : Heap ℝ} (hac : Graph.Acyclic h.args) {v d : ℕ → ℝ} {n l r : ℕ}
    (ha : h.args n = (some l, some r)) :
    tgv h v d n = gradL (h.op n) 1 (v l) (v r) * tgv h v d l +
      gradR (h.op n) 1 (v l) (v r) * tgv h v d r := by
  have hl : l < n := hac n l (mem_kids_left (by rw [ha]))
  have hr : r < n := hac n r (mem_kids_right (by rw [ha]))
  rw [tgv]
  simp [ha, hl, hr]

/-- `grad_l` is linear in the adjoint. -/
theorem gradL_lin (op : Op) (a x y : ℝ) : gradL op a x y = a * gradL op 1 x y := by
  cases op <;> simp [gradL] <;> ring

/-- `grad_r` is linear in the adjoint. -/
theorem gradR_lin (op : Op) (a x y : ℝ) : gradR op a x y = a * gradR op 1 x y := by
  cases op <;> simp [gradR] <;> ring

/-- One step of reverse accumulation on a table of adjoints. -/
noncomputable def accN (h : Heap ℝ) (v adj : ℕ → ℝ) (n : ℕ) : ℕ → ℝ :=
  match h.args n with
  | (none, _) => adj
  | (some l, none) => Function.update adj l (adj l + gradL (h.op n) (adj n) (v l) 0)
  | (some l, some r) =>
    let adj1 := Function.update adj l (adj l + gradL (h.op n) (adj n) (v l) (v r))
    Function.update adj1 r (adj1 r + gradR (h.op n) (adj1 n) (v l) (v r))

theorem accN_leaf {h : Heap ℝ} {v adj : ℕ → ℝ} {n : ℕ} (ha : (h.args n).1 = none) :
    accN h v adj n = adj := by
  unfold accN
  rcases hh : h.args n with ⟨a, b⟩
  rw [hh] at ha
  simp at ha
  subst ha
  rfl

theorem sum_update (t : List ℕ) (hn : t.Nodup) (l : ℕ) (hl : l ∈ t) (adj T : ℕ → ℝ) (c : ℝ) :
    (t.map fun m => Function.update adj l (adj l + c) m * T m).sum =
      (t.map fun m => adj m * T m).sum + c * T l := by
  induction t with
  | nil => simp at hl
  | cons m t ih =>
    simp only [List.map_cons, List.sum_cons]
    rcases List.mem_cons.mp hl with e | e
    · subst e
      have hl' : l ∉ t := (List.nodup_cons.mp hn).1
      have : (t.map fun m => Function.update adj l (adj l + c) m * T m) =
          t.map fun m => adj m * T m := by
        apply List.map_congr_left
        intro m hm
        rw [Function.update_of_ne]
        rintro rfl; exact hl' hm
      rw [this, Function.update_self]; ring
    · have hne : m ≠ l := by rintro rfl; exact (List.nodup_cons.mp hn).1 e
      rw [ih (List.nodup_cons.mp hn).2 e, Function.update_of_ne hne]; ring

/-- Is the node a leaf? -/
def leafB (h : Heap ℝ) (n : ℕ) : Bool := (h.args n).1.isNone

theorem accN_other {h : Heap ℝ} {v adj : ℕ → ℝ} {n m : ℕ} (hm : m ∉ Graph.kids h.args n) :
    accN h v adj n m = adj m := by
  unfold accN
  rcases hh : h.args n with ⟨a, b⟩
  have hm1 : ∀ l, a = some l → m ≠ l := by
    rintro l rfl rfl; exact hm (mem_kids_left (by rw [hh]))
  have hm2 : ∀ l, b = some l → m ≠ l := by
    rintro l rfl rfl; exact hm (mem_kids_right (by rw [hh]))
  cases a with
  | none => rfl
  | some l =>
    cases b with
    | none => simp [Function.update_of_ne (hm1 l rfl)]
    | some r => simp [Function.update_of_ne (hm1 l rfl), Function.update_of_ne (hm2 r rfl)]

theorem foldl_accN_other {h : Heap ℝ} {v : ℕ → ℝ} (t : List ℕ) (ht : Topo h.args t) (m : ℕ)
    (hm : m ∉ t) (adj : ℕ → ℝ) : t.foldl (accN h v) adj m = adj m := by
  have hcl := ht.closed
  have key : ∀ s : List ℕ, (∀ n ∈ s, ∀ c ∈ Graph.kids h.args n, c ∈ t) → ∀ adj : ℕ → ℝ,
      s.foldl (accN h v) adj m = adj m := by
    intro s
    induction s with
    | nil => intros; rfl
    | cons n s ih =>
      intro hs adj
      rw [List.foldl_cons, ih (fun n' hn' => hs n' (List.mem_cons_of_mem _ hn'))]
      exact accN_other fun hk => hm (hs n (by simp) m hk)
  exact key t hcl adj

/-- Reverse accumulation over a sorted graph conserves `Σ adjoint · tangent`. -/
theorem accN_sum {h : Heap ℝ} (hac : Graph.Acyclic h.args)
    (v d : ℕ → ℝ) (t : List ℕ) (ht : Topo h.args t) (adj : ℕ → ℝ) :
    ((t.filter (leafB h)).map fun m => t.foldl (accN h v) adj m * tgv h v d m).sum =
      (t.map fun m => adj m * tgv h v d m).sum := by
  induction t generalizing adj with
  | nil => simp
  | cons n t ih =>
    have htt := ht.2.2
    have hnt := ht.1
    have hnd := htt.nodup
    simp only [List.foldl_cons, List.map_cons, List.sum_cons]
    rcases hh : h.args n with ⟨a, b⟩
    cases a with
    | none =>
      have hl : leafB h n = true := by simp [leafB, hh]
      rw [accN_leaf (by rw [hh])]
      rw [List.filter_cons_of_pos hl, List.map_cons, List.sum_cons, ih htt,
        foldl_accN_other t htt n hnt]
    | some l =>
      have hl : ¬ leafB h n = true := by simp [leafB, hh]
      rw [List.filter_cons_of_neg hl, ih htt]
      have hlt : l ∈ t := ht.2.1 l (mem_kids_left (by rw [hh]))
      have hln : n ≠ l := by rintro rfl; exact hnt hlt
      cases b with
      | none =>
        have e : accN h v adj n =
            Function.update adj l (adj l + gradL (h.op n) (adj n) (v l) 0) := by
          unfold accN; rw [hh]
        rw [e, sum_update t hnd l hlt, tgv_un hac hh, gradL_lin]; ring
      | some r =>
        have hrt : r ∈ t := ht.2.1 r (mem_kids_right (by rw [hh]))
        have e : accN h v adj n =
            Function.update (Function.update adj l (adj l + gradL (h.op n) (adj n) (v l) (v r))) r
              (Function.update adj l (adj l + gradL (h.op n) (adj n) (v l) (v r)) r +
                gradR (h.op n) (adj n) (v l) (v r)) := by
          unfold accN; rw [hh]
          simp [Function.update_of_ne hln]
        rw [e, sum_update t hnd r hrt, sum_update t hnd l hlt, tgv_bin hac hh, gradL_lin,
          gradR_lin]
        ring

/-- The direction of one independent variable. -/
noncomputable def dir (w : ℕ) : ℕ → ℝ := fun m => if m = w then 1 else 0

theorem sum_single (t : List ℕ) (hn : t.Nodup) (w : ℕ) (hw : w ∈ t) (f : ℕ → ℝ)
    (hf : ∀ m ∈ t, m ≠ w → f m = 0) : (t.map f).sum = f w := by
  induction t with
  | nil => simp at hw
  | cons m t ih =>
    simp only [List.map_cons, List.sum_cons]
    rcases List.mem_cons.mp hw with e | e
    · subst e
      have : (t.map f).sum = 0 := by
        apply List.sum_eq_zero
        intro x hx
        obtain ⟨m, hm, rfl⟩ := List.mem_map.mp hx
        refine hf m (List.mem_cons_of_mem _ hm) ?_
        rintro rfl; exact (List.nodup_cons.mp hn).1 hm
      rw [this, add_zero]
    · have hne : m ≠ w := by rintro rfl; exact (List.nodup_cons.mp hn).1 e
      rw [hf m (by simp) hne, zero_add]
      exact ih (List.nodup_cons.mp hn).2 e fun m' hm' => hf m' (List.mem_cons_of_mem _ hm')

/-- The adjoint of an independent variable after accumulation is the forward derivative of the root
in its direction. -/
theorem accN_dir {h : Heap ℝ} (wf : WF h) (v : ℕ → ℝ) (r : ℕ) (t : List ℕ)
    (ht : Topo h.args (r :: t)) (w : ℕ) (hw : w ∈ r :: t) (hop : h.op w = .variable)
    (hwn : w < h.next) (adj : ℕ → ℝ) (h1 : adj r = 1) (h0 : ∀ m ∈ t, adj m = 0) :
    (r :: t).foldl (accN h v) adj w = tgv h v (dir w) r := by
  have hargs : h.args w = (none, none) := by
    have := wf.arity w hwn
    rw [hop] at this
    simpa [ArityOK, Op.arity] using this
  have hsum := accN_sum wf.acyc v (dir w) (r :: t) ht adj
  have hR : ((r :: t).map fun m => adj m * tgv h v (dir w) m).sum = tgv h v (dir w) r := by
    rw [List.map_cons, List.sum_cons, h1, one_mul]
    have : (t.map fun m => adj m * tgv h v (dir w) m).sum = 0 := by
      apply List.sum_eq_zero
      intro x hx
      obtain ⟨m, hm, rfl⟩ := List.mem_map.mp hx
      rw [h0 m hm, zero_mul]
    rw [this, add_zero]
  rw [hR] at hsum
  rw [sum_single ((r :: t).filter (leafB h)) (ht.nodup.filter _) w] at hsum
  · rw [← hsum, tgv_leaf (by rw [hargs]), if_neg (by rw [hop]; simp)]
    simp [dir]
  · exact List.mem_filter.mpr ⟨hw, by simp [leafB, hargs]⟩
  · intro m hm hne
    have hl : (h.args m).1 = none := by
      have := (List.mem_filter.mp hm).2
      simpa [leafB, Option.isNone_iff_eq_none] using this
    rw [tgv_leaf hl]
    split <;> simp [dir, hne]

/-- A root that does not depend on `w` has zero derivative in its direction. -/
theorem tgv_indep {h : Heap ℝ} (hac : Graph.Acyclic h.args) (v : ℕ → ℝ) (d : ℕ → ℝ) (r : ℕ)
    (hw : ∀ n, Graph.Reach h.args r n → (h.args n).1 = none → h.op n ≠ .constant → d n = 0) :
    tgv h v d r = 0 := by
  induction r using Nat.strong_induction_on with
  | _ n ih =>
    rcases hh : h.args n with ⟨a, b⟩
    cases a with
    | none =>
      rw [tgv_leaf (by rw [hh])]
      split
      · rfl
      · exact hw n .refl (by rw [hh]) ‹_›
    | some l =>
      have hl := mem_kids_left (args := h.args) (n := n) (l := l) (by rw [hh])
      have il := ih l (hac n l hl) fun m hm => hw m (Relation.ReflTransGen.head hl hm)
      cases b with
      | none => rw [tgv_un hac hh, il, mul_zero]
      | some r =>
        have hr := mem_kids_right (args := h.args) (n := n) (r := r) (by rw [hh])
        have ir := ih r (hac n r hr) fun m hm => hw m (Relation.ReflTransGen.head hr hm)
        rw [tgv_bin hac hh, il, ir]; simp

/-! ### The numeric code -/

/-- `accumulate` changes only `adjoint`, in the way `accN` says. -/
theorem accumulate_eq (h : Heap ℝ) (n : ℕ) :
    accumulate h n = { h with adjoint := accN h h.val h.adjoint n } := by
  unfold accumulate accN
  rcases h.args n with ⟨a, b⟩
  cases a with
  | none => rfl
  | some l =>
    cases b with
    | none => rfl
    | some r => rfl

theorem foldl_accumulate (t : List ℕ) (h : Heap ℝ) :
    t.foldl accumulate h = { h with adjoint := t.foldl (accN h h.val) h.adjoint } := by
  induction t generalizing h with
  | nil => rfl
  | cons n t ih =>
    rw [List.foldl_cons, ih, accumulate_eq]
    rfl

theorem foldl_zero (t : List ℕ) (h : Heap ℝ) :
    t.foldl (fun h n => { h with adjoint := Function.update h.adjoint n zero }) h =
      { h with adjoint := fun m => if m ∈ t then 0 else h.adjoint m } := by
  induction t generalizing h with
  | nil => simp
  | cons n t ih =>
    rw [List.foldl_cons, ih]
    congr 1
    funext m
    by_cases hm : m ∈ t
    · simp [hm]
    · by_cases hmn : m = n
      · subst hmn; simp
      · simp [hm, hmn]

theorem initAdjoints_eq (r : ℕ) (t : List ℕ) (h : Heap ℝ) (hr : r ∉ t) :
    ∃ adj, initAdjoints (r :: t) h = { h with adjoint := adj } ∧ adj r = 1 ∧
      ∀ m ∈ t, adj m = 0 := by
  refine ⟨_, by rw [initAdjoints, foldl_zero], ?_, ?_⟩
  · simp [hr]
  · intro m hm; simp [hm]

/-- What `append_triplets` returns and leaves behind, for a sorted graph: the derivative of the root
in the direction of each listed variable, at the node values currently stored. -/
theorem appendTriplets_spec {h : Heap ℝ} (wf : WF h) (r : ℕ) (t : List ℕ)
    (ht : Topo h.args (r :: t)) (out : List (ℕ × ℕ)) (row : ℕ)
    (hout : ∀ cn ∈ out, cn.2 ∈ r :: t ∧ h.op cn.2 = .variable ∧ cn.2 < h.next) :
    (appendTriplets (r :: t) out row h).1 =
        out.map (fun cn => ⟨row, cn.1, tgv h h.val (dir cn.2) r⟩) ∧
      ∃ adj, (appendTriplets (r :: t) out row h).2 = { h with adjoint := adj } := by
  obtain ⟨adj, e, h1, h0⟩ := initAdjoints_eq r t h ht.1
  have e2 : ∀ adj', (r :: t).foldl accumulate { h with adjoint := adj' } =
      { h with adjoint := (r :: t).foldl (accN h h.val) adj' } := by
    intro adj'
    rw [foldl_accumulate]
    rfl
  constructor
  · unfold appendTriplets
    simp only [e]
    rw [e2]
    apply List.map_congr_left
    intro cn hcn
    obtain ⟨a, b, c⟩ := hout cn hcn
    simp only
    congr 1
    exact accN_dir wf h.val r t ht cn.2 a b c adj h1 h0
  · refine ⟨(r :: t).foldl (accN h h.val) adj, ?_⟩
    unfold appendTriplets
    simp only [e]
    exact e2 adj

end Slp
