import Verif.Rounding.FloatGradLemmas

/-! `append_triplets()` in floating-point arithmetic. -/

namespace Slp

open ScalarOps

section
variable {S : Type} [ScalarOps S]

/-- One step of reverse accumulation on a table of adjoints, for any scalar type. -/
def accS (h : Heap S) (v adj : ℕ → S) (n : ℕ) : ℕ → S :=
  match h.args n with
  | (none, _) => adj
  | (some l, none) => Function.update adj l (ScalarOps.add (adj l) (gradL (h.op n) (adj n) (v l) zero))
  | (some l, some r) =>
    let adj1 := Function.update adj l (ScalarOps.add (adj l) (gradL (h.op n) (adj n) (v l) (v r)))
    Function.update adj1 r (ScalarOps.add (adj1 r) (gradR (h.op n) (adj1 n) (v l) (v r)))

theorem accS_leaf {h : Heap S} {v adj : ℕ → S} {n : ℕ} (ha : (h.args n).1 = none) : accS h v adj n = adj := by
  unfold accS
  rcases hh : h.args n with ⟨a, b⟩
  rw [hh] at ha
  simp at ha
  subst ha
  rfl

theorem accS_other {h : Heap S} {v adj : ℕ → S} {n m : ℕ} (hm : m ∉ Graph.kids h.args n) :
    accS h v adj n m = adj m := by
  unfold accS
  rcases hh : h.args n with ⟨a, b⟩
  have hm1 : ∀ l, a = some l → m ≠ l := by
    rintro l rfl rfl; exact hm (mem_kids_left (by rw [hh]))
  have hm2 : ∀ l, b = some l → m ≠ l := by
    rintro l rfl rfl; exact hm (mem_kids_right (by rw [hh]))
  cases a with
  | none => rfl
  | some l =>
    cases b with
    | none => simp [Function.update_of_ne (hm1 l rfl)]
    | some r => simp [Function.update_of_ne (hm1 l rfl), Function.update_of_ne (hm2 r rfl)]

theorem foldl_accS_other {h : Heap S} {v : ℕ → S} (t : List ℕ) (ht : Topo h.args t) (m : ℕ)
    (hm : m ∉ t) (adj : ℕ → S) : t.foldl (accS h v) adj m = adj m := by
  have hcl := ht.closed
  have key : ∀ s : List ℕ, (∀ n ∈ s, ∀ c ∈ Graph.kids h.args n, c ∈ t) → ∀ adj : ℕ → S,
      s.foldl (accS h v) adj m = adj m := by
    intro s
    induction s with
    | nil => intros; rfl
    | cons n s ih =>
      intro hs adj
      rw [List.foldl_cons, ih (fun n' hn' => hs n' (List.mem_cons_of_mem _ hn'))]
      exact accS_other fun hk => hm (hs n (by simp) m hk)
  exact key t hcl adj

theorem accumulate_accS (h : Heap S) (n : ℕ) :
    accumulate h n = { h with adjoint := accS h h.val h.adjoint n } := by
  unfold accumulate accS
  rcases h.args n with ⟨a, b⟩
  cases a with
  | none => rfl
  | some l =>
    cases b with
    | none => rfl
    | some r => rfl

theorem foldl_accumulate_accS (t : List ℕ) (h : Heap S) :
    t.foldl accumulate h = { h with adjoint := t.foldl (accS h h.val) h.adjoint } := by
  induction t generalizing h with
  | nil => rfl
  | cons n t ih =>
    rw [List.foldl_cons, ih, accumulate_accS]
    rfl

theorem foldl_zero_accS (t : List ℕ) (h : Heap S) :
    t.foldl (fun h n => { h with adjoint := Function.update h.adjoint n zero }) h =
      { h with adjoint := fun m => if m ∈ t then zero else h.adjoint m } := by
  induction t generalizing h with
  | nil => simp
  | cons n t ih =>
    rw [List.foldl_cons, ih]
    congr 1
    funext m
    by_cases hm : m ∈ t
    · simp [hm]
    · by_cases hmn : m = n
      · subst hmn; simp
      · simp [hm, hmn]

theorem initAdjoints_accS (r : ℕ) (t : List ℕ) (h : Heap S) (hr : r ∉ t) :
    ∃ adj, initAdjoints (r :: t) h = { h with adjoint := adj } ∧ adj r = one ∧
      ∀ m ∈ t, adj m = zero := by
  refine ⟨_, by rw [initAdjoints, foldl_zero_accS], ?_, ?_⟩
  · simp [hr]
  · intro m hm; simp [hm]

end

namespace FloatMath

variable {A : FloatMath}

/-- `grad_l` and `grad_r` of a class are the adjoint times the partial derivative, up to `c` roundings; `grad_r` does
not matter if the second operand is a constant, which is what `rc` says. -/
def Local (A : FloatMath) (c : ℕ) (op : Op) (rc : Prop) (x y : A.Num) : Prop :=
  ∀ a : A.Num, A.Near c (toReal (gradL op a x y)) (toReal a * gradL op 1 (toReal x) (toReal y)) ∧
    (¬ rc → A.Near c (toReal (gradR op a x y)) (toReal a * gradR op 1 (toReal x) (toReal y)))

/-- The second operand of node `n` is a constant. -/
def RConst {S : Type} (h : Heap S) (n : ℕ) : Prop :=
  ∃ r, (h.args n).2 = some r ∧ (h.args r).1 = none ∧ h.op r = .constant

/-- The value of the second operand of node `n`, or zero. -/
def rhs {S : Type} [ScalarOps S] (h : Heap S) (v : ℕ → S) (n : ℕ) : S :=
  match (h.args n).2 with
  | some r => v r
  | none => zero

/-- The same for the operator and the operands of node `n`, at the node values `v`. -/
def LocalAt (c : ℕ) (h : Heap A.Num) (v : ℕ → A.Num) (n : ℕ) : Prop :=
  ∀ l, (h.args n).1 = some l → Local A c (h.op n) (RConst h n) (v l) (rhs h v n)

/-- Number of nodes with operands in a list. -/
def opCount (h : Heap A.Num) (t : List ℕ) : ℕ := (t.filter fun n => (h.args n).1.isSome).length

/-- Reverse accumulation over a sorted graph nearly conserves `Σ adjoint · tangent`. -/
theorem acc_drift {h : Heap A.Num} (hac : Graph.Acyclic h.args) (c : ℕ) (v : ℕ → A.Num) (d : ℕ → ℝ) (t : List ℕ)
    (ht : Topo h.args t) (hloc : ∀ n ∈ t, LocalAt c h v n) (adj : ℕ → A.Num) :
    Drift A ((c + 2) * opCount h t)
      (t.map fun m => toReal (adj m) * tgv (real h) (fun n => toReal (v n)) d m).sum
      (t.map fun m => |toReal (adj m)| * tgvAbs (real h) (fun n => toReal (v n)) d m).sum
      ((t.filter (leafB (real h))).map fun m =>
        toReal (t.foldl (accS h v) adj m) * tgv (real h) (fun n => toReal (v n)) d m).sum
      ((t.filter (leafB (real h))).map fun m =>
        |toReal (t.foldl (accS h v) adj m)| * tgvAbs (real h) (fun n => toReal (v n)) d m).sum := by
  have hacR : Graph.Acyclic (real h).args := hac
  have hT : ∀ m, |tgv (real h) (fun n => toReal (v n)) d m| ≤ tgvAbs (real h) (fun n => toReal (v n)) d m :=
    tgv_le_tgvAbs hacR _ d
  have hP : ∀ m, 0 ≤ tgvAbs (real h) (fun n => toReal (v n)) d m := tgvAbs_nonneg hacR _ d
  induction t generalizing adj with
  | nil => simpa [opCount] using Drift.refl
  | cons n t ih =>
    have htt := ht.2.2
    have hnt := ht.1
    have hnd := htt.nodup
    have ih := fun adj => ih htt (fun m hm => hloc m (List.mem_cons_of_mem _ hm)) adj
    simp only [List.foldl_cons, List.map_cons, List.sum_cons]
    rcases hh : h.args n with ⟨a, b⟩
    cases a with
    | none =>
      have hl : leafB (real h) n = true := by simp [leafB, real, hh]
      have hc : opCount h (n :: t) = opCount h t := by simp [opCount, hh]
      rw [accS_leaf (by rw [hh]), hc]
      simp only [List.filter_cons_of_pos hl, List.map_cons, List.sum_cons]
      rw [foldl_accS_other t htt n hnt]
      exact (ih adj).add (mul_nonneg (abs_nonneg _) (hP n))
    | some l =>
      have hl : ¬ leafB (real h) n = true := by simp [leafB, real, hh]
      have hc : opCount h (n :: t) = 1 + opCount h t := by simp [opCount, hh, Nat.add_comm]
      simp only [List.filter_cons_of_neg hl, hc, mul_add, mul_one]
      have hlt : l ∈ t := ht.2.1 l (mem_kids_left (by rw [hh]))
      have hln : n ≠ l := by rintro rfl; exact hnt hlt
      refine Drift.trans ?_ (ih _)
      have hlo := hloc n (by simp) l (by rw [hh])
      have hM : 0 ≤ (t.map fun m => |toReal (adj m)| * tgvAbs (real h) (fun n => toReal (v n)) d m).sum :=
        List.sum_nonneg (by
          simp only [List.mem_map]; rintro _ ⟨a, _, rfl⟩; exact mul_nonneg (abs_nonneg _) (hP a))
      cases b with
      | none =>
        have e : (fun m => toReal (accS h v adj n m)) =
            Function.update (fun m => toReal (adj m)) l
              (A.rnd (toReal (adj l) + toReal (gradL (h.op n) (adj n) (v l) zero))) := by
          funext m
          unfold accS; rw [hh]
          by_cases em : m = l
          · subst em; simp
          · simp [Function.update_of_ne em]
        have e1 := fun m => congrFun e m
        simp only [e1]
        have hg := (hlo (adj n)).1
        simp only [rhs, hh, f_zero] at hg
        set dd := toReal (adj n) * gradL (h.op n) 1 (toReal (v l)) 0 with hdd
        have s1 := Drift.near (Φ := (t.map fun m => toReal (adj m) * tgv (real h) (fun n => toReal (v n)) d m).sum)
          hg (hT l) hM
        have s2 := Drift.addTo (A := A) hnd hlt (adj := fun m => toReal (adj m)) hT
          (toReal (gradL (h.op n) (adj n) (v l) zero)) 0 0 le_rfl
        simp only [zero_add] at s2
        have s3 := s1.trans s2
        rw [tgv_un hacR (n := n) (l := l) hh, tgvAbs_un hacR (n := n) (l := l) hh]
        refine Drift.mono ?_ (show c + 1 ≤ c + 2 by omega)
          (add_nonneg (mul_nonneg (abs_nonneg _) (mul_nonneg (abs_nonneg _) (hP l))) hM)
        convert s3 using 1
        · show toReal (adj n) * (gradL (h.op n) 1 (toReal (v l)) 0 * _) + _ = _
          rw [hdd]; ring
        · show |toReal (adj n)| * (|gradL (h.op n) 1 (toReal (v l)) 0| * _) + _ = _
          rw [hdd, abs_mul]; ring
      | some r =>
        have hrt : r ∈ t := ht.2.1 r (mem_kids_right (by rw [hh]))
        have e : (fun m => toReal (accS h v adj n m)) =
            Function.update (Function.update (fun m => toReal (adj m)) l
              (A.rnd (toReal (adj l) + toReal (gradL (h.op n) (adj n) (v l) (v r))))) r
              (A.rnd (Function.update (fun m => toReal (adj m)) l
                (A.rnd (toReal (adj l) + toReal (gradL (h.op n) (adj n) (v l) (v r)))) r +
                toReal (gradR (h.op n) (adj n) (v l) (v r)))) := by
          funext m
          unfold accS; rw [hh]
          simp only [Function.update_of_ne hln]
          by_cases em : m = r
          · subst em
            by_cases el : m = l
            · subst el; simp
            · simp [Function.update_of_ne el]
          · by_cases el : m = l
            · subst el; simp [Function.update_of_ne em]
            · simp [Function.update_of_ne em, Function.update_of_ne el]
        have e1 := fun m => congrFun e m
        simp only [e1]
        obtain ⟨hg, hg'⟩ := hlo (adj n)
        simp only [rhs, hh] at hg hg'
        set T := fun m => tgv (real h) (fun n => toReal (v n)) d m with hTdef
        set P := fun m => tgvAbs (real h) (fun n => toReal (v n)) d m with hPdef
        set S0 := (t.map fun m => toReal (adj m) * T m).sum with hS0
        set M0 := (t.map fun m => |toReal (adj m)| * P m).sum with hM0
        set d1 := toReal (adj n) * gradL (h.op n) 1 (toReal (v l)) (toReal (v r)) with hd1
        set d2 := toReal (adj n) * gradR (h.op n) 1 (toReal (v l)) (toReal (v r)) with hd2
        set g1 := toReal (gradL (h.op n) (adj n) (v l) (v r)) with hg1
        set g2 := toReal (gradR (h.op n) (adj n) (v l) (v r)) with hg2
        -- rounding of the two products at once
        have h1 := A.one_le_up c
        have s1 : Drift A c (S0 + d1 * T l + d2 * T r) (M0 + |d1| * P l + |d2| * P r)
            (S0 + g1 * T l + g2 * T r) (M0 + |g1| * P l + |g2| * P r) := by
          have a1 := Drift.near (Φ := 0) (Ψ := 0) hg (hT l) le_rfl
          have a2 : Drift A c (0 + d2 * T r) (0 + |d2| * P r) (0 + g2 * T r) (0 + |g2| * P r) := by
            by_cases hrc : RConst h n
            · obtain ⟨r', e1, e2, e3⟩ := hrc
              rw [hh] at e1
              cases e1
              have t0 : T r = 0 := by
                show tgv (real h) (fun n => toReal (v n)) d r = 0
                rw [tgv_leaf (h := real h) e2]; exact if_pos e3
              have p0 : P r = 0 := by
                show tgvAbs (real h) (fun n => toReal (v n)) d r = 0
                rw [tgvAbs_leaf (h := real h) e2]; exact if_pos e3
              rw [t0, p0]
              exact ⟨by simp, by simp⟩
            · exact Drift.near (hg' hrc) (hT r) le_rfl
          constructor
          · rw [show S0 + g1 * T l + g2 * T r - (S0 + d1 * T l + d2 * T r) =
              (0 + g1 * T l - (0 + d1 * T l)) + (0 + g2 * T r - (0 + d2 * T r)) by ring]
            refine (abs_add_le _ _).trans ((add_le_add a1.err a2.err).trans ?_)
            rw [← mul_add]
            exact mul_le_mul_of_nonneg_left (by linarith) (by linarith)
          · nlinarith [a1.mass, a2.mass]
        have s2 := Drift.addTo (A := A) hnd hlt (adj := fun m => toReal (adj m)) hT g1 (g2 * T r) (|g2| * P r)
          (mul_nonneg (abs_nonneg _) (hP r))
        have s3 := Drift.addTo (A := A) hnd hrt (adj := Function.update (fun m => toReal (adj m)) l
              (A.rnd (toReal (adj l) + g1))) hT g2 0 0 le_rfl
        have s12 : Drift A (c + 1) _ _ _ _ := s1.trans (by
          convert s2 using 1 <;> ring)
        have s123 : Drift A (c + 1 + 1) _ _ _ _ := s12.trans (by
          convert s3 using 1 <;> ring)
        rw [hTdef, hPdef] at *
        have eT := tgv_bin hacR (v := fun n => toReal (v n)) (d := d) (n := n) (l := l) (r := r) hh
        have eP := tgvAbs_bin hacR (v := fun n => toReal (v n)) (d := d) (n := n) (l := l) (r := r) hh
        simp only [eT, eP]
        convert s123 using 1
        · show toReal (adj n) * (gradL (h.op n) 1 (toReal (v l)) (toReal (v r)) * _ +
            gradR (h.op n) 1 (toReal (v l)) (toReal (v r)) * _) + _ = _
          rw [hd1, hd2]; ring
        · show |toReal (adj n)| * (|gradL (h.op n) 1 (toReal (v l)) (toReal (v r))| * _ +
            |gradR (h.op n) 1 (toReal (v l)) (toReal (v r))| * _) + _ = _
          rw [hd1, hd2, abs_mul, abs_mul]; ring
        · ring
        · ring

end FloatMath

end Slp
