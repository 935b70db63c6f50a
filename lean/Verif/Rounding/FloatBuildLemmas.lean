import Verif.Rounding.FloatOpLemmas

/-! What the operations of the public API build, in floating-point arithmetic. -/

set_option linter.unusedSimpArgs false
set_option linter.unusedSectionVars false

namespace Slp

open ScalarOps

section
variable {S : Type} [ScalarOps S]

/-- The nodes with operands below and including node `n`. -/
def opSet (h : Heap S) (n : ℕ) : Finset ℕ :=
  match h.args n with
  | (none, _) => ∅
  | (some l, none) => if l < n then insert n (opSet h l) else ∅
  | (some l, some r) =>
    if l < n then
      if r < n then insert n (opSet h l ∪ opSet h r) else ∅
    else ∅
termination_by n

theorem opSet_leaf {h : Heap S} {n : ℕ} (ha : (h.args n).1 = none) : opSet h n = ∅ := by
  rw [opSet]
  rcases hh : h.args n with ⟨a, b⟩
  rw [hh] at ha
  simp at ha
  subst ha
  rfl

theorem opSet_un {h : Heap S} (hac : Graph.Acyclic h.args) {n l : ℕ} (ha : h.args n = (some l, none)) :
    opSet h n = insert n (opSet h l) := by
  have hl : l < n := hac n l (mem_kids_left (by rw [ha]))
  rw [opSet]
  simp [ha, hl]

theorem opSet_bin {h : Heap S} (hac : Graph.Acyclic h.args) {n l r : ℕ} (ha : h.args n = (some l, some r)) :
    opSet h n = insert n (opSet h l ∪ opSet h r) := by
  have hl : l < n := hac n l (mem_kids_left (by rw [ha]))
  have hr : r < n := hac n r (mem_kids_right (by rw [ha]))
  rw [opSet]
  simp [ha, hl, hr]

theorem opSet_congr {h h' : Heap S} {N : ℕ} (hargs : ∀ n, n < N → h'.args n = h.args n) (n : ℕ) (hn : n < N) :
    opSet h' n = opSet h n := by
  induction n using Nat.strong_induction_on with
  | _ n ih =>
    rw [opSet, opSet, hargs n hn]
    rcases hh : h.args n with ⟨a, b⟩
    cases a with
    | none => rfl
    | some l =>
      cases b with
      | none =>
        simp only
        by_cases hl : l < n
        · simp [hl, ih l hl (by omega)]
        · simp [hl]
      | some r =>
        simp only
        by_cases hl : l < n
        · by_cases hr : r < n
          · simp [hl, hr, ih l hl (by omega), ih r hr (by omega)]
          · simp [hl, hr]
        · simp [hl]

theorem opSet_lt {h : Heap S} (n m : ℕ) (hm : m ∈ opSet h n) : m ≤ n := by
  induction n using Nat.strong_induction_on with
  | _ n ih =>
    rw [opSet] at hm
    rcases hh : h.args n with ⟨a, b⟩
    rw [hh] at hm
    cases a with
    | none => simp at hm
    | some l =>
      cases b with
      | none =>
        simp only at hm
        split at hm
        · next hl =>
          rcases Finset.mem_insert.mp hm with e | e
          · exact e.le
          · exact (ih l hl e).trans hl.le
        · simp at hm
      | some r =>
        simp only at hm
        split at hm
        · next hl =>
          split at hm
          · next hr =>
            rcases Finset.mem_insert.mp hm with e | e
            · exact e.le
            · rcases Finset.mem_union.mp e with e | e
              · exact (ih l hl e).trans hl.le
              · exact (ih r hr e).trans hr.le
          · simp at hm
        · simp at hm

/-- All nodes with operands that can be reached from a node are in its set. -/
theorem mem_opSet {h : Heap S} (hac : Graph.Acyclic h.args)
    (hsnd : ∀ n, (h.args n).1 = none → h.args n = (none, none)) {r n : ℕ} (hr : Graph.Reach h.args r n)
    (hn : (h.args n).1.isSome) : n ∈ opSet h r := by
  induction hr using Relation.ReflTransGen.head_induction_on with
  | refl =>
    rcases hh : h.args n with ⟨a, b⟩
    cases a with
    | none => simp [hh] at hn
    | some l =>
      cases b with
      | none => rw [opSet_un hac hh]; simp
      | some r => rw [opSet_bin hac hh]; simp
  | head hk _ ih =>
    rename_i a c _
    rcases hh : h.args a with ⟨x, y⟩
    cases x with
    | none =>
      have := hsnd a (by rw [hh])
      simp [Graph.kids, this, List.reduceOption] at hk
    | some x =>
      cases y with
      | none =>
        have : c = x := by simpa [Graph.kids, hh, List.reduceOption] using hk
        subst this
        rw [opSet_un hac hh]; exact Finset.mem_insert_of_mem ih
      | some y =>
        have : c = x ∨ c = y := by simpa [Graph.kids, hh, List.reduceOption] using hk
        rw [opSet_bin hac hh]
        rcases this with e | e <;> subst e
        · exact Finset.mem_insert_of_mem (Finset.mem_union_left _ ih)
        · exact Finset.mem_insert_of_mem (Finset.mem_union_right _ ih)

theorem args_snd' {h : Heap S} (wf : WF h) (n : ℕ) (h1 : (h.args n).1 = none) : h.args n = (none, none) := by
  by_cases hn : n < h.next
  · have ha := wf.arity n hn
    unfold ArityOK at ha
    split at ha
    · exact ha
    · obtain ⟨x, e⟩ := ha; rw [e] at h1; simp at h1
    · obtain ⟨x, y, e⟩ := ha; rw [e] at h1; simp at h1
  · exact wf.bound n (not_lt.mp hn)

end

theorem tgv_congr2 {h h' : Heap ℝ} {N : ℕ} (hop : ∀ n, n < N → h'.op n = h.op n)
    (hargs : ∀ n, n < N → h'.args n = h.args n) {v v' : ℕ → ℝ} (hv : ∀ n, n < N → v' n = v n) (d : ℕ → ℝ) (n : ℕ)
    (hn : n < N) : tgv h' v' d n = tgv h v d n := by
  induction n using Nat.strong_induction_on with
  | _ n ih =>
    rw [tgv, tgv, hargs n hn, hop n hn]
    rcases hh : h.args n with ⟨a, b⟩
    cases a with
    | none => rfl
    | some l =>
      cases b with
      | none =>
        simp only
        by_cases hl : l < n
        · simp [hl, ih l hl (by omega), hv l (by omega)]
        · simp [hl]
      | some r =>
        simp only
        by_cases hl : l < n
        · by_cases hr : r < n
          · simp [hl, hr, ih l hl (by omega), ih r hr (by omega), hv l (by omega), hv r (by omega)]
          · simp [hl, hr]
        · simp [hl]

theorem tgvAbs_congr2 {h h' : Heap ℝ} {N : ℕ} (hop : ∀ n, n < N → h'.op n = h.op n)
    (hargs : ∀ n, n < N → h'.args n = h.args n) {v v' : ℕ → ℝ} (hv : ∀ n, n < N → v' n = v n) (d : ℕ → ℝ) (n : ℕ)
    (hn : n < N) : tgvAbs h' v' d n = tgvAbs h v d n := by
  induction n using Nat.strong_induction_on with
  | _ n ih =>
    rw [tgvAbs, tgvAbs, hargs n hn, hop n hn]
    rcases hh : h.args n with ⟨a, b⟩
    cases a with
    | none => rfl
    | some l =>
      cases b with
      | none =>
        simp only
        by_cases hl : l < n
        · simp [hl, ih l hl (by omega), hv l (by omega)]
        · simp [hl]
      | some r =>
        simp only
        by_cases hl : l < n
        · by_cases hr : r < n
          · simp [hl, hr, ih l hl (by omega), ih r hr (by omega), hv l (by omega), hv r (by omega)]
          · simp [hl, hr]
        · simp [hl]

namespace FloatMath

variable {A : FloatMath}

theorem wf_real {h : Heap A.Num} (wf : WF h) : WF (real h) :=
  ⟨wf.acyc, wf.bound, wf.arity, wf.typ, wf.powBase, wf.scratch, wf.fresh⟩

/-- The computed value of a node. -/
noncomputable def evR (h : Heap A.Num) (η : ℕ → A.Num) (n : ℕ) : ℝ := toReal (ev h η n)

/-- The operations of polynomials. -/
def PolyOp (op : Op) : Prop := op = .add ∨ op = .sub ∨ op = .mul ∨ op = .neg

/-- Operations with the values of their operands; the proposition says whether the second one is a constant. -/
abbrev OpPred := Op → Prop → ℝ → ℝ → Prop

/-- The operations below and including node `e`, with the values of their operands. -/
def Uses (h : Heap A.Num) (η : ℕ → A.Num) (e : ℕ) : OpPred := fun op rc x y =>
  ∃ n ∈ opSet h e, ∃ l, (h.args n).1 = some l ∧ h.op n = op ∧ RConst h n = rc ∧ evR h η l = x ∧
    toReal (rhs h (ev h η) n) = y

theorem Uses.congr {h h' : Heap A.Num} {N : ℕ} (hac : Graph.Acyclic h.args)
    (hop : ∀ n, n < N → h'.op n = h.op n) (hargs : ∀ n, n < N → h'.args n = h.args n) {η : ℕ → A.Num}
    (hev : ∀ n, n < N → ev h' η n = ev h η n) {e : ℕ} (he : e < N) {op : Op} {rc : Prop} {x y : ℝ}
    (u : Uses h' η e op rc x y) : Uses h η e op rc x y := by
  obtain ⟨n, hn, l, h1, h2, h3, h4, h5⟩ := u
  rw [opSet_congr hargs e he] at hn
  have hnN : n < N := lt_of_le_of_lt (opSet_lt e n hn) he
  rw [hargs n hnN] at h1
  have hl : l < N := (hac n l (mem_kids_left h1)).trans hnN
  refine ⟨n, hn, l, h1, (hop n hnN).symm.trans h2, ?_, ?_, ?_⟩
  · rw [← h3]
    unfold RConst
    rw [hargs n hnN]
    apply propext
    apply exists_congr
    intro r
    apply and_congr_right
    intro hr
    have hrN : r < N := (hac n r (mem_kids_right hr)).trans hnN
    rw [hargs r hrN, hop r hrN]
  · rw [← h4]; unfold evR; rw [hev l hl]
  · rw [← h5]
    unfold rhs
    rw [hargs n hnN]
    rcases hr : (h.args n).2 with _ | r
    · rfl
    · have hrN : r < N := (hac n r (mem_kids_right hr)).trans hnN
      simp only
      rw [hev r hrN]

/-- Running `m` on `h` only adds nodes and returns an expression with at most `k` operations. If `G` holds, its
computed value satisfies `f`, its tangent at the computed values is `T`, its tangent with absolute values is at most
`P`, and its operations are among `N`. -/
structure Made (m : HM A.Num ℕ) (h : Heap A.Num) (G : (ℕ → A.Num) → Prop) (f : (ℕ → A.Num) → ℝ → Prop)
    (T P : (ℕ → A.Num) → (ℕ → ℝ) → ℝ) (N : (ℕ → A.Num) → OpPred) (k : ℕ) : Prop where
  wf : WF (m h).2
  grow : Grow h (m h).2
  lt : (m h).1 < (m h).2.next
  val : ∀ η, G η → f η (evR (m h).2 η (m h).1)
  der : ∀ η, G η → ∀ d, tgv (real (m h).2) (evR (m h).2 η) d (m h).1 = T η d
  abs : ∀ η, G η → ∀ d, tgvAbs (real (m h).2) (evR (m h).2 η) d (m h).1 ≤ P η d
  uses : ∀ η, G η → ∀ op rc x y, Uses (m h).2 η (m h).1 op rc x y → N η op rc x y
  ops : (opSet (m h).2 (m h).1).card ≤ k

section
variable {h h' : Heap A.Num} {a b : ℕ} {m m' : HM A.Num ℕ} {G G' : (ℕ → A.Num) → Prop}
  {f f' : (ℕ → A.Num) → ℝ → Prop} {T T' P P' : (ℕ → A.Num) → (ℕ → ℝ) → ℝ} {N N' : (ℕ → A.Num) → OpPred} {k k' : ℕ}

theorem grow_evR (g : Grow h h') (η : ℕ → A.Num) {n : ℕ} (hn : n < h.next) : evR h' η n = evR h η n := by
  unfold evR; rw [g.ev η hn]

theorem grow_tgv (g : Grow h h') (η : ℕ → A.Num) (d : ℕ → ℝ) {n : ℕ} (hn : n < h.next) :
    tgv (real h') (evR h' η) d n = tgv (real h) (evR h η) d n :=
  tgv_congr2 (h := real h) (h' := real h') (N := h.next) g.op g.args (fun _ hm => grow_evR g η hm) d n hn

theorem grow_tgvAbs (g : Grow h h') (η : ℕ → A.Num) (d : ℕ → ℝ) {n : ℕ} (hn : n < h.next) :
    tgvAbs (real h') (evR h' η) d n = tgvAbs (real h) (evR h η) d n :=
  tgvAbs_congr2 (h := real h) (h' := real h') (N := h.next) g.op g.args (fun _ hm => grow_evR g η hm) d n hn

theorem grow_uses (wf : WF h) (g : Grow h h') {η : ℕ → A.Num} {n : ℕ} (hn : n < h.next) {op : Op} {rc : Prop}
    {x y : ℝ} (u : Uses h' η n op rc x y) : Uses h η n op rc x y :=
  u.congr wf.acyc g.op g.args (fun _ hm => g.ev η hm) hn

theorem Made.congr (b : Made m h G f T P N k) (hG : ∀ η, G' η → G η) (hf : ∀ η x, G' η → f η x → f' η x)
    (hT : ∀ η d, G' η → T η d = T' η d) (hP : ∀ η d, G' η → P η d ≤ P' η d)
    (hN : ∀ η op rc x y, G' η → N η op rc x y → N' η op rc x y) (hk : k ≤ k') : Made m h G' f' T' P' N' k' :=
  ⟨b.wf, b.grow, b.lt, fun η g => hf η _ g (b.val η (hG η g)), fun η g d => (b.der η (hG η g) d).trans (hT η d g),
    fun η g d => (b.abs η (hG η g) d).trans (hP η d g), fun η g _ _ _ _ u => hN η _ _ _ _ g (b.uses η (hG η g) _ _ _ _ u),
    b.ops.trans hk⟩

theorem Made.pure (wf : WF h) (ha : a < h.next) :
    Made (Pure.pure a : HM A.Num ℕ) h (fun _ => True) (fun η x => x = evR h η a)
      (fun η d => tgv (real h) (evR h η) d a) (fun η d => tgvAbs (real h) (evR h η) d a) (fun η => Uses h η a)
      (opSet h a).card :=
  ⟨wf, Grow.refl h, ha, fun _ _ => rfl, fun _ _ _ => rfl, fun _ _ _ => le_rfl, fun _ _ _ _ _ _ u => u, le_rfl⟩

theorem Made.get {k' : Heap A.Num → HM A.Num ℕ} (b : Made (k' h) h G f T P N k) :
    Made ((MonadState.get : HM A.Num (Heap A.Num)) >>= k') h G f T P N k :=
  ⟨b.wf, b.grow, b.lt, b.val, b.der, b.abs, b.uses, b.ops⟩

theorem Made.ite {p : Prop} [Decidable p] {x y : HM A.Num ℕ} (ha : p → Made x h G f T P N k)
    (hb : ¬p → Made y h G f T P N k) : Made (if p then x else y) h G f T P N k := by
  split
  · exact ha ‹_›
  · exact hb ‹_›

private theorem no_uses {h : Heap A.Num} {η : ℕ → A.Num} {e : ℕ} (ho : opSet h e = ∅) {op : Op} {rc : Prop} {x y : ℝ}
    (u : Uses h η e op rc x y) : False := by
  obtain ⟨n, hn, _⟩ := u
  rw [ho] at hn
  simp at hn

theorem mkConst_made (wf : WF h) (v : A.Num) :
    Made (mkConst v) h (fun _ => True) (fun _ x => x = toReal v) (fun _ _ => 0) (fun _ _ => 0)
      (fun _ _ _ _ _ => False) 0 := by
  have w : WF (mkConst v h).2 :=
    alloc_wf wf (by simp) (by simp) (by simp [ArityOK, Op.arity]) (by simp [TyOK]) (by simp)
  have e : (mkConst v h).1 = h.next := rfl
  have ha : (mkConst v h).2.args h.next = (none, none) := by simp [mkConst, alloc]
  have ho : (mkConst v h).2.op h.next = .constant := by simp [mkConst, alloc]
  have hos : opSet (mkConst v h).2 h.next = ∅ := opSet_leaf (by rw [ha])
  refine ⟨w, alloc_grow _ _ _ _ _, by simp [mkConst, alloc], ?_, ?_, ?_, ?_, ?_⟩
  · intro η _
    unfold evR
    rw [e, ev_leaf (by rw [ha]), if_pos ho]
    simp [mkConst, alloc]
  · intro η _ d
    rw [e, tgv_leaf (h := real (mkConst v h).2) (by simp [real, ha])]
    exact if_pos ho
  · intro η _ d
    rw [e, tgvAbs_leaf (h := real (mkConst v h).2) (by simp [real, ha])]
    exact (if_pos ho).le
  · intro η _ op rc x y u
    exact no_uses hos u
  · rw [e, hos]; simp

theorem mkVar_made (wf : WF h) :
    Made (mkVar : HM A.Num ℕ) h (fun _ => True) (fun η x => x = toReal (η h.next)) (fun _ d => d h.next)
      (fun _ d => |d h.next|) (fun _ _ _ _ _ => False) 0 := by
  have w : WF (mkVar h).2 :=
    alloc_wf wf (by simp) (by simp) (by simp [ArityOK, Op.arity]) (by simp [TyOK]) (by simp)
  have e : (mkVar h).1 = h.next := rfl
  have ha : (mkVar h).2.args h.next = (none, none) := by simp [mkVar, alloc]
  have ho : (mkVar h).2.op h.next = .variable := by simp [mkVar, alloc]
  have hos : opSet (mkVar h).2 h.next = ∅ := opSet_leaf (by rw [ha])
  have ho' : ¬ (mkVar h).2.op h.next = .constant := by rw [ho]; simp
  refine ⟨w, alloc_grow _ _ _ _ _, by simp [mkVar, alloc], ?_, ?_, ?_, ?_, ?_⟩
  · intro η _
    unfold evR
    rw [e, ev_leaf (by rw [ha]), if_neg ho']
  · intro η _ d
    rw [e, tgv_leaf (h := real (mkVar h).2) (by simp [real, ha])]
    exact if_neg ho'
  · intro η _ d
    rw [e, tgvAbs_leaf (h := real (mkVar h).2) (by simp [real, ha])]
    exact (if_neg ho').le
  · intro η _ op rc x y u
    exact no_uses hos u
  · rw [e, hos]; simp

theorem mkUn_made (wf : WF h) {op : Op} (har : op.arity = 1) {ty : Ty} (ha : a < h.next)
    (hty : TyOK op (some a, none) h.ty ty) :
    Made (mkUn op ty a) h (fun _ => True) (fun η x => x = toReal (opVal op (ev h η a) zero))
      (fun η d => gradL op 1 (evR h η a) 0 * tgv (real h) (evR h η) d a)
      (fun η d => |gradL op 1 (evR h η a) 0| * tgvAbs (real h) (evR h η) d a)
      (fun η o rc x y => Uses h η a o rc x y ∨ (o = op ∧ x = evR h η a ∧ y = 0)) ((opSet h a).card + 1) := by
  have w : WF (mkUn op ty a h).2 := by
    refine alloc_wf wf (by simpa using ha) (by simp) ?_ hty ?_
    · unfold ArityOK; rw [har]; exact ⟨a, rfl⟩
    · rintro rfl; simp [Op.arity] at har
  have hargs : (mkUn op ty a h).2.args h.next = (some a, none) := by simp [mkUn, alloc]
  have e : (mkUn op ty a h).1 = h.next := rfl
  have g : Grow h (mkUn op ty a h).2 := alloc_grow _ _ _ _ _
  have hop : (mkUn op ty a h).2.op h.next = op := by simp [mkUn, alloc]
  have hos := opSet_un w.acyc hargs
  refine ⟨w, g, by simp [mkUn, alloc], ?_, ?_, ?_, ?_, ?_⟩
  · intro η _
    unfold evR
    rw [e, ev_un w.acyc hargs, g.ev η ha, hop]
  · intro η _ d
    rw [e, tgv_un (wf_real w).acyc (n := h.next) (l := a) hargs, grow_tgv g η d ha, grow_evR g η ha]
    simp only [real]
    rw [hop]
  · intro η _ d
    rw [e, tgvAbs_un (wf_real w).acyc (n := h.next) (l := a) hargs, grow_tgvAbs g η d ha, grow_evR g η ha]
    simp only [real]
    rw [hop]
  · rintro η _ o rc x y ⟨n, hn, l, h1, h2, h3, h4, h5⟩
    rw [e, hos] at hn
    rcases Finset.mem_insert.mp hn with rfl | hn
    · right
      rw [hargs] at h1
      cases h1
      rw [hop] at h2
      rw [grow_evR g η ha] at h4
      refine ⟨h2.symm, h4.symm, ?_⟩
      rw [← h5]; simp [rhs, hargs]
    · left
      exact grow_uses wf g ha ⟨n, hn, l, h1, h2, h3, h4, h5⟩
  · rw [e, hos, opSet_congr g.args a ha]
    exact (Finset.card_insert_le _ _)

theorem mkBin_made (wf : WF h) {op : Op} (har : op.arity = 2) {ty : Ty} (ha : a < h.next)
    (hb : b < h.next) (hty : TyOK op (some a, some b) h.ty ty) (hp : op = .pow → isConst h a zero = false) :
    Made (mkBin op ty a b) h (fun _ => True) (fun η x => x = toReal (opVal op (ev h η a) (ev h η b)))
      (fun η d => gradL op 1 (evR h η a) (evR h η b) * tgv (real h) (evR h η) d a +
        gradR op 1 (evR h η a) (evR h η b) * tgv (real h) (evR h η) d b)
      (fun η d => |gradL op 1 (evR h η a) (evR h η b)| * tgvAbs (real h) (evR h η) d a +
        |gradR op 1 (evR h η a) (evR h η b)| * tgvAbs (real h) (evR h η) d b)
      (fun η o rc x y => Uses h η a o rc x y ∨ Uses h η b o rc x y ∨
        (o = op ∧ (h.ty b = .constant → rc) ∧ x = evR h η a ∧ y = evR h η b))
      ((opSet h a).card + (opSet h b).card + 1) := by
  have w : WF (mkBin op ty a b h).2 := by
    refine alloc_wf wf (by simpa using ha) (by simpa using hb) ?_ hty ?_
    · unfold ArityOK; rw [har]; exact ⟨a, b, rfl⟩
    · intro e c hc; simp at hc; subst hc; exact hp e
  have hargs : (mkBin op ty a b h).2.args h.next = (some a, some b) := by simp [mkBin, alloc]
  have e : (mkBin op ty a b h).1 = h.next := rfl
  have g : Grow h (mkBin op ty a b h).2 := alloc_grow _ _ _ _ _
  have hop : (mkBin op ty a b h).2.op h.next = op := by simp [mkBin, alloc]
  have hos := opSet_bin w.acyc hargs
  refine ⟨w, g, by simp [mkBin, alloc], ?_, ?_, ?_, ?_, ?_⟩
  · intro η _
    unfold evR
    rw [e, ev_bin w.acyc hargs, g.ev η ha, g.ev η hb, hop]
  · intro η _ d
    rw [e, tgv_bin (wf_real w).acyc (n := h.next) (l := a) (r := b) hargs, grow_tgv g η d ha, grow_tgv g η d hb,
      grow_evR g η ha, grow_evR g η hb]
    simp only [real]
    rw [hop]
  · intro η _ d
    rw [e, tgvAbs_bin (wf_real w).acyc (n := h.next) (l := a) (r := b) hargs, grow_tgvAbs g η d ha,
      grow_tgvAbs g η d hb, grow_evR g η ha, grow_evR g η hb]
    simp only [real]
    rw [hop]
  · rintro η _ o rc x y ⟨n, hn, l, h1, h2, h3, h4, h5⟩
    rw [e, hos] at hn
    rcases Finset.mem_insert.mp hn with rfl | hn
    · right; right
      rw [hargs] at h1
      cases h1
      rw [hop] at h2
      rw [grow_evR g η ha] at h4
      refine ⟨h2.symm, fun hc => ?_, h4.symm, ?_⟩
      · rw [← h3]
        refine ⟨b, by rw [hargs], ?_, ?_⟩
        · rw [g.args b hb, const_args wf hb hc]
        · rw [g.op b hb]; exact (ty_constant_iff wf hb).mp hc
      · rw [← h5, ← grow_evR g η hb]; simp [rhs, hargs, evR]
    · rcases Finset.mem_union.mp hn with hn | hn
      · left
        exact grow_uses wf g ha ⟨n, hn, l, h1, h2, h3, h4, h5⟩
      · right; left
        exact grow_uses wf g hb ⟨n, hn, l, h1, h2, h3, h4, h5⟩
  · rw [e, hos, opSet_congr g.args a ha, opSet_congr g.args b hb]
    exact (Finset.card_insert_le _ _).trans (Nat.add_le_add_right (Finset.card_union_le _ _) 1)

/-- What is known about a constant node. -/
theorem const_facts (wf : WF h) (ha : a < h.next) (hc : h.ty a = .constant) (η : ℕ → A.Num) (d : ℕ → ℝ) :
    evR h η a = toReal (h.val a) ∧ tgv (real h) (evR h η) d a = 0 ∧ tgvAbs (real h) (evR h η) d a = 0 := by
  have hargs := const_args wf ha hc
  have ho := (ty_constant_iff wf ha).mp hc
  refine ⟨?_, ?_, ?_⟩
  · unfold evR; rw [ev_const wf ha hc]
  · rw [tgv_leaf (h := real h) (by simp [real, hargs])]
    exact if_pos ho
  · rw [tgvAbs_leaf (h := real h) (by simp [real, hargs])]
    exact if_pos ho

theorem isConst_facts (wf : WF h) (ha : a < h.next) {c : A.Num} (hc : isConst h a c = true) (η : ℕ → A.Num)
    (d : ℕ → ℝ) : evR h η a = toReal c ∧ tgv (real h) (evR h η) d a = 0 ∧ tgvAbs (real h) (evR h η) d a = 0 := by
  simp only [isConst, f_eq, Bool.and_eq_true, decide_eq_true_eq] at hc
  have := const_facts wf ha hc.1 η d
  exact ⟨this.1.trans hc.2, this.2⟩

private theorem isK_ty' (hk : isK h a = true) : h.ty a = .constant := by
  simpa [isK] using hk

private theorem isConst_ty' {c : A.Num} (hk : isConst h a c = true) : h.ty a = .constant := by
  simp only [isConst, Bool.and_eq_true, decide_eq_true_eq] at hk
  exact hk.1

/-! ### Unary operations -/

/-- The operations that a unary operation on a value adds. -/
def AddsU (f : UnOp) (v : ℝ) : OpPred := fun op _ x y => op = f.cls ∧ x = v ∧ y = 0

/-- `m` makes what the unary operation `f` makes of node `a`. -/
def MadeU (m : HM A.Num ℕ) (h : Heap A.Num) (f : UnOp) (a : ℕ) : Prop :=
  Made m h (fun η => OkU A f (evR h η a)) (fun η x => A.Near f.rounds x (f.eval (evR h η a)))
    (fun η d => gradL f.cls 1 (evR h η a) 0 * tgv (real h) (evR h η) d a)
    (fun η d => |gradL f.cls 1 (evR h η a) 0| * tgvAbs (real h) (evR h η) d a)
    (fun η op rc x y => Uses h η a op rc x y ∨ AddsU f (evR h η a) op rc x y) ((opSet h a).card + 1)

section
variable {u : UnOp}

theorem MadeU.ret (wf : WF h) (ha : a < h.next) (hc : h.ty a = .constant)
    (hv : OkU A u (toReal (h.val a)) → A.Near u.rounds (toReal (h.val a)) (u.eval (toReal (h.val a)))) :
    MadeU (Pure.pure a) h u a := by
  refine (Made.pure wf ha).congr (fun _ _ => trivial) ?_ ?_ ?_ (fun _ _ _ _ _ _ u => Or.inl u) (Nat.le_succ _)
  · rintro η x ok rfl
    rw [(const_facts wf ha hc η 0).1] at ok ⊢
    exact hv ok
  · intro η d _
    rw [(const_facts wf ha hc η d).2.1, mul_zero]
  · intro η d _
    rw [(const_facts wf ha hc η d).2.2, mul_zero]

theorem MadeU.fold (wf : WF h) (ha : a < h.next) (hc : h.ty a = .constant) {c : A.Num}
    (hv : OkU A u (toReal (h.val a)) → A.Near u.rounds (toReal c) (u.eval (toReal (h.val a)))) :
    MadeU (mkConst c) h u a := by
  refine (mkConst_made wf c).congr (fun _ _ => trivial) ?_ ?_ ?_ (fun _ _ _ _ _ _ u => u.elim) (Nat.zero_le _)
  · rintro η x ok rfl
    rw [(const_facts wf ha hc η 0).1] at ok ⊢
    exact hv ok
  · intro η d _
    rw [(const_facts wf ha hc η d).2.1, mul_zero]
  · intro η d _
    rw [(const_facts wf ha hc η d).2.2, mul_zero]

theorem MadeU.node (wf : WF h) (ha : a < h.next) (hu : u ≠ .pos) {ty : Ty}
    (hty : TyOK u.cls (some a, none) h.ty ty) : MadeU (mkUn u.cls ty a) h u a := by
  refine (mkUn_made wf (by cases u <;> first | rfl | exact absurd rfl hu) ha hty).congr (fun _ _ => trivial) ?_
    (fun _ _ _ => rfl) (fun _ _ _ => le_rfl) (fun _ _ _ _ _ _ u => u) le_rfl
  rintro η x ok rfl
  exact opVal_un hu ok

theorem MadeU.folded (wf : WF h) (ha : a < h.next) (hc : h.ty a = .constant) (hu : u ≠ .pos) :
    MadeU (mkConst (opVal u.cls (h.val a) zero)) h u a :=
  MadeU.fold wf ha hc fun ok => opVal_un hu ok

theorem isConst_val {c : A.Num} (hk : isConst h a c = true) : toReal (h.val a) = toReal c := by
  simp only [isConst, f_eq, Bool.and_eq_true, decide_eq_true_eq] at hk
  exact hk.2

theorem unZero_made (wf : WF h) (ha : a < h.next) (hu : u ≠ .pos) (hty : ∀ ty', TyOK u.cls (some a, none) ty' .nonlinear)
    (h0 : OkU A u 0 → u.eval 0 = 0) {fn : A.Num → A.Num} (hfn : ∀ x, fn x = opVal u.cls x zero) :
    MadeU (unZero u.cls fn a) h u a := by
  unfold unZero
  apply Made.get
  refine Made.ite (fun c => ?_) fun c => ?_
  · refine MadeU.ret wf ha (isConst_ty' c) fun ok => ?_
    rw [isConst_val c, f_zero] at ok ⊢
    rw [h0 ok]; exact near_refl _ _
  refine Made.ite (fun c => ?_) fun c => ?_
  · rw [hfn]; exact MadeU.folded wf ha (isK_ty' c) hu
  · exact MadeU.node wf ha hu (hty _)

theorem unAt0_made (wf : WF h) (ha : a < h.next) (hu : u ≠ .pos) (hty : ∀ ty', TyOK u.cls (some a, none) ty' .nonlinear)
    {c0 : A.Num} (h0 : OkU A u 0 → A.Near u.rounds (toReal c0) (u.eval 0)) {fn : A.Num → A.Num}
    (hfn : ∀ x, fn x = opVal u.cls x zero) : MadeU (unAt0 u.cls fn c0 a) h u a := by
  unfold unAt0
  apply Made.get
  refine Made.ite (fun c => ?_) fun c => ?_
  · refine MadeU.fold wf ha (isConst_ty' c) fun ok => ?_
    rw [isConst_val c, f_zero] at ok ⊢
    exact h0 ok
  refine Made.ite (fun c => ?_) fun c => ?_
  · rw [hfn]; exact MadeU.folded wf ha (isK_ty' c) hu
  · exact MadeU.node wf ha hu (hty _)

theorem neg_made (wf : WF h) (ha : a < h.next) : MadeU (neg a) h .neg a := by
  unfold neg
  apply Made.get
  refine Made.ite (fun c => ?_) fun c => ?_
  · refine MadeU.ret wf ha (isConst_ty' c) fun _ => near_of_eq ?_
    rw [isConst_val c]; simp [UnOp.eval]
  refine Made.ite (fun c => ?_) fun c => ?_
  · exact MadeU.folded (u := .neg) wf ha (isK_ty' c) (by simp)
  · exact MadeU.node (u := .neg) wf ha (by simp) ⟨(cascade_rank _).2, (cascade_rank _).1⟩

theorem abs_made (wf : WF h) (ha : a < h.next) : MadeU (Slp.abs a) h .abs a :=
  unZero_made (u := .abs) wf ha (by simp) (fun _ => rfl) (fun _ => by simp [UnOp.eval]) fun _ => rfl

/-- The unary operations other than `+x`. -/
theorem un_made (wf : WF h) (ha : a < h.next) (hu : u ≠ .pos) : MadeU (u.build a) h u a := by
  have nolog : ∀ {u : UnOp}, u ≠ .pos → u ≠ .neg → ¬ u.Smooth 0 → OkU A u 0 → u.eval 0 = 0 := by
    rintro u h1 h2 h3 ((e | e) | ⟨_, hs⟩)
    · exact absurd e h1
    · exact absurd e h2
    · exact absurd hs h3
  cases u
  case pos => exact absurd rfl hu
  case neg => exact neg_made wf ha
  case abs => exact abs_made wf ha
  case acos =>
    refine unAt0_made (u := .acos) wf ha hu (fun _ => rfl) ?_ fun _ => rfl
    rintro ((e | e) | ⟨L, _⟩)
    · simp at e
    · simp at e
    · have := ((err_near L.cpi_err).div A.lt_one (Rounding.Near.refl A.lt_one 2)).rnd A.lt_one
      simpa [UnOp.eval, UnOp.rounds] using this
  case asin => exact unZero_made (u := .asin) wf ha hu (fun _ => rfl) (fun _ => by simp [UnOp.eval]) fun _ => rfl
  case atan => exact unZero_made (u := .atan) wf ha hu (fun _ => rfl) (fun _ => by simp [UnOp.eval]) fun _ => rfl
  case cbrt =>
    show MadeU (cbrt a) h .cbrt a
    unfold cbrt
    apply Made.get
    refine Made.ite (fun c => ?_) fun c => ?_
    · have hc := isK_ty' c
      refine Made.ite (fun c => ?_) fun c => ?_
      · refine MadeU.ret wf ha hc fun _ => near_of_eq ?_
        replace c : toReal (h.val a) = 0 := of_decide_eq_true c
        rw [c]; simp [UnOp.eval]
      refine Made.ite (fun c => ?_) fun c => ?_
      · refine MadeU.ret wf ha hc fun _ => near_of_eq ?_
        rw [Bool.or_eq_true] at c
        rcases c with c | c
        · replace c : toReal (h.val a) = -1 := of_decide_eq_true c
          rw [c]; simp [UnOp.eval]
        · replace c : toReal (h.val a) = 1 := of_decide_eq_true c
          rw [c]; simp [UnOp.eval]
      · exact MadeU.folded (u := .cbrt) wf ha hc hu
    · exact MadeU.node (u := .cbrt) wf ha hu rfl
  case cos =>
    exact unAt0_made (u := .cos) wf ha hu (fun _ => rfl) (fun _ => near_of_eq (by simp [UnOp.eval])) fun _ => rfl
  case cosh =>
    exact unAt0_made (u := .cosh) wf ha hu (fun _ => rfl) (fun _ => near_of_eq (by simp [UnOp.eval])) fun _ => rfl
  case erf => exact unZero_made (u := .erf) wf ha hu (fun _ => rfl) (fun _ => by simp [UnOp.eval]) fun _ => rfl
  case exp =>
    exact unAt0_made (u := .exp) wf ha hu (fun _ => rfl) (fun _ => near_of_eq (by simp [UnOp.eval])) fun _ => rfl
  case log =>
    exact unZero_made (u := .log) wf ha hu (fun _ => rfl) (nolog hu (by simp) (by simp [UnOp.Smooth])) fun _ => rfl
  case log10 =>
    exact unZero_made (u := .log10) wf ha hu (fun _ => rfl) (nolog hu (by simp) (by simp [UnOp.Smooth])) fun _ => rfl
  case sign =>
    show MadeU (sign a) h .sign a
    unfold sign
    apply Made.get
    refine Made.ite (fun c => ?_) fun c => ?_
    · have hc := isK_ty' c
      refine Made.ite (fun c => ?_) fun c1 => ?_
      · refine MadeU.fold wf ha hc fun _ => near_of_eq ?_
        replace c : toReal (h.val a) < 0 := of_decide_eq_true c
        simp [UnOp.eval, sgn, c]
      refine Made.ite (fun c => ?_) fun c2 => ?_
      · refine MadeU.ret wf ha hc fun _ => near_of_eq ?_
        replace c : toReal (h.val a) = 0 := of_decide_eq_true c
        rw [c]; simp [UnOp.eval, sgn]
      · refine MadeU.fold wf ha hc fun _ => near_of_eq ?_
        replace c1 : ¬ toReal (h.val a) < 0 := fun e => c1 ((decide_eq_true e : decide (toReal (h.val a) < 0) = true))
        replace c2 : ¬ toReal (h.val a) = 0 := fun e => c2 ((decide_eq_true e : decide (toReal (h.val a) = 0) = true))
        simp [UnOp.eval, sgn, c1, c2]
    · exact MadeU.node (u := .sign) wf ha hu rfl
  case sin => exact unZero_made (u := .sin) wf ha hu (fun _ => rfl) (fun _ => by simp [UnOp.eval]) fun _ => rfl
  case sinh => exact unZero_made (u := .sinh) wf ha hu (fun _ => rfl) (fun _ => by simp [UnOp.eval]) fun _ => rfl
  case sqrt =>
    show MadeU (sqrt a) h .sqrt a
    unfold sqrt
    apply Made.get
    refine Made.ite (fun c => ?_) fun c => ?_
    · have hc := isK_ty' c
      refine Made.ite (fun c => ?_) fun c => ?_
      · refine MadeU.ret wf ha hc fun _ => near_of_eq ?_
        replace c : toReal (h.val a) = 0 := of_decide_eq_true c
        rw [c]; simp [UnOp.eval]
      refine Made.ite (fun c => ?_) fun c => ?_
      · refine MadeU.ret wf ha hc fun _ => near_of_eq ?_
        replace c : toReal (h.val a) = 1 := of_decide_eq_true c
        rw [c]; simp [UnOp.eval]
      · exact MadeU.folded (u := .sqrt) wf ha hc hu
    · exact MadeU.node (u := .sqrt) wf ha hu rfl
  case tan => exact unZero_made (u := .tan) wf ha hu (fun _ => rfl) (fun _ => by simp [UnOp.eval]) fun _ => rfl
  case tanh => exact unZero_made (u := .tanh) wf ha hu (fun _ => rfl) (fun _ => by simp [UnOp.eval]) fun _ => rfl

end

/-! ### Binary operations -/

/-- The operations that a binary operation on two values adds; `lit` says that the second operand is a literal. -/
def AddsB (f : BinOp) (lit : Prop) (v w : ℝ) : OpPred := fun op rc x y =>
  (op = f.cls ∧ (lit → rc) ∧ x = v ∧ y = w) ∨ (f = .sub ∧ op = .neg ∧ x = w ∧ y = 0) ∨
    (f = .hypot ∧ op = .abs ∧ y = 0 ∧ (x = w ∧ v = 0 ∨ x = v ∧ w = 0)) ∨ (f = .pow ∧ op = .mul ∧ x = v ∧ y = v)

/-- `m` makes what the binary operation `f` makes of nodes `a` and `b`. -/
def MadeB (m : HM A.Num ℕ) (h : Heap A.Num) (f : BinOp) (lit : Prop) (a b : ℕ) : Prop :=
  Made m h (fun η => OkB A f lit (evR h η a) (evR h η b))
    (fun η x => A.Near 1 x (f.eval (evR h η a) (evR h η b)))
    (fun η d => gradL f.cls 1 (evR h η a) (evR h η b) * tgv (real h) (evR h η) d a +
      gradR f.cls 1 (evR h η a) (evR h η b) * tgv (real h) (evR h η) d b)
    (fun η d => |gradL f.cls 1 (evR h η a) (evR h η b)| * tgvAbs (real h) (evR h η) d a +
      |gradR f.cls 1 (evR h η a) (evR h η b)| * tgvAbs (real h) (evR h η) d b)
    (fun η op rc x y => Uses h η a op rc x y ∨ Uses h η b op rc x y ∨ AddsB f lit (evR h η a) (evR h η b) op rc x y)
    ((opSet h a).card + (opSet h b).card + 1)

section
variable {g : BinOp} {lit : Prop}

/-- The second operand is a constant and does not matter: the first one is returned. -/
theorem MadeB.left (wf : WF h) (ha : a < h.next) (hb : b < h.next) (hc : h.ty b = .constant)
    (hv : ∀ x, OkB A g lit x (toReal (h.val b)) →
      A.Near 1 x (g.eval x (toReal (h.val b))) ∧ gradL g.cls 1 x (toReal (h.val b)) = 1) :
    MadeB (Pure.pure a) h g lit a b := by
  refine (Made.pure wf ha).congr (fun _ _ => trivial) ?_ ?_ ?_ (fun _ _ _ _ _ _ u => Or.inl u) (by omega)
  · rintro η x ok rfl
    rw [(const_facts wf hb hc η 0).1] at ok ⊢
    exact (hv _ ok).1
  · intro η d ok
    obtain ⟨e1, e2, e3⟩ := const_facts wf hb hc η d
    rw [e1] at ok
    rw [e2, mul_zero, add_zero, e1, (hv _ ok).2, one_mul]
  · intro η d ok
    obtain ⟨e1, e2, e3⟩ := const_facts wf hb hc η d
    rw [e1] at ok
    rw [e3, mul_zero, add_zero, e1, (hv _ ok).2, abs_one, one_mul]

/-- The first operand is a constant and does not matter: the second one is returned. -/
theorem MadeB.right (wf : WF h) (ha : a < h.next) (hb : b < h.next) (hc : h.ty a = .constant)
    (hv : ∀ y, OkB A g lit (toReal (h.val a)) y →
      A.Near 1 y (g.eval (toReal (h.val a)) y) ∧ gradR g.cls 1 (toReal (h.val a)) y = 1) :
    MadeB (Pure.pure b) h g lit a b := by
  refine (Made.pure wf hb).congr (fun _ _ => trivial) ?_ ?_ ?_ (fun _ _ _ _ _ _ u => Or.inr (Or.inl u)) (by omega)
  · rintro η x ok rfl
    rw [(const_facts wf ha hc η 0).1] at ok ⊢
    exact (hv _ ok).1
  · intro η d ok
    obtain ⟨e1, e2, e3⟩ := const_facts wf ha hc η d
    rw [e1] at ok
    rw [e2, mul_zero, zero_add, e1, (hv _ ok).2, one_mul]
  · intro η d ok
    obtain ⟨e1, e2, e3⟩ := const_facts wf ha hc η d
    rw [e1] at ok
    rw [e3, mul_zero, zero_add, e1, (hv _ ok).2, abs_one, one_mul]

/-- The first operand is a constant that decides the value: it is returned. -/
theorem MadeB.absorbL (wf : WF h) (ha : a < h.next) (hb : b < h.next) (hc : h.ty a = .constant)
    (hv : ∀ y, OkB A g lit (toReal (h.val a)) y →
      A.Near 1 (toReal (h.val a)) (g.eval (toReal (h.val a)) y) ∧
        (gradR g.cls 1 (toReal (h.val a)) y = 0 ∨ (lit ∧ h.ty b = .constant))) :
    MadeB (Pure.pure a) h g lit a b := by
  refine (Made.pure wf ha).congr (fun _ _ => trivial) ?_ ?_ ?_ (fun _ _ _ _ _ _ u => Or.inl u) (by omega)
  · rintro η x ok rfl
    rw [(const_facts wf ha hc η 0).1] at ok ⊢
    exact (hv _ ok).1
  · intro η d ok
    obtain ⟨e1, e2, e3⟩ := const_facts wf ha hc η d
    rw [e1] at ok
    rw [e2, mul_zero, zero_add, e1]
    rcases (hv _ ok).2 with e | ⟨_, e⟩
    · rw [e, zero_mul]
    · rw [(const_facts wf hb e η d).2.1, mul_zero]
  · intro η d ok
    rw [(const_facts wf ha hc η d).2.2]
    have hac := (wf_real wf).acyc
    have h2 := tgvAbs_nonneg hac (evR h η) d b
    simp only [mul_zero, zero_add]
    exact mul_nonneg (abs_nonneg _) h2

/-- The second operand is a constant that decides the value: it is returned. -/
theorem MadeB.absorbR (wf : WF h) (hb : b < h.next) (hc : h.ty b = .constant)
    (hv : ∀ x, OkB A g lit x (toReal (h.val b)) →
      A.Near 1 (toReal (h.val b)) (g.eval x (toReal (h.val b))) ∧ gradL g.cls 1 x (toReal (h.val b)) = 0) :
    MadeB (Pure.pure b) h g lit a b := by
  refine (Made.pure wf hb).congr (fun _ _ => trivial) ?_ ?_ ?_ (fun _ _ _ _ _ _ u => Or.inr (Or.inl u)) (by omega)
  · rintro η x ok rfl
    rw [(const_facts wf hb hc η 0).1] at ok ⊢
    exact (hv _ ok).1
  · intro η d ok
    obtain ⟨e1, e2, e3⟩ := const_facts wf hb hc η d
    rw [e1] at ok
    rw [e2, mul_zero, add_zero, e1, (hv _ ok).2, zero_mul]
  · intro η d ok
    rw [(const_facts wf hb hc η d).2.2]
    have hac := (wf_real wf).acyc
    have h2 := tgvAbs_nonneg hac (evR h η) d a
    simp only [mul_zero, add_zero]
    exact mul_nonneg (abs_nonneg _) h2

theorem MadeB.constR (wf : WF h) (hb : b < h.next) (hc : h.ty b = .constant) {c : A.Num}
    (hv : ∀ x, OkB A g lit x (toReal (h.val b)) →
      A.Near 1 (toReal c) (g.eval x (toReal (h.val b))) ∧ gradL g.cls 1 x (toReal (h.val b)) = 0) :
    MadeB (mkConst c) h g lit a b := by
  refine (mkConst_made wf c).congr (fun _ _ => trivial) ?_ ?_ ?_ (fun _ _ _ _ _ _ u => u.elim) (by omega)
  · rintro η x ok rfl
    rw [(const_facts wf hb hc η 0).1] at ok ⊢
    exact (hv _ ok).1
  · intro η d ok
    obtain ⟨e1, e2, e3⟩ := const_facts wf hb hc η d
    rw [e1] at ok
    rw [e2, mul_zero, add_zero, e1, (hv _ ok).2, zero_mul]
  · intro η d ok
    rw [(const_facts wf hb hc η d).2.2]
    have hac := (wf_real wf).acyc
    have h2 := tgvAbs_nonneg hac (evR h η) d a
    simp only [mul_zero, add_zero]
    exact mul_nonneg (abs_nonneg _) h2

theorem MadeB.folded (wf : WF h) (ha : a < h.next) (hb : b < h.next) (hca : h.ty a = .constant)
    (hcb : h.ty b = .constant) : MadeB (mkConst (opVal g.cls (h.val a) (h.val b))) h g lit a b := by
  refine (mkConst_made wf _).congr (fun _ _ => trivial) ?_ ?_ ?_ (fun _ _ _ _ _ _ u => u.elim) (by omega)
  · rintro η x ok rfl
    rw [(const_facts wf ha hca η 0).1, (const_facts wf hb hcb η 0).1] at ok ⊢
    exact opVal_bin ok
  · intro η d ok
    rw [(const_facts wf ha hca η d).2.1, (const_facts wf hb hcb η d).2.1]; simp
  · intro η d ok
    rw [(const_facts wf ha hca η d).2.2, (const_facts wf hb hcb η d).2.2]; simp

theorem MadeB.node (wf : WF h) (ha : a < h.next) (hb : b < h.next) {ty : Ty}
    (hty : TyOK g.cls (some a, some b) h.ty ty) (hlit : lit → h.ty b = .constant)
    (hp : g.cls = .pow → isConst h a zero = false) : MadeB (mkBin g.cls ty a b) h g lit a b := by
  refine (mkBin_made wf (by cases g <;> rfl) ha hb hty hp).congr (fun _ _ => trivial) ?_
    (fun _ _ _ => rfl) (fun _ _ _ => le_rfl) ?_ le_rfl
  · rintro η x ok rfl
    exact opVal_bin ok
  · rintro η op rc x y _ (u | u | ⟨u1, u2, u3⟩)
    · exact Or.inl u
    · exact Or.inr (Or.inl u)
    · exact Or.inr (Or.inr (Or.inl ⟨u1, fun l => u2 (hlit l), u3⟩))

theorem mul_made (wf : WF h) (ha : a < h.next) (hb : b < h.next) (hlit : lit → h.ty b = .constant) :
    MadeB (mul a b) h .mul lit a b := by
  unfold mul
  apply Made.get
  refine Made.ite (fun c => ?_) fun c => ?_
  · refine MadeB.absorbL wf ha hb (isConst_ty' c) fun y _ => ?_
    rw [isConst_val c]; simpa [BinOp.eval, BinOp.cls, gradR] using near_refl 1 0
  refine Made.ite (fun c => ?_) fun c => ?_
  · refine MadeB.absorbR wf hb (isConst_ty' c) fun y _ => ?_
    rw [isConst_val c]; simpa [BinOp.eval, BinOp.cls, gradL] using near_refl 1 0
  refine Made.ite (fun c => ?_) fun c => ?_
  · refine MadeB.right wf ha hb (isConst_ty' c) fun y _ => ?_
    rw [isConst_val c]; simpa [BinOp.eval, BinOp.cls, gradR] using near_refl 1 y
  refine Made.ite (fun c => ?_) fun c => ?_
  · refine MadeB.left wf ha hb (isConst_ty' c) fun y _ => ?_
    rw [isConst_val c]; simpa [BinOp.eval, BinOp.cls, gradL] using near_refl 1 y
  refine Made.ite (fun c => ?_) fun c => ?_
  · simp only [Bool.and_eq_true] at c
    exact MadeB.folded (g := .mul) wf ha hb (isK_ty' c.1) (isK_ty' c.2)
  have key : ∀ ty, TyOK .mul (some a, some b) h.ty ty → MadeB (mkBin .mul ty a b) h .mul lit a b := fun ty hty =>
    MadeB.node (g := .mul) wf ha hb hty hlit (by simp [BinOp.cls])
  refine Made.ite (fun c => ?_) fun c => ?_
  · exact key _ ⟨(cascade_rank _).2, Or.inr (Or.inl ⟨isK_ty' c, (cascade_rank _).1⟩)⟩
  refine Made.ite (fun c => ?_) fun c => ?_
  · exact key _ ⟨(cascade_rank _).2, Or.inr (Or.inr (Or.inl ⟨isK_ty' c, (cascade_rank _).1⟩))⟩
  refine Made.ite (fun c => ?_) fun c => ?_
  · refine key _ ?_
    simp only [Bool.and_eq_true, decide_eq_true_eq] at c
    exact ⟨by simp [Ty.rank], Or.inr (Or.inr (Or.inr ⟨c.1, c.2, rfl⟩))⟩
  · exact key _ ⟨by simp [Ty.rank], Or.inl rfl⟩

theorem div_made (wf : WF h) (ha : a < h.next) (hb : b < h.next) (hlit : lit → h.ty b = .constant) :
    MadeB (div a b) h .div lit a b := by
  unfold div
  apply Made.get
  refine Made.ite (fun c => ?_) fun c => ?_
  · refine MadeB.absorbL wf ha hb (isConst_ty' c) fun y _ => ?_
    rw [isConst_val c]; simpa [BinOp.eval, BinOp.cls, gradR] using near_refl 1 0
  refine Made.ite (fun c => ?_) fun c => ?_
  · refine MadeB.left wf ha hb (isConst_ty' c) fun y _ => ?_
    rw [isConst_val c]; simpa [BinOp.eval, BinOp.cls, gradL] using near_refl 1 y
  refine Made.ite (fun c => ?_) fun c => ?_
  · simp only [Bool.and_eq_true] at c
    exact MadeB.folded (g := .div) wf ha hb (isK_ty' c.1) (isK_ty' c.2)
  refine Made.ite (fun c => ?_) fun c => ?_
  · exact MadeB.node (g := .div) wf ha hb ⟨(cascade_rank _).2, Or.inr ⟨isK_ty' c, (cascade_rank _).1⟩⟩ hlit
      (by simp [BinOp.cls])
  · exact MadeB.node (g := .div) wf ha hb ⟨by simp [Ty.rank], Or.inl rfl⟩ hlit (by simp [BinOp.cls])

theorem add_made (wf : WF h) (ha : a < h.next) (hb : b < h.next) (hlit : lit → h.ty b = .constant) :
    MadeB (add a b) h .add lit a b := by
  unfold add
  apply Made.get
  refine Made.ite (fun c => ?_) fun c => ?_
  · refine MadeB.right wf ha hb (isConst_ty' c) fun y _ => ?_
    rw [isConst_val c]; simpa [BinOp.eval, BinOp.cls, gradR] using near_refl 1 y
  refine Made.ite (fun c => ?_) fun c => ?_
  · refine MadeB.left wf ha hb (isConst_ty' c) fun y _ => ?_
    rw [isConst_val c]; simpa [BinOp.eval, BinOp.cls, gradL] using near_refl 1 y
  refine Made.ite (fun c => ?_) fun c => ?_
  · simp only [Bool.and_eq_true] at c
    exact MadeB.folded (g := .add) wf ha hb (isK_ty' c.1) (isK_ty' c.2)
  · refine MadeB.node (g := .add) wf ha hb ?_ hlit (by simp [BinOp.cls])
    have h1 := max_rank (h.ty a) (h.ty b)
    have h2 := cascade_rank (Ty.max (h.ty a) (h.ty b))
    exact ⟨h2.2, h1.1.trans h2.1, h1.2.trans h2.1⟩

theorem sub_made (wf : WF h) (ha : a < h.next) (hb : b < h.next) (hlit : lit → h.ty b = .constant) :
    MadeB (sub a b) h .sub lit a b := by
  unfold sub
  apply Made.get
  refine Made.ite (fun c => ?_) fun c => ?_
  · refine Made.ite (fun c' => ?_) fun c' => ?_
    · refine (Made.pure wf hb).congr (fun _ _ => trivial) ?_ ?_ ?_ (fun _ _ _ _ _ _ u => Or.inr (Or.inl u)) (by omega)
      · rintro η x _ rfl
        rw [(isConst_facts wf ha c η (fun _ => 0)).1, (isConst_facts wf hb c' η (fun _ => 0)).1]
        simpa [BinOp.eval] using near_refl 1 0
      · intro η d _
        rw [(isConst_facts wf ha c η d).2.1, (isConst_facts wf hb c' η d).2.1]; simp
      · intro η d _
        rw [(isConst_facts wf ha c η d).2.2, (isConst_facts wf hb c' η d).2.2]; simp
    · refine (neg_made wf hb).congr (fun _ _ => Or.inl (Or.inr rfl)) ?_ ?_ ?_ ?_ (by omega)
      · rintro η x _ hx
        rw [(isConst_facts wf ha c η (fun _ => 0)).1]
        refine hx.mono A.lt_one (Nat.zero_le 1) |>.trans_eq ?_
        simp [UnOp.eval, BinOp.eval]
      · intro η d _
        rw [(isConst_facts wf ha c η d).2.1]; simp [gradL, gradR, UnOp.cls, BinOp.cls]
      · intro η d _
        rw [(isConst_facts wf ha c η d).2.2]; simp [gradL, gradR, UnOp.cls, BinOp.cls]
      · rintro η op rc x y _ (u | ⟨u1, u2, u3⟩)
        · exact Or.inr (Or.inl u)
        · exact Or.inr (Or.inr (Or.inr (Or.inl ⟨rfl, u1, u2, u3⟩)))
  refine Made.ite (fun c => ?_) fun c => ?_
  · refine MadeB.left wf ha hb (isConst_ty' c) fun y _ => ?_
    rw [isConst_val c]; simpa [BinOp.eval, BinOp.cls, gradL] using near_refl 1 y
  refine Made.ite (fun c => ?_) fun c => ?_
  · simp only [Bool.and_eq_true] at c
    exact MadeB.folded (g := .sub) wf ha hb (isK_ty' c.1) (isK_ty' c.2)
  · refine MadeB.node (g := .sub) wf ha hb ?_ hlit (by simp [BinOp.cls])
    have h1 := max_rank (h.ty a) (h.ty b)
    have h2 := cascade_rank (Ty.max (h.ty a) (h.ty b))
    exact ⟨h2.2, h1.1.trans h2.1, h1.2.trans h2.1⟩

private theorem grad_abs {x : ℝ} (hx : x ≠ 0) : gradL .abs 1 x 0 = x / √(x ^ 2) := by
  rw [Real.sqrt_sq_eq_abs]
  simp only [gradL, r_lt, r_zero, r_neg, decide_eq_true_eq]
  rcases lt_or_gt_of_ne hx with h1 | h1
  · rw [if_pos h1, abs_of_neg h1]; field_simp
  · rw [if_neg (not_lt.mpr h1.le), if_pos h1, abs_of_pos h1]; field_simp

theorem hypot_made (wf : WF h) (ha : a < h.next) (hb : b < h.next) (hlit : lit → h.ty b = .constant) :
    MadeB (hypot a b) h .hypot lit a b := by
  unfold hypot
  apply Made.get
  have ok : ∀ {x y : ℝ}, OkB A .hypot lit x y → A.Lib ∧ (x ≠ 0 ∨ y ≠ 0) := by
    rintro x y ((e | e | e) | e)
    · simp at e
    · simp at e
    · simp at e
    · exact e
  refine Made.ite (fun c => ?_) fun c => ?_
  · have h0 : ∀ η, evR h η a = 0 := fun η => (isConst_facts wf ha c η 0).1
    refine (abs_made wf hb).congr ?_ ?_ ?_ ?_ ?_ (by omega)
    · intro η o
      rw [h0] at o
      exact Or.inr ⟨(ok o).1, by simpa [UnOp.Smooth] using (ok o).2⟩
    · intro η x o hx
      rw [h0]
      refine hx.trans_eq ?_
      simp [UnOp.eval, BinOp.eval, Real.sqrt_sq_eq_abs]
    · intro η d o
      rw [h0] at o
      have hb0 : evR h η b ≠ 0 := by simpa using (ok o).2
      rw [(isConst_facts wf ha c η d).2.1, h0]
      simp only [UnOp.cls]
      rw [grad_abs hb0]
      simp [gradR, BinOp.cls]
    · intro η d o
      rw [h0] at o
      have hb0 : evR h η b ≠ 0 := by simpa using (ok o).2
      rw [(isConst_facts wf ha c η d).2.2, h0]
      simp only [UnOp.cls]
      rw [grad_abs hb0]
      simp [gradR, BinOp.cls]
    · rintro η op rc x y _ (u | ⟨u1, u2, u3⟩)
      · exact Or.inr (Or.inl u)
      · exact Or.inr (Or.inr (Or.inr (Or.inr (Or.inl ⟨rfl, u1, u3, Or.inl ⟨u2, h0 η⟩⟩))))
  refine Made.ite (fun c => ?_) fun c => ?_
  · have h0 : ∀ η, evR h η b = 0 := fun η => (isConst_facts wf hb c η 0).1
    refine (abs_made wf ha).congr ?_ ?_ ?_ ?_ ?_ (by omega)
    · intro η o
      rw [h0] at o
      exact Or.inr ⟨(ok o).1, by simpa [UnOp.Smooth] using (ok o).2⟩
    · intro η x o hx
      rw [h0]
      refine hx.trans_eq ?_
      simp [UnOp.eval, BinOp.eval, Real.sqrt_sq_eq_abs]
    · intro η d o
      rw [h0] at o
      have hb0 : evR h η a ≠ 0 := by simpa using (ok o).2
      rw [(isConst_facts wf hb c η d).2.1, h0]
      simp only [UnOp.cls]
      rw [grad_abs hb0]
      simp [gradL, BinOp.cls]
    · intro η d o
      rw [h0] at o
      have hb0 : evR h η a ≠ 0 := by simpa using (ok o).2
      rw [(isConst_facts wf hb c η d).2.2, h0]
      simp only [UnOp.cls]
      rw [grad_abs hb0]
      simp [gradL, BinOp.cls]
    · rintro η op rc x y _ (u | ⟨u1, u2, u3⟩)
      · exact Or.inl u
      · exact Or.inr (Or.inr (Or.inr (Or.inr (Or.inl ⟨rfl, u1, u3, Or.inr ⟨u2, h0 η⟩⟩))))
  refine Made.ite (fun c => ?_) fun c => ?_
  · simp only [Bool.and_eq_true] at c
    exact MadeB.folded (g := .hypot) wf ha hb (isK_ty' c.1) (isK_ty' c.2)
  · exact MadeB.node (g := .hypot) wf ha hb rfl hlit (by simp [BinOp.cls])

theorem pow_made (wf : WF h) (ha : a < h.next) (hb : b < h.next) (hlit : lit → h.ty b = .constant) :
    MadeB (pow a b) h .pow lit a b := by
  unfold pow
  apply Made.get
  refine Made.ite (fun c => ?_) fun c0 => ?_
  · refine MadeB.absorbL wf ha hb (isConst_ty' c) fun y o => ?_
    rw [isConst_val c, f_zero] at o ⊢
    rcases o with (e | e | e) | ⟨_, hs⟩
    · simp at e
    · simp at e
    · simp at e
    · simp only [BinOp.Smooth, lt_irrefl, false_or, ne_eq, not_true_eq_false] at hs
      obtain ⟨hl, k, rfl, hk⟩ := hs
      refine ⟨near_of_eq ?_, Or.inr ⟨hl, hlit hl⟩⟩
      simp only [BinOp.eval]
      rw [Real.zero_rpow (by exact_mod_cast (by omega : k ≠ 0))]
  refine Made.ite (fun c => ?_) fun c => ?_
  · refine MadeB.absorbL wf ha hb (isConst_ty' c) fun y o => ?_
    rw [isConst_val c, f_one]
    exact ⟨near_of_eq (by simp [BinOp.eval]), Or.inl (by simp [gradR, BinOp.cls])⟩
  refine Made.ite (fun c => ?_) fun c => ?_
  · refine MadeB.constR wf hb (isConst_ty' c) fun x _ => ?_
    rw [isConst_val c, f_zero, f_one]
    exact ⟨near_of_eq (by simp [BinOp.eval]), by simp [gradL, BinOp.cls]⟩
  refine Made.ite (fun c => ?_) fun c => ?_
  · refine MadeB.left wf ha hb (isConst_ty' c) fun x _ => ?_
    rw [isConst_val c, f_one]
    exact ⟨near_of_eq (by simp [BinOp.eval]), by simp [gradL, BinOp.cls]⟩
  refine Made.ite (fun c => ?_) fun c => ?_
  · simp only [Bool.and_eq_true] at c
    exact MadeB.folded (g := .pow) wf ha hb (isK_ty' c.1) (isK_ty' c.2)
  refine Made.ite (fun c => ?_) fun c => ?_
  · have h2 : ∀ η d, evR h η b = 2 ∧ _ := fun η d => isConst_facts wf hb c η d
    have key : ∀ ty, TyOK .mul (some a, some a) h.ty ty → MadeB (mkBin .mul ty a a) h .pow lit a b := by
      intro ty hty
      have m := mkBin_made wf (op := .mul) rfl ha ha hty (by simp)
      have hone : (2 : ℝ) - 1 = 1 := by norm_num
      refine ⟨m.wf, m.grow, m.lt, ?_, ?_, ?_, ?_, ?_⟩
      · intro η _
        have e := m.val η trivial
        rw [e, (h2 η 0).1]
        have : A.Near 1 (toReal (opVal .mul (ev h η a) (ev h η a))) (evR h η a * evR h η a) :=
          Rounding.near_rnd A.lt_one _
        refine this.trans_eq ?_
        simp [BinOp.eval, pow_two]
      · intro η _ d
        rw [m.der η trivial d, (h2 η d).1, (h2 η d).2.1]
        simp [gradL, gradR, BinOp.cls, hone]
        ring
      · intro η _ d
        refine (m.abs η trivial d).trans (le_of_eq ?_)
        rw [(h2 η d).1, (h2 η d).2.2]
        simp [gradL, gradR, BinOp.cls, hone, abs_mul]
        ring
      · rintro η _ op rc x y u
        rcases m.uses η trivial op rc x y u with u | u | ⟨u1, u2, u3, u4⟩
        · exact Or.inl u
        · exact Or.inl u
        · exact Or.inr (Or.inr (Or.inr (Or.inr (Or.inr ⟨rfl, u1, u3, u4⟩))))
      · have hac := m.wf.acyc
        have e : (mkBin .mul ty a a h).1 = h.next := rfl
        have hargs : (mkBin .mul ty a a h).2.args h.next = (some a, some a) := by simp [mkBin, alloc]
        rw [e, opSet_bin hac hargs, Finset.union_self, opSet_congr m.grow.args a ha]
        exact (Finset.card_insert_le _ _).trans (by omega)
    refine Made.ite (fun c' => ?_) fun c' => ?_
    · exact key _ ⟨by simp [Ty.rank], Or.inr (Or.inr (Or.inr ⟨c', c', rfl⟩))⟩
    · exact key _ ⟨by simp [Ty.rank], Or.inl rfl⟩
  · exact MadeB.node (g := .pow) wf ha hb rfl hlit fun _ => by simpa using c0

theorem bin_made (wf : WF h) (ha : a < h.next) (hb : b < h.next) (hlit : lit → h.ty b = .constant) :
    MadeB (g.build a b) h g lit a b := by
  cases g
  case add => exact add_made wf ha hb hlit
  case sub => exact sub_made wf ha hb hlit
  case mul => exact mul_made wf ha hb hlit
  case div => exact div_made wf ha hb hlit
  case atan2 =>
    show MadeB (atan2 a b) h .atan2 lit a b
    unfold atan2
    apply Made.get
    refine Made.ite (fun c => ?_) fun c => ?_
    · simp only [Bool.and_eq_true] at c
      exact MadeB.folded (g := .atan2) wf ha hb (isK_ty' c.1) (isK_ty' c.2)
    · exact MadeB.node (g := .atan2) wf ha hb rfl hlit (by simp [BinOp.cls])
  case hypot => exact hypot_made wf ha hb hlit
  case max =>
    show MadeB (Slp.max a b) h .max lit a b
    unfold Slp.max
    apply Made.get
    refine Made.ite (fun c => ?_) fun c => ?_
    · simp only [Bool.and_eq_true] at c
      exact MadeB.folded (g := .max) wf ha hb (isK_ty' c.1) (isK_ty' c.2)
    · exact MadeB.node (g := .max) wf ha hb rfl hlit (by simp [BinOp.cls])
  case min =>
    show MadeB (Slp.min a b) h .min lit a b
    unfold Slp.min
    apply Made.get
    refine Made.ite (fun c => ?_) fun c => ?_
    · simp only [Bool.and_eq_true] at c
      exact MadeB.folded (g := .min) wf ha hb (isK_ty' c.1) (isK_ty' c.2)
    · exact MadeB.node (g := .min) wf ha hb rfl hlit (by simp [BinOp.cls])
  case pow => exact pow_made wf ha hb hlit

end

end

end FloatMath

end Slp
