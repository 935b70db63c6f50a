import Verif.Autodiff.SmoothModel

/-! What each smart constructor of `expression.hpp` builds, over the reals. -/

set_option linter.unusedSectionVars false

namespace Slp

open ScalarOps

variable {S : Type} [ScalarOps S]

/-- `h'` extends `h`: nothing about existing nodes has changed. -/
structure Grow (h h' : Heap S) : Prop where
  next : h.next ≤ h'.next
  op : ∀ n, n < h.next → h'.op n = h.op n
  ty : ∀ n, n < h.next → h'.ty n = h.ty n
  args : ∀ n, n < h.next → h'.args n = h.args n
  val : ∀ n, n < h.next → h'.val n = h.val n
  adjE : ∀ n, n < h.next → h'.adjE n = h.adjE n
  adjNew : ∀ n, h.next ≤ n → n < h'.next → h'.adjE n = none

theorem Grow.refl (h : Heap S) : Grow h h :=
  ⟨le_rfl, fun _ _ => rfl, fun _ _ => rfl, fun _ _ => rfl, fun _ _ => rfl, fun _ _ => rfl,
    fun _ h1 h2 => absurd h1 (not_le.mpr h2)⟩

theorem Grow.trans {h1' h2' h3' : Heap S} (a : Grow h1' h2') (b : Grow h2' h3') :
    Grow h1' h3' where
  next := a.next.trans b.next
  op n hn := (b.op n (lt_of_lt_of_le hn a.next)).trans (a.op n hn)
  ty n hn := (b.ty n (lt_of_lt_of_le hn a.next)).trans (a.ty n hn)
  args n hn := (b.args n (lt_of_lt_of_le hn a.next)).trans (a.args n hn)
  val n hn := (b.val n (lt_of_lt_of_le hn a.next)).trans (a.val n hn)
  adjE n hn := (b.adjE n (lt_of_lt_of_le hn a.next)).trans (a.adjE n hn)
  adjNew n h1 h2 := by
    by_cases h3 : n < h2'.next
    · rw [b.adjE n h3]; exact a.adjNew n h1 h3
    · exact b.adjNew n (not_lt.mp h3) h2

theorem Grow.same {h h' : Heap S} (g : Grow h h') : SameUpTo h.next h h' :=
  ⟨g.op, g.args, fun n hn _ => g.val n hn⟩

theorem Grow.ev {h h' : Heap S} (g : Grow h h') (η : ℕ → S) {n : ℕ} (hn : n < h.next) :
    ev h' η n = ev h η n :=
  ev_congr g.same (fun _ _ _ _ => rfl) n hn

theorem Grow.isConst {h h' : Heap S} (g : Grow h h') {n : ℕ} (hn : n < h.next) (c : S) :
    isConst h' n c = isConst h n c := by
  unfold Slp.isConst; rw [g.ty n hn, g.val n hn]

theorem Grow.isK {h h' : Heap S} (g : Grow h h') {n : ℕ} (hn : n < h.next) :
    isK h' n = isK h n := by
  unfold Slp.isK; rw [g.ty n hn]

theorem Grow.Sm {h h' : Heap ℝ} (g : Grow h h') (η : ℕ → ℝ) {n : ℕ} (hn : n < h.next) :
    Sm h' η n ↔ Sm h η n :=
  Sm_congr g.same (fun _ _ _ _ => rfl) n hn

/-- Running `m` on `h` only adds nodes and returns an expression that denotes `f` and is smooth
wherever `P` holds. -/
structure Builds (m : HM ℝ ℕ) (h : Heap ℝ) (f : (ℕ → ℝ) → ℝ) (P : (ℕ → ℝ) → Prop) : Prop where
  wf : WF (m h).2
  grow : Grow h (m h).2
  lt : (m h).1 < (m h).2.next
  sem : ∀ η, ev (m h).2 η (m h).1 = f η
  sm : ∀ η, P η → Sm (m h).2 η (m h).1

section
variable {m : HM ℝ ℕ} {h : Heap ℝ} {f g : (ℕ → ℝ) → ℝ} {P Q : (ℕ → ℝ) → Prop}

theorem Builds.congr (b : Builds m h f P) (hfg : ∀ η, f η = g η) (hPQ : ∀ η, Q η → P η) :
    Builds m h g Q :=
  ⟨b.wf, b.grow, b.lt, fun η => (b.sem η).trans (hfg η), fun η q => b.sm η (hPQ η q)⟩

theorem Builds.pure (wf : WF h) {a : ℕ} (ha : a < h.next) (hf : ∀ η, Slp.ev h η a = f η)
    (hp : ∀ η, P η → Slp.Sm h η a) : Builds (Pure.pure a : HM ℝ ℕ) h f P :=
  ⟨wf, Grow.refl h, ha, hf, hp⟩

theorem Builds.bind {k : ℕ → HM ℝ ℕ} (b : Builds m h f P)
    (hk : ∀ a h', WF h' → Grow h h' → a < h'.next → (∀ η, ev h' η a = f η) →
      (∀ η, P η → Slp.Sm h' η a) → Builds (k a) h' g Q) :
    Builds (m >>= k) h g Q := by
  have c := hk (m h).1 (m h).2 b.wf b.grow b.lt b.sem b.sm
  exact ⟨c.wf, b.grow.trans c.grow, c.lt, c.sem, c.sm⟩

theorem Builds.bindEq {k : ℕ → HM ℝ ℕ} (b : Builds m h f P)
    (hk : ∀ a h', a = (m h).1 → h' = (m h).2 → WF h' → Grow h h' → a < h'.next →
      (∀ η, ev h' η a = f η) → (∀ η, P η → Slp.Sm h' η a) → Builds (k a) h' g Q) :
    Builds (m >>= k) h g Q := by
  have c := hk (m h).1 (m h).2 rfl rfl b.wf b.grow b.lt b.sem b.sm
  exact ⟨c.wf, b.grow.trans c.grow, c.lt, c.sem, c.sm⟩

theorem Builds.get {k : Heap ℝ → HM ℝ ℕ} (b : Builds (k h) h f P) :
    Builds ((MonadState.get : HM ℝ (Heap ℝ)) >>= k) h f P := ⟨b.wf, b.grow, b.lt, b.sem, b.sm⟩

theorem Builds.ite {p : Prop} [Decidable p] {a b : HM ℝ ℕ}
    (ha : p → Builds a h f P) (hb : ¬p → Builds b h f P) : Builds (if p then a else b) h f P := by
  split
  · exact ha ‹_›
  · exact hb ‹_›

end

/-! ### Allocation -/

theorem TyOK.congr {op : Op} {args : Option ℕ × Option ℕ} {ty ty' : ℕ → Ty} {t : Ty} {N : ℕ}
    (hN : ∀ n, n < N → ty' n = ty n) (ha : ∀ a, args.1 = some a → a < N)
    (hb : ∀ a, args.2 = some a → a < N) (h : TyOK op args ty t) : TyOK op args ty' t := by
  rcases args with ⟨a, b⟩
  cases a with
  | none => cases op <;> exact h
  | some a =>
    have h1 : ty' a = ty a := hN a (ha a rfl)
    cases b with
    | none =>
      cases op <;> simp only [TyOK] at h ⊢ <;> simpa only [h1] using h
    | some b =>
      have h2 : ty' b = ty b := hN b (hb b rfl)
      cases op <;> simp only [TyOK] at h ⊢ <;> simpa only [h1, h2] using h

theorem alloc_grow (op : Op) (ty : Ty) (args : Option ℕ × Option ℕ) (v : S) (h : Heap S) :
    Grow h (alloc op ty args v h).2 := by
  constructor
  · simp [alloc]
  case adjNew =>
    intro n h1 h2
    have : n = h.next := by simp [alloc] at h2; omega
    subst this
    simp [alloc]
  all_goals
    intro n hn
    simp [alloc, Nat.ne_of_lt hn]

theorem alloc_wf {op : Op} {ty : Ty} {args : Option ℕ × Option ℕ} {v : S} {h : Heap S} (wf : WF h)
    (ha : ∀ a, args.1 = some a → a < h.next) (hb : ∀ a, args.2 = some a → a < h.next)
    (har : ArityOK op args) (hty : TyOK op args h.ty ty)
    (hp : op = .pow → ∀ b, args.1 = some b → isConst h b zero = false) :
    WF (alloc op ty args v h).2 := by
  have g := alloc_grow op ty args v h
  have hargs : (alloc op ty args v h).2.args = Function.update h.args h.next args := rfl
  have hop : (alloc op ty args v h).2.op = Function.update h.op h.next op := rfl
  have hty' : (alloc op ty args v h).2.ty = Function.update h.ty h.next ty := rfl
  have hnext : (alloc op ty args v h).2.next = h.next + 1 := rfl
  have hlt : ∀ n, ∀ a, (h.args n).1 = some a ∨ (h.args n).2 = some a → a < n := by
    intro n a h'
    rcases h' with h' | h'
    · exact wf.acyc n a (mem_kids_left h')
    · exact wf.acyc n a (mem_kids_right h')
  constructor
  · intro n c hc
    rw [hargs] at hc
    by_cases hn : n = h.next
    · subst hn
      simp only [Graph.kids, Function.update_self, List.reduceOption, List.mem_filterMap] at hc
      obtain ⟨o, ho, ho'⟩ := hc
      simp at ho ho'
      subst ho'
      rcases ho with ho | ho
      · exact ha _ ho.symm
      · exact hb _ ho.symm
    · simp only [Graph.kids, Function.update_of_ne hn] at hc
      exact wf.acyc n c hc
  · intro n hn
    rw [hnext] at hn
    rw [hargs, Function.update_of_ne (by omega)]
    exact wf.bound n (by omega)
  · intro n hn
    rw [hnext] at hn
    rw [hargs, hop]
    by_cases hn' : n = h.next
    · subst hn'; simpa using har
    · rw [Function.update_of_ne hn', Function.update_of_ne hn']
      exact wf.arity n (by omega)
  · intro n hn
    rw [hnext] at hn
    by_cases hn' : n = h.next
    · subst hn'
      rw [hargs, hop]
      have e : (alloc op ty args v h).2.ty h.next = ty := by rw [hty']; simp
      rw [e]
      simp only [Function.update_self]
      exact hty.congr g.ty ha hb
    · have hn2 : n < h.next := by omega
      rw [g.ty n hn2, g.op n hn2, g.args n hn2]
      exact (wf.typ n hn2).congr g.ty (fun a h' => (hlt n a (Or.inl h')).trans hn2)
        (fun a h' => (hlt n a (Or.inr h')).trans hn2)
  · intro n hn hpow b hb'
    rw [hnext] at hn
    by_cases hn' : n = h.next
    · subst hn'
      rw [hargs] at hb'
      rw [hop] at hpow
      simp only [Function.update_self] at hb' hpow
      rw [g.isConst (ha b hb')]
      exact hp hpow b hb'
    · have hn2 : n < h.next := by omega
      rw [g.op n hn2] at hpow
      rw [g.args n hn2] at hb'
      rw [g.isConst ((hlt n b (Or.inl hb')).trans hn2)]
      exact wf.powBase n hn2 hpow b hb'
  · intro n
    have : (alloc op ty args v h).2.scratch = Function.update h.scratch h.next (-1) := rfl
    rw [this]
    by_cases hn' : n = h.next
    · subst hn'; simp
    · rw [Function.update_of_ne hn']; exact wf.scratch n
  · intro n hn
    rw [hnext] at hn
    have : (alloc op ty args v h).2.adjE = Function.update h.adjE h.next none := rfl
    rw [this, Function.update_of_ne (by omega)]
    exact wf.fresh n (by omega)

section
variable {h : Heap ℝ} {a b : ℕ}

theorem mkConst_builds (wf : WF h) (v : ℝ) : Builds (mkConst v) h (fun _ => v) (fun _ => True) := by
  refine ⟨alloc_wf wf (by simp) (by simp) (by simp [ArityOK, Op.arity]) (by simp [TyOK]) (by simp),
    alloc_grow _ _ _ _ _, by simp [mkConst, alloc], ?_, ?_⟩
  · intro η
    rw [ev_leaf (by simp [mkConst, alloc])]
    simp [mkConst, alloc]
  · intro η _
    exact Sm_leaf (by simp [mkConst, alloc])

theorem mkConst_builds' (wf : WF h) {v : ℝ} {f : (ℕ → ℝ) → ℝ} {P : (ℕ → ℝ) → Prop}
    (hf : ∀ η, v = f η) : Builds (mkConst v) h f P :=
  (mkConst_builds wf v).congr hf fun _ _ => trivial

theorem mkVar_builds (wf : WF h) :
    Builds (mkVar : HM ℝ ℕ) h (fun η => η h.next) (fun _ => True) := by
  refine ⟨alloc_wf wf (by simp) (by simp) (by simp [ArityOK, Op.arity]) (by simp [TyOK]) (by simp),
    alloc_grow _ _ _ _ _, by simp [mkVar, alloc], ?_, ?_⟩
  · intro η
    rw [ev_leaf (by simp [mkVar, alloc])]
    simp [mkVar, alloc]
  · intro η _
    exact Sm_leaf (by simp [mkVar, alloc])

/-- Smoothness of a unary operation applied to node `a`. -/
def SmU (h : Heap ℝ) (op : Op) (a : ℕ) (η : ℕ → ℝ) : Prop :=
  Sm h η a ∧ SmoothOp op False (ev h η a) 0

/-- Smoothness of a binary operation applied to nodes `a`, `b`. -/
def SmB (h : Heap ℝ) (op : Op) (a b : ℕ) (η : ℕ → ℝ) : Prop :=
  Sm h η a ∧ Sm h η b ∧ SmoothOp op (h.op b = .constant) (ev h η a) (ev h η b)

theorem mkUn_builds (wf : WF h) {op : Op} {ty : Ty} (ha : a < h.next)
    (har : op.arity = 1) (hty : TyOK op (some a, none) h.ty ty) :
    Builds (mkUn op ty a) h (fun η => opVal op (ev h η a) zero) (SmU h op a) := by
  have w : WF (mkUn op ty a h).2 := by
    refine alloc_wf wf (by simpa using ha) (by simp) ?_ hty ?_
    · unfold ArityOK; rw [har]; exact ⟨a, rfl⟩
    · rintro rfl; simp [Op.arity] at har
  have hargs : (mkUn op ty a h).2.args h.next = (some a, none) := by simp [mkUn, alloc]
  have e : (mkUn op ty a h).1 = h.next := rfl
  have g : Grow h (mkUn op ty a h).2 := alloc_grow _ _ _ _ _
  have hop : (mkUn op ty a h).2.op h.next = op := by simp [mkUn, alloc]
  refine ⟨w, g, by simp [mkUn, alloc], ?_, ?_⟩
  · intro η
    rw [e, ev_un w.acyc hargs, g.ev η ha, hop]
  · intro η p
    rw [e, Sm_un w.acyc hargs, g.ev η ha, hop, g.Sm η ha]
    exact p

theorem mkBin_builds (wf : WF h) {op : Op} {ty : Ty} (ha : a < h.next)
    (hb : b < h.next) (har : op.arity = 2) (hty : TyOK op (some a, some b) h.ty ty)
    (hp : op = .pow → isConst h a zero = false) :
    Builds (mkBin op ty a b) h (fun η => opVal op (ev h η a) (ev h η b)) (SmB h op a b) := by
  have w : WF (mkBin op ty a b h).2 := by
    refine alloc_wf wf (by simpa using ha) (by simpa using hb) ?_ hty ?_
    · unfold ArityOK; rw [har]; exact ⟨a, b, rfl⟩
    · intro e c hc; simp at hc; subst hc; exact hp e
  have hargs : (mkBin op ty a b h).2.args h.next = (some a, some b) := by simp [mkBin, alloc]
  have e : (mkBin op ty a b h).1 = h.next := rfl
  have g : Grow h (mkBin op ty a b h).2 := alloc_grow _ _ _ _ _
  have hop : (mkBin op ty a b h).2.op h.next = op := by simp [mkBin, alloc]
  refine ⟨w, g, by simp [mkBin, alloc], ?_, ?_⟩
  · intro η
    rw [e, ev_bin w.acyc hargs, g.ev η ha, g.ev η hb, hop]
  · intro η p
    rw [e, Sm_bin w.acyc hargs, g.ev η ha, g.ev η hb, hop, g.Sm η ha, g.Sm η hb, g.op b hb]
    exact p

end

/-! ### Types -/

theorem cascade_rank (t : Ty) : t.rank ≤ (cascade t).rank ∧ 2 ≤ (cascade t).rank := by
  cases t <;> simp [cascade, Ty.rank]

theorem max_rank (a b : Ty) : a.rank ≤ (Ty.max a b).rank ∧ b.rank ≤ (Ty.max a b).rank := by
  unfold Ty.max
  split <;> omega

/-! ### Smart constructors over the reals -/

section
variable {h : Heap ℝ} {a b : ℕ}

theorem isConst_ev (wf : WF h) (ha : a < h.next) {c : ℝ} (hc : isConst h a c = true) (η : ℕ → ℝ) :
    ev h η a = c := by
  simp only [isConst, r_eq, Bool.and_eq_true, decide_eq_true_eq] at hc
  rw [ev_const wf ha hc.1, hc.2]

theorem isK_ty (hk : isK h a = true) : h.ty a = .constant := by
  simpa [isK] using hk

theorem isK_ev (wf : WF h) (ha : a < h.next) (hk : isK h a = true) (η : ℕ → ℝ) :
    ev h η a = h.val a := ev_const wf ha (isK_ty hk) η

theorem mul_builds (wf : WF h) (ha : a < h.next) (hb : b < h.next) :
    Builds (mul a b) h (fun η => ev h η a * ev h η b) (SmB h .mul a b) := by
  unfold mul
  apply Builds.get
  refine Builds.ite (fun c => ?_) fun c => ?_
  · refine Builds.pure wf ha (fun η => ?_) fun η p => p.1
    rw [isConst_ev wf ha c]; simp
  refine Builds.ite (fun c => ?_) fun c => ?_
  · refine Builds.pure wf hb (fun η => ?_) fun η p => p.2.1
    rw [isConst_ev wf hb c]; simp
  refine Builds.ite (fun c => ?_) fun c => ?_
  · refine Builds.pure wf hb (fun η => ?_) fun η p => p.2.1
    rw [isConst_ev wf ha c]; simp
  refine Builds.ite (fun c => ?_) fun c => ?_
  · refine Builds.pure wf ha (fun η => ?_) fun η p => p.1
    rw [isConst_ev wf hb c]; simp
  refine Builds.ite (fun c => ?_) fun c => ?_
  · simp only [Bool.and_eq_true] at c
    refine mkConst_builds' wf fun η => ?_
    rw [isK_ev wf ha c.1, isK_ev wf hb c.2]; rfl
  refine Builds.ite (fun c => ?_) fun c => ?_
  · refine mkBin_builds wf ha hb rfl ?_ (by simp)
    exact ⟨(cascade_rank _).2, Or.inr (Or.inl ⟨isK_ty c, (cascade_rank _).1⟩)⟩
  refine Builds.ite (fun c => ?_) fun c => ?_
  · refine mkBin_builds wf ha hb rfl ?_ (by simp)
    exact ⟨(cascade_rank _).2, Or.inr (Or.inr (Or.inl ⟨isK_ty c, (cascade_rank _).1⟩))⟩
  refine Builds.ite (fun c => ?_) fun c => ?_
  · refine mkBin_builds wf ha hb rfl ?_ (by simp)
    simp only [Bool.and_eq_true, decide_eq_true_eq] at c
    exact ⟨by simp [Ty.rank], Or.inr (Or.inr (Or.inr ⟨c.1, c.2, rfl⟩))⟩
  · refine mkBin_builds wf ha hb rfl ?_ (by simp)
    exact ⟨by simp [Ty.rank], Or.inl rfl⟩

theorem div_builds (wf : WF h) (ha : a < h.next) (hb : b < h.next) :
    Builds (div a b) h (fun η => ev h η a / ev h η b) (SmB h .div a b) := by
  unfold div
  apply Builds.get
  refine Builds.ite (fun c => ?_) fun c => ?_
  · refine Builds.pure wf ha (fun η => ?_) fun η p => p.1
    rw [isConst_ev wf ha c]; simp
  refine Builds.ite (fun c => ?_) fun c => ?_
  · refine Builds.pure wf ha (fun η => ?_) fun η p => p.1
    rw [isConst_ev wf hb c]; simp
  refine Builds.ite (fun c => ?_) fun c => ?_
  · simp only [Bool.and_eq_true] at c
    refine mkConst_builds' wf fun η => ?_
    rw [isK_ev wf ha c.1, isK_ev wf hb c.2]; rfl
  refine Builds.ite (fun c => ?_) fun c => ?_
  · refine mkBin_builds wf ha hb rfl ?_ (by simp)
    exact ⟨(cascade_rank _).2, Or.inr ⟨isK_ty c, (cascade_rank _).1⟩⟩
  · refine mkBin_builds wf ha hb rfl ?_ (by simp)
    exact ⟨by simp [Ty.rank], Or.inl rfl⟩

theorem add_builds (wf : WF h) (ha : a < h.next) (hb : b < h.next) :
    Builds (add a b) h (fun η => ev h η a + ev h η b) (SmB h .add a b) := by
  unfold add
  apply Builds.get
  refine Builds.ite (fun c => ?_) fun c => ?_
  · refine Builds.pure wf hb (fun η => ?_) fun η p => p.2.1
    rw [isConst_ev wf ha c]; simp
  refine Builds.ite (fun c => ?_) fun c => ?_
  · refine Builds.pure wf ha (fun η => ?_) fun η p => p.1
    rw [isConst_ev wf hb c]; simp
  refine Builds.ite (fun c => ?_) fun c => ?_
  · simp only [Bool.and_eq_true] at c
    refine mkConst_builds' wf fun η => ?_
    rw [isK_ev wf ha c.1, isK_ev wf hb c.2]; rfl
  · refine mkBin_builds wf ha hb rfl ?_ (by simp)
    have h1 := max_rank (h.ty a) (h.ty b)
    have h2 := cascade_rank (Ty.max (h.ty a) (h.ty b))
    exact ⟨h2.2, h1.1.trans h2.1, h1.2.trans h2.1⟩

theorem neg_builds (wf : WF h) (ha : a < h.next) :
    Builds (neg a) h (fun η => -ev h η a) (SmU h .neg a) := by
  unfold neg
  apply Builds.get
  refine Builds.ite (fun c => ?_) fun c => ?_
  · refine Builds.pure wf ha (fun η => ?_) fun η p => p.1
    rw [isConst_ev wf ha c]; simp
  refine Builds.ite (fun c => ?_) fun c => ?_
  · refine mkConst_builds' wf fun η => ?_
    rw [isK_ev wf ha c]; rfl
  · refine mkUn_builds wf ha rfl ?_
    exact ⟨(cascade_rank _).2, (cascade_rank _).1⟩

theorem sub_builds (wf : WF h) (ha : a < h.next) (hb : b < h.next) :
    Builds (sub a b) h (fun η => ev h η a - ev h η b) (SmB h .sub a b) := by
  unfold sub
  apply Builds.get
  refine Builds.ite (fun c => ?_) fun c => ?_
  · refine Builds.ite (fun c' => ?_) fun c' => ?_
    · refine Builds.pure wf hb (fun η => ?_) fun η p => p.2.1
      rw [isConst_ev wf ha c, isConst_ev wf hb c']; simp
    · refine (neg_builds wf hb).congr (fun η => ?_) fun η p => ⟨p.2.1, trivial⟩
      rw [isConst_ev wf ha c]; simp
  refine Builds.ite (fun c => ?_) fun c => ?_
  · refine Builds.pure wf ha (fun η => ?_) fun η p => p.1
    rw [isConst_ev wf hb c]; simp
  refine Builds.ite (fun c => ?_) fun c => ?_
  · simp only [Bool.and_eq_true] at c
    refine mkConst_builds' wf fun η => ?_
    rw [isK_ev wf ha c.1, isK_ev wf hb c.2]; rfl
  · refine mkBin_builds wf ha hb rfl ?_ (by simp)
    have h1 := max_rank (h.ty a) (h.ty b)
    have h2 := cascade_rank (Ty.max (h.ty a) (h.ty b))
    exact ⟨h2.2, h1.1.trans h2.1, h1.2.trans h2.1⟩

theorem unZero_builds (wf : WF h) (ha : a < h.next) {op : Op} {f : ℝ → ℝ} (h0 : f 0 = 0)
    (har : op.arity = 1) (hty : TyOK op (some a, none) h.ty .nonlinear)
    (hf : ∀ x y, opVal op x y = f x) :
    Builds (unZero op f a) h (fun η => f (ev h η a)) (SmU h op a) := by
  unfold unZero
  apply Builds.get
  refine Builds.ite (fun c => ?_) fun c => ?_
  · refine Builds.pure wf ha (fun η => ?_) fun η p => p.1
    rw [isConst_ev wf ha c]; simp [h0]
  refine Builds.ite (fun c => ?_) fun c => ?_
  · refine mkConst_builds' wf fun η => ?_
    rw [isK_ev wf ha c]
  · exact (mkUn_builds wf ha har hty).congr (fun η => hf _ _) fun _ p => p

theorem unAt0_builds (wf : WF h) (ha : a < h.next) {op : Op} {f : ℝ → ℝ} {c0 : ℝ} (h0 : f 0 = c0)
    (har : op.arity = 1) (hty : TyOK op (some a, none) h.ty .nonlinear)
    (hf : ∀ x y, opVal op x y = f x) :
    Builds (unAt0 op f c0 a) h (fun η => f (ev h η a)) (SmU h op a) := by
  unfold unAt0
  apply Builds.get
  refine Builds.ite (fun c => ?_) fun c => ?_
  · refine mkConst_builds' wf fun η => ?_
    rw [isConst_ev wf ha c]; simp [h0]
  refine Builds.ite (fun c => ?_) fun c => ?_
  · refine mkConst_builds' wf fun η => ?_
    rw [isK_ev wf ha c]
  · exact (mkUn_builds wf ha har hty).congr (fun η => hf _ _) fun _ p => p

theorem abs_builds (wf : WF h) (ha : a < h.next) : Builds (abs a) h (fun η => |ev h η a|) (SmU h .abs a) :=
  unZero_builds wf ha (by simp) rfl rfl (fun _ _ => rfl)
theorem acos_builds (wf : WF h) (ha : a < h.next) :
    Builds (acos a) h (fun η => Real.arccos (ev h η a)) (SmU h .acos a) :=
  unAt0_builds wf ha (by simp) rfl rfl (fun _ _ => rfl)
theorem asin_builds (wf : WF h) (ha : a < h.next) :
    Builds (asin a) h (fun η => Real.arcsin (ev h η a)) (SmU h .asin a) :=
  unZero_builds wf ha (by simp) rfl rfl (fun _ _ => rfl)
theorem atan_builds (wf : WF h) (ha : a < h.next) :
    Builds (atan a) h (fun η => Real.arctan (ev h η a)) (SmU h .atan a) :=
  unZero_builds wf ha (by simp) rfl rfl (fun _ _ => rfl)
theorem cos_builds (wf : WF h) (ha : a < h.next) :
    Builds (cos a) h (fun η => Real.cos (ev h η a)) (SmU h .cos a) :=
  unAt0_builds wf ha (by simp) rfl rfl (fun _ _ => rfl)
theorem cosh_builds (wf : WF h) (ha : a < h.next) :
    Builds (cosh a) h (fun η => Real.cosh (ev h η a)) (SmU h .cosh a) :=
  unAt0_builds wf ha (by simp) rfl rfl (fun _ _ => rfl)
theorem erf_builds (wf : WF h) (ha : a < h.next) :
    Builds (erf a) h (fun η => rerf (ev h η a)) (SmU h .erf a) :=
  unZero_builds wf ha (by simp) rfl rfl (fun _ _ => rfl)
theorem exp_builds (wf : WF h) (ha : a < h.next) :
    Builds (exp a) h (fun η => Real.exp (ev h η a)) (SmU h .exp a) :=
  unAt0_builds wf ha (by simp) rfl rfl (fun _ _ => rfl)
theorem log_builds (wf : WF h) (ha : a < h.next) :
    Builds (log a) h (fun η => Real.log (ev h η a)) (SmU h .log a) :=
  unZero_builds wf ha (by simp) rfl rfl (fun _ _ => rfl)
theorem log10_builds (wf : WF h) (ha : a < h.next) :
    Builds (log10 a) h (fun η => Real.logb 10 (ev h η a)) (SmU h .log10 a) :=
  unZero_builds wf ha (by simp) rfl rfl (fun _ _ => rfl)
theorem sin_builds (wf : WF h) (ha : a < h.next) :
    Builds (sin a) h (fun η => Real.sin (ev h η a)) (SmU h .sin a) :=
  unZero_builds wf ha (by simp) rfl rfl (fun _ _ => rfl)
theorem sinh_builds (wf : WF h) (ha : a < h.next) :
    Builds (sinh a) h (fun η => Real.sinh (ev h η a)) (SmU h .sinh a) :=
  unZero_builds wf ha (by simp) rfl rfl (fun _ _ => rfl)
theorem tan_builds (wf : WF h) (ha : a < h.next) :
    Builds (tan a) h (fun η => Real.tan (ev h η a)) (SmU h .tan a) :=
  unZero_builds wf ha (by simp) rfl rfl (fun _ _ => rfl)
theorem tanh_builds (wf : WF h) (ha : a < h.next) :
    Builds (tanh a) h (fun η => Real.tanh (ev h η a)) (SmU h .tanh a) :=
  unZero_builds wf ha (by simp) rfl rfl (fun _ _ => rfl)

theorem atan2_builds (wf : WF h) (ha : a < h.next) (hb : b < h.next) :
    Builds (atan2 a b) h (fun η => ratan2 (ev h η a) (ev h η b)) (SmB h .atan2 a b) := by
  unfold atan2
  apply Builds.get
  refine Builds.ite (fun c => ?_) fun c => ?_
  · simp only [Bool.and_eq_true] at c
    refine mkConst_builds' wf fun η => ?_
    rw [isK_ev wf ha c.1, isK_ev wf hb c.2]; rfl
  · exact mkBin_builds wf ha hb rfl rfl (by simp)

theorem max_builds (wf : WF h) (ha : a < h.next) (hb : b < h.next) :
    Builds (max a b) h (fun η => Max.max (ev h η a) (ev h η b)) (SmB h .max a b) := by
  unfold max
  apply Builds.get
  refine Builds.ite (fun c => ?_) fun c => ?_
  · simp only [Bool.and_eq_true] at c
    refine mkConst_builds' wf fun η => ?_
    rw [isK_ev wf ha c.1, isK_ev wf hb c.2]; rfl
  · exact mkBin_builds wf ha hb rfl rfl (by simp)

theorem min_builds (wf : WF h) (ha : a < h.next) (hb : b < h.next) :
    Builds (min a b) h (fun η => Min.min (ev h η a) (ev h η b)) (SmB h .min a b) := by
  unfold min
  apply Builds.get
  refine Builds.ite (fun c => ?_) fun c => ?_
  · simp only [Bool.and_eq_true] at c
    refine mkConst_builds' wf fun η => ?_
    rw [isK_ev wf ha c.1, isK_ev wf hb c.2]; rfl
  · exact mkBin_builds wf ha hb rfl rfl (by simp)

theorem cbrt_builds (wf : WF h) (ha : a < h.next) :
    Builds (cbrt a) h (fun η => rcbrt (ev h η a)) (SmU h .cbrt a) := by
  unfold cbrt
  apply Builds.get
  refine Builds.ite (fun c => ?_) fun c => ?_
  · refine Builds.ite (fun c' => ?_) fun c' => ?_
    · refine Builds.pure wf ha (fun η => ?_) fun η p => p.1
      simp only [r_eq, r_zero, decide_eq_true_eq] at c'
      rw [isK_ev wf ha c, c']; simp
    refine Builds.ite (fun c' => ?_) fun c' => ?_
    · refine Builds.pure wf ha (fun η => ?_) fun η p => p.1
      simp only [r_eq, r_negOne, r_one, Bool.or_eq_true, decide_eq_true_eq] at c'
      rw [isK_ev wf ha c]
      rcases c' with c' | c' <;> rw [c'] <;> simp
    · refine mkConst_builds' wf fun η => ?_
      rw [isK_ev wf ha c]; rfl
  · exact mkUn_builds wf ha rfl rfl

theorem sqrt_builds (wf : WF h) (ha : a < h.next) :
    Builds (sqrt a) h (fun η => √(ev h η a)) (SmU h .sqrt a) := by
  unfold sqrt
  apply Builds.get
  refine Builds.ite (fun c => ?_) fun c => ?_
  · refine Builds.ite (fun c' => ?_) fun c' => ?_
    · refine Builds.pure wf ha (fun η => ?_) fun η p => p.1
      simp only [r_eq, r_zero, decide_eq_true_eq] at c'
      rw [isK_ev wf ha c, c']; simp
    refine Builds.ite (fun c' => ?_) fun c' => ?_
    · refine Builds.pure wf ha (fun η => ?_) fun η p => p.1
      simp only [r_eq, r_one, decide_eq_true_eq] at c'
      rw [isK_ev wf ha c, c']; simp
    · refine mkConst_builds' wf fun η => ?_
      rw [isK_ev wf ha c]; rfl
  · exact mkUn_builds wf ha rfl rfl

theorem hypot_builds (wf : WF h) (ha : a < h.next) (hb : b < h.next) :
    Builds (hypot a b) h (fun η => √(ev h η a ^ 2 + ev h η b ^ 2)) (SmB h .hypot a b) := by
  unfold hypot
  apply Builds.get
  refine Builds.ite (fun c => ?_) fun c => ?_
  · refine (abs_builds wf hb).congr (fun η => ?_) fun η p => ⟨p.2.1, ?_⟩
    · rw [isConst_ev wf ha c]; simp [Real.sqrt_sq_eq_abs]
    · have := p.2.2
      rw [isConst_ev wf ha c] at this
      simpa [SmoothOp] using this
  refine Builds.ite (fun c => ?_) fun c => ?_
  · refine (abs_builds wf ha).congr (fun η => ?_) fun η p => ⟨p.1, ?_⟩
    · rw [isConst_ev wf hb c]; simp [Real.sqrt_sq_eq_abs]
    · have := p.2.2
      rw [isConst_ev wf hb c] at this
      simpa [SmoothOp] using this
  refine Builds.ite (fun c => ?_) fun c => ?_
  · simp only [Bool.and_eq_true] at c
    refine mkConst_builds' wf fun η => ?_
    rw [isK_ev wf ha c.1, isK_ev wf hb c.2]; rfl
  · exact mkBin_builds wf ha hb rfl rfl (by simp)

theorem isNonneg_builds (wf : WF h) (ha : a < h.next) :
    Builds (isNonneg a) h (fun η => if 0 ≤ ev h η a then 1 else 0) (SmU h .isNonneg a) := by
  unfold isNonneg
  apply Builds.get
  refine Builds.ite (fun c => ?_) fun c => ?_
  · refine mkConst_builds' wf fun η => ?_
    rw [isK_ev wf ha c]; simp
  · refine (mkUn_builds (op := .isNonneg) (ty := .nonlinear) wf ha rfl rfl).congr (fun η => ?_) fun _ p => p
    simp [opVal]

theorem isPos_builds (wf : WF h) (ha : a < h.next) :
    Builds (isPos a) h (fun η => if 0 < ev h η a then 1 else 0) (SmU h .isPos a) := by
  unfold isPos
  apply Builds.get
  refine Builds.ite (fun c => ?_) fun c => ?_
  · refine mkConst_builds' wf fun η => ?_
    rw [isK_ev wf ha c]; simp
  · refine (mkUn_builds (op := .isPos) (ty := .nonlinear) wf ha rfl rfl).congr (fun η => ?_) fun _ p => p
    simp [opVal]

/-- The sign of a real number as a real number. -/
noncomputable def rsign (x : ℝ) : ℝ := if x < 0 then -1 else if x = 0 then 0 else 1

theorem sign_builds (wf : WF h) (ha : a < h.next) :
    Builds (sign a) h (fun η => rsign (ev h η a)) (SmU h .sign a) := by
  unfold sign
  apply Builds.get
  refine Builds.ite (fun c => ?_) fun c => ?_
  · refine Builds.ite (fun c' => ?_) fun c' => ?_
    · refine mkConst_builds' wf fun η => ?_
      simp only [r_lt, r_zero, decide_eq_true_eq] at c'
      rw [isK_ev wf ha c]; simp [rsign, c']
    refine Builds.ite (fun c'' => ?_) fun c'' => ?_
    · refine Builds.pure wf ha (fun η => ?_) fun η p => p.1
      simp only [r_eq, r_zero, decide_eq_true_eq] at c''
      rw [isK_ev wf ha c, c'']; simp [rsign]
    · refine mkConst_builds' wf fun η => ?_
      simp only [r_lt, r_eq, r_zero, decide_eq_true_eq] at c' c''
      rw [isK_ev wf ha c]; simp [rsign, c', c'']
  · refine (mkUn_builds (op := .sign) (ty := .nonlinear) wf ha rfl rfl).congr (fun η => ?_) fun _ p => p
    simp [opVal, rsign]

/-- Smoothness of `pow` before pruning. -/
def SmPow (h : Heap ℝ) (a b : ℕ) (η : ℕ → ℝ) : Prop :=
  Sm h η a ∧ Sm h η b ∧ (0 < ev h η a ∨ (h.op b = .constant ∧
    ∃ k : ℤ, ev h η b = k ∧ (ev h η a ≠ 0 ∨ 0 ≤ k)))

theorem SmPow.toB (wf : WF h) (hb : b < h.next) {η : ℕ → ℝ} (p : SmPow h a b η)
    (c0 : ¬ isConst h b zero = true) (c1 : ¬ isConst h b one = true) : SmB h .pow a b η := by
  refine ⟨p.1, p.2.1, ?_⟩
  rcases p.2.2 with h1 | ⟨hc, k, hk, hk'⟩
  · exact Or.inl h1
  · refine Or.inr ⟨hc, k, hk, ?_⟩
    rcases hk' with hk' | hk'
    · exact Or.inl hk'
    · right
      have ht := (ty_constant_iff wf hb).mpr hc
      rw [ev_const wf hb ht] at hk
      have n0 : k ≠ 0 := by
        rintro rfl
        apply c0
        simp [isConst, ht, hk]
      have n1 : k ≠ 1 := by
        rintro rfl
        apply c1
        simp [isConst, ht, hk]
      omega

/-- `pow` with the code's convention: a base that is the constant zero gives zero. -/
theorem pow_builds (wf : WF h) (ha : a < h.next) (hb : b < h.next) :
    Builds (pow a b) h
      (fun η => if isConst h a zero = true then 0 else ev h η a ^ ev h η b) (SmPow h a b) := by
  unfold pow
  apply Builds.get
  refine Builds.ite (fun c => ?_) fun c0 => ?_
  · refine Builds.pure wf ha (fun η => ?_) fun η p => p.1
    rw [if_pos c, isConst_ev wf ha c]; simp
  refine Builds.ite (fun c => ?_) fun c => ?_
  · refine Builds.pure wf ha (fun η => ?_) fun η p => p.1
    rw [if_neg c0, isConst_ev wf ha c]; simp
  refine Builds.ite (fun c => ?_) fun cp0 => ?_
  · refine mkConst_builds' wf fun η => ?_
    rw [if_neg c0, isConst_ev wf hb c]; simp
  refine Builds.ite (fun c => ?_) fun cp1 => ?_
  · refine Builds.pure wf ha (fun η => ?_) fun η p => p.1
    rw [if_neg c0, isConst_ev wf hb c]; simp
  refine Builds.ite (fun c => ?_) fun c => ?_
  · simp only [Bool.and_eq_true] at c
    refine mkConst_builds' wf fun η => ?_
    rw [if_neg c0, isK_ev wf ha c.1, isK_ev wf hb c.2]; rfl
  refine Builds.ite (fun c => ?_) fun c => ?_
  · have e : ∀ η, opVal Op.mul (ev h η a) (ev h η a) =
        if isConst h a zero = true then 0 else ev h η a ^ ev h η b := by
      intro η
      rw [if_neg c0, isConst_ev wf hb c]
      simp [opVal, pow_two]
    refine Builds.ite (fun c' => ?_) fun c' => ?_
    · refine (mkBin_builds wf ha ha rfl ?_ (by simp)).congr e fun η p => ⟨p.1, p.1, trivial⟩
      exact ⟨by simp [Ty.rank], Or.inr (Or.inr (Or.inr ⟨c', c', rfl⟩))⟩
    · refine (mkBin_builds wf ha ha rfl ?_ (by simp)).congr e fun η p => ⟨p.1, p.1, trivial⟩
      exact ⟨by simp [Ty.rank], Or.inl rfl⟩
  · refine (mkBin_builds (op := .pow) (ty := .nonlinear) wf ha hb rfl rfl (fun _ => by simpa using c0)).congr
      (fun η => ?_) fun _ p => p.toB wf hb cp0 cp1
    rw [if_neg c0]; rfl

theorem pow_builds' (wf : WF h) (ha : a < h.next) (hb : b < h.next)
    (h0 : isConst h a zero = false) : Builds (pow a b) h (fun η => ev h η a ^ ev h η b) (SmPow h a b) :=
  (pow_builds wf ha hb).congr (fun η => by rw [if_neg (by rw [h0]; simp)]) fun _ p => p

end

end Slp
