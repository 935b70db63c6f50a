import Verif.Autodiff.ApiLemmas
import Verif.Autodiff.DirectSpec

/-! Every smart constructor yields a node that computes what the operation computes on numbers. -/

set_option linter.unusedSectionVars false

namespace Slp

open ScalarOps

namespace Direct

variable {S : Type} [ScalarOps S] {P : S → Prop}

/-- `m` makes a node that computes `f`, where `G` holds. -/
structure Calcs (m : HM S ℕ) (h : Heap S) (G : (ℕ → S) → Prop) (f : (ℕ → S) → S) : Prop where
  wf : WF (m h).2
  grow : Grow h (m h).2
  lt : (m h).1 < (m h).2.next
  val : ∀ η, G η → ev (m h).2 η (m h).1 = f η

section
variable {h : Heap S} {a b : ℕ} {m : HM S ℕ} {G G' : (ℕ → S) → Prop} {f f' : (ℕ → S) → S}

theorem Calcs.congr (c : Calcs m h G f) (hG : ∀ η, G' η → G η) (hf : ∀ η, G' η → f η = f' η) : Calcs m h G' f' :=
  ⟨c.wf, c.grow, c.lt, fun η g => (c.val η (hG η g)).trans (hf η g)⟩

theorem Calcs.pure (wf : WF h) (ha : a < h.next) (hf : ∀ η, G η → ev h η a = f η) :
    Calcs (Pure.pure a : HM S ℕ) h G f :=
  ⟨wf, Grow.refl h, ha, hf⟩

theorem Calcs.get {k : Heap S → HM S ℕ} (c : Calcs (k h) h G f) :
    Calcs ((MonadState.get : HM S (Heap S)) >>= k) h G f :=
  ⟨c.wf, c.grow, c.lt, c.val⟩

theorem Calcs.ite {p : Prop} [Decidable p] {x y : HM S ℕ} (ha : p → Calcs x h G f) (hb : ¬p → Calcs y h G f) :
    Calcs (if p then x else y) h G f := by
  split
  · exact ha ‹_›
  · exact hb ‹_›

theorem mkConst_calcs (wf : WF h) (v : S) (hf : ∀ η, G η → v = f η) : Calcs (mkConst v) h G f := by
  have w : WF (mkConst v h).2 :=
    alloc_wf wf (by simp) (by simp) (by simp [ArityOK, Op.arity]) (by simp [TyOK]) (by simp)
  have ha : (mkConst v h).2.args h.next = (none, none) := by simp [mkConst, alloc]
  have ho : (mkConst v h).2.op h.next = .constant := by simp [mkConst, alloc]
  refine ⟨w, alloc_grow _ _ _ _ _, by simp [mkConst, alloc], fun η g => ?_⟩
  show ev (mkConst v h).2 η h.next = _
  rw [ev_leaf (by rw [ha]), if_pos ho, ← hf η g]
  simp [mkConst, alloc]

theorem mkVar_calcs (wf : WF h) : Calcs (mkVar : HM S ℕ) h (fun _ => True) (fun η => η h.next) := by
  have w : WF (mkVar h).2 :=
    alloc_wf wf (by simp) (by simp) (by simp [ArityOK, Op.arity]) (by simp [TyOK]) (by simp)
  have ha : (mkVar h).2.args h.next = (none, none) := by simp [mkVar, alloc]
  have ho : ¬ (mkVar h).2.op h.next = .constant := by simp [mkVar, alloc]
  refine ⟨w, alloc_grow _ _ _ _ _, by simp [mkVar, alloc], fun η _ => ?_⟩
  show ev (mkVar h).2 η h.next = _
  rw [ev_leaf (by rw [ha]), if_neg ho]

theorem mkUn_calcs (wf : WF h) {op : Op} (har : op.arity = 1) {ty : Ty} (ha : a < h.next)
    (hty : TyOK op (some a, none) h.ty ty) (hf : ∀ η, G η → opVal op (ev h η a) zero = f η) :
    Calcs (mkUn op ty a) h G f := by
  have w : WF (mkUn op ty a h).2 := by
    refine alloc_wf wf (by simpa using ha) (by simp) ?_ hty ?_
    · unfold ArityOK; rw [har]; exact ⟨a, rfl⟩
    · rintro rfl; simp [Op.arity] at har
  have hargs : (mkUn op ty a h).2.args h.next = (some a, none) := by simp [mkUn, alloc]
  have g : Grow h (mkUn op ty a h).2 := alloc_grow _ _ _ _ _
  have hop : (mkUn op ty a h).2.op h.next = op := by simp [mkUn, alloc]
  refine ⟨w, g, by simp [mkUn, alloc], fun η gg => ?_⟩
  show ev (mkUn op ty a h).2 η h.next = _
  rw [ev_un w.acyc hargs, g.ev η ha, hop, hf η gg]

theorem mkBin_calcs (wf : WF h) {op : Op} (har : op.arity = 2) {ty : Ty} (ha : a < h.next) (hb : b < h.next)
    (hty : TyOK op (some a, some b) h.ty ty) (hp : op = .pow → isConst h a zero = false)
    (hf : ∀ η, G η → opVal op (ev h η a) (ev h η b) = f η) : Calcs (mkBin op ty a b) h G f := by
  have w : WF (mkBin op ty a b h).2 := by
    refine alloc_wf wf (by simpa using ha) (by simpa using hb) ?_ hty ?_
    · unfold ArityOK; rw [har]; exact ⟨a, b, rfl⟩
    · intro e c hc; simp at hc; subst hc; exact hp e
  have hargs : (mkBin op ty a b h).2.args h.next = (some a, some b) := by simp [mkBin, alloc]
  have g : Grow h (mkBin op ty a b h).2 := alloc_grow _ _ _ _ _
  have hop : (mkBin op ty a b h).2.op h.next = op := by simp [mkBin, alloc]
  refine ⟨w, g, by simp [mkBin, alloc], fun η gg => ?_⟩
  show ev (mkBin op ty a b h).2 η h.next = _
  rw [ev_bin w.acyc hargs, g.ev η ha, g.ev η hb, hop, hf η gg]

theorem isK_ev' (wf : WF h) (ha : a < h.next) (hk : isK h a = true) (η : ℕ → S) : ev h η a = h.val a :=
  ev_const wf ha (by simpa [isK] using hk) η

theorem isConst_split {c : S} (hk : isConst h a c = true) : h.ty a = .constant ∧ eq (h.val a) c = true := by
  simpa [isConst] using hk

theorem isConst_zero (L : ScalarLaws S P) (wf : WF h) (ha : a < h.next) (hk : isConst h a zero = true) (η : ℕ → S) :
    ev h η a = zero := by
  obtain ⟨h1, h2⟩ := isConst_split hk
  rw [ev_const wf ha h1, L.eq_zero _ h2]

theorem isConst_one (L : ScalarLaws S P) (wf : WF h) (ha : a < h.next) (hk : isConst h a one = true) (η : ℕ → S) :
    ev h η a = one := by
  obtain ⟨h1, h2⟩ := isConst_split hk
  rw [ev_const wf ha h1, L.eq_one _ h2]

theorem isConst_two (L : ScalarLaws S P) (wf : WF h) (ha : a < h.next) (hk : isConst h a two = true) (η : ℕ → S) :
    ev h η a = two := by
  obtain ⟨h1, h2⟩ := isConst_split hk
  rw [ev_const wf ha h1, L.eq_two _ h2]

/-! ### Unary operations -/

/-- `m` makes what the unary operation `f` makes of node `a`. -/
def CalcU (P : S → Prop) (m : HM S ℕ) (h : Heap S) (f : UnOp) (a : ℕ) : Prop :=
  Calcs m h (fun η => P (f.direct (ev h η a))) (fun η => f.direct (ev h η a))

theorem unZero_calcs (L : ScalarLaws S P) (wf : WF h) (ha : a < h.next) {u : UnOp} {op : Op} {fn : S → S}
    (har : op.arity = 1) (hty : ∀ ty', TyOK op (some a, none) ty' .nonlinear)
    (h0 : P (u.direct (zero : S)) → u.direct (zero : S) = zero) (h1 : ∀ x, fn x = u.direct x)
    (h2 : ∀ x : S, opVal op x zero = u.direct x) : CalcU P (unZero op fn a) h u a := by
  unfold unZero
  refine Calcs.get (Calcs.ite (fun c => Calcs.pure wf ha fun η g => ?_) fun _ => Calcs.ite (fun c => ?_) fun _ => ?_)
  · have e := isConst_zero L wf ha c η
    rw [e] at g ⊢
    exact (h0 g).symm
  · exact mkConst_calcs wf _ fun η _ => by rw [isK_ev' wf ha c, h1]
  · exact mkUn_calcs wf har ha (hty _) fun η _ => h2 _

theorem unAt0_calcs (L : ScalarLaws S P) (wf : WF h) (ha : a < h.next) {u : UnOp} {op : Op} {fn : S → S} {c0 : S}
    (har : op.arity = 1) (hty : ∀ ty', TyOK op (some a, none) ty' .nonlinear) (h0 : u.direct (zero : S) = c0)
    (h1 : ∀ x, fn x = u.direct x) (h2 : ∀ x : S, opVal op x zero = u.direct x) :
    CalcU P (unAt0 op fn c0 a) h u a := by
  unfold unAt0
  refine Calcs.get (Calcs.ite (fun c => ?_) fun _ => Calcs.ite (fun c => ?_) fun _ => ?_)
  · exact mkConst_calcs wf _ fun η _ => by rw [isConst_zero L wf ha c, h0]
  · exact mkConst_calcs wf _ fun η _ => by rw [isK_ev' wf ha c, h1]
  · exact mkUn_calcs wf har ha (hty _) fun η _ => h2 _

theorem neg_calcs (L : ScalarLaws S P) (wf : WF h) (ha : a < h.next) :
    Calcs (neg a) h (fun _ => True) (fun η => ScalarOps.neg (ev h η a)) := by
  unfold neg
  refine Calcs.get (Calcs.ite (fun c => Calcs.pure wf ha fun η g => ?_) fun _ => Calcs.ite (fun c => ?_) fun _ => ?_)
  · rw [isConst_zero L wf ha c, L.neg_zero]
  · exact mkConst_calcs wf _ fun η _ => by rw [isK_ev' wf ha c]
  · exact mkUn_calcs wf rfl ha ⟨(cascade_rank _).2, (cascade_rank _).1⟩ fun η _ => rfl

theorem abs_calcs (L : ScalarLaws S P) (wf : WF h) (ha : a < h.next) :
    Calcs (Slp.abs a) h (fun _ => True) (fun η => ScalarOps.abs (ev h η a)) := by
  unfold Slp.abs unZero
  refine Calcs.get (Calcs.ite (fun c => Calcs.pure wf ha fun η g => ?_) fun _ => Calcs.ite (fun c => ?_) fun _ => ?_)
  · rw [isConst_zero L wf ha c, L.abs_zero]
  · exact mkConst_calcs wf _ fun η _ => by rw [isK_ev' wf ha c]
  · exact mkUn_calcs wf rfl ha rfl fun η _ => rfl

theorem un_calcs (L : ScalarLaws S P) (wf : WF h) (ha : a < h.next) (u : UnOp) : CalcU P (u.build a) h u a := by
  cases u
  case pos => exact Calcs.pure wf ha fun _ _ => rfl
  case neg => exact (neg_calcs L wf ha).congr (fun _ _ => trivial) fun _ _ => rfl
  case abs => exact (abs_calcs L wf ha).congr (fun _ _ => trivial) fun _ _ => rfl
  case acos => exact unAt0_calcs (u := .acos) L wf ha rfl (fun _ => rfl) L.acos_zero (fun _ => rfl) fun _ => rfl
  case asin => exact unZero_calcs (u := .asin) L wf ha rfl (fun _ => rfl) (fun _ => L.asin_zero) (fun _ => rfl) fun _ => rfl
  case atan => exact unZero_calcs (u := .atan) L wf ha rfl (fun _ => rfl) (fun _ => L.atan_zero) (fun _ => rfl) fun _ => rfl
  case cbrt =>
    show CalcU P (cbrt a) h .cbrt a
    unfold cbrt
    refine Calcs.get (Calcs.ite (fun c => ?_) fun _ => mkUn_calcs wf rfl ha rfl fun η _ => rfl)
    refine Calcs.ite (fun c1 => ?_) fun _ => Calcs.ite (fun c1 => ?_) fun _ => ?_
    · exact Calcs.pure wf ha fun η g => by
        rw [isK_ev' wf ha c, L.eq_zero _ c1]; exact L.cbrt_zero.symm
    · refine Calcs.pure wf ha fun η g => ?_
      rw [isK_ev' wf ha c]
      rcases Bool.or_eq_true _ _ ▸ c1 with c1 | c1
      · rw [L.eq_negOne _ c1]; exact L.cbrt_negOne.symm
      · rw [L.eq_one _ c1]; exact L.cbrt_one.symm
    · exact mkConst_calcs wf _ fun η _ => by rw [isK_ev' wf ha c]; rfl
  case cos => exact unAt0_calcs (u := .cos) L wf ha rfl (fun _ => rfl) L.cos_zero (fun _ => rfl) fun _ => rfl
  case cosh => exact unAt0_calcs (u := .cosh) L wf ha rfl (fun _ => rfl) L.cosh_zero (fun _ => rfl) fun _ => rfl
  case erf => exact unZero_calcs (u := .erf) L wf ha rfl (fun _ => rfl) (fun _ => L.erf_zero) (fun _ => rfl) fun _ => rfl
  case exp => exact unAt0_calcs (u := .exp) L wf ha rfl (fun _ => rfl) L.exp_zero (fun _ => rfl) fun _ => rfl
  case log => exact unZero_calcs (u := .log) L wf ha rfl (fun _ => rfl) L.log_zero (fun _ => rfl) fun _ => rfl
  case log10 => exact unZero_calcs (u := .log10) L wf ha rfl (fun _ => rfl) L.log10_zero (fun _ => rfl) fun _ => rfl
  case sign =>
    show CalcU P (sign a) h .sign a
    unfold sign
    refine Calcs.get (Calcs.ite (fun c => ?_) fun _ => mkUn_calcs wf rfl ha rfl fun η _ => rfl)
    refine Calcs.ite (fun c1 => ?_) fun c1 => Calcs.ite (fun c2 => ?_) fun c2 => ?_
    · exact mkConst_calcs wf _ fun η _ => by
        rw [isK_ev' wf ha c]; simp [UnOp.direct, c1]
    · refine Calcs.pure wf ha fun η g => ?_
      rw [isK_ev' wf ha c]
      simp only [UnOp.direct, c1, c2, if_true]
      simpa using L.eq_zero _ c2
    · exact mkConst_calcs wf _ fun η _ => by
        rw [isK_ev' wf ha c]; simp [UnOp.direct, c1, c2]
  case sin => exact unZero_calcs (u := .sin) L wf ha rfl (fun _ => rfl) (fun _ => L.sin_zero) (fun _ => rfl) fun _ => rfl
  case sinh => exact unZero_calcs (u := .sinh) L wf ha rfl (fun _ => rfl) (fun _ => L.sinh_zero) (fun _ => rfl) fun _ => rfl
  case sqrt =>
    show CalcU P (sqrt a) h .sqrt a
    unfold sqrt
    refine Calcs.get (Calcs.ite (fun c => ?_) fun _ => mkUn_calcs wf rfl ha rfl fun η _ => rfl)
    refine Calcs.ite (fun c1 => ?_) fun _ => Calcs.ite (fun c1 => ?_) fun _ => ?_
    · exact Calcs.pure wf ha fun η g => by
        rw [isK_ev' wf ha c, L.eq_zero _ c1]; exact L.sqrt_zero.symm
    · exact Calcs.pure wf ha fun η g => by
        rw [isK_ev' wf ha c, L.eq_one _ c1]; exact L.sqrt_one.symm
    · exact mkConst_calcs wf _ fun η _ => by rw [isK_ev' wf ha c]; rfl
  case tan => exact unZero_calcs (u := .tan) L wf ha rfl (fun _ => rfl) (fun _ => L.tan_zero) (fun _ => rfl) fun _ => rfl
  case tanh => exact unZero_calcs (u := .tanh) L wf ha rfl (fun _ => rfl) (fun _ => L.tanh_zero) (fun _ => rfl) fun _ => rfl

/-! ### Binary operations -/

/-- `m` makes what the binary operation `f` makes of nodes `a` and `b`. -/
def CalcB (P : S → Prop) (m : HM S ℕ) (h : Heap S) (f : BinOp) (a b : ℕ) : Prop :=
  Calcs m h (fun η => P (ev h η a) ∧ P (ev h η b) ∧ P (f.direct (ev h η a) (ev h η b)) ∧
      (f = .pow → ev h η a = zero → ev h η b ≠ zero))
    (fun η => f.direct (ev h η a) (ev h η b))

theorem folded_calcs (wf : WF h) (ha : a < h.next) (hb : b < h.next) {g : BinOp} (c : (isK h a && isK h b) = true) :
    CalcB P (mkConst (g.direct (h.val a) (h.val b))) h g a b := by
  rw [Bool.and_eq_true] at c
  exact mkConst_calcs wf _ fun η _ => by rw [isK_ev' wf ha c.1, isK_ev' wf hb c.2]

theorem mul_calcs (L : ScalarLaws S P) (wf : WF h) (ha : a < h.next) (hb : b < h.next) :
    CalcB P (mul a b) h .mul a b := by
  unfold mul
  refine Calcs.get (Calcs.ite (fun c => Calcs.pure wf ha fun η g => ?_) fun _ => ?_)
  · have e := isConst_zero L wf ha c η
    rw [e]; exact (L.zero_mul _ g.2.1).symm
  refine Calcs.ite (fun c => Calcs.pure wf hb fun η g => ?_) fun _ => ?_
  · have e := isConst_zero L wf hb c η
    rw [e]; exact (L.mul_zero _ g.1).symm
  refine Calcs.ite (fun c => Calcs.pure wf hb fun η g => ?_) fun _ => ?_
  · have e := isConst_one L wf ha c η
    rw [e]; exact (L.one_mul _ g.2.1).symm
  refine Calcs.ite (fun c => Calcs.pure wf ha fun η g => ?_) fun _ => ?_
  · have e := isConst_one L wf hb c η
    rw [e]; exact (L.mul_one _ g.1).symm
  refine Calcs.ite (fun c => folded_calcs (g := .mul) wf ha hb c) fun _ => ?_
  have key : ∀ ty, TyOK .mul (some a, some b) h.ty ty → CalcB P (mkBin .mul ty a b) h .mul a b := fun ty hty =>
    mkBin_calcs wf rfl ha hb hty (by simp) fun _ _ => rfl
  have kt : ∀ {a}, isK h a = true → h.ty a = .constant := fun hk => by simpa [isK] using hk
  refine Calcs.ite (fun c => ?_) fun _ => ?_
  · exact key _ ⟨(cascade_rank _).2, Or.inr (Or.inl ⟨kt c, (cascade_rank _).1⟩)⟩
  refine Calcs.ite (fun c => ?_) fun _ => ?_
  · exact key _ ⟨(cascade_rank _).2, Or.inr (Or.inr (Or.inl ⟨kt c, (cascade_rank _).1⟩))⟩
  refine Calcs.ite (fun c => ?_) fun _ => ?_
  · simp only [Bool.and_eq_true, decide_eq_true_eq] at c
    exact key _ ⟨by simp [Ty.rank], Or.inr (Or.inr (Or.inr ⟨c.1, c.2, rfl⟩))⟩
  · exact key _ ⟨by simp [Ty.rank], Or.inl rfl⟩

theorem div_calcs (L : ScalarLaws S P) (wf : WF h) (ha : a < h.next) (hb : b < h.next) :
    CalcB P (div a b) h .div a b := by
  unfold div
  refine Calcs.get (Calcs.ite (fun c => Calcs.pure wf ha fun η g => ?_) fun _ => ?_)
  · have e := isConst_zero L wf ha c η
    rw [e] at g ⊢; exact (L.zero_div _ g.2.1 g.2.2.1).symm
  refine Calcs.ite (fun c => Calcs.pure wf ha fun η g => ?_) fun _ => ?_
  · have e := isConst_one L wf hb c η
    rw [e]; exact (L.div_one _ g.1).symm
  refine Calcs.ite (fun c => folded_calcs (g := .div) wf ha hb c) fun _ => ?_
  have kt : ∀ {a}, isK h a = true → h.ty a = .constant := fun hk => by simpa [isK] using hk
  refine Calcs.ite (fun c => ?_) fun _ => ?_
  · exact mkBin_calcs wf rfl ha hb ⟨(cascade_rank _).2, Or.inr ⟨kt c, (cascade_rank _).1⟩⟩ (by simp) fun _ _ => rfl
  · exact mkBin_calcs wf rfl ha hb ⟨by simp [Ty.rank], Or.inl rfl⟩ (by simp) fun _ _ => rfl

theorem sum_ty (op : Op) (ho : op = .add ∨ op = .sub) :
    TyOK op (some a, some b) h.ty (cascade (Ty.max (h.ty a) (h.ty b))) := by
  have h1 := max_rank (h.ty a) (h.ty b)
  have h2 := cascade_rank (Ty.max (h.ty a) (h.ty b))
  rcases ho with rfl | rfl <;> exact ⟨h2.2, h1.1.trans h2.1, h1.2.trans h2.1⟩

theorem add_calcs (L : ScalarLaws S P) (wf : WF h) (ha : a < h.next) (hb : b < h.next) :
    CalcB P (add a b) h .add a b := by
  unfold add
  refine Calcs.get (Calcs.ite (fun c => Calcs.pure wf hb fun η g => ?_) fun _ => ?_)
  · have e := isConst_zero L wf ha c η
    rw [e]; exact (L.zero_add _ g.2.1).symm
  refine Calcs.ite (fun c => Calcs.pure wf ha fun η g => ?_) fun _ => ?_
  · have e := isConst_zero L wf hb c η
    rw [e]; exact (L.add_zero _ g.1).symm
  refine Calcs.ite (fun c => folded_calcs (g := .add) wf ha hb c) fun _ => ?_
  exact mkBin_calcs wf rfl ha hb (sum_ty .add (Or.inl rfl)) (by simp) fun _ _ => rfl

theorem sub_calcs (L : ScalarLaws S P) (wf : WF h) (ha : a < h.next) (hb : b < h.next) :
    CalcB P (sub a b) h .sub a b := by
  unfold sub
  refine Calcs.get (Calcs.ite (fun c => ?_) fun _ => ?_)
  · have e := isConst_zero L wf ha c
    refine Calcs.ite (fun c' => Calcs.pure wf hb fun η g => ?_) fun _ => ?_
    · rw [e η]
      show _ = ScalarOps.sub zero (ev h η b)
      rw [L.zero_sub _ g.2.1, isConst_zero L wf hb c', L.neg_zero]
    · refine (neg_calcs L wf hb).congr (fun _ _ => trivial) fun η g => ?_
      rw [e η]; exact (L.zero_sub _ g.2.1).symm
  refine Calcs.ite (fun c => Calcs.pure wf ha fun η g => ?_) fun _ => ?_
  · have e := isConst_zero L wf hb c η
    rw [e]; exact (L.sub_zero _ g.1).symm
  refine Calcs.ite (fun c => folded_calcs (g := .sub) wf ha hb c) fun _ => ?_
  exact mkBin_calcs wf rfl ha hb (sum_ty .sub (Or.inr rfl)) (by simp) fun _ _ => rfl

theorem hypot_calcs (L : ScalarLaws S P) (wf : WF h) (ha : a < h.next) (hb : b < h.next) :
    CalcB P (hypot a b) h .hypot a b := by
  unfold hypot
  refine Calcs.get (Calcs.ite (fun c => ?_) fun _ => ?_)
  · refine (abs_calcs L wf hb).congr (fun _ _ => trivial) fun η g => ?_
    rw [isConst_zero L wf ha c η]; exact (L.hypot_zero_left _ g.2.1).symm
  refine Calcs.ite (fun c => ?_) fun _ => ?_
  · refine (abs_calcs L wf ha).congr (fun _ _ => trivial) fun η g => ?_
    rw [isConst_zero L wf hb c η]; exact (L.hypot_zero_right _ g.1).symm
  refine Calcs.ite (fun c => folded_calcs (g := .hypot) wf ha hb c) fun _ => ?_
  exact mkBin_calcs wf rfl ha hb rfl (by simp) fun _ _ => rfl

theorem pow_calcs (L : ScalarLaws S P) (wf : WF h) (ha : a < h.next) (hb : b < h.next) :
    CalcB P (pow a b) h .pow a b := by
  unfold pow
  refine Calcs.get (Calcs.ite (fun c => Calcs.pure wf ha fun η g => ?_) fun c0 => ?_)
  · have e := isConst_zero L wf ha c η
    rw [e] at g ⊢; exact (L.pow_zero_left _ g.2.1 g.2.2.1 (g.2.2.2 rfl rfl)).symm
  refine Calcs.ite (fun c => Calcs.pure wf ha fun η g => ?_) fun _ => ?_
  · have e := isConst_one L wf ha c η
    rw [e]; exact (L.pow_one_left _ g.2.1).symm
  refine Calcs.ite (fun c => ?_) fun _ => ?_
  · refine mkConst_calcs wf _ fun η g => ?_
    rw [isConst_zero L wf hb c η]; exact (L.pow_zero _ g.1).symm
  refine Calcs.ite (fun c => Calcs.pure wf ha fun η g => ?_) fun _ => ?_
  · have e := isConst_one L wf hb c η
    rw [e]; exact (L.pow_one _ g.1).symm
  refine Calcs.ite (fun c => folded_calcs (g := .pow) wf ha hb c) fun _ => ?_
  refine Calcs.ite (fun c => ?_) fun _ => ?_
  · have key : ∀ ty, TyOK .mul (some a, some a) h.ty ty → CalcB P (mkBin .mul ty a a) h .pow a b := by
      intro ty hty
      refine mkBin_calcs wf rfl ha ha hty (by simp) fun η g => ?_
      rw [isConst_two L wf hb c η]; exact (L.pow_two _ g.1).symm
    refine Calcs.ite (fun c' => ?_) fun _ => ?_
    · exact key _ ⟨by simp [Ty.rank], Or.inr (Or.inr (Or.inr ⟨c', c', rfl⟩))⟩
    · exact key _ ⟨by simp [Ty.rank], Or.inl rfl⟩
  · exact mkBin_calcs wf rfl ha hb rfl (fun _ => by simpa using c0) fun _ _ => rfl

theorem bin_calcs (L : ScalarLaws S P) (wf : WF h) (ha : a < h.next) (hb : b < h.next) (f : BinOp) :
    CalcB P (f.build a b) h f a b := by
  cases f
  case add => exact add_calcs L wf ha hb
  case sub => exact sub_calcs L wf ha hb
  case mul => exact mul_calcs L wf ha hb
  case div => exact div_calcs L wf ha hb
  case atan2 =>
    show CalcB P (atan2 a b) h .atan2 a b
    unfold atan2
    exact Calcs.get (Calcs.ite (fun c => folded_calcs (g := .atan2) wf ha hb c) fun _ =>
      mkBin_calcs wf rfl ha hb rfl (by simp) fun _ _ => rfl)
  case hypot => exact hypot_calcs L wf ha hb
  case max =>
    show CalcB P (Slp.max a b) h .max a b
    unfold Slp.max
    exact Calcs.get (Calcs.ite (fun c => folded_calcs (g := .max) wf ha hb c) fun _ =>
      mkBin_calcs wf rfl ha hb rfl (by simp) fun _ _ => rfl)
  case min =>
    show CalcB P (Slp.min a b) h .min a b
    unfold Slp.min
    exact Calcs.get (Calcs.ite (fun c => folded_calcs (g := .min) wf ha hb c) fun _ =>
      mkBin_calcs wf rfl ha hb rfl (by simp) fun _ _ => rfl)
  case pow => exact pow_calcs L wf ha hb

end

end Direct

end Slp
