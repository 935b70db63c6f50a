import Verif.Rounding.FloatBuildLemmas
import Mathlib.Analysis.Calculus.Deriv.Mul

/-! Expressions built in floating-point arithmetic, against the mathematical expressions they stand for. -/

namespace Slp

namespace Term

/-- Directional derivative of a polynomial. -/
noncomputable def dd : Term → (ℕ → ℝ) → (ℕ → ℝ) → ℝ
  | lit _, _, _ => 0
  | var k, _, δ => δ k
  | un .neg t, env, δ => -dd t env δ
  | un _ t, env, δ => dd t env δ
  | bin .add s t, env, δ => dd s env δ + dd t env δ
  | bin .sub s t, env, δ => dd s env δ - dd t env δ
  | bin _ s t, env, δ => dd s env δ * eval t env + eval s env * dd t env δ
  | pd _ _, _, _ => 0

theorem hasDerivAt_dd {t : Term} (hp : t.Poly) (env : ℕ → ℝ) (k : ℕ) :
    HasDerivAt (fun x => t.eval (Function.update env k x)) (t.dd env (fun j => if j = k then 1 else 0)) (env k) := by
  induction t with
  | lit c => exact hasDerivAt_const _ _
  | var j =>
    simp only [eval, dd]
    by_cases e : j = k
    · subst e; simp only [Function.update_self, if_true]; exact hasDerivAt_id (env j)
    · simpa [Function.update_of_ne e, e] using hasDerivAt_const (env k) (env j)
  | un f t ih =>
    rcases hp.1 with rfl | rfl
    · exact ih hp.2
    · exact (ih hp.2).neg
  | bin f s t ihs iht =>
    obtain ⟨hf, h1, h2⟩ := hp
    have a := ihs h1
    have b := iht h2
    rcases hf with rfl | rfl | rfl
    · exact a.add b
    · exact a.sub b
    · have := a.mul b
      simp only [Function.update_eq_self] at this
      exact this
  | pd k t ih => exact hp.elim

theorem pd_eq_dd {t : Term} (hp : t.Poly) (env : ℕ → ℝ) (k : ℕ) :
    (pd k t).eval env = t.dd env (fun j => if j = k then 1 else 0) :=
  (hasDerivAt_dd hp env k).deriv

theorem poly_majorant {t : Term} (hp : t.Poly) : t.majorant.Poly := by
  induction t with
  | lit c => trivial
  | var j => trivial
  | un f t ih => exact ih hp.2
  | bin f s t ihs iht =>
    obtain ⟨hf, h1, h2⟩ := hp
    rcases hf with rfl | rfl | rfl
    · exact ⟨Or.inl rfl, ihs h1, iht h2⟩
    · exact ⟨Or.inl rfl, ihs h1, iht h2⟩
    · exact ⟨Or.inr (Or.inr rfl), ihs h1, iht h2⟩
  | pd k t ih => exact hp.elim

theorem dd_congr {t : Term} {N : ℕ} (hp : t.Poly) (hv : t.Vars N) {env env' δ δ' : ℕ → ℝ}
    (he : ∀ k, k < N → env k = env' k) (hd : ∀ k, k < N → δ k = δ' k) : t.dd env δ = t.dd env' δ' := by
  induction t with
  | lit c => rfl
  | var j => exact hd j hv
  | un f t ih =>
    rcases hp.1 with rfl | rfl
    · exact ih hp.2 hv
    · simp only [dd]; rw [ih hp.2 hv]
  | bin f s t ihs iht =>
    obtain ⟨hf, h1, h2⟩ := hp
    have a := ihs h1 hv.1
    have b := iht h2 hv.2
    rcases hf with rfl | rfl | rfl
    · simp only [dd]; rw [a, b]
    · simp only [dd]; rw [a, b]
    · simp only [dd]; rw [a, b, eval_congr s hv.1 he, eval_congr t hv.2 he]
  | pd k t ih => exact hp.elim

theorem vars_majorant {t : Term} {N : ℕ} (hv : t.Vars N) : t.majorant.Vars N := by
  induction t with
  | lit c => trivial
  | var j => exact hv
  | un f t ih => exact ih hv
  | bin f s t ihs iht => cases f <;> exact ⟨ihs hv.1, iht hv.2⟩
  | pd k t ih => exact ⟨hv.1, ih hv.2⟩

end Term

namespace FloatMath

variable {A : FloatMath}

/-- `v` approximates `e`, whose absolute value is at most `M`, up to `k` roundings. -/
structure Acc (A : FloatMath) (k : ℕ) (v e M : ℝ) : Prop where
  err : |v - e| ≤ (A.up k - 1) * M
  le : |e| ≤ M

namespace Acc

variable {k l : ℕ} {v w e f M N : ℝ}

theorem nonneg (a : Acc A k v e M) : 0 ≤ M := (abs_nonneg _).trans a.le

theorem abs_le (a : Acc A k v e M) : |v| ≤ A.up k * M := by
  have := abs_add_le (v - e) e
  rw [sub_add_cancel] at this
  nlinarith [a.err, a.le]

theorem refl (h : |v| ≤ M) : Acc A 0 v v M := ⟨by simp, h⟩

theorem mono (a : Acc A k v e M) (h : k ≤ l) : Acc A l v e M :=
  ⟨a.err.trans (mul_le_mul_of_nonneg_right (by linarith [A.up_mono h]) a.nonneg), a.le⟩

theorem neg (a : Acc A k v e M) : Acc A k (-v) (-e) M :=
  ⟨by rw [show -v - -e = -(v - e) by ring, abs_neg]; exact a.err, by rw [abs_neg]; exact a.le⟩

theorem add (a : Acc A k v e M) (b : Acc A k w f N) : Acc A k (v + w) (e + f) (M + N) := by
  constructor
  · rw [show v + w - (e + f) = (v - e) + (w - f) by ring, mul_add]
    exact (abs_add_le _ _).trans (add_le_add a.err b.err)
  · exact (abs_add_le _ _).trans (add_le_add a.le b.le)

theorem sub (a : Acc A k v e M) (b : Acc A k w f N) : Acc A k (v - w) (e - f) (M + N) := by
  simpa [sub_eq_add_neg] using a.add b.neg

theorem mul (a : Acc A k v e M) (b : Acc A l w f N) : Acc A (k + l) (v * w) (e * f) (M * N) := by
  have hM := a.nonneg
  have hN := b.nonneg
  have h1 := A.one_le_up k
  have h2 := A.one_le_up l
  constructor
  · rw [show v * w - e * f = (v - e) * w + e * (w - f) by ring, A.up_add]
    refine (abs_add_le _ _).trans ?_
    rw [abs_mul, abs_mul]
    have i1 : |v - e| * |w| ≤ (A.up k - 1) * M * (A.up l * N) :=
      mul_le_mul a.err b.abs_le (abs_nonneg _) (mul_nonneg (by linarith) hM)
    have i2 : |e| * |w - f| ≤ M * ((A.up l - 1) * N) := mul_le_mul a.le b.err (abs_nonneg _) hM
    linarith
  · rw [abs_mul]; exact mul_le_mul a.le b.le (abs_nonneg _) hM

theorem near (a : Acc A k v e M) (h : A.Near l w v) : Acc A (k + l) w e M := by
  have hM := a.nonneg
  have h1 := A.one_le_up k
  have h2 := A.one_le_up l
  refine ⟨?_, a.le⟩
  rw [show w - e = (w - v) + (v - e) by ring, A.up_add]
  refine (abs_add_le _ _).trans ?_
  have i1 := near_sub_le h
  have i2 : (A.up l - 1) * |v| ≤ (A.up l - 1) * (A.up k * M) := mul_le_mul_of_nonneg_left a.abs_le (by linarith)
  nlinarith [a.err]

end Acc

/-- What is known about the value `v` that is computed for `t`, its tangent `T` and its tangent with absolute values
`P` at the computed values, and the operations `O` that are used, when the variables have the values `env` and the
direction is `δ`. -/
def Tang (A : FloatMath) (env δ : ℕ → ℝ) : Term → ℝ → ℝ → ℝ → OpPred → Prop
  | .lit c, v, T, P, O => v = c ∧ T = 0 ∧ P = 0 ∧ ∀ op rc x y, ¬ O op rc x y
  | .var k, v, T, P, O => v = env k ∧ T = δ k ∧ P ≤ |δ k| ∧ ∀ op rc x y, ¬ O op rc x y
  | .un f t, v, T, P, O => ∃ v1 T1 P1 O1, Tang A env δ t v1 T1 P1 O1 ∧ 0 ≤ P1 ∧
      (f = .pos → v = v1 ∧ T = T1 ∧ P = P1 ∧ O = O1) ∧
      (f ≠ .pos → OkU A f v1 → A.Near f.rounds v (f.eval v1) ∧ T = gradL f.cls 1 v1 0 * T1 ∧
        P ≤ |gradL f.cls 1 v1 0| * P1 ∧ ∀ op rc x y, O op rc x y → O1 op rc x y ∨ AddsU f v1 op rc x y)
  | .bin f s t, v, T, P, O => ∃ v1 T1 P1 O1, Tang A env δ s v1 T1 P1 O1 ∧ 0 ≤ P1 ∧
      ∃ v2 T2 P2 O2, Tang A env δ t v2 T2 P2 O2 ∧ 0 ≤ P2 ∧
      (OkB A f t.IsLit v1 v2 → A.Near 1 v (f.eval v1 v2) ∧
        T = gradL f.cls 1 v1 v2 * T1 + gradR f.cls 1 v1 v2 * T2 ∧
        P ≤ |gradL f.cls 1 v1 v2| * P1 + |gradR f.cls 1 v1 v2| * P2 ∧
        ∀ op rc x y, O op rc x y → O1 op rc x y ∨ O2 op rc x y ∨ AddsB f t.IsLit v1 v2 op rc x y)
  | .pd _ _, _, _, _, _ => False

theorem Tang.congr {env env' δ δ' : ℕ → ℝ} {N : ℕ} (he : ∀ k, k < N → env k = env' k)
    (hd : ∀ k, k < N → δ k = δ' k) {t : Term} (hv : t.Vars N) {v T P : ℝ} {O : OpPred} (h : Tang A env δ t v T P O) :
    Tang A env' δ' t v T P O := by
  induction t generalizing v T P O with
  | lit c => exact h
  | var k =>
    obtain ⟨h1, h2, h3, h4⟩ := h
    exact ⟨by rw [h1, he k hv], by rw [h2, hd k hv], by rw [← hd k hv]; exact h3, h4⟩
  | un f t ih =>
    obtain ⟨v1, T1, P1, O1, h1, h2⟩ := h
    exact ⟨v1, T1, P1, O1, ih hv h1, h2⟩
  | bin f s t ihs iht =>
    obtain ⟨v1, T1, P1, O1, h1, p1, v2, T2, P2, O2, h2, h3⟩ := h
    exact ⟨v1, T1, P1, O1, ihs hv.1 h1, p1, v2, T2, P2, O2, iht hv.2 h2, h3⟩
  | pd k t ih => exact h

/-- Polynomials: the value and the tangents are as accurate as the number of operations says. -/
theorem Tang.poly {env δ : ℕ → ℝ} {t : Term} (hp : t.Poly) {v T P : ℝ} {O : OpPred} (h : Tang A env δ t v T P O)
    (hP : 0 ≤ P) :
    Acc A t.size v (t.eval env) (t.majorant.eval fun k => |env k|) ∧
      Acc A t.size T (t.dd env δ) (t.majorant.dd (fun k => |env k|) fun k => |δ k|) ∧
      P ≤ A.up t.size * t.majorant.dd (fun k => |env k|) (fun k => |δ k|) ∧
      ∀ op rc x y, O op rc x y → PolyOp op := by
  induction t generalizing v T P O with
  | lit c =>
    obtain ⟨rfl, rfl, rfl, h4⟩ := h
    exact ⟨Acc.refl le_rfl, Acc.refl (by simp [Term.majorant, Term.dd]), by simp [Term.majorant, Term.dd],
      fun op rc x y o => absurd o (h4 op rc x y)⟩
  | var k =>
    obtain ⟨rfl, rfl, h3, h4⟩ := h
    exact ⟨Acc.refl le_rfl, Acc.refl le_rfl, by simpa [Term.majorant, Term.dd, Term.size] using h3,
      fun op rc x y o => absurd o (h4 op rc x y)⟩
  | un f t ih =>
    obtain ⟨v1, T1, P1, O1, h1, p1, h2, h3⟩ := h
    obtain ⟨hf, hp⟩ := hp
    obtain ⟨a1, a2, a3, a4⟩ := ih hp h1 p1
    have hs : t.size ≤ t.size + 1 := Nat.le_succ _
    have hab : P1 ≤ A.up (t.size + 1) * t.majorant.dd (fun k => |env k|) (fun k => |δ k|) :=
      a3.trans (mul_le_mul_of_nonneg_right (A.up_mono hs) a2.nonneg)
    rcases hf with rfl | rfl
    · obtain ⟨rfl, rfl, rfl, rfl⟩ := h2 rfl
      exact ⟨a1.mono hs, a2.mono hs, hab, a4⟩
    · obtain ⟨b1, b2, b3, b4⟩ := h3 (by simp) (Or.inl (Or.inr rfl))
      have b1 := near_zero_iff.mp b1
      subst b1
      subst b2
      refine ⟨a1.neg.mono hs, ?_, ?_, fun op rc x y o => ?_⟩
      · have := a2.neg.mono hs
        simpa [gradL, UnOp.cls, Term.dd, Term.size, Term.majorant] using this
      · refine b3.trans ?_
        simpa [gradL, UnOp.cls, Term.dd, Term.size, Term.majorant] using hab
      · rcases b4 op rc x y o with o | o
        · exact a4 op rc x y o
        · exact Or.inr (Or.inr (Or.inr o.1))
  | bin f s t ihs iht =>
    obtain ⟨v1, T1, P1, O1, h1, p1, v2, T2, P2, O2, h2, p2, h3⟩ := h
    obtain ⟨hf, hps, hpt⟩ := hp
    obtain ⟨a1, a2, a3, a4⟩ := ihs hps h1 p1
    obtain ⟨c1, c2, c3, c4⟩ := iht hpt h2 p2
    obtain ⟨b1, b2, b3, b4⟩ := h3 (Or.inl hf)
    have hs : s.size ≤ s.size + t.size := Nat.le_add_right _ _
    have ht : t.size ≤ s.size + t.size := Nat.le_add_left _ _
    have hs1 : s.size ≤ s.size + t.size + 1 := by omega
    have ht1 : t.size ≤ s.size + t.size + 1 := by omega
    have m1 := a3.trans (mul_le_mul_of_nonneg_right (A.up_mono hs1) a2.nonneg)
    have m2 := c3.trans (mul_le_mul_of_nonneg_right (A.up_mono ht1) c2.nonneg)
    have hops : ∀ op rc x y, O op rc x y → PolyOp op := by
      intro op rc x y o
      rcases b4 op rc x y o with o | o | o | o | o | o
      · exact a4 op rc x y o
      · exact c4 op rc x y o
      · rw [o.1]
        rcases hf with rfl | rfl | rfl
        · exact Or.inl rfl
        · exact Or.inr (Or.inl rfl)
        · exact Or.inr (Or.inr (Or.inl rfl))
      · exact Or.inr (Or.inr (Or.inr o.2.1))
      · rw [o.1] at hf; simp at hf
      · rw [o.1] at hf; simp at hf
    subst b2
    rcases hf with rfl | rfl | rfl
    · refine ⟨((a1.mono hs).add (c1.mono ht)).near b1, ?_, b3.trans ?_, hops⟩
      · simpa [gradL, gradR, BinOp.cls, Term.dd, Term.size, Term.majorant] using (a2.mono hs1).add (c2.mono ht1)
      · simpa [gradL, gradR, BinOp.cls, Term.majorant, Term.dd, Term.size, mul_add] using add_le_add m1 m2
    · refine ⟨((a1.mono hs).sub (c1.mono ht)).near b1, ?_, b3.trans ?_, hops⟩
      · simpa [gradL, gradR, BinOp.cls, Term.dd, Term.size, Term.majorant, sub_eq_add_neg] using
          (a2.mono hs1).sub (c2.mono ht1)
      · simpa [gradL, gradR, BinOp.cls, Term.majorant, Term.dd, Term.size, mul_add] using add_le_add m1 m2
    · refine ⟨(a1.mul c1).near b1, ?_, b3.trans ?_, hops⟩
      · have := ((a2.mul c1).add (a1.mul c2)).mono (Nat.le_succ _)
        simpa [gradL, gradR, BinOp.cls, Term.dd, Term.size, Term.majorant, mul_comm v2] using this
      · have i1 : |v2| * P1 ≤ (A.up t.size * t.majorant.eval fun k => |env k|) *
            (A.up s.size * s.majorant.dd (fun k => |env k|) fun k => |δ k|) :=
          mul_le_mul c1.abs_le a3 p1 (mul_nonneg (A.up_pos _).le c1.nonneg)
        have i2 : |v1| * P2 ≤ (A.up s.size * s.majorant.eval fun k => |env k|) *
            (A.up t.size * t.majorant.dd (fun k => |env k|) fun k => |δ k|) :=
          mul_le_mul a1.abs_le c3 p2 (mul_nonneg (A.up_pos _).le a1.nonneg)
        have h0 := (a2.mul c1).add (a1.mul c2)
        have hn := h0.nonneg
        have hu := mul_le_mul_of_nonneg_right (A.up_mono (Nat.le_succ (s.size + t.size))) hn
        have e := A.up_add s.size t.size
        simp only [gradL, gradR, BinOp.cls, r_mul, one_mul, Term.majorant, Term.dd, Term.size]
        refine (add_le_add i1 i2).trans (le_trans (le_of_eq ?_) hu)
        rw [e]; ring
  | pd k t ih => exact h.elim

/-- Node `e` holds a floating-point version of the expression `t`; `vs k` is the node of declared variable `k`. -/
structure GRep (h : Heap A.Num) (vs : ℕ → ℕ) (t : Term) (e : ℕ) : Prop where
  lt : e < h.next
  lit : t.IsLit → h.ty e = .constant
  ops : (opSet h e).card ≤ t.size
  tang : ∀ (η : ℕ → A.Num) (d : ℕ → ℝ), Tang A (fun k => toReal (η (vs k))) (fun k => d (vs k)) t (evR h η e)
    (tgv (real h) (evR h η) d e) (tgvAbs (real h) (evR h η) d e) (Uses h η e)

theorem mono_evR {h h' : Heap A.Num} (g : Mono h h') (η : ℕ → A.Num) {n : ℕ} (hn : n < h.next) :
    evR h' η n = evR h η n := by
  unfold evR; rw [g.ev η hn]

theorem mono_uses {h h' : Heap A.Num} (wf : WF h) (g : Mono h h') (η : ℕ → A.Num) {n : ℕ} (hn : n < h.next) :
    Uses h' η n = Uses h η n := by
  have hac' : ∀ m, m < h.next → ∀ l ∈ Graph.kids h'.args m, l < m := by
    intro m hm l hl
    unfold Graph.kids at hl
    rw [g.args m hm] at hl
    exact wf.acyc m l hl
  funext op rc x y
  refine propext ⟨fun u => u.congr wf.acyc g.op g.args (fun _ hm => g.ev η hm) hn, ?_⟩
  rintro ⟨m, hm, l, h1, h2, h3, h4, h5⟩
  have hmN : m < h.next := lt_of_le_of_lt (opSet_lt n m hm) hn
  have hl : l < h.next := (wf.acyc m l (mem_kids_left h1)).trans hmN
  refine ⟨m, by rw [opSet_congr g.args n hn]; exact hm, l, by rw [g.args m hmN]; exact h1,
    (g.op m hmN).trans h2, ?_, ?_, ?_⟩
  · rw [← h3]
    unfold RConst
    rw [g.args m hmN]
    apply propext
    apply exists_congr
    intro r
    apply and_congr_right
    intro hr
    have hrN : r < h.next := (wf.acyc m r (mem_kids_right hr)).trans hmN
    rw [g.args r hrN, g.op r hrN]
  · rw [← h4]; exact mono_evR g η hl
  · rw [← h5]
    unfold rhs
    rw [g.args m hmN]
    rcases hr : (h.args m).2 with _ | r
    · rfl
    · have hrN : r < h.next := (wf.acyc m r (mem_kids_right hr)).trans hmN
      simp only
      rw [g.ev η hrN]

theorem GRep.mono {h h' : Heap A.Num} {vs : ℕ → ℕ} {t : Term} {e : ℕ} (wf : WF h) (r : GRep h vs t e)
    (g : Mono h h') : GRep h' vs t e where
  lt := g.lt r.lt
  lit l := (g.ty e r.lt).trans (r.lit l)
  ops := by rw [opSet_congr g.args e r.lt]; exact r.ops
  tang η d := by
    rw [mono_evR g η r.lt, mono_uses wf g η r.lt,
      tgv_congr2 (h := real h) (h' := real h') (N := h.next) g.op g.args (fun _ hm => mono_evR g η hm) d e r.lt,
      tgvAbs_congr2 (h := real h) (h' := real h') (N := h.next) g.op g.args (fun _ hm => mono_evR g η hm) d e r.lt]
    exact r.tang η d

theorem GRep.change {h : Heap A.Num} {vs vs' : ℕ → ℕ} {N : ℕ} {t : Term} {e : ℕ} (r : GRep h vs t e)
    (hv : t.Vars N) (hvs : ∀ k, k < N → vs' k = vs k) : GRep h vs' t e where
  lt := r.lt
  lit := r.lit
  ops := r.ops
  tang η d := (r.tang η d).congr (fun k hk => by rw [hvs k hk]) (fun k hk => by rw [hvs k hk]) hv

theorem lit_rep {h : Heap A.Num} (wf : WF h) (vs : ℕ → ℕ) (c : A.Num) :
    GRep (mkConst c h).2 vs (.lit (toReal c)) (mkConst c h).1 := by
  have b := mkConst_made wf c
  refine ⟨b.lt, fun _ => by simp [mkConst, alloc], b.ops, fun η d => ⟨b.val η trivial, b.der η trivial d, ?_,
    b.uses η trivial⟩⟩
  exact le_antisymm (b.abs η trivial d) (tgvAbs_nonneg (wf_real b.wf).acyc _ _ _)

theorem var_rep {h : Heap A.Num} (wf : WF h) (vs : ℕ → ℕ) {k : ℕ} (hk : vs k = h.next) :
    GRep (mkVar h).2 vs (.var k) (mkVar h).1 := by
  have b := mkVar_made wf
  refine ⟨b.lt, fun l => l.elim, b.ops, fun η d => ⟨?_, ?_, ?_, b.uses η trivial⟩⟩
  · show _ = toReal (η (vs k))
    rw [b.val η trivial, hk]
  · show _ = d (vs k)
    rw [b.der η trivial d, hk]
  · show _ ≤ |d (vs k)|
    rw [hk]; exact b.abs η trivial d

/-- Running `m` only adds nodes and returns an expression for `t`. -/
def MakesT (vs : ℕ → ℕ) (m : HM A.Num ℕ) (h : Heap A.Num) (t : Term) : Prop :=
  WF (m h).2 ∧ Grow h (m h).2 ∧ GRep (m h).2 vs t (m h).1

section
variable {h : Heap A.Num} {vs : ℕ → ℕ} {s t : Term} {a b : ℕ}

theorem GRep.un (wf : WF h) (r : GRep h vs t a) (f : UnOp) : MakesT vs (f.build a) h (.un f t) := by
  have hP := fun η d => tgvAbs_nonneg (wf_real wf).acyc (evR h η) d a
  by_cases hf : f = .pos
  · subst hf
    exact ⟨wf, Grow.refl h, r.lt, fun l => l.elim, r.ops.trans (Nat.le_succ _), fun η d =>
      ⟨_, _, _, _, r.tang η d, hP η d, fun _ => ⟨rfl, rfl, rfl, rfl⟩, fun e => absurd rfl e⟩⟩
  · have m := un_made wf r.lt hf
    exact ⟨m.wf, m.grow, m.lt, fun l => l.elim, m.ops.trans (Nat.succ_le_succ r.ops), fun η d =>
      ⟨_, _, _, _, r.tang η d, hP η d, fun e => absurd e hf, fun _ ok =>
        ⟨m.val η ok, m.der η ok d, m.abs η ok d, m.uses η ok⟩⟩⟩

theorem GRep.bin (wf : WF h) (ra : GRep h vs s a) (rb : GRep h vs t b) (f : BinOp) :
    MakesT vs (f.build a b) h (.bin f s t) := by
  have m := bin_made (g := f) wf ra.lt rb.lt rb.lit
  exact ⟨m.wf, m.grow, m.lt, fun l => l.elim, m.ops.trans (Nat.succ_le_succ (Nat.add_le_add ra.ops rb.ops)), fun η d =>
    ⟨_, _, _, _, ra.tang η d, tgvAbs_nonneg (wf_real wf).acyc _ _ _, _, _, _, _, rb.tang η d,
      tgvAbs_nonneg (wf_real wf).acyc _ _ _, fun ok => ⟨m.val η ok, m.der η ok d, m.abs η ok d, m.uses η ok⟩⟩⟩

theorem MakesT.bind {m : HM A.Num ℕ} {k : ℕ → HM A.Num ℕ} (hm : MakesT vs m h s)
    (hk : ∀ h' e, WF h' → Grow h h' → GRep h' vs s e → MakesT vs (k e) h' t) : MakesT vs (m >>= k) h t := by
  obtain ⟨w, g, r⟩ := hm
  obtain ⟨w', g', r'⟩ := hk _ _ w g r
  exact ⟨w', g.trans g', r'⟩

theorem GRep.grow {h' : Heap A.Num} (wf : WF h) (g : Grow h h') (r : GRep h vs t a) : GRep h' vs t a :=
  r.mono wf (Ext.mono (Grow.ext g))

end

end FloatMath

end Slp
