import Verif.Rounding.FloatNearLemmas
import Verif.Rounding.FloatStepLemmas
import Mathlib.Analysis.Asymptotics.Lemmas
import Mathlib.Analysis.Calculus.FDeriv.Basic
import Mathlib.Analysis.Calculus.Deriv.Inv
import Mathlib.Analysis.Calculus.Deriv.Pow

/-! Values and tangents of smooth expressions in ever more accurate arithmetic. -/

set_option linter.unusedSimpArgs false

namespace Slp

open ScalarOps Topology Asymptotics

namespace Conv

variable {ι : Type} {l : _root_.Filter ι} {U v w : ι → ℝ} {e f : ℝ}

/-- `v` is within a multiple of `U` of `e`. -/
def To (l : _root_.Filter ι) (U v : ι → ℝ) (e : ℝ) : Prop := (fun i => v i - e) =O[l] U

theorem To.const (e : ℝ) : To l U (fun _ => e) e := by
  unfold To; simp only [sub_self]; exact isBigO_zero _ _

theorem To.congr (h : To l U v e) (hv : ∀ᶠ i in l, w i = v i) : To l U w e :=
  h.congr' (hv.mono fun i hi => by simp only [hi]) (Filter.EventuallyEq.refl _ _)

theorem To.tendsto (hU : Filter.Tendsto U l (𝓝 0)) (h : To l U v e) : Filter.Tendsto v l (𝓝 e) := by
  have := (IsBigO.trans_tendsto h hU).add_const e
  simpa using this

theorem To.bdd (hU : Filter.Tendsto U l (𝓝 0)) (h : To l U v e) : v =O[l] (fun _ => (1 : ℝ)) :=
  (h.tendsto hU).isBigO_one ℝ

theorem To.add (h : To l U v e) (h' : To l U w f) : To l U (fun i => v i + w i) (e + f) := by
  have := IsBigO.add h h'
  unfold To
  refine this.congr_left fun i => ?_
  ring

theorem To.mul (hU : Filter.Tendsto U l (𝓝 0)) (h : To l U v e) (h' : To l U w f) :
    To l U (fun i => v i * w i) (e * f) := by
  have h1 : (fun i => (v i - e) * w i) =O[l] fun i => U i * 1 := IsBigO.mul h (h'.bdd hU)
  have h2 : (fun i => e * (w i - f)) =O[l] U := IsBigO.const_mul_left h' e
  simp only [mul_one] at h1
  unfold To
  refine (h1.add h2).congr_left fun i => ?_
  ring

theorem To.comp (hU : Filter.Tendsto U l (𝓝 0)) (h : To l U v e) {φ : ℝ → ℝ} (hφ : DifferentiableAt ℝ φ e) :
    To l U (fun i => φ (v i)) (φ e) :=
  (hφ.hasFDerivAt.isBigO_sub.comp_tendsto (h.tendsto hU)).trans h

theorem To.pair (h : To l U v e) (h' : To l U w f) : (fun i => ((v i, w i) : ℝ × ℝ) - (e, f)) =O[l] U :=
  IsBigO.prod_left h h'

theorem To.tendsto2 (hU : Filter.Tendsto U l (𝓝 0)) (h : To l U v e) (h' : To l U w f) :
    Filter.Tendsto (fun i => ((v i, w i) : ℝ × ℝ)) l (𝓝 (e, f)) :=
  (h.tendsto hU).prodMk_nhds (h'.tendsto hU)

theorem To.comp2 (hU : Filter.Tendsto U l (𝓝 0)) (h : To l U v e) (h' : To l U w f) {φ : ℝ × ℝ → ℝ}
    (hφ : DifferentiableAt ℝ φ (e, f)) : To l U (fun i => φ (v i, w i)) (φ (e, f)) :=
  (hφ.hasFDerivAt.isBigO_sub.comp_tendsto (h.tendsto2 hU h')).trans (h.pair h')

theorem up_bigO {A : ι → FloatMath} (hU : Filter.Tendsto (fun i => (A i).u) l (𝓝 0)) (k : ℕ) :
    (fun i => (A i).up k - 1) =O[l] fun i => (A i).u := by
  have hd : DifferentiableAt ℝ (fun x : ℝ => ((1 - x) ^ k)⁻¹) 0 := by
    apply DifferentiableAt.inv
    · fun_prop
    · simp
  have := hd.hasFDerivAt.isBigO_sub.comp_tendsto hU
  simpa [Function.comp_def, FloatMath.up] using this

theorem To.near {A : ι → FloatMath} (hU : Filter.Tendsto (fun i => (A i).u) l (𝓝 0)) {k : ℕ}
    (h : To l (fun i => (A i).u) v e) (hn : ∀ᶠ i in l, (A i).Near k (w i) (v i)) :
    To l (fun i => (A i).u) w e := by
  have h1 : (fun i => w i - v i) =O[l] fun i => (A i).u := by
    have h2 : (fun i => ((A i).up k - 1) * |v i|) =O[l] fun i => (A i).u * 1 :=
      (up_bigO hU k).mul (h.bdd hU).abs_left
    simp only [mul_one] at h2
    refine IsBigO.trans (IsBigO.of_bound 1 (hn.mono fun i hi => ?_)) h2
    have := FloatMath.near_sub_le hi
    rw [one_mul, Real.norm_eq_abs, Real.norm_eq_abs]
    exact this.trans (le_abs_self _)
  unfold To
  exact (h1.add h).congr_left fun i => by ring

theorem bdd_of_le {P Q : ι → ℝ} (hP : ∀ i, 0 ≤ P i) (h : ∀ᶠ i in l, P i ≤ Q i) (hQ : Q =O[l] fun _ => (1 : ℝ)) :
    P =O[l] fun _ => (1 : ℝ) := by
  refine IsBigO.trans (IsBigO.of_bound 1 (h.mono fun i hi => ?_)) hQ
  rw [one_mul, Real.norm_of_nonneg (hP i), Real.norm_eq_abs]
  exact hi.trans (le_abs_self _)

theorem bdd_mul {P Q : ι → ℝ} (hP : P =O[l] fun _ => (1 : ℝ)) (hQ : Q =O[l] fun _ => (1 : ℝ)) :
    (fun i => |P i| * Q i) =O[l] fun _ => (1 : ℝ) := by
  simpa using hP.abs_left.mul hQ

end Conv

namespace Term

/-- The derivative of an expression in the direction `δ`, by the chain rule. -/
noncomputable def slope (env δ : ℕ → ℝ) : Term → ℝ
  | lit _ => 0
  | var k => δ k
  | un .pos t => slope env δ t
  | un f t => gradL f.cls 1 (t.eval env) 0 * slope env δ t
  | bin f s t => gradL f.cls 1 (s.eval env) (t.eval env) * slope env δ s +
      gradR f.cls 1 (s.eval env) (t.eval env) * slope env δ t
  | pd _ _ => 0

theorem slope_un {env δ : ℕ → ℝ} {f : UnOp} (hf : f ≠ .pos) (t : Term) :
    slope env δ (un f t) = gradL f.cls 1 (t.eval env) 0 * slope env δ t := by
  cases f <;> first | exact absurd rfl hf | rfl

/-- Built without partial derivatives. -/
def Plain : Term → Prop
  | lit _ => True
  | var _ => True
  | un _ t => Plain t
  | bin _ s t => Plain s ∧ Plain t
  | pd _ _ => False

theorem slope_deriv {env : ℕ → ℝ} (k : ℕ) {t : Term} (hp : t.Plain) (hs : t.Smooth env) :
    HasDerivAt (fun x => t.eval (Function.update env k x)) (t.slope env fun j => if j = k then 1 else 0) (env k) := by
  have hup : Function.update env k (env k) = env := Function.update_eq_self k env
  induction t with
  | lit c => exact hasDerivAt_const _ _
  | var j =>
    simp only [eval, slope]
    by_cases h : j = k
    · subst h; simpa using hasDerivAt_id' (env j)
    · simpa [h] using hasDerivAt_const (env k) (env j)
  | un f t ih =>
    have ih := ih hp hs.1
    by_cases hf : f = .pos
    · subst hf; exact ih
    · rw [slope_un hf]
      have h1 := hasDerivAt_op_un (op := f.cls) (by cases f <;> first | rfl | exact absurd rfl hf) ih (by
        simp only [hup]
        have := hs.2
        cases f <;> first | exact absurd rfl hf | exact this)
      rw [hup] at h1
      have e : (fun x => (un f t).eval (Function.update env k x)) =
          fun x => opVal f.cls (t.eval (Function.update env k x)) (0 : ℝ) := by
        funext x
        cases f <;> first | exact absurd rfl hf | rfl | skip
        simp [eval, UnOp.eval, UnOp.cls, opVal, sgn]
      rw [e]
      exact h1
  | bin f s t ih1 ih2 =>
    have h1 := ih1 hp.1 hs.1
    have h2 := ih2 hp.2 hs.2.1
    have e : (fun x => (bin f s t).eval (Function.update env k x)) =
        fun x => opVal f.cls (s.eval (Function.update env k x)) (t.eval (Function.update env k x)) := by
      funext x
      cases f <;> rfl
    rw [e]
    simp only [slope]
    by_cases hf : f = .pow ∧ ¬ 0 < s.eval env
    · obtain ⟨rfl, hn⟩ := hf
      obtain ⟨hl, m, hm, hm'⟩ := hs.2.2.resolve_left hn
      cases t with
      | lit c =>
        simp only [eval] at hm
        subst hm
        have hx : s.eval (Function.update env k (env k)) ≠ 0 ∨ (1 : ℝ) ≤ (m : ℝ) := by
          rw [hup]; exact hm'.imp_right fun h => by exact_mod_cast h
        have := h1.rpow_const hx
        simp only [eval, BinOp.cls, opVal, r_pow, gradL, gradR, r_mul, r_sub, r_one, r_log, slope, hup] at this ⊢
        refine this.congr_deriv ?_
        ring
      | _ => exact hl.elim
    · have h3 := hasDerivAt_op_bin (op := f.cls) (rc := False) (by cases f <;> rfl) h1 h2 (fun h => h.elim) (by
        simp only [hup]
        have := hs.2.2
        cases f <;> first | exact this | skip
        exact Or.inl (not_not.mp fun h => hf ⟨rfl, h⟩))
      rw [hup] at h3
      exact h3
  | pd j t ih => exact hp.elim

theorem slope_eq {env : ℕ → ℝ} (k : ℕ) {t : Term} (hp : t.Plain) (hs : t.Smooth env) :
    t.slope env (fun j => if j = k then 1 else 0) = (pd k t).eval env := (slope_deriv k hp hs).deriv.symm

end Term

namespace FloatMath

theorem Tang.plain {A : FloatMath} {env δ : ℕ → ℝ} {t : Term} {v T P : ℝ} {O : OpPred} (h : Tang A env δ t v T P O) :
    t.Plain := by
  induction t generalizing v T P O with
  | lit c => trivial
  | var k => trivial
  | un f t ih =>
    obtain ⟨v1, T1, P1, O1, h1, _⟩ := h
    exact ih h1
  | bin f s t ihs iht =>
    obtain ⟨v1, T1, P1, O1, h1, p1, v2, T2, P2, O2, h2, _⟩ := h
    exact ⟨ihs h1, iht h2⟩
  | pd k t ih => exact h.elim

open Conv

variable {ι : Type}

/-- What is known about an expression in ever more accurate arithmetic. -/
structure Res (A : ι → FloatMath) (l : _root_.Filter ι) (e D : ℝ) (v T P : ι → ℝ) (O : ι → OpPred) : Prop where
  val : To l (fun i => (A i).u) v e
  tan : To l (fun i => (A i).u) T D
  abs : P =O[l] fun _ => (1 : ℝ)
  loc : ∃ K : ℕ, ∀ᶠ i in l, ∀ op rc (x y : ℝ), O i op rc x y → Local (A i) K op rc x y

theorem Smooth.weaken {f : BinOp} {lit : Prop} {x y : ℝ} (h : f.Smooth False x y) : f.Smooth lit x y := by
  cases f <;> first | exact h | skip
  exact Or.inl (h.resolve_right fun h => h.1)

/-- What is known about a binary operation in ever more accurate arithmetic. -/
structure BinRes (A : ι → FloatMath) (l : _root_.Filter ι) (f : BinOp) (lit : Prop) (x y D : ℝ) (v w T P : ι → ℝ) : Prop
    where
  smooth : ∀ᶠ i in l, f.Smooth lit (v i) (w i)
  val : To l (fun i => (A i).u) (fun i => f.eval (v i) (w i)) (f.eval x y)
  left : To l (fun i => (A i).u) (fun i => gradL f.cls 1 (v i) (w i)) (gradL f.cls 1 x y)
  right : To l (fun i => (A i).u) (fun i => gradR f.cls 1 (v i) (w i) * T i) (gradR f.cls 1 x y * D)
  rabs : (fun i => |gradR f.cls 1 (v i) (w i)| * P i) =O[l] fun _ => (1 : ℝ)
  loc : ∃ K : ℕ, ∀ᶠ i in l, ∀ rc, (lit → rc) → Local (A i) K f.cls rc (v i) (w i)

variable {A : ι → FloatMath} {l : _root_.Filter ι}

theorem bin_res (hL : ∀ i, (A i).Lib) (hU : Filter.Tendsto (fun i => (A i).u) l (𝓝 0)) {f : BinOp} {lit : Prop}
    {x y D : ℝ} {v w T P : ι → ℝ} (hs : f.Smooth lit x y) (hv : To l (fun i => (A i).u) v x)
    (hw : To l (fun i => (A i).u) w y) (hT : To l (fun i => (A i).u) T D) (hP : P =O[l] fun _ => (1 : ℝ))
    (hlit : lit → (∀ i, w i = y) ∧ (∀ i, T i = 0) ∧ D = 0 ∧ ∀ i, P i = 0) : BinRes A l f lit x y D v w T P := by
  have hsmall : ∀ u0 : ℝ, 0 < u0 → ∀ᶠ i in l, (A i).u ≤ u0 := fun u0 h0 =>
    (hU.eventually (eventually_lt_nhds h0)).mono fun i hi => hi.le
  by_cases h : f.Smooth False x y
  · obtain ⟨K, u0, h0, hK⟩ := local_bin h
    have ht := hv.tendsto2 hU hw
    have hR := hv.comp2 hU hw (Calm.bin_gradR_diff h)
    exact ⟨(ht.eventually (Calm.bin_open h)).mono fun i hi => Smooth.weaken hi, hv.comp2 hU hw (Calm.bin_diff h),
      hv.comp2 hU hw (Calm.bin_gradL_diff h), hR.mul hU hT, bdd_mul (hR.bdd hU) hP, K,
      ((ht.eventually hK).and (hsmall u0 h0)).mono fun i hi rc _ => hi.1 rc (A i) (hL i) hi.2⟩
  · have hp : f = .pow := by
      by_contra hne
      exact h (by cases f <;> first | exact hs | exact absurd rfl hne)
    subst hp
    have hn : ¬ 0 < x := fun e => h (Or.inl e)
    obtain ⟨hl, k, rfl, hk⟩ := hs.resolve_left hn
    obtain ⟨h1, h2, h3, h4⟩ := hlit hl
    obtain ⟨K, u0, h0, hK⟩ := local_zpow hk
    have ht := hv.tendsto hU
    have hw' : w = fun _ => (k : ℝ) := funext h1
    subst hw'
    refine ⟨?_, hv.comp hU (Calm.zpow_diff hk), hv.comp hU (Calm.zpow_grad_diff hk), ?_, ?_, K, ?_⟩
    · have : ∀ᶠ z : ℝ in 𝓝 x, z ≠ 0 ∨ 1 ≤ k := by
        rcases hk with h | h
        · exact (eventually_ne_nhds h).mono fun z hz => Or.inl hz
        · exact Filter.Eventually.of_forall fun z => Or.inr h
      exact (ht.eventually this).mono fun i hi => Or.inr ⟨hl, k, rfl, hi⟩
    · simp only [h2, h3, mul_zero]
      exact To.const 0
    · simp only [h4, mul_zero]
      exact isBigO_zero _ _
    · exact ((ht.eventually hK).and (hsmall u0 h0)).mono fun i hi rc hrc => hi.1 rc (hrc hl) (A i) (hL i) hi.2

/-- Values and tangents of smooth expressions in ever more accurate arithmetic. -/
theorem Tang.conv (hL : ∀ i, (A i).Lib) (hU : Filter.Tendsto (fun i => (A i).u) l (𝓝 0)) {env δ : ℕ → ℝ} {t : Term}
    (hs : t.Smooth env) {v T P : ι → ℝ} {O : ι → OpPred} (h : ∀ i, Tang (A i) env δ t (v i) (T i) (P i) (O i))
    (hP : ∀ i, 0 ≤ P i) : Res A l (t.eval env) (t.slope env δ) v T P O := by
  have hsmall : ∀ u0 : ℝ, 0 < u0 → ∀ᶠ i in l, (A i).u ≤ u0 := fun u0 h0 =>
    (hU.eventually (eventually_lt_nhds h0)).mono fun i hi => hi.le
  induction t generalizing v T P O with
  | lit c =>
    refine ⟨(To.const c).congr (.of_forall fun i => (h i).1), (To.const 0).congr (.of_forall fun i => (h i).2.1), ?_,
      0, .of_forall fun i op rc x y o => absurd o ((h i).2.2.2 op rc x y)⟩
    have : P = fun _ => 0 := funext fun i => (h i).2.2.1
    rw [this]
    exact isBigO_zero _ _
  | var k =>
    refine ⟨(To.const (env k)).congr (.of_forall fun i => (h i).1), (To.const (δ k)).congr (.of_forall fun i => (h i).2.1),
      bdd_of_le hP (.of_forall fun i => (h i).2.2.1) (isBigO_const_const _ one_ne_zero _),
      0, .of_forall fun i op rc x y o => absurd o ((h i).2.2.2 op rc x y)⟩
  | un f t ih =>
    choose v1 T1 P1 O1 h1 p1 hpos hne using h
    have r := ih hs.1 h1 p1
    by_cases hf : f = .pos
    · have e1 : v = v1 := funext fun i => (hpos i hf).1
      have e2 : T = T1 := funext fun i => (hpos i hf).2.1
      have e3 : P = P1 := funext fun i => (hpos i hf).2.2.1
      have e4 : O = O1 := funext fun i => (hpos i hf).2.2.2
      subst hf e1 e2 e3 e4
      exact r
    · have ht := r.val.tendsto hU
      have hsm := ht.eventually (Calm.un_open hs.2)
      have hall := hsm.mono fun i hi => hne i hf (Or.inr ⟨hL i, hi⟩)
      have hg := r.val.comp hU (Calm.un_grad_diff hs.2)
      obtain ⟨K, hK⟩ := r.loc
      obtain ⟨K', u0, h0, hK'⟩ := local_un hs.2
      rw [Term.slope_un hf]
      refine ⟨(r.val.comp hU (Calm.un_diff hs.2)).near hU (hall.mono fun i hi => hi.1),
        (hg.mul hU r.tan).congr (hall.mono fun i hi => hi.2.1),
        bdd_of_le hP (hall.mono fun i hi => hi.2.2.1) (bdd_mul (hg.bdd hU) r.abs), Max.max K K', ?_⟩
      filter_upwards [hall, hK, ht.eventually hK', hsmall u0 h0] with i a1 a2 a3 a4 op rc x y o
      rcases a1.2.2.2 op rc x y o with o | ⟨rfl, rfl, rfl⟩
      · exact (a2 op rc x y o).mono (le_max_left _ _)
      · exact (a3 rc (A i) (hL i) a4).mono (le_max_right _ _)
  | bin f s t ihs iht =>
    choose v1 T1 P1 O1 h1 p1 v2 T2 P2 O2 h2 p2 hb using h
    have r1 := ihs hs.1 h1 p1
    have r2 := iht hs.2.1 h2 p2
    have hlit : t.IsLit → (∀ i, v2 i = t.eval env) ∧ (∀ i, T2 i = 0) ∧ t.slope env δ = 0 ∧ ∀ i, P2 i = 0 := by
      intro ht
      cases t with
      | lit c => exact ⟨fun i => (h2 i).1, fun i => (h2 i).2.1, rfl, fun i => (h2 i).2.2.1⟩
      | _ => exact ht.elim
    have b := bin_res hL hU hs.2.2 r1.val r2.val r2.tan r2.abs hlit
    have hall := b.smooth.mono fun i hi => hb i (Or.inr ⟨hL i, hi⟩)
    obtain ⟨K1, hK1⟩ := r1.loc
    obtain ⟨K2, hK2⟩ := r2.loc
    obtain ⟨K, hK⟩ := b.loc
    refine ⟨b.val.near hU (hall.mono fun i hi => hi.1),
      ((b.left.mul hU r1.tan).add b.right).congr (hall.mono fun i hi => hi.2.1),
      bdd_of_le hP (hall.mono fun i hi => hi.2.2.1) (by
        have := (bdd_mul (b.left.bdd hU) r1.abs).add b.rabs
        simpa using this), Max.max (Max.max K1 K2) (Max.max K 5), ?_⟩
    filter_upwards [hall, hK1, hK2, hK, b.smooth] with i a1 a2 a3 a4 a5 op rc x y o
    have m1 : K1 ≤ Max.max (Max.max K1 K2) (Max.max K 5) := (le_max_left _ _).trans (le_max_left _ _)
    have m2 : K2 ≤ Max.max (Max.max K1 K2) (Max.max K 5) := (le_max_right _ _).trans (le_max_left _ _)
    have m3 : K ≤ Max.max (Max.max K1 K2) (Max.max K 5) := (le_max_left _ _).trans (le_max_right _ _)
    have m4 : 5 ≤ Max.max (Max.max K1 K2) (Max.max K 5) := (le_max_right _ _).trans (le_max_right _ _)
    rcases a1.2.2.2 op rc x y o with o | o | ⟨rfl, hrc, rfl, rfl⟩ | ⟨_, rfl, _⟩ | ⟨rfl, rfl, rfl, hx⟩ | ⟨_, rfl, _⟩
    · exact (a2 op rc x y o).mono m1
    · exact (a3 op rc x y o).mono m2
    · exact (a4 rc hrc).mono m3
    · exact (local_poly (A := A i) (Or.inr (Or.inr (Or.inr rfl))) x y rc).mono ((by norm_num : 1 ≤ 5).trans m4)
    · have hx0 : x ≠ 0 := by
        have hsm : v1 i ≠ 0 ∨ v2 i ≠ 0 := a5
        rcases hx with ⟨rfl, hz⟩ | ⟨rfl, hz⟩
        · exact hsm.resolve_left fun h => h hz
        · exact hsm.resolve_right fun h => h hz
      exact (local_of_accurate (A := A i) (op := .abs) (x := x) (y := (0 : ℝ))
        ⟨by simp, by simp, by simp, by simp, hx0⟩ rc).mono m4
    · exact (local_poly (A := A i) (Or.inr (Or.inr (Or.inl rfl))) x y rc).mono ((by norm_num : 1 ≤ 5).trans m4)
  | pd k t ih =>
    exact ⟨IsBigO.of_bound 0 (.of_forall fun i => (h i).elim), IsBigO.of_bound 0 (.of_forall fun i => (h i).elim),
      IsBigO.of_bound 0 (.of_forall fun i => (h i).elim), 0, .of_forall fun i => (h i).elim⟩

end FloatMath

end Slp
