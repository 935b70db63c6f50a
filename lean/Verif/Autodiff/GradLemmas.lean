import Verif.Autodiff.BuildLemmas

/-! The symbolic partial derivatives built by `grad_expr_l` / `grad_expr_r` denote the numeric ones
computed by `grad_l` / `grad_r`, and are smooth where the operation itself is. -/

namespace Slp

open ScalarOps

theorem Grow.lt {S : Type} [ScalarOps S] {h h' : Heap S} (g : Grow h h') {n : ℕ} (hn : n < h.next) :
    n < h'.next := lt_of_lt_of_le hn g.next

/-- Unary classes ignore the second argument of `grad_l`. -/
theorem gradL_unary {S : Type} [ScalarOps S] {op : Op} (h1 : op.arity = 1) (a x y y' : S) :
    gradL op a x y = gradL op a x y' := by
  cases op <;> first | rfl | simp [Op.arity] at h1

variable {h : Heap ℝ} {a x y : ℕ}

theorem rcbrt_ne_zero {x : ℝ} (hx : x ≠ 0) : rcbrt x ≠ 0 := by
  intro h
  have := rcbrt_cube x
  rw [h] at this
  apply hx
  rw [← this]; norm_num

theorem neg_const {a : ℕ} (wf : WF h) (ha : a < h.next) (hk : h.op a = .constant) :
    (neg a h).2.op (neg a h).1 = .constant := by
  have e : neg a h = if isConst h a zero then (a, h) else if isK h a then
      mkConst (ScalarOps.neg (h.val a)) h else mkUn .neg (cascade (h.ty a)) a h := by
    unfold neg; simp only [bind, StateT.bind, get, getThe, MonadStateOf.get, StateT.get, pure]
    split
    · rfl
    · split <;> rfl
  have hk' : isK h a = true := by simp [isK, (ty_constant_iff wf ha).mpr hk]
  rw [e]
  by_cases c : isConst h a zero = true
  · rw [if_pos c]; exact hk
  · rw [if_neg c, if_pos hk']; simp [mkConst, alloc]

theorem sub_const {a b : ℕ} (wf : WF h) (ha : a < h.next) (hb : b < h.next)
    (hka : h.op a = .constant) (hkb : h.op b = .constant) :
    (sub a b h).2.op (sub a b h).1 = .constant := by
  have e : sub a b h = if isConst h a zero then (if isConst h b zero then (b, h) else neg b h)
      else if isConst h b zero then (a, h) else if isK h a && isK h b then
      mkConst (ScalarOps.sub (h.val a) (h.val b)) h
      else mkBin .sub (cascade (Ty.max (h.ty a) (h.ty b))) a b h := by
    unfold sub; simp only [bind, StateT.bind, get, getThe, MonadStateOf.get, StateT.get, pure]
    split
    · split <;> rfl
    · split
      · rfl
      · split <;> rfl
  have h1 : isK h a = true := by simp [isK, (ty_constant_iff wf ha).mpr hka]
  have h2 : isK h b = true := by simp [isK, (ty_constant_iff wf hb).mpr hkb]
  rw [e]
  split
  · split
    · exact hkb
    · exact neg_const wf hb hkb
  · split
    · exact hka
    · rw [h1, h2]; simp [mkConst, alloc]

/-- Smoothness of everything `grad_expr_l` and `grad_expr_r` are given. -/
def SmG (h : Heap ℝ) (op : Op) (rc : Prop) (a x y : ℕ) (η : ℕ → ℝ) : Prop :=
  Sm h η a ∧ Sm h η x ∧ Sm h η y ∧ SmoothOp op rc (ev h η x) (ev h η y)

theorem one_sub_sq_pos {x : ℝ} (h : -1 < x ∧ x < 1) : 0 < 1 - x * x := by nlinarith [h.1, h.2]

theorem gradEL_builds (wf : WF h) (ha : a < h.next) (hx : x < h.next) (hy : y < h.next) (op : Op)
    (hp : op = .pow → isConst h x zero = false) :
    Builds (gradEL op a x y) h (fun η => gradL op (ev h η a) (ev h η x) (ev h η y))
      (SmG h op (h.op y = .constant) a x y) := by
  cases op
  case add | sub => exact Builds.pure wf ha (fun _ => rfl) fun _ p => p.1
  case mul => exact (mul_builds wf ha hy).congr (fun _ => rfl) fun _ p => ⟨p.1, p.2.2.1, trivial⟩
  case div => exact (div_builds wf ha hy).congr (fun _ => rfl) fun _ p => ⟨p.1, p.2.2.1, p.2.2.2⟩
  case neg => exact (neg_builds wf ha).congr (fun _ => rfl) fun _ p => ⟨p.1, trivial⟩
  case log =>
    exact (div_builds wf ha hx).congr (fun _ => rfl) fun _ p => ⟨p.1, p.2.1, ne_of_gt p.2.2.2⟩
  case constant | «variable» | isNonneg | isPos | sign => exact mkConst_builds' wf fun _ => rfl
  case abs =>
    refine Builds.bind (sign_builds wf hx) fun v h1 wf1 g1 l1 e1 s1 => ?_
    refine (mul_builds wf1 (g1.lt ha) l1).congr (fun η => ?_) fun η p => ?_
    · rw [e1, g1.ev η ha]
      simp only [gradL, rsign, r_lt, r_zero, r_neg, decide_eq_true_eq]
      rcases lt_trichotomy (ev h η x) 0 with c | c | c
      · simp [c]
      · simp [c]
      · simp [c, not_lt.mpr c.le, c.ne']
    · exact ⟨(g1.Sm η ha).mpr p.1, s1 η ⟨p.2.1, p.2.2.2⟩, trivial⟩
  case acos =>
    refine Builds.bind (neg_builds wf ha) fun v1 h1 wf1 g1 l1 e1 s1 => ?_
    refine Builds.bind (mul_builds wf1 (g1.lt hx) (g1.lt hx)) fun v2 h2 wf2 g2 l2 e2 s2 => ?_
    refine Builds.bind (mkConst_builds wf2 one) fun v3 h3 wf3 g3 l3 e3 s3 => ?_
    refine Builds.bind (sub_builds wf3 l3 (g3.lt l2)) fun v4 h4 wf4 g4 l4 e4 s4 => ?_
    refine Builds.bind (sqrt_builds wf4 l4) fun v5 h5 wf5 g5 l5 e5 s5 => ?_
    have g := g2.trans (g3.trans (g4.trans g5))
    have e4' : ∀ η, ev h4 η v4 = 1 - ev h η x * ev h η x := fun η => by
      rw [e4, e3, g3.ev η l2, e2, g1.ev η hx]; rfl
    refine (div_builds wf5 (g.lt l1) l5).congr (fun η => ?_) fun η p => ?_
    · rw [e5, e4', g.ev η l1, e1]
      rfl
    · have hpos := one_sub_sq_pos p.2.2.2
      have sx := (g1.Sm η hx).mpr p.2.1
      have t4 := s4 η ⟨s3 η trivial, (g3.Sm η l2).mpr (s2 η ⟨sx, sx, trivial⟩), trivial⟩
      have t5 := s5 η ⟨t4, by rw [e4']; exact hpos⟩
      refine ⟨(g.Sm η l1).mpr (s1 η ⟨p.1, trivial⟩), t5, ?_⟩
      rw [e5, e4']
      exact (Real.sqrt_pos.mpr hpos).ne'
  case asin =>
    refine Builds.bind (mul_builds wf hx hx) fun v2 h2 wf2 g2 l2 e2 s2 => ?_
    refine Builds.bind (mkConst_builds wf2 one) fun v3 h3 wf3 g3 l3 e3 s3 => ?_
    refine Builds.bind (sub_builds wf3 l3 (g3.lt l2)) fun v4 h4 wf4 g4 l4 e4 s4 => ?_
    refine Builds.bind (sqrt_builds wf4 l4) fun v5 h5 wf5 g5 l5 e5 s5 => ?_
    have g := g2.trans (g3.trans (g4.trans g5))
    have e4' : ∀ η, ev h4 η v4 = 1 - ev h η x * ev h η x := fun η => by
      rw [e4, e3, g3.ev η l2, e2]; rfl
    refine (div_builds wf5 (g.lt ha) l5).congr (fun η => ?_) fun η p => ?_
    · rw [e5, e4', g.ev η ha]
      rfl
    · have hpos := one_sub_sq_pos p.2.2.2
      have t4 := s4 η ⟨s3 η trivial, (g3.Sm η l2).mpr (s2 η ⟨p.2.1, p.2.1, trivial⟩), trivial⟩
      have t5 := s5 η ⟨t4, by rw [e4']; exact hpos⟩
      refine ⟨(g.Sm η ha).mpr p.1, t5, ?_⟩
      rw [e5, e4']
      exact (Real.sqrt_pos.mpr hpos).ne'
  case atan =>
    refine Builds.bind (mul_builds wf hx hx) fun v2 h2 wf2 g2 l2 e2 s2 => ?_
    refine Builds.bind (mkConst_builds wf2 one) fun v3 h3 wf3 g3 l3 e3 s3 => ?_
    refine Builds.bind (add_builds wf3 l3 (g3.lt l2)) fun v4 h4 wf4 g4 l4 e4 s4 => ?_
    have g := g2.trans (g3.trans g4)
    have e4' : ∀ η, ev h4 η v4 = 1 + ev h η x * ev h η x := fun η => by
      rw [e4, e3, g3.ev η l2, e2]; rfl
    refine (div_builds wf4 (g.lt ha) l4).congr (fun η => ?_) fun η p => ?_
    · rw [e4', g.ev η ha]
      rfl
    · refine ⟨(g.Sm η ha).mpr p.1, s4 η ⟨s3 η trivial,
        (g3.Sm η l2).mpr (s2 η ⟨p.2.1, p.2.1, trivial⟩), trivial⟩, ?_⟩
      rw [e4']
      apply ne_of_gt
      nlinarith [mul_self_nonneg (ev h η x)]
  case atan2 =>
    refine Builds.bind (mul_builds wf ha hy) fun v1 h1 wf1 g1 l1 e1 s1 => ?_
    refine Builds.bind (mul_builds wf1 (g1.lt hx) (g1.lt hx)) fun v2 h2 wf2 g2 l2 e2 s2 => ?_
    have g12 := g1.trans g2
    refine Builds.bind (mul_builds wf2 (g12.lt hy) (g12.lt hy)) fun v3 h3 wf3 g3 l3 e3 s3 => ?_
    refine Builds.bind (add_builds wf3 (g3.lt l2) l3) fun v4 h4 wf4 g4 l4 e4 s4 => ?_
    have g := g2.trans (g3.trans g4)
    have e4' : ∀ η, ev h4 η v4 = ev h η x * ev h η x + ev h η y * ev h η y := fun η => by
      rw [e4, e3, g3.ev η l2, e2, g1.ev η hx, g12.ev η hy]
    refine (div_builds wf4 (g.lt l1) l4).congr (fun η => ?_) fun η p => ?_
    · rw [e4', g.ev η l1, e1]
      rfl
    · have sx := (g1.Sm η hx).mpr p.2.1
      have sy := (g12.Sm η hy).mpr p.2.2.1
      refine ⟨(g.Sm η l1).mpr (s1 η ⟨p.1, p.2.2.1, trivial⟩), s4 η
        ⟨(g3.Sm η l2).mpr (s2 η ⟨sx, sx, trivial⟩), s3 η ⟨sy, sy, trivial⟩, trivial⟩, ?_⟩
      rw [e4']
      apply ne_of_gt
      rcases p.2.2.2 with c | c
      · have := mul_self_pos.mpr c
        nlinarith [mul_self_nonneg (ev h η y)]
      · have := mul_pos c c
        nlinarith [mul_self_nonneg (ev h η x)]
  case cbrt =>
    refine Builds.bind (cbrt_builds wf hx) fun v1 h1 wf1 g1 l1 e1 s1 => ?_
    refine Builds.bind (mkConst_builds wf1 three) fun v2 h2 wf2 g2 l2 e2 s2 => ?_
    refine Builds.bind (mul_builds wf2 l2 (g2.lt l1)) fun v3 h3 wf3 g3 l3 e3 s3 => ?_
    have g23 := g2.trans g3
    refine Builds.bind (mul_builds wf3 l3 (g23.lt l1)) fun v4 h4 wf4 g4 l4 e4 s4 => ?_
    have g := g1.trans (g23.trans g4)
    have e4' : ∀ η, ev h4 η v4 = 3 * rcbrt (ev h η x) * rcbrt (ev h η x) := fun η => by
      rw [e4, e3, e2, g2.ev η l1, g23.ev η l1, e1]; rfl
    refine (div_builds wf4 (g.lt ha) l4).congr (fun η => ?_) fun η p => ?_
    · rw [e4', g.ev η ha]
      rfl
    · have t1 := s1 η ⟨p.2.1, p.2.2.2⟩
      refine ⟨(g.Sm η ha).mpr p.1, s4 η ⟨s3 η ⟨s2 η trivial, (g2.Sm η l1).mpr t1, trivial⟩,
        (g23.Sm η l1).mpr t1, trivial⟩, ?_⟩
      rw [e4']
      have := rcbrt_ne_zero p.2.2.2
      exact mul_ne_zero (mul_ne_zero three_ne_zero this) this
  case cos =>
    refine Builds.bind (sin_builds wf hx) fun v1 h1 wf1 g1 l1 e1 s1 => ?_
    refine Builds.bind (neg_builds wf1 l1) fun v2 h2 wf2 g2 l2 e2 s2 => ?_
    have g := g1.trans g2
    refine (mul_builds wf2 (g.lt ha) l2).congr (fun η => ?_) fun η p => ?_
    · rw [e2, e1, g.ev η ha]
      rfl
    · exact ⟨(g.Sm η ha).mpr p.1, s2 η ⟨s1 η ⟨p.2.1, trivial⟩, trivial⟩, trivial⟩
  case cosh =>
    refine Builds.bind (sinh_builds wf hx) fun v1 h1 wf1 g1 l1 e1 s1 => ?_
    refine (mul_builds wf1 (g1.lt ha) l1).congr (fun η => ?_) fun η p => ?_
    · rw [e1, g1.ev η ha]
      rfl
    · exact ⟨(g1.Sm η ha).mpr p.1, s1 η ⟨p.2.1, trivial⟩, trivial⟩
  case erf =>
    refine Builds.bind (mkConst_builds wf twoInvSqrtPi) fun v1 h1 wf1 g1 l1 e1 s1 => ?_
    refine Builds.bind (mul_builds wf1 (g1.lt ha) l1) fun v2 h2 wf2 g2 l2 e2 s2 => ?_
    have g12 := g1.trans g2
    refine Builds.bind (neg_builds wf2 (g12.lt hx)) fun v3 h3 wf3 g3 l3 e3 s3 => ?_
    have g13 := g12.trans g3
    refine Builds.bind (mul_builds wf3 l3 (g13.lt hx)) fun v4 h4 wf4 g4 l4 e4 s4 => ?_
    refine Builds.bind (exp_builds wf4 l4) fun v5 h5 wf5 g5 l5 e5 s5 => ?_
    have g := g3.trans (g4.trans g5)
    refine (mul_builds wf5 (g.lt l2) l5).congr (fun η => ?_) fun η p => ?_
    · rw [e5, e4, e3, g13.ev η hx, g12.ev η hx, g.ev η l2, e2, e1, g1.ev η ha]
      rfl
    · refine ⟨(g.Sm η l2).mpr (s2 η ⟨(g1.Sm η ha).mpr p.1, s1 η trivial, trivial⟩), s5 η
        ⟨s4 η ⟨s3 η ⟨(g12.Sm η hx).mpr p.2.1, trivial⟩, (g13.Sm η hx).mpr p.2.1, trivial⟩,
          trivial⟩, trivial⟩
  case exp =>
    refine Builds.bind (exp_builds wf hx) fun v1 h1 wf1 g1 l1 e1 s1 => ?_
    refine (mul_builds wf1 (g1.lt ha) l1).congr (fun η => ?_) fun η p => ?_
    · rw [e1, g1.ev η ha]
      rfl
    · exact ⟨(g1.Sm η ha).mpr p.1, s1 η ⟨p.2.1, trivial⟩, trivial⟩
  case hypot =>
    refine Builds.bind (mul_builds wf ha hx) fun v1 h1 wf1 g1 l1 e1 s1 => ?_
    refine Builds.bind (hypot_builds wf1 (g1.lt hx) (g1.lt hy)) fun v2 h2 wf2 g2 l2 e2 s2 => ?_
    refine (div_builds wf2 (g2.lt l1) l2).congr (fun η => ?_) fun η p => ?_
    · rw [e2, g2.ev η l1, e1, g1.ev η hx, g1.ev η hy]
      rfl
    · have po : ev h η x ≠ 0 ∨ ev h η y ≠ 0 := p.2.2.2
      refine ⟨(g2.Sm η l1).mpr (s1 η ⟨p.1, p.2.1, trivial⟩), s2 η ⟨(g1.Sm η hx).mpr p.2.1,
        (g1.Sm η hy).mpr p.2.2.1, ?_⟩, ?_⟩
      · rw [g1.ev η hx, g1.ev η hy]; exact po
      · rw [e2, g1.ev η hx, g1.ev η hy]
        apply (Real.sqrt_pos.mpr _).ne'
        rcases po with c | c <;> positivity
  case log10 =>
    refine Builds.bind (mkConst_builds wf ln10) fun v1 h1 wf1 g1 l1 e1 s1 => ?_
    refine Builds.bind (mul_builds wf1 l1 (g1.lt hx)) fun v2 h2 wf2 g2 l2 e2 s2 => ?_
    have g := g1.trans g2
    refine (div_builds wf2 (g.lt ha) l2).congr (fun η => ?_) fun η p => ?_
    · rw [e2, e1, g1.ev η hx, g.ev η ha]
      rfl
    · refine ⟨(g.Sm η ha).mpr p.1, s2 η ⟨s1 η trivial, (g1.Sm η hx).mpr p.2.1, trivial⟩, ?_⟩
      rw [e2, e1, g1.ev η hx]
      have h10 : (0 : ℝ) < Real.log 10 := Real.log_pos (by norm_num)
      exact mul_ne_zero h10.ne' (ne_of_gt p.2.2.2)
  case max =>
    refine Builds.bind (sub_builds wf hx hy) fun v1 h1 wf1 g1 l1 e1 s1 => ?_
    refine Builds.bind (isNonneg_builds wf1 l1) fun v2 h2 wf2 g2 l2 e2 s2 => ?_
    have g := g1.trans g2
    refine (mul_builds wf2 (g.lt ha) l2).congr (fun η => ?_) fun η p => ?_
    · rw [e2, e1, g.ev η ha]
      simp [gradL]
    · refine ⟨(g.Sm η ha).mpr p.1, s2 η ⟨s1 η ⟨p.2.1, p.2.2.1, trivial⟩, ?_⟩, trivial⟩
      rw [e1]
      exact sub_ne_zero.mpr p.2.2.2
  case min =>
    refine Builds.bind (sub_builds wf hy hx) fun v1 h1 wf1 g1 l1 e1 s1 => ?_
    refine Builds.bind (isNonneg_builds wf1 l1) fun v2 h2 wf2 g2 l2 e2 s2 => ?_
    have g := g1.trans g2
    refine (mul_builds wf2 (g.lt ha) l2).congr (fun η => ?_) fun η p => ?_
    · rw [e2, e1, g.ev η ha]
      simp [gradL]
    · refine ⟨(g.Sm η ha).mpr p.1, s2 η ⟨s1 η ⟨p.2.2.1, p.2.1, trivial⟩, ?_⟩, trivial⟩
      rw [e1]
      exact sub_ne_zero.mpr (Ne.symm p.2.2.2)
  case pow =>
    refine Builds.bindEq (mkConst_builds wf one) fun v1 h1 hv1 hh1 wf1 g1 l1 e1 s1 => ?_
    have hc1 : h1.op v1 = .constant := by rw [hv1, hh1]; simp [mkConst, alloc]
    refine Builds.bindEq (sub_builds wf1 (g1.lt hy) l1) fun v2 h2 hv2 hh2 wf2 g2 l2 e2 s2 => ?_
    have g12 := g1.trans g2
    refine Builds.bind (pow_builds' wf2 (g12.lt hx) l2 (by rw [g12.isConst hx]; exact hp rfl))
      fun v3 h3 wf3 g3 l3 e3 s3 => ?_
    have g13 := g12.trans g3
    refine Builds.bind (mul_builds wf3 (g13.lt ha) l3) fun v4 h4 wf4 g4 l4 e4 s4 => ?_
    have g14 := g13.trans g4
    have e2' : ∀ η, ev h2 η v2 = ev h η y - 1 := fun η => by
      rw [e2, e1, g1.ev η hy]; rfl
    refine (mul_builds wf4 l4 (g14.lt hy)).congr (fun η => ?_) fun η p => ?_
    · rw [e4, e3, e2', g12.ev η hx, g13.ev η ha, g14.ev η hy]
      rfl
    · refine ⟨s4 η ⟨(g13.Sm η ha).mpr p.1, s3 η ⟨(g12.Sm η hx).mpr p.2.1,
        s2 η ⟨(g1.Sm η hy).mpr p.2.2.1, s1 η trivial, trivial⟩, ?_⟩, trivial⟩,
        (g14.Sm η hy).mpr p.2.2.1, trivial⟩
      rw [g12.ev η hx, e2']
      rcases p.2.2.2 with c | ⟨hc, k, hk, hk'⟩
      · exact Or.inl c
      · refine Or.inr ⟨?_, k - 1, by rw [hk]; push_cast; rfl, ?_⟩
        · rw [hv2, hh2]
          exact sub_const wf1 (g1.lt hy) l1 (by rw [g1.op y hy]; exact hc) hc1
        · rcases hk' with hk' | hk'
          · exact Or.inl hk'
          · right; omega
  case sin =>
    refine Builds.bind (cos_builds wf hx) fun v1 h1 wf1 g1 l1 e1 s1 => ?_
    refine (mul_builds wf1 (g1.lt ha) l1).congr (fun η => ?_) fun η p => ?_
    · rw [e1, g1.ev η ha]
      rfl
    · exact ⟨(g1.Sm η ha).mpr p.1, s1 η ⟨p.2.1, trivial⟩, trivial⟩
  case sinh =>
    refine Builds.bind (cosh_builds wf hx) fun v1 h1 wf1 g1 l1 e1 s1 => ?_
    refine (mul_builds wf1 (g1.lt ha) l1).congr (fun η => ?_) fun η p => ?_
    · rw [e1, g1.ev η ha]
      rfl
    · exact ⟨(g1.Sm η ha).mpr p.1, s1 η ⟨p.2.1, trivial⟩, trivial⟩
  case sqrt =>
    refine Builds.bind (sqrt_builds wf hx) fun v1 h1 wf1 g1 l1 e1 s1 => ?_
    refine Builds.bind (mkConst_builds wf1 two) fun v2 h2 wf2 g2 l2 e2 s2 => ?_
    refine Builds.bind (mul_builds wf2 l2 (g2.lt l1)) fun v3 h3 wf3 g3 l3 e3 s3 => ?_
    have g := g1.trans (g2.trans g3)
    have e3' : ∀ η, ev h3 η v3 = 2 * √(ev h η x) := fun η => by
      rw [e3, e2, g2.ev η l1, e1]; rfl
    refine (div_builds wf3 (g.lt ha) l3).congr (fun η => ?_) fun η p => ?_
    · rw [e3', g.ev η ha]
      rfl
    · refine ⟨(g.Sm η ha).mpr p.1, s3 η ⟨s2 η trivial, (g2.Sm η l1).mpr
        (s1 η ⟨p.2.1, p.2.2.2⟩), trivial⟩, ?_⟩
      rw [e3']
      exact mul_ne_zero two_ne_zero (Real.sqrt_pos.mpr p.2.2.2).ne'
  case tan =>
    refine Builds.bind (cos_builds wf hx) fun v1 h1 wf1 g1 l1 e1 s1 => ?_
    refine Builds.bind (mul_builds wf1 l1 l1) fun v2 h2 wf2 g2 l2 e2 s2 => ?_
    have g := g1.trans g2
    refine (div_builds wf2 (g.lt ha) l2).congr (fun η => ?_) fun η p => ?_
    · rw [e2, e1, g.ev η ha]
      rfl
    · have t1 := s1 η ⟨p.2.1, trivial⟩
      refine ⟨(g.Sm η ha).mpr p.1, s2 η ⟨t1, t1, trivial⟩, ?_⟩
      rw [e2, e1]
      exact mul_ne_zero p.2.2.2 p.2.2.2
  case tanh =>
    refine Builds.bind (cosh_builds wf hx) fun v1 h1 wf1 g1 l1 e1 s1 => ?_
    refine Builds.bind (mul_builds wf1 l1 l1) fun v2 h2 wf2 g2 l2 e2 s2 => ?_
    have g := g1.trans g2
    refine (div_builds wf2 (g.lt ha) l2).congr (fun η => ?_) fun η p => ?_
    · rw [e2, e1, g.ev η ha]
      rfl
    · have t1 := s1 η ⟨p.2.1, trivial⟩
      refine ⟨(g.Sm η ha).mpr p.1, s2 η ⟨t1, t1, trivial⟩, ?_⟩
      rw [e2, e1]
      exact mul_ne_zero (Real.cosh_pos _).ne' (Real.cosh_pos _).ne'

theorem gradER_builds (wf : WF h) (ha : a < h.next) (hx : x < h.next) (hy : y < h.next) (op : Op)
    (hp : op = .pow → isConst h x zero = false) :
    Builds (gradER op a x y) h (fun η => gradR op (ev h η a) (ev h η x) (ev h η y))
      (SmG h op False a x y) := by
  cases op
  case add => exact Builds.pure wf ha (fun _ => rfl) fun _ p => p.1
  case sub => exact (neg_builds wf ha).congr (fun _ => rfl) fun _ p => ⟨p.1, trivial⟩
  case mul => exact (mul_builds wf ha hx).congr (fun _ => rfl) fun _ p => ⟨p.1, p.2.1, trivial⟩
  case div =>
    refine Builds.bind (neg_builds wf hx) fun v1 h1 wf1 g1 l1 e1 s1 => ?_
    refine Builds.bind (mul_builds wf1 (g1.lt ha) l1) fun v2 h2 wf2 g2 l2 e2 s2 => ?_
    have g12 := g1.trans g2
    refine Builds.bind (mul_builds wf2 (g12.lt hy) (g12.lt hy)) fun v3 h3 wf3 g3 l3 e3 s3 => ?_
    refine (div_builds wf3 (g3.lt l2) l3).congr (fun η => ?_) fun η p => ?_
    · rw [e3, g3.ev η l2, e2, e1, g1.ev η ha, g12.ev η hy]
      rfl
    · have sy := (g12.Sm η hy).mpr p.2.2.1
      refine ⟨(g3.Sm η l2).mpr (s2 η ⟨(g1.Sm η ha).mpr p.1, s1 η ⟨p.2.1, trivial⟩, trivial⟩),
        s3 η ⟨sy, sy, trivial⟩, ?_⟩
      rw [e3, g12.ev η hy]
      exact mul_ne_zero p.2.2.2 p.2.2.2
  case atan2 =>
    refine Builds.bind (neg_builds wf hx) fun v0 h0 wf0 g0 l0 e0 s0 => ?_
    refine Builds.bind (mul_builds wf0 (g0.lt ha) l0) fun v1 h1 wf1 g1' l1 e1 s1 => ?_
    have g1 := g0.trans g1'
    refine Builds.bind (mul_builds wf1 (g1.lt hx) (g1.lt hx)) fun v2 h2 wf2 g2 l2 e2 s2 => ?_
    have g12 := g1.trans g2
    refine Builds.bind (mul_builds wf2 (g12.lt hy) (g12.lt hy)) fun v3 h3 wf3 g3 l3 e3 s3 => ?_
    refine Builds.bind (add_builds wf3 (g3.lt l2) l3) fun v4 h4 wf4 g4 l4 e4 s4 => ?_
    have g := g2.trans (g3.trans g4)
    have e4' : ∀ η, ev h4 η v4 = ev h η x * ev h η x + ev h η y * ev h η y := fun η => by
      rw [e4, e3, g3.ev η l2, e2, g1.ev η hx, g12.ev η hy]
    refine (div_builds wf4 (g.lt l1) l4).congr (fun η => ?_) fun η p => ?_
    · rw [e4', g.ev η l1, e1, e0, g0.ev η ha]
      rfl
    · have sx := (g1.Sm η hx).mpr p.2.1
      have sy := (g12.Sm η hy).mpr p.2.2.1
      refine ⟨(g.Sm η l1).mpr (s1 η ⟨(g0.Sm η ha).mpr p.1, s0 η ⟨p.2.1, trivial⟩, trivial⟩), s4 η
        ⟨(g3.Sm η l2).mpr (s2 η ⟨sx, sx, trivial⟩), s3 η ⟨sy, sy, trivial⟩, trivial⟩, ?_⟩
      rw [e4']
      apply ne_of_gt
      rcases p.2.2.2 with c | c
      · have := mul_self_pos.mpr c
        nlinarith [mul_self_nonneg (ev h η y)]
      · have := mul_pos c c
        nlinarith [mul_self_nonneg (ev h η x)]
  case hypot =>
    refine Builds.bind (mul_builds wf ha hy) fun v1 h1 wf1 g1 l1 e1 s1 => ?_
    refine Builds.bind (hypot_builds wf1 (g1.lt hx) (g1.lt hy)) fun v2 h2 wf2 g2 l2 e2 s2 => ?_
    refine (div_builds wf2 (g2.lt l1) l2).congr (fun η => ?_) fun η p => ?_
    · rw [e2, g2.ev η l1, e1, g1.ev η hx, g1.ev η hy]
      rfl
    · have po : ev h η x ≠ 0 ∨ ev h η y ≠ 0 := p.2.2.2
      refine ⟨(g2.Sm η l1).mpr (s1 η ⟨p.1, p.2.2.1, trivial⟩), s2 η ⟨(g1.Sm η hx).mpr p.2.1,
        (g1.Sm η hy).mpr p.2.2.1, ?_⟩, ?_⟩
      · rw [g1.ev η hx, g1.ev η hy]; exact po
      · rw [e2, g1.ev η hx, g1.ev η hy]
        apply (Real.sqrt_pos.mpr _).ne'
        rcases po with c | c <;> positivity
  case max =>
    refine Builds.bind (sub_builds wf hy hx) fun v1 h1 wf1 g1 l1 e1 s1 => ?_
    refine Builds.bind (isPos_builds wf1 l1) fun v2 h2 wf2 g2 l2 e2 s2 => ?_
    have g := g1.trans g2
    refine (mul_builds wf2 (g.lt ha) l2).congr (fun η => ?_) fun η p => ?_
    · rw [e2, e1, g.ev η ha]
      simp only [gradR, r_le, r_zero, decide_eq_true_eq, sub_pos, mul_ite, mul_one, mul_zero]
      by_cases c : ev h η y ≤ ev h η x
      · simp [c, not_lt.mpr c]
      · simp [c, not_le.mp c]
    · refine ⟨(g.Sm η ha).mpr p.1, s2 η ⟨s1 η ⟨p.2.2.1, p.2.1, trivial⟩, ?_⟩, trivial⟩
      rw [e1]
      exact sub_ne_zero.mpr (Ne.symm p.2.2.2)
  case min =>
    refine Builds.bind (sub_builds wf hx hy) fun v1 h1 wf1 g1 l1 e1 s1 => ?_
    refine Builds.bind (isPos_builds wf1 l1) fun v2 h2 wf2 g2 l2 e2 s2 => ?_
    have g := g1.trans g2
    refine (mul_builds wf2 (g.lt ha) l2).congr (fun η => ?_) fun η p => ?_
    · rw [e2, e1, g.ev η ha]
      simp only [gradR, r_le, r_zero, decide_eq_true_eq, sub_pos, mul_ite, mul_one, mul_zero]
      by_cases c : ev h η x ≤ ev h η y
      · simp [c, not_lt.mpr c]
      · simp [c, not_le.mp c]
    · refine ⟨(g.Sm η ha).mpr p.1, s2 η ⟨s1 η ⟨p.2.1, p.2.2.1, trivial⟩, ?_⟩, trivial⟩
      rw [e1]
      exact sub_ne_zero.mpr p.2.2.2
  case pow =>
    refine Builds.bind (pow_builds' wf hx hy (hp rfl)) fun v1 h1 wf1 g1 l1 e1 s1 => ?_
    refine Builds.bind (mul_builds wf1 (g1.lt ha) l1) fun v2 h2 wf2 g2 l2 e2 s2 => ?_
    have g12 := g1.trans g2
    refine Builds.bind (log_builds wf2 (g12.lt hx)) fun v3 h3 wf3 g3 l3 e3 s3 => ?_
    refine (mul_builds wf3 (g3.lt l2) l3).congr (fun η => ?_) fun η p => ?_
    · rw [e3, g3.ev η l2, e2, e1, g1.ev η ha, g12.ev η hx]
      rfl
    · have hpos : 0 < ev h η x := by
        rcases p.2.2.2 with c | c
        · exact c
        · exact c.1.elim
      refine ⟨(g3.Sm η l2).mpr (s2 η ⟨(g1.Sm η ha).mpr p.1, s1 η ⟨p.2.1, p.2.2.1, Or.inl hpos⟩,
        trivial⟩), s3 η ⟨(g12.Sm η hx).mpr p.2.1, ?_⟩, trivial⟩
      rw [g12.ev η hx]
      exact hpos
  all_goals exact mkConst_builds' wf fun _ => rfl

end Slp
