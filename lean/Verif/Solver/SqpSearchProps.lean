import Verif.Solver.LineSearchProps
import Verif.Solver.SqpModel
import Verif.Solver.NewtonModel

/-! C27: the line searches of the SQP solver and of Newton's method. -/

namespace Slp

open Classical

variable {n m : ℕ}

/-- The second-order corrections of a line search with the trial point `t0` on the full step: after `l` corrections,
the corrected constraint values are `ce` and lead to the point `t`, and the point before violates the constraints by `w`
(compare `Corrected`). -/
inductive SqpCorrected (env : Env) (P : Nlp n m 0) (st : SqpState n m) (t0 : SqpTrial n m) :
    ℕ → Vec m → SqpTrial n m → Fl → Prop
  | start {w : Fl} : SqpCorrected env P st t0 0 st.e.ce t0 w
  | next {l ce t w} (h : SqpCorrected env P st t0 l ce t w) (hw : l = 0 ∨ ¬ norm1 (List.ofFn t.ce) > .fin 0.99 * w)
      (ce' : Vec m) (hce : ∀ j, ce' j = 1 * ce j + t.ce j) (i : ℕ) :
      SqpCorrected env P st t0 (l + 1) ce' (sqpTrial P st (sqpComputeStep env st ce' i) 1) (norm1 (List.ofFn t.ce))

/-- A correction leads to a point on a step. -/
theorem SqpCorrected.step {env : Env} {P : Nlp n m 0} {st : SqpState n m} {t0 : SqpTrial n m} {l : ℕ} {ce : Vec m}
    {t : SqpTrial n m} {w : Fl} (h : SqpCorrected env P st t0 (l + 1) ce t w) :
    ∃ i, t = sqpTrial P st (sqpComputeStep env st ce i) 1 := by
  cases h with
  | next h hw ce' hce i => exact ⟨i, rfl⟩

/-- What an accepted point of the SQP solver's line search with the step `p` is, if `c` full steps in a row were
rejected before (compare `Acceptable`). -/
def SqpAcceptable (env : Env) (P : Nlp n m 0) (st : SqpState n m) (p : SqpStep n m) (D : Fl) (F : Filter) (c : ℕ) :
    Reason → SqpTrial n m → Fl → Prop
  | .filter, t, used => ∃ a, used = .fin a ∧ 1e-7 ≤ a ∧ a ≤ 1 ∧ t = sqpTrial P st p used ∧
      t.f.isFinite = true ∧ t.ce.Finite ∧ FilterAccepts F c st.entry (sqpEntry t.f t.ce) D used
  | .correction, t, used => ∃ l ce w, let t0 := sqpTrial P st p 1
      used = 1 ∧ l < 5 ∧ SqpCorrected env P st t0 (l + 1) ce t w ∧ FilterAccepts F c st.entry (sqpEntry t.f t.ce) D 1 ∧
      t0.f.isFinite = true ∧ t0.ce.Finite ∧ FilterRejects F c st.entry (sqpEntry t0.f t0.ce) D 1 ∧
      norm1 (List.ofFn t0.ce) ≥ norm1 (List.ofFn st.e.ce)
  | .kktError, t, used => used = 1 ∧ t = sqpTrial P st p 1 ∧
      errOneSqp env (t.eval P) t.y ≤ .fin 0.999 * errOneSqp env st.e st.y

theorem sqpSocLoop_correct (env : Env) (P : Nlp n m 0) (st : SqpState n m) (D : Fl) (t0 : SqpTrial n m) (F0 : Filter)
    (c0 r l : ℕ) (ce : Vec m) (t : SqpTrial n m) (w viol : Fl) (F : Filter) (i : ℕ)
    (h : F0.Reached (ResetAllowed F0 c0 st.entry) F) (hl : SqpCorrected env P st t0 l ce t w)
    (hv : viol = norm1 (List.ofFn t.ce)) (hw : l = 0 ∨ ¬ viol > .fin 0.99 * w) :
    (∀ b, (sqpSocLoop env P st D 1 r ce t viol F i).accepted = some b →
      ∃ l' ce' w', l' < l + r ∧ SqpCorrected env P st t0 (l' + 1) ce' b w' ∧
        FilterAccepts F0 c0 st.entry (sqpEntry b.f b.ce) D 1) ∧
    ((sqpSocLoop env P st D 1 r ce t viol F i).accepted = none →
      F0.Reached (ResetAllowed F0 c0 st.entry) (sqpSocLoop env P st D 1 r ce t viol F i).filter ∧
      (sqpSocLoop env P st D 1 r ce t viol F i).filter.resets ≤ F.resets) := by
  induction r generalizing l ce t w viol F i with
  | zero => exact ⟨by intro b hb; simp [sqpSocLoop] at hb, fun _ => ⟨h, le_rfl⟩⟩
  | succ r ih =>
    subst hv
    have hn := hl.next hw _ (fun _ => rfl) i
    rw [sqpSocLoop]
    split_ifs with h1 h2
    · refine ⟨?_, by simp⟩
      intro b hb
      simp only [Option.some.injEq] at hb
      subst hb
      exact ⟨l, _, _, by omega, hn, h.tryAdd h1⟩
    · refine ⟨by simp, fun _ => ⟨h.step h1, Filter.resets_step h1⟩⟩
    · obtain ⟨ih1, ih2⟩ := ih _ _ _ _ (norm1 _) _ (i + 1) (h.step h1) hn rfl (.inr h2)
      refine ⟨fun b hb => ?_, fun hn => ⟨(ih2 hn).1, (ih2 hn).2.trans (Filter.resets_step h1)⟩⟩
      obtain ⟨l', ce', w', hl', h'⟩ := ih1 b hb
      exact ⟨l', ce', w', by omega, h'⟩

theorem sqpSoc_correct (env : Env) (P : Nlp n m 0) (st : SqpState n m) (D α : Fl) (F0 F : Filter) (c0 i : ℕ)
    (t : SqpTrial n m) (h : F0.Reached (ResetAllowed F0 c0 st.entry) F) :
    (∀ b, (sqpSoc env P st D α t F i).accepted = some b → α = 1 ∧ norm1 (List.ofFn t.ce) ≥ norm1 (List.ofFn st.e.ce) ∧
      ∃ l ce w, l < 5 ∧ SqpCorrected env P st t (l + 1) ce b w ∧ FilterAccepts F0 c0 st.entry (sqpEntry b.f b.ce) D α) ∧
    ((sqpSoc env P st D α t F i).accepted = none →
      F0.Reached (ResetAllowed F0 c0 st.entry) (sqpSoc env P st D α t F i).filter ∧
      (sqpSoc env P st D α t F i).filter.resets ≤ F.resets) := by
  unfold sqpSoc
  split
  · rename_i hc
    obtain ⟨rfl, hv⟩ := hc
    obtain ⟨h1, h2⟩ := sqpSocLoop_correct env P st D t F0 c0 5 0 st.e.ce t 0 (norm1 (List.ofFn t.ce)) F i h .start rfl
      (.inl rfl)
    exact ⟨fun b hb => ⟨rfl, hv, by simpa using h1 b hb⟩, h2⟩
  · exact ⟨by intro b hb; simp at hb, fun _ => ⟨h, le_rfl⟩⟩

theorem sqpLineSearch_ends (env : Env) (P : Nlp n m 0) (st : SqpState n m) (p : SqpStep n m) (D : Fl) (r h : ℕ) (a : ℝ)
    (F : Filter) (c i : ℕ) (h1 : 1 ≤ h) (ha : a < 1e-7 * 2 ^ h) (hr : h + F.resets ≤ r) :
    ∃ ls, sqpLineSearch env P st p D r (.fin a) F c i = some ls := by
  induction r generalizing h a F c i with
  | zero => omega
  | succ r ih =>
    have hhalf (F' : Filter) (c' i' : ℕ) (hF : F'.resets ≤ F.resets) (hn : ¬ Fl.fin a * .fin 0.5 < alphaMin) :
        ∃ ls, sqpLineSearch env P st p D r (Fl.fin a * .fin 0.5) F' c' i' = some ls := by
      rw [half_lt, not_lt] at hn
      have h2 : 2 ≤ h := by
        by_contra hlt
        obtain rfl : h = 1 := by omega
        linarith
      obtain ⟨h', rfl⟩ : ∃ h', h = h' + 1 := ⟨h - 1, by omega⟩
      rw [Fl.fin_mul]
      exact ih h' (a * 0.5) F' c' i' (by omega) (by rw [pow_succ] at ha; linarith) (by omega)
    rw [sqpLineSearch]
    simp only
    by_cases hfin : (sqpTrial P st p (.fin a)).f.isFinite = true ∧ (sqpTrial P st p (.fin a)).ce.Finite
    · rw [if_neg (not_not.2 hfin)]
      by_cases hacc : (F.tryAdd st.entry (sqpEntry (sqpTrial P st p (.fin a)).f
          (sqpTrial P st p (.fin a)).ce) D (.fin a)).2 = true
      · rw [if_pos hacc]; exact ⟨_, rfl⟩
      · rw [if_neg hacc]
        have hs := (sqpSoc_correct env P st D (.fin a) _ _ 0 i (sqpTrial P st p (.fin a))
          (Filter.Reached.refl (F.tryAdd st.entry (sqpEntry (sqpTrial P st p (.fin a)).f
          (sqpTrial P st p (.fin a)).ce) D (.fin a)).1)).2
        generalize sqpSoc env P st D (.fin a) _ _ i = soc at hs ⊢
        cases hso : soc.accepted with
        | some b => exact ⟨_, rfl⟩
        | none =>
          obtain ⟨-, hs⟩ := hs hso
          have hs' := hs.trans (Filter.resets_step hacc)
          simp only [Option.elim]
          by_cases hreset : (if Fl.fin a = 1 then c + 1 else c) ≥ 4 ∧
              soc.filter.maxViolation > st.entry.violation / .fin 10 ∧ soc.filter.lastRejectionDueToFilter = true
          · rw [if_pos hreset]
            have h3 := Filter.resets_flag hreset.2.2
            exact ih h a soc.filter.shrink _ _ h1 ha (by rw [Filter.resets_shrink]; omega)
          · rw [if_neg hreset]
            by_cases hlt : Fl.fin a * .fin 0.5 < alphaMin
            · rw [if_pos hlt]
              split <;> exact ⟨_, rfl⟩
            · rw [if_neg hlt]
              exact hhalf _ _ _ hs' hlt
    · rw [if_pos hfin]
      by_cases hlt : Fl.fin a * .fin 0.5 < alphaMin
      · rw [if_pos hlt]; exact ⟨_, rfl⟩
      · rw [if_neg hlt]; exact hhalf F c i le_rfl hlt

/-- C27: the SQP solver's line search ends. -/
theorem sqp_line_search_ends (env : Env) (P : Nlp n m 0) (st : SqpState n m) (p : SqpStep n m) (D : Fl) (F : Filter) (c i : ℕ) :
    ∃ ls, sqpLineSearch env P st p D lineSearchRounds 1 F c i = some ls := by
  refine sqpLineSearch_ends env P st p D _ 24 1 F c i (by norm_num) (by norm_num) ?_
  unfold lineSearchRounds Filter.resets
  split <;> omega

theorem sqpLineSearch_sound (env : Env) (P : Nlp n m 0) (st : SqpState n m) (p : SqpStep n m) (D : Fl) (F0 : Filter) (c0 r : ℕ)
    (a : ℝ) (F : Filter) (c i : ℕ) (h1 : a ≤ 1) (h2 : 1e-7 ≤ a) (hF : F0.Reached (ResetAllowed F0 c0 st.entry) F)
    (hc : ¬ F.Quiet → c ≤ if a = 1 then c0 else c0 + 1) (ls : SqpLineSearch n m)
    (hls : sqpLineSearch env P st p D r (.fin a) F c i = some ls) (R : Reason) (t : SqpTrial n m) (used : Fl)
    (hacc : ls.accepted = some (R, t, used)) : SqpAcceptable env P st p D F0 c0 R t used := by
  induction r generalizing a F c i with
  | zero => simp [sqpLineSearch] at hls
  | succ r ih =>
    have hhalf (F' : Filter) (c' i' : ℕ) (hF : F0.Reached (ResetAllowed F0 c0 st.entry) F') (hc' : ¬ F'.Quiet → c' ≤ c0 + 1) (hn : ¬ Fl.fin a * .fin 0.5 < alphaMin)
        (he : sqpLineSearch env P st p D r (Fl.fin a * .fin 0.5) F' c' i' = some ls) :
        SqpAcceptable env P st p D F0 c0 R t used := by
      rw [half_lt, not_lt] at hn
      rw [Fl.fin_mul] at he
      exact ih (a * 0.5) F' c' i' (by linarith) (by linarith) hF
        (fun hq => by rw [if_neg (by intro he; linarith)]; exact hc' hq) he
    rw [sqpLineSearch] at hls
    simp only at hls
    by_cases hfin : (sqpTrial P st p (.fin a)).f.isFinite = true ∧ (sqpTrial P st p (.fin a)).ce.Finite
    · rw [if_neg (not_not.2 hfin)] at hls
      by_cases ht : (F.tryAdd st.entry (sqpEntry (sqpTrial P st p (.fin a)).f
          (sqpTrial P st p (.fin a)).ce) D (.fin a)).2 = true
      · rw [if_pos ht] at hls
        obtain rfl := Option.some.inj hls
        obtain ⟨rfl, rfl, rfl⟩ : Reason.filter = R ∧ _ = t ∧ Fl.fin a = used := by simpa using hacc
        exact ⟨a, rfl, h2, h1, rfl, hfin.1, hfin.2, hF.tryAdd ht⟩
      · rw [if_neg ht] at hls
        obtain ⟨hs1, hs2⟩ := sqpSoc_correct env P st D (.fin a) F0 _ c0 i (sqpTrial P st p (.fin a)) (hF.step ht)
        generalize sqpSoc env P st D (.fin a) _ _ i = soc at hs1 hs2 hls
        cases hso : soc.accepted with
        | some b =>
          rw [hso] at hls
          obtain rfl := Option.some.inj hls
          obtain ⟨rfl, rfl, rfl⟩ : Reason.correction = R ∧ b = t ∧ Fl.fin a = used := by simpa using hacc
          obtain ⟨he, hv, l, ce, wv, hl, hcor, hacc'⟩ := hs1 b hso
          rw [he] at hacc' hcor hv hfin ht
          exact ⟨l, ce, wv, he, hl, hcor, hacc', hfin.1, hfin.2, hF.rejects ht, hv⟩
        | none =>
          have hr := (hs2 hso).1
          have hq : ¬ soc.filter.Quiet → (if Fl.fin a = 1 then c + 1 else c) ≤ c0 + 1 := by
            intro hq
            have h4 := (hs2 hso).2.trans (Filter.resets_step ht)
            have h5 := hc fun hF => by
              unfold Filter.resets at h4
              rw [if_neg hq, if_pos hF] at h4
              omega
            rw [Fl.one_def, Fl.fin.injEq]
            split_ifs at h5 ⊢ <;> omega
          rw [hso] at hls
          simp only [Option.elim] at hls
          by_cases hreset : (if Fl.fin a = 1 then c + 1 else c) ≥ 4 ∧
              soc.filter.maxViolation > st.entry.violation / .fin 10 ∧ soc.filter.lastRejectionDueToFilter = true
          · rw [if_pos hreset] at hls
            refine ih a _ _ _ h1 h2 (hr.shrink hreset.2.2 fun hsim => ⟨?_, ?_⟩)
              (fun hn => absurd (Filter.shrink_quiet _) hn) hls
            · have := hq fun hq => by simpa [hq.2] using hreset.2.2
              have := hreset.1
              omega
            · rw [← hsim.max]; exact hreset.2.1
          · rw [if_neg hreset] at hls
            by_cases hlt : Fl.fin a * .fin 0.5 < alphaMin
            · rw [if_pos hlt] at hls
              split at hls
              · rename_i hle
                obtain rfl := Option.some.inj hls
                obtain ⟨rfl, rfl, rfl⟩ : Reason.kktError = R ∧ _ = t ∧ 1 = used := by simpa using hacc
                exact ⟨rfl, rfl, hle⟩
              · obtain rfl := Option.some.inj hls
                simp at hacc
            · rw [if_neg hlt] at hls
              exact hhalf _ _ _ hr hq hlt hls
    · rw [if_pos hfin] at hls
      by_cases hlt : Fl.fin a * .fin 0.5 < alphaMin
      · rw [if_pos hlt] at hls
        obtain rfl := Option.some.inj hls
        simp at hacc
      · rw [if_neg hlt] at hls; exact hhalf F c i hF (fun hq => (hc hq).trans (by split <;> omega)) hlt hls

/-- C27: the SQP solver takes a step only if its point is acceptable. -/
theorem sqp_line_search_sound (env : Env) (P : Nlp n m 0) (st : SqpState n m) (p : SqpStep n m) (D : Fl) (F : Filter) (c i : ℕ)
    (ls : SqpLineSearch n m) (hls : sqpLineSearch env P st p D lineSearchRounds 1 F c i = some ls) (R : Reason)
    (t : SqpTrial n m) (used : Fl) (hacc : ls.accepted = some (R, t, used)) :
    SqpAcceptable env P st p D F c R t used :=
  sqpLineSearch_sound env P st p D F c _ 1 F c i le_rfl (by norm_num) (.refl F) (fun _ => by simp) ls hls R t used hacc

/-! ### Newton's method -/

/-- What an accepted point of the line search of Newton's method is: a point on the step whose cost is finite and
which the filter accepts, or the point on the full step, whose gradient's norm is at most 0.999 times the current
one. -/
def NewtonAcceptable (env : Env) (P : Nlp n 0 0) (st : NewtonState n) (i : ℕ) (D : Fl) (F : Filter) :
    Reason → Vec n → Fl → Fl → Prop
  | .filter, x, f, used => ∃ a, used = .fin a ∧ 1e-20 ≤ a ∧ a ≤ 1 ∧ x = newtonPoint env st i used ∧ f = P.f x ∧
      f.isFinite = true ∧ (F.tryAdd (newtonEntry st.f) (newtonEntry f) D used).2 = true
  | .correction, _, _, _ => False
  | .kktError, x, f, used => used = 1 ∧ x = newtonPoint env st i 1 ∧ f = P.f x ∧
      errOneNewton env (P.g x) ≤ .fin 0.999 * errOneNewton env st.g

theorem newton_half_lt {a : ℝ} : (Fl.fin a * .fin 0.5 < newtonAlphaMin) ↔ a < 2 * 1e-20 := by
  unfold newtonAlphaMin; rw [Fl.fin_mul, Fl.fin_lt]
  constructor <;> intro h <;> linarith

theorem newtonLineSearch_ends (env : Env) (P : Nlp n 0 0) (st : NewtonState n) (i : ℕ) (D : Fl) (r : ℕ) (a : ℝ)
    (F : Filter) (ha : a < 1e-20 * 2 ^ (r + 1)) :
    ∃ ls, newtonLineSearch env P st i D (r + 1) (.fin a) F = some ls := by
  induction r generalizing a F with
  | zero =>
    rw [newtonLineSearch]
    have hlt : Fl.fin a * .fin 0.5 < newtonAlphaMin := newton_half_lt.2 (by linarith)
    simp only [if_pos hlt]
    split_ifs <;> exact ⟨_, rfl⟩
  | succ r ih =>
    have hhalf (F' : Filter) : ∃ ls, newtonLineSearch env P st i D (r + 1) (Fl.fin a * .fin 0.5) F' = some ls := by
      rw [Fl.fin_mul]
      exact ih _ _ (by rw [pow_succ] at ha; linarith)
    rw [newtonLineSearch]
    simp only
    split_ifs <;> first
      | exact ⟨_, rfl⟩
      | exact hhalf _

/-- C27: the line search of Newton's method ends. -/
theorem newton_line_search_ends (env : Env) (P : Nlp n 0 0) (st : NewtonState n) (i : ℕ) (D : Fl) (F : Filter) :
    ∃ ls, newtonLineSearch env P st i D newtonRounds 1 F = some ls :=
  newtonLineSearch_ends env P st i D 67 1 F (by norm_num)

theorem newtonLineSearch_sound (env : Env) (P : Nlp n 0 0) (st : NewtonState n) (i : ℕ) (D : Fl) (F0 : Filter) (r : ℕ)
    (a : ℝ) (F : Filter) (h1 : a ≤ 1) (h2 : 1e-20 ≤ a) (hF : F0.Similar F) (ls : NewtonLineSearch n)
    (hls : newtonLineSearch env P st i D r (.fin a) F = some ls) (R : Reason) (x : Vec n) (f used : Fl)
    (hacc : ls.accepted = some (R, x, f, used)) : NewtonAcceptable env P st i D F0 R x f used := by
  induction r generalizing a F with
  | zero => simp [newtonLineSearch] at hls
  | succ r ih =>
    have hhalf (F' : Filter) (hF : F0.Similar F') (hn : ¬ Fl.fin a * .fin 0.5 < newtonAlphaMin)
        (he : newtonLineSearch env P st i D r (Fl.fin a * .fin 0.5) F' = some ls) :
        NewtonAcceptable env P st i D F0 R x f used := by
      rw [newton_half_lt, not_lt] at hn
      rw [Fl.fin_mul] at he
      exact ih (a * 0.5) F' (by linarith) (by linarith) hF he
    rw [newtonLineSearch] at hls
    simp only at hls
    by_cases hfin : (P.f (newtonPoint env st i (.fin a))).isFinite = true
    · rw [if_neg (not_not.2 hfin)] at hls
      by_cases ht : (F.tryAdd (newtonEntry st.f) (newtonEntry (P.f (newtonPoint env st i (.fin a)))) D
          (.fin a)).2 = true
      · rw [if_pos ht] at hls
        obtain rfl := Option.some.inj hls
        obtain ⟨rfl, rfl, rfl, rfl⟩ : Reason.filter = R ∧ _ = x ∧ _ = f ∧ Fl.fin a = used := by simpa using hacc
        exact ⟨a, rfl, h2, h1, rfl, rfl, hfin, by rw [← hF.tryAdd]; exact ht⟩
      · rw [if_neg ht] at hls
        have hr := hF.trans (Filter.tryAdd_similar ht)
        by_cases hlt : Fl.fin a * .fin 0.5 < newtonAlphaMin
        · rw [if_pos hlt] at hls
          split at hls
          · rename_i hle
            obtain rfl := Option.some.inj hls
            obtain ⟨rfl, rfl, rfl, rfl⟩ : Reason.kktError = R ∧ _ = x ∧ _ = f ∧ 1 = used := by simpa using hacc
            exact ⟨rfl, rfl, rfl, hle⟩
          · obtain rfl := Option.some.inj hls
            simp at hacc
        · rw [if_neg hlt] at hls
          exact hhalf _ hr hlt hls
    · rw [if_pos hfin] at hls
      by_cases hlt : Fl.fin a * .fin 0.5 < newtonAlphaMin
      · rw [if_pos hlt] at hls
        obtain rfl := Option.some.inj hls
        simp at hacc
      · rw [if_neg hlt] at hls; exact hhalf F hF hlt hls

/-- C27: Newton's method takes a step only if its point is acceptable. -/
theorem newton_line_search_sound (env : Env) (P : Nlp n 0 0) (st : NewtonState n) (i : ℕ) (D : Fl) (F : Filter)
    (ls : NewtonLineSearch n) (hls : newtonLineSearch env P st i D newtonRounds 1 F = some ls) (R : Reason) (x : Vec n)
    (f used : Fl) (hacc : ls.accepted = some (R, x, f, used)) : NewtonAcceptable env P st i D F R x f used :=
  newtonLineSearch_sound env P st i D F _ 1 F le_rfl (by norm_num) (.refl F) ls hls R x f used hacc

end Slp
