import Verif.Solver.LineSearchLemmas

/-! C27: the interior-point solver's line search. -/

namespace Slp

open Classical

variable {n m k : ℕ}

/-- The filter after a reset: no entries, a tenth of the limit on the violation. -/
noncomputable def resetFilter (F : Filter) : Filter := ⟨F.minViolation, F.maxViolation * .fin 0.1, [], false⟩

/-- The filter may be reset during a line search before which `c` full steps in a row were rejected. -/
def ResetAllowed (F : Filter) (c : ℕ) (current : FilterEntry) : Prop :=
  3 ≤ c ∧ F.maxViolation > current.violation / .fin 10

/-- The filter as it was at the start of the line search, or as after a reset if that is allowed, accepts the point
for the step size `α`. -/
def FilterAccepts (F : Filter) (c : ℕ) (current trial : FilterEntry) (D α : Fl) : Prop :=
  (F.tryAdd current trial D α).2 = true ∨
    ResetAllowed F c current ∧ ((resetFilter F).tryAdd current trial D α).2 = true

/-- Likewise for the rejection of a point. -/
def FilterRejects (F : Filter) (c : ℕ) (current trial : FilterEntry) (D α : Fl) : Prop :=
  (F.tryAdd current trial D α).2 = false ∨
    ResetAllowed F c current ∧ ((resetFilter F).tryAdd current trial D α).2 = false

/-- The second-order corrections of a line search that starts with the step size `αmax` and the trial point `t0`.
`Corrected … l ce cis αs t w` holds if after `l` corrections the corrected values of `cₑ` and `cᵢ − s` are `ce` and `cis`
and lead to the point `t` with the step size `αs`, and the point before violates the constraints by `w`. After the first
correction, another one is made only if the one before has not left more than 0.99 times the violation. -/
inductive Corrected (env : Env) (P : Nlp n m k) (st : IpmState n m k) (αmax : Fl) (t0 : Trial n m k) :
    ℕ → Vec m → Vec k → Fl → Trial n m k → Fl → Prop
  | start {w : Fl} : Corrected env P st αmax t0 0 st.e.ce (fun j => st.e.ci j - st.s j) αmax t0 w
  | next {l ce cis αs t w} (h : Corrected env P st αmax t0 l ce cis αs t w)
      (hw : l = 0 ∨ ¬ norm1 (List.ofFn t.ce) + norm1 (List.ofFn fun i => t.ci i - t.s i) > .fin 0.99 * w)
      (ce' : Vec m) (cis' : Vec k)
      (hce : ∀ j, ce' j = αs * ce j + t.ce j) (hcis : ∀ j, cis' j = αs * cis j + t.ci j - t.s j) (i : ℕ)
      (q : IpmStep n m k) (hq : q = ipmComputeStep env st (st.socRhs env ce' cis') cis' i) :
      Corrected env P st αmax t0 (l + 1) ce' cis' (boundaryF st.s q.ps st.τ)
        (ipmTrial P st q (boundaryF st.s q.ps st.τ) (boundaryF st.z q.pz st.τ) False)
        (norm1 (List.ofFn t.ce) + norm1 (List.ofFn fun i => t.ci i - t.s i))

/-- A correction leads to a point on a step. -/
theorem Corrected.step {env : Env} {P : Nlp n m k} {st : IpmState n m k} {αmax : Fl} {t0 : Trial n m k} {l : ℕ}
    {ce : Vec m} {cis : Vec k} {αs : Fl} {t : Trial n m k} {w : Fl} (h : Corrected env P st αmax t0 (l + 1) ce cis αs t w) :
    ∃ i, let q := ipmComputeStep env st (st.socRhs env ce cis) cis i
      αs = boundaryF st.s q.ps st.τ ∧ t = ipmTrial P st q αs (boundaryF st.z q.pz st.τ) False := by
  cases h with
  | next h hw ce' cis' hce hcis i q hq => exact ⟨i, by rw [← hq], by rw [← hq]⟩

/-- The slacks become the constraint values: in feasible mode, while no constraint is violated or active. -/
def SlacksFollow (opts : SolverOptions) (st : IpmState n m k) : Prop :=
  opts.feasibleIpm = true ∧ ∀ i, st.e.ci i > 0

/-- The cost and the constraints have finite values. -/
def ValuesFinite (t : Trial n m k) : Prop :=
  t.f.isFinite = true ∧ (∀ i, (t.ce i).isFinite = true) ∧ ∀ i, (t.ci i).isFinite = true

/-- What an accepted point of a line search with the step `p`, the largest step sizes `amax` and `αz` and the filter
`F` is, for each reason: a point on the step that the filter accepts, with a step size that is the largest or at
least `1e-7`; a point on a corrected step that the filter accepts, after at most five corrections and only if the
point on the full step has finite values, is not accepted and violates the constraints at least as much as the current
point; the point on the full step, whose KKT error is at most 0.999 times the current one. Slacks are moved along
the step too unless they follow the constraints. -/
def Acceptable (env : Env) (opts : SolverOptions) (P : Nlp n m k) (st : IpmState n m k) (p : IpmStep n m k)
    (amax : ℝ) (αz D : Fl) (F : Filter) (c : ℕ) : Reason → Trial n m k → Fl → Prop
  | .filter, t, used => ∃ a, used = .fin a ∧ 0 ≤ a ∧ a ≤ amax ∧ (a = amax ∨ 1e-7 ≤ a) ∧
      t = ipmTrial P st p used αz (SlacksFollow opts st) ∧ ValuesFinite t ∧
      FilterAccepts F c st.entry (t.entry st.μ) D used
  | .correction, t, used => ∃ l ce cis w, let t0 := ipmTrial P st p (.fin amax) αz (SlacksFollow opts st)
      l < 5 ∧ Corrected env P st (.fin amax) t0 (l + 1) ce cis used t w ∧
      FilterAccepts F c st.entry (t.entry st.μ) D (.fin amax) ∧ ValuesFinite t0 ∧
      FilterRejects F c st.entry (t0.entry st.μ) D (.fin amax) ∧
      norm1 (List.ofFn t0.ce) + norm1 (List.ofFn fun i => t0.ci i - t0.s i) ≥
        norm1 (List.ofFn st.e.ce) + norm1 (List.ofFn fun i => st.e.ci i - st.s i)
  | .kktError, t, used => used = .fin amax ∧ t = ipmTrial P st p used αz False ∧
      errOneIpm env (t.eval P) t.s t.y t.z st.μ ≤ .fin 0.999 * errOneIpm env st.e st.s st.y st.z st.μ

theorem socLoop_correct (env : Env) (P : Nlp n m k) (st : IpmState n m k) (D α αmax : Fl) (t0 : Trial n m k)
    (F0 : Filter) (c0 r l : ℕ) (αs : Fl) (ce : Vec m) (cis : Vec k) (t : Trial n m k) (w viol : Fl) (F : Filter) (i : ℕ)
    (h : F0.Reached (ResetAllowed F0 c0 st.entry) F) (hl : Corrected env P st αmax t0 l ce cis αs t w)
    (hv : viol = violationF t.ce t.ci t.s) (hw : l = 0 ∨ ¬ viol > .fin 0.99 * w) :
    (∀ b, (socLoop env P st D α r αs ce cis t viol F i).accepted = some b →
      ∃ l' ce' cis' w', l' < l + r ∧ Corrected env P st αmax t0 (l' + 1) ce' cis' b.2.1 b.1 w' ∧
        FilterAccepts F0 c0 st.entry (b.1.entry st.μ) D α) ∧
    ((socLoop env P st D α r αs ce cis t viol F i).accepted = none →
      F0.Reached (ResetAllowed F0 c0 st.entry) (socLoop env P st D α r αs ce cis t viol F i).filter ∧
      (socLoop env P st D α r αs ce cis t viol F i).filter.resets ≤ F.resets) := by
  induction r generalizing l αs ce cis t w viol F i with
  | zero => exact ⟨by intro b hb; simp [socLoop] at hb, fun _ => ⟨h, le_rfl⟩⟩
  | succ r ih =>
    subst hv
    have hn := hl.next hw _ _ (fun _ => rfl) (fun _ => rfl) i _ rfl
    rw [socLoop]
    split_ifs with h1 h2
    · refine ⟨?_, by simp⟩
      intro b hb
      simp only [Option.some.injEq] at hb
      subst hb
      exact ⟨l, _, _, _, by omega, hn, h.tryAdd h1⟩
    · refine ⟨by simp, fun _ => ⟨h.step h1, Filter.resets_step h1⟩⟩
    · obtain ⟨ih1, ih2⟩ := ih _ _ _ _ _ _ (violationF _ _ _) _ (i + 1) (h.step h1) hn rfl (.inr h2)
      refine ⟨fun b hb => ?_, fun hn => ⟨(ih2 hn).1, (ih2 hn).2.trans (Filter.resets_step h1)⟩⟩
      obtain ⟨l', ce', cis', w', hl', h'⟩ := ih1 b hb
      exact ⟨l', ce', cis', w', by omega, h'⟩

/-- The corrections of one round of the line search. -/
theorem ipmSoc_correct (env : Env) (P : Nlp n m k) (st : IpmState n m k) (D α αmax : Fl) (F0 F : Filter) (c0 i : ℕ)
    (t : Trial n m k) (h : F0.Reached (ResetAllowed F0 c0 st.entry) F) :
    (∀ b, (ipmSoc env P st D α αmax t F i).accepted = some b → α = αmax ∧
      violationF t.ce t.ci t.s ≥ violationF st.e.ce st.e.ci st.s ∧
      ∃ l ce cis w, l < 5 ∧ Corrected env P st αmax t (l + 1) ce cis b.2.1 b.1 w ∧
        FilterAccepts F0 c0 st.entry (b.1.entry st.μ) D α) ∧
    ((ipmSoc env P st D α αmax t F i).accepted = none →
      F0.Reached (ResetAllowed F0 c0 st.entry) (ipmSoc env P st D α αmax t F i).filter ∧ (ipmSoc env P st D α αmax t F i).filter.resets ≤ F.resets) := by
  unfold ipmSoc
  split
  · rename_i hc
    obtain ⟨rfl, hv⟩ := hc
    obtain ⟨h1, h2⟩ := socLoop_correct env P st D α α t F0 c0 5 0 α st.e.ce (fun j => st.e.ci j - st.s j) t
      0 (violationF t.ce t.ci t.s) F i h .start rfl (.inl rfl)
    exact ⟨fun b hb => ⟨rfl, hv, by simpa using h1 b hb⟩, h2⟩
  · exact ⟨by intro b hb; simp at hb, fun _ => ⟨h, le_rfl⟩⟩

/-- The line search ends. -/
theorem ipmLineSearch_ends (env : Env) (opts : SolverOptions) (P : Nlp n m k) (st : IpmState n m k)
    (p : IpmStep n m k) (αmax αz D : Fl) (r h : ℕ) (a : ℝ) (F : Filter) (c i : ℕ) (h1 : 1 ≤ h)
    (ha : a < 1e-7 * 2 ^ h) (hr : h + F.resets ≤ r) :
    ∃ ls, ipmLineSearch env opts P st p αmax αz D r (.fin a) F c i = some ls := by
  induction r generalizing h a F c i with
  | zero => omega
  | succ r ih =>
    have hhalf (F' : Filter) (c' i' : ℕ) (hF : F'.resets ≤ F.resets) (hn : ¬ Fl.fin a * .fin 0.5 < alphaMin) :
        ∃ ls, ipmLineSearch env opts P st p αmax αz D r (Fl.fin a * .fin 0.5) F' c' i' = some ls := by
      rw [half_lt, not_lt] at hn
      have h2 : 2 ≤ h := by
        by_contra hlt
        obtain rfl : h = 1 := by omega
        linarith
      obtain ⟨h', rfl⟩ : ∃ h', h = h' + 1 := ⟨h - 1, by omega⟩
      rw [Fl.fin_mul]
      exact ih h' (a * 0.5) F' c' i' (by omega) (by rw [pow_succ] at ha; linarith) (by omega)
    rw [ipmLineSearch]
    simp only
    by_cases hfin : (ipmTrial P st p (.fin a) αz (feasibleMode opts st)).Finite
    · rw [if_neg (not_not.2 hfin)]
      by_cases hacc : (F.tryAdd st.entry ((ipmTrial P st p (.fin a) αz (feasibleMode opts st)).entry st.μ) D
          (.fin a)).2 = true
      · rw [if_pos hacc]; exact ⟨_, rfl⟩
      · rw [if_neg hacc]
        have hs := (ipmSoc_correct env P st D (.fin a) αmax _ _ 0 i
          (ipmTrial P st p (.fin a) αz (feasibleMode opts st)) (Filter.Reached.refl (F.tryAdd st.entry
            ((ipmTrial P st p (.fin a) αz (feasibleMode opts st)).entry st.μ) D (.fin a)).1)).2
        generalize ipmSoc env P st D (.fin a) αmax _ _ i = soc at hs ⊢
        cases hso : soc.accepted with
        | some b => exact ⟨_, rfl⟩
        | none =>
          obtain ⟨-, hs⟩ := hs hso
          have hs' := hs.trans (Filter.resets_step hacc)
          simp only [Option.elim]
          by_cases hreset : (if Fl.fin a = αmax then c + 1 else c) ≥ 4 ∧
              soc.filter.maxViolation > st.entry.violation / .fin 10 ∧ soc.filter.lastRejectionDueToFilter = true
          · rw [if_pos hreset]
            have h3 := Filter.resets_flag hreset.2.2
            exact ih h a soc.filter.shrink _ _ h1 ha (by rw [Filter.resets_shrink]; omega)
          · rw [if_neg hreset]
            by_cases hlt : Fl.fin a * .fin 0.5 < alphaMin
            · rw [if_pos hlt]
              split <;> exact ⟨_, rfl⟩
            · rw [if_neg hlt]
              exact hhalf _ _ _ hs' hlt
    · rw [if_pos hfin]
      by_cases hlt : Fl.fin a * .fin 0.5 < alphaMin
      · rw [if_pos hlt]; exact ⟨_, rfl⟩
      · rw [if_neg hlt]; exact hhalf F c i le_rfl hlt

/-- C27: for every step and every behaviour of the problem's functions and the linear solver, the line search
ends within the given rounds if the largest step size is at most one. -/
theorem line_search_ends (env : Env) (opts : SolverOptions) (P : Nlp n m k) (st : IpmState n m k)
    (p : IpmStep n m k) (αz D : Fl) (a : ℝ) (F : Filter) (c i : ℕ) (ha : a ≤ 1) :
    ∃ ls, ipmLineSearch env opts P st p (.fin a) αz D lineSearchRounds (.fin a) F c i = some ls := by
  refine ipmLineSearch_ends env opts P st p (.fin a) αz D _ 24 a F c i (by norm_num) (by norm_num; linarith) ?_
  unfold lineSearchRounds Filter.resets
  split <;> omega

theorem ipmLineSearch_sound (env : Env) (opts : SolverOptions) (P : Nlp n m k) (st : IpmState n m k)
    (p : IpmStep n m k) (amax : ℝ) (αz D : Fl) (F0 : Filter) (c0 r : ℕ) (a : ℝ) (F : Filter) (c i : ℕ)
    (h0 : 0 ≤ a) (h1 : a ≤ amax) (h2 : a = amax ∨ 1e-7 ≤ a) (hF : F0.Reached (ResetAllowed F0 c0 st.entry) F)
    (hc : ¬ F.Quiet → c ≤ if a = amax then c0 else c0 + 1) (ls : LineSearch n m k)
    (hls : ipmLineSearch env opts P st p (.fin amax) αz D r (.fin a) F c i = some ls) (R : Reason) (t : Trial n m k)
    (used : Fl) (hacc : ls.accepted = some (R, t, used)) :
    Acceptable env opts P st p amax αz D F0 c0 R t used ∧ (R ≠ .kktError → ls.α = used) := by
  induction r generalizing a F c i with
  | zero => simp [ipmLineSearch] at hls
  | succ r ih =>
    have hhalf (F' : Filter) (c' i' : ℕ) (hF : F0.Reached (ResetAllowed F0 c0 st.entry) F') (hc' : ¬ F'.Quiet → c' ≤ c0 + 1) (hn : ¬ Fl.fin a * .fin 0.5 < alphaMin)
        (he : ipmLineSearch env opts P st p (.fin amax) αz D r (Fl.fin a * .fin 0.5) F' c' i' = some ls) :
        Acceptable env opts P st p amax αz D F0 c0 R t used ∧ (R ≠ .kktError → ls.α = used) := by
      rw [half_lt, not_lt] at hn
      rw [Fl.fin_mul] at he
      exact ih (a * 0.5) F' c' i' (by linarith) (by linarith) (.inr (by linarith)) hF
        (fun hq => by rw [if_neg (by intro he; linarith)]; exact hc' hq) he
    rw [ipmLineSearch] at hls
    simp only at hls
    by_cases hfin : (ipmTrial P st p (.fin a) αz (feasibleMode opts st)).Finite
    · rw [if_neg (not_not.2 hfin)] at hls
      by_cases ht : (F.tryAdd st.entry ((ipmTrial P st p (.fin a) αz (feasibleMode opts st)).entry st.μ) D
          (.fin a)).2 = true
      · rw [if_pos ht] at hls
        obtain rfl := Option.some.inj hls
        obtain ⟨rfl, rfl, rfl⟩ : Reason.filter = R ∧ _ = t ∧ Fl.fin a = used := by simpa using hacc
        exact ⟨⟨a, rfl, h0, h1, h2, rfl, hfin, hF.tryAdd ht⟩, fun _ => rfl⟩
      · rw [if_neg ht] at hls
        obtain ⟨hs1, hs2⟩ := ipmSoc_correct env P st D (.fin a) (.fin amax) F0 _ c0 i
          (ipmTrial P st p (.fin a) αz (feasibleMode opts st)) (hF.step ht)
        generalize ipmSoc env P st D (.fin a) (.fin amax) _ _ i = soc at hs1 hs2 hls
        cases hso : soc.accepted with
        | some b =>
          rw [hso] at hls
          obtain rfl := Option.some.inj hls
          obtain ⟨rfl, rfl, rfl⟩ : Reason.correction = R ∧ b.1 = t ∧ b.2.1 = used := by simpa using hacc
          obtain ⟨he, hv, l, ce, cis, wv, hl, hc, hacc'⟩ := hs1 b hso
          rw [he] at hacc' hc hv hfin ht
          exact ⟨⟨l, ce, cis, wv, hl, hc, hacc', hfin, hF.rejects ht, hv⟩, fun _ => rfl⟩
        | none =>
          have hr := (hs2 hso).1
          have hq : ¬ soc.filter.Quiet → (if Fl.fin a = Fl.fin amax then c + 1 else c) ≤ c0 + 1 := by
            intro hq
            have h4 := (hs2 hso).2.trans (Filter.resets_step ht)
            have h5 := hc fun hF => by
              unfold Filter.resets at h4
              rw [if_neg hq, if_pos hF] at h4
              omega
            rw [Fl.fin.injEq]
            split_ifs at h5 ⊢ <;> omega
          rw [hso] at hls
          simp only [Option.elim] at hls
          by_cases hreset : (if Fl.fin a = Fl.fin amax then c + 1 else c) ≥ 4 ∧
              soc.filter.maxViolation > st.entry.violation / .fin 10 ∧ soc.filter.lastRejectionDueToFilter = true
          · rw [if_pos hreset] at hls
            refine ih a _ _ _ h0 h1 h2 (hr.shrink hreset.2.2 fun hsim => ⟨?_, ?_⟩)
              (fun hn => absurd (Filter.shrink_quiet _) hn) hls
            · have := hq fun hq => by simpa [hq.2] using hreset.2.2
              have := hreset.1
              omega
            · rw [← hsim.max]; exact hreset.2.1
          · rw [if_neg hreset] at hls
            by_cases hlt : Fl.fin a * .fin 0.5 < alphaMin
            · rw [if_pos hlt] at hls
              split at hls
              · rename_i hle
                obtain rfl := Option.some.inj hls
                obtain ⟨rfl, rfl, rfl⟩ : Reason.kktError = R ∧ _ = t ∧ Fl.fin amax = used := by simpa using hacc
                exact ⟨⟨rfl, rfl, hle⟩, fun h => absurd rfl h⟩
              · obtain rfl := Option.some.inj hls
                simp at hacc
            · rw [if_neg hlt] at hls
              exact hhalf _ _ _ hr hq hlt hls
    · rw [if_pos hfin] at hls
      by_cases hlt : Fl.fin a * .fin 0.5 < alphaMin
      · rw [if_pos hlt] at hls
        obtain rfl := Option.some.inj hls
        simp at hacc
      · rw [if_neg hlt] at hls; exact hhalf F c i hF (fun hq => (hc hq).trans (by split <;> omega)) hlt hls

/-- C27: a step is taken only if its point is acceptable. -/
theorem line_search_sound (env : Env) (opts : SolverOptions) (P : Nlp n m k) (st : IpmState n m k)
    (p : IpmStep n m k) (αz D : Fl) (a : ℝ) (F : Filter) (c i : ℕ) (h0 : 0 ≤ a) (ls : LineSearch n m k)
    (hls : ipmLineSearch env opts P st p (.fin a) αz D lineSearchRounds (.fin a) F c i = some ls) (R : Reason)
    (t : Trial n m k) (used : Fl) (hacc : ls.accepted = some (R, t, used)) :
    Acceptable env opts P st p a αz D F c R t used :=
  (ipmLineSearch_sound env opts P st p a αz D F c _ a F c i h0 le_rfl (.inl rfl) (.refl F) (fun _ => by simp) ls hls R t used hacc).1

end Slp
