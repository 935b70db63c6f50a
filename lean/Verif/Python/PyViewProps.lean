import Verif.Python.PyViewRefine

/-!
C80: what views of matrices read and write in Python, and which matrices exist.
-/

namespace Slp.PyView

variable {α : Type}

theorem Agree.log {a : Except Fault (State α)} {b : Except Fault (Doc α)} (h : Agree a b) :
    a.map State.log = b.map Doc.log := by
  cases a with
  | error e =>
    cases b with
    | error f =>
      obtain rfl : e = f := h
      rfl
    | ok d => exact h.elim
  | ok s =>
    cases b with
    | error f => exact h.elim
    | ok d =>
      obtain ⟨H, hv⟩ := h
      show Except.ok s.log = Except.ok d.log
      rw [hv.log]

/-- The rule that all functions in Python follow: they read and write what the user expects, until they access a matrix
that no name keeps, which is undefined. Names keep matrices, slices of what keeps a matrix, and iterators over it. -/
theorem py_views_rule (k : ℕ) (prog : List (Op α)) :
    (run k prog).map State.log = (Doc.run true k prog).map Doc.log := (run_agree k prog).log

/-- Without rows and columns, everything keeps its matrix. -/
def Doc.Keeps (d : Doc α) : Prop := ∀ h, some h ∈ d.names → h.keep = true

theorem Doc.Keeps.store {d d' : Doc α} (h : d.Keeps) {n : ℕ} {e : Option Handle} (he : ∀ x, e = some x → x.keep = true)
    (hd : d.store n e = .ok d') : d'.Keeps := by
  rw [Doc.store] at hd
  split_ifs at hd
  cases hd
  intro x hx
  rcases List.mem_or_eq_of_mem_set hx with hx | hx
  · exact h x hx
  · exact he x hx.symm

theorem Doc.load_mem {d : Doc α} {m : ℕ} {h : Handle} (hl : d.load m = .ok h) : some h ∈ d.names := by
  rw [Doc.load] at hl
  split at hl
  · next h' hn =>
      cases hl
      exact List.mem_of_getElem? hn
  · cases hl

theorem Doc.source_load {d : Doc α} {m : ℕ} {h : Handle} (hs : d.source m = .ok h) : d.load m = .ok h := by
  rw [Doc.source] at hs
  cases hl : d.load m with
  | error e =>
    rw [hl] at hs
    cases hs
  | ok h' =>
    rw [hl] at hs
    by_cases hi : h'.iter = none
    · simp only [bind, Except.bind, if_pos hi] at hs
      exact hs
    · simp only [bind, Except.bind, if_neg hi] at hs
      cases hs

theorem Doc.Keeps.access {d : Doc α} (hk : d.Keeps) {m : ℕ} {h : Handle} (hl : d.load m = .ok h) (j : ℕ) :
    d.access true h j = .ok j ∧ d.access false h j = .ok j := by
  have hm := Doc.load_mem hl
  have hh : d.held h.mat = true := by
    rw [Doc.held, List.any_eq_true]
    exact ⟨some h, hm, by simp [hk h hm]⟩
  constructor
  · simp [Doc.access, hh]
  · simp [Doc.access]

theorem Doc.Keeps.step {d : Doc α} (hk : d.Keeps) (op : Op α) (hop : op.NoLine) :
    Doc.step true d op = Doc.step false d op ∧ ∀ d', Doc.step true d op = .ok d' → d'.Keeps := by
  cases op with
  | matrix n vs =>
    refine ⟨rfl, fun d' hd => ?_⟩
    exact Doc.Keeps.store (d := { d with count := d.count + 1, mats := Function.update d.mats d.count vs }) hk
      (fun x hx => by cases hx; rfl) hd
  | slice n m picks =>
    refine ⟨rfl, fun d' hd => ?_⟩
    simp only [Doc.step, bind, Except.bind, choose_eq] at hd
    cases hs : d.source m with
    | error e =>
      rw [hs] at hd
      cases hd
    | ok h =>
      simp only [hs] at hd
      cases hp : pick h.sel picks with
      | error e =>
        rw [hp] at hd
        cases hd
      | ok sel =>
        simp only [hp] at hd
        exact Doc.Keeps.store (d := { d with count := d.count + 1 }) hk
          (fun x hx => by cases hx; exact hk h (Doc.load_mem (Doc.source_load hs))) hd
  | line n m picks => exact hop.elim
  | iter n m =>
    refine ⟨rfl, fun d' hd => ?_⟩
    simp only [Doc.step, bind, Except.bind] at hd
    cases hs : d.source m with
    | error e =>
      rw [hs] at hd
      cases hd
    | ok h =>
      simp only [hs] at hd
      exact Doc.Keeps.store (d := { d with count := d.count + 1, pos := Function.update d.pos d.count 0 }) hk
        (fun x hx => by cases hx; exact hk h (Doc.load_mem (Doc.source_load hs))) hd
  | next m =>
    simp only [Doc.step, bind, Except.bind]
    cases hs : d.load m with
    | error e => exact ⟨rfl, fun d' hd => by cases hd⟩
    | ok h =>
      dsimp only
      cases h.iter with
      | none => exact ⟨rfl, fun d' hd => by cases hd⟩
      | some i =>
        dsimp only
        cases h.sel[d.pos i]? with
        | none => exact ⟨rfl, fun d' hd => by cases hd; exact hk⟩
        | some j =>
          dsimp only
          rw [(hk.access hs j).1, (hk.access hs j).2]
          exact ⟨rfl, fun d' hd => by cases hd; exact hk⟩
  | copy n m =>
    refine ⟨rfl, fun d' hd => ?_⟩
    simp only [Doc.step, bind, Except.bind] at hd
    cases hs : d.load m with
    | error e =>
      rw [hs] at hd
      cases hd
    | ok h =>
      simp only [hs] at hd
      exact hk.store (fun x hx => by cases hx; exact hk h (Doc.load_mem hs)) hd
  | del n =>
    refine ⟨rfl, fun d' hd => ?_⟩
    simp only [Doc.step, bind, Except.bind] at hd
    cases hs : d.load n with
    | error e =>
      rw [hs] at hd
      cases hd
    | ok h =>
      simp only [hs] at hd
      exact hk.store (fun x hx => by cases hx) hd
  | get m i =>
    simp only [Doc.step, bind, Except.bind]
    cases hs : d.source m with
    | error e => exact ⟨rfl, fun d' hd => by cases hd⟩
    | ok h =>
      dsimp only
      cases h.sel[i]? with
      | none => exact ⟨rfl, fun d' hd => by cases hd⟩
      | some j =>
        dsimp only
        rw [(hk.access (Doc.source_load hs) j).1, (hk.access (Doc.source_load hs) j).2]
        exact ⟨rfl, fun d' hd => by cases hd; exact hk⟩
  | set m i v =>
    simp only [Doc.step, bind, Except.bind]
    cases hs : d.source m with
    | error e => exact ⟨rfl, fun d' hd => by cases hd⟩
    | ok h =>
      dsimp only
      cases h.sel[i]? with
      | none => exact ⟨rfl, fun d' hd => by cases hd⟩
      | some j =>
        dsimp only
        rw [(hk.access (Doc.source_load hs) j).1, (hk.access (Doc.source_load hs) j).2]
        exact ⟨rfl, fun d' hd => by cases hd; exact hk⟩

theorem Doc.Keeps.run {d : Doc α} (hk : d.Keeps) (prog : List (Op α)) (hop : ∀ op ∈ prog, op.NoLine) :
    prog.foldlM (Doc.step true) d = prog.foldlM (Doc.step false) d := by
  induction prog generalizing d with
  | nil => rfl
  | cons op prog ih =>
    obtain ⟨h1, h2⟩ := hk.step op (hop op (by simp))
    rw [List.foldlM_cons, List.foldlM_cons, ← h1]
    cases hs : Doc.step true d op with
    | error e => rfl
    | ok d' => exact ih (h2 d' hs) fun o ho => hop o (by simp [ho])

/-- What users expect has no undefined behaviour. -/
theorem Doc.run_defined (k : ℕ) (prog : List (Op α)) : Doc.run false k prog ≠ .error .undefined := by
  have hpick : ∀ sel picks, pick sel picks ≠ .error .undefined := by
    intro sel picks
    induction picks with
    | nil => simp [pick]
    | cons i picks ih =>
      rw [pick]
      cases sel[i]? with
      | none => simp
      | some j =>
        simp only [bind, Except.bind]
        cases hp : pick sel picks with
        | error e =>
          intro h
          rw [hp] at ih
          cases h
          exact ih rfl
        | ok l => simp
  have hload : ∀ (d : Doc α) m, d.load m ≠ .error .undefined := by
    intro d m h
    rw [Doc.load] at h
    split at h <;> cases h
  have hsource : ∀ (d : Doc α) m, d.source m ≠ .error .undefined := by
    intro d m h
    rw [Doc.source] at h
    cases hl : d.load m with
    | error e =>
      rw [hl] at h
      exact hload d m (hl.trans h)
    | ok x =>
      rw [hl] at h
      by_cases hi : x.iter = none
      · simp only [bind, Except.bind, if_pos hi] at h
        cases h
      · simp only [bind, Except.bind, if_neg hi] at h
        cases h
  have hstore : ∀ (d : Doc α) n e, d.store n e ≠ .error .undefined := by
    intro d n e h
    rw [Doc.store] at h
    split_ifs at h
    cases h
  have haccess : ∀ (d : Doc α) h j, d.access false h j = .ok j := by
    intro d h j
    simp [Doc.access]
  have hstep : ∀ (d : Doc α) op, Doc.step false d op ≠ .error .undefined := by
    intro d op h
    cases op with
    | matrix n vs => exact hstore _ _ _ h
    | slice n m picks =>
      simp only [Doc.step, bind, Except.bind, choose_eq] at h
      cases hs : d.source m with
      | error e => rw [hs] at h; exact hsource d m (hs.trans (by cases h; rfl))
      | ok x =>
        simp only [hs] at h
        cases hp : pick x.sel picks with
        | error e => rw [hp] at h; exact hpick _ _ (hp.trans (by cases h; rfl))
        | ok l => simp only [hp] at h; exact hstore _ _ _ h
    | line n m picks =>
      simp only [Doc.step, bind, Except.bind, choose_eq] at h
      cases hs : d.source m with
      | error e => rw [hs] at h; exact hsource d m (hs.trans (by cases h; rfl))
      | ok x =>
        simp only [hs] at h
        cases hp : pick x.sel picks with
        | error e => rw [hp] at h; exact hpick _ _ (hp.trans (by cases h; rfl))
        | ok l => simp only [hp] at h; exact hstore _ _ _ h
    | iter n m =>
      simp only [Doc.step, bind, Except.bind] at h
      cases hs : d.source m with
      | error e => rw [hs] at h; exact hsource d m (hs.trans (by cases h; rfl))
      | ok x => simp only [hs] at h; exact hstore _ _ _ h
    | next m =>
      simp only [Doc.step, bind, Except.bind, haccess] at h
      cases hs : d.load m with
      | error e => rw [hs] at h; exact hload d m (hs.trans (by cases h; rfl))
      | ok x =>
        simp only [hs] at h
        cases hi : x.iter with
        | none => simp only [hi] at h; cases h
        | some i =>
          simp only [hi] at h
          cases hj : x.sel[d.pos i]? <;> simp only [hj] at h <;> cases h
    | copy n m =>
      simp only [Doc.step, bind, Except.bind] at h
      cases hs : d.load m with
      | error e => rw [hs] at h; exact hload d m (hs.trans (by cases h; rfl))
      | ok x => simp only [hs] at h; exact hstore _ _ _ h
    | del n =>
      simp only [Doc.step, bind, Except.bind] at h
      cases hs : d.load n with
      | error e => rw [hs] at h; exact hload d n (hs.trans (by cases h; rfl))
      | ok x => simp only [hs] at h; exact hstore _ _ _ h
    | get m i =>
      simp only [Doc.step, bind, Except.bind, haccess] at h
      cases hs : d.source m with
      | error e => rw [hs] at h; exact hsource d m (hs.trans (by cases h; rfl))
      | ok x =>
        simp only [hs] at h
        cases hj : x.sel[i]? <;> simp only [hj] at h <;> cases h
    | set m i v =>
      simp only [Doc.step, bind, Except.bind, haccess] at h
      cases hs : d.source m with
      | error e => rw [hs] at h; exact hsource d m (hs.trans (by cases h; rfl))
      | ok x =>
        simp only [hs] at h
        cases hj : x.sel[i]? <;> simp only [hj] at h <;> cases h
  have hfold : ∀ (prog : List (Op α)) (d : Doc α), prog.foldlM (Doc.step false) d ≠ .error .undefined := by
    intro prog
    induction prog with
    | nil =>
      intro d h
      cases h
    | cons op prog ih =>
      intro d h
      rw [List.foldlM_cons] at h
      cases hs : Doc.step false d op with
      | error e =>
        rw [hs] at h
        exact hstep d op (hs.trans (by cases h; rfl))
      | ok d' =>
        rw [hs] at h
        exact ih d' h
  exact hfold prog _

/-- C80, partial: a function in Python that does not call `row` or `col` reads and writes what the user expects, through
all its names for matrices, slices, slices of slices and iterators, whatever names it rebinds or deletes: the matrices
behind its views exist for as long as the views. Missing: `row` and `col` (see `line_dangles`). -/
theorem py_views_partial (k : ℕ) (prog : List (Op α)) (hprog : ∀ op ∈ prog, op.NoLine) :
    (run k prog).map State.log = (Doc.run false k prog).map Doc.log ∧ run k prog ≠ .error .undefined := by
  have h : Doc.run true k prog = Doc.run (α := α) false k prog := by
    refine Doc.Keeps.run ?_ prog hprog
    intro h hh
    cases List.eq_of_mem_replicate hh
  have hr := py_views_rule k prog
  rw [h] at hr
  refine ⟨hr, fun hc => ?_⟩
  rw [hc] at hr
  cases hd : Doc.run (α := α) false k prog with
  | error e =>
    rw [hd] at hr
    refine Doc.run_defined k prog (hd.trans ?_)
    have : Fault.undefined = e := Except.error.inj hr
    rw [this]
  | ok d =>
    rw [hd] at hr
    cases hr

/-- The hypothesis is met: `a = VariableMatrix(…); b = a[…]; a = b[…]; it = iter(a); del b, a; next(it)` reads the second
element of the first matrix, to which only the iterator's slice's slice refers. -/
example : (run 3 [.matrix 0 [10, 20, 30], .slice 1 0 [1, 2], .slice 0 1 [0], .set 1 0 25, .iter 2 0, .del 1, .del 0,
    .next 2, .next 2]).map State.log = .ok [some 25, none] := by decide

/-- A row or column does not keep its matrix: `x = VariableMatrix(…); x = x.row(…); x[k]` accesses a destroyed matrix,
where users expect to read an element. -/
theorem line_dangles (vs : List α) (picks : List ℕ) (k j : ℕ) (v : α) (hp : ∀ i ∈ picks, i < vs.length)
    (hk : picks[k]? = some j) (hv : vs[j]? = some v) :
    run 1 [.matrix 0 vs, .line 0 0 picks, .get 0 k] = .error .undefined ∧
      (Doc.run false 1 [.matrix 0 vs, .line 0 0 picks, .get 0 k]).map Doc.log = .ok [some v] := by
  have hpick : pick (List.range vs.length) picks = .ok picks := by
    clear hk
    induction picks with
    | nil => rfl
    | cons i picks ih =>
      have hi := hp i (by simp)
      rw [pick, List.getElem?_eq_getElem (by simpa using hi)]
      simp only [List.getElem_range, bind, Except.bind, ih fun q hq => hp q (by simp [hq])]
  constructor
  · simp [run, step, State.push, State.store, State.load, State.selection, State.live, State.values, decRef,
      List.foldlM, bind, Except.bind, hpick, hk]
  · simp [Doc.run, Doc.step, Doc.store, Doc.load, Doc.source, Doc.access, List.foldlM, bind, Except.bind, choose_eq, hpick, hk,
      pure, Except.pure, Except.map, hv]

/-- So does a slice of a row, and an iterator over one, while other names that keep the matrix make them work. -/
example : run 2 [.matrix 0 [1, 2], .line 1 0 [0, 1], .slice 1 1 [1], .del 0, .get 1 0] = .error .undefined ∧
    run 2 [.matrix 0 [1, 2], .line 1 0 [0, 1], .iter 1 1, .del 0, .next 1] = .error .undefined ∧
    (run 2 [.matrix 0 [1, 2], .line 1 0 [0, 1], .slice 1 1 [1], .get 1 0]).map State.log = .ok [some 2] := by
  refine ⟨?_, ?_, ?_⟩ <;> rfl

/-- What exists has a name, or is kept by what has one. -/
theorem Heap.reachable {objs : List (Obj α)} {names : List (Option ℕ)} (h : Heap objs names []) (n o : ℕ)
    (hn : objs.length - o = n) (x : Obj α) (hx : objs[o]? = some x) (hl : x.refs ≠ 0) : ∃ q, some q ∈ names := by
  induction n using Nat.strong_induction_on generalizing o x with
  | _ n ih =>
    have hc := h.count o x hx
    have hol := lt_of_get hx
    rw [List.count_nil] at hc
    rcases Nat.eq_zero_or_pos (names.count (some o)) with h0 | h0
    · have hpos : 0 < keepers objs o := by omega
      obtain ⟨y, hy, hyk⟩ := List.countP_pos_iff.1 hpos
      obtain ⟨q, hq⟩ := List.mem_iff_getElem?.1 hy
      simp only [Obj.keeper, Bool.and_eq_true, bne_iff_ne, ne_eq, beq_iff_eq] at hyk
      have hql := lt_of_get hq
      have hoq := h.older q y o hq hyk.2
      exact ih (objs.length - q) (by omega) q rfl y hq hyk.1
    · exact ⟨o, List.count_pos_iff.1 h0⟩

/-- No leaks: a matrix exists exactly as long as a name keeps it, and when no name has a value nothing exists. This holds
for all functions, with rows and columns too. -/
theorem py_matrices_freed (k : ℕ) (prog : List (Op α)) (s : State α) (hs : run k prog = .ok s) :
    (∃ d, Doc.run true k prog = .ok d ∧ ∀ m : ℕ, d.held m = true ↔
      ∃ x vs, s.objects[m]? = some x ∧ x.refs ≠ 0 ∧ x.kind = .matrix vs) ∧
    ((∀ n ∈ s.names, n = none) → ∀ x ∈ s.objects, x.refs = 0) := by
  have ha := run_agree k prog
  rw [hs] at ha
  cases hd : Doc.run true k prog with
  | error e =>
    rw [hd] at ha
    exact ha.elim
  | ok d =>
    rw [hd] at ha
    obtain ⟨H, hv⟩ := ha
    refine ⟨⟨d, rfl, hv.held_iff⟩, fun hn x hx => ?_⟩
    by_contra hl
    obtain ⟨o, ho⟩ := List.mem_iff_getElem?.1 hx
    obtain ⟨q, hq⟩ := hv.heap.reachable _ o rfl x ho hl
    cases hn _ hq

/-- The hypotheses are met. -/
example : ∃ s, run 2 [.matrix 0 [1, 2], .slice 1 0 [1], .del 0, .copy 0 1, .del 1, .del 0] = .ok s ∧
    (∀ n ∈ s.names, n = none) ∧ s.objects.length = 2 := ⟨_, rfl, by decide, rfl⟩

end Slp.PyView
