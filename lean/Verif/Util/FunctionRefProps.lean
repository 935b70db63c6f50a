import Verif.Util.FunctionRefSpec
import Mathlib.Tactic.Common

/-! C79: a `function_ref` calls the function object it refers to. -/

namespace Slp.FnRef

/-- An object does what its documentation says. -/
def Matches (x : Object) (e : Entry) (i : ℕ) : Prop :=
  x.alive = e.alive ∧ match x.kind with
    | .fn => e.isRef = false ∧ e.fn = i
    | .ref t => e.isRef = true ∧ t = e.fn

/-- The states agree, and references refer to function objects. -/
structure Refines (s : State) (t : Doc) : Prop where
  log : s.log = t.log
  length : s.objects.length = t.entries.length
  get : ∀ (i : ℕ) (x : Object) (e : Entry), s.objects[i]? = some x → t.entries[i]? = some e → Matches x e i
  fn : ∀ (i : ℕ) (e : Entry), t.entries[i]? = some e → ∃ e', t.entries[e.fn]? = some e' ∧ e'.isRef = false

theorem Refines.live {s : State} {t : Doc} (h : Refines s t) (o : ℕ) :
    (∃ x e, s.live o = .ok x ∧ t.live o = some e ∧ s.objects[o]? = some x ∧ t.entries[o]? = some e ∧ x.alive = true ∧
      e.alive = true ∧ Matches x e o) ∨
      s.live o = .error .undefined ∧ t.live o = none := by
  unfold State.live Doc.live
  by_cases ho : o < s.objects.length
  · have ho' : o < t.entries.length := by rw [← h.length]; exact ho
    have h1 := List.getElem?_eq_getElem ho
    have h2 := List.getElem?_eq_getElem ho'
    have hm := h.get o _ _ h1 h2
    rw [h1, h2]
    by_cases ha : (s.objects[o]).alive = true
    · have ha' : (t.entries[o]).alive = true := by rw [← hm.1]; exact ha
      refine .inl ⟨_, _, ?_, ?_, rfl, rfl, ha, ha', hm⟩
      · simp [ha]
      · simp [ha']
    · have ha' : ¬ (t.entries[o]).alive = true := by rw [← hm.1]; exact ha
      refine .inr ⟨?_, ?_⟩
      · simp [ha]
      · simp [ha']
  · have ho' : ¬ o < t.entries.length := by rw [← h.length]; exact ho
    rw [List.getElem?_eq_none (by omega), List.getElem?_eq_none (by omega)]
    exact .inr ⟨rfl, rfl⟩

theorem Refines.fnAt {s : State} {t : Doc} (h : Refines s t) (o : ℕ) :
    (∃ e, s.fn o = .ok () ∧ t.fn o = some e ∧ t.entries[o]? = some e ∧ e.isRef = false ∧ e.fn = o) ∨
      s.fn o = .error .undefined ∧ t.fn o = none := by
  rcases h.live o with ⟨x, e, h1, h2, h3, h4, h5, h6, h7, h8⟩ | ⟨h1, h2⟩
  · unfold State.fn Doc.fn
    rw [h1, h2]
    cases hk : x.kind with
    | fn =>
      rw [hk] at h8
      exact .inl ⟨e, by simp [hk, bind, Except.bind], by simp [h8.1], h4, h8.1, h8.2⟩
    | ref u =>
      rw [hk] at h8
      exact .inr ⟨by simp [hk, bind, Except.bind], by simp [h8.1]⟩
  · unfold State.fn Doc.fn
    rw [h1, h2]
    exact .inr ⟨rfl, rfl⟩

theorem Refines.refAt {s : State} {t : Doc} (h : Refines s t) (o : ℕ) :
    (∃ e, s.ref o = .ok e.fn ∧ t.ref o = some e ∧ t.entries[o]? = some e ∧ e.isRef = true ∧
      s.live o = .ok ⟨.ref e.fn, true⟩) ∨
      s.ref o = .error .undefined ∧ t.ref o = none := by
  rcases h.live o with ⟨x, e, h1, h2, h3, h4, h5, h6, h7, h8⟩ | ⟨h1, h2⟩
  · unfold State.ref Doc.ref
    rw [h1, h2]
    cases hk : x.kind with
    | fn =>
      rw [hk] at h8
      exact .inr ⟨by simp [hk, bind, Except.bind], by simp [h8.1]⟩
    | ref u =>
      rw [hk] at h8
      obtain ⟨k, a⟩ := x
      obtain ⟨h8, rfl⟩ := h8
      simp only at hk h5
      subst hk h5
      exact .inl ⟨e, rfl, by simp [h8], h4, h8, rfl⟩
  · unfold State.ref Doc.ref
    rw [h1, h2]
    exact .inr ⟨rfl, rfl⟩

/-- A reference is changed. -/
theorem Refines.set {s : State} {t : Doc} (h : Refines s t) {r f : ℕ} {e e' : Entry} (hr : t.entries[r]? = some e)
    (he : e.isRef = true) (hf : t.entries[f]? = some e') (he' : e'.isRef = false) : Refines (s.set r f) (t.refer r f) := by
  have hlt : r < t.entries.length := (List.getElem?_eq_some_iff.1 hr).1
  refine ⟨h.log, ?_, ?_, ?_⟩
  · show (s.objects.set r _).length = (t.entries.set r _).length
    rw [List.length_set, List.length_set, h.length]
  · intro i x d hx hd
    simp only [State.set, Doc.refer] at hx hd
    by_cases hi : i = r
    · subst hi
      rw [List.getElem?_set_self (by rw [h.length]; exact hlt)] at hx
      rw [List.getElem?_set_self hlt] at hd
      cases hx
      cases hd
      exact ⟨rfl, rfl, rfl⟩
    · rw [List.getElem?_set_ne (Ne.symm hi)] at hx hd
      exact h.get i x d hx hd
  · intro i d hd
    simp only [Doc.refer] at hd ⊢
    have key : ∀ (g : ℕ) (b : Entry), t.entries[g]? = some b → b.isRef = false → (t.entries.set r ⟨f, true, true⟩)[g]? = some b := by
      intro g b hg hb
      rw [List.getElem?_set_ne]
      · exact hg
      · rintro rfl
        rw [hr] at hg
        cases hg
        rw [he] at hb
        exact absurd hb (by simp)
    by_cases hi : i = r
    · subst hi
      rw [List.getElem?_set_self hlt] at hd
      cases hd
      exact ⟨e', key _ _ hf he', he'⟩
    · rw [List.getElem?_set_ne (Ne.symm hi)] at hd
      obtain ⟨b, hb, hb'⟩ := h.fn i d hd
      exact ⟨b, key _ _ hb hb', hb'⟩

/-- A new object. -/
theorem Refines.push {s : State} {t : Doc} (h : Refines s t) {k : Kind} {e : Entry} (hm : Matches ⟨k, true⟩ e t.entries.length)
    (hf : ∃ e', (t.entries ++ [e])[e.fn]? = some e' ∧ e'.isRef = false) :
    Refines (s.push k) { t with entries := t.entries ++ [e] } := by
  refine ⟨h.log, ?_, ?_, ?_⟩
  · show (s.objects ++ [_]).length = (t.entries ++ [e]).length
    simp [h.length]
  · intro i x d hx hd
    simp only [State.push] at hx hd
    rcases Nat.lt_trichotomy i t.entries.length with hi | hi | hi
    · rw [List.getElem?_append_left (by rw [h.length]; exact hi)] at hx
      rw [List.getElem?_append_left hi] at hd
      exact h.get i x d hx hd
    · subst hi
      rw [← h.length, List.getElem?_concat_length] at hx
      rw [List.getElem?_concat_length] at hd
      cases hx
      cases hd
      exact hm
    · rw [List.getElem?_eq_none (by simp; omega)] at hd
      exact absurd hd (by simp)
  · intro i d hd
    simp only at hd ⊢
    rcases Nat.lt_trichotomy i t.entries.length with hi | hi | hi
    · rw [List.getElem?_append_left hi] at hd
      obtain ⟨b, hb, hb'⟩ := h.fn i d hd
      exact ⟨b, by rw [List.getElem?_append_left (List.getElem?_eq_some_iff.1 hb).1]; exact hb, hb'⟩
    · subst hi
      rw [List.getElem?_concat_length] at hd
      cases hd
      exact hf
    · rw [List.getElem?_eq_none (by simp; omega)] at hd
      exact absurd hd (by simp)

/-- An object is destroyed. -/
theorem Refines.kill {s : State} {t : Doc} (h : Refines s t) {o : ℕ} {x : Object} {e : Entry}
    (hx : s.objects[o]? = some x) (he : t.entries[o]? = some e) :
    Refines (s.kill o x) { t with entries := t.entries.set o { e with alive := false } } := by
  have hlt : o < t.entries.length := (List.getElem?_eq_some_iff.1 he).1
  have hm := h.get o x e hx he
  refine ⟨h.log, ?_, ?_, ?_⟩
  · show (s.objects.set o _).length = (t.entries.set o _).length
    rw [List.length_set, List.length_set, h.length]
  · intro i y d hy hd
    simp only [State.kill] at hy hd
    by_cases hi : i = o
    · subst hi
      rw [List.getElem?_set_self (by rw [h.length]; exact hlt)] at hy
      rw [List.getElem?_set_self hlt] at hd
      cases hy
      cases hd
      exact ⟨rfl, hm.2⟩
    · rw [List.getElem?_set_ne (Ne.symm hi)] at hy hd
      exact h.get i y d hy hd
  · intro i d hd
    simp only at hd ⊢
    have key : ∀ (g : ℕ) (b : Entry), t.entries[g]? = some b → ∃ b', (t.entries.set o { e with alive := false })[g]? = some b' ∧
        b'.isRef = b.isRef := by
      intro g b hg
      by_cases hi : g = o
      · subst hi
        rw [List.getElem?_set_self hlt]
        rw [he] at hg
        cases hg
        exact ⟨_, rfl, rfl⟩
      · rw [List.getElem?_set_ne (Ne.symm hi)]
        exact ⟨b, hg, rfl⟩
    have hfn : ∃ d', t.entries[i]? = some d' ∧ d'.fn = d.fn := by
      by_cases hi : i = o
      · subst hi
        rw [List.getElem?_set_self hlt] at hd
        cases hd
        exact ⟨e, he, rfl⟩
      · rw [List.getElem?_set_ne (Ne.symm hi)] at hd
        exact ⟨d, hd, rfl⟩
    obtain ⟨d', hd', hfd⟩ := hfn
    obtain ⟨b, hb, hb'⟩ := h.fn i d' hd'
    rw [hfd] at hb
    obtain ⟨b', h1, h2⟩ := key _ b hb
    exact ⟨b', h1, h2.trans hb'⟩

/-- Both do the same. -/
def Agree (a : Except Fault State) (b : Option Doc) : Prop :=
  (∃ s t, a = .ok s ∧ b = some t ∧ Refines s t) ∨ a = .error .undefined ∧ b = none

theorem Refines.step {s : State} {t : Doc} (h : Refines s t) (d : ℕ) {op : Op} (hop : op.Careful) :
    Agree (FnRef.step (d + 1) s op) (t.step op) := by
  cases op with
  | make =>
    refine .inl ⟨_, _, rfl, rfl, h.push ⟨rfl, rfl, rfl⟩ ⟨_, List.getElem?_concat_length, rfl⟩⟩
  | bindFn f =>
    rcases h.fnAt f with ⟨e, h1, h2, h3, h4, h5⟩ | ⟨h1, h2⟩
    · refine .inl ⟨s.push (.ref f), { t with entries := t.entries ++ [⟨e.fn, true, true⟩] }, ?_, ?_, ?_⟩
      · simp only [FnRef.step, h1]; rfl
      · simp only [Doc.step, h2]; rfl
      · refine h.push ⟨rfl, rfl, h5.symm⟩ ⟨e, ?_, h4⟩
        show (t.entries ++ _)[e.fn]? = _
        rw [h5, List.getElem?_append_left (List.getElem?_eq_some_iff.1 h3).1]
        exact h3
    · exact .inr ⟨by simp only [FnRef.step, h1]; rfl, by simp only [Doc.step, h2]; rfl⟩
  | bindRef r =>
    rcases h.refAt r with ⟨e, h1, h2, h3, h4, -⟩ | ⟨h1, h2⟩
    · refine .inl ⟨s.push (.ref e.fn), { t with entries := t.entries ++ [⟨e.fn, true, true⟩] }, ?_, ?_, ?_⟩
      · simp only [FnRef.step, h1]; rfl
      · simp only [Doc.step, h2]; rfl
      · obtain ⟨b, hb, hb'⟩ := h.fn r e h3
        refine h.push ⟨rfl, rfl, rfl⟩ ⟨b, ?_, hb'⟩
        show (t.entries ++ _)[e.fn]? = _
        rw [List.getElem?_append_left (List.getElem?_eq_some_iff.1 hb).1]
        exact hb
    · exact .inr ⟨by simp only [FnRef.step, h1]; rfl, by simp only [Doc.step, h2]; rfl⟩
  | assignFn r f =>
    rcases h.refAt r with ⟨e, h1, h2, h3, h4, -⟩ | ⟨h1, h2⟩
    · rcases h.fnAt f with ⟨b, k1, k2, k3, k4, k5⟩ | ⟨k1, k2⟩
      · refine .inl ⟨s.set r f, t.refer r b.fn, ?_, ?_, ?_⟩
        · simp only [FnRef.step, h1, k1]; rfl
        · simp only [Doc.step, h2, k2]; rfl
        · rw [k5]
          exact h.set h3 h4 k3 k4
      · exact .inr ⟨by simp only [FnRef.step, h1, k1]; rfl, by simp only [Doc.step, h2, k2]; rfl⟩
    · exact .inr ⟨by simp only [FnRef.step, h1]; rfl, by simp only [Doc.step, h2]; rfl⟩
  | assignRef r q c =>
    obtain rfl : c = .constLvalue := hop
    rcases h.refAt r with ⟨e, h1, h2, h3, h4, -⟩ | ⟨h1, h2⟩
    · rcases h.refAt q with ⟨b, k1, k2, k3, k4, -⟩ | ⟨k1, k2⟩
      · refine .inl ⟨s.set r b.fn, t.refer r b.fn, ?_, ?_, ?_⟩
        · simp only [FnRef.step, h1, k1]; rfl
        · simp only [Doc.step, h2, k2]; rfl
        · obtain ⟨g, hg, hg'⟩ := h.fn q b k3
          exact h.set h3 h4 hg hg'
      · exact .inr ⟨by simp only [FnRef.step, h1, k1]; rfl, by simp only [Doc.step, h2, k2]; rfl⟩
    · exact .inr ⟨by simp only [FnRef.step, h1]; rfl, by simp only [Doc.step, h2]; rfl⟩
  | swap r q =>
    rcases h.refAt r with ⟨e, h1, h2, h3, h4, -⟩ | ⟨h1, h2⟩
    · rcases h.refAt q with ⟨b, k1, k2, k3, k4, -⟩ | ⟨k1, k2⟩
      · refine .inl ⟨(s.set r b.fn).set q e.fn, (t.refer r b.fn).refer q e.fn, ?_, ?_, ?_⟩
        · simp only [FnRef.step, h1, k1]; rfl
        · simp only [Doc.step, h2, k2]; rfl
        · obtain ⟨g, hg, hg'⟩ := h.fn q b k3
          obtain ⟨g2, hg2, hg2'⟩ := h.fn r e h3
          have hlt : r < t.entries.length := (List.getElem?_eq_some_iff.1 h3).1
          have hne : r ≠ e.fn := by
            intro hre
            rw [← hre, h3] at hg2
            cases hg2
            rw [h4] at hg2'
            exact absurd hg2' (by simp)
          have hq : ∃ b', (t.refer r b.fn).entries[q]? = some b' ∧ b'.isRef = true := by
            by_cases hrq : r = q
            · subst hrq
              exact ⟨_, List.getElem?_set_self hlt, rfl⟩
            · exact ⟨b, (List.getElem?_set_ne hrq).trans k3, k4⟩
          obtain ⟨b', hb', hb''⟩ := hq
          exact (h.set h3 h4 hg hg').set hb' hb'' ((List.getElem?_set_ne hne).trans hg2) hg2'
      · exact .inr ⟨by simp only [FnRef.step, h1, k1]; rfl, by simp only [Doc.step, h2, k2]; rfl⟩
    · exact .inr ⟨by simp only [FnRef.step, h1]; rfl, by simp only [Doc.step, h2]; rfl⟩
  | stdSwap r q => exact hop.elim
  | destroy o =>
    rcases h.live o with ⟨x, e, h1, h2, h3, h4, -⟩ | ⟨h1, h2⟩
    · exact .inl ⟨s.kill o x, { t with entries := t.entries.set o { e with alive := false } },
        by simp only [FnRef.step, h1]; rfl, by simp only [Doc.step, h2]; rfl, h.kill h3 h4⟩
    · exact .inr ⟨by simp only [FnRef.step, h1]; rfl, by simp only [Doc.step, h2]; rfl⟩
  | call r =>
    rcases h.refAt r with ⟨e, h1, h2, h3, h4, h5⟩ | ⟨h1, h2⟩
    · obtain ⟨g, hg, hg'⟩ := h.fn r e h3
      have hinv : s.invoke (d + 1) r = s.invoke d e.fn := by
        rw [State.invoke, h5]; rfl
      rcases h.live e.fn with ⟨x, b, k1, k2, k3, k4, -, -, k5⟩ | ⟨k1, k2⟩
      · rw [k4] at hg
        cases hg
        have hk : x.kind = .fn := by
          cases hx : x.kind with
          | fn => rfl
          | ref u =>
            have := k5.2
            rw [hx] at this
            rw [this.1] at hg'
            exact absurd hg' (by simp)
        have hinv' : s.invoke d e.fn = .ok e.fn := by
          cases d <;> rw [State.invoke, k1] <;> simp only [bind, Except.bind, hk]
        refine .inl ⟨{ s with log := s.log ++ [e.fn] }, { t with log := t.log ++ [e.fn] }, ?_, ?_, ?_⟩
        · simp only [FnRef.step, h1, hinv, hinv']; rfl
        · simp only [Doc.step, h2]
          show (t.live e.fn).bind _ = _
          rw [k2]; rfl
        · exact ⟨by simp only [h.log], h.length, h.get, h.fn⟩
      · have hinv' : s.invoke d e.fn = .error .undefined := by
          cases d <;> rw [State.invoke, k1] <;> rfl
        refine .inr ⟨?_, ?_⟩
        · simp only [FnRef.step, h1, hinv, hinv']; rfl
        · simp only [Doc.step, h2]
          show (t.live e.fn).bind _ = _
          rw [k2]; rfl
    · exact .inr ⟨by simp only [FnRef.step, h1]; rfl, by simp only [Doc.step, h2]; rfl⟩

theorem Refines.run (d : ℕ) (ops : List Op) (hops : ∀ op ∈ ops, op.Careful) : ∀ {s : State} {t : Doc}, Refines s t →
    Agree (ops.foldlM (FnRef.step (d + 1)) s) (ops.foldlM Doc.step t) := by
  induction ops with
  | nil => exact fun h => .inl ⟨_, _, rfl, rfl, h⟩
  | cons op ops ih =>
    intro s t h
    rw [List.foldlM_cons, List.foldlM_cons]
    rcases h.step d (hops op (by simp)) with ⟨s', t', h1, h2, h3⟩ | ⟨h1, h2⟩
    · rw [h1, h2]
      exact ih (fun o ho => hops o (by simp [ho])) h3
    · rw [h1, h2]
      exact .inr ⟨rfl, rfl⟩

/-- C79 in part: a program that assigns `function_ref` objects from constants only, and does not swap them with
`std::swap()`, behaves as documented: it is defined if it uses objects that exist only, and each call calls the function
object that the reference refers to. One level of nesting is enough. Missing: other assignments and `std::swap()`, for
which this is false (see below). -/
theorem function_ref_partial {ops : List Op} (hops : ∀ op ∈ ops, op.Careful) (d : ℕ) :
    (∀ s, run (d + 1) ops = .ok s → ∃ t, Doc.run ops = some t ∧ s.log = t.log) ∧
      (∀ t, Doc.run ops = some t → ∃ s, run (d + 1) ops = .ok s ∧ s.log = t.log) ∧
      (Doc.run ops = none → run (d + 1) ops = .error .undefined) := by
  have h0 : Refines ⟨[], []⟩ ⟨[], []⟩ := ⟨rfl, rfl, by simp, by simp⟩
  have h : Agree (run (d + 1) ops) (Doc.run ops) := Refines.run d ops hops h0
  rcases h with ⟨s', t', h1, h2, h3⟩ | ⟨h1, h2⟩
  · rw [h1, h2]
    refine ⟨fun s hs => ?_, fun t ht => ?_, by simp⟩
    · cases hs; exact ⟨t', rfl, h3.log⟩
    · cases ht; exact ⟨s', rfl, h3.log⟩
  · rw [h1, h2]
    refine ⟨fun s hs => by simp at hs, by simp, fun _ => rfl⟩

/-- Two functions, two references, an assignment from a constant, a swap, and the end of one function object. -/
example : (run 1 [.make, .make, .bindFn 0, .bindFn 1, .call 2, .swap 2 3, .call 2, .bindRef 2, .assignRef 3 4 .constLvalue,
    .destroy 0, .destroy 2, .call 3]).map State.log = .ok [0, 1, 1] := rfl

/-- A call after the end of the function object is undefined. -/
example : run 1 [.make, .bindFn 0, .destroy 0, .call 1] = .error .undefined := rfl

/-! ### Other assignments -/

theorem State.ref_live {s : State} {r t : ℕ} (h : s.ref r = .ok t) : s.objects[r]? = some ⟨.ref t, true⟩ := by
  unfold State.ref State.live at h
  cases hx : s.objects[r]? with
  | none => rw [hx] at h; simp [bind, Except.bind] at h
  | some x =>
    rw [hx] at h
    obtain ⟨k, a⟩ := x
    cases a with
    | false => simp [bind, Except.bind] at h
    | true =>
      cases k with
      | fn => simp [bind, Except.bind] at h
      | ref u => simp [bind, Except.bind] at h; rw [h]

/-- After `r = q` for different `function_ref` objects, where `q` is not constant, `r` refers to the object `q` instead of
the function object: calls of `r` call what `q` refers to at that time. -/
theorem assign_refers_to_reference {d : ℕ} {s s' : State} {r q : ℕ} {c : Category} (hc : c ≠ .constLvalue)
    (hs : step d s (.assignRef r q c) = .ok s') (k : ℕ) : s'.invoke (k + 1) r = s'.invoke k q := by
  simp only [step] at hs
  cases h1 : s.ref r with
  | error e => rw [h1] at hs; simp [bind, Except.bind] at hs
  | ok t =>
    cases h2 : s.ref q with
    | error e => rw [h1, h2] at hs; simp [bind, Except.bind] at hs
    | ok u =>
      rw [h1, h2] at hs
      simp only [bind, Except.bind, Except.ok.injEq] at hs
      have hs' : s' = s.set r q := by
        cases c with
        | constLvalue => exact absurd rfl hc
        | lvalue => exact hs.symm
        | rvalue => exact hs.symm
      have hlt : r < s.objects.length := (List.getElem?_eq_some_iff.1 (State.ref_live h1)).1
      have hlive : s'.live r = .ok ⟨.ref q, true⟩ := by
        unfold State.live
        rw [hs']
        simp [State.set, hlt]
      rw [State.invoke, hlive]
      rfl

/-- `a = b; b = f; a()` calls `f`, where by the documentation it calls `g`, to which `b` referred when it was assigned. -/
theorem assign_follows : ∃ ops : List Op, ∃ s t, run 2 ops = .ok s ∧ Doc.run ops = some t ∧ s.log = [0] ∧ t.log = [1] :=
  ⟨[.make, .make, .bindFn 0, .bindFn 1, .assignRef 2 3 .lvalue, .assignFn 3 0, .call 2], _, _, rfl, rfl, rfl, rfl⟩

/-- `a = a; a()` exhausts the stack, whatever its size. -/
theorem self_assignment_overflows (d : ℕ) :
    run d [.make, .bindFn 0, .assignRef 1 1 .lvalue, .call 1] = .error .overflow ∧
      ∃ t, Doc.run [.make, .bindFn 0, .assignRef 1 1 .lvalue, .call 1] = some t ∧ t.log = [0] := by
  refine ⟨?_, _, rfl, rfl⟩
  have h : ∀ d, (⟨[⟨.fn, true⟩, ⟨.ref 1, true⟩], []⟩ : State).invoke d 1 = .error .overflow := by
    intro d
    induction d with
    | zero => rfl
    | succ d ih => rw [State.invoke]; exact ih
  show (do
    let f ← (⟨[⟨.fn, true⟩, ⟨.ref 1, true⟩], []⟩ : State).invoke d 1
    _) >>= _ = _
  rw [h]
  rfl

/-- After `std::swap(a, b)` a call of `a` or `b` is undefined. -/
theorem std_swap_dangles (d : ℕ) (r : ℕ) (hr : r = 2 ∨ r = 3) :
    run (d + 2) [.make, .make, .bindFn 0, .bindFn 1, .stdSwap 2 3, .call r] = .error .undefined ∧
      ∃ t, Doc.run [.make, .make, .bindFn 0, .bindFn 1, .stdSwap 2 3, .call r] = some t ∧ t.log = [3 - r] := by
  rcases hr with rfl | rfl
  · exact ⟨by cases d <;> rfl, _, rfl, rfl⟩
  · exact ⟨by cases d <;> rfl, _, rfl, rfl⟩

end Slp.FnRef
