import Verif.Problem.CallbackOrderProps
import Verif.Python.PyCallbackModel

/-! C72: exceptions in callbacks and Ctrl-C in Python. -/

namespace Slp.Py

open Classical

theorem callbacksAfter_persistent (pending : List Call → Bool) (k : ProblemClass) (cs : List CallbackCmd) :
    (callbacksAfter pending k cs).persistent = (construct pending k).persistent := by
  induction cs using List.reverseRecOn with
  | nil => rfl
  | append_singleton cs c ih =>
      unfold callbacksAfter at ih ⊢
      rw [List.foldl_append, List.foldl_cons, List.foldl_nil, ← ih]
      cases c <;> rfl

theorem withCallbacks_all (p : Problem) (c : Callbacks) (spy : Bool) :
    (withCallbacks p c).allCallbacks spy = (c.all spy).map Thrower.total := by
  unfold Problem.allCallbacks withCallbacks Callbacks.all
  cases spy
  · simp
  · simp
    rfl

/-- Every call is that of a callback and has its result. -/
theorem Batches.call_result {cbs : List Callback} : ∀ {bs : Batches} {before : List Call}, Batches.Ok cbs before bs →
    ∀ {j : ℕ} {c : Call}, bs.calls[j]? = some c →
      ∃ t, cbs[c.index]? = some t ∧ c.result = t (before ++ bs.calls.take j) c.info
  | [], _, _, j, c, h => by simp [Batches.calls] at h
  | b :: bs, before, h, j, c, hc => by
      obtain ⟨hb, hbs⟩ := h
      have e : Batches.calls (b :: bs) = b.2 ++ Batches.calls bs := by simp [Batches.calls]
      rw [e] at hc ⊢
      by_cases hj : j < b.2.length
      · rw [List.getElem?_append_left hj, List.getElem?_eq_getElem hj, Option.some_inj] at hc
        subst hc
        have hi : (b.2[j]).index = j := by
          have := congrArg (·[j]?) hb.order
          simp only [List.getElem?_map, List.getElem?_eq_getElem hj, Option.map_some, List.getElem?_range hj,
            Option.some_inj] at this
          exact this
        have hj' : j < cbs.length := lt_of_lt_of_le hj hb.length
        refine ⟨cbs[j], by rw [hi, List.getElem?_eq_getElem hj'], ?_⟩
        rw [hb.results j hj hj', List.take_append_of_le_length hj.le, hb.shown _ (List.getElem_mem hj)]
      · rw [not_lt] at hj
        rw [List.getElem?_append_right hj] at hc
        obtain ⟨t, h1, h2⟩ := Batches.call_result hbs hc
        refine ⟨t, h1, ?_⟩
        rw [h2, List.append_assoc]
        congr 2
        rw [List.take_append, List.take_of_length_le hj]

theorem firstThrow_none {cbs : List Thrower} {calls : List Call} (h : firstThrow cbs calls = none) {j : ℕ} {c : Call}
    {t : Thrower} (hc : calls[j]? = some c) (ht : cbs[c.index]? = some t) : (t (calls.take j) c.info).isSome := by
  have hj : j < calls.length := (List.getElem?_eq_some_iff.1 hc).1
  have := List.find?_eq_none.1 h j (List.mem_range.2 hj)
  simpa [hc, ht, Option.isSome_iff_ne_none] using this

theorem firstThrow_some {cbs : List Thrower} {calls : List Call} {j : ℕ} (h : firstThrow cbs calls = some j) :
    (∃ c t, calls[j]? = some c ∧ cbs[c.index]? = some t ∧ t (calls.take j) c.info = none) ∧
      ∀ i c t, i < j → calls[i]? = some c → cbs[c.index]? = some t → (t (calls.take i) c.info).isSome := by
  obtain ⟨h1, -, h2⟩ := List.find?_range_eq_some.1 h
  refine ⟨?_, fun i c t hi hc ht => ?_⟩
  · cases hc : calls[j]? with
    | none => simp [hc] at h1
    | some c =>
        cases ht : cbs[c.index]? with
        | none => simp [hc, ht] at h1
        | some t => exact ⟨c, t, rfl, ht, by simpa [hc, ht] using h1⟩
  · have := h2 i hi
    simpa [hc, ht, Option.isSome_iff_ne_none] using this

section

variable {p : Problem} {c : Callbacks} {ad : Autodiff} {env : Env} {opts : SolverOptions} {spy : Bool} {s s' : Store}

theorem pySolve_returned {o : p.Outcome} (h : pySolve p c ad env opts spy s = some (.returned o s')) :
    (withCallbacks p c).solve ad env opts spy s = some (o, s') ∧ firstThrow (c.all spy) o.calls = none := by
  unfold pySolve at h
  obtain ⟨⟨o', t⟩, h1, h2⟩ := Option.map_eq_some_iff.1 h
  cases hf : firstThrow (c.all spy) o'.calls with
  | some j => simp only [hf, reduceCtorEq] at h2
  | none =>
      simp only [hf] at h2
      cases h2
      exact ⟨h1, hf⟩

/-- C72: if `solve()` returns, it did what it does for callbacks that cannot raise exceptions, and each of the callbacks
returned `True` or `False`. -/
theorem py_solve_returned (htol : 0 < opts.tolerance) (hok : p.Ok s) {o : p.Outcome}
    (h : pySolve p c ad env opts spy s = some (.returned o s')) :
    (withCallbacks p c).solve ad env opts spy s = some (o, s') ∧
      ∀ (j : ℕ) (call : Call), o.calls[j]? = some call → ∃ t : Thrower, (c.all spy)[call.index]? = some t ∧
        t (o.calls.take j) call.info = some call.result := by
  obtain ⟨h1, h2⟩ := pySolve_returned h
  refine ⟨h1, fun j call hc => ?_⟩
  obtain ⟨bs, hbs⟩ := solve_protocol htol (p := withCallbacks p c) (s := s) ⟨hok.nodup, hok.exist⟩ h1
  have hbs' := hbs.ok
  rw [withCallbacks_all] at hbs'
  have e : o.calls = Batches.calls bs := hbs.calls
  obtain ⟨t, k1, k2⟩ := Batches.call_result hbs' (by rw [← e]; exact hc)
  rw [List.getElem?_map] at k1
  obtain ⟨t', k3, rfl⟩ := Option.map_eq_some_iff.1 k1
  refine ⟨t', k3, ?_⟩
  obtain ⟨b, hb⟩ := Option.isSome_iff_exists.1 (firstThrow_none h2 hc k3)
  rw [hb, k2, List.nil_append, ← e, Thrower.total, hb]
  rfl

/-- C72: if `solve()` raises an exception, then it is that of the last callback called: it raised an exception, or
returned neither `True` nor `False`, or a signal was pending; all callbacks called before returned. -/
theorem py_solve_raised {calls : List Call} (h : pySolve p c ad env opts spy s = some (.raised calls)) :
    (∃ (call : Call) (t : Thrower), calls.getLast? = some call ∧ (c.all spy)[call.index]? = some t ∧ t calls.dropLast call.info = none) ∧
      ∀ (i : ℕ) (call : Call) (t : Thrower), i + 1 < calls.length → calls[i]? = some call → (c.all spy)[call.index]? = some t →
        (t (calls.take i) call.info).isSome := by
  unfold pySolve at h
  obtain ⟨⟨o, t⟩, h1, h2⟩ := Option.map_eq_some_iff.1 h
  cases hf : firstThrow (c.all spy) o.calls with
  | none => simp only [hf, reduceCtorEq] at h2
  | some j =>
      simp only [hf, PyResult.raised.injEq] at h2
      subst h2
      obtain ⟨⟨call, t, k1, k2, k3⟩, k4⟩ := firstThrow_some hf
      obtain ⟨hj, hc⟩ := List.getElem?_eq_some_iff.1 k1
      refine ⟨⟨call, t, ?_, k2, ?_⟩, fun i call t hi hc ht => ?_⟩
      · rw [List.getLast?_eq_getElem?, List.length_take, min_eq_left hj, Nat.add_sub_cancel,
          List.getElem?_take_of_lt (Nat.lt_succ_self j), k1]
      · rw [List.dropLast_eq_take, List.length_take, min_eq_left hj, List.take_take, Nat.add_sub_cancel,
          min_eq_left (Nat.le_succ j)]
        exact k3
      · rw [List.length_take, min_eq_left hj] at hi
        rw [List.getElem?_take_of_lt (by omega)] at hc
        rw [List.take_take, min_eq_left (by omega)]
        exact k4 i call t (by omega) hc ht

end

/-! ### In terms of the functions in Python -/

/-- The function that a call adds. -/
def CallbackCmd.added : CallbackCmd → Option (List Call → Info → Reply)
  | .add f => some f
  | .clear => none

/-- The functions added since `clear_callbacks` was last called, in order. -/
def registered (cs : List CallbackCmd) : List (List Call → Info → Reply) :=
  ((cs.reverse.takeWhile fun c => c.added.isSome).filterMap CallbackCmd.added).reverse

theorem ordinary_after (pending : List Call → Bool) (k : ProblemClass) (cs : List CallbackCmd) :
    (callbacksAfter pending k cs).ordinary = (registered cs).map ofPython := by
  induction cs using List.reverseRecOn with
  | nil => cases k <;> rfl
  | append_singleton cs c ih =>
      unfold callbacksAfter registered at ih ⊢
      rw [List.foldl_append, List.foldl_cons, List.foldl_nil, List.reverse_append, List.reverse_singleton,
        List.singleton_append, List.takeWhile_cons]
      cases c with
      | add f => simp [CallbackCmd.exec, CallbackCmd.added, ih]
      | clear => simp [CallbackCmd.exec, CallbackCmd.added]

theorem ofPython_some {f : List Call → Info → Reply} {calls : List Call} {info : Info} {b : Bool} :
    ofPython f calls info = some b ↔ f calls info = .returns (.bool b) := by
  unfold ofPython castOptBool
  cases h : f calls info with
  | raises => simp
  | returns v => cases v <;> simp

theorem registered_all {pending : List Call → Bool} {k : ProblemClass} {cs : List CallbackCmd} {spy : Bool} {j : ℕ}
    {f : List Call → Info → Reply} (h : (registered cs)[j]? = some f) :
    ((callbacksAfter pending k cs).all spy)[j]? = some (ofPython f) := by
  unfold Callbacks.all
  rw [ordinary_after, List.append_assoc, List.getElem?_append_left, List.getElem?_map, h]
  · rfl
  · rw [List.length_map]; exact (List.getElem?_eq_some_iff.1 h).1

/-- C72: if `solve()` returns, then each function called, of those added and not cleared, returned `True` or `False`. -/
theorem py_functions_returned {p : Problem} {pending : List Call → Bool} {k : ProblemClass} {cs : List CallbackCmd}
    {ad : Autodiff} {env : Env} {opts : SolverOptions} {spy : Bool} {s s' : Store} (htol : 0 < opts.tolerance) (hok : p.Ok s)
    {o : p.Outcome} (h : pySolve p (callbacksAfter pending k cs) ad env opts spy s = some (.returned o s')) (j : ℕ)
    (call : Call) (hc : o.calls[j]? = some call) (f : List Call → Info → Reply) (hf : (registered cs)[call.index]? = some f) :
    f (o.calls.take j) call.info = .returns (.bool call.result) := by
  obtain ⟨t, h1, h2⟩ := (py_solve_returned htol hok h).2 j call hc
  rw [registered_all hf, Option.some_inj] at h1
  subst h1
  exact ofPython_some.1 h2

/-- C72: an exception comes from the last function called, which did not return `True` or `False`, or from a signal that
was pending while an object of class `Problem` was solved; the functions called before returned `True` or `False`. -/
theorem py_exception_source {p : Problem} {pending : List Call → Bool} {k : ProblemClass} {cs : List CallbackCmd}
    {ad : Autodiff} {env : Env} {opts : SolverOptions} {spy : Bool} {s : Store} {calls : List Call}
    (h : pySolve p (callbacksAfter pending k cs) ad env opts spy s = some (.raised calls)) :
    (∃ call, calls.getLast? = some call ∧
      ((∃ f, (registered cs)[call.index]? = some f ∧ ∀ b, f calls.dropLast call.info ≠ .returns (.bool b)) ∨
        k = .problem ∧ call.index = (registered cs).length ∧ pending calls.dropLast = true)) ∧
    ∀ (i : ℕ) (call : Call) (f : List Call → Info → Reply), i + 1 < calls.length → calls[i]? = some call →
      (registered cs)[call.index]? = some f → ∃ b, f (calls.take i) call.info = .returns (.bool b) := by
  obtain ⟨⟨call, t, h1, h2, h3⟩, h4⟩ := py_solve_raised h
  refine ⟨⟨call, h1, ?_⟩, fun i call f hi hc hf => ?_⟩
  · cases hf : (registered cs)[call.index]? with
    | some f =>
        rw [registered_all hf, Option.some_inj] at h2
        subst h2
        refine .inl ⟨f, rfl, fun b hb => ?_⟩
        rw [ofPython_some.2 hb] at h3
        cases h3
    | none =>
        rw [List.getElem?_eq_none_iff] at hf
        unfold Callbacks.all at h2
        rw [ordinary_after, callbacksAfter_persistent, List.append_assoc,
          List.getElem?_append_right (by rw [List.length_map]; exact hf), List.length_map] at h2
        have hspy : ∀ {n : ℕ} {t : Thrower} (l : List Call), (if spy then [fun _ _ => some false] else ([] : List Thrower))[n]? = some t →
            t l call.info = some false := by
          intro n t l h
          cases spy
          · simp at h
          · rcases n with _ | n
            · simp only [if_true, List.getElem?_cons_zero, Option.some_inj] at h; rw [← h]
            · simp at h
        cases k with
        | ocp =>
            rw [show (construct pending .ocp).persistent = [] from rfl, List.nil_append] at h2
            rw [hspy _ h2] at h3
            cases h3
        | problem =>
            rw [show (construct pending .problem).persistent = [signalCheck pending] from rfl] at h2
            rcases hn : call.index - (registered cs).length with _ | n
            · rw [hn] at h2
              simp only [List.cons_append, List.getElem?_cons_zero, Option.some_inj] at h2
              subst h2
              refine .inr ⟨rfl, by omega, ?_⟩
              unfold signalCheck at h3
              by_contra hp
              simp [hp] at h3
            · rw [hn] at h2
              simp only [List.cons_append, List.nil_append, List.getElem?_cons_succ] at h2
              rw [hspy _ h2] at h3
              cases h3
  · obtain ⟨b, hb⟩ := Option.isSome_iff_exists.1 (h4 i call _ hi hc (registered_all hf))
    exact ⟨b, ofPython_some.1 hb⟩

/-- Functions added before `clear_callbacks` are gone, those added later are called in order. -/
example (f g h : List Call → Info → Reply) : registered [.add f, .clear, .add g, .add h] = [g, h] := by
  simp [registered, CallbackCmd.added, List.takeWhile]

/-- C72, Ctrl-C: an object of class `Problem` checks for signals at every iterate at which no other callback stops the
solve, whatever callbacks were added and cleared: if `solve()` returns, no signal was pending there.
Missing: objects of class `OCP` do not (`ocp_ignores_signals`). -/
theorem ctrl_c_partial {p : Problem} {pending : List Call → Bool} {cs : List CallbackCmd} {ad : Autodiff} {env : Env}
    {opts : SolverOptions} {spy : Bool} {s s' : Store} (htol : 0 < opts.tolerance) (hok : p.Ok s) {o : p.Outcome}
    (h : pySolve p (callbacksAfter pending .problem cs) ad env opts spy s = some (.returned o s')) :
    ∃ bs : Batches, o.calls = bs.calls ∧
      Batches.Ok (((callbacksAfter pending .problem cs).all spy).map Thrower.total) [] bs ∧ ∀ bs₁ b bs₂, bs = bs₁ ++ b :: bs₂ →
      (∀ call ∈ b.2, call.index < (callbacksAfter pending .problem cs).ordinary.length → call.result = false) →
      pending (Batches.calls bs₁ ++ b.2.take (callbacksAfter pending .problem cs).ordinary.length) = false := by
  obtain ⟨h1, h2⟩ := pySolve_returned h
  obtain ⟨bs, hbs⟩ := solve_protocol htol (p := withCallbacks p _) (s := s) ⟨hok.nodup, hok.exist⟩ h1
  have e : o.calls = Batches.calls bs := hbs.calls
  refine ⟨bs, e, withCallbacks_all p _ spy ▸ hbs.ok, ?_⟩
  rintro bs₁ b bs₂ rfl hq
  set c := callbacksAfter pending .problem cs with hcdef
  have hall : c.all spy = c.ordinary ++ signalCheck pending :: (if spy then [fun _ _ => some false] else []) := by
    unfold Callbacks.all
    rw [callbacksAfter_persistent]
    simp [construct]
  obtain ⟨-, hB⟩ := Batches.ok_append.1 hbs.ok
  obtain ⟨hB, -⟩ := hB
  rw [List.nil_append, withCallbacks_all] at hB
  have idx : ∀ j (hj : j < b.2.length), (b.2[j]).index = j := by
    intro j hj
    have := congrArg (·[j]?) hB.order
    simpa only [List.getElem?_map, List.getElem?_eq_getElem hj, Option.map_some, List.getElem?_range hj,
      Option.some_inj] using this
  have hlen : c.ordinary.length < b.2.length := by
    by_contra hle
    rw [not_lt] at hle
    have hf : ∀ call ∈ b.2, call.result = false := by
      intro call hcall
      obtain ⟨j, hj, rfl⟩ := List.mem_iff_getElem.1 hcall
      exact hq _ hcall (by rw [idx j hj]; omega)
    have := hB.all hf
    rw [hall] at this
    simp at this
    omega
  have hlen' : c.ordinary.length < (c.all spy).length := by rw [hall]; simp
  have hcall : o.calls[(Batches.calls bs₁).length + c.ordinary.length]? = some b.2[c.ordinary.length] := by
    have e2 : Batches.calls (bs₁ ++ b :: bs₂) = Batches.calls bs₁ ++ (b.2 ++ Batches.calls bs₂) := by simp [Batches.calls]
    rw [e, e2, List.getElem?_append_right (by omega), Nat.add_sub_cancel_left, List.getElem?_append_left hlen,
      List.getElem?_eq_getElem hlen]
  have ht : (c.all spy)[(b.2[c.ordinary.length]).index]? = some (signalCheck pending) := by
    rw [idx _ hlen, hall, List.getElem?_append_right le_rfl]
    simp
  have := firstThrow_none h2 hcall ht
  have e3 : o.calls.take ((Batches.calls bs₁).length + c.ordinary.length) = Batches.calls bs₁ ++ b.2.take c.ordinary.length := by
    have e2 : Batches.calls (bs₁ ++ b :: bs₂) = Batches.calls bs₁ ++ (b.2 ++ Batches.calls bs₂) := by simp [Batches.calls]
    rw [e, e2, List.take_length_add_append, List.take_append_of_le_length hlen.le]
  rw [e3] at this
  unfold signalCheck at this
  cases hp : pending (Batches.calls bs₁ ++ b.2.take c.ordinary.length)
  · rfl
  · simp [hp] at this

/-- For objects of class `OCP`, signals make no difference: Ctrl-C does not end a solve. -/
theorem ocp_ignores_signals (p : Problem) (pending pending' : List Call → Bool) (cs : List CallbackCmd) (ad : Autodiff)
    (env : Env) (opts : SolverOptions) (spy : Bool) (s : Store) :
    pySolve p (callbacksAfter pending .ocp cs) ad env opts spy s =
      pySolve p (callbacksAfter pending' .ocp cs) ad env opts spy s := rfl

/-- With a signal pending all the time, a solve that returns has not shown any iterate. -/
example {p : Problem} {f : List Call → Info → Reply} {ad : Autodiff} {env : Env} {opts : SolverOptions} {s s' : Store}
    (htol : 0 < opts.tolerance) (hok : p.Ok s) {o : p.Outcome}
    (h : pySolve p (callbacksAfter (fun _ => true) .problem [.add f, .clear]) ad env opts false s =
      some (.returned o s')) : o.calls = [] := by
  obtain ⟨bs, h1, -, h2⟩ := ctrl_c_partial htol hok h
  rw [h1]
  cases bs with
  | nil => rfl
  | cons b bs => exact absurd (h2 [] b bs rfl fun call _ hi => absurd hi (by simp [callbacksAfter, CallbackCmd.exec])) (by simp)

/-- A callback in Python that returns nothing raises an exception. -/
example (calls : List Call) (info : Info) : ofPython (fun _ _ => .returns .other) calls info = none := rfl

end Slp.Py
