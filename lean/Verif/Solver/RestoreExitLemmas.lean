import Verif.Solver.HistoryLemmas
import Verif.Solver.LineSearchLemmas
import Verif.Solver.SqpModel

/-! Lemmas on how feasibility restoration is left by a request to stop. -/

namespace Slp

open Classical

variable {n m k : ℕ}

/-- What callbacks were shown last by a run that was stopped. -/
def IpmResult.iterate (res : IpmResult n m k) : Iterate :=
  ⟨res.iterations, List.ofFn res.x, List.ofFn res.s, List.ofFn res.y, List.ofFn res.z⟩

theorem ipmMove_inner {env : Env} {opts : SolverOptions} {P : Nlp n m k} {st : IpmState n m k} {w : World} {E : Filter}
    {mv : Moved n m k} (h : ipmMove env opts P restoreInner st w E = some mv) :
    (∃ res, mv = .stop res ∧ res.status ≠ .callbackRequestedStop) ∨ ∃ st2 w2, mv = .go st2 w2 E := by
  unfold ipmMove at h
  split at h
  · obtain rfl := Option.some.inj h
    exact .inl ⟨_, rfl, by simp [IpmState.exit]⟩
  · obtain ⟨ls, -, h⟩ := Option.bind_eq_some_iff.1 h
    simp only [restoreInner] at h
    split at h
    · obtain rfl := Option.some.inj h
      exact .inl ⟨_, rfl, by simp [IpmState.exit]⟩
    · cases ha : ls.accepted with
      | none =>
        rw [ha] at h
        obtain rfl := Option.some.inj h
        exact .inl ⟨_, rfl, by simp [IpmState.exit]⟩
      | some b =>
        rw [ha] at h
        obtain rfl := Option.some.inj h
        exact .inr ⟨_, _, rfl⟩

/-- The last registered callback that was called requested the stop. -/
def StoppedByUser (cbs : List Callback) (w : World) (info : Info) : Prop :=
  (∃ c, w.calls.getLast? = some c ∧ c.info = info ∧ c.result = true) ∧ ∃ cb ∈ cbs, ∃ calls, cb calls info = true

theorem runRegistered_last (info : Info) (i : ℕ) (cbs : List Callback) (calls : List Call)
    (h : (runRegistered info i cbs calls).2 = true) :
    (∃ c, (runRegistered info i cbs calls).1.getLast? = some c ∧ c.info = info ∧ c.result = true) ∧
      ∃ cb ∈ cbs, ∃ calls, cb calls info = true := by
  induction cbs generalizing i calls with
  | nil => simp [runRegistered] at h
  | cons c cs ih =>
    unfold runRegistered at h ⊢
    split
    · rename_i hc
      exact ⟨⟨_, by simp; rfl, rfl, rfl⟩, c, by simp, calls, hc⟩
    · rename_i hc
      rw [if_neg hc] at h
      obtain ⟨h1, cb, h2, h3⟩ := ih _ _ h
      exact ⟨h1, cb, List.mem_cons_of_mem _ h2, h3⟩

theorem inner_stop {env : Env} {opts : SolverOptions} {P : Nlp n m k} {cbs : List Callback} {extra : Extra}
    {inner : Bool} {start : ℝ} (hX : ∀ F info, (extra F info).2 = false → F.Similar (extra F info).1) {F0 : Filter}
    (r : ℕ) (st : IpmState n m k) (w : World) (E : Filter) (hE : F0.Similar E) (res : IpmResult n m k)
    (hres : ipmLoop env opts P cbs extra inner restoreInner start r st w E = some res)
    (hs : res.status = .callbackRequestedStop) :
    ∃ F info, F0.Similar F ∧ info.toIterate = res.iterate ∧ (StoppedByUser cbs res.world info ∧ res.extraFilter = F ∨
      extra F info = (res.extraFilter, true)) := by
  have key (st : IpmState n m k) (w : World) (E : Filter) (hE : F0.Similar E)
      (hn : (ipmNotify cbs extra inner st w E).2.2 = false) : F0.Similar (ipmNotify cbs extra inner st w E).2.1 := by
    unfold ipmNotify runCallbacks at hn ⊢
    simp only at hn ⊢
    split at hn
    · simp at hn
    · rename_i h; rw [if_neg h]; exact hE.trans (hX _ _ hn)
  refine ipmLoop_rule (fun _ _ E => F0.Similar E) (fun res => res.status = .callbackRequestedStop →
    ∃ F info, F0.Similar F ∧ info.toIterate = res.iterate ∧ (StoppedByUser cbs res.world info ∧ res.extraFilter = F ∨
      extra F info = (res.extraFilter, true))) ?_ ?_ ?_ ?_ ?_ ?_ r st w E hE res hres hs
  · intro st w E _ _ h; simp [IpmState.exit] at h
  · intro st w E _ _ _ h; simp [IpmState.exit] at h
  · intro st w E _ _ _ h; simp [IpmState.exit] at h
  · intro st w E hE _ hn _
    refine ⟨E, st.info, hE, rfl, ?_⟩
    unfold ipmNotify runCallbacks at hn ⊢
    simp only at hn ⊢
    by_cases h : (runRegistered st.info 0 cbs w.calls).2 = true
    · simp only [if_pos h]
      exact .inl ⟨runRegistered_last _ _ _ _ h, rfl⟩
    · simp only [if_neg h] at hn ⊢
      exact .inr (Prod.ext rfl hn)
  · intro st w E res hE _ hn hm h
    rcases ipmMove_inner hm with ⟨r, h1, h2⟩ | ⟨_, _, h1⟩
    · obtain rfl := Moved.stop.inj h1
      exact absurd h h2
    · simp at h1
  · intro st w E st2 w2 E2 st3 hE _ hn hm _
    obtain rfl : (ipmNotify cbs extra inner st w E).2.1 = E2 := by
      rcases ipmMove_inner hm with ⟨r, h1, -⟩ | ⟨_, _, h1⟩
      · simp at h1
      · exact (Moved.go.inj h1).2.2.symm
    exact ⟨fun _ h => by simp [IpmState.exit] at h, fun _ => ⟨fun _ h => by simp [IpmState.exit] at h,
      fun _ => key st w E hE hn⟩⟩

theorem frRun_stop {env : Env} {opts : SolverOptions} {P : Nlp n m k} {cbs : List Callback} {extra : Extra} {x : Vec n}
    {s : Vec k} {μ : Fl} {it : ℕ} {w : World} {E : Filter} {res : IpmResult (n + relaxed m k) m (k + relaxed m k)}
    (hX : ∀ F info, (extra F info).2 = false → F.Similar (extra F info).1)
    (h : frRun env opts P cbs extra x s μ it w E = some res) (hs : res.status = .callbackRequestedStop) :
    ∃ F info, E.Similar F ∧ info.toIterate = res.iterate ∧ (StoppedByUser cbs res.world info ∧ res.extraFilter = F ∨
      extra F info = (res.extraFilter, true)) := by
  unfold frRun ipmRun at h
  simp only at h
  split at h
  · obtain rfl := Option.some.inj h; simp [IpmState.exit] at hs
  split at h
  · obtain rfl := Option.some.inj h; simp [IpmState.exit] at hs
  exact inner_stop hX _ _ _ _ (.refl E) _ h hs

theorem extra_similar {c t : FilterEntry} {D α : Fl} {F : Filter} {v : Fl}
    (h : (if t.violation < v then F.tryAdd c t D α else (F, false)).2 = false) :
    F.Similar (if t.violation < v then F.tryAdd c t D α else (F, false)).1 := by
  split at h
  · rename_i hv; rw [if_pos hv]; exact Filter.tryAdd_similar (by rw [h]; simp)
  · rename_i hv; rw [if_neg hv]; exact .refl F

theorem ofFn_getD {a b : ℕ} (v : Vec (a + b)) (i : Fin a) : (List.ofFn v).getD i .nan = v (Fin.castAdd b i) := by
  rw [List.getD_eq_getElem?_getD, List.getElem?_ofFn, dif_pos (by omega)]
  rfl

theorem ofFn_take {a b : ℕ} (v : Vec (a + b)) : (List.ofFn v).take a = List.ofFn fun i => v (Fin.castAdd b i) := by
  apply List.ext_getElem
  · simp
  · intro i h1 h2
    simp

end Slp
