import Verif.Memory.RefStep

/-! C10: expression memory. The statements compare the reference-counted heap with the idealised one
of `RefSpec`, which never releases anything. -/

namespace Slp.Mem

/-- The heap after a history, `none` if it has undefined behaviour. -/
def heapAfter (os : List Op) : Option State := run os State.empty

/-- The idealised heap after a history, `none` if the program misuses a handle. -/
def idealAfter (os : List Op) : Option Ideal := Ideal.empty.run os

/-- C10, safety: a program that does not misuse its handles never touches a released node, never
releases a node twice, every release loop terminates, every handle holds the pointer it should, and
every node that a live handle can reach is allocated with the right pointer fields. -/
theorem memory_safe {os : List Op} {g : Ideal} (h : idealAfter os = some g) :
    ∃ s, heapAfter os = some s ∧ s.slots = g.slots ∧
      ∀ n, g.Reach n → ∃ nd, s.mem n = some nd ∧ g.cells[n]? = some ⟨nd.args, nd.adj⟩ := by
  obtain ⟨s, e, R⟩ := run_ok rel_empty h
  refine ⟨s, e, R.slots.symm, fun n hn => ?_⟩
  obtain ⟨nd, hm⟩ := R.reach_alive hn
  exact ⟨nd, hm, R.cells n nd hm⟩

/-- C10: as long as the links do not form a cycle, exactly the nodes that a live handle can reach are
allocated. As this holds after every history, a node is released by the very operation that makes it
unreachable. -/
theorem released_iff_unreachable {os : List Op} {g : Ideal} (h : idealAfter os = some g)
    (A : g.Acyclic) : ∃ s, heapAfter os = some s ∧ ∀ n, s.mem n = none ↔ ¬ g.Reach n := by
  obtain ⟨s, e, R⟩ := run_ok rel_empty h
  refine ⟨s, e, fun n => ⟨fun hm hr => ?_, fun hr => ?_⟩⟩
  · obtain ⟨nd, hm'⟩ := R.reach_alive hr
    rw [hm] at hm'; cases hm'
  · cases hm : s.mem n with
    | none => rfl
    | some nd => exact absurd (R.alive_reach A hm) hr

/-- Operands are older than their users, so without derivative links there is no cycle. -/
theorem acyclic_of_unlinked {os : List Op} {g : Ideal} (h : idealAfter os = some g)
    (U : g.Unlinked) : g.Acyclic := by
  obtain ⟨s, e, R⟩ := run_ok rel_empty h
  exact R.ok.acyclic U

/-- C10, no leak: once every handle is destroyed or null, and no derivative link is left, every node
has been released. -/
theorem no_leak {os : List Op} {g : Ideal} (h : idealAfter os = some g) (U : g.Unlinked)
    (hs : ∀ n, some (some n) ∉ g.slots) : ∃ s, heapAfter os = some s ∧ ∀ n, s.mem n = none := by
  obtain ⟨s, e, hiff⟩ := released_iff_unreachable h (acyclic_of_unlinked h U)
  refine ⟨s, e, fun n => (hiff n).2 fun hr => ?_⟩
  induction hr with
  | handle h => exact hs _ h
  | link _ _ ih => exact ih

/-! ### Concrete histories -/

/-- `x` and `y` are leaves, `z = x * y`, `w = z * z`; `x`, `y`, `z` go out of scope. -/
def shared : List Op :=
  [.make none none, .make none none, .make (some 0) (some 1), .make (some 2) (some 2), .destroy 0,
    .destroy 1, .destroy 2]

example : (heapAfter shared).map (fun s => (List.range 4).map fun n => (s.mem n).isSome) =
    some [true, true, true, true] := rfl

example : (heapAfter (shared ++ [.destroy 3])).map
    (fun s => (List.range 4).map fun n => (s.mem n).isSome) = some [false, false, false, false] := rfl

theorem shared_ideal : idealAfter (shared ++ [.destroy 3]) =
    some ⟨[⟨(none, none), none⟩, ⟨(none, none), none⟩, ⟨(some 0, some 1), none⟩,
      ⟨(some 2, some 2), none⟩], [none, none, none, none]⟩ := rfl

example : ∃ s, heapAfter (shared ++ [.destroy 3]) = some s ∧ ∀ n, s.mem n = none :=
  no_leak shared_ideal (by
    intro n c h
    match n with
    | 0 | 1 | 2 | 3 => cases h; rfl
    | n + 4 => simp at h) (by intro n; simp)

/-! ### Limits -/

/-- `x = x->args[0]` on the only handle of `x`'s node reads a released node: copy assignment releases
the old pointer before it reads the new one. -/
theorem self_operand_assignment_undefined :
    heapAfter [.make none none, .make (some 0) none, .assign 1 (.arg 1 false)] = none := rfl

/-- A cycle through `adjoint_expr` is never released: `y = f(x); x->adjoint_expr = y`, all handles
destroyed. This is why `gradient_tree` unlinks the adjoints. -/
theorem cycle_leaks : (heapAfter [.make none none, .make (some 0) none, .moveToAdj 0 1, .destroy 0,
    .destroy 1]).map (fun s => ((s.mem 0).isSome, (s.mem 1).isSome, s.slots)) =
      some (true, true, [none, none]) := rfl

end Slp.Mem
