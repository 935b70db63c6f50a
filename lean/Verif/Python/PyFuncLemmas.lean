import Verif.Python.PyOpsProps

/-! Overload resolution for functions: the arguments reach the C++ function in their order, or no function takes them. -/

namespace Slp.Py

open Slp.VMat

variable {α : Type}

theorem mapM_accepts {num : ℝ → α} {c : Bool} : ∀ {tys : List Ty} {args : List (Obj α)} {x : List (Operand α)},
    tys.length = args.length → ((tys.zip args).mapM fun p => accepts num c p.1 p.2) = some x →
      x = args.map (Obj.operand num)
  | [], [], x, _, h => by simpa using h.symm
  | [], _ :: _, _, h, _ => by simp at h
  | _ :: _, [], _, h, _ => by simp at h
  | t :: tys, o :: args, x, h, hx => by
      simp only [List.zip_cons_cons, List.mapM_cons, Option.pure_def, Option.bind_eq_bind, Option.bind_eq_some_iff,
        Option.some.injEq] at hx
      obtain ⟨a, ha, b, hb, rfl⟩ := hx
      rw [List.map_cons, ← accepts_operand ha, ← mapM_accepts (by simpa using h) hb]

/-- Some function takes the arguments, possibly after conversions. -/
def Takes (num : ℝ → α) (l : List (List Ty)) (args : List (Obj α)) : Prop :=
  ∃ tys ∈ l, List.Forall₂ (fun t o => (accepts num true t o).isSome) tys args

theorem mapM_isSome {num : ℝ → α} {c : Bool} {tys : List Ty} {args : List (Obj α)}
    (h : List.Forall₂ (fun t o => (accepts num c t o).isSome) tys args) :
    ∃ x, ((tys.zip args).mapM fun p => accepts num c p.1 p.2) = some x := by
  induction h with
  | nil => exact ⟨[], rfl⟩
  | cons h _ ih =>
      obtain ⟨x, hx⟩ := ih
      obtain ⟨a, ha⟩ := Option.isSome_iff_exists.1 h
      exact ⟨a :: x, by simp [List.zip_cons_cons, List.mapM_cons, ha, hx]⟩

theorem isSome_mapM {num : ℝ → α} {c : Bool} : ∀ {tys : List Ty} {args : List (Obj α)} {x : List (Operand α)},
    tys.length = args.length → ((tys.zip args).mapM fun p => accepts num c p.1 p.2) = some x →
      List.Forall₂ (fun t o => (accepts num c t o).isSome) tys args
  | [], [], _, _, _ => .nil
  | [], _ :: _, _, h, _ => by simp at h
  | _ :: _, [], _, h, _ => by simp at h
  | t :: tys, o :: args, x, h, hx => by
      simp only [List.zip_cons_cons, List.mapM_cons, Option.pure_def, Option.bind_eq_bind, Option.bind_eq_some_iff,
        Option.some.injEq] at hx
      obtain ⟨a, ha, b, hb, rfl⟩ := hx
      exact .cons (by rw [ha]; rfl) (isSome_mapM (by simpa using h) hb)

theorem accepts_convert {num : ℝ → α} {c : Bool} {t : Ty} {o : Obj α} (h : (accepts num c t o).isSome) :
    (accepts num true t o).isSome := by
  cases c
  · cases t <;> cases o <;> simp_all [accepts]
  · exact h

theorem resolve_takes {num : ℝ → α} {l : List (List Ty)} {args : List (Obj α)} (h : Takes num l args) :
    resolve num l args = some (args.map (Obj.operand num)) := by
  have sound : ∀ c x, (l.findSome? fun tys => if tys.length = args.length then
      (tys.zip args).mapM fun p => accepts num c p.1 p.2 else none) = some x → x = args.map (Obj.operand num) := by
    intro c x hx
    obtain ⟨tys, -, e⟩ := List.exists_of_findSome?_eq_some hx
    split at e
    · rename_i hl
      exact mapM_accepts hl e
    · simp at e
  have full : (l.findSome? fun tys => if tys.length = args.length then
      (tys.zip args).mapM fun p => accepts num true p.1 p.2 else none).isSome := by
    obtain ⟨tys, hm, hf⟩ := h
    obtain ⟨x, hx⟩ := mapM_isSome hf
    rw [List.findSome?_isSome_iff]
    exact ⟨tys, hm, by rw [if_pos hf.length_eq, hx]; rfl⟩
  obtain ⟨y, hy⟩ := Option.isSome_iff_exists.1 full
  unfold resolve
  cases hx : (l.findSome? fun tys => if tys.length = args.length then
      (tys.zip args).mapM fun p => accepts num false p.1 p.2 else none) with
  | some x => simp only [hx, Option.some_or]; rw [sound _ _ hx]
  | none => simp only [hx, Option.none_or, hy]; rw [sound _ _ hy]

theorem resolve_refuses {num : ℝ → α} {l : List (List Ty)} {args : List (Obj α)} (h : ¬ Takes num l args) :
    resolve num l args = none := by
  have key : ∀ c, (l.findSome? fun tys => if tys.length = args.length then
      (tys.zip args).mapM fun p => accepts num c p.1 p.2 else none) = none := by
    intro c
    rw [List.findSome?_eq_none_iff]
    intro tys hm
    split
    · rename_i hl
      rw [Option.eq_none_iff_forall_ne_some]
      intro x hx
      exact h ⟨tys, hm, (isSome_mapM hl hx).imp fun _ _ => accepts_convert⟩
    · rfl
  simp only [resolve, key, Option.none_or]

end Slp.Py
