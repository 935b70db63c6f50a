import Verif.Autodiff.HeapLemmas
import Mathlib.Data.Finset.Card
import Mathlib.Data.Finset.Range
import Mathlib.Tactic.IntervalCases

/-! C02: what `topological_sort` does, for every expression graph. -/

namespace Slp.Graph

/-- Specification: node `b` is an operand of node `a`. -/
def Operand (args : Args) (a b : ℕ) : Prop := (args a).1 = some b ∨ (args a).2 = some b

/-- Specification: expression `r` depends on node `n` (or is that node). -/
def DependsOn (args : Args) : ℕ → ℕ → Prop := Relation.ReflTransGen (Operand args)

/-- Operands exist before the nodes that use them: what building expressions bottom-up gives. -/
def BuiltBottomUp (args : Args) : Prop := ∀ a b, Operand args a b → b < a

theorem mem_kids_iff {args : Args} {a b : ℕ} : b ∈ kids args a ↔ Operand args a b := by
  unfold kids Operand
  rcases args a with ⟨l, r⟩
  cases l <;> cases r <;> simp [List.reduceOption, eq_comm]

theorem reach_iff {args : Args} {r n : ℕ} : Reach args r n ↔ DependsOn args r n := by
  have : (fun a b => b ∈ kids args a) = Operand args := by
    funext a b; exact propext mem_kids_iff
  unfold Reach DependsOn
  rw [this]

/-- **C02.** Sorting the graph of any expression terminates; it lists every node the expression
depends on exactly once and nothing else; a node never comes after one of its operands; the
expression itself is first; and the scratch fields all nodes share are exactly as before. -/
theorem sort_correct (args : Args) (hb : BuiltBottomUp args) (root : ℕ) (sc : Scratch)
    (hsc : ∀ c, sc c = -1) :
    ∃ out, sortFrom args root sc = some (out, sc) ∧ out.Nodup ∧
      (∀ n, n ∈ out ↔ DependsOn args root n) ∧
      (∀ (i j : ℕ) (hi : i < out.length) (hj : j < out.length),
        Operand args out[i] out[j] → i < j) ∧
      out.head? = some root := by
  have hac : Acyclic args := fun n c hc => hb n c (mem_kids_iff.mp hc)
  obtain ⟨out, h1, h2, h3, h4, h5⟩ := sortFrom_spec hac root sc hsc
  refine ⟨out, h1, h2, fun n => (h3 n).trans reach_iff, ?_, h5⟩
  intro i j hi hj hop
  by_contra hij
  rcases Nat.lt_or_ge j i with hji | hge
  · exact (List.pairwise_iff_getElem.mp h4 j i hj hi hji) (mem_kids_iff.mpr hop)
  · have hij' : i = j := by omega
    subst hij'
    exact absurd (hb _ _ hop) (lt_irrefl _)

/-- The graph of `(x·y) + (x·y)` with nodes `0 = x`, `1 = y`, `2 = x·y`, `3 = 2 + 2`. -/
def sharedGraph : Args := fun n =>
  if n = 2 then (some 0, some 1) else if n = 3 then (some 2, some 2) else (none, none)

theorem sharedGraph_builtBottomUp : BuiltBottomUp sharedGraph := by
  intro a b h
  unfold Operand sharedGraph at h
  split at h
  · simp at h; omega
  · split at h
    · simp at h; omega
    · simp at h

example : BuiltBottomUp sharedGraph ∧ ∃ out, sortFrom sharedGraph 3 (fun _ => -1) =
    some (out, fun _ => -1) ∧ 0 ∈ out ∧ out.length = 4 := by
  refine ⟨sharedGraph_builtBottomUp, ?_⟩
  obtain ⟨out, h1, hn, hm, -, -⟩ := sort_correct sharedGraph sharedGraph_builtBottomUp 3
    (fun _ => -1) (fun _ => rfl)
  have d3 : DependsOn sharedGraph 3 3 := .refl
  have d2 : DependsOn sharedGraph 3 2 := .single (by simp [Operand, sharedGraph])
  have d0 : DependsOn sharedGraph 3 0 := d2.tail (by simp [Operand, sharedGraph])
  have d1 : DependsOn sharedGraph 3 1 := d2.tail (by simp [Operand, sharedGraph])
  refine ⟨out, h1, (hm 0).mpr d0, ?_⟩
  have hset : out.toFinset = Finset.range 4 := by
    ext n
    simp only [List.mem_toFinset, hm, Finset.mem_range]
    constructor
    · intro h
      have : n ≤ 3 := by
        induction h with
        | refl => omega
        | tail _ h2 ih => have := sharedGraph_builtBottomUp _ _ h2; omega
      omega
    · intro h
      interval_cases n <;> assumption
  rw [← List.toFinset_card_of_nodup hn, hset]
  simp

end Slp.Graph
