import Verif.Solver.Fl

/-!
Model of `optimization/solver/util/inertia.hpp`, `dense_regularized_ldlt.hpp`, `sparse_regularized_ldlt.hpp` and
`regularized_ldlt.hpp`. The two regularised factorisations make the same decisions; they differ in the
factorisation they call, which is a parameter here. Exact reals for the regularisation, `Fl` for the pivots.
-/

namespace Slp.Ldlt

open Classical

/-- `Inertia` (`inertia.hpp:14-32`). -/
structure Inertia where
  positive : ℕ
  negative : ℕ
  zero : ℕ

/-- `std::numeric_limits<double>::epsilon()` (`inertia.hpp:42,44`, `dense_regularized_ldlt.hpp:83`). -/
noncomputable def epsilon : ℝ := 1 / 2 ^ 52

/-- One round of the loop in the constructor from pivots (`inertia.hpp:42-48,62-68`). -/
noncomputable def Inertia.count (r : Inertia) (d : Fl) : Inertia :=
  if d > Fl.fin epsilon then { r with positive := r.positive + 1 }
  else if d < Fl.fin (-epsilon) then { r with negative := r.negative + 1 }
  else { r with zero := r.zero + 1 }

/-- `Inertia(D)` (`inertia.hpp:40-50,58-70`). -/
noncomputable def Inertia.of (D : List Fl) : Inertia := D.foldl Inertia.count ⟨0, 0, 0⟩

/-- The factorisation: what the `c`th call of `factorize()` reports for the matrix regularised by `δ` and `γ`,
its pivots if it succeeds (`dense_regularized_ldlt.hpp:62,92`, `sparse_regularized_ldlt.hpp:77,108`). -/
abbrev Factor := ℕ → ℝ → ℝ → Option (List Fl)

/-- The state after `compute()`: `m_info == Success`, `m_prev_δ`, `m_prev_γ`, and the last call made
(`dense_regularized_ldlt.hpp:59-136`). -/
structure State where
  ok : Bool
  δ : ℝ
  γ : ℝ
  calls : ℕ

/-- The change of `δ` and `γ` after an attempt that was not accepted
(`dense_regularized_ldlt.hpp:100-125`, `sparse_regularized_ldlt.hpp:116-141`). -/
noncomputable def bump (n m : ℕ) (r : Option (List Fl)) (δ γ : ℝ) : ℝ × ℝ :=
  match r with
  | some D =>
      if (Inertia.of D).zero > 0 then
        if γ = 0 then (δ, 1e-10) else (δ * 10, γ * 10)
      else if (Inertia.of D).negative > m then (δ * 10, γ)
      else if (Inertia.of D).positive > n then (δ, if γ = 0 then 1e-10 else γ * 10)
      else (δ, γ)
  | none => (δ * 10, if γ = 0 then 1e-10 else γ * 10)

/-- The attempt is accepted (`dense_regularized_ldlt.hpp:92-95`, `sparse_regularized_ldlt.hpp:108-111`). -/
def Ideal (n m : ℕ) (r : Option (List Fl)) : Prop := ∃ D, r = some D ∧ Inertia.of D = ⟨n, m, 0⟩

/-- The loop (`dense_regularized_ldlt.hpp:89-135`, `sparse_regularized_ldlt.hpp:104-151`); `none` when it has
not ended after `fuel` rounds. -/
noncomputable def loop (F : Factor) (n m : ℕ) : ℕ → ℕ → ℝ → ℝ → Option State
  | 0, _, _, _ => none
  | fuel + 1, c, δ, γ =>
      if Ideal n m (F c δ γ) then some ⟨true, δ, γ, c⟩
      else
        let b := bump n m (F c δ γ) δ γ
        if b.1 > 1e20 ∨ b.2 > 1e20 then some ⟨false, b.1, b.2, c⟩ else loop F n m fuel (c + 1) b.1 b.2

/-- No regularisation is needed (`dense_regularized_ldlt.hpp:62-68`, `sparse_regularized_ldlt.hpp:77-83`). -/
def Acceptable (n m : ℕ) (r : Option (List Fl)) : Prop :=
  ∃ D, r = some D ∧ Inertia.of D = ⟨n, m, 0⟩ ∧ ∀ d ∈ D, Fl.fin 1e-4 ≤ Fl.abs d

/-- The first `δ` tried (`dense_regularized_ldlt.hpp:80-83`, `sparse_regularized_ldlt.hpp:95-98`). -/
noncomputable def startδ (prev : ℝ) : ℝ := if prev = 0 then 1e-4 else max (prev / 2) epsilon

/-- `compute(lhs)` (`dense_regularized_ldlt.hpp:59-136`, `sparse_regularized_ldlt.hpp:64-152`), after a previous
`compute()` that left `m_prev_δ = prev`. -/
noncomputable def compute (F : Factor) (n m : ℕ) (γmin prev : ℝ) (fuel : ℕ) : Option State :=
  if Acceptable n m (F 0 0 0) then some ⟨true, 0, 0, 0⟩ else loop F n m fuel 1 (startδ prev) γmin

end Slp.Ldlt
