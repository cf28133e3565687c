import Mathlib.Data.EReal.Basic
import Verif.Spec.Medium

/-!
# Specification: interfaces and layers as the user gives them
-/

namespace Verif.Spec

/-- Interfaces are ordered from top to bottom (interfaces may coincide). -/
def TopDown (d : List EReal) : Prop := d.Pairwise (· ≤ ·)

/-- Interfaces are ordered from bottom to top (strictly). -/
def BottomUp (d : List EReal) : Prop := d.Pairwise (fun a b => b < a)

open Classical in
/-- Number of layers: one more than there are interfaces, not counting `-inf` and `+inf`. -/
noncomputable def numLayers (d : List EReal) : ℕ :=
  d.length + 1 - (if ⊥ ∈ d then 1 else 0) - (if ⊤ ∈ d then 1 else 0)

/-- The medium whose layers are described by the given lists. -/
structure Represents (M : Medium) (depth : List EReal) (etaH etaV zetaH zetaV : List ℂ) : Prop where
  n : M.n = depth.length
  D : ∀ i : ℕ, 1 ≤ i → ∀ h : i < depth.length, ((M.D i : ℝ) : EReal) = depth[i]
  etaH : ∀ (i : ℕ) (h : i < etaH.length), M.etaH i = etaH[i]
  etaV : ∀ (i : ℕ) (h : i < etaV.length), M.etaV i = etaV[i]
  zetaH : ∀ (i : ℕ) (h : i < zetaH.length), M.zetaH i = zetaH[i]
  zetaV : ∀ (i : ℕ) (h : i < zetaV.length), M.zetaV i = zetaV[i]

end Verif.Spec
