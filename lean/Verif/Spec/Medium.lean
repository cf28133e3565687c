import Verif.Spec.Maxwell1D

/-!
# Specification: layered VTI medium and its TM / TE systems
-/

namespace Verif.Spec

/-- A horizontally layered, vertically transverse isotropic medium at one frequency:
`eta = σ + sε` (horizontal and vertical), `zeta = sμ` (horizontal and vertical). -/
structure Medium where
  n : ℤ
  D : ℤ → ℝ
  etaH : ℤ → ℂ
  etaV : ℤ → ℂ
  zetaH : ℤ → ℂ
  zetaV : ℤ → ℂ

namespace Medium

/-- Passive layer: conducting, no magnetic gain. -/
structure LayerPassive (etaH etaV zetaH zetaV : ℂ) : Prop where
  etaH_re : 0 < etaH.re
  etaV_re : 0 < etaV.re
  zetaH_re : 0 ≤ zetaH.re
  zetaV_re : 0 ≤ zetaV.re
  zetaH_ne : zetaH ≠ 0
  zetaV_ne : zetaV ≠ 0

/-- Interfaces are ordered (zero thickness allowed) and all layers are passive. -/
structure OK (M : Medium) : Prop where
  pos : 0 < M.n
  mono : ∀ i, 1 ≤ i → i + 1 < M.n → M.D i ≤ M.D (i + 1)
  pas : ∀ i, 0 ≤ i → i < M.n → LayerPassive (M.etaH i) (M.etaV i) (M.zetaH i) (M.zetaV i)

variable (M : Medium)

/-- `z` lies in the closed layer `i`. -/
def InClosed (i : ℤ) (z : ℝ) : Prop :=
  0 ≤ i ∧ i < M.n ∧ (i ≠ 0 → M.D i ≤ z) ∧ (i ≠ M.n - 1 → z ≤ M.D (i + 1))

/-- `z` lies in the open layer `i`. -/
def InOpen (i : ℤ) (z : ℝ) : Prop :=
  0 ≤ i ∧ i < M.n ∧ (i ≠ 0 → M.D i < z) ∧ (i ≠ M.n - 1 → z < M.D (i + 1))

/-- `z` is one of the interfaces. -/
def IsInterface (z : ℝ) : Prop := ∃ i, 1 ≤ i ∧ i < M.n ∧ z = M.D i

/-- TM system: `A' = η_H B`, `B' = (λ²/η_V + ζ_H) A`. -/
noncomputable def tm (lam : ℝ) : Stack :=
  ⟨M.n, M.D, M.etaH, fun i => (lam : ℂ) ^ 2 / M.etaV i + M.zetaH i⟩

/-- TE system: `A' = ζ_H B`, `B' = (λ²/ζ_V + η_H) A`. -/
noncomputable def te (lam : ℝ) : Stack :=
  ⟨M.n, M.D, M.zetaH, fun i => (lam : ℂ) ^ 2 / M.zetaV i + M.etaH i⟩

/-- The homogeneous medium with the properties of layer `s`. -/
def homog (s : ℤ) : Medium :=
  ⟨1, M.D, fun _ => M.etaH s, fun _ => M.etaV s, fun _ => M.zetaH s, fun _ => M.zetaV s⟩

end Medium

end Verif.Spec
