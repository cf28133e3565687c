import Mathlib.Analysis.Calculus.Deriv.Basic
import Mathlib.Analysis.Complex.Basic

/-!
# Specification: the one-dimensional Maxwell problem behind a horizontally layered medium

After a horizontal Fourier transform Maxwell's equations in a VTI medium separate into a TM
and a TE system, each of them of the form

  `dA/dz = e(z) B`,   `dB/dz = q(z) A`

with layer-wise constant `e`, `q`.  Nothing in this file refers to the code.
-/

namespace Verif.Spec

/-- A stack of `n` layers; layer `i` (0 ≤ i < n) occupies `D i < z < D (i+1)`, where the top
of layer `0` is -∞ and the bottom of layer `n-1` is +∞ (`D 0`, `D n` are meaningless). -/
structure Stack where
  n : ℤ
  D : ℤ → ℝ
  e : ℤ → ℂ
  q : ℤ → ℂ

namespace Stack

variable (M : Stack)

/-- `z` lies in the open layer `i`. -/
def InOpen (i : ℤ) (z : ℝ) : Prop :=
  0 ≤ i ∧ i < M.n ∧ (i ≠ 0 → M.D i < z) ∧ (i ≠ M.n - 1 → z < M.D (i + 1))

/-- `z` lies in the closed layer `i` (interfaces belong to both neighbours). -/
def InClosed (i : ℤ) (z : ℝ) : Prop :=
  0 ≤ i ∧ i < M.n ∧ (i ≠ 0 → M.D i ≤ z) ∧ (i ≠ M.n - 1 → z ≤ M.D (i + 1))

/-- `z` is one of the interfaces. -/
def IsInterface (z : ℝ) : Prop := ∃ i, 1 ≤ i ∧ i < M.n ∧ z = M.D i

/-- The geometry makes sense: at least one layer, interfaces ordered (zero-thickness layers
are allowed). -/
structure Ordered : Prop where
  pos : 0 < M.n
  mono : ∀ i, 1 ≤ i → i + 1 < M.n → M.D i ≤ M.D (i + 1)

/-- Passivity of one layer: no gain, some loss, and both coefficients non-zero. -/
structure PassiveAt (e q : ℂ) : Prop where
  e_ne : e ≠ 0
  q_ne : q ≠ 0
  e_re : 0 ≤ e.re
  q_re : 0 ≤ q.re
  loss : 0 < e.re ∨ 0 < q.re

/-- All layers are passive. -/
def Passive : Prop := ∀ i, 0 ≤ i → i < M.n → PassiveAt (M.e i) (M.q i)

open Filter Topology in
/-- `(A, B)` is the field of a point source at depth `zs` with jumps `jA`, `jB`:
the differential equations hold inside every layer away from the source, the field is
continuous everywhere else (in particular across interfaces), jumps by the prescribed
amount at the source (where, by convention, the function value is the mean of both limits)
and vanishes at ±∞. -/
structure IsField (zs : ℝ) (jA jB : ℂ) (A B : ℝ → ℂ) : Prop where
  odeA : ∀ i z, M.InOpen i z → z ≠ zs → HasDerivAt A (M.e i * B z) z
  odeB : ∀ i z, M.InOpen i z → z ≠ zs → HasDerivAt B (M.q i * A z) z
  contA : ∀ z, M.IsInterface z → z ≠ zs → ContinuousAt A z
  contB : ∀ z, M.IsInterface z → z ≠ zs → ContinuousAt B z
  jumpA : Tendsto A (𝓝[<] zs) (𝓝 (A zs - jA / 2)) ∧ Tendsto A (𝓝[>] zs) (𝓝 (A zs + jA / 2))
  jumpB : Tendsto B (𝓝[<] zs) (𝓝 (B zs - jB / 2)) ∧ Tendsto B (𝓝[>] zs) (𝓝 (B zs + jB / 2))
  decayA : Tendsto A atTop (𝓝 0) ∧ Tendsto A atBot (𝓝 0)
  decayB : Tendsto B atTop (𝓝 0) ∧ Tendsto B atBot (𝓝 0)

end Stack

end Verif.Spec
