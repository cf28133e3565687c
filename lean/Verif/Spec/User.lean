import Verif.Spec.Layers
import Mathlib.Analysis.SpecialFunctions.Trigonometric.Basic

/-!
# Specification: the medium a user describes with the arguments of the modelling routines

Interfaces from top to bottom; per layer a resistivity, and optionally an anisotropy, relative
permittivities and relative permeabilities.  Nothing in this file refers to the code.
-/

namespace Verif.Spec

/-- Magnetic permeability of free space (pre-2019 definition). -/
noncomputable def muVac : ℝ := 4e-7 * Real.pi
/-- Electric permittivity of free space. -/
noncomputable def epsVac : ℝ := 1 / (muVac * 299792458 ^ 2)

/-- Interfaces `z` and layer parameters, top to bottom. -/
structure UserModel where
  z : List ℝ
  res : List ℝ
  aniso : Option (List ℝ)
  epermH : Option (List ℝ)
  epermV : Option (List ℝ)
  mpermH : Option (List ℝ)
  mpermV : Option (List ℝ)

namespace UserModel

/-- Value of an optional parameter in layer `i`; `d` if it is not given. -/
def val (o : Option (List ℝ)) (d : ℝ) (i : ℕ) : ℝ :=
  match o with
  | none => d
  | some l => l.getD i 0

variable (U : UserModel)

/-- Horizontal resistivity. -/
def rhoH (i : ℕ) : ℝ := U.res.getD i 0
/-- Vertical resistivity. -/
def rhoV (i : ℕ) : ℝ := U.rhoH i * val U.aniso 1 i ^ 2
/-- Relative permittivities; the vertical one defaults to the horizontal one. -/
def epsH (i : ℕ) : ℝ := val U.epermH 1 i
@[inherit_doc epsH]
def epsV (i : ℕ) : ℝ := val U.epermV (U.epsH i) i
/-- Relative permeabilities; the vertical one defaults to the horizontal one. -/
def muH (i : ℕ) : ℝ := val U.mpermH 1 i
@[inherit_doc muH]
def muV (i : ℕ) : ℝ := val U.mpermV (U.muH i) i

/-- One entry per layer, nothing below the minimum resistivity, nothing negative. -/
structure Valid (minRes : ℝ) : Prop where
  order : U.z.Pairwise (· ≤ ·)
  len : U.res.length = U.z.length + 1
  lens : ∀ l, (some l = U.aniso ∨ some l = U.epermH ∨ some l = U.epermV ∨ some l = U.mpermH ∨
    some l = U.mpermV) → l.length = U.z.length + 1
  rhoH : ∀ i < U.z.length + 1, minRes ≤ U.rhoH i
  rhoV : ∀ i < U.z.length + 1, minRes ≤ U.rhoV i
  aniso : ∀ i < U.z.length + 1, 0 < val U.aniso 1 i
  epsH : ∀ i < U.z.length + 1, 0 ≤ U.epsH i
  epsV : ∀ i < U.z.length + 1, 0 ≤ U.epsV i
  muH : ∀ i < U.z.length + 1, 0 < U.muH i
  muV : ∀ i < U.z.length + 1, 0 < U.muV i

/-- All layers consist of the same material. -/
def Uniform : Prop := ∀ i < U.z.length + 1, ∀ j < U.z.length + 1,
  U.rhoH i = U.rhoH j ∧ val U.aniso 1 i = val U.aniso 1 j ∧ U.epsH i = U.epsH j ∧ U.epsV i = U.epsV j ∧
  U.muH i = U.muH j ∧ U.muV i = U.muV j

/-- Value in layer `i`. -/
def layer (f : ℕ → ℂ) (i : ℤ) : ℂ := if 0 ≤ i ∧ i < U.z.length + 1 then f i.toNat else 0

/-- The medium at Laplace parameter `s`: `η = 1/ρ + sε`, `ζ = sμ`. -/
noncomputable def medium (s : ℂ) : Medium where
  n := U.z.length + 1
  D := fun i => if 1 ≤ i then U.z.getD (i.toNat - 1) 0 else 0
  etaH := U.layer fun i => 1 / (U.rhoH i : ℂ) + s * ((U.epsH i * epsVac : ℝ) : ℂ)
  etaV := U.layer fun i => 1 / (U.rhoV i : ℂ) + s * ((U.epsV i * epsVac : ℝ) : ℂ)
  zetaH := U.layer fun i => s * ((U.muH i * muVac : ℝ) : ℂ)
  zetaV := U.layer fun i => s * ((U.muV i * muVac : ℝ) : ℂ)

end UserModel

/-- `z` belongs to layer `i`; an interface belongs to the layer above it. -/
def Medium.InUpper (M : Medium) (i : ℤ) (z : ℝ) : Prop :=
  0 ≤ i ∧ i < M.n ∧ (i ≠ 0 → M.D i < z) ∧ (i ≠ M.n - 1 → z ≤ M.D (i + 1))

end Verif.Spec
