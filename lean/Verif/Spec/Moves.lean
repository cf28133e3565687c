import Verif.Spec.Medium

/-!
# Specification: media that are physically the same, shifted or mirrored
-/

namespace Verif.Spec.Medium

variable (M : Medium)

/-- Layer of the original medium that contains layer `i` of `M.split k d`. -/
def parent (k i : ℤ) : ℤ := if i ≤ k then i else i - 1

/-- `M` with an additional interface at depth `d` inside layer `k`. -/
def split (k : ℤ) (d : ℝ) : Medium where
  n := M.n + 1
  D := fun i => if i ≤ k then M.D i else if i = k + 1 then d else M.D (i - 1)
  etaH := fun i => M.etaH (parent k i)
  etaV := fun i => M.etaV (parent k i)
  zetaH := fun i => M.zetaH (parent k i)
  zetaV := fun i => M.zetaV (parent k i)

/-- `M` moved down by `c`. -/
def shift (c : ℝ) : Medium :=
  ⟨M.n, fun i => M.D i + c, M.etaH, M.etaV, M.zetaH, M.zetaV⟩

/-- `M` reflected at the plane `z = 0`. -/
def mirror : Medium where
  n := M.n
  D := fun i => -M.D (M.n - i)
  etaH := fun i => M.etaH (M.n - 1 - i)
  etaV := fun i => M.etaV (M.n - 1 - i)
  zetaH := fun i => M.zetaH (M.n - 1 - i)
  zetaV := fun i => M.zetaV (M.n - 1 - i)

/-- All layers have the properties of layer `k`. -/
def Uniform (k : ℤ) : Prop :=
  ∀ i, 0 ≤ i → i < M.n →
    M.etaH i = M.etaH k ∧ M.etaV i = M.etaV k ∧ M.zetaH i = M.zetaH k ∧ M.zetaV i = M.zetaV k

end Verif.Spec.Medium

namespace Verif.Spec

/-- Behaviour of field component (or source direction) `a` under reflection at a horizontal
plane: vectors for the electric field, axial vectors for the magnetic field. -/
def mirrorSign (a : ℕ) : ℂ := if a = 3 ∨ a = 4 ∨ a = 5 then -1 else 1

/-- Reciprocity sign: magnetic quantities count negative. -/
def recipSign (a : ℕ) : ℂ := if 4 ≤ a then -1 else 1

end Verif.Spec
