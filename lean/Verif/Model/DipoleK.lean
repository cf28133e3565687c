import Verif.Model.Hankel
import Verif.Model.CheckAb

/-!
# Model of `dipole_k` (empymod/model.py 1293-1487)

From the checked input on: the layered model at each frequency, offsets and angles (`get_off_ang`,
modelled in `Verif.Model.Geometry`), depths and layer numbers are given.
-/

namespace Verif.Model
open Verif.Py Verif.Utils Verif.Kernel Verif.Transform

/-- The argument `wavenumber`: one dimension (a number counts as one of length one), or two. -/
inductive WaveArg where
  | vec (l : List ℝ)
  | mat (rows cols : ℕ) (v : ℕ → ℕ → ℝ)

/-- `wavenumber.size`. -/
def WaveArg.size : WaveArg → ℕ
  | .vec l => l.length
  | .mat r c _ => r * c

/-- `np.atleast_2d(wavenumber)`: rows, columns, entries. -/
noncomputable def WaveArg.atleast2d : WaveArg → ℕ × ℕ × (ℕ → ℕ → ℝ)
  | .vec l => (1, l.length, fun _ j => l.getD j 0)
  | .mat r c v => (r, c, v)

/-- An array with three dimensions. -/
structure Arr3 where
  n : ℕ
  r : ℕ
  c : ℕ
  v : ℕ → ℕ → ℕ → ℂ

/-- NumPy's rule for one dimension. -/
def bcDim (a b : ℕ) : Option ℕ :=
  if a = b then some a else if a = 1 then some b else if b = 1 then some a else none

/-- Index into a dimension which may have been expanded. -/
def bcIdx (n i : ℕ) : ℕ := if n = 1 then 0 else i

/-- `ang_fact[:, np.newaxis]*J`: shape `(m, 1)` times `(n, r, c)`. -/
noncomputable def scaleRows (m : ℕ) (f : ℕ → ℝ) (J : Arr3) : Except PyErr Arr3 :=
  match bcDim m J.r with
  | none => .error .valueError
  | some r => .ok ⟨J.n, r, J.c, fun i j k => f (bcIdx m j) * J.v i (bcIdx J.r j) k⟩

/-- `P += J`: `J` is expanded to the shape of `P`, otherwise ValueError. -/
noncomputable def addInto (P J : Arr3) : Except PyErr Arr3 :=
  if (J.n = P.n ∨ J.n = 1) ∧ (J.r = P.r ∨ J.r = 1) ∧ (J.c = P.c ∨ J.c = 1) then
    .ok ⟨P.n, P.r, P.c, fun i j k => P.v i j k + J.v (bcIdx J.n i) (bcIdx J.r j) (bcIdx J.c k)⟩
  else .error .valueError

/-- `P /= off[:, None]` (shape `(m, 1)`). -/
noncomputable def divRows (m : ℕ) (off : ℕ → ℝ) (P : Arr3) : Except PyErr Arr3 :=
  if m = P.r ∨ m = 1 then .ok ⟨P.n, P.r, P.c, fun i j k => P.v i j k / off (bcIdx m j)⟩
  else .error .valueError

/-- Arguments of `dipole_k` after the checks. -/
structure KSetup where
  o : Ops
  nfreq : ℕ
  earth : ℕ → Earth
  noff : ℕ
  off : ℕ → ℝ
  ang : ℕ → ℝ
  zsrc : ℝ
  zrec : ℝ
  lsrc : ℤ
  lrec : ℤ

/-- `kernel.wavenumber(...)` (model.py 1468-1471) for all frequencies and wavenumbers; which of the
three kernels are `None` depends on the code only. -/
noncomputable def KSetup.kernels (S : KSetup) (w : WaveArg) (abc : ℕ) (msrc mrec : Bool) :
    Option Arr3 × Option Arr3 × Option Arr3 :=
  let (r, c, v) := w.atleast2d
  let K := fun i j k =>
    wavenumber S.o (S.earth i) S.zsrc S.zrec S.lsrc S.lrec (v j k) abc false msrc mrec
  (if abc ∈ [11, 22, 24, 15, 33] then some ⟨S.nfreq, r, c, fun i j k => (K i j k).1.getD 0⟩ else none,
   if abc ∉ [33] then some ⟨S.nfreq, r, c, fun i j k => (K i j k).2.1.getD 0⟩ else none,
   if abc ∈ [11, 12, 21, 22, 14, 24, 15, 25] then
     some ⟨S.nfreq, r, c, fun i j k => (K i j k).2.2.getD 0⟩ else none)

/-- `dipole_k` (model.py 1440-1485) after `check_ab`, before `np.squeeze`: `(PJ0, PJ1)`; `ab` is the code as given, `c`
what `check_ab` makes of it. -/
noncomputable def dipoleKCore (S : KSetup) (w : WaveArg) (ab : ℤ) (c : ℕ × Bool × Bool) :
    Except PyErr (Arr3 × Arr3) := do
  let (abc, msrc, mrec) := c
  -- 1442: the code as given, not the one of the calculation
  let fact := fun j => angleFactor (S.ang j) ab.toNat msrc mrec
  -- 1451-1461
  let zero : Arr3 := match w with
    | .mat r c _ => if S.noff = 1 then ⟨S.nfreq, r, c, fun _ _ _ => 0⟩
        else ⟨S.nfreq, S.noff, w.size, fun _ _ _ => 0⟩
    | .vec _ => ⟨S.nfreq, S.noff, w.size, fun _ _ _ => 0⟩
  if abc ∉ [36] then
    let (J0, J1, J0b) := S.kernels w abc msrc mrec
    let PJ1 ← match J1 with
      | none => pure zero
      | some J1 => do
        let P ← addInto zero (← scaleRows S.noff fact J1)
        if ab ∈ [11, 12, 21, 22, 14, 24, 15, 25] then divRows S.noff S.off P else pure P
    let PJ0 ← match J0 with
      | none => pure zero
      | some J0 => addInto zero J0
    let PJ0 ← match J0b with
      | none => pure PJ0
      | some J0b => addInto PJ0 (← scaleRows S.noff fact J0b)
    return (PJ0, PJ1)
  else return (zero, zero)

/-- `dipole_k` (model.py 1434-1487) for a code given as integer. -/
noncomputable def dipoleK (S : KSetup) (w : WaveArg) (ab : ℤ) : Except PyErr (Arr3 × Arr3) := do
  let c ← checkAbInt ab
  dipoleKCore S w ab c

end Verif.Model
