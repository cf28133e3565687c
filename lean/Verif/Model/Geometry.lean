import Verif.Model.CheckModel
import Mathlib.Analysis.SpecialFunctions.Complex.Arg
import Mathlib.Analysis.SpecialFunctions.Trigonometric.Inverse

/-!
# Model of the geometry helpers of empymod/utils.py

`get_off_ang`, `get_abs`, `get_geo_fact`, `get_azm_dip`.  An array of known size is a function of
the index; `np.empty` has arbitrary content.
-/

namespace Verif.Utils

/-- `a[start:stop:step] = v` -/
def setSlice {α : Type} (a : ℕ → α) (start stop step : ℕ) (v : ℕ → α) : ℕ → α := fun k =>
  if start ≤ k ∧ k < stop ∧ (k - start) % step = 0 then v ((k - start) / step) else a k

/-- `np.arctan2` (without signed zeros). -/
noncomputable def arctan2 (y x : ℝ) : ℝ := Complex.arg ⟨x, y⟩

/-- `get_off_ang` (utils.py 1714-1764): source coordinates, receiver coordinates. -/
noncomputable def getOffAng (m : Mins) (sx sy rx ry : ℕ → ℝ) (nsrc nrec : ℕ)
    (junk junk' : ℕ → ℝ) : (ℕ → ℝ) × (ℕ → ℝ) :=
  let st := (List.range nsrc).foldl (fun (st : (ℕ → ℝ) × (ℕ → ℝ)) i =>
    let xco := fun j => rx j - sx i
    let yco := fun j => ry j - sy i
    (setSlice st.1 (i * nrec) ((i + 1) * nrec) 1
        (fun j => Real.sqrt (xco j * xco j + yco j * yco j)),
      setSlice st.2 (i * nrec) ((i + 1) * nrec) 1 (fun j => arctan2 (yco j) (xco j))))
    (junk, junk')
  (fun k => cut m.minOff (st.1 k), st.2)

/-- `x % y`, `x // y` for floats. -/
noncomputable def fmod (x y : ℝ) : ℝ := x - y * ⌊x / y⌋

/-- `np.allclose(angle % (np.pi/2), 0)` (utils.py 1562, 1572, 1582, 1592): default tolerance. -/
def AllMult (angle : List ℝ) : Prop := ∀ a ∈ angle, |fmod a (Real.pi / 2)| ≤ 1e-8

/-- `np.all(np.isclose(check // (np.pi/2) % 2, b))`, `b = 0, 1` (utils.py 1563, 1566, …): the
tested values are integers, `isclose` is equality. -/
def AllPar (angle : List ℝ) (b : ℤ) : Prop := ∀ a ∈ angle, ⌊a / (Real.pi / 2)⌋ % 2 = b

/-- Which of the components `1, 2, 3` are kept for given azimuths and dips (utils.py 1560-1578 for the
source, 1580-1598 for the receiver). -/
def Kept (azm dip : List ℝ) (i : ℕ) : Prop :=
  ¬ (AllMult azm ∧ AllPar azm 0 ∧ i = 2) ∧
  ¬ (AllMult azm ∧ ¬ AllPar azm 0 ∧ AllPar azm 1 ∧ i = 1) ∧
  ¬ (AllMult dip ∧ AllPar dip 0 ∧ i = 3) ∧
  ¬ (AllMult dip ∧ ¬ AllPar dip 0 ∧ AllPar dip 1 ∧ (i = 1 ∨ i = 2))

/-- Entry `[i-1, j-1]` of the matrix `ab_calc` (utils.py 1542-1557). -/
def abEntry (msrc mrec : Bool) (i j : ℕ) : ℕ :=
  let ab := 10 * i + j
  let ab := if msrc then ab + 3 else ab
  if mrec then
    let ab := ab + 30
    if msrc then ab - 33 else ab % 10 * 10 + ab / 10
  else ab

open Classical in
/-- `get_abs` (utils.py 1514-1608): row-major selection of the kept entries. -/
noncomputable def getAbs (msrc mrec : Bool) (srcazm srcdip recazm recdip : List ℝ) : List ℕ :=
  [1, 2, 3].flatMap fun i => [1, 2, 3].flatMap fun j =>
    if Kept recazm recdip i ∧ Kept srcazm srcdip j then [abEntry msrc mrec i j] else []

/-- `gfact` (utils.py 1648-1655). -/
noncomputable def gfact (bp : ℕ) (azm dip : ℝ) : ℝ :=
  if bp = 1 ∨ bp = 4 then Real.cos azm * Real.cos dip
  else if bp = 2 ∨ bp = 5 then Real.sin azm * Real.cos dip
  else Real.sin dip

/-- One entry of `get_geo_fact` (utils.py 1611-1665). -/
noncomputable def getGeoFact (m : Mins) (ab : ℕ) (srcazm srcdip recazm recdip : ℝ)
    (msrc mrec : Bool) : ℝ :=
  let fis := ab % 10
  let fir := ab / 10
  let (fis, fir) := if mrec ∧ ¬ msrc then (fir, fis) else (fis, fir)
  let fact := gfact fir recazm recdip * gfact fis srcazm srcdip
  if |fact| < m.minAngle then 0 else fact

/-- Poles as `check_bipole` returns them.  Dipoles use `x0, y0, z0, azm, dip` (degrees), finite
dipoles the end points. -/
structure Poles where
  isdipole : Bool
  n : ℕ
  nz : ℕ
  x0 : ℕ → ℝ
  x1 : ℕ → ℝ
  y0 : ℕ → ℝ
  y1 : ℕ → ℝ
  z0 : ℕ → ℝ
  z1 : ℕ → ℝ
  azm : List ℝ
  dip : List ℝ

/-- Result of `get_azm_dip`. -/
structure AzmDip where
  tx : ℕ → ℝ
  ty : ℕ → ℝ
  tz : ℕ → ℝ
  azm : List ℝ
  dip : List ℝ
  gw : ℕ → ℝ
  intpts : ℕ
  w : ℕ → ℝ

/-- `np.deg2rad` -/
noncomputable def deg2rad (x : ℝ) : ℝ := x * (Real.pi / 180)

/-- External routines used by `get_azm_dip`: nodes and weights of `roots_legendre(n)`, rounding of
coordinates to the precision of `min_off`. -/
structure Ext where
  node : ℕ → ℕ → ℝ
  weight : ℕ → ℕ → ℝ
  rnd : ℝ → ℝ

/-- Length, azimuth and dip of a finite dipole (utils.py 1864-1877). -/
noncomputable def segLen (dx dy dz : ℝ) : ℝ := Real.sqrt (dx ^ 2 + dy ^ 2 + dz ^ 2)
@[inherit_doc segLen]
noncomputable def segAzm (dx dy : ℝ) : ℝ := arctan2 dy dx
@[inherit_doc segLen]
noncomputable def segDip (dx dy dz : ℝ) : ℝ := Real.pi / 2 - Real.arccos (dz / segLen dx dy dz)

/-- `get_azm_dip` (utils.py 1767-1970). -/
noncomputable def getAzmDip (e : Ext) (p : Poles) (iz : ℕ) (intpts : ℤ) (strength : ℝ)
    (isSrc : Bool) : AzmDip :=
  -- 1827-1836: the poles of this depth; coordinates that are equal for all are arrays of size one
  let cnt := if p.nz = 1 then p.n else 1
  let ix : ℕ → ℕ := fun k => if p.nz = 1 then k else iz
  let izz : ℕ := if p.nz = 1 then 0 else iz
  if p.isdipole then
    { tx := fun k => p.x0 (ix k)
      ty := fun k => p.y0 (ix k)
      tz := fun _ => p.z0 izz
      azm := if p.nz = 1 then p.azm.map deg2rad else [deg2rad (p.azm.getD iz 0)]
      dip := if p.nz = 1 then p.dip.map deg2rad else [deg2rad (p.dip.getD iz 0)]
      gw := fun _ => 1
      intpts := 1
      w := fun _ => if isSrc ∧ strength > 0 then strength else 1 }
  else
    let dx := fun k => p.x1 (ix k) - p.x0 (ix k)
    let dy := fun k => p.y1 (ix k) - p.y0 (ix k)
    let dz := p.z1 izz - p.z0 izz
    let dl := fun k => segLen (dx k) (dy k) dz
    let azm := fun k => segAzm (dx k) (dy k)
    let dip := fun k => segDip (dx k) (dy k) dz
    let w := fun k => if strength > 0 then (if isSrc then dl k * strength else dl k) else 1
    if intpts > 2 then
      let np := intpts.toNat
      -- 1886-1898, ravel('F') of an array (intpts, number of poles)
      { tx := fun i => e.rnd (p.x0 (ix (i / np)) + dx (i / np) / 2 + e.node np (i % np) *
            (dl (i / np) / 2) * Real.cos (dip (i / np)) * Real.cos (azm (i / np)))
        ty := fun i => e.rnd (p.y0 (ix (i / np)) + dy (i / np) / 2 + e.node np (i % np) *
            (dl (i / np) / 2) * Real.cos (dip (i / np)) * Real.sin (azm (i / np)))
        tz := fun i => e.rnd (p.z0 izz + dz / 2 + e.node np i * (dl 0 / 2) * Real.sin (dip 0))
        azm := (List.range cnt).map azm
        dip := (List.range cnt).map dip
        gw := fun i => e.weight np i / 2
        intpts := np
        w := w }
    else
      { tx := fun k => e.rnd (p.x0 (ix k) + dx k / 2)
        ty := fun k => e.rnd (p.y0 (ix k) + dy k / 2)
        tz := fun _ => e.rnd (p.z0 izz + dz / 2)
        azm := (List.range cnt).map azm
        dip := (List.range cnt).map dip
        gw := fun _ => 1
        intpts := 1
        w := w }

end Verif.Utils
