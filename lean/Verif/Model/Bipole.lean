import Verif.Model.Geometry

/-!
# Model of `check_bipole` (utils.py 216-368) and of the loops of `bipole` (model.py 470-625)
-/

namespace Verif.Utils
open Verif.Py Verif.Py.W

/-- The `msrc`/`mrec` argument: `None`, a Boolean, or a string. -/
inductive MxArg where
  | none
  | bool (b : Bool)
  | str (s : String)

/-- `xtype`: plain field, magnetic flux, electric current density. -/
inductive XType where
  | field
  | flux
  | current
  deriving DecidableEq

/-- Flags part of `check_bipole` (utils.py 265-286), for `name` in `src`, `rec`.  A string other than
the listed ones is used as a list index: TypeError.  `None` selects the deprecated signature with
four return values, which `bipole` cannot unpack: ValueError. -/
def checkMx (isSrc : Bool) : MxArg → Except PyErr (Bool × XType)
  | .none => .error .valueError
  | .bool b => .ok (b, .field)
  | .str s =>
    if s = "j" ∧ isSrc = false then .ok (false, .current)
    else if s = "b" ∨ s = "loop" then .ok (true, .flux)
    else .error .typeError

/-- `_check_var(…, (1,), (maxpoles,))` (utils.py 2144-2163). -/
def checkVar2 (v : List ℝ) (maxp : ℕ) : Except PyErr (List ℝ) :=
  if v.length = 1 ∨ v.length = maxp then .ok v else .error .valueError

/-- `np.repeat(x, n)` for an array of size one. -/
def expand (v : List ℝ) (n : ℕ) : List ℝ := if v.length ≠ n then List.replicate n (v.headD 0) else v

open Classical in
/-- `chck_dipole` (utils.py 288-307). -/
noncomputable def chckDipole (x y z : List ℝ) (maxp : ℕ) :
    Except PyErr (List ℝ × List ℝ × List ℝ) := do
  let x ← checkVar2 x maxp
  let y ← checkVar2 y maxp
  let z ← checkVar2 z maxp
  match z with
  | [] => .error .indexError
  | z0 :: t =>
    let z' := if ∀ a ∈ z0 :: t, |a - z0| ≤ 1e-8 then [z0] else z0 :: t
    .ok (expand x maxp, expand y maxp, z')

/-- `max([np.atleast_1d(par).size for par in inp])` (utils.py 319). -/
def maxPoles (inp : List (List ℝ)) : ℕ := (inp.map List.length).foldl max 0

/-- Element `k` of an array that may have size one. -/
def bc (l : List ℝ) (k : ℕ) : ℝ := if l.length = 1 then l.headD 0 else l.getD k 0

open Classical in
/-- Coordinates part of `check_bipole` (utils.py 309-352). -/
noncomputable def checkPoles (inp : List (List ℝ)) : Except PyErr Poles :=
  let maxp := maxPoles inp
  match inp with
  | [x, y, z, a, d] => do
    let (x, y, z) ← chckDipole x y z maxp
    let a ← checkVar2 a maxp
    let d ← checkVar2 d maxp
    let nz := z.length
    let a := if nz > 1 ∧ a.length = 1 then List.replicate nz (a.headD 0) else a
    let d := if nz > 1 ∧ d.length = 1 then List.replicate nz (d.headD 0) else d
    .ok ⟨true, x.length, nz, (x.getD · 0), (x.getD · 0), (y.getD · 0), (y.getD · 0), (z.getD · 0),
      (z.getD · 0), a, d⟩
  | [x0, x1, y0, y1, z0, z1] => do
    let (x0, y0, z0) ← chckDipole x0 y0 z0 maxp
    let (x1, y1, z1) ← chckDipole x1 y1 z1 maxp
    let both : Bool := decide (maxp > 1 ∧ (z0.length > 1 ∨ z1.length > 1))
    let z0' := if both ∧ z0.length = 1 then List.replicate maxp (z0.headD 0) else z0
    let z1' := if both ∧ z1.length = 1 then List.replicate maxp (z1.headD 0) else z1
    if ∀ k < maxp, bc x0 k ≠ bc x1 k ∨ bc y0 k ≠ bc y1 k ∨ bc z0' k ≠ bc z1' k then
      .ok ⟨false, x0.length, z0'.length, (x0.getD · 0), (x1.getD · 0), (y0.getD · 0),
        (y1.getD · 0), (z0'.getD · 0), (z1'.getD · 0), [], []⟩
    else .error .valueError
  | _ => .error .valueError

/-- Expansion of `x` or `y` in `check_dipole` (utils.py 411-420). -/
def expandXY (x y : List ℝ) : Except PyErr (List ℝ × List ℝ) :=
  if x.length ≠ y.length then
    if x.length = 1 then .ok (List.replicate y.length (x.headD 0), y)
    else if y.length = 1 then .ok (x, List.replicate x.length (y.headD 0))
    else .error .valueError
  else .ok (x, y)

/-- Depth in `check_dipole`: exactly one value (utils.py 422). -/
def oneDepth (z : List ℝ) (q : List ℝ × List ℝ) : Except PyErr (List ℝ × List ℝ × ℝ) :=
  match z with
  | [z] => .ok (q.1, q.2, z)
  | _ => .error .valueError

/-- `check_dipole` (utils.py 371-431): coordinates of all dipoles and the common depth. -/
def checkDipole : List (List ℝ) → Except PyErr (List ℝ × List ℝ × ℝ)
  | [x, y, z] => expandXY x y >>= oneDepth z
  | _ => .error .valueError

end Verif.Utils

namespace Verif.Model
open Verif.Utils

/-- Everything the loops of `bipole` use, for one frequency.  `fem ab offs zsrc zrec lsrc lrec`
is the vector of responses of `fem` for the given list of offsets and angles. -/
structure Setup where
  m : Mins
  e : Ext
  depth : List EReal
  etaH : ℕ → ℂ
  zetaH : ℕ → ℂ
  msrc : Bool
  mrec : Bool
  stype : XType
  rtype : XType
  strength : ℝ
  fem : ℕ → List (ℝ × ℝ) → ℝ → ℝ → ℕ → ℕ → ℕ → ℂ
  junk : ℕ → ℝ

/-- Layer number of one depth (`get_layer_nr`, squeezed; model.py 526, 548). -/
noncomputable def layerOf (depth : List EReal) (z : ℝ) : ℕ := (getLayerNr [z] depth).headD 0

/-- Current density or flux at the receiver (model.py 580-592). -/
noncomputable def applyRec (S : Setup) (lrec : ℕ) (x : ℂ) : ℂ :=
  match S.rtype with
  | .current => x * S.etaH lrec
  | .flux => x * S.zetaH lrec
  | .field => x

/-- Flux at the source (model.py 597-602). -/
noncomputable def applySrc (S : Setup) (lsrc : ℕ) (x : ℂ) : ℂ :=
  match S.stype with
  | .flux => x * S.zetaH lsrc
  | _ => x

/-- Element `k` of `sEM` (model.py 512-609): sum over source points, receiver points and components;
`k = s*irec + r`. -/
noncomputable def sEM (S : Setup) (gs gr : AzmDip) (isrc irec : ℕ) (k : ℕ) : ℂ :=
  let abs := getAbs S.msrc S.mrec gs.azm gs.dip gr.azm gr.dip
  let total := ((List.range gs.intpts).map fun isg =>
    let lsrc := layerOf S.depth (gs.tz isg)
    let rEM := ((List.range gr.intpts).map fun irg =>
      let oa := getOffAng S.m (fun s => gs.tx (isg + s * gs.intpts))
        (fun s => gs.ty (isg + s * gs.intpts)) (fun r => gr.tx (irg + r * gr.intpts))
        (fun r => gr.ty (irg + r * gr.intpts)) isrc irec S.junk S.junk
      let lrec := layerOf S.depth (gr.tz irg)
      let offs := (List.range (isrc * irec)).map fun j => (oa.1 j, oa.2 j)
      let abEM := (abs.map fun ab =>
        S.fem ab offs (gs.tz isg) (gr.tz irg) lsrc lrec k *
          (getGeoFact S.m ab (bc gs.azm (k / irec)) (bc gs.dip (k / irec)) (bc gr.azm (k % irec))
            (bc gr.dip (k % irec)) S.msrc S.mrec : ℂ)).sum
      applyRec S lrec abEM * (gr.gw irg : ℂ)).sum
    applySrc S lsrc rEM * (gs.gw isg : ℂ)).sum
  if S.strength > 0 then total * ((gs.w (k / irec) * gr.w (k % irec) : ℝ) : ℂ) else total

/-- Loop state of `bipole`: the output row and the numbers of integration points, which the loop
overwrites (model.py 502-505, 508-511). -/
structure BState where
  EM : ℕ → ℂ
  srcpts : ℤ
  recpts : ℤ

/-- Body of the loop over receiver depths (model.py 506-625). -/
noncomputable def recBody (S : Setup) (src rec : Poles) (gs : AzmDip) (isz : ℕ) (st : BState)
    (irz : ℕ) : BState :=
  let isrc := src.n / src.nz
  let irec := rec.n / rec.nz
  let gr := getAzmDip S.e rec irz st.recpts S.strength false
  let v := sEM S gs gr isrc irec
  let nsrc := src.n
  let nrec := rec.n
  let EM := if nrec = rec.nz then
      if nsrc = src.nz then setSlice st.EM (isz * nrec + irz) (isz * nrec + irz + 1) 1 v
      else setSlice st.EM irz (nsrc * nrec) nrec v
    else
      if nsrc = src.nz then setSlice st.EM (isz * nrec) (nrec * (isz + 1)) 1 v
      else v
  ⟨EM, st.srcpts, gr.intpts⟩

/-- The loops over source and receiver depths (model.py 497-625), one frequency; then
`EM.reshape((-1, nrec, nsrc), order='F')` (model.py 643): entry `[f, r, s]` is `EM (r + nrec*s)`. -/
noncomputable def bipoleRow (S : Setup) (src rec : Poles) (srcpts recpts : ℤ) : ℕ → ℂ :=
  ((List.range src.nz).foldl (fun st isz =>
    let gs := getAzmDip S.e src isz st.srcpts S.strength true
    let st := (List.range rec.nz).foldl (recBody S src rec gs isz) st
    ⟨st.EM, gs.intpts, st.recpts⟩) ⟨fun _ => 0, srcpts, recpts⟩).EM

@[inherit_doc bipoleRow]
noncomputable def bipoleOut (S : Setup) (src rec : Poles) (srcpts recpts : ℤ) (r s : ℕ) : ℂ :=
  bipoleRow S src rec srcpts recpts (r + rec.n * s)

/-- `dipole` for one frequency (model.py 884-915): offsets and angles, layers, `fem`, then
`EM.reshape((-1, nrec, nsrc), order='F')`. -/
noncomputable def dipoleOut (S : Setup) (ab : ℕ) (src rec : List ℝ × List ℝ × ℝ) (r s : ℕ) : ℂ :=
  let nsrc := src.1.length
  let nrec := rec.1.length
  let oa := getOffAng S.m (src.1.getD · 0) (src.2.1.getD · 0) (rec.1.getD · 0) (rec.2.1.getD · 0)
    nsrc nrec S.junk S.junk
  let offs := (List.range (nsrc * nrec)).map fun j => (oa.1 j, oa.2 j)
  S.fem ab offs src.2.2 rec.2.2 (layerOf S.depth src.2.2) (layerOf S.depth rec.2.2) (r + nrec * s)

/-- An array in C order: shape and buffer. -/
structure NdArray where
  shape : List ℕ
  data : ℕ → ℂ

/-- Element with the given indices. -/
def NdArray.get (a : NdArray) (idx : List ℕ) : ℂ :=
  a.data ((a.shape.zip idx).foldl (fun acc p => acc * p.1 + p.2) 0)

/-- `np.squeeze` (model.py 645, 914): removes dimensions of length one, keeps the buffer. -/
def NdArray.squeeze (a : NdArray) : NdArray := ⟨a.shape.filter (· ≠ 1), a.data⟩

end Verif.Model
