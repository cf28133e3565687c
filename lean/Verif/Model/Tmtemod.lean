import Verif.Model.Dlf
import Verif.Model.Py

/-!
# Model of empymod/scripts/tmtemod.py

The routine works element-wise in frequency (there is one), offset and wavenumber; the model computes one element.
It begins after the input has been checked (`check_model`, `check_frequency`, `check_dipole`, `get_off_ang` and
`get_layer_nr` are the ones of utils.py) and ends before the contributions are reshaped (lines 551-556).
`Hankel().key_201_2012` is a parameter, the filter `F`.
-/

namespace Verif.Tmtemod
open Verif.Kernel Verif.Py

/-- Five contributions: `uu, ud, du, dd, df`; first sign towards the receiver, second sign away from the source. -/
structure Five (α : Type) where
  uu : α
  ud : α
  du : α
  dd : α
  df : α

/-- One pass of the loop in `fields` (tmtemod.py 656-690): `(Pd, Pu)` for one value of `up`.  The swaps of the second
pass (668-671) are written as `if up then … else …`. -/
noncomputable def fieldsPass (o : Ops) (nlayer : ℤ) (depth : ℤ → EReal) (Rp Rm Gam : ℤ → ℂ) (lrec lsrc : ℤ) (zsrc : ℝ)
    (TM up : Bool) : ℂ × ℂ :=
  let ds : EReal := if lsrc ≠ nlayer - 1 then depth (lsrc + 1) - depth lsrc else o.undef
  let dp0 : EReal := if lsrc ≠ nlayer - 1 then depth (lsrc + 1) - (zsrc : EReal) else o.undef
  let dm0 : EReal := (zsrc : EReal) - depth lsrc
  let plus : Bool := !TM
  let pm : ℂ := if plus then 1 else -1
  if up = true ∧ (lrec = nlayer - 1 ∨ lrec > lsrc) then (0, 0)
  else if up = false ∧ (lrec = 0 ∨ lrec < lsrc) then (0, 0)
  else
    let dp := if up then dm0 else dp0
    let dm := if up then dp0 else dm0
    let Rmp := if up then Rp else Rm
    let Rpm := if up then Rm else Rp
    let last_layer : Prop := if up then lsrc = 0 else lsrc = nlayer - 1
    let iGam := Gam lsrc
    open Classical in
    if last_layer then (Rmp 0 * xexp o iGam dm, 0)
    else
      let Ms := 1 - Rmp 0 * Rpm 0 * xexp o (2 * iGam) ds
      (o.div (Rmp 0) Ms * xexp o iGam dm, o.div (Rmp 0) Ms * pm * Rpm 0 * xexp o iGam (ds + dp))

/-- One pass of the loop in `greenfct` (tmtemod.py 575-615) after `Gam` is known: `PTM` or `PTE`. -/
noncomputable def greenPass (o : Ops) (nlayer : ℤ) (depth : ℤ → EReal) (e_zH etaH zetaH Gam : ℤ → ℂ) (lrec lsrc : ℤ)
    (zrec zsrc : ℝ) (TM : Bool) : Five ℂ :=
  let lrecGam := Gam lrec
  let Rp := reflections o nlayer depth e_zH Gam lrec lsrc true
  let Rm := reflections o nlayer depth e_zH Gam lrec lsrc false
  let Wu := if lrec ≠ nlayer - 1 then xexp o lrecGam (depth (lrec + 1) - (zrec : EReal)) else 0
  let Wd := if lrec ≠ 0 then xexp o lrecGam ((zrec : EReal) - depth lrec) else 0
  let d := fieldsPass o nlayer depth Rp Rm Gam lrec lsrc zsrc TM false
  let u := fieldsPass o nlayer depth Rp Rm Gam lrec lsrc zsrc TM true
  let df := xexp o lrecGam ((|zsrc - zrec| : ℝ) : EReal)
  let fTM := o.div (Gam lrec) (etaH lrec)
  let fTE := o.div (zetaH lsrc) (Gam lsrc)
  if TM then ⟨u.2 * Wu * fTM, u.1 * Wu * fTM, d.1 * Wd * fTM, d.2 * Wd * fTM, -df * fTM⟩
  else ⟨u.2 * Wu * fTE, u.1 * Wu * fTE, d.1 * Wd * fTE, d.2 * Wd * fTE, df * fTE⟩

/-- `greenfct` (tmtemod.py 565-618): `PTM, PTE`. -/
noncomputable def greenfct (o : Ops) (E : Earth) (zsrc zrec : ℝ) (lsrc lrec : ℤ) (lam : ℝ) : Five ℂ × Five ℂ :=
  let gamTM : ℤ → ℂ := fun i => gam o (E.etaH i) (E.etaV i) (E.zetaH i) lam
  let gamTE : ℤ → ℂ := fun i => gam o (E.zetaH i) (E.zetaV i) (E.etaH i) lam
  (greenPass o E.nlayer E.depth E.etaH E.etaH E.zetaH gamTM lrec lsrc zrec zsrc true,
    greenPass o E.nlayer E.depth E.zetaH E.etaH E.zetaH gamTE lrec lsrc zrec zsrc false)

/-- The Hankel transform of one contribution (tmtemod.py 486-499): `half` is `(ang_fact ∓ 1)/2`. -/
noncomputable def transform (F : Transform.Filter) (off ang half : ℝ) (val : ℝ → ℂ) : ℂ :=
  let lambd : ℕ → ℝ := fun k => F.base k / off
  ((ang : ℂ) * Transform.dot F.n (fun k => -val (lambd k)) F.j1 / (off : ℂ) +
    Transform.dot F.n (fun k => (half : ℂ) * val (lambd k) * (lambd k : ℂ)) F.j0) / ((4 * Real.pi * off : ℝ) : ℂ)

/-- `get_rp_rm` (tmtemod.py 506-533): `Rp, Rm, npfct`. -/
noncomputable def getRpRm (o : Ops) (E : Earth) (lsrc lrec : ℤ) (off ang : ℝ) (ds : EReal) (z_eta : ℤ → ℂ) : ℂ × ℂ × ℂ :=
  let Gam : ℤ → ℂ := fun i => csqrt (E.zetaH i * E.etaH i)
  let lgam := csqrt (E.zetaH lsrc * E.etaH lsrc)
  let Rp := reflections o E.nlayer E.depth z_eta Gam lrec lsrc true 0
  let Rm := reflections o E.nlayer E.depth z_eta Gam lrec lsrc false 0
  let Ms := 1 - Rp * Rm * xexp o (2 * Gam lsrc) ds
  (Rp, Rm, o.div ((ang : ℂ) * E.zetaH lsrc) (((4 * Real.pi * off : ℝ) : ℂ) * off * lgam * Ms))

/-- `ddepth = np.r_[depth, np.inf]` (tmtemod.py 511). -/
noncomputable def depthInf (E : Earth) (i : ℤ) : EReal := if i = E.nlayer then ⊤ else E.depth i

/-- Steps 3.1 to 3.4 of `dipole` for one offset (tmtemod.py 475-549): `PTM, PTE`. -/
noncomputable def contributions (o : Ops) (F : Transform.Filter) (E : Earth) (zsrc zrec : ℝ) (lsrc lrec : ℤ)
    (off angle : ℝ) : Five ℂ × Five ℂ :=
  let G := greenfct o E zsrc zrec lsrc lrec
  let ang := angleFactor angle 11 false false
  let tm := fun f : Five ℂ → ℂ => transform F off ang ((ang + 1) / 2) fun lam => f (G lam).1
  let te := fun f : Five ℂ → ℂ => transform F off ang ((ang - 1) / 2) fun lam => f (G lam).2
  let lgam := csqrt (E.zetaH lsrc * E.etaH lsrc)
  let ds := depthInf E (lsrc + 1) - depthInf E lsrc
  let euu := xexp o lgam (2 * ds - (zrec : EReal) + (zsrc : EReal))
  let eud := xexp o lgam (2 * depthInf E (lrec + 1) - (zrec : EReal) - (zsrc : EReal))
  let edu := xexp o lgam ((zrec : EReal) + (zsrc : EReal))
  let edd := xexp o lgam (2 * ds + (zrec : EReal) - (zsrc : EReal))
  let e := getRpRm o E lsrc lrec off ang ds E.zetaH
  let h := getRpRm o E lsrc lrec off ang ds E.etaH
  (⟨tm Five.uu - h.2.2 * h.1 * h.2.1 * euu, tm Five.ud + h.2.2 * h.1 * eud,
    tm Five.du + h.2.2 * h.2.1 * edu, tm Five.dd - h.2.2 * h.1 * h.2.1 * edd, tm Five.df⟩,
   ⟨te Five.uu + e.2.2 * e.1 * e.2.1 * euu, te Five.ud + e.2.2 * e.1 * eud,
    te Five.du + e.2.2 * e.2.1 * edu, te Five.dd + e.2.2 * e.1 * e.2.1 * edd, te Five.df⟩)

/-- `dipole` (tmtemod.py 456-549): the limitations, and the contributions for all offsets; `rows` are the models seen
at the frequencies, at least one. -/
noncomputable def dipole (o : Ops) (F : Transform.Filter) (nlayer : ℤ) (rows : List Earth) (zsrc zrec : ℝ)
    (lsrc lrec : ℤ) (offs : List (ℝ × ℝ)) : Except PyErr (List (Five ℂ × Five ℂ)) :=
  if lsrc ≠ lrec then .error .valueError
  else if nlayer < 2 then .error .valueError
  else match rows with
    | [E] => .ok (offs.map fun p => contributions o F E zsrc zrec lsrc lrec p.1 p.2)
    | _ => .error .valueError

end Verif.Tmtemod
