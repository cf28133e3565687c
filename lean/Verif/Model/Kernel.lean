import Mathlib.Analysis.SpecialFunctions.Pow.Complex
import Mathlib.Data.EReal.Operations
import Mathlib.Data.Real.Sign

/-!
# Model of `empymod/kernel.py`: `wavenumber`, `greenfct`, `reflections`, `fields`, `angle_factor`

All arrays in these functions are processed element-wise in (frequency, offset,
wavenumber); the model computes ONE element, i.e. the loops over `i`, `ii`, `iv` are the
point-wise lifting of the functions below.  What remains are the layer arrays, modelled as
functions `ℤ → ℂ`, and the layer loops, modelled as folds.

Arithmetic is exact (ℝ, ℂ); depths are extended reals because `depth[0] = -inf`.
-/

namespace Verif.Kernel

/-- The arithmetic primitives whose failure modes matter (numpy/numba semantics of
`/`, `np.exp`, and of a local variable that was never assigned).  `Ops.exact` is ideal
arithmetic; theorems are stated for every `Ops` that is only *correct where it is defined*,
so that nothing can depend on `x/0`, on an overflowing exponential or on an unassigned
variable. -/
structure Ops where
  div : ℂ → ℂ → ℂ
  exp : ℂ → ℂ
  undef : EReal

/-- Ideal arithmetic. -/
noncomputable def Ops.exact : Ops := ⟨fun a b => a / b, Complex.exp, 0⟩

/-- `np.exp(-c*d)` for an extended-real distance `d` (kernel.py 257, 264, 300, 325, 492-493,
617, 626-628, 643, 651-653, 665, 677, 688).  For `d = +inf` IEEE gives `0` (all `c` used have
positive real part); `d = -inf` would overflow and is mapped to an unspecified value. -/
noncomputable def xexp (o : Ops) (c : ℂ) (d : EReal) : ℂ :=
  if d = ⊤ then 0 else if d = ⊥ then o.div 1 0 else o.exp (-c * (d.toReal : ℂ))

/-- `np.sqrt` for complex arguments: principal branch (kernel.py 238). -/
noncomputable def csqrt (z : ℂ) : ℂ := z ^ (1 / 2 : ℂ)

/-- `arr[idx] = v` on an array of length `size` with Python's wrap-around of negative
indices (kernel.py 500). -/
def setAt (size : ℤ) (f : ℤ → ℂ) (idx : ℤ) (v : ℂ) : ℤ → ℂ :=
  Function.update f (if idx < 0 then idx + size else idx) v

/-- `np.arange(a, b, -1)` and `np.arange(a, b, 1)` (kernel.py 449, 454). -/
def arangeDown (a b : ℤ) : List ℤ := (List.range (a - b).toNat).map fun k : ℕ => a - (k : ℤ)
@[inherit_doc arangeDown]
def arangeUp (a b : ℤ) : List ℤ := (List.range (b - a).toNat).map fun k : ℕ => a + (k : ℤ)

/-- Loop state of `reflections` (kernel.py 465-501). -/
structure RState where
  tRef : ℂ
  Ref : ℤ → ℂ
  izout : ℤ

/-- One pass of the layer loop of `reflections` (kernel.py 470-501); `first` is
`layer_count[0]`. -/
noncomputable def reflStep (o : Ops) (depth : ℤ → EReal) (e_zH Gam : ℤ → ℂ) (lrec lsrc : ℤ)
    (pm minmax first size : ℤ) (st : RState) (iz : ℤ) : RState :=
  let rloca := e_zH (iz + pm) * Gam iz
  let rlocb := e_zH iz * Gam (iz + pm)
  let rloc := o.div (rloca - rlocb) (rloca + rlocb)
  let tRef :=
    if iz = first then rloc
    else
      let ddepth := depth (iz + 1 + pm) - depth (iz + pm)
      let term := st.tRef * xexp o (2 * Gam (iz + pm)) ddepth
      o.div (rloc + term) (1 + rloc * term)
  if lrec ≠ lsrc ∧ pm * iz ≤ minmax then
    ⟨tRef, setAt size st.Ref st.izout tRef, st.izout - pm⟩
  else ⟨tRef, st.Ref, st.izout⟩

/-- `reflections` for one value of `plus` (kernel.py 444-514). -/
noncomputable def reflections (o : Ops) (nlayer : ℤ) (depth : ℤ → EReal) (e_zH Gam : ℤ → ℂ)
    (lrec lsrc : ℤ) (plus : Bool) : ℤ → ℂ :=
  let maxl := max lrec lsrc
  let minl := min lrec lsrc
  let pm : ℤ := if plus then 1 else -1
  let layer_count := if plus then arangeDown (nlayer - 2) (minl - 1) else arangeUp 1 (maxl + 1)
  let izout0 : ℤ := if plus then |lsrc - lrec| else 0
  let minmax : ℤ := if plus then pm * maxl else pm * minl
  let shiftplus := lrec < lsrc ∧ lrec = 0 ∧ plus = false
  let shiftminus := lrec > lsrc ∧ lrec = nlayer - 1 ∧ plus = true
  let izout := if shiftplus ∨ shiftminus then izout0 - pm else izout0
  let size := maxl - minl + 1
  let st := layer_count.foldl
    (reflStep o depth e_zH Gam lrec lsrc pm minmax (layer_count.headD 0) size)
    ⟨o.div 0 0, fun _ => 0, izout⟩
  if lsrc = lrec ∧ layer_count ≠ [] then setAt 1 (fun _ => 0) 0 st.tRef else st.Ref

/-- `plusset` of `fields` (kernel.py 563). -/
def plusset : List ℕ := [13, 23, 33, 14, 24, 34, 15, 25, 35]

/-- `fields` for one value of `up` (kernel.py 539-698).  The variable swaps of the second
pass (594-605) are written as `if up then … else …`. -/
noncomputable def fields (o : Ops) (nlayer : ℤ) (depth : ℤ → EReal) (Rp Rm Gam : ℤ → ℂ)
    (lrec lsrc : ℤ) (zsrc : ℝ) (ab : ℕ) (TM up : Bool) : ℂ :=
  let nlsr := |lsrc - lrec| + 1
  let last0 : Prop := lsrc = nlayer - 1
  let first0 : Prop := lsrc = 0
  let ds : EReal := if lsrc ≠ nlayer - 1 then depth (lsrc + 1) - depth lsrc else o.undef
  let dp0 : EReal := if lsrc ≠ nlayer - 1 then depth (lsrc + 1) - (zsrc : EReal) else o.undef
  let dm0 : EReal := (zsrc : EReal) - depth lsrc
  let plus : Bool := if TM then decide (ab ∈ plusset) else decide (ab ∉ plusset)
  let pm : ℂ := if plus then 1 else -1
  let iGam := Gam lsrc
  if up = true ∧ (lrec = nlayer - 1 ∨ lrec > lsrc) then 0
  else if up = false ∧ (lrec = 0 ∨ lrec < lsrc) then 0
  else
    let dp := if up then dm0 else dp0
    let dm := if up then (if lsrc ≠ nlayer - 1 then dp0 else dm0) else dm0
    let Rmp := if up then Rp else Rm
    let Rpm := if up then Rm else Rp
    let first_layer : Prop := if up then last0 else first0
    let last_layer : Prop := if up then first0 else last0
    let rsrcl : ℤ := if up then nlsr - 1 else 0
    let izrange := if up then arangeUp 0 (nlsr - 2) else arangeUp 2 nlsr
    let isr := if up then lrec else lsrc
    let last : ℤ := if up then 0 else nlayer - 1
    let pup : ℤ := if up then 1 else -1
    let mupm : ℂ := if up = true ∧ plus = false then -1 else 1
    open Classical in
    if lsrc = lrec then
      if last_layer then
        Rmp 0 * xexp o iGam dm
      else
        let p1 := xexp o iGam dm
        let p2 := pm * Rpm 0 * xexp o iGam (ds + dp)
        let p3 := 1 - Rmp 0 * Rpm 0 * xexp o (2 * iGam) ds
        o.div ((p1 + p2) * Rmp 0) p3
    else
      let P1 :=
        if first_layer then (1 + Rpm rsrcl) * mupm * xexp o iGam dp
        else
          let p1 := mupm * xexp o iGam dp
          let p2 := pm * mupm * Rmp rsrcl * xexp o iGam (ds + dm)
          let p3 := o.div (1 + Rpm rsrcl) (1 - Rmp rsrcl * Rpm rsrcl * xexp o (2 * iGam) ds)
          (p1 + p2) * p3
      let P2 :=
        if up = true ∨ (up = false ∧ lsrc + 1 < nlayer - 1) then
          let ddepth := depth (lsrc + 1 - pup) - depth (lsrc - pup)
          if ddepth ≠ ⊤ ∧ ddepth ≠ ⊥ then
            o.div P1 (1 + Rpm (rsrcl - pup) * xexp o (2 * Gam (lsrc - pup)) ddepth)
          else P1
        else P1
      if nlsr > 2 then
        izrange.foldl (fun P iz =>
          let dd1 := depth (isr + iz + pup + 1) - depth (isr + iz + pup)
          let P' := P * ((1 + Rpm (iz + pup)) * xexp o (Gam (isr + iz + pup)) dd1)
          if isr + iz ≠ last then
            let dd2 := depth (isr + iz + 1) - depth (isr + iz)
            o.div P' (1 + Rpm iz * xexp o (2 * Gam (isr + iz)) dd2)
          else P') P2
      else P2

/-- Body of the `for TM in [True, False]` loop of `greenfct` after `Gam` is known: the
array `green` (kernel.py 240-350). -/
noncomputable def green (o : Ops) (nlayer : ℤ) (depth : ℤ → EReal) (e_zH Gam : ℤ → ℂ)
    (lrec lsrc : ℤ) (zrec zsrc : ℝ) (ab : ℕ) (xdirect TM : Bool) : ℂ :=
  let lrecGam := Gam lrec
  let Rp := reflections o nlayer depth e_zH Gam lrec lsrc true
  let Rm := reflections o nlayer depth e_zH Gam lrec lsrc false
  let Wu := if lrec ≠ nlayer - 1 then xexp o lrecGam (depth (lrec + 1) - (zrec : EReal)) else 0
  let Wd := if lrec ≠ 0 then xexp o lrecGam ((zrec : EReal) - depth lrec) else 0
  let Pu := fields o nlayer depth Rp Rm Gam lrec lsrc zsrc ab TM true
  let Pd := fields o nlayer depth Rp Rm Gam lrec lsrc zsrc ab TM false
  if lsrc = lrec then
    let g0 :=
      if nlayer > 1 ∧ ab ∈ [13, 23, 31, 32, 14, 24, 15, 25] then Pu * Wu - Pd * Wd
      else if nlayer > 1 then Pu * Wu + Pd * Wd
      else 0
    if xdirect then g0
    else
      let directf := xexp o lrecGam ((|zsrc - zrec| : ℝ) : EReal)
      let directf :=
        if TM = true ∧ ab ∈ [11, 12, 13, 14, 15, 21, 22, 23, 24, 25] then directf * (-1)
        else directf
      let directf :=
        if ab ∈ [13, 14, 15, 23, 24, 25, 31, 32] then directf * ((zrec - zsrc).sign : ℂ)
        else directf
      g0 + directf
  else
    let fexp := xexp o lrecGam
      (if lrec = nlayer - 1 then 0 else depth (lrec + 1) - depth lrec)
    let pmw : ℂ :=
      if TM = true ∧ ab ∈ [11, 12, 13, 21, 22, 23, 14, 24, 15, 25] then -1 else 1
    if lrec < lsrc then
      Pu * (Wu + pmw * Rm 0 * fexp * Wd)
    else
      Pd * (pmw * Wd + Rp (|lsrc - lrec|) * fexp * Wu)

/-- Upper-case gamma of one layer (kernel.py 229-238). -/
noncomputable def gam (o : Ops) (e_zH e_zV z_eH : ℂ) (lam : ℝ) : ℂ :=
  csqrt (o.div e_zH e_zV * ((lam : ℂ) * lam) + z_eH * e_zH)

/-- Earth model seen by the kernel at one frequency. -/
structure Earth where
  nlayer : ℤ
  depth : ℤ → EReal
  etaH : ℤ → ℂ
  etaV : ℤ → ℂ
  zetaH : ℤ → ℂ
  zetaV : ℤ → ℂ

/-- `greenfct` (kernel.py 175-418), for one frequency, offset and wavenumber. -/
noncomputable def greenfct (o : Ops) (E : Earth) (zsrc zrec : ℝ) (lsrc lrec : ℤ) (lam : ℝ)
    (ab : ℕ) (xdirect msrc mrec : Bool) : ℂ × ℂ :=
  -- 205-213: reciprocity switches
  let dual := mrec && msrc
  let swap := mrec && !msrc
  let etaH := if dual then fun i => -E.zetaH i else E.etaH
  let zetaH := if dual then fun i => -E.etaH i else E.zetaH
  let etaV := if dual then fun i => -E.zetaV i else E.etaV
  let zetaV := if dual then fun i => -E.etaV i else E.zetaV
  let zs := if swap then zrec else zsrc
  let zr := if swap then zsrc else zrec
  let ls := if swap then lrec else lsrc
  let lr := if swap then lsrc else lrec
  -- 215-356
  let gamTM : ℤ → ℂ := fun i => gam o (etaH i) (etaV i) (zetaH i) lam
  let gamTE : ℤ → ℂ := fun i => gam o (zetaH i) (zetaV i) (etaH i) lam
  let GTM := green o E.nlayer E.depth etaH gamTM lr ls zr zs ab xdirect true
  let GTE := green o E.nlayer E.depth zetaH gamTE lr ls zr zs ab xdirect false
  -- 362-415
  if ab ∈ [11, 12, 21, 22] then
    (GTM * o.div (gamTM lr) (etaH lr), GTE * o.div (zetaH ls) (gamTE ls))
  else if ab ∈ [14, 15, 24, 25] then
    let fact := o.div (etaH ls) (etaH lr)
    (o.div (GTM * (fact * gamTM lr)) (gamTM ls), GTE)
  else if ab ∈ [13, 23] then
    let fact := o.div (o.div (etaH ls) (etaH lr)) (etaV ls)
    (o.div (GTM * (-fact * gamTM lr)) (gamTM ls), 0)
  else if ab ∈ [31, 32] then
    (o.div GTM (etaV lr), 0)
  else if ab ∈ [34, 35] then
    let fact := o.div (etaH ls) (etaV lr)
    (GTM * o.div fact (gamTM ls), 0)
  else if ab ∈ [16, 26] then
    let fact := o.div (zetaH ls) (zetaV ls)
    (0, GTE * o.div fact (gamTE ls))
  else if ab ∈ [33] then
    let fact := o.div (o.div (etaH ls) (etaV ls)) (etaV lr)
    (GTM * o.div fact (gamTM ls), 0)
  else (GTM, GTE)

/-- `wavenumber` (kernel.py 51-171), for one frequency, offset and wavenumber; `none` is
Python's `None`.  Result: `(PJ0, PJ1, PJ0b)`. -/
noncomputable def wavenumber (o : Ops) (E : Earth) (zsrc zrec : ℝ) (lsrc lrec : ℤ) (lam : ℝ)
    (ab : ℕ) (xdirect msrc mrec : Bool) : Option ℂ × Option ℂ × Option ℂ :=
  let P := greenfct o E zsrc zrec lsrc lrec lam ab xdirect msrc mrec
  let PTM := P.1
  let PTE := P.2
  let fourpi : ℂ := 4 * (Real.pi : ℂ)
  let Ptot := o.div (PTM + PTE) fourpi
  let sign0 : ℂ := if mrec then -1 else 1
  -- 104-115: pre-allocation (`zeros` or `None`)
  let PJ0i : Option ℂ := if ab ∈ [11, 22, 24, 15, 33] then some 0 else none
  let PJ0bi : Option ℂ := if ab ∈ [11, 12, 21, 22, 14, 24, 15, 25] then some 0 else none
  let PJ1i : Option ℂ := if ab ∉ [33] then some 0 else none
  if ab ∈ [11, 12, 21, 22, 14, 24, 15, 25] then
    let sign := if ab ∈ [14, 22] then sign0 * (-1) else sign0
    let PJ0b := sign / 2 * Ptot * lam
    let PJ1 := -sign * Ptot
    if ab ∈ [11, 22, 24, 15] then
      let sign := if ab ∈ [22, 24] then sign * (-1) else sign
      let eightpi := sign * 8 * (Real.pi : ℂ)
      (some ((PTM - PTE) * o.div lam eightpi), some PJ1, some PJ0b)
    else (PJ0i, some PJ1, some PJ0b)
  else if ab ∈ [13, 23, 31, 32, 34, 35, 16, 26] then
    let sign := if ab ∈ [34, 26] then sign0 * (-1) else sign0
    (PJ0i, some (sign * Ptot * ((lam : ℂ) * lam)), PJ0bi)
  else if ab ∈ [33] then
    (some (sign0 * Ptot * ((lam : ℂ) * lam * lam)), PJ1i, PJ0bi)
  else (PJ0i, PJ1i, PJ0bi)

/-- `np.isclose(a, b, rtol, atol)`. -/
def isclose (a b rtol atol : ℝ) : Prop := |a - b| ≤ atol + rtol * |b|

open Classical in
/-- `angle_factor` (kernel.py 703-753) for one angle. -/
noncomputable def angleFactor (angle : ℝ) (ab : ℕ) (msrc mrec : Bool) : ℝ :=
  if ab ∈ [33] then 1
  else
    let a0 := if mrec = true ∧ msrc = false then angle + Real.pi else angle
    let useCos : Prop := ab ∈ [11, 22, 15, 24, 13, 31, 26, 35]
    let test1 := if useCos then Real.pi / 2 else Real.pi
    let test2 := if useCos then 3 * Real.pi / 2 else 2 * Real.pi
    let a1 := if ab ∈ [11, 22, 15, 24, 12, 21, 14, 25] then a0 * 2 else a0
    let f := if useCos then Real.cos a1 else Real.sin a1
    if isclose |a1| test1 1e-10 1e-14 then 0
    else if isclose |a1| test2 1e-10 1e-14 then 0
    else f

end Verif.Kernel
