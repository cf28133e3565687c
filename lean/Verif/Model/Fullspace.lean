import Verif.Model.Kernel

/-!
# Model of `kernel.fullspace` (empymod/kernel.py 758-929)

Arrays over frequencies and offsets are processed element-wise, except for one test over all
frequencies (`np.any(zetaH.imag < 0)`, kernel.py 835).  `np.sqrt` is a parameter: on the negative real
axis NumPy returns `+i√|x|` or `-i√|x|` depending on the sign of the zero in the imaginary part, which
exact complex numbers do not have.
-/

namespace Verif.Fullspace
open Verif.Kernel

/-- What NumPy guarantees about the complex square root: a root, and the principal one unless the
argument lies on the negative real axis. -/
structure IsSqrt (sqrt : ℂ → ℂ) : Prop where
  sq : ∀ z, sqrt z ^ 2 = z
  main : ∀ z ∈ Complex.slitPlane, sqrt z = csqrt z

/-- Medium at one frequency: `etaH[i, lsrc]`, `etaV[i, lsrc]`, `zetaH[i, lsrc]`, `zetaV[i, lsrc]`. -/
structure Med where
  etaH : ℂ
  etaV : ℂ
  zetaH : ℂ
  zetaV : ℂ

/-- Lines 787-788 of kernel.py: `etaH, zetaH = -zetaH, -etaH`, same for the vertical values. -/
def Med.dual (m : Med) : Med := ⟨-m.zetaH, -m.zetaV, -m.etaH, -m.etaV⟩

/-- `lGam` (kernel.py 797, 803): `sqrt(zetaH*etaV)` for TM, `sqrt(zetaV*etaH)` for TE. -/
def lGam (sqrt : ℂ → ℂ) (zH eV : ℂ) : ℂ := sqrt (zH * eV)

/-- `RTM`, `RTE` (kernel.py 798, 804). -/
noncomputable def dist (sqrt : ℂ → ℂ) (off zsrc zrec : ℝ) (eH eV : ℂ) : ℂ :=
  sqrt (off * off + (zsrc - zrec) * (zsrc - zrec) * (eH / eV))

/-- `uGamTM`, `uGamTE` (kernel.py 799-800, 805-806). -/
noncomputable def uGam (sqrt : ℂ → ℂ) (lGam R eH eV : ℂ) : ℂ :=
  Complex.exp (-lGam * R) / (4 * Real.pi * R * sqrt (eH / eV))

/-- Eqs 45, 46 (kernel.py 809-840); `neg` is `np.any(zetaH.imag < 0)`. -/
noncomputable def ginH (sqrt : ℂ → ℂ) (neg : Bool) (m : Med) (off xco yco zsrc zrec : ℝ) (ab : ℕ) :
    ℂ :=
  let lGamTM := lGam sqrt m.zetaH m.etaV
  let RTM := dist sqrt off zsrc zrec m.etaH m.etaV
  let uGamTM := uGam sqrt lGamTM RTM m.etaH m.etaV
  let lGamTE := lGam sqrt m.zetaV m.etaH
  let RTE := dist sqrt off zsrc zrec m.zetaH m.zetaV
  let uGamTE := uGam sqrt lGamTE RTE m.zetaH m.zetaV
  let coo1 : ℂ := if ab ∈ [11, 22] then if ab ∈ [11] then xco else yco else xco
  let coo2 : ℂ := if ab ∈ [11, 22] then if ab ∈ [11] then xco else yco else yco
  let delta : ℂ := if ab ∈ [11, 22] then 1 else 0
  let term1 := uGamTM * (3 * coo1 * coo2 / (RTM * RTM) - delta) *
    (1 / (m.etaV * RTM * RTM) + lGamTM / m.etaV / RTM) +
    uGamTM * m.zetaH * coo1 * coo2 / (RTM * RTM)
  let term2 := -delta * m.zetaH * uGamTE
  let term3 := -m.zetaH * coo1 * coo2 / (off * off) * (uGamTM - uGamTE)
  let term4 := -sqrt m.zetaH * (2 * coo1 * coo2 / (off * off) - delta) * (if neg then -1 else 1) *
    (Complex.exp (-lGamTM * RTM) - Complex.exp (-lGamTE * RTE)) /
    (4 * Real.pi * sqrt m.etaH * off * off)
  term1 + term2 + term3 + term4

/-- Eq 47 (kernel.py 842-853). -/
noncomputable def ginHV (sqrt : ℂ → ℂ) (m : Med) (off xco yco zsrc zrec : ℝ) (ab : ℕ) : ℂ :=
  let lGamTM := lGam sqrt m.zetaH m.etaV
  let RTM := dist sqrt off zsrc zrec m.etaH m.etaV
  let uGamTM := uGam sqrt lGamTM RTM m.etaH m.etaV
  let coo : ℂ := if ab ∈ [13, 31] then xco else yco
  let term1 := m.etaH / m.etaV * (zrec - zsrc) * coo / (RTM * RTM)
  let term2 := 3 / (RTM * RTM) + 3 * lGamTM / RTM + lGamTM * lGamTM
  term1 * term2 * uGamTM / m.etaV

/-- Eq 48 (kernel.py 855-864). -/
noncomputable def ginV (sqrt : ℂ → ℂ) (m : Med) (off zsrc zrec : ℝ) : ℂ :=
  let lGamTM := lGam sqrt m.zetaH m.etaV
  let RTM := dist sqrt off zsrc zrec m.etaH m.etaV
  let uGamTM := uGam sqrt lGamTM RTM m.etaH m.etaV
  let term1 := (m.etaH / m.etaV * (zsrc - zrec) / RTM) * (m.etaH / m.etaV * (zsrc - zrec) / RTM) *
    (3 / (RTM * RTM) + 3 * lGamTM / RTM + lGamTM * lGamTM)
  let term2 := -(m.etaH / m.etaV) / RTM * (1 / RTM + lGamTM) - m.etaH * m.zetaH
  (term1 + term2) * uGamTM / m.etaV

/-- `term` (kernel.py 890-893). -/
noncomputable def emTerm (lGam eH eV R off co1 co2 delta : ℂ) : ℂ :=
  let fac := lGam * eH / eV / R * Complex.exp (-lGam * R)
  let term := 2 / (off * off) + lGam / R + 1 / (R * R)
  fac * (co1 * co2 * term - delta)

/-- Eq 49 (kernel.py 866-897). -/
noncomputable def ginEM (sqrt : ℂ → ℂ) (m : Med) (off xco yco zsrc zrec : ℝ) (ab : ℕ) : ℂ :=
  let lGamTM := lGam sqrt m.zetaH m.etaV
  let RTM := dist sqrt off zsrc zrec m.etaH m.etaV
  let lGamTE := lGam sqrt m.zetaV m.etaH
  let RTE := dist sqrt off zsrc zrec m.zetaH m.zetaV
  -- 868-878
  let a1 : ℂ := if ab ∈ [14, 25] then xco else yco
  let a2 : ℂ := yco
  let a3 : ℂ := xco
  let a4 : ℂ := if ab ∈ [14, 25] then yco else xco
  let delta : ℂ := if ab ∈ [14, 25] then 0 else 1
  let pm : ℂ := if ab ∈ [14, 25] then -1 else 1
  -- 880-883
  let coo1 := if ab ∈ [15, 25] then a3 else a1
  let coo2 := if ab ∈ [15, 25] then a4 else a2
  let coo3 := if ab ∈ [15, 25] then a1 else a3
  let coo4 := if ab ∈ [15, 25] then a2 else a4
  -- 885-887
  let zr : ℂ := if ab ∈ [24, 25] then zsrc else zrec
  let zs : ℂ := if ab ∈ [24, 25] then zrec else zsrc
  let termTM := emTerm lGamTM m.etaH m.etaV RTM off coo1 coo2 delta
  let termTE := emTerm lGamTE m.zetaH m.zetaV RTE off coo3 coo4 delta
  let mult := (zr - zs) / (4 * Real.pi * sqrt (m.etaH * m.zetaH) * off * off)
  let gin := -mult * (pm * termTM + termTE)
  gin

/-- Eqs 50, 51 (kernel.py 899-923). -/
noncomputable def ginZM (sqrt : ℂ → ℂ) (m : Med) (off xco yco zsrc zrec : ℝ) (ab : ℕ) : ℂ :=
  let lGamTM := lGam sqrt m.zetaH m.etaV
  let RTM := dist sqrt off zsrc zrec m.etaH m.etaV
  let lGamTE := lGam sqrt m.zetaV m.etaH
  let RTE := dist sqrt off zsrc zrec m.zetaH m.zetaV
  let c : ℂ := if ab ∈ [34, 16] then yco else -xco
  if ab ∈ [34, 35] then
    -c * (m.etaH / m.etaV) / RTM * (lGamTM + 1 / RTM) * uGam sqrt lGamTM RTM m.etaH m.etaV
  else
    c * (m.zetaH / m.zetaV) / RTE * (lGamTE + 1 / RTE) * uGam sqrt lGamTE RTE m.zetaH m.zetaV

/-- `fullspace` (kernel.py 758-929) at one frequency and offset; `neg` is
`np.any(zetaH.imag < 0)` after the switches. -/
noncomputable def fullspaceAt (sqrt : ℂ → ℂ) (neg : Bool) (med : Med) (off angle zsrc zrec : ℝ)
    (ab : ℕ) (msrc mrec : Bool) : ℂ :=
  let x := Real.cos angle * off
  let y := Real.sin angle * off
  let swap := mrec && !msrc
  let m := if mrec && msrc then med.dual else med
  let xco := if swap then x * -1 else x
  let yco := if swap then y * -1 else y
  let zs := if swap then zrec else zsrc
  let zr := if swap then zsrc else zrec
  let gin :=
    if ab ∈ [11, 12, 21, 22] then ginH sqrt neg m off xco yco zs zr ab
    else if ab ∈ [13, 23, 31, 32] then ginHV sqrt m off xco yco zs zr ab
    else if ab ∈ [33] then ginV sqrt m off zs zr
    else if ab ∈ [14, 24, 15, 25] then ginEM sqrt m off xco yco zs zr ab
    else ginZM sqrt m off xco yco zs zr ab
  if mrec then gin * -1 else gin

open Classical in
/-- `fullspace` for all frequencies (kernel.py 758-929). -/
noncomputable def fullspace (sqrt : ℂ → ℂ) (meds : List Med) (off angle zsrc zrec : ℝ)
    (ab : ℕ) (msrc mrec : Bool) : List ℂ :=
  let neg := decide (∃ m ∈ meds, (if mrec && msrc then m.dual else m).zetaH.im < 0)
  meds.map fun m => fullspaceAt sqrt neg m off angle zsrc zrec ab msrc mrec

end Verif.Fullspace
