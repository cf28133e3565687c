import Verif.Model.Fullspace

/-!
# `kernel.fullspace` on real arrays (empymod/kernel.py 758-929)

In the Laplace domain `etaH`, `etaV`, `zetaH`, `zetaV` are real arrays (utils.py 498-519) and `np.sqrt` is the real
square root: NumPy returns `nan` for a negative number (with a warning only), and `nan` survives sums, products,
quotients and exponentials.  The complex square root of `Model/Fullspace` is therefore not what is used there.
-/

namespace Verif.Fullspace
open Verif.Kernel

/-- The arguments of `np.sqrt` whose roots are used for `ab`, after the switches of kernel.py 784-793: those of TM
(797-800), of TE (803-806), of `term4` (834, 838) and of `mult` (896). -/
noncomputable def radicands (m : Med) (off zsrc zrec : ℝ) (ab : ℕ) : List ℂ :=
  (if ab ∉ [16, 26] then [m.zetaH * m.etaV, off * off + (zsrc - zrec) * (zsrc - zrec) * (m.etaH / m.etaV)] else []) ++
  (if ab ∉ [16, 26, 14, 24, 15, 25] then [m.etaH / m.etaV] else []) ++
  (if ab ∉ [13, 23, 31, 32, 33, 34, 35] then
    [m.zetaV * m.etaH, off * off + (zsrc - zrec) * (zsrc - zrec) * (m.zetaH / m.zetaV)] else []) ++
  (if ab ∉ [13, 23, 31, 32, 33, 34, 35, 14, 24, 15, 25] then [m.zetaH / m.zetaV] else []) ++
  (if ab ∈ [11, 12, 21, 22] then [m.zetaH, m.etaH] else []) ++
  (if ab ∈ [14, 24, 15, 25] then [m.etaH * m.zetaH] else [])

open Classical in
/-- `fullspace` (kernel.py 758-929) at one frequency and offset of the Laplace domain; `none` is `nan`.  The imaginary
part of a real array is zero (kernel.py 835). -/
noncomputable def fullspaceReal (sqrt : ℂ → ℂ) (med : Med) (off angle zsrc zrec : ℝ) (ab : ℕ) (msrc mrec : Bool) :
    Option ℂ :=
  let m := if mrec && msrc then med.dual else med
  let swap := mrec && !msrc
  let zs := if swap then zrec else zsrc
  let zr := if swap then zsrc else zrec
  if ∃ r ∈ radicands m off zs zr ab, r.re < 0 then none
  else some (fullspaceAt sqrt false med off angle zsrc zrec ab msrc mrec)

end Verif.Fullspace
