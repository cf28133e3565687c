import Verif.Model.Kernel

/-!
# Model of `fem` (model.py 1597-1670) and `check_loop` (utils.py 906-961)

A frequency is represented by its row of `etaH, etaV, zetaH, zetaV` (type `α`).  An array of shape
(frequencies, offsets) is a function of two indices.
-/

namespace Verif.Model
open Verif.Kernel

/-- Result of a Hankel transform: values, kernel count, convergence. -/
structure HankelOut where
  val : ℕ → ℕ → ℂ
  kcount : ℕ
  conv : Bool

/-- A Hankel transform (`calc` in the code), with everything that `fem` does not touch fixed: `xdirect`, rows of the
frequencies, offsets with their angle factors. -/
abbrev Calc (α : Type) := Bool → List α → List (ℝ × ℝ) → HankelOut

/-- Body of the loop over frequencies (model.py 1644-1651). -/
noncomputable def freqStep {α : Type} (hank : Calc α) (xdir : Bool) (offs : List (ℝ × ℝ))
    (st : HankelOut) (p : α × ℕ) : HankelOut :=
  let out := hank xdir [p.1] offs
  ⟨fun i j => if i = p.2 then st.val i j + out.val 0 j else st.val i j,
    st.kcount + out.kcount, st.conv && out.conv⟩

/-- Body of the loop over offsets (model.py 1654-1661). -/
noncomputable def offStep {α : Type} (hank : Calc α) (xdir : Bool) (rows : List α)
    (st : HankelOut) (p : (ℝ × ℝ) × ℕ) : HankelOut :=
  let out := hank xdir rows [p.1]
  ⟨fun i j => if j = p.2 then st.val i j + out.val i 0 else st.val i j,
    st.kcount + out.kcount, st.conv && out.conv⟩

/-- `fem` (model.py 1597-1670).  `full i j` is `kernel.fullspace` at frequency `i` and offset `j`;
`offs` are the offsets with their angles, `same` is `lsrc == lrec`. -/
noncomputable def fem {α : Type} (hank : Calc α) (full : ℕ → ℕ → ℂ) (ab : ℕ) (offs : List (ℝ × ℝ))
    (rows : List α) (same : Bool) (xdirect : Option Bool) (isfullspace msrc mrec : Bool)
    (loopFreq loopOff : Bool) (conv : Bool) : HankelOut :=
  let fEM : ℕ → ℕ → ℂ := fun _ _ => 0
  if ab ∈ [36] then ⟨fEM, 0, conv⟩
  else
    let fEM := if xdirect = some true ∧ (isfullspace = true ∨ same = true) then
        fun i j => fEM i j + full i j else fEM
    let xdir := xdirect.getD true
    if isfullspace && xdir then ⟨fEM, 0, conv⟩
    else
      let offs := offs.map fun p => (p.1, angleFactor p.2 ab msrc mrec)
      if loopFreq then
        rows.zipIdx.foldl (freqStep hank xdir offs) ⟨fEM, 0, conv⟩
      else if loopOff then
        offs.zipIdx.foldl (offStep hank xdir rows) ⟨fEM, 0, conv⟩
      else
        let out := hank xdir rows offs
        ⟨fun i j => fEM i j + out.val i j, out.kcount, conv && out.conv⟩

/-- `check_loop` (utils.py 940-949): `(loop_freq, loop_off)`; `loop` is the string, if any. -/
noncomputable def checkLoop (loop : Option String) (ht : String) (ptsPerDec : ℝ) : Bool × Bool :=
  open Classical in
  let lagged : Bool := decide (ht = "dlf" ∧ ptsPerDec ≠ 0)
  if ht = "qwe" ∨ ht = "quad" ∨ lagged = true then (true, false)
  else (decide (loop = some "freq"), decide (loop = some "off"))

end Verif.Model
