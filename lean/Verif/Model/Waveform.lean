import Mathlib.Data.Real.Basic
import Mathlib.Data.Finset.Sort

/-!
# Model of `check_waveform` (utils.py 1351-1465)

One offset.  Nodes and amplitudes are lists of the same length; the nodes are assumed to be different
(the code divides by their differences).
-/

namespace Verif.Waveform

/-- Quadrature points and weights: `sp.special.roots_legendre(nquad)` (utils.py 1402). -/
structure Quad where
  n : ℕ
  x : ℕ → ℝ
  w : ℕ → ℝ

/-- A segment of the waveform: start, end, slope (utils.py 1396-1398). -/
structure Seg where
  a : ℝ
  b : ℝ
  slope : ℝ

/-- `np.diff` of nodes and amplitudes, and their ratio (utils.py 1396-1398). -/
noncomputable def segments (nodes amps : List ℝ) : List Seg :=
  ((nodes.zip amps).zip (nodes.zip amps).tail).map fun p =>
    ⟨p.1.1, p.2.1, (p.2.2 - p.1.2) / (p.2.1 - p.1.1)⟩

open Classical in
/-- The segments that are considered (utils.py 1411-1418): with a change of current, and starting before
some time. -/
noncomputable def used (time : List ℝ) (segs : List Seg) : List Seg :=
  segs.filter fun s => decide (s.slope ≠ 0) && decide (∃ t ∈ time, s.a < t)

open Classical in
/-- `tb` (utils.py 1422-1425). -/
noncomputable def tEnd (s : Seg) (t : ℝ) : ℝ := if s.b > t then 0 else t - s.b

open Classical in
/-- `comp_time[:, q, wi]` for one time (utils.py 1405, 1430); zero where it is not assigned. -/
noncomputable def compTime (Q : Quad) (s : Seg) (t : ℝ) (q : ℕ) : ℝ :=
  if s.a < t then (tEnd s t - (t - s.a)) / 2 * Q.x q + ((t - s.a) + tEnd s t) / 2 else 0

open Classical in
/-- `segment_weight[:, wi]` for one time (utils.py 1406, 1432). -/
noncomputable def segWeight (s : Seg) (t : ℝ) : ℝ :=
  if s.a < t then (tEnd s t - (t - s.a)) / 2 * s.slope else 0

/-- All entries of `comp_time`. -/
noncomputable def allTimes (Q : Quad) (time : List ℝ) (U : List Seg) : List ℝ :=
  time.flatMap fun t => (List.range Q.n).flatMap fun q => U.map fun s => compTime Q s t q

open Classical in
/-- `np.unique(comp_time)` (utils.py 1441). -/
noncomputable def unique (l : List ℝ) : List ℝ := l.toFinset.sort (· ≤ ·)

open Classical in
/-- `map_time` (utils.py 1441): index of an entry among the unique times. -/
noncomputable def mapTime (u : List ℝ) (x : ℝ) : ℕ := u.idxOf x

open Classical in
/-- `comp_time_flat[comp_time_flat < _min_time] = _min_time` (utils.py 1442). -/
noncomputable def cut (tmin x : ℝ) : ℝ := if x < tmin then tmin else x

/-- `apply_waveform` (utils.py 1449-1456) for output time `t`. -/
noncomputable def applyWaveform (Q : Quad) (U : List Seg) (u : List ℝ) (resp : List ℝ) (t : ℝ) : ℝ :=
  (U.map fun s =>
    ((List.range Q.n).map fun q => resp.getD (mapTime u (compTime Q s t q)) 0 * Q.w q).sum *
      segWeight s t).sum

/-- `check_waveform` (utils.py 1351-1465): times to compute, and the waveform function; `none` is the
`ValueError`. -/
noncomputable def checkWaveform (Q : Quad) (tmin : ℝ) (time nodes amps : List ℝ) :
    Option (List ℝ × (List ℝ → List ℝ)) :=
  let U := used time (segments nodes amps)
  let u := unique (allTimes Q time U)
  let ct := u.map (cut tmin)
  if ct.length = 0 then none
  else some (ct, fun resp => time.map (applyWaveform Q U u resp))

end Verif.Waveform
