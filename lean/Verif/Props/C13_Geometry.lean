import Verif.Model.Geometry
import Verif.Model.CheckAb
import Verif.Props.C11_Materials
import Mathlib.Analysis.SpecialFunctions.Trigonometric.Bounds
import Mathlib.Analysis.Real.Pi.Bounds
import Mathlib.Algebra.BigOperators.Fin
import Mathlib.Tactic.IntervalCases

/-!
# C13, C14, C15 — offsets and angles, component selection, finite dipoles
-/

namespace Verif.Props
open Verif.Utils Verif.Py

/-! ## C13 -/

theorem slice_fold (nrec : ℕ) (v : ℕ → ℕ → ℝ) (w : ℕ → ℕ → ℝ) (a b : ℕ → ℝ) (nsrc : ℕ) :
    ∀ i j, i < nsrc → j < nrec →
    ((List.range nsrc).foldl (fun (st : (ℕ → ℝ) × (ℕ → ℝ)) i =>
      (setSlice st.1 (i * nrec) ((i + 1) * nrec) 1 (v i),
        setSlice st.2 (i * nrec) ((i + 1) * nrec) 1 (w i))) (a, b)).1 (i * nrec + j) = v i j ∧
    ((List.range nsrc).foldl (fun (st : (ℕ → ℝ) × (ℕ → ℝ)) i =>
      (setSlice st.1 (i * nrec) ((i + 1) * nrec) 1 (v i),
        setSlice st.2 (i * nrec) ((i + 1) * nrec) 1 (w i))) (a, b)).2 (i * nrec + j) = w i j := by
  induction nsrc with
  | zero => intro i j hi; omega
  | succ n ih =>
    intro i j hi hj
    rw [List.range_succ, List.foldl_append]
    simp only [List.foldl_cons, List.foldl_nil, setSlice]
    by_cases h : i = n
    · subst h
      have e : i * nrec ≤ i * nrec + j ∧ i * nrec + j < (i + 1) * nrec ∧
          (i * nrec + j - i * nrec) % 1 = 0 := ⟨by omega, by rw [Nat.add_mul]; omega, Nat.mod_one _⟩
      rw [if_pos e, if_pos e]
      simp
    · have hlt : i < n := by omega
      have e : ¬ (n * nrec ≤ i * nrec + j ∧ i * nrec + j < (n + 1) * nrec ∧
          (i * nrec + j - n * nrec) % 1 = 0) := by
        rintro ⟨h1, -⟩
        have : (i + 1) * nrec ≤ n * nrec := Nat.mul_le_mul_right _ hlt
        rw [Nat.add_mul] at this
        omega
      rw [if_neg e, if_neg e]
      exact ih i j hlt hj

/-- **C13.**  Entry `i*nrec + j` belongs to source `i` and receiver `j`: the offset is the
horizontal distance cut off at the minimum offset, the angle the direction from source to receiver;
whenever the distance is not below the minimum the two are polar coordinates of receiver minus
source.  The content of the pre-allocated arrays is irrelevant, hence every entry is written. -/
theorem C13_off_ang (m : Mins) (sx sy rx ry : ℕ → ℝ) (nsrc nrec : ℕ) (junk junk' : ℕ → ℝ)
    {i j : ℕ} (hi : i < nsrc) (hj : j < nrec) :
    let off := (getOffAng m sx sy rx ry nsrc nrec junk junk').1 (i * nrec + j)
    let ang := (getOffAng m sx sy rx ry nsrc nrec junk junk').2 (i * nrec + j)
    off = max (Real.sqrt ((rx j - sx i) ^ 2 + (ry j - sy i) ^ 2)) m.minOff ∧
    -Real.pi < ang ∧ ang ≤ Real.pi ∧
    (Real.sqrt ((rx j - sx i) ^ 2 + (ry j - sy i) ^ 2) * Real.cos ang = rx j - sx i ∧
      Real.sqrt ((rx j - sx i) ^ 2 + (ry j - sy i) ^ 2) * Real.sin ang = ry j - sy i) ∧
    (m.minOff ≤ Real.sqrt ((rx j - sx i) ^ 2 + (ry j - sy i) ^ 2) →
      off * Real.cos ang = rx j - sx i ∧ off * Real.sin ang = ry j - sy i) := by
  obtain ⟨h1, h2⟩ := slice_fold nrec
    (fun i j => Real.sqrt ((rx j - sx i) * (rx j - sx i) + (ry j - sy i) * (ry j - sy i)))
    (fun i j => arctan2 (ry j - sy i) (rx j - sx i)) junk junk' nsrc i j hi hj
  have e1 : (getOffAng m sx sy rx ry nsrc nrec junk junk').1 (i * nrec + j) =
      max (Real.sqrt ((rx j - sx i) ^ 2 + (ry j - sy i) ^ 2)) m.minOff := by
    rw [sq, sq, ← h1, ← cut_eq]; rfl
  have e2 : (getOffAng m sx sy rx ry nsrc nrec junk junk').2 (i * nrec + j) =
      arctan2 (ry j - sy i) (rx j - sx i) := h2
  have hp : Real.sqrt ((rx j - sx i) ^ 2 + (ry j - sy i) ^ 2) =
      ‖(⟨rx j - sx i, ry j - sy i⟩ : ℂ)‖ := by
    rw [Complex.norm_def, Complex.normSq_mk]
    congr 1; ring
  have pol : Real.sqrt ((rx j - sx i) ^ 2 + (ry j - sy i) ^ 2) *
      Real.cos (arctan2 (ry j - sy i) (rx j - sx i)) = rx j - sx i ∧
      Real.sqrt ((rx j - sx i) ^ 2 + (ry j - sy i) ^ 2) *
      Real.sin (arctan2 (ry j - sy i) (rx j - sx i)) = ry j - sy i := by
    unfold arctan2
    rw [hp, Complex.norm_mul_cos_arg, Complex.norm_mul_sin_arg]
    exact ⟨rfl, rfl⟩
  intro off ang
  have hoff : off = _ := e1
  have hang : ang = _ := e2
  rw [hoff, hang]
  refine ⟨rfl, Complex.neg_pi_lt_arg _, Complex.arg_le_pi _, pol, fun h => ?_⟩
  rw [max_eq_left h]
  exact pol

/-- Two sources, three receivers: the last entry (index 5) belongs to source 1 and receiver 2. -/
example (junk junk' : ℕ → ℝ) :
    (getOffAng Mins.init (fun i => i) (fun _ => 0) (fun j => 4 * j) (fun j => 12 * j) 2 3 junk
      junk').1 5 = Real.sqrt (7 ^ 2 + 24 ^ 2) := by
  have := (C13_off_ang Mins.init (fun i => i) (fun _ => 0) (fun j => 4 * j) (fun j => 12 * j) 2 3 junk
    junk' (i := 1) (j := 2) (by norm_num) (by norm_num)).1
  have h25 : Real.sqrt (7 ^ 2 + 24 ^ 2) = 25 := by
    rw [show (7 : ℝ) ^ 2 + 24 ^ 2 = 25 ^ 2 by norm_num, Real.sqrt_sq (by norm_num)]
  norm_num at this
  rw [this, h25, show Real.sqrt 625 = 25 by
    rw [show (625 : ℝ) = 25 ^ 2 by norm_num, Real.sqrt_sq (by norm_num)]]
  norm_num [Mins.init]

/-- Translation (second half of C08): offsets and angles do not change if a common vector is added
to all source and receiver positions. -/
theorem C08_translation (m : Mins) (sx sy rx ry : ℕ → ℝ) (nsrc nrec : ℕ) (junk junk' : ℕ → ℝ)
    (tx ty : ℝ) :
    getOffAng m (fun i => sx i + tx) (fun i => sy i + ty) (fun j => rx j + tx)
      (fun j => ry j + ty) nsrc nrec junk junk' =
    getOffAng m sx sy rx ry nsrc nrec junk junk' := by
  unfold getOffAng
  simp only [add_sub_add_right_eq_sub]

/-! ## C14 -/

/-- Component `i` (1: x, 2: y, 3: z) of the unit vector with the given azimuth and dip. -/
noncomputable def direction (azm dip : ℝ) (i : ℕ) : ℝ :=
  if i = 1 then Real.cos azm * Real.cos dip
  else if i = 2 then Real.sin azm * Real.cos dip
  else Real.sin dip

theorem fmod_split (a : ℝ) : a = fmod a (Real.pi / 2) + ⌊a / (Real.pi / 2)⌋ * (Real.pi / 2) := by
  unfold fmod; ring

theorem mul_small {a b c : ℝ} (h1 : a ≤ c) (h2 : b ≤ 1) (h3 : 0 ≤ a) : a * b ≤ c := by
  nlinarith

theorem small_of_even {a : ℝ} (h1 : |fmod a (Real.pi / 2)| ≤ 1e-8)
    (h2 : ⌊a / (Real.pi / 2)⌋ % 2 = 0) : |Real.sin a| ≤ 1e-8 := by
  obtain ⟨k, hk⟩ : ∃ k, ⌊a / (Real.pi / 2)⌋ = 2 * k := ⟨⌊a / (Real.pi / 2)⌋ / 2, by omega⟩
  have e : a = fmod a (Real.pi / 2) + k * Real.pi := by
    conv_lhs => rw [fmod_split a, hk]
    push_cast; ring
  rw [e, Real.sin_add_int_mul_pi, abs_mul, abs_zpow, abs_neg, abs_one, one_zpow, one_mul]
  exact Real.abs_sin_le_abs.trans h1

theorem small_of_odd {a : ℝ} (h1 : |fmod a (Real.pi / 2)| ≤ 1e-8)
    (h2 : ⌊a / (Real.pi / 2)⌋ % 2 = 1) : |Real.cos a| ≤ 1e-8 := by
  obtain ⟨k, hk⟩ : ∃ k, ⌊a / (Real.pi / 2)⌋ = 2 * k + 1 := ⟨⌊a / (Real.pi / 2)⌋ / 2, by omega⟩
  have e : a = (fmod a (Real.pi / 2) + Real.pi / 2) + k * Real.pi := by
    conv_lhs => rw [fmod_split a, hk]
    push_cast; ring
  rw [e, Real.cos_add_int_mul_pi, Real.cos_add_pi_div_two, abs_mul, abs_zpow, abs_neg, abs_one,
    one_zpow, one_mul, abs_neg]
  exact Real.abs_sin_le_abs.trans h1

theorem direction_le_one (azm dip : ℝ) (i : ℕ) : |direction azm dip i| ≤ 1 := by
  have e : ∀ a b : ℝ, |a| ≤ 1 → |b| ≤ 1 → |a * b| ≤ 1 := fun a b ha hb => by
    rw [abs_mul]; exact mul_le_one₀ ha (abs_nonneg _) hb
  unfold direction
  split_ifs
  · exact e _ _ (Real.abs_cos_le_one _) (Real.abs_cos_le_one _)
  · exact e _ _ (Real.abs_sin_le_one _) (Real.abs_cos_le_one _)
  · exact Real.abs_sin_le_one _

/-- A component that is not kept has weight below `1e-8` for every pole of the batch. -/
theorem not_kept {azm dip : List ℝ} {i : ℕ} (hi : 1 ≤ i ∧ i ≤ 3) (h : ¬ Kept azm dip i)
    {a d : ℝ} (ha : a ∈ azm) (hd : d ∈ dip) : |direction a d i| ≤ 1e-8 := by
  have mulr : ∀ x y : ℝ, |x| ≤ 1e-8 → |y| ≤ 1 → |x * y| ≤ 1e-8 := fun x y hx hy => by
    rw [abs_mul]; exact mul_small hx hy (abs_nonneg _)
  have mull : ∀ x y : ℝ, |x| ≤ 1 → |y| ≤ 1e-8 → |x * y| ≤ 1e-8 := fun x y hx hy => by
    rw [mul_comm]; exact mulr y x hy hx
  unfold Kept at h
  by_contra hc
  apply h
  refine ⟨?_, ?_, ?_, ?_⟩
  · rintro ⟨h1, h2, rfl⟩
    apply hc
    simp only [direction, OfNat.ofNat_ne_one, if_false, if_true]
    exact mulr _ _ (small_of_even (h1 a ha) (h2 a ha)) (Real.abs_cos_le_one _)
  · rintro ⟨h1, -, h2, rfl⟩
    apply hc
    simp only [direction, if_true]
    exact mulr _ _ (small_of_odd (h1 a ha) (h2 a ha)) (Real.abs_cos_le_one _)
  · rintro ⟨h1, h2, rfl⟩
    apply hc
    simp only [direction, OfNat.ofNat_ne_one, Nat.reduceEqDiff, if_false]
    exact small_of_even (h1 d hd) (h2 d hd)
  · rintro ⟨h1, -, h2, h3⟩
    apply hc
    rcases h3 with rfl | rfl
    · simp only [direction, if_true]
      exact mull _ _ (Real.abs_cos_le_one _) (small_of_odd (h1 d hd) (h2 d hd))
    · simp only [direction, OfNat.ofNat_ne_one, if_false, if_true]
      exact mull _ _ (Real.abs_sin_le_one _) (small_of_odd (h1 d hd) (h2 d hd))

/-- Code of the component pair (receiver `i`, source `j`) as the user would write it. -/
def userCode (msrc mrec : Bool) (i j : ℕ) : ℕ :=
  10 * (if mrec then i + 3 else i) + (if msrc then j + 3 else j)

/-- The component pairs are computed under the code `check_ab` decodes for them. -/
theorem C14_codes (msrc mrec : Bool) {i j : ℕ} (hi : 1 ≤ i ∧ i ≤ 3) (hj : 1 ≤ j ∧ j ≤ 3) :
    checkAb (.int (userCode msrc mrec i j)) = .ok (abEntry msrc mrec i j, msrc, mrec) := by
  obtain ⟨h1, h2⟩ := hi
  obtain ⟨h3, h4⟩ := hj
  cases msrc <;> cases mrec <;> interval_cases i <;> interval_cases j <;> rfl

theorem geoFact_entry (m : Mins) (msrc mrec : Bool) {i j : ℕ} (hi : 1 ≤ i ∧ i ≤ 3)
    (hj : 1 ≤ j ∧ j ≤ 3) (sa sd ra rd : ℝ) :
    getGeoFact m (abEntry msrc mrec i j) sa sd ra rd msrc mrec =
      if |direction ra rd i * direction sa sd j| < m.minAngle then 0
      else direction ra rd i * direction sa sd j := by
  obtain ⟨h1, h2⟩ := hi
  obtain ⟨h3, h4⟩ := hj
  cases msrc <;> cases mrec <;> interval_cases i <;> interval_cases j <;>
    simp [getGeoFact, abEntry, gfact, direction]

open Classical in
/-- The weight with which the component pair `(i, j)` enters for one source and one receiver of a
batch; zero if it is not computed. -/
noncomputable def usedWeight (m : Mins) (srcazm srcdip recazm recdip : List ℝ) (sa sd ra rd : ℝ)
    (i j : ℕ) : ℝ :=
  if Kept recazm recdip i ∧ Kept srcazm srcdip j then
    (if |direction ra rd i * direction sa sd j| < m.minAngle then 0
      else direction ra rd i * direction sa sd j)
  else 0

open Classical in
/-- **C14.**  For every batch of sources and receivers and every member of it: the sum that `bipole`
forms over the selected components is the full contraction of the 3x3 tensor `G` with weights
that differ from the product of the direction cosines by at most `1e-8` (the tolerance of
`np.isclose`, given that the configurable minimum is not larger).  No component is counted twice,
none with a larger weight is missing. -/
theorem C14_contraction (m : Mins) (hmin : m.minAngle ≤ 1e-8) (msrc mrec : Bool)
    {srcazm srcdip recazm recdip : List ℝ} {sa sd ra rd : ℝ} (h1 : sa ∈ srcazm) (h2 : sd ∈ srcdip)
    (h3 : ra ∈ recazm) (h4 : rd ∈ recdip) (G : ℕ → ℂ) :
    ((getAbs msrc mrec srcazm srcdip recazm recdip).map fun ab =>
        G ab * (getGeoFact m ab sa sd ra rd msrc mrec : ℂ)).sum =
      ([1, 2, 3].flatMap fun i => [1, 2, 3].map fun j => G (abEntry msrc mrec i j) *
        (usedWeight m srcazm srcdip recazm recdip sa sd ra rd i j : ℂ)).sum ∧
    ∀ i j, 1 ≤ i → i ≤ 3 → 1 ≤ j → j ≤ 3 →
      |usedWeight m srcazm srcdip recazm recdip sa sd ra rd i j -
        direction ra rd i * direction sa sd j| ≤ 1e-8 := by
  constructor
  · have key : ∀ i j, (1 ≤ i ∧ i ≤ 3) → (1 ≤ j ∧ j ≤ 3) →
        ((if Kept recazm recdip i ∧ Kept srcazm srcdip j then [abEntry msrc mrec i j] else []).map
          fun ab => G ab * (getGeoFact m ab sa sd ra rd msrc mrec : ℂ)).sum =
        G (abEntry msrc mrec i j) *
          (usedWeight m srcazm srcdip recazm recdip sa sd ra rd i j : ℂ) := by
      intro i j hi hj
      by_cases h : Kept recazm recdip i ∧ Kept srcazm srcdip j
      · rw [if_pos h]
        simp only [List.map_cons, List.map_nil, List.sum_cons, List.sum_nil, add_zero, usedWeight]
        rw [if_pos h, geoFact_entry m msrc mrec hi hj]
      · rw [if_neg h]
        simp only [usedWeight]
        rw [if_neg h]
        simp
    unfold getAbs
    simp only [List.flatMap_cons, List.flatMap_nil, List.map_append, List.sum_append, List.append_nil,
      List.map_cons, List.map_nil, List.sum_cons, List.sum_nil, add_zero]
    rw [key 1 1 (by norm_num) (by norm_num), key 1 2 (by norm_num) (by norm_num),
      key 1 3 (by norm_num) (by norm_num), key 2 1 (by norm_num) (by norm_num),
      key 2 2 (by norm_num) (by norm_num), key 2 3 (by norm_num) (by norm_num),
      key 3 1 (by norm_num) (by norm_num), key 3 2 (by norm_num) (by norm_num),
      key 3 3 (by norm_num) (by norm_num)]
  · intro i j hi hi' hj hj'
    unfold usedWeight
    split_ifs with hk hs
    · rw [zero_sub, abs_neg]; exact hs.le.trans hmin
    · simp only [sub_self, abs_zero]; norm_num
    · rw [zero_sub, abs_neg, abs_mul]
      rcases not_and_or.1 hk with hk | hk
      · exact mul_small (not_kept ⟨hi, hi'⟩ hk h3 h4) (direction_le_one _ _ _)
          (abs_nonneg _)
      · rw [mul_comm]
        exact mul_small (not_kept ⟨hj, hj'⟩ hk h1 h2) (direction_le_one _ _ _)
          (abs_nonneg _)

/-- An x-directed horizontal electric source: components y and z are not computed; a tilted
receiver keeps all three. -/
example : ¬ Kept [0] [0] 2 ∧ ¬ Kept [0] [0] 3 ∧ Kept [0] [0] 1 ∧ Kept [1] [1] 1 ∧ Kept [1] [1] 3 := by
  have z0 : AllMult [0] := by simp [AllMult, fmod]; norm_num
  have p0 : AllPar [0] 0 := by simp [AllPar]
  have hfl : ⌊(1 : ℝ) / (Real.pi / 2)⌋ = 0 := by
    rw [Int.floor_eq_zero_iff]
    constructor
    · positivity
    · rw [div_lt_one (by positivity)]; linarith [Real.two_le_pi, Real.pi_gt_d2]
  have n1 : ¬ AllMult [1] := by
    intro h
    have := h 1 (by simp)
    rw [fmod, hfl] at this
    norm_num at this
  refine ⟨fun h => h.1 ⟨z0, p0, rfl⟩, fun h => h.2.2.1 ⟨z0, p0, rfl⟩, ?_, ?_, ?_⟩
  · exact ⟨by simp, fun h => h.2.1 p0, by simp, fun h => h.2.1 p0⟩
  · exact ⟨fun h => n1 h.1, fun h => n1 h.1, fun h => n1 h.1, fun h => n1 h.1⟩
  · exact ⟨fun h => n1 h.1, fun h => n1 h.1, fun h => n1 h.1, fun h => n1 h.1⟩

/-! ## C15 -/

theorem segLen_pos {dx dy dz : ℝ} (h : dx ≠ 0 ∨ dy ≠ 0 ∨ dz ≠ 0) : 0 < segLen dx dy dz := by
  apply Real.sqrt_pos.2
  rcases h with h | h | h
  · have : 0 < dx ^ 2 := by positivity
    nlinarith [sq_nonneg dy, sq_nonneg dz]
  · have : 0 < dy ^ 2 := by positivity
    nlinarith [sq_nonneg dx, sq_nonneg dz]
  · have : 0 < dz ^ 2 := by positivity
    nlinarith [sq_nonneg dx, sq_nonneg dy]

/-- **C15, direction**: azimuth and dip of a finite dipole describe the unit vector from the first
to the second end point. -/
theorem C15_direction {dx dy dz : ℝ} (h : dx ≠ 0 ∨ dy ≠ 0 ∨ dz ≠ 0) :
    segLen dx dy dz * direction (segAzm dx dy) (segDip dx dy dz) 1 = dx ∧
    segLen dx dy dz * direction (segAzm dx dy) (segDip dx dy dz) 2 = dy ∧
    segLen dx dy dz * direction (segAzm dx dy) (segDip dx dy dz) 3 = dz := by
  have hl := segLen_pos h
  have hsq : segLen dx dy dz ^ 2 = dx ^ 2 + dy ^ 2 + dz ^ 2 := Real.sq_sqrt (by positivity)
  have hr : -1 ≤ dz / segLen dx dy dz ∧ dz / segLen dx dy dz ≤ 1 := by
    rw [← abs_le, abs_div, abs_of_pos hl, div_le_one hl]
    apply abs_le_of_sq_le_sq _ hl.le
    rw [hsq]; nlinarith [sq_nonneg dx, sq_nonneg dy]
  have hs : Real.sin (segDip dx dy dz) = dz / segLen dx dy dz := by
    rw [segDip, Real.sin_pi_div_two_sub, Real.cos_arccos hr.1 hr.2]
  have hc : segLen dx dy dz * Real.cos (segDip dx dy dz) = Real.sqrt (dx ^ 2 + dy ^ 2) := by
    rw [segDip, Real.cos_pi_div_two_sub, Real.sin_arccos]
    have : 1 - (dz / segLen dx dy dz) ^ 2 = (dx ^ 2 + dy ^ 2) / segLen dx dy dz ^ 2 := by
      field_simp; rw [hsq]; ring
    rw [this, Real.sqrt_div (by positivity), Real.sqrt_sq hl.le]
    field_simp
  have hn : Real.sqrt (dx ^ 2 + dy ^ 2) = ‖(⟨dx, dy⟩ : ℂ)‖ := by
    rw [Complex.norm_def, Complex.normSq_mk]; congr 1; ring
  refine ⟨?_, ?_, ?_⟩
  · simp only [direction, if_true]
    rw [mul_comm (Real.cos _), ← mul_assoc, hc, hn, segAzm, arctan2, Complex.norm_mul_cos_arg]
  · simp only [direction, OfNat.ofNat_ne_one, if_false, if_true]
    rw [mul_comm (Real.sin _), ← mul_assoc, hc, hn, segAzm, arctan2, Complex.norm_mul_sin_arg]
  · simp only [direction, OfNat.ofNat_ne_one, Nat.reduceEqDiff, if_false]
    rw [hs]; field_simp

/-- `rnd` moves a number by at most `δ`; nodes lie in `[-1, 1]`; weights sum to two (what
`np.round` and `roots_legendre` guarantee). -/
structure ExtOK (e : Ext) (δ : ℝ) : Prop where
  rnd : ∀ x, |e.rnd x - x| ≤ δ
  node : ∀ n i, i < n → -1 ≤ e.node n i ∧ e.node n i ≤ 1
  weight : ∀ n, 0 < n → ((List.range n).map (e.weight n)).sum = 2

/-- The poles of the current depth: index of the `k`-th one among all. -/
def poleIndex (p : Poles) (iz k : ℕ) : ℕ := if p.nz = 1 then k else iz

/-- index into the depth arrays -/
def depthIndex (p : Poles) (iz : ℕ) : ℕ := if p.nz = 1 then 0 else iz

/-- **C15.**  Finite dipoles: integration point `i` of pole `k` lies (up to rounding of the
coordinates) on the straight segment between the end points, at the same fraction `t ∈ [0, 1]` in all
three coordinates; azimuth and dip are those of the segment; the weights sum to one; the length
factor is the length, times the strength for the source, if `strength > 0`, and one otherwise. -/
theorem C15_bipole {e : Ext} {δ : ℝ} (he : ExtOK e δ) {p : Poles} (hp : p.isdipole = false)
    (hnz : 0 < p.nz) (iz : ℕ) (intpts : ℤ) (strength : ℝ) (isSrc : Bool)
    (hpt : ∀ k, p.x1 (poleIndex p iz k) - p.x0 (poleIndex p iz k) ≠ 0 ∨
      p.y1 (poleIndex p iz k) - p.y0 (poleIndex p iz k) ≠ 0 ∨
      p.z1 (depthIndex p iz) - p.z0 (depthIndex p iz) ≠ 0) :
    let g := getAzmDip e p iz intpts strength isSrc
    let cnt := if p.nz = 1 then p.n else 1
    let dx := fun k => p.x1 (poleIndex p iz k) - p.x0 (poleIndex p iz k)
    let dy := fun k => p.y1 (poleIndex p iz k) - p.y0 (poleIndex p iz k)
    let dz := p.z1 (depthIndex p iz) - p.z0 (depthIndex p iz)
    g.intpts = (if intpts > 2 then intpts.toNat else 1) ∧
    g.azm = (List.range cnt).map (fun k => segAzm (dx k) (dy k)) ∧
    g.dip = (List.range cnt).map (fun k => segDip (dx k) (dy k) dz) ∧
    ((List.range g.intpts).map g.gw).sum = 1 ∧
    (∀ k, g.w k = if strength > 0 then
      (if isSrc then segLen (dx k) (dy k) dz * strength else segLen (dx k) (dy k) dz) else 1) ∧
    ∀ i, i < g.intpts → ∃ t : ℝ, 0 ≤ t ∧ t ≤ 1 ∧
      |g.tz i - (p.z0 (depthIndex p iz) + t * dz)| ≤ δ ∧
      ∀ k, |g.tx (k * g.intpts + i) - (p.x0 (poleIndex p iz k) + t * dx k)| ≤ δ ∧
        |g.ty (k * g.intpts + i) - (p.y0 (poleIndex p iz k) + t * dy k)| ≤ δ := by
  intro g cnt dx dy dz
  have hdir := fun k => C15_direction (hpt k)
  by_cases hi : intpts > 2
  · have hg : g = getAzmDip e p iz intpts strength isSrc := rfl
    unfold getAzmDip at hg
    simp only [hp, Bool.false_eq_true, if_false, hi, if_true] at hg
    have hnp : 0 < intpts.toNat := by omega
    have hip : g.intpts = intpts.toNat := by rw [hg]
    refine ⟨by rw [hip, if_pos hi], by rw [hg]; rfl, by rw [hg]; rfl, ?_, fun k => by rw [hg]; rfl, ?_⟩
    · rw [hg]
      have := he.weight intpts.toNat hnp
      have e2 : ((List.range intpts.toNat).map fun i => e.weight intpts.toNat i / 2).sum =
          ((List.range intpts.toNat).map (e.weight intpts.toNat)).sum / 2 := by
        simp only [div_eq_mul_inv, List.sum_map_mul_right]
      rw [show (List.map (fun i => e.weight intpts.toNat i / 2) (List.range intpts.toNat)).sum = _ from e2,
        this]
      norm_num
    · intro i hi'
      rw [hip] at hi'
      obtain ⟨n1, n2⟩ := he.node intpts.toNat i hi'
      refine ⟨(1 + e.node intpts.toNat i) / 2, by linarith, by linarith, ?_, ?_⟩
      · have hz : g.tz i = e.rnd (p.z0 (depthIndex p iz) + dz / 2 + e.node intpts.toNat i *
            (segLen (dx 0) (dy 0) dz / 2) * Real.sin (segDip (dx 0) (dy 0) dz)) := by rw [hg]; rfl
        have h3 := (hdir 0).2.2
        simp only [direction, OfNat.ofNat_ne_one, Nat.reduceEqDiff, if_false] at h3
        have e1 : p.z0 (depthIndex p iz) + (1 + e.node intpts.toNat i) / 2 * dz =
            p.z0 (depthIndex p iz) + dz / 2 + e.node intpts.toNat i *
            (segLen (dx 0) (dy 0) dz / 2) * Real.sin (segDip (dx 0) (dy 0) dz) := by
          have h3' : segLen (dx 0) (dy 0) dz * Real.sin (segDip (dx 0) (dy 0) dz) = dz := h3
          linear_combination (-e.node intpts.toNat i / 2) * h3'
        rw [hz, e1]; exact he.rnd _
      · intro k
        have hd : (k * intpts.toNat + i) / intpts.toNat = k := by
          rw [mul_comm, Nat.mul_add_div hnp, Nat.div_eq_of_lt hi', add_zero]
        have hm : (k * intpts.toNat + i) % intpts.toNat = i := by
          rw [mul_comm, Nat.mul_add_mod, Nat.mod_eq_of_lt hi']
        obtain ⟨h1, h2, -⟩ := hdir k
        simp only [direction, if_true, OfNat.ofNat_ne_one, if_false] at h1 h2
        have h1' : segLen (dx k) (dy k) dz * (Real.cos (segAzm (dx k) (dy k)) *
          Real.cos (segDip (dx k) (dy k) dz)) = dx k := h1
        have h2' : segLen (dx k) (dy k) dz * (Real.sin (segAzm (dx k) (dy k)) *
          Real.cos (segDip (dx k) (dy k) dz)) = dy k := h2
        rw [hip]
        constructor
        · have hx : g.tx (k * intpts.toNat + i) = e.rnd (p.x0 (poleIndex p iz k) + dx k / 2 +
              e.node intpts.toNat i * (segLen (dx k) (dy k) dz / 2) *
              Real.cos (segDip (dx k) (dy k) dz) * Real.cos (segAzm (dx k) (dy k))) := by
            rw [hg]; simp only [hd, hm]; rfl
          have e1 : p.x0 (poleIndex p iz k) + (1 + e.node intpts.toNat i) / 2 * dx k =
              p.x0 (poleIndex p iz k) + dx k / 2 +
              e.node intpts.toNat i * (segLen (dx k) (dy k) dz / 2) *
              Real.cos (segDip (dx k) (dy k) dz) * Real.cos (segAzm (dx k) (dy k)) := by
            linear_combination (-e.node intpts.toNat i / 2) * h1'
          rw [hx, e1]; exact he.rnd _
        · have hx : g.ty (k * intpts.toNat + i) = e.rnd (p.y0 (poleIndex p iz k) + dy k / 2 +
              e.node intpts.toNat i * (segLen (dx k) (dy k) dz / 2) *
              Real.cos (segDip (dx k) (dy k) dz) * Real.sin (segAzm (dx k) (dy k))) := by
            rw [hg]; simp only [hd, hm]; rfl
          have e1 : p.y0 (poleIndex p iz k) + (1 + e.node intpts.toNat i) / 2 * dy k =
              p.y0 (poleIndex p iz k) + dy k / 2 +
              e.node intpts.toNat i * (segLen (dx k) (dy k) dz / 2) *
              Real.cos (segDip (dx k) (dy k) dz) * Real.sin (segAzm (dx k) (dy k)) := by
            linear_combination (-e.node intpts.toNat i / 2) * h2'
          rw [hx, e1]; exact he.rnd _
  · have hg : g = getAzmDip e p iz intpts strength isSrc := rfl
    unfold getAzmDip at hg
    simp only [hp, Bool.false_eq_true, if_false, hi] at hg
    have hip : g.intpts = 1 := by rw [hg]
    refine ⟨by rw [hip, if_neg hi], by rw [hg]; rfl, by rw [hg]; rfl, by rw [hip, hg]; simp,
      fun k => by rw [hg]; rfl, ?_⟩
    intro i hi'
    have : i = 0 := by omega
    subst this
    refine ⟨1 / 2, by norm_num, by norm_num, ?_, fun k => ⟨?_, ?_⟩⟩
    · have hz : g.tz 0 = e.rnd (p.z0 (depthIndex p iz) + dz / 2) := by rw [hg]; rfl
      rw [hz, show 1 / 2 * dz = dz / 2 by ring]; exact he.rnd _
    · have hx : g.tx (k * g.intpts + 0) = e.rnd (p.x0 (poleIndex p iz k) + dx k / 2) := by
        rw [hip, mul_one, add_zero, hg]; rfl
      rw [hx, show 1 / 2 * dx k = dx k / 2 by ring]; exact he.rnd _
    · have hx : g.ty (k * g.intpts + 0) = e.rnd (p.y0 (poleIndex p iz k) + dy k / 2) := by
        rw [hip, mul_one, add_zero, hg]; rfl
      rw [hx, show 1 / 2 * dy k = dy k / 2 by ring]; exact he.rnd _

/-- **C15**, finding: a negative strength is silently treated like strength zero, although the
documentation says that any value different from zero scales the response. -/
theorem C15_negative_strength (e : Ext) (p : Poles) (iz : ℕ) (intpts : ℤ) (isSrc : Bool) {s : ℝ}
    (hs : s ≤ 0) : getAzmDip e p iz intpts s isSrc = getAzmDip e p iz intpts 0 isSrc := by
  have h : ¬ s > 0 := not_lt.2 hs
  have h0 : ¬ (0 : ℝ) > 0 := lt_irrefl _
  unfold getAzmDip
  simp only [h, h0, and_false, if_false]

/-- Horizontal segment of length 5 in the direction (3, 4). -/
example : segLen 3 4 0 = 5 ∧ Real.cos (segAzm 3 4) * Real.cos (segDip 3 4 0) = 3 / 5 := by
  have h5 : segLen 3 4 0 = 5 := by
    rw [segLen, show (3 : ℝ) ^ 2 + 4 ^ 2 + 0 ^ 2 = 5 ^ 2 by norm_num, Real.sqrt_sq (by norm_num)]
  refine ⟨h5, ?_⟩
  have := (C15_direction (dx := 3) (dy := 4) (dz := 0) (by norm_num)).1
  rw [h5] at this
  simp only [direction, if_true] at this
  linarith

end Verif.Props
