import Verif.Lemmas.FullCurl
import Verif.Model.CheckAb
import Verif.Spec.Moves
import Verif.Spec.Dipole

/-!
# C36: the fullspace solution in the space-frequency domain

`resp sqrt meds i a b x y zs zr` is the value which `analytical(..., solution='fs')` returns for
component `a` of the field of a unit dipole `b` at frequency `i`: horizontal distance `(x, y)` from
source to receiver, source depth `zs`, receiver depth `zr`.
-/

namespace Verif.Props
open Verif.Spec Verif.Py Verif.Utils Verif.Fullspace Verif.Lemmas.Full

/-- `check_ab`, offset and angle, then `fullspace`, or zero for code 36 (model.py 1133, 1140,
1170-1178). -/
noncomputable def resp (sqrt : ℂ → ℂ) (meds : List Med) (i a b : ℕ) (x y zs zr : ℝ) : ℂ :=
  match checkAb (.int (10 * a + b)) with
  | .error _ => 0
  | .ok (c, msrc, mrec) =>
    if c ≠ 36 then
      (fullspace sqrt meds (Real.sqrt (x ^ 2 + y ^ 2)) (Complex.arg ⟨x, y⟩) zs zr c msrc mrec).getD i 0
    else 0

/-- `fullspaceAt` with Cartesian coordinates. -/
noncomputable def core (sqrt : ℂ → ℂ) (neg : Bool) (med : Med) (off x y zs zr : ℝ) (c : ℕ)
    (msrc mrec : Bool) : ℂ :=
  let swap := mrec && !msrc
  let m := if mrec && msrc then med.dual else med
  let xco := if swap then -x else x
  let yco := if swap then -y else y
  let zs' := if swap then zr else zs
  let zr' := if swap then zs else zr
  let gin :=
    if c ∈ [11, 12, 21, 22] then ginH sqrt neg m off xco yco zs' zr' c
    else if c ∈ [13, 23, 31, 32] then ginHV sqrt m off xco yco zs' zr' c
    else if c ∈ [33] then ginV sqrt m off zs' zr'
    else if c ∈ [14, 24, 15, 25] then ginEM sqrt m off xco yco zs' zr' c
    else ginZM sqrt m off xco yco zs' zr' c
  if mrec then gin * -1 else gin

theorem xy_polar (x y : ℝ) :
    Real.cos (Complex.arg ⟨x, y⟩) * Real.sqrt (x ^ 2 + y ^ 2) = x ∧
    Real.sin (Complex.arg ⟨x, y⟩) * Real.sqrt (x ^ 2 + y ^ 2) = y := by
  have hn : ‖(⟨x, y⟩ : ℂ)‖ = Real.sqrt (x ^ 2 + y ^ 2) := by
    rw [Complex.norm_def, Complex.normSq_mk]; congr 1; ring
  constructor
  · rw [← hn, mul_comm]; exact Complex.norm_mul_cos_arg _
  · rw [← hn, mul_comm]; exact Complex.norm_mul_sin_arg _

theorem fullspaceAt_core (sqrt : ℂ → ℂ) (neg : Bool) (med : Med) (x y zs zr : ℝ) (c : ℕ)
    (msrc mrec : Bool) :
    fullspaceAt sqrt neg med (Real.sqrt (x ^ 2 + y ^ 2)) (Complex.arg ⟨x, y⟩) zs zr c msrc mrec =
      core sqrt neg med (Real.sqrt (x ^ 2 + y ^ 2)) x y zs zr c msrc mrec := by
  obtain ⟨h1, h2⟩ := xy_polar x y
  simp only [fullspaceAt, core, h1, h2, mul_neg_one]

open Classical in
/-- `np.any(zetaH.imag < 0)` for electric (`false`) or magnetic (`true`) components. -/
noncomputable def negOf (meds : List Med) (mm : Bool) : Bool :=
  decide (∃ m ∈ meds, (if mm then m.dual else m).zetaH.im < 0)

theorem resp_ok {sqrt : ℂ → ℂ} {meds : List Med} {i : ℕ} (hi : i < meds.length) {a b c : ℕ}
    {msrc mrec : Bool} (h : checkAb (.int (10 * a + b)) = .ok (c, msrc, mrec)) (x y zs zr : ℝ) :
    resp sqrt meds i a b x y zs zr = if c ≠ 36 then
      core sqrt (negOf meds (mrec && msrc)) meds[i] (Real.sqrt (x ^ 2 + y ^ 2)) x y zs zr c msrc mrec
      else 0 := by
  simp only [resp, h]
  split_ifs with h36
  · rw [List.getD_eq_getElem?_getD]
    simp only [fullspace, List.getElem?_map, List.getElem?_eq_getElem hi, Option.map_some,
      Option.getD_some, fullspaceAt_core]
    rfl
  · rfl

/-- The 36 codes. -/
theorem ab_table : ∀ a ∈ Finset.Icc 1 6, ∀ b ∈ Finset.Icc 1 6,
    checkAb (.int (10 * ((a : ℕ) : ℤ) + ((b : ℕ) : ℤ))) = .ok
      (if 4 ≤ a then if 4 ≤ b then 10 * (a - 3) + (b - 3) else 10 * b + a else 10 * a + b,
       decide (4 ≤ b), decide (4 ≤ a)) := by
  intro a ha b hb
  have : ∀ a ∈ Finset.Icc 1 6, ∀ b ∈ Finset.Icc 1 6, checkAbInt (10 * ((a : ℕ) : ℤ) + ((b : ℕ) : ℤ)) = .ok
      (if 4 ≤ a then if 4 ≤ b then 10 * (a - 3) + (b - 3) else 10 * b + a else 10 * a + b,
       decide (4 ≤ b), decide (4 ≤ a)) := by decide
  exact this a ha b hb

/-- Value for a pair of components. -/
theorem resp_eq {sqrt : ℂ → ℂ} {meds : List Med} {i : ℕ} (hi : i < meds.length) {a b : ℕ}
    (ha : 1 ≤ a ∧ a ≤ 6) (hb : 1 ≤ b ∧ b ≤ 6) (x y zs zr : ℝ) :
    resp sqrt meds i a b x y zs zr =
      let c := if 4 ≤ a then if 4 ≤ b then 10 * (a - 3) + (b - 3) else 10 * b + a else 10 * a + b
      if c ≠ 36 then core sqrt (negOf meds (decide (4 ≤ a) && decide (4 ≤ b))) meds[i]
        (Real.sqrt (x ^ 2 + y ^ 2)) x y zs zr c (decide (4 ≤ b)) (decide (4 ≤ a)) else 0 :=
  resp_ok hi (ab_table a (Finset.mem_Icc.2 ha) b (Finset.mem_Icc.2 hb)) x y zs zr

/-! ## Symmetries, for all complex media -/

/-- **C36.**  Reciprocity, all 36 components: exchanging source and receiver exchanges the components,
with a sign for each magnetic quantity. -/
theorem C36_reciprocity (sqrt : ℂ → ℂ) (meds : List Med) {i : ℕ} (hi : i < meds.length) {a b : ℕ}
    (ha : 1 ≤ a ∧ a ≤ 6) (hb : 1 ≤ b ∧ b ≤ 6) (x y zs zr : ℝ) :
    resp sqrt meds i a b x y zs zr =
      recipSign a * recipSign b * resp sqrt meds i b a (-x) (-y) zr zs := by
  rw [resp_eq hi ha hb, resp_eq hi hb ha]
  obtain ⟨a1, a2⟩ := ha
  obtain ⟨b1, b2⟩ := hb
  have ho : Real.sqrt ((-x) ^ 2 + (-y) ^ 2) = Real.sqrt (x ^ 2 + y ^ 2) := by congr 1; ring
  have hd : ∀ e1 e2 off, Fullspace.dist sqrt off zr zs e1 e2 = Fullspace.dist sqrt off zs zr e1 e2 := by
    intro e1 e2 off; unfold Fullspace.dist; congr 1; ring
  rw [ho]
  interval_cases a <;> interval_cases b <;>
    simp [core, ginH, ginHV, ginV, ginEM, ginZM, hd, recipSign] <;> try ring

/-- **C36.**  Only the difference of the depths matters (the horizontal coordinates enter as
difference anyway). -/
theorem C36_shift (sqrt : ℂ → ℂ) (meds : List Med) {i : ℕ} (hi : i < meds.length) {a b : ℕ}
    (ha : 1 ≤ a ∧ a ≤ 6) (hb : 1 ≤ b ∧ b ≤ 6) (x y zs zr c : ℝ) :
    resp sqrt meds i a b x y (zs + c) (zr + c) = resp sqrt meds i a b x y zs zr := by
  rw [resp_eq hi ha hb, resp_eq hi ha hb]
  obtain ⟨a1, a2⟩ := ha
  obtain ⟨b1, b2⟩ := hb
  have hd : ∀ e1 e2 off, Fullspace.dist sqrt off (zs + c) (zr + c) e1 e2 =
      Fullspace.dist sqrt off zs zr e1 e2 := by
    intro e1 e2 off; unfold Fullspace.dist; congr 1; push_cast; ring
  have hd' : ∀ e1 e2 off, Fullspace.dist sqrt off (zr + c) (zs + c) e1 e2 =
      Fullspace.dist sqrt off zr zs e1 e2 := by
    intro e1 e2 off; unfold Fullspace.dist; congr 1; push_cast; ring
  interval_cases a <;> interval_cases b <;>
    simp [core, ginH, ginHV, ginV, ginEM, ginZM, hd, hd']

/-- **C36.**  Reflection at a horizontal plane: the vertical electric and the horizontal magnetic
components change their sign. -/
theorem C36_mirror (sqrt : ℂ → ℂ) (meds : List Med) {i : ℕ} (hi : i < meds.length) {a b : ℕ}
    (ha : 1 ≤ a ∧ a ≤ 6) (hb : 1 ≤ b ∧ b ≤ 6) (x y zs zr : ℝ) :
    resp sqrt meds i a b x y (-zs) (-zr) =
      mirrorSign a * mirrorSign b * resp sqrt meds i a b x y zs zr := by
  rw [resp_eq hi ha hb, resp_eq hi ha hb]
  obtain ⟨a1, a2⟩ := ha
  obtain ⟨b1, b2⟩ := hb
  have hd : ∀ e1 e2 off, Fullspace.dist sqrt off (-zs) (-zr) e1 e2 =
      Fullspace.dist sqrt off zs zr e1 e2 := by
    intro e1 e2 off; unfold Fullspace.dist; congr 1; push_cast; ring
  have hd' : ∀ e1 e2 off, Fullspace.dist sqrt off (-zr) (-zs) e1 e2 =
      Fullspace.dist sqrt off zr zs e1 e2 := by
    intro e1 e2 off; unfold Fullspace.dist; congr 1; push_cast; ring
  interval_cases a <;> interval_cases b <;>
    simp [core, ginH, ginHV, ginV, ginEM, ginZM, hd, hd', mirrorSign] <;> try ring

/-- Rotation about the vertical axis by `φ`, acting on the electric (1,2,3) and magnetic (4,5,6)
components alike. -/
noncomputable def rotMat (φ : ℝ) (a a' : ℕ) : ℂ :=
  if (a = 1 ∧ a' = 1) ∨ (a = 2 ∧ a' = 2) ∨ (a = 4 ∧ a' = 4) ∨ (a = 5 ∧ a' = 5) then Real.cos φ
  else if (a = 1 ∧ a' = 2) ∨ (a = 4 ∧ a' = 5) then -Real.sin φ
  else if (a = 2 ∧ a' = 1) ∨ (a = 5 ∧ a' = 4) then Real.sin φ
  else if (a = 3 ∧ a' = 3) ∨ (a = 6 ∧ a' = 6) then 1
  else 0

/-- How the components depend on the horizontal coordinates at given offset. -/
theorem forms (sqrt : ℂ → ℂ) (neg : Bool) (m : Med) (off zs zr : ℝ) :
    (∃ A B : ℂ, ∀ x y : ℝ,
      ginH sqrt neg m off x y zs zr 11 = A * (x * x) + B ∧ ginH sqrt neg m off x y zs zr 12 = A * (x * y) ∧
      ginH sqrt neg m off x y zs zr 21 = A * (x * y) ∧
      ginH sqrt neg m off x y zs zr 22 = A * (y * y) + B) ∧
    (∃ C : ℂ, ∀ x y : ℝ,
      ginHV sqrt m off x y zs zr 13 = C * x ∧ ginHV sqrt m off x y zs zr 23 = C * y ∧
      ginHV sqrt m off x y zs zr 31 = C * x ∧ ginHV sqrt m off x y zs zr 32 = C * y) ∧
    (∃ A B C : ℂ, ∀ x y : ℝ,
      ginEM sqrt m off x y zs zr 14 = (B - A) * (x * y) ∧
      ginEM sqrt m off x y zs zr 15 = A * (x * x) + B * (y * y) + C ∧
      ginEM sqrt m off x y zs zr 24 = -(A * (y * y) + B * (x * x) + C) ∧
      ginEM sqrt m off x y zs zr 25 = (A - B) * (x * y)) ∧
    (∃ C D : ℂ, ∀ x y : ℝ,
      ginZM sqrt m off x y zs zr 34 = C * y ∧ ginZM sqrt m off x y zs zr 35 = -(C * x) ∧
      ginZM sqrt m off x y zs zr 16 = D * y ∧ ginZM sqrt m off x y zs zr 26 = -(D * x)) := by
  refine ⟨⟨ginH sqrt neg m off 1 1 zs zr 12, ginH sqrt neg m off 0 0 zs zr 11, fun x y => ⟨?_, ?_, ?_, ?_⟩⟩,
    ⟨ginHV sqrt m off 1 0 zs zr 13, fun x y => ⟨?_, ?_, ?_, ?_⟩⟩,
    ⟨ginEM sqrt m off 1 0 zs zr 15 - ginEM sqrt m off 0 0 zs zr 15,
     ginEM sqrt m off 0 1 zs zr 15 - ginEM sqrt m off 0 0 zs zr 15,
     ginEM sqrt m off 0 0 zs zr 15, fun x y => ⟨?_, ?_, ?_, ?_⟩⟩,
    ⟨ginZM sqrt m off 0 1 zs zr 34, ginZM sqrt m off 0 1 zs zr 16, fun x y => ⟨?_, ?_, ?_, ?_⟩⟩⟩
  all_goals
    cases neg <;> simp [ginH, ginHV, ginEM, ginZM, emTerm] <;> try ring

/-- **C36.**  Rotating source, receiver and both polarisations about the vertical axis leaves the
response unchanged, i.e. the matrix of the responses transforms as a tensor. -/
theorem C36_rotation (sqrt : ℂ → ℂ) (meds : List Med) {i : ℕ} (hi : i < meds.length) {a b : ℕ}
    (ha : 1 ≤ a ∧ a ≤ 6) (hb : 1 ≤ b ∧ b ≤ 6) (x y zs zr φ : ℝ) :
    resp sqrt meds i a b (Real.cos φ * x - Real.sin φ * y) (Real.sin φ * x + Real.cos φ * y) zs zr =
      ∑ a' ∈ Finset.Icc 1 6, ∑ b' ∈ Finset.Icc 1 6,
        rotMat φ a a' * rotMat φ b b' * resp sqrt meds i a' b' x y zs zr := by
  have ex : ∀ f : ℕ → ℂ, ∑ j ∈ Finset.Icc 1 6, f j = f 1 + f 2 + f 3 + f 4 + f 5 + f 6 := by
    intro f
    rw [show Finset.Icc 1 6 = ({1, 2, 3, 4, 5, 6} : Finset ℕ) by decide]
    simp; ring
  simp only [ex]
  have hcs : (Real.cos φ : ℂ) ^ 2 + (Real.sin φ : ℂ) ^ 2 = 1 := by
    have := Real.sin_sq_add_cos_sq φ
    rw [add_comm]; exact_mod_cast this
  have ho : Real.sqrt ((Real.cos φ * x - Real.sin φ * y) ^ 2 + (Real.sin φ * x + Real.cos φ * y) ^ 2) =
      Real.sqrt (x ^ 2 + y ^ 2) := by
    congr 1
    have := Real.sin_sq_add_cos_sq φ
    linear_combination (x ^ 2 + y ^ 2) * this
  set off := Real.sqrt (x ^ 2 + y ^ 2) with hoff
  obtain ⟨⟨A, B, f1⟩, ⟨C, f2⟩, ⟨D, E, F, f3⟩, ⟨G, H, f4⟩⟩ := forms sqrt (negOf meds false) meds[i] off zs zr
  obtain ⟨-, -, ⟨D', E', F', f3'⟩, ⟨G', H', f4'⟩⟩ := forms sqrt (negOf meds false) meds[i] off zr zs
  obtain ⟨⟨A', B', f1'⟩, ⟨C', f2'⟩, -, -⟩ := forms sqrt (negOf meds true) meds[i].dual off zs zr
  set V := ginV sqrt meds[i] off zs zr with hV
  set V' := ginV sqrt meds[i].dual off zs zr with hV'
  -- the value of each component, as a function of the horizontal coordinates
  have T : ∀ x' y' : ℝ, Real.sqrt (x' ^ 2 + y' ^ 2) = off →
      (resp sqrt meds i 1 1 x' y' zs zr = A * (x' * x') + B ∧ resp sqrt meds i 1 2 x' y' zs zr = A * (x' * y') ∧
       resp sqrt meds i 2 1 x' y' zs zr = A * (x' * y') ∧ resp sqrt meds i 2 2 x' y' zs zr = A * (y' * y') + B) ∧
      (resp sqrt meds i 1 3 x' y' zs zr = C * x' ∧ resp sqrt meds i 2 3 x' y' zs zr = C * y' ∧
       resp sqrt meds i 3 1 x' y' zs zr = C * x' ∧ resp sqrt meds i 3 2 x' y' zs zr = C * y' ∧
       resp sqrt meds i 3 3 x' y' zs zr = V) ∧
      (resp sqrt meds i 1 4 x' y' zs zr = (E - D) * (x' * y') ∧
       resp sqrt meds i 1 5 x' y' zs zr = D * (x' * x') + E * (y' * y') + F ∧
       resp sqrt meds i 2 4 x' y' zs zr = -(D * (y' * y') + E * (x' * x') + F) ∧
       resp sqrt meds i 2 5 x' y' zs zr = (D - E) * (x' * y')) ∧
      (resp sqrt meds i 3 4 x' y' zs zr = G * y' ∧ resp sqrt meds i 3 5 x' y' zs zr = -(G * x') ∧
       resp sqrt meds i 1 6 x' y' zs zr = H * y' ∧ resp sqrt meds i 2 6 x' y' zs zr = -(H * x') ∧
       resp sqrt meds i 3 6 x' y' zs zr = 0) ∧
      (resp sqrt meds i 4 1 x' y' zs zr = -((E' - D') * (x' * y')) ∧
       resp sqrt meds i 5 1 x' y' zs zr = -(D' * (x' * x') + E' * (y' * y') + F') ∧
       resp sqrt meds i 4 2 x' y' zs zr = D' * (y' * y') + E' * (x' * x') + F' ∧
       resp sqrt meds i 5 2 x' y' zs zr = -((D' - E') * (x' * y'))) ∧
      (resp sqrt meds i 4 3 x' y' zs zr = G' * y' ∧ resp sqrt meds i 5 3 x' y' zs zr = -(G' * x') ∧
       resp sqrt meds i 6 1 x' y' zs zr = H' * y' ∧ resp sqrt meds i 6 2 x' y' zs zr = -(H' * x') ∧
       resp sqrt meds i 6 3 x' y' zs zr = 0) ∧
      (resp sqrt meds i 4 4 x' y' zs zr = -(A' * (x' * x') + B') ∧
       resp sqrt meds i 4 5 x' y' zs zr = -(A' * (x' * y')) ∧
       resp sqrt meds i 5 4 x' y' zs zr = -(A' * (x' * y')) ∧
       resp sqrt meds i 5 5 x' y' zs zr = -(A' * (y' * y') + B')) ∧
      (resp sqrt meds i 4 6 x' y' zs zr = -(C' * x') ∧ resp sqrt meds i 5 6 x' y' zs zr = -(C' * y') ∧
       resp sqrt meds i 6 4 x' y' zs zr = -(C' * x') ∧ resp sqrt meds i 6 5 x' y' zs zr = -(C' * y') ∧
       resp sqrt meds i 6 6 x' y' zs zr = -V') := by
    intro x' y' h
    obtain ⟨g11, g12, g21, g22⟩ := f1 x' y'
    obtain ⟨g13, g23, g31, g32⟩ := f2 x' y'
    obtain ⟨g14, g15, g24, g25⟩ := f3 x' y'
    obtain ⟨g34, g35, g16, g26⟩ := f4 x' y'
    obtain ⟨h14, h15, h24, h25⟩ := f3' (-x') (-y')
    obtain ⟨h34, h35, h16, h26⟩ := f4' (-x') (-y')
    obtain ⟨h11, h12, h21, h22⟩ := f1' x' y'
    obtain ⟨h13, h23, h31, h32⟩ := f2' x' y'
    have R : ∀ a b, 1 ≤ a ∧ a ≤ 6 → 1 ≤ b ∧ b ≤ 6 → resp sqrt meds i a b x' y' zs zr = _ :=
      fun a b ha hb => resp_eq hi ha hb x' y' zs zr
    refine ⟨⟨?_, ?_, ?_, ?_⟩, ⟨?_, ?_, ?_, ?_, ?_⟩, ⟨?_, ?_, ?_, ?_⟩, ⟨?_, ?_, ?_, ?_, ?_⟩, ⟨?_, ?_, ?_, ?_⟩,
      ⟨?_, ?_, ?_, ?_, ?_⟩, ⟨?_, ?_, ?_, ?_⟩, ⟨?_, ?_, ?_, ?_, ?_⟩⟩
    all_goals
      rw [R _ _ (by norm_num) (by norm_num)]
      simp [h, core, g11, g12, g21, g22, g13, g23, g31, g32, g14, g15, g24, g25, g34, g35, g16, g26, h11,
        h12, h21, h22, h13, h23, h31, h32, h14, h15, h24, h25, h34, h35, h16, h26, ← hV, ← hV']
      try ring
  obtain ⟨⟨p11, p12, p21, p22⟩, ⟨p13, p23, p31, p32, p33⟩, ⟨p14, p15, p24, p25⟩, ⟨p34, p35, p16, p26, p36⟩,
    ⟨p41, p51, p42, p52⟩, ⟨p43, p53, p61, p62, p63⟩, ⟨p44, p45, p54, p55⟩, ⟨p46, p56, p64, p65, p66⟩⟩ :=
    T x y rfl
  obtain ⟨⟨q11, q12, q21, q22⟩, ⟨q13, q23, q31, q32, q33⟩, ⟨q14, q15, q24, q25⟩, ⟨q34, q35, q16, q26, q36⟩,
    ⟨q41, q51, q42, q52⟩, ⟨q43, q53, q61, q62, q63⟩, ⟨q44, q45, q54, q55⟩, ⟨q46, q56, q64, q65, q66⟩⟩ :=
    T (Real.cos φ * x - Real.sin φ * y) (Real.sin φ * x + Real.cos φ * y) ho
  rw [p11, p12, p21, p22, p13, p23, p31, p32, p33, p14, p15, p24, p25, p34, p35, p16, p26, p36, p41, p51,
    p42, p52, p43, p53, p61, p62, p63, p44, p45, p54, p55, p46, p56, p64, p65, p66]
  obtain ⟨a1, a2⟩ := ha
  obtain ⟨b1, b2⟩ := hb
  have pc : ((Real.cos φ * x - Real.sin φ * y : ℝ) : ℂ) = Real.cos φ * x - Real.sin φ * y := by push_cast; rfl
  have ps : ((Real.sin φ * x + Real.cos φ * y : ℝ) : ℂ) = Real.sin φ * x + Real.cos φ * y := by push_cast; rfl
  clear T f1 f2 f3 f4 f1' f2' f3' f4'
  interval_cases a <;> interval_cases b
  all_goals
    first
    | rw [q11] | rw [q12] | rw [q13] | rw [q14] | rw [q15] | rw [q16]
    | rw [q21] | rw [q22] | rw [q23] | rw [q24] | rw [q25] | rw [q26]
    | rw [q31] | rw [q32] | rw [q33] | rw [q34] | rw [q35] | rw [q36]
    | rw [q41] | rw [q42] | rw [q43] | rw [q44] | rw [q45] | rw [q46]
    | rw [q51] | rw [q52] | rw [q53] | rw [q54] | rw [q55] | rw [q56]
    | rw [q61] | rw [q62] | rw [q63] | rw [q64] | rw [q65] | rw [q66]
  all_goals
    clear q11 q12 q13 q14 q15 q16 q21 q22 q23 q24 q25 q26 q31 q32 q33 q34 q35 q36 q41 q42 q43 q44 q45 q46
    clear q51 q52 q53 q54 q55 q56 q61 q62 q63 q64 q65 q66
    clear p11 p12 p13 p14 p15 p16 p21 p22 p23 p24 p25 p26 p31 p32 p33 p34 p35 p36 p41 p42 p43 p44 p45 p46
    clear p51 p52 p53 p54 p55 p56 p61 p62 p63 p64 p65 p66
    try rw [pc]
    try rw [ps]
    simp only [rotMat]
    clear pc ps ho
    generalize (Real.cos φ : ℂ) = cc at *
    generalize (Real.sin φ : ℂ) = ss at *
    simp <;> first
    | ring1
    | linear_combination (-B) * hcs
    | linear_combination (B') * hcs
    | linear_combination (-F) * hcs
    | linear_combination (F) * hcs
    | linear_combination (-F') * hcs
    | linear_combination (F') * hcs

/-! ## Maxwell's equations -/

/-- The parameters of a medium for a positive frequency or Laplace parameter: conducting, real and
imaginary parts not negative. -/
structure Physical (m : Med) : Prop where
  etaH : 0 < m.etaH.re ∧ 0 ≤ m.etaH.im
  etaV : 0 < m.etaV.re ∧ 0 ≤ m.etaV.im
  zetaH : 0 ≤ m.zetaH.re ∧ 0 ≤ m.zetaH.im ∧ m.zetaH ≠ 0
  zetaV : 0 ≤ m.zetaV.re ∧ 0 ≤ m.zetaV.im ∧ m.zetaV ≠ 0

theorem sqrt_unique {sqrt : ℂ → ℂ} (hq : IsSqrt sqrt) {w : ℂ} (hw : 0 < w.re) : sqrt (w ^ 2) = w := by
  have hs : w ^ 2 ∈ Complex.slitPlane := by
    rw [Complex.mem_slitPlane_iff]
    by_cases h : w.im = 0
    · left; rw [pow_two, Complex.mul_re, h]; nlinarith
    · right; rw [pow_two, Complex.mul_im]
      intro h'
      have : w.re * w.im = 0 := by linarith
      rcases mul_eq_zero.1 this with h1 | h1
      · exact hw.ne' h1
      · exact h h1
  rw [hq.main _ hs]
  have h1 : Kernel.csqrt (w ^ 2) ^ 2 = w ^ 2 := Lemmas.csqrt_sq' _
  rcases sq_eq_sq_iff_eq_or_eq_neg.1 h1 with h | h
  · exact h
  · exfalso
    have h2 : 0 ≤ (Kernel.csqrt (w ^ 2)).re := by
      unfold Kernel.csqrt
      rw [one_div, Complex.cpow_inv_two_re]
      positivity
    rw [h, Complex.neg_re] at h2
    linarith

/-- The root of a number in the first quadrant. -/
theorem octant {z : ℂ} (h1 : 0 ≤ z.re) (h2 : 0 ≤ z.im) (h0 : z ≠ 0) :
    0 < (Kernel.csqrt z).re ∧ 0 ≤ (Kernel.csqrt z).im ∧ (Kernel.csqrt z).im ≤ (Kernel.csqrt z).re ∧
    (0 < z.re → (Kernel.csqrt z).im < (Kernel.csqrt z).re) ∧ (0 < z.im → 0 < (Kernel.csqrt z).im) := by
  have hs := Lemmas.csqrt_sq' z
  have hre : 0 ≤ (Kernel.csqrt z).re := by
    unfold Kernel.csqrt; rw [one_div, Complex.cpow_inv_two_re]; positivity
  have e1 : (Kernel.csqrt z).re ^ 2 - (Kernel.csqrt z).im ^ 2 = z.re := by
    conv_rhs => rw [← hs]
    rw [pow_two (Kernel.csqrt z), Complex.mul_re]; ring
  have e2 : 2 * (Kernel.csqrt z).re * (Kernel.csqrt z).im = z.im := by
    conv_rhs => rw [← hs]
    rw [pow_two (Kernel.csqrt z), Complex.mul_im]; ring
  have hpos : 0 < (Kernel.csqrt z).re := by
    rcases hre.lt_or_eq with h | h
    · exact h
    · exfalso
      rw [← h] at e1 e2
      have : z.im = 0 := by linarith
      have : z.re = 0 := by nlinarith [sq_nonneg (Kernel.csqrt z).im]
      exact h0 (Complex.ext (by simpa using this) (by simpa using ‹z.im = 0›))
  have him : 0 ≤ (Kernel.csqrt z).im := by
    by_contra h
    have : 2 * (Kernel.csqrt z).re * (Kernel.csqrt z).im < 0 :=
      mul_neg_of_pos_of_neg (by linarith) (by linarith)
    linarith
  refine ⟨hpos, him, ?_, fun h => ?_, fun h => ?_⟩
  · nlinarith
  · nlinarith
  · by_contra h'
    have : (Kernel.csqrt z).im = 0 := by linarith
    rw [this] at e2; linarith

/-- The roots of a medium. -/
noncomputable def rootsOf (m : Med) : Roots :=
  ⟨Kernel.csqrt m.etaH, Kernel.csqrt m.etaV, Kernel.csqrt m.zetaH, Kernel.csqrt m.zetaV⟩

theorem fits {sqrt : ℂ → ℂ} (hq : IsSqrt sqrt) {m : Med} (hm : Physical m) : Fits sqrt m (rootsOf m) := by
  have e0 : m.etaH ≠ 0 := fun h => by have := hm.etaH.1; rw [h] at this; simp at this
  have e0' : m.etaV ≠ 0 := fun h => by have := hm.etaV.1; rw [h] at this; simp at this
  obtain ⟨a1, a2, a3, a4, -⟩ := octant hm.etaH.1.le hm.etaH.2 e0
  obtain ⟨b1, b2, b3, b4, -⟩ := octant hm.etaV.1.le hm.etaV.2 e0'
  obtain ⟨c1, c2, c3, -, -⟩ := octant hm.zetaH.1 hm.zetaH.2.1 hm.zetaH.2.2
  obtain ⟨d1, d2, d3, -, -⟩ := octant hm.zetaV.1 hm.zetaV.2.1 hm.zetaV.2.2
  have a4 := a4 hm.etaH.1
  have b4 := b4 hm.etaV.1
  have sa := Lemmas.csqrt_sq' m.etaH
  have sb := Lemmas.csqrt_sq' m.etaV
  have sc := Lemmas.csqrt_sq' m.zetaH
  have sd := Lemmas.csqrt_sq' m.zetaV
  have ne : ∀ w : ℂ, 0 < w.re → w ≠ 0 := fun w h h' => by rw [h'] at h; simp at h
  have mulre : ∀ v w : ℂ, 0 < v.re → 0 ≤ v.im → v.im ≤ v.re → 0 < w.re → 0 ≤ w.im → w.im < w.re →
      0 < (v * w).re := by
    intro v w h1 h2 h3 h4 h5 h6
    rw [Complex.mul_re]
    nlinarith [mul_le_mul_of_nonneg_right h3 h5, mul_lt_mul_of_pos_left h6 h1]
  have divre : ∀ v w : ℂ, 0 < v.re → 0 ≤ v.im → 0 < w.re → 0 ≤ w.im → 0 < (v / w).re := by
    intro v w h1 h2 h3 h4
    rw [Complex.div_re]
    have : 0 < Complex.normSq w := Complex.normSq_pos.2 (ne w h3)
    have : 0 < v.re * w.re / Complex.normSq w := by positivity
    have : 0 ≤ v.im * w.im / Complex.normSq w := by positivity
    linarith
  constructor
  · exact sa.symm
  · exact sb.symm
  · exact sc.symm
  · exact sd.symm
  · exact ne _ a1
  · exact ne _ b1
  · exact ne _ c1
  · exact ne _ d1
  · conv_lhs => rw [← sa]
    exact sqrt_unique hq a1
  · conv_lhs => rw [← sc]
    exact sqrt_unique hq c1
  · conv_lhs => rw [← sc, ← sb, ← mul_pow]
    exact sqrt_unique hq (mulre _ _ c1 c2 c3 b1 b2 b4)
  · conv_lhs => rw [← sd, ← sa, ← mul_pow]
    exact sqrt_unique hq (mulre _ _ d1 d2 d3 a1 a2 a4)
  · conv_lhs => rw [← sa, ← sb, ← div_pow]
    exact sqrt_unique hq (divre _ _ a1 a2 b1 b2)
  · conv_lhs => rw [← sc, ← sd, ← div_pow]
    exact sqrt_unique hq (divre _ _ c1 c2 d1 d2)
  · conv_lhs => rw [← sa, ← sc, ← mul_pow, mul_comm]
    rw [sqrt_unique hq (mulre _ _ c1 c2 c3 a1 a2 a4)]
    exact mul_comm _ _

theorem fitsM {sqrt : ℂ → ℂ} (hq : IsSqrt sqrt) {m : Med} (hm : Physical m) (h1 : 0 < m.etaH.im)
    (h2 : 0 < m.zetaH.im) : FitsM sqrt m (rootsOf m) := by
  have e0 : m.etaH ≠ 0 := fun h => by have := hm.etaH.1; rw [h] at this; simp at this
  obtain ⟨-, -, -, -, a5⟩ := octant hm.etaH.1.le hm.etaH.2 e0
  obtain ⟨-, -, -, -, c5⟩ := octant hm.zetaH.1 hm.zetaH.2.1 hm.zetaH.2.2
  have sa := Lemmas.csqrt_sq' m.etaH
  have sc := Lemmas.csqrt_sq' m.zetaH
  have neg : ∀ z w : ℂ, w ^ 2 = z → 0 < w.im → sqrt (-z) = -Complex.I * w := by
    intro z w h hw
    have : -z = (-Complex.I * w) ^ 2 := by rw [mul_pow, h]; simp
    rw [this]
    exact sqrt_unique hq (by simpa using hw)
  exact ⟨fits hq hm, neg _ _ sa (a5 h1), neg _ _ sc (c5 h2)⟩

theorem ratio_re {v w : ℂ} (h1 : 0 ≤ v.re) (h2 : 0 ≤ v.im) (h3 : 0 ≤ w.re) (h4 : 0 ≤ w.im) :
    0 ≤ (v / w).re := by
  rw [Complex.div_re]
  have := Complex.normSq_nonneg w
  positivity

theorem radii {sqrt : ℂ → ℂ} (hq : IsSqrt sqrt) {m : Med} (hm : Physical m) {x y : ℝ}
    (h : 0 < x ^ 2 + y ^ 2) (z : ℝ) :
    Radius (rootsOf m).kTM (Rf sqrt (rootsOf m).kTM) x y z ∧
    Radius (rootsOf m).kTE (Rf sqrt (rootsOf m).kTE) x y z := by
  constructor
  · refine radius hq.main ?_ h
    rw [Roots.kTM, div_pow, ← (fits hq hm).eH, ← (fits hq hm).eV]
    exact ratio_re hm.etaH.1.le hm.etaH.2 hm.etaV.1.le hm.etaV.2
  · refine radius hq.main ?_ h
    rw [Roots.kTE, div_pow, ← (fits hq hm).zH, ← (fits hq hm).zV]
    exact ratio_re hm.zetaH.1 hm.zetaH.2.1 hm.zetaV.1 hm.zetaV.2.1

/-- What the magnetic response to a magnetic source needs in addition: displacement currents and a
frequency (not a Laplace parameter). -/
def Oscillating (m : Med) : Prop := 0 < m.etaH.im ∧ 0 < m.zetaH.im

/-- The response in closed form. -/
theorem resp_entry {sqrt : ℂ → ℂ} (hq : IsSqrt sqrt) {meds : List Med} (hp : ∀ m ∈ meds, Physical m)
    {i : ℕ} (hi : i < meds.length) {a b : ℕ} (ha : 1 ≤ a ∧ a ≤ 6) (hb : 1 ≤ b ∧ b ≤ 6)
    (hM : 4 ≤ a → 4 ≤ b → Oscillating meds[i]) {x y : ℝ} (h : 0 < x ^ 2 + y ^ 2) (zs zr : ℝ) :
    resp sqrt meds i a b x y zs zr = entry sqrt (rootsOf meds[i]) a b x y (zr - zs) := by
  have hm := hp _ (List.getElem_mem hi)
  have f := fits hq hm
  obtain ⟨r1, r2⟩ := radii hq hm h (zr - zs)
  have ho : Real.sqrt (x ^ 2 + y ^ 2) ≠ 0 := (Real.sqrt_pos.2 h).ne'
  have hxy : x ^ 2 + y ^ 2 = Real.sqrt (x ^ 2 + y ^ 2) ^ 2 := (Real.sq_sqrt h.le).symm
  have hF : negOf meds false = false := by
    simp only [negOf, decide_eq_false_iff_not, not_exists, not_and, not_lt, Bool.false_eq_true, if_false]
    exact fun m hm => (hp m hm).zetaH.2.1
  obtain ⟨e1, e2, e3, e4, e5, e6, e7, e8, e9⟩ := closed_ee f ho hxy zs zr r1.ne r2.ne
  obtain ⟨m1, m2, m3, m4, m5, m6, m7, m8⟩ := closed_em f ho hxy zs zr r1.ne r2.ne
  obtain ⟨n1, n2, n3, n4, n5, n6, n7, n8⟩ := closed_me f ho hxy zs zr r1.ne r2.ne
  have mm : 4 ≤ a → 4 ≤ b → negOf meds true = true ∧ FitsM sqrt meds[i] (rootsOf meds[i]) := by
    intro h4 h5
    obtain ⟨o1, o2⟩ := hM h4 h5
    refine ⟨?_, fitsM hq hm o1 o2⟩
    simp only [negOf, decide_eq_true_eq, if_true]
    exact ⟨_, List.getElem_mem hi, by simpa [Med.dual] using o1⟩
  rw [resp_eq hi ha hb]
  obtain ⟨a1, a2⟩ := ha
  obtain ⟨b1, b2⟩ := hb
  by_cases h4 : 4 ≤ a ∧ 4 ≤ b
  · obtain ⟨hT, fM⟩ := mm h4.1 h4.2
    obtain ⟨q1, q2, q3, q4, q5, q6, q7, q8, q9⟩ := closed_mm fM ho hxy zs zr r1.ne r2.ne
    obtain ⟨a4, b4⟩ := h4
    clear e1 e2 e3 e4 e5 e6 e7 e8 e9 m1 m2 m3 m4 m5 m6 m7 m8 n1 n2 n3 n4 n5 n6 n7 n8
    interval_cases a <;> interval_cases b <;>
      simp only [core] <;> norm_num [hT] <;>
      simp only [mul_neg_one] at q1 q2 q3 q4 q5 q6 q7 q8 q9 <;> assumption
  · have hlt : a < 4 ∨ b < 4 := by omega
    clear mm hM
    simp only [mul_neg_one] at n1 n2 n3 n4 n5 n6 n7 n8
    interval_cases a <;> interval_cases b <;> (try omega) <;>
      simp only [core] <;> norm_num [hF] <;> first | assumption | rfl | (simp [entry, colE, colH, Vec.smul, vH, vE])

/-- The electric and the magnetic field of a source with direction `b` at depth `zs`. -/
noncomputable def fieldE (sqrt : ℂ → ℂ) (meds : List Med) (i b : ℕ) (zs : ℝ) : Vec :=
  ⟨fun x y z => resp sqrt meds i 1 b x y zs z, fun x y z => resp sqrt meds i 2 b x y zs z,
   fun x y z => resp sqrt meds i 3 b x y zs z⟩
@[inherit_doc fieldE]
noncomputable def fieldH (sqrt : ℂ → ℂ) (meds : List Med) (i b : ℕ) (zs : ℝ) : Vec :=
  ⟨fun x y z => resp sqrt meds i 4 b x y zs z, fun x y z => resp sqrt meds i 5 b x y zs z,
   fun x y z => resp sqrt meds i 6 b x y zs z⟩

/-- **C36.**  The 36 components of the fullspace solution are, for each of the six sources, an
electric and a magnetic field which satisfy Maxwell's equations at every point off the vertical line
through the source: for every anisotropic conducting medium, every frequency or Laplace parameter.
Magnetic sources need displacement currents and a frequency (see `C36_mm_violated`). -/
theorem C36_maxwell {sqrt : ℂ → ℂ} (hq : IsSqrt sqrt) {meds : List Med} (hp : ∀ m ∈ meds, Physical m)
    {i : ℕ} (hi : i < meds.length) {b : ℕ} (hb : 1 ≤ b ∧ b ≤ 6) (hM : 4 ≤ b → Oscillating meds[i])
    {x y : ℝ} (h : 0 < x ^ 2 + y ^ 2) (zs z : ℝ) :
    MaxwellAt meds[i].etaH meds[i].etaV meds[i].zetaH meds[i].zetaV
      (fieldE sqrt meds i b zs) (fieldH sqrt meds i b zs) x y z := by
  have hm := hp _ (List.getElem_mem hi)
  have f := fits hq hm
  obtain ⟨r1, r2⟩ := radii hq hm h (z - zs)
  obtain ⟨c1, c2⟩ := col_maxwell f.a0 f.b0 f.c0 f.d0 r1 r2 hb
  have en : ∀ a, 1 ≤ a ∧ a ≤ 6 → ∀ u v w : ℝ, 0 < u ^ 2 + v ^ 2 →
      resp sqrt meds i a b u v zs w = entry sqrt (rootsOf meds[i]) a b u v (w - zs) :=
    fun a ha u v w huv => resp_entry hq hp hi ha hb (fun _ => hM) huv zs w
  have eE : ∀ u v w : ℝ, 0 < u ^ 2 + v ^ 2 →
      (fieldE sqrt meds i b zs).x u v w = ((colE sqrt (rootsOf meds[i]) b).lower zs).x u v w ∧
      (fieldE sqrt meds i b zs).y u v w = ((colE sqrt (rootsOf meds[i]) b).lower zs).y u v w ∧
      (fieldE sqrt meds i b zs).z u v w = ((colE sqrt (rootsOf meds[i]) b).lower zs).z u v w :=
    fun u v w huv => ⟨en 1 (by norm_num) u v w huv, en 2 (by norm_num) u v w huv, en 3 (by norm_num) u v w huv⟩
  have eH : ∀ u v w : ℝ, 0 < u ^ 2 + v ^ 2 →
      (fieldH sqrt meds i b zs).x u v w = ((colH sqrt (rootsOf meds[i]) b).lower zs).x u v w ∧
      (fieldH sqrt meds i b zs).y u v w = ((colH sqrt (rootsOf meds[i]) b).lower zs).y u v w ∧
      (fieldH sqrt meds i b zs).z u v w = ((colH sqrt (rootsOf meds[i]) b).lower zs).z u v w :=
    fun u v w huv => ⟨en 4 (by norm_num) u v w huv, en 5 (by norm_num) u v w huv, en 6 (by norm_num) u v w huv⟩
  obtain ⟨x1, x2, x3⟩ := eE x y z h
  obtain ⟨y1, y2, y3⟩ := eH x y z h
  constructor
  · rw [f.eH, f.eV, x1, x2, x3]
    exact HasCurl.congr (HasCurl.lower c1) h eH
  · rw [f.zH, f.zV, y1, y2, y3]
    exact HasCurl.congr (HasCurl.lower c2) h eE

/-! ## Normalisation -/

theorem Rf_one {sqrt : ℂ → ℂ} (hq : IsSqrt sqrt) {x y : ℝ} (h : 0 < x ^ 2 + y ^ 2) (z : ℝ) :
    Rf sqrt 1 x y z = (Real.sqrt (x ^ 2 + y ^ 2 + z ^ 2) : ℝ) := by
  have : 0 ≤ z ^ 2 := by positivity
  have e : (x : ℂ) ^ 2 + (y : ℂ) ^ 2 + 1 * (z : ℂ) ^ 2 = ((x ^ 2 + y ^ 2 + z ^ 2 : ℝ) : ℂ) := by
    push_cast; ring
  rw [Rf, e, hq.main _ (Complex.ofReal_mem_slitPlane.2 (by linarith)), Lemmas.csqrt_ofReal (by linarith)]

set_option maxHeartbeats 2000000 in
/-- **C36.**  In an isotropic medium the solution is the textbook solution, all 36 components. -/
theorem C36_isotropic {sqrt : ℂ → ℂ} (hq : IsSqrt sqrt) {meds : List Med} (hp : ∀ m ∈ meds, Physical m)
    {i : ℕ} (hi : i < meds.length) (h1 : meds[i].etaV = meds[i].etaH) (h2 : meds[i].zetaV = meds[i].zetaH)
    {a b : ℕ} (ha : 1 ≤ a ∧ a ≤ 3) (hb : 1 ≤ b ∧ b ≤ 3) {x y : ℝ} (h : 0 < x ^ 2 + y ^ 2) (zs zr : ℝ) :
    let γ := Kernel.csqrt meds[i].etaH * Kernel.csqrt meds[i].zetaH
    resp sqrt meds i a b x y zs zr = isoDirect γ meds[i].etaH a b x y (zr - zs) ∧
    resp sqrt meds i (a + 3) b x y zs zr = isoCross γ a b x y (zr - zs) ∧
    resp sqrt meds i a (b + 3) x y zs zr = -isoCross γ a b x y (zr - zs) ∧
    (Oscillating meds[i] →
      resp sqrt meds i (a + 3) (b + 3) x y zs zr = isoDirect γ meds[i].zetaH a b x y (zr - zs)) := by
  intro γ
  have hm := hp _ (List.getElem_mem hi)
  have f := fits hq hm
  have R1 := Rf_one hq h (zr - zs)
  set z := zr - zs with hz
  set R := Real.sqrt (x ^ 2 + y ^ 2 + z ^ 2) with hR
  have hR2 : R ^ 2 = x ^ 2 + y ^ 2 + z ^ 2 := Real.sq_sqrt (by positivity)
  have hR0 : (R : ℂ) ≠ 0 := by
    have : 0 < R := Real.sqrt_pos.2 (by nlinarith [sq_nonneg z])
    exact_mod_cast this.ne'
  have hRc : (R : ℂ) ^ 2 = (x : ℂ) ^ 2 + (y : ℂ) ^ 2 + (z : ℂ) ^ 2 := by exact_mod_cast hR2
  have ho : (x : ℂ) ^ 2 + (y : ℂ) ^ 2 ≠ 0 := by
    have : ((x ^ 2 + y ^ 2 : ℝ) : ℂ) ≠ 0 := by exact_mod_cast h.ne'
    simpa using this
  have a0 := f.a0
  have c0 := f.c0
  have ba : (rootsOf meds[i]).b = (rootsOf meds[i]).a := by simp only [rootsOf, h1]
  have dc : (rootsOf meds[i]).d = (rootsOf meds[i]).c := by simp only [rootsOf, h2]
  have k1 : (rootsOf meds[i]).kTM = 1 := by rw [Roots.kTM, ba, div_self a0, one_pow]
  have k2 : (rootsOf meds[i]).kTE = 1 := by rw [Roots.kTE, dc, div_self c0, one_pow]
  have g1 : (rootsOf meds[i]).gTM = γ := by rw [Roots.gTM, ba, mul_comm]; rfl
  have g2 : (rootsOf meds[i]).gTE = γ := by rw [Roots.gTE, dc, mul_comm]; rfl
  have g0 : (rootsOf meds[i]).g0 = γ := rfl
  have hγ : γ ≠ 0 := mul_ne_zero a0 c0
  have ga : γ ^ 2 = (rootsOf meds[i]).a ^ 2 * (rootsOf meds[i]).c ^ 2 := by rw [← mul_pow]; rfl
  have hpi : (Real.pi : ℂ) ≠ 0 := by exact_mod_cast Real.pi_pos.ne'
  have en := fun a' b' (q1 : 1 ≤ a' ∧ a' ≤ 6) (q2 : 1 ≤ b' ∧ b' ≤ 6) (q3 : 4 ≤ a' → 4 ≤ b' → Oscillating meds[i]) =>
    resp_entry hq hp hi q1 q2 q3 h zs zr
  obtain ⟨a1, a2⟩ := ha
  obtain ⟨b1, b2⟩ := hb
  have hc : (rootsOf meds[i]).c ^ 2 = γ ^ 2 / (rootsOf meds[i]).a ^ 2 := by
    rw [ga]; field_simp
  have ha2 : (rootsOf meds[i]).a ^ 2 = γ ^ 2 / (rootsOf meds[i]).c ^ 2 := by
    rw [ga]; field_simp
  refine ⟨?_, ?_, ?_, fun hO => ?_⟩
  · rw [en a b ⟨a1, by omega⟩ ⟨b1, by omega⟩ (by omega), f.eH, ← hz]
    clear ha2
    generalize rootsOf meds[i] = s at *
    interval_cases a <;> interval_cases b <;>
    · simp only [entry, colE, Vec.comb, Vec.smul, tmE, teE, vE, k1, k2, g1, g2, R1, isoDirect, ← hR, pre, g0,
        Lemmas.Full.e, al, be, al', be', ch, nn, oo, pos, hc]
      generalize Complex.exp (-γ * (R : ℂ)) = E
      clear_value γ
      norm_num
      first | done | (right; ring) | (field_simp; done) | (field_simp; ring)
  · rw [en (a + 3) b ⟨by omega, by omega⟩ ⟨b1, by omega⟩ (by omega), ← hz]
    generalize rootsOf meds[i] = s at *
    interval_cases a <;> interval_cases b <;>
    · simp only [entry, colH, Vec.comb, Vec.smul, tmH, teH, vH, k1, k2, g1, g2, R1, isoCross, ← hR, pre, g0,
        Lemmas.Full.e, Lemmas.Full.h, m, Lemmas.Full.k, oo, crossUnit]
      generalize Complex.exp (-γ * (R : ℂ)) = E
      clear_value γ
      norm_num
      first | done | (right; ring) | (field_simp; done) | (field_simp; ring)
  · rw [en a (b + 3) ⟨a1, by omega⟩ ⟨by omega, by omega⟩ (by omega), ← hz]
    generalize rootsOf meds[i] = s at *
    interval_cases a <;> interval_cases b <;>
    · simp only [entry, colE, Vec.comb, Vec.smul, tmH, teH, vH, k1, k2, g1, g2, R1, isoCross, ← hR, pre, g0,
        Lemmas.Full.e, Lemmas.Full.h, m, Lemmas.Full.k, oo, crossUnit]
      generalize Complex.exp (-γ * (R : ℂ)) = E
      clear_value γ
      norm_num
      first | done | (right; ring) | (field_simp; done) | (field_simp; ring)
  · rw [en (a + 3) (b + 3) ⟨by omega, by omega⟩ ⟨by omega, by omega⟩ (fun _ _ => hO), f.zH, ← hz]
    clear hc
    generalize rootsOf meds[i] = s at *
    interval_cases a <;> interval_cases b <;>
    · simp only [entry, colH, Vec.comb, Vec.smul, tmE, teE, vE, k1, k2, g1, g2, R1, isoDirect, ← hR, pre, g0,
        Lemmas.Full.e, al, be, al', be', ch, nn, oo, pos, ha2]
      generalize Complex.exp (-γ * (R : ℂ)) = E
      clear_value γ
      norm_num
      first | done | (right; ring) | (field_simp; done) | (field_simp; ring)

/-- The distance grows with the scale. -/
theorem Rf_scale {sqrt : ℂ → ℂ} (hq : IsSqrt sqrt) {κ : ℂ} (hk : 0 ≤ κ.re) {x y : ℝ} (h : 0 < x ^ 2 + y ^ 2)
    (z : ℝ) {t : ℝ} (ht : 0 < t) : Rf sqrt κ (t * x) (t * y) (t * z) = t * Rf sqrt κ x y z := by
  have hs : (x : ℂ) ^ 2 + (y : ℂ) ^ 2 + κ * (z : ℂ) ^ 2 ∈ Complex.slitPlane := by
    left
    have : ((x : ℂ) ^ 2 + (y : ℂ) ^ 2 + κ * (z : ℂ) ^ 2).re = x ^ 2 + y ^ 2 + κ.re * z ^ 2 := by
      rw [Complex.add_re, Complex.add_re, ← Complex.ofReal_pow, ← Complex.ofReal_pow, ← Complex.ofReal_pow,
        Complex.re_mul_ofReal, Complex.ofReal_re, Complex.ofReal_re]
    rw [this]
    have : 0 ≤ κ.re * z ^ 2 := by positivity
    linarith
  have e : ((t * x : ℝ) : ℂ) ^ 2 + ((t * y : ℝ) : ℂ) ^ 2 + κ * ((t * z : ℝ) : ℂ) ^ 2 =
      ((t ^ 2 : ℝ) : ℂ) * ((x : ℂ) ^ 2 + (y : ℂ) ^ 2 + κ * (z : ℂ) ^ 2) := by push_cast; ring
  have ht2 : 0 < t ^ 2 := by positivity
  rw [Rf, e, hq.main _ ?_, Lemmas.csqrt_ofReal_mul ht2, Real.sqrt_sq ht.le, Rf, hq.main _ hs]
  rw [Complex.mem_slitPlane_iff] at hs ⊢
  rw [Complex.re_ofReal_mul, Complex.im_ofReal_mul]
  rcases hs with hs | hs
  · left; positivity
  · right; exact mul_ne_zero ht2.ne' hs

open Filter Topology in
theorem near_limit {F : ℝ → ℂ} {k1 k2 P A0 A1 A2 B1 B2 L : ℂ}
    (hF : ∀ t : ℝ, 0 < t → F t = P * (Complex.exp (-k1 * t) * (A0 + t * A1 + t ^ 2 * A2) +
      Complex.exp (-k2 * t) * (t * B1 + t ^ 2 * B2))) (hL : P * A0 = L) : Tendsto F (𝓝[>] 0) (𝓝 L) := by
  have hc : Continuous fun t : ℝ => P * (Complex.exp (-k1 * t) * (A0 + t * A1 + t ^ 2 * A2) +
      Complex.exp (-k2 * t) * (t * B1 + t ^ 2 * B2)) := by fun_prop
  have h0 := (hc.tendsto 0).mono_left (nhdsWithin_le_nhds (s := Set.Ioi 0))
  have e : P * (Complex.exp (-k1 * (0 : ℝ)) * (A0 + (0 : ℝ) * A1 + (0 : ℝ) ^ 2 * A2) +
      Complex.exp (-k2 * (0 : ℝ)) * ((0 : ℝ) * B1 + (0 : ℝ) ^ 2 * B2)) = L := by simp [hL]
  rw [e] at h0
  exact h0.congr' (by filter_upwards [self_mem_nhdsWithin] with t ht using (hF t ht).symm)

open Filter Topology in
/-- **C36.**  Normalisation in anisotropic media: close to the source the solution tends to the
static field of a unit current dipole. -/
theorem C36_near {sqrt : ℂ → ℂ} (hq : IsSqrt sqrt) {meds : List Med} (hp : ∀ m ∈ meds, Physical m)
    {i : ℕ} (hi : i < meds.length) {a b : ℕ} (ha : 1 ≤ a ∧ a ≤ 3) (hb : 1 ≤ b ∧ b ≤ 3) {x y : ℝ}
    (h : 0 < x ^ 2 + y ^ 2) (z zs : ℝ) :
    Tendsto (fun t : ℝ => (t : ℂ) ^ 3 * resp sqrt meds i a b (t * x) (t * y) zs (zs + t * z)) (𝓝[>] 0)
      (𝓝 (staticDipole meds[i].etaH meds[i].etaV
        (Kernel.csqrt (x ^ 2 + y ^ 2 + meds[i].etaH / meds[i].etaV * z ^ 2)) a b x y z)) := by
  have hm := hp _ (List.getElem_mem hi)
  have f := fits hq hm
  obtain ⟨r1, r2⟩ := radii hq hm h z
  have hk1 : 0 ≤ ((rootsOf meds[i]).kTM).re := by
    rw [Roots.kTM, div_pow, ← f.eH, ← f.eV]
    exact ratio_re hm.etaH.1.le hm.etaH.2 hm.etaV.1.le hm.etaV.2
  have hk2 : 0 ≤ ((rootsOf meds[i]).kTE).re := by
    rw [Roots.kTE, div_pow, ← f.zH, ← f.zV]
    exact ratio_re hm.zetaH.1 hm.zetaH.2.1 hm.zetaV.1 hm.zetaV.2.1
  have hkk : meds[i].etaH / meds[i].etaV = (rootsOf meds[i]).kTM := by rw [Roots.kTM, div_pow, ← f.eH, ← f.eV]
  have hsl : ((x : ℂ) ^ 2 + (y : ℂ) ^ 2 + meds[i].etaH / meds[i].etaV * (z : ℂ) ^ 2) ∈ Complex.slitPlane := by
    left
    have : ((x : ℂ) ^ 2 + (y : ℂ) ^ 2 + meds[i].etaH / meds[i].etaV * (z : ℂ) ^ 2).re =
        x ^ 2 + y ^ 2 + (meds[i].etaH / meds[i].etaV).re * z ^ 2 := by
      rw [Complex.add_re, Complex.add_re, ← Complex.ofReal_pow, ← Complex.ofReal_pow, ← Complex.ofReal_pow,
        Complex.re_mul_ofReal, Complex.ofReal_re, Complex.ofReal_re]
    rw [this, hkk]
    have : 0 ≤ ((rootsOf meds[i]).kTM).re * z ^ 2 := by positivity
    linarith
  have hRR : Kernel.csqrt (x ^ 2 + y ^ 2 + meds[i].etaH / meds[i].etaV * z ^ 2) =
      Rf sqrt (rootsOf meds[i]).kTM x y z := by
    rw [← hq.main _ hsl, hkk]; rfl
  rw [hRR]
  have ab : meds[i].etaH ^ (1 / 2 : ℂ) * meds[i].etaV ^ (1 / 2 : ℂ) = (rootsOf meds[i]).a * (rootsOf meds[i]).b := rfl
  have o0 := r1.axis
  have n1 := r1.ne
  have n2 := r2.ne
  have a0 := f.a0
  have b0 := f.b0
  have c0 := f.c0
  have d0 := f.d0
  have hpi : (Real.pi : ℂ) ≠ 0 := by exact_mod_cast Real.pi_pos.ne'
  have G1 : (rootsOf meds[i]).gTM ≠ 0 := mul_ne_zero c0 b0
  have hP : pre (rootsOf meds[i]) * (rootsOf meds[i]).c ^ 2 / (rootsOf meds[i]).gTM =
      1 / (4 * Real.pi * ((rootsOf meds[i]).a * (rootsOf meds[i]).b)) := by
    rw [pre, Roots.g0, Roots.gTM]; field_simp
  have hF : ∀ t : ℝ, 0 < t → (t : ℂ) ^ 3 * resp sqrt meds i a b (t * x) (t * y) zs (zs + t * z) =
      (t : ℂ) ^ 3 * entry sqrt (rootsOf meds[i]) a b (t * x) (t * y) (t * z) := by
    intro t ht
    rw [resp_entry hq hp hi ⟨ha.1, by omega⟩ ⟨hb.1, by omega⟩ (by omega) (by
      have : (t * x) ^ 2 + (t * y) ^ 2 = t ^ 2 * (x ^ 2 + y ^ 2) := by ring
      rw [this]; positivity), add_sub_cancel_left]
  have R1 := fun {t : ℝ} (ht : 0 < t) => Rf_scale hq hk1 h z ht
  have R2 := fun {t : ℝ} (ht : 0 < t) => Rf_scale hq hk2 h z ht
  unfold staticDipole
  rw [hkk, ab]
  generalize rootsOf meds[i] = s at *
  generalize hr1 : Rf sqrt s.kTM x y z = q1 at *
  generalize hr2 : Rf sqrt s.kTE x y z = q2 at *
  obtain ⟨a1, a2⟩ := ha
  obtain ⟨b1, b2⟩ := hb
  have hor : ∀ δ : ℂ, ∀ u v : ℝ, ∀ t : ℝ, 0 < t →
      (t : ℂ) ^ 3 * (pre s * s.c ^ 2 * ((al s.gTM (t * q1) (oo (t * x) (t * y)) * ((t * u) * (t * v)) +
        be s.gTM (t * q1) (oo (t * x) (t * y)) * δ) +
        (al' s.gTE (t * q2) (oo (t * x) (t * y)) * ((t * u) * (t * v)) + be' s.gTE (t * q2) (oo (t * x) (t * y)) * δ))) =
      pre s * s.c ^ 2 * (Complex.exp (-(s.gTM * q1) * t) *
        ((3 * (u * v) / (s.gTM * q1 ^ 5) - δ / (s.gTM * q1 ^ 3)) +
          t * (u * v * (3 / q1 ^ 4 - 2 / oo x y ^ 2) + δ * (1 / oo x y - 1 / q1 ^ 2)) +
          t ^ 2 * (u * v * (s.gTM / q1 ^ 3 - s.gTM / (q1 * oo x y)))) +
        Complex.exp (-(s.gTE * q2) * t) * (t * (u * v * 2 / oo x y ^ 2 - δ / oo x y) +
          t ^ 2 * (u * v * s.gTE / (q2 * oo x y) - δ * s.gTE / q2))) := by
    intro δ u v t ht
    have ht' : (t : ℂ) ≠ 0 := by exact_mod_cast ht.ne'
    have hoo : oo (t * x) (t * y) = t ^ 2 * oo x y := by rw [oo, oo]; push_cast; ring
    have hoo' : oo x y ≠ 0 := o0
    simp only [al, be, al', be', Lemmas.Full.e, hoo]
    rw [show -s.gTM * (t * q1) = -(s.gTM * q1) * t by ring, show -s.gTE * (t * q2) = -(s.gTE * q2) * t by ring]
    generalize Complex.exp (-(s.gTM * q1) * t) = E1
    generalize Complex.exp (-(s.gTE * q2) * t) = E2
    generalize oo x y = o at *
    field_simp
    ring
  have hver : ∀ u : ℝ, ∀ t : ℝ, 0 < t →
      (t : ℂ) ^ 3 * (pre s * s.c ^ 2 * (s.kTM * (t * z) * (t * u) * ch s.gTM (t * q1))) =
      pre s * s.c ^ 2 * (Complex.exp (-(s.gTM * q1) * t) *
        (3 * (s.kTM * z) * u / (s.gTM * q1 ^ 5) + t * (3 * s.kTM * z * u / q1 ^ 4) +
          t ^ 2 * (s.gTM * s.kTM * z * u / q1 ^ 3)) +
        Complex.exp (-(0 : ℂ) * t) * (t * 0 + t ^ 2 * 0)) := by
    intro u t ht
    have ht' : (t : ℂ) ≠ 0 := by exact_mod_cast ht.ne'
    simp only [ch, Lemmas.Full.e]
    rw [show -s.gTM * (t * q1) = -(s.gTM * q1) * t by ring]
    generalize Complex.exp (-(s.gTM * q1) * t) = E1
    field_simp
    ring
  have hzz : ∀ t : ℝ, 0 < t →
      (t : ℂ) ^ 3 * (pre s * s.c ^ 2 * (s.kTM * (s.kTM * (t * z) ^ 2 * ch s.gTM (t * q1) - nn s.gTM (t * q1)))) =
      pre s * s.c ^ 2 * (Complex.exp (-(s.gTM * q1) * t) *
        ((3 * (s.kTM * z) * (s.kTM * z) / (s.gTM * q1 ^ 5) - s.kTM / (s.gTM * q1 ^ 3)) +
          t * (3 * (s.kTM * z) * (s.kTM * z) / q1 ^ 4 - s.kTM / q1 ^ 2) +
          t ^ 2 * (s.gTM * (s.kTM * z) * (s.kTM * z) / q1 ^ 3 - s.kTM * s.gTM / q1)) +
        Complex.exp (-(0 : ℂ) * t) * (t * 0 + t ^ 2 * 0)) := by
    intro t ht
    have ht' : (t : ℂ) ≠ 0 := by exact_mod_cast ht.ne'
    simp only [ch, nn, Lemmas.Full.e]
    rw [show -s.gTM * (t * q1) = -(s.gTM * q1) * t by ring]
    generalize Complex.exp (-(s.gTM * q1) * t) = E1
    field_simp
    ring
  have fin : ∀ A B : ℂ, pre s * s.c ^ 2 * (A / (s.gTM * q1 ^ 5) - B / (s.gTM * q1 ^ 3)) =
      (A / q1 ^ 5 - B / q1 ^ 3) / (4 * Real.pi * (s.a * s.b)) := by
    intro A B
    rw [div_eq_mul_one_div _ (4 * (Real.pi : ℂ) * (s.a * s.b)), ← hP]
    field_simp
  have fin' : ∀ A : ℂ, pre s * s.c ^ 2 * (A / (s.gTM * q1 ^ 5)) =
      (A / q1 ^ 5) / (4 * Real.pi * (s.a * s.b)) := by
    intro A
    have := fin A 0
    simpa using this
  have H : ∀ (δ : ℂ) (u v : ℝ), (∀ t : ℝ, 0 < t → entry sqrt s a b (t * x) (t * y) (t * z) =
      (pre s * s.c ^ 2 * ((al s.gTM (t * q1) (oo (t * x) (t * y)) * ((t * u) * (t * v)) +
        be s.gTM (t * q1) (oo (t * x) (t * y)) * δ) +
        (al' s.gTE (t * q2) (oo (t * x) (t * y)) * ((t * u) * (t * v)) + be' s.gTE (t * q2) (oo (t * x) (t * y)) * δ)))) →
      Tendsto (fun t : ℝ => (t : ℂ) ^ 3 * resp sqrt meds i a b (t * x) (t * y) zs (zs + t * z)) (𝓝[>] 0)
        (𝓝 ((3 * (u * v) / q1 ^ 5 - δ / q1 ^ 3) / (4 * Real.pi * (s.a * s.b)))) := by
    intro δ u v he
    exact near_limit (fun t ht => by rw [hF t ht, he t ht, hor δ u v t ht]) (fin _ _)
  have V : ∀ (u : ℝ), (∀ t : ℝ, 0 < t → entry sqrt s a b (t * x) (t * y) (t * z) =
      (pre s * s.c ^ 2 * (s.kTM * (t * z) * (t * u) * ch s.gTM (t * q1)))) →
      Tendsto (fun t : ℝ => (t : ℂ) ^ 3 * resp sqrt meds i a b (t * x) (t * y) zs (zs + t * z)) (𝓝[>] 0)
        (𝓝 ((3 * (s.kTM * z) * u / q1 ^ 5) / (4 * Real.pi * (s.a * s.b)))) := by
    intro u he
    exact near_limit (fun t ht => by rw [hF t ht, he t ht, hver u t ht]) (fin' _)
  have Z : (∀ t : ℝ, 0 < t → entry sqrt s a b (t * x) (t * y) (t * z) =
      (pre s * s.c ^ 2 * (s.kTM * (s.kTM * (t * z) ^ 2 * ch s.gTM (t * q1) - nn s.gTM (t * q1))))) →
      Tendsto (fun t : ℝ => (t : ℂ) ^ 3 * resp sqrt meds i a b (t * x) (t * y) zs (zs + t * z)) (𝓝[>] 0)
        (𝓝 ((3 * (s.kTM * z) * (s.kTM * z) / q1 ^ 5 - s.kTM / q1 ^ 3) / (4 * Real.pi * (s.a * s.b)))) := by
    intro he
    exact near_limit (fun t ht => by rw [hF t ht, he t ht, hzz t ht]) (fin _ _)
  clear hor hver hzz fin fin' hF
  interval_cases a <;> interval_cases b
  · convert H 1 x x (fun t ht => ?_) using 2
    · simp [pos]; ring
    · simp only [entry, colE, Vec.comb, tmE, teE, R1 ht, R2 ht, hr1, hr2]; push_cast; ring
  · convert H 0 x y (fun t ht => ?_) using 2
    · simp [pos]; ring
    · simp only [entry, colE, Vec.comb, tmE, teE, R1 ht, R2 ht, hr1, hr2]; push_cast; ring
  · convert V x (fun t ht => ?_) using 2
    · simp [pos]; ring
    · simp only [entry, colE, Vec.smul, vE, R1 ht, R2 ht, hr1, hr2]; push_cast; ring
  · convert H 0 y x (fun t ht => ?_) using 2
    · simp [pos]; ring
    · simp only [entry, colE, Vec.comb, tmE, teE, R1 ht, R2 ht, hr1, hr2]; push_cast; ring
  · convert H 1 y y (fun t ht => ?_) using 2
    · simp [pos]; ring
    · simp only [entry, colE, Vec.comb, tmE, teE, R1 ht, R2 ht, hr1, hr2]; push_cast; ring
  · convert V y (fun t ht => ?_) using 2
    · simp [pos]; ring
    · simp only [entry, colE, Vec.smul, vE, R1 ht, R2 ht, hr1, hr2]; push_cast; ring
  · convert V x (fun t ht => ?_) using 2
    · simp [pos]; try ring
    · simp only [entry, colE, Vec.comb, tmE, teE, R1 ht, R2 ht, hr1, hr2]; push_cast; ring
  · convert V y (fun t ht => ?_) using 2
    · simp [pos]; try ring
    · simp only [entry, colE, Vec.comb, tmE, teE, R1 ht, R2 ht, hr1, hr2]; push_cast; ring
  · convert Z (fun t ht => ?_) using 2
    · simp [pos]; try ring
    · simp only [entry, colE, Vec.smul, vE, R1 ht, R2 ht, hr1, hr2]; push_cast; ring

/-! ## Where Maxwell's equations fail: no displacement currents -/

theorem HasCurl_unique {F : Vec} {x y z : ℝ} {a b c a' b' c' : ℂ} (h : F.HasCurl x y z a b c)
    (h' : F.HasCurl x y z a' b' c') : a = a' ∧ b = b' ∧ c = c' := by
  obtain ⟨_, _, _, _, _, _, d1, d2, d3, d4, d5, d6, e1, e2, e3⟩ := h
  obtain ⟨_, _, _, _, _, _, d1', d2', d3', d4', d5', d6', e1', e2', e3'⟩ := h'
  rw [← e1, ← e2, ← e3, ← e1', ← e2', ← e3', d1.unique d1', d2.unique d2', d3.unique d3', d4.unique d4',
    d5.unique d5', d6.unique d6']
  exact ⟨rfl, rfl, rfl⟩

/-- **C36 is violated** by magnetic components of magnetic sources when the relative permittivities
are zero, which the documentation recommends for the diffusive approximation.  Then `-etaH` is
`-σ - 0j`, whose root is `-i√σ` in NumPy (`hneg`), but `zetaH.imag < 0` is false for `-0.0`, so that
the sign of the root is not corrected: in an anisotropic medium the field does not satisfy Maxwell's
equations. -/
theorem C36_mm_violated {sqrt : ℂ → ℂ} (hq : IsSqrt sqrt) {m : Med} (hm : Physical m)
    (h1 : m.etaH.im = 0) (h2 : 0 < m.zetaH.im)
    (hneg : sqrt (-m.etaH) = -Complex.I * Kernel.csqrt m.etaH) {x y : ℝ} (h : 0 < x ^ 2 + y ^ 2)
    (hxy : x ^ 2 ≠ y ^ 2) (zs z : ℝ)
    (hE : Complex.exp (-(rootsOf m).gTM * Rf sqrt (rootsOf m).kTM x y (z - zs)) ≠
      Complex.exp (-(rootsOf m).gTE * Rf sqrt (rootsOf m).kTE x y (z - zs))) :
    ¬ MaxwellAt m.etaH m.etaV m.zetaH m.zetaV (fieldE sqrt [m] 0 4 zs) (fieldH sqrt [m] 0 4 zs) x y z := by
  intro hmax
  have hp : ∀ m' ∈ [m], Physical m' := by simpa using hm
  have f := fits hq hm
  have fM : FitsM sqrt m (rootsOf m) := by
    refine ⟨f, hneg, ?_⟩
    obtain ⟨-, -, -, -, c5⟩ := octant hm.zetaH.1 hm.zetaH.2.1 hm.zetaH.2.2
    have sc := Lemmas.csqrt_sq' m.zetaH
    have : -m.zetaH = (-Complex.I * Kernel.csqrt m.zetaH) ^ 2 := by rw [mul_pow, sc]; simp
    rw [this]
    exact sqrt_unique hq (by simpa using c5 h2)
  obtain ⟨r1, r2⟩ := radii hq hm h (z - zs)
  obtain ⟨c1, c2⟩ := col_maxwell (b := 4) f.a0 f.b0 f.c0 f.d0 r1 r2 (by norm_num)
  have ho : Real.sqrt (x ^ 2 + y ^ 2) ≠ 0 := (Real.sqrt_pos.2 h).ne'
  have hoff : x ^ 2 + y ^ 2 = Real.sqrt (x ^ 2 + y ^ 2) ^ 2 := (Real.sq_sqrt h.le).symm
  -- the electric field is right
  have en : ∀ a, 1 ≤ a ∧ a ≤ 3 → ∀ u v w : ℝ, 0 < u ^ 2 + v ^ 2 →
      resp sqrt [m] 0 a 4 u v zs w = entry sqrt (rootsOf m) a 4 u v (w - zs) :=
    fun a ha u v w huv => resp_entry (i := 0) hq hp (by simp) ⟨ha.1, by omega⟩ (by norm_num) (by omega) huv zs w
  have eE : ∀ u v w : ℝ, 0 < u ^ 2 + v ^ 2 →
      (fieldE sqrt [m] 0 4 zs).x u v w = ((colE sqrt (rootsOf m) 4).lower zs).x u v w ∧
      (fieldE sqrt [m] 0 4 zs).y u v w = ((colE sqrt (rootsOf m) 4).lower zs).y u v w ∧
      (fieldE sqrt [m] 0 4 zs).z u v w = ((colE sqrt (rootsOf m) 4).lower zs).z u v w :=
    fun u v w huv => ⟨en 1 (by norm_num) u v w huv, en 2 (by norm_num) u v w huv, en 3 (by norm_num) u v w huv⟩
  have right := HasCurl.congr (HasCurl.lower c2) h eE
  obtain ⟨q, -, -⟩ := HasCurl_unique right hmax.2
  have z0 : m.zetaH ≠ 0 := hm.zetaH.2.2
  rw [f.zH] at q z0
  have q' : (colH sqrt (rootsOf m) 4).x x y (z - zs) = resp sqrt [m] 0 4 4 x y zs z :=
    mul_left_cancel₀ z0 (neg_injective q)
  -- the returned magnetic field
  have nF : negOf [m] true = false := by
    simp [negOf, Med.dual, h1]
  obtain ⟨q1, -⟩ := closed_mm fM ho hoff zs z r1.ne r2.ne
  have hd1 := dist_eq sqrt hoff zs z (e1 := -m.etaH) (e2 := -m.etaV) (k := (rootsOf m).kTM)
    (by rw [neg_div_neg_eq, f.eH, f.eV, Roots.kTM, div_pow])
  have hd2 := dist_eq sqrt hoff zs z (e1 := -m.zetaH) (e2 := -m.zetaV) (k := (rootsOf m).kTE)
    (by rw [neg_div_neg_eq, f.zH, f.zV, Roots.kTE, div_pow])
  have val : resp sqrt [m] 0 4 4 x y zs z =
      ginH sqrt false m.dual (Real.sqrt (x ^ 2 + y ^ 2)) x y zs z 11 * -1 := by
    rw [resp_eq (by simp) (by norm_num) (by norm_num)]
    simp only [core]
    norm_num [nF]
  rw [val, show (colH sqrt (rootsOf m) 4).x x y (z - zs) = entry sqrt (rootsOf m) 4 4 x y (z - zs) from rfl,
    ← q1] at q'
  have q'' := mul_right_cancel₀ (by norm_num : (-1 : ℂ) ≠ 0) q'
  simp only [Med.dual, ginH, lGam, hd1, hd2, f.rTM, f.rTE, fM.na, fM.nc, neg_mul_neg,
    mul_comm m.etaH m.zetaV, mul_comm m.etaV m.zetaH] at q''
  have hpi : (Real.pi : ℂ) ≠ 0 := by exact_mod_cast Real.pi_pos.ne'
  have hoc : ((Real.sqrt (x ^ 2 + y ^ 2) : ℝ) : ℂ) ≠ 0 := by exact_mod_cast ho
  have hoffc : ((Real.sqrt (x ^ 2 + y ^ 2) : ℝ) : ℂ) ^ 2 = (x : ℂ) ^ 2 + (y : ℂ) ^ 2 := by exact_mod_cast hoff.symm
  rw [add_right_inj] at q''
  norm_num at q''
  have ne2 : (2 * (x : ℂ) * x / (((Real.sqrt (x ^ 2 + y ^ 2) : ℝ) : ℂ) *
      ((Real.sqrt (x ^ 2 + y ^ 2) : ℝ) : ℂ)) - 1) ≠ 0 := by
    rw [← pow_two, hoffc, sub_ne_zero]
    intro h'
    have o0 := r1.axis
    rw [div_eq_one_iff_eq o0] at h'
    have : (((2 * x * x : ℝ)) : ℂ) = ((x ^ 2 + y ^ 2 : ℝ) : ℂ) := by push_cast; exact h'
    have := Complex.ofReal_injective this
    exact hxy (by linarith)
  have hI := Complex.I_ne_zero
  have a0 := f.a0
  have c0 := f.c0
  have half : ∀ X D : ℂ, X / D = X / -D → D ≠ 0 → X = 0 := by
    intro X D hX hD
    rw [div_neg, eq_neg_iff_add_eq_zero, ← two_mul] at hX
    rcases mul_eq_zero.1 hX with h' | h'
    · norm_num at h'
    · exact (div_eq_zero_iff.1 h').resolve_right hD
  have := half _ _ q'' (by
    refine mul_ne_zero (mul_ne_zero (mul_ne_zero (mul_ne_zero (by norm_num) hpi) (mul_ne_zero hI c0)) hoc) hoc)
  rcases mul_eq_zero.1 this with h' | h'
  · exact mul_ne_zero (mul_ne_zero hI a0) ne2 h'
  · rw [sub_eq_zero, ← neg_mul, ← neg_mul] at h'
    exact hE h'.symm

/-! ## Concrete cases -/

/-- Anisotropic rock with displacement currents. -/
noncomputable def rock : Med := ⟨2 + Complex.I, 1 + Complex.I, 3 * Complex.I, 5 * Complex.I⟩

theorem rock_physical : Physical rock ∧ Oscillating rock := by
  refine ⟨⟨?_, ?_, ?_, ?_⟩, ?_, ?_⟩ <;> simp [rock, Complex.ext_iff]

example (sqrt : ℂ → ℂ) (hq : IsSqrt sqrt) : MaxwellAt (2 + Complex.I) (1 + Complex.I) (3 * Complex.I) (5 * Complex.I)
    (fieldE sqrt [rock] 0 4 100) (fieldH sqrt [rock] 0 4 100) 3 4 120 :=
  C36_maxwell (i := 0) (meds := [rock]) hq (by simpa using rock_physical.1) (by simp) (by norm_num)
    (fun _ => rock_physical.2) (by norm_num) 100 120

/-- Isotropic medium, distance 5. -/
example (sqrt : ℂ → ℂ) (hq : IsSqrt sqrt) : resp sqrt [⟨1, 1, 1, 1⟩] 0 5 1 3 0 0 4 =
    -(Complex.exp (-5) * 6 * 4 / (4 * Real.pi * 125)) := by
  have := (C36_isotropic (meds := [⟨1, 1, 1, 1⟩]) (i := 0) hq (by
    simp only [List.mem_singleton, forall_eq]; constructor <;> simp) (by simp) rfl rfl (a := 2) (b := 1) (by norm_num)
    (by norm_num) (x := 3) (y := 0) (by norm_num) 0 4).2.1
  have c1 : Kernel.csqrt 1 = 1 := by simp [Kernel.csqrt]
  have r5 : Real.sqrt ((3 : ℝ) ^ 2 + 0 ^ 2 + (4 - 0) ^ 2) = 5 := by
    rw [show ((3 : ℝ) ^ 2 + 0 ^ 2 + (4 - 0) ^ 2) = 5 ^ 2 by norm_num]; exact Real.sqrt_sq (by norm_num)
  simp only [List.getElem_cons_zero, c1, isoCross, r5, crossUnit] at this
  rw [this]
  norm_num
  ring

/-- Reciprocity of a horizontal electric and a vertical magnetic component. -/
example (sqrt : ℂ → ℂ) : resp sqrt [rock] 0 1 6 3 4 100 120 = -resp sqrt [rock] 0 6 1 (-3) (-4) 120 100 := by
  have := C36_reciprocity sqrt [rock] (i := 0) (by simp) (a := 1) (b := 6) (by norm_num) (by norm_num) 3 4 100 120
  simpa [recipSign] using this

/-- Root which is `-i√|z|` on the negative real axis, as NumPy's for negative zero imaginary part. -/
noncomputable def lowerSqrt (z : ℂ) : ℂ := by
  classical exact if z ∈ Complex.slitPlane then Kernel.csqrt z else -Kernel.csqrt z

theorem lowerSqrt_isSqrt : IsSqrt lowerSqrt := by
  constructor
  · intro z
    unfold lowerSqrt
    split_ifs
    · exact Lemmas.csqrt_sq' z
    · rw [neg_sq]; exact Lemmas.csqrt_sq' z
  · intro z hz
    exact if_pos hz

/-- Conductivities 1 and 4, no displacement currents. -/
noncomputable def dry : Med := ⟨1, 4, Complex.I, Complex.I⟩

example : ¬ MaxwellAt 1 4 Complex.I Complex.I (fieldE lowerSqrt [dry] 0 4 7) (fieldH lowerSqrt [dry] 0 4 7) 1 0 7 := by
  have c1 : Kernel.csqrt 1 = 1 := by simp [Kernel.csqrt]
  have c4 : Kernel.csqrt 4 = 2 := by
    have := Lemmas.csqrt_ofReal (x := 4) (by norm_num)
    rw [show (4 : ℝ) = 2 ^ 2 by norm_num, Real.sqrt_sq (by norm_num)] at this
    push_cast at this
    rw [← this]; norm_num
  have cI := octant (z := Complex.I) (by simp) (by simp) Complex.I_ne_zero
  have cm : Kernel.csqrt (-1) = Complex.I := by
    rw [Kernel.csqrt, Complex.cpow_def_of_ne_zero (by norm_num), Complex.log_neg_one,
      show (Real.pi : ℂ) * Complex.I * (1 / 2) = (Real.pi : ℂ) / 2 * Complex.I by ring, Complex.exp_pi_div_two_mul_I]
  have hphys : Physical dry := by constructor <;> simp [dry]
  refine C36_mm_violated (m := dry) lowerSqrt_isSqrt hphys (by simp [dry]) (by simp [dry]) ?_ (by norm_num)
    (by norm_num) 7 7 ?_
  · change lowerSqrt (-1) = -Complex.I * Kernel.csqrt 1
    rw [c1, mul_one, lowerSqrt, if_neg (by simp [Complex.mem_slitPlane_iff]), cm]
  · have hR : ∀ κ, Rf lowerSqrt κ 1 0 (7 - 7) = 1 := by
      intro κ
      rw [Rf]
      norm_num
      rw [lowerSqrt_isSqrt.main _ Complex.one_mem_slitPlane, c1]
    rw [hR, hR]
    simp only [rootsOf, dry, Roots.gTM, Roots.gTE, c1, c4, mul_one]
    intro h'
    have h2 := congrArg norm h'
    rw [Complex.norm_exp, Complex.norm_exp, Real.exp_eq_exp] at h2
    simp at h2
    linarith [cI.1]

end Verif.Props
