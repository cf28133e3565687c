import Verif.Props.C51_Quad
import Verif.Props.C51_Splined
import Verif.Lemmas.GaussHankel
import Mathlib.MeasureTheory.Integral.IntervalIntegral.Periodic

/-!
# C51: in terms of the user's model, and concrete cases
-/

namespace Verif.Props
open Verif.Py Verif.Py.W Verif.Utils Verif.Spec Verif.Model Verif.Kernel Verif.Lemmas Verif.Transform Verif.Time
open Verif.Args Verif.Hank

/-- For a valid description of a layered medium the Hankel transform is needed unless all layers are the same and
`xdirect` is not `False`. -/
theorem needs_user {H : HBack} (hm : 0 < H.m.minRes) {A : DipoleArgs} {U : UserModel} (hU : U.Valid H.m.minRes)
    (hA : Describes A U) {c : ℕ × Bool × Bool} (hab : checkAb A.ab = .ok c) (h36 : c.1 ≠ 36) (hs : CoordsOK A.src)
    (hr : CoordsOK A.rcv) (ns : 0 < numDipoles A.src) (nr : 0 < numDipoles A.rcv) (hf : A.freq ≠ [])
    (hu : ¬ U.Uniform ∨ A.xdirect = some false) : Needs H A := by
  obtain ⟨src, h4⟩ := (checkDipole_iff A.src).2 hs
  obtain ⟨rcv, h5⟩ := (checkDipole_iff A.rcv).2 hr
  obtain ⟨_, _, _, -, -, n1, -⟩ := checkDipole_ok h4
  obtain ⟨_, _, _, -, -, n2, -⟩ := checkDipole_ok h5
  refine ⟨_, _, c, src, rcv, describes_checkModel hU hA, C30_frequency .., hab, h4, h5, h36, ?_, ?_, ?_⟩
  · refine hu.imp (fun h => ?_) id
    rw [← Bool.not_eq_true, user_full hm hU]; exact h
  · intro h
    have := congrArg List.length h
    simp only [rowsOf, List.length_map, List.length_range, List.length_nil] at this
    exact hf (List.length_eq_zero_iff.1 this)
  · rw [n1, n2]; exact Nat.mul_ne_zero ns.ne' nr.ne'

/-- The wavenumbers at which QUAD interpolates: at least four, positive and increasing, if the limits span enough
decades for the points per decade. -/
theorem lamGrid_ok {a b ppd : ℝ} (ha : 0 < a) (hab : a < b) (hn : 3 ≤ (Real.logb 10 b - Real.logb 10 a) * ppd) :
    ∃ g, lamGrid a b ppd = .ok g ∧ LogOK g.length fun i => g.getD i 0 := by
  set x := Real.logb 10 a
  set y := Real.logb 10 b
  have hxy : x < y := Real.logb_lt_logb (by norm_num) ha hab
  set n := Tem.trunc ((y - x) * ppd + 1) with hdef
  have hn4 : 4 ≤ n := by
    rw [hdef, Tem.trunc, if_pos (by linarith)]
    exact Int.le_floor.2 (by push_cast; linarith)
  have hl : ((List.range n.toNat).map fun i : ℕ => (10 : ℝ) ^ (x + i * ((y - x) / (n - 1)))).length = n.toNat := by simp
  have hget : ∀ i < n.toNat, ((List.range n.toNat).map fun i : ℕ => (10 : ℝ) ^ (x + i * ((y - x) / (n - 1)))).getD i 0 =
      (10 : ℝ) ^ (x + i * ((y - x) / (n - 1))) := fun i hi => by
    rw [List.getD_eq_getElem _ _ (by simpa using hi)]; simp
  refine ⟨(List.range n.toNat).map fun i : ℕ => (10 : ℝ) ^ (x + i * ((y - x) / (n - 1))), ?_,
    ⟨?_, fun i hi => ?_⟩, ?_⟩
  · unfold lamGrid logspace
    rw [← hdef, if_neg (by omega)]
    rfl
  · rw [hl]; omega
  · rw [hl] at hi
    simp only
    rw [hget _ hi, hget _ (by omega)]
    refine Real.rpow_lt_rpow_of_exponent_lt (by norm_num) ?_
    have h1 : (0 : ℝ) < n - 1 := by
      have : (4 : ℝ) ≤ n := by exact_mod_cast hn4
      linarith
    have : 0 < (y - x) / (n - 1) := div_pos (by linarith) h1
    push_cast
    nlinarith
  · simp only
    rw [hget _ (by omega)]
    positivity

/-! ## The Bessel functions are real -/

theorem conj_interval (f : ℝ → ℂ) (a b : ℝ) :
    (starRingEnd ℂ) (∫ φ in a..b, f φ) = ∫ φ in a..b, (starRingEnd ℂ) (f φ) := by
  simp only [intervalIntegral, map_sub, integral_conj]

theorem J0_real (x : ℝ) : (((besselJ0 x).re : ℝ) : ℂ) = besselJ0 x := by
  refine Complex.conj_eq_iff_re.1 ?_
  unfold besselJ0
  have hp : Function.Periodic (fun φ : ℝ => Complex.exp (-Complex.I * x * Real.cos φ)) (2 * Real.pi) := fun φ => by
    simp only [Real.cos_add_two_pi]
  have e : (starRingEnd ℂ) (∫ φ in (0 : ℝ)..(2 * Real.pi), Complex.exp (-Complex.I * x * Real.cos φ)) =
      ∫ φ in (0 : ℝ)..(2 * Real.pi), Complex.exp (-Complex.I * x * Real.cos φ) := by
    rw [conj_interval]
    have : ∀ φ : ℝ, (starRingEnd ℂ) (Complex.exp (-Complex.I * x * Real.cos φ)) =
        (fun φ : ℝ => Complex.exp (-Complex.I * x * Real.cos φ)) (φ + Real.pi) := fun φ => by
      simp only [← Complex.exp_conj, map_mul, map_neg, Complex.conj_I, Complex.conj_ofReal, Real.cos_add_pi]
      push_cast; ring_nf
    simp only [this]
    rw [intervalIntegral.integral_comp_add_right (fun φ : ℝ => Complex.exp (-Complex.I * x * Real.cos φ)), zero_add,
      add_comm (2 * Real.pi)]
    have := hp.intervalIntegral_add_eq Real.pi 0
    rw [zero_add] at this
    exact this
  rw [map_mul, e]
  simp only [map_div₀, map_one, map_mul, map_ofNat, Complex.conj_ofReal]

theorem J1_real (x : ℝ) : (((besselJ1 x).re : ℝ) : ℂ) = besselJ1 x := by
  refine Complex.conj_eq_iff_re.1 ?_
  unfold besselJ1
  have hp : Function.Periodic (fun φ : ℝ => (Real.cos φ : ℂ) * Complex.exp (-Complex.I * x * Real.cos φ))
      (2 * Real.pi) := fun φ => by simp only [Real.cos_add_two_pi]
  have e : (starRingEnd ℂ) (∫ φ in (0 : ℝ)..(2 * Real.pi), (Real.cos φ : ℂ) * Complex.exp (-Complex.I * x * Real.cos φ)) =
      -∫ φ in (0 : ℝ)..(2 * Real.pi), (Real.cos φ : ℂ) * Complex.exp (-Complex.I * x * Real.cos φ) := by
    rw [conj_interval]
    have : ∀ φ : ℝ, (starRingEnd ℂ) ((Real.cos φ : ℂ) * Complex.exp (-Complex.I * x * Real.cos φ)) =
        -(fun φ : ℝ => (Real.cos φ : ℂ) * Complex.exp (-Complex.I * x * Real.cos φ)) (φ + Real.pi) := fun φ => by
      simp only [← Complex.exp_conj, map_mul, map_neg, Complex.conj_I, Complex.conj_ofReal, Real.cos_add_pi]
      push_cast; ring_nf
    simp only [this]
    rw [intervalIntegral.integral_neg, intervalIntegral.integral_comp_add_right
      (fun φ : ℝ => (Real.cos φ : ℂ) * Complex.exp (-Complex.I * x * Real.cos φ)), zero_add, add_comm (2 * Real.pi)]
    have := hp.intervalIntegral_add_eq Real.pi 0
    rw [zero_add] at this
    rw [this]
  rw [map_mul, e]
  simp only [map_div₀, map_mul, map_ofNat, Complex.conj_ofReal, Complex.conj_I]
  ring

/-! ## A concrete setting -/

/-- Exact arithmetic and Bessel functions, midpoint rule, exact integration, polynomial interpolation.  `J2` (only in
the Newton iteration) is a constant, so that the zeros stay close to where the iteration starts. -/
noncomputable def refH : HBack where
  m := Mins.init
  o := Ops.exact
  sqrt := csqrt
  junk := fun _ => 0
  C := numbersOnly
  lib := fun _ => none
  dflt := .none
  gauss n := ⟨n, fun i => -1 + (2 * i + 1) / n, fun _ => 2 / n⟩
  J0 x := (besselJ0 x).re
  J1 x := (besselJ1 x).re
  J2 _ := -10
  R m x v y := ∑ i ∈ Finset.range m, v i * ∏ k ∈ (Finset.range m).erase i, (y - x k) / (x i - x k)
  quad f a b _ _ _ := (∫ l in a..b, f l, 3)
  eps := 1e-16
  tiny := 1e-200
  big := 1e200
  zero _ := false

theorem refH_step (b : ℝ) (hb : 2 ≤ b) : |newtonStep refH b| ≤ 0.11 := by
  have h1 : |(besselJ1 b).re| ≤ 1 := (Complex.abs_re_le_norm _).trans (J1_norm b)
  change |-(besselJ1 b).re / ((besselJ1 b).re / b - -10)| ≤ 0.11
  generalize (besselJ1 b).re = u at h1
  obtain ⟨h2, h3⟩ := abs_le.1 h1
  have h4 : -(1 / 2) ≤ u / b := by
    rw [le_div_iff₀ (by linarith)]; linarith
  have h5 : (9.5 : ℝ) ≤ u / b - -10 := by linarith
  rw [abs_div, abs_neg, abs_of_pos (by linarith : 0 < u / b - -10), div_le_iff₀ (by linarith)]
  linarith

theorem refH_newton (n : ℕ) : ∀ (left : ℕ) (b : ℕ → ℝ), (∀ i, 2 + 0.11 * left ≤ b i) → ∀ i, 2 ≤ newton refH n left b i
  | 0, b, h, i => by simpa [newton] using h i
  | left + 1, b, h, i => by
    have hs : ∀ i, 2 + 0.11 * (left : ℝ) ≤ b i + newtonStep refH (b i) := fun i => by
      have h1 := h i
      push_cast at h1
      have h0 : (0 : ℝ) ≤ left := Nat.cast_nonneg _
      have := (abs_le.1 (refH_step (b i) (by linarith))).1
      linarith
    unfold newton
    simp only
    split_ifs
    · have := hs i
      have h0 : (0 : ℝ) ≤ left := Nat.cast_nonneg _
      linarith
    · exact refH_newton n left _ hs i

theorem refH_zeros (n i : ℕ) : 0 < bZero refH n i := by
  have := refH_newton n 10 (fun i => Real.pi * (1.25 + i)) (fun i => by
    have h0 : (0 : ℝ) ≤ i := Nat.cast_nonneg _
    have := Real.pi_gt_three
    norm_num
    nlinarith) i
  unfold bZero
  linarith

theorem refH_linear : RLinear refH.R where
  comb m x a v w y := by
    simp only [refH, add_mul, Finset.sum_add_distrib, Finset.mul_sum, mul_assoc]
  congr m x v w y h := by
    simp only [refH]
    exact Finset.sum_congr rfl fun i hi => by rw [h i (Finset.mem_range.1 hi)]

theorem refH_exact (a b atol rtol limit : ℝ) : QuadExact refH a b atol rtol limit where
  val _ _ := rfl
  len _ := le_rfl
  spl n x v _ := by
    change Continuous fun y => ∑ i ∈ Finset.range n, v i * ∏ k ∈ (Finset.range n).erase i, (y - x k) / (x i - x k)
    fun_prop
  J0 := Complex.continuous_re.comp J0_cont
  J1 := Complex.continuous_re.comp J1_cont

theorem marine_needs : Needs refH marineArgs := by
  refine needs_user (U := marine) (by norm_num [refH, Mins.init]) marine_valid marine_describes
    (c := (24, true, false)) ?_ (by norm_num) ?_ ?_ (by simp [numDipoles, marineArgs])
    (by simp [numDipoles, marineArgs]) (by simp [marineArgs]) (Or.inl fun h => ?_)
  · exact checkAb_digits (a := 2) (b := 4) (by norm_num) (by norm_num)
  · exact ⟨[0], [0], 950, rfl, by simp⟩
  · exact ⟨[1000, 2000, 3000], [0], 1000, rfl, by simp⟩
  · have := (h 0 (by simp [marine]) 1 (by simp [marine])).1
    norm_num [UserModel.rhoH, marine] at this

/-- QWE with its default arguments, the marine case: an array of shape (2, 3) after squeezing; the last value (10 Hz,
3000 m) is the closed-form direct field plus the QWE value of the field without it. -/
example : ∃ arr, (dipoleH refH marineArgs "qwe" []).val = .ok (NdArray.squeeze arr) ∧ arr.squeeze.shape = [2, 3] ∧
    ∃ θ', |θ' - 0| ≤ 1e-9 ∧ ∀ F Fh : ℝ → ℝ → PlaneField,
      let M := marine.medium (2 * Real.pi * Complex.I * (10 : ℝ))
      (∀ lam > 0, ∀ φ, IsPlaneField M (lam * Real.cos φ) (lam * Real.sin φ) 950 1 (unitDipole 4) (F lam φ)) →
      (∀ lam > 0, ∀ φ, IsPlaneField (M.homog 1) (lam * Real.cos φ) (lam * Real.sin φ) 950 0
        (unitDipole 4) (Fh lam φ)) →
      arr.get [1, 2, 0] = resp csqrt ([1, 10].map fun g => layerMed (marine.medium (sParam 1e-20 [1, 10] g)) 1) 1 2 4
          3000 0 950 1000 +
        qweRule ⟨1e-12, 1e-30, 1e-200, 1e200, fun _ => false⟩ (bZero refH 100) (refH.gauss 51) 100 3000 fun lam =>
          ringIntegral (fun φ => (F lam φ).comp 2 1 1000 - (Fh lam φ).comp 2 0 1000) lam 3000 θ' := by
  obtain ⟨d, hc, hd⟩ := qwe_default refH.C refH.lib refH.dflt marineArgs.verb
  have hg : ∀ q < (refH.gauss 51).n, |(refH.gauss 51).x q| ≤ 1 := by
    intro q hq
    change q < 51 at hq
    change |(-1 : ℝ) + (2 * q + 1) / (51 : ℕ)| ≤ 1
    have h0 : (0 : ℝ) ≤ q := Nat.cast_nonneg _
    have h1 : (q : ℝ) ≤ 50 := by exact_mod_cast Nat.le_of_lt_succ hq
    rw [abs_le]
    constructor <;> push_cast <;> linarith
  obtain ⟨arr, h1, h2, h3⟩ := C51_qwe_dipole (H := refH) (by norm_num [refH, Mins.init])
    (by norm_num [refH, Mins.init]) (by norm_num [refH, Mins.init]) safe_exact J0_real J1_real
    (by norm_num [refH]) hc hd (by norm_num) (by norm_num) (fun i _ => refH_zeros _ _) hg
    ⟨1, by simp [marineArgs], one_pos⟩ (U := marine) marine_valid marine_describes (a := 2) (b := 4) (by norm_num) (by norm_num) rfl
    (xs := [0]) (ys := [0]) (zs := 950) (xr := [1000, 2000, 3000]) (yr := [0]) (zr := 1000) rfl rfl (by simp)
    (by simp) (by simp [numDipoles, marineArgs]) (by simp [numDipoles, marineArgs])
  refine ⟨arr, h1, ?_, ?_⟩
  · simp only [NdArray.squeeze, h2]; simp [marineArgs, numDipoles]
  obtain ⟨θ', e1, e2⟩ := h3 1 2 0 (by simp [marineArgs]) (by simp [numDipoles, marineArgs])
    (by simp [numDipoles, marineArgs])
  have t0 : thetaOf (bc [1000, 2000, 3000] 2 - bc [0] 0) (bc [0] 2 - bc [0] 0) = 0 := by
    have : ((⟨3000, 0⟩ : ℂ)) = ((3000 : ℝ) : ℂ) := rfl
    simp [thetaOf, bc]
    rw [this]; exact Complex.arg_ofReal_of_nonneg (by norm_num)
  have r0 : rhoOf refH.m.minOff (bc [1000, 2000, 3000] 2 - bc [0] 0) (bc [0] 2 - bc [0] 0) = 3000 := by
    have : Real.sqrt (3000 ^ 2) = 3000 := Real.sqrt_sq (by norm_num)
    simp [rhoOf, bc, refH, Mins.init, this]
    norm_num
  have s0 : sParam refH.m.minFreq marineArgs.freq (marineArgs.freq[1]'(by simp [marineArgs])) =
      2 * Real.pi * Complex.I * (10 : ℝ) := by
    have : max (10 : ℝ) refH.m.minFreq = 10 := by norm_num [refH, Mins.init]
    rw [sParam, if_pos ⟨1, by simp [marineArgs], by norm_num⟩]
    rw [show (marineArgs.freq[1]'(by simp [marineArgs])) = 10 from rfl, this]
  rw [t0] at e1
  refine ⟨θ', e1, ?_⟩
  intro F Fh M hF hH
  simp only [s0, r0, t0, Real.cos_zero, Real.sin_zero, mul_one, mul_zero] at e2
  have hin : ∀ z, 0 < z → z ≤ 1000 → M.InUpper 1 z := by
    intro z z0 z1
    refine ⟨by norm_num, by norm_num [M, UserModel.medium, marine], fun _ => ?_, fun _ => ?_⟩
    · simpa [M, UserModel.medium, marine] using z0
    · simpa [M, UserModel.medium, marine] using z1
  have := e2 1 1 (hin 950 (by norm_num) (by norm_num)) (hin 1000 (by norm_num) (by norm_num)) F Fh hF hH
  rw [this]
  simp only [show marineArgs.xdirect = some true from rfl, ne_eq, Option.some.injEq, Bool.true_eq_false,
    not_false_eq_true, true_or, and_self, if_true]
  rfl

/-- QUAD with its default limits and points per decade applies its rule. -/
example : ∃ g d, lamGrid 1e-6 0.1 40 = .ok g ∧ HQuadSet d 1e-6 0.1 40 1e-12 1e-20 500 ∧
    Uses (backOf refH "quad" d) (quadRule refH g 1e-6 0.1) ∧ Runs refH "quad" d := by
  obtain ⟨g, hg, hl⟩ := lamGrid_ok (a := 1e-6) (b := 0.1) (ppd := 40) (by norm_num) (by norm_num) (by
    have h1 : Real.logb 10 (1e-6) = -6 := by
      rw [show (1e-6 : ℝ) = 10 ^ (-6 : ℝ) by norm_num [Real.rpow_neg], Real.logb_rpow (by norm_num) (by norm_num)]
    have h2 : Real.logb 10 (0.1) = -1 := by
      rw [show (0.1 : ℝ) = 10 ^ (-1 : ℝ) by norm_num [Real.rpow_neg], Real.logb_rpow (by norm_num) (by norm_num)]
    rw [h1, h2]; norm_num)
  have hd : HQuadSet [("a", .num 1e-6), ("b", .num 0.1), ("pts_per_dec", .num 40), ("rtol", .num 1e-12),
      ("atol", .num 1e-20), ("limit", .num 500)] 1e-6 0.1 40 1e-12 1e-20 500 :=
    ⟨rfl, rfl, rfl, rfl, rfl, rfl⟩
  exact ⟨g, _, hg, hd, C51_quad refH refH_linear hd (by norm_num) (by norm_num) hg hl (refH_exact ..),
    quad_runs refH hd (by norm_num) (by norm_num) hg hl⟩

/-- The method `'qu'` is not rejected with a message; the marine case ends in an `AttributeError`. -/
example : (dipoleH refH marineArgs "Qu" []).val = .error .attributeError := by
  refine C51_method_violated refH marineArgs marine_needs "Qu" [] (by decide) ?_
  intro p hp
  rw [table, if_neg (by decide)] at hp
  simp only [List.mem_cons, List.not_mem_nil, or_false] at hp
  rcases hp with rfl | rfl | rfl | rfl | rfl | rfl <;> exact ⟨_, rfl⟩

/-- ... but not for a component that vanishes: there `'Qu'` is as good as `'quad'` with any limits. -/
example : (dipoleH refH { marineArgs with ab := .int 36 } "Qu" []).val =
    (dipoleH refH { marineArgs with ab := .int 36 } "quad" [("b", .num 7)]).val := by
  have h0 : ∀ args : Dict, Readable refH.C (table "quad") args → ∃ r,
      (Args.checkHankel refH.C refH.lib refH.dflt "quad" args marineArgs.verb).val = .ok r := fun args hr =>
    (C27_values refH.C refH.lib refH.dflt "quad" args _ (Or.inr (by decide))).1.2
      (by rw [show lower "quad" = "quad" by decide]; exact hr)
  obtain ⟨r, hr⟩ := h0 [] (by
    intro p hp
    rw [table, if_neg (by decide)] at hp
    simp only [List.mem_cons, List.not_mem_nil, or_false] at hp
    rcases hp with rfl | rfl | rfl | rfl | rfl | rfl <;> exact ⟨_, rfl⟩)
  obtain ⟨r', hr'⟩ := h0 [("b", .num 7)] (by
    intro p hp
    rw [table, if_neg (by decide)] at hp
    simp only [List.mem_cons, List.not_mem_nil, or_false] at hp
    rcases hp with rfl | rfl | rfl | rfl | rfl | rfl <;> exact ⟨_, rfl⟩)
  refine C51_unneeded refH _ (Or.inl ⟨(36, true, false), checkAb_digits (a := 3) (b := 6) (by norm_num) (by norm_num), rfl⟩)
    (h := ("qu", r.2)) (h' := r') ?_ ?_
  · rw [hankel_same _ _ _ (by decide), C27_method_violated _ _ _ _ _ _ (by decide)]
    change _ = Except.ok _
    rw [hr]
    rfl
  · rw [hankel_same _ _ _ (by decide)]
    exact hr'

/-- A back end with constant functions in place of Bessel functions and splines. -/
noncomputable def flatH : HBack := { refH with J0 := fun _ => 1, J1 := fun _ => 0, R := fun _ _ v _ => v 0 }

theorem flatH_zeros (n i : ℕ) : bZero flatH n i = Real.pi * (1.25 + i) := by
  have h : ∀ x, newtonStep flatH x = 0 := fun x => by
    simp [newtonStep, flatH]
  have key : ∀ (left : ℕ) (b : ℕ → ℝ), newton flatH n left b = b := by
    intro left
    induction left with
    | zero => intro b; rfl
    | succ left ih =>
      intro b
      unfold newton
      simp only [h, add_zero, ih, ite_self]
  rw [bZero, key]

/-- Arguments of QWE with interpolation and two intervals. -/
noncomputable def flatArgs : Dict :=
    [("rtol", .num 1e-12), ("atol", .num 1e-30), ("nquad", .num (1 : ℕ)),
      ("maxint", .num (2 : ℕ)), ("pts_per_dec", .num 100), ("diff_quad", .num 100), ("a", .none), ("b", .none),
      ("limit", .none)]

theorem flatArgs_set : HQweSpl flatArgs 1 2 100 1e-12 1e-30 100 none none none :=
  ⟨rfl, rfl, rfl, rfl, rfl, rfl, rfl, rfl, rfl⟩

theorem log_two : (0.03 : ℝ) ≤ Real.logb 10 2 := by
  have h : Real.logb 10 (10 ^ 3) ≤ Real.logb 10 (2 ^ 100) :=
    Real.logb_le_logb_of_le (by norm_num) (by norm_num) (by norm_num)
  rw [Real.logb_pow, Real.logb_pow, Real.logb_self_eq_one (by norm_num)] at h
  push_cast at h
  linarith

theorem flat_lam : allLam (fun i : ℕ => Real.pi * (1.25 + i)) (flatH.gauss 1) 2 [(1, 0)] =
    [(Real.pi * 1.25 - 1e-20) / 2 + 1e-20, Real.pi * 1.75] := by
  simp [allLam, hBx, hInt, flatH, refH, List.range_succ]
  ring

theorem flat_runs : ∃ r, hankelRow flatH "qwe" flatArgs (some fun _ => 3, none, none) 33 [(1, 0)] = .ok r := by
  have hd := flatArgs_set
  have hz : bZero flatH 2 = fun i : ℕ => Real.pi * (1.25 + i) := funext fun i => flatH_zeros 2 i
  have hpi := Real.pi_gt_three
  have hlam := flat_lam
  obtain ⟨g, hg, hl⟩ := lamGrid_ok (a := (Real.pi * 1.25 - 1e-20) / 2 + 1e-20) (b := Real.pi * 1.75) (ppd := 100)
    (by norm_num; linarith) (by norm_num; linarith) (by
      have h2 := log_two
      rw [← Real.logb_div (by positivity) (by norm_num; linarith)]
      have : Real.logb 10 2 ≤ Real.logb 10 (Real.pi * 1.75 / ((Real.pi * 1.25 - 1e-20) / 2 + 1e-20)) := by
        refine Real.logb_le_logb_of_le (by norm_num) (by norm_num) ?_
        rw [le_div_iff₀ (by norm_num; linarith)]
        norm_num; linarith
      linarith)
  have hmm : (allLam (bZero flatH 2) (flatH.gauss 1) 2 [(1, 0)]).min?.getD 0 =
      (Real.pi * 1.25 - 1e-20) / 2 + 1e-20 ∧ (allLam (bZero flatH 2) (flatH.gauss 1) 2 [(1, 0)]).max?.getD 0 =
      Real.pi * 1.75 := by
    rw [hz, hlam]
    have : (Real.pi * 1.25 - 1e-20) / 2 + 1e-20 ≤ Real.pi * 1.75 := by norm_num; linarith
    exact ⟨by simp [this], by simp [this]⟩
  refine C51_splined_runs flatH hd (by norm_num) le_rfl le_rfl _ _ (by simp) (g := g) ?_ hl
  rw [hmm.1, hmm.2]
  exact hg

/-- A flat kernel is not steep: QWE with interpolation and two intervals. -/
example : ∃ r, hankelRow flatH "qwe" flatArgs (some fun _ => 3, none, none) 33 [(1, 0)] = .ok r ∧
    r.1 0 = qweRule ⟨1e-12, 1e-30, 1e-200, 1e200, fun _ => false⟩ (fun i => Real.pi * (1.25 + i)) (refH.gauss 1) 2 1
      fun _ => 3 := by
  have hz : bZero flatH 2 = fun i : ℕ => Real.pi * (1.25 + i) := funext fun i => flatH_zeros 2 i
  have hd := flatArgs_set
  obtain ⟨r, hr⟩ := flat_runs
  refine ⟨r, hr, ?_⟩
  obtain ⟨g', -, -, h1, -⟩ := C51_qwe_splined flatH hd (by norm_num) hr
  have h2 := h1 0 (by simp)
  have hker : ∀ l, kernelSum (interpK flatH.R g' (some fun _ => 3, none, none)) l = 3 := fun l => by
    simp only [kernelSum, interpK, KernelFn.at, interpC, interp, flatH, Option.map_some, Option.map_none,
      Option.getD_some, Option.getD_none, add_zero]
  rw [if_pos (by
    intro i _
    rw [hker, hker]
    norm_num)] at h2
  rw [h2, hz]
  unfold withBessel
  congr 1
  funext l
  simp only [KernelFn.at, interpK, interpC, interp, flatH, Option.map_some, Option.map_none, hankelIntegrand]
  apply Complex.ext <;> simp

end Verif.Props
