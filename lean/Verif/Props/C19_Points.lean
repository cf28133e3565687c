import Verif.Props.C18_Dlf

/-!
# C19 — lagged and splined DLF sample the right wavenumbers
-/

namespace Verif.Props
open Verif.Transform

/-- A filter with logarithmically spaced positive base, as all filters of the package have up to
rounding. -/
structure GeoFilter (F : Filter) : Prop where
  pos : 0 < F.base 0
  fac : 1 < F.factor
  n : 1 ≤ F.n
  geo : ∀ k, F.base k = F.base 0 * F.factor ^ k

theorem GeoFilter.log_pos {F : Filter} (h : GeoFilter F) : 0 < Real.log F.factor := Real.log_pos h.fac

theorem arange_nout (lo ppd : ℝ) (n : ℕ) (h : 0 < ppd) :
    arangeLen lo (lo + n / ppd) (1 / ppd) = n := by
  have : (lo + n / ppd - lo) / (1 / ppd) = (n : ℝ) := by field_simp; ring
  rw [arangeLen, this, Nat.ceil_natCast]

theorem outRange_log {F : Filter} (h : GeoFilter F) {a b : ℝ} (ha : 0 < a) (hb : 0 < b) :
    Real.log ((outRange F a b).2 / (outRange F a b).1) * (1 / Real.log F.factor) =
      ((F.n - 1 : ℕ) : ℝ) + Real.log (b / a) / Real.log F.factor := by
  have hf : 0 < F.factor := lt_trans one_pos h.fac
  have e : (outRange F a b).2 / (outRange F a b).1 = F.factor ^ (F.n - 1) * (b / a) := by
    have := h.pos.ne'
    simp only [outRange, h.geo (F.n - 1)]
    field_simp
  rw [e, Real.log_mul (pow_pos hf _).ne' (div_pos hb ha).ne', Real.log_pow]
  have := h.log_pos.ne'
  field_simp

/-- Number of interpolation offsets minus one. -/
theorem lagNout_ge {F : Filter} (h : GeoFilter F) {a b : ℝ} (ha : 0 < a) (hab : a ≤ b) :
    F.n + 3 ≤ lagNout F a b ∧
      Real.log (b / a) / Real.log F.factor ≤ ((lagNout F a b - F.n : ℕ) : ℝ) := by
  have hn := h.n
  unfold lagNout
  rw [outRange_log h ha (lt_of_lt_of_le ha hab)]
  generalize hL : Real.log (b / a) / Real.log F.factor = L
  have hc : ((F.n - 1 : ℕ) : ℝ) + L ≤ (⌈((F.n - 1 : ℕ) : ℝ) + L⌉₊ : ℝ) := Nat.le_ceil _
  generalize ⌈((F.n - 1 : ℕ) : ℝ) + L⌉₊ = c at hc
  have hn' : ((F.n - 1 : ℕ) : ℝ) = (F.n : ℝ) - 1 := by push_cast [hn]; ring
  rw [hn'] at hc
  simp only
  split_ifs with hs
  · refine ⟨le_rfl, ?_⟩
    have : (c : ℝ) ≤ F.n + 1 := by
      have : c ≤ F.n + 1 := by push_cast at hs; omega
      exact_mod_cast this
    rw [show F.n + 3 - F.n = 3 by omega]
    push_cast; linarith
  · have hle : F.n + 3 ≤ c + 1 := by push_cast at hs; omega
    refine ⟨hle, ?_⟩
    rw [Nat.cast_sub (by omega)]
    push_cast; linarith

/-- **C19, lagged convolution: windows.**  Row `i` of the rearranged signal holds exactly the values
at the wavenumbers that the standard DLF uses for the offset `intp i`. -/
theorem C19_window {F : Filter} (h : GeoFilter F) {a b : ℝ} (ha : 0 < a) (hab : a ≤ b) (out : ℕ → ℝ) :
    Windows (lagPoints F a b out) F := by
  have hb := lt_of_lt_of_le ha hab
  have hl := h.log_pos
  have hf : 0 < F.factor := lt_trans one_pos h.fac
  obtain ⟨h3, -⟩ := lagNout_ge h ha hab
  refine ⟨?_, fun i k _ _ => ?_, fun i => (mul_pos hb (Real.exp_pos _)).ne'⟩
  · simp only [lagPoints]
    rw [arange_nout _ _ _ (by positivity)]
    omega
  · have e1 : ∀ i : ℕ, Real.exp (i * Real.log F.factor) = F.factor ^ i := fun i => by
      rw [← Real.log_pow, Real.exp_log (pow_pos hf _)]
    simp only [lagPoints, arangeAt, outRange, one_div, inv_inv, div_inv_eq_mul, one_mul]
    rw [Real.exp_add, Real.exp_log (div_pos h.pos hb), e1, neg_mul, Real.exp_neg, e1, h.geo k, pow_add]
    field_simp

/-- **C19, lagged convolution: coverage.**  The interpolation offsets start at the largest offset,
decrease strictly, are at least four, and end at or below the smallest one. -/
theorem C19_lagged_cover {F : Filter} (h : GeoFilter F) {a b : ℝ} (ha : 0 < a) (hab : a ≤ b)
    (out : ℕ → ℝ) :
    let P := lagPoints F a b out
    4 ≤ P.m ∧ P.intp 0 = b ∧ P.intp (P.m - 1) ≤ a ∧ (∀ i, 0 < P.intp i) ∧ StrictAnti P.intp := by
  have hb := lt_of_lt_of_le ha hab
  have hl := h.log_pos
  obtain ⟨h3, hL⟩ := lagNout_ge h ha hab
  simp only [lagPoints, one_div, div_inv_eq_mul]
  refine ⟨by omega, by simp, ?_, fun i => mul_pos hb (Real.exp_pos _), fun i j hij => ?_⟩
  · rw [Nat.add_sub_cancel]
    have h1 : Real.log (b / a) ≤ ((lagNout F a b - F.n : ℕ) : ℝ) * Real.log F.factor := by
      rwa [div_le_iff₀ hl] at hL
    calc b * Real.exp (-((lagNout F a b - F.n : ℕ) : ℝ) * Real.log F.factor)
        ≤ b * Real.exp (-Real.log (b / a)) := by
          gcongr
          linarith
      _ = a := by
          rw [Real.exp_neg, Real.exp_log (div_pos hb ha)]
          field_simp
  · have : (i : ℝ) < j := by exact_mod_cast hij
    refine mul_lt_mul_of_pos_left (Real.exp_lt_exp.2 ?_) hb
    nlinarith

/-- **C19, splined DLF: coverage.**  At least four wavenumbers, strictly increasing; every wavenumber
that the standard DLF uses for an offset in the range lies between the first and the last. -/
theorem C19_splined_cover (F : Filter) (hpos : 0 < F.base 0)
    (hmono : ∀ k < F.n, F.base 0 ≤ F.base k ∧ F.base k ≤ F.base (F.n - 1))
    {a b ppd : ℝ} (ha : 0 < a) (hab : a ≤ b) (hp : 0 < ppd) (out : ℕ → ℝ) :
    let P := splPoints F a b ppd out
    4 ≤ P.nout ∧ StrictMono P.points ∧
      ∀ k < F.n, ∀ r, a ≤ r → r ≤ b →
        P.points 0 ≤ F.base k / r ∧ F.base k / r ≤ P.points (P.nout - 1) := by
  have hb := lt_of_lt_of_le ha hab
  simp only [splPoints]
  rw [arange_nout _ _ _ hp]
  have hN : 4 ≤ splNout F a b ppd ∧
      Real.logb 10 ((outRange F a b).2 / (outRange F a b).1) * ppd ≤
        ((splNout F a b ppd - 1 : ℕ) : ℝ) := by
    unfold splNout
    have hc := Nat.le_ceil (Real.logb 10 ((outRange F a b).2 / (outRange F a b).1) * ppd)
    generalize ⌈Real.logb 10 ((outRange F a b).2 / (outRange F a b).1) * ppd⌉₊ = c at hc
    simp only
    split_ifs with hs
    · refine ⟨le_rfl, hc.trans ?_⟩
      have : c ≤ 3 := by omega
      exact_mod_cast this
    · exact ⟨by omega, by simpa using hc⟩
  refine ⟨hN.1, fun i j hij => ?_, fun k hk r har hrb => ?_⟩
  · have : (i : ℝ) < j := by exact_mod_cast hij
    apply Real.rpow_lt_rpow_of_exponent_lt (by norm_num)
    simp only [arangeAt]
    gcongr
  · have hr := lt_of_lt_of_le ha har
    obtain ⟨hm1, hm2⟩ := hmono k hk
    have hbk := lt_of_lt_of_le hpos hm1
    have hbn := lt_of_lt_of_le hbk hm2
    have h1 : 0 < (outRange F a b).1 := div_pos hpos hb
    have h2 : 0 < (outRange F a b).2 := div_pos hbn ha
    have e : (10 : ℝ) ^ Real.logb 10 (outRange F a b).1 = (outRange F a b).1 :=
      Real.rpow_logb (by norm_num) (by norm_num) h1
    constructor
    · simp only [arangeAt, Nat.cast_zero, zero_mul, add_zero, e]
      exact div_le_div₀ hbk.le hm1 hr hrb
    · have h3 : F.base k / r ≤ (outRange F a b).2 := div_le_div₀ hbn.le hm2 ha har
      refine h3.trans ?_
      have h4 : Real.logb 10 (outRange F a b).2 ≤
          arangeAt (Real.logb 10 (outRange F a b).1) (1 / ppd) (splNout F a b ppd - 1) := by
        have := hN.2
        rw [Real.logb_div h2.ne' h1.ne'] at this
        rw [arangeAt, mul_one_div, ← sub_le_iff_le_add', le_div_iff₀ hp]
        exact this
      calc (outRange F a b).2 = (10 : ℝ) ^ Real.logb 10 (outRange F a b).2 :=
            (Real.rpow_logb (by norm_num) (by norm_num) h2).symm
        _ ≤ _ := Real.rpow_le_rpow_of_exponent_le (by norm_num) h4

/-- **C19, lagged convolution: values.**  The lagged transform interpolates the standard transform:
at the interpolation offsets themselves, a spline through its points returns the standard result. -/
theorem C19_lagged_standard {F : Filter} (h : GeoFilter F) {a b : ℝ} (ha : 0 < a) (hab : a ≤ b)
    (out : ℕ → ℝ) (R : RSpl) (hR : RLinear R)
    (hint : ∀ m x v i, i < m → R m x v (x i) = v i)
    (f : KernelFn) (hf : f.given) (ang : List ℝ) (ab j : ℕ) (hj : j < ang.length) (i : ℕ)
    (hi : i < (lagPoints F a b out).m) (ho : out j = (lagPoints F a b out).intp i) :
    dlfHankel R .lagged F (lagPoints F a b out)
        (sampled f fun _ k => (lagPoints F a b out).points k) (some ang) ab j =
      some (filterSum F f ab (out j) ang[j]) := by
  have hW := C19_window h ha hab out
  rw [C18_lagged R hR F _ hW f ang ab j hf hj]
  have hne : ((lagPoints F a b out).intp i : ℂ) ≠ 0 := by exact_mod_cast hW.ne i
  generalize hP : lagPoints F a b out = P at *
  have hout : P.out j = P.intp i := by rw [← ho, ← hP]; rfl
  have hrev : P.m - 1 - (P.m - 1 - i) = i := by omega
  have key : ∀ v : ℕ → ℂ, splineRev R P.m v P.intp (P.intp i) = v i := by
    intro v
    have hx : Real.log (P.intp i) = (fun q => Real.log (P.intp (P.m - 1 - q))) (P.m - 1 - i) := by
      simp only [hrev]
    simp only [splineRev, spline]
    rw [hx, hint P.m _ _ _ (by omega), hint P.m _ _ _ (by omega), hrev, mul_comm]
    exact Complex.re_add_im _
  rw [hout, key, ho, mul_div_cancel_right₀ _ hne]

/-- A filter with three points, base 1, 2, 4; offsets from 1 to 8: the interpolation offsets are
8, 4, 2, 1, and there are six wavenumbers 1/8, ..., 4. -/
example (F : Filter) (hn : F.n = 3) (hf : F.factor = 2) (hb : ∀ k : ℕ, F.base k = 2 ^ k)
    (out : ℕ → ℝ) : (lagPoints F 1 8 out).nout = 6 ∧ (lagPoints F 1 8 out).m = 4 ∧
      (lagPoints F 1 8 out).intp 3 = 1 := by
  have hG : GeoFilter F := ⟨by rw [hb]; norm_num, by rw [hf]; norm_num, by omega, fun k => by
    rw [hb, hb, hf]; simp⟩
  have hl : 0 < Real.log 2 := Real.log_pos (by norm_num)
  have h8 : Real.log 8 = 3 * Real.log 2 := by
    rw [show (8 : ℝ) = 2 ^ 3 by norm_num, Real.log_pow]; norm_num
  have hN : lagNout F 1 8 = 6 := by
    unfold lagNout
    rw [outRange_log hG one_pos (by norm_num), hn, hf, div_one, h8, mul_div_cancel_right₀ _ hl.ne']
    have : ((3 - 1 : ℕ) : ℝ) + 3 = ((5 : ℕ) : ℝ) := by norm_num
    rw [this, Nat.ceil_natCast]
    norm_num
  refine ⟨?_, ?_, ?_⟩
  · simp only [lagPoints, hN]
    rw [arange_nout _ _ _ (by rw [hf]; positivity)]
  · simp only [lagPoints, hN, hn]
  · simp only [lagPoints, hf, one_div, div_inv_eq_mul, neg_mul, Real.exp_neg]
    have : ((3 : ℕ) : ℝ) * Real.log 2 = Real.log 8 := by rw [h8]; norm_num
    rw [this, Real.exp_log (by norm_num)]
    norm_num

end Verif.Props
