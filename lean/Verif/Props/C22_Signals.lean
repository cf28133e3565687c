import Verif.Model.Tem
import Verif.Lemmas.FourierStep
import Verif.Props.C18_Dlf
import Verif.Props.C23_Waveform

/-!
# C22 — switch-on and switch-off responses are consistent
-/

namespace Verif.Props
open Verif.Tem Verif.FourierStep MeasureTheory Set Real Verif.Py

/-! ## Specification -/

/-- Frequency-domain response at angular frequency `w` of the impulse response `e`. -/
noncomputable def spectrum (e : ℝ → ℝ) (w : ℝ) : ℂ :=
  ∫ t in Ioi 0, (e t : ℂ) * Complex.exp (-(Complex.I * w * t))

/-- Sine transform of minus the imaginary part, or cosine transform of the real part. -/
noncomputable def fourierInt (sine : Bool) (E : ℝ → ℂ) (t : ℝ) : ℝ :=
  if sine then ∫ w in Ioi 0, -(E w).im * sin (w * t) else ∫ w in Ioi 0, (E w).re * cos (w * t)

/-- An impulse response for which the transforms converge. -/
structure Impulse (e : ℝ → ℝ) : Prop where
  integrable : IntegrableOn e (Ioi 0)
  continuous : ContinuousOn e (Ioi 0)
  re : IntegrableOn (fun w => (spectrum e w).re) (Ioi 0)
  im : IntegrableOn (fun w => (spectrum e w).im) (Ioi 0)
  imDiv : IntegrableOn (fun w => (spectrum e w).im / w) (Ioi 0)

/-- The transform is exact for the spectrum `E`: from the samples at the frequencies it gives the integral
at the times. -/
def ExactTransform (trf : (ℕ → ℂ) → List ℝ × Bool) (sine : Bool) (freq : ℕ → ℝ) (times : List ℝ)
    (E : ℝ → ℂ) : Prop :=
  (trf fun n => E (2 * π * freq n)).1 = times.map (fourierInt sine E)

/-! ## Integrals -/

theorem spectrum_integrable {e : ℝ → ℝ} (he : IntegrableOn e (Ioi 0)) (w : ℝ) :
    IntegrableOn (fun t => (e t : ℂ) * Complex.exp (-(Complex.I * w * t))) (Ioi 0) := by
  have he' : IntegrableOn (fun t => (e t : ℂ)) (Ioi 0) := he.ofReal
  refine he'.mul_bdd (c := 1) ?_ (Filter.Eventually.of_forall fun t => ?_)
  · exact (by fun_prop : Continuous fun t : ℝ =>
      Complex.exp (-(Complex.I * w * t))).aestronglyMeasurable
  · rw [show -(Complex.I * w * t) = ((-(w * t) : ℝ) : ℂ) * Complex.I by push_cast; ring,
      Complex.norm_exp_ofReal_mul_I]

theorem exp_parts (x w t : ℝ) :
    ((x : ℂ) * Complex.exp (-(Complex.I * w * t))).re = x * cos (w * t) ∧
    ((x : ℂ) * Complex.exp (-(Complex.I * w * t))).im = -(x * sin (w * t)) := by
  rw [show -(Complex.I * w * t) = ((-(w * t) : ℝ) : ℂ) * Complex.I by push_cast; ring,
    Complex.re_ofReal_mul, Complex.im_ofReal_mul, Complex.exp_ofReal_mul_I_re,
    Complex.exp_ofReal_mul_I_im, cos_neg, sin_neg]
  exact ⟨rfl, by ring⟩

theorem spectrum_re {e : ℝ → ℝ} (he : IntegrableOn e (Ioi 0)) (w : ℝ) :
    (spectrum e w).re = cosInt e w := by
  unfold spectrum cosInt
  have := (integral_re (spectrum_integrable he w)).symm
  simp only [RCLike.re_eq_complex_re] at this
  rw [this]
  simp only [(exp_parts _ _ _).1]

theorem spectrum_im {e : ℝ → ℝ} (he : IntegrableOn e (Ioi 0)) (w : ℝ) :
    (spectrum e w).im = -sinInt e w := by
  unfold spectrum sinInt
  have := (integral_im (spectrum_integrable he w)).symm
  simp only [RCLike.im_eq_complex_im] at this
  rw [this]
  simp only [(exp_parts _ _ _).2, integral_neg]

theorem Impulse.cosOn {e : ℝ → ℝ} (h : Impulse e) : IntegrableOn (cosInt e) (Ioi 0) := by
  have := h.re
  simpa only [spectrum_re h.integrable] using this

theorem Impulse.sinOn {e : ℝ → ℝ} (h : Impulse e) : IntegrableOn (sinInt e) (Ioi 0) := by
  have := h.im.neg
  simpa only [spectrum_im h.integrable, Pi.neg_def, neg_neg] using this

theorem Impulse.sinDivOn {e : ℝ → ℝ} (h : Impulse e) : IntegrableOn (fun w => sinInt e w / w) (Ioi 0) := by
  have := h.imDiv.neg
  simpa only [spectrum_im h.integrable, Pi.neg_def, neg_div, neg_neg] using this

/-- The scaled spectrum, as function of the angular frequency. -/
noncomputable def scaled (s : ℝ) (e : ℝ → ℝ) (w : ℝ) : ℂ := spectrum e w * scale s (w / (2 * π))

theorem scaled_sample (s : ℝ) (e : ℝ → ℝ) (f : ℝ) :
    scaled s e (2 * π * f) = spectrum e (2 * π * f) * scale s f := by
  unfold scaled
  rw [mul_div_cancel_left₀ f (by positivity : (2 * π : ℝ) ≠ 0)]

theorem scale_impulse {s : ℝ} (h1 : s ≠ -1) (h2 : s ≠ 1) (f : ℝ) : scale s f = 1 := by
  simp [scale, h1, h2]

theorem scale_on (w : ℝ) : scale 1 (w / (2 * π)) = -Complex.I * (1 / w : ℝ) := by
  have hp : (π : ℂ) ≠ 0 := by exact_mod_cast pi_ne_zero
  rw [scale, if_pos (Or.inr rfl)]
  push_cast
  by_cases hw : (w : ℂ) = 0
  · simp [hw]
  · have := Complex.I_ne_zero
    field_simp
    rw [Complex.I_sq]; norm_num

theorem scale_off (w : ℝ) : scale (-1) (w / (2 * π)) = Complex.I * (1 / w : ℝ) := by
  have h : scale (-1) (w / (2 * π)) = -scale 1 (w / (2 * π)) := by
    simp [scale, neg_div]
  rw [h, scale_on]; ring

theorem fourier_impulse {e : ℝ → ℝ} (h : Impulse e) {s : ℝ} (h1 : s ≠ -1) (h2 : s ≠ 1) (sine : Bool)
    {t : ℝ} (ht : 0 < t) : fourierInt sine (scaled s e) t * (2 / π) = e t := by
  have hE : scaled s e = spectrum e := by
    funext w; simp [scaled, scale_impulse h1 h2]
  rw [hE, mul_comm]
  unfold fourierInt
  cases sine
  · simp only [Bool.false_eq_true, if_false, spectrum_re h.integrable]
    exact cos_inversion h.integrable h.continuous h.cosOn ht
  · simp only [if_true, spectrum_im h.integrable, neg_neg]
    exact sin_inversion h.integrable h.continuous h.sinOn ht

theorem fourier_on {e : ℝ → ℝ} (h : Impulse e) {t : ℝ} (ht : 0 < t) :
    fourierInt true (scaled 1 e) t * (2 / π) = ∫ x in (0 : ℝ)..t, e x := by
  rw [← step_on h.integrable h.continuous h.cosOn ht, mul_comm]
  unfold fourierInt scaled
  simp only [if_true, scale_on]
  congr 1
  refine integral_congr_ae (Filter.Eventually.of_forall fun w => ?_)
  simp only
  rw [← spectrum_re h.integrable]
  congr 1
  rw [← mul_assoc, Complex.im_mul_ofReal]
  simp
  ring

theorem fourier_off {e : ℝ → ℝ} (h : Impulse e) {t : ℝ} (ht : 0 < t) :
    fourierInt false (scaled (-1) e) t * (2 / π) = ∫ x in Ioi t, e x := by
  rw [← step_off h.integrable h.continuous h.sinOn h.sinDivOn ht, mul_comm]
  unfold fourierInt scaled
  simp only [Bool.false_eq_true, if_false, scale_off]
  congr 1
  refine integral_congr_ae (Filter.Eventually.of_forall fun w => ?_)
  simp only
  have := spectrum_im h.integrable w
  rw [← mul_assoc, Complex.re_mul_ofReal]
  simp
  rw [this]
  ring

/-! ## The signals -/

theorem tem_column (trf : (ℕ → ℂ) → List ℝ × Bool) (sine : Bool) (freq : ℕ → ℝ) (times : List ℝ)
    (e : ℕ → ℝ → ℝ) (noff : ℕ) (s : ℝ) (conv : Bool) (i : ℕ)
    (hex : ExactTransform trf sine freq times (scaled s (e i))) :
    (tem trf (fun n i => spectrum (e i) (2 * π * freq n)) freq noff s none conv).1 i =
      times.map fun t => fourierInt sine (scaled s (e i)) t * (2 / π) := by
  unfold tem
  simp only
  unfold ExactTransform at hex
  simp only [scaled_sample] at hex
  rw [hex, List.map_map]
  rfl

/-- **C22, impulse.**  With a transform that is exact for the response, a signal other than ±1 gives the
impulse response, whether the sine or the cosine transform is selected. -/
theorem C22_impulse (trf : (ℕ → ℂ) → List ℝ × Bool) (sine : Bool) (freq : ℕ → ℝ) (times : List ℝ)
    (ht : ∀ t ∈ times, 0 < t) (e : ℕ → ℝ → ℝ) (he : ∀ i, Impulse (e i)) (noff : ℕ) (s : ℝ) (h1 : s ≠ -1)
    (h2 : s ≠ 1) (conv : Bool) (i : ℕ) (hex : ExactTransform trf sine freq times (scaled s (e i))) :
    (tem trf (fun n i => spectrum (e i) (2 * π * freq n)) freq noff s none conv).1 i =
      times.map (e i) := by
  rw [tem_column trf sine freq times e noff s conv i hex]
  exact List.map_congr_left fun t htt => fourier_impulse (he i) h1 h2 sine (ht t htt)

/-- **C22, switch-on.**  With the sine transform, which is what is selected, signal 1 gives the integral of
the impulse response from zero. -/
theorem C22_on (trf : (ℕ → ℂ) → List ℝ × Bool) (freq : ℕ → ℝ) (times : List ℝ)
    (ht : ∀ t ∈ times, 0 < t) (e : ℕ → ℝ → ℝ) (he : ∀ i, Impulse (e i)) (noff : ℕ)
    (conv : Bool) (i : ℕ) (hex : ExactTransform trf true freq times (scaled 1 (e i))) :
    (tem trf (fun n i => spectrum (e i) (2 * π * freq n)) freq noff 1 none conv).1 i =
      times.map fun t => ∫ x in (0 : ℝ)..t, e i x := by
  rw [tem_column trf true freq times e noff 1 conv i hex]
  exact List.map_congr_left fun t htt => fourier_on (he i) (ht t htt)

/-- **C22, switch-off.**  With the cosine transform, which is what is selected, signal −1 gives the
integral of the impulse response to infinity. -/
theorem C22_off (trf : (ℕ → ℂ) → List ℝ × Bool) (freq : ℕ → ℝ) (times : List ℝ)
    (ht : ∀ t ∈ times, 0 < t) (e : ℕ → ℝ → ℝ) (he : ∀ i, Impulse (e i)) (noff : ℕ)
    (conv : Bool) (i : ℕ) (hex : ExactTransform trf false freq times (scaled (-1) (e i))) :
    (tem trf (fun n i => spectrum (e i) (2 * π * freq n)) freq noff (-1) none conv).1 i =
      times.map fun t => ∫ x in Ioi t, e i x := by
  rw [tem_column trf false freq times e noff (-1) conv i hex]
  exact List.map_congr_left fun t htt => fourier_off (he i) (ht t htt)

/-- **C22, consistency.**  Switch-on and switch-off responses add up to the response at frequency zero, at
every time. -/
theorem C22_sum (on off : (ℕ → ℂ) → List ℝ × Bool) (freq freq' : ℕ → ℝ) (times : List ℝ)
    (ht : ∀ t ∈ times, 0 < t) (e : ℕ → ℝ → ℝ) (he : ∀ i, Impulse (e i)) (noff : ℕ)
    (conv conv' : Bool) (i : ℕ) (hon : ExactTransform on true freq times (scaled 1 (e i)))
    (hoff : ExactTransform off false freq' times (scaled (-1) (e i))) :
    List.zipWith (· + ·)
      ((tem on (fun n i => spectrum (e i) (2 * π * freq n)) freq noff 1 none conv).1 i)
      ((tem off (fun n i => spectrum (e i) (2 * π * freq' n)) freq' noff (-1) none conv').1 i) =
      times.map fun _ => (spectrum (e i) 0).re := by
  rw [C22_on on freq times ht e he noff conv i hon, C22_off off freq' times ht e he noff conv' i hoff,
    List.zipWith_map, List.zipWith_self]
  refine List.map_congr_left fun t htt => ?_
  have hi := (he i).integrable
  rw [spectrum_re hi, intervalIntegral.integral_of_le (ht t htt).le,
    ← setIntegral_union (Set.Ioc_disjoint_Ioi le_rfl) measurableSet_Ioi
      (hi.mono_set Ioc_subset_Ioi_self) (hi.mono_set (Ioi_subset_Ioi (ht t htt).le)),
    Ioc_union_Ioi_eq_Ioi (ht t htt).le]
  simp [cosInt]

/-- **C22, selection.**  Digital filters use the sine for switch-on, the cosine for switch-off, what the
user wants for the impulse, and reject other names; QWE and FFTLog use the cosine for switch-off only. -/
theorem C22_selection (user : String) :
    (dlfKind 1 user).val = .ok true ∧ (dlfKind (-1) user).val = .ok false ∧
    (dlfKind 0 "sin").val = .ok true ∧ (dlfKind 0 "cos").val = .ok false ∧
    (user ≠ "sin" → user ≠ "cos" → (dlfKind 0 user).val = .error .valueError) ∧
    isSine 1 = true ∧ isSine 0 = true ∧ isSine (-1) = false := by
  refine ⟨by simp [dlfKind], ?_, by simp [dlfKind], by simp [dlfKind], ?_, by simp [isSine],
    by simp [isSine], ?_⟩
  · have : ¬ ((-1 : ℝ) > 0) := by norm_num
    have h2 : (-1 : ℝ) < 0 := by norm_num
    simp [dlfKind, this, h2]
  · intro h1 h2; simp [dlfKind, h1, h2]
  · have : ¬ ((-1 : ℝ) ≥ 0) := by norm_num
    simp [isSine, this]

/-- **C22, convergence.**  The result is flagged as converged exactly if it was before and the transforms
of all offsets converged. -/
theorem C22_convergence (trf : (ℕ → ℂ) → List ℝ × Bool) (fEM : ℕ → ℕ → ℂ) (freq : ℕ → ℝ) (noff : ℕ)
    (s : ℝ) (wave : Option (List ℝ → List ℝ)) (conv : Bool) :
    (tem trf fEM freq noff s wave conv).2 = true ↔
      conv = true ∧ ∀ i < noff, (trf fun n => fEM n i * scale s (freq n)).2 = true := by
  simp [tem]

theorem trunc_mem (s : ℝ) : (trunc s = -1 ∨ trunc s = 0 ∨ trunc s = 1) ↔ -2 < s ∧ s < 2 := by
  unfold trunc
  split_ifs with h
  · simp only [Int.floor_eq_iff]
    push_cast
    constructor
    · rintro (h | h | h) <;> constructor <;> linarith
    · rintro ⟨-, h2⟩
      by_cases h1 : s < 1
      · right; left; constructor <;> linarith
      · right; right; constructor <;> linarith
  · simp only [Int.ceil_eq_iff]
    push_cast
    constructor
    · rintro (h | h | h) <;> constructor <;> linarith
    · rintro ⟨h2, -⟩
      by_cases h1 : -1 < s
      · right; left; constructor <;> linarith
      · left; constructor <;> linarith

/-- **C22, accepted signals.**  Only the integer part is checked: every number between −2 and 2 is
accepted. -/
theorem C22_accepted (s : ℝ) : (checkSignal s).val = .ok () ↔ -2 < s ∧ s < 2 := by
  rw [← trunc_mem]
  unfold checkSignal
  split_ifs with h
  · simp [h]
  · simp [h]

/-- **C22, violated for other numbers.**  The documentation allows −1, 0 and 1 only.  The signal −1.5 is
accepted and gives the impulse response. -/
theorem C22_signal_violated (trf : (ℕ → ℂ) → List ℝ × Bool) (fEM : ℕ → ℕ → ℂ) (freq : ℕ → ℝ) (noff : ℕ)
    (wave : Option (List ℝ → List ℝ)) (conv : Bool) :
    (checkSignal (-3 / 2)).val = .ok () ∧
    tem trf fEM freq noff (-3 / 2) wave conv = tem trf fEM freq noff 0 wave conv := by
  refine ⟨(C22_accepted _).2 (by norm_num), ?_⟩
  unfold tem
  have h1 : ∀ f, scale (-3 / 2) f = scale 0 f := fun f => by
    rw [scale_impulse (by norm_num) (by norm_num), scale_impulse (by norm_num) (by norm_num)]
  simp only [h1]

/-- **C22, waveform.**  With a waveform, the column of an offset is the superposition of the segments for
the response of the signal in the waveform. -/
theorem C22_waveform (trf : (ℕ → ℂ) → List ℝ × Bool) (sine : Bool) (freq : ℕ → ℝ) (times : List ℝ)
    (e : ℕ → ℝ → ℝ) (noff : ℕ) (s : ℝ) (conv : Bool) (i : ℕ) (Q : Waveform.Quad) (tmin : ℝ)
    (nodes amps ct : List ℝ) (app : List ℝ → List ℝ)
    (h : Waveform.checkWaveform Q tmin times nodes amps = some (ct, app))
    (hex : ExactTransform trf sine freq ct (scaled s (e i))) :
    (tem trf (fun n i => spectrum (e i) (2 * π * freq n)) freq noff s (some app) conv).1 i =
      times.map fun t => ((Waveform.segments nodes amps).map (contribution Q
        (fun x => fourierInt sine (scaled s (e i)) (max x tmin) * (2 / π)) t)).sum := by
  have h1 := tem_column trf sine freq ct e noff s conv i hex
  rw [← C23_superposition Q tmin times nodes amps ct app h
    fun t => fourierInt sine (scaled s (e i)) t * (2 / π), ← h1]
  rfl

/-! ## FFT -/

/-- Interpolation commutes with the sign. -/
theorem rspl_neg {R : Transform.RSpl} (hR : RLinear R) (m : ℕ) (x v : ℕ → ℝ) (y : ℝ) :
    R m x (fun i => -v i) y = -R m x v y := by
  have h0 : R m x (fun _ => 0) y = 0 := by
    have := hR.comb m x (-1) (fun _ => 0) (fun _ => 0) y
    simpa using this
  have := hR.comb m x (-1) v (fun _ => 0) y
  simp only [neg_mul, one_mul, add_zero] at this
  rw [this, h0, add_zero]

theorem fft_neg {R : Transform.RSpl} (hR : RLinear R) (pts : Bool) (m : ℕ) (freq : ℕ → ℝ) (dfreq : ℝ)
    (nfreq ntot : ℕ) (x : ℕ → ℂ) (t : ℝ) :
    fourierFft R pts m freq dfreq nfreq ntot (fun n => -x n) t =
      -fourierFft R pts m freq dfreq nfreq ntot x t := by
  have h1 : fftInput R pts m freq dfreq (fun n => -x n) = fun k => -fftInput R pts m freq dfreq x k := by
    unfold fftInput
    cases pts
    · simp
    · funext k
      simp only [if_true, Transform.spline, Complex.neg_re, Complex.neg_im, rspl_neg hR]
      push_cast; ring
  have h2 : ∀ y : ℕ → ℂ, padRamp nfreq ntot (fun k => -y k) = fun k => -padRamp nfreq ntot y k := by
    intro y; funext k; unfold padRamp; split_ifs <;> simp
  have h3 : ∀ y : ℕ → ℂ, fftIn ntot (fun k => -y k) = fun k => -fftIn ntot y k := by
    intro y; funext k; unfold fftIn; split_ifs <;> simp
  have h4 : ∀ y : ℕ → ℂ, fftSeries ntot dfreq (fun k => -y k) = fun k => -fftSeries ntot dfreq y k := by
    intro y; funext k
    simp only [fftSeries, h3, ifft, neg_mul, Finset.sum_neg_distrib, neg_div, Complex.neg_re, mul_neg]
  unfold fourierFft
  rw [h1, h2, h4, rspl_neg hR]
  ring

/-- The transform of `tem` for the FFT, for a list of times. -/
noncomputable def fftTrf (R : Transform.RSpl) (pts : Bool) (m : ℕ) (freq : ℕ → ℝ) (dfreq : ℝ)
    (nfreq ntot : ℕ) (times : List ℝ) (x : ℕ → ℂ) : List ℝ × Bool :=
  (times.map (fourierFft R pts m freq dfreq nfreq ntot x), true)

/-- **C22, violated for the FFT.**  `fourier_fft` does not distinguish sine and cosine: for every response
the switch-on and switch-off responses add up to zero instead of the response at frequency zero. -/
theorem C22_fft_violated {R : Transform.RSpl} (hR : RLinear R) (pts : Bool) (m : ℕ) (freq : ℕ → ℝ)
    (dfreq : ℝ) (nfreq ntot : ℕ) (times : List ℝ) (fEM : ℕ → ℕ → ℂ) (noff : ℕ) (conv : Bool) (i : ℕ) :
    List.zipWith (· + ·)
      ((tem (fftTrf R pts m freq dfreq nfreq ntot times) fEM freq noff 1 none conv).1 i)
      ((tem (fftTrf R pts m freq dfreq nfreq ntot times) fEM freq noff (-1) none conv).1 i) =
      times.map fun _ => 0 := by
  have h : (fun n => fEM n i * scale (-1) (freq n)) = fun n => -(fEM n i * scale 1 (freq n)) := by
    funext n
    simp [scale, neg_div]
  simp only [tem, h, fftTrf, List.map_map, List.zipWith_map, List.zipWith_self]
  refine List.map_congr_left fun t _ => ?_
  simp only [Function.comp, fft_neg hR]
  ring

/-! ## Example: the impulse response `t exp(-t)` -/

theorem tExp_integrable : IntegrableOn (fun t : ℝ => t * rexp (-t)) (Ioi 0) := by
  have := Real.GammaIntegral_convergent (s := 2) (by norm_num)
  refine this.congr_fun (fun x _ => ?_) measurableSet_Ioi
  norm_num
  ring

theorem tExp_spectrum (w : ℝ) : spectrum (fun t => t * rexp (-t)) w = 1 / (1 + Complex.I * w) ^ 2 := by
  set r : ℂ := 1 + Complex.I * w with hr
  have hr0 : r ≠ 0 := by
    intro h
    have := congrArg Complex.re h
    simp [hr] at this
  have hre : ∀ t : ℝ, ((-t : ℝ) : ℂ) * r = ((-t : ℝ) : ℂ) + -(Complex.I * w * t) := by
    intro t; rw [hr]; push_cast; ring
  have hint : IntegrableOn (fun t : ℝ => (t : ℂ) * Complex.exp (((-t : ℝ) : ℂ) * r)) (Ioi 0) := by
    refine (spectrum_integrable tExp_integrable w).congr_fun (fun t _ => ?_) measurableSet_Ioi
    simp only
    rw [hre, Complex.exp_add]
    push_cast
    ring
  have hd : ∀ t ∈ Ici (0 : ℝ), HasDerivAt
      (fun t : ℝ => -((t : ℂ) / r + 1 / r ^ 2) * Complex.exp (((-t : ℝ) : ℂ) * r))
      ((t : ℂ) * Complex.exp (((-t : ℝ) : ℂ) * r)) t := by
    intro t _
    have h1 : HasDerivAt (fun t : ℝ => (t : ℂ)) 1 t := Complex.ofRealCLM.hasDerivAt
    have h2 : HasDerivAt (fun t : ℝ => ((-t : ℝ) : ℂ) * r) (-1 * r) t := by
      have : HasDerivAt (fun t : ℝ => ((-t : ℝ) : ℂ)) (-1) t :=
        h1.neg.congr_of_eventuallyEq (Filter.Eventually.of_forall fun x => by simp)
      exact this.mul_const r
    have h3 := (((h1.div_const r).add_const (1 / r ^ 2)).neg).mul h2.cexp
    refine (h3.congr_deriv ?_)
    simp only [Pi.neg_apply]
    field_simp
    ring
  have hlim : Filter.Tendsto
      (fun t : ℝ => -((t : ℂ) / r + 1 / r ^ 2) * Complex.exp (((-t : ℝ) : ℂ) * r)) Filter.atTop
      (nhds 0) := by
    have hb : Filter.Tendsto (fun t : ℝ => (t * rexp (-t)) * ‖r‖⁻¹ + rexp (-t) * (‖r‖⁻¹) ^ 2)
        Filter.atTop (nhds 0) := by
      have h1 := (Real.tendsto_pow_mul_exp_neg_atTop_nhds_zero 1).mul_const ‖r‖⁻¹
      have h2 := (Real.tendsto_exp_neg_atTop_nhds_zero).mul_const ((‖r‖⁻¹) ^ 2)
      simpa using h1.add h2
    refine squeeze_zero_norm' ?_ hb
    filter_upwards [Filter.eventually_ge_atTop 0] with t ht
    rw [norm_mul, norm_neg, Complex.norm_exp]
    have hex : (((-t : ℝ) : ℂ) * r).re = -t := by simp [hr]
    rw [hex]
    have : ‖(t : ℂ) / r + 1 / r ^ 2‖ ≤ t * ‖r‖⁻¹ + (‖r‖⁻¹) ^ 2 := by
      refine (norm_add_le _ _).trans ?_
      simp [abs_of_nonneg ht, div_eq_mul_inv]
    calc _ ≤ (t * ‖r‖⁻¹ + (‖r‖⁻¹) ^ 2) * rexp (-t) := by gcongr
      _ = _ := by ring
  have h := integral_Ioi_of_hasDerivAt_of_tendsto' hd hint hlim
  have : spectrum (fun t => t * rexp (-t)) w =
      ∫ t in Ioi (0 : ℝ), (t : ℂ) * Complex.exp (((-t : ℝ) : ℂ) * r) := by
    unfold spectrum
    refine setIntegral_congr_fun measurableSet_Ioi fun t _ => ?_
    simp only
    rw [hre, Complex.exp_add]
    push_cast
    ring
  rw [this, h]
  simp

theorem tExp_parts (w : ℝ) :
    (spectrum (fun t => t * rexp (-t)) w).re = (1 - w ^ 2) * ((1 + w ^ 2)⁻¹) ^ 2 ∧
    (spectrum (fun t => t * rexp (-t)) w).im = -(2 * w * ((1 + w ^ 2)⁻¹) ^ 2) := by
  have h1 : (1 + w ^ 2 : ℝ) ≠ 0 := by positivity
  have h2 : (1 + Complex.I * w) ≠ 0 := by
    intro h
    have := congrArg Complex.re h
    simp at this
  have h3 : (1 + (w : ℂ) ^ 2) ≠ 0 := by exact_mod_cast h1
  have key : spectrum (fun t => t * rexp (-t)) w =
      (((1 - w ^ 2) * ((1 + w ^ 2)⁻¹) ^ 2 : ℝ) : ℂ) + ((-(2 * w * ((1 + w ^ 2)⁻¹) ^ 2) : ℝ) : ℂ) * Complex.I := by
    rw [tExp_spectrum]
    push_cast
    field_simp
    linear_combination ((w : ℂ) ^ 2 * (w ^ 2 - 1 + 4) + 2 * w ^ 3 * Complex.I) * Complex.I_sq
  rw [key]
  exact ⟨Complex.add_re _ _ |>.trans (by rw [Complex.re_ofReal_mul, Complex.I_re, Complex.ofReal_re]; ring),
    Complex.add_im _ _ |>.trans (by rw [Complex.im_ofReal_mul, Complex.I_im, Complex.ofReal_im]; ring)⟩

/-- The transforms of this response converge. -/
theorem tExp_impulse : Impulse fun t => t * rexp (-t) := by
  have hint : IntegrableOn (fun w : ℝ => (1 + w ^ 2)⁻¹) (Ioi 0) :=
    integrable_inv_one_add_sq.integrableOn
  have hpos : ∀ w : ℝ, 0 < (1 + w ^ 2)⁻¹ := fun w => by positivity
  have hone : ∀ w : ℝ, (1 + w ^ 2) * (1 + w ^ 2)⁻¹ = 1 := fun w => mul_inv_cancel₀ (by positivity)
  have hm : Measurable fun w : ℝ => (1 + w ^ 2)⁻¹ := by fun_prop
  refine ⟨tExp_integrable, by fun_prop, ?_, ?_, ?_⟩
  · simp only [(tExp_parts _).1]
    refine Integrable.mono' hint (by fun_prop) (Filter.Eventually.of_forall fun w => ?_)
    rw [Real.norm_eq_abs, abs_le]
    have h1 := hpos w; have h2 := hone w
    constructor <;> nlinarith [sq_nonneg w, mul_pos h1 h1, mul_nonneg (sq_nonneg w) (mul_pos h1 h1).le]
  · simp only [(tExp_parts _).2]
    refine Integrable.mono' hint (by fun_prop) (Filter.Eventually.of_forall fun w => ?_)
    rw [Real.norm_eq_abs, abs_le]
    have h1 := hpos w; have h2 := hone w
    have h3 := mul_nonneg (sq_nonneg (1 - w)) (mul_pos h1 h1).le
    have h4 := mul_nonneg (sq_nonneg (1 + w)) (mul_pos h1 h1).le
    constructor <;> nlinarith
  · simp only [(tExp_parts _).2]
    refine Integrable.mono' (hint.const_mul 2)
      (by fun_prop : Measurable fun w : ℝ => -(2 * w * (1 + w ^ 2)⁻¹ ^ 2) / w).aestronglyMeasurable
      (Filter.Eventually.of_forall fun w => ?_)
    by_cases hw : w = 0
    · simp [hw]
    · have h1 := hpos w; have h2 := hone w
      rw [show -(2 * w * (1 + w ^ 2)⁻¹ ^ 2) / w = -(2 * (1 + w ^ 2)⁻¹ ^ 2) by field_simp, norm_neg,
        Real.norm_eq_abs, abs_of_nonneg (by positivity)]
      nlinarith [mul_nonneg (sq_nonneg w) (mul_pos h1 h1).le]

/-- Switch-on and switch-off responses of `t exp(-t)` add up to 1 for exact transforms. -/
example (on off : (ℕ → ℂ) → List ℝ × Bool) (freq : ℕ → ℝ)
    (hon : ExactTransform on true freq [1, 2] (scaled 1 fun t => t * rexp (-t)))
    (hoff : ExactTransform off false freq [1, 2] (scaled (-1) fun t => t * rexp (-t))) :
    List.zipWith (· + ·)
      ((tem on (fun n _ => spectrum (fun t => t * rexp (-t)) (2 * π * freq n)) freq 1 1 none true).1 0)
      ((tem off (fun n _ => spectrum (fun t => t * rexp (-t)) (2 * π * freq n)) freq 1 (-1) none true).1 0)
      = [1, 1] := by
  have := C22_sum on off freq freq [1, 2] (by simp) (fun _ t => t * rexp (-t)) (fun _ => tExp_impulse) 1
    true true 0 hon hoff
  rw [this]
  simp [tExp_spectrum]

/-- There are exact transforms: here one that ignores its input. -/
example : ExactTransform (fun _ => ([1, 2].map (fourierInt true (scaled 1 fun t => t * rexp (-t))), true))
    true (fun n => n + 1) [1, 2] (scaled 1 fun t => t * rexp (-t)) := rfl

/-- The FFT gives opposite values. -/
example {R : Transform.RSpl} (hR : RLinear R) (x : ℕ → ℕ → ℂ) :
    List.zipWith (· + ·)
      ((tem (fftTrf R false 0 (fun n => n + 1) 1 4 4 [1, 2]) x (fun n => n + 1) 1 1 none true).1 0)
      ((tem (fftTrf R false 0 (fun n => n + 1) 1 4 4 [1, 2]) x (fun n => n + 1) 1 (-1) none true).1 0)
      = [0, 0] := C22_fft_violated hR false 0 _ 1 4 4 [1, 2] x 1 true 0

/-- A signal of 2 is rejected. -/
example : (checkSignal 2).val ≠ .ok () := by rw [Ne, C22_accepted]; norm_num

end Verif.Props
