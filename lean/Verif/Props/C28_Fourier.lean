import Verif.Props.C27_Hankel
import Verif.Props.C19_Points
import Verif.Props.C43_Fft
import Mathlib.Analysis.Real.Pi.Bounds

/-!
# C28 — arguments of the Fourier transform: defaults and required frequencies
-/

namespace Verif.Props
open Verif.Args Verif.Py Verif.Py.W Verif.Transform

/-! ## The documented arguments (model.py 275-318) -/

/-- QWE. -/
noncomputable def fourierQweTable : List Param :=
  [⟨"rtol", .num 1e-8, .float⟩, ⟨"atol", .num 1e-20, .float⟩, ⟨"nquad", .num 21, .integer⟩,
   ⟨"maxint", .num 200, .integer⟩, ⟨"pts_per_dec", .num 20, .integerFrom 1⟩,
   ⟨"diff_quad", .num 100, .integer⟩, ⟨"a", .none, .optFloat⟩, ⟨"b", .none, .optFloat⟩,
   ⟨"limit", .none, .optInteger⟩]

/-- FFTLog. -/
noncomputable def fftlogTable : List Param :=
  [⟨"pts_per_dec", .num 10, .integerFrom 1⟩, ⟨"add_dec", .arr [-2, 1], .twoFloats⟩, ⟨"q", .num 0, .float⟩]

/-- FFT, without `ntot` and `pts_per_dec`. -/
noncomputable def fftTable : List Param :=
  [⟨"dfreq", .num 0.002, .float⟩, ⟨"nfreq", .num 2048, .integer⟩]

theorem matches_fourierQwe : Matches fourierQwe fourierQweTable := by
  rw [fourierQwe, fourierQweTable]
  repeat first | exact .nil | refine .cons ⟨rfl, rfl, by simp only [Same]⟩ ?_

theorem matches_fftlog : Matches fftlogItems fftlogTable := by
  rw [fftlogItems, fftlogTable]
  repeat first | exact .nil | refine .cons ⟨rfl, rfl, by simp only [Same]⟩ ?_

theorem matches_fft : Matches fftItems fftTable := by
  rw [fftItems, fftTable]
  repeat first | exact .nil | refine .cons ⟨rfl, rfl, by simp only [Same]⟩ ?_

/-! ## General -/

theorem checkTime_ok {E : Env} {C : Conv} {lib : String → Option Val} {dflt : Val} {time : List ℝ}
    {signal : ℝ} {ft : String} {ftarg : Dict} {verb : ℤ} {f : List ℝ} {m : String} {d : Dict}
    (h : (checkTime E C lib dflt time signal ft ftarg verb).val = .ok (f, m, d)) :
    ∃ s s', (timeSteps C lib dflt (lower ft) signal verb ⟨ftarg, []⟩).val = .ok s ∧
      (timeFreq E (lower ft) time s).val = .ok (f, s') ∧ m = lower ft ∧ d = s'.targ := by
  rw [checkTime] at h
  obtain ⟨s, hs, h⟩ := bind_eq_ok.1 h
  obtain ⟨r, hr, h⟩ := bind_eq_ok.1 h
  obtain ⟨d', hd, h⟩ := bind_eq_ok.1 h
  simp only [pure_val, Except.ok.injEq, Prod.mk.injEq] at h
  obtain ⟨rfl, rfl, rfl⟩ := h
  rw [unknown_val, Except.ok.injEq] at hd
  exact ⟨s, r.2, hs, hr, rfl, hd.symm⟩

theorem getNum_ok {k : String} {d : Dict} {x : ℝ} (h : (getNum k d).val = .ok x) :
    d.lookup k = some (.num x) := by
  unfold getNum at h
  split at h
  · simp only [pure_val, Except.ok.injEq] at h; subst h; assumption
  · simp at h
  · simp at h

/-- **C28, unknown methods** raise `ValueError`, and nothing is printed. -/
theorem C28_method (E : Env) (C : Conv) (lib : String → Option Val) (dflt : Val) (time : List ℝ)
    (signal : ℝ) (ft : String) (ftarg : Dict) (verb : ℤ)
    (h : lower ft ∉ ["dlf", "qwe", "fftlog", "fft"]) :
    checkTime E C lib dflt time signal ft ftarg verb = ⟨.error .valueError, []⟩ := by
  simp only [List.mem_cons, List.not_mem_nil, or_false, not_or] at h
  rw [checkTime, timeSteps, if_neg h.1, if_neg h.2.1, if_neg h.2.2.1, if_neg h.2.2.2]
  rfl

/-- The documented methods (model.py 263). -/
def documentedMethods : List String := ["dlf", "sin", "cos", "qwe", "fftlog", "fft"]

/-- **The documented methods `sin` and `cos` are rejected**, whatever the other arguments. -/
theorem C28_method_violated (E : Env) (C : Conv) (lib : String → Option Val) (dflt : Val) (time : List ℝ)
    (signal : ℝ) (ftarg : Dict) (verb : ℤ) :
    "sin" ∈ documentedMethods ∧ "cos" ∈ documentedMethods ∧
      (checkTime E C lib dflt time signal "sin" ftarg verb).val = .error .valueError ∧
      (checkTime E C lib dflt time signal "cos" ftarg verb).val = .error .valueError := by
  refine ⟨by decide, by decide, ?_, ?_⟩ <;> rw [C28_method _ _ _ _ _ _ _ _ _ (by decide)]

/-! ## Digital filters -/

/-- What is asked for: the sine for a switch-on, the cosine for a switch-off, else what is given, or the sine. -/
noncomputable def kindFor (signal : ℝ) (args : Dict) : Val :=
  if 0 < signal then .str "sin" else if signal < 0 then .str "cos" else (args.lookup "kind").getD (.str "sin")

/-- A filter with base, factor, and the coefficients `kind`. -/
def FourierFilter (kind : String) (v : Val) : Prop :=
  ∃ a F, v = .filter a F ∧ "base" ∈ a ∧ kind ∈ a ∧ "factor" ∈ a

theorem needs_ok {attrs : List String} {v : Val} (h : (needs attrs v).val = .ok ()) :
    ∃ a F, v = .filter a F ∧ ∀ x ∈ attrs, x ∈ a := by
  unfold needs at h
  split at h
  · rename_i a F
    split_ifs at h with h'
    · exact ⟨a, F, rfl, h'⟩
    · simp at h
  · simp at h

/-- **C28, digital filters: arguments.**  Kind, filter and points per decade are what is asked for; the filter
has what the kind needs. -/
theorem C28_dlf (E : Env) (C : Conv) (lib : String → Option Val) (dflt : Val)
    (hd : ∃ a F, dflt = .filter a F) (time : List ℝ)
    (signal : ℝ) (ft : String) (hm : lower ft = "dlf") (ftarg : Dict) (verb : ℤ) (f : List ℝ) (m : String)
    (d : Dict) (h : (checkTime E C lib dflt time signal ft ftarg verb).val = .ok (f, m, d)) :
    m = "dlf" ∧ ∃ v k F, C.flt ((ftarg.lookup "pts_per_dec").getD (.num (-1))) = .ok v ∧
      kindFor signal ftarg = .str k ∧ (k = "sin" ∨ k = "cos") ∧ filterFor lib dflt ftarg = some F ∧
      FourierFilter k F ∧ d = [("pts_per_dec", v), ("kind", .str k), ("dlf", F)] := by
  obtain ⟨s, s', hs, hf, rfl, rfl⟩ := checkTime_ok h
  rw [hm] at hs hf
  refine ⟨hm, ?_⟩
  rw [timeFreq, if_pos rfl] at hf
  obtain ⟨f', -, hf⟩ := bind_eq_ok.1 hf
  simp only [pure_val, Except.ok.injEq, Prod.mk.injEq] at hf
  obtain ⟨rfl, rfl⟩ := hf
  rw [timeSteps, if_pos rfl] at hs
  obtain ⟨s1, h1, hs⟩ := bind_eq_ok.1 hs
  obtain ⟨s2, h2, h3⟩ := bind_eq_ok.1 hs
  rw [step_val] at h1
  cases hv : valueOf C verb ftarg ⟨"pts_per_dec", .num (-1), .flt⟩ with
  | error e => simp only [hv] at h1; exact absurd h1 (by simp [Except.bind])
  | ok v =>
    simp only [hv, Except.bind, Except.ok.injEq, List.nil_append] at h1
    subst h1
    rw [kindStep] at h2
    have hk : (if signal > 0 then Val.str "sin" else if signal < 0 then Val.str "cos" else
        popVal "kind" (.str "sin") (popRest "pts_per_dec" ftarg)) = kindFor signal ftarg := by
      rw [popVal_popRest (by decide), kindFor, popVal]
    simp only [hk] at h2
    split at h2
    · rename_i k hkk
      split_ifs at h2 with hsc
      · simp only [pure_val, Except.ok.injEq, List.cons_append, List.nil_append] at h2
        subst h2
        rw [kindFilter] at h3
        simp only [List.lookup_cons, show ("kind" == "pts_per_dec") = false by decide,
          beq_self_eq_true] at h3
        rw [filterStep] at h3
        obtain ⟨F, hF, h3⟩ := bind_eq_ok.1 h3
        obtain ⟨u, hn, h3⟩ := bind_eq_ok.1 h3
        simp only [pure_val, Except.ok.injEq, List.cons_append, List.nil_append] at h3
        subst h3
        obtain ⟨a, F', rfl, ha⟩ := needs_ok hn
        refine ⟨v, k, _, hv, hkk, hsc, ?_, ⟨a, F', rfl, ha _ (by simp), ha _ (by simp), ha _ (by simp)⟩, rfl⟩
        obtain ⟨a0, F0, rfl⟩ := hd
        exact (getFilter_iff lib a0 F0 ftarg _).1 (by
          rw [← hF, popVal_popRest (by decide), popVal_popRest (by decide)])
      · simp at h2
    · simp at h2

theorem timeFreq_ok {E : Env} {C : Conv} {lib : String → Option Val} {dflt : Val} {time : List ℝ}
    {signal : ℝ} {ft : String} {ftarg : Dict} {verb : ℤ} {f : List ℝ} {m : String} {d : Dict}
    (h : (checkTime E C lib dflt time signal ft ftarg verb).val = .ok (f, m, d)) :
    (lower ft = "dlf" → (dlfFreq time d).val = .ok f) ∧ (lower ft = "qwe" → (qweFreq E time d).val = .ok f) ∧
      (lower ft = "fft" → (fftFreq d).val = .ok f) := by
  obtain ⟨s, s', hs, hf, rfl, rfl⟩ := checkTime_ok h
  refine ⟨fun hm => ?_, fun hm => ?_, fun hm => ?_⟩
  · rw [timeFreq, if_pos hm] at hf
    obtain ⟨f', hf', hf⟩ := bind_eq_ok.1 hf
    simp only [pure_val, Except.ok.injEq, Prod.mk.injEq] at hf
    rw [← hf.1, ← hf.2]; exact hf'
  · rw [timeFreq, if_neg (by rw [hm]; decide), if_pos hm] at hf
    obtain ⟨f', hf', hf⟩ := bind_eq_ok.1 hf
    simp only [pure_val, Except.ok.injEq, Prod.mk.injEq] at hf
    rw [← hf.1, ← hf.2]; exact hf'
  · rw [timeFreq, if_neg (by rw [hm]; decide), if_neg (by rw [hm]; decide), if_neg (by rw [hm]; decide)] at hf
    obtain ⟨f', hf', hf⟩ := bind_eq_ok.1 hf
    simp only [pure_val, Except.ok.injEq, Prod.mk.injEq] at hf
    rw [← hf.1, ← hf.2]; exact hf'

theorem minTime_ok {time : List ℝ} {t : ℝ} (h : (minTime time).val = .ok t) :
    t ∈ time ∧ ∀ x ∈ time, t ≤ x := by
  unfold minTime at h
  split at h
  · rename_i a ha
    simp only [pure_val, Except.ok.injEq] at h
    subst h
    exact List.min?_eq_some_iff.1 ha
  · simp at h

theorem maxTime_ok {time : List ℝ} {t : ℝ} (h : (maxTime time).val = .ok t) :
    t ∈ time ∧ ∀ x ∈ time, x ≤ t := by
  unfold maxTime at h
  split at h
  · rename_i a ha
    simp only [pure_val, Except.ok.injEq] at h
    subst h
    exact List.max?_eq_some_iff.1 ha
  · simp at h

/-- The values of the digital filter method: points per decade, filter, and frequencies. -/
theorem dlf_freq {E : Env} {C : Conv} {lib : String → Option Val} {dflt : Val}
    (hd : ∃ a F, dflt = .filter a F) {time : List ℝ}
    {signal : ℝ} {ft : String} (hm : lower ft = "dlf") {ftarg : Dict} {verb : ℤ} {f : List ℝ} {m : String}
    {d : Dict} (h : (checkTime E C lib dflt time signal ft ftarg verb).val = .ok (f, m, d)) {a : List String}
    {F : Filter} (hF : filterFor lib dflt ftarg = some (.filter a F)) {p : ℝ}
    (hp : C.flt ((ftarg.lookup "pts_per_dec").getD (.num (-1))) = .ok (.num p)) :
    (if p = 0 then pure ((dlfOmega F time 0 0 p).map fun w => w / 2 / Real.pi) else (do
      let tmin ← minTime time
      let tmax ← maxTime time
      pure ((dlfOmega F time tmin tmax p).map fun w => w / 2 / Real.pi) : W (List ℝ))).val = .ok f := by
  obtain ⟨-, v, k, F', hv, -, -, hF', -, rfl⟩ := C28_dlf E C lib dflt hd time signal ft hm ftarg verb f m d h
  rw [hF] at hF'
  injection hF' with hF'
  subst hF'
  rw [hp] at hv
  injection hv with hv
  subst hv
  have := (timeFreq_ok h).1 hm
  rw [dlfFreq] at this
  obtain ⟨F2, hF2, this⟩ := bind_eq_ok.1 this
  obtain ⟨p2, hp2, this⟩ := bind_eq_ok.1 this
  have hp2 := getNum_ok hp2
  simp only [List.lookup_cons, beq_self_eq_true, Option.some.injEq, Val.num.injEq] at hp2
  simp only [getDlf, List.lookup_cons, show ("dlf" == "pts_per_dec") = false by decide,
    show ("dlf" == "kind") = false by decide, beq_self_eq_true, pure_val, Except.ok.injEq] at hF2
  subst hp2 hF2
  exact this

/-- **C28, standard digital filters.**  The angular frequencies are exactly those that the filter needs:
base over time. -/
theorem C28_dlf_standard {E : Env} {C : Conv} {lib : String → Option Val} {dflt : Val}
    (hd : ∃ a F, dflt = .filter a F) {time : List ℝ}
    {signal : ℝ} {ft : String} (hm : lower ft = "dlf") {ftarg : Dict} {verb : ℤ} {f : List ℝ} {m : String}
    {d : Dict} (h : (checkTime E C lib dflt time signal ft ftarg verb).val = .ok (f, m, d)) {a : List String}
    {F : Filter} (hF : filterFor lib dflt ftarg = some (.filter a F))
    (hp : C.flt ((ftarg.lookup "pts_per_dec").getD (.num (-1))) = .ok (.num 0)) :
    f.length = time.length * F.n ∧ ∀ i < time.length, ∀ k < F.n,
      2 * Real.pi * f.getD (i * F.n + k) 0 = F.base k / time.getD i 0 := by
  have := dlf_freq hd hm h hF hp
  rw [if_pos rfl, pure_val, Except.ok.injEq, dlfOmega, if_pos rfl] at this
  subst this
  have gen : ∀ time : List ℝ,
      ((time.flatMap fun t => (List.range F.n).map fun k => F.base k / t).map fun w => w / 2 / Real.pi).length =
        time.length * F.n ∧ ∀ i < time.length, ∀ k < F.n,
      2 * Real.pi * ((time.flatMap fun t => (List.range F.n).map fun k => F.base k / t).map
        fun w => w / 2 / Real.pi).getD (i * F.n + k) 0 = F.base k / time.getD i 0 := by
    intro time
    induction time with
    | nil => simp
    | cons t l ih =>
      have hl : (((List.range F.n).map fun k => F.base k / t).map fun w => w / 2 / Real.pi).length = F.n := by
        simp
      refine ⟨by simp only [List.flatMap_cons, List.map_append, List.length_append, hl, ih.1,
        List.length_cons]; ring, fun i hi k hk => ?_⟩
      simp only [List.flatMap_cons, List.map_append]
      cases i with
      | zero =>
        rw [List.getD_append _ _ _ _ (by rw [hl]; omega)]
        simp [List.getD_eq_getElem?_getD, hk]
        have := Real.pi_ne_zero
        field_simp
      | succ i =>
        rw [List.getD_append_right _ _ _ _ (by rw [hl]; nlinarith [Nat.zero_le i]), hl]
        rw [show (i + 1) * F.n + k - F.n = i * F.n + k by rw [Nat.succ_mul]; omega]
        rw [ih.2 i (by simpa using hi) k hk]
        rfl
  exact gen time

/-- **C28, lagged convolution** (the default).  There are at least four interpolation times, decreasing from the
largest requested one to or below the smallest; and for each the angular frequencies that the filter needs are
a run in the list, one further for each. -/
theorem C28_dlf_lagged {E : Env} {C : Conv} {lib : String → Option Val} {dflt : Val}
    (hd : ∃ a F, dflt = .filter a F) {time : List ℝ} (ht : ∀ t ∈ time, 0 < t)
    {signal : ℝ} {ft : String} (hm : lower ft = "dlf") {ftarg : Dict} {verb : ℤ} {f : List ℝ} {m : String}
    {d : Dict} (h : (checkTime E C lib dflt time signal ft ftarg verb).val = .ok (f, m, d)) {a : List String}
    {F : Filter} (hF : filterFor lib dflt ftarg = some (.filter a F)) (hG : GeoFilter F) {p : ℝ} (hp0 : p < 0)
    (hp : C.flt ((ftarg.lookup "pts_per_dec").getD (.num (-1))) = .ok (.num p)) :
    ∃ (n : ℕ) (τ : ℕ → ℝ), 4 ≤ n ∧ f.length = n + F.n - 1 ∧ StrictAnti τ ∧ τ 0 ∈ time ∧
      (∀ t ∈ time, τ (n - 1) ≤ t ∧ t ≤ τ 0) ∧
      ∀ i < n, ∀ k < F.n, 2 * Real.pi * f.getD (i + k) 0 = F.base k / τ i := by
  have := dlf_freq hd hm h hF hp
  rw [if_neg hp0.ne] at this
  obtain ⟨tmin, hmin, this⟩ := bind_eq_ok.1 this
  obtain ⟨tmax, hmax, this⟩ := bind_eq_ok.1 this
  rw [pure_val, Except.ok.injEq, dlfOmega, if_neg hp0.ne, if_pos hp0] at this
  obtain ⟨hmin1, hmin2⟩ := minTime_ok hmin
  obtain ⟨hmax1, hmax2⟩ := maxTime_ok hmax
  have h0 := ht tmin hmin1
  have hle : tmin ≤ tmax := hmin2 tmax hmax1
  have hW := C19_window hG h0 hle (fun i => time.getD i 0)
  obtain ⟨c1, c2, c3, c4, c5⟩ := C19_lagged_cover hG h0 hle (fun i => time.getD i 0)
  generalize hP : lagPoints F tmin tmax (fun i => time.getD i 0) = P at *
  subst this
  have hs := hW.size
  have hn := hG.n
  refine ⟨P.m, P.intp, c1, by simp only [List.length_map, List.length_range]; omega, c5, ?_, fun t ht' => ?_,
    fun i hi k hk => ?_⟩
  · rw [c2]; exact hmax1
  · rw [c2]; exact ⟨c3.trans (hmin2 t ht'), hmax2 t ht'⟩
  · rw [← hW.lam i k hi hk, List.getD_eq_getElem?_getD]
    simp only [List.map_map, List.getElem?_map]
    rw [List.getElem?_range (by omega)]
    simp only [Option.map_some, Function.comp, Option.getD_some]
    have := Real.pi_ne_zero
    field_simp

/-- **C28, splined digital filters.**  At least four frequencies, increasing, enclosing all that the filter needs. -/
theorem C28_dlf_splined {E : Env} {C : Conv} {lib : String → Option Val} {dflt : Val}
    (hd : ∃ a F, dflt = .filter a F) {time : List ℝ} (ht : ∀ t ∈ time, 0 < t)
    {signal : ℝ} {ft : String} (hm : lower ft = "dlf") {ftarg : Dict} {verb : ℤ} {f : List ℝ} {m : String}
    {d : Dict} (h : (checkTime E C lib dflt time signal ft ftarg verb).val = .ok (f, m, d)) {a : List String}
    {F : Filter} (hF : filterFor lib dflt ftarg = some (.filter a F)) (hpos : 0 < F.base 0)
    (hmono : ∀ k < F.n, F.base 0 ≤ F.base k ∧ F.base k ≤ F.base (F.n - 1)) {p : ℝ} (hp0 : 0 < p)
    (hp : C.flt ((ftarg.lookup "pts_per_dec").getD (.num (-1))) = .ok (.num p)) :
    4 ≤ f.length ∧ f.Pairwise (· < ·) ∧ ∀ k < F.n, ∀ t ∈ time,
      2 * Real.pi * f.getD 0 0 ≤ F.base k / t ∧ F.base k / t ≤ 2 * Real.pi * f.getD (f.length - 1) 0 := by
  have := dlf_freq hd hm h hF hp
  rw [if_neg hp0.ne'] at this
  obtain ⟨tmin, hmin, this⟩ := bind_eq_ok.1 this
  obtain ⟨tmax, hmax, this⟩ := bind_eq_ok.1 this
  rw [pure_val, Except.ok.injEq, dlfOmega, if_neg hp0.ne', if_neg (not_lt.2 hp0.le)] at this
  obtain ⟨hmin1, hmin2⟩ := minTime_ok hmin
  obtain ⟨hmax1, hmax2⟩ := maxTime_ok hmax
  have h0 := ht tmin hmin1
  have hle : tmin ≤ tmax := hmin2 tmax hmax1
  obtain ⟨c1, c2, c3⟩ := C19_splined_cover F hpos hmono h0 hle hp0 (fun i => time.getD i 0)
  generalize hP : splPoints F tmin tmax p (fun i => time.getD i 0) = P at *
  have hpi := Real.pi_pos
  have hget : ∀ i < P.nout, 2 * Real.pi * (((List.range P.nout).map P.points).map
      fun w => w / 2 / Real.pi).getD i 0 = P.points i := by
    intro i hi
    rw [List.getD_eq_getElem?_getD]
    simp only [List.map_map, List.getElem?_map]
    rw [List.getElem?_range hi]
    simp only [Option.map_some, Function.comp, Option.getD_some]
    field_simp
  subst this
  refine ⟨by simpa using c1, ?_, fun k hk t ht' => ?_⟩
  · rw [List.map_map, List.pairwise_map]
    refine List.pairwise_lt_range.imp fun hij => ?_
    simp only [Function.comp]
    gcongr
    exact c2 hij
  · rw [List.length_map, List.length_map, List.length_range, hget 0 (by omega), hget _ (by omega)]
    exact c3 k hk t (hmin2 t ht') (hmax2 t ht')

/-! ## Logarithmic spacing -/

theorem logspace_ok {a b : ℝ} {n : ℤ} {f : List ℝ} (h : (logspace a b n).val = .ok f) :
    f.length = n.toNat ∧ (∀ i < f.length, f.getD i 0 = (10 : ℝ) ^ (a + i * ((b - a) / (n - 1)))) ∧
      (0 < f.length → f.getD 0 0 = (10 : ℝ) ^ a) ∧
      (2 ≤ f.length → f.getD (f.length - 1) 0 = (10 : ℝ) ^ b) ∧ (∀ x ∈ f, 0 < x) ∧
      (a < b → f.Pairwise (· < ·)) ∧ (a ≤ b → ∀ x ∈ f, (10 : ℝ) ^ a ≤ x) := by
  unfold logspace at h
  split_ifs at h with hn
  · simp at h
  · rw [pure_val, Except.ok.injEq] at h
    subst h
    have hlen : ((List.range n.toNat).map fun i : ℕ => (10 : ℝ) ^ (a + i * ((b - a) / (n - 1)))).length =
        n.toNat := by simp
    have hget : ∀ i < n.toNat, ((List.range n.toNat).map
        fun i : ℕ => (10 : ℝ) ^ (a + i * ((b - a) / (n - 1)))).getD i 0 =
          (10 : ℝ) ^ (a + i * ((b - a) / (n - 1))) := by
      intro i hi
      rw [List.getD_eq_getElem?_getD, List.getElem?_map, List.getElem?_range hi]
      rfl
    have hc : ((n.toNat : ℕ) : ℝ) = n := by
      rw [← Int.cast_natCast, Int.toNat_of_nonneg (not_lt.1 hn)]
    rw [hlen]
    refine ⟨rfl, hget, fun h0 => ?_, fun h2 => ?_, fun x hx => ?_, fun hab => ?_, fun hab x hx => ?_⟩
    · rw [hget 0 h0]; simp
    · rw [hget _ (by omega), Nat.cast_sub (by omega), hc]
      have : (n : ℝ) - 1 ≠ 0 := by
        rw [← hc]
        have : (2 : ℝ) ≤ n.toNat := by exact_mod_cast h2
        linarith
      congr 1
      push_cast
      field_simp
      ring
    · obtain ⟨i, -, rfl⟩ := List.mem_map.1 hx
      positivity
    · rw [List.pairwise_map]
      have : (List.range n.toNat).Pairwise (fun i j => i < j ∧ j < n.toNat) := by
        rw [List.pairwise_iff_forall_sublist]
        intro i j hij
        refine ⟨(List.pairwise_iff_forall_sublist.1 List.pairwise_lt_range) hij, ?_⟩
        exact List.mem_range.1 (hij.subset (by simp))
      refine this.imp fun {i j} hij => ?_
      apply Real.rpow_lt_rpow_of_exponent_lt (by norm_num)
      have h1 : (0 : ℝ) < (n : ℝ) - 1 := by
        rw [← hc]
        have : (2 : ℝ) ≤ n.toNat := by exact_mod_cast (by omega : 2 ≤ n.toNat)
        linarith
      have h2 : (0 : ℝ) < (b - a) / (n - 1) := div_pos (by linarith) h1
      have h3 : (i : ℝ) < j := by exact_mod_cast hij.1
      nlinarith
    · obtain ⟨i, hi, rfl⟩ := List.mem_map.1 hx
      apply Real.rpow_le_rpow_of_exponent_le (by norm_num)
      have h1 : (0 : ℝ) ≤ (n : ℝ) - 1 := by
        rw [← hc]
        have := List.mem_range.1 hi
        have : (1 : ℝ) ≤ n.toNat := by exact_mod_cast (by omega : 1 ≤ n.toNat)
        linarith
      have : (0 : ℝ) ≤ (i : ℝ) * ((b - a) / (n - 1)) := by
        have := div_nonneg (sub_nonneg.2 hab) h1
        positivity
      linarith

/-! ## QWE -/

theorem given_popRest {p : Param} {k : String} (h : p.key ≠ k) (args : Dict) :
    p.given (popRest k args) = p.given args := popVal_popRest h p.dflt args

/-- **C28, QWE: arguments.**  Each documented argument is read from what is given or from the default; the kind
of transform is set by the signal whatever is given; there is nothing else. -/
theorem C28_qwe (E : Env) (C : Conv) (lib : String → Option Val) (dflt : Val) (time : List ℝ) (signal : ℝ)
    (ft : String) (hm : lower ft = "qwe") (ftarg : Dict) (verb : ℤ) (f : List ℝ) (m : String) (d : Dict)
    (h : (checkTime E C lib dflt time signal ft ftarg verb).val = .ok (f, m, d)) :
    m = "qwe" ∧ (∀ p ∈ fourierQweTable, ∃ v, p.reading.read C (p.given ftarg) = .ok v ∧
        d.lookup p.key = some v) ∧
      (0 ≤ signal → d.lookup "sincos" = some (.str "sin")) ∧
      (signal < 0 → d.lookup "sincos" = some (.str "cos")) ∧
      ∀ k, k ≠ "sincos" → k ∉ fourierQweTable.map Param.key → d.lookup k = none := by
  obtain ⟨s, s', hs, hf, rfl, rfl⟩ := checkTime_ok h
  rw [hm] at hs hf
  refine ⟨hm, ?_⟩
  rw [timeFreq, if_neg (by decide), if_pos rfl] at hf
  obtain ⟨f', -, hf⟩ := bind_eq_ok.1 hf
  simp only [pure_val, Except.ok.injEq, Prod.mk.injEq] at hf
  obtain ⟨-, rfl⟩ := hf
  rw [timeSteps, if_neg (by decide), if_pos rfl] at hs
  have hnd : (fourierQweTable.map Param.key).Nodup := by simp [fourierQweTable]
  obtain ⟨-, ⟨l, hl, ⟨hfit, hnone⟩, -⟩, -⟩ := (steps_table C verb matches_fourierQwe hnd _ _).2 s hs
  simp only [drop, List.nil_append] at hl hfit
  have hne : ∀ p ∈ fourierQweTable, p.key ≠ "sincos" := by
    intro p hp h
    have : "sincos" ∈ fourierQweTable.map Param.key := h ▸ List.mem_map_of_mem hp
    revert this
    simp [fourierQweTable]
  have hs2 : s.targ.lookup "sincos" = some (.str (if Tem.isSine signal then "sin" else "cos")) := by
    rw [hl]; simp
  have hlook : ∀ k, k ≠ "sincos" → s.targ.lookup k = l.lookup k := by
    intro k hk
    rw [hl, List.cons_append, List.lookup_cons, beq_eq_false_iff_ne.2 hk]; rfl
  refine ⟨fun p hp => ?_, fun hsig => ?_, fun hsig => ?_, fun k hk hk' => ?_⟩
  · obtain ⟨v, hv, hl'⟩ := hfit p hp
    rw [given_popRest (hne p hp)] at hv
    exact ⟨v, hv, by rw [hlook _ (hne p hp)]; exact hl'⟩
  · rw [hs2, Tem.isSine]; simp [hsig]
  · rw [hs2, Tem.isSine]; simp [not_le.2 hsig]
  · rw [hlook k hk]; exact hnone k hk'

theorem rpow_logb_ten {x : ℝ} (hx : 0 < x) : (10 : ℝ) ^ Real.logb 10 x = x :=
  Real.rpow_logb (by norm_num) (by norm_num) hx

theorem qweMax_ge {maxint tmin : ℝ} (h : 0 < maxint) (ht : 0 < tmin) :
    maxint * Real.pi / tmin ≤ (10 : ℝ) ^ qweMax maxint tmin := by
  have hpi := Real.pi_pos
  calc maxint * Real.pi / tmin = (10 : ℝ) ^ Real.logb 10 (maxint * Real.pi / tmin) :=
        (rpow_logb_ten (by positivity)).symm
    _ ≤ _ := by
      apply Real.rpow_le_rpow_of_exponent_le (by norm_num)
      rw [qweMax, le_div_iff₀ (by norm_num), mul_comm]
      exact Int.le_ceil _

theorem qweMin_le {g tmax : ℝ} (h : -1 < g) (ht : 0 < tmax) :
    (10 : ℝ) ^ qweMin g tmax ≤ (g + 1) * Real.pi / 2 / tmax := by
  have hpi := Real.pi_pos
  have hg : 0 < g + 1 := by linarith
  calc (10 : ℝ) ^ qweMin g tmax ≤ (10 : ℝ) ^ Real.logb 10 ((g + 1) * Real.pi / 2 / tmax) := by
        apply Real.rpow_le_rpow_of_exponent_le (by norm_num)
        rw [qweMin, div_le_iff₀ (by norm_num), mul_comm]
        exact Int.floor_le _
    _ = _ := rpow_logb_ten (by positivity)

theorem qweMin_gt {g tmax : ℝ} (h : -1 < g) (ht : 0 < tmax) :
    (g + 1) * Real.pi / 2 / tmax / 2 < (10 : ℝ) ^ qweMin g tmax := by
  have hpi := Real.pi_pos
  have hg : 0 < g + 1 := by linarith
  set v := (g + 1) * Real.pi / 2 / tmax with hv
  have hv0 : 0 < v := by positivity
  have h10 : (1 / 2 : ℝ) < (10 : ℝ) ^ (-(1 / 10) : ℝ) := by
    rw [Real.rpow_neg (by norm_num), one_div, inv_lt_inv₀ (by norm_num) (by positivity)]
    have : (10 : ℝ) ^ (1 / 10 : ℝ) < ((2 : ℝ) ^ (10 : ℝ)) ^ (1 / 10 : ℝ) := by
      apply Real.rpow_lt_rpow (by norm_num) _ (by norm_num)
      norm_num
    rw [← Real.rpow_mul (by norm_num)] at this
    norm_num at this ⊢
    exact this
  calc v / 2 = (10 : ℝ) ^ Real.logb 10 v * (1 / 2) := by rw [rpow_logb_ten hv0]; ring
    _ < (10 : ℝ) ^ Real.logb 10 v * (10 : ℝ) ^ (-(1 / 10) : ℝ) := by
      apply mul_lt_mul_of_pos_left h10 (by positivity)
    _ = (10 : ℝ) ^ (Real.logb 10 v + -(1 / 10)) := (Real.rpow_add (by norm_num) _ _).symm
    _ ≤ _ := by
      apply Real.rpow_le_rpow_of_exponent_le (by norm_num)
      rw [qweMin, le_div_iff₀ (by norm_num)]
      have := Int.lt_floor_add_one (10 * Real.logb 10 v)
      rw [← hv]
      linarith

theorem qwe_numbers {E : Env} {C : Conv} {lib : String → Option Val} {dflt : Val} {time : List ℝ}
    {signal : ℝ} {ft : String} (hm : lower ft = "qwe") {ftarg : Dict} {verb : ℤ} {f : List ℝ} {m : String}
    {d : Dict} (h : (checkTime E C lib dflt time signal ft ftarg verb).val = .ok (f, m, d)) :
    ∃ nquad maxint ppd tmin tmax, d.lookup "nquad" = some (.num nquad) ∧
      d.lookup "maxint" = some (.num maxint) ∧ d.lookup "pts_per_dec" = some (.num ppd) ∧
      (tmin ∈ time ∧ ∀ t ∈ time, tmin ≤ t) ∧ (tmax ∈ time ∧ ∀ t ∈ time, t ≤ tmax) ∧
      (logspace (qweMin (E.gmin nquad) tmax) (qweMax maxint tmin)
        (Tem.trunc ((qweMax maxint tmin - qweMin (E.gmin nquad) tmax) * ppd + 1))).val = .ok f := by
  have h1 := (timeFreq_ok h).2.1 hm
  rw [qweFreq] at h1
  obtain ⟨nquad, a1, h1⟩ := bind_eq_ok.1 h1
  obtain ⟨maxint, a2, h1⟩ := bind_eq_ok.1 h1
  obtain ⟨ppd, a3, h1⟩ := bind_eq_ok.1 h1
  obtain ⟨tmax, a4, h1⟩ := bind_eq_ok.1 h1
  obtain ⟨tmin, a5, h1⟩ := bind_eq_ok.1 h1
  exact ⟨nquad, maxint, ppd, tmin, tmax, getNum_ok a1, getNum_ok a2, getNum_ok a3, minTime_ok a5,
    maxTime_ok a4, h1⟩

/-- **C28, QWE: upper end.**  With at least two frequencies, every angular frequency that the transform uses, in
any interval and for any time, lies below the largest one. -/
theorem C28_qwe_upper {E : Env} {C : Conv} {lib : String → Option Val} {dflt : Val} {time : List ℝ}
    (ht : ∀ t ∈ time, 0 < t) {signal : ℝ} {ft : String} (hm : lower ft = "qwe") {ftarg : Dict} {verb : ℤ}
    {f : List ℝ} {m : String} {d : Dict}
    (h : (checkTime E C lib dflt time signal ft ftarg verb).val = .ok (f, m, d)) (h2 : 2 ≤ f.length)
    {maxint : ℕ} (hM : d.lookup "maxint" = some (.num maxint)) (sine : Bool) (i : ℕ) (hi : i < maxint) (g : ℝ)
    (hg : g ≤ 1) (hg' : -1 ≤ g) (t : ℝ) (htt : t ∈ time) :
    qweBx sine i g / t ≤ 2 * Real.pi * f.getD (f.length - 1) 0 := by
  obtain ⟨nquad, maxint', ppd, tmin, tmax, -, hM', -, ⟨hmin, hmin'⟩, -, hlog⟩ := qwe_numbers hm h
  rw [hM] at hM'
  simp only [Option.some.injEq, Val.num.injEq] at hM'
  subst hM'
  have hpi := Real.pi_pos
  have h0 := ht tmin hmin
  have hmp : (0 : ℝ) < maxint := by exact_mod_cast (by omega : 0 < maxint)
  rw [(logspace_ok hlog).2.2.2.1 h2]
  have hup := qweMax_ge hmp h0
  have hx0 : ∀ i : ℕ, qweInt sine i ≤ i * Real.pi + 1e-20 := by
    intro i
    unfold qweInt
    split_ifs with h1 h2
    · subst h1; simp
    · norm_num
    · have : (0 : ℝ) ≤ 1e-20 := by norm_num
      linarith
  have hx1 : qweInt sine (i + 1) ≤ (i + 1 : ℕ) * Real.pi := by
    unfold qweInt
    rw [if_neg (by omega)]
    split_ifs <;> linarith
  have hpi3 : (3 : ℝ) < Real.pi := Real.pi_gt_three
  have hxi : qweInt sine i ≤ (i + 1 : ℕ) * Real.pi := by
    refine (hx0 i).trans ?_
    push_cast
    have : (1e-20 : ℝ) ≤ 1 := by norm_num
    nlinarith
  have hB : qweBx sine i g ≤ maxint * Real.pi := by
    have h3 : ((i + 1 : ℕ) : ℝ) ≤ maxint := by exact_mod_cast hi
    have h4 : qweBx sine i g ≤ (i + 1 : ℕ) * Real.pi := by
      unfold qweBx
      nlinarith
    nlinarith
  have ht0 := ht t htt
  calc qweBx sine i g / t ≤ maxint * Real.pi / t := by gcongr
    _ ≤ maxint * Real.pi / tmin := by gcongr; exact hmin' t htt
    _ ≤ (10 : ℝ) ^ qweMax maxint tmin := hup
    _ ≤ _ := by
      have : (0 : ℝ) < (10 : ℝ) ^ qweMax maxint tmin := by positivity
      nlinarith

/-- **C28 does not hold for QWE**: the lower end is computed as an angular frequency but used as a frequency.
For all times and arguments, and for sine and cosine, the smallest angular frequency that the transform uses
lies below all computed ones, so that the response is extrapolated there. -/
theorem C28_qwe_violated {E : Env} {C : Conv} {lib : String → Option Val} {dflt : Val} {time : List ℝ}
    (ht : ∀ t ∈ time, 0 < t) {signal : ℝ} {ft : String} (hm : lower ft = "qwe") {ftarg : Dict} {verb : ℤ}
    {f : List ℝ} {m : String} {d : Dict}
    (h : (checkTime E C lib dflt time signal ft ftarg verb).val = .ok (f, m, d))
    {maxint nquad : ℝ} (hM : d.lookup "maxint" = some (.num maxint)) (hM1 : 1 ≤ maxint)
    (hN : d.lookup "nquad" = some (.num nquad)) (hg : E.gmin nquad ≤ 1) (hg' : 1e-20 ≤ E.gmin nquad + 1)
    (sine : Bool) :
    ∃ t ∈ time, ∀ x ∈ f, qweBx sine 0 (E.gmin nquad) / t < 2 * Real.pi * x := by
  obtain ⟨nquad', maxint', ppd, tmin, tmax, hN', hM', -, ⟨hmin, hmin'⟩, ⟨hmax, hmax'⟩, hlog⟩ :=
    qwe_numbers hm h
  rw [hM] at hM'
  rw [hN] at hN'
  simp only [Option.some.injEq, Val.num.injEq] at hM' hN'
  subst hM' hN'
  generalize E.gmin nquad = g at *
  have hpi := Real.pi_pos
  have hpi3 : (3 : ℝ) < Real.pi := Real.pi_gt_three
  have h0 := ht tmin hmin
  have h1 := ht tmax hmax
  have he : (0 : ℝ) < 1e-20 := by norm_num
  have hg1 : -1 < g := by linarith
  refine ⟨tmax, hmax, fun x hx => ?_⟩
  have hab : qweMin g tmax ≤ qweMax maxint tmin := by
    have a1 := qweMin_le hg1 h1
    have a2 := qweMax_ge (by linarith : 0 < maxint) h0
    have a3 : (g + 1) * Real.pi / 2 / tmax ≤ maxint * Real.pi / tmin := by
      have : (g + 1) * Real.pi / 2 ≤ maxint * Real.pi := by nlinarith
      exact div_le_div₀ (by positivity) this h0 (hmin' tmax hmax)
    have := a1.trans (a3.trans a2)
    exact (Real.rpow_le_rpow_left_iff (by norm_num)).1 this
  have hx' := (logspace_ok hlog).2.2.2.2.2.2 hab x hx
  have hlow := (qweMin_gt hg1 h1).trans_le hx'
  have hB : qweBx sine 0 g ≤ (g + 1) * Real.pi / 2 + 1e-20 := by
    have hs : qweInt sine 1 ≤ Real.pi := by
      unfold qweInt
      rw [if_neg (by norm_num)]
      split_ifs <;> push_cast <;> linarith
    have hz : qweInt sine 0 = 1e-20 := by simp [qweInt]
    unfold qweBx
    rw [hz]
    simp only [zero_add]
    nlinarith
  have hlow' : (g + 1) * Real.pi / 4 < x * tmax := by
    rw [div_div, div_div, div_lt_iff₀ (by positivity)] at hlow
    linarith
  rw [div_lt_iff₀ h1]
  have h6 : (1e-20 : ℝ) < (g + 1) * Real.pi := by nlinarith
  have h7 : 6 * ((g + 1) * Real.pi / 4) < 2 * Real.pi * (x * tmax) := by
    have : 0 < (g + 1) * Real.pi / 4 := by positivity
    nlinarith
  linarith

/-! ## FFT -/

theorem step_ok {C : Conv} {verb : ℤ} {i : Item} {s r : St} (h : (step C verb i s).val = .ok r) :
    ∃ v, valueOf C verb s.args i = .ok v ∧ r = ⟨popRest i.key s.args, s.targ ++ [(i.key, v)]⟩ := by
  rw [step_val] at h
  cases hv : valueOf C verb s.args i with
  | error e => rw [hv] at h; exact absurd h (by simp [Except.bind])
  | ok v =>
    rw [hv] at h
    simp only [Except.bind, Except.ok.injEq] at h
    exact ⟨v, rfl, h.symm⟩

/-- The smallest power of two that is not below `x`. -/
def SmallestPow (x N : ℝ) : Prop := ∃ i : ℕ, N = 2 ^ i ∧ x ≤ N ∧ ∀ j : ℕ, x ≤ 2 ^ j → i ≤ j

theorem nextPow_spec {x : ℝ} (hx : x ≤ 2 ^ 29) : SmallestPow x (nextPow x) := by
  unfold nextPow
  split
  · rename_i i hi
    obtain ⟨h1, h2⟩ := List.find?_range_eq_some.1 hi
    simp only [decide_eq_true_eq, Bool.not_eq_true', decide_eq_false_iff_not, not_le] at h1 h2
    refine ⟨i, rfl, h1, fun j hj => ?_⟩
    by_contra hij
    exact absurd hj (not_le.2 (h2.2 j (by omega)))
  · rename_i hi
    have := List.find?_eq_none.1 hi 29 (by simp)
    simp at this
    linarith

theorem nextPow_large {x : ℝ} (hx : 2 ^ 29 < x) : nextPow x = 1 := by
  unfold nextPow
  split
  · rename_i i hi
    obtain ⟨h1, h2⟩ := List.find?_range_eq_some.1 hi
    simp only [decide_eq_true_eq] at h1 h2
    have : (2 : ℝ) ^ i ≤ 2 ^ 29 := by
      apply pow_le_pow_right₀ (by norm_num)
      have := List.mem_range.1 h2.1
      omega
    linarith
  · rfl

/-- What `check_time` does with the arguments of FFT. -/
theorem fft_ok {E : Env} {C : Conv} {lib : String → Option Val} {dflt : Val} {time : List ℝ}
    {signal : ℝ} {ft : String} (hm : lower ft = "fft") {ftarg : Dict} {verb : ℤ} {f : List ℝ} {m : String}
    {d : Dict} (h : (checkTime E C lib dflt time signal ft ftarg verb).val = .ok (f, m, d)) :
    ∃ vd nfreq n0 vp, C.flt ((ftarg.lookup "dfreq").getD (.num 0.002)) = .ok vd ∧
      C.int ((ftarg.lookup "nfreq").getD (.num 2048)) = .ok (.num nfreq) ∧
      C.int ((ftarg.lookup "ntot").getD (.num (nextPow nfreq))) = .ok (.num n0) ∧
      (Reading.optIntegerFrom 1).read C ((ftarg.lookup "pts_per_dec").getD .none) = .ok vp ∧
      d = [("dfreq", vd), ("nfreq", .num nfreq),
        ("ntot", .num (if nfreq > n0 then nextPow nfreq else n0)), ("pts_per_dec", vp)] := by
  obtain ⟨s, s', hs, hf, rfl, rfl⟩ := checkTime_ok h
  rw [hm] at hs hf
  rw [timeFreq, if_neg (by decide), if_neg (by decide), if_neg (by decide)] at hf
  obtain ⟨f', -, hf⟩ := bind_eq_ok.1 hf
  simp only [pure_val, Except.ok.injEq, Prod.mk.injEq] at hf
  obtain ⟨-, hdd⟩ := hf
  subst hdd
  rw [timeSteps, if_neg (by decide), if_neg (by decide), if_neg (by decide), if_pos rfl] at hs
  obtain ⟨s1, h1, hs⟩ := bind_eq_ok.1 hs
  obtain ⟨nfreq, h2, hs⟩ := bind_eq_ok.1 hs
  obtain ⟨s3, h3, hs⟩ := bind_eq_ok.1 hs
  obtain ⟨n0, h4, h5⟩ := bind_eq_ok.1 hs
  rw [fftItems, steps] at h1
  obtain ⟨s0, h0, h1⟩ := bind_eq_ok.1 h1
  rw [steps] at h1
  obtain ⟨s1', h1', h1⟩ := bind_eq_ok.1 h1
  rw [steps, pure_val, Except.ok.injEq] at h1
  subst h1
  obtain ⟨vd, hvd, rfl⟩ := step_ok h0
  obtain ⟨vn, hvn, rfl⟩ := step_ok h1'
  simp only [List.nil_append, List.cons_append] at h2 h3
  have h2 := getNum_ok h2
  simp only [List.lookup_cons, show ("nfreq" == "dfreq") = false by decide, beq_self_eq_true,
    Option.some.injEq] at h2
  subst h2
  obtain ⟨vt, hvt, rfl⟩ := step_ok h3
  simp only [List.nil_append, List.cons_append] at h4 h5
  have h4 := getNum_ok h4
  simp only [List.lookup_cons, show ("ntot" == "dfreq") = false by decide,
    show ("ntot" == "nfreq") = false by decide, beq_self_eq_true, Option.some.injEq] at h4
  subst h4
  simp only [valueOf] at hvd hvn hvt
  rw [popVal_popRest (by decide)] at hvn
  rw [popVal_popRest (by decide), popVal_popRest (by decide)] at hvt
  have key : ∀ D : Dict, ∀ s2 : St, s2 = ⟨popRest "ntot" (popRest "nfreq" (popRest "dfreq" ftarg)), D⟩ →
      (step C verb ⟨"pts_per_dec", .none, .optIntMin 1⟩ s2).val = .ok s →
      ∃ vp, (Reading.optIntegerFrom 1).read C ((ftarg.lookup "pts_per_dec").getD .none) = .ok vp ∧
        s.targ = D ++ [("pts_per_dec", vp)] := by
    rintro D s2 rfl hst
    obtain ⟨vp, hvp, rfl⟩ := step_ok hst
    refine ⟨vp, ?_, rfl⟩
    simp only [valueOf] at hvp
    rw [popVal_popRest (by decide), popVal_popRest (by decide), popVal_popRest (by decide),
      check_val_of_same (r := .optIntegerFrom 1) (by simp [Same])] at hvp
    exact hvp
  split_ifs at h5 with hgt
  · obtain ⟨vp, hvp, hd⟩ := key _ _ rfl h5
    refine ⟨vd, nfreq, n0, vp, hvd, hvn, hvt, hvp, ?_⟩
    rw [hd, if_pos hgt]
    simp [setVal]
  · obtain ⟨vp, hvp, hd⟩ := key _ _ rfl h5
    refine ⟨vd, nfreq, n0, vp, hvd, hvn, hvt, hvp, ?_⟩
    rw [hd, if_neg hgt]
    rfl

/-- **C28, FFT: total number.**  If at most `2^29` frequencies are asked for: what is given, if that is enough;
else the smallest power of two that is.  Missing for the full claim: more frequencies, see
`C28_ntot_violated`. -/
theorem C28_ntot_partial {E : Env} {C : Conv} {lib : String → Option Val} {dflt : Val} {time : List ℝ}
    {signal : ℝ} {ft : String} (hm : lower ft = "fft") {ftarg : Dict} {verb : ℤ} {f : List ℝ} {m : String}
    {d : Dict} (h : (checkTime E C lib dflt time signal ft ftarg verb).val = .ok (f, m, d)) {nfreq : ℝ}
    (hn : d.lookup "nfreq" = some (.num nfreq)) (hle : nfreq ≤ 2 ^ 29) :
    ∃ N, d.lookup "ntot" = some (.num N) ∧ nfreq ≤ N ∧
      (∀ x, ftarg.lookup "ntot" = some (.num x) → nfreq ≤ Tem.trunc x → N = Tem.trunc x) ∧
      (ftarg.lookup "ntot" = none → SmallestPow nfreq N) := by
  obtain ⟨vd, nfreq', n0, vp, -, -, h0, -, rfl⟩ := fft_ok hm h
  simp only [List.lookup_cons, show ("nfreq" == "dfreq") = false by decide, beq_self_eq_true,
    Option.some.injEq, Val.num.injEq] at hn
  subst hn
  obtain ⟨i, hi, hge, hmin⟩ := nextPow_spec hle
  refine ⟨if nfreq' > n0 then nextPow nfreq' else n0, by simp [List.lookup], ?_, fun x hx hxn => ?_, fun hnone => ?_⟩
  · split_ifs with hgt
    · exact hge
    · exact not_lt.1 hgt
  · rw [hx, Option.getD_some, C.int_num, Except.ok.injEq, Val.num.injEq] at h0
    rw [if_neg (by rw [← h0]; exact not_lt.2 hxn), h0]
  · rw [hnone, Option.getD_none, C.int_num, Except.ok.injEq, Val.num.injEq] at h0
    have ht : ((Tem.trunc (nextPow nfreq') : ℤ) : ℝ) = nextPow nfreq' := by
      rw [hi]
      have : ((2 ^ i : ℤ) : ℝ) = 2 ^ i := by push_cast; rfl
      rw [← this, Tem.trunc, if_pos (by rw [this]; positivity), Int.floor_intCast]
    rw [ht] at h0
    rw [← h0, ite_self]
    exact ⟨i, hi, hge, hmin⟩

/-- **C28 does not hold for more than `2^29` frequencies**: without `ntot` the total number is one, below the
number of frequencies. -/
theorem C28_ntot_violated {E : Env} {C : Conv} {lib : String → Option Val} {dflt : Val} {time : List ℝ}
    {signal : ℝ} {ft : String} (hm : lower ft = "fft") {ftarg : Dict} {verb : ℤ} {f : List ℝ} {m : String}
    {d : Dict} (h : (checkTime E C lib dflt time signal ft ftarg verb).val = .ok (f, m, d)) {nfreq : ℝ}
    (hn : d.lookup "nfreq" = some (.num nfreq)) (hlt : 2 ^ 29 < nfreq) (hnone : ftarg.lookup "ntot" = none) :
    d.lookup "ntot" = some (.num 1) ∧ 1 < nfreq := by
  obtain ⟨vd, nfreq', n0, vp, -, -, h0, -, rfl⟩ := fft_ok hm h
  simp only [List.lookup_cons, show ("nfreq" == "dfreq") = false by decide, beq_self_eq_true,
    Option.some.injEq, Val.num.injEq] at hn
  subst hn
  have h1 : (1 : ℝ) < 2 ^ 29 := by norm_num
  rw [hnone, Option.getD_none, C.int_num, nextPow_large hlt, Except.ok.injEq, Val.num.injEq] at h0
  have ht : ((Tem.trunc 1 : ℤ) : ℝ) = 1 := by simp [Tem.trunc]
  rw [ht] at h0
  refine ⟨?_, by linarith⟩
  rw [← h0, nextPow_large hlt, ite_self]
  simp [List.lookup]

/-- **C28, FFT: arguments.**  Step, number, and points per decade are read from what is given or from the
default; there is nothing else besides the total number. -/
theorem C28_fft {E : Env} {C : Conv} {lib : String → Option Val} {dflt : Val} {time : List ℝ}
    {signal : ℝ} {ft : String} (hm : lower ft = "fft") {ftarg : Dict} {verb : ℤ} {f : List ℝ} {m : String}
    {d : Dict} (h : (checkTime E C lib dflt time signal ft ftarg verb).val = .ok (f, m, d)) :
    m = "fft" ∧ (∀ p ∈ fftTable ++ [⟨"pts_per_dec", .none, .optIntegerFrom 1⟩],
        ∃ v, p.reading.read C (p.given ftarg) = .ok v ∧ d.lookup p.key = some v) ∧
      ∀ k, k ∉ ["dfreq", "nfreq", "ntot", "pts_per_dec"] → d.lookup k = none := by
  obtain ⟨-, -, -, -, hm', -⟩ := checkTime_ok h
  obtain ⟨vd, nfreq, n0, vp, h1, h2, -, h4, rfl⟩ := fft_ok hm h
  refine ⟨hm'.trans hm, ?_, fun k hk => lookup_notMem _ _ (by simpa using hk)⟩
  intro p hp
  simp only [fftTable, List.cons_append, List.nil_append, List.mem_cons, List.not_mem_nil, or_false] at hp
  rcases hp with rfl | rfl | rfl
  · exact ⟨vd, h1, by simp [List.lookup]⟩
  · exact ⟨_, h2, by simp [List.lookup]⟩
  · exact ⟨vp, h4, by simp [List.lookup]⟩

/-- **C28, FFT: frequencies.**  Without points per decade exactly the multiples of the step that the transform
uses; with them, at least two and increasing frequencies whose first is the step and whose last is the
largest multiple - so that all multiples are enclosed - provided that `int((stop-start)*pts_per_dec + 1)` is
at least two. -/
theorem C28_fft_freq {E : Env} {C : Conv} {lib : String → Option Val} {dflt : Val} {time : List ℝ}
    {signal : ℝ} {ft : String} (hm : lower ft = "fft") {ftarg : Dict} {verb : ℤ} {f : List ℝ} {m : String}
    {d : Dict} (h : (checkTime E C lib dflt time signal ft ftarg verb).val = .ok (f, m, d)) {dfreq : ℝ}
    (hdf : d.lookup "dfreq" = some (.num dfreq)) (h0 : 0 < dfreq) {n : ℕ}
    (hn : d.lookup "nfreq" = some (.num n)) :
    (d.lookup "pts_per_dec" = some .none → f.length = n ∧ ∀ k < n, f.getD k 0 = ((k : ℝ) + 1) * dfreq) ∧
    (∀ p, d.lookup "pts_per_dec" = some (.num p) → 2 ≤ f.length → 2 ≤ n → f.Pairwise (· < ·) ∧
      f.getD 0 0 = dfreq ∧ f.getD (f.length - 1) 0 = n * dfreq ∧
      ∀ k < n, f.getD 0 0 ≤ ((k : ℝ) + 1) * dfreq ∧ ((k : ℝ) + 1) * dfreq ≤ f.getD (f.length - 1) 0) := by
  have h1 := (timeFreq_ok h).2.2 hm
  rw [fftFreq] at h1
  obtain ⟨df', a1, h1⟩ := bind_eq_ok.1 h1
  obtain ⟨n', a2, h1⟩ := bind_eq_ok.1 h1
  have a1 := getNum_ok a1
  have a2 := getNum_ok a2
  rw [hdf, Option.some.injEq, Val.num.injEq] at a1
  rw [hn, Option.some.injEq, Val.num.injEq] at a2
  subst a1 a2
  constructor
  · intro hp
    simp only [hp, pure_val, Except.ok.injEq, Nat.floor_natCast] at h1
    subst h1
    refine ⟨by simp, fun k hk => ?_⟩
    rw [List.getD_eq_getElem?_getD, List.getElem?_map, List.getElem?_range hk]
    rfl
  · intro p hp h2 hn2
    simp only [hp] at h1
    obtain ⟨-, -, c1, c2, -, c3, -⟩ := logspace_ok h1
    have hn0 : (2 : ℝ) ≤ n := by exact_mod_cast hn2
    have e1 : f.getD 0 0 = dfreq := by rw [c1 (by omega), rpow_logb_ten h0]
    have e2 : f.getD (f.length - 1) 0 = n * dfreq := by rw [c2 h2, rpow_logb_ten (by positivity)]
    refine ⟨c3 ?_, e1, e2, fun k hk => ?_⟩
    · exact Real.logb_lt_logb (by norm_num) h0 (by nlinarith)
    · rw [e1, e2]
      have : (k : ℝ) + 1 ≤ n := by exact_mod_cast hk
      constructor
      · nlinarith [Nat.cast_nonneg (α := ℝ) k]
      · nlinarith

/-! ## FFTLog -/

theorem getPair_ok {k : String} {d : Dict} {x : ℝ × ℝ} (h : (getPair k d).val = .ok x) :
    d.lookup k = some (.arr [x.1, x.2]) := by
  unfold getPair at h
  split at h
  · simp only [pure_val, Except.ok.injEq] at h; subst h; assumption
  · simp at h
  · simp at h

theorem twoFloats_ok {C : Conv} {v : Val} {x y : ℝ} (h : Reading.twoFloats.read C v = .ok (.arr [x, y])) :
    v = .arr [x, y] := by
  unfold Reading.read at h
  split at h <;> try contradiction
  · simpa using h
  · rename_i w _ _ _ _ _
    cases hc : C.flt w <;> rw [hc] at h <;> exact absurd h (by simp [Except.bind])

theorem clipQ_eq (q : ℝ) : clipQ q = max (-1) (min 1 q) := by
  unfold clipQ
  split_ifs with h
  · rcases lt_abs.1 h with h | h
    · rw [sign_pos (by linarith), min_eq_left h.le]
      norm_num
    · rw [sign_neg (by linarith), min_eq_right (by linarith), max_eq_left (by linarith)]
      norm_num
  · have := abs_le.1 (not_lt.1 h)
    rw [min_eq_right this.2, max_eq_right this.1]

/-- **C28, FFTLog: arguments and frequencies.**  Points per decade and additional decades are read from what is
given or from the default; the bias is cut to `[-1, 1]`; the order is set by the signal whatever is given;
frequencies, times and constants are those of `get_fftlog_input` for the range of the times. -/
theorem C28_fftlog {E : Env} {C : Conv} {lib : String → Option Val} {dflt : Val} {time : List ℝ}
    {signal : ℝ} {ft : String} (hm : lower ft = "fftlog") {ftarg : Dict} {verb : ℤ} {f : List ℝ} {m : String}
    {d : Dict} (h : (checkTime E C lib dflt time signal ft ftarg verb).val = .ok (f, m, d)) :
    m = "fftlog" ∧ ∃ p x y q tmin tmax, ∃ mu : ℝ, ∃ n : ℕ,
      (Reading.integerFrom 1).read C ((ftarg.lookup "pts_per_dec").getD (.num 10)) = .ok (.num p) ∧
      (ftarg.lookup "add_dec").getD (.arr [-2, 1]) = .arr [x, y] ∧
      C.flt ((ftarg.lookup "q").getD (.num 0)) = .ok (.num q) ∧
      (tmin ∈ time ∧ ∀ t ∈ time, tmin ≤ t) ∧ (tmax ∈ time ∧ ∀ t ∈ time, t ≤ tmax) ∧
      (0 ≤ signal → mu = 1 / 2) ∧ (signal < 0 → mu = -(1 / 2)) ∧
      n = ⌊(Tem.trunc (Real.logb 10 (1 / tmin) + y - (Real.logb 10 (1 / tmax) + x)) : ℝ) * p⌋₊ ∧
      let I := Fftlog.getInput E.round (E.phase (max (-1) (min 1 q)) mu) (Real.logb 10 (1 / tmax) + x)
        (Real.logb 10 (1 / tmin) + y) n
      f = (List.range n).map I.freq ∧
      d = [("pts_per_dec", .num p), ("add_dec", .arr [x, y]), ("q", .num (max (-1) (min 1 q))),
        ("mu", .num mu), ("tcalc", .arr ((List.range n).map I.tcalc)), ("dlnr", .num I.dlnr),
        ("kr", .num I.kr), ("rk", .num I.rk)] := by
  obtain ⟨s, s', hs, hf, hm', rfl⟩ := checkTime_ok h
  refine ⟨hm'.trans hm, ?_⟩
  rw [hm] at hs hf
  rw [timeSteps, if_neg (by decide), if_neg (by decide), if_pos rfl] at hs
  rw [timeFreq, if_neg (by decide), if_neg (by decide), if_pos rfl] at hf
  obtain ⟨i, hi, hf⟩ := bind_eq_ok.1 hf
  simp only [pure_val, Except.ok.injEq, Prod.mk.injEq] at hf
  obtain ⟨rfl, rfl⟩ := hf
  obtain ⟨s3, h3, hs⟩ := bind_eq_ok.1 hs
  obtain ⟨q, hq, hs⟩ := bind_eq_ok.1 hs
  simp only [pure_val, Except.ok.injEq] at hs
  subst hs
  rw [fftlogItems, steps] at h3
  obtain ⟨s0, h0, h3⟩ := bind_eq_ok.1 h3
  rw [steps] at h3
  obtain ⟨s1, h1, h3⟩ := bind_eq_ok.1 h3
  rw [steps] at h3
  obtain ⟨s2, h2, h3⟩ := bind_eq_ok.1 h3
  rw [steps, pure_val, Except.ok.injEq] at h3
  subst h3
  obtain ⟨vp, hvp, rfl⟩ := step_ok h0
  obtain ⟨va, hva, rfl⟩ := step_ok h1
  obtain ⟨vq, hvq, rfl⟩ := step_ok h2
  simp only [valueOf] at hvp hva hvq
  rw [popVal_popRest (by decide)] at hva
  rw [popVal_popRest (by decide), popVal_popRest (by decide)] at hvq
  simp only [List.nil_append, List.cons_append] at hq hi ⊢
  have hq := getNum_ok hq
  simp only [List.lookup_cons, show ("q" == "pts_per_dec") = false by decide,
    show ("q" == "add_dec") = false by decide, beq_self_eq_true, Option.some.injEq] at hq
  subst hq
  rw [fftlogInput] at hi
  obtain ⟨p, b1, hi⟩ := bind_eq_ok.1 hi
  obtain ⟨xy, b2, hi⟩ := bind_eq_ok.1 hi
  obtain ⟨q', b3, hi⟩ := bind_eq_ok.1 hi
  obtain ⟨mu, b4, hi⟩ := bind_eq_ok.1 hi
  obtain ⟨tmax, b5, hi⟩ := bind_eq_ok.1 hi
  obtain ⟨tmin, b6, hi⟩ := bind_eq_ok.1 hi
  simp only [pure_val, Except.ok.injEq] at hi
  subst hi
  have hd : (addVal "mu" (Val.num (if Tem.isSine signal = true then 1 / 2 else -(1 / 2)))
      (drop "mu" ⟨popRest "q" (popRest "add_dec" (popRest "pts_per_dec" ftarg)),
        setVal "q" (Val.num (clipQ q)) [("pts_per_dec", vp), ("add_dec", va), ("q", Val.num q)]⟩)).targ =
      [("pts_per_dec", vp), ("add_dec", va), ("q", .num (clipQ q)),
        ("mu", .num (if Tem.isSine signal = true then 1 / 2 else -(1 / 2)))] := by
    simp [addVal, drop, setVal]
  rw [hd] at b1 b2 b3 b4
  replace b1 := getNum_ok b1
  replace b2 := getPair_ok b2
  replace b3 := getNum_ok b3
  replace b4 := getNum_ok b4
  simp only [List.lookup_cons, beq_self_eq_true, show ("q" == "pts_per_dec") = false by decide,
    show ("q" == "add_dec") = false by decide, show ("add_dec" == "pts_per_dec") = false by decide,
    show ("mu" == "pts_per_dec") = false by decide, show ("mu" == "add_dec") = false by decide,
    show ("mu" == "q") = false by decide, Option.some.injEq, Val.num.injEq] at b1 b2 b3 b4
  subst b1 b2 b3 b4
  rw [check_val_of_same (r := .integerFrom 1) (by simp [Same])] at hvp
  rw [check_val_of_same (r := .twoFloats) (by simp [Same])] at hva
  refine ⟨p, xy.1, xy.2, q, tmin, tmax,
    if Tem.isSine signal = true then 1 / 2 else -(1 / 2), _, hvp, twoFloats_ok hva, hvq, minTime_ok b6, maxTime_ok b5,
    fun hs => ?_, fun hs => ?_, rfl, ?_, ?_⟩
  · rw [if_pos (by simpa [Tem.isSine] using hs)]
  · rw [if_neg (by simpa [Tem.isSine] using hs)]
  · rw [clipQ_eq]
    rfl
  · rw [← clipQ_eq]
    simp only [addVal, drop, setVal, fftlogRange]
    simp

theorem integerFrom_ge {C : Conv} {n : ℕ} {v : Val} {p : ℝ}
    (h : (Reading.integerFrom n).read C v = .ok (.num p)) : (n : ℝ) ≤ p := by
  simp only [Reading.read] at h
  cases hv : C.int v with
  | error e => rw [hv] at h; exact absurd h (by simp [Except.map])
  | ok w =>
    rw [hv] at h
    simp only [Except.map, Except.ok.injEq] at h
    cases w with
    | num x => simp only [raised, Val.num.injEq] at h; rw [← h]; exact le_max_left _ _
    | _ => simp [raised] at h

/-- **C28, FFTLog: range.**  If the additional decades are at least one step wide on both sides, the times of the
transform enclose all requested times. -/
theorem C28_fftlog_cover {E : Env} {C : Conv} {lib : String → Option Val} {dflt : Val} {time : List ℝ}
    (ht : ∀ t ∈ time, 0 < t)
    {signal : ℝ} {ft : String} (hm : lower ft = "fftlog") {ftarg : Dict} {verb : ℤ} {f : List ℝ} {m : String}
    {d : Dict} (h : (checkTime E C lib dflt time signal ft ftarg verb).val = .ok (f, m, d)) {x y : ℝ}
    (ha : (ftarg.lookup "add_dec").getD (.arr [-2, 1]) = .arr [x, y]) (hf : 0 < f.length) {l : List ℝ}
    (hl : d.lookup "tcalc" = some (.arr l)) {dlnr : ℝ} (hd : d.lookup "dlnr" = some (.num dlnr))
    (hx : dlnr / Real.log 10 ≤ -x) (hy : dlnr / Real.log 10 ≤ y) :
    l.length = f.length ∧ ∀ t ∈ time, l.getD 0 0 ≤ t ∧ t ≤ l.getD (l.length - 1) 0 := by
  obtain ⟨-, p, x', y', q, tmin, tmax, mu, n, hp, ha', -, ⟨h1, h2⟩, ⟨h3, h4⟩, -, -, hn', hf', hd'⟩ :=
    C28_fftlog hm h
  rw [ha] at ha'
  simp only [Val.arr.injEq, List.cons.injEq, and_true] at ha'
  obtain ⟨rfl, rfl⟩ := ha'
  subst hf' hd'
  simp only [List.length_map, List.length_range] at hf
  simp only [List.lookup_cons, show ("tcalc" == "pts_per_dec") = false by decide,
    show ("tcalc" == "add_dec") = false by decide, show ("tcalc" == "q") = false by decide,
    show ("tcalc" == "mu") = false by decide, beq_self_eq_true, Option.some.injEq, Val.arr.injEq] at hl
  simp only [List.lookup_cons, show ("dlnr" == "pts_per_dec") = false by decide,
    show ("dlnr" == "add_dec") = false by decide, show ("dlnr" == "q") = false by decide,
    show ("dlnr" == "mu") = false by decide, show ("dlnr" == "tcalc") = false by decide, beq_self_eq_true,
    Option.some.injEq, Val.num.injEq] at hd
  subst hl hd
  have hlog : Real.log 10 ≠ 0 := (Real.log_pos (by norm_num)).ne'
  simp only [Fftlog.getInput, mul_div_assoc, div_self hlog, mul_one] at hx hy
  have hn : (0 : ℝ) < n := by exact_mod_cast hf
  have p1 := ht _ h1
  have p3 := ht _ h3
  have hab : Real.logb 10 (1 / tmax) ≤ Real.logb 10 (1 / tmin) :=
    Real.logb_le_logb_of_le (by norm_num) (by positivity) (one_div_le_one_div_of_le p1 (h2 _ h3))
  have hle : Real.logb 10 (1 / tmax) + x ≤ Real.logb 10 (1 / tmin) + y := by
    by_contra hc
    push Not at hc
    have hp1 := integerFrom_ge hp
    have : (Tem.trunc (Real.logb 10 (1 / tmin) + y - (Real.logb 10 (1 / tmax) + x)) : ℝ) ≤ 0 := by
      rw [Tem.trunc, if_neg (by linarith)]
      exact_mod_cast Int.ceil_le.2 (by push_cast; linarith)
    have h0 : ⌊(Tem.trunc (Real.logb 10 (1 / tmin) + y - (Real.logb 10 (1 / tmax) + x)) : ℝ) * p⌋₊ = 0 :=
      Nat.floor_of_nonpos (mul_nonpos_of_nonpos_of_nonneg this (by push_cast at hp1; linarith))
    omega
  have hc := C43_cover E.round (E.phase (max (-1) (min 1 q)) mu) tmin tmax x y n hf p1 p3 hle hx hy
  refine ⟨by simp, fun t ht' => ?_⟩
  have hget : ∀ g : ℕ → ℝ, ∀ i < n, ((List.range n).map g).getD i 0 = g i := by
    intro g i hi
    rw [List.getD_eq_getElem?_getD, List.getElem?_map, List.getElem?_range hi]
    rfl
  rw [List.length_map, List.length_range, hget _ 0 hf, hget _ (n - 1) (by omega)]
  exact ⟨hc.1.trans (h2 t ht'), (h4 t ht').trans hc.2⟩

/-! ## All methods -/

/-- **C28, positivity.**  For positive times, a filter with positive base, and a positive frequency step, all
frequencies are positive. -/
theorem C28_positive {E : Env} {C : Conv} {lib : String → Option Val} {dflt : Val} {time : List ℝ}
    (ht : ∀ t ∈ time, 0 < t) {signal : ℝ} {ft : String} {ftarg : Dict} {verb : ℤ} {f : List ℝ} {m : String}
    {d : Dict} (h : (checkTime E C lib dflt time signal ft ftarg verb).val = .ok (f, m, d))
    (hF : ∀ a F, d.lookup "dlf" = some (.filter a F) → ∀ k < F.n, 0 < F.base k)
    (hdf : ∀ x, d.lookup "dfreq" = some (.num x) → 0 < x) : ∀ x ∈ f, 0 < x := by
  have hpi := Real.pi_pos
  by_cases hm : lower ft ∈ ["dlf", "qwe", "fftlog", "fft"]
  swap
  · rw [C28_method E C lib dflt time signal ft ftarg verb hm] at h
    exact absurd h (by simp)
  simp only [List.mem_cons, List.not_mem_nil, or_false] at hm
  rcases hm with hm | hm | hm | hm
  · have h1 := (timeFreq_ok h).1 hm
    rw [dlfFreq] at h1
    obtain ⟨F, hF2, h1⟩ := bind_eq_ok.1 h1
    obtain ⟨p, -, h1⟩ := bind_eq_ok.1 h1
    have hb : ∀ k < F.n, 0 < F.base k := by
      unfold getDlf at hF2
      split at hF2
      · rename_i a F' hl
        simp only [pure_val, Except.ok.injEq] at hF2
        subst hF2
        exact hF _ _ hl
      · simp at hF2
    split_ifs at h1 with hp
    · rw [pure_val, Except.ok.injEq, dlfOmega, if_pos hp] at h1
      subst h1
      simp only [List.mem_map, List.mem_flatMap, List.mem_range, forall_exists_index, and_imp]
      rintro _ _ t ht' k hk rfl rfl
      have := hb k hk
      have := ht t ht'
      positivity
    · obtain ⟨tmin, _, h1⟩ := bind_eq_ok.1 h1
      obtain ⟨tmax, -, h1⟩ := bind_eq_ok.1 h1
      rw [pure_val, Except.ok.injEq, dlfOmega, if_neg hp] at h1
      subst h1
      split_ifs
      · simp only [List.mem_map, List.mem_range, forall_exists_index, and_imp]
        rintro _ _ k - rfl rfl
        simp only [lagPoints]
        positivity
      · simp only [List.mem_map, List.mem_range, forall_exists_index, and_imp]
        rintro _ _ k - rfl rfl
        simp only [splPoints]
        positivity
  · have h1 := (timeFreq_ok h).2.1 hm
    rw [qweFreq] at h1
    obtain ⟨_, -, h1⟩ := bind_eq_ok.1 h1
    obtain ⟨_, -, h1⟩ := bind_eq_ok.1 h1
    obtain ⟨_, -, h1⟩ := bind_eq_ok.1 h1
    obtain ⟨_, -, h1⟩ := bind_eq_ok.1 h1
    obtain ⟨_, -, h1⟩ := bind_eq_ok.1 h1
    exact (logspace_ok h1).2.2.2.2.1
  · obtain ⟨-, p, x', y', q, tmin, tmax, mu, n, -, -, -, -, -, -, -, -, hf', -⟩ := C28_fftlog hm h
    subst hf'
    simp only [List.mem_map, List.mem_range, forall_exists_index, and_imp]
    rintro _ j - rfl
    simp only [Fftlog.getInput, Fftlog.ten]
    positivity
  · have h1 := (timeFreq_ok h).2.2 hm
    rw [fftFreq] at h1
    obtain ⟨df, a1, h1⟩ := bind_eq_ok.1 h1
    obtain ⟨n', -, h1⟩ := bind_eq_ok.1 h1
    have h0 := hdf _ (getNum_ok a1)
    split at h1
    · exact (logspace_ok h1).2.2.2.2.1
    · rw [pure_val, Except.ok.injEq] at h1
      subst h1
      simp only [List.mem_map, List.mem_range, forall_exists_index, and_imp]
      rintro _ j - rfl
      positivity

theorem step_run {C : Conv} {verb : ℤ} {i : Item} {s : St} {v : Val} (h : valueOf C verb s.args i = .ok v) :
    (step C verb i s).val = .ok ⟨popRest i.key s.args, s.targ ++ [(i.key, v)]⟩ := by
  rw [step_val, h]; rfl

theorem getNum_run {k : String} {d : Dict} {x : ℝ} (h : d.lookup k = some (.num x)) :
    (getNum k d).val = .ok x := by
  rw [getNum, h]; rfl

/-- **C28, FFT: success.**  Without points per decade, whenever the other arguments can be read. -/
theorem C28_fft_runs (E : Env) (C : Conv) (lib : String → Option Val) (dflt : Val) (time : List ℝ)
    (signal : ℝ) (ft : String) (hm : lower ft = "fft") (ftarg : Dict) (verb : ℤ) {df n n0 : ℝ}
    (h1 : C.flt ((ftarg.lookup "dfreq").getD (.num 0.002)) = .ok (.num df))
    (h2 : C.int ((ftarg.lookup "nfreq").getD (.num 2048)) = .ok (.num n))
    (h3 : C.int ((ftarg.lookup "ntot").getD (.num (nextPow n))) = .ok (.num n0))
    (h4 : (ftarg.lookup "pts_per_dec").getD .none = .none) :
    ∃ f d, (checkTime E C lib dflt time signal ft ftarg verb).val = .ok (f, "fft", d) ∧
      d.lookup "dfreq" = some (.num df) ∧ d.lookup "nfreq" = some (.num n) ∧
      d.lookup "pts_per_dec" = some .none := by
  have hs : ∃ s, (timeSteps C lib dflt "fft" signal verb ⟨ftarg, []⟩).val = .ok s ∧
      s.targ.lookup "dfreq" = some (.num df) ∧ s.targ.lookup "nfreq" = some (.num n) ∧
      s.targ.lookup "pts_per_dec" = some .none := by
    have key : ∀ D : Dict, (step C verb ⟨"pts_per_dec", .none, .optIntMin 1⟩
        ⟨popRest "ntot" (popRest "nfreq" (popRest "dfreq" ftarg)), D⟩).val =
        .ok ⟨popRest "pts_per_dec" (popRest "ntot" (popRest "nfreq" (popRest "dfreq" ftarg))),
          D ++ [("pts_per_dec", .none)]⟩ := by
      intro D
      refine step_run ?_
      simp only [valueOf]
      rw [popVal_popRest (by decide), popVal_popRest (by decide), popVal_popRest (by decide)]
      change (check C verb _ ((ftarg.lookup "pts_per_dec").getD .none)).val = _
      rw [h4]; rfl
    have e1 : (steps C verb fftItems ⟨ftarg, []⟩).val = .ok ⟨popRest "nfreq" (popRest "dfreq" ftarg),
        [("dfreq", .num df), ("nfreq", .num n)]⟩ := by
      rw [fftItems, steps]
      refine bind_eq_ok.2 ⟨_, step_run (v := .num df) h1, ?_⟩
      rw [steps]
      refine bind_eq_ok.2 ⟨_, step_run (v := .num n) ?_, rfl⟩
      simp only [valueOf]
      rw [popVal_popRest (by decide)]
      exact h2
    have e3 : (step C verb ⟨"ntot", .num (nextPow n), .int⟩ ⟨popRest "nfreq" (popRest "dfreq" ftarg),
        [("dfreq", .num df), ("nfreq", .num n)]⟩).val = .ok ⟨popRest "ntot" (popRest "nfreq"
          (popRest "dfreq" ftarg)), [("dfreq", .num df), ("nfreq", .num n), ("ntot", .num n0)]⟩ := by
      refine step_run (v := .num n0) ?_
      simp only [valueOf]
      rw [popVal_popRest (by decide), popVal_popRest (by decide)]
      exact h3
    rw [timeSteps, if_neg (by decide), if_neg (by decide), if_neg (by decide), if_pos rfl]
    refine ⟨⟨popRest "pts_per_dec" (popRest "ntot" (popRest "nfreq" (popRest "dfreq" ftarg))),
      (if n > n0 then setVal "ntot" (.num (nextPow n))
        [("dfreq", .num df), ("nfreq", .num n), ("ntot", .num n0)]
        else [("dfreq", .num df), ("nfreq", .num n), ("ntot", .num n0)]) ++ [("pts_per_dec", .none)]⟩,
      bind_eq_ok.2 ⟨_, e1, bind_eq_ok.2 ⟨n, getNum_run (by simp [List.lookup]),
        bind_eq_ok.2 ⟨_, e3, bind_eq_ok.2 ⟨n0, getNum_run (by simp [List.lookup]), ?_⟩⟩⟩⟩, ?_, ?_, ?_⟩
    · split_ifs
      · exact key _
      · exact key _
    all_goals split_ifs <;> simp [setVal, List.lookup]
  obtain ⟨s, hs, g1, g2, g3⟩ := hs
  rw [checkTime, hm]
  refine ⟨(List.range ⌊n⌋₊).map fun i : ℕ => ((i : ℝ) + 1) * df, s.targ, bind_eq_ok.2 ⟨s, hs,
    bind_eq_ok.2 ⟨((List.range ⌊n⌋₊).map fun i : ℕ => ((i : ℝ) + 1) * df, s), ?_,
      bind_eq_ok.2 ⟨s.targ, unknown_val _ _, rfl⟩⟩⟩, g1, g2, g3⟩
  · rw [timeFreq, if_neg (by decide), if_neg (by decide), if_neg (by decide)]
    refine bind_eq_ok.2 ⟨_, ?_, rfl⟩
    rw [fftFreq]
    refine bind_eq_ok.2 ⟨df, getNum_run g1, bind_eq_ok.2 ⟨n, getNum_run g2, ?_⟩⟩
    simp only [g3]
    rfl

/-! ## Examples -/

/-- 1000 frequencies: the transform gets 1024, and the last frequency is 2. -/
example (E : Env) (lib : String → Option Val) (dflt : Val) :
    ∃ f d, (checkTime E numbersOnly lib dflt [1, 2] 1 "FFT" [("nfreq", .num 1000)] 0).val =
      .ok (f, "fft", d) ∧ d.lookup "ntot" = some (.num 1024) ∧ f.length = 1000 ∧ f.getD 999 0 = 2 := by
  have hm : lower "FFT" = "fft" := by decide
  have t : ((Tem.trunc 1000 : ℤ) : ℝ) = 1000 := by
    rw [Tem.trunc, if_pos (by norm_num)]
    exact_mod_cast Int.floor_intCast (R := ℝ) 1000
  obtain ⟨f, d, h, h1, h2, h3⟩ := C28_fft_runs E numbersOnly lib dflt [1, 2] 1 "FFT" hm [("nfreq", .num 1000)] 0
    (df := 0.002) (n := 1000) (n0 := Tem.trunc (nextPow 1000)) rfl
    (by change Except.ok (Val.num _) = _; rw [t]) rfl rfl
  obtain ⟨N, hN, hge, -, hpow⟩ := C28_ntot_partial hm h h2 (by norm_num)
  obtain ⟨i, rfl, hi, hmin⟩ := hpow rfl
  have hi' : i = 10 := by
    refine le_antisymm (hmin 10 (by norm_num)) ?_
    by_contra hc
    have : (2 : ℝ) ^ i ≤ 2 ^ 9 := pow_le_pow_right₀ (by norm_num) (by omega)
    norm_num at this
    linarith
  subst hi'
  obtain ⟨h4, -⟩ := C28_fft_freq hm h h1 (by norm_num) (n := 1000) (by exact_mod_cast h2)
  obtain ⟨h5, h6⟩ := h4 h3
  refine ⟨f, d, h, by rw [hN]; norm_num, h5, ?_⟩
  rw [h6 999 (by norm_num)]
  norm_num

/-- `2^30` frequencies: the transform gets one. -/
example (E : Env) (lib : String → Option Val) (dflt : Val) :
    ∃ f d, (checkTime E numbersOnly lib dflt [1, 2] 1 "fft" [("nfreq", .num 1073741824)] 0).val =
      .ok (f, "fft", d) ∧ d.lookup "ntot" = some (.num 1) := by
  have t : ((Tem.trunc 1073741824 : ℤ) : ℝ) = 1073741824 := by
    rw [Tem.trunc, if_pos (by norm_num)]
    exact_mod_cast Int.floor_intCast (R := ℝ) 1073741824
  obtain ⟨f, d, h, h1, h2, h3⟩ := C28_fft_runs E numbersOnly lib dflt [1, 2] 1 "fft" (by decide)
    [("nfreq", .num 1073741824)] 0
    (df := 0.002) (n := 1073741824) (n0 := Tem.trunc (nextPow 1073741824)) rfl
    (by change Except.ok (Val.num _) = _; rw [t]) rfl rfl
  exact ⟨f, d, h, (C28_ntot_violated (by decide) h h2 (by norm_num) rfl).1⟩

/-- `'sin'` is documented and rejected. -/
example (E : Env) (lib : String → Option Val) (dflt : Val) :
    "sin" ∈ documentedMethods ∧
      (checkTime E numbersOnly lib dflt [1] 0 "sin" [] 2).val = .error .valueError := by
  refine ⟨by simp [documentedMethods], ?_⟩
  rw [C28_method _ _ _ _ _ _ _ _ _ (by decide)]

end Verif.Props
