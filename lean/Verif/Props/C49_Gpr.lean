import Verif.Props.C48_Time

/-!
# C49: `gpr`
-/

namespace Verif.Props
open Verif.Py Verif.Py.W Verif.Utils Verif.Spec Verif.Model Verif.Kernel Verif.Lemmas Verif.Transform Verif.Time

/-! ## Specification -/

/-- Spectrum of the Ricker wavelet with centre frequency `cf` at `f`, up to a constant. -/
noncomputable def wavelet (cf f : ℝ) : ℝ := -(f / cf) ^ 2 * Real.exp (-(f / cf) ^ 2)

/-- The frequency before the one with number `n`; zero before the first. -/
def previous (freq : List ℝ) (n : ℕ) : ℝ := (0 :: freq).getD n 0

/-- Gain at time `t` (seconds): one plus the power `p` of the time in nanoseconds. -/
noncomputable def gainAt (p t : ℝ) : ℝ := 1 + |(t * 10 ^ 9) ^ p|

/-! ## Helper lemmas -/

theorem ricker_eq (freq : List ℝ) (cf : ℝ) (n : ℕ) : ricker freq cf n = wavelet cf (previous freq n) := by
  unfold ricker wavelet previous
  cases n <;> simp

/-- The array of `dipole`, squeezed or not. -/
theorem dipole_squeezed (B : Back) (A : DipoleArgs) (f : List ℝ) (E : NdArray) :
    (dipole B { A with freq := f, squeeze := true }).val = .ok E ↔
      ∃ D, (dipole B { A with freq := f, squeeze := false }).val = .ok D ∧ E = D.squeeze := by
  unfold dipole
  simp only [bind_eq_ok, pure_val, Except.ok.injEq, if_true, Bool.false_eq_true, if_false]
  constructor
  · rintro ⟨a, h, rfl⟩; exact ⟨a, ⟨a, h, rfl⟩, rfl⟩
  · rintro ⟨D, ⟨a, h, rfl⟩, rfl⟩; exact ⟨a, h, rfl⟩

theorem entry_data {B : Back} {A : DipoleArgs} {f : List ℝ} {D : NdArray}
    (h : (dipole B { A with freq := f, squeeze := false }).val = .ok D) :
    ∃ src rcv, checkDipole A.src = .ok src ∧ checkDipole A.rcv = .ok rcv ∧ src.1.length = numDipoles A.src ∧
      rcv.1.length = numDipoles A.rcv ∧
      ∀ n r s, D.data ((n * numDipoles A.rcv + r) * numDipoles A.src + s) = D.get [n, r, s] := by
  obtain ⟨mo, fo, co, src, rcv, h1, h2, h3, h4, h5, h0, rfl⟩ :=
    (dipoleFull_iff _ _ _).1 ((dipole_array B A f _).1 h)
  obtain ⟨_, _, _, -, -, n1, -⟩ := checkDipole_ok h4
  obtain ⟨_, _, _, -, -, n2, -⟩ := checkDipole_ok h5
  simp only at n1 n2 h4 h5
  refine ⟨src, rcv, h4, h5, n1, n2, fun n r s => ?_⟩
  rw [← n1, ← n2]
  simp [reshapeF, NdArray.get]

/-- What `gpr` transforms for a pair: the response times the wavelet. -/
noncomputable def waved (freq : List ℝ) (cf : ℝ) (D : NdArray) (r s : ℕ) (n : ℕ) : ℂ :=
  D.get [n, r, s] * (wavelet cf (previous freq n) : ℂ)

/-! ## What it returns -/

/-- **C49.**  Whatever `gpr` returns: a gain was given, the frequencies are not a table, and the series of a pair is,
before squeezing, the gain times what the time domain makes of the product of the array which `dipole` returns
at the required frequencies with the wavelet at the frequency before. -/
theorem C49_gpr {B : Back} {T : FBack} {A : DipoleArgs} {cf : ℝ} {gain : Option ℝ} {ft : String} {ftarg : Args.Dict}
    {out : NdArray} (h : (gpr B T A cf gain ft ftarg).val = .ok out) :
    ∃ p c D arr, gain = some p ∧ (Time.checkTime T B.m A.freq (.num 0) ft ftarg A.verb).val = .ok c ∧ ¬manyRows c ∧
      (dipole B { A with freq := c.freq, squeeze := false }).val = .ok D ∧ out = NdArray.squeeze arr ∧
      arr.shape = [A.freq.length, numDipoles A.rcv, numDipoles A.src] ∧
      ∀ r s, r < numDipoles A.rcv → s < numDipoles A.src →
        ∃ l, InTime T c c.freq (waved c.freq cf D r s) l ∧
          ∀ i < A.freq.length, arr.get [i, r, s] =
            ((gainAt p (max (A.freq.getD i 0) B.m.minTime) * l.getD i 0 : ℝ) : ℂ) := by
  unfold gpr at h
  rw [bind_eq_ok] at h
  obtain ⟨_, -, h⟩ := h
  rw [bind_eq_ok] at h
  obtain ⟨c, hc, h⟩ := h
  rw [ok_if] at h
  replace h := h.2
  rw [bind_eq_ok] at h
  obtain ⟨E, hE, h⟩ := h
  obtain ⟨D, hD, rfl⟩ := (dipole_squeezed _ _ _ _).1 hE
  obtain ⟨src, rcv, h4, h5, n1, n2, hd⟩ := entry_data hD
  rw [bind_eq_ok] at h
  obtain ⟨src', q1, h⟩ := h
  obtain rfl : src = src' := Except.ok.inj (h4.symm.trans q1)
  rw [bind_eq_ok] at h
  obtain ⟨rcv', q2, h⟩ := h
  obtain rfl : rcv = rcv' := Except.ok.inj (h5.symm.trans q2)
  simp only [n1, n2] at h
  by_cases hM : manyRows c
  · rw [if_pos hM] at h; cases h
  rw [if_neg hM, bind_eq_ok] at h
  obtain ⟨R, hR, h⟩ := h
  obtain ⟨e1, e2⟩ := temStep_iff _ _ _ _ _ _ _ hR
  cases gain with
  | none => cases h
  | some p =>
    obtain rfl := Except.ok.inj h
    obtain ⟨-, t1, t2, t3, t4, t5⟩ := checkTime_num hc
    refine ⟨p, c, D, _, rfl, hc, hM, hD, rfl, ?_, fun r s hr hs => ?_⟩
    · rw [e1, t4]; rfl
    · obtain ⟨l, hl, hv⟩ := e2 _ (pair_lt hr hs)
      refine ⟨l, ?_, fun i hi => ?_⟩
      · have m1 : (r + numDipoles A.rcv * s) % numDipoles A.rcv = r := by
          rw [Nat.add_mul_mod_self_left, Nat.mod_eq_of_lt hr]
        have m2 : (r + numDipoles A.rcv * s) / numDipoles A.rcv = s := by
          rw [Nat.add_mul_div_left _ _ (by omega), Nat.div_eq_of_lt hr, Nat.zero_add]
        simp only [m1, m2, ricker_eq] at hl
        have : (fun n => D.squeeze.data ((n * numDipoles A.rcv + r) * numDipoles A.src + s) *
            ((wavelet cf (previous c.freq n) : ℝ) : ℂ)) = waved c.freq cf D r s := by
          funext n
          unfold waved
          rw [← hd]
          rfl
        rwa [this] at hl
      · rw [reshapeF_get _ _ _ _ hr hs, hv, t1, getD_map _ _ 0 hi, Complex.ofReal_re]
        unfold gainAt
        rw [mul_comm]

/-- **C49, acceptance.** -/
theorem C49_accept (B : Back) (T : FBack) (A : DipoleArgs) (cf : ℝ) (gain : Option ℝ) (ft : String)
    (ftarg : Args.Dict) :
    (∃ out, (gpr B T A cf gain ft ftarg).val = .ok out) ↔
      gain ≠ none ∧ ∃ c D, (Time.checkTime T B.m A.freq (.num 0) ft ftarg A.verb).val = .ok c ∧ ¬manyRows c ∧
        (dipole B { A with freq := c.freq, squeeze := false }).val = .ok D ∧
        ∀ r s, r < numDipoles A.rcv → s < numDipoles A.src →
          ∃ l, InTime T c c.freq (waved c.freq cf D r s) l := by
  constructor
  · rintro ⟨out, h⟩
    obtain ⟨p, c, D, arr, rfl, hc, hM, hD, -, -, hl⟩ := C49_gpr h
    exact ⟨by simp, c, D, hc, hM, hD, fun r s hr hs => (hl r s hr hs).imp fun l h => h.1⟩
  · rintro ⟨hg, c, D, hc, hM, hD, hl⟩
    obtain ⟨p, rfl⟩ := Option.ne_none_iff_exists'.1 hg
    obtain ⟨src, rcv, h4, h5, n1, n2, hd⟩ := entry_data hD
    obtain ⟨EM, hE⟩ := temStep_runs (T := T) (c := c) (freq := c.freq)
      (noff := numDipoles A.rcv * numDipoles A.src)
      (v := fun i k => D.squeeze.data ((i * numDipoles A.rcv + k % numDipoles A.rcv) * numDipoles A.src +
        k / numDipoles A.rcv) * (ricker c.freq cf i : ℂ)) (fun k hk => by
        obtain ⟨hr, hs, e⟩ := pair_split hk
        obtain ⟨l, hl⟩ := hl _ _ hr hs
        refine ⟨l, ?_⟩
        simp only [ricker_eq]
        have : (fun n => D.squeeze.data ((n * numDipoles A.rcv + k % numDipoles A.rcv) * numDipoles A.src +
            k / numDipoles A.rcv) * ((wavelet cf (previous c.freq n) : ℝ) : ℂ)) =
            waved c.freq cf D (k % numDipoles A.rcv) (k / numDipoles A.rcv) := by
          funext n
          unfold waved
          rw [← hd]
          rfl
        rwa [this]) A.verb
    unfold gpr
    simp only [bind_eq_ok]
    refine ⟨(reshapeF EM.1 (numDipoles A.rcv) (numDipoles A.src) fun i k =>
      (((EM.2 i k).re * (1 + |(c.time.getD i 0 * 10 ^ 9) ^ p|) : ℝ) : ℂ)).squeeze, (), rfl, c, hc, ?_⟩
    rw [ok_if]
    refine ⟨fun q => hM q.1, ?_⟩
    simp only [bind_eq_ok]
    refine ⟨_, (dipole_squeezed _ _ _ _).2 ⟨D, hD, rfl⟩, src, h4, rcv, h5, ?_⟩
    rw [if_neg hM]
    simp only [bind_eq_ok, n1, n2]
    exact ⟨EM, hE, rfl⟩

/-- **C49, exceptions.** -/
theorem C49_errors {B : Back} {T : FBack} {A : DipoleArgs} {cf : ℝ} {gain : Option ℝ} {ft : String}
    {ftarg : Args.Dict} {e : PyErr} (h : (gpr B T A cf gain ft ftarg).val = .error e) :
    (Time.checkTime T B.m A.freq (.num 0) ft ftarg A.verb).val = .error e ∨
    ∃ c, (Time.checkTime T B.m A.freq (.num 0) ft ftarg A.verb).val = .ok c ∧
      ((dipole B { A with freq := c.freq, squeeze := false }).val = .error e ∨
      (∃ x, fourier T c c.freq x = .error e) ∨ (manyRows c ∧ (e = .valueError ∨ e = .typeError)) ∨
      (gain = none ∧ e = .typeError)) := by
  unfold gpr at h
  rcases bind_err h with h | ⟨_, -, h⟩
  · cases h
  rcases bind_err h with h | ⟨c, hc, h⟩
  · exact Or.inl h
  refine Or.inr ⟨c, hc, ?_⟩
  by_cases hP : printsRows c A.verb
  · rw [if_pos hP] at h
    rcases bind_err h with h | ⟨mo, -, h⟩
    · left
      unfold dipole dipoleFull dipoleWith dipoleTail
      rw [bind_val, bind_val, h]
      rfl
    · exact Or.inr (Or.inr (Or.inl ⟨hP.1, Or.inr (Except.error.inj h).symm⟩))
  rw [if_neg hP] at h
  rcases bind_err h with h | ⟨E, hE, h⟩
  · left
    unfold dipole at h ⊢
    rcases bind_err h with h | ⟨_, -, h⟩
    · rw [bind_val]
      have : (dipoleFull B { A with freq := c.freq, squeeze := false }).val = .error e := h
      rw [this]; rfl
    · cases h
  obtain ⟨D, hD, rfl⟩ := (dipole_squeezed _ _ _ _).1 hE
  obtain ⟨src, rcv, h4, h5, n1, n2, hd⟩ := entry_data hD
  rcases bind_err h with h | ⟨src', h4', h⟩
  · exact absurd (h4.symm.trans h) (by simp)
  rcases bind_err h with h | ⟨rcv', h5', h⟩
  · exact absurd (h5.symm.trans h) (by simp)
  by_cases hM : manyRows c
  · simp only [if_pos hM] at h
    exact Or.inr (Or.inr (Or.inl ⟨hM, Or.inl (Except.error.inj h).symm⟩))
  simp only [if_neg hM] at h
  rcases bind_err h with h | ⟨R, -, h⟩
  · obtain ⟨k, -, hk⟩ := temStep_err h
    exact Or.inr (Or.inl ⟨_, hk⟩)
  · cases gain with
    | none => exact Or.inr (Or.inr (Or.inr ⟨rfl, (Except.error.inj h).symm⟩))
    | some p => cases h

/-! ## Violations -/

/-- **C49, violated for `gain=None`.**  It is the default and documented as "no gain is applied"; nothing is returned
for it, and where a number would be fine, a `TypeError` is raised. -/
theorem C49_gain_violated (B : Back) (T : FBack) (A : DipoleArgs) (cf : ℝ) (ft : String) (ftarg : Args.Dict) :
    (∀ out, (gpr B T A cf none ft ftarg).val ≠ .ok out) ∧
    ∀ p out, (gpr B T A cf (some p) ft ftarg).val = .ok out →
      (gpr B T A cf none ft ftarg).val = .error .typeError := by
  refine ⟨fun out h => ((C49_accept _ _ _ _ _ _ _).1 ⟨_, h⟩).1 rfl, fun p out h => ?_⟩
  unfold gpr at h ⊢
  rw [bind_eq_ok] at h
  obtain ⟨_, -, h⟩ := h
  rw [bind_eq_ok] at h
  obtain ⟨c, hc, h⟩ := h
  rw [ok_if] at h
  obtain ⟨hp, h⟩ := h
  rw [bind_eq_ok] at h
  obtain ⟨E, hE, h⟩ := h
  rw [bind_eq_ok] at h
  obtain ⟨src, h4, h⟩ := h
  rw [bind_eq_ok] at h
  obtain ⟨rcv, h5, h⟩ := h
  by_cases hM : manyRows c
  · rw [if_pos hM] at h; cases h
  rw [if_neg hM, bind_eq_ok] at h
  obtain ⟨R, hR, h⟩ := h
  rw [bind_val, say_val]
  simp only [Except.bind]
  rw [bind_val, hc]
  simp only [Except.bind]
  rw [if_neg hp, bind_val, hE]
  simp only [Except.bind]
  rw [bind_val, h4]
  simp only [Except.bind]
  rw [bind_val, h5]
  simp only [Except.bind]
  rw [if_neg hM, bind_val, hR]
  rfl

/-- **C49, violated for the wavelet.**  The response at the first frequency does not matter at all, whatever the
wavelet is there; with one frequency, `gpr` returns zeros for every model, receiver, centre frequency and gain. -/
theorem C49_wavelet_violated {B : Back} {T : FBack} {A : DipoleArgs} {cf : ℝ} {gain : Option ℝ} {ft : String}
    {ftarg : Args.Dict} {F : Filter} (hm : 0 < B.m.minTime) (hS : StdDlf T ft ftarg F) (hn : F.n = 1)
    (ht : A.freq.length = 1) {out : NdArray} (h : (gpr B T A cf gain ft ftarg).val = .ok out) :
    ∃ arr, out = NdArray.squeeze arr ∧ arr.shape = [1, numDipoles A.rcv, numDipoles A.src] ∧
      ∀ r s, r < numDipoles A.rcv → s < numDipoles A.src → arr.get [0, r, s] = 0 := by
  obtain ⟨p, c, D, arr, rfl, hc, hM, hD, ho, hsh, hl⟩ := C49_gpr h
  refine ⟨arr, ho, by rw [hsh, ht], fun r s hr hs => ?_⟩
  obtain ⟨l, ⟨y, cv, hy, rfl⟩, hv⟩ := hl r s hr hs
  obtain ⟨h1, ⟨kd, a, -, h2⟩, h3, hpos, h4⟩ := std_check hm hS hc
  obtain ⟨-, t1, t2, t3, t4, -⟩ := checkTime_num hc
  have tl : c.time.length = 1 := by rw [t1, List.length_map, ht]
  rw [std_fourier h1 h2 (by rw [h3, tl, ht]) (fun q => by simp [q] at tl)] at hy
  obtain ⟨rfl, -⟩ := Prod.mk.inj (Except.ok.inj hy)
  rw [hv 0 (by omega), t3]
  have w0 : waved c.freq cf D r s 0 = 0 := by simp [waved, wavelet, previous]
  simp [tl, hn, w0]

/-- **C49, violated for the standard digital filter.**  With several times and a filter of several points nothing is
returned, whatever `dipole` returns for the same arguments. -/
theorem C49_standard_violated (B : Back) (T : FBack) (A : DipoleArgs) (cf : ℝ) (gain : Option ℝ) (ft : String)
    (ftarg : Args.Dict) {F : Filter} (hm : 0 < B.m.minTime) (hS : StdDlf T ft ftarg F) (hn : 1 < F.n)
    (ht : 1 < A.freq.length) (out : NdArray) : (gpr B T A cf gain ft ftarg).val ≠ .ok out := by
  intro h
  obtain ⟨p, c, D, arr, rfl, hc, hM, -⟩ := C49_gpr h
  obtain ⟨h1, ⟨kd, a, -, h2⟩, h3, hpos, h4⟩ := std_check hm hS hc
  obtain ⟨-, t1, -⟩ := checkTime_num hc
  have tl : c.time.length = A.freq.length := by rw [t1, List.length_map]
  refine hM ⟨h1, by rw [h2]; rfl, by omega, ?_⟩
  rw [h3, tl]
  nlinarith

/-- **C49, the gain of power zero** is two, not one. -/
theorem C49_gain_zero {t : ℝ} : gainAt 0 t = 2 := by
  unfold gainAt; norm_num

/-! ## Examples -/

theorem std_gpr {B : Back} (hm : 0 < B.m.minTime) {T : FBack} {A : DipoleArgs} {ft : String} {ftarg : Args.Dict}
    {F : Filter} (hS : StdDlf T ft ftarg F) {a : List String}
    (hF : filterFor T.lib T.dflt ftarg = some (.filter a F)) {k : String} (hk : kindFor 0 ftarg = .str k)
    (hk' : k = "sin" ∨ k = "cos") (ha : ∀ x ∈ ["name", "base", k, "factor"], x ∈ a) (ht : A.freq.length = 1)
    {D : NdArray} (hD : (dipole B { A with squeeze := false }).val = .ok D) (cf p : ℝ) :
    ∃ out, (gpr B T A cf (some p) ft ftarg).val = .ok out := by
  obtain ⟨c, hc⟩ := std_runs (sg := 0) (m := B.m) (time := A.freq) (by norm_num) A.verb hS.dflt hS.method hF hS.ppd
    hk hk' ha
  obtain ⟨D', hD'⟩ := dipole_any_freq (f := A.freq) hD c.freq
  obtain ⟨h1, ⟨kd, a, -, h2⟩, h3, hpos, h4⟩ := std_check hm hS hc
  obtain ⟨-, t1, -⟩ := checkTime_num hc
  have tl : c.time.length = 1 := by rw [t1, List.length_map, ht]
  refine (C49_accept _ _ _ _ _ _ _).2 ⟨by simp, c, D', hc, fun q => by have := q.2.2.1; omega, hD', fun r s hr hs =>
    ⟨_, _, _, std_fourier h1 h2 ?_ (fun q => by simp [q] at tl) _, rfl⟩⟩
  rw [h3, tl, ht]

/-- The marine case at 4 s, centre frequency 2 Hz, gain of power 2, two frequencies 1/(8π) and 3/(8π): only the
second value enters, times the wavelet at the first frequency. -/
example (E : Args.Env) (R : RSpl) (Q : ℝ → (ℝ → ℂ) → ℂ) :
    ∃ arr D c, (gpr (ruleBack Q) (twoBack E R) (marineTime [4]) 2 (some 2) "dlf" [("pts_per_dec", .num 0)]).val =
        .ok (NdArray.squeeze arr) ∧
      c = [1 / 4 / (2 * Real.pi), 3 / 4 / (2 * Real.pi)] ∧
      (dipole (ruleBack Q) { marineTime [4] with freq := c }).val = .ok D ∧ arr.shape = [1, 3, 1] ∧
      ∀ r < 3, arr.get [0, r, 0] = (((1 + (4 * 10 ^ 9 : ℝ) ^ 2) * (2 * (-(D.get [1, r, 0] *
        (wavelet 2 (1 / 4 / (2 * Real.pi)) : ℂ)).im) / 4 * (2 / Real.pi)) : ℝ) : ℂ) := by
  have hmt : (ruleBack Q).m.minTime = 1e-20 := rfl
  have hm : 0 < (ruleBack Q).m.minTime := by rw [hmt]; norm_num
  have hS : StdDlf (twoBack E R) "dlf" [("pts_per_dec", .num 0)] twoPoint :=
    { twoBack_std E R with method := by decide }
  obtain ⟨D1, hD1⟩ := marine_runs Q [4]
  obtain ⟨out, h⟩ := std_gpr hm hS (a := ["name", "base", "sin", "cos", "factor"]) rfl (k := "sin")
    (A := marineTime [4]) (by unfold kindFor; norm_num; rfl) (Or.inl rfl) (by decide) rfl hD1 2 2
  obtain ⟨p, c, D, arr, hp, hc, hM, hD, rfl, hsh, hl⟩ := C49_gpr h
  obtain rfl := Option.some.inj hp
  obtain ⟨h1, ⟨kd, a, hk, h2⟩, h3, hpos, h4⟩ := std_check hm hS hc
  obtain ⟨-, t1, t2, t3, t4, -⟩ := checkTime_num hc
  have hfr : (marineTime [4]).freq = [4] := rfl
  rw [hfr] at h3 h4 t1 t4 hl
  have hkd : kd = "sin" := by
    have : kindFor 0 [("pts_per_dec", .num 0)] = .str "sin" := by unfold kindFor; norm_num; rfl
    rw [this] at hk
    exact (Args.Val.str.inj hk).symm
  subst hkd
  obtain ⟨n1, n2⟩ := marineTime_n [4]
  have e4 : max (List.getD [(4 : ℝ)] 0 0) (ruleBack Q).m.minTime = 4 := by rw [hmt]; norm_num
  have hcf : c.freq = [1 / 4 / (2 * Real.pi), 3 / 4 / (2 * Real.pi)] := by
    have l2 : c.freq.length = 2 := by rw [h3]; rfl
    have a0 := h4 0 (by simp) 0 (by simp [twoPoint])
    have a1 := h4 0 (by simp) 1 (by simp [twoPoint])
    rw [e4] at a0 a1
    match hq : c.freq, l2 with
    | [x, y], _ =>
      rw [hq] at a0 a1
      simp [twoPoint] at a0 a1
      rw [a0, a1]
      norm_num
  have htm : c.time = [4] := by rw [t1]; simp only [List.map_cons, List.map_nil, hmt]; norm_num
  refine ⟨arr, D, c.freq, h, hcf, hD, by rw [hsh, n1, n2]; rfl, fun r hr => ?_⟩
  obtain ⟨l, ⟨y, cv, hy, rfl⟩, hv⟩ := hl r 0 (by omega) (by omega)
  rw [std_fourier h1 h2 (by rw [h3, htm]) (by rw [htm]; simp)] at hy
  obtain ⟨rfl, -⟩ := Prod.mk.inj (Except.ok.inj hy)
  rw [hv 0 (by simp), t3, e4, htm, hcf]
  have w0 : waved [1 / 4 / (2 * Real.pi), 3 / 4 / (2 * Real.pi)] 2 D r 0 0 = 0 := by simp [waved, wavelet, previous]
  have w1 : waved [1 / 4 / (2 * Real.pi), 3 / 4 / (2 * Real.pi)] 2 D r 0 1 =
      D.get [1, r, 0] * (wavelet 2 (1 / 4 / (2 * Real.pi)) : ℂ) := by simp [waved, previous]
  have s0 : ∀ f, Tem.scale c.signal f = 1 := fun f => by
    rw [t2]; exact scale_impulse (s := 0) (by norm_num) (by norm_num) f
  have g0 : gainAt 2 4 = 1 + (4 * 10 ^ 9 : ℝ) ^ 2 := by unfold gainAt; norm_num
  simp only [twoPoint, Finset.sum_range_succ, Finset.sum_range_zero, s0, mul_one, g0, List.length_cons, List.length_nil,
    List.range_succ, List.range_zero, List.nil_append, List.map_cons, List.map_nil, Option.getD, id, List.getD_cons_zero,
    Nat.zero_mul, Nat.zero_add, w0, w1, if_true]
  norm_num
  ring

end Verif.Props
