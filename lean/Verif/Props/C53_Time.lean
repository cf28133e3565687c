import Verif.Props.C53_Hooks
import Verif.Props.C48_Time

/-!
# C53: functions of the user in `bipole` and in the time domain
-/

namespace Verif.Props
open Verif.Py Verif.Py.W Verif.Utils Verif.Spec Verif.Model Verif.Kernel Verif.Lemmas Verif.Transform Verif.Time

/-! ## Helper lemmas -/

theorem run_freq {K : Hooks} {mo : ModelOut} {fo fo' : FreqOut} (h : K.run mo fo = .ok fo') : fo'.freq = fo.freq := by
  unfold Hooks.run at h
  split at h
  · have he : ∀ f1, K.runEta mo fo = .ok f1 → f1.freq = fo.freq := by
      intro f1 h1
      unfold Hooks.runEta at h1
      split at h1
      · rw [← Except.ok.inj h1]
      · obtain ⟨r, -, h1⟩ := ebind_ok.1 h1
        rw [← Except.ok.inj h1]
    obtain ⟨f1, h1, h2⟩ := ebind_ok.1 h
    rw [← he f1 h1]
    unfold Hooks.runZeta at h2
    split at h2
    · rw [← Except.ok.inj h2]
    · obtain ⟨r, -, h2⟩ := ebind_ok.1 h2
      rw [← Except.ok.inj h2]
  · rw [← Except.ok.inj h]

/-- What the bandpass function makes of the response. -/
def banded (b : Option Band) (freq : List ℝ) (n : ℕ) (v : ℕ → ℕ → ℂ) : Except PyErr (ℕ → ℕ → ℂ) :=
  match b with
  | none => .ok v
  | some b => b freq n v

theorem withBand_iff (b : Option Band) (post : Post) (freq : List ℝ) (n : ℕ) (v : ℕ → ℕ → ℂ) (EM : ℕ × (ℕ → ℕ → ℂ)) :
    (withBand b post freq n v).val = .ok EM ↔
      ∃ v', banded b freq n v = .ok v' ∧ (post freq n v').val = .ok EM := by
  unfold withBand banded
  cases b with
  | none => simp
  | some b =>
    simp only [bind_eq_ok]
    rfl

theorem withBand_none (post : Post) : withBand none post = post := rfl

theorem dipoleHookWith_iff (B : Back) (K : Hooks) (b : Option Band) (A : DipoleArgs) (post : Post) (arr : NdArray) :
    (dipoleHookWith B K b A post).val = .ok arr ↔ ∃ mo fo fo',
      (checkModel B.m A.depth A.res A.aniso A.epermH A.epermV A.mpermH A.mpermV A.xdirect A.verb).val = .ok mo ∧
      (checkFrequency B.m A.freq mo.res mo.aniso mo.epermH mo.epermV mo.mpermH mo.mpermV A.verb).val = .ok fo ∧
      K.run mo fo = .ok fo' ∧ (dipoleTail B A (withBand b post) mo fo').val = .ok arr := by
  unfold dipoleHookWith
  simp only [bind_eq_ok]
  constructor
  · rintro ⟨mo, h1, fo, h2, fo', h3, h4⟩; exact ⟨mo, fo, fo', h1, h2, h3, h4⟩
  · rintro ⟨mo, fo, fo', h1, h2, h3, h4⟩; exact ⟨mo, h1, fo, h2, fo', h3, h4⟩

theorem bipoleHookWith_iff (B : Back) (e : Ext) (K : Hooks) (b : Option Band) (A : BipoleArgs) (post : Post)
    (arr : NdArray) :
    (bipoleHookWith B e K b A post).val = .ok arr ↔ ∃ mo fo fo',
      (checkModel B.m A.depth A.res A.aniso A.epermH A.epermV A.mpermH A.mpermV A.xdirect A.verb).val = .ok mo ∧
      (checkFrequency B.m A.freq mo.res mo.aniso mo.epermH mo.epermV mo.mpermH mo.mpermV A.verb).val = .ok fo ∧
      K.run mo fo = .ok fo' ∧ (bipoleTail B e A (withBand b post) mo fo').val = .ok arr := by
  unfold bipoleHookWith
  simp only [bind_eq_ok]
  constructor
  · rintro ⟨mo, h1, fo, h2, fo', h3, h4⟩; exact ⟨mo, fo, fo', h1, h2, h3, h4⟩
  · rintro ⟨mo, fo, fo', h1, h2, h3, h4⟩; exact ⟨mo, h1, fo, h2, fo', h3, h4⟩

theorem dipoleHook_raw (B : Back) (K : Hooks) (b : Option Band) (A : DipoleArgs) (f : List ℝ) (arr : NdArray) :
    (dipoleHook B K b { A with freq := f, squeeze := false }).val = .ok arr ↔
      (dipoleHookWith B K b { A with freq := f } inFreq).val = .ok arr := by
  unfold dipoleHook
  simp only [bind_eq_ok, pure_val, Except.ok.injEq]
  constructor
  · rintro ⟨a, h, rfl⟩; exact h
  · intro h; exact ⟨_, h, rfl⟩

theorem bipoleHook_raw (B : Back) (e : Ext) (K : Hooks) (b : Option Band) (A : BipoleArgs) (f : List ℝ) (arr : NdArray) :
    (bipoleHook B e K b { A with freq := f, squeeze := false }).val = .ok arr ↔
      (bipoleHookWith B e K b { A with freq := f } inFreq).val = .ok arr := by
  unfold bipoleHook
  simp only [bind_eq_ok, pure_val, Except.ok.injEq]
  constructor
  · rintro ⟨a, h, rfl⟩; exact h
  · intro h; exact ⟨_, h, rfl⟩

/-- The response in columns as a bandpass function finds it: one column per pair, receivers first. -/
def Columns (D : NdArray) (nr ns : ℕ) (v : ℕ → ℕ → ℂ) : Prop :=
  ∀ n r s, r < nr → s < ns → D.get [n, r, s] = v n (r + nr * s)

/-! ## Bandpass functions -/

/-- **C53, bandpass, frequency domain.**  Whatever `dipole` returns with a bandpass function: `dipole` without it
returns an array `D` for the same arguments, the function is called with the frequencies used and the columns of `D`,
and what it leaves in the array is returned. -/
theorem C53_band {B : Back} {K : Hooks} {b : Band} {A : DipoleArgs} {out : NdArray}
    (h : (dipoleHook B K (some b) A).val = .ok out) :
    ∃ D arr v v', (dipoleHook B K none { A with squeeze := false }).val = .ok D ∧
      Columns D (numDipoles A.rcv) (numDipoles A.src) v ∧
      b (usedFreq B.m A.freq) (numDipoles A.rcv * numDipoles A.src) v = .ok v' ∧
      out = (if A.squeeze then arr.squeeze else arr) ∧
      arr.shape = [A.freq.length, numDipoles A.rcv, numDipoles A.src] ∧
      Columns arr (numDipoles A.rcv) (numDipoles A.src) v' := by
  unfold dipoleHook at h
  rw [bind_eq_ok] at h
  obtain ⟨arr, ha, h⟩ := h
  obtain rfl := Except.ok.inj h
  obtain ⟨mo, fo, fo', h1, h2, h3, h4⟩ := (dipoleHookWith_iff _ _ _ _ _ _).1 ha
  obtain ⟨c, src, rcv, EM, q1, q2, q3, hp, h0, rfl⟩ := (dipoleTail_iff _ _ _ _ _ _).1 h4
  obtain ⟨_, _, _, -, -, n1, -⟩ := checkDipole_ok q2
  obtain ⟨_, _, _, -, -, n2, -⟩ := checkDipole_ok q3
  obtain ⟨v', hb, hp⟩ := (withBand_iff _ _ _ _ _ _).1 hp
  obtain rfl := Except.ok.inj hp
  have hf : fo'.freq = usedFreq B.m A.freq := (run_freq h3).trans (usedFreq_eq h2)
  refine ⟨_, _, (femOf B A mo fo' c src rcv).val, v', (dipoleHook_raw B K none A A.freq _).2
    ((dipoleHookWith_iff _ _ _ _ _ _).2 ⟨mo, fo, fo', h1, h2, h3, (dipoleTail_iff _ _ _ _ _ _).2
      ⟨c, src, rcv, _, q1, q2, q3, rfl, h0, rfl⟩⟩), fun n r s hr hs => ?_, ?_, rfl, ?_, fun n r s hr hs => ?_⟩
  · rw [← n2] at hr ⊢; rw [← n1] at hs; exact reshapeF_get _ _ _ _ hr hs
  · rw [← hf, ← n1, ← n2]; exact hb
  · rw [← n1, ← n2, ← usedFreq_length B.m A.freq, ← hf]; rfl
  · rw [← n2] at hr ⊢; rw [← n1] at hs; exact reshapeF_get _ _ _ _ hr hs

/-- **C53, filters.**  A bandpass function which multiplies the response at frequency `f` by `H f` gives `H f` times
what `dipole` returns without it, at every frequency, receiver and source. -/
theorem C53_filter {B : Back} {K : Hooks} {A : DipoleArgs} {out : NdArray} (H : ℝ → ℂ)
    (h : (dipoleHook B K (some fun freq _ v => .ok fun i k => H (freq.getD i 0) * v i k) A).val = .ok out) :
    ∃ D arr, (dipoleHook B K none { A with squeeze := false }).val = .ok D ∧
      out = (if A.squeeze then arr.squeeze else arr) ∧
      arr.shape = [A.freq.length, numDipoles A.rcv, numDipoles A.src] ∧
      ∀ n r s, r < numDipoles A.rcv → s < numDipoles A.src →
        arr.get [n, r, s] = H ((usedFreq B.m A.freq).getD n 0) * D.get [n, r, s] := by
  obtain ⟨D, arr, v, v', h1, h2, h3, h4, h5, h6⟩ := C53_band h
  refine ⟨D, arr, h1, h4, h5, fun n r s hr hs => ?_⟩
  rw [h6 n r s hr hs, h2 n r s hr hs, ← Except.ok.inj h3]

/-! ## Time domain -/

/-- **C53, time domain.**  Whatever `dipole` returns for times with functions of the user: the series of a pair is what
the time domain makes of the array which `dipole` with the same functions returns at the required frequencies, after the
bandpass function. -/
theorem C53_time {B : Back} {T : FBack} {K : Hooks} {b : Option Band} {A : DipoleArgs} {sig : Signal} {ft : String}
    {ftarg : Args.Dict} {out : NdArray} (h : (dipoleHookTime B T K b A sig ft ftarg).val = .ok out) :
    ∃ c D arr v v', (Time.checkTime T B.m A.freq sig ft ftarg A.verb).val = .ok c ∧
      (dipoleHook B K none { A with freq := c.freq, squeeze := false }).val = .ok D ∧
      Columns D (numDipoles A.rcv) (numDipoles A.src) v ∧
      banded b (usedFreq B.m c.freq) (numDipoles A.rcv * numDipoles A.src) v = .ok v' ∧
      out = (if A.squeeze then arr.squeeze else arr) ∧
      arr.shape = [A.freq.length, numDipoles A.rcv, numDipoles A.src] ∧
      ∀ r s, r < numDipoles A.rcv → s < numDipoles A.src →
        ∃ l, InTime T c (usedFreq B.m c.freq) (fun n => v' n (r + numDipoles A.rcv * s)) l ∧
          ∀ i, arr.get [i, r, s] = ((l.getD i 0 : ℝ) : ℂ) := by
  unfold dipoleHookTime at h
  rw [bind_eq_ok] at h
  obtain ⟨ch, hc, h⟩ := h
  rw [ok_if] at h
  replace h := h.2
  rw [bind_eq_ok] at h
  obtain ⟨arr, ha, h⟩ := h
  obtain rfl := Except.ok.inj h
  obtain ⟨mo, fo, fo', h1, h2, h3, h4⟩ := (dipoleHookWith_iff _ _ _ _ _ _).1 ha
  obtain ⟨c, src, rcv, EM, q1, q2, q3, hp, h0, rfl⟩ := (dipoleTail_iff _ _ _ _ _ _).1 h4
  obtain ⟨_, _, _, -, -, n1, -⟩ := checkDipole_ok q2
  obtain ⟨_, _, _, -, -, n2, -⟩ := checkDipole_ok q3
  simp only at n1 n2
  obtain ⟨v', hb, hp⟩ := (withBand_iff _ _ _ _ _ _).1 hp
  have hf : fo'.freq = usedFreq B.m ch.freq := (run_freq h3).trans (usedFreq_eq h2)
  refine ⟨ch, _, _, (femOf B { A with freq := ch.freq } mo fo' c src rcv).val, v', hc,
    (dipoleHook_raw B K none A ch.freq _).2
    ((dipoleHookWith_iff _ _ _ _ _ _).2 ⟨mo, fo, fo', h1, h2, h3, (dipoleTail_iff _ _ _ _ _ _).2
      ⟨c, src, rcv, _, q1, q2, q3, rfl, h0, rfl⟩⟩), fun n r s hr hs => ?_, ?_, rfl, ?_, fun r s hr hs => ?_⟩
  · rw [← n2] at hr ⊢; rw [← n1] at hs; exact reshapeF_get _ _ _ _ hr hs
  · rw [← hf, ← n1, ← n2]; exact hb
  · rw [← n1, ← n2, ← checkTime_ntime hc, ← (temStep_iff _ _ _ _ _ _ _ hp).1]; rfl
  · rw [← n2] at hr ⊢
    rw [← n1] at hs
    obtain ⟨l, hl, hl'⟩ := (temStep_iff _ _ _ _ _ _ _ hp).2 _ (pair_lt hr hs)
    refine ⟨l, ?_, fun i => ?_⟩
    · rw [← hf]; exact hl
    · rw [reshapeF_get _ _ _ _ hr hs, hl']

/-- **C53, time domain of `bipole`.** -/
theorem C53_bipole_time {B : Back} {T : FBack} {e : Ext} {K : Hooks} {b : Option Band} {A : BipoleArgs} {sig : Signal}
    {ft : String} {ftarg : Args.Dict} {out : NdArray} (h : (bipoleHookTime B T e K b A sig ft ftarg).val = .ok out) :
    ∃ c D arr v v', (Time.checkTime T B.m A.freq sig ft ftarg A.verb).val = .ok c ∧
      (bipoleHook B e K none { A with freq := c.freq, squeeze := false }).val = .ok D ∧
      Columns D (numPoles A.rcv) (numPoles A.src) v ∧
      banded b (usedFreq B.m c.freq) (numPoles A.rcv * numPoles A.src) v = .ok v' ∧
      out = (if A.squeeze then arr.squeeze else arr) ∧
      arr.shape = [A.freq.length, numPoles A.rcv, numPoles A.src] ∧
      ∀ r s, r < numPoles A.rcv → s < numPoles A.src →
        ∃ l, InTime T c (usedFreq B.m c.freq) (fun n => v' n (r + numPoles A.rcv * s)) l ∧
          ∀ i, arr.get [i, r, s] = ((l.getD i 0 : ℝ) : ℂ) := by
  unfold bipoleHookTime at h
  rw [bind_eq_ok] at h
  obtain ⟨ch, hc, h⟩ := h
  rw [ok_if] at h
  replace h := h.2
  rw [bind_eq_ok] at h
  obtain ⟨arr, ha, h⟩ := h
  obtain rfl := Except.ok.inj h
  obtain ⟨mo, fo, fo', h1, h2, h3, h4⟩ := (bipoleHookWith_iff _ _ _ _ _ _ _).1 ha
  obtain ⟨src, sf, rcv, rf, EM, q1, q2, q3, q4, hp, rfl⟩ := (bipoleTail_iff _ _ _ _ _ _ _).1 h4
  have n1 := poles_n q2
  have n2 := poles_n q4
  simp only at n1 n2
  obtain ⟨v', hb, hp⟩ := (withBand_iff _ _ _ _ _ _).1 hp
  have hf : fo'.freq = usedFreq B.m ch.freq := (run_freq h3).trans (usedFreq_eq h2)
  unfold temStepB at hp
  split_ifs at hp with h0
  · cases hp
  refine ⟨ch, _, _, fun i => bipoleRow (setupAt B e { A with freq := ch.freq } mo fo' sf rf i) src rcv A.srcpts A.recpts,
    v', hc, (bipoleHook_raw B e K none A ch.freq _).2
    ((bipoleHookWith_iff _ _ _ _ _ _ _).2 ⟨mo, fo, fo', h1, h2, h3, (bipoleTail_iff _ _ _ _ _ _ _).2
      ⟨src, sf, rcv, rf, _, q1, q2, q3, q4, rfl, rfl⟩⟩), fun n r s hr hs => ?_, ?_, rfl, ?_, fun r s hr hs => ?_⟩
  rotate_left
  · rw [← hf, ← n1, ← n2]; exact hb
  · rw [← n1, ← n2, ← checkTime_ntime hc, ← (temStep_iff _ _ _ _ _ _ _ hp).1]; rfl
  · rw [← n2] at hr ⊢
    rw [← n1] at hs
    obtain ⟨l, hl, hl'⟩ := (temStep_iff _ _ _ _ _ _ _ hp).2 _ (pair_lt hr hs)
    refine ⟨l, ?_, fun i => ?_⟩
    · rw [← hf]; exact hl
    · rw [reshapeF_get _ _ _ _ hr hs, hl']
  · rw [← n2] at hr ⊢; rw [← n1] at hs; exact reshapeF_get _ _ _ _ hr hs

/-! ## `bipole` -/

/-- **C53, superposition.**  `bipole` with functions of the user is the superposition (C47) of what `dipole` returns with
the same functions for the points of source and receiver; the factors for flux and current density are those the
functions have returned. -/
theorem C53_superposition {B : Back} (hmin : B.m.minAngle ≤ 1e-8) (hB : Pointwise B) {e : Ext} {δ : ℝ}
    (he : ExtOK e δ) {K : Hooks} {A : BipoleArgs} {out : NdArray} (h : (bipoleHook B e K none A).val = .ok out) :
    ∃ arr mo fo fo' ms ts mr tr, out = (if A.squeeze then arr.squeeze else arr) ∧
      (checkModel B.m A.depth A.res A.aniso A.epermH A.epermV A.mpermH A.mpermV A.xdirect A.verb).val = .ok mo ∧
      (checkFrequency B.m A.freq mo.res mo.aniso mo.epermH mo.epermV mo.mpermH mo.mpermV A.verb).val = .ok fo ∧
      K.run mo fo = .ok fo' ∧
      checkMx true A.msrc = .ok (ms, ts) ∧ checkMx false A.mrec = .ok (mr, tr) ∧
      arr.shape = [A.freq.length, numPoles A.rcv, numPoles A.src] ∧
      ∀ r s, r < numPoles A.rcv → s < numPoles A.src →
        ∃ S R, IsPole A.src s A.srcpts δ S ∧ IsPole A.rcv r A.recpts δ R ∧
        ∃ D : ℕ → ℕ → ℕ → ℕ → NdArray,
          (∀ i j a b, 1 ≤ a ∧ a ≤ 3 → 1 ≤ b ∧ b ≤ 3 → (dipoleHook B K none (BipoleArgs.toDipole A (S.x i) (S.y i)
            (S.z i) (R.x j) (R.y j) (R.z j) (userCode ms mr a b))).val = .ok (D i j a b)) ∧
          ∀ f, f < A.freq.length → ∃ W : ℕ → ℕ → ℝ,
            (∀ a b, 1 ≤ a ∧ a ≤ 3 → 1 ≤ b ∧ b ≤ 3 → |W a b - R.dir a * S.dir b| ≤ 1e-8) ∧
            let eta := fun z => (fo'.etaH.getD f []).getD (layerOf mo.depth z) 0
            let zeta := fun z => (fo'.zetaH.getD f []).getD (layerOf mo.depth z) 0
            arr.get [f, r, s] =
              (if A.strength > 0 then ((S.len * A.strength * R.len : ℝ) : ℂ) else 1) *
              ∑ i ∈ Finset.range S.n, ∑ j ∈ Finset.range R.n,
                ((S.w i * R.w j : ℝ) : ℂ) * fluxFactor (eta (S.z i)) (zeta (S.z i)) ts *
                  fluxFactor (eta (R.z j)) (zeta (R.z j)) tr *
                ∑ a ∈ Finset.Icc 1 3, ∑ b ∈ Finset.Icc 1 3, (W a b : ℂ) * (D i j a b).get [f, 0, 0] := by
  unfold bipoleHook at h
  rw [bind_eq_ok] at h
  obtain ⟨arr, ha, h⟩ := h
  obtain rfl := Except.ok.inj h
  obtain ⟨mo, fo, fo', h1, h2, h3, h4⟩ := (bipoleHookWith_iff _ _ _ _ _ _ _).1 ha
  rw [withBand_none] at h4
  have hfl : fo'.freq.length = A.freq.length := by
    rw [run_freq h3, usedFreq_eq h2, usedFreq_length]
  obtain ⟨ms, ts, mr, tr, q1, q2, hs, H⟩ := tail_superposition hmin hB he h4
  rw [hfl] at hs
  refine ⟨arr, mo, fo, fo', ms, ts, mr, tr, rfl, h1, h2, h3, q1, q2, hs, fun r s hr hs => ?_⟩
  obtain ⟨S, R, hS, hR, D, hD, hE⟩ := H r s hr hs
  refine ⟨S, R, hS, hR, D, fun i j a b ha hb => ?_, fun f hf => hE f (hfl ▸ hf)⟩
  have hD' : (dipoleHookWith B K none (BipoleArgs.toDipole A (S.x i) (S.y i) (S.z i) (R.x j) (R.y j) (R.z j)
      (userCode ms mr a b)) inFreq).val = .ok (D i j a b) := by
    rw [dipoleHookWith_iff, withBand_none]
    exact ⟨mo, fo, fo', h1, h2, h3, hD i j a b ha hb⟩
  unfold dipoleHook
  rw [bind_val, hD']
  rfl

/-- **C53, factors.**  For a model with laws the factors in `C53_superposition` are `η` and `ζ` of the laws in the layer
of the point. -/
theorem C53_factors {V : LawModel} {m : Mins} (hm : 0 < m.minRes) (hV : V.Valid m.minRes) {K : Hooks}
    (hK : Obeys K V) {freq : List ℝ} {verb : ℤ}
    {fo fo' : FreqOut} (hf : (checkFrequency m freq (lawOut m V).res (lawOut m V).aniso (lawOut m V).epermH
      (lawOut m V).epermV (lawOut m V).mpermH (lawOut m V).mpermV verb).val = .ok fo)
    (hr : K.run (lawOut m V) fo = .ok fo') {f : ℕ} (hfl : f < freq.length) {z : ℝ} {i : ℤ} :
    let M := V.medium (sParam m.minFreq freq freq[f]) (usedVal m.minFreq freq freq[f])
    M.InUpper i z → (fo'.etaH.getD f []).getD (layerOf (lawOut m V).depth z) 0 = M.etaH i ∧
      (fo'.zetaH.getD f []).getD (layerOf (lawOut m V).depth z) 0 = M.zetaH i := by
  intro M hi
  obtain ⟨fo2, h1, -, h3, h4⟩ := law_rows hm hV hK hf
  obtain rfl := Except.ok.inj (h1.symm.trans hr)
  have e := congrArg (fun l => l[f]?) h4
  simp only [rowsOf, List.getElem?_map, List.getElem?_range (h3.symm ▸ hfl : f < fo2.freq.length), Option.map_some,
    Option.some.injEq, getD_eq hfl] at e
  have en : ∀ (l : List ℂ) (n : ℕ), entry l 0 (n : ℤ) = l.getD n 0 := fun l n => by
    unfold entry; rw [if_pos (by omega)]; simp
  have k1 := congrFun (congrArg Earth.etaH e) i
  have k2 := congrFun (congrArg Earth.zetaH e) i
  rw [law_layer hV hi] at k1 k2
  simp only [rowEarth, en] at k1 k2
  rw [k1, k2, ← law_layer hV hi]
  exact ⟨rfl, rfl⟩

/-! ## Examples -/

/-- A first-order low-pass filter with corner frequency 5 Hz after the marine model: the values at 10 Hz are divided
by `1 + 2i`. -/
example (T : ℝ → (ℝ → ℂ) → ℂ) {out : NdArray}
    (h : (dipoleHook (ruleBack T) ⟨none, none⟩ (some fun freq _ v => .ok fun i k =>
      (1 / (1 + Complex.I * ((freq.getD i 0 / 5 : ℝ) : ℂ))) * v i k) marineArgs).val = .ok out) :
    ∃ D arr, (Model.dipole (ruleBack T) { marineArgs with squeeze := false }).val = .ok D ∧ out = NdArray.squeeze arr ∧
      ∀ r < 3, arr.get [1, r, 0] = 1 / (1 + 2 * Complex.I) * D.get [1, r, 0] := by
  obtain ⟨D, arr, h1, h2, -, h4⟩ := C53_filter (fun f => 1 / (1 + Complex.I * ((f / 5 : ℝ) : ℂ))) h
  refine ⟨D, arr, (C53_array _ _ rfl).symm.trans h1, h2, fun r hr => ?_⟩
  have n1 : numDipoles marineArgs.rcv = 3 := by simp [numDipoles, marineArgs]
  have n2 : numDipoles marineArgs.src = 1 := by simp [numDipoles, marineArgs]
  rw [h4 1 r 0 (n1 ▸ hr) (n2 ▸ Nat.one_pos)]
  have hu : (usedFreq (ruleBack T).m marineArgs.freq).getD 1 0 = 10 := by
    have hp : ∃ f ∈ marineArgs.freq, 0 < f := ⟨1, by simp [marineArgs], by norm_num⟩
    have hm : max (10 : ℝ) (ruleBack T).m.minFreq = 10 := by norm_num [ruleBack, Mins.init]
    unfold usedFreq
    rw [getD_eq (by simp [marineArgs]), List.getElem_map]
    simp only [if_pos hp]
    rw [show (marineArgs.freq[1]'(by simp [marineArgs])) = 10 from rfl, hm]
  rw [hu]
  congr 2
  norm_num
  ring

end Verif.Props
