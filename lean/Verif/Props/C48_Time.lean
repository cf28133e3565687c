import Verif.Model.TimeDomain
import Verif.Lemmas.Args
import Verif.Props.C22_Signals
import Verif.Props.C26_Verb
import Verif.Props.C28_Fourier
import Verif.Props.C47_Bipole

/-!
# C48: `dipole` and `bipole` in the time domain
-/

namespace Verif.Props
open Verif.Py Verif.Py.W Verif.Utils Verif.Spec Verif.Model Verif.Kernel Verif.Lemmas Verif.Transform Verif.Time

/-! ## Specification -/

open Classical in
/-- The frequencies that are used: cut at the minimum, or the negative of them if none is positive. -/
noncomputable def usedFreq (m : Mins) (freq : List ℝ) : List ℝ :=
  freq.map fun f => if ∃ g ∈ freq, 0 < g then max f m.minFreq else max (-f) m.minFreq

/-- What the time domain makes of a response `E` (by number of the frequency): the transform of the scaled
response succeeds with values `y`; times 2/π and after the waveform, if there is one, this is `out`. -/
def InTime (T : FBack) (c : Checked) (freq : List ℝ) (E : ℕ → ℂ) (out : List ℝ) : Prop :=
  ∃ y conv, fourier T c freq (fun n => E n * Tem.scale c.signal (freq.getD n 0)) = .ok (y, conv) ∧
    out = (c.wave.getD id) (y.map (· * (2 / Real.pi)))

theorem InTime.unique {T : FBack} {c : Checked} {freq : List ℝ} {E : ℕ → ℂ} {a b : List ℝ}
    (ha : InTime T c freq E a) (hb : InTime T c freq E b) : a = b := by
  obtain ⟨y, k, h1, rfl⟩ := ha
  obtain ⟨y', k', h2, rfl⟩ := hb
  rw [h1] at h2
  obtain ⟨rfl, rfl⟩ := Prod.mk.inj (Except.ok.inj h2)
  rfl

/-! ## `tem` -/

theorem findSome_none {n : ℕ} {f : ℕ → Option PyErr} :
    (List.range n).findSome? f = none ↔ ∀ i < n, f i = none := by
  simp [List.findSome?_eq_none_iff]

theorem errOf_none {α : Type} {x : Except PyErr α} : errOf x = none ↔ ∃ a, x = .ok a := by
  cases x <;> simp [errOf]

theorem errOf_some {α : Type} {x : Except PyErr α} {e : PyErr} : errOf x = some e ↔ x = .error e := by
  cases x <;> simp [errOf]

theorem temStep_iff (T : FBack) (c : Checked) (verb : ℤ) (freq : List ℝ) (noff : ℕ) (v : ℕ → ℕ → ℂ)
    (EM : ℕ × (ℕ → ℕ → ℂ)) :
    (temStep T c verb freq noff v).val = .ok EM →
      EM.1 = c.ntime ∧ ∀ k < noff, ∃ l, InTime T c freq (fun n => v n k) l ∧
        ∀ i, EM.2 i k = ((l.getD i 0 : ℝ) : ℂ) := by
  intro h
  unfold temStep at h
  split at h
  · cases h
  · rename_i hn
    rw [bind_val, say_val] at h
    obtain rfl := Except.ok.inj h
    refine ⟨rfl, fun k hk => ?_⟩
    obtain ⟨⟨y, cv⟩, hy⟩ := errOf_none.1 (findSome_none.1 hn k hk)
    refine ⟨_, ⟨y, cv, hy, rfl⟩, fun i => ?_⟩
    simp only [Tem.tem]
    congr 2
    rcases hw : c.wave with _ | w <;> simp only [Option.getD, id] <;> rw [hy] <;> rfl

theorem temStep_runs {T : FBack} {c : Checked} {freq : List ℝ} {noff : ℕ} {v : ℕ → ℕ → ℂ}
    (h : ∀ k < noff, ∃ l, InTime T c freq (fun n => v n k) l) (verb : ℤ) :
    ∃ EM, (temStep T c verb freq noff v).val = .ok EM := by
  have hn : (List.range noff).findSome? (fun i =>
      errOf (fourier T c freq fun n => v n i * Tem.scale c.signal (freq.getD n 0))) = none := by
    rw [findSome_none]
    intro i hi
    obtain ⟨_, y, cv, hy, -⟩ := h i hi
    exact errOf_none.2 ⟨_, hy⟩
  unfold temStep
  rw [hn]
  simp only
  rw [bind_val, say_val]
  exact ⟨_, rfl⟩

theorem temStep_err {T : FBack} {c : Checked} {verb : ℤ} {freq : List ℝ} {noff : ℕ} {v : ℕ → ℕ → ℂ} {e : PyErr}
    (h : (temStep T c verb freq noff v).val = .error e) :
    ∃ k < noff, fourier T c freq (fun n => v n k * Tem.scale c.signal (freq.getD n 0)) = .error e := by
  unfold temStep at h
  split at h
  · rename_i e' hs
    obtain rfl := Except.error.inj h
    obtain ⟨k, hk, hk'⟩ := List.exists_of_findSome?_eq_some hs
    exact ⟨k, List.mem_range.1 hk, errOf_some.1 hk'⟩
  · rw [bind_val, say_val] at h
    cases h

theorem usedFreq_eq {m : Mins} {freq res aniso epermH epermV mpermH mpermV : List ℝ} {verb : ℤ} {fo : FreqOut}
    (h : (checkFrequency m freq res aniso epermH epermV mpermH mpermV verb).val = .ok fo) :
    fo.freq = usedFreq m freq := by
  rw [C30_frequency] at h
  rw [← Except.ok.inj h]
  rfl

/-! ## `dipole` -/

theorem dipole_array (B : Back) (A : DipoleArgs) (f : List ℝ) (arr : NdArray) :
    (dipole B { A with freq := f, squeeze := false }).val = .ok arr ↔
      (dipoleFull B { A with freq := f }).val = .ok arr := by
  unfold dipole
  simp only [bind_eq_ok, pure_val, Except.ok.injEq]
  constructor
  · rintro ⟨a, h, rfl⟩; exact h
  · intro h; exact ⟨_, h, rfl⟩

theorem pair_lt {nr ns r s : ℕ} (hr : r < nr) (hs : s < ns) : r + nr * s < nr * ns := by
  have : nr * (s + 1) ≤ nr * ns := Nat.mul_le_mul_left _ hs
  rw [Nat.mul_add, Nat.mul_one] at this
  omega

theorem pair_split {nr ns k : ℕ} (hk : k < nr * ns) :
    k % nr < nr ∧ k / nr < ns ∧ k % nr + nr * (k / nr) = k := by
  have h0 : 0 < nr := Nat.pos_of_ne_zero fun q => by simp [q] at hk
  exact ⟨Nat.mod_lt _ h0, Nat.div_lt_of_lt_mul hk, Nat.mod_add_div _ _⟩

open Classical in
theorem ok_if {α β : Type} {p : Prop} {x : W α} {e : PyErr} {y : W β} {b : β} :
    (if p then (do let _ ← x; raise e) else y).val = .ok b ↔ ¬p ∧ y.val = .ok b := by
  by_cases h : p
  · rw [if_pos h]
    constructor
    · intro q
      rw [bind_eq_ok] at q
      obtain ⟨_, _, q⟩ := q
      cases q
    · exact fun q => absurd h q.1
  · rw [if_neg h]; simp [h]

/-- **C48, `dipole`.**  Whatever `dipole` returns for times: it has one entry per time, receiver and source, and
the series of a pair is what the time domain makes of the array which `dipole` itself returns for the same
arguments at the required frequencies, without squeezing. -/
theorem C48_dipole {B : Back} {T : FBack} {A : DipoleArgs} {sig : Signal} {ft : String} {ftarg : Args.Dict}
    {out : NdArray} (h : (dipoleTime B T A sig ft ftarg).val = .ok out) :
    ∃ c D arr, (Time.checkTime T B.m A.freq sig ft ftarg A.verb).val = .ok c ∧
      (dipole B { A with freq := c.freq, squeeze := false }).val = .ok D ∧
      out = (if A.squeeze then arr.squeeze else arr) ∧
      arr.shape = [c.ntime, numDipoles A.rcv, numDipoles A.src] ∧
      ∀ r s, r < numDipoles A.rcv → s < numDipoles A.src →
        ∃ l, InTime T c (usedFreq B.m c.freq) (fun n => D.get [n, r, s]) l ∧
          ∀ i, arr.get [i, r, s] = ((l.getD i 0 : ℝ) : ℂ) := by
  unfold dipoleTime at h
  rw [bind_eq_ok] at h
  obtain ⟨c, hc, h⟩ := h
  rw [ok_if] at h
  replace h := h.2
  rw [bind_eq_ok] at h
  obtain ⟨arr, ha, h⟩ := h
  obtain rfl := Except.ok.inj h
  obtain ⟨mo, fo, co, src, rcv, EM, h1, h2, h3, h4, h5, hp, h0, rfl⟩ := (dipoleWith_iff _ _ _ _).1 ha
  obtain ⟨_, _, _, -, -, n1, -⟩ := checkDipole_ok h4
  obtain ⟨_, _, _, -, -, n2, -⟩ := checkDipole_ok h5
  simp only at n1 n2
  refine ⟨c, _, _, hc, (dipole_array B A c.freq _).2
    ((dipoleFull_iff _ _ _).2 ⟨mo, fo, co, src, rcv, h1, h2, h3, h4, h5, h0, rfl⟩), rfl, ?_, fun r s hr hs => ?_⟩
  · rw [← n1, ← n2, ← (temStep_iff _ _ _ _ _ _ _ hp).1]; rfl
  · rw [← n2] at hr
    rw [← n1] at hs
    obtain ⟨l, hl, hl'⟩ := (temStep_iff _ _ _ _ _ _ _ hp).2 _ (pair_lt hr hs)
    refine ⟨l, ?_, fun i => ?_⟩
    · simp only [reshapeF_get _ _ _ _ hr hs]
      rw [← usedFreq_eq h2]
      exact hl
    · rw [reshapeF_get _ _ _ _ hr hs, hl']

theorem dipole_rows {B : Back} {T : FBack} {A : DipoleArgs} {sig : Signal} {ft : String} {ftarg : Args.Dict}
    {out : NdArray} (h : (dipoleTime B T A sig ft ftarg).val = .ok out) {c : Checked}
    (hc : (Time.checkTime T B.m A.freq sig ft ftarg A.verb).val = .ok c) : ¬printsRows c A.verb := by
  unfold dipoleTime at h
  rw [bind_eq_ok] at h
  obtain ⟨c', hc', h⟩ := h
  rw [ok_if] at h
  obtain rfl := Except.ok.inj (hc.symm.trans hc')
  exact h.1

theorem bipole_rows {B : Back} {T : FBack} {e : Ext} {A : BipoleArgs} {sig : Signal} {ft : String}
    {ftarg : Args.Dict} {out : NdArray} (h : (bipoleTime B T e A sig ft ftarg).val = .ok out) {c : Checked}
    (hc : (Time.checkTime T B.m A.freq sig ft ftarg A.verb).val = .ok c) : ¬printsRows c A.verb := by
  unfold bipoleTime at h
  rw [bind_eq_ok] at h
  obtain ⟨c', hc', h⟩ := h
  rw [ok_if] at h
  obtain rfl := Except.ok.inj (hc.symm.trans hc')
  exact h.1

/-- **C48, acceptance.**  `dipole` returns an array for times exactly if the times, the signal and the Fourier
arguments are accepted, `dipole` accepts the rest at the required frequencies, the transform of every
source-receiver pair succeeds, and it is not asked to print a table of frequencies. -/
theorem C48_accept (B : Back) (T : FBack) (A : DipoleArgs) (sig : Signal) (ft : String) (ftarg : Args.Dict) :
    (∃ out, (dipoleTime B T A sig ft ftarg).val = .ok out) ↔
      ∃ c D, (Time.checkTime T B.m A.freq sig ft ftarg A.verb).val = .ok c ∧ ¬printsRows c A.verb ∧
        (dipole B { A with freq := c.freq, squeeze := false }).val = .ok D ∧
        ∀ r s, r < numDipoles A.rcv → s < numDipoles A.src →
          ∃ l, InTime T c (usedFreq B.m c.freq) (fun n => D.get [n, r, s]) l := by
  constructor
  · rintro ⟨out, h⟩
    obtain ⟨c, D, arr, hc, hD, -, -, hl⟩ := C48_dipole h
    exact ⟨c, D, hc, dipole_rows h hc, hD, fun r s hr hs => (hl r s hr hs).imp fun l h => h.1⟩
  · rintro ⟨c, D, hc, hP, hD, hl⟩
    obtain ⟨mo, fo, co, src, rcv, h1, h2, h3, h4, h5, h0, rfl⟩ :=
      (dipoleFull_iff _ _ _).1 ((dipole_array B A c.freq _).1 hD)
    obtain ⟨_, _, _, -, -, n1, -⟩ := checkDipole_ok h4
    obtain ⟨_, _, _, -, -, n2, -⟩ := checkDipole_ok h5
    simp only at n1 n2
    rw [← n1, ← n2] at hl
    obtain ⟨EM, hE⟩ := temStep_runs (T := T) (c := c) (freq := fo.freq) (noff := rcv.1.length * src.1.length)
      (v := (femOf B { A with freq := c.freq } mo fo co src rcv).val) (fun k hk => by
        obtain ⟨hr, hs, e⟩ := pair_split hk
        obtain ⟨l, hl⟩ := hl _ _ hr hs
        simp only [reshapeF_get _ _ _ _ hr hs, e] at hl
        rw [← usedFreq_eq h2] at hl
        exact ⟨l, hl⟩) A.verb
    have := (dipoleWith_iff B { A with freq := c.freq } (temStep T c A.verb) _).2
      ⟨mo, fo, co, src, rcv, EM, h1, h2, h3, h4, h5, hE, h0, rfl⟩
    unfold dipoleTime
    rw [bind_val, hc]
    simp only [Except.bind]
    rw [if_neg hP, bind_val, this]
    exact ⟨_, rfl⟩

theorem bind_err {α β : Type} {x : W α} {f : α → W β} {e : PyErr} (h : (x >>= f).val = .error e) :
    x.val = .error e ∨ ∃ a, x.val = .ok a ∧ (f a).val = .error e := by
  rw [bind_val] at h
  cases hx : x.val with
  | error e' => rw [hx] at h; exact Or.inl (by rw [Except.error.inj h])
  | ok a => rw [hx] at h; exact Or.inr ⟨a, rfl, h⟩

/-- An exception of `dipole` with some `post` is one of `dipole` without it, or one of `post`. -/
theorem dipoleWith_err {B : Back} {A : DipoleArgs} {post : Post} {e : PyErr}
    (h : (dipoleWith B A post).val = .error e) :
    (dipoleFull B A).val = .error e ∨ ∃ mo fo c src rcv,
      (checkModel B.m A.depth A.res A.aniso A.epermH A.epermV A.mpermH A.mpermV A.xdirect A.verb).val =
        .ok mo ∧
      (checkFrequency B.m A.freq mo.res mo.aniso mo.epermH mo.epermV mo.mpermH mo.mpermV A.verb).val =
        .ok fo ∧
      checkAb A.ab = .ok c ∧ checkDipole A.src = .ok src ∧ checkDipole A.rcv = .ok rcv ∧
      (post fo.freq (rcv.1.length * src.1.length) (femOf B A mo fo c src rcv).val).val = .error e := by
  have step : ∀ {α : Type} {x : W α} {f g : α → W NdArray} {P : Prop},
      (x >>= f).val = .error e → (∀ a, x.val = .ok a → (f a).val = .error e → (g a).val = .error e ∨ P) →
      (x >>= g).val = .error e ∨ P := by
    intro α x f g P h1 h2
    rcases bind_err h1 with h | ⟨a, ha, h⟩
    · left; rw [bind_val, h]; rfl
    · rcases h2 a ha h with h | h
      · left; rw [bind_val, ha]; exact h
      · exact Or.inr h
  unfold dipoleFull dipoleWith dipoleTail inFreq at *
  refine step h fun mo h1 h => step h fun fo h2 h => ?_
  dsimp only at h ⊢
  refine step h fun c h3 h => step h fun src h4 h => step h fun rcv h5 h => step h fun _ _ h => ?_
  rcases bind_err h with h | ⟨EM, hE, h⟩
  · exact Or.inr ⟨mo, fo, c, src, rcv, h1, h2, h3, h4, h5, h⟩
  · left
    split_ifs at h with h0
    · rw [bind_val]
      simp only [pure_val, Except.bind, h0, if_true]
      exact h
    · cases h

/-- **C48, exceptions.**  An exception is one of the checks of times, signal and Fourier arguments, one
`dipole` raises at the required frequencies, one of the Fourier transform of some pair, or the `TypeError` from
printing a table of frequencies. -/
theorem C48_errors {B : Back} {T : FBack} {A : DipoleArgs} {sig : Signal} {ft : String} {ftarg : Args.Dict}
    {e : PyErr} (h : (dipoleTime B T A sig ft ftarg).val = .error e) :
    (Time.checkTime T B.m A.freq sig ft ftarg A.verb).val = .error e ∨
    ∃ c, (Time.checkTime T B.m A.freq sig ft ftarg A.verb).val = .ok c ∧
      ((dipole B { A with freq := c.freq, squeeze := false }).val = .error e ∨
      (∃ x, fourier T c (usedFreq B.m c.freq) x = .error e) ∨ (printsRows c A.verb ∧ e = .typeError)) := by
  unfold dipoleTime at h
  rcases bind_err h with h | ⟨c, hc, h⟩
  · exact Or.inl h
  · right
    refine ⟨c, hc, ?_⟩
    by_cases hP : printsRows c A.verb
    · rw [if_pos hP] at h
      rcases bind_err h with h | ⟨mo, -, h⟩
      · left
        unfold dipole dipoleFull dipoleWith dipoleTail
        rw [bind_val, bind_val, h]
        rfl
      · exact Or.inr (Or.inr ⟨hP, (Except.error.inj h).symm⟩)
    rw [if_neg hP] at h
    rcases bind_err h with h | ⟨arr, -, h⟩
    · rcases dipoleWith_err h with h | ⟨mo, fo, co, src, rcv, -, h2, -, -, -, h⟩
      · left
        unfold dipole
        rw [bind_val]
        have : (dipoleFull B { A with freq := c.freq, squeeze := false }).val = .error e := h
        rw [this]; rfl
      · right; left
        obtain ⟨k, -, hk⟩ := temStep_err h
        rw [usedFreq_eq h2] at hk
        exact ⟨_, hk⟩
    · cases h

/-! ## The checks -/

theorem vcheckTime_args {E : Args.Env} {C : Args.Conv} {lib : String → Option Args.Val} {dflt : Args.Val}
    {time : List ℝ} {signal : ℝ} {ft : String} {ftarg : Args.Dict} {verb : ℤ} {r : List ℝ × String × Args.Dict}
    (h : (Verb.checkTime E C lib dflt time signal ft ftarg verb).val = .ok r) :
    (Args.checkTime E C lib dflt time signal ft ftarg verb).val = .ok r := by
  unfold Verb.checkTime at h
  simp only [bind_eq_ok] at h
  obtain ⟨s, h1, _, -, q, h2, _, -, d, h3, h4⟩ := h
  unfold Args.checkTime
  simp only [bind_eq_ok]
  exact ⟨s, h1, q, h2, d, h3, h4⟩

/-- What `check_time` returns for a signal that is a number. -/
theorem checkTime_num {T : FBack} {m : Mins} {time : List ℝ} {s : ℝ} {ft : String} {ftarg : Args.Dict} {verb : ℤ}
    {c : Checked} (h : (Time.checkTime T m time (.num s) ft ftarg verb).val = .ok c) :
    (-2 < s ∧ s < 2) ∧ c.time = time.map (max · m.minTime) ∧ c.signal = s ∧ c.wave = none ∧
      c.ntime = time.length ∧
      (Verb.checkTime T.E T.C T.lib T.dflt c.time s ft ftarg verb).val = .ok (c.freq, c.ft, c.targ) := by
  unfold Time.checkTime Time.checkTimeOnly Verb.checkTimeOnly at h
  simp only [bind_eq_ok, say_val, checkMin_val, pure_val, Except.ok.injEq] at h
  obtain ⟨w, ⟨t, ⟨_, rfl, _, -, _, hs, _, -, rfl⟩, rfl⟩, r, hr, rfl⟩ := h
  have hc : cut m.minTime = fun x => max x m.minTime := by funext x; exact cut_eq _ x
  refine ⟨(C22_accepted s).1 hs, by simp only [hc], rfl, rfl, by simp, hr⟩

/-- What `check_time` returns for a waveform. -/
theorem checkTime_wave {T : FBack} {m : Mins} {time nodes amps : List ℝ} {s : ℝ} {nq : ℕ} {ft : String}
    {ftarg : Args.Dict} {verb : ℤ} {c : Checked} (hl : nodes.length = amps.length)
    (h : (Time.checkTime T m time (.wave nodes amps s nq) ft ftarg verb).val = .ok c) :
    nq ≠ 0 ∧ c.signal = s ∧ c.ntime = time.length ∧ ∃ app, c.wave = some app ∧
      Waveform.checkWaveform (T.gauss nq) m.minTime (time.map (max · m.minTime)) nodes amps =
        some (c.time, app) ∧
      (Verb.checkTime T.E T.C T.lib T.dflt c.time s ft ftarg verb).val = .ok (c.freq, c.ft, c.targ) := by
  have hc : cut m.minTime = fun x => max x m.minTime := by funext x; exact cut_eq _ x
  unfold Time.checkTime at h
  rw [bind_eq_ok] at h
  obtain ⟨w, hw, h⟩ := h
  rw [bind_eq_ok] at h
  obtain ⟨r, hr, h⟩ := h
  obtain rfl := Except.ok.inj h
  unfold Time.checkTimeOnly at hw
  simp only at hw
  rw [bind_eq_ok] at hw
  obtain ⟨t, ht, hw⟩ := hw
  rw [checkMin_val] at ht
  obtain rfl := Except.ok.inj ht
  rw [bind_eq_ok] at hw
  obtain ⟨_, -, hw⟩ := hw
  split_ifs at hw with h0
  · cases hw
  · rw [bind_eq_ok] at hw
    obtain ⟨p, hp, hw⟩ := hw
    unfold Time.waveForm at hp
    rw [if_pos hl] at hp
    obtain rfl := Except.ok.inj hp
    split at hw
    · cases hw
    · rename_i ct app hca
      rw [bind_eq_ok] at hw
      obtain ⟨_, -, hw⟩ := hw
      obtain rfl := Except.ok.inj hw
      simp only [hc] at hca
      exact ⟨h0, rfl, by simp, app, rfl, hca, hr⟩

theorem checkTime_ntime {T : FBack} {m : Mins} {time : List ℝ} {sig : Signal} {ft : String} {ftarg : Args.Dict}
    {verb : ℤ} {c : Checked} (h : (Time.checkTime T m time sig ft ftarg verb).val = .ok c) :
    c.ntime = time.length := by
  cases sig with
  | num s => exact (checkTime_num h).2.2.2.2.1
  | wave nodes amps s nq =>
    unfold Time.checkTime at h
    rw [bind_eq_ok] at h
    obtain ⟨w, hw, h⟩ := h
    rw [bind_eq_ok] at h
    obtain ⟨r, hr, h⟩ := h
    obtain rfl := Except.ok.inj h
    unfold Time.checkTimeOnly at hw
    simp only at hw
    rw [bind_eq_ok] at hw
    obtain ⟨t, ht, hw⟩ := hw
    rw [checkMin_val] at ht
    obtain rfl := Except.ok.inj ht
    rw [bind_eq_ok] at hw
    obtain ⟨_, -, hw⟩ := hw
    split_ifs at hw with h0
    · cases hw
    · rw [bind_eq_ok] at hw
      obtain ⟨p, hp, hw⟩ := hw
      split at hw
      · cases hw
      · rw [bind_eq_ok] at hw
        obtain ⟨_, -, hw⟩ := hw
        obtain rfl := Except.ok.inj hw
        simp

/-! ## The response -/

/-- Response to a signal of a system with impulse response `e`: switch-on, switch-off, impulse. -/
noncomputable def signalResponse (s : ℝ) (e : ℝ → ℝ) (t : ℝ) : ℝ :=
  open Classical in
  if s = 1 then ∫ x in (0 : ℝ)..t, e x else if s = -1 then ∫ x in Set.Ioi t, e x else e t

/-- The transform is exact for the spectrum `E`: from the samples at the frequencies it gives the integral at
the times. -/
def ExactFourier (T : FBack) (c : Checked) (freq : List ℝ) (sine : Bool) (E : ℝ → ℂ) : Prop :=
  ∀ x : ℕ → ℂ, (∀ n < freq.length, x n = E (2 * Real.pi * freq.getD n 0)) →
    ∃ conv, fourier T c freq x = .ok (c.time.map (fourierInt sine E), conv)

/-- The sine transform for switch-on, the cosine transform for switch-off. -/
def Selected (s : ℝ) (sine : Bool) : Prop := (s = 1 → sine = true) ∧ (s = -1 → sine = false)

theorem fourier_signal {e : ℝ → ℝ} (he : Impulse e) {s : ℝ} {sine : Bool} (hs : Selected s sine) {t : ℝ}
    (ht : 0 < t) : fourierInt sine (scaled s e) t * (2 / Real.pi) = signalResponse s e t := by
  unfold signalResponse
  split_ifs with h1 h2
  · rw [hs.1 h1, h1]; exact fourier_on he ht
  · rw [hs.2 h2, h2]; exact fourier_off he ht
  · exact fourier_impulse he h2 h1 sine ht

theorem inTime_exact {T : FBack} {c : Checked} {freq : List ℝ} {sine : Bool} {e : ℝ → ℝ} {D : ℕ → ℂ}
    (hD : ∀ n < freq.length, D n = spectrum e (2 * Real.pi * freq.getD n 0))
    (hx : ExactFourier T c freq sine (scaled c.signal e)) {l : List ℝ} (hl : InTime T c freq D l) :
    l = (c.wave.getD id) (c.time.map fun t => fourierInt sine (scaled c.signal e) t * (2 / Real.pi)) := by
  obtain ⟨y, cv, hy, rfl⟩ := hl
  obtain ⟨cv', hx⟩ := hx (fun n => D n * Tem.scale c.signal (freq.getD n 0)) (fun n hn => by rw [scaled_sample, hD n hn])
  rw [hx] at hy
  obtain ⟨rfl, -⟩ := Prod.mk.inj (Except.ok.inj hy)
  rw [List.map_map]
  rfl

/-- What is known about the array `dipole` returns for a pair: its values at the required frequencies are the
spectrum of the impulse response `e`, and the transform is exact for it. -/
structure Exactly (B : Back) (T : FBack) (c : Checked) (D : NdArray) (r s : ℕ) (e : ℝ → ℝ) (sine : Bool) :
    Prop where
  impulse : Impulse e
  spectrum : ∀ n < c.freq.length,
    D.get [n, r, s] = spectrum e (2 * Real.pi * (usedFreq B.m c.freq).getD n 0)
  exact : ExactFourier T c (usedFreq B.m c.freq) sine (scaled c.signal e)
  selected : Selected c.signal sine

theorem usedFreq_length (m : Mins) (f : List ℝ) : (usedFreq m f).length = f.length := by simp [usedFreq]

/-- The response of a pair to a signal that is a number. -/
theorem inTime_num {B : Back} {T : FBack} {time : List ℝ} {sg : ℝ} {ft : String} {ftarg : Args.Dict} {verb : ℤ}
    {c : Checked} (hc : (Time.checkTime T B.m time (.num sg) ft ftarg verb).val = .ok c) (hm : 0 < B.m.minTime)
    {D : NdArray} {r s : ℕ} {e : ℝ → ℝ} {sine : Bool} (hx : Exactly B T c D r s e sine) {l : List ℝ}
    (hl : InTime T c (usedFreq B.m c.freq) (fun n => D.get [n, r, s]) l) :
    l = time.map fun t => signalResponse sg e (max t B.m.minTime) := by
  obtain ⟨-, h1, h2, h3, -, -⟩ := checkTime_num hc
  rw [inTime_exact (by rw [usedFreq_length]; exact hx.spectrum) hx.exact hl, h1, h3, h2]
  have := hx.selected
  rw [h2] at this
  simp only [Option.getD, id, List.map_map]
  exact List.map_congr_left fun t _ => fourier_signal hx.impulse this (lt_max_of_lt_right hm)

/-- The response of a pair to a waveform. -/
theorem inTime_wave {B : Back} {T : FBack} {time nodes amps : List ℝ} {sg : ℝ} {nq : ℕ} {ft : String}
    {ftarg : Args.Dict} {verb : ℤ} {c : Checked} (hn : nodes.length = amps.length)
    (hc : (Time.checkTime T B.m time (.wave nodes amps sg nq) ft ftarg verb).val = .ok c) (hm : 0 < B.m.minTime)
    {D : NdArray} {r s : ℕ} {e : ℝ → ℝ} {sine : Bool} (hx : Exactly B T c D r s e sine) {l : List ℝ}
    (hl : InTime T c (usedFreq B.m c.freq) (fun n => D.get [n, r, s]) l) :
    l = time.map fun t => ((Waveform.segments nodes amps).map (contribution (T.gauss nq)
      (fun x => signalResponse sg e (max x B.m.minTime)) (max t B.m.minTime))).sum := by
  obtain ⟨-, h2, -, app, h3, h4, -⟩ := checkTime_wave hn hc
  rw [inTime_exact (by rw [usedFreq_length]; exact hx.spectrum) hx.exact hl, h3, h2]
  have := hx.selected
  rw [h2] at this
  simp only [Option.getD]
  rw [C23_superposition _ _ _ _ _ _ _ h4]
  simp only [List.map_map]
  refine List.map_congr_left fun t _ => ?_
  simp only [Function.comp]
  congr 3
  funext x
  exact fourier_signal hx.impulse this (lt_max_of_lt_right hm)

theorem getD_map {α : Type} (l : List α) (f : α → ℝ) (d : α) {i : ℕ} (hi : i < l.length) :
    (l.map f).getD i 0 = f (l.getD i d) := by
  rw [List.getD_eq_getElem _ _ (by simpa using hi), List.getD_eq_getElem _ _ hi, List.getElem_map]

/-- **C48, signals.**  If what `dipole` returns at the required frequencies is the spectrum of `e`, and the
transform is exact for it, the entry at time `t` (at the minimum time, if `t` is below) is: for signal 0 the
value of `e`, for 1 its integral from zero to `t`, for −1 its integral from `t` to infinity; for a waveform the
sum over its segments of slope times quadrature of the response to the inner signal. -/
theorem C48_signals {B : Back} {T : FBack} {A : DipoleArgs} {sig : Signal} {ft : String} {ftarg : Args.Dict}
    (hm : 0 < B.m.minTime) {out : NdArray} (h : (dipoleTime B T A sig ft ftarg).val = .ok out) :
    ∃ c D arr, (Time.checkTime T B.m A.freq sig ft ftarg A.verb).val = .ok c ∧
      (dipole B { A with freq := c.freq, squeeze := false }).val = .ok D ∧
      out = (if A.squeeze then arr.squeeze else arr) ∧
      arr.shape = [A.freq.length, numDipoles A.rcv, numDipoles A.src] ∧
      ∀ r s, r < numDipoles A.rcv → s < numDipoles A.src → ∀ e sine, Exactly B T c D r s e sine →
        ∀ i < A.freq.length,
          let t := max (A.freq.getD i 0) B.m.minTime
          match (generalizing := false) sig with
          | .num sg => arr.get [i, r, s] = ((signalResponse sg e t : ℝ) : ℂ)
          | .wave nodes amps sg nq => nodes.length = amps.length → arr.get [i, r, s] =
              ((((Waveform.segments nodes amps).map (contribution (T.gauss nq)
                (fun x => signalResponse sg e (max x B.m.minTime)) t)).sum : ℝ) : ℂ) := by
  obtain ⟨c, D, arr, hc, hD, ho, hs, hl⟩ := C48_dipole h
  have hn := checkTime_ntime hc
  refine ⟨c, D, arr, hc, hD, ho, by rw [hs, hn], fun r s hr hs e sine hx i hi => ?_⟩
  obtain ⟨l, hl, hv⟩ := hl r s hr hs
  cases sig with
  | num sg =>
    simp only
    rw [hv, inTime_num hc hm hx hl, getD_map _ _ 0 hi]
  | wave nodes amps sg nq =>
    intro t hna
    rw [hv, inTime_wave hna hc hm hx hl, getD_map _ _ 0 hi]

/-! ## `bipole` -/

theorem bipole_array (B : Back) (e : Ext) (A : BipoleArgs) (f : List ℝ) (arr : NdArray) :
    (bipole B e { A with freq := f, squeeze := false }).val = .ok arr ↔
      (bipoleFull B e { A with freq := f }).val = .ok arr := by
  unfold bipole
  simp only [bind_eq_ok, pure_val, Except.ok.injEq]
  constructor
  · rintro ⟨a, h, rfl⟩; exact h
  · intro h; exact ⟨_, h, rfl⟩

theorem poles_n {inp : List (List ℝ)} {p : Poles} (h : checkPoles inp = .ok p) : p.n = numPoles inp :=
  (poles_spec midExt_ok h 1 0 true).2.1

/-- **C48, `bipole`.**  The same for `bipole`: the series of a pair is what the time domain makes of the array
which `bipole` itself returns for the same arguments at the required frequencies. -/
theorem C48_bipole {B : Back} {T : FBack} {e : Ext} {A : BipoleArgs} {sig : Signal} {ft : String}
    {ftarg : Args.Dict} {out : NdArray} (h : (bipoleTime B T e A sig ft ftarg).val = .ok out) :
    ∃ c D arr, (Time.checkTime T B.m A.freq sig ft ftarg A.verb).val = .ok c ∧ c.freq ≠ [] ∧
      (bipole B e { A with freq := c.freq, squeeze := false }).val = .ok D ∧
      out = (if A.squeeze then arr.squeeze else arr) ∧
      arr.shape = [A.freq.length, numPoles A.rcv, numPoles A.src] ∧
      ∀ r s, r < numPoles A.rcv → s < numPoles A.src →
        ∃ l, InTime T c (usedFreq B.m c.freq) (fun n => D.get [n, r, s]) l ∧
          ∀ i, arr.get [i, r, s] = ((l.getD i 0 : ℝ) : ℂ) := by
  unfold bipoleTime at h
  rw [bind_eq_ok] at h
  obtain ⟨c, hc, h⟩ := h
  rw [ok_if] at h
  replace h := h.2
  rw [bind_eq_ok] at h
  obtain ⟨arr, ha, h⟩ := h
  obtain rfl := Except.ok.inj h
  obtain ⟨mo, fo, src, sf, rcv, rf, EM, h1, h2, h3, h4, h5, h6, hp, rfl⟩ := (bipoleWith_iff _ _ _ _ _).1 ha
  have n1 := poles_n h4
  have n2 := poles_n h6
  simp only at n1 n2
  unfold temStepB at hp
  rw [usedFreq_eq h2] at hp
  split_ifs at hp with h0
  · cases hp
  refine ⟨c, _, _, hc, fun q => h0 (by simp [usedFreq, q]), (bipole_array B e A c.freq _).2
    ((bipoleFull_iff _ _ _ _).2 ⟨mo, fo, src, sf, rcv, rf, h1, h2, h3, h4, h5, h6, rfl⟩), rfl, ?_,
    fun r s hr hs => ?_⟩
  · rw [← n1, ← n2, ← checkTime_ntime hc, ← (temStep_iff _ _ _ _ _ _ _ hp).1]; rfl
  · rw [← n2] at hr
    rw [← n1] at hs
    obtain ⟨l, hl, hl'⟩ := (temStep_iff _ _ _ _ _ _ _ hp).2 _ (pair_lt hr hs)
    refine ⟨l, ?_, fun i => ?_⟩
    · simp only [reshapeF_get _ _ _ _ hr hs]
      exact hl
    · rw [reshapeF_get _ _ _ _ hr hs, hl']

/-- **C48, acceptance of `bipole`.**  As for `dipole`, and there has to be at least one frequency. -/
theorem C48_bipole_accept (B : Back) (T : FBack) (e : Ext) (A : BipoleArgs) (sig : Signal) (ft : String)
    (ftarg : Args.Dict) :
    (∃ out, (bipoleTime B T e A sig ft ftarg).val = .ok out) ↔
      ∃ c D, (Time.checkTime T B.m A.freq sig ft ftarg A.verb).val = .ok c ∧ c.freq ≠ [] ∧
        ¬printsRows c A.verb ∧ (bipole B e { A with freq := c.freq, squeeze := false }).val = .ok D ∧
        ∀ r s, r < numPoles A.rcv → s < numPoles A.src →
          ∃ l, InTime T c (usedFreq B.m c.freq) (fun n => D.get [n, r, s]) l := by
  constructor
  · rintro ⟨out, h⟩
    obtain ⟨c, D, arr, hc, h0, hD, -, -, hl⟩ := C48_bipole h
    exact ⟨c, D, hc, h0, bipole_rows h hc, hD, fun r s hr hs => (hl r s hr hs).imp fun l h => h.1⟩
  · rintro ⟨c, D, hc, h0, hP, hD, hl⟩
    obtain ⟨mo, fo, src, sf, rcv, rf, h1, h2, h3, h4, h5, h6, rfl⟩ :=
      (bipoleFull_iff _ _ _ _).1 ((bipole_array B e A c.freq _).1 hD)
    have n1 := poles_n h4
    have n2 := poles_n h6
    simp only at n1 n2
    rw [← n1, ← n2] at hl
    obtain ⟨EM, hE⟩ := temStep_runs (T := T) (c := c) (freq := fo.freq) (noff := rcv.n * src.n)
      (v := fun i => bipoleRow (setupAt B e { A with freq := c.freq } mo fo sf rf i) src rcv A.srcpts A.recpts)
      (fun k hk => by
        obtain ⟨hr, hs, e⟩ := pair_split hk
        obtain ⟨l, hl⟩ := hl _ _ hr hs
        simp only [reshapeF_get _ _ _ _ hr hs, e] at hl
        rw [← usedFreq_eq h2] at hl
        exact ⟨l, hl⟩) A.verb
    have hE' : (temStepB T c A.verb fo.freq (rcv.n * src.n) fun i =>
        bipoleRow (setupAt B e { A with freq := c.freq } mo fo sf rf i) src rcv A.srcpts A.recpts).val = .ok EM := by
      unfold temStepB
      rw [if_neg (by rw [usedFreq_eq h2]; simpa [usedFreq] using h0)]
      exact hE
    have := (bipoleWith_iff B e { A with freq := c.freq } (temStepB T c A.verb) _).2
      ⟨mo, fo, src, sf, rcv, rf, EM, h1, h2, h3, h4, h5, h6, hE', rfl⟩
    unfold bipoleTime
    rw [bind_val, hc]
    simp only [Except.bind]
    rw [if_neg hP, bind_val, this]
    exact ⟨_, rfl⟩

/-- **C48, signals of `bipole`.** -/
theorem C48_bipole_signals {B : Back} {T : FBack} {ex : Ext} {A : BipoleArgs} {sig : Signal} {ft : String}
    {ftarg : Args.Dict} (hm : 0 < B.m.minTime) {out : NdArray}
    (h : (bipoleTime B T ex A sig ft ftarg).val = .ok out) :
    ∃ c D arr, (Time.checkTime T B.m A.freq sig ft ftarg A.verb).val = .ok c ∧
      (bipole B ex { A with freq := c.freq, squeeze := false }).val = .ok D ∧
      out = (if A.squeeze then arr.squeeze else arr) ∧
      arr.shape = [A.freq.length, numPoles A.rcv, numPoles A.src] ∧
      ∀ r s, r < numPoles A.rcv → s < numPoles A.src → ∀ e sine, Exactly B T c D r s e sine →
        ∀ i < A.freq.length,
          let t := max (A.freq.getD i 0) B.m.minTime
          match (generalizing := false) sig with
          | .num sg => arr.get [i, r, s] = ((signalResponse sg e t : ℝ) : ℂ)
          | .wave nodes amps sg nq => nodes.length = amps.length → arr.get [i, r, s] =
              ((((Waveform.segments nodes amps).map (contribution (T.gauss nq)
                (fun x => signalResponse sg e (max x B.m.minTime)) t)).sum : ℝ) : ℂ) := by
  obtain ⟨c, D, arr, hc, -, hD, ho, hs, hl⟩ := C48_bipole h
  refine ⟨c, D, arr, hc, hD, ho, hs, fun r s hr hs e sine hx i hi => ?_⟩
  obtain ⟨l, hl, hv⟩ := hl r s hr hs
  cases sig with
  | num sg =>
    simp only
    rw [hv, inTime_num hc hm hx hl, getD_map _ _ 0 hi]
  | wave nodes amps sg nq =>
    intro t hna
    rw [hv, inTime_wave hna hc hm hx hl, getD_map _ _ 0 hi]

/-! ## Times below the minimum, waveforms -/

theorem checkTime_cut (T : FBack) (m : Mins) (time : List ℝ) (sig : Signal) (ft : String) (ftarg : Args.Dict)
    (verb : ℤ) :
    (Time.checkTime T m (time.map (max · m.minTime)) sig ft ftarg verb).val =
      (Time.checkTime T m time sig ft ftarg verb).val := by
  have hc : cut m.minTime = fun x => max x m.minTime := by funext x; exact cut_eq _ x
  have e : (Time.checkTimeOnly T m (time.map (max · m.minTime)) sig verb).val =
      (Time.checkTimeOnly T m time sig verb).val := by
    have hk : ∀ {β : Type} (f : List ℝ → W β),
        (checkMin (time.map (max · m.minTime)) (some m.minTime) "Times" verb >>= f).val =
          (checkMin time (some m.minTime) "Times" verb >>= f).val := by
      intro β f
      rw [bind_val, bind_val, checkMin_val, checkMin_val]
      simp only [hc, List.map_map]
      congr 2
      refine List.map_congr_left fun t _ => ?_
      simp
    cases sig with
    | num s =>
      unfold Time.checkTimeOnly Verb.checkTimeOnly
      simp only
      rw [bind_val (f := fun time : List ℝ => pure (time, s, none, time.length)), hk, ← bind_val]
    | wave nodes amps s nq =>
      unfold Time.checkTimeOnly
      exact hk _
  unfold Time.checkTime
  rw [bind_val, bind_val, e]

/-- **C48, early times.**  Times below the minimum give what the minimum time gives. -/
theorem C48_early (B : Back) (T : FBack) (A : DipoleArgs) (sig : Signal) (ft : String) (ftarg : Args.Dict) :
    (dipoleTime B T { A with freq := A.freq.map (max · B.m.minTime) } sig ft ftarg).val =
      (dipoleTime B T A sig ft ftarg).val := by
  unfold dipoleTime
  rw [bind_val, bind_val, checkTime_cut]

theorem ebind_ok {α β : Type} {x : Except PyErr α} {f : α → Except PyErr β} {b : β} :
    (x >>= f) = .ok b ↔ ∃ a, x = .ok a ∧ f a = .ok b := by
  cases x <;> simp [bind, Except.bind]

/-- The transform returns one value per time. -/
theorem fourier_length {T : FBack} {c : Checked} {freq : List ℝ} {x : ℕ → ℂ} {y : List ℝ} {cv : Bool}
    (h : fourier T c freq x = .ok (y, cv)) : y.length = c.time.length := by
  unfold fourier at h
  split_ifs at h
  · unfold fourierDlf at h
    simp only [ebind_ok] at h
    obtain ⟨F, -, p, -, k, -, h⟩ := h
    split_ifs at h <;> simp only [ebind_ok, Except.ok.injEq, Prod.mk.injEq] at h
    · obtain ⟨_, -, rfl, -⟩ := h; simp
    · obtain ⟨_, -, _, -, _, -, rfl, -⟩ := h; simp
    · obtain ⟨_, -, rfl, -⟩ := h; simp
  · unfold fourierQwe at h
    simp only [ebind_ok] at h
    obtain ⟨_, -, _, -, _, -, _, -, _, -, _, -, _, -, _, -, _, -, _, -, h⟩ := h
    split at h
    · cases h
    simp only [Except.ok.injEq, Prod.mk.injEq] at h
    obtain ⟨rfl, -⟩ := h
    simp
  · unfold fourierFftlog at h
    simp only [ebind_ok] at h
    obtain ⟨_, -, _, -, _, -, _, -, _, -, _, -, h⟩ := h
    split at h
    · cases h
    simp only [ebind_ok, Except.ok.injEq, Prod.mk.injEq] at h
    obtain ⟨_, -, rfl, -⟩ := h
    simp
  · unfold Time.fourierFft at h
    simp only [ebind_ok] at h
    obtain ⟨_, -, _, -, _, -, _, -, _, -, h⟩ := h
    simp only [Except.ok.injEq, Prod.mk.injEq] at h
    obtain ⟨rfl, -⟩ := h
    simp

/-- **C48, waveform by calls.**  Whatever `dipole` returns for a waveform with an inner signal that is allowed on
its own: the same call with the inner signal at the computation times is accepted, and the entry is the sum
over the segments with any function that has the values of that call at the computation times. -/
theorem C48_waveform {B : Back} {T : FBack} {A : DipoleArgs} {nodes amps : List ℝ} {sg : ℝ} {nq : ℕ}
    {ft : String} {ftarg : Args.Dict} (hn : nodes.length = amps.length) (hs : -2 < sg ∧ sg < 2) {out : NdArray}
    (h : (dipoleTime B T A (.wave nodes amps sg nq) ft ftarg).val = .ok out) :
    ∃ ct arr R, ct ≠ [] ∧ (∀ t ∈ ct, B.m.minTime ≤ t) ∧
      (dipoleTime B T { A with freq := ct, squeeze := false } (.num sg) ft ftarg).val = .ok R ∧
      out = (if A.squeeze then arr.squeeze else arr) ∧
      arr.shape = [A.freq.length, numDipoles A.rcv, numDipoles A.src] ∧
      ∀ r s, r < numDipoles A.rcv → s < numDipoles A.src → ∀ g : ℝ → ℝ,
        (∀ j < ct.length, R.get [j, r, s] = ((g (ct.getD j 0) : ℝ) : ℂ)) → ∀ i < A.freq.length,
        arr.get [i, r, s] = ((((Waveform.segments nodes amps).map (contribution (T.gauss nq)
          (fun x => g (max x B.m.minTime)) (max (A.freq.getD i 0) B.m.minTime))).sum : ℝ) : ℂ) := by
  obtain ⟨c, D, arr, hc, hD, ho, hsh, hl⟩ := C48_dipole h
  obtain ⟨h0, h2, h5, app, h3, h4, h6⟩ := checkTime_wave hn hc
  obtain ⟨t1, t2⟩ := C23_times _ _ _ _ _ _ _ h4
  have hcut : c.time.map (max · B.m.minTime) = c.time := by
    conv_rhs => rw [← List.map_id c.time]
    exact List.map_congr_left fun t ht => max_eq_left (t2 t ht)
  have hc' : (Time.checkTime T B.m c.time (.num sg) ft ftarg A.verb).val =
      .ok { c with wave := none, ntime := c.time.length } := by
    have hcc : cut B.m.minTime = fun x => max x B.m.minTime := by funext x; exact cut_eq _ x
    unfold Time.checkTime Time.checkTimeOnly Verb.checkTimeOnly
    simp only [bind_eq_ok, say_val, checkMin_val, pure_val, Except.ok.injEq]
    refine ⟨_, ⟨_, ⟨_, rfl, (), trivial, (), (C22_accepted sg).2 hs, (), trivial, rfl⟩, rfl⟩, (c.freq, c.ft, c.targ),
      ?_, ?_⟩
    · rw [hcc, hcut]; exact h6
    · rw [hcc, hcut]; cases c; subst h2; rfl
  have hacc : ∃ R, (dipoleTime B T { A with freq := c.time, squeeze := false } (.num sg) ft ftarg).val = .ok R := by
    rw [C48_accept]
    refine ⟨{ c with wave := none, ntime := c.time.length }, D, hc', (dipole_rows h hc :), hD,
      fun r s hr hs => ?_⟩
    obtain ⟨_, ⟨y, cv, hy, -⟩, -⟩ := hl r s hr hs
    exact ⟨_, y, cv, hy, rfl⟩
  obtain ⟨R, hR⟩ := hacc
  refine ⟨c.time, arr, R, t1, t2, hR, ho, by rw [hsh, checkTime_ntime hc], fun r s hr hs g hg i hi => ?_⟩
  obtain ⟨c2, D2, arr2, hc2, hD2, ho2, -, hl2⟩ := C48_dipole hR
  have hc2' : (Time.checkTime T B.m c.time (.num sg) ft ftarg A.verb).val = .ok c2 := hc2
  rw [hc'] at hc2'
  obtain rfl := Except.ok.inj hc2'
  obtain rfl : D = D2 := Except.ok.inj (hD.symm.trans hD2)
  obtain ⟨l, ⟨y, cv, hy, rfl⟩, hv⟩ := hl r s hr hs
  obtain ⟨l2, ⟨y2, cv2, hy2, rfl⟩, hv2⟩ := hl2 r s hr hs
  have e2 : fourier T { c with wave := none, ntime := c.time.length } = fourier T c := rfl
  rw [e2] at hy2
  rw [hy] at hy2
  obtain ⟨rfl, rfl⟩ := Prod.mk.inj (Except.ok.inj hy2)
  obtain rfl : R = arr2 := ho2
  have hy' : y.map (· * (2 / Real.pi)) = c.time.map g := by
    refine List.ext_getElem (by simp [fourier_length hy]) fun j h1 h2 => ?_
    have hj : j < c.time.length := by simpa using h2
    have := hg j hj
    rw [hv2] at this
    have := Complex.ofReal_injective this
    simp only [Option.getD, id] at this
    rw [List.getD_eq_getElem _ _ h1, List.getD_eq_getElem _ _ hj] at this
    rw [this, List.getElem_map]
  rw [hv, hy', h3]
  simp only [Option.getD]
  rw [C23_superposition _ _ _ _ _ _ _ h4, List.map_map, getD_map _ _ 0 hi]
  rfl

/-! ## One frequency at a time -/

/-- The layers at the Laplace parameter `s`. -/
noncomputable def earthAt (mo : ModelOut) (s : ℂ) : Earth :=
  rowEarth mo.depth (List.zipWith (fun ρ e : ℝ => 1 / (ρ : ℂ) + s * ((e * eps0 : ℝ) : ℂ)) mo.res mo.epermH)
    (List.zipWith (fun ρ e : ℝ => 1 / (ρ : ℂ) + s * ((e * eps0 : ℝ) : ℂ))
      (List.zipWith (fun r a => r * a * a) mo.res mo.aniso) mo.epermV)
    (mo.mpermH.map fun u : ℝ => s * ((u * mu0 : ℝ) : ℂ)) (mo.mpermV.map fun u : ℝ => s * ((u * mu0 : ℝ) : ℂ))

theorem rows_eq {m : Mins} {freq : List ℝ} {mo : ModelOut} {verb : ℤ} {fo : FreqOut}
    (h : (checkFrequency m freq mo.res mo.aniso mo.epermH mo.epermV mo.mpermH mo.mpermV verb).val = .ok fo) :
    rowsOf mo.depth fo = freq.map fun f => earthAt mo (sParam m.minFreq freq f) := by
  rw [C30_frequency] at h
  rw [← Except.ok.inj h]
  refine List.ext_getElem (by simp [rowsOf]) fun i h1 h2 => ?_
  have hi : i < freq.length := by simpa using h2
  simp only [rowsOf, List.getElem_map, List.getElem_range, List.getD_eq_getElem?_getD, List.getElem?_map,
    List.getElem?_eq_getElem hi, Option.map_some, Option.getD_some, earthAt]

theorem entry_zip_im (l : List ℝ) (k : List ℝ) (i : ℤ) (w : ℝ) :
    (entry (List.zipWith (fun ρ e : ℝ => 1 / (ρ : ℂ) + Complex.I * w * ((e * eps0 : ℝ) : ℂ)) l k) 0 i).im =
      w * (entry (List.zipWith (fun _ e : ℝ => e * eps0) l k) 0 i) := by
  unfold entry
  split_ifs
  · rw [List.getD_eq_getElem?_getD, List.getD_eq_getElem?_getD, List.getElem?_zipWith, List.getElem?_zipWith]
    cases l[i.toNat]? <;> cases k[i.toNat]? <;> simp
  · simp

theorem entry_map_im (l : List ℝ) (i : ℤ) (w : ℝ) :
    (entry (l.map fun u : ℝ => Complex.I * w * ((u * mu0 : ℝ) : ℂ)) 0 i).im =
      w * (entry (l.map fun u : ℝ => u * mu0) 0 i) := by
  unfold entry
  split_ifs
  · rw [List.getD_eq_getElem?_getD, List.getD_eq_getElem?_getD, List.getElem?_map, List.getElem?_map]
    cases l[i.toNat]? <;> simp
  · simp

theorem neg_iff (mo : ModelOut) (l : ℕ) (b : Bool) {w w' : ℝ} (hw : 0 < w) (hw' : 0 < w') :
    (if b then (medAt l (earthAt mo (Complex.I * w))).dual else medAt l (earthAt mo (Complex.I * w))).zetaH.im < 0 ↔
    (if b then (medAt l (earthAt mo (Complex.I * w'))).dual else
      medAt l (earthAt mo (Complex.I * w'))).zetaH.im < 0 := by
  have key : ∀ x : ℝ, (w * x < 0 ↔ w' * x < 0) ∧ (-(w * x) < 0 ↔ -(w' * x) < 0) := by
    intro x
    constructor
    · constructor <;> intro h <;> nlinarith [neg_of_mul_neg_right h (by positivity)]
    · rw [neg_lt_zero, neg_lt_zero, mul_pos_iff_of_pos_left hw, mul_pos_iff_of_pos_left hw']
  cases b
  · simp only [Bool.false_eq_true, if_false, medAt, earthAt, rowEarth, entry_map_im]
    exact (key _).1
  · simp only [if_true, Fullspace.Med.dual, medAt, earthAt, rowEarth, Complex.neg_im, entry_zip_im]
    exact (key _).2

theorem sParam_pos {mf : ℝ} {freq : List ℝ} (hp : ∀ f ∈ freq, 0 < f) {f : ℝ} (hf : f ∈ freq) :
    ∃ w : ℝ, 0 < w ∧ w = 2 * Real.pi * max f mf ∧ sParam mf freq f = Complex.I * w := by
  refine ⟨2 * Real.pi * max f mf, ?_, rfl, ?_⟩
  · have : 0 < max f mf := (hp f hf).trans_le (le_max_left _ _)
    positivity
  · unfold sParam
    rw [if_pos ⟨f, hf, hp f hf⟩]
    push_cast
    ring

/-- The value of `dipole` at a positive frequency depends on this frequency only. -/
theorem dipole_one_freq {B : Back} (hB : Pointwise B) {A : DipoleArgs} {f1 f2 : List ℝ} (p1 : ∀ f ∈ f1, 0 < f)
    (p2 : ∀ f ∈ f2, 0 < f) {D1 D2 : NdArray} (h1 : (dipole B { A with freq := f1, squeeze := false }).val = .ok D1)
    (h2 : (dipole B { A with freq := f2, squeeze := false }).val = .ok D2) {j1 j2 : ℕ} (l1 : j1 < f1.length)
    (l2 : j2 < f2.length) (he : f1[j1] = f2[j2]) {r s : ℕ} (hr : r < numDipoles A.rcv) (hs : s < numDipoles A.src) :
    D1.get [j1, r, s] = D2.get [j2, r, s] := by
  obtain ⟨mo, fo1, co, src, rcv, a1, a2, a3, a4, a5, -, rfl⟩ :=
    (dipoleFull_iff _ _ _).1 ((dipole_array B A f1 _).1 h1)
  obtain ⟨mo', fo2, co', src', rcv', b1, b2, b3, b4, b5, -, rfl⟩ :=
    (dipoleFull_iff _ _ _).1 ((dipole_array B A f2 _).1 h2)
  obtain rfl : mo = mo' := Except.ok.inj (a1.symm.trans b1)
  obtain rfl : co = co' := Except.ok.inj (a3.symm.trans b3)
  obtain rfl : src = src' := Except.ok.inj (a4.symm.trans b4)
  obtain rfl : rcv = rcv' := Except.ok.inj (a5.symm.trans b5)
  obtain ⟨_, _, _, -, -, n1, -⟩ := checkDipole_ok a4
  obtain ⟨_, _, _, -, -, n2, -⟩ := checkDipole_ok a5
  simp only at n1 n2
  rw [← n2] at hr
  rw [← n1] at hs
  rw [reshapeF_get _ _ _ _ hr hs, reshapeF_get _ _ _ _ hr hs]
  have hk : r + rcv.1.length * s < (offsOf B.m B.junk src rcv).length := by
    simp only [offsOf, List.length_map, List.length_range]
    rw [Nat.mul_comm src.1.length]; exact pair_lt hr hs
  have e1 := rows_eq a2
  have e2 := rows_eq b2
  dsimp only at e1 e2
  obtain ⟨c, k, hc⟩ := hB src.2.2 rcv.2.2 (layerOf mo.depth src.2.2) (layerOf mo.depth rcv.2.2) co.1 co.2.1 co.2.2
  have row1 : j1 < (rowsOf mo.depth fo1).length := by rw [e1]; simpa using l1
  have row2 : j2 < (rowsOf mo.depth fo2).length := by rw [e2]; simpa using l2
  have hrow : (rowsOf mo.depth fo1)[j1] = (rowsOf mo.depth fo2)[j2] := by
    simp only [e1, e2, List.getElem_map]
    congr 1
    unfold sParam
    rw [if_pos ⟨_, List.getElem_mem l1, p1 _ (List.getElem_mem l1)⟩,
      if_pos ⟨_, List.getElem_mem l2, p2 _ (List.getElem_mem l2)⟩, he]
  have hfull : ∀ ρ θ zs zr, (Fullspace.fullspace B.sqrt ((rowsOf mo.depth fo1).map (medAt (layerOf mo.depth rcv.2.2)))
        ρ θ zs zr co.1 co.2.1 co.2.2).getD j1 0 =
      (Fullspace.fullspace B.sqrt ((rowsOf mo.depth fo2).map (medAt (layerOf mo.depth rcv.2.2)))
        ρ θ zs zr co.1 co.2.1 co.2.2).getD j2 0 := by
    intro ρ θ zs zr
    unfold Fullspace.fullspace
    simp only
    rw [List.getD_eq_getElem _ _ (by simpa using row1), List.getD_eq_getElem _ _ (by simpa using row2)]
    simp only [List.getElem_map, hrow]
    congr 1
    rw [decide_eq_decide, e1, e2]
    simp only [List.map_map, List.mem_map, Function.comp, exists_exists_and_eq_and]
    obtain ⟨w1, v1, -, q1⟩ := sParam_pos (mf := B.m.minFreq) p1 (List.getElem_mem l1)
    obtain ⟨w2, v2, -, q2⟩ := sParam_pos (mf := B.m.minFreq) p2 (List.getElem_mem l2)
    constructor
    · rintro ⟨f, hf, h⟩
      obtain ⟨w, v, -, q⟩ := sParam_pos (mf := B.m.minFreq) p1 hf
      refine ⟨_, List.getElem_mem l2, ?_⟩
      rw [q2]; rw [q] at h
      exact (neg_iff mo _ _ v v2).1 h
    · rintro ⟨f, hf, h⟩
      obtain ⟨w, v, -, q⟩ := sParam_pos (mf := B.m.minFreq) p2 hf
      refine ⟨_, List.getElem_mem l1, ?_⟩
      rw [q1]; rw [q] at h
      exact (neg_iff mo _ _ v v1).1 h
  unfold femOf
  dsimp only
  rw [(C17_fem hc _ _ _ _ _ _ _ _ _ _ _ _).1 j1 _ row1 hk, (C17_fem hc _ _ _ _ _ _ _ _ _ _ _ _).1 j2 _ row2 hk,
    hrow, hfull]

/-! ## Standard digital filter -/

/-- The arguments select the standard digital filter `F` (`pts_per_dec=0`), with positive base. -/
structure StdDlf (T : FBack) (ft : String) (ftarg : Args.Dict) (F : Filter) : Prop where
  dflt : ∃ a G, T.dflt = .filter a G
  method : Args.lower ft = "dlf"
  filter : ∃ a, filterFor T.lib T.dflt ftarg = some (.filter a F)
  ppd : T.C.flt ((ftarg.lookup "pts_per_dec").getD (.num (-1))) = .ok (.num 0)
  npos : 0 < F.n
  base : ∀ k < F.n, 0 < F.base k

/-- The frequencies the filter needs for time `t`. -/
noncomputable def needed (F : Filter) (t : ℝ) : List ℝ :=
  (List.range F.n).map fun k => F.base k / t / (2 * Real.pi)

theorem std_check {T : FBack} {m : Mins} (hm : 0 < m.minTime) {time : List ℝ} {sg : ℝ} {ft : String}
    {ftarg : Args.Dict} {verb : ℤ} {F : Filter} (hS : StdDlf T ft ftarg F) {c : Checked}
    (h : (Time.checkTime T m time (.num sg) ft ftarg verb).val = .ok c) :
    c.ft = "dlf" ∧ (∃ k a, kindFor sg ftarg = .str k ∧
      c.targ = [("pts_per_dec", .num 0), ("kind", .str k), ("dlf", .filter a F)]) ∧
    c.freq.length = time.length * F.n ∧ (∀ f ∈ c.freq, 0 < f) ∧
    ∀ i < time.length, ∀ k < F.n,
      c.freq.getD (i * F.n + k) 0 = F.base k / max (time.getD i 0) m.minTime / (2 * Real.pi) := by
  obtain ⟨-, h1, -, -, -, h2⟩ := checkTime_num h
  have h3 := vcheckTime_args h2
  obtain ⟨a, hF⟩ := hS.filter
  obtain ⟨l1, l2⟩ := C28_dlf_standard hS.dflt hS.method h3 hF hS.ppd
  obtain ⟨q1, v, k, F', q2, q3, -, q4, -, q5⟩ :=
    C28_dlf T.E T.C T.lib T.dflt hS.dflt c.time sg ft hS.method ftarg verb c.freq c.ft c.targ h3
  rw [hS.ppd] at q2
  rw [hF] at q4
  obtain rfl := Except.ok.inj q2
  obtain rfl := Option.some.inj q4
  have hlt : c.time.length = time.length := by rw [h1]; simp
  rw [hlt] at l1 l2
  have hf : ∀ i < time.length, ∀ k < F.n,
      c.freq.getD (i * F.n + k) 0 = F.base k / max (time.getD i 0) m.minTime / (2 * Real.pi) := by
    intro i hi k hk
    have := l2 i hi k hk
    rw [h1, getD_map _ _ 0 hi] at this
    rw [← this]
    field_simp
  refine ⟨q1, ⟨k, a, q3, q5⟩, l1, ?_, hf⟩
  intro f hf'
  obtain ⟨j, hj, rfl⟩ := List.getElem_of_mem hf'
  rw [l1] at hj
  have hi : j / F.n < time.length := Nat.div_lt_of_lt_mul (by rw [Nat.mul_comm]; exact hj)
  have hk := Nat.mod_lt j hS.npos
  have := hf _ hi _ hk
  rw [Nat.div_add_mod' j F.n, List.getD_eq_getElem _ _ (by rw [l1]; exact hj)] at this
  rw [this]
  have := hS.base _ hk
  have : 0 < max (time.getD (j / F.n) 0) m.minTime := lt_max_of_lt_right hm
  positivity

/-- If one list of times is accepted, so is every other. -/
theorem std_any {T : FBack} {m : Mins} {time time' : List ℝ} {sg : ℝ} {ft : String}
    {ftarg : Args.Dict} {verb : ℤ} {F : Filter} (hS : StdDlf T ft ftarg F) {c : Checked}
    (h : (Time.checkTime T m time (.num sg) ft ftarg verb).val = .ok c) :
    ∃ c', (Time.checkTime T m time' (.num sg) ft ftarg verb).val = .ok c' ∧ c'.targ = c.targ := by
  obtain ⟨hs, h1, -, -, -, h2⟩ := checkTime_num h
  obtain ⟨a, hF⟩ := hS.filter
  obtain ⟨q1, v, k, F', q2, q3, -, q4, -, q5⟩ :=
    C28_dlf T.E T.C T.lib T.dflt hS.dflt c.time sg ft hS.method ftarg verb c.freq c.ft c.targ (vcheckTime_args h2)
  rw [hS.ppd] at q2
  rw [hF] at q4
  obtain rfl := Except.ok.inj q2
  obtain rfl := Option.some.inj q4
  have hv : ∀ time', ∃ f, (Verb.checkTime T.E T.C T.lib T.dflt time' sg ft ftarg verb).val =
      .ok (f, c.ft, c.targ) := by
    intro time'
    unfold Verb.checkTime at h2 ⊢
    simp only [bind_eq_ok] at h2 ⊢
    obtain ⟨s, a1, u1, a2, q, a3, u2, a4, d, a5, a6⟩ := h2
    simp only [pure_val, Except.ok.injEq, Prod.mk.injEq] at a6
    obtain ⟨b1, b2, b3⟩ := a6
    unfold Args.timeFreq at a3
    rw [if_pos hS.method] at a3
    rw [bind_eq_ok] at a3
    obtain ⟨f, a3, a7⟩ := a3
    obtain rfl := Except.ok.inj a7
    have ht : s.targ = c.targ := by
      rw [unknown_val, Except.ok.injEq] at a5
      rw [← b3, ← a5]
    refine ⟨(Args.dlfOmega F time' 0 0 0).map fun w => w / 2 / Real.pi, s, a1, u1, a2, (((Args.dlfOmega F time' 0 0 0).map fun w => w / 2 / Real.pi), s), ?_, u2, a4, d, a5, ?_⟩
    · unfold Args.timeFreq
      rw [if_pos hS.method, bind_eq_ok]
      refine ⟨_, ?_, rfl⟩
      rw [ht, q5]
      unfold Args.dlfFreq
      simp only [bind_eq_ok]
      exact ⟨F, rfl, 0, rfl, by simp⟩
    · simp only [pure_val, b2, b3]
  obtain ⟨f, hf⟩ := hv (time'.map (cut m.minTime))
  refine ⟨⟨time'.map (cut m.minTime), f, c.ft, c.targ, sg, none, (time'.map (cut m.minTime)).length⟩, ?_, rfl⟩
  unfold Time.checkTime Time.checkTimeOnly Verb.checkTimeOnly
  simp only [bind_eq_ok, say_val, checkMin_val, pure_val, Except.ok.injEq]
  exact ⟨_, ⟨_, ⟨_, rfl, (), trivial, (), (C22_accepted sg).2 hs, (), trivial, rfl⟩, rfl⟩, _, hf, rfl⟩

/-- The transform of the standard digital filter. -/
theorem std_fourier {T : FBack} {c : Checked} {k : String} {a : List String} {F : Filter} (h1 : c.ft = "dlf")
    (h2 : c.targ = [("pts_per_dec", .num 0), ("kind", .str k), ("dlf", .filter a F)]) {freq : List ℝ}
    (h3 : freq.length = c.time.length * F.n) (h4 : c.time ≠ []) (x : ℕ → ℂ) :
    fourier T c freq x = .ok ((List.range c.time.length).map fun j =>
      (∑ q ∈ Finset.range F.n, (if k = "sin" then -(x (j * F.n + q)).im * F.sin q
        else (x (j * F.n + q)).re * F.cos q)) / c.time.getD j 0, true) := by
  have hl : 0 < c.time.length := List.length_pos_iff.2 h4
  unfold fourier
  rw [if_pos h1, h2]
  unfold fourierDlf
  simp only [ebind_ok]
  refine ⟨F, rfl, 0, rfl, k, rfl, ?_⟩
  rw [if_pos rfl]
  simp only [ebind_ok]
  refine ⟨(), by rw [need, if_pos hl.ne'], ?_⟩
  simp only [Except.ok.injEq, Prod.mk.injEq, and_true]
  refine List.map_congr_left fun j _ => ?_
  rw [h3, Nat.mul_div_cancel_left _ hl]
  unfold dlfFourier
  simp only [prepare, dot_eq, dlfPts, reduceCtorEq, if_false]
  rw [Complex.div_ofReal_re, Complex.re_sum]
  congr 1
  refine Finset.sum_congr rfl fun q _ => ?_
  by_cases hk : k = "sin"
  · simp [hk]
  · simp [hk]

/-- `dipole` accepts or rejects frequencies it is given independent of their values and number. -/
theorem dipole_any_freq {B : Back} {A : DipoleArgs} {f : List ℝ} {D : NdArray}
    (h : (dipole B { A with freq := f, squeeze := false }).val = .ok D) (g : List ℝ) :
    ∃ D', (dipole B { A with freq := g, squeeze := false }).val = .ok D' :=
  (C44_accept B { A with freq := g, squeeze := false }).1.2 ((C44_accept B { A with freq := f, squeeze := false }).1.1
    ⟨D, h⟩)

open Classical in
/-- **C48, standard digital filter.**  With `pts_per_dec=0` the entry at time `t` is the filter sum over what
`dipole` returns for the frequencies `base/(2πt)` of this time alone. -/
theorem C48_standard {B : Back} (hB : Pointwise B) (hm : 0 < B.m.minTime) {T : FBack} {A : DipoleArgs} {sg : ℝ}
    {ft : String} {ftarg : Args.Dict} {F : Filter} (hS : StdDlf T ft ftarg F) {out : NdArray}
    (h : (dipoleTime B T A (.num sg) ft ftarg).val = .ok out) :
    ∃ arr, out = (if A.squeeze then arr.squeeze else arr) ∧
      arr.shape = [A.freq.length, numDipoles A.rcv, numDipoles A.src] ∧
      ∀ i < A.freq.length, ∃ D, let t := max (A.freq.getD i 0) B.m.minTime
        (dipole B { A with freq := needed F t, squeeze := false }).val = .ok D ∧
        ∀ r s, r < numDipoles A.rcv → s < numDipoles A.src →
          arr.get [i, r, s] = ((2 / Real.pi / t * ∑ k ∈ Finset.range F.n,
            (let E := D.get [k, r, s] * Tem.scale sg (max (F.base k / t / (2 * Real.pi)) B.m.minFreq)
             if kindFor sg ftarg = .str "sin" then -E.im * F.sin k else E.re * F.cos k) : ℝ) : ℂ) := by
  obtain ⟨c, D0, arr, hc, hD0, ho, hsh, hl⟩ := C48_dipole h
  obtain ⟨h1, ⟨kd, a, hk, h2⟩, h3, hpos, h4⟩ := std_check hm hS hc
  obtain ⟨-, t1, t2, t3, t4, -⟩ := checkTime_num hc
  refine ⟨arr, ho, by rw [hsh, t4], fun i hi => ?_⟩
  obtain ⟨D, hD⟩ := dipole_any_freq hD0 (needed F (max (A.freq.getD i 0) B.m.minTime))
  have htp : 0 < max (A.freq.getD i 0) B.m.minTime := lt_max_of_lt_right hm
  refine ⟨D, hD, fun r s hr hs => ?_⟩
  obtain ⟨l, ⟨y, cv, hy, rfl⟩, hv⟩ := hl r s hr hs
  have hlt : c.time.length = A.freq.length := by rw [t1]; simp
  rw [std_fourier h1 h2 (by rw [usedFreq_length, h3, hlt]) (List.length_pos_iff.1 (by omega))] at hy
  obtain ⟨rfl, -⟩ := Prod.mk.inj (Except.ok.inj hy)
  rw [hv, t3]
  simp only [Option.getD, id, List.map_map]
  rw [getD_map _ _ 0 (by rw [List.length_range, hlt]; exact hi)]
  congr 1
  have hr' : (List.range c.time.length).getD i 0 = i := by
    rw [List.getD_eq_getElem _ _ (by rw [List.length_range, hlt]; exact hi), List.getElem_range]
  have htime : c.time.getD i 0 = max (A.freq.getD i 0) B.m.minTime := by rw [t1, getD_map _ _ 0 hi]
  simp only [Function.comp, hr', htime, t2, hk, Args.Val.str.injEq]
  have hring : ∀ S t : ℝ, S / t * (2 / Real.pi) = 2 / Real.pi / t * S := fun S t => by ring
  rw [hring]
  congr 1
  refine Finset.sum_congr rfl fun q hq => ?_
  have hq := Finset.mem_range.1 hq
  have hj : i * F.n + q < c.freq.length := by
    rw [h3]
    have : (i + 1) * F.n ≤ A.freq.length * F.n := Nat.mul_le_mul_right _ hi
    rw [Nat.add_mul, Nat.one_mul] at this
    omega
  have hf := h4 i hi q hq
  rw [List.getD_eq_getElem _ _ hj] at hf
  have hex : ∃ g ∈ c.freq, 0 < g := ⟨_, List.getElem_mem hj, hpos _ (List.getElem_mem hj)⟩
  have hu : (usedFreq B.m c.freq).getD (i * F.n + q) 0 =
      max (F.base q / max (A.freq.getD i 0) B.m.minTime / (2 * Real.pi)) B.m.minFreq := by
    unfold usedFreq
    rw [getD_map _ _ 0 hj, if_pos hex, List.getD_eq_getElem _ _ hj, hf]
  have hd : D0.get [i * F.n + q, r, s] = D.get [q, r, s] := by
    have hlen : q < (needed F (max (A.freq.getD i 0) B.m.minTime)).length := by simpa [needed] using hq
    refine dipole_one_freq hB hpos ?_ hD0 hD hj hlen ?_ hr hs
    · intro f hf
      simp only [needed, List.mem_map, List.mem_range] at hf
      obtain ⟨k, hk, rfl⟩ := hf
      have := hS.base k hk
      positivity
    · rw [hf]; simp [needed]
  rw [hu, hd]

/-- **C48, times are independent.**  With the standard digital filter the entry of a time is the one of the call
with this time alone. -/
theorem C48_independent {B : Back} (hB : Pointwise B) (hm : 0 < B.m.minTime) {T : FBack} {A : DipoleArgs} {sg : ℝ}
    {ft : String} {ftarg : Args.Dict} {F : Filter} (hS : StdDlf T ft ftarg F) {arr : NdArray} (hq : A.squeeze = false)
    (h : (dipoleTime B T A (.num sg) ft ftarg).val = .ok arr) {i : ℕ} (hi : i < A.freq.length) :
    ∃ R, (dipoleTime B T { A with freq := [A.freq.getD i 0] } (.num sg) ft ftarg).val = .ok R ∧
      ∀ r s, r < numDipoles A.rcv → s < numDipoles A.src → arr.get [i, r, s] = R.get [0, r, s] := by
  have hacc : ∃ R, (dipoleTime B T { A with freq := [A.freq.getD i 0] } (.num sg) ft ftarg).val = .ok R := by
    obtain ⟨c, D, hc, -, hD, hl⟩ := (C48_accept _ _ _ _ _ _).1 ⟨_, h⟩
    obtain ⟨c', hc', ht⟩ := std_any (time' := [A.freq.getD i 0]) hS hc
    obtain ⟨D', hD'⟩ := dipole_any_freq hD c'.freq
    rw [C48_accept]
    have hP : ¬printsRows c' A.verb := fun q => by
      have := q.1.2.2.1
      rw [(checkTime_num hc').2.1] at this
      simp at this
    refine ⟨c', D', hc', hP, hD', fun r s hr hs => ?_⟩
    obtain ⟨h1, ⟨kd, a, hk, h2⟩, h3, hpos, h4⟩ := std_check hm hS hc'
    obtain ⟨-, t1, t2, t3, t4, -⟩ := checkTime_num hc'
    refine ⟨_, _, _, std_fourier h1 h2 ?_ ?_ _, rfl⟩
    · rw [usedFreq_length, h3, t1, List.length_map]
    · rw [t1]; simp
  obtain ⟨R, hR⟩ := hacc
  refine ⟨R, hR, fun r s hr hs => ?_⟩
  obtain ⟨a1, o1, -, v1⟩ := C48_standard hB hm hS h
  obtain ⟨a2, o2, -, v2⟩ := C48_standard hB hm hS hR
  obtain ⟨D1, d1, v1⟩ := v1 i hi
  obtain ⟨D2, d2, v2⟩ := v2 0 (by simp)
  simp only [hq, Bool.false_eq_true, if_false] at o1 o2
  subst o1 o2
  simp only [List.getD_cons_zero] at d2 v2
  obtain rfl : D1 = D2 := Except.ok.inj (d1.symm.trans d2)
  rw [v1 r s hr hs, v2 r s hr hs]

/-! ## Violations -/

theorem timeSteps_sign (C : Args.Conv) (lib : String → Option Args.Val) (dflt : Args.Val) (ft : String) {a b : ℝ}
    (ha : 0 < a) (hb : 0 < b) (verb : ℤ) (s : Args.St) :
    Args.timeSteps C lib dflt ft a verb s = Args.timeSteps C lib dflt ft b verb s := by
  unfold Args.timeSteps Args.kindStep Tem.isSine
  simp only [gt_iff_lt, ha, hb, ge_iff_le, ha.le, hb.le, if_true]

theorem waveOnly_signal {T : FBack} {m : Mins} {time nodes amps : List ℝ} {nq : ℕ} {verb : ℤ} {s : ℝ}
    {w : List ℝ × ℝ × Option (List ℝ → List ℝ) × ℕ}
    (h : (Time.checkTimeOnly T m time (.wave nodes amps s nq) verb).val = .ok w) (s' : ℝ) :
    (Time.checkTimeOnly T m time (.wave nodes amps s' nq) verb).val = .ok (w.1, s', w.2.2) ∧ w.2.1 = s := by
  unfold Time.checkTimeOnly at h ⊢
  simp only at h ⊢
  rw [bind_eq_ok] at h ⊢
  obtain ⟨t, ht, h⟩ := h
  rw [bind_eq_ok] at h
  obtain ⟨u, hu, h⟩ := h
  split_ifs at h with h0
  · cases h
  rw [bind_eq_ok] at h
  obtain ⟨p, hp, h⟩ := h
  split at h
  · cases h
  · rename_i ct app hca
    rw [bind_eq_ok] at h
    obtain ⟨v, hv, h⟩ := h
    obtain rfl := Except.ok.inj h
    refine ⟨⟨t, ht, ?_⟩, rfl⟩
    rw [bind_eq_ok]
    refine ⟨u, hu, ?_⟩
    rw [if_neg h0, bind_eq_ok]
    refine ⟨p, hp, ?_⟩
    rw [hca]
    simp only
    rw [bind_eq_ok]
    exact ⟨v, hv, rfl⟩

/-- **C48, violated for the signal inside a waveform.**  It is documented to be −1, 0 or 1, and checked if it is
given on its own; inside a waveform every number is accepted: 5 wherever 1 is, and then the step response is
replaced by the impulse response. -/
theorem C48_inner_signal_violated (T : FBack) (m : Mins) (time nodes amps : List ℝ) (nq : ℕ) (ft : String)
    (ftarg : Args.Dict) (verb : ℤ) {c : Checked}
    (h : (Time.checkTime T m time (.wave nodes amps 1 nq) ft ftarg verb).val = .ok c) :
    (Time.checkTime T m time (.wave nodes amps 5 nq) ft ftarg verb).val = .ok { c with signal := 5 } ∧
    (∀ time' v, (Time.checkTime T m time' (.num 5) ft ftarg v).val = .error .valueError) ∧
    ∀ e t, signalResponse 5 e t = e t := by
  refine ⟨?_, ?_, fun e t => ?_⟩
  · unfold Time.checkTime at h ⊢
    rw [bind_eq_ok] at h
    obtain ⟨w, hw, h⟩ := h
    rw [bind_eq_ok]
    have hw5 : (Time.checkTimeOnly T m time (.wave nodes amps 5 nq) verb).val = .ok (w.1, 5, w.2.2) ∧ w.2.1 = 1 := waveOnly_signal hw 5
    refine ⟨_, hw5.1, ?_⟩
    rw [bind_eq_ok] at h ⊢
    obtain ⟨r, hr, h⟩ := h
    obtain rfl := Except.ok.inj h
    refine ⟨r, ?_, rfl⟩
    rw [hw5.2] at hr
    unfold Verb.checkTime at hr ⊢
    rw [timeSteps_sign _ _ _ _ (by norm_num : (0 : ℝ) < 5) one_pos]
    exact hr
  · intro time' v
    unfold Time.checkTime Time.checkTimeOnly Verb.checkTimeOnly
    have hs : (Tem.checkSignal 5).val = .error .valueError := by
      unfold Tem.checkSignal
      rw [if_neg]
      · rfl
      · rw [trunc_mem]; norm_num
    simp only
    rw [bind_val, bind_val, bind_val, checkMin_val]
    simp only [Except.bind]
    rw [bind_val, say_val]
    simp only [Except.bind]
    rw [bind_val, hs]
    rfl
  · unfold signalResponse
    rw [if_neg (by norm_num), if_neg (by norm_num)]

/-- **C48, violated for waveforms of different lengths.**  Two amplitudes with any number of nodes are accepted;
the change between them is applied in every segment. -/
theorem C48_lengths_violated (B : Back) (T : FBack) (A : DipoleArgs) (nodes : List ℝ) (a b s : ℝ) (nq : ℕ)
    (ft : String) (ftarg : Args.Dict) (hn : nodes.length ≠ 2) :
    (dipoleTime B T A (.wave nodes [a, b] s nq) ft ftarg).val =
      (dipoleTime B T A (.wave nodes ((List.range nodes.length).map fun i : ℕ => (i : ℝ) * (b - a)) s nq)
        ft ftarg).val := by
  have : ∀ time, Time.waveForm time nodes [a, b] =
      Time.waveForm time nodes ((List.range nodes.length).map fun i : ℕ => (i : ℝ) * (b - a)) := by
    intro time
    unfold Time.waveForm
    rw [if_neg (by simpa using hn), if_pos (by simp), if_pos (by simp)]
    rfl
  unfold dipoleTime Time.checkTime Time.checkTimeOnly
  simp only [this]

/-! ## Success with the standard digital filter -/

theorem std_runs {T : FBack} {m : Mins} {time : List ℝ} {sg : ℝ} (hs : -2 < sg ∧ sg < 2) {ft : String}
    {ftarg : Args.Dict} (verb : ℤ) (hd : ∃ a G, T.dflt = .filter a G) (hm : Args.lower ft = "dlf") {a : List String}
    {F : Filter} (hF : filterFor T.lib T.dflt ftarg = some (.filter a F))
    (hp : T.C.flt ((ftarg.lookup "pts_per_dec").getD (.num (-1))) = .ok (.num 0)) {k : String}
    (hk : kindFor sg ftarg = .str k) (hk' : k = "sin" ∨ k = "cos") (ha : ∀ x ∈ ["name", "base", k, "factor"], x ∈ a) :
    ∃ c, (Time.checkTime T m time (.num sg) ft ftarg verb).val = .ok c := by
  have hv : ∀ time', ∃ r, (Verb.checkTime T.E T.C T.lib T.dflt time' sg ft ftarg verb).val = .ok r := by
    intro time'
    let s1 : Args.St := ⟨Args.popRest "dlf" (Args.popRest "kind" (Args.popRest "pts_per_dec" ftarg)),
      [("pts_per_dec", .num 0), ("kind", .str k), ("dlf", .filter a F)]⟩
    have e1 : (Args.timeSteps T.C T.lib T.dflt "dlf" sg verb ⟨ftarg, []⟩).val = .ok s1 := by
      rw [Args.timeSteps, if_pos rfl]
      refine bind_eq_ok.2 ⟨_, step_run (v := .num 0) hp, bind_eq_ok.2
        ⟨⟨Args.popRest "kind" (Args.popRest "pts_per_dec" ftarg), [("pts_per_dec", .num 0), ("kind", .str k)]⟩, ?_, ?_⟩⟩
      · unfold Args.kindStep
        simp only
        rw [Args.popVal_popRest (by decide)]
        have : (if sg > 0 then Args.Val.str "sin" else if sg < 0 then .str "cos" else
            Args.popVal "kind" (.str "sin") ftarg) = .str k := hk
        rw [this]
        simp only [hk', if_true]
        rfl
      · unfold Args.kindFilter
        have : [("pts_per_dec", Args.Val.num 0), ("kind", .str k)].lookup "kind" = some (.str k) := rfl
        simp only [this]
        unfold Args.filterStep
        simp only
        rw [Args.popVal_popRest (by decide), Args.popVal_popRest (by decide)]
        obtain ⟨b, G, hG⟩ := hd
        rw [hG] at hF ⊢
        refine bind_eq_ok.2 ⟨_, (getFilter_iff _ _ _ _ _).2 hF, bind_eq_ok.2 ⟨(), ?_, rfl⟩⟩
        unfold Args.needs
        simp only
        rw [if_pos fun x hx => ha x (by simp at hx ⊢; tauto)]
        rfl
    unfold Verb.checkTime
    simp only [bind_eq_ok, hm]
    have e2 : (Verb.info "dlf" verb s1.targ).val = .ok () :=
      info_ok verb fun _ => ⟨⟨a, F, rfl, ha _ (by simp)⟩, 0, rfl⟩
    refine ⟨_, s1, e1, (), by simpa using e2, (((Args.dlfOmega F time' 0 0 0).map fun w => w / 2 / Real.pi), s1), ?_, (),
      by simp, s1.targ, unknown_val _ _, rfl⟩
    unfold Args.timeFreq
    rw [if_pos rfl, bind_eq_ok]
    refine ⟨_, ?_, rfl⟩
    unfold Args.dlfFreq
    simp only [bind_eq_ok]
    exact ⟨F, rfl, 0, rfl, by simp⟩
  obtain ⟨r, hr⟩ := hv (time.map (cut m.minTime))
  unfold Time.checkTime Time.checkTimeOnly Verb.checkTimeOnly
  simp only [bind_eq_ok, say_val, checkMin_val, pure_val, Except.ok.injEq]
  exact ⟨_, _, ⟨_, ⟨_, rfl, (), trivial, (), (C22_accepted sg).2 hs, (), trivial, rfl⟩, rfl⟩, _, hr, rfl⟩

/-- **C48, success.**  With the standard digital filter, at least one time, and a filter that has a name, base,
factor and the coefficients that are needed, everything succeeds that succeeds in the frequency domain, if there
is one time only or nothing is printed. -/
theorem C48_standard_accept {B : Back} (hm : 0 < B.m.minTime) {T : FBack} {A : DipoleArgs} {sg : ℝ}
    (hs : -2 < sg ∧ sg < 2) {ft : String} {ftarg : Args.Dict} {F : Filter} (hS : StdDlf T ft ftarg F) {a : List String}
    (hF : filterFor T.lib T.dflt ftarg = some (.filter a F)) {k : String}
    (hk : kindFor sg ftarg = .str k) (hk' : k = "sin" ∨ k = "cos") (ha : ∀ x ∈ ["name", "base", k, "factor"], x ∈ a)
    (ht : A.freq ≠ []) (hv : A.verb ≤ 2 ∨ A.freq.length = 1) {D : NdArray} (hD : (dipole B { A with squeeze := false }).val = .ok D) :
    ∃ out, (dipoleTime B T A (.num sg) ft ftarg).val = .ok out := by
  obtain ⟨c, hc⟩ := std_runs (m := B.m) (time := A.freq) hs A.verb hS.dflt hS.method hF hS.ppd hk hk' ha
  obtain ⟨D', hD'⟩ := dipole_any_freq (f := A.freq) hD c.freq
  obtain ⟨h1, ⟨kd, a, -, h2⟩, h3, hpos, h4⟩ := std_check hm hS hc
  obtain ⟨-, t1, t2, t3, t4, -⟩ := checkTime_num hc
  rw [C48_accept]
  have hP : ¬printsRows c A.verb := fun q => by
    have := q.1.2.2.1
    have := q.2.1
    rw [t1, List.length_map] at *
    omega
  refine ⟨c, D', hc, hP, hD', fun r s hr hs => ⟨_, _, _, std_fourier h1 h2 ?_ ?_ _, rfl⟩⟩
  · rw [usedFreq_length, h3, t1, List.length_map]
  · rw [t1]; simpa using ht

/-- **C48, violated for detailed output.**  With the standard digital filter, several times and a filter of several
points, `verb=4` raises a `TypeError`, whatever else is given and whatever the call returns for `verb=2`. -/
theorem C48_verbose_violated {B : Back} {T : FBack} {A : DipoleArgs} {sg : ℝ} (hs : -2 < sg ∧ sg < 2) {ft : String}
    {ftarg : Args.Dict} {F : Filter} (hm : 0 < B.m.minTime) (hS : StdDlf T ft ftarg F) (hn : 1 < F.n)
    {a : List String} (hF : filterFor T.lib T.dflt ftarg = some (.filter a F)) {k : String}
    (hk : kindFor sg ftarg = .str k) (hk' : k = "sin" ∨ k = "cos") (ha : ∀ x ∈ ["name", "base", k, "factor"], x ∈ a)
    (ht : 1 < A.freq.length) {D : NdArray} (hD : (dipole B { A with squeeze := false }).val = .ok D) :
    (dipoleTime B T { A with verb := 4 } (.num sg) ft ftarg).val = .error .typeError ∧
    ∃ out, (dipoleTime B T { A with verb := 2 } (.num sg) ft ftarg).val = .ok out := by
  have hverb : ∀ v, ∃ D, (dipole B { A with squeeze := false, verb := v }).val = .ok D := by
    intro v
    exact ⟨D, ((C26_dipole B { A with squeeze := false }).1 v A.verb).trans hD⟩
  constructor
  · obtain ⟨c, hc⟩ := std_runs (m := B.m) (time := A.freq) hs 4 hS.dflt hS.method hF hS.ppd hk hk' ha
    obtain ⟨h1, ⟨kd, a, -, h2⟩, h3, hpos, h4⟩ := std_check hm hS hc
    obtain ⟨-, t1, -⟩ := checkTime_num hc
    have hP : printsRows c 4 := by
      have tl : c.time.length = A.freq.length := by rw [t1, List.length_map]
      refine ⟨⟨h1, by rw [h2]; rfl, by omega, ?_⟩, by norm_num, Or.inr (by norm_num)⟩
      rw [h3, tl]
      nlinarith
    obtain ⟨D', hD'⟩ := hverb 4
    obtain ⟨⟨mo, hmo⟩, -⟩ := (C44_accept _ _).1.1 ⟨_, hD'⟩
    unfold dipoleTime
    rw [bind_val]
    simp only
    rw [hc]
    simp only [Except.bind]
    rw [if_pos hP, bind_val]
    simp only at hmo
    rw [hmo]
    rfl
  · obtain ⟨D', hD'⟩ := hverb 2
    exact C48_standard_accept hm hs hS hF hk hk' ha (A := { A with verb := 2 })
      (fun q => by simp only at q; rw [q] at ht; simp at ht) (Or.inl le_rfl) hD'

/-- **C48, success with a waveform.**  The same for a waveform, as soon as it has a quadrature point and a segment
with a change of current that starts before one of the times. -/
theorem C48_wave_accept {B : Back} (hm : 0 < B.m.minTime) {T : FBack} {A : DipoleArgs} {sg : ℝ}
    (hs : -2 < sg ∧ sg < 2) {nodes amps : List ℝ} {nq : ℕ} (hn : nodes.length = amps.length) (hq : nq ≠ 0)
    (hQ : 0 < (T.gauss nq).n) {seg : Waveform.Seg} (h1 : seg ∈ Waveform.segments nodes amps) (h2 : seg.slope ≠ 0)
    {t : ℝ} (h3 : t ∈ A.freq) (h4 : seg.a < t) {ft : String} {ftarg : Args.Dict} {F : Filter}
    (hS : StdDlf T ft ftarg F) {a : List String}
    (hF : filterFor T.lib T.dflt ftarg = some (.filter a F)) {k : String}
    (hk : kindFor sg ftarg = .str k) (hk' : k = "sin" ∨ k = "cos") (ha : ∀ x ∈ ["name", "base", k, "factor"], x ∈ a)
    (hv : A.verb ≤ 2) {D : NdArray} (hD : (dipole B { A with squeeze := false }).val = .ok D) :
    ∃ out, (dipoleTime B T A (.wave nodes amps sg nq) ft ftarg).val = .ok out := by
  have hcut : cut B.m.minTime = fun x => max x B.m.minTime := by funext x; exact cut_eq _ x
  obtain ⟨⟨ct, app⟩, hw⟩ := Option.ne_none_iff_exists'.1 fun q =>
    absurd ((C23_raises (T.gauss nq) hQ B.m.minTime (A.freq.map (cut B.m.minTime)) nodes amps).1 q seg h1 _
      (List.mem_map_of_mem h3) h2) (not_le.2 (by rw [hcut]; exact lt_max_of_lt_left h4))
  obtain ⟨ht0, ht1⟩ := C23_times _ _ _ _ _ _ _ hw
  have hct : ct.map (max · B.m.minTime) = ct := by
    conv_rhs => rw [← List.map_id ct]
    exact List.map_congr_left fun x hx => max_eq_left (ht1 x hx)
  obtain ⟨c, hc⟩ := std_runs (m := B.m) (time := ct) hs A.verb hS.dflt hS.method hF hS.ppd hk hk' ha
  obtain ⟨e1, ⟨kd, a, -, e2⟩, e3, hpos, e4⟩ := std_check hm hS hc
  obtain ⟨-, t1, t2, t3, t4, t5⟩ := checkTime_num hc
  rw [hct] at t1
  rw [t1] at t5
  have hc' : (Time.checkTime T B.m A.freq (.wave nodes amps sg nq) ft ftarg A.verb).val =
      .ok { c with wave := some app, ntime := A.freq.length } := by
    unfold Time.checkTime Time.checkTimeOnly
    simp only [bind_eq_ok, checkMin_val, say_val, Except.ok.injEq, if_neg hq]
    refine ⟨(ct, sg, some app, A.freq.length), ⟨_, rfl, (), trivial, (nodes, amps), ?_, ?_⟩, _, t5, ?_⟩
    · unfold Time.waveForm; rw [if_pos hn]; rfl
    · simp only [hw, bind_eq_ok, say_val]
      exact ⟨(), trivial, by simp⟩
    · rw [← t1, ← t2]; rfl
  obtain ⟨D', hD'⟩ := dipole_any_freq (f := A.freq) hD c.freq
  rw [C48_accept]
  refine ⟨_, D', hc', fun q => by have := q.2.1; omega, hD', fun r s hr hs => ⟨_, _, _, std_fourier
    (c := { c with wave := some app, ntime := A.freq.length }) e1 e2 ?_ ?_ _, rfl⟩⟩
  · rw [usedFreq_length, e3]; simp only [t1]
  · simp only [t1]; exact ht0

/-! ## Verbosity -/

theorem quiet_reindex {α : Type} {f : ℤ → W α} (h : Quiet f) {g : ℤ → ℤ} (hg : ∀ v ≤ 0, g v ≤ 0) :
    Quiet fun v => f (g v) :=
  ⟨fun _ _ => h.1 _ _, fun v hv => h.2 _ (hg v hv)⟩

theorem min_two : ∀ v : ℤ, v ≤ 0 → min v 2 ≤ 0 := fun v hv => (min_le_left v 2).trans hv

theorem quiet_checkTime (T : FBack) (m : Mins) (time : List ℝ) (sig : Signal) (ft : String) (ftarg : Args.Dict) :
    Quiet fun v => Time.checkTime T m time sig ft ftarg (min v 2) := by
  have h2 : ∀ s, Quiet fun v => W.say (min v 2 > 2) s := fun s => Quiet.say fun v hv => by
    have := min_two v hv; omega
  have h1 : ∀ t s, Quiet fun v => Verb.checkTime T.E T.C T.lib T.dflt t s ft ftarg (min v 2) := fun t s =>
    Quiet.congr (fun v => time_low (min_le_right v 2) _ _ _ _ _ _ _ _)
      (quiet_reindex (C26_time_args T.E T.C T.lib T.dflt t s ft ftarg) min_two)
  unfold Time.checkTime
  refine Quiet.bind ?_ fun _ => Quiet.bind (h1 _ _) fun _ => Quiet.pure _
  unfold Time.checkTimeOnly
  cases sig with
  | num s =>
    exact Quiet.bind (quiet_reindex (C26_checks m (.int 11) none "" 0 time s).2.2.2 min_two) fun _ => Quiet.pure _
  | wave nodes amps s nq =>
    refine Quiet.bind (Quiet.bind (Quiet.say fun v h hc => absurd hc.1 (by have := min_two v h; omega))
      fun _ => Quiet.pure _) fun _ => Quiet.bind (h2 _) fun _ => ?_
    by_cases h0 : nq = 0
    · simp only [if_pos h0]; exact Quiet.raise _
    · simp only [if_neg h0]
      refine Quiet.bind (Quiet.const rfl) fun _ => ?_
      split
      · exact Quiet.raise _
      · exact Quiet.bind (h2 _) fun _ => Quiet.pure _

theorem quiet_temStep (T : FBack) (c : Checked) (freq : List ℝ) (noff : ℕ) (x : ℕ → ℕ → ℂ) :
    Quiet fun v => temStep T c v freq noff x := by
  unfold temStep
  split
  · exact Quiet.raise _
  · exact Quiet.bind (Quiet.say fun _ h hc => absurd hc.1 (by omega)) fun _ => Quiet.pure _

theorem quiet_temStepB (T : FBack) (c : Checked) (freq : List ℝ) (noff : ℕ) (x : ℕ → ℕ → ℂ) :
    Quiet fun v => temStepB T c v freq noff x := by
  unfold temStepB
  split
  · exact Quiet.raise _
  · exact quiet_temStep _ _ _ _ _

theorem no_rows (c : Checked) (v : ℤ) : ¬printsRows c (min v 2) := fun q => by
  have := q.2.1
  have := min_le_right v 2
  omega

/-- **C48, verbosity.**  Up to `verb=2` array and exception do not depend on it, and nothing is printed for
`verb ≤ 0`. -/
theorem C48_verbosity (B : Back) (T : FBack) (A : DipoleArgs) (sig : Signal) (ft : String) (ftarg : Args.Dict) :
    Quiet fun v => dipoleTime B T { A with verb := min v 2 } sig ft ftarg := by
  unfold dipoleTime
  refine Quiet.bind (quiet_checkTime _ _ _ _ _ _) fun c => ?_
  simp only [if_neg (no_rows c _)]
  refine Quiet.bind ?_ fun EM => Quiet.congr
    (g := fun _ => pure (if A.squeeze then EM.squeeze else EM)) (fun _ => rfl) (Quiet.pure _)
  unfold dipoleWith dipoleTail
  dsimp only
  refine Quiet.bind (quiet_reindex (quiet_checkModel _ _ _ _ _ _ _ _ _) min_two) fun _ =>
    Quiet.bind (quiet_reindex (quiet_checkFrequency _ _ _ _ _ _ _ _) min_two) fun _ =>
    Quiet.bind (Quiet.const rfl) fun _ => Quiet.bind (Quiet.const rfl) fun _ =>
    Quiet.bind (Quiet.const rfl) fun _ =>
    Quiet.bind (Quiet.say fun v h hc => absurd hc.1 (by have := min_two v h; omega)) fun _ =>
    Quiet.bind (quiet_reindex (quiet_temStep _ _ _ _ _) min_two) fun _ => Quiet.const ?_
  split <;> rfl

/-- **C48, verbosity of `bipole`.** -/
theorem C48_bipole_verbosity (B : Back) (T : FBack) (e : Ext) (A : BipoleArgs) (sig : Signal) (ft : String)
    (ftarg : Args.Dict) : Quiet fun v => bipoleTime B T e { A with verb := min v 2 } sig ft ftarg := by
  unfold bipoleTime
  refine Quiet.bind (quiet_checkTime _ _ _ _ _ _) fun c => ?_
  simp only [if_neg (no_rows c _)]
  refine Quiet.bind ?_ fun EM => Quiet.congr
    (g := fun _ => pure (if A.squeeze then EM.squeeze else EM)) (fun _ => rfl) (Quiet.pure _)
  unfold bipoleWith bipoleTail
  dsimp only
  refine Quiet.bind (quiet_reindex (quiet_checkModel _ _ _ _ _ _ _ _ _) min_two) fun _ =>
    Quiet.bind (quiet_reindex (quiet_checkFrequency _ _ _ _ _ _ _ _) min_two) fun _ =>
    Quiet.bind (Quiet.const rfl) fun src => Quiet.bind (Quiet.const rfl) fun rcv =>
    Quiet.bind (Quiet.congr (g := fun v => temStepB T c (min v 2) _ _ fun i => bipoleRow
      (setupAt B e { A with freq := c.freq } _ _ src.2 rcv.2 i) src.1 rcv.1 A.srcpts A.recpts) (fun _ => rfl)
      (quiet_reindex (quiet_temStepB _ _ _ _ _) min_two)) fun _ => Quiet.const rfl

/-- **C26** for `bipole` in the frequency domain. -/
theorem C26_bipole (B : Back) (e : Ext) (A : BipoleArgs) : Quiet fun v => bipole B e { A with verb := v } := by
  unfold bipole
  refine Quiet.bind ?_ fun EM => Quiet.congr
    (g := fun _ => pure (if A.squeeze then EM.squeeze else EM)) (fun _ => rfl) (Quiet.pure _)
  unfold bipoleFull bipoleWith bipoleTail Model.inFreq
  dsimp only
  exact Quiet.bind (quiet_checkModel _ _ _ _ _ _ _ _ _) fun _ =>
    Quiet.bind (quiet_checkFrequency _ _ _ _ _ _ _ _) fun _ =>
    Quiet.bind (Quiet.const rfl) fun _ => Quiet.bind (Quiet.const rfl) fun _ =>
    Quiet.bind (Quiet.congr (g := fun _ => pure (_, fun i => bipoleRow (setupAt B e A _ _ _ _ i) _ _ _ _))
      (fun _ => rfl) (Quiet.pure _)) fun _ => Quiet.pure _

/-! ## Examples -/

/-- A filter with two points. -/
noncomputable def twoPoint : Filter := ⟨2, fun k => if k = 0 then 1 else 3, 3, 0, 0, fun k => k + 1, fun k => 5 * k⟩

/-- No library; the default is the filter with two points. -/
noncomputable def twoBack (E : Args.Env) (R : RSpl) : FBack where
  E := E
  C := numbersOnly
  lib := fun _ => none
  dflt := .filter ["name", "base", "sin", "cos", "factor"] twoPoint
  gauss := fun n => ⟨n, 0, fun _ => 2 / n⟩
  R := R
  quad := fun _ _ _ _ _ _ => (0, true)
  tiny := 0
  big := 1
  zero := fun _ => false
  lgam := id

theorem twoBack_std (E : Args.Env) (R : RSpl) : StdDlf (twoBack E R) "DLF" [("pts_per_dec", .num 0)] twoPoint where
  dflt := ⟨_, _, rfl⟩
  method := by decide
  filter := ⟨_, rfl⟩
  ppd := rfl
  npos := by norm_num [twoPoint]
  base k _ := by simp only [twoPoint]; split_ifs <;> norm_num

/-- The marine case at the times `t`, all axes kept. -/
noncomputable def marineTime (t : List ℝ) : DipoleArgs := { marineArgs with freq := t, squeeze := false }

theorem marine_runs (Q : ℝ → (ℝ → ℂ) → ℂ) (t : List ℝ) : ∃ D, (dipole (ruleBack Q) (marineTime t)).val = .ok D := by
  obtain ⟨D0, hD0, -⟩ := C44_dipole (B := ruleBack fun _ g => ∫ lam in Set.Ioi (0 : ℝ), g lam)
    (by norm_num [ruleBack, Mins.init]) (by norm_num [ruleBack, Mins.init]) (by norm_num [ruleBack, Mins.init])
    safe_exact exact_rule (ruleBack_uses _) (A := marineArgs)
    (U := marine) marine_valid marine_describes
    (a := 2) (b := 4) (by norm_num) (by norm_num) rfl (xs := [0]) (ys := [0]) (zs := 950)
    (xr := [1000, 2000, 3000]) (yr := [0]) (zr := 1000) rfl rfl (by simp) (by simp)
    (by simp [numDipoles, marineArgs]) (by simp [numDipoles, marineArgs])
  obtain ⟨⟨mo, h1⟩, h2, h3, h4, h5, h6⟩ := (C44_accept _ marineArgs).1.1 ⟨_, hD0⟩
  exact (C44_accept (ruleBack Q) (marineTime t)).1.2 ⟨⟨mo, h1⟩, h2, h3, h4, h5, h6⟩

theorem marineTime_n (t : List ℝ) : numDipoles (marineTime t).rcv = 3 ∧ numDipoles (marineTime t).src = 1 := by
  simp [numDipoles, marineArgs, marineTime]

/-- The marine case at 0.5 s and 4 s, switch-off: three receivers; the entry at 4 s and 2 km is the filter sum of
the real parts of the two values at 1/(8π) and 3/(8π) Hz times i/ω, and it is the one of the call with 4 s alone. -/
example (E : Args.Env) (R : RSpl) (Q : ℝ → (ℝ → ℂ) → ℂ) :
    ∃ arr S D, (dipoleTime (ruleBack Q) (twoBack E R) (marineTime [0.5, 4]) (.num (-1))
        "DLF" [("pts_per_dec", .num 0)]).val = .ok arr ∧
      (dipoleTime (ruleBack Q) (twoBack E R) (marineTime [4]) (.num (-1))
        "DLF" [("pts_per_dec", .num 0)]).val = .ok S ∧
      (dipole (ruleBack Q) (marineTime (needed twoPoint 4))).val = .ok D ∧
      arr.shape = [2, 3, 1] ∧ arr.get [1, 1, 0] = S.get [0, 1, 0] ∧
      S.get [0, 1, 0] = ((2 / Real.pi / 4 * (5 * (D.get [1, 1, 0] *
        Tem.scale (-1) (max (3 / 4 / (2 * Real.pi)) 1e-20)).re) : ℝ) : ℂ) := by
  have hB : Pointwise (ruleBack Q) := (ruleBack_uses Q).pointwise
  have hmt : (ruleBack Q).m.minTime = 1e-20 := rfl
  have hm : 0 < (ruleBack Q).m.minTime := by rw [hmt]; norm_num
  have hmf : (ruleBack Q).m.minFreq = 1e-20 := rfl
  obtain ⟨D1, hD1⟩ := marine_runs Q [0.5, 4]
  obtain ⟨arr, h⟩ := C48_standard_accept (sg := -1) hm (by norm_num) (twoBack_std E R)
    (a := ["name", "base", "sin", "cos", "factor"]) rfl (k := "cos")
    (A := marineTime [0.5, 4])
    (by unfold kindFor; norm_num) (Or.inr rfl) (by decide) (by simp [marineTime]) (Or.inl (by simp [marineTime, marineArgs])) hD1
  have kc : kindFor (-1) [("pts_per_dec", .num 0)] ≠ .str "sin" := by
    unfold kindFor; norm_num; decide
  obtain ⟨S, hS, hv⟩ := C48_independent hB hm (twoBack_std E R) rfl h (i := 1) (by simp [marineTime])
  obtain ⟨a1, o1, sh1, -⟩ := C48_standard hB hm (twoBack_std E R) h
  obtain ⟨a2, o2, sh2, v2⟩ := C48_standard hB hm (twoBack_std E R) hS
  have q1 : (marineTime [0.5, 4]).squeeze = false := rfl
  simp only [q1, Bool.false_eq_true, if_false] at o1 o2
  subst o1 o2
  obtain ⟨n1, n2⟩ := marineTime_n [0.5, 4]
  obtain ⟨D, hD, w⟩ := v2 0 (by simp)
  have e4 : max (List.getD [List.getD (marineTime [0.5, 4]).freq 1 0] 0 0) (ruleBack Q).m.minTime = 4 := by
    rw [hmt]; norm_num [marineTime]
  simp only [e4] at hD w
  have hw := w 1 0 (by omega) (by omega)
  refine ⟨_, _, D, h, hS, hD, ?_, hv 1 0 (by omega) (by omega), ?_⟩
  · rw [sh1, n1, n2]; rfl
  · rw [hw]
    simp only [if_neg kc, twoPoint, hmf, Finset.sum_range_succ, Finset.sum_range_zero]
    norm_num
    try ring_nf

/-- The two times with `verb=4`: a `TypeError`. -/
example (E : Args.Env) (R : RSpl) (Q : ℝ → (ℝ → ℂ) → ℂ) :
    (dipoleTime (ruleBack Q) (twoBack E R) { marineTime [0.5, 4] with verb := 4 } (.num (-1))
        "DLF" [("pts_per_dec", .num 0)]).val = .error .typeError := by
  obtain ⟨D1, hD1⟩ := marine_runs Q [0.5, 4]
  exact (C48_verbose_violated (sg := -1) (by norm_num) (by norm_num [ruleBack, Mins.init]) (twoBack_std E R)
    (by simp [twoPoint]) (a := ["name", "base", "sin", "cos", "factor"]) rfl (k := "cos")
    (A := marineTime [0.5, 4]) (by unfold kindFor; norm_num) (Or.inr rfl) (by decide) (by simp [marineTime]) hD1).1

/-- The waveform that goes from zero to one ampere within a second, at 4 s with switch-on inside: it is
accepted, and the entries are the sums over its one segment. -/
example (E : Args.Env) (R : RSpl) (Q : ℝ → (ℝ → ℂ) → ℂ) :
    ∃ ct arr S, (dipoleTime (ruleBack Q) (twoBack E R) (marineTime [4]) (.wave [0, 1] [0, 1] 1 3) "dlf"
        [("pts_per_dec", .num 0)]).val = .ok arr ∧
      (dipoleTime (ruleBack Q) (twoBack E R) (marineTime ct) (.num 1) "dlf" [("pts_per_dec", .num 0)]).val = .ok S ∧
      arr.shape = [1, 3, 1] ∧ ∀ r < 3, ∀ g : ℝ → ℝ,
        (∀ j < ct.length, S.get [j, r, 0] = ((g (ct.getD j 0) : ℝ) : ℂ)) →
        arr.get [0, r, 0] = ((contribution ⟨3, 0, fun _ => 2 / (3 : ℕ)⟩ (fun x => g (max x 1e-20)) 4 ⟨0, 1, 1⟩ : ℝ) : ℂ) := by
  have hmt : (ruleBack Q).m.minTime = 1e-20 := rfl
  have hm : 0 < (ruleBack Q).m.minTime := by rw [hmt]; norm_num
  have hS : StdDlf (twoBack E R) "dlf" [("pts_per_dec", .num 0)] twoPoint :=
    { twoBack_std E R with method := by decide }
  have hseg : Waveform.segments [0, 1] [0, 1] = [⟨0, 1, 1⟩] := by simp [Waveform.segments]
  obtain ⟨D1, hD1⟩ := marine_runs Q [4]
  obtain ⟨out, h⟩ := C48_wave_accept (sg := 1) (nodes := [0, 1]) (amps := [0, 1]) (nq := 3) hm (by norm_num) rfl
    (by norm_num) (by simp [twoBack]) (seg := ⟨0, 1, 1⟩) (by simp [hseg]) (by norm_num) (A := marineTime [4]) (t := 4)
    (by simp [marineTime]) (by norm_num) hS (a := ["name", "base", "sin", "cos", "factor"]) rfl (k := "sin")
    (by unfold kindFor; norm_num) (Or.inl rfl) (by decide) (by simp [marineTime, marineArgs]) hD1
  obtain ⟨ct, arr, S, -, -, h1, h2, h3, h4⟩ := C48_waveform rfl (by norm_num) h
  obtain ⟨n1, n2⟩ := marineTime_n [4]
  have q1 : (marineTime [4]).squeeze = false := rfl
  simp only [q1, Bool.false_eq_true, if_false] at h2
  subst h2
  refine ⟨ct, _, S, h, h1, by rw [h3, n1, n2]; rfl, fun r hr g hg => ?_⟩
  rw [h4 r 0 (by omega) (by omega) g hg 0 (by simp [marineTime]), hseg, hmt]
  have e4 : max (List.getD (marineTime [4]).freq 0 0) (1e-20 : ℝ) = 4 := by norm_num [marineTime]
  rw [e4]
  simp [twoBack]

/-- A filter with one point that is exact for the impulse response `t e⁻ᵗ` at one second. -/
noncomputable def onePoint : Filter := ⟨1, fun _ => 1, 3, 0, 0, fun _ => Real.pi * Real.exp (-1), 0⟩

/-- A transform that is exact for a spectrum (of `t e⁻ᵗ`, at one second, from the value at ω = 1). -/
example (T : FBack) : ExactFourier T ⟨[1], [1 / (2 * Real.pi)], "dlf",
    [("pts_per_dec", .num 0), ("kind", .str "sin"), ("dlf", .filter [] onePoint)], 0, none, 1⟩
    [1 / (2 * Real.pi)] true (scaled 0 fun t => t * Real.exp (-t)) := by
  intro x hx
  refine ⟨true, ?_⟩
  rw [std_fourier (k := "sin") (a := []) (F := onePoint) rfl rfl rfl (by simp)]
  have h0 := hx 0 (by simp)
  have h1 : (2 * Real.pi * List.getD [1 / (2 * Real.pi)] 0 0 : ℝ) = 1 := by
    simp only [List.getD_cons_zero]; field_simp
  have h2 : scaled 0 (fun t : ℝ => t * Real.exp (-t)) 1 = -(Complex.I / 2) := by
    unfold scaled
    rw [scale_impulse (by norm_num) (by norm_num), tExp_spectrum]
    have : (1 + Complex.I * ((1 : ℝ) : ℂ)) ^ 2 = 2 * Complex.I := by
      push_cast; ring_nf; rw [Complex.I_sq]; ring
    rw [this, mul_one, div_mul_eq_div_div, Complex.div_I]; ring
  rw [h1, h2] at h0
  have h3 := fourier_impulse tExp_impulse (s := 0) (by norm_num) (by norm_num) true one_pos
  have h4 : fourierInt true (scaled 0 fun t => t * Real.exp (-t)) 1 = Real.pi * Real.exp (-1) / 2 := by
    have := Real.pi_pos
    field_simp at h3 ⊢
    linarith
  simp [onePoint, h0, h4]
  ring

end Verif.Props
