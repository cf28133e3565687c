import Verif.Model.DipoleKFull
import Verif.Props.C38_DipoleK
import Verif.Props.C44_Dipole

/-!
# C54: `dipole_k` from its arguments

`PJ0` and `PJ1` as returned for what the user passes: which arguments are accepted, which pair, frequency and wavenumber
an entry belongs to, and that `PJ0 J0 + PJ1 J1` is the spectrum of the exact solution of Maxwell's equations in the
medium the user describes.  `dipole` with a digital filter is the filter sum of what `dipole_k` returns.
-/

namespace Verif.Props
open Verif.Py Verif.Py.W Verif.Utils Verif.Spec Verif.Model Verif.Kernel Verif.Lemmas Verif.Transform

/-! ## Shapes -/

/-- Which arrays of wavenumbers `dipole_k` takes with `n` source-receiver pairs: one dimension; two dimensions and one
pair; else one row, or as many rows as pairs with at most one column. -/
def WaveFits : KWave → ℕ → Prop
  | .bare, _ => False
  | .array (.vec _), _ => True
  | .array (.mat r c _), n => n = 1 ∨ ((r = 1 ∨ r = n) ∧ (r = 1 ∨ c ≤ 1))

theorem bcDim_none {n r : ℕ} (h1 : r ≠ 1) (h2 : r ≠ n) (h3 : n ≠ 1) : bcDim n r = none := by
  unfold bcDim
  rw [if_neg (Ne.symm h2), if_neg h3, if_neg h1]

theorem bcDim_self (n : ℕ) : bcDim n n = some n := by unfold bcDim; rw [if_pos rfl]

theorem cols_iff (r c : ℕ) : (c = r * c ∨ c = 1) ↔ (r = 1 ∨ c ≤ 1) := by
  constructor
  · rintro (h | h)
    · rcases Nat.eq_zero_or_pos c with h0 | h0
      · right; omega
      · left
        have : r * c = 1 * c := by omega
        exact Nat.eq_of_mul_eq_mul_right h0 this
    · right; omega
  · rintro (h | h)
    · left; rw [h, Nat.one_mul]
    · rcases Nat.le_one_iff_eq_zero_or_eq_one.1 h with h | h
      · left; rw [h, Nat.mul_zero]
      · right; exact h

/-- The calculation returns arrays exactly if the wavenumbers fit, or if the field is zero. -/
theorem core_accept (S : KSetup) (w : WaveArg) (ab : ℤ) (c : ℕ × Bool × Bool) :
    ((∃ P, dipoleKCore S w ab c = .ok P) ↔ c.1 = 36 ∨ WaveFits (.array w) S.noff) ∧
    ∀ e, dipoleKCore S w ab c = .error e → e = .valueError := by
  obtain ⟨abc, ms, mr⟩ := c
  by_cases h36 : abc = 36
  · subst h36
    have : dipoleKCore S w ab (36, ms, mr) = .ok (_, _) := rfl
    rw [this]
    exact ⟨⟨fun _ => Or.inl rfl, fun _ => ⟨_, rfl⟩⟩, fun e he => by cases he⟩
  have h36' : abc ∉ [36] := by simpa using h36
  simp only [h36, false_or]
  cases w with
  | vec l =>
    have : ∃ P, dipoleKCore S (.vec l) ab (abc, ms, mr) = .ok P := by
      by_cases c0 : abc ∈ [11, 22, 24, 15, 33] <;> by_cases c1 : abc ∈ [33] <;>
        by_cases c2 : abc ∈ [11, 12, 21, 22, 14, 24, 15, 25] <;>
        by_cases c3 : ab ∈ ([11, 12, 21, 22, 14, 24, 15, 25] : List ℤ) <;>
      · simp only [dipoleKCore, KSetup.kernels, WaveArg.atleast2d, WaveArg.size, scaleRows, bcDim_one, addInto,
          divRows, c0, c1, c2, c3, if_true, if_false, h36', not_false_eq_true, not_true_eq_false, true_or, or_true,
          and_self, bind, Except.bind, pure, Except.pure]
        exact ⟨_, rfl⟩
    obtain ⟨P, hP⟩ := this
    rw [hP]
    exact ⟨⟨fun _ => trivial, fun _ => ⟨_, rfl⟩⟩, fun e he => by cases he⟩
  | mat r c v =>
    by_cases h1 : S.noff = 1
    · have : ∃ P, dipoleKCore S (.mat r c v) ab (abc, ms, mr) = .ok P := by
        by_cases c0 : abc ∈ [11, 22, 24, 15, 33] <;> by_cases c1 : abc ∈ [33] <;>
          by_cases c2 : abc ∈ [11, 12, 21, 22, 14, 24, 15, 25] <;>
          by_cases c3 : ab ∈ ([11, 12, 21, 22, 14, 24, 15, 25] : List ℤ) <;>
        · simp only [dipoleKCore, KSetup.kernels, WaveArg.atleast2d, WaveArg.size, scaleRows, one_bcDim, addInto,
            divRows, c0, c1, c2, c3, if_true, if_false, h36', not_false_eq_true, not_true_eq_false, true_or, or_true,
            and_self, bind, Except.bind, pure, Except.pure, h1]
          exact ⟨_, rfl⟩
      obtain ⟨P, hP⟩ := this
      rw [hP]
      exact ⟨⟨fun _ => Or.inl h1, fun _ => ⟨_, rfl⟩⟩, fun e he => by cases he⟩
    have hw : WaveFits (.array (.mat r c v)) S.noff ↔ (r = 1 ∨ r = S.noff) ∧ (c = r * c ∨ c = 1) := by
      rw [cols_iff]
      simp only [WaveFits, h1, false_or]
    rw [hw]
    have hrow : r = 1 ∨ r = S.noff → bcDim S.noff r = some S.noff := by
      rintro (h | h)
      · rw [h, bcDim_one]
      · rw [h, bcDim_self]
    by_cases hc : c = r * c ∨ c = 1
    · by_cases hr : r = 1 ∨ r = S.noff
      · have hr' : r = S.noff ∨ r = 1 := hr.symm
        have : ∃ P, dipoleKCore S (.mat r c v) ab (abc, ms, mr) = .ok P := by
          by_cases c0 : abc ∈ [11, 22, 24, 15, 33] <;> by_cases c1 : abc ∈ [33] <;>
            by_cases c2 : abc ∈ [11, 12, 21, 22, 14, 24, 15, 25] <;>
            by_cases c3 : ab ∈ ([11, 12, 21, 22, 14, 24, 15, 25] : List ℤ) <;>
          · simp only [dipoleKCore, KSetup.kernels, WaveArg.atleast2d, WaveArg.size, scaleRows, hrow hr, addInto,
              divRows, c0, c1, c2, c3, if_true, if_false, h36', not_false_eq_true, not_true_eq_false, true_or, or_true,
              and_self, bind, Except.bind, pure, Except.pure, h1, hc, hr', true_and]
            exact ⟨_, rfl⟩
        obtain ⟨P, hP⟩ := this
        rw [hP]
        exact ⟨⟨fun _ => ⟨hr, hc⟩, fun _ => ⟨_, rfl⟩⟩, fun e he => by cases he⟩
      · have hn : bcDim S.noff r = none := bcDim_none (fun h => hr (Or.inl h)) (fun h => hr (Or.inr h)) h1
        have hr' : ¬ (r = S.noff ∨ r = 1) := fun h => hr h.symm
        have : dipoleKCore S (.mat r c v) ab (abc, ms, mr) = .error .valueError := by
          by_cases c1 : abc ∈ [33]
          · have c0 : abc ∈ [11, 22, 24, 15, 33] := by simp at c1; simp [c1]
            simp only [dipoleKCore, KSetup.kernels, WaveArg.atleast2d, WaveArg.size, addInto, c0, c1, if_true, if_false,
              h36', not_false_eq_true, not_true_eq_false, bind, Except.bind, pure, Except.pure, h1, hr', false_and,
              and_false]
          · simp only [dipoleKCore, KSetup.kernels, WaveArg.atleast2d, WaveArg.size, scaleRows, hn, c1, if_true,
              if_false, h36', not_false_eq_true, bind, Except.bind, pure, Except.pure, h1]
        rw [this]
        exact ⟨⟨fun ⟨_, h⟩ => (by cases h), fun h => absurd h.1 hr⟩, fun e he => (Except.error.inj he).symm⟩
    · have : dipoleKCore S (.mat r c v) ab (abc, ms, mr) = .error .valueError := by
        by_cases c1 : abc ∈ [33]
        · have c0 : abc ∈ [11, 22, 24, 15, 33] := by simp at c1; simp [c1]
          simp only [dipoleKCore, KSetup.kernels, WaveArg.atleast2d, WaveArg.size, addInto, c0, c1, if_true, if_false,
            h36', not_false_eq_true, not_true_eq_false, bind, Except.bind, pure, Except.pure, h1, hc, and_false]
        · simp only [dipoleKCore, KSetup.kernels, WaveArg.atleast2d, WaveArg.size, scaleRows, c1, if_true,
            if_false, h36', not_false_eq_true, bind, Except.bind, pure, Except.pure, h1, addInto]
          cases bcDim S.noff r with
          | none => rfl
          | some q => simp only [hc, and_false, if_false]
      rw [this]
      exact ⟨⟨fun ⟨_, h⟩ => (by cases h), fun h => absurd h.2 hc⟩, fun e he => (Except.error.inj he).symm⟩

theorem dipoleKArr_iff (m : Mins) (o : Ops) (junk : ℕ → ℝ) (A : KArgs) (P : Arr3 × Arr3) :
    (dipoleKArr m o junk A).val = .ok P ↔ ∃ mo fo c src rcv w,
      (checkModel m A.depth A.res A.aniso A.epermH A.epermV A.mpermH A.mpermV (some false) A.verb).val = .ok mo ∧
      (checkFrequency m A.freq mo.res mo.aniso mo.epermH mo.epermV mo.mpermH mo.mpermV A.verb).val = .ok fo ∧
      checkAb A.ab = .ok c ∧ checkDipole A.src = .ok src ∧ checkDipole A.rcv = .ok rcv ∧ A.wavenumber = .array w ∧
      dipoleKCore (kSetup m o junk mo fo src rcv) w (codeOf A.ab) c = .ok P := by
  unfold dipoleKArr
  simp only [bind_eq_ok, Model.ofExcept]
  constructor
  · rintro ⟨mo, h1, fo, h2, c, h3, src, h4, rcv, h5, h6⟩
    cases hw : A.wavenumber with
    | bare => rw [hw] at h6; cases h6
    | array w =>
      rw [hw] at h6
      exact ⟨mo, fo, c, src, rcv, w, h1, h2, h3, h4, h5, rfl, h6⟩
  · rintro ⟨mo, fo, c, src, rcv, w, h1, h2, h3, h4, h5, h6, h7⟩
    refine ⟨mo, h1, fo, h2, c, h3, src, h4, rcv, h5, ?_⟩
    rw [h6]
    exact h7

theorem dipoleKFull_ok {m : Mins} {o : Ops} {junk : ℕ → ℝ} {A : KArgs} {P : Arr3 × Arr3}
    (h : (dipoleKArr m o junk A).val = .ok P) :
    (dipoleKFull m o junk A).val = .ok (P.1.nd.squeeze, P.2.nd.squeeze) := by
  unfold dipoleKFull
  rw [bind_ok h]
  rfl

/-! ## Acceptance -/

/-- The arguments `dipole_k` has in common with `dipole`; `xdirect` is `False`. -/
def toDipole (A : KArgs) : DipoleArgs where
  src := A.src
  rcv := A.rcv
  depth := A.depth
  res := A.res
  freq := A.freq
  ab := A.ab
  aniso := A.aniso
  epermH := A.epermH
  epermV := A.epermV
  mpermH := A.mpermH
  mpermV := A.mpermV
  xdirect := some false
  loop := none
  squeeze := true
  verb := A.verb

theorem checkModel_error {m : Mins} {d : Option (List EReal)} {res : ResArg}
    {aniso epermH epermV mpermH mpermV : Option (List ℝ)} {xd : Option Bool} {verb : ℤ} {e : PyErr}
    (h : (checkModel m d res aniso epermH epermV mpermH mpermV xd verb).val = .error e) : e = .valueError := by
  have := (C44_accept (Back.mk m Ops.exact csqrt "quad" 0 (fun _ _ _ _ _ _ _ _ _ _ => ⟨fun _ _ => 0, 1, true⟩) fun _ => 0)
    ⟨[], [], d, res, [], .int 11, aniso, epermH, epermV, mpermH, mpermV, xd, none, false, verb⟩).2 e (by
      unfold Model.dipole dipoleFull dipoleWith
      rw [bind_val, bind_val, h]
      rfl)
  rcases this with h | ⟨-, h⟩
  · exact h
  · cases h

theorem checkAb_error {ab : AbArg} {e : PyErr} (h : checkAb ab = .error e) :
    e = .valueError ∨ (e = .typeError ∧ ab = .other) := by
  have hi : ∀ n, checkAbInt n = .error e → e = .valueError := by
    intro n h
    unfold checkAbInt at h
    split_ifs at h
    exact (Except.error.inj h).symm
  cases ab with
  | other => exact Or.inr ⟨(Except.error.inj h).symm, rfl⟩
  | int n => exact Or.inl (hi n h)
  | float x => exact Or.inl (hi _ h)

theorem checkAb_reach (ab : AbArg) : (∃ c, checkAb ab = .ok c) ↔
    ∃ a b : ℕ, (1 ≤ a ∧ a ≤ 6) ∧ (1 ≤ b ∧ b ≤ 6) ∧ toInt ab = .ok (10 * a + b) := by
  constructor
  · rintro ⟨⟨c, ms, mr⟩, h⟩
    obtain ⟨a, b, ha, hb, h1, -⟩ := reach h
    exact ⟨a, b, ha, hb, h1⟩
  · rintro ⟨a, b, ha, hb, h1⟩
    have h2 : checkAb ab = checkAb (.int (10 * a + b)) := by
      rw [checkAb, h1]; rfl
    exact ⟨_, h2.trans (checkAb_digits ha hb)⟩

/-- Components without a field: the vertical electric field of a vertical magnetic source, and the other way round. -/
def NoField (a b : ℕ) : Prop := (a = 3 ∧ b = 6) ∨ (a = 6 ∧ b = 3)

theorem code_noField {ab : AbArg} {c : ℕ × Bool × Bool} (h : checkAb ab = .ok c) {a b : ℕ} (ha : 1 ≤ a ∧ a ≤ 6)
    (hb : 1 ≤ b ∧ b ≤ 6) (hab : toInt ab = .ok (10 * a + b)) : c.1 = 36 ↔ NoField a b := by
  rw [checkAb, hab] at h
  have h' := (checkAb_digits ha hb).symm.trans h
  obtain rfl := Except.ok.inj h'
  unfold NoField
  obtain ⟨a1, a2⟩ := ha
  obtain ⟨b1, b2⟩ := hb
  interval_cases a <;> interval_cases b <;> simp

/-- **C54, acceptance.**  `dipole_k` returns two arrays exactly if the model is accepted, the truncated code is one of the
36 codes, sources and receivers have coordinates of matching lengths with a single depth, the wavenumbers are an array,
and either its shape fits the number of source-receiver pairs or the component has no field.  Everything else raises
`ValueError`, `TypeError` if the code is not a number, or `AttributeError` if the wavenumbers are no array. -/
theorem C54_accept (m : Mins) (o : Ops) (junk : ℕ → ℝ) (A : KArgs) :
    ((∃ P, (dipoleKFull m o junk A).val = .ok P) ↔
      (∃ mo, (checkModel m A.depth A.res A.aniso A.epermH A.epermV A.mpermH A.mpermV (some false) A.verb).val =
        .ok mo) ∧
      CoordsOK A.src ∧ CoordsOK A.rcv ∧ A.wavenumber ≠ .bare ∧
      ∃ a b : ℕ, (1 ≤ a ∧ a ≤ 6) ∧ (1 ≤ b ∧ b ≤ 6) ∧ toInt A.ab = .ok (10 * a + b) ∧
        (NoField a b ∨ WaveFits A.wavenumber (numDipoles A.src * numDipoles A.rcv))) ∧
    ∀ e, (dipoleKFull m o junk A).val = .error e → e = .valueError ∨ (e = .typeError ∧ A.ab = .other) ∨
      (e = .attributeError ∧ A.wavenumber = .bare) := by
  have hd : (∃ P, (dipoleKFull m o junk A).val = .ok P) ↔ ∃ P, (dipoleKArr m o junk A).val = .ok P := by
    unfold dipoleKFull
    simp only [bind_eq_ok, pure_val, Except.ok.injEq]
    constructor
    · rintro ⟨_, a, h, -⟩; exact ⟨a, h⟩
    · rintro ⟨a, h⟩; exact ⟨_, a, h, rfl⟩
  constructor
  · rw [hd]
    constructor
    · rintro ⟨P, h⟩
      obtain ⟨mo, fo, c, src, rcv, w, h1, h2, h3, h4, h5, h6, h7⟩ := (dipoleKArr_iff m o junk A P).1 h
      obtain ⟨a, b, ha, hb, hab⟩ := (checkAb_reach _).1 ⟨c, h3⟩
      obtain ⟨_, _, _, -, -, n1, -⟩ := checkDipole_ok h4
      obtain ⟨_, _, _, -, -, n2, -⟩ := checkDipole_ok h5
      refine ⟨⟨mo, h1⟩, (checkDipole_iff _).1 ⟨_, h4⟩, (checkDipole_iff _).1 ⟨_, h5⟩, by rw [h6]; simp, a, b, ha, hb,
        hab, ?_⟩
      have := (core_accept _ _ _ _).1.1 ⟨P, h7⟩
      rw [code_noField h3 ha hb hab] at this
      rw [h6, ← n1, ← n2]
      exact this
    · rintro ⟨⟨mo, h1⟩, h4, h5, h6, a, b, ha, hb, hab, h7⟩
      obtain ⟨c, h3⟩ := (checkAb_reach _).2 ⟨a, b, ha, hb, hab⟩
      obtain ⟨src, h4⟩ := (checkDipole_iff _).2 h4
      obtain ⟨rcv, h5⟩ := (checkDipole_iff _).2 h5
      obtain ⟨_, _, _, -, -, n1, -⟩ := checkDipole_ok h4
      obtain ⟨_, _, _, -, -, n2, -⟩ := checkDipole_ok h5
      cases hw : A.wavenumber with
      | bare => exact absurd hw h6
      | array w =>
        have h2 := C30_frequency m A.freq mo.res mo.aniso mo.epermH mo.epermV mo.mpermH mo.mpermV A.verb
        rw [hw, ← n1, ← n2, ← code_noField h3 ha hb hab] at h7
        obtain ⟨P, hP⟩ := (core_accept (kSetup m o junk mo _ src rcv) w (codeOf A.ab) c).1.2 h7
        exact ⟨P, (dipoleKArr_iff m o junk A P).2 ⟨mo, _, c, src, rcv, w, h1, h2, h3, h4, h5, hw, hP⟩⟩
  · intro e he
    have he' : (dipoleKArr m o junk A).val = .error e := by
      unfold dipoleKFull at he
      rw [bind_val] at he
      cases hv : (dipoleKArr m o junk A).val with
      | error e' => rw [hv] at he; exact congrArg Except.error (Except.error.inj he)
      | ok a => rw [hv] at he; cases he
    unfold dipoleKArr at he'
    rw [bind_val] at he'
    cases h1 : (checkModel m A.depth A.res A.aniso A.epermH A.epermV A.mpermH A.mpermV (some false) A.verb).val with
    | error e1 =>
      rw [h1] at he'
      obtain rfl : e1 = e := Except.error.inj he'
      exact Or.inl (checkModel_error h1)
    | ok mo =>
      rw [h1] at he'
      simp only [Except.bind] at he'
      rw [bind_val, C30_frequency] at he'
      simp only [Except.bind] at he'
      rw [bind_val] at he'
      simp only [Model.ofExcept] at he'
      cases h3 : checkAb A.ab with
      | error e1 =>
        rw [h3] at he'
        obtain rfl : e1 = e := Except.error.inj he'
        rcases checkAb_error h3 with h | h
        · exact Or.inl h
        · exact Or.inr (Or.inl h)
      | ok c =>
        rw [h3] at he'
        simp only [Except.bind] at he'
        rw [bind_val] at he'
        simp only at he'
        cases h4 : checkDipole A.src with
        | error e1 =>
          rw [h4] at he'
          obtain rfl : e1 = e := Except.error.inj he'
          exact Or.inl (checkDipole_err h4)
        | ok src =>
          rw [h4] at he'
          simp only [Except.bind] at he'
          rw [bind_val] at he'
          simp only at he'
          cases h5 : checkDipole A.rcv with
          | error e1 =>
            rw [h5] at he'
            obtain rfl : e1 = e := Except.error.inj he'
            exact Or.inl (checkDipole_err h5)
          | ok rcv =>
            rw [h5] at he'
            simp only [Except.bind] at he'
            cases hw : A.wavenumber with
            | bare =>
              rw [hw] at he'
              exact Or.inr (Or.inr ⟨(Except.error.inj he').symm, rfl⟩)
            | array w =>
              rw [hw] at he'
              exact Or.inl ((core_accept _ _ _ _).2 e he')

/-! ## Entries -/

/-- The shape of the results for `n` source-receiver pairs, which pair belongs to a row, and the wavenumbers. -/
inductive WLayout (w : KWave) (n : ℕ) : ℕ → ℕ → (ℕ → ℕ) → (ℕ → ℕ → ℝ) → Prop
  | vec (l : List ℝ) (h : w = .array (.vec l)) : WLayout w n n l.length id (fun _ k => l.getD k 0)
  | mat (r c : ℕ) (v : ℕ → ℕ → ℝ) (h : w = .array (.mat r c v)) (one : n = 1) : WLayout w n r c (fun _ => 0) v

theorem nd_get (P : Arr3) {i j k : ℕ} (hj : j < P.r) (hk : k < P.c) : P.nd.get [i, j, k] = P.v i j k := by
  have e1 : ((i * P.r + j) * P.c + k) / P.c = i * P.r + j := by
    rw [Nat.add_comm, Nat.add_mul_div_right _ _ (by omega), Nat.div_eq_of_lt hk, Nat.zero_add]
  have e2 : ((i * P.r + j) * P.c + k) % P.c = k := by
    rw [Nat.add_comm, Nat.add_mul_mod_self_right, Nat.mod_eq_of_lt hk]
  have e3 : (i * P.r + j) / P.r = i := by
    rw [Nat.add_comm, Nat.add_mul_div_right _ _ (by omega), Nat.div_eq_of_lt hj, Nat.zero_add]
  have e4 : (i * P.r + j) % P.r = j := by
    rw [Nat.add_comm, Nat.add_mul_mod_self_right, Nat.mod_eq_of_lt hj]
  simp only [Arr3.nd, NdArray.get, List.zip_cons_cons, List.zip_nil_right, List.foldl_cons, List.foldl_nil,
    Nat.zero_mul, Nat.zero_add, e1, e2, e3, e4]

/-- An integer code, or a float equal to one. -/
theorem codeOf_checkAb {ab : AbArg} {n : ℤ} (h0 : n ≠ 0) (h : codeOf ab = n) : checkAb ab = checkAbInt n := by
  cases ab with
  | int k =>
    obtain rfl : k = n := h
    rfl
  | other => exact absurd h.symm h0
  | float x =>
    simp only [codeOf] at h
    split_ifs at h with hx
    · subst h
      have : toInt (.float x) = .ok ⌊x⌋ := by
        simp only [toInt]
        split_ifs
        · rfl
        · congr 1
          rw [← hx, Int.ceil_intCast, Int.floor_intCast]
      unfold checkAb
      rw [this]
      rfl
    · exact absurd h.symm h0

/-- What the space-domain routine integrates, with `0` for the components without a field. -/
noncomputable def integrandOf (o : Ops) (M : Medium) (zs zr : ℝ) (ls lr : ℤ) (a b : ℕ) (ρ θ lam : ℝ) (J0 J1 : ℂ) : ℂ :=
  if calcCode a b = 36 then 0 else
    hIntegrand o (earthOf M) zs zr ls lr (calcCode a b) false (decide (4 ≤ b)) (decide (4 ≤ a)) ρ
      (angleFactor θ (calcCode a b) (decide (4 ≤ b)) (decide (4 ≤ a))) lam J0 J1

/-- What `dipole_k` calculates with, in terms of the medium and the coordinates of the user. -/
theorem k_setup {m : Mins} (hm : 0 < m.minRes) (o : Ops) (junk : ℕ → ℝ) {A : KArgs} {U : UserModel}
    (hU : U.Valid m.minRes) (hA : Describes (toDipole A) U) {xs ys xr yr : List ℝ} {zs zr : ℝ}
    (hsrc : A.src = [xs, ys, [zs]]) (hrcv : A.rcv = [xr, yr, [zr]])
    (hls : xs.length = ys.length ∨ xs.length = 1 ∨ ys.length = 1)
    (hlr : xr.length = yr.length ∨ xr.length = 1 ∨ yr.length = 1) :
    ∃ S : KSetup, (∀ w c P, A.wavenumber = .array w → checkAb A.ab = .ok c → dipoleKCore S w (codeOf A.ab) c = .ok P →
        (dipoleKFull m o junk A).val = .ok (P.1.nd.squeeze, P.2.nd.squeeze)) ∧
      S.o = o ∧ S.nfreq = A.freq.length ∧ S.noff = numDipoles A.src * numDipoles A.rcv ∧
      (∀ f (hf : f < A.freq.length), S.earth f = earthOf (U.medium (sParam m.minFreq A.freq A.freq[f]))) ∧
      (∀ r < numDipoles A.rcv, ∀ s < numDipoles A.src,
        S.off (s * numDipoles A.rcv + r) = rhoOf m.minOff (bc xr r - bc xs s) (bc yr r - bc ys s) ∧
        S.ang (s * numDipoles A.rcv + r) = thetaOf (bc xr r - bc xs s) (bc yr r - bc ys s)) ∧
      S.zsrc = zs ∧ S.zrec = zr ∧ S.lsrc = layerOf (userOut m U).depth zs ∧
      S.lrec = layerOf (userOut m U).depth zr := by
  have h1 := describes_checkModel hU hA
  obtain ⟨fo, h2⟩ : ∃ fo, (checkFrequency m A.freq (userOut m U).res (userOut m U).aniso (userOut m U).epermH
    (userOut m U).epermV (userOut m U).mpermH (userOut m U).mpermV A.verb).val = .ok fo :=
    ⟨_, C30_frequency m A.freq _ _ _ _ _ _ A.verb⟩
  obtain ⟨hl, hrows⟩ := user_rows hm hU h2
  obtain ⟨src, h4⟩ := (checkDipole_iff A.src).2 ⟨xs, ys, zs, hsrc, hls⟩
  obtain ⟨rcv, h5⟩ := (checkDipole_iff A.rcv).2 ⟨xr, yr, zr, hrcv, hlr⟩
  obtain ⟨x1, y1, z1, e1, zs1, n1, v1⟩ := checkDipole_ok h4
  obtain ⟨x2, y2, z2, e2, zr1, n2, v2⟩ := checkDipole_ok h5
  rw [hsrc] at e1
  rw [hrcv] at e2
  simp only [List.cons.injEq, and_true] at e1 e2
  obtain ⟨rfl, rfl, rfl⟩ := e1
  obtain ⟨rfl, rfl, rfl⟩ := e2
  refine ⟨kSetup m o junk (userOut m U) fo src rcv, ?_, rfl, hl, ?_, ?_, ?_, zs1, zr1, ?_, ?_⟩
  · intro w c P hw h3 hP
    exact dipoleKFull_ok ((dipoleKArr_iff m o junk A P).2 ⟨_, _, _, _, _, _, h1, h2, h3, h4, h5, hw, hP⟩)
  · rw [← n1, ← n2]; rfl
  · intro f hf
    have : (rowsOf (userOut m U).depth fo)[f]'(by rw [hrows]; simpa using hf) =
        earthOf (U.medium (sParam m.minFreq A.freq A.freq[f])) := by
      simp only [hrows, List.getElem_map, List.getElem_range, getD_eq hf]
    rw [← this]
    simp only [rowsOf, List.getElem_map, List.getElem_range]
    rfl
  · intro r hr s hs
    rw [← n1] at hs
    rw [← n2] at hr ⊢
    obtain ⟨o1, o2⟩ := off_ang_eq m (src.1.getD · 0) (src.2.1.getD · 0) (rcv.1.getD · 0) (rcv.2.1.getD · 0)
      src.1.length rcv.1.length junk junk hs hr
    simp only [(v1 s hs).1, (v1 s hs).2, (v2 r hr).1, (v2 r hr).2] at o1 o2
    exact ⟨o1, o2⟩
  · simp only [kSetup, zs1]
  · simp only [kSetup, zr1]

/-- **C54, entries** (24 of the 36 components, see C38 for the other twelve).  For a valid user model, accepted
coordinates, a code which is an integer or a float equal to one, and wavenumbers in one dimension or, for one pair, in
two: the arrays have shape (frequencies, pairs, wavenumbers), or (frequencies, rows, columns), before they are squeezed;
entry `f, j, k` belongs to the medium of frequency `f`, the source `s` and receiver `r` of pair `j`, and wavenumber `k`. -/
theorem C54_entry_partial {m : Mins} (hm : 0 < m.minRes) {o : Ops} {junk : ℕ → ℝ} {A : KArgs} {U : UserModel}
    (hU : U.Valid m.minRes) (hA : Describes (toDipole A) U) {a b : ℕ} (ha : 1 ≤ a ∧ a ≤ 6) (hb : 1 ≤ b ∧ b ≤ 6)
    (hg : RightCode a b) (hab : codeOf A.ab = 10 * a + b) {xs ys xr yr : List ℝ} {zs zr : ℝ}
    (hsrc : A.src = [xs, ys, [zs]]) (hrcv : A.rcv = [xr, yr, [zr]])
    (hls : xs.length = ys.length ∨ xs.length = 1 ∨ ys.length = 1)
    (hlr : xr.length = yr.length ∨ xr.length = 1 ∨ yr.length = 1) {rows cols : ℕ} {pair : ℕ → ℕ} {lam : ℕ → ℕ → ℝ}
    (hw : WLayout A.wavenumber (numDipoles A.src * numDipoles A.rcv) rows cols pair lam) :
    ∃ P0 P1, (dipoleKFull m o junk A).val = .ok (NdArray.squeeze P0, NdArray.squeeze P1) ∧
      P0.shape = [A.freq.length, rows, cols] ∧ P1.shape = [A.freq.length, rows, cols] ∧
      ∀ f (hf : f < A.freq.length), ∀ j < rows, ∀ k < cols, ∀ r < numDipoles A.rcv, ∀ s < numDipoles A.src,
        pair j = s * numDipoles A.rcv + r → ∀ J0 J1 : ℂ,
        P0.get [f, j, k] * J0 + P1.get [f, j, k] * J1 =
          integrandOf o (U.medium (sParam m.minFreq A.freq A.freq[f])) zs zr (layerOf (userOut m U).depth zs)
            (layerOf (userOut m U).depth zr) a b (rhoOf m.minOff (bc xr r - bc xs s) (bc yr r - bc ys s))
            (thetaOf (bc xr r - bc xs s) (bc yr r - bc ys s)) (lam j k) J0 J1 := by
  obtain ⟨S, s1, so, sn, sf, sE, sOA, szs, szr, sls, slr⟩ := k_setup hm o junk hU hA hsrc hrcv hls hlr
  have hc := codes a (Finset.mem_Icc.2 ha) b (Finset.mem_Icc.2 hb)
  have h3 : checkAb A.ab = .ok (calcCode a b, decide (4 ≤ b), decide (4 ≤ a)) := by
    rw [codeOf_checkAb (by omega) hab, hc]
  obtain ⟨w, hw', L⟩ : ∃ w, A.wavenumber = .array w ∧ Layout S w rows cols pair lam := by
    cases hw with
    | vec l h => exact ⟨_, h, ⟨Or.inl ⟨l, rfl, sf.symm, rfl, rfl, rfl⟩⟩⟩
    | mat r c v h one => exact ⟨_, h, ⟨Or.inr ⟨_, rfl, sf.trans one, rfl, rfl⟩⟩⟩
  obtain ⟨P0, P1, k1, ⟨k2, k3, k4⟩, ⟨k5, k6, k7⟩, k8⟩ := C38_kernels_partial L ha hb hg
  rw [dipoleK, hc] at k1
  rw [sn] at k2 k5 k8
  refine ⟨P0.nd, P1.nd, s1 w _ (P0, P1) hw' h3 (by rw [hab]; exact k1), by rw [Arr3.nd, k2, k3, k4],
    by rw [Arr3.nd, k5, k6, k7], ?_⟩
  intro f hf j hj k hk r hr s hs hp J0 J1
  rw [nd_get P0 (by rw [k3]; exact hj) (by rw [k4]; exact hk), nd_get P1 (by rw [k6]; exact hj) (by rw [k7]; exact hk),
    k8 f hf j hj k hk J0 J1]
  obtain ⟨q1, q2⟩ := sOA r hr s hs
  unfold integrand integrandOf
  by_cases h36 : calcCode a b = 36
  · rw [if_pos h36, if_pos h36]
  rw [if_neg h36, if_neg h36]
  unfold kern hIntegrand
  rw [sE f hf, hp, q1, q2, so, szs, szr, sls, slr]

/-! ## The field -/

/-- The integrand is the spectrum of the exact solution. -/
theorem integrandOf_ring {m : Mins} (hm : 0 < m.minRes) {U : UserModel} (hU : U.Valid m.minRes) {o : Ops} (ho : Safe o)
    {sp : ℂ} (s0 : sp ≠ 0) (sre : 0 ≤ sp.re) {a b : ℕ} (ha : 1 ≤ a ∧ a ≤ 6) (hb : 1 ≤ b ∧ b ≤ 6) {ρ : ℝ} (hρ : 0 < ρ)
    (θ : ℝ) {lam : ℝ} (hlam : 0 < lam) (zs zr : ℝ) :
    ∃ θ', |θ' - θ| ≤ 1e-9 ∧ ∀ ls lr, (U.medium sp).InUpper ls zs → (U.medium sp).InUpper lr zr →
      ∀ F : ℝ → PlaneField, (∀ φ, IsPlaneField (U.medium sp) (lam * Real.cos φ) (lam * Real.sin φ) zs ls
        (unitDipole b) (F φ)) →
      integrandOf o (U.medium sp) zs zr (layerOf (userOut m U).depth zs) (layerOf (userOut m U).depth zr) a b ρ θ lam
        (besselJ0 (lam * ρ)) (besselJ1 (lam * ρ)) = ringIntegral (fun φ => (F φ).comp a lr zr) lam ρ θ' := by
  obtain ⟨θ', hθ, hθe⟩ := angle_near θ (calcCode a b) (decide (4 ≤ b)) (decide (4 ≤ a))
  refine ⟨θ', hθ, ?_⟩
  intro ls lr hsu hru F hF
  have hM : (U.medium sp).OK := user_ok hm hU s0 sre
  have hsc := upper_closed hsu
  have hrc := upper_closed hru
  have e1 := (user_layer (m := m) hU sp zs ls).1 hsu
  have e2 := (user_layer (m := m) hU sp zr lr).1 hru
  have hsr : zr = zs → lr = ls := by rintro rfl; rw [e1, e2]
  have hcl : ((U.medium sp).homog ls).InClosed 0 zs :=
    ⟨le_refl _, by simp [Medium.homog], by simp, by simp [Medium.homog]⟩
  have hHe : ∀ φ, ∃ G, IsPlaneField ((U.medium sp).homog ls) (lam * Real.cos φ) (lam * Real.sin φ) zs 0
      (unitDipole b) G := fun φ => plane_exists (OK.homog hM hsc.1 hsc.2.1) hlam.ne'
      (by have := Real.sin_sq_add_cos_sq φ; linear_combination lam ^ 2 * this) hcl _
  choose Fh hH using hHe
  have hc := codes a (Finset.mem_Icc.2 ha) b (Finset.mem_Icc.2 hb)
  unfold integrandOf
  by_cases h36 : calcCode a b = 36
  · rw [if_pos h36]
    have hab36 : (a = 3 ∧ b = 6) ∨ (a = 6 ∧ b = 3) := by
      have hi : toInt (.int (10 * a + b)) = .ok (10 * (a : ℤ) + b) := rfl
      exact (code_noField (ab := .int (10 * a + b)) hc ha hb hi).1 h36
    have hz : (fun φ => (F φ).comp a lr zr) = fun _ => 0 := by
      funext φ
      exact (C37_zero_codes hM hlam φ hsc hrc hab36 (hF φ) (hH φ)).1
    rw [hz]
    simp [ringIntegral]
  · rw [if_neg h36]
    obtain ⟨abc', ms', mr', g1, g2⟩ := ring_all (xd := false) (θ := θ') hM ho hlam hρ hsc hrc hsr ha hb hF hH
    have g1' : checkAb (.int (10 * a + b)) = .ok (calcCode a b, decide (4 ≤ b), decide (4 ≤ a)) := hc
    rw [g1'] at g1
    obtain ⟨rfl, rfl, rfl⟩ : calcCode a b = abc' ∧ decide (4 ≤ b) = ms' ∧ decide (4 ≤ a) = mr' := by
      simpa using Except.ok.inj g1
    unfold RingClaim at g2
    unfold hIntegrand
    rw [hθe, ← e1, ← e2, g2]
    congr 1
    funext φ
    simp [xcomp]

/-- **C54** (24 of the 36 components, see C38 for the other twelve).  For every valid description `U` of a layered medium,
all coordinates, frequencies and positive wavenumbers: with the Bessel functions of the pair's offset, what `dipole_k`
returns for a frequency, pair and wavenumber is the integral over all directions of the plane waves with this wavenumber
of the exact solution of Maxwell's equations in the described medium. -/
theorem C54_field_partial {m : Mins} (hm : 0 < m.minRes) (hfr : 0 < m.minFreq) (hof : 0 < m.minOff) {o : Ops} (ho : Safe o)
    {junk : ℕ → ℝ} {A : KArgs} {U : UserModel}
    (hU : U.Valid m.minRes) (hA : Describes (toDipole A) U) {a b : ℕ} (ha : 1 ≤ a ∧ a ≤ 6) (hb : 1 ≤ b ∧ b ≤ 6)
    (hg : RightCode a b) (hab : codeOf A.ab = 10 * a + b) {xs ys xr yr : List ℝ} {zs zr : ℝ}
    (hsrc : A.src = [xs, ys, [zs]]) (hrcv : A.rcv = [xr, yr, [zr]])
    (hls : xs.length = ys.length ∨ xs.length = 1 ∨ ys.length = 1)
    (hlr : xr.length = yr.length ∨ xr.length = 1 ∨ yr.length = 1) {rows cols : ℕ} {pair : ℕ → ℕ} {lam : ℕ → ℕ → ℝ}
    (hw : WLayout A.wavenumber (numDipoles A.src * numDipoles A.rcv) rows cols pair lam) :
    ∃ P0 P1, (dipoleKFull m o junk A).val = .ok (NdArray.squeeze P0, NdArray.squeeze P1) ∧
      P0.shape = [A.freq.length, rows, cols] ∧ P1.shape = [A.freq.length, rows, cols] ∧
      ∀ f (hf : f < A.freq.length), ∀ j < rows, ∀ k < cols, ∀ r < numDipoles A.rcv, ∀ s < numDipoles A.src,
        pair j = s * numDipoles A.rcv + r → 0 < lam j k →
        let M := U.medium (sParam m.minFreq A.freq A.freq[f])
        let ρ := rhoOf m.minOff (bc xr r - bc xs s) (bc yr r - bc ys s)
        let θ := thetaOf (bc xr r - bc xs s) (bc yr r - bc ys s)
        ∃ θ', |θ' - θ| ≤ 1e-9 ∧ ∀ ls lr, M.InUpper ls zs → M.InUpper lr zr →
        ∀ F : ℝ → PlaneField,
        (∀ φ, IsPlaneField M (lam j k * Real.cos φ) (lam j k * Real.sin φ) zs ls (unitDipole b) (F φ)) →
        P0.get [f, j, k] * besselJ0 (lam j k * ρ) + P1.get [f, j, k] * besselJ1 (lam j k * ρ) =
          ringIntegral (fun φ => (F φ).comp a lr zr) (lam j k) ρ θ' := by
  obtain ⟨P0, P1, h1, h2, h3, h4⟩ := C54_entry_partial hm hU hA ha hb hg hab hsrc hrcv hls hlr hw (o := o) (junk := junk)
  refine ⟨P0, P1, h1, h2, h3, ?_⟩
  intro f hf j hj k hk r hr s hs hp hl M ρ θ
  obtain ⟨s0, sre⟩ := sParam_spec hfr A.freq A.freq[f]
  have hρ : 0 < ρ := lt_max_of_lt_right hof
  obtain ⟨θ', e1, e2⟩ := integrandOf_ring hm hU ho s0 sre ha hb hρ θ hl zs zr
  refine ⟨θ', e1, fun ls lr hsu hru F hF => ?_⟩
  rw [h4 f hf j hj k hk r hr s hs hp]
  exact e2 ls lr hsu hru F hF

/-! ## `dipole` with a digital filter -/

/-- **C54, digital filters** (24 components).  `dipole` with a digital filter (standard DLF, any filter, `xdirect=False`)
is the filter sum of what `dipole_k` returns for the same arguments and the wavenumbers `base/ρ`: for all frequencies and
all pairs whose offset is `ρ`. -/
theorem C54_filter_partial {m : Mins} (hm : 0 < m.minRes) {o : Ops} (sqrt : ℂ → ℂ) (R : RSpl) (Fl : Filter)
    {junk : ℕ → ℝ} {A : KArgs} {U : UserModel}
    (hU : U.Valid m.minRes) (hA : Describes (toDipole A) U) {a b : ℕ} (ha : 1 ≤ a ∧ a ≤ 6) (hb : 1 ≤ b ∧ b ≤ 6)
    (hg : RightCode a b) (hab : codeOf A.ab = 10 * a + b) {xs ys xr yr : List ℝ} {zs zr : ℝ}
    (hsrc : A.src = [xs, ys, [zs]]) (hrcv : A.rcv = [xr, yr, [zr]])
    (hls : xs.length = ys.length ∨ xs.length = 1 ∨ ys.length = 1)
    (hlr : xr.length = yr.length ∨ xr.length = 1 ∨ yr.length = 1)
    (ns : 0 < numDipoles A.src) (nr : 0 < numDipoles A.rcv) {ρ : ℝ}
    (hw : A.wavenumber = .array (.vec ((List.range Fl.n).map fun k => Fl.base k / ρ))) (loop : Option String) :
    ∃ arr P0 P1, (dipoleFull (dlfBack m o sqrt R Fl junk) { toDipole A with loop := loop }).val = .ok arr ∧
      (dipoleKFull m o junk A).val = .ok (NdArray.squeeze P0, NdArray.squeeze P1) ∧
      ∀ f < A.freq.length, ∀ r < numDipoles A.rcv, ∀ s < numDipoles A.src,
        rhoOf m.minOff (bc xr r - bc xs s) (bc yr r - bc ys s) = ρ →
        arr.get [f, r, s] = (∑ k ∈ Finset.range Fl.n,
          (P0.get [f, s * numDipoles A.rcv + r, k] * Fl.j0 k + P1.get [f, s * numDipoles A.rcv + r, k] * Fl.j1 k)) / ρ := by
  have hc := codes a (Finset.mem_Icc.2 ha) b (Finset.mem_Icc.2 hb)
  have h3 : checkAb A.ab = .ok (calcCode a b, decide (4 ≤ b), decide (4 ≤ a)) := by
    rw [codeOf_checkAb (by omega) hab, hc]
  have hA' : Describes { toDipole A with loop := loop } U := by
    obtain ⟨k, h⟩ := hA
    refine ⟨k, ?_⟩
    cases h with
    | topDown lo hi depth res aniso epermH epermV mpermH mpermV =>
      exact .topDown lo hi depth res aniso epermH epermV mpermH mpermV
    | bottomUp lo hi depth two strict res aniso epermH epermV mpermH mpermV =>
      exact .bottomUp lo hi depth two strict res aniso epermH epermV mpermH mpermV
  obtain ⟨arr, g1, -, g3⟩ := C44_entry (B := dlfBack m o sqrt R Fl junk) hm (C44_dlf m o sqrt R Fl junk) hU hA' h3 hsrc hrcv
    hls hlr ns nr
  obtain ⟨P0, P1, k1, -, -, k4⟩ := C54_entry_partial hm hU hA ha hb hg hab hsrc hrcv hls hlr (.vec _ hw) (o := o)
    (junk := junk)
  refine ⟨arr, P0, P1, g1, k1, ?_⟩
  intro f hf r hr s hs hρ
  have e := g3 f r s hf hr hs
  simp only at e
  rw [e, if_neg (by simp [toDipole, Direct])]
  have hj : s * numDipoles A.rcv + r < numDipoles A.src * numDipoles A.rcv := by
    calc s * numDipoles A.rcv + r < (s + 1) * numDipoles A.rcv := by rw [Nat.succ_mul]; omega
      _ ≤ numDipoles A.src * numDipoles A.rcv := Nat.mul_le_mul_right _ hs
  have hk : ∀ k ∈ Finset.range Fl.n, P0.get [f, s * numDipoles A.rcv + r, k] * Fl.j0 k +
      P1.get [f, s * numDipoles A.rcv + r, k] * Fl.j1 k = _ := fun k hk =>
    k4 f hf _ hj k (by simpa using hk) r hr s hs rfl (Fl.j0 k : ℂ) (Fl.j1 k : ℂ)
  rw [Finset.sum_congr rfl hk, zero_add]
  have hskip : Skipped (calcCode a b) (toDipole A).xdirect (userOut (dlfBack m o sqrt R Fl junk).m U).isfullspace ↔
      calcCode a b = 36 := by
    simp [Skipped, toDipole]
  by_cases h36 : calcCode a b = 36
  · rw [if_pos (hskip.2 h36)]
    simp [integrandOf, h36]
  · rw [if_neg (fun q => h36 (hskip.1 q))]
    simp only [filterRule]
    have hm' : (dlfBack m o sqrt R Fl junk).m = m := rfl
    rw [hm', hρ]
    congr 1
    refine Finset.sum_congr rfl fun k hk => ?_
    have hk' : k < Fl.n := Finset.mem_range.1 hk
    unfold integrandOf
    rw [if_neg h36, List.getD_eq_getElem _ _ (by simpa using hk'), List.getElem_map, List.getElem_range]
    rfl

/-! ## Violations -/

/-- The wavenumber kernel with the Bessel function of order one. -/
noncomputable def kernelJ1 (o : Ops) (m : Mins) (U : UserModel) (sp : ℂ) (zs zr lam : ℝ) (a b : ℕ) : Option ℂ :=
  (wavenumber o (earthOf (U.medium sp)) zs zr (layerOf (userOut m U).depth zs) (layerOf (userOut m U).depth zr) lam
    (calcCode a b) false (decide (4 ≤ b)) (decide (4 ≤ a))).2.1

/-- **C54 is violated** by the other twelve components: at an azimuth of 30° or 120° what `dipole_k` returns is wrong for
every medium, frequency, offset and wavenumber whose kernel is not zero. -/
theorem C54_violated {m : Mins} (hm : 0 < m.minRes) (hof : 0 < m.minOff) {o : Ops}
    {junk : ℕ → ℝ} {A : KArgs} {U : UserModel}
    (hU : U.Valid m.minRes) (hA : Describes (toDipole A) U) {a b : ℕ} (ha : 1 ≤ a ∧ a ≤ 6) (hb : 1 ≤ b ∧ b ≤ 6)
    (hg : ¬ RightCode a b) (hab : codeOf A.ab = 10 * a + b) {xs ys xr yr : List ℝ} {zs zr : ℝ}
    (hsrc : A.src = [xs, ys, [zs]]) (hrcv : A.rcv = [xr, yr, [zr]])
    (hls : xs.length = ys.length ∨ xs.length = 1 ∨ ys.length = 1)
    (hlr : xr.length = yr.length ∨ xr.length = 1 ∨ yr.length = 1) {l : List ℝ} (hw : A.wavenumber = .array (.vec l)) :
    ∃ P0 P1, (dipoleKFull m o junk A).val = .ok (NdArray.squeeze P0, NdArray.squeeze P1) ∧
      ∀ f (hf : f < A.freq.length), ∀ k < l.length, ∀ r < numDipoles A.rcv, ∀ s < numDipoles A.src,
        thetaOf (bc xr r - bc xs s) (bc yr r - bc ys s) = badAngle b →
        kernelJ1 o m U (sParam m.minFreq A.freq A.freq[f]) zs zr (l.getD k 0) a b ≠ some 0 →
        ∃ J0 J1 : ℂ, P0.get [f, s * numDipoles A.rcv + r, k] * J0 + P1.get [f, s * numDipoles A.rcv + r, k] * J1 ≠
          integrandOf o (U.medium (sParam m.minFreq A.freq A.freq[f])) zs zr (layerOf (userOut m U).depth zs)
            (layerOf (userOut m U).depth zr) a b (rhoOf m.minOff (bc xr r - bc xs s) (bc yr r - bc ys s))
            (thetaOf (bc xr r - bc xs s) (bc yr r - bc ys s)) (l.getD k 0) J0 J1 := by
  obtain ⟨S, s1, so, sn, sf, sE, sOA, szs, szr, sls, slr⟩ := k_setup hm o junk hU hA hsrc hrcv hls hlr
  have hc := codes a (Finset.mem_Icc.2 ha) b (Finset.mem_Icc.2 hb)
  have h3 : checkAb A.ab = .ok (calcCode a b, decide (4 ≤ b), decide (4 ≤ a)) := by
    rw [codeOf_checkAb (by omega) hab, hc]
  have h36 : calcCode a b ≠ 36 := by
    intro h
    apply hg
    obtain ⟨a1, a2⟩ := ha
    obtain ⟨b1, b2⟩ := hb
    clear hab hc h3
    unfold RightCode
    interval_cases a <;> interval_cases b <;> simp [calcCode] at h ⊢
  have L : Layout S (.vec l) S.noff l.length id (fun _ k => l.getD k 0) := ⟨Or.inl ⟨l, rfl, rfl, rfl, rfl, rfl⟩⟩
  obtain ⟨P0, P1, k1, ⟨k2, k3, k4⟩, ⟨k5, k6, k7⟩, k8⟩ := dipoleK_eq L hc h36
  have k1' := k1
  rw [dipoleK, hc] at k1'
  refine ⟨P0.nd, P1.nd, s1 _ _ (P0, P1) hw h3 (by rw [hab]; exact k1'), ?_⟩
  intro f hf k hk r hr s hs hθ hK
  obtain ⟨q1, q2⟩ := sOA r hr s hs
  have hj : s * numDipoles A.rcv + r < S.noff := by
    rw [sf]
    calc s * numDipoles A.rcv + r < (s + 1) * numDipoles A.rcv := by rw [Nat.succ_mul]; omega
      _ ≤ numDipoles A.src * numDipoles A.rcv := Nat.mul_le_mul_right _ hs
  have hoff : 0 < S.off (s * numDipoles A.rcv + r) := by rw [q1]; exact lt_max_of_lt_right hof
  have hkern : kern S (calcCode a b) (decide (4 ≤ b)) (decide (4 ≤ a)) f (l.getD k 0) = wavenumber o
      (earthOf (U.medium (sParam m.minFreq A.freq A.freq[f]))) zs zr (layerOf (userOut m U).depth zs)
      (layerOf (userOut m U).depth zr) (l.getD k 0) (calcCode a b) false (decide (4 ≤ b)) (decide (4 ≤ a)) := by
    unfold kern
    rw [sE f hf, so, szs, szr, sls, slr]
  obtain ⟨P0', P1', v1, J0, J1, v2⟩ := C38_violated ha hb hg (S := S) (l := l) (i := f) (j := s * numDipoles A.rcv + r)
    (k := k) (by rw [sn]; exact hf) hj hk (by rw [q2, hθ]) hoff (by rw [hkern]; exact hK)
  rw [k1] at v1
  obtain ⟨rfl, rfl⟩ := Prod.mk.inj (Except.ok.inj v1)
  refine ⟨J0, J1, ?_⟩
  rw [nd_get P0 (by rw [k3]; exact hj) (by rw [k4]; exact hk), nd_get P1 (by rw [k6]; exact hj) (by rw [k7]; exact hk)]
  intro e
  apply v2
  rw [e]
  unfold integrand integrandOf
  rw [if_neg h36, if_neg h36]
  unfold hIntegrand
  rw [hkern, q1, q2]

/-- **C54 is violated** by codes which are no integers: `dipole` and `check_ab` truncate `11.5` to 11, but `dipole_k` goes on
with `11.5` in the angle factor and the division by the offset.  For a receiver on the x-axis `PJ1` is then zero. -/
theorem C54_float_violated {m : Mins} (hm : 0 < m.minRes) (hof : 0 < m.minOff) {o : Ops}
    {junk : ℕ → ℝ} {A : KArgs} {U : UserModel}
    (hU : U.Valid m.minRes) (hA : Describes (toDipole A) U) {x : ℝ} (hab : A.ab = .float x) (hx : 11 < x ∧ x < 12)
    {xs ys xr yr : List ℝ} {zs zr : ℝ}
    (hsrc : A.src = [xs, ys, [zs]]) (hrcv : A.rcv = [xr, yr, [zr]])
    (hls : xs.length = ys.length ∨ xs.length = 1 ∨ ys.length = 1)
    (hlr : xr.length = yr.length ∨ xr.length = 1 ∨ yr.length = 1) {l : List ℝ} (hw : A.wavenumber = .array (.vec l)) :
    ∃ P0 P1, (dipoleKFull m o junk A).val = .ok (NdArray.squeeze P0, NdArray.squeeze P1) ∧
      ∀ f (hf : f < A.freq.length), ∀ k < l.length, ∀ r < numDipoles A.rcv, ∀ s < numDipoles A.src,
        thetaOf (bc xr r - bc xs s) (bc yr r - bc ys s) = 0 →
        P1.get [f, s * numDipoles A.rcv + r, k] = 0 ∧
        (kernelJ1 o m U (sParam m.minFreq A.freq A.freq[f]) zs zr (l.getD k 0) 1 1 ≠ some 0 →
        ∃ J0 J1 : ℂ, P0.get [f, s * numDipoles A.rcv + r, k] * J0 + P1.get [f, s * numDipoles A.rcv + r, k] * J1 ≠
          integrandOf o (U.medium (sParam m.minFreq A.freq A.freq[f])) zs zr (layerOf (userOut m U).depth zs)
            (layerOf (userOut m U).depth zr) 1 1 (rhoOf m.minOff (bc xr r - bc xs s) (bc yr r - bc ys s))
            (thetaOf (bc xr r - bc xs s) (bc yr r - bc ys s)) (l.getD k 0) J0 J1) := by
  obtain ⟨S, s1, so, sn, sf, sE, sOA, szs, szr, sls, slr⟩ := k_setup hm o junk hU hA hsrc hrcv hls hlr
  have hfl : ⌊x⌋ = 11 := by
    rw [Int.floor_eq_iff]
    exact ⟨by norm_num; exact hx.1.le, by norm_num; linarith [hx.2]⟩
  have hcode : codeOf A.ab = 0 := by
    rw [hab]
    simp only [codeOf, hfl]
    rw [if_neg]
    norm_num
    exact hx.1.ne
  have h3 : checkAb A.ab = .ok (11, false, false) := by
    rw [hab]
    have : toInt (.float x) = .ok 11 := by
      simp only [toInt]
      rw [if_pos (by linarith [hx.1]), hfl]
    unfold checkAb
    rw [this]
    rfl
  have L : Layout S (.vec l) S.noff l.length id (fun _ k => l.getD k 0) := ⟨Or.inl ⟨l, rfl, rfl, rfl, rfl, rfl⟩⟩
  obtain ⟨P0, P1, k1, ⟨k2, k3, k4⟩, ⟨k5, k6, k7⟩, k8⟩ := dipoleKCore_eq L 0 (abc := 11) false false (by norm_num)
  refine ⟨P0.nd, P1.nd, s1 _ _ (P0, P1) hw h3 (by rw [hcode]; exact k1), ?_⟩
  intro f hf k hk r hr s hs hθ
  obtain ⟨q1, q2⟩ := sOA r hr s hs
  have hj : s * numDipoles A.rcv + r < S.noff := by
    rw [sf]
    calc s * numDipoles A.rcv + r < (s + 1) * numDipoles A.rcv := by rw [Nat.succ_mul]; omega
      _ ≤ numDipoles A.src * numDipoles A.rcv := Nat.mul_le_mul_right _ hs
  rw [nd_get P0 (by rw [k3]; exact hj) (by rw [k4]; exact hk), nd_get P1 (by rw [k6]; exact hj) (by rw [k7]; exact hk)]
  obtain ⟨-, e1⟩ := k8 f (by rw [sn]; exact hf) _ hj k hk
  have f0 : angleFactor 0 0 false false = 0 := by
    simp only [angleFactor, List.mem_cons, List.not_mem_nil]
    norm_num
  have p1 : P1.v f (s * numDipoles A.rcv + r) k = 0 := by
    rw [e1, id, q2, hθ]
    simp [f0]
  refine ⟨p1, fun hK => ⟨0, 1, ?_⟩⟩
  rw [p1]
  have f1 : angleFactor 0 11 false false = 1 := by
    have hpi := Real.pi_gt_three
    have n1 : ¬ isclose 0 (Real.pi / 2) 1e-10 1e-14 := by
      unfold isclose
      rw [zero_sub, abs_neg, abs_of_pos (by positivity)]
      norm_num
      linarith
    have n2 : ¬ isclose 0 (3 * Real.pi / 2) 1e-10 1e-14 := by
      unfold isclose
      rw [zero_sub, abs_neg, abs_of_pos (by positivity)]
      norm_num
      linarith
    simp [angleFactor, n1, n2]
  have hρ : (0 : ℝ) < rhoOf m.minOff (bc xr r - bc xs s) (bc yr r - bc ys s) := lt_max_of_lt_right hof
  unfold integrandOf
  rw [if_neg (by decide), hθ]
  unfold hIntegrand
  unfold kernelJ1 at hK
  have hc : calcCode 1 1 = 11 := rfl
  have d4 : decide (4 ≤ 1) = false := rfl
  rw [hc, d4] at hK ⊢
  rw [f1]
  generalize rhoOf m.minOff (bc xr r - bc xs s) (bc yr r - bc ys s) = ρ at hρ ⊢
  have hsome := (kernels_some o (earthOf (U.medium (sParam m.minFreq A.freq A.freq[f]))) zs zr
    (layerOf (userOut m U).depth zs) (layerOf (userOut m U).depth zr) (l.getD k 0) (abc := 11) (by decide) (by norm_num)
    false false).2.1
  generalize wavenumber o (earthOf (U.medium (sParam m.minFreq A.freq A.freq[f]))) zs zr
    (layerOf (userOut m U).depth zs) (layerOf (userOut m U).depth zr) (l.getD k 0) 11 false false false = K at hK hsome ⊢
  obtain ⟨u, v, w⟩ := K
  rw [if_pos (by decide)] at hsome
  obtain ⟨v', rfl⟩ : ∃ v', v = some v' := ⟨_, hsome⟩
  have hv : v' ≠ 0 := fun h => hK (by rw [h])
  have hρ' : (ρ : ℂ) ≠ 0 := by exact_mod_cast hρ.ne'
  simp only [hankelIntegrand]
  cases u <;> cases w <;> simp [j2codes] <;>
    exact fun h => (div_ne_zero hv hρ') h.symm

/-! ## Concrete cases -/

/-- The marine case of C44: two frequencies, three receivers, two wavenumbers. -/
noncomputable def marineK : KArgs where
  src := [[0], [0], [950]]
  rcv := [[1000, 2000, 3000], [0], [1000]]
  depth := some [0, ((1000 : ℝ) : EReal)]
  res := .array [1e8, 0.3, 1]
  freq := [1, 10]
  wavenumber := .array (.vec [0.001, 0.002])
  ab := .int 24
  aniso := some [1, 1, 2]
  epermH := none
  epermV := none
  mpermH := none
  mpermV := none
  verb := 2

theorem marineK_describes : Describes (toDipole marineK) marine :=
  ⟨_, .topDown false false (by simp [toDipole, marineK, marine, allDepths]) rfl rfl rfl rfl rfl rfl⟩

/-- Two arrays of shape (2, 3, 2); the last entry belongs to 10 Hz, the receiver at 3000 m and the second wavenumber. -/
example : ∃ P0 P1, (dipoleKFull Mins.init Ops.exact (fun _ => 0) marineK).val =
      .ok (NdArray.squeeze P0, NdArray.squeeze P1) ∧ P0.squeeze.shape = [2, 3, 2] ∧ P1.squeeze.shape = [2, 3, 2] ∧
    ∃ θ', |θ' - 0| ≤ 1e-9 ∧ ∀ F : ℝ → PlaneField,
      let M := marine.medium (2 * Real.pi * Complex.I * (10 : ℝ))
      (∀ φ, IsPlaneField M (0.002 * Real.cos φ) (0.002 * Real.sin φ) 950 1 (unitDipole 4) (F φ)) →
      P0.get [1, 2, 1] * besselJ0 (0.002 * 3000) + P1.get [1, 2, 1] * besselJ1 (0.002 * 3000) =
        ringIntegral (fun φ => (F φ).comp 2 1 1000) 0.002 3000 θ' := by
  have n1 : numDipoles marineK.src = 1 := by simp [numDipoles, marineK]
  have n2 : numDipoles marineK.rcv = 3 := by simp [numDipoles, marineK]
  obtain ⟨P0, P1, h1, h2, h3, h4⟩ := C54_field_partial (m := Mins.init) (by norm_num [Mins.init])
    (by norm_num [Mins.init]) (by norm_num [Mins.init]) safe_exact (junk := fun _ => 0) marine_valid marineK_describes
    (a := 2) (b := 4) (by norm_num) (by norm_num) (Or.inl (by norm_num)) rfl (xs := [0]) (ys := [0]) (zs := 950)
    (xr := [1000, 2000, 3000]) (yr := [0]) (zr := 1000) rfl rfl (by simp) (by simp) (.vec _ rfl)
  rw [n1, n2] at h2 h3
  refine ⟨P0, P1, h1, ?_, ?_, ?_⟩
  · simp only [NdArray.squeeze, h2]; simp [marineK]
  · simp only [NdArray.squeeze, h3]; simp [marineK]
  obtain ⟨θ', e1, e2⟩ := h4 1 (by simp [marineK]) 2 (by rw [n1, n2]; norm_num) 1 (by simp) 2 (by rw [n2]; norm_num) 0
    (by rw [n1]; norm_num) (by rw [n2]; rfl) (by norm_num)
  have t0 : thetaOf (bc [1000, 2000, 3000] 2 - bc [0] 0) (bc [0] 2 - bc [0] 0) = 0 := by
    have : ((⟨3000, 0⟩ : ℂ)) = ((3000 : ℝ) : ℂ) := rfl
    simp [thetaOf, bc]
    rw [this]; exact Complex.arg_ofReal_of_nonneg (by norm_num)
  have r0 : rhoOf Mins.init.minOff (bc [1000, 2000, 3000] 2 - bc [0] 0) (bc [0] 2 - bc [0] 0) = 3000 := by
    have : Real.sqrt (3000 ^ 2) = 3000 := Real.sqrt_sq (by norm_num)
    simp [rhoOf, bc, Mins.init, this]
    norm_num
  have s0 : sParam Mins.init.minFreq marineK.freq (marineK.freq[1]'(by simp [marineK])) =
      2 * Real.pi * Complex.I * (10 : ℝ) := by
    have : max (10 : ℝ) Mins.init.minFreq = 10 := by norm_num [Mins.init]
    rw [sParam, if_pos ⟨1, by simp [marineK], by norm_num⟩]
    rw [show (marineK.freq[1]'(by simp [marineK])) = 10 from rfl, this]
  have l0 : ([0.001, 0.002] : List ℝ).getD 1 0 = 0.002 := rfl
  rw [t0] at e1
  rw [s0, r0] at e2
  simp only [l0] at e2
  refine ⟨θ', e1, ?_⟩
  intro F M hF
  have hin : ∀ z, 0 < z → z ≤ 1000 → M.InUpper 1 z := by
    intro z z0 z1
    refine ⟨by norm_num, by norm_num [M, UserModel.medium, marine], fun _ => ?_, fun _ => ?_⟩
    · simpa [M, UserModel.medium, marine] using z0
    · simpa [M, UserModel.medium, marine] using z1
  exact e2 1 1 (hin 950 (by norm_num) (by norm_num)) (hin 1000 (by norm_num) (by norm_num)) F hF

/-- A list of wavenumbers instead of an array. -/
example : ∃ e, (dipoleKFull Mins.init Ops.exact (fun _ => 0) { marineK with wavenumber := .bare }).val = .error e := by
  cases h : (dipoleKFull Mins.init Ops.exact (fun _ => 0) { marineK with wavenumber := .bare }).val with
  | error e => exact ⟨e, rfl⟩
  | ok P => exact absurd rfl ((C54_accept Mins.init Ops.exact (fun _ => 0) { marineK with wavenumber := .bare }).1.1 ⟨P, h⟩).2.2.2.1

/-- One row of wavenumbers for each of the three receivers, as `dipole` uses them. -/
example (v : ℕ → ℕ → ℝ) : (dipoleKFull Mins.init Ops.exact (fun _ => 0)
    { marineK with wavenumber := .array (.mat 3 2 v) }).val = .error .valueError := by
  cases h : (dipoleKFull Mins.init Ops.exact (fun _ => 0) { marineK with wavenumber := .array (.mat 3 2 v) }).val with
  | error e =>
    rcases (C54_accept _ _ _ _).2 e h with h | ⟨-, h⟩ | ⟨-, h⟩
    · rw [h]
    · cases h
    · cases h
  | ok P =>
    obtain ⟨-, -, -, -, a, b, ha, hb, hab, h⟩ := (C54_accept _ _ _ _).1.1 ⟨P, h⟩
    have hab' : (24 : ℤ) = 10 * a + b := Except.ok.inj hab
    obtain ⟨rfl, rfl⟩ : a = 2 ∧ b = 4 := by omega
    exfalso
    rcases h with h | h
    · rcases h with h | h <;> omega
    · have n1 : numDipoles marineK.src = 1 := by simp [numDipoles, marineK]
      have n2 : numDipoles marineK.rcv = 3 := by simp [numDipoles, marineK]
      simp only [n1, n2, WaveFits] at h
      omega

/-- The response of `dipole` at 3000 m with a filter of three coefficients is the filter sum of what `dipole_k` returns. -/
example (R : RSpl) (Fl : Filter) (hn : Fl.n = 3) :
    ∃ arr P0 P1, (dipoleFull (dlfBack Mins.init Ops.exact csqrt R Fl fun _ => 0) { marineArgs with xdirect := some false }).val =
        .ok arr ∧
      (dipoleKFull Mins.init Ops.exact (fun _ => 0) { marineK with wavenumber := .array (.vec
        [Fl.base 0 / 3000, Fl.base 1 / 3000, Fl.base 2 / 3000]) }).val = .ok (NdArray.squeeze P0, NdArray.squeeze P1) ∧
      arr.get [1, 2, 0] = (P0.get [1, 2, 0] * Fl.j0 0 + P1.get [1, 2, 0] * Fl.j1 0 + (P0.get [1, 2, 1] * Fl.j0 1 +
        P1.get [1, 2, 1] * Fl.j1 1) + (P0.get [1, 2, 2] * Fl.j0 2 + P1.get [1, 2, 2] * Fl.j1 2)) / (3000 : ℝ) := by
  have n1 : numDipoles marineK.src = 1 := by simp [numDipoles, marineK]
  have n2 : numDipoles marineK.rcv = 3 := by simp [numDipoles, marineK]
  obtain ⟨arr, P0, P1, h1, h2, h3⟩ := C54_filter_partial (m := Mins.init) (by norm_num [Mins.init]) (o := Ops.exact) csqrt R Fl
    (junk := fun _ => 0) (A := { marineK with wavenumber := .array (.vec
        [Fl.base 0 / 3000, Fl.base 1 / 3000, Fl.base 2 / 3000]) }) marine_valid marineK_describes
    (a := 2) (b := 4) (by norm_num) (by norm_num) (Or.inl (by norm_num)) rfl (xs := [0]) (ys := [0]) (zs := 950)
    (xr := [1000, 2000, 3000]) (yr := [0]) (zr := 1000) rfl rfl (by simp) (by simp) (by rw [n1]; norm_num)
    (by rw [n2]; norm_num) (ρ := 3000) (by rw [hn]; rfl) none
  have r0 : rhoOf Mins.init.minOff (bc [1000, 2000, 3000] 2 - bc [0] 0) (bc [0] 2 - bc [0] 0) = 3000 := by
    have : Real.sqrt (3000 ^ 2) = 3000 := Real.sqrt_sq (by norm_num)
    simp [rhoOf, bc, Mins.init, this]
    norm_num
  have e := h3 1 (by simp [marineK]) 2 (by rw [n2]; norm_num) 0 (by rw [n1]; norm_num) r0
  rw [n2, hn] at e
  refine ⟨arr, P0, P1, h1, h2, ?_⟩
  rw [e]
  simp [Finset.sum_range_succ]

end Verif.Props
