import Verif.Lemmas.User
import Verif.Props.C16_Poles
import Verif.Props.C17_Fem
import Verif.Props.C18_Dlf
import Verif.Props.C03_Symmetries
import Verif.Props.C09_CheckAb
import Verif.Props.C36_Fullspace
import Verif.Props.C01_Maxwell

/-!
# C44: the array returned by `dipole` is the field of the medium the user described
-/

namespace Verif.Props
open Verif.Py Verif.Py.W Verif.Utils Verif.Spec Verif.Model Verif.Kernel Verif.Lemmas Verif.Transform

/-! ## Helper lemmas -/

theorem reshapeF_get (nf nrec nsrc : ℕ) (v : ℕ → ℕ → ℂ) {f r s : ℕ} (hr : r < nrec) (hs : s < nsrc) :
    (reshapeF nf nrec nsrc v).get [f, r, s] = v f (r + nrec * s) := by
  have e1 : ((f * nrec + r) * nsrc + s) / nsrc = f * nrec + r := by
    rw [Nat.add_comm, Nat.add_mul_div_right _ _ (by omega), Nat.div_eq_of_lt hs, Nat.zero_add]
  have e2 : ((f * nrec + r) * nsrc + s) % nsrc = s := by
    rw [Nat.add_comm, Nat.add_mul_mod_self_right, Nat.mod_eq_of_lt hs]
  have e3 : (f * nrec + r) / nrec = f := by
    rw [Nat.add_comm, Nat.add_mul_div_right _ _ (by omega), Nat.div_eq_of_lt hr, Nat.zero_add]
  have e4 : (f * nrec + r) % nrec = r := by
    rw [Nat.add_comm, Nat.add_mul_mod_self_right, Nat.mod_eq_of_lt hr]
  simp only [reshapeF, NdArray.get, List.zip_cons_cons, List.zip_nil_right, List.foldl_cons, List.foldl_nil,
    Nat.zero_mul, Nat.zero_add, e1, e2, e3, e4]

theorem ofExcept_bind {α β : Type} (x : Except PyErr α) (f : α → W β) (b : β) :
    (ofExcept x >>= f).val = .ok b ↔ ∃ a, x = .ok a ∧ (f a).val = .ok b := bind_eq_ok

/-- Which coordinates `check_dipole` accepts. -/
def CoordsOK (c : List (List ℝ)) : Prop :=
  ∃ x y z, c = [x, y, [z]] ∧ (x.length = y.length ∨ x.length = 1 ∨ y.length = 1)

/-- Number of dipoles. -/
def numDipoles (c : List (List ℝ)) : ℕ :=
  match c with
  | [x, y, _] => if x.length = 1 then y.length else x.length
  | _ => 0

theorem checkDipole_iff (c : List (List ℝ)) :
    (∃ p, checkDipole c = .ok p) ↔ CoordsOK c := by
  constructor
  · rintro ⟨p, h⟩
    match c, h with
    | [], h => cases h
    | [_], h => cases h
    | [_, _], h => cases h
    | _ :: _ :: _ :: _ :: _, h => cases h
    | [x, y, z], h =>
      unfold checkDipole expandXY at h
      simp only at h
      have hz : ∀ {q}, oneDepth z q = .ok p → ∃ a, z = [a] := by
        intro q hq
        match z, hq with
        | [a], _ => exact ⟨a, rfl⟩
      by_cases c1 : x.length ≠ y.length
      · rw [if_pos c1] at h
        by_cases c2 : x.length = 1
        · rw [if_pos c2] at h
          obtain ⟨a, rfl⟩ := hz (q := (List.replicate y.length (x.headD 0), y)) h
          exact ⟨x, y, a, rfl, by simp [c2]⟩
        · rw [if_neg c2] at h
          by_cases c3 : y.length = 1
          · rw [if_pos c3] at h
            obtain ⟨a, rfl⟩ := hz (q := (x, List.replicate x.length (y.headD 0))) h
            exact ⟨x, y, a, rfl, by simp [c3]⟩
          · rw [if_neg c3] at h; cases h
      · rw [if_neg c1] at h
        push Not at c1
        obtain ⟨a, rfl⟩ := hz (q := (x, y)) h
        exact ⟨x, y, a, rfl, by simp [c1]⟩
  · rintro ⟨x, y, z, rfl, h⟩
    unfold checkDipole expandXY
    simp only
    by_cases c1 : x.length ≠ y.length
    · rw [if_pos c1]
      by_cases c2 : x.length = 1
      · rw [if_pos c2]; exact ⟨_, rfl⟩
      · rw [if_neg c2, if_pos (by tauto)]; exact ⟨_, rfl⟩
    · rw [if_neg c1]; exact ⟨_, rfl⟩

/-- What an accepted set of coordinates becomes. -/
theorem checkDipole_ok {c : List (List ℝ)} {p : List ℝ × List ℝ × ℝ} (h : checkDipole c = .ok p) :
    ∃ x y z, c = [x, y, [z]] ∧ p.2.2 = z ∧ p.1.length = numDipoles c ∧
      ∀ k < p.1.length, p.1.getD k 0 = bc x k ∧ p.2.1.getD k 0 = bc y k := by
  obtain ⟨x, y, z, rfl, hl⟩ := (checkDipole_iff c).1 ⟨p, h⟩
  have hrep : ∀ {l : List ℝ} {n k : ℕ}, l.length = 1 → k < n →
      (List.replicate n (l.headD 0)).getD k 0 = bc l k := by
    intro l n k hl hk
    unfold bc
    rw [if_pos hl, List.getD_eq_getElem _ _ (by simpa using hk), List.getElem_replicate]
  have hsame : ∀ {l : List ℝ} {k : ℕ}, k < l.length → l.getD k 0 = bc l k := by
    intro l k hk
    unfold bc
    split_ifs with hl
    · obtain ⟨a, rfl⟩ := List.length_eq_one_iff.1 hl
      have : k = 0 := by simpa using hk
      subst this; rfl
    · rfl
  refine ⟨x, y, z, rfl, ?_⟩
  unfold checkDipole expandXY at h
  simp only at h
  by_cases c1 : x.length ≠ y.length
  · rw [if_pos c1] at h
    by_cases c2 : x.length = 1
    · rw [if_pos c2] at h
      obtain rfl : ((List.replicate y.length (x.headD 0), y, z) : List ℝ × List ℝ × ℝ) = p :=
        Except.ok.inj h
      refine ⟨rfl, by simp [numDipoles, c2], fun k hk => ?_⟩
      simp only [List.length_replicate] at hk
      exact ⟨hrep c2 hk, hsame hk⟩
    · rw [if_neg c2] at h
      by_cases c3 : y.length = 1
      · rw [if_pos c3] at h
        obtain rfl : ((x, List.replicate x.length (y.headD 0), z) : List ℝ × List ℝ × ℝ) = p :=
          Except.ok.inj h
        exact ⟨rfl, by simp [numDipoles, c2], fun k hk => ⟨hsame hk, hrep c3 hk⟩⟩
      · rw [if_neg c3] at h; cases h
  · rw [if_neg c1] at h
    push Not at c1
    obtain rfl : ((x, y, z) : List ℝ × List ℝ × ℝ) = p := Except.ok.inj h
    refine ⟨rfl, ?_, fun k hk => ⟨hsame hk, hsame (by rw [← c1]; exact hk)⟩⟩
    simp only [numDipoles]
    split_ifs with q
    · exact c1
    · rfl

theorem checkDipole_err {c : List (List ℝ)} {e : PyErr} (h : checkDipole c = .error e) :
    e = .valueError := by
  match c, h with
  | [], h => cases h; rfl
  | [_], h => cases h; rfl
  | [_, _], h => cases h; rfl
  | _ :: _ :: _ :: _ :: _, h => cases h; rfl
  | [x, y, z], h =>
    have hz : ∀ {q}, oneDepth z q = .error e → e = .valueError := by
      intro q hq
      match z, hq with
      | [], hq => cases hq; rfl
      | _ :: _ :: _, hq => cases hq; rfl
    unfold checkDipole expandXY at h
    simp only at h
    split_ifs at h
    · exact hz (q := (List.replicate y.length (x.headD 0), y)) h
    · exact hz (q := (x, List.replicate x.length (y.headD 0))) h
    · cases h; rfl
    · exact hz (q := (x, y)) h

/-- Offsets and angles as `fem` gets them. -/
noncomputable def offsOf (m : Mins) (junk : ℕ → ℝ) (src rcv : List ℝ × List ℝ × ℝ) : List (ℝ × ℝ) :=
  let oa := getOffAng m (src.1.getD · 0) (src.2.1.getD · 0) (rcv.1.getD · 0) (rcv.2.1.getD · 0)
    src.1.length rcv.1.length junk junk
  (List.range (src.1.length * rcv.1.length)).map fun k => (oa.1 k, oa.2 k)

/-- What `dipole` passes to `fem`. -/
noncomputable def femOf (B : Back) (A : DipoleArgs) (mo : ModelOut) (fo : FreqOut) (c : ℕ × Bool × Bool)
    (src rcv : List ℝ × List ℝ × ℝ) : HankelOut :=
  let oa := getOffAng B.m (src.1.getD · 0) (src.2.1.getD · 0) (rcv.1.getD · 0) (rcv.2.1.getD · 0)
    src.1.length rcv.1.length B.junk B.junk
  let lsrc := layerOf mo.depth src.2.2
  let lrec := layerOf mo.depth rcv.2.2
  let lp := checkLoop A.loop B.ht B.ptsPerDec
  fem (B.hank src.2.2 rcv.2.2 lsrc lrec c.1 c.2.1 c.2.2)
    (fun i j => (Fullspace.fullspace B.sqrt ((rowsOf mo.depth fo).map (medAt lrec)) (oa.1 j) (oa.2 j)
      src.2.2 rcv.2.2 c.1 c.2.1 c.2.2).getD i 0) c.1 (offsOf B.m B.junk src rcv) (rowsOf mo.depth fo)
    (lsrc == lrec) A.xdirect mo.isfullspace c.2.1 c.2.2 lp.1 lp.2 true

theorem dipoleTail_iff (B : Back) (A : DipoleArgs) (post : Post) (mo : ModelOut) (fo : FreqOut) (arr : NdArray) :
    (dipoleTail B A post mo fo).val = .ok arr ↔ ∃ c src rcv EM,
      checkAb A.ab = .ok c ∧ checkDipole A.src = .ok src ∧ checkDipole A.rcv = .ok rcv ∧
      (post fo.freq (rcv.1.length * src.1.length) (femOf B A mo fo c src rcv).val).val = .ok EM ∧
      rcv.1.length * src.1.length ≠ 0 ∧
      arr = reshapeF EM.1 rcv.1.length src.1.length EM.2 := by
  unfold dipoleTail
  simp only [bind_eq_ok, say_val, Model.ofExcept]
  constructor
  · rintro ⟨c, h3, src, h4, rcv, h5, _, -, EM, hp, h6⟩
    refine ⟨c, src, rcv, EM, h3, h4, h5, hp, ?_⟩
    split_ifs at h6 with h0
    · cases h6
    · exact ⟨h0, (Except.ok.inj h6).symm⟩
  · rintro ⟨c, src, rcv, EM, h3, h4, h5, hp, h0, rfl⟩
    refine ⟨c, h3, src, h4, rcv, h5, (), trivial, EM, hp, ?_⟩
    rw [if_neg h0]
    rfl

theorem dipoleWith_iff (B : Back) (A : DipoleArgs) (post : Post) (arr : NdArray) :
    (dipoleWith B A post).val = .ok arr ↔ ∃ mo fo c src rcv EM,
      (checkModel B.m A.depth A.res A.aniso A.epermH A.epermV A.mpermH A.mpermV A.xdirect A.verb).val =
        .ok mo ∧
      (checkFrequency B.m A.freq mo.res mo.aniso mo.epermH mo.epermV mo.mpermH mo.mpermV A.verb).val =
        .ok fo ∧
      checkAb A.ab = .ok c ∧ checkDipole A.src = .ok src ∧ checkDipole A.rcv = .ok rcv ∧
      (post fo.freq (rcv.1.length * src.1.length) (femOf B A mo fo c src rcv).val).val = .ok EM ∧
      rcv.1.length * src.1.length ≠ 0 ∧
      arr = reshapeF EM.1 rcv.1.length src.1.length EM.2 := by
  unfold dipoleWith
  simp only [bind_eq_ok, dipoleTail_iff]
  constructor
  · rintro ⟨mo, h1, fo, h2, c, src, rcv, EM, h⟩
    exact ⟨mo, fo, c, src, rcv, EM, h1, h2, h⟩
  · rintro ⟨mo, fo, c, src, rcv, EM, h1, h2, h⟩
    exact ⟨mo, h1, fo, h2, c, src, rcv, EM, h⟩

theorem dipoleFull_iff (B : Back) (A : DipoleArgs) (arr : NdArray) :
    (dipoleFull B A).val = .ok arr ↔ ∃ mo fo c src rcv,
      (checkModel B.m A.depth A.res A.aniso A.epermH A.epermV A.mpermH A.mpermV A.xdirect A.verb).val =
        .ok mo ∧
      (checkFrequency B.m A.freq mo.res mo.aniso mo.epermH mo.epermV mo.mpermH mo.mpermV A.verb).val =
        .ok fo ∧
      checkAb A.ab = .ok c ∧ checkDipole A.src = .ok src ∧ checkDipole A.rcv = .ok rcv ∧
      rcv.1.length * src.1.length ≠ 0 ∧
      arr = reshapeF fo.freq.length rcv.1.length src.1.length (femOf B A mo fo c src rcv).val := by
  unfold dipoleFull
  rw [dipoleWith_iff]
  constructor
  · rintro ⟨mo, fo, c, src, rcv, EM, h1, h2, h3, h4, h5, hp, h0, rfl⟩
    obtain rfl := Except.ok.inj hp
    exact ⟨mo, fo, c, src, rcv, h1, h2, h3, h4, h5, h0, rfl⟩
  · rintro ⟨mo, fo, c, src, rcv, h1, h2, h3, h4, h5, h0, rfl⟩
    exact ⟨mo, fo, c, src, rcv, _, h1, h2, h3, h4, h5, rfl, h0, rfl⟩

/-! ## Acceptance -/

/-- **C44, acceptance.**  `dipole` returns an array exactly if the model is accepted (`C11_accept`), the
truncated code is one of the 36 codes, sources and receivers have three coordinates of matching lengths
with a single depth, and there is at least one source and one receiver.  Everything else raises
`ValueError`, or `TypeError` if the code is not a number. -/
theorem C44_accept (B : Back) (A : DipoleArgs) :
    ((∃ arr, (dipole B A).val = .ok arr) ↔
      (∃ mo, (checkModel B.m A.depth A.res A.aniso A.epermH A.epermV A.mpermH A.mpermV A.xdirect
        A.verb).val = .ok mo) ∧
      (∃ a b : ℕ, (1 ≤ a ∧ a ≤ 6) ∧ (1 ≤ b ∧ b ≤ 6) ∧ toInt A.ab = .ok (10 * a + b)) ∧
      CoordsOK A.src ∧ CoordsOK A.rcv ∧ 0 < numDipoles A.src ∧ 0 < numDipoles A.rcv) ∧
    ∀ e, (dipole B A).val = .error e → e = .valueError ∨ (e = .typeError ∧ A.ab = .other) := by
  have hab : (∃ c, checkAb A.ab = .ok c) ↔
      ∃ a b : ℕ, (1 ≤ a ∧ a ≤ 6) ∧ (1 ≤ b ∧ b ≤ 6) ∧ toInt A.ab = .ok (10 * a + b) := by
    constructor
    · rintro ⟨⟨c, ms, mr⟩, h⟩
      obtain ⟨a, b, ha, hb, h1, -⟩ := reach h
      exact ⟨a, b, ha, hb, h1⟩
    · rintro ⟨a, b, ha, hb, h1⟩
      obtain ⟨v, hv⟩ := (C09_accept (10 * a + b)).2 ⟨a, b, ha, hb, rfl⟩
      refine ⟨v, ?_⟩
      unfold checkAb at hv ⊢
      rw [h1]; exact hv
  have hd : (∃ arr, (dipole B A).val = .ok arr) ↔ ∃ arr, (dipoleFull B A).val = .ok arr := by
    unfold dipole
    simp only [bind_eq_ok, pure_val, Except.ok.injEq]
    constructor
    · rintro ⟨_, a, h, -⟩; exact ⟨a, h⟩
    · rintro ⟨a, h⟩; exact ⟨_, a, h, rfl⟩
  constructor
  · rw [hd]
    constructor
    · rintro ⟨arr, h⟩
      obtain ⟨mo, fo, c, src, rcv, h1, h2, h3, h4, h5, h0, -⟩ := (dipoleFull_iff B A arr).1 h
      obtain ⟨_, _, _, -, -, n1, -⟩ := checkDipole_ok h4
      obtain ⟨_, _, _, -, -, n2, -⟩ := checkDipole_ok h5
      rw [n1, n2] at h0
      refine ⟨⟨mo, h1⟩, hab.1 ⟨c, h3⟩, (checkDipole_iff _).1 ⟨_, h4⟩, (checkDipole_iff _).1 ⟨_, h5⟩, ?_, ?_⟩
      · exact Nat.pos_of_ne_zero fun q => h0 (by rw [q, Nat.mul_zero])
      · exact Nat.pos_of_ne_zero fun q => h0 (by rw [q, Nat.zero_mul])
    · rintro ⟨⟨mo, h1⟩, h3, h4, h5, n1, n2⟩
      obtain ⟨c, h3⟩ := hab.2 h3
      obtain ⟨src, h4⟩ := (checkDipole_iff _).2 h4
      obtain ⟨rcv, h5⟩ := (checkDipole_iff _).2 h5
      refine ⟨_, (dipoleFull_iff B A _).2 ⟨mo, _, c, src, rcv, h1, C30_frequency _ _ _ _ _ _ _ _ _, h3, h4, h5,
        ?_, rfl⟩⟩
      obtain ⟨_, _, _, -, -, m1, -⟩ := checkDipole_ok h4
      obtain ⟨_, _, _, -, -, m2, -⟩ := checkDipole_ok h5
      rw [m1, m2]
      exact Nat.mul_ne_zero n2.ne' n1.ne'
  · intro e he
    have he' : (dipoleFull B A).val = .error e := by
      unfold dipole at he
      rw [bind_val] at he
      cases hv : (dipoleFull B A).val with
      | error e' => rw [hv] at he; exact he
      | ok a => rw [hv] at he; cases he
    unfold dipoleFull dipoleWith dipoleTail inFreq at he'
    rw [bind_val] at he'
    cases h1 : (checkModel B.m A.depth A.res A.aniso A.epermH A.epermV A.mpermH A.mpermV A.xdirect
        A.verb).val with
    | error e1 =>
      rw [h1] at he'
      obtain rfl : e1 = e := Except.error.inj he'
      left
      rw [checkModel_val] at h1
      cases hq : (checkDepth A.depth).val with
      | error e2 =>
        rw [hq] at h1
        obtain rfl : e2 = e1 := Except.error.inj h1
        rw [checkDepth_val] at hq
        simp only at hq
        split_ifs at hq
        exact (Except.error.inj hq).symm
      | ok p =>
        rw [hq] at h1
        simp only at h1
        split_ifs at h1
        exact (Except.error.inj h1).symm
    | ok mo =>
      rw [h1] at he'
      simp only [Except.bind] at he'
      rw [bind_val, C30_frequency] at he'
      simp only [Except.bind] at he'
      rw [bind_val] at he'
      simp only [Model.ofExcept] at he'
      cases h3 : checkAb A.ab with
      | error e1 =>
        rw [h3] at he'
        obtain rfl : e1 = e := Except.error.inj he'
        cases hA : A.ab with
        | other =>
          rw [hA] at h3
          exact Or.inr ⟨(Except.error.inj h3).symm, rfl⟩
        | int n =>
          rw [hA] at h3
          left
          change checkAbInt n = _ at h3
          unfold checkAbInt at h3
          split_ifs at h3
          exact (Except.error.inj h3).symm
        | float x =>
          rw [hA] at h3
          left
          change checkAbInt _ = _ at h3
          unfold checkAbInt at h3
          split_ifs at h3
          all_goals exact (Except.error.inj h3).symm
      | ok c =>
        rw [h3] at he'
        simp only [Except.bind] at he'
        rw [bind_val] at he'
        simp only at he'
        left
        cases h4 : checkDipole A.src with
        | error e1 =>
          rw [h4] at he'
          obtain rfl : e1 = e := Except.error.inj he'
          exact checkDipole_err h4
        | ok src =>
          rw [h4] at he'
          simp only [Except.bind] at he'
          rw [bind_val] at he'
          simp only at he'
          cases h5 : checkDipole A.rcv with
          | error e1 =>
            rw [h5] at he'
            obtain rfl : e1 = e := Except.error.inj he'
            exact checkDipole_err h5
          | ok rcv =>
            rw [h5] at he'
            simp only [Except.bind] at he'
            rw [bind_val] at he'
            simp only [say_val, Except.bind] at he'
            rw [bind_val] at he'
            simp only [pure_val, Except.bind] at he'
            by_cases h0 : rcv.1.length * src.1.length = 0
            · rw [if_pos h0] at he'
              exact (Except.error.inj he').symm
            · rw [if_neg h0] at he'
              cases he'

/-! ## Snapping of the angle -/

/-- The code's angle factor is the exact factor of an azimuth at most `1e-9` away. -/
theorem angle_near (θ : ℝ) (ab : ℕ) (msrc mrec : Bool) :
    ∃ θ', |θ' - θ| ≤ 1e-9 ∧ angleFactor θ ab msrc mrec = exactFactor θ' ab msrc mrec := by
  have hpi := Real.pi_pos
  by_cases h33 : ab ∈ [33]
  · exact ⟨θ, by norm_num, by simp only [angleFactor, exactFactor, if_pos h33]⟩
  obtain ⟨k, hk⟩ : ∃ k : ℝ, k = if mrec = true ∧ msrc = false then Real.pi else 0 := ⟨_, rfl⟩
  obtain ⟨d, hd, hd0⟩ : ∃ d : ℝ, (d = if ab ∈ [11, 22, 15, 24, 12, 21, 14, 25] then 2 else 1) ∧ 1 ≤ d := by
    refine ⟨_, rfl, ?_⟩; split_ifs <;> norm_num
  have ea : ∀ x : ℝ, (if ab ∈ [11, 22, 15, 24, 12, 21, 14, 25] then
      (if mrec = true ∧ msrc = false then x + Real.pi else x) * 2
      else (if mrec = true ∧ msrc = false then x + Real.pi else x)) = (x + k) * d := by
    intro x
    rw [hk, hd]
    split_ifs <;> ring
  have hE : ∀ x, exactFactor x ab msrc mrec =
      if ab ∈ [11, 22, 15, 24, 13, 31, 26, 35] then Real.cos ((x + k) * d) else Real.sin ((x + k) * d) := by
    intro x
    unfold exactFactor
    rw [if_neg h33]
    simp only [ea]
  have snap : ∀ t : ℝ, 0 ≤ t → t ≤ 2 * Real.pi → isclose |(θ + k) * d| t 1e-10 1e-14 →
      (ab ∈ [11, 22, 15, 24, 13, 31, 26, 35] → Real.cos t = 0) →
      (ab ∉ [11, 22, 15, 24, 13, 31, 26, 35] → Real.sin t = 0) →
      ∃ θ', |θ' - θ| ≤ 1e-9 ∧ 0 = exactFactor θ' ab msrc mrec := by
    intro t t0 t1 hc h1 h2
    have hb := snap_bound (by rwa [abs_of_nonneg t0]) hc
    obtain ⟨σ, hσ, e⟩ : ∃ σ : ℝ, (σ = 1 ∨ σ = -1) ∧ (θ + k) * d = σ * |(θ + k) * d| := by
      rcases le_or_gt 0 ((θ + k) * d) with h | h
      · exact ⟨1, Or.inl rfl, by rw [abs_of_nonneg h]; ring⟩
      · exact ⟨-1, Or.inr rfl, by rw [abs_of_neg h]; ring⟩
    have hd' : d ≠ 0 := by linarith
    refine ⟨σ * t / d - k, ?_, ?_⟩
    · have e1 : σ * t / d - k - θ = σ * (t - |(θ + k) * d|) / d := by
        rw [mul_sub, ← e]; field_simp; ring
      rw [e1, abs_div, abs_mul, abs_sub_comm t]
      have s1 : |σ| = 1 := by rcases hσ with rfl | rfl <;> norm_num
      rw [s1, one_mul, abs_of_pos (show 0 < d by linarith)]
      exact (div_le_self (abs_nonneg _) hd0).trans hb
    · rw [hE]
      have e2 : (σ * t / d - k + k) * d = σ * t := by field_simp; ring
      rw [e2]
      split_ifs with hq
      · rcases hσ with rfl | rfl
        · rw [one_mul, h1 hq]
        · rw [neg_one_mul, Real.cos_neg, h1 hq]
      · rcases hσ with rfl | rfl
        · rw [one_mul, h2 hq]
        · rw [neg_one_mul, Real.sin_neg, h2 hq, neg_zero]
  have c3 : Real.cos (3 * Real.pi / 2) = 0 := by
    rw [show 3 * Real.pi / 2 = Real.pi / 2 + Real.pi by ring, Real.cos_add_pi, Real.cos_pi_div_two, neg_zero]
  unfold angleFactor
  rw [if_neg h33]
  dsimp only
  have ha := ea θ
  generalize (if ab ∈ [11, 22, 15, 24, 12, 21, 14, 25] then
      (if mrec = true ∧ msrc = false then θ + Real.pi else θ) * 2
      else (if mrec = true ∧ msrc = false then θ + Real.pi else θ)) = a1 at ha ⊢
  subst ha
  by_cases hc : ab ∈ [11, 22, 15, 24, 13, 31, 26, 35]
  · rw [if_pos hc, if_pos hc, if_pos hc]
    by_cases t1 : isclose |(θ + k) * d| (Real.pi / 2) 1e-10 1e-14
    · rw [if_pos t1]
      exact snap _ (by positivity) (by linarith) t1 (fun _ => Real.cos_pi_div_two) (fun h => absurd hc h)
    rw [if_neg t1]
    by_cases t2 : isclose |(θ + k) * d| (3 * Real.pi / 2) 1e-10 1e-14
    · rw [if_pos t2]
      exact snap _ (by positivity) (by linarith) t2 (fun _ => c3) (fun h => absurd hc h)
    rw [if_neg t2]
    exact ⟨θ, by norm_num, by rw [hE, if_pos hc]⟩
  · rw [if_neg hc, if_neg hc, if_neg hc]
    by_cases t1 : isclose |(θ + k) * d| Real.pi 1e-10 1e-14
    · rw [if_pos t1]
      exact snap _ (by positivity) (by linarith) t1 (fun h => absurd h hc) (fun _ => Real.sin_pi)
    rw [if_neg t1]
    by_cases t2 : isclose |(θ + k) * d| (2 * Real.pi) 1e-10 1e-14
    · rw [if_pos t2]
      exact snap _ (by positivity) (by linarith) t2 (fun h => absurd h hc) (fun _ => Real.sin_two_pi)
    rw [if_neg t2]
    exact ⟨θ, by norm_num, by rw [hE, if_neg hc]⟩

/-! ## Entries -/

/-- An integration rule for Hankel transforms: a value for every offset and every integrand, given as
function of wavenumber and of the values of the Bessel functions. -/
abbrev HRule := ℝ → (ℝ → ℂ → ℂ → ℂ) → ℂ

/-- What is integrated. -/
noncomputable def hIntegrand (o : Ops) (E : Earth) (zs zr : ℝ) (ls lr : ℤ) (abc : ℕ) (xd ms mr : Bool)
    (ρ f : ℝ) : ℝ → ℂ → ℂ → ℂ := fun lam x y =>
  hankelIntegrand (wavenumber o E zs zr ls lr lam abc xd ms mr) abc ρ f x y

/-- The Hankel transform of `B` applies the rule `T` to each frequency and each offset. -/
def Uses (B : Back) (T : HRule) : Prop :=
  ∀ zs zr ls lr abc ms mr, ∃ k, Elementwise (B.hank zs zr ls lr abc ms mr)
    (fun xd E p => T p.1 (hIntegrand B.o E zs zr ls lr abc xd ms mr p.1 p.2)) k

/-- The interfaces of a user model, with or without `-inf`, with or without `inf`. -/
noncomputable def allDepths (U : UserModel) (lo hi : Bool) : List EReal :=
  (if lo then [⊥] else []) ++ (U.z.map fun z : ℝ => (z : EReal)) ++ (if hi then [⊤] else [])

/-- The arguments list the layers of the user model: top to bottom, or bottom to top (at least two depths,
no layers of zero thickness), with or without infinite depths.  The number is the layer listed first. -/
inductive Lists (A : DipoleArgs) (U : UserModel) : ℕ → Prop
  | topDown (lo hi : Bool) (depth : A.depth.getD [] = allDepths U lo hi) (res : A.res = .array U.res)
      (aniso : A.aniso = U.aniso) (epermH : A.epermH = U.epermH) (epermV : A.epermV = U.epermV)
      (mpermH : A.mpermH = U.mpermH) (mpermV : A.mpermV = U.mpermV) : Lists A U 0
  | bottomUp (lo hi : Bool) (depth : A.depth.getD [] = (allDepths U lo hi).reverse)
      (two : 2 ≤ (allDepths U lo hi).length) (strict : U.z.Pairwise (· < ·))
      (res : A.res = .array U.res.reverse)
      (aniso : A.aniso = U.aniso.map List.reverse) (epermH : A.epermH = U.epermH.map List.reverse)
      (epermV : A.epermV = U.epermV.map List.reverse) (mpermH : A.mpermH = U.mpermH.map List.reverse)
      (mpermV : A.mpermV = U.mpermV.map List.reverse) : Lists A U U.z.length

/-- The arguments describe the user model. -/
def Describes (A : DipoleArgs) (U : UserModel) : Prop := ∃ k, Lists A U k

theorem checkModel_getD (m : Mins) (d : Option (List EReal)) (res : ResArg)
    (aniso epermH epermV mpermH mpermV : Option (List ℝ)) (xd : Option Bool) (verb : ℤ) :
    (checkModel m d res aniso epermH epermV mpermH mpermV xd verb).val =
    (checkModel m (some (d.getD [])) res aniso epermH epermV mpermH mpermV xd verb).val := by
  rw [checkModel_val, checkModel_val, checkDepth_val, checkDepth_val]
  rfl

theorem allDepths_model {U : UserModel} {m : Mins} (h : U.Valid m.minRes) (lo hi : Bool) (xd : Option Bool)
    (verb : ℤ) :
    (checkModel m (some (allDepths U lo hi)) (.array U.res) U.aniso U.epermH U.epermV U.mpermH U.mpermV xd
      verb).val = .ok (userOut m U) := by
  rw [← user_checkModel h xd verb, checkModel_val, checkModel_val]
  have h1 := C10_interfaces (zs := U.z) h.order (pre := if lo then [⊥] else []) (post := if hi then [⊤] else [])
    (by cases lo <;> simp) (by cases hi <;> simp)
  have h2 := C10_interfaces (zs := U.z) h.order (pre := []) (post := []) (by simp) (by simp)
  simp only [List.nil_append, List.append_nil] at h2
  have e1 : (checkDepth (some (allDepths U lo hi))).val = (checkDepth (some (zE U))).val :=
    h1.trans h2.symm
  rw [e1]

theorem describes_checkModel {A : DipoleArgs} {U : UserModel} {m : Mins} (h : U.Valid m.minRes)
    (hA : Describes A U) :
    (checkModel m A.depth A.res A.aniso A.epermH A.epermV A.mpermH A.mpermV A.xdirect A.verb).val =
      .ok (userOut m U) := by
  obtain ⟨k, hA⟩ := hA
  rw [checkModel_getD]
  cases hA with
  | topDown lo hi depth res aniso epermH epermV mpermH mpermV =>
    rw [depth, res, aniso, epermH, epermV, mpermH, mpermV]
    exact allDepths_model h lo hi _ _
  | bottomUp lo hi depth two strict res aniso epermH epermV mpermH mpermV =>
    rw [depth, res, aniso, epermH, epermV, mpermH, mpermV, ← allDepths_model h lo hi A.xdirect A.verb]
    refine C10_reverse (res := .array U.res) ?_ two
    have hz : (U.z.map fun z : ℝ => (z : EReal)).Pairwise (· < ·) := by
      rw [List.pairwise_map]
      exact strict.imp fun h => EReal.coe_lt_coe_iff.2 h
    unfold allDepths
    rw [List.pairwise_append, List.pairwise_append]
    refine ⟨⟨by cases lo <;> simp, hz, ?_⟩, by cases hi <;> simp, ?_⟩
    · intro a ha b hb
      obtain ⟨z, -, rfl⟩ := List.mem_map.1 hb
      cases lo <;> simp at ha
      rw [ha]; exact EReal.bot_lt_coe z
    · intro a ha b hb
      cases hi <;> simp at hb
      rw [hb]
      rcases List.mem_append.1 ha with q | q
      · cases lo <;> simp at q
        rw [q]; exact bot_lt_top
      · obtain ⟨z, -, rfl⟩ := List.mem_map.1 q
        exact EReal.coe_lt_top z

/-- Medium parameters of one layer as the closed form takes them. -/
def layerMed (M : Medium) (i : ℤ) : Fullspace.Med := ⟨M.etaH i, M.etaV i, M.zetaH i, M.zetaV i⟩

/-- Offset and azimuth of a pair. -/
noncomputable def rhoOf (minOff dx dy : ℝ) : ℝ := max (Real.sqrt (dx ^ 2 + dy ^ 2)) minOff
@[inherit_doc rhoOf]
noncomputable def thetaOf (dx dy : ℝ) : ℝ := Complex.arg ⟨dx, dy⟩

open Classical in
/-- Entries for arbitrary layer parameters whose rows are those of the media `M`. -/
theorem tail_entry {B : Back} {T : HRule} (hT : Uses B T) {A : DipoleArgs} {mo : ModelOut} {fo : FreqOut}
    {M : ℕ → Medium} (hrows : rowsOf mo.depth fo = (List.range fo.freq.length).map fun g => earthOf (M g))
    {abc : ℕ} {ms mr : Bool}
    (hab : checkAb A.ab = .ok (abc, ms, mr)) {xs ys xr yr : List ℝ} {zs zr : ℝ}
    (hsrc : A.src = [xs, ys, [zs]]) (hrcv : A.rcv = [xr, yr, [zr]])
    (ls : xs.length = ys.length ∨ xs.length = 1 ∨ ys.length = 1)
    (lr : xr.length = yr.length ∨ xr.length = 1 ∨ yr.length = 1)
    (ns : 0 < numDipoles A.src) (nr : 0 < numDipoles A.rcv) :
    ∃ arr, (dipoleTail B A inFreq mo fo).val = .ok arr ∧
      arr.shape = [fo.freq.length, numDipoles A.rcv, numDipoles A.src] ∧
      ∀ (f r s : ℕ), f < fo.freq.length → r < numDipoles A.rcv → s < numDipoles A.src →
        let ls := layerOf mo.depth zs
        let lr := layerOf mo.depth zr
        let ρ := rhoOf B.m.minOff (bc xr r - bc xs s) (bc yr r - bc ys s)
        let θ := thetaOf (bc xr r - bc xs s) (bc yr r - bc ys s)
        arr.get [f, r, s] =
          (if abc ≠ 36 ∧ Direct A.xdirect mo.isfullspace (ls == lr) then
            (Fullspace.fullspace B.sqrt ((List.range fo.freq.length).map fun g => layerMed (M g) lr) ρ θ zs zr abc
              ms mr).getD f 0
            else 0) +
          (if Skipped abc A.xdirect mo.isfullspace then 0 else
            T ρ (hIntegrand B.o (earthOf (M f)) zs zr ls lr abc (A.xdirect.getD true) ms mr ρ
              (angleFactor θ abc ms mr))) := by
  obtain ⟨src, h4⟩ := (checkDipole_iff A.src).2 ⟨xs, ys, zs, hsrc, ls⟩
  obtain ⟨rcv, h5⟩ := (checkDipole_iff A.rcv).2 ⟨xr, yr, zr, hrcv, lr⟩
  obtain ⟨x1, y1, z1, e1, zs1, n1, v1⟩ := checkDipole_ok h4
  obtain ⟨x2, y2, z2, e2, zr1, n2, v2⟩ := checkDipole_ok h5
  rw [hsrc] at e1
  rw [hrcv] at e2
  simp only [List.cons.injEq, and_true] at e1 e2
  obtain ⟨rfl, rfl, rfl⟩ := e1
  obtain ⟨rfl, rfl, rfl⟩ := e2
  obtain ⟨sx, sy, sz⟩ := src
  obtain ⟨rx, ry, rz⟩ := rcv
  simp only at zs1 zr1 n1 n2 v1 v2
  subst zs1 zr1
  refine ⟨_, (dipoleTail_iff B A _ _ _ _).2 ⟨(abc, ms, mr), _, _, _, hab, h4, h5, rfl, ?_, rfl⟩, ?_, ?_⟩
  · rw [n1, n2]; exact Nat.mul_ne_zero nr.ne' ns.ne'
  · simp only [reshapeF, n1, n2]
  intro f r s hf hr hs ls' lr' ρ θ
  rw [← n1] at hs
  rw [← n2] at hr
  rw [reshapeF_get _ _ _ _ hr hs]
  have hj : r + rx.length * s < (offsOf B.m B.junk (sx, sy, sz) (rx, ry, rz)).length := by
    simp only [offsOf, List.length_map, List.length_range]
    calc r + rx.length * s < rx.length * (s + 1) := by rw [Nat.mul_succ]; omega
      _ ≤ rx.length * sx.length := Nat.mul_le_mul_left _ hs
      _ = sx.length * rx.length := Nat.mul_comm _ _
  obtain ⟨o1, o2⟩ := off_ang_eq B.m (sx.getD · 0) (sy.getD · 0) (rx.getD · 0) (ry.getD · 0)
    sx.length rx.length B.junk B.junk hs hr
  have hidx : r + rx.length * s = s * rx.length + r := by ring
  simp only [(v1 s hs).1, (v1 s hs).2, (v2 r hr).1, (v2 r hr).2] at o1 o2
  have hoff : (offsOf B.m B.junk (sx, sy, sz) (rx, ry, rz))[r + rx.length * s] = (ρ, θ) := by
    simp only [offsOf, List.getElem_map, List.getElem_range]
    rw [hidx, o1, o2]
    rfl
  obtain ⟨k, hk⟩ := hT sz rz ls' lr' abc ms mr
  unfold femOf
  dsimp only
  have hfem := (C17_fem hk
    (fun i j => (Fullspace.fullspace B.sqrt ((rowsOf mo.depth fo).map
      (medAt (layerOf mo.depth rz)))
      ((getOffAng B.m (sx.getD · 0) (sy.getD · 0) (rx.getD · 0) (ry.getD · 0)
    sx.length rx.length B.junk B.junk).1 j) ((getOffAng B.m (sx.getD · 0) (sy.getD · 0) (rx.getD · 0) (ry.getD · 0)
    sx.length rx.length B.junk B.junk).2 j)
      sz rz abc ms mr).getD i 0) abc (offsOf B.m B.junk (sx, sy, sz) (rx, ry, rz))
    (rowsOf mo.depth fo) (layerOf mo.depth sz ==
      layerOf mo.depth rz) A.xdirect mo.isfullspace ms mr (checkLoop A.loop B.ht B.ptsPerDec).1
    (checkLoop A.loop B.ht B.ptsPerDec).2 true).1 f (r + rx.length * s)
    (by rw [hrows]; simpa using hf) hj
  refine hfem.trans ?_
  simp only [hoff]
  have hrow : ∀ h, (rowsOf mo.depth fo)[f]'h = earthOf (M f) := by
    intro h
    simp only [hrows, List.getElem_map, List.getElem_range]
  rw [hrow]
  congr 1
  have : (rowsOf mo.depth fo).map (medAt lr') = (List.range fo.freq.length).map fun g => layerMed (M g) lr' := by
    rw [hrows, List.map_map]; rfl
  rw [this, hidx, o1, o2]
  rfl

theorem map_range_getD {α : Type} (l : List ℝ) (g : ℝ → α) :
    (List.range l.length).map (fun i => g (l.getD i 0)) = l.map g := by
  apply List.ext_getElem
  · simp
  intro i i1 i2
  have hi : i < l.length := by simpa using i2
  simp only [List.getElem_map, List.getElem_range, getD_eq hi]

/-- The arrays of a valid user model are those of its media. -/
theorem user_rows {m : Mins} (hm : 0 < m.minRes) {U : UserModel} (hU : U.Valid m.minRes) {freq : List ℝ} {fo : FreqOut}
    {verb : ℤ} (h : (checkFrequency m freq (userOut m U).res (userOut m U).aniso (userOut m U).epermH
      (userOut m U).epermV (userOut m U).mpermH (userOut m U).mpermV verb).val = .ok fo) :
    fo.freq.length = freq.length ∧ rowsOf (userOut m U).depth fo = (List.range freq.length).map fun g =>
      earthOf (U.medium (sParam m.minFreq freq (freq.getD g 0))) := by
  rw [C30_frequency] at h
  have hfo := Except.ok.inj h
  refine ⟨by simp [← hfo], ?_⟩
  rw [map_range_getD freq (fun g => earthOf (U.medium (sParam m.minFreq freq g)))]
  apply List.ext_getElem
  · simp [rowsOf, ← hfo]
  intro i i1 i2
  have hi : i < freq.length := by simpa using i2
  simp only [rowsOf, List.getElem_map, List.getElem_range, ← hfo]
  rw [getD_eq (by simpa using hi), getD_eq (by simpa using hi), getD_eq (by simpa using hi),
    getD_eq (by simpa using hi)]
  simp only [List.getElem_map]
  exact user_row hm hU _

theorem dipoleFull_tail {B : Back} {A : DipoleArgs} {mo : ModelOut} {fo : FreqOut}
    (h1 : (checkModel B.m A.depth A.res A.aniso A.epermH A.epermV A.mpermH A.mpermV A.xdirect A.verb).val = .ok mo)
    (h2 : (checkFrequency B.m A.freq mo.res mo.aniso mo.epermH mo.epermV mo.mpermH mo.mpermV A.verb).val = .ok fo) :
    (dipoleFull B A).val = (dipoleTail B A inFreq mo fo).val := by
  unfold dipoleFull dipoleWith
  rw [bind_ok h1, bind_ok h2]

open Classical in
/-- **C44, entries.**  For a valid user model, accepted coordinates and an accepted code: the array has
shape (frequencies, receivers, sources), and every entry is built from the medium of its own frequency
and the coordinates of its own receiver and source. -/
theorem C44_entry {B : Back} (hm : 0 < B.m.minRes) {T : HRule} (hT : Uses B T) {A : DipoleArgs}
    {U : UserModel} (hU : U.Valid B.m.minRes) (hA : Describes A U) {abc : ℕ} {ms mr : Bool}
    (hab : checkAb A.ab = .ok (abc, ms, mr)) {xs ys xr yr : List ℝ} {zs zr : ℝ}
    (hsrc : A.src = [xs, ys, [zs]]) (hrcv : A.rcv = [xr, yr, [zr]])
    (ls : xs.length = ys.length ∨ xs.length = 1 ∨ ys.length = 1)
    (lr : xr.length = yr.length ∨ xr.length = 1 ∨ yr.length = 1)
    (ns : 0 < numDipoles A.src) (nr : 0 < numDipoles A.rcv) :
    ∃ arr, (dipoleFull B A).val = .ok arr ∧
      arr.shape = [A.freq.length, numDipoles A.rcv, numDipoles A.src] ∧
      ∀ (f r s : ℕ) (hf : f < A.freq.length), r < numDipoles A.rcv → s < numDipoles A.src →
        let M := fun g => U.medium (sParam B.m.minFreq A.freq g)
        let ls := layerOf (userOut B.m U).depth zs
        let lr := layerOf (userOut B.m U).depth zr
        let ρ := rhoOf B.m.minOff (bc xr r - bc xs s) (bc yr r - bc ys s)
        let θ := thetaOf (bc xr r - bc xs s) (bc yr r - bc ys s)
        let full := (userOut B.m U).isfullspace
        arr.get [f, r, s] =
          (if abc ≠ 36 ∧ Direct A.xdirect full (ls == lr) then
            (Fullspace.fullspace B.sqrt (A.freq.map fun g => layerMed (M g) lr) ρ θ zs zr abc ms mr).getD f 0
            else 0) +
          (if Skipped abc A.xdirect full then 0 else
            T ρ (hIntegrand B.o (earthOf (M A.freq[f])) zs zr ls lr abc (A.xdirect.getD true) ms mr ρ
              (angleFactor θ abc ms mr))) := by
  have h1 := describes_checkModel hU hA
  have h2 := C30_frequency B.m A.freq (userOut B.m U).res (userOut B.m U).aniso (userOut B.m U).epermH
    (userOut B.m U).epermV (userOut B.m U).mpermH (userOut B.m U).mpermV A.verb
  obtain ⟨hl, hrows⟩ := user_rows hm hU h2
  rw [← hl] at hrows
  obtain ⟨arr, e1, e2, e3⟩ := tail_entry hT hrows hab hsrc hrcv ls lr ns nr
  rw [hl] at e2
  refine ⟨arr, (dipoleFull_tail h1 h2).trans e1, e2, ?_⟩
  intro f r s hf hr hs M ls' lr' ρ θ full
  have e := e3 f r s (by rw [hl]; exact hf) hr hs
  simp only [hl, getD_eq hf] at e
  rw [map_range_getD A.freq (fun g => layerMed (U.medium (sParam B.m.minFreq A.freq g)) _)] at e
  exact e

/-! ## The field -/

/-- In a medium of one material the field is the field of the homogeneous medium. -/
theorem plane_uniform {M : Medium} (hM : M.OK) {lam : ℝ} (hlam : 0 < lam) (φ : ℝ) {s r : ℤ} {zs zr : ℝ}
    (hs : M.InClosed s zs) (hr : M.InClosed r zr) (hu : M.Uniform s) {d : Dipole} {F Fh : PlaneField}
    (hF : IsPlaneField M (lam * Real.cos φ) (lam * Real.sin φ) zs s d F)
    (hH : IsPlaneField (M.homog s) (lam * Real.cos φ) (lam * Real.sin φ) zs 0 d Fh) {a : ℕ}
    (ha : 1 ≤ a ∧ a ≤ 6) : F.comp a r zr = Fh.comp a 0 zr := by
  have hn : (0 : ℤ) < M.n := hM.pos
  obtain ⟨Ao, Bo, Ae, Be, R1⟩ := resp_exists (OK.tm_ord hM lam) (OK.tm_pas hM lam) hs zr r false
  obtain ⟨Ao', Bo', Ae', Be', R2⟩ := resp_exists (OK.te_ord hM lam) (OK.te_pas hM lam) hs zr r false
  have e : ∀ (z : ℝ), (M.homog s).InClosed 0 z := fun z =>
    ⟨le_refl _, by simp [Medium.homog], by simp, by simp [Medium.homog]⟩
  have h1 := plane_polar hM hlam.ne' hs hr φ hF hH R1 R2
  have Q1 : Verif.Lemmas.Resp ((M.homog s).tm lam) zs zr 0 0 false Ao Bo Ae Be :=
    resp_same (S := M.tm lam) hn ((uniform_same hu).tm lam) rfl rfl (by simp) R1
  have Q2 : Verif.Lemmas.Resp ((M.homog s).te lam) zs zr 0 0 false Ao' Bo' Ae' Be' :=
    resp_same (S := M.te lam) hn ((uniform_same hu).te lam) rfl rfl (by simp) R2
  have h2 := plane_polar (OK.homog hM hs.1 hs.2.1) hlam.ne' (e zs) (e zr) φ hH
    (Fh := Fh) hH Q1 Q2
  obtain ⟨-, u2, -, u4⟩ := hu r hr.1 hr.2.1
  simp only [xcomp, Bool.false_eq_true, false_and, if_false, sub_zero] at h1 h2
  have hs2 : (M.homog s).etaV 0 = M.etaV s := rfl
  have hs4 : (M.homog s).zetaV 0 = M.zetaV s := rfl
  rw [u2, u4] at h1
  rw [hs2, hs4] at h2
  obtain ⟨a1, a2, a3, a4, a5, a6⟩ := h1
  obtain ⟨b1, b2, b3, b4, b5, b6⟩ := h2
  obtain ⟨l, u⟩ := ha
  interval_cases a
  · exact a1.trans b1.symm
  · exact a2.trans b2.symm
  · exact a3.trans b3.symm
  · exact a4.trans b4.symm
  · exact a5.trans b5.symm
  · exact a6.trans b6.symm

/-- A rule for integrals over wavenumbers, used on the integrands with the actual Bessel functions. -/
noncomputable def besselRule (T : ℝ → (ℝ → ℂ) → ℂ) : HRule := fun ρ g =>
  T ρ fun lam => g lam (besselJ0 (lam * ρ)) (besselJ1 (lam * ρ))

/-- At positive offsets the rule looks at positive wavenumbers only; it integrates zero to zero. -/
structure IsRule (T : ℝ → (ℝ → ℂ) → ℂ) : Prop where
  pos : ∀ ρ > 0, ∀ g h, (∀ lam > 0, g lam = h lam) → T ρ g = T ρ h
  zero : ∀ ρ, T ρ (fun _ => 0) = 0

theorem fullspaceAt_polar (sqrt : ℂ → ℂ) (neg : Bool) (med : Fullspace.Med) (off θ zs zr : ℝ) (c : ℕ)
    (ms mr : Bool) : Fullspace.fullspaceAt sqrt neg med off θ zs zr c ms mr =
      core sqrt neg med off (Real.cos θ * off) (Real.sin θ * off) zs zr c ms mr := by
  simp only [Fullspace.fullspaceAt, core, mul_neg_one]

open Classical in
/-- The field for arbitrary layer parameters whose rows are those of the media `M`; `P` says when the full-space option
is used. -/
theorem tail_field {B : Back} (hof : 0 < B.m.minOff)
    (ho : Safe B.o) {T : ℝ → (ℝ → ℂ) → ℂ} (hT : IsRule T) (hB : Uses B (besselRule T)) {A : DipoleArgs}
    {mo : ModelOut} {fo : FreqOut} {M : ℕ → Medium}
    (hrows : rowsOf mo.depth fo = (List.range fo.freq.length).map fun g => earthOf (M g))
    (hOK : ∀ f < fo.freq.length, (M f).OK)
    (hlayer : ∀ f < fo.freq.length, ∀ z i, (M f).InUpper i z → i = layerOf mo.depth z)
    {P : Prop} (hfull : mo.isfullspace = true ↔ P)
    (hunif : P → ∀ f < fo.freq.length, ∀ k, 0 ≤ k → k < (M f).n → (M f).Uniform k)
    {a b : ℕ} (ha : 1 ≤ a ∧ a ≤ 6)
    (hb : 1 ≤ b ∧ b ≤ 6) (hab : toInt A.ab = .ok (10 * a + b)) {xs ys xr yr : List ℝ} {zs zr : ℝ}
    (hsrc : A.src = [xs, ys, [zs]]) (hrcv : A.rcv = [xr, yr, [zr]])
    (hls : xs.length = ys.length ∨ xs.length = 1 ∨ ys.length = 1)
    (hlr : xr.length = yr.length ∨ xr.length = 1 ∨ yr.length = 1)
    {abc : ℕ} {ms mr : Bool} (hc : checkAb (.int (10 * a + b)) = .ok (abc, ms, mr))
    (ns : 0 < numDipoles A.src) (nr : 0 < numDipoles A.rcv) :
    ∃ arr, (dipoleTail B A inFreq mo fo).val = .ok arr ∧
      arr.shape = [fo.freq.length, numDipoles A.rcv, numDipoles A.src] ∧
      ∀ (f r s : ℕ), f < fo.freq.length → r < numDipoles A.rcv → s < numDipoles A.src →
        let ρ := rhoOf B.m.minOff (bc xr r - bc xs s) (bc yr r - bc ys s)
        let θ := thetaOf (bc xr r - bc xs s) (bc yr r - bc ys s)
        ∀ θ', angleFactor θ abc ms mr = exactFactor θ' abc ms mr →
        ∀ ls lr, (M f).InUpper ls zs → (M f).InUpper lr zr →
        ∀ F Fh : ℝ → ℝ → PlaneField,
        (∀ lam > 0, ∀ φ, IsPlaneField (M f) (lam * Real.cos φ) (lam * Real.sin φ) zs ls
          (unitDipole b) (F lam φ)) →
        (∀ lam > 0, ∀ φ, IsPlaneField ((M f).homog ls) (lam * Real.cos φ) (lam * Real.sin φ)
          zs 0 (unitDipole b) (Fh lam φ)) →
        arr.get [f, r, s] =
          (if A.xdirect = some true ∧ (ls = lr ∨ P) then
            resp B.sqrt ((List.range fo.freq.length).map fun g => layerMed (M g) lr) f a b (ρ * Real.cos θ)
              (ρ * Real.sin θ) zs zr
            else 0) +
          T ρ fun lam => ringIntegral (fun φ => (F lam φ).comp a lr zr -
            if A.xdirect ≠ some false ∧ (ls = lr ∨ P) then (Fh lam φ).comp a 0 zr else 0) lam ρ θ' := by
  have hc' : checkAb A.ab = .ok (abc, ms, mr) := by rw [checkAb, hab]; exact hc
  obtain ⟨arr, h1, h2, h3⟩ := tail_entry hB hrows hc' hsrc hrcv hls hlr ns nr
  refine ⟨arr, h1, h2, ?_⟩
  intro f r s hf hr hs ρ θ θ' hθe ls lr hsu hru F Fh hF hH
  have e1 := hlayer f hf _ _ hsu
  have e2 := hlayer f hf _ _ hru
  have hρ : 0 < ρ := lt_max_of_lt_right hof
  have hM : (M f).OK := hOK f hf
  have hsc := upper_closed hsu
  have hrc := upper_closed hru
  have hsr : zr = zs → lr = ls := by
    rintro rfl; rw [e1, e2]
  have hlay : ((layerOf mo.depth zs == layerOf mo.depth zr) = true) ↔ ls = lr := by
    rw [e1, e2]; simp
  have hdir : Direct A.xdirect mo.isfullspace
      (layerOf mo.depth zs == layerOf mo.depth zr) ↔
      A.xdirect = some true ∧ (ls = lr ∨ P) := by
    unfold Direct; rw [hfull, hlay, or_comm]
  have hskip : Skipped abc A.xdirect mo.isfullspace ↔
      abc = 36 ∨ (P ∧ A.xdirect ≠ some false) := by
    unfold Skipped; rw [hfull]
  have h := h3 f r s hf hr hs
  simp only at h
  rw [h]
  have hcl : ∀ z, ((M f).homog ls).InClosed 0 z := fun z =>
    ⟨le_refl _, by simp [Medium.homog], by simp, by simp [Medium.homog]⟩
  -- the closed form
  have hresp : resp B.sqrt ((List.range fo.freq.length).map fun g => layerMed (M g) lr) f a b (ρ * Real.cos θ) (ρ * Real.sin θ)
      zs zr = if abc ≠ 36 then (Fullspace.fullspace B.sqrt ((List.range fo.freq.length).map fun g => layerMed (M g) lr) ρ θ zs zr
        abc ms mr).getD f 0 else 0 := by
    rw [resp_ok (by simpa using hf) hc]
    split_ifs with q
    · have hq : Real.sqrt ((ρ * Real.cos θ) ^ 2 + (ρ * Real.sin θ) ^ 2) = ρ := by
        rw [show (ρ * Real.cos θ) ^ 2 + (ρ * Real.sin θ) ^ 2 = ρ ^ 2 by
          have := Real.sin_sq_add_cos_sq θ
          linear_combination ρ ^ 2 * this, Real.sqrt_sq hρ.le]
      rw [hq, Fullspace.fullspace, getD_eq (by simpa using hf), List.getElem_map]
      rw [mul_comm ρ, mul_comm ρ]
      simp only [List.getElem_map, fullspaceAt_polar]
      rfl
    · rfl
  congr 1
  · rw [hresp]
    by_cases hd : A.xdirect = some true ∧ (ls = lr ∨ P)
    · rw [if_pos hd]
      by_cases h36 : abc ≠ 36
      · rw [if_pos ⟨h36, hdir.2 hd⟩, if_pos h36, e2]
      · rw [if_neg (fun q => h36 q.1), if_neg h36]
    · rw [if_neg hd, if_neg (fun q => hd (hdir.1 q.2))]
  · by_cases hk : Skipped abc A.xdirect mo.isfullspace
    · rw [if_pos hk]
      refine (hT.zero ρ).symm.trans (hT.pos _ hρ _ _ fun lam hlam => ?_)
      have hz : (fun φ => (F lam φ).comp a lr zr -
          if A.xdirect ≠ some false ∧ (ls = lr ∨ P) then (Fh lam φ).comp a 0 zr else 0) =
          fun _ => 0 := by
        funext φ
        rcases hskip.1 hk with h36 | ⟨hu, hx⟩
        · have hab36 : (a = 3 ∧ b = 6) ∨ (a = 6 ∧ b = 3) := by
            rw [checkAb_digits ha hb] at hc
            have := congrArg Prod.fst (Except.ok.inj hc)
            simp only [h36] at this
            split_ifs at this <;> omega
          have z1 := (C37_zero_codes hM hlam φ hsc hrc hab36 (hF lam hlam φ) (hH lam hlam φ)).1
          have z2 := (C37_zero_codes (OK.homog hM hsc.1 hsc.2.1) hlam φ (hcl zs) (hcl zr) hab36
            (hH lam hlam φ) (Fh := Fh lam φ) (hH lam hlam φ)).1
          rw [z1, z2]; simp
        · rw [if_pos ⟨hx, Or.inr hu⟩, plane_uniform hM hlam φ hsc hrc (hunif hu f hf _ hsc.1 hsc.2.1)
            (hF lam hlam φ) (hH lam hlam φ) ha, sub_self]
      rw [hz]
      simp [ringIntegral]
    · rw [if_neg hk, hθe]
      refine hT.pos _ hρ _ _ fun lam hlam => ?_
      obtain ⟨abc', ms', mr', g1, g2⟩ := ring_all (xd := A.xdirect.getD true) (θ := θ') hM ho hlam hρ hsc hrc
        hsr ha hb (hF lam hlam) (hH lam hlam)
      rw [hc] at g1
      obtain ⟨rfl, rfl, rfl⟩ : abc = abc' ∧ ms = ms' ∧ mr = mr' := by
        simpa using Except.ok.inj g1
      unfold RingClaim at g2
      unfold hIntegrand
      rw [← e1, ← e2, g2]
      congr 1
      funext φ
      unfold xcomp
      congr 1
      have hiff : (A.xdirect.getD true = true ∧ lr = ls) ↔
          (A.xdirect ≠ some false ∧ (ls = lr ∨ P)) := by
        have hns : ¬ (P ∧ A.xdirect ≠ some false) := fun q => hk (hskip.2 (Or.inr q))
        cases hx : A.xdirect with
        | none =>
          rw [hx] at hns
          simp only [ne_eq, reduceCtorEq, not_false_eq_true, and_true] at hns
          simp [hns, eq_comm]
        | some v =>
          rw [hx] at hns
          cases v
          · simp
          · simp at hns
            simp [hns, eq_comm]
      by_cases hq : A.xdirect.getD true = true ∧ lr = ls
      · rw [if_pos hq, if_pos (hiff.1 hq)]
      · rw [if_neg hq, if_neg (fun q => hq (hiff.2 q))]

open Classical in
/-- C44 for a given snapped azimuth `θ'`. -/
theorem dipole_at {B : Back} (hm : 0 < B.m.minRes) (hfr : 0 < B.m.minFreq) (hof : 0 < B.m.minOff)
    (ho : Safe B.o) {T : ℝ → (ℝ → ℂ) → ℂ} (hT : IsRule T) (hB : Uses B (besselRule T)) {A : DipoleArgs}
    {U : UserModel} (hU : U.Valid B.m.minRes) (hA : Describes A U) {a b : ℕ} (ha : 1 ≤ a ∧ a ≤ 6)
    (hb : 1 ≤ b ∧ b ≤ 6) (hab : toInt A.ab = .ok (10 * a + b)) {xs ys xr yr : List ℝ} {zs zr : ℝ}
    (hsrc : A.src = [xs, ys, [zs]]) (hrcv : A.rcv = [xr, yr, [zr]])
    (hls : xs.length = ys.length ∨ xs.length = 1 ∨ ys.length = 1)
    (hlr : xr.length = yr.length ∨ xr.length = 1 ∨ yr.length = 1)
    {abc : ℕ} {ms mr : Bool} (hc : checkAb (.int (10 * a + b)) = .ok (abc, ms, mr))
    (ns : 0 < numDipoles A.src) (nr : 0 < numDipoles A.rcv) :
    ∃ arr, (dipole B A).val = .ok (if A.squeeze then arr.squeeze else arr) ∧
      arr.shape = [A.freq.length, numDipoles A.rcv, numDipoles A.src] ∧
      ∀ (f r s : ℕ) (hf : f < A.freq.length), r < numDipoles A.rcv → s < numDipoles A.src →
        let M := fun g => U.medium (sParam B.m.minFreq A.freq g)
        let ρ := rhoOf B.m.minOff (bc xr r - bc xs s) (bc yr r - bc ys s)
        let θ := thetaOf (bc xr r - bc xs s) (bc yr r - bc ys s)
        ∀ θ', angleFactor θ abc ms mr = exactFactor θ' abc ms mr →
        ∀ ls lr, (M A.freq[f]).InUpper ls zs → (M A.freq[f]).InUpper lr zr →
        ∀ F Fh : ℝ → ℝ → PlaneField,
        (∀ lam > 0, ∀ φ, IsPlaneField (M A.freq[f]) (lam * Real.cos φ) (lam * Real.sin φ) zs ls
          (unitDipole b) (F lam φ)) →
        (∀ lam > 0, ∀ φ, IsPlaneField ((M A.freq[f]).homog ls) (lam * Real.cos φ) (lam * Real.sin φ)
          zs 0 (unitDipole b) (Fh lam φ)) →
        arr.get [f, r, s] =
          (if A.xdirect = some true ∧ (ls = lr ∨ U.Uniform) then
            resp B.sqrt (A.freq.map fun g => layerMed (M g) lr) f a b (ρ * Real.cos θ) (ρ * Real.sin θ) zs zr
            else 0) +
          T ρ fun lam => ringIntegral (fun φ => (F lam φ).comp a lr zr -
            if A.xdirect ≠ some false ∧ (ls = lr ∨ U.Uniform) then (Fh lam φ).comp a 0 zr else 0) lam ρ θ' := by
  have h1 := describes_checkModel hU hA
  have h2 := C30_frequency B.m A.freq (userOut B.m U).res (userOut B.m U).aniso (userOut B.m U).epermH
    (userOut B.m U).epermV (userOut B.m U).mpermH (userOut B.m U).mpermV A.verb
  obtain ⟨hl, hrows⟩ := user_rows hm hU h2
  rw [← hl] at hrows
  obtain ⟨arr, e1, e2, e3⟩ := tail_field hof ho hT hB hrows
    (fun f _ => by
      obtain ⟨s0, sre⟩ := sParam_spec hfr A.freq (A.freq.getD f 0)
      exact user_ok hm hU s0 sre)
    (fun f _ z i => (user_layer hU _ _ _).1) (user_full (m := B.m) hm hU)
    (fun hu f _ k k0 k1 => user_uniform hu _ k0 k1) ha hb hab hsrc hrcv hls hlr hc ns nr
  rw [hl] at e2
  refine ⟨arr, ?_, e2, ?_⟩
  · unfold dipole
    rw [bind_val, dipoleFull_tail h1 h2, e1]
    rfl
  intro f r s hf hr hs M ρ θ θ' hθe ls lr hsu hru F Fh hF hH
  have e := e3 f r s (by rw [hl]; exact hf) hr hs θ' hθe ls lr
  simp only [hl, getD_eq hf] at e
  simp only [map_range_getD A.freq (fun g => layerMed (U.medium (sParam B.m.minFreq A.freq g)) lr)] at e
  exact e hsu hru F Fh hF hH

open Classical in
/-- **C44.**  For every valid description `U` of a layered medium, all source and receiver coordinates
accepted by `dipole`, every receiver component `a` and source component `b`, every setting of `xdirect`
and of the loops: `dipole` returns an array with one entry per frequency, receiver and source, and each
entry is the response of the medium `U` describes (at the Laplace parameter of this frequency) at
distance `ρ` and azimuth `θ'` from the source,

* the integral over all wavenumbers of the plane waves of the exact solution of Maxwell's equations,
* from which, unless `xdirect` is `False`, the direct field is removed if source and receiver are in the
  same layer or all layers are identical,
* and to which, if `xdirect` is `True`, the closed-form direct field (C36) is added in the same cases.

`ρ` is the horizontal distance, or the minimum offset if that is larger; `θ'` is the azimuth up to
`1e-9`.  The only thing left open is how well the rule `T` integrates. -/
theorem C44_dipole {B : Back} (hm : 0 < B.m.minRes) (hfr : 0 < B.m.minFreq) (hof : 0 < B.m.minOff)
    (ho : Safe B.o) {T : ℝ → (ℝ → ℂ) → ℂ} (hT : IsRule T) (hB : Uses B (besselRule T)) {A : DipoleArgs}
    {U : UserModel} (hU : U.Valid B.m.minRes) (hA : Describes A U) {a b : ℕ} (ha : 1 ≤ a ∧ a ≤ 6)
    (hb : 1 ≤ b ∧ b ≤ 6) (hab : toInt A.ab = .ok (10 * a + b)) {xs ys xr yr : List ℝ} {zs zr : ℝ}
    (hsrc : A.src = [xs, ys, [zs]]) (hrcv : A.rcv = [xr, yr, [zr]])
    (hls : xs.length = ys.length ∨ xs.length = 1 ∨ ys.length = 1)
    (hlr : xr.length = yr.length ∨ xr.length = 1 ∨ yr.length = 1)
    (ns : 0 < numDipoles A.src) (nr : 0 < numDipoles A.rcv) :
    ∃ arr, (dipole B A).val = .ok (if A.squeeze then arr.squeeze else arr) ∧
      arr.shape = [A.freq.length, numDipoles A.rcv, numDipoles A.src] ∧
      ∀ (f r s : ℕ) (hf : f < A.freq.length), r < numDipoles A.rcv → s < numDipoles A.src →
        let M := fun g => U.medium (sParam B.m.minFreq A.freq g)
        let ρ := rhoOf B.m.minOff (bc xr r - bc xs s) (bc yr r - bc ys s)
        let θ := thetaOf (bc xr r - bc xs s) (bc yr r - bc ys s)
        ∃ θ', |θ' - θ| ≤ 1e-9 ∧
        ∀ ls lr, (M A.freq[f]).InUpper ls zs → (M A.freq[f]).InUpper lr zr →
        ∀ F Fh : ℝ → ℝ → PlaneField,
        (∀ lam > 0, ∀ φ, IsPlaneField (M A.freq[f]) (lam * Real.cos φ) (lam * Real.sin φ) zs ls
          (unitDipole b) (F lam φ)) →
        (∀ lam > 0, ∀ φ, IsPlaneField ((M A.freq[f]).homog ls) (lam * Real.cos φ) (lam * Real.sin φ)
          zs 0 (unitDipole b) (Fh lam φ)) →
        arr.get [f, r, s] =
          (if A.xdirect = some true ∧ (ls = lr ∨ U.Uniform) then
            resp B.sqrt (A.freq.map fun g => layerMed (M g) lr) f a b (ρ * Real.cos θ) (ρ * Real.sin θ) zs zr
            else 0) +
          T ρ fun lam => ringIntegral (fun φ => (F lam φ).comp a lr zr -
            if A.xdirect ≠ some false ∧ (ls = lr ∨ U.Uniform) then (Fh lam φ).comp a 0 zr else 0) lam ρ θ' := by
  obtain ⟨abc, ms, mr, hc⟩ : ∃ abc ms mr, checkAb (.int (10 * a + b)) = .ok (abc, ms, mr) :=
    ⟨_, _, _, checkAb_digits ha hb⟩
  obtain ⟨arr, h1, h2, h3⟩ := dipole_at hm hfr hof ho hT hB hU hA ha hb hab hsrc hrcv hls hlr hc ns nr
  refine ⟨arr, h1, h2, ?_⟩
  intro f r s hf hr hs M ρ θ
  obtain ⟨θ', hθ, hθe⟩ := angle_near θ abc ms mr
  exact ⟨θ', hθ, h3 f r s hf hr hs θ' hθe⟩

/-! ## Digital filters -/

/-- The kernels as functions of wavenumber. -/
noncomputable def kernelFn (o : Ops) (E : Earth) (zs zr : ℝ) (ls lr : ℤ) (abc : ℕ) (xd ms mr : Bool) :
    KernelFn :=
  let W := fun lam => wavenumber o E zs zr ls lr lam abc xd ms mr
  (if abc ∈ [11, 22, 24, 15, 33] then some fun lam => (W lam).1.getD 0 else none,
   if abc ∉ [33] then some fun lam => (W lam).2.1.getD 0 else none,
   if abc ∈ [11, 12, 21, 22, 14, 24, 15, 25] then some fun lam => (W lam).2.2.getD 0 else none)

theorem kernelFn_at (o : Ops) (E : Earth) (zs zr : ℝ) (ls lr : ℤ) (abc : ℕ) (xd ms mr : Bool) (lam : ℝ) :
    (kernelFn o E zs zr ls lr abc xd ms mr).at lam = wavenumber o E zs zr ls lr lam abc xd ms mr := by
  unfold kernelFn KernelFn.at wavenumber
  simp only
  by_cases h1 : abc ∈ [11, 12, 21, 22, 14, 24, 15, 25]
  · have h33 : abc ∉ [33] := by
      simp only [List.mem_cons, List.not_mem_nil, or_false] at h1 ⊢; omega
    by_cases h2 : abc ∈ [11, 22, 24, 15]
    · have h3 : abc ∈ [11, 22, 24, 15, 33] := by
        simp only [List.mem_cons, List.not_mem_nil, or_false] at h2 ⊢; omega
      simp only [if_pos h1, if_pos h2, if_pos h3, if_pos h33, Option.map_some, Option.getD_some]
    · have h3 : abc ∉ [11, 22, 24, 15, 33] := by
        simp only [List.mem_cons, List.not_mem_nil, or_false] at h2 h33 ⊢; omega
      simp only [if_pos h1, if_neg h2, if_neg h3, if_pos h33, Option.map_some, Option.getD_some,
        Option.map_none]
  · by_cases h2 : abc ∈ [13, 23, 31, 32, 34, 35, 16, 26]
    · have h3 : abc ∉ [11, 22, 24, 15, 33] := by
        simp only [List.mem_cons, List.not_mem_nil, or_false] at h2 ⊢; omega
      have h33 : abc ∉ [33] := by
        simp only [List.mem_cons, List.not_mem_nil, or_false] at h2 ⊢; omega
      simp only [if_neg h1, if_pos h2, if_neg h3, if_pos h33, Option.map_some, Option.getD_some,
        Option.map_none]
    · by_cases h33 : abc ∈ [33]
      · have h3 : abc ∈ [11, 22, 24, 15, 33] := by
          simp only [List.mem_cons, List.not_mem_nil, or_false] at h33 ⊢; omega
        simp only [if_neg h1, if_neg h2, if_pos h3, if_pos h33, if_neg (not_not.2 h33), Option.map_some,
          Option.getD_some, Option.map_none]
      · have h3 : abc ∉ [11, 22, 24, 15, 33] := by
          simp only [List.mem_cons, List.not_mem_nil, or_false] at h1 h33 ⊢; omega
        simp only [if_neg h1, if_neg h2, if_neg h3, if_neg h33, if_pos h33, Option.map_some,
          Option.getD_some, Option.map_none]

/-- A digital linear filter as rule: `(1/ρ) Σ_k g(b_k/ρ, j0_k, j1_k)`. -/
noncomputable def filterRule (F : Filter) : HRule := fun ρ g =>
  (∑ k ∈ Finset.range F.n, g (F.base k / ρ) (F.j0 k : ℂ) (F.j1 k : ℂ)) / (ρ : ℂ)

/-- The standard DLF. -/
noncomputable def dlfBack (m : Mins) (o : Ops) (sqrt : ℂ → ℂ) (R : RSpl) (F : Filter) (junk : ℕ → ℝ) : Back where
  m := m
  o := o
  sqrt := sqrt
  ht := "dlf"
  ptsPerDec := 0
  hank := fun zs zr ls lr abc ms mr =>
    hankelDlf R F abc fun xd E lam => sampled (kernelFn o E zs zr ls lr abc xd ms mr) lam
  junk := junk

/-- **C44, digital filters.**  The standard DLF (no interpolation, any filter) is such a rule, so that
`C44_entry` holds for it with the filter sum. -/
theorem C44_dlf (m : Mins) (o : Ops) (sqrt : ℂ → ℂ) (R : RSpl) (F : Filter) (junk : ℕ → ℝ) :
    Uses (dlfBack m o sqrt R F junk) (filterRule F) := by
  intro zs zr ls lr abc ms mr
  refine ⟨fun _ _ _ => true, ?_⟩
  have h := C17_dlf R F abc (fun xd (E : Earth) => kernelFn o E zs zr ls lr abc xd ms mr) (fun xd E => by
    unfold KernelFn.given kernelFn
    by_cases h33 : abc ∈ [33]
    · have h3 : abc ∈ [11, 22, 24, 15, 33] := by
        simp only [List.mem_cons, List.not_mem_nil, or_false] at h33 ⊢; omega
      left; simp only [if_pos h3, Option.isSome_some]
    · right; left; simp only [if_pos h33, Option.isSome_some])
  refine ⟨fun xd rows offs i j hi hj => (h.val xd rows offs i j hi hj).trans ?_, h.conv⟩
  simp only [filterSum, filterRule, hIntegrand, kernelFn_at]
  rfl

/-! ## Concrete cases -/

/-- Sea water (0.3 Ωm) below air, above an anisotropic half-space; horizontal anisotropy given, default
permittivities and permeabilities. -/
noncomputable def marine : UserModel :=
  ⟨[0, 1000], [1e8, 0.3, 1], some [1, 1, 2], none, none, none, none⟩

theorem marine_valid : marine.Valid 1e-20 where
  order := by simp [marine]
  len := by simp [marine]
  lens := by
    intro l h
    simp [marine] at h
    simp [h, marine]
  rhoH := by
    intro i hi
    simp only [marine, List.length_cons, List.length_nil] at hi
    interval_cases i <;> norm_num [UserModel.rhoH, marine]
  rhoV := by
    intro i hi
    simp only [marine, List.length_cons, List.length_nil] at hi
    interval_cases i <;> norm_num [UserModel.rhoV, UserModel.rhoH, UserModel.val, marine]
  aniso := by
    intro i hi
    simp only [marine, List.length_cons, List.length_nil] at hi
    interval_cases i <;> norm_num [UserModel.val, marine]
  epsH := fun i _ => by norm_num [UserModel.epsH, UserModel.val, marine]
  epsV := fun i _ => by norm_num [UserModel.epsV, UserModel.epsH, UserModel.val, marine]
  muH := fun i _ => by norm_num [UserModel.muH, UserModel.val, marine]
  muV := fun i _ => by norm_num [UserModel.muV, UserModel.muH, UserModel.val, marine]

/-- Two frequencies, a source 50 m above the sea floor, three receivers on the sea floor; `ab` 24. -/
noncomputable def marineArgs : DipoleArgs where
  src := [[0], [0], [950]]
  rcv := [[1000, 2000, 3000], [0], [1000]]
  depth := some [0, ((1000 : ℝ) : EReal)]
  res := .array [1e8, 0.3, 1]
  freq := [1, 10]
  ab := .int 24
  aniso := some [1, 1, 2]
  epermH := none
  epermV := none
  mpermH := none
  mpermV := none
  xdirect := some true
  loop := none
  squeeze := true
  verb := 2

theorem marine_describes : Describes marineArgs marine :=
  ⟨_, .topDown false false (by simp [marineArgs, marine, allDepths]) rfl rfl rfl rfl rfl rfl⟩

/-- The same from bottom to top, with the depth of the air layer. -/
example : Describes { marineArgs with
    depth := some [((1000 : ℝ) : EReal), 0, ⊥], res := .array [1, 0.3, 1e8], aniso := some [2, 1, 1] } marine :=
  ⟨_, .bottomUp true false (by simp [marine, allDepths]) (by simp [marine, allDepths]) (by simp [marine])
    (by simp [marine]) (by simp [marine]) rfl rfl rfl rfl⟩

/-- A Hankel transform that uses the rule `T`. -/
noncomputable def ruleBack (T : ℝ → (ℝ → ℂ) → ℂ) : Back where
  m := Mins.init
  o := Ops.exact
  sqrt := csqrt
  ht := "quad"
  ptsPerDec := 0
  hank := fun zs zr ls lr abc ms mr xd rows offs => ⟨fun i j =>
    match rows[i]?, offs[j]? with
    | some E, some p => besselRule T p.1 (hIntegrand Ops.exact E zs zr ls lr abc xd ms mr p.1 p.2)
    | _, _ => 0, 1, true⟩
  junk := fun _ => 0

theorem ruleBack_uses (T : ℝ → (ℝ → ℂ) → ℂ) : Uses (ruleBack T) (besselRule T) := by
  intro zs zr ls lr abc ms mr
  refine ⟨fun _ _ _ => true, fun xd rows offs i j hi hj => ?_, by simp [ruleBack]⟩
  simp only [ruleBack, List.getElem?_eq_getElem hi, List.getElem?_eq_getElem hj]

/-- Exact integration is a rule. -/
theorem exact_rule : IsRule fun _ g => ∫ lam in Set.Ioi (0 : ℝ), g lam where
  pos _ _ g h e := MeasureTheory.setIntegral_congr_fun measurableSet_Ioi fun lam hl => e lam hl
  zero _ := by simp

/-- With exact integration, the marine case: 2 × 3 values after squeezing; the last one (10 Hz, 3000 m) is
the closed-form direct field plus the response of the described medium without it. -/
example : ∃ arr, (dipole (ruleBack fun _ g => ∫ lam in Set.Ioi (0 : ℝ), g lam) marineArgs).val =
      .ok (NdArray.squeeze arr) ∧ arr.squeeze.shape = [2, 3] ∧
    ∃ θ', |θ' - 0| ≤ 1e-9 ∧
    ∀ F Fh : ℝ → ℝ → PlaneField,
      let M := marine.medium (2 * Real.pi * Complex.I * (10 : ℝ))
      (∀ lam > 0, ∀ φ, IsPlaneField M (lam * Real.cos φ) (lam * Real.sin φ) 950 1 (unitDipole 4) (F lam φ)) →
      (∀ lam > 0, ∀ φ, IsPlaneField (M.homog 1) (lam * Real.cos φ) (lam * Real.sin φ) 950 0
        (unitDipole 4) (Fh lam φ)) →
      arr.get [1, 2, 0] = resp csqrt ([1, 10].map fun g => layerMed (marine.medium (sParam 1e-20 [1, 10] g)) 1) 1 2 4
          3000 0 950 1000 +
        ∫ lam in Set.Ioi (0 : ℝ), ringIntegral (fun φ => (F lam φ).comp 2 1 1000 - (Fh lam φ).comp 2 0 1000)
          lam 3000 θ' := by
  have m0 : 0 < (ruleBack fun _ g => ∫ lam in Set.Ioi (0 : ℝ), g lam).m.minRes := by
    norm_num [ruleBack, Mins.init]
  have m1 : 0 < (ruleBack fun _ g => ∫ lam in Set.Ioi (0 : ℝ), g lam).m.minFreq := by
    norm_num [ruleBack, Mins.init]
  have m2 : 0 < (ruleBack fun _ g => ∫ lam in Set.Ioi (0 : ℝ), g lam).m.minOff := by
    norm_num [ruleBack, Mins.init]
  have hv : marine.Valid (ruleBack fun _ g => ∫ lam in Set.Ioi (0 : ℝ), g lam).m.minRes := marine_valid
  obtain ⟨arr, h1, h2, h3⟩ := C44_dipole m0 m1 m2 safe_exact exact_rule (ruleBack_uses _) hv marine_describes
    (a := 2) (b := 4) (by norm_num) (by norm_num) rfl (xs := [0]) (ys := [0]) (zs := 950)
    (xr := [1000, 2000, 3000]) (yr := [0]) (zr := 1000) rfl rfl (by simp) (by simp)
    (by simp [numDipoles, marineArgs]) (by simp [numDipoles, marineArgs])
  refine ⟨arr, h1, ?_, ?_⟩
  · simp only [NdArray.squeeze, h2]; simp [marineArgs, numDipoles]
  obtain ⟨θ', e1, e2⟩ := h3 1 2 0 (by simp [marineArgs]) (by simp [numDipoles, marineArgs])
    (by simp [numDipoles, marineArgs])
  have t0 : thetaOf (bc [1000, 2000, 3000] 2 - bc [0] 0) (bc [0] 2 - bc [0] 0) = 0 := by
    have : ((⟨3000, 0⟩ : ℂ)) = ((3000 : ℝ) : ℂ) := rfl
    simp [thetaOf, bc]
    rw [this]; exact Complex.arg_ofReal_of_nonneg (by norm_num)
  have r0 : rhoOf (ruleBack fun _ g => ∫ lam in Set.Ioi (0 : ℝ), g lam).m.minOff
      (bc [1000, 2000, 3000] 2 - bc [0] 0) (bc [0] 2 - bc [0] 0) = 3000 := by
    have : Real.sqrt (3000 ^ 2) = 3000 := Real.sqrt_sq (by norm_num)
    simp [rhoOf, bc, ruleBack, Mins.init, this]
    norm_num
  have s0 : sParam (ruleBack fun _ g => ∫ lam in Set.Ioi (0 : ℝ), g lam).m.minFreq marineArgs.freq
      (marineArgs.freq[1]'(by simp [marineArgs])) = 2 * Real.pi * Complex.I * (10 : ℝ) := by
    have : max (10 : ℝ) (ruleBack fun _ g => ∫ lam in Set.Ioi (0 : ℝ), g lam).m.minFreq = 10 := by
      norm_num [ruleBack, Mins.init]
    rw [sParam, if_pos ⟨1, by simp [marineArgs], by norm_num⟩]
    rw [show (marineArgs.freq[1]'(by simp [marineArgs])) = 10 from rfl, this]
  rw [t0] at e1
  refine ⟨θ', e1, ?_⟩
  intro F Fh M hF hH
  simp only [s0, r0, t0, Real.cos_zero, Real.sin_zero, mul_one, mul_zero] at e2
  have hin : ∀ z, 0 < z → z ≤ 1000 → M.InUpper 1 z := by
    intro z z0 z1
    refine ⟨by norm_num, by norm_num [M, UserModel.medium, marine], fun _ => ?_, fun _ => ?_⟩
    · simpa [M, UserModel.medium, marine] using z0
    · simpa [M, UserModel.medium, marine] using z1
  have := e2 1 1 (hin 950 (by norm_num) (by norm_num)) (hin 1000 (by norm_num) (by norm_num)) F Fh hF hH
  rw [this]
  simp only [show marineArgs.xdirect = some true from rfl, ne_eq, Option.some.injEq, Bool.true_eq_false,
    not_false_eq_true, true_or, and_self, if_true]
  rfl

/-- Rejected: a receiver with two depths. -/
example (B : Back) : ∃ e, (dipole B { marineArgs with rcv := [[1], [2], [3, 4]] }).val = .error e := by
  cases h : (dipole B { marineArgs with rcv := [[1], [2], [3, 4]] }).val with
  | error e => exact ⟨e, rfl⟩
  | ok arr =>
    obtain ⟨-, -, -, ⟨x, y, z, hc, -⟩, -⟩ := (C44_accept B _).1.1 ⟨arr, h⟩
    simp at hc

end Verif.Props
