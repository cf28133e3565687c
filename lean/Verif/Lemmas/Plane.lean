import Verif.Lemmas.GreenfctLink
import Verif.Lemmas.Lagrange
import Verif.Spec.Maxwell3D

/-! Helper lemmas: TM / TE decomposition of plane fields; existence, uniqueness, reciprocity. -/

namespace Verif.Lemmas
open Verif.Spec Verif.Spec.Stack Verif.Kernel Complex

variable {M : Medium} {lam : ℝ}

theorem div_re_nonneg {w : ℂ} (x : ℝ) (hw : 0 ≤ w.re) : 0 ≤ ((x : ℂ) ^ 2 / w).re := by
  have : ((x : ℂ) ^ 2 / w) = ((x ^ 2 : ℝ) : ℂ) * w⁻¹ := by push_cast; rw [div_eq_mul_inv]
  rw [this, Complex.re_ofReal_mul, Complex.inv_re]
  exact mul_nonneg (sq_nonneg x) (div_nonneg hw (Complex.normSq_nonneg w))

theorem div_re_pos {w : ℂ} {x : ℝ} (hx : x ≠ 0) (hw : 0 < w.re) : 0 < ((x : ℂ) ^ 2 / w).re := by
  have : ((x : ℂ) ^ 2 / w) = ((x ^ 2 : ℝ) : ℂ) * w⁻¹ := by push_cast; rw [div_eq_mul_inv]
  rw [this, Complex.re_ofReal_mul, Complex.inv_re]
  have hw0 : w ≠ 0 := by intro h; simp [h] at hw
  exact mul_pos (by positivity) (div_pos hw (Complex.normSq_pos.2 hw0))

theorem ne_of_re_pos {w : ℂ} (h : 0 < w.re) : w ≠ 0 := by intro h0; simp [h0] at h

theorem tm_passiveAt {eh ev zh zv : ℂ} (h : Medium.LayerPassive eh ev zh zv) (lam : ℝ) :
    PassiveAt eh ((lam : ℂ) ^ 2 / ev + zh) where
  e_ne := ne_of_re_pos h.etaH_re
  q_ne := by
    by_cases hl : lam = 0
    · simpa [hl] using h.zetaH_ne
    · apply ne_of_re_pos
      rw [Complex.add_re]; have := div_re_pos hl h.etaV_re; linarith [h.zetaH_re]
  e_re := h.etaH_re.le
  q_re := by rw [Complex.add_re]; have := div_re_nonneg lam h.etaV_re.le; linarith [h.zetaH_re]
  loss := Or.inl h.etaH_re

theorem te_passiveAt {eh ev zh zv : ℂ} (h : Medium.LayerPassive eh ev zh zv) (lam : ℝ) :
    PassiveAt zh ((lam : ℂ) ^ 2 / zv + eh) where
  e_ne := h.zetaH_ne
  q_ne := by
    apply ne_of_re_pos
    rw [Complex.add_re]; have := div_re_nonneg lam h.zetaV_re; linarith [h.etaH_re]
  e_re := h.zetaH_re
  q_re := by rw [Complex.add_re]; have := div_re_nonneg lam h.zetaV_re; linarith [h.etaH_re]
  loss := Or.inr (by
    rw [Complex.add_re]; have := div_re_nonneg lam h.zetaV_re; linarith [h.etaH_re])

theorem OK.tm_ord (h : M.OK) (lam : ℝ) : (M.tm lam).Ordered := ⟨h.pos, h.mono⟩
theorem OK.te_ord (h : M.OK) (lam : ℝ) : (M.te lam).Ordered := ⟨h.pos, h.mono⟩
theorem OK.tm_pas (h : M.OK) (lam : ℝ) : (M.tm lam).Passive :=
  fun i h0 h1 => tm_passiveAt (h.pas i h0 h1) lam
theorem OK.te_pas (h : M.OK) (lam : ℝ) : (M.te lam).Passive :=
  fun i h0 h1 => te_passiveAt (h.pas i h0 h1) lam

theorem OK.homog (h : M.OK) {s : ℤ} (h0 : 0 ≤ s) (h1 : s < M.n) : (M.homog s).OK :=
  ⟨by simp [Medium.homog], fun i hi hi' => by simp [Medium.homog] at hi'; omega,
    fun _ _ _ => h.pas s h0 h1⟩

theorem OK.dualEE (h : M.OK) (lam : ℝ) : Dual (M.tm lam) (M.te lam) M.etaV M.zetaV lam 1 where
  csq := by ring
  ord := OK.tm_ord h lam
  n_eq := rfl
  D_eq := rfl
  v1_ne i h0 h1 := ne_of_re_pos (h.pas i h0 h1).etaV_re
  v2_ne i h0 h1 := (h.pas i h0 h1).zetaV_ne
  pas1 := OK.tm_pas h lam
  pas2 := OK.te_pas h lam
  q1 _ := rfl
  q2 _ := rfl

theorem OK.dualMM (h : M.OK) (lam : ℝ) :
    Dual (M.te lam) (M.tm lam) M.zetaV M.etaV lam (-1) where
  csq := by ring
  ord := OK.te_ord h lam
  n_eq := rfl
  D_eq := rfl
  v1_ne i h0 h1 := (h.pas i h0 h1).zetaV_ne
  v2_ne i h0 h1 := ne_of_re_pos (h.pas i h0 h1).etaV_re
  pas1 := OK.te_pas h lam
  pas2 := OK.tm_pas h lam
  q1 _ := rfl
  q2 _ := rfl

/-! ## Existence of 1-D fields -/

theorem good_of_passive {S : Stack} (ho : S.Ordered) (hp : S.Passive) :
    Good S (fun i => csqrt (S.e i * S.q i)) :=
  ⟨ho, fun i h0 h1 => LayerOK.of_csqrt (hp i h0 h1)⟩

theorem field_add {S : Stack} {zs : ℝ} {jA jB jA' jB' : ℂ} {A B A' B' : ℝ → ℂ}
    (h : S.IsField zs jA jB A B) (h' : S.IsField zs jA' jB' A' B') :
    S.IsField zs (jA + jA') (jB + jB') (fun z => A z + A' z) (fun z => B z + B' z) := by
  have := field_sub h (field_smul (-1) h')
  convert this using 1
  · ring
  · ring
  · funext z; ring
  · funext z; ring

theorem field_exists {S : Stack} (ho : S.Ordered) (hp : S.Passive) {s : ℤ} {zs : ℝ}
    (hs : S.InClosed s zs) (jA jB : ℂ) : ∃ A B, S.IsField zs jA jB A B := by
  have g := good_of_passive ho hp
  have hY := g.Y_ne hs.1 hs.2.1
  have h1 := g.isField (α := (-(jB / Yl S (fun i => csqrt (S.e i * S.q i)) s) - jA) / 2)
    (β := (-(jB / Yl S (fun i => csqrt (S.e i * S.q i)) s) + jA) / 2) hs
  refine ⟨fldA S _ s zs _ _, fldB S _ s zs _ _, (?_ : S.IsField zs jA jB
    (fldA S (fun i => csqrt (S.e i * S.q i)) s zs
      ((-(jB / Yl S (fun i => csqrt (S.e i * S.q i)) s) - jA) / 2)
      ((-(jB / Yl S (fun i => csqrt (S.e i * S.q i)) s) + jA) / 2))
    (fldB S (fun i => csqrt (S.e i * S.q i)) s zs
      ((-(jB / Yl S (fun i => csqrt (S.e i * S.q i)) s) - jA) / 2)
      ((-(jB / Yl S (fun i => csqrt (S.e i * S.q i)) s) + jA) / 2)))⟩
  convert h1 using 1
  · ring
  · field_simp; ring

theorem resp_exists {S : Stack} (ho : S.Ordered) (hp : S.Passive) {s : ℤ} {zs : ℝ}
    (hs : S.InClosed s zs) (zr : ℝ) (r : ℤ) (xd : Bool) :
    ∃ Ao Bo Ae Be, Resp S zs zr s r xd Ao Bo Ae Be := by
  have g := good_of_passive ho hp
  have gh := g.homog hs.1 hs.2.1
  have hh := homog_inClosed S s zs
  obtain ⟨A, B, h1⟩ := field_exists ho hp hs 2 0
  obtain ⟨A', B', h1'⟩ := field_exists ho hp hs 0 (-2)
  obtain ⟨C, D, h2⟩ := field_exists gh.ord gh.passive hh 2 0
  obtain ⟨C', D', h2'⟩ := field_exists gh.ord gh.passive hh 0 (-2)
  exact ⟨_, _, _, _, ⟨A, B, C, D, h1, h2, rfl, rfl⟩, ⟨A', B', C', D', h1', h2', rfl, rfl⟩⟩

/-- Reciprocity of the 1-D responses. -/
theorem resp_recip {S : Stack} (ho : S.Ordered) (hp : S.Passive) {s r : ℤ} {zs zr : ℝ}
    (hs : S.InClosed s zs) (hr : S.InClosed r zr) {xd : Bool} {Ao Bo Ae Be : ℂ}
    (R : Resp S zs zr s r xd Ao Bo Ae Be) : Resp S zr zs r s xd Be Bo Ae Ao := by
  have g := good_of_passive ho hp
  have gh := g.homog hr.1 hr.2.1
  have hh := homog_inClosed S r zr
  obtain ⟨A, B, h1⟩ := field_exists ho hp hr 2 0
  obtain ⟨A', B', h1'⟩ := field_exists ho hp hr 0 (-2)
  obtain ⟨C, D, h2⟩ := field_exists gh.ord gh.passive hh 2 0
  obtain ⟨C', D', h2'⟩ := field_exists gh.ord gh.passive hh 0 (-2)
  obtain ⟨⟨Aof, Bof, Aoh, Boh, fo, fho, rfl, rfl⟩, ⟨Aef, Bef, Aeh, Beh, fe, fhe, rfl, rfl⟩⟩ := R
  have one := gh.ord.pos
  have l1 := lagrange ho.pos fo h1
  have l2 := lagrange ho.pos fo h1'
  have l3 := lagrange ho.pos fe h1
  have l4 := lagrange ho.pos fe h1'
  have hcond : (xd = true ∧ s = r) = (xd = true ∧ r = s) := by rw [eq_comm (a := s)]
  have k : (xd = true ∧ r = s) → Bof zr = B zs ∧ Boh zr = D zs ∧ Aoh zr = D' zs ∧
      Beh zr = C zs ∧ Aeh zr = C' zs := by
    rintro ⟨-, rfl⟩
    have m1 := lagrange one fho h2
    have m2 := lagrange one fho h2'
    have m3 := lagrange one fhe h2
    have m4 := lagrange one fhe h2'
    refine ⟨?_, ?_, ?_, ?_, ?_⟩
    · linear_combination -l1 / 2
    · linear_combination -m1 / 2
    · linear_combination -m2 / 2
    · linear_combination -m3 / 2
    · linear_combination -m4 / 2
  refine ⟨⟨A, B, C, D, h1, h2, ?_, ?_⟩, ⟨A', B', C', D', h1', h2', ?_, ?_⟩⟩
  all_goals
    simp only [xval, hcond]
    split_ifs with hx
  · rw [(k hx).2.2.2.1]; linear_combination -l3 / 2
  · linear_combination -l3 / 2
  · rw [(k hx).2.1]; linear_combination -l1 / 2
  · linear_combination -l1 / 2
  · rw [(k hx).2.2.2.2]; linear_combination -l4 / 2
  · linear_combination -l4 / 2
  · rw [(k hx).2.2.1]; linear_combination -l2 / 2
  · linear_combination -l2 / 2

/-- Response to arbitrary jumps. -/
theorem resp_field {S : Stack} (ho : S.Ordered) (hp : S.Passive) {s r : ℤ} {zs zr : ℝ}
    (hs : S.InClosed s zs) {xd : Bool} {Ao Bo Ae Be : ℂ}
    (R : Resp S zs zr s r xd Ao Bo Ae Be) {jA jB : ℂ} {A B Ah Bh : ℝ → ℂ}
    (hf : S.IsField zs jA jB A B) (hh : (homog S s).IsField zs jA jB Ah Bh) :
    xval xd r s A Ah zr = jA / 2 * Ao - jB / 2 * Ae ∧
    xval xd r s B Bh zr = jA / 2 * Bo - jB / 2 * Be := by
  have g := (good_of_passive ho hp).homog hs.1 hs.2.1
  obtain ⟨⟨Aof, Bof, Aoh, Boh, fo, fho, rfl, rfl⟩, ⟨Aef, Bef, Aeh, Beh, fe, fhe, rfl, rfl⟩⟩ := R
  have e1 : jA = jA / 2 * 2 + -jB / 2 * 0 := by ring
  have e2 : jB = jA / 2 * 0 + -jB / 2 * (-2) := by ring
  have c1 := field_add (field_smul (jA / 2) fo) (field_smul (-jB / 2) fe)
  have c2 := field_add (field_smul (jA / 2) fho) (field_smul (-jB / 2) fhe)
  rw [← e1, ← e2] at c1 c2
  have u1 := field_unique ho.pos hp hf c1
  have u2 := field_unique g.ord.pos g.passive hh c2
  constructor
  · unfold xval; rw [u1.1 zr, u2.1 zr]; split_ifs <;> ring
  · unfold xval; rw [u1.2 zr, u2.2 zr]; split_ifs <;> ring

/-! ## Decomposition of plane fields -/

section
variable {kx ky zs : ℝ} {s : ℤ} {d : Dipole} {F : PlaneField}

theorem Ez_eq (hM : M.OK) (hF : IsPlaneField M kx ky zs s d F) {i : ℤ} {z : ℝ}
    (hi : M.InClosed i z) : F.Ez i z = -I * (kx * F.Hy z - ky * F.Hx z) / M.etaV i := by
  have := hF.ampereZ i z hi
  have hv := ne_of_re_pos (hM.pas i hi.1 hi.2.1).etaV_re
  field_simp; linear_combination -this

theorem Hz_eq (hM : M.OK) (hF : IsPlaneField M kx ky zs s d F) {i : ℤ} {z : ℝ}
    (hi : M.InClosed i z) : F.Hz i z = I * (kx * F.Ey z - ky * F.Ex z) / M.zetaV i := by
  have := hF.faradayZ i z hi
  have hv := (hM.pas i hi.1 hi.2.1).zetaV_ne
  field_simp; linear_combination this

theorem medium_open_closed {i : ℤ} {z : ℝ} (h : M.InOpen i z) : M.InClosed i z :=
  ⟨h.1, h.2.1, fun hi => (h.2.2.1 hi).le, fun hi => (h.2.2.2 hi).le⟩

theorem tm_field (hM : M.OK) (hl : kx ^ 2 + ky ^ 2 = lam ^ 2)
    (hF : IsPlaneField M kx ky zs s d F) :
    (M.tm lam).IsField zs (-(kx * d.Jx) - ky * d.Jy)
      (kx * d.Ky - ky * d.Kx - I * (lam : ℂ) ^ 2 * d.Jz / M.etaV s)
      (fun z => kx * F.Hy z - ky * F.Hx z) (fun z => -(kx * F.Ex z + ky * F.Ey z)) := by
  have hl' : (kx : ℂ) ^ 2 + (ky : ℂ) ^ 2 = (lam : ℂ) ^ 2 := by exact_mod_cast hl
  have hI : I * I = -1 := I_mul_I
  refine ⟨?_, ?_, ?_, ?_, ⟨?_, ?_⟩, ⟨?_, ?_⟩, ⟨?_, ?_⟩, ⟨?_, ?_⟩⟩
  · intro i z hi hz
    refine (((hF.ampereX i z hi hz).const_mul (kx : ℂ)).sub
      ((hF.ampereY i z hi hz).const_mul (ky : ℂ))).congr_deriv ?_
    simp only [Medium.tm]; ring
  · intro i z hi hz
    refine (((hF.faradayY i z hi hz).const_mul (kx : ℂ)).add
      ((hF.faradayX i z hi hz).const_mul (ky : ℂ))).neg.congr_deriv ?_
    have hi' : M.InClosed i z := medium_open_closed (M := M) hi
    have hv := ne_of_re_pos (hM.pas i hi'.1 hi'.2.1).etaV_re
    rw [Ez_eq hM hF hi']
    simp only [Medium.tm]
    field_simp
    linear_combination (-(kx * F.Hy z - ky * F.Hx z)) *
      (((kx : ℂ) ^ 2 + (ky : ℂ) ^ 2) * hI - hl')
  · intro z hi hz
    obtain ⟨h1, h2, h3, h4⟩ := hF.cont z hi hz
    exact (h4.const_mul _).sub (h3.const_mul _)
  · intro z hi hz
    obtain ⟨h1, h2, h3, h4⟩ := hF.cont z hi hz
    exact ((h1.const_mul _).add (h2.const_mul _)).neg
  · convert (hF.jumpHy.1.const_mul (kx : ℂ)).sub (hF.jumpHx.1.const_mul (ky : ℂ)) using 2; ring
  · convert (hF.jumpHy.2.const_mul (kx : ℂ)).sub (hF.jumpHx.2.const_mul (ky : ℂ)) using 2; ring
  · convert ((hF.jumpEx.1.const_mul (kx : ℂ)).add (hF.jumpEy.1.const_mul (ky : ℂ))).neg using 2
    rw [← hl']; ring
  · convert ((hF.jumpEx.2.const_mul (kx : ℂ)).add (hF.jumpEy.2.const_mul (ky : ℂ))).neg using 2
    rw [← hl']; ring
  · simpa using (hF.decay.2.2.2.1.const_mul (kx : ℂ)).sub (hF.decay.2.2.1.1.const_mul (ky : ℂ))
  · simpa using (hF.decay.2.2.2.2.const_mul (kx : ℂ)).sub (hF.decay.2.2.1.2.const_mul (ky : ℂ))
  · simpa using ((hF.decay.1.1.const_mul (kx : ℂ)).add (hF.decay.2.1.1.const_mul (ky : ℂ))).neg
  · simpa using ((hF.decay.1.2.const_mul (kx : ℂ)).add (hF.decay.2.1.2.const_mul (ky : ℂ))).neg

theorem te_field (hM : M.OK) (hl : kx ^ 2 + ky ^ 2 = lam ^ 2)
    (hF : IsPlaneField M kx ky zs s d F) :
    (M.te lam).IsField zs (kx * d.Kx + ky * d.Ky)
      (kx * d.Jy - ky * d.Jx + I * (lam : ℂ) ^ 2 * d.Kz / M.zetaV s)
      (fun z => kx * F.Ey z - ky * F.Ex z) (fun z => kx * F.Hx z + ky * F.Hy z) := by
  have hl' : (kx : ℂ) ^ 2 + (ky : ℂ) ^ 2 = (lam : ℂ) ^ 2 := by exact_mod_cast hl
  have hI : I * I = -1 := I_mul_I
  refine ⟨?_, ?_, ?_, ?_, ⟨?_, ?_⟩, ⟨?_, ?_⟩, ⟨?_, ?_⟩, ⟨?_, ?_⟩⟩
  · intro i z hi hz
    refine (((hF.faradayX i z hi hz).const_mul (kx : ℂ)).sub
      ((hF.faradayY i z hi hz).const_mul (ky : ℂ))).congr_deriv ?_
    simp only [Medium.te]; ring
  · intro i z hi hz
    refine (((hF.ampereY i z hi hz).const_mul (kx : ℂ)).add
      ((hF.ampereX i z hi hz).const_mul (ky : ℂ))).congr_deriv ?_
    have hi' : M.InClosed i z := medium_open_closed (M := M) hi
    have hv := (hM.pas i hi'.1 hi'.2.1).zetaV_ne
    rw [Hz_eq hM hF hi']
    simp only [Medium.te]
    field_simp
    linear_combination (-(kx * F.Ey z - ky * F.Ex z)) *
      (((kx : ℂ) ^ 2 + (ky : ℂ) ^ 2) * hI - hl')
  · intro z hi hz
    obtain ⟨h1, h2, h3, h4⟩ := hF.cont z hi hz
    exact (h2.const_mul _).sub (h1.const_mul _)
  · intro z hi hz
    obtain ⟨h1, h2, h3, h4⟩ := hF.cont z hi hz
    exact (h3.const_mul _).add (h4.const_mul _)
  · convert (hF.jumpEy.1.const_mul (kx : ℂ)).sub (hF.jumpEx.1.const_mul (ky : ℂ)) using 2; ring
  · convert (hF.jumpEy.2.const_mul (kx : ℂ)).sub (hF.jumpEx.2.const_mul (ky : ℂ)) using 2; ring
  · convert (hF.jumpHx.1.const_mul (kx : ℂ)).add (hF.jumpHy.1.const_mul (ky : ℂ)) using 2
    rw [← hl']; ring
  · convert (hF.jumpHx.2.const_mul (kx : ℂ)).add (hF.jumpHy.2.const_mul (ky : ℂ)) using 2
    rw [← hl']; ring
  · simpa using (hF.decay.2.1.1.const_mul (kx : ℂ)).sub (hF.decay.1.1.const_mul (ky : ℂ))
  · simpa using (hF.decay.2.1.2.const_mul (kx : ℂ)).sub (hF.decay.1.2.const_mul (ky : ℂ))
  · simpa using (hF.decay.2.2.1.1.const_mul (kx : ℂ)).add (hF.decay.2.2.2.1.const_mul (ky : ℂ))
  · simpa using (hF.decay.2.2.1.2.const_mul (kx : ℂ)).add (hF.decay.2.2.2.2.const_mul (ky : ℂ))


/-- Component `a` at the receiver, with or without the direct field. -/
noncomputable def xcomp (xd : Bool) (s r : ℤ) (F Fh : PlaneField) (a : ℕ) (z : ℝ) : ℂ :=
  F.comp a r z - if xd = true ∧ r = s then Fh.comp a 0 z else 0

/-- All components of a plane field at the receiver, from the 1-D responses. -/
theorem plane_comp (hM : M.OK) (hlam : lam ≠ 0) (hl : kx ^ 2 + ky ^ 2 = lam ^ 2)
    (hs : M.InClosed s zs) {r : ℤ} {zr : ℝ} (hr : M.InClosed r zr) {xd : Bool}
    (hF : IsPlaneField M kx ky zs s d F) {Fh : PlaneField}
    (hH : IsPlaneField (M.homog s) kx ky zs 0 d Fh)
    {Ao Bo Ae Be Ao' Bo' Ae' Be' : ℂ}
    (R1 : Resp (M.tm lam) zs zr s r xd Ao Bo Ae Be)
    (R2 : Resp (M.te lam) zs zr s r xd Ao' Bo' Ae' Be') :
    let j1 : ℂ := -(kx * d.Jx) - ky * d.Jy
    let j2 : ℂ := kx * d.Ky - ky * d.Kx - I * (lam : ℂ) ^ 2 * d.Jz / M.etaV s
    let j3 : ℂ := kx * d.Kx + ky * d.Ky
    let j4 : ℂ := kx * d.Jy - ky * d.Jx + I * (lam : ℂ) ^ 2 * d.Kz / M.zetaV s
    let AT := j1 / 2 * Ao - j2 / 2 * Ae
    let BT := j1 / 2 * Bo - j2 / 2 * Be
    let AE := j3 / 2 * Ao' - j4 / 2 * Ae'
    let BE := j3 / 2 * Bo' - j4 / 2 * Be'
    let X := fun a => xcomp xd s r F Fh a zr
    X 1 = (-(kx * BT) - ky * AE) / (lam : ℂ) ^ 2 ∧
    X 2 = (-(ky * BT) + kx * AE) / (lam : ℂ) ^ 2 ∧
    X 3 = -I * AT / M.etaV r ∧
    X 4 = (kx * BE - ky * AT) / (lam : ℂ) ^ 2 ∧
    X 5 = (ky * BE + kx * AT) / (lam : ℂ) ^ 2 ∧
    X 6 = I * AE / M.zetaV r := by
  have hMh := OK.homog hM hs.1 hs.2.1
  have hl' : (kx : ℂ) ^ 2 + (ky : ℂ) ^ 2 = (lam : ℂ) ^ 2 := by exact_mod_cast hl
  have hlam' : (lam : ℂ) ≠ 0 := by exact_mod_cast hlam
  obtain ⟨t1, t2⟩ := resp_field (OK.tm_ord hM lam) (OK.tm_pas hM lam) hs R1
    (tm_field hM hl hF) (tm_field hMh hl hH)
  obtain ⟨t3, t4⟩ := resp_field (OK.te_ord hM lam) (OK.te_pas hM lam) hs R2
    (te_field hM hl hF) (te_field hMh hl hH)
  intro j1 j2 j3 j4 AT BT AE BE X
  have hc : (M.homog s).InClosed 0 zr :=
    ⟨le_refl _, by simp [Medium.homog], by simp, by simp [Medium.homog]⟩
  have ez := Ez_eq hM hF hr
  have ezh := Ez_eq hMh hH hc
  have hz := Hz_eq hM hF hr
  have hzh := Hz_eq hMh hH hc
  change _ = AT at t1
  change _ = BT at t2
  change _ = AE at t3
  change _ = BE at t4
  rw [← t1, ← t2, ← t3, ← t4]
  simp only [X, xcomp, xval, PlaneField.comp, OfNat.ofNat_ne_one, if_false, if_true,
    Nat.reduceEqDiff, ez, ezh, hz, hzh]
  have hk : (kx : ℂ) ^ 2 + (ky : ℂ) ^ 2 ≠ 0 := by rw [hl']; exact pow_ne_zero 2 hlam'
  rw [← hl']
  have hv1 : (M.homog s).etaV 0 = M.etaV s := rfl
  have hv2 : (M.homog s).zetaV 0 = M.zetaV s := rfl
  rw [hv1, hv2]
  by_cases hx : xd = true ∧ r = s
  · simp only [if_pos hx]
    obtain ⟨-, rfl⟩ := hx
    refine ⟨?_, ?_, ?_, ?_, ?_, ?_⟩
    · rw [eq_div_iff hk]; ring
    · rw [eq_div_iff hk]; ring
    · ring
    · rw [eq_div_iff hk]; ring
    · rw [eq_div_iff hk]; ring
    · ring
  · simp only [if_neg hx]
    refine ⟨?_, ?_, ?_, ?_, ?_, ?_⟩
    · rw [eq_div_iff hk]; ring
    · rw [eq_div_iff hk]; ring
    · ring
    · rw [eq_div_iff hk]; ring
    · rw [eq_div_iff hk]; ring
    · ring

/-- Uniqueness of plane fields. -/
theorem plane_unique (hM : M.OK) (hlam : lam ≠ 0) (hl : kx ^ 2 + ky ^ 2 = lam ^ 2)
    {F' : PlaneField}
    (hF : IsPlaneField M kx ky zs s d F) (hF' : IsPlaneField M kx ky zs s d F') :
    F.Ex = F'.Ex ∧ F.Ey = F'.Ey ∧ F.Hx = F'.Hx ∧ F.Hy = F'.Hy ∧
    (∀ i z, M.InClosed i z → F.Ez i z = F'.Ez i z ∧ F.Hz i z = F'.Hz i z) := by
  have hl' : (kx : ℂ) ^ 2 + (ky : ℂ) ^ 2 = (lam : ℂ) ^ 2 := by exact_mod_cast hl
  have hlam' : (lam : ℂ) ≠ 0 := by exact_mod_cast hlam
  have hk : (kx : ℂ) ^ 2 + (ky : ℂ) ^ 2 ≠ 0 := by rw [hl']; exact pow_ne_zero 2 hlam'
  obtain ⟨u1, u2⟩ := field_unique (OK.tm_ord hM lam).pos (OK.tm_pas hM lam) (tm_field hM hl hF)
    (tm_field hM hl hF')
  obtain ⟨u3, u4⟩ := field_unique (OK.te_ord hM lam).pos (OK.te_pas hM lam) (te_field hM hl hF)
    (te_field hM hl hF')
  have e1 : F.Ex = F'.Ex := by
    funext z; apply mul_left_cancel₀ hk
    linear_combination -(kx : ℂ) * u2 z - (ky : ℂ) * u3 z
  have e2 : F.Ey = F'.Ey := by
    funext z; apply mul_left_cancel₀ hk
    linear_combination -(ky : ℂ) * u2 z + (kx : ℂ) * u3 z
  have e3 : F.Hx = F'.Hx := by
    funext z; apply mul_left_cancel₀ hk
    linear_combination (kx : ℂ) * u4 z - (ky : ℂ) * u1 z
  have e4 : F.Hy = F'.Hy := by
    funext z; apply mul_left_cancel₀ hk
    linear_combination (ky : ℂ) * u4 z + (kx : ℂ) * u1 z
  refine ⟨e1, e2, e3, e4, fun i z hi => ?_⟩
  rw [Ez_eq hM hF hi, Ez_eq hM hF' hi, Hz_eq hM hF hi, Hz_eq hM hF' hi, e1, e2, e3, e4]
  exact ⟨rfl, rfl⟩

/-- Existence of plane fields. -/
theorem plane_exists (hM : M.OK) (hlam : lam ≠ 0) (hl : kx ^ 2 + ky ^ 2 = lam ^ 2)
    (hs : M.InClosed s zs) (d : Dipole) : ∃ F, IsPlaneField M kx ky zs s d F := by
  have hl' : (kx : ℂ) ^ 2 + (ky : ℂ) ^ 2 = (lam : ℂ) ^ 2 := by exact_mod_cast hl
  have hlam' : (lam : ℂ) ≠ 0 := by exact_mod_cast hlam
  have hk : (kx : ℂ) ^ 2 + (ky : ℂ) ^ 2 ≠ 0 := by rw [hl']; exact pow_ne_zero 2 hlam'
  obtain ⟨A, B, f⟩ := field_exists (OK.tm_ord hM lam) (OK.tm_pas hM lam) hs
    (-(kx * d.Jx) - ky * d.Jy) (kx * d.Ky - ky * d.Kx - I * (lam : ℂ) ^ 2 * d.Jz / M.etaV s)
  obtain ⟨A', B', f'⟩ := field_exists (OK.te_ord hM lam) (OK.te_pas hM lam) hs
    (kx * d.Kx + ky * d.Ky) (kx * d.Jy - ky * d.Jx + I * (lam : ℂ) ^ 2 * d.Kz / M.zetaV s)
  have hI : I * I = -1 := I_mul_I
  rw [← hl'] at f f'
  have vE : ∀ i z, M.InOpen i z → M.etaV i ≠ 0 := fun i z hi =>
    ne_of_re_pos (hM.pas i hi.1 hi.2.1).etaV_re
  have vH : ∀ i z, M.InOpen i z → M.zetaV i ≠ 0 := fun i z hi =>
    (hM.pas i hi.1 hi.2.1).zetaV_ne
  have vE' : ∀ i z, M.InClosed i z → M.etaV i ≠ 0 := fun i z hi =>
    ne_of_re_pos (hM.pas i hi.1 hi.2.1).etaV_re
  have vH' : ∀ i z, M.InClosed i z → M.zetaV i ≠ 0 := fun i z hi =>
    (hM.pas i hi.1 hi.2.1).zetaV_ne
  have vsE := vE' s zs hs
  have vsH := vH' s zs hs
  refine ⟨⟨fun z => (-(kx * B z) - ky * A' z) * ((kx : ℂ) ^ 2 + (ky : ℂ) ^ 2)⁻¹,
    fun z => (-(ky * B z) + kx * A' z) * ((kx : ℂ) ^ 2 + (ky : ℂ) ^ 2)⁻¹,
    fun i z => -I * A z / M.etaV i,
    fun z => (kx * B' z - ky * A z) * ((kx : ℂ) ^ 2 + (ky : ℂ) ^ 2)⁻¹,
    fun z => (ky * B' z + kx * A z) * ((kx : ℂ) ^ 2 + (ky : ℂ) ^ 2)⁻¹,
    fun i z => I * A' z / M.zetaV i⟩, ?_⟩
  refine ⟨?_, ?_, ?_, ?_, ?_, ?_, ?_, ⟨?_, ?_⟩, ⟨?_, ?_⟩, ⟨?_, ?_⟩, ⟨?_, ?_⟩,
    ⟨?_, ?_⟩, ⟨?_, ?_⟩, ⟨?_, ?_⟩, ⟨?_, ?_⟩⟩
  · intro i z hi hz
    have v := vE i z hi
    refine ((((f.odeB i z hi hz).const_mul (kx : ℂ)).neg.sub
      ((f'.odeA i z hi hz).const_mul (ky : ℂ))).mul_const _).congr_deriv ?_
    simp only [Medium.tm, Medium.te, ← hl']
    field_simp
    linear_combination -((kx : ℂ) * A z * ((kx : ℂ) ^ 2 + (ky : ℂ) ^ 2)) * hI
  · intro i z hi hz
    have v := vE i z hi
    refine ((((f.odeB i z hi hz).const_mul (ky : ℂ)).neg.add
      ((f'.odeA i z hi hz).const_mul (kx : ℂ))).mul_const _).congr_deriv ?_
    simp only [Medium.tm, Medium.te, ← hl']
    field_simp
    linear_combination -((ky : ℂ) * A z * ((kx : ℂ) ^ 2 + (ky : ℂ) ^ 2)) * hI
  · intro i z hi
    have v := vH' i z hi
    simp only
    field_simp
    ring
  · intro i z hi hz
    have v := vH i z hi
    refine ((((f'.odeB i z hi hz).const_mul (kx : ℂ)).sub
      ((f.odeA i z hi hz).const_mul (ky : ℂ))).mul_const _).congr_deriv ?_
    simp only [Medium.tm, Medium.te, ← hl']
    field_simp
    linear_combination ((kx : ℂ) * A' z * ((kx : ℂ) ^ 2 + (ky : ℂ) ^ 2)) * hI
  · intro i z hi hz
    have v := vH i z hi
    refine ((((f'.odeB i z hi hz).const_mul (ky : ℂ)).add
      ((f.odeA i z hi hz).const_mul (kx : ℂ))).mul_const _).congr_deriv ?_
    simp only [Medium.tm, Medium.te, ← hl']
    field_simp
    linear_combination ((ky : ℂ) * A' z * ((kx : ℂ) ^ 2 + (ky : ℂ) ^ 2)) * hI
  · intro i z hi
    have v := vE' i z hi
    simp only
    field_simp
    ring
  · intro z hi hz
    have c1 := f.contA z hi hz
    have c2 := f.contB z hi hz
    have c3 := f'.contA z hi hz
    have c4 := f'.contB z hi hz
    exact ⟨((c2.const_mul _).neg.sub (c3.const_mul _)).mul_const _,
      ((c2.const_mul _).neg.add (c3.const_mul _)).mul_const _,
      ((c4.const_mul _).sub (c1.const_mul _)).mul_const _,
      ((c4.const_mul _).add (c1.const_mul _)).mul_const _⟩
  · convert ((f.jumpB.1.const_mul (kx : ℂ)).neg.sub (f'.jumpA.1.const_mul (ky : ℂ))).mul_const
      ((kx : ℂ) ^ 2 + (ky : ℂ) ^ 2)⁻¹ using 2
    field_simp; ring
  · convert ((f.jumpB.2.const_mul (kx : ℂ)).neg.sub (f'.jumpA.2.const_mul (ky : ℂ))).mul_const
      ((kx : ℂ) ^ 2 + (ky : ℂ) ^ 2)⁻¹ using 2
    field_simp; ring
  · convert ((f.jumpB.1.const_mul (ky : ℂ)).neg.add (f'.jumpA.1.const_mul (kx : ℂ))).mul_const
      ((kx : ℂ) ^ 2 + (ky : ℂ) ^ 2)⁻¹ using 2
    field_simp; ring
  · convert ((f.jumpB.2.const_mul (ky : ℂ)).neg.add (f'.jumpA.2.const_mul (kx : ℂ))).mul_const
      ((kx : ℂ) ^ 2 + (ky : ℂ) ^ 2)⁻¹ using 2
    field_simp; ring
  · convert ((f'.jumpB.1.const_mul (kx : ℂ)).sub (f.jumpA.1.const_mul (ky : ℂ))).mul_const
      ((kx : ℂ) ^ 2 + (ky : ℂ) ^ 2)⁻¹ using 2
    field_simp; ring
  · convert ((f'.jumpB.2.const_mul (kx : ℂ)).sub (f.jumpA.2.const_mul (ky : ℂ))).mul_const
      ((kx : ℂ) ^ 2 + (ky : ℂ) ^ 2)⁻¹ using 2
    field_simp; ring
  · convert ((f'.jumpB.1.const_mul (ky : ℂ)).add (f.jumpA.1.const_mul (kx : ℂ))).mul_const
      ((kx : ℂ) ^ 2 + (ky : ℂ) ^ 2)⁻¹ using 2
    field_simp; ring
  · convert ((f'.jumpB.2.const_mul (ky : ℂ)).add (f.jumpA.2.const_mul (kx : ℂ))).mul_const
      ((kx : ℂ) ^ 2 + (ky : ℂ) ^ 2)⁻¹ using 2
    field_simp; ring
  · simpa using ((f.decayB.1.const_mul (kx : ℂ)).neg.sub
      (f'.decayA.1.const_mul (ky : ℂ))).mul_const ((kx : ℂ) ^ 2 + (ky : ℂ) ^ 2)⁻¹
  · simpa using ((f.decayB.2.const_mul (kx : ℂ)).neg.sub
      (f'.decayA.2.const_mul (ky : ℂ))).mul_const ((kx : ℂ) ^ 2 + (ky : ℂ) ^ 2)⁻¹
  · simpa using ((f.decayB.1.const_mul (ky : ℂ)).neg.add
      (f'.decayA.1.const_mul (kx : ℂ))).mul_const ((kx : ℂ) ^ 2 + (ky : ℂ) ^ 2)⁻¹
  · simpa using ((f.decayB.2.const_mul (ky : ℂ)).neg.add
      (f'.decayA.2.const_mul (kx : ℂ))).mul_const ((kx : ℂ) ^ 2 + (ky : ℂ) ^ 2)⁻¹
  · simpa using ((f'.decayB.1.const_mul (kx : ℂ)).sub
      (f.decayA.1.const_mul (ky : ℂ))).mul_const ((kx : ℂ) ^ 2 + (ky : ℂ) ^ 2)⁻¹
  · simpa using ((f'.decayB.2.const_mul (kx : ℂ)).sub
      (f.decayA.2.const_mul (ky : ℂ))).mul_const ((kx : ℂ) ^ 2 + (ky : ℂ) ^ 2)⁻¹
  · simpa using ((f'.decayB.1.const_mul (ky : ℂ)).add
      (f.decayA.1.const_mul (kx : ℂ))).mul_const ((kx : ℂ) ^ 2 + (ky : ℂ) ^ 2)⁻¹
  · simpa using ((f'.decayB.2.const_mul (ky : ℂ)).add
      (f.decayA.2.const_mul (kx : ℂ))).mul_const ((kx : ℂ) ^ 2 + (ky : ℂ) ^ 2)⁻¹

end

end Verif.Lemmas
