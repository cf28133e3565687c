import Verif.Props.C36_Sommerfeld
import Verif.Props.C35_Halfspace

/-!
# C36: `xdirect`
-/

namespace Verif.Props
open Verif.Spec Verif.Py Verif.Py.W Verif.Utils Verif.Model Verif.Kernel Verif.Transform Verif.Fullspace
  Verif.Lemmas Verif.Lemmas.Full MeasureTheory Set

theorem code36 {a b : ℕ} (ha : 1 ≤ a ∧ a ≤ 6) (hb : 1 ≤ b ∧ b ≤ 6) {c : ℕ} {ms mr : Bool}
    (hc : checkAb (.int (10 * a + b)) = .ok (c, ms, mr)) (h36 : c = 36) : (a = 3 ∧ b = 6) ∨ (a = 6 ∧ b = 3) := by
  rw [checkAb_digits ha hb] at hc
  have := congrArg Prod.fst (Except.ok.inj hc)
  simp only [h36] at this
  split_ifs at this <;> omega

/-- **C36, the closed form solves Maxwell's equations.**  The plane waves of the exact solution in the
homogeneous medium of layer `s` are integrable over all wavenumbers, and their sum, the inverse Fourier
transform, is what `fullspace` returns. -/
theorem C36_plane_waves {M : Medium} (hM : M.OK) {s : ℤ} (h0 : 0 ≤ s) (h1 : s < M.n) {sqrt : ℂ → ℂ}
    (hq : IsSqrt sqrt) {meds : List Med} (hp : ∀ m ∈ meds, Physical m) {i : ℕ} (hi : i < meds.length)
    (hE : meds[i] = layerMed M s) {a b : ℕ} (ha : 1 ≤ a ∧ a ≤ 6) (hb : 1 ≤ b ∧ b ≤ 6)
    (hmm : 4 ≤ a → 4 ≤ b → Oscillating meds[i]) {zs zr ρ : ℝ} (θ : ℝ) (hz : zs ≠ zr) (hρ : 0 < ρ)
    {Fh : ℝ → ℝ → PlaneField}
    (hH : ∀ lam > 0, ∀ φ, IsPlaneField (M.homog s) (lam * Real.cos φ) (lam * Real.sin φ) zs 0
      (unitDipole b) (Fh lam φ)) :
    IntegrableOn (fun lam => ringIntegral (fun φ => (Fh lam φ).comp a 0 zr) lam ρ θ) (Ioi 0) ∧
    ∫ lam in Ioi (0 : ℝ), ringIntegral (fun φ => (Fh lam φ).comp a 0 zr) lam ρ θ =
      resp sqrt meds i a b (ρ * Real.cos θ) (ρ * Real.sin θ) zs zr := by
  have hM' := OK.homog hM h0 h1
  have hcl : ∀ z, (M.homog s).InClosed 0 z := fun z =>
    ⟨le_refl _, by simp [Medium.homog], by simp, by simp [Medium.homog]⟩
  obtain ⟨c, ms, mr, hc⟩ : ∃ c ms mr, checkAb (.int (10 * a + b)) = .ok (c, ms, mr) :=
    ⟨_, _, _, checkAb_digits ha hb⟩
  change HasInt _ _
  by_cases h36 : c = 36
  · refine HasInt.zero.congr (fun l hl => ?_) ?_
    · have : ∀ φ, (Fh l φ).comp a 0 zr = 0 := fun φ => (C37_zero_codes hM' hl φ (hcl zs) (hcl zr)
        (code36 ha hb hc h36) (hH l hl φ) (hH l hl φ)).1
      simp [this, ringIntegral]
    · rw [resp_ok hi hc, if_neg (not_not.2 h36)]
  have key : HasInt _ _ := C36_sommerfeld safe_exact hq (earthOf (M.homog s)) 0 hp hi hE ha hb hmm hc h36 θ hz hρ
  refine key.congr (fun l hl => ?_) rfl
  have hr : ∀ xd, hankelIntegrand (wavenumber Ops.exact (earthOf (M.homog s)) zs zr 0 0 l c xd ms mr) c ρ
      (exactFactor θ c ms mr) (besselJ0 (l * ρ)) (besselJ1 (l * ρ)) =
      ringIntegral (fun φ => xcomp xd 0 0 (Fh l φ) (Fh l φ) a zr) l ρ θ := by
    intro xd
    obtain ⟨c', ms', mr', g1, g2⟩ := ring_all (xd := xd) (θ := θ) hM' safe_exact hl hρ (hcl zs) (hcl zr)
      (fun _ => rfl) ha hb (hH l hl) (Fh := Fh l) (hH l hl)
    rw [hc] at g1
    obtain ⟨rfl, rfl, rfl⟩ : c = c' ∧ ms = ms' ∧ mr = mr' := by simpa using Except.ok.inj g1
    exact g2
  beta_reduce
  rw [hr, hr]
  have e1 : (fun φ => xcomp true 0 0 (Fh l φ) (Fh l φ) a zr) = fun _ => 0 := by
    funext φ; simp [xcomp]
  have e2 : (fun φ => xcomp false 0 0 (Fh l φ) (Fh l φ) a zr) = fun φ => (Fh l φ).comp a 0 zr := by
    funext φ; simp [xcomp]
  rw [e1, e2]
  simp [ringIntegral]

/-! ## `dipole` -/

/-- Layers of a user model are physical, at every frequency and every Laplace parameter. -/
theorem user_physical {U : UserModel} {mn : ℝ} (hm : 0 < mn) (hU : U.Valid mn) {k : ℤ} (k0 : 0 ≤ k)
    (k1 : k < (U.z.length : ℤ) + 1) {s : ℂ} (h0 : s ≠ 0) (hre : 0 ≤ s.re) (him : 0 ≤ s.im) :
    Physical (layerMed (U.medium s) k) ∧
    (0 < s.im → 0 < U.epsH k.toNat → Oscillating (layerMed (U.medium s) k)) := by
  have hk : k.toNat < U.z.length + 1 := by omega
  have hmu : 0 < muVac := by unfold muVac; positivity
  have hep : 0 < epsVac := by unfold epsVac; positivity
  have r1 : 0 < U.rhoH k.toNat := lt_of_lt_of_le hm (hU.rhoH _ hk)
  have r2 : 0 < U.rhoV k.toNat := lt_of_lt_of_le hm (hU.rhoV _ hk)
  have e1 := hU.epsH _ hk
  have e2 := hU.epsV _ hk
  have m1 := hU.muH _ hk
  have m2 := hU.muV _ hk
  have key : ∀ r e : ℝ, (1 / (r : ℂ) + s * (e : ℂ)).re = 1 / r + s.re * e ∧
      (1 / (r : ℂ) + s * (e : ℂ)).im = s.im * e := by
    intro r e
    rw [show (1 / (r : ℂ)) = ((1 / r : ℝ) : ℂ) by push_cast; ring]
    constructor <;> simp
  have key2 : ∀ e : ℝ, (s * (e : ℂ)).re = s.re * e ∧ (s * (e : ℂ)).im = s.im * e := by
    intro e; constructor <;> simp
  have key3 : ∀ e : ℝ, 0 < e → s * (e : ℂ) ≠ 0 := by
    intro e he
    exact mul_ne_zero h0 (by exact_mod_cast he.ne')
  simp only [layerMed, UserModel.medium, UserModel.layer, if_pos (And.intro k0 k1)]
  refine ⟨⟨?_, ?_, ?_, ?_⟩, fun hi he => ⟨?_, ?_⟩⟩ <;> simp only
  · rw [(key _ _).1, (key _ _).2]; exact ⟨by positivity, by positivity⟩
  · rw [(key _ _).1, (key _ _).2]; exact ⟨by positivity, by positivity⟩
  · rw [(key2 _).1, (key2 _).2]; exact ⟨by positivity, by positivity, key3 _ (by positivity)⟩
  · rw [(key2 _).1, (key2 _).2]; exact ⟨by positivity, by positivity, key3 _ (by positivity)⟩
  · rw [(key _ _).2]; positivity
  · rw [(key2 _).2]; positivity

theorem sParam_im {minFreq : ℝ} (h : 0 < minFreq) (freq : List ℝ) (f : ℝ) : 0 ≤ (sParam minFreq freq f).im ∧
    ((∃ g ∈ freq, 0 < g) → 0 < (sParam minFreq freq f).im) := by
  have h1 : 0 < max f minFreq := lt_max_of_lt_right h
  have hpi := Real.pi_pos
  unfold sParam
  split_ifs with q
  · have e : (2 * Real.pi * Complex.I * ((max f minFreq : ℝ) : ℂ)).im = 2 * Real.pi * max f minFreq := by
      simp
    rw [e]; exact ⟨by positivity, fun _ => by positivity⟩
  · exact ⟨by simp, fun g => absurd g q⟩

/-- `xdirect` has no part in the description of the model. -/
theorem describes_xdirect {A : DipoleArgs} {U : UserModel} (h : Describes A U) (x : Option Bool) :
    Describes { A with xdirect := x } U := by
  obtain ⟨k, h⟩ := h
  cases h with
  | topDown lo hi depth res aniso epermH epermV mpermH mpermV =>
    exact ⟨_, .topDown lo hi depth res aniso epermH epermV mpermH mpermV⟩
  | bottomUp lo hi depth two strict res aniso epermH epermV mpermH mpermV =>
    exact ⟨_, .bottomUp lo hi depth two strict res aniso epermH epermV mpermH mpermV⟩

/-- Such plane waves exist, and the theorem applies to the layers of every valid user model: sea water at
10 Hz, vertical electric source 50 m above the receiver, 3000 m away. -/
example : ∃ Fh : ℝ → ℝ → PlaneField,
    let M := marine.medium (sParam 1e-20 [10] 10)
    (∀ lam > 0, ∀ φ, IsPlaneField (M.homog 1) (lam * Real.cos φ) (lam * Real.sin φ) 950 0 (unitDipole 3)
      (Fh lam φ)) ∧
    ∫ lam in Ioi (0 : ℝ), ringIntegral (fun φ => (Fh lam φ).comp 1 0 1000) lam 3000 0 =
      resp csqrt [layerMed M 1] 0 1 3 (3000 * Real.cos 0) (3000 * Real.sin 0) 950 1000 := by
  have hs := sParam_spec (minFreq := 1e-20) (by norm_num) [10] 10
  have hi := sParam_im (minFreq := 1e-20) (by norm_num) [10] 10
  have hM := user_ok (m := Mins.init) (by norm_num [Mins.init]) marine_valid hs.1 hs.2
  have hM' : ((marine.medium (sParam 1e-20 [10] 10)).homog 1).OK :=
    OK.homog hM (by norm_num) (by norm_num [UserModel.medium, marine])
  have hph := (user_physical (by norm_num) marine_valid (k := 1) (by norm_num) (by norm_num [marine]) hs.1 hs.2
    hi.1).1
  have hcl : ((marine.medium (sParam 1e-20 [10] 10)).homog 1).InClosed 0 950 :=
    ⟨le_refl _, by simp [Medium.homog], by simp, by simp [Medium.homog]⟩
  have hex : ∀ lam φ : ℝ, ∃ F, 0 < lam → IsPlaneField ((marine.medium (sParam 1e-20 [10] 10)).homog 1)
      (lam * Real.cos φ) (lam * Real.sin φ) 950 0 (unitDipole 3) F := by
    intro lam φ
    by_cases hl : 0 < lam
    · obtain ⟨F, hF⟩ := plane_exists hM' hl.ne' (kx := lam * Real.cos φ) (ky := lam * Real.sin φ) (by
        have := Real.sin_sq_add_cos_sq φ
        linear_combination lam ^ 2 * this) hcl (unitDipole 3)
      exact ⟨F, fun _ => hF⟩
    · exact ⟨⟨fun _ => 0, fun _ => 0, fun _ _ => 0, fun _ => 0, fun _ => 0, fun _ _ => 0⟩, fun h => absurd h hl⟩
  choose Fh hF using hex
  refine ⟨Fh, fun lam hl φ => hF lam φ hl, ?_⟩
  exact (C36_plane_waves hM (s := 1) (by norm_num) (by norm_num [UserModel.medium, marine]) csqrt_isSqrt
    (by simpa using hph) (by simp) rfl (by norm_num) (by norm_num) (fun h => absurd h (by norm_num)) 0
    (by norm_num) (by norm_num) (fun lam hl φ => hF lam φ hl)).2

end Verif.Props
