import Verif.Model.EmpyHankel
import Verif.Props.C36_XdirectDipole
import Verif.Props.C51_Cases
import Verif.Props.C54_DipoleK
import Verif.Props.C55_Analytical

/-!
# C56: the numerical transform pair of the filter design

`empy_hankel` (scripts/fdesign.py) hands the filter design a pair of functions: `lhs` of wavenumber, calculated with
`dipole_k`, and `rhs` of distance, calculated with `dipole` and QWE.  The filter design takes the second for the Hankel
transform of the first.
-/

namespace Verif.Props
open Verif.Spec Verif.Py Verif.Py.W Verif.Utils Verif.Model Verif.Kernel Verif.Transform Verif.Fullspace
  Verif.Lemmas Verif.Lemmas.Full Verif.Hank MeasureTheory Set

/-! ## Specification -/

/-- Receiver component, source component and azimuth of the three types (documentation, fdesign.py 1185-1187). -/
inductive Probe : String → ℕ → ℕ → ℝ → Prop
  | j0 : Probe "j0" 1 1 (Real.pi / 4)
  | j1 : Probe "j1" 3 1 0
  | j2 : Probe "j2" 1 2 (Real.pi / 4)

/-- What the filter design takes the distance-domain function for (fdesign.py 1276-1281): the integral of this over all
wavenumbers. -/
noncomputable def hankelOf (ftype : String) (g0 g1 : ℝ → ℂ) (r lam : ℝ) : ℂ :=
  if ftype = "j0" then g0 lam * besselJ0 (lam * r)
  else if ftype = "j1" then g1 lam * besselJ1 (lam * r)
  else g0 lam * besselJ0 (lam * r) + g1 lam * besselJ1 (lam * r) / r

/-- The arrays `lhs` returns. -/
def lhsParts {α : Type} (ftype : String) (P0 P1 : α) : List α :=
  if ftype = "j0" then [P0] else if ftype = "j1" then [P1] else [P0, P1]

/-! ## Proof -/

theorem integrandOf_split (o : Ops) (M : Medium) (zs zr : ℝ) (ls lr : ℤ) (a b : ℕ) (ρ θ lam : ℝ) (x y : ℂ) :
    integrandOf o M zs zr ls lr a b ρ θ lam x y =
      integrandOf o M zs zr ls lr a b 1 θ lam 1 0 * x +
        integrandOf o M zs zr ls lr a b 1 θ lam 0 1 * y / (if calcCode a b ∈ j2codes then (ρ : ℂ) else 1) := by
  unfold integrandOf
  by_cases h : calcCode a b = 36
  · simp [h]
  simp only [if_neg h, hIntegrand, hankelIntegrand]
  generalize wavenumber o (earthOf M) zs zr ls lr lam (calcCode a b) false (decide (4 ≤ b)) (decide (4 ≤ a)) = K
  obtain ⟨k0, k1, k2⟩ := K
  by_cases h2 : calcCode a b ∈ j2codes
  · simp only [if_pos h2]
    cases k0 <;> cases k1 <;> cases k2 <;> simp <;> ring
  · simp only [if_neg h2]
    cases k0 <;> cases k1 <;> cases k2 <;> simp <;> ring

theorem far_apart {a b : ℝ} (h : b / 2 ≤ |a - b|) (hb : 1 ≤ b) : ¬ isclose a b 1e-10 1e-14 := by
  unfold isclose
  rw [abs_of_pos (by linarith : 0 < b)]
  intro q
  norm_num at q
  linarith

theorem inv_sqrt_two : 1 / Real.sqrt 2 = Real.cos (Real.pi / 4) ∧ 1 / Real.sqrt 2 = Real.sin (Real.pi / 4) := by
  rw [Real.cos_pi_div_four, Real.sin_pi_div_four]
  have h : Real.sqrt 2 * Real.sqrt 2 = 2 := Real.mul_self_sqrt (by norm_num)
  have h0 : Real.sqrt 2 ≠ 0 := by positivity
  constructor <;> · field_simp; linarith

theorem probe_facts {t : String} {a b : ℕ} {θ : ℝ} (h : Probe t a b θ) :
    ehCase t = some (10 * (a : ℤ) + b, Real.cos θ, Real.sin θ) ∧ (1 ≤ a ∧ a ≤ 3) ∧ (1 ≤ b ∧ b ≤ 3) ∧
      θ ∈ Ioc (-Real.pi) Real.pi ∧
      angleFactor θ (calcCode a b) (decide (4 ≤ b)) (decide (4 ≤ a)) =
        exactFactor θ (calcCode a b) (decide (4 ≤ b)) (decide (4 ≤ a)) := by
  have hpi := Real.pi_pos
  have hp3 := Real.pi_gt_three
  obtain ⟨e1, e2⟩ := inv_sqrt_two
  cases h with
  | j0 =>
    refine ⟨?_, by norm_num, by norm_num, ⟨by linarith, by linarith⟩, ?_⟩
    · rw [← e1, ← e2]; simp [ehCase]
    · have : Real.pi / 4 * 2 = Real.pi / 2 := by ring
      have e : exactFactor (Real.pi / 4) 11 false false = 0 := by
        simp [exactFactor, this]
      have e' : angleFactor (Real.pi / 4) 11 false false = 0 := by
        have h0 : isclose |Real.pi / 4 * 2| (Real.pi / 2) 1e-10 1e-14 := by
          rw [this, abs_of_pos (by linarith)]
          unfold isclose
          rw [sub_self, abs_zero]
          positivity
        simp [angleFactor]
        exact if_pos h0
      exact e'.trans e.symm
  | j1 =>
    refine ⟨by simp [ehCase], by norm_num, by norm_num, ⟨by linarith, by linarith⟩, ?_⟩
    have n1 : ¬ isclose 0 (Real.pi / 2) 1e-10 1e-14 :=
      far_apart (by rw [zero_sub, abs_neg, abs_of_pos (by linarith)]; linarith) (by linarith)
    have n2 : ¬ isclose 0 (3 * Real.pi / 2) 1e-10 1e-14 :=
      far_apart (by rw [zero_sub, abs_neg, abs_of_pos (by linarith)]; linarith) (by linarith)
    simp [angleFactor, exactFactor, calcCode, n1, n2]
  | j2 =>
    refine ⟨?_, by norm_num, by norm_num, ⟨by linarith, by linarith⟩, ?_⟩
    · rw [← e1, ← e2]; simp [ehCase]
    · have : Real.pi / 4 * 2 = Real.pi / 2 := by ring
      have ha : |Real.pi / 2| = Real.pi / 2 := abs_of_pos (by linarith)
      have n1 : ¬ isclose (Real.pi / 2) Real.pi 1e-10 1e-14 :=
        far_apart (by rw [abs_sub_comm, abs_of_pos (by linarith)]; linarith) (by linarith)
      have n2 : ¬ isclose (Real.pi / 2) (2 * Real.pi) 1e-10 1e-14 :=
        far_apart (by rw [abs_sub_comm, abs_of_pos (by linarith)]; linarith) (by linarith)
      change angleFactor (Real.pi / 4) 12 false false = exactFactor (Real.pi / 4) 12 false false
      rw [← ha, ← this] at n1 n2
      simp [angleFactor, exactFactor]
      exact (if_neg n1).trans (if_neg n2)

/-- The spectra, and the integrand at distance `r`. -/
theorem probe_spectra {t : String} {a b : ℕ} {θ : ℝ} (h : Probe t a b θ) (o : Ops) (M : Medium) (zs zr : ℝ) (ls lr : ℤ)
    (r lam : ℝ) :
    integrandOf o M zs zr ls lr a b r θ lam (besselJ0 (lam * r)) (besselJ1 (lam * r)) =
      hankelOf t (fun l => integrandOf o M zs zr ls lr a b 1 θ l 1 0) (fun l => integrandOf o M zs zr ls lr a b 1 θ l 0 1)
        r lam := by
  obtain ⟨-, -, -, -, hang⟩ := probe_facts h
  rw [integrandOf_split]
  cases h with
  | j0 =>
    have z : integrandOf o M zs zr ls lr 1 1 1 (Real.pi / 4) lam 0 1 = 0 := by
      have e : exactFactor (Real.pi / 4) (calcCode 1 1) (decide (4 ≤ 1)) (decide (4 ≤ 1)) = 0 := by
        have : Real.pi / 4 * 2 = Real.pi / 2 := by ring
        simp [exactFactor, calcCode, this]
      unfold integrandOf
      rw [hang, e]
      simp only [hIntegrand, hankelIntegrand]
      generalize wavenumber o (earthOf M) zs zr ls lr lam (calcCode 1 1) false (decide (4 ≤ 1)) (decide (4 ≤ 1)) = K
      obtain ⟨k0, k1, k2⟩ := K
      cases k0 <;> cases k1 <;> cases k2 <;> simp
    rw [z]
    simp [hankelOf]
  | j1 =>
    have z : integrandOf o M zs zr ls lr 3 1 1 0 lam 1 0 = 0 := by
      unfold integrandOf
      simp [calcCode, hIntegrand, hankelIntegrand, wavenumber]
    rw [z]
    simp [hankelOf, calcCode, j2codes]
  | j2 => simp [hankelOf, calcCode, j2codes]

theorem eh_describes {A : EHArgs} {c : ℤ × ℝ × ℝ} {r : List ℝ} {U : UserModel} (h : Describes (ehDipole A c r) U)
    (c' : ℤ × ℝ × ℝ) (r' : List ℝ) : Describes (ehDipole A c' r') U := by
  obtain ⟨k, h⟩ := h
  refine ⟨k, ?_⟩
  cases h with
  | topDown lo hi h1 h2 h3 h4 h5 h6 h7 => exact .topDown lo hi h1 h2 h3 h4 h5 h6 h7
  | bottomUp lo hi h1 h2 h3 h4 h5 h6 h7 h8 h9 => exact .bottomUp lo hi h1 h2 h3 h4 h5 h6 h7 h8 h9

theorem eh_describesK {A : EHArgs} {c : ℤ × ℝ × ℝ} {r : List ℝ} {U : UserModel} (h : Describes (ehDipole A c r) U)
    (c' : ℤ × ℝ × ℝ) (k : KWave) : Describes (toDipole (ehDipoleK A c' k)) U := by
  obtain ⟨n, h⟩ := h
  refine ⟨n, ?_⟩
  cases h with
  | topDown lo hi h1 h2 h3 h4 h5 h6 h7 => exact .topDown lo hi h1 h2 h3 h4 h5 h6 h7
  | bottomUp lo hi h1 h2 h3 h4 h5 h6 h7 h8 h9 => exact .bottomUp lo hi h1 h2 h3 h4 h5 h6 h7 h8 h9

theorem bc_scaled {rs : List ℝ} {j : ℕ} (hj : j < rs.length) (x : ℝ) : bc (rs.map (· * x)) j = rs[j] * x := by
  unfold bc
  split_ifs with h
  · rw [List.length_map] at h
    obtain ⟨q, rfl⟩ := List.length_eq_one_iff.1 h
    obtain rfl : j = 0 := by simpa using hj
    simp
  · rw [List.getD_eq_getElem _ _ (by simpa using hj), List.getElem_map]

theorem polar_pos {minOff r θ : ℝ} (h0 : 0 < r) (h : minOff ≤ r) (hθ : θ ∈ Ioc (-Real.pi) Real.pi) :
    rhoOf minOff (r * Real.cos θ) (r * Real.sin θ) = r ∧ thetaOf (r * Real.cos θ) (r * Real.sin θ) = θ := by
  constructor
  · have e : (r * Real.cos θ) ^ 2 + (r * Real.sin θ) ^ 2 = r ^ 2 := by
      have := Real.sin_sq_add_cos_sq θ
      linear_combination r ^ 2 * this
    rw [rhoOf, e, Real.sqrt_sq h0.le, max_eq_left h]
  · have e : (⟨r * Real.cos θ, r * Real.sin θ⟩ : ℂ) = (r : ℂ) * (Complex.cos θ + Complex.sin θ * Complex.I) := by
      apply Complex.ext <;> simp [← Complex.ofReal_cos, ← Complex.ofReal_sin]
    rw [thetaOf, e, Complex.arg_mul_cos_add_sin_mul_I h0 hθ]

theorem one_dipole (x y z : ℝ) : numDipoles [[x], [y], [z]] = 1 := by simp [numDipoles]

/-- `lhs`: the spectra at all wavenumbers. -/
theorem eh_lhs {H : HBack} (hm : 0 < H.m.minRes) (h1 : H.m.minOff ≤ 1) {A : EHArgs} {a b : ℕ} {θ : ℝ}
    (hp : Probe A.ftype a b θ) {U : UserModel} (hU : U.Valid H.m.minRes) {c : ℤ × ℝ × ℝ} {r0 : List ℝ}
    (hA : Describes (ehDipole A c r0) U) {w : KWave} {rows cols : ℕ} {pair : ℕ → ℕ} {lam : ℕ → ℕ → ℝ}
    (hw : WLayout w 1 rows cols pair lam) :
    ∃ P0 P1 : NdArray, (ehLhs H A w).val = .ok (lhsParts A.ftype P0.squeeze P1.squeeze) ∧
      P0.shape = [A.freqtime.length, rows, cols] ∧ P1.shape = [A.freqtime.length, rows, cols] ∧
      ∀ f (hf : f < A.freqtime.length), ∀ j < rows, ∀ k < cols, ∀ J0 J1 : ℂ,
        P0.get [f, j, k] * J0 + P1.get [f, j, k] * J1 =
          integrandOf H.o (U.medium (sParam H.m.minFreq A.freqtime A.freqtime[f])) A.zsrc A.zrec
            (layerOf (userOut H.m U).depth A.zsrc) (layerOf (userOut H.m U).depth A.zrec) a b 1 θ (lam j k) J0 J1 := by
  obtain ⟨hcase, ha, hb, hθ, -⟩ := probe_facts hp
  obtain ⟨P0, P1, e1, e2, e3, e4⟩ := C54_entry_partial (o := H.o) (junk := H.junk) hm hU
    (eh_describesK hA (10 * (a : ℤ) + b, Real.cos θ, Real.sin θ) w) ⟨ha.1, by omega⟩ ⟨hb.1, by omega⟩ (Or.inl ha.2) rfl
    (xs := [0]) (ys := [0]) (xr := [Real.cos θ]) (yr := [Real.sin θ]) rfl rfl (by simp) (by simp)
    (rows := rows) (cols := cols) (pair := pair) (lam := lam)
    (by simp only [ehDipoleK, one_dipole, mul_one]; exact hw)
  refine ⟨P0, P1, ?_, e2, e3, ?_⟩
  · unfold ehLhs
    rw [hcase]
    simp only
    rw [bind_val, e1]
    simp only [lhsParts]
    rfl
  intro f hf j hj k hk J0 J1
  have hpair : pair j = 0 := by
    cases hw with
    | vec l h => exact Nat.lt_one_iff.1 hj
    | mat => rfl
  have n1 : numDipoles (ehDipoleK A (10 * (a : ℤ) + b, Real.cos θ, Real.sin θ) w).rcv = 1 := one_dipole _ _ _
  have n2 : numDipoles (ehDipoleK A (10 * (a : ℤ) + b, Real.cos θ, Real.sin θ) w).src = 1 := one_dipole _ _ _
  have q := e4 f hf j hj k hk 0 (by rw [n1]; exact one_pos) 0 (by rw [n2]; exact one_pos) (by rw [hpair]; simp) J0 J1
  have p1 := polar_pos (minOff := H.m.minOff) one_pos h1 hθ
  have b1 : bc [Real.cos θ] 0 - bc [0] 0 = 1 * Real.cos θ := by simp [bc]
  have b2 : bc [Real.sin θ] 0 - bc [0] 0 = 1 * Real.sin θ := by simp [bc]
  rw [q, b1, b2, p1.1, p1.2]
  rfl

open Classical in
/-- **C56.**  The numerical transform pair, for all three types, every valid description of a layered medium, source and
receiver at different depths: there are spectra `g0`, `g1` for each frequency such that

* `lhs` returns their values at all wavenumbers (a vector or a matrix);
* `rhs` returns, at all distances from the minimum offset on, the Hankel transform of these spectra, exactly, plus the
  error QWE makes with the secondary field `S`: the field of the plane waves in the layered medium, without those in a
  homogeneous medium if source and receiver are in the same layer. -/
theorem C56_pair {H : HBack} (hm : 0 < H.m.minRes) (hfr : 0 < H.m.minFreq) (hof : 0 < H.m.minOff)
    (hone : H.m.minOff ≤ 1) (ho : Safe H.o) (hsq : IsSqrt H.sqrt) (hJ0 : ∀ x, (H.J0 x : ℂ) = besselJ0 x)
    (hJ1 : ∀ x, (H.J1 x : ℂ) = besselJ1 x) (ht0 : 0 < H.tiny) {A : EHArgs} {d : Args.Dict} {nq mx : ℕ} {rtol atol : ℝ}
    (hc : (Verb.checkHankel H.C H.lib H.dflt "qwe" (A.htarg.getD []) A.verbrhs).val = .ok ("qwe", d))
    (hd : HQweSet d nq mx rtol atol) (hq : 1 ≤ nq) (hmx : 2 ≤ mx) (hz : ∀ i < mx, 0 < bZero H mx i)
    (hg : ∀ q < (H.gauss nq).n, |(H.gauss nq).x q| ≤ 1) (hx : ∃ f ∈ A.freqtime, 0 < f)
    {U : UserModel} (hU : U.Valid H.m.minRes) {c : ℤ × ℝ × ℝ} {r0 : List ℝ} (hA : Describes (ehDipole A c r0) U)
    {a b : ℕ} {θ : ℝ} (hp : Probe A.ftype a b θ) (hne : A.zsrc ≠ A.zrec) :
    ∃ g0 g1 : ℕ → ℝ → ℂ,
      (∀ w rows cols pair lam, WLayout w 1 rows cols pair lam →
        ∃ P0 P1 : NdArray, (ehLhs H A w).val = .ok (lhsParts A.ftype P0.squeeze P1.squeeze) ∧
          P0.shape = [A.freqtime.length, rows, cols] ∧ P1.shape = [A.freqtime.length, rows, cols] ∧
          ∀ f < A.freqtime.length, ∀ j < rows, ∀ k < cols,
            P0.get [f, j, k] = g0 f (lam j k) ∧ P1.get [f, j, k] = g1 f (lam j k)) ∧
      ∀ rs : List ℝ, rs ≠ [] → ∃ arr : NdArray, (ehRhs H A rs).val = .ok arr.squeeze ∧
        arr.shape = [A.freqtime.length, rs.length, 1] ∧
        ∀ f (hf : f < A.freqtime.length) j (hj : j < rs.length), H.m.minOff ≤ rs[j] →
          let M := U.medium (sParam H.m.minFreq A.freqtime A.freqtime[f])
          let r := rs[j]
          IntegrableOn (hankelOf A.ftype (g0 f) (g1 f) r) (Ioi 0) ∧
          ∀ ls lr, M.InUpper ls A.zsrc → M.InUpper lr A.zrec → ∀ F Fh : ℝ → ℝ → PlaneField,
          (∀ lam > 0, ∀ φ, IsPlaneField M (lam * Real.cos φ) (lam * Real.sin φ) A.zsrc ls (unitDipole b) (F lam φ)) →
          (∀ lam > 0, ∀ φ, IsPlaneField (M.homog ls) (lam * Real.cos φ) (lam * Real.sin φ) A.zsrc 0 (unitDipole b)
            (Fh lam φ)) →
          let S := fun lam => ringIntegral (fun φ => (F lam φ).comp a lr A.zrec -
            if ls = lr ∨ U.Uniform then (Fh lam φ).comp a 0 A.zrec else 0) lam r θ
          arr.get [f, j, 0] = (∫ lam in Ioi (0 : ℝ), hankelOf A.ftype (g0 f) (g1 f) r lam) +
            (qweRule ⟨rtol, atol, H.tiny, H.big, H.zero⟩ (bZero H mx) (H.gauss nq) mx r S -
              ∫ lam in Ioi (0 : ℝ), S lam) := by
  obtain ⟨hcase, ha3, hb3, hθ, hang⟩ := probe_facts hp
  have ha : 1 ≤ a ∧ a ≤ 6 := ⟨ha3.1, by omega⟩
  have hb : 1 ≤ b ∧ b ≤ 6 := ⟨hb3.1, by omega⟩
  let Mf : ℕ → Medium := fun f => U.medium (sParam H.m.minFreq A.freqtime (A.freqtime.getD f 0))
  let I : ℕ → ℝ → ℝ → ℂ → ℂ → ℂ := fun f ρ l x y => integrandOf H.o (Mf f) A.zsrc A.zrec
    (layerOf (userOut H.m U).depth A.zsrc) (layerOf (userOut H.m U).depth A.zrec) a b ρ θ l x y
  refine ⟨fun f l => I f 1 l 1 0, fun f l => I f 1 l 0 1, ?_, ?_⟩
  · intro w rows cols pair lam hw
    obtain ⟨P0, P1, e1, e2, e3, e4⟩ := eh_lhs hm hone hp hU hA hw
    refine ⟨P0, P1, e1, e2, e3, ?_⟩
    intro f hf j hj k hk
    have q0 := e4 f hf j hj k hk 1 0
    have q1 := e4 f hf j hj k hk 0 1
    simp only [mul_one, mul_zero, add_zero, zero_add] at q0 q1
    simp only [I, Mf, getD_eq hf]
    exact ⟨q0, q1⟩
  intro rs hrs
  have hlen : 0 < rs.length := List.length_pos_of_ne_nil hrs
  let cc : ℤ × ℝ × ℝ := (10 * (a : ℤ) + b, Real.cos θ, Real.sin θ)
  have hnr : numDipoles (ehDipole A cc rs).rcv = rs.length := by
    simp only [ehDipole, numDipoles, List.length_map, ite_self]
  have hns : numDipoles (ehDipole A cc rs).src = 1 := one_dipole _ _ _
  have hu := C51_qwe H hd hq hmx
  have e : withBessel H.J0 H.J1 (qweRule ⟨rtol, atol, H.tiny, H.big, H.zero⟩ (bZero H mx) (H.gauss nq) mx) =
      besselRule (qweRule ⟨rtol, atol, H.tiny, H.big, H.zero⟩ (bZero H mx) (H.gauss nq) mx) := by
    funext ρ g
    simp only [withBessel, besselRule, hJ0, hJ1]
  rw [e] at hu
  have hcd := codes a (Finset.mem_Icc.2 ha) b (Finset.mem_Icc.2 hb)
  obtain ⟨arr, k1, k2, k3⟩ := dipole_at (B := backOf H "qwe" d) hm hfr hof ho (qwe_isRule ht0 hmx hz hg) hu hU
    (eh_describes hA cc rs) ha hb rfl (xs := [0]) (ys := [0]) (xr := rs.map (· * Real.cos θ))
    (yr := rs.map (· * Real.sin θ)) rfl rfl (by simp) (by simp) hcd (by rw [hns]; exact one_pos)
    (by rw [hnr]; exact hlen)
  rw [hnr, hns] at k2
  refine ⟨arr, ?_, k2, ?_⟩
  · unfold ehRhs
    rw [hcase]
    simp only
    rw [C51_dipole H (ehDipole A cc rs) "qwe" (A.htarg.getD []) hc (qwe_runs H hd hq hmx) fun q => by
      obtain ⟨f, hf, hp⟩ := hx
      exact absurd hp (not_lt.2 (q.2.2 f hf)), k1]
    rfl
  intro f hf j hj hmin M r
  have hr : 0 < r := lt_of_lt_of_le hof hmin
  obtain ⟨p1, p2⟩ := polar_pos (minOff := H.m.minOff) hr hmin hθ
  obtain ⟨s0, sre⟩ := sParam_spec hfr A.freqtime A.freqtime[f]
  have hM : M.OK := user_ok hm hU s0 sre
  have hP : ∀ g, ∀ i, 0 ≤ i → i < (U.medium (sParam H.m.minFreq A.freqtime g)).n →
      Physical (layerMed (U.medium (sParam H.m.minFreq A.freqtime g)) i) := fun g i i0 i1 =>
    (user_physical hm hU i0 i1 (sParam_spec hfr A.freqtime g).1 (sParam_spec hfr A.freqtime g).2
      (sParam_im hfr A.freqtime g).1).1
  have hMf : Mf f = M := by simp only [Mf, getD_eq hf]; rfl
  have key : ∀ ls lr, M.InUpper ls A.zsrc → M.InUpper lr A.zrec → ∀ F : ℝ → ℝ → PlaneField,
      (∀ lam > 0, ∀ φ, IsPlaneField M (lam * Real.cos φ) (lam * Real.sin φ) A.zsrc ls (unitDipole b) (F lam φ)) →
      ∀ lam > 0, hankelOf A.ftype (fun l => I f 1 l 1 0) (fun l => I f 1 l 0 1) r lam =
        ringIntegral (fun φ => (F lam φ).comp a lr A.zrec) lam r θ := by
    intro ls lr hsu hru F hF lam hl
    have hsc := upper_closed hsu
    have hrc := upper_closed hru
    have e1 := (user_layer (m := H.m) hU _ A.zsrc ls).1 hsu
    have e2 := (user_layer (m := H.m) hU _ A.zrec lr).1 hru
    obtain ⟨Fh, hH⟩ := plane_family (OK.homog hM hsc.1 hsc.2.1) (homog_closed _ ls A.zsrc) (unitDipole b)
    have w := wave_ring ho hM hsc hrc (fun q => absurd q.symm hne) false hr θ ha hb hcd hF hH hl
    simp only [I, hMf]
    rw [← probe_spectra hp, ← e1, ← e2]
    unfold integrandOf
    have h36 : calcCode a b ≠ 36 := by
      unfold calcCode
      rw [if_neg (by omega)]
      omega
    rw [if_neg h36, hang]
    unfold waveIntegrand at w
    unfold hIntegrand
    rw [w]
    simp [xcomp]
  have hSU : M.InUpper (layerOf (userOut H.m U).depth A.zsrc) A.zsrc := (user_layer (m := H.m) hU _ A.zsrc _).2 rfl
  have hRU : M.InUpper (layerOf (userOut H.m U).depth A.zrec) A.zrec := (user_layer (m := H.m) hU _ A.zrec _).2 rfl
  refine ⟨?_, ?_⟩
  · obtain ⟨F, hF⟩ := plane_family hM (upper_closed hSU) (unitDipole b)
    refine (C45_field hM (hP _) (upper_closed hSU) (upper_closed hRU) hne hr θ ha hb hF).1.congr_fun
      (fun l hl => ?_) measurableSet_Ioi
    exact (key _ _ hSU hRU F hF l hl).symm
  intro ls lr hsu hru F Fh hF hH S
  have hsc := upper_closed hsu
  have hrc := upper_closed hru
  have b1 : bc (rs.map (· * Real.cos θ)) j - bc [0] 0 = r * Real.cos θ := by
    rw [bc_scaled hj]; simp [bc, r]
  have b2 : bc (rs.map (· * Real.sin θ)) j - bc [0] 0 = r * Real.sin θ := by
    rw [bc_scaled hj]; simp [bc, r]
  have q := k3 f j 0 hf (by rw [hnr]; exact hj) (by rw [hns]; exact one_pos) θ
  simp only [b1, b2] at q
  have hmB : (backOf H "qwe" d).m = H.m := rfl
  rw [hmB, p1, p2] at q
  have q := q hang ls lr hsu hru F Fh hF hH
  rw [q, setIntegral_congr_fun measurableSet_Ioi fun l hl => key ls lr hsu hru F hF l hl]
  simp only [show (ehDipole A cc rs).xdirect = some true from rfl, ne_eq, Option.some.injEq, Bool.true_eq_false,
    not_false_eq_true, true_and]
  by_cases hD : ls = lr ∨ U.Uniform
  · have sd := split_direct hM (hP _) hsc hrc hne (hD.imp id fun hu => user_uniform hu _ hsc.1 hsc.2.1) hr θ hsq
      (meds := A.freqtime.map fun g => layerMed (U.medium (sParam H.m.minFreq A.freqtime g)) lr) (i := f)
      (by
        intro m hm'
        simp only [List.mem_map] at hm'
        obtain ⟨g, _, rfl⟩ := hm'
        exact hP g lr hrc.1 hrc.2.1) (by simpa using hf) (by simp; rfl) ha hb (fun h => absurd h (by omega)) hF hH
    rw [sd]
    simp only [if_pos hD, S]
    change resp H.sqrt _ _ _ _ _ _ _ _ + _ = _
    have : (ehDipole A cc rs).freq = A.freqtime := rfl
    rw [this]
    ring
  · simp only [if_neg hD, S, sub_zero]
    ring

open Classical in
/-- **C56, full space** (and identical layers): the pair is exact, because `rhs` is the closed form. -/
theorem C56_fullspace {H : HBack} (hm : 0 < H.m.minRes) (hfr : 0 < H.m.minFreq) (hof : 0 < H.m.minOff)
    (hone : H.m.minOff ≤ 1) (ho : Safe H.o) (hsq : IsSqrt H.sqrt) (hJ0 : ∀ x, (H.J0 x : ℂ) = besselJ0 x)
    (hJ1 : ∀ x, (H.J1 x : ℂ) = besselJ1 x) (ht0 : 0 < H.tiny) {A : EHArgs} {d : Args.Dict} {nq mx : ℕ} {rtol atol : ℝ}
    (hc : (Verb.checkHankel H.C H.lib H.dflt "qwe" (A.htarg.getD []) A.verbrhs).val = .ok ("qwe", d))
    (hd : HQweSet d nq mx rtol atol) (hq : 1 ≤ nq) (hmx : 2 ≤ mx) (hz : ∀ i < mx, 0 < bZero H mx i)
    (hg : ∀ q < (H.gauss nq).n, |(H.gauss nq).x q| ≤ 1) (hx : ∃ f ∈ A.freqtime, 0 < f)
    {U : UserModel} (hU : U.Valid H.m.minRes) (hun : U.Uniform) {c : ℤ × ℝ × ℝ} {r0 : List ℝ}
    (hA : Describes (ehDipole A c r0) U)
    {a b : ℕ} {θ : ℝ} (hp : Probe A.ftype a b θ) (hne : A.zsrc ≠ A.zrec) :
    ∃ g0 g1 : ℕ → ℝ → ℂ,
      (∀ w rows cols pair lam, WLayout w 1 rows cols pair lam →
        ∃ P0 P1 : NdArray, (ehLhs H A w).val = .ok (lhsParts A.ftype P0.squeeze P1.squeeze) ∧
          P0.shape = [A.freqtime.length, rows, cols] ∧ P1.shape = [A.freqtime.length, rows, cols] ∧
          ∀ f < A.freqtime.length, ∀ j < rows, ∀ k < cols,
            P0.get [f, j, k] = g0 f (lam j k) ∧ P1.get [f, j, k] = g1 f (lam j k)) ∧
      ∀ rs : List ℝ, rs ≠ [] → ∃ arr : NdArray, (ehRhs H A rs).val = .ok arr.squeeze ∧
        arr.shape = [A.freqtime.length, rs.length, 1] ∧
        ∀ f < A.freqtime.length, ∀ j (hj : j < rs.length), H.m.minOff ≤ rs[j] →
          IntegrableOn (hankelOf A.ftype (g0 f) (g1 f) rs[j]) (Ioi 0) ∧
          arr.get [f, j, 0] = ∫ lam in Ioi (0 : ℝ), hankelOf A.ftype (g0 f) (g1 f) rs[j] lam := by
  obtain ⟨g0, g1, h1, h2⟩ := C56_pair hm hfr hof hone ho hsq hJ0 hJ1 ht0 hc hd hq hmx hz hg hx hU hA hp hne
  refine ⟨g0, g1, h1, fun rs hrs => ?_⟩
  obtain ⟨arr, k1, k2, k3⟩ := h2 rs hrs
  refine ⟨arr, k1, k2, fun f hf j hj hmin => ?_⟩
  obtain ⟨q1, q2⟩ := k3 f hf j hj hmin
  refine ⟨q1, ?_⟩
  obtain ⟨hcase, ha3, hb3, hθ, hang⟩ := probe_facts hp
  obtain ⟨s0, sre⟩ := sParam_spec hfr A.freqtime A.freqtime[f]
  have hM : (U.medium (sParam H.m.minFreq A.freqtime A.freqtime[f])).OK := user_ok hm hU s0 sre
  obtain ⟨ls, hSU⟩ : ∃ ls, (U.medium (sParam H.m.minFreq A.freqtime A.freqtime[f])).InUpper ls A.zsrc :=
    ⟨_, (user_layer (m := H.m) hU _ A.zsrc _).2 rfl⟩
  obtain ⟨lr, hRU⟩ : ∃ lr, (U.medium (sParam H.m.minFreq A.freqtime A.freqtime[f])).InUpper lr A.zrec :=
    ⟨_, (user_layer (m := H.m) hU _ A.zrec _).2 rfl⟩
  have hsc := upper_closed hSU
  have hrc := upper_closed hRU
  obtain ⟨F, hF⟩ := plane_family hM hsc (unitDipole b)
  obtain ⟨Fh, hH⟩ := plane_family (OK.homog hM hsc.1 hsc.2.1) (homog_closed _ ls A.zsrc) (unitDipole b)
  have R := qwe_isRule (p := ⟨rtol, atol, H.tiny, H.big, H.zero⟩) ht0 hmx hz hg
  have q := q2 ls lr hSU hRU F Fh hF hH
  have hr : 0 < rs[j] := lt_of_lt_of_le hof hmin
  have z : ∀ lam > 0, ringIntegral (fun φ => (F lam φ).comp a lr A.zrec -
      if ls = lr ∨ U.Uniform then (Fh lam φ).comp a 0 A.zrec else 0) lam rs[j] θ = 0 := by
    intro lam hl
    have : ∀ φ, (F lam φ).comp a lr A.zrec = (Fh lam φ).comp a 0 A.zrec := fun φ =>
      plane_uniform hM hl φ hsc hrc (user_uniform hun _ hsc.1 hsc.2.1) (hF lam hl φ) (hH lam hl φ) ⟨ha3.1, by omega⟩
    simp [this, hun, ringIntegral]
  simp only at q
  rw [R.pos _ hr _ (fun _ => 0) z, R.zero, setIntegral_congr_fun measurableSet_Ioi fun l hl => z l hl] at q
  rw [q]
  simp

/-- **C56, other types.**  Neither function returns. -/
theorem C56_unknown (H : HBack) {A : EHArgs} (h : ∀ a b θ, ¬ Probe A.ftype a b θ) (rs : List ℝ) (w : KWave) :
    (∃ e, (ehRhs H A rs).val = .error e) ∧ ∃ e, (ehLhs H A w).val = .error e := by
  have hn : ehCase A.ftype = none := by
    unfold ehCase
    split_ifs with h0 h1 h2
    · exact absurd (h0 ▸ Probe.j0) (h 1 1 _)
    · exact absurd (h1 ▸ Probe.j1) (h 3 1 _)
    · exact absurd (h2 ▸ Probe.j2) (h 1 2 _)
    · rfl
  exact ⟨⟨.unboundLocal, by rw [ehRhs, hn]; rfl⟩, .unboundLocal, by rw [ehLhs, hn]; rfl⟩

/-! ## Cases -/

/-- In the ground, without interfaces, source and receiver 50 m apart. -/
noncomputable def landPair (t : String) : EHArgs :=
  ⟨t, 100, 150, .array [10], [1, 10], none, none, none, none, none, none, none, 0, 0⟩

/-- In the sea. -/
noncomputable def marinePair (t : String) : EHArgs :=
  ⟨t, 950, 1000, .array [1e8, 0.3, 1], [1, 10], some [0, ((1000 : ℝ) : EReal)], some [1, 1, 2], none, none, none, none,
    none, 0, 0⟩

theorem refH_gauss51 : ∀ q < (refH.gauss 51).n, |(refH.gauss 51).x q| ≤ 1 := by
  intro q hq
  change q < 51 at hq
  change |(-1 : ℝ) + (2 * q + 1) / (51 : ℕ)| ≤ 1
  have h0 : (0 : ℝ) ≤ q := Nat.cast_nonneg _
  have h1 : (q : ℝ) ≤ 50 := by exact_mod_cast Nat.le_of_lt_succ hq
  rw [abs_le]
  constructor <;> push_cast <;> linarith

/-- The type `'j1'` in a full space: `lhs` at two wavenumbers, and `rhs` at two distances, for two frequencies. -/
example : ∃ g : ℕ → ℝ → ℂ,
    (∃ P : NdArray, (ehLhs refH (landPair "j1") (.array (.vec [1e-3, 1e-2]))).val = .ok [P.squeeze] ∧
      P.shape = [2, 1, 2] ∧ P.get [1, 0, 0] = g 1 1e-3 ∧ P.get [1, 0, 1] = g 1 1e-2) ∧
    ∃ arr : NdArray, (ehRhs refH (landPair "j1") [100, 2000]).val = .ok arr.squeeze ∧ arr.shape = [2, 2, 1] ∧
      arr.get [0, 1, 0] = ∫ lam in Ioi (0 : ℝ), g 0 lam * besselJ1 (lam * 2000) := by
  obtain ⟨d, hc, hd⟩ := qwe_default refH.C refH.lib refH.dflt 0
  obtain ⟨g0, g1, h1, h2⟩ := C56_fullspace (H := refH) (by norm_num [refH, Mins.init])
    (by norm_num [refH, Mins.init]) (by norm_num [refH, Mins.init]) (by norm_num [refH, Mins.init]) safe_exact
    csqrt_isSqrt J0_real J1_real (by norm_num [refH]) (A := landPair "j1") hc hd (by norm_num) (by norm_num)
    (fun i _ => refH_zeros _ _) refH_gauss51 ⟨1, by simp [landPair], one_pos⟩ (U := land none) (land_valid (Or.inl rfl))
    (by
      intro i hi j hj
      simp only [land, List.length_nil, zero_add, Nat.lt_one_iff] at hi hj
      subst hi hj
      simp) (c := (31, 1, 0)) (r0 := [])
    ⟨_, .topDown false false (by simp [ehDipole, landPair, land, allDepths]) rfl rfl rfl rfl rfl rfl⟩ Probe.j1
    (by norm_num [landPair])
  refine ⟨g1, ?_, ?_⟩
  · obtain ⟨P0, P1, e1, -, e3, e4⟩ := h1 _ _ _ _ _ (.vec [1e-3, 1e-2] rfl)
    refine ⟨P1, e1, e3, ?_, ?_⟩
    · exact (e4 1 (by simp [landPair]) 0 one_pos 0 (by simp)).2
    · exact (e4 1 (by simp [landPair]) 0 one_pos 1 (by simp)).2
  · obtain ⟨arr, e1, e2, e3⟩ := h2 [100, 2000] (by simp)
    refine ⟨arr, e1, e2, ?_⟩
    have := (e3 0 (by simp [landPair]) 1 (by simp) (by norm_num [refH, Mins.init])).2
    rw [this]
    simp [hankelOf, landPair]

/-- The type `'j2'` in the sea: two spectra, and their joint transform up to the error of QWE for the field without the
direct field. -/
example : ∃ g0 g1 : ℕ → ℝ → ℂ,
    (∃ P0 P1 : NdArray, (ehLhs refH (marinePair "j2") (.array (.vec [1e-3, 1e-2]))).val = .ok [P0.squeeze, P1.squeeze] ∧
      P0.get [1, 0, 1] = g0 1 1e-2 ∧ P1.get [1, 0, 1] = g1 1 1e-2) ∧
    ∃ arr : NdArray, (ehRhs refH (marinePair "j2") [100, 2000]).val = .ok arr.squeeze ∧ arr.shape = [2, 2, 1] ∧
      ∃ S : ℝ → ℂ, arr.get [0, 1, 0] =
        (∫ lam in Ioi (0 : ℝ), (g0 0 lam * besselJ0 (lam * 2000) + g1 0 lam * besselJ1 (lam * 2000) / (2000 : ℝ))) +
          (qweRule ⟨1e-12, 1e-30, 1e-200, 1e200, fun _ => false⟩ (bZero refH 100) (refH.gauss 51) 100 2000 S -
            ∫ lam in Ioi (0 : ℝ), S lam) := by
  classical
  obtain ⟨d, hc, hd⟩ := qwe_default refH.C refH.lib refH.dflt 0
  have hfr : (0 : ℝ) < refH.m.minFreq := by norm_num [refH, Mins.init]
  have hmr : (0 : ℝ) < refH.m.minRes := by norm_num [refH, Mins.init]
  obtain ⟨g0, g1, h1, h2⟩ := C56_pair (H := refH) hmr hfr
    (by norm_num [refH, Mins.init]) (by norm_num [refH, Mins.init]) safe_exact
    csqrt_isSqrt J0_real J1_real (by norm_num [refH]) (A := marinePair "j2") hc hd (by norm_num) (by norm_num)
    (fun i _ => refH_zeros _ _) refH_gauss51 ⟨1, by simp [marinePair], one_pos⟩ (U := marine) marine_valid
    (c := (12, 1, 0)) (r0 := [])
    ⟨_, .topDown false false (by simp [ehDipole, marinePair, marine, allDepths]) rfl rfl rfl rfl rfl rfl⟩ Probe.j2
    (by norm_num [marinePair])
  refine ⟨g0, g1, ?_, ?_⟩
  · obtain ⟨P0, P1, e1, -, -, e4⟩ := h1 _ _ _ _ _ (.vec [1e-3, 1e-2] rfl)
    exact ⟨P0, P1, e1, e4 1 (by simp [marinePair]) 0 one_pos 1 (by simp)⟩
  · obtain ⟨arr, e1, e2, e3⟩ := h2 [100, 2000] (by simp)
    refine ⟨arr, e1, e2, ?_⟩
    have q := (e3 0 (by simp [marinePair]) 1 (by simp) (by norm_num [refH, Mins.init])).2
    obtain ⟨s0, sre⟩ := sParam_spec hfr (marinePair "j2").freqtime 1
    have hM := user_ok hmr marine_valid s0 sre
    have hS := (user_layer (m := refH.m) marine_valid (sParam refH.m.minFreq (marinePair "j2").freqtime 1) 950 _).2 rfl
    have hR := (user_layer (m := refH.m) marine_valid (sParam refH.m.minFreq (marinePair "j2").freqtime 1) 1000 _).2 rfl
    have hsc := upper_closed hS
    obtain ⟨F, hF⟩ := plane_family hM hsc (unitDipole 2)
    obtain ⟨Fh, hH⟩ := plane_family (OK.homog hM hsc.1 hsc.2.1) (homog_closed _ _ 950) (unitDipole 2)
    exact ⟨_, q _ _ hS hR F Fh hF hH⟩

/-- An unknown type. -/
example (rs : List ℝ) : ∃ e, (ehRhs refH (landPair "j3") rs).val = .error e :=
  (C56_unknown refH (A := landPair "j3") (fun a b θ h => by
    have := (probe_facts h).1
    simp [ehCase, landPair] at this) rs .bare).1

end Verif.Props
