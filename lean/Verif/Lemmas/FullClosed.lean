import Verif.Lemmas.FullMaxwell
import Verif.Lemmas.Laplace
import Verif.Model.Fullspace

/-!
# The model of `fullspace` in closed form
-/

set_option linter.unusedSimpArgs false

namespace Verif.Lemmas.Full
open Complex Verif.Spec Verif.Kernel Verif.Fullspace

/-- Square roots of the four medium parameters. -/
structure Roots where
  a : ℂ
  b : ℂ
  c : ℂ
  d : ℂ

namespace Roots
variable (s : Roots)
noncomputable def gTM : ℂ := s.c * s.b
noncomputable def kTM : ℂ := (s.a / s.b) ^ 2
noncomputable def gTE : ℂ := s.d * s.a
noncomputable def kTE : ℂ := (s.c / s.d) ^ 2
noncomputable def g0 : ℂ := s.a * s.c
end Roots

noncomputable def Rf (sqrt : ℂ → ℂ) (κ : ℂ) (x y z : ℝ) : ℂ := sqrt (x ^ 2 + y ^ 2 + κ * z ^ 2)

/-- Linear combination of vector fields. -/
noncomputable def _root_.Verif.Spec.Vec.comb (c : ℂ) (F G : Vec) : Vec :=
  ⟨fun x y z => c * (F.x x y z + G.x x y z), fun x y z => c * (F.y x y z + G.y x y z),
   fun x y z => c * (F.z x y z + G.z x y z)⟩

noncomputable def _root_.Verif.Spec.Vec.smul (c : ℂ) (F : Vec) : Vec :=
  ⟨fun x y z => c * F.x x y z, fun x y z => c * F.y x y z, fun x y z => c * F.z x y z⟩

section
variable (sqrt : ℂ → ℂ) (s : Roots)

/-- `1/(4πγ)` -/
noncomputable def pre : ℂ := 1 / (4 * Real.pi * s.g0)

/-- Electric field of source direction `b`. -/
noncomputable def colE : ℕ → Vec
  | 1 => .comb (pre s * s.c ^ 2) (tmE s.gTM s.kTM 1 0 (Rf sqrt s.kTM)) (teE s.gTE 1 0 (Rf sqrt s.kTE))
  | 2 => .comb (pre s * s.c ^ 2) (tmE s.gTM s.kTM 0 1 (Rf sqrt s.kTM)) (teE s.gTE 0 1 (Rf sqrt s.kTE))
  | 3 => .smul (pre s * s.c ^ 2) (vE s.gTM s.kTM (Rf sqrt s.kTM))
  | 4 => .comb (-pre s) (tmH s.gTE s.kTE 1 0 (Rf sqrt s.kTE)) (teH s.gTM s.kTM 1 0 (Rf sqrt s.kTM))
  | 5 => .comb (-pre s) (tmH s.gTE s.kTE 0 1 (Rf sqrt s.kTE)) (teH s.gTM s.kTM 0 1 (Rf sqrt s.kTM))
  | _ => .smul (-pre s) (vH s.gTE s.kTE (Rf sqrt s.kTE))

/-- Magnetic field of source direction `b`. -/
noncomputable def colH : ℕ → Vec
  | 1 => .comb (pre s) (tmH s.gTM s.kTM 1 0 (Rf sqrt s.kTM)) (teH s.gTE s.kTE 1 0 (Rf sqrt s.kTE))
  | 2 => .comb (pre s) (tmH s.gTM s.kTM 0 1 (Rf sqrt s.kTM)) (teH s.gTE s.kTE 0 1 (Rf sqrt s.kTE))
  | 3 => .smul (pre s) (vH s.gTM s.kTM (Rf sqrt s.kTM))
  | 4 => .comb (pre s * s.a ^ 2) (tmE s.gTE s.kTE 1 0 (Rf sqrt s.kTE)) (teE s.gTM 1 0 (Rf sqrt s.kTM))
  | 5 => .comb (pre s * s.a ^ 2) (tmE s.gTE s.kTE 0 1 (Rf sqrt s.kTE)) (teE s.gTM 0 1 (Rf sqrt s.kTM))
  | _ => .smul (pre s * s.a ^ 2) (vE s.gTE s.kTE (Rf sqrt s.kTE))

/-- Component `a` of column `b`. -/
noncomputable def entry (a b : ℕ) : ℝ → ℝ → ℝ → ℂ :=
  match a with
  | 1 => (colE sqrt s b).x
  | 2 => (colE sqrt s b).y
  | 3 => (colE sqrt s b).z
  | 4 => (colH sqrt s b).x
  | 5 => (colH sqrt s b).y
  | _ => (colH sqrt s b).z

end

/-- The roots belong to the medium and NumPy's roots of products and quotients are the products and
quotients of the roots. -/
structure Fits (sqrt : ℂ → ℂ) (md : Med) (s : Roots) : Prop where
  eH : md.etaH = s.a ^ 2
  eV : md.etaV = s.b ^ 2
  zH : md.zetaH = s.c ^ 2
  zV : md.zetaV = s.d ^ 2
  a0 : s.a ≠ 0
  b0 : s.b ≠ 0
  c0 : s.c ≠ 0
  d0 : s.d ≠ 0
  ra : sqrt md.etaH = s.a
  rc : sqrt md.zetaH = s.c
  rTM : sqrt (md.zetaH * md.etaV) = s.gTM
  rTE : sqrt (md.zetaV * md.etaH) = s.gTE
  qTM : sqrt (md.etaH / md.etaV) = s.a / s.b
  qTE : sqrt (md.zetaH / md.zetaV) = s.c / s.d
  r0 : sqrt (md.etaH * md.zetaH) = s.g0

theorem dist_eq (sqrt : ℂ → ℂ) {off x y : ℝ} (h : x ^ 2 + y ^ 2 = off ^ 2) (zs zr : ℝ) {e1 e2 k : ℂ}
    (hk : e1 / e2 = k) : Fullspace.dist sqrt off zs zr e1 e2 = Rf sqrt k x y (zr - zs) := by
  unfold Fullspace.dist Rf
  congr 1
  have h' : (x : ℂ) ^ 2 + (y : ℂ) ^ 2 = (off : ℂ) ^ 2 := by exact_mod_cast h
  rw [hk, h']; push_cast; ring

/-- The nine electric components. -/
theorem closed_ee {sqrt : ℂ → ℂ} {md : Med} {s : Roots} (f : Fits sqrt md s) {off x y : ℝ}
    (ho : off ≠ 0) (hxy : x ^ 2 + y ^ 2 = off ^ 2) (zs zr : ℝ)
    (n1 : Rf sqrt s.kTM x y (zr - zs) ≠ 0) (n2 : Rf sqrt s.kTE x y (zr - zs) ≠ 0) :
    ginH sqrt false md off x y zs zr 11 = entry sqrt s 1 1 x y (zr - zs) ∧
    ginH sqrt false md off x y zs zr 12 = entry sqrt s 1 2 x y (zr - zs) ∧
    ginH sqrt false md off x y zs zr 21 = entry sqrt s 2 1 x y (zr - zs) ∧
    ginH sqrt false md off x y zs zr 22 = entry sqrt s 2 2 x y (zr - zs) ∧
    ginHV sqrt md off x y zs zr 13 = entry sqrt s 1 3 x y (zr - zs) ∧
    ginHV sqrt md off x y zs zr 23 = entry sqrt s 2 3 x y (zr - zs) ∧
    ginHV sqrt md off x y zs zr 31 = entry sqrt s 3 1 x y (zr - zs) ∧
    ginHV sqrt md off x y zs zr 32 = entry sqrt s 3 2 x y (zr - zs) ∧
    ginV sqrt md off zs zr = entry sqrt s 3 3 x y (zr - zs) := by
  have hd1 := dist_eq sqrt hxy zs zr (e1 := md.etaH) (e2 := md.etaV) (k := s.kTM)
    (by rw [f.eH, f.eV, Roots.kTM, div_pow])
  have hd2 := dist_eq sqrt hxy zs zr (e1 := md.zetaH) (e2 := md.zetaV) (k := s.kTE)
    (by rw [f.zH, f.zV, Roots.kTE, div_pow])
  have a0 := f.a0
  have b0 := f.b0
  have c0 := f.c0
  have d0 := f.d0
  have hpi : (Real.pi : ℂ) ≠ 0 := by exact_mod_cast Real.pi_pos.ne'
  have hoc : (off : ℂ) ≠ 0 := by exact_mod_cast ho
  have hoo : oo x y = (off : ℂ) ^ 2 := by rw [oo]; exact_mod_cast hxy
  have hz : ((zr - zs : ℝ) : ℂ) = (zr : ℂ) - zs := by push_cast; rfl
  simp only [ginH, ginHV, ginV, lGam, uGam, hd1, hd2, f.ra, f.rc, f.rTM, f.rTE, f.qTM, f.qTE, entry,
    colE, Vec.comb, Vec.smul, tmE, teE, vE, pre, hoo, al, be, al', be', ch, nn, Full.e, hz]
  generalize Rf sqrt s.kTM x y (zr - zs) = R1 at *
  generalize Rf sqrt s.kTE x y (zr - zs) = R2 at *
  generalize Complex.exp (-s.gTM * R1) = e1
  generalize Complex.exp (-s.gTE * R2) = e2
  simp only [f.eH, f.eV, f.zH, f.zV, Roots.gTM, Roots.gTE, Roots.kTM, Roots.kTE, Roots.g0]
  refine ⟨?_, ?_, ?_, ?_, ?_, ?_, ?_, ?_, ?_⟩
  all_goals
    simp
    field_simp
    try ring

/-- Electric field of magnetic sources. -/
theorem closed_em {sqrt : ℂ → ℂ} {md : Med} {s : Roots} (f : Fits sqrt md s) {off x y : ℝ}
    (ho : off ≠ 0) (hxy : x ^ 2 + y ^ 2 = off ^ 2) (zs zr : ℝ)
    (n1 : Rf sqrt s.kTM x y (zr - zs) ≠ 0) (n2 : Rf sqrt s.kTE x y (zr - zs) ≠ 0) :
    ginEM sqrt md off x y zs zr 14 = entry sqrt s 1 4 x y (zr - zs) ∧
    ginEM sqrt md off x y zs zr 15 = entry sqrt s 1 5 x y (zr - zs) ∧
    ginEM sqrt md off x y zs zr 24 = entry sqrt s 2 4 x y (zr - zs) ∧
    ginEM sqrt md off x y zs zr 25 = entry sqrt s 2 5 x y (zr - zs) ∧
    ginZM sqrt md off x y zs zr 34 = entry sqrt s 3 4 x y (zr - zs) ∧
    ginZM sqrt md off x y zs zr 35 = entry sqrt s 3 5 x y (zr - zs) ∧
    ginZM sqrt md off x y zs zr 16 = entry sqrt s 1 6 x y (zr - zs) ∧
    ginZM sqrt md off x y zs zr 26 = entry sqrt s 2 6 x y (zr - zs) := by
  have hd1 := dist_eq sqrt hxy zs zr (e1 := md.etaH) (e2 := md.etaV) (k := s.kTM)
    (by rw [f.eH, f.eV, Roots.kTM, div_pow])
  have hd2 := dist_eq sqrt hxy zs zr (e1 := md.zetaH) (e2 := md.zetaV) (k := s.kTE)
    (by rw [f.zH, f.zV, Roots.kTE, div_pow])
  have a0 := f.a0
  have b0 := f.b0
  have c0 := f.c0
  have d0 := f.d0
  have hpi : (Real.pi : ℂ) ≠ 0 := by exact_mod_cast Real.pi_pos.ne'
  have hoc : (off : ℂ) ≠ 0 := by exact_mod_cast ho
  have hoo : oo x y = (off : ℂ) ^ 2 := by rw [oo]; exact_mod_cast hxy
  have hz : ((zr - zs : ℝ) : ℂ) = (zr : ℂ) - zs := by push_cast; rfl
  simp only [ginEM, ginZM, emTerm, lGam, uGam, hd1, hd2, f.ra, f.rc, f.rTM, f.rTE, f.qTM, f.qTE, f.r0,
    entry, colE, Vec.comb, Vec.smul, tmH, teH, vH, pre, hoo, h, m, k, Full.e, hz]
  generalize Rf sqrt s.kTM x y (zr - zs) = R1 at *
  generalize Rf sqrt s.kTE x y (zr - zs) = R2 at *
  generalize Complex.exp (-s.gTM * R1) = e1
  generalize Complex.exp (-s.gTE * R2) = e2
  simp only [f.eH, f.eV, f.zH, f.zV, Roots.gTM, Roots.gTE, Roots.kTM, Roots.kTE, Roots.g0]
  refine ⟨?_, ?_, ?_, ?_, ?_, ?_, ?_, ?_⟩
  all_goals
    simp
    field_simp
    try ring

/-- Magnetic field of electric sources. -/
theorem closed_me {sqrt : ℂ → ℂ} {md : Med} {s : Roots} (f : Fits sqrt md s) {off x y : ℝ}
    (ho : off ≠ 0) (hxy : x ^ 2 + y ^ 2 = off ^ 2) (zs zr : ℝ)
    (n1 : Rf sqrt s.kTM x y (zr - zs) ≠ 0) (n2 : Rf sqrt s.kTE x y (zr - zs) ≠ 0) :
    ginEM sqrt md off (-x) (-y) zr zs 14 * -1 = entry sqrt s 4 1 x y (zr - zs) ∧
    ginEM sqrt md off (-x) (-y) zr zs 15 * -1 = entry sqrt s 5 1 x y (zr - zs) ∧
    ginEM sqrt md off (-x) (-y) zr zs 24 * -1 = entry sqrt s 4 2 x y (zr - zs) ∧
    ginEM sqrt md off (-x) (-y) zr zs 25 * -1 = entry sqrt s 5 2 x y (zr - zs) ∧
    ginZM sqrt md off (-x) (-y) zr zs 34 * -1 = entry sqrt s 4 3 x y (zr - zs) ∧
    ginZM sqrt md off (-x) (-y) zr zs 35 * -1 = entry sqrt s 5 3 x y (zr - zs) ∧
    ginZM sqrt md off (-x) (-y) zr zs 16 * -1 = entry sqrt s 6 1 x y (zr - zs) ∧
    ginZM sqrt md off (-x) (-y) zr zs 26 * -1 = entry sqrt s 6 2 x y (zr - zs) := by
  have hd1 := dist_eq sqrt (x := -x) (y := -y) (off := off) (by rw [← hxy]; ring) zr zs (e1 := md.etaH) (e2 := md.etaV) (k := s.kTM)
    (by rw [f.eH, f.eV, Roots.kTM, div_pow])
  have hd2 := dist_eq sqrt (x := -x) (y := -y) (off := off) (by rw [← hxy]; ring) zr zs (e1 := md.zetaH) (e2 := md.zetaV) (k := s.kTE)
    (by rw [f.zH, f.zV, Roots.kTE, div_pow])
  have a0 := f.a0
  have b0 := f.b0
  have c0 := f.c0
  have d0 := f.d0
  have hpi : (Real.pi : ℂ) ≠ 0 := by exact_mod_cast Real.pi_pos.ne'
  have hoc : (off : ℂ) ≠ 0 := by exact_mod_cast ho
  have hoo : oo x y = (off : ℂ) ^ 2 := by rw [oo]; exact_mod_cast hxy
  have hz : ((zr - zs : ℝ) : ℂ) = (zr : ℂ) - zs := by push_cast; rfl
  have hsw : ∀ κ, Rf sqrt κ (-x) (-y) (zs - zr) = Rf sqrt κ x y (zr - zs) := by
    intro κ; unfold Rf; congr 1; push_cast; ring
  simp only [hsw] at hd1 hd2
  simp only [ginEM, ginZM, emTerm, lGam, uGam, hd1, hd2, f.ra, f.rc, f.rTM, f.rTE, f.qTM, f.qTE, f.r0,
    entry, colH, Vec.comb, Vec.smul, tmH, teH, vH, pre, hoo, h, m, k, Full.e, hz]
  generalize Rf sqrt s.kTM x y (zr - zs) = R1 at *
  generalize Rf sqrt s.kTE x y (zr - zs) = R2 at *
  generalize Complex.exp (-s.gTM * R1) = e1
  generalize Complex.exp (-s.gTE * R2) = e2
  simp only [f.eH, f.eV, f.zH, f.zV, Roots.gTM, Roots.gTE, Roots.kTM, Roots.kTE, Roots.g0]
  refine ⟨?_, ?_, ?_, ?_, ?_, ?_, ?_, ?_⟩
  all_goals
    simp
    field_simp
    try ring

/-- What the magnetic components need in addition: the roots of the negated parameters. -/
structure FitsM (sqrt : ℂ → ℂ) (md : Med) (s : Roots) : Prop extends Fits sqrt md s where
  na : sqrt (-md.etaH) = -I * s.a
  nc : sqrt (-md.zetaH) = -I * s.c

/-- The nine magnetic components. -/
theorem closed_mm {sqrt : ℂ → ℂ} {md : Med} {s : Roots} (f : FitsM sqrt md s) {off x y : ℝ}
    (ho : off ≠ 0) (hxy : x ^ 2 + y ^ 2 = off ^ 2) (zs zr : ℝ)
    (n1 : Rf sqrt s.kTM x y (zr - zs) ≠ 0) (n2 : Rf sqrt s.kTE x y (zr - zs) ≠ 0) :
    ginH sqrt true md.dual off x y zs zr 11 * -1 = entry sqrt s 4 4 x y (zr - zs) ∧
    ginH sqrt true md.dual off x y zs zr 12 * -1 = entry sqrt s 4 5 x y (zr - zs) ∧
    ginH sqrt true md.dual off x y zs zr 21 * -1 = entry sqrt s 5 4 x y (zr - zs) ∧
    ginH sqrt true md.dual off x y zs zr 22 * -1 = entry sqrt s 5 5 x y (zr - zs) ∧
    ginHV sqrt md.dual off x y zs zr 13 * -1 = entry sqrt s 4 6 x y (zr - zs) ∧
    ginHV sqrt md.dual off x y zs zr 23 * -1 = entry sqrt s 5 6 x y (zr - zs) ∧
    ginHV sqrt md.dual off x y zs zr 31 * -1 = entry sqrt s 6 4 x y (zr - zs) ∧
    ginHV sqrt md.dual off x y zs zr 32 * -1 = entry sqrt s 6 5 x y (zr - zs) ∧
    ginV sqrt md.dual off zs zr * -1 = entry sqrt s 6 6 x y (zr - zs) := by
  have hd1 := dist_eq sqrt hxy zs zr (e1 := -md.etaH) (e2 := -md.etaV) (k := s.kTM)
    (by rw [neg_div_neg_eq, f.eH, f.eV, Roots.kTM, div_pow])
  have hd2 := dist_eq sqrt hxy zs zr (e1 := -md.zetaH) (e2 := -md.zetaV) (k := s.kTE)
    (by rw [neg_div_neg_eq, f.zH, f.zV, Roots.kTE, div_pow])
  have a0 := f.a0
  have b0 := f.b0
  have c0 := f.c0
  have d0 := f.d0
  have hpi : (Real.pi : ℂ) ≠ 0 := by exact_mod_cast Real.pi_pos.ne'
  have hoc : (off : ℂ) ≠ 0 := by exact_mod_cast ho
  have hoo : oo x y = (off : ℂ) ^ 2 := by rw [oo]; exact_mod_cast hxy
  have hz : ((zr - zs : ℝ) : ℂ) = (zr : ℂ) - zs := by push_cast; rfl
  simp only [Med.dual, ginH, ginHV, ginV, lGam, uGam, hd1, hd2, f.na, f.nc, f.rTM, f.rTE, f.qTM, f.qTE,
    neg_mul_neg, neg_div_neg_eq, mul_comm md.etaH md.zetaV, mul_comm md.etaV md.zetaH, entry,
    colH, Vec.comb, Vec.smul, tmE, teE, vE, pre, hoo, al, be, al', be', ch, nn, Full.e, hz]
  generalize Rf sqrt s.kTM x y (zr - zs) = R1 at *
  generalize Rf sqrt s.kTE x y (zr - zs) = R2 at *
  generalize Complex.exp (-s.gTM * R1) = e1
  generalize Complex.exp (-s.gTE * R2) = e2
  simp only [f.eH, f.eV, f.zH, f.zV, Roots.gTM, Roots.gTE, Roots.kTM, Roots.kTE, Roots.g0]
  have hI := Complex.I_ne_zero
  refine ⟨?_, ?_, ?_, ?_, ?_, ?_, ?_, ?_, ?_⟩
  all_goals
    simp
    field_simp
    try ring

end Verif.Lemmas.Full
