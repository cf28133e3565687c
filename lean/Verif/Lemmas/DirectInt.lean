import Verif.Lemmas.Sommerfeld
import Verif.Lemmas.GreenfctLink
import Verif.Lemmas.Ring36
import Verif.Lemmas.FullClosed

/-!
# The direct field inside the kernel: what `xdirect=False` adds to the integrand
-/

namespace Verif.Lemmas
open Verif.Spec Verif.Kernel Verif.Transform MeasureTheory Set

set_option linter.unusedSimpArgs false

/-- `wavenumber` after `greenfct`. -/
noncomputable def wn (o : Ops) (lam : ℝ) (ab : ℕ) (mrec : Bool) (P : ℂ × ℂ) :
    Option ℂ × Option ℂ × Option ℂ :=
  let PTM := P.1
  let PTE := P.2
  let fourpi : ℂ := 4 * (Real.pi : ℂ)
  let Ptot := o.div (PTM + PTE) fourpi
  let sign0 : ℂ := if mrec then -1 else 1
  let PJ0i : Option ℂ := if ab ∈ [11, 22, 24, 15, 33] then some 0 else none
  let PJ0bi : Option ℂ := if ab ∈ [11, 12, 21, 22, 14, 24, 15, 25] then some 0 else none
  let PJ1i : Option ℂ := if ab ∉ [33] then some 0 else none
  if ab ∈ [11, 12, 21, 22, 14, 24, 15, 25] then
    let sign := if ab ∈ [14, 22] then sign0 * (-1) else sign0
    let PJ0b := sign / 2 * Ptot * lam
    let PJ1 := -sign * Ptot
    if ab ∈ [11, 22, 24, 15] then
      let sign := if ab ∈ [22, 24] then sign * (-1) else sign
      let eightpi := sign * 8 * (Real.pi : ℂ)
      (some ((PTM - PTE) * o.div lam eightpi), some PJ1, some PJ0b)
    else (PJ0i, some PJ1, some PJ0b)
  else if ab ∈ [13, 23, 31, 32, 34, 35, 16, 26] then
    let sign := if ab ∈ [34, 26] then sign0 * (-1) else sign0
    (PJ0i, some (sign * Ptot * ((lam : ℂ) * lam)), PJ0bi)
  else if ab ∈ [33] then
    (some (sign0 * Ptot * ((lam : ℂ) * lam * lam)), PJ1i, PJ0bi)
  else (PJ0i, PJ1i, PJ0bi)

theorem wavenumber_wn (o : Ops) (E : Earth) (zs zr : ℝ) (ls lr : ℤ) (lam : ℝ) (ab : ℕ) (xd ms mr : Bool) :
    wavenumber o E zs zr ls lr lam ab xd ms mr =
      wn o lam ab mr (greenfct o E zs zr ls lr lam ab xd ms mr) := rfl

/-- Signs of the terms of the codes with second-order Bessel functions. -/
noncomputable def sg (mr : Bool) : ℂ := if mr then -1 else 1
@[inherit_doc sg]
noncomputable def sg0 (ab : ℕ) : ℂ := if ab ∈ [11, 22, 15] then 1 else if ab = 24 then -1 else 0
@[inherit_doc sg]
noncomputable def sg2 (ab : ℕ) : ℂ := if ab ∈ [14, 22, 34, 26] then -1 else 1

theorem hk_two {o : Ops} (ho : Safe o) (lam : ℝ) {ab : ℕ} (hab : ab ∈ [11, 12, 21, 22, 14, 24, 15, 25])
    (mr : Bool) (p1 p2 d1 d2 : ℂ) (ρ ang : ℝ) (J0 J1 : ℂ) :
    hankelIntegrand (wn o lam ab mr (p1 + d1, p2 + d2)) ab ρ ang J0 J1 -
      hankelIntegrand (wn o lam ab mr (p1, p2)) ab ρ ang J0 J1 =
    sg mr * (sg0 ab * (((lam : ℂ) * J0 * d1 - (lam : ℂ) * J0 * d2) / (8 * Real.pi)) +
      sg2 ab * ang * (((lam : ℂ) * J0 * d1 + (lam : ℂ) * J0 * d2) / (8 * Real.pi) -
        (J1 * d1 + J1 * d2) / (4 * Real.pi * ρ))) := by
  have hpi : (Real.pi : ℂ) ≠ 0 := by exact_mod_cast Real.pi_ne_zero
  simp only [List.mem_cons, List.not_mem_nil, or_false] at hab
  rcases hab with rfl | rfl | rfl | rfl | rfl | rfl | rfl | rfl <;> cases mr <;>
    simp only [hankelIntegrand, wn, sg, sg0, sg2, j2codes, List.mem_cons, List.not_mem_nil, or_false,
      Nat.reduceEqDiff, OfNat.ofNat_ne_one, if_true, if_false, or_true, true_or, false_or, mul_one, one_mul,
      mul_neg, neg_neg, neg_mul, Bool.false_eq_true, div4 ho, div8 ho, div8n ho, or_self] <;>
    ring

theorem hk_one {o : Ops} (ho : Safe o) (lam : ℝ) {ab : ℕ} (hab : ab ∈ [13, 23, 31, 32, 34, 35, 16, 26])
    (mr : Bool) (p1 p2 d1 d2 : ℂ) (ρ ang : ℝ) (J0 J1 : ℂ) :
    hankelIntegrand (wn o lam ab mr (p1 + d1, p2 + d2)) ab ρ ang J0 J1 -
      hankelIntegrand (wn o lam ab mr (p1, p2)) ab ρ ang J0 J1 =
    sg mr * sg2 ab * ang * (((lam : ℂ) ^ 2 * J1 * d1 + (lam : ℂ) ^ 2 * J1 * d2) / (4 * Real.pi)) := by
  simp only [List.mem_cons, List.not_mem_nil, or_false] at hab
  rcases hab with rfl | rfl | rfl | rfl | rfl | rfl | rfl | rfl <;> cases mr <;>
    simp only [hankelIntegrand, wn, sg, sg0, sg2, j2codes, List.mem_cons, List.not_mem_nil, or_false,
      Nat.reduceEqDiff, OfNat.ofNat_ne_one, if_true, if_false, or_true, true_or, false_or, mul_one, one_mul,
      mul_neg, neg_neg, neg_mul, Bool.false_eq_true, div4 ho, or_self] <;>
    ring

theorem hk_zero {o : Ops} (ho : Safe o) (lam : ℝ) (mr : Bool) (p1 p2 d1 d2 : ℂ) (ρ ang : ℝ) (J0 J1 : ℂ) :
    hankelIntegrand (wn o lam 33 mr (p1 + d1, p2 + d2)) 33 ρ ang J0 J1 -
      hankelIntegrand (wn o lam 33 mr (p1, p2)) 33 ρ ang J0 J1 =
    sg mr * (((lam : ℂ) ^ 3 * J0 * d1 + (lam : ℂ) ^ 3 * J0 * d2) / (4 * Real.pi)) := by
  cases mr <;>
    simp only [hankelIntegrand, wn, sg, sg0, sg2, j2codes, List.mem_cons, List.not_mem_nil, or_false,
      Nat.reduceEqDiff, OfNat.ofNat_ne_one, if_true, if_false, or_true, true_or, false_or, mul_one, one_mul,
      mul_neg, neg_neg, neg_mul, Bool.false_eq_true, div4 ho, or_self, not_true_eq_false] <;>
    ring

/-- Sign of the direct field (kernel.py 326-346). -/
noncomputable def dirSign (TM : Bool) (ab : ℕ) (zs zr : ℝ) : ℂ :=
  (if TM = true ∧ ab ∈ [11, 12, 13, 14, 15, 21, 22, 23, 24, 25] then -1 else 1) *
    (if ab ∈ [13, 14, 15, 23, 24, 25, 31, 32] then ((zr - zs).sign : ℂ) else 1)

theorem green_direct {o : Ops} (ho : Safe o) (n : ℤ) (depth : ℤ → EReal) (e Gam : ℤ → ℂ) (s : ℤ)
    (zr zs : ℝ) (ab : ℕ) (TM : Bool) (hG : 0 ≤ (Gam s).re) :
    green o n depth e Gam s s zr zs ab false TM = green o n depth e Gam s s zr zs ab true TM +
      dirSign TM ab zs zr * Complex.exp (-(Gam s * (|zs - zr| : ℝ))) := by
  unfold green
  simp only [if_true, Bool.false_eq_true, if_false]
  congr 1
  rw [xexp_real ho hG (abs_nonneg _), neg_mul, dirSign]
  split_ifs <;> ring

theorem csqrt_re_nonneg (z : ℂ) : 0 ≤ (csqrt z).re := by
  unfold csqrt; rw [one_div, Complex.cpow_inv_two_re]; positivity

/-- The direct part of `greenfct` within a layer. -/
noncomputable def dirP (eH eV zH zV g1 g2 : ℂ) (ab : ℕ) (zs zr : ℝ) : ℂ × ℂ :=
  let D1 := Complex.exp (-(g1 * (|zs - zr| : ℝ)))
  let D2 := Complex.exp (-(g2 * (|zs - zr| : ℝ)))
  let sn : ℂ := ((zr - zs).sign : ℝ)
  if ab ∈ [11, 12, 21, 22] then (-(1 / eH) * (g1 * D1), zH * (D2 / g2))
  else if ab ∈ [14, 15, 24, 25] then (-sn * D1, sn * D2)
  else if ab ∈ [13, 23] then (sn / eV * D1, 0)
  else if ab ∈ [31, 32] then (sn / eV * D1, 0)
  else if ab ∈ [34, 35] then (eH / eV * (D1 / g1), 0)
  else if ab ∈ [16, 26] then (0, zH / zV * (D2 / g2))
  else (eH / eV / eV * (D1 / g1), 0)

theorem core_direct {o : Ops} (ho : Safe o) (n : ℤ) (depth : ℤ → EReal) (eH eV zH zV : ℤ → ℂ) (s : ℤ)
    (zs zr lam : ℝ) {ab : ℕ} (hab : ab ∈ [11, 12, 21, 22, 14, 15, 24, 25, 13, 23, 31, 32, 34, 35, 16, 26, 33])
    (h1 : eH s ≠ 0) (h2 : eV s ≠ 0) (h4 : zV s ≠ 0)
    (g1 : gam o (eH s) (eV s) (zH s) lam ≠ 0) (g2 : gam o (zH s) (zV s) (eH s) lam ≠ 0) :
    let d := dirP (eH s) (eV s) (zH s) (zV s) (gam o (eH s) (eV s) (zH s) lam)
      (gam o (zH s) (zV s) (eH s) lam) ab zs zr
    core o n depth eH eV zH zV zs zr s s lam ab false =
      ((core o n depth eH eV zH zV zs zr s s lam ab true).1 + d.1,
        (core o n depth eH eV zH zV zs zr s s lam ab true).2 + d.2) := by
  have r1 : 0 ≤ (gam o (eH s) (eV s) (zH s) lam).re := csqrt_re_nonneg _
  have r2 : 0 ≤ (gam o (zH s) (zV s) (eH s) lam).re := csqrt_re_nonneg _
  intro d
  have hself : o.div (eH s) (eH s) = 1 := by rw [ho.div _ _ h1, div_self h1]
  simp only [List.mem_cons, List.not_mem_nil, or_false] at hab
  rcases hab with rfl | rfl | rfl | rfl | rfl | rfl | rfl | rfl | rfl | rfl | rfl | rfl | rfl | rfl | rfl |
    rfl | rfl <;>
    simp only [core, greenfct, d, dirP, Bool.and_false, Bool.false_and, Bool.not_false, Bool.and_self, Bool.false_eq_true, if_false,
      List.mem_cons, List.not_mem_nil, or_false, Nat.reduceEqDiff, OfNat.ofNat_ne_one, if_true, or_true,
      true_or, false_or, or_self, green_direct ho _ _ _ (fun i => gam o (eH i) (eV i) (zH i) lam) s zr zs _ true r1,
      green_direct ho _ _ _ (fun i => gam o (zH i) (zV i) (eH i) lam) s zr zs _ false r2, dirSign, hself,
      ho.div _ _ h1, ho.div _ _ h2, ho.div _ _ h4, ho.div _ _ g1, ho.div _ _ g2, true_and, false_and,
      and_true, and_false, mul_one, one_mul, Prod.mk.injEq] <;>
    first
      | (refine ⟨?_, ?_⟩ <;> field_simp <;> try ring)
      | (field_simp; try ring)

end Verif.Lemmas
