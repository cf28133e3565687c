import Verif.Lemmas.DirectEntry
import Verif.Props.C44_Dipole

/-!
# C36: the direct field inside the kernel and in closed form

What `xdirect=False` adds to the integrand of the Hankel transform is integrable over all wavenumbers, and
its integral is the closed-form solution of `fullspace`.
-/

namespace Verif.Props
open Verif.Spec Verif.Py Verif.Py.W Verif.Utils Verif.Model Verif.Kernel Verif.Transform Verif.Fullspace
  Verif.Lemmas Verif.Lemmas.Full MeasureTheory Set

theorem gam_dual (o : Ops) (ho : Safe o) {p v q : ℂ} (hv : v ≠ 0) (l : ℝ) :
    gam o (-p) (-v) (-q) l = gam o p v q l := by
  unfold gam
  rw [ho.div _ _ (neg_ne_zero.2 hv), ho.div _ _ hv, neg_div_neg_eq, neg_mul_neg]

theorem dirP_neg (eH eV zH zV g1 g2 : ℂ) (ab : ℕ) (hab : ab ∈ [11, 12, 21, 22, 13, 23, 31, 32, 33]) (zs zr : ℝ) :
    dirP (-eH) (-eV) (-zH) (-zV) g1 g2 ab zs zr =
      (-(dirP eH eV zH zV g1 g2 ab zs zr).1, -(dirP eH eV zH zV g1 g2 ab zs zr).2) := by
  simp only [List.mem_cons, List.not_mem_nil, or_false] at hab
  rcases hab with rfl | rfl | rfl | rfl | rfl | rfl | rfl | rfl | rfl <;>
    simp [dirP, div_neg, neg_div]

/-- Roots of the medium with electric and magnetic parameters exchanged. -/
def swapR (s : Roots) : Roots := ⟨s.c, s.d, s.a, s.b⟩

theorem entry_swap (sqrt : ℂ → ℂ) (s : Roots) {A B : ℕ} (hA : 1 ≤ A ∧ A ≤ 3) (hB : 1 ≤ B ∧ B ≤ 3) (x y z : ℝ) :
    Full.entry sqrt s (A + 3) (B + 3) x y z = Full.entry sqrt (swapR s) A B x y z := by
  have e1 : (swapR s).gTM = s.gTE := by simp only [swapR, Roots.gTM, Roots.gTE]; ring
  have e2 : (swapR s).gTE = s.gTM := by simp only [swapR, Roots.gTM, Roots.gTE]; ring
  have e3 : (swapR s).kTM = s.kTE := rfl
  have e4 : (swapR s).kTE = s.kTM := rfl
  have e5 : pre (swapR s) = pre s := by simp only [pre, swapR, Roots.g0]; ring
  have e6 : (swapR s).c = s.a := rfl
  obtain ⟨a1, a2⟩ := hA
  obtain ⟨b1, b2⟩ := hB
  interval_cases A <;> interval_cases B <;> simp only [Full.entry, colE, colH, e1, e2, e3, e4, e5, e6]

/-- The integrand of the Hankel transform, as a function of wavenumber. -/
noncomputable def waveIntegrand (o : Ops) (E : Earth) (zs zr : ℝ) (ls lr : ℤ) (c : ℕ) (xd ms mr : Bool) (ρ ang : ℝ)
    (lam : ℝ) : ℂ :=
  hankelIntegrand (wavenumber o E zs zr ls lr lam c xd ms mr) c ρ ang (besselJ0 (lam * ρ)) (besselJ1 (lam * ρ))

/-- Parameters of one layer. -/
def medOf (E : Earth) (s : ℤ) : Med := ⟨E.etaH s, E.etaV s, E.zetaH s, E.zetaV s⟩

section
variable {o : Ops} (ho : Safe o) {sqrt : ℂ → ℂ} (hq : IsSqrt sqrt) (E : Earth) (s : ℤ) (hm : Physical (medOf E s))
  {zs zr ρ : ℝ} (θ : ℝ) (hz : zs ≠ zr) (hρ : 0 < ρ)
include ho hq hm hz hρ

theorem somm_layer : let r := rootsOf (medOf E s)
    (∃ u, Somm ((r.a / r.b) ^ 2) (r.a * r.c)
      (Rf sqrt r.kTM (ρ * Real.cos θ) (ρ * Real.sin θ) (zr - zs) * (r.b / r.a)) u |zs - zr| ρ
      (fun l => gam o (E.etaH s) (E.etaV s) (E.zetaH s) l)) ∧
    (∃ u, Somm ((r.c / r.d) ^ 2) (r.c * r.a)
      (Rf sqrt r.kTE (ρ * Real.cos θ) (ρ * Real.sin θ) (zr - zs) * (r.d / r.c)) u |zs - zr| ρ
      (fun l => gam o (E.zetaH s) (E.zetaV s) (E.etaH s) l)) :=
  somm_medium ho hq hm (abs_pos.2 (sub_ne_zero.2 hz)) (by rw [sq_abs]; ring) hρ (by
    have := Real.sin_sq_add_cos_sq θ
    linear_combination ρ ^ 2 * this)

theorem diff_ee {A B : ℕ} (hA : 1 ≤ A ∧ A ≤ 3) (hB : 1 ≤ B ∧ B ≤ 3) :
    HasInt (fun lam => waveIntegrand o E zs zr s s (10 * A + B) false false false ρ
        (exactFactor θ (10 * A + B) false false) lam -
        waveIntegrand o E zs zr s s (10 * A + B) true false false ρ (exactFactor θ (10 * A + B) false false) lam)
      (Full.entry sqrt (rootsOf (medOf E s)) A B (ρ * Real.cos θ) (ρ * Real.sin θ) (zr - zs)) := by
  obtain ⟨⟨u1, S1⟩, ⟨u2, S2⟩⟩ := somm_layer ho hq E s hm θ hz hρ
  have f := fits hq hm
  have hab : 10 * A + B ∈ [11, 12, 21, 22, 14, 15, 24, 25, 13, 23, 31, 32, 34, 35, 16, 26, 33] := by
    simp only [List.mem_cons, List.not_mem_nil, or_false]; omega
  refine (direct_ee f.a0 f.b0 f.c0 f.d0 hz hρ S1 S2 hA hB).congr (fun l hl => ?_) rfl
  simp only [waveIntegrand, wavenumber_wn, greenfct_ee]
  rw [core_direct ho _ _ _ _ _ _ s zs zr l hab (by rw [show E.etaH s = _ from f.eH]; exact pow_ne_zero 2 f.a0)
    (by rw [show E.etaV s = _ from f.eV]; exact pow_ne_zero 2 f.b0) hm.zetaV.2.2 (S1.Γ0 hl) (S2.Γ0 hl)]
  rw [hk_dk ho l hab, sg, if_neg (by decide), one_mul, ← f.eH, ← f.eV, ← f.zH, ← f.zV]
  rfl

theorem diff_em {A B : ℕ} (hA : 1 ≤ A ∧ A ≤ 3) (hB : 4 ≤ B ∧ B ≤ 6) (h36 : ¬(A = 3 ∧ B = 6)) :
    HasInt (fun lam => waveIntegrand o E zs zr s s (10 * A + B) false true false ρ
        (exactFactor θ (10 * A + B) true false) lam -
        waveIntegrand o E zs zr s s (10 * A + B) true true false ρ (exactFactor θ (10 * A + B) true false) lam)
      (Full.entry sqrt (rootsOf (medOf E s)) A B (ρ * Real.cos θ) (ρ * Real.sin θ) (zr - zs)) := by
  obtain ⟨⟨u1, S1⟩, ⟨u2, S2⟩⟩ := somm_layer ho hq E s hm θ hz hρ
  have f := fits hq hm
  have hab : 10 * A + B ∈ [11, 12, 21, 22, 14, 15, 24, 25, 13, 23, 31, 32, 34, 35, 16, 26, 33] := by
    simp only [List.mem_cons, List.not_mem_nil, or_false]; omega
  refine (direct_em f.a0 f.b0 f.c0 f.d0 hz hρ S1 S2 hA hB h36).congr (fun l hl => ?_) rfl
  simp only [waveIntegrand, wavenumber_wn, greenfct_ee]
  rw [core_direct ho _ _ _ _ _ _ s zs zr l hab (by rw [show E.etaH s = _ from f.eH]; exact pow_ne_zero 2 f.a0)
    (by rw [show E.etaV s = _ from f.eV]; exact pow_ne_zero 2 f.b0) hm.zetaV.2.2 (S1.Γ0 hl) (S2.Γ0 hl)]
  rw [hk_dk ho l hab, sg, if_neg (by decide), one_mul, ← f.eH, ← f.eV, ← f.zH, ← f.zV]
  rfl

theorem diff_mm {A B : ℕ} (hA : 1 ≤ A ∧ A ≤ 3) (hB : 1 ≤ B ∧ B ≤ 3) :
    HasInt (fun lam => waveIntegrand o E zs zr s s (10 * A + B) false true true ρ
        (exactFactor θ (10 * A + B) true true) lam -
        waveIntegrand o E zs zr s s (10 * A + B) true true true ρ (exactFactor θ (10 * A + B) true true) lam)
      (Full.entry sqrt (rootsOf (medOf E s)) (A + 3) (B + 3) (ρ * Real.cos θ) (ρ * Real.sin θ) (zr - zs)) := by
  obtain ⟨⟨u1, S1⟩, ⟨u2, S2⟩⟩ := somm_layer ho hq E s hm θ hz hρ
  have f := fits hq hm
  have hab : 10 * A + B ∈ [11, 12, 21, 22, 14, 15, 24, 25, 13, 23, 31, 32, 34, 35, 16, 26, 33] := by
    simp only [List.mem_cons, List.not_mem_nil, or_false]; omega
  have hab' : 10 * A + B ∈ [11, 12, 21, 22, 13, 23, 31, 32, 33] := by
    simp only [List.mem_cons, List.not_mem_nil, or_false]; omega
  have hEx : exactFactor θ (10 * A + B) true true = exactFactor θ (10 * A + B) false false := by
    simp [exactFactor]
  have eV0 : E.etaV s ≠ 0 := by rw [show E.etaV s = _ from f.eV]; exact pow_ne_zero 2 f.b0
  have zV0 : E.zetaV s ≠ 0 := hm.zetaV.2.2
  have zH0 : E.zetaH s ≠ 0 := hm.zetaH.2.2
  refine (direct_ee (s := swapR (rootsOf (medOf E s))) f.c0 f.d0 f.a0 f.b0 hz hρ S2 S1 hA hB).congr
    (fun l hl => ?_) (entry_swap sqrt _ hA hB _ _ _)
  simp only [waveIntegrand, wavenumber_wn, greenfct_mm]
  have g1 := gam_dual o ho (p := E.zetaH s) (q := E.etaH s) zV0 l
  have g2 := gam_dual o ho (p := E.etaH s) (q := E.zetaH s) eV0 l
  rw [core_direct ho _ _ _ _ _ _ s zs zr l hab (neg_ne_zero.2 zH0) (neg_ne_zero.2 zV0) (neg_ne_zero.2 eV0)
    (by rw [g1]; exact S2.Γ0 hl) (by rw [g2]; exact S1.Γ0 hl)]
  rw [hk_dk ho l hab, g1, g2, dirP_neg _ _ _ _ _ _ _ hab', dk_neg, hEx, sg, if_pos rfl]
  simp only [swapR]
  rw [← f.eH, ← f.eV, ← f.zH, ← f.zV]
  simp only [medOf]
  ring

theorem diff_me {A B : ℕ} (hA : 4 ≤ A ∧ A ≤ 6) (hB : 1 ≤ B ∧ B ≤ 3) (h36 : ¬(B = 3 ∧ A = 6)) :
    HasInt (fun lam => waveIntegrand o E zs zr s s (10 * B + A) false false true ρ
        (exactFactor θ (10 * B + A) false true) lam -
        waveIntegrand o E zs zr s s (10 * B + A) true false true ρ (exactFactor θ (10 * B + A) false true) lam)
      (-Full.entry sqrt (rootsOf (medOf E s)) B A (ρ * Real.cos (θ + Real.pi)) (ρ * Real.sin (θ + Real.pi)) (zs - zr)) := by
  obtain ⟨⟨u1, S1⟩, ⟨u2, S2⟩⟩ := somm_layer ho hq E s hm (θ + Real.pi) hz.symm hρ
  have f := fits hq hm
  have hab : 10 * B + A ∈ [11, 12, 21, 22, 14, 15, 24, 25, 13, 23, 31, 32, 34, 35, 16, 26, 33] := by
    simp only [List.mem_cons, List.not_mem_nil, or_false]; omega
  have hEx : exactFactor θ (10 * B + A) false true = exactFactor (θ + Real.pi) (10 * B + A) true false := by
    simp [exactFactor]
  refine ((direct_em f.a0 f.b0 f.c0 f.d0 hz.symm hρ S1 S2 hB hA h36).smul (-1)).congr (fun l hl => ?_)
    (neg_one_mul _).symm
  simp only [waveIntegrand, wavenumber_wn, greenfct_me]
  rw [core_direct ho _ _ _ _ _ _ s zr zs l hab (by rw [show E.etaH s = _ from f.eH]; exact pow_ne_zero 2 f.a0)
    (by rw [show E.etaV s = _ from f.eV]; exact pow_ne_zero 2 f.b0) hm.zetaV.2.2 (S1.Γ0 hl) (S2.Γ0 hl)]
  rw [hk_dk ho l hab, sg, if_pos rfl, hEx, ← f.eH, ← f.eV, ← f.zH, ← f.zV]
  rfl

end

/-- **C36, `xdirect`.**  Source and receiver in the same layer, at different depths: what the kernel without
`xdirect` adds to the integrand is integrable over all wavenumbers, and its integral is the closed-form
fullspace solution with the parameters of this layer.  All components, all layered models around it, all
azimuths and offsets. -/
theorem C36_sommerfeld {o : Ops} (ho : Safe o) {sqrt : ℂ → ℂ} (hq : IsSqrt sqrt) (E : Earth) (s : ℤ)
    {meds : List Med} (hp : ∀ m ∈ meds, Physical m) {i : ℕ} (hi : i < meds.length)
    (hE : meds[i] = ⟨E.etaH s, E.etaV s, E.zetaH s, E.zetaV s⟩) {a b : ℕ} (ha : 1 ≤ a ∧ a ≤ 6)
    (hb : 1 ≤ b ∧ b ≤ 6) (hM : 4 ≤ a → 4 ≤ b → Oscillating meds[i]) {c : ℕ} {ms mr : Bool}
    (hc : checkAb (.int (10 * a + b)) = .ok (c, ms, mr)) (h36 : c ≠ 36) {zs zr ρ : ℝ} (θ : ℝ) (hz : zs ≠ zr)
    (hρ : 0 < ρ) :
    let f := fun (xd : Bool) (lam : ℝ) =>
      hankelIntegrand (wavenumber o E zs zr s s lam c xd ms mr) c ρ (exactFactor θ c ms mr)
        (besselJ0 (lam * ρ)) (besselJ1 (lam * ρ))
    IntegrableOn (fun lam => f false lam - f true lam) (Ioi 0) ∧
    ∫ lam in Ioi (0 : ℝ), (f false lam - f true lam) =
      resp sqrt meds i a b (ρ * Real.cos θ) (ρ * Real.sin θ) zs zr := by
  intro f
  have hm : Physical (medOf E s) := by
    have := hp _ (List.getElem_mem hi); rwa [hE] at this
  have hpos : ∀ t : ℝ, 0 < (ρ * Real.cos t) ^ 2 + (ρ * Real.sin t) ^ 2 := by
    intro t
    have := Real.sin_sq_add_cos_sq t
    have : (ρ * Real.cos t) ^ 2 + (ρ * Real.sin t) ^ 2 = ρ ^ 2 := by linear_combination ρ ^ 2 * this
    rw [this]; positivity
  have en := resp_entry hq hp hi ha hb hM (hpos θ) zs zr
  rw [show (meds[i] : Med) = medOf E s from hE] at en
  rw [checkAb_digits ha hb] at hc
  obtain ⟨rfl, rfl, rfl⟩ : _ = c ∧ _ = ms ∧ _ = mr := by simpa using Except.ok.inj hc
  have goal : HasInt (fun lam => f false lam - f true lam)
      (resp sqrt meds i a b (ρ * Real.cos θ) (ρ * Real.sin θ) zs zr) := by
    by_cases h1 : 3 < a
    · by_cases h2 : 3 < b
      · obtain ⟨A, rfl⟩ : ∃ A, a = A + 3 := ⟨a - 3, by omega⟩
        obtain ⟨B, rfl⟩ : ∃ B, b = B + 3 := ⟨b - 3, by omega⟩
        have := diff_mm ho hq E s hm θ hz hρ (A := A) (B := B) (by omega) (by omega)
        rw [en]
        simpa only [f, h1, h2, if_true, decide_true, Nat.add_sub_cancel, waveIntegrand] using this
      · have h36' : ¬(b = 3 ∧ a = 6) := by
          rintro ⟨rfl, rfl⟩; simp at h36
        have := diff_me ho hq E s hm θ hz hρ (A := a) (B := b) (by omega) (by omega) h36'
        have er := resp_entry hq hp hi hb ha (fun q1 q2 => hM q2 q1) (hpos (θ + Real.pi)) zr zs
        rw [show (meds[i] : Med) = medOf E s from hE] at er
        rw [C36_reciprocity sqrt meds hi ha hb]
        have e1 : -(ρ * Real.cos θ) = ρ * Real.cos (θ + Real.pi) := by rw [Real.cos_add_pi]; ring
        have e2 : -(ρ * Real.sin θ) = ρ * Real.sin (θ + Real.pi) := by rw [Real.sin_add_pi]; ring
        rw [e1, e2, er]
        have e3 : (recipSign a * recipSign b : ℂ) = -1 := by
          have : (1 ≤ b ∧ b ≤ 3) := by omega
          obtain ⟨q1, q2⟩ := this
          obtain ⟨q3, q4⟩ := ha
          interval_cases a <;> interval_cases b <;> simp_all [recipSign]
        rw [e3, neg_one_mul]
        simpa only [f, h1, h2, if_true, if_false, decide_true, decide_false, waveIntegrand] using this
    · by_cases h2 : 3 < b
      · have h36' : ¬(a = 3 ∧ b = 6) := by
          rintro ⟨rfl, rfl⟩; simp at h36
        have := diff_em ho hq E s hm θ hz hρ (A := a) (B := b) (by omega) (by omega) h36'
        rw [en]
        simpa only [f, h1, h2, if_true, if_false, decide_true, decide_false, waveIntegrand] using this
      · have := diff_ee ho hq E s hm θ hz hρ (A := a) (B := b) (by omega) (by omega)
        rw [en]
        simpa only [f, h1, h2, if_true, if_false, decide_true, decide_false, waveIntegrand] using this
  exact goal

end Verif.Props
