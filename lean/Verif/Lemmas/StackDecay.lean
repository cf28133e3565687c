import Verif.Lemmas.Decay
import Verif.Lemmas.GreenfctLink

/-!
# The response of a stack decays exponentially with wavenumber

For source and receiver at different depths.
-/

namespace Verif.Lemmas
open Verif.Spec Verif.Spec.Stack Verif.Kernel Complex Filter Topology Set

/-- Convergent, whatever the limit. -/
def Conv (f : ℝ → ℂ) : Prop := ∃ L, Nice f L

section
variable {f f' : ℝ → ℂ}
theorem Conv.const (c : ℂ) : Conv fun _ => c := ⟨c, Nice.const c⟩
theorem Conv.mul (h : Conv f) (h' : Conv f') : Conv fun l => f l * f' l := by
  obtain ⟨_, h⟩ := h; obtain ⟨_, h'⟩ := h'; exact ⟨_, h.mul h'⟩
theorem Conv.add (h : Conv f) (h' : Conv f') : Conv fun l => f l + f' l := by
  obtain ⟨_, h⟩ := h; obtain ⟨_, h'⟩ := h'; exact ⟨_, h.add h'⟩
theorem Conv.congr (h : Conv f) (e : ∀ l, 0 ≤ l → f' l = f l) : Conv f' := by
  obtain ⟨_, h⟩ := h; exact ⟨_, h.congr e⟩
theorem Conv.mul_small (h : Conv f) (h' : Small f') : Small fun l => f l * f' l := by
  obtain ⟨_, h⟩ := h; exact h.mul_small h'
theorem Small.mul_conv (h : Small f) (h' : Conv f') : Small fun l => f l * f' l := by
  obtain ⟨_, h'⟩ := h'; exact h.mul_nice h'
theorem Small.conv (h : Small f) : Conv f := ⟨0, h.nice⟩
end

theorem lp_ne {l : ℝ} (hl : 0 ≤ l) : (l : ℂ) + 1 ≠ 0 := fun e => by
  have := congrArg Complex.re e
  simp at this; linarith

/-- A stack whose `q` depends on the wavenumber. -/
abbrev stk (n : ℤ) (D : ℤ → ℝ) (e : ℤ → ℂ) (q : ℝ → ℤ → ℂ) (l : ℝ) : Stack := ⟨n, D, e, q l⟩

/-- A family of stacks with vertical wavenumbers that grow like `g · λ`; one rotation `c` makes the real
parts of all limits of admittances positive. -/
structure Fam (n : ℤ) (D : ℤ → ℝ) (e : ℤ → ℂ) (q G : ℝ → ℤ → ℂ) (g : ℤ → ℂ) (c : ℂ) : Prop where
  good : ∀ l, 0 ≤ l → Good (stk n D e q l) (G l)
  lim : ∀ i, 0 ≤ i → i < n → Nice (fun l => G l i / ((l : ℂ) + 1)) (g i)
  gre : ∀ i, 0 ≤ i → i < n → 0 < (g i).re
  yre : ∀ i, 0 ≤ i → i < n → 0 < (c * (g i / e i)).re

section
variable {n : ℤ} {D : ℤ → ℝ} {e : ℤ → ℂ} {q G : ℝ → ℤ → ℂ} {g : ℤ → ℂ} {c : ℂ} (F : Fam n D e q G g c)
include F

theorem Fam.pos : 0 < n := (F.good 0 le_rfl).ord.pos

theorem Fam.c_ne : c ≠ 0 := by
  intro h
  have := F.yre 0 le_rfl F.pos
  rw [h] at this; simp at this

theorem Fam.e_ne {i : ℤ} (h0 : 0 ≤ i) (h1 : i < n) : e i ≠ 0 := ((F.good 0 le_rfl).lay i h0 h1).pas.e_ne

theorem Fam.gam_ne {i : ℤ} (h0 : 0 ≤ i) (h1 : i < n) {l : ℝ} (hl : 0 ≤ l) : G l i ≠ 0 :=
  ((F.good l hl).lay i h0 h1).gam_ne

theorem Fam.mono {i : ℤ} (h1 : 1 ≤ i) (h2 : i < n - 1) : D i ≤ D (i + 1) := (F.good 0 le_rfl).ord.mono i h1 (by simp only; omega)

theorem Fam.exp_small {i : ℤ} (h0 : 0 ≤ i) (h1 : i < n) {d : ℝ} (hd : 0 < d) :
    Small fun l => Complex.exp (-G l i * d) := Lemmas.exp_small (F.lim i h0 h1) (F.gre i h0 h1) hd

theorem Fam.exp_conv {i : ℤ} (h0 : 0 ≤ i) (h1 : i < n) {d : ℝ} (hd : 0 ≤ d) :
    Conv fun l => Complex.exp (-G l i * d) := by
  rcases hd.eq_or_lt with h | h
  · rw [← h]; exact (Conv.const 1).congr fun l _ => by simp
  · exact (F.exp_small h0 h1 h).conv

theorem Fam.Y {i : ℤ} (h0 : 0 ≤ i) (h1 : i < n) :
    Nice (fun l => Yl (stk n D e q l) (G l) i / ((l : ℂ) + 1)) (g i / e i) :=
  ((F.lim i h0 h1).div (Nice.const (e i)) (fun _ _ => F.e_ne h0 h1) (F.e_ne h0 h1)).congr fun l _ => by
    simp only [Yl]; ring

theorem Fam.loc {i j : ℤ} (hi : 0 ≤ i ∧ i < n) (hj : 0 ≤ j ∧ j < n) :
    Nice (fun l => (Yl (stk n D e q l) (G l) i - Yl (stk n D e q l) (G l) j) /
        (Yl (stk n D e q l) (G l) i + Yl (stk n D e q l) (G l) j))
      ((c * (g i / e i) - c * (g j / e j)) / (c * (g i / e i) + c * (g j / e j))) := by
  have a := F.Y hi.1 hi.2
  have b := F.Y hj.1 hj.2
  have hs : c * (g i / e i) + c * (g j / e j) ≠ 0 := by
    intro h
    have h1 := F.yre i hi.1 hi.2
    have h2 := F.yre j hj.1 hj.2
    have := congrArg Complex.re h
    rw [Complex.add_re, Complex.zero_re] at this
    linarith
  have e1 : (c * (g i / e i) - c * (g j / e j)) / (c * (g i / e i) + c * (g j / e j)) =
      (g i / e i - g j / e j) / (g i / e i + g j / e j) := by
    rw [← mul_sub, ← mul_add, mul_div_mul_left _ _ F.c_ne]
  rw [e1]
  have key : ∀ l, 0 ≤ l → Yl (stk n D e q l) (G l) i + Yl (stk n D e q l) (G l) j ≠ 0 := fun l hl h => by
    have h1 := (F.good l hl).Y_re hi.1 hi.2
    have h2 := (F.good l hl).Y_re hj.1 hj.2
    have := congrArg Complex.re h
    rw [Complex.add_re, Complex.zero_re] at this
    linarith
  refine ((a.sub b).div (a.add b) (fun l hl => ?_) ?_).congr fun l hl => ?_
  · rw [← add_div]; exact div_ne_zero (key l hl) (lp_ne hl)
  · rw [← mul_add] at hs; exact right_ne_zero_of_mul hs
  · rw [← add_div, ← sub_div, div_div_div_cancel_right₀ (lp_ne hl)]

/-- Thickness zero or positive. -/
theorem Fam.thick {i : ℤ} (h0 : 0 ≤ i) (h1 : i < n) (h : D i ≤ D (i + 1)) {R : ℝ → ℂ} {Y t : ℂ} (hR : Nice R t)
    (ht : Adm Y t) (hY : 0 < Y.re) :
    ∃ t', Nice (fun l => R l * E2 (stk n D e q l) (G l) i) t' ∧ Adm Y t' := by
  rcases h.eq_or_lt with h | h
  · exact ⟨t, hR.congr fun l _ => by simp [E2, h], ht⟩
  · have := F.exp_small h0 h1 (d := 2 * (D (i + 1) - D i)) (by linarith)
    refine ⟨0, ((hR.mul_small this).congr fun l _ => ?_).nice, adm_zero hY⟩
    simp only [E2]; congr 2; push_cast; ring

theorem Fam.Rd {i : ℤ} (h0 : 0 ≤ i) (h1 : i ≤ n - 1) :
    ∃ t, Nice (fun l => Rdn (stk n D e q l) (G l) i) t ∧ Adm (c * (g i / e i)) t ∧
      (0 < i → ∃ t', Nice (fun l => Rdn (stk n D e q l) (G l) i * E2 (stk n D e q l) (G l) i) t' ∧
        Adm (c * (g i / e i)) t') := by
  have key : ∀ k : ℕ, ∀ i : ℤ, 0 ≤ i → i ≤ n - 1 → n - 1 - i = k →
      ∃ t, Nice (fun l => Rdn (stk n D e q l) (G l) i) t ∧ Adm (c * (g i / e i)) t ∧
      (0 < i → ∃ t', Nice (fun l => Rdn (stk n D e q l) (G l) i * E2 (stk n D e q l) (G l) i) t' ∧
        Adm (c * (g i / e i)) t') := by
    intro k
    induction k with
    | zero =>
      intro i h0 h1 hk
      have : i = n - 1 := by simp at hk; omega
      subst this
      have hz : ∀ l, Rdn (stk n D e q l) (G l) (n - 1) = 0 := fun l => Rdn_last (stk n D e q l) (G l)
      have ha := adm_zero (F.yre (n - 1) h0 (by omega))
      exact ⟨0, (Nice.const 0).congr fun l _ => hz l, ha, fun _ =>
        ⟨0, (Nice.const 0).congr fun l _ => by rw [hz, zero_mul], ha⟩⟩
    | succ k ih =>
      intro i h0 h1 hk
      have hi : i < n - 1 := by push_cast at hk; omega
      obtain ⟨_, _, _, h3⟩ := ih (i + 1) (by omega) (by omega) (by push_cast at hk; omega)
      obtain ⟨t', ht', ha'⟩ := h3 (by omega)
      have y1 := F.yre i h0 (by omega)
      obtain ⟨_, q2, q3, _⟩ := Adm.cross y1 (F.yre (i + 1) (by omega) (by omega)) ha'
      have lo := F.loc (i := i) (j := i + 1) ⟨h0, by omega⟩ ⟨by omega, by omega⟩
      have hR := ((lo.add ht').div ((Nice.const 1).add (lo.mul ht')) (fun l hl =>
        (Adm.cross ((F.good l hl).Y_re h0 (by simp only; omega)) ((F.good l hl).Y_re (i := i + 1) (by omega) (by simp only; omega))
          (((F.good l hl).adm_dn (i := i + 1) (by omega) (by simp only; omega)).2 (by omega))).2.1) q2).congr
        (f' := fun l => Rdn (stk n D e q l) (G l) i) (fun l _ => by
          rw [Rdn_step (stk n D e q l) (G l) (i := i) (by simp only; omega)]; rfl)
      exact ⟨_, hR, q3, fun hpos => F.thick h0 (by omega) (F.mono (by omega) hi) hR q3 y1⟩
  exact key (n - 1 - i).toNat i h0 h1 (by omega)

theorem Fam.Ru {i : ℤ} (h0 : 0 ≤ i) (h1 : i ≤ n - 1) :
    ∃ t, Nice (fun l => Rup (stk n D e q l) (G l) i) t ∧ Adm (c * (g i / e i)) t ∧
      (i < n - 1 → ∃ t', Nice (fun l => Rup (stk n D e q l) (G l) i * E2 (stk n D e q l) (G l) i) t' ∧
        Adm (c * (g i / e i)) t') := by
  have key : ∀ k : ℕ, ∀ i : ℤ, 0 ≤ i → i ≤ n - 1 → i = k →
      ∃ t, Nice (fun l => Rup (stk n D e q l) (G l) i) t ∧ Adm (c * (g i / e i)) t ∧
      (i < n - 1 → ∃ t', Nice (fun l => Rup (stk n D e q l) (G l) i * E2 (stk n D e q l) (G l) i) t' ∧
        Adm (c * (g i / e i)) t') := by
    intro k
    induction k with
    | zero =>
      intro i h0 h1 hk
      have : i = 0 := by simpa using hk
      subst this
      have hz : ∀ l, Rup (stk n D e q l) (G l) 0 = 0 := fun l => Rup_first (stk n D e q l) (G l)
      have ha := adm_zero (F.yre 0 h0 (by omega))
      exact ⟨0, (Nice.const 0).congr fun l _ => hz l, ha, fun _ =>
        ⟨0, (Nice.const 0).congr fun l _ => by rw [hz, zero_mul], ha⟩⟩
    | succ k ih =>
      intro i h0 h1 hk
      have hi : 0 < i := by push_cast at hk; omega
      obtain ⟨_, _, _, h3⟩ := ih (i - 1) (by omega) (by omega) (by push_cast at hk; omega)
      obtain ⟨t', ht', ha'⟩ := h3 (by omega)
      have y1 := F.yre i h0 (by omega)
      obtain ⟨_, q2, q3, _⟩ := Adm.cross y1 (F.yre (i - 1) (by omega) (by omega)) ha'
      have lo := F.loc (i := i) (j := i - 1) ⟨h0, by omega⟩ ⟨by omega, by omega⟩
      have hR := ((lo.add ht').div ((Nice.const 1).add (lo.mul ht')) (fun l hl =>
        (Adm.cross ((F.good l hl).Y_re h0 (by simp only; omega)) ((F.good l hl).Y_re (i := i - 1) (by omega) (by simp only; omega))
          (((F.good l hl).adm_up (i := i - 1) (by omega) (by simp only; omega)).2 (by simp only; omega))).2.1) q2).congr
        (f' := fun l => Rup (stk n D e q l) (G l) i) (fun l _ => by
          rw [Rup_step (stk n D e q l) (G l) (i := i) hi]; rfl)
      exact ⟨_, hR, q3, fun hlt => F.thick h0 (by omega) (F.mono (by omega) hlt) hR q3 y1⟩
  exact key i.toNat i h0 h1 (by omega)

theorem Fam.Rdn_conv {i : ℤ} (h0 : 0 ≤ i) (h1 : i ≤ n - 1) : Conv fun l => Rdn (stk n D e q l) (G l) i := by
  obtain ⟨t, h, _⟩ := F.Rd h0 h1; exact ⟨t, h⟩
theorem Fam.Rup_conv {i : ℤ} (h0 : 0 ≤ i) (h1 : i ≤ n - 1) : Conv fun l => Rup (stk n D e q l) (G l) i := by
  obtain ⟨t, h, _⟩ := F.Ru h0 h1; exact ⟨t, h⟩

/-- Reciprocals of the denominators. -/
theorem Fam.den_dn {i : ℤ} (h0 : 0 < i) (h1 : i ≤ n - 1) :
    Conv fun l => 1 / (1 + Rdn (stk n D e q l) (G l) i * E2 (stk n D e q l) (G l) i) := by
  obtain ⟨t, _, _, h⟩ := F.Rd h0.le h1
  obtain ⟨t', ht, ha⟩ := h h0
  exact ⟨_, (Nice.const 1).div ((Nice.const 1).add ht) (fun l hl => (F.good l hl).den_dn h0 h1) ha.one_add_ne⟩

theorem Fam.den_up {i : ℤ} (h0 : 0 ≤ i) (h1 : i < n - 1) :
    Conv fun l => 1 / (1 + Rup (stk n D e q l) (G l) i * E2 (stk n D e q l) (G l) i) := by
  obtain ⟨t, _, _, h⟩ := F.Ru h0 h1.le
  obtain ⟨t', ht, ha⟩ := h h1
  exact ⟨_, (Nice.const 1).div ((Nice.const 1).add ht) (fun l hl => (F.good l hl).den_up h0 h1) ha.one_add_ne⟩

theorem Fam.p3_inv {s : ℤ} (h0 : 0 ≤ s) (h1 : s ≤ n - 1) : Conv fun l => 1 / p3 (stk n D e q l) (G l) s := by
  by_cases hs : s = 0
  · subst hs
    exact (Conv.const 1).congr fun l _ => by simp [p3, Rup_first]
  · obtain ⟨t, ht, ha, _⟩ := F.Ru h0 h1
    obtain ⟨_, _, _, h⟩ := F.Rd h0 h1
    obtain ⟨t', ht', ha'⟩ := h (by omega)
    refine ⟨_, (Nice.const 1).div (f' := fun l => p3 (stk n D e q l) (G l) s)
      (((Nice.const 1).sub (ht.mul ht')).congr fun l _ => ?_)
      (fun l hl => (F.good l hl).p3_ne h0 h1) (adm_pair ha ha')⟩
    rw [p3, mul_assoc]

variable {s r : ℤ} {zs zr : ℝ} {α β : ℂ}

theorem Fam.same_up (hs0 : 0 ≤ s) (hs1 : s < n) (a1 : s ≠ 0 → D s ≤ zs) (a2 : s ≠ n - 1 → zs ≤ D (s + 1))
    (b1 : s ≠ 0 → D s ≤ zr) (b2 : s ≠ n - 1 → zr ≤ D (s + 1)) (hz : zs ≠ zr) :
    Small fun l => wu (stk n D e q l) (G l) s (Us (stk n D e q l) (G l) s zs α β) zr := by
  by_cases hn : s = n - 1
  · refine Small.zero.congr fun l _ => ?_
    have : Rdn (stk n D e q l) (G l) s = 0 := by rw [hn]; exact Rdn_last (stk n D e q l) (G l)
    simp [wu, Us, this]
  have a2 := a2 hn
  have b2 := b2 hn
  have t1 := F.exp_small hs0 hs1 (d := D (s + 1) - zs + (D (s + 1) - zr)) (by
    rcases lt_or_gt_of_ne hz with h | h <;> linarith)
  have t2 : Small fun l => Rup (stk n D e q l) (G l) s *
      Complex.exp (-G l s * ((zs - D s + (D (s + 1) - D s) + (D (s + 1) - zr) : ℝ) : ℂ)) := by
    by_cases h0 : s = 0
    · refine Small.zero.congr fun l _ => ?_
      rw [h0, Rup_first, zero_mul]
    · have a1 := a1 h0
      have b1 := b1 h0
      exact (F.Rup_conv hs0 (by omega)).mul_small (F.exp_small hs0 hs1 (by
        rcases lt_or_gt_of_ne hz with h | h <;> linarith))
  have hp := F.p3_inv hs0 (s := s) (by omega)
  have hd := F.Rdn_conv hs0 (i := s) (by omega)
  refine (((hp.mul (hd.mul (Conv.const β))).mul_small t1).add
    ((hp.mul (hd.mul (Conv.const α))).mul_small t2)).congr fun l _ => ?_
  have m1 : Complex.exp (-G l s * ((D (s + 1) - zs : ℝ) : ℂ)) * Complex.exp (-G l s * ((D (s + 1) - zr : ℝ) : ℂ)) =
      Complex.exp (-G l s * ((D (s + 1) - zs + (D (s + 1) - zr) : ℝ) : ℂ)) := by
    rw [← Complex.exp_add]; congr 1; push_cast; ring
  have m2 : Complex.exp (-G l s * ((zs - D s : ℝ) : ℂ)) * Complex.exp (-G l s * ((D (s + 1) - D s : ℝ) : ℂ)) *
      Complex.exp (-G l s * ((D (s + 1) - zr : ℝ) : ℂ)) =
      Complex.exp (-G l s * ((zs - D s + (D (s + 1) - D s) + (D (s + 1) - zr) : ℝ) : ℂ)) := by
    rw [← Complex.exp_add, ← Complex.exp_add]; congr 1; push_cast; ring
  simp only [wu, Us, xp, xm, E1]
  linear_combination (β * Rdn (stk n D e q l) (G l) s / p3 (stk n D e q l) (G l) s) * m1 +
    (α * Rdn (stk n D e q l) (G l) s * Rup (stk n D e q l) (G l) s / p3 (stk n D e q l) (G l) s) * m2

theorem Fam.same_dn (hs0 : 0 ≤ s) (hs1 : s < n) (a1 : s ≠ 0 → D s ≤ zs) (a2 : s ≠ n - 1 → zs ≤ D (s + 1))
    (b1 : s ≠ 0 → D s ≤ zr) (b2 : s ≠ n - 1 → zr ≤ D (s + 1)) (hz : zs ≠ zr) :
    Small fun l => wd (stk n D e q l) (G l) s (Vs (stk n D e q l) (G l) s zs α β) zr := by
  by_cases h0 : s = 0
  · refine Small.zero.congr fun l _ => ?_
    have : Rup (stk n D e q l) (G l) s = 0 := by rw [h0]; exact Rup_first (stk n D e q l) (G l)
    simp [wd, Vs, this]
  have a1 := a1 h0
  have b1 := b1 h0
  have t1 := F.exp_small hs0 hs1 (d := zs - D s + (zr - D s)) (by
    rcases lt_or_gt_of_ne hz with h | h <;> linarith)
  have t2 : Small fun l => Rdn (stk n D e q l) (G l) s *
      Complex.exp (-G l s * ((D (s + 1) - zs + (D (s + 1) - D s) + (zr - D s) : ℝ) : ℂ)) := by
    by_cases hn : s = n - 1
    · refine Small.zero.congr fun l _ => ?_
      have : Rdn (stk n D e q l) (G l) s = 0 := by rw [hn]; exact Rdn_last (stk n D e q l) (G l)
      rw [this, zero_mul]
    · have a2 := a2 hn
      have b2 := b2 hn
      exact (F.Rdn_conv hs0 (by omega)).mul_small (F.exp_small hs0 hs1 (by
        rcases lt_or_gt_of_ne hz with h | h <;> linarith))
  have hp := F.p3_inv hs0 (s := s) (by omega)
  have hd := F.Rup_conv hs0 (i := s) (by omega)
  refine (((hp.mul (hd.mul (Conv.const α))).mul_small t1).add
    ((hp.mul (hd.mul (Conv.const β))).mul_small t2)).congr fun l _ => ?_
  have m1 : Complex.exp (-G l s * ((zs - D s : ℝ) : ℂ)) * Complex.exp (-G l s * ((zr - D s : ℝ) : ℂ)) =
      Complex.exp (-G l s * ((zs - D s + (zr - D s) : ℝ) : ℂ)) := by
    rw [← Complex.exp_add]; congr 1; push_cast; ring
  have m2 : Complex.exp (-G l s * ((D (s + 1) - zs : ℝ) : ℂ)) * Complex.exp (-G l s * ((D (s + 1) - D s : ℝ) : ℂ)) *
      Complex.exp (-G l s * ((zr - D s : ℝ) : ℂ)) =
      Complex.exp (-G l s * ((D (s + 1) - zs + (D (s + 1) - D s) + (zr - D s) : ℝ) : ℂ)) := by
    rw [← Complex.exp_add, ← Complex.exp_add]; congr 1; push_cast; ring
  simp only [wd, Vs, xp, xm, E1]
  linear_combination (α * Rup (stk n D e q l) (G l) s / p3 (stk n D e q l) (G l) s) * m1 +
    (β * Rdn (stk n D e q l) (G l) s * Rup (stk n D e q l) (G l) s / p3 (stk n D e q l) (G l) s) * m2

/-- Attenuation across a layer. -/
theorem Fam.E1_conv {i : ℤ} (h0 : 1 ≤ i) (h1 : i < n - 1) : Conv fun l => E1 (stk n D e q l) (G l) i :=
  F.exp_conv (i := i) (d := D (i + 1) - D i) (by omega) (by omega) (by have := F.mono h0 h1; linarith)

theorem Fam.Kd_conv (hs0 : 0 ≤ s) (hs1 : s < n - 1) (a1 : s ≠ 0 → D s ≤ zs) (a2 : zs ≤ D (s + 1)) :
    Conv (fun l => Kd (stk n D e q l) (G l) s zs α β) ∧
    (zs < D (s + 1) → Small fun l => Kd (stk n D e q l) (G l) s zs α β) := by
  have hp := F.p3_inv hs0 (s := s) (by omega)
  have hu := F.Rup_conv hs0 (i := s) (by omega)
  have key : ∀ l, Kd (stk n D e q l) (G l) s zs α β = (1 / p3 (stk n D e q l) (G l) s * β) * xp (stk n D e q l) (G l) s zs +
      (1 / p3 (stk n D e q l) (G l) s * α) * (Rup (stk n D e q l) (G l) s *
        (xm (stk n D e q l) (G l) s zs * E1 (stk n D e q l) (G l) s)) := by
    intro l; rw [Kd]; ring
  have mm : ∀ l, xm (stk n D e q l) (G l) s zs * E1 (stk n D e q l) (G l) s =
      Complex.exp (-G l s * ((zs - D s + (D (s + 1) - D s) : ℝ) : ℂ)) := by
    intro l; rw [xm, E1, ← Complex.exp_add]; congr 1; push_cast; ring
  constructor
  · have t2 : Conv fun l => Rup (stk n D e q l) (G l) s *
        (xm (stk n D e q l) (G l) s zs * E1 (stk n D e q l) (G l) s) := by
      by_cases h0 : s = 0
      · exact (Conv.const 0).congr fun l _ => by rw [h0, Rup_first, zero_mul]
      · refine hu.mul ((F.exp_conv hs0 (by omega) (d := zs - D s + (D (s + 1) - D s)) ?_).congr fun l _ => mm l)
        have := a1 h0; linarith
    exact (((hp.mul (Conv.const β)).mul (F.exp_conv hs0 (by omega) (d := D (s + 1) - zs) (by linarith))).add
      ((hp.mul (Conv.const α)).mul t2)).congr fun l _ => key l
  · intro hlt
    have t2 : Small fun l => Rup (stk n D e q l) (G l) s *
        (xm (stk n D e q l) (G l) s zs * E1 (stk n D e q l) (G l) s) := by
      by_cases h0 : s = 0
      · exact Small.zero.congr fun l _ => by rw [h0, Rup_first, zero_mul]
      · refine hu.mul_small ((F.exp_small hs0 (by omega) (d := zs - D s + (D (s + 1) - D s)) ?_).congr fun l _ => mm l)
        have := a1 h0; linarith
    exact (((hp.mul (Conv.const β)).mul_small (F.exp_small hs0 (by omega) (d := D (s + 1) - zs) (by linarith))).add
      ((hp.mul (Conv.const α)).mul_small t2)).congr fun l _ => key l

theorem Fam.Ku_conv (hs0 : 0 < s) (hs1 : s < n) (a1 : D s ≤ zs) (a2 : s ≠ n - 1 → zs ≤ D (s + 1)) :
    Conv (fun l => Ku (stk n D e q l) (G l) s zs α β) ∧
    (D s < zs → Small fun l => Ku (stk n D e q l) (G l) s zs α β) := by
  have hp := F.p3_inv hs0.le (s := s) (by omega)
  have hu := F.Rdn_conv hs0.le (i := s) (by omega)
  have key : ∀ l, Ku (stk n D e q l) (G l) s zs α β = (1 / p3 (stk n D e q l) (G l) s * α) * xm (stk n D e q l) (G l) s zs +
      (1 / p3 (stk n D e q l) (G l) s * β) * (Rdn (stk n D e q l) (G l) s *
        (xp (stk n D e q l) (G l) s zs * E1 (stk n D e q l) (G l) s)) := by
    intro l; rw [Ku]; ring
  have mm : ∀ l, xp (stk n D e q l) (G l) s zs * E1 (stk n D e q l) (G l) s =
      Complex.exp (-G l s * ((D (s + 1) - zs + (D (s + 1) - D s) : ℝ) : ℂ)) := by
    intro l; rw [xp, E1, ← Complex.exp_add]; congr 1; push_cast; ring
  have hz : s = n - 1 → ∀ l, Rdn (stk n D e q l) (G l) s = 0 := fun h l => by
    rw [h]; exact Rdn_last (stk n D e q l) (G l)
  constructor
  · have t2 : Conv fun l => Rdn (stk n D e q l) (G l) s *
        (xp (stk n D e q l) (G l) s zs * E1 (stk n D e q l) (G l) s) := by
      by_cases h0 : s = n - 1
      · exact (Conv.const 0).congr fun l _ => by rw [hz h0, zero_mul]
      · refine hu.mul ((F.exp_conv hs0.le (by omega) (d := D (s + 1) - zs + (D (s + 1) - D s)) ?_).congr fun l _ => mm l)
        have := a2 h0; linarith
    exact (((hp.mul (Conv.const α)).mul (F.exp_conv hs0.le (by omega) (d := zs - D s) (by linarith))).add
      ((hp.mul (Conv.const β)).mul t2)).congr fun l _ => key l
  · intro hlt
    have t2 : Small fun l => Rdn (stk n D e q l) (G l) s *
        (xp (stk n D e q l) (G l) s zs * E1 (stk n D e q l) (G l) s) := by
      by_cases h0 : s = n - 1
      · exact Small.zero.congr fun l _ => by rw [hz h0, zero_mul]
      · refine hu.mul_small ((F.exp_small hs0.le (by omega) (d := D (s + 1) - zs + (D (s + 1) - D s)) ?_).congr fun l _ => mm l)
        have := a2 h0; linarith
    exact (((hp.mul (Conv.const α)).mul_small (F.exp_small hs0.le (by omega) (d := zs - D s) (by linarith))).add
      ((hp.mul (Conv.const β)).mul_small t2)).congr fun l _ => key l

theorem Fam.Vn_conv (hs0 : 0 ≤ s) (a1 : s ≠ 0 → D s ≤ zs) (a2 : s ≠ n - 1 → zs ≤ D (s + 1)) (k : ℕ)
    (hk : s + 1 + k ≤ n - 1) :
    Conv (fun l => Vn (stk n D e q l) (G l) s zs α β k) ∧
    (zs < D (s + 1 + k) → Small fun l => Vn (stk n D e q l) (G l) s zs α β k) := by
  induction k with
  | zero =>
    simp only [Nat.cast_zero, add_zero] at hk ⊢
    obtain ⟨c1, c2⟩ := F.Kd_conv (α := α) (β := β) hs0 (by omega) a1 (a2 (by omega))
    have w := ((Conv.const 1).add (F.Rdn_conv hs0 (i := s) (by omega))).mul (F.den_dn (i := s + 1) (by omega) (by omega))
    have key : ∀ l, Vn (stk n D e q l) (G l) s zs α β 0 = Kd (stk n D e q l) (G l) s zs α β *
        ((1 + Rdn (stk n D e q l) (G l) s) *
          (1 / (1 + Rdn (stk n D e q l) (G l) (s + 1) * E2 (stk n D e q l) (G l) (s + 1)))) := by
      intro l; rw [Vn]; ring
    exact ⟨(c1.mul w).congr fun l _ => key l, fun h => ((c2 h).mul_conv w).congr fun l _ => key l⟩
  | succ k ih =>
    push_cast at hk ⊢
    obtain ⟨c1, c2⟩ := ih (by omega)
    have w1 := ((Conv.const 1).add (F.Rdn_conv (i := s + 1 + k) (by omega) (by omega))).mul
      (F.den_dn (i := s + 1 + k + 1) (by omega) (by omega))
    have hE := F.E1_conv (i := s + 1 + k) (by omega) (by omega)
    have key : ∀ l, Vn (stk n D e q l) (G l) s zs α β (k + 1) = Vn (stk n D e q l) (G l) s zs α β k *
        (E1 (stk n D e q l) (G l) (s + 1 + k) * ((1 + Rdn (stk n D e q l) (G l) (s + 1 + k)) *
          (1 / (1 + Rdn (stk n D e q l) (G l) (s + 1 + k + 1) * E2 (stk n D e q l) (G l) (s + 1 + k + 1))))) := by
      intro l; rw [Vn]; ring
    refine ⟨(c1.mul (hE.mul w1)).congr fun l _ => key l, fun h => ?_⟩
    by_cases h2 : zs < D (s + 1 + k)
    · exact ((c2 h2).mul_conv (hE.mul w1)).congr fun l _ => key l
    · rw [← add_assoc] at h
      have hE' : Small fun l => E1 (stk n D e q l) (G l) (s + 1 + k) :=
        F.exp_small (by omega) (by omega) (d := D (s + 1 + k + 1) - D (s + 1 + k)) (by linarith)
      exact (c1.mul_small (hE'.mul_conv w1)).congr fun l _ => key l

theorem Fam.Un_conv (hs1 : s < n) (a1 : s ≠ 0 → D s ≤ zs) (a2 : s ≠ n - 1 → zs ≤ D (s + 1)) (k : ℕ)
    (hk : 0 ≤ s - 1 - k) :
    Conv (fun l => Un (stk n D e q l) (G l) s zs α β k) ∧
    (D (s - k) < zs → Small fun l => Un (stk n D e q l) (G l) s zs α β k) := by
  induction k with
  | zero =>
    simp only [Nat.cast_zero, sub_zero] at hk ⊢
    obtain ⟨c1, c2⟩ := F.Ku_conv (α := α) (β := β) (by omega) hs1 (a1 (by omega)) a2
    have w := ((Conv.const 1).add (F.Rup_conv (i := s) (by omega) (by omega))).mul
      (F.den_up (i := s - 1) (by omega) (by omega))
    have key : ∀ l, Un (stk n D e q l) (G l) s zs α β 0 = Ku (stk n D e q l) (G l) s zs α β *
        ((1 + Rup (stk n D e q l) (G l) s) *
          (1 / (1 + Rup (stk n D e q l) (G l) (s - 1) * E2 (stk n D e q l) (G l) (s - 1)))) := by
      intro l; rw [Un]; ring
    exact ⟨(c1.mul w).congr fun l _ => key l, fun h => ((c2 h).mul_conv w).congr fun l _ => key l⟩
  | succ k ih =>
    push_cast at hk ⊢
    obtain ⟨c1, c2⟩ := ih (by omega)
    have w1 := ((Conv.const 1).add (F.Rup_conv (i := s - 1 - k) (by omega) (by omega))).mul
      (F.den_up (i := s - 1 - k - 1) (by omega) (by omega))
    have hE := F.E1_conv (i := s - 1 - k) (by omega) (by omega)
    have key : ∀ l, Un (stk n D e q l) (G l) s zs α β (k + 1) = Un (stk n D e q l) (G l) s zs α β k *
        (E1 (stk n D e q l) (G l) (s - 1 - k) * ((1 + Rup (stk n D e q l) (G l) (s - 1 - k)) *
          (1 / (1 + Rup (stk n D e q l) (G l) (s - 1 - k - 1) * E2 (stk n D e q l) (G l) (s - 1 - k - 1))))) := by
      intro l; rw [Un]; ring
    refine ⟨(c1.mul (hE.mul w1)).congr fun l _ => key l, fun h => ?_⟩
    by_cases h2 : D (s - k) < zs
    · exact ((c2 h2).mul_conv (hE.mul w1)).congr fun l _ => key l
    · have e1 : s - (k + 1 : ℤ) = s - 1 - k := by ring
      have e2 : s - 1 - (k : ℤ) + 1 = s - k := by ring
      rw [e1] at h
      have hE' : Small fun l => E1 (stk n D e q l) (G l) (s - 1 - k) :=
        F.exp_small (by omega) (by omega) (d := D (s - 1 - k + 1) - D (s - 1 - k)) (by rw [e2]; linarith)
      exact (c1.mul_small (hE'.mul_conv w1)).congr fun l _ => key l

/-- Receiver below the source. -/
theorem Fam.below (hs0 : 0 ≤ s) (hs1 : s < n) (a1 : s ≠ 0 → D s ≤ zs) (a2 : s ≠ n - 1 → zs ≤ D (s + 1))
    (hr0 : 0 ≤ r) (hr1 : r < n) (b1 : r ≠ 0 → D r ≤ zr) (b2 : r ≠ n - 1 → zr ≤ D (r + 1)) (hz : zs < zr)
    (hsr : s ≤ r) :
    Small (fun l => dnD (stk n D e q l) (G l) s zs α β r zr) ∧
    Small (fun l => dnU (stk n D e q l) (G l) s zs α β r zr) := by
  by_cases h : r = s
  · subst h
    simp only [dnD, dnU, if_true]
    exact ⟨((F.exp_small hs0 hs1 (sub_pos.2 hz)).smul β).add (F.same_dn hs0 hs1 a1 a2 b1 b2 hz.ne),
      F.same_up hs0 hs1 a1 a2 b1 b2 hz.ne⟩
  · have hlt : s < r := by omega
    have b1 := b1 (by omega)
    obtain ⟨k, hk⟩ : ∃ k : ℕ, r = s + 1 + k := ⟨(r - s - 1).toNat, by omega⟩
    obtain ⟨c1, c2⟩ := F.Vn_conv (α := α) (β := β) hs0 a1 a2 k (by omega)
    rw [← hk] at c2
    have hV : ∀ l, Vl (stk n D e q l) (G l) s zs α β r = Vn (stk n D e q l) (G l) s zs α β k := fun l => by
      rw [Vl]; congr 1; omega
    simp only [dnD, dnU, h, if_false, wd, wu, hV]
    have x1 := F.exp_conv hr0 hr1 (d := zr - D r) (by linarith)
    have tail : s < r → Small fun l => Vn (stk n D e q l) (G l) s zs α β k * (E1 (stk n D e q l) (G l) r *
        (Rdn (stk n D e q l) (G l) r * Complex.exp (-G l r * ((D (r + 1) - zr : ℝ) : ℂ)))) := by
      intro _
      by_cases hn : r = n - 1
      · refine Small.zero.congr fun l _ => ?_
        have : Rdn (stk n D e q l) (G l) r = 0 := by rw [hn]; exact Rdn_last (stk n D e q l) (G l)
        rw [this]; ring
      · have b2 := b2 hn
        have w := (F.Rdn_conv hr0 (i := r) (by omega)).mul (F.exp_conv hr0 hr1 (d := D (r + 1) - zr) (by linarith))
        by_cases h2 : zs < D r
        · exact (c2 h2).mul_conv ((F.E1_conv (by omega) (by omega)).mul w)
        · have hE : Small fun l => E1 (stk n D e q l) (G l) r :=
            F.exp_small hr0 hr1 (d := D (r + 1) - D r) (by linarith)
          exact c1.mul_small (hE.mul_conv w)
    refine ⟨?_, (tail hlt).congr fun l _ => by ring⟩
    by_cases h2 : zs < D r
    · exact (c2 h2).mul_conv x1
    · exact c1.mul_small (F.exp_small hr0 hr1 (d := zr - D r) (by linarith))

/-- Receiver above the source. -/
theorem Fam.above (hs0 : 0 ≤ s) (hs1 : s < n) (a1 : s ≠ 0 → D s ≤ zs) (a2 : s ≠ n - 1 → zs ≤ D (s + 1))
    (hr0 : 0 ≤ r) (hr1 : r < n) (b1 : r ≠ 0 → D r ≤ zr) (b2 : r ≠ n - 1 → zr ≤ D (r + 1)) (hz : zr < zs)
    (hsr : r ≤ s) :
    Small (fun l => upU (stk n D e q l) (G l) s zs α β r zr) ∧
    Small (fun l => upD (stk n D e q l) (G l) s zs α β r zr) := by
  by_cases h : r = s
  · subst h
    simp only [upD, upU, if_true]
    exact ⟨((F.exp_small hs0 hs1 (sub_pos.2 hz)).smul α).add (F.same_up hs0 hs1 a1 a2 b1 b2 hz.ne'),
      F.same_dn hs0 hs1 a1 a2 b1 b2 hz.ne'⟩
  · have hlt : r < s := by omega
    have b2 := b2 (by omega)
    obtain ⟨k, hk⟩ : ∃ k : ℕ, r = s - 1 - k := ⟨(s - r - 1).toNat, by omega⟩
    obtain ⟨c1, c2⟩ := F.Un_conv (α := α) (β := β) hs1 a1 a2 k (by omega)
    rw [show s - (k : ℤ) = r + 1 by omega] at c2
    have hV : ∀ l, Ul (stk n D e q l) (G l) s zs α β r = Un (stk n D e q l) (G l) s zs α β k := fun l => by
      rw [Ul]; congr 1; omega
    simp only [upD, upU, h, if_false, wd, wu, hV]
    have x1 := F.exp_conv hr0 hr1 (d := D (r + 1) - zr) (by linarith)
    have tail : r < s → Small fun l => Un (stk n D e q l) (G l) s zs α β k * (E1 (stk n D e q l) (G l) r *
        (Rup (stk n D e q l) (G l) r * Complex.exp (-G l r * ((zr - D r : ℝ) : ℂ)))) := by
      intro _
      by_cases hn : r = 0
      · refine Small.zero.congr fun l _ => ?_
        have : Rup (stk n D e q l) (G l) r = 0 := by rw [hn]; exact Rup_first (stk n D e q l) (G l)
        rw [this]; ring
      · have b1 := b1 hn
        have w := (F.Rup_conv hr0 (i := r) (by omega)).mul (F.exp_conv hr0 hr1 (d := zr - D r) (by linarith))
        by_cases h2 : D (r + 1) < zs
        · exact (c2 h2).mul_conv ((F.E1_conv (by omega) (by omega)).mul w)
        · have hE : Small fun l => E1 (stk n D e q l) (G l) r :=
            F.exp_small hr0 hr1 (d := D (r + 1) - D r) (by linarith)
          exact c1.mul_small (hE.mul_conv w)
    refine ⟨?_, (tail hlt).congr fun l _ => by ring⟩
    by_cases h2 : D (r + 1) < zs
    · exact (c2 h2).mul_conv x1
    · exact c1.mul_small (F.exp_small hr0 hr1 (d := D (r + 1) - zr) (by linarith))

/-- `green`, whatever `xdirect`. -/
theorem Fam.green {o : Ops} (ho : Safe o) {κ : ℂ} (hκ : κ ≠ 0) (hs : (stk n D e q 0).InClosed s zs)
    (hr : (stk n D e q 0).InClosed r zr) (hz : zs ≠ zr) {ab : ℕ} {TM : Bool} (hsg : SignOK ab TM) (xd : Bool) :
    Small fun l => green o n (depthOf D) (fun i => κ * e i) (G l) r s zr zs ab xd TM := by
  have hs' : ∀ l, (stk n D e q l).InClosed s zs := fun _ => hs
  have hr' : ∀ l, (stk n D e q l).InClosed r zr := fun _ => hr
  obtain ⟨s0, s1, a1, a2⟩ := hs
  obtain ⟨r0, r1, b1, b2⟩ := hr
  change s < n at s1
  change r < n at r1
  have hord := (F.good 0 le_rfl).ord
  by_cases hx : xd = true ∧ r = s
  · obtain ⟨rfl, rfl⟩ := hx
    exact ((F.same_up s0 s1 a1 a2 b1 b2 hz).add ((F.same_dn s0 s1 a1 a2 b1 b2 hz).smul (sgB (isB ab TM)))).congr
      fun l hl => green_same_x (F.good l hl) ho hκ (hs' l) (hr' l) hsg
  · have main : Small fun l => pick (isB ab TM) (stk n D e q l) (G l) s zs (pmC ab TM) 1 r zr := by
      rcases lt_or_gt_of_ne hz with h | h
      · have hsr : s ≤ r := by
          by_contra hc
          have h1 := b2 (by simp only; omega)
          have h2 := a1 (by omega)
          have h3 := mono_le hord (i := r + 1) (j := s) (by omega) (by omega) (by simp only; omega)
          simp only at h1 h2 h3
          linarith
        obtain ⟨k1, k2⟩ := F.below (α := pmC ab TM) (β := 1) s0 s1 a1 a2 r0 r1 b1 b2 h hsr
        exact (k2.add (k1.smul (sgB (isB ab TM)))).congr fun l hl => (F.good l hl).pick_below (hs' l) (hr' l) h
      · have hsr : r ≤ s := by
          by_contra hc
          have h1 := a2 (by simp only; omega)
          have h2 := b1 (by omega)
          have h3 := mono_le hord (i := s + 1) (j := r) (by omega) (by omega) (by simp only; omega)
          simp only at h1 h2 h3
          linarith
        obtain ⟨k1, k2⟩ := F.above (α := pmC ab TM) (β := 1) s0 s1 a1 a2 r0 r1 b1 b2 h hsr
        exact (k1.add (k2.smul (sgB (isB ab TM)))).congr fun l hl => (F.good l hl).pick_above (hs' l) (hr' l) h
    refine main.congr fun l hl => ?_
    have := green_xd (F.good l hl) ho hκ (xd := xd) (ab := ab) (TM := TM) (hs' l) (hr' l) (fun e => absurd e.symm hz) hsg
    rw [if_neg hx, sub_zero] at this
    exact this

/-- Multiplied or divided by a vertical wavenumber. -/
theorem Fam.gmul {i : ℤ} (h0 : 0 ≤ i) (h1 : i < n) {f : ℝ → ℂ} (hf : Small f) : Small fun l => G l i * f l := by
  refine ((F.lim i h0 h1).mul_small (hf.lam.add hf)).congr fun l hl => ?_
  have := lp_ne hl
  field_simp

theorem Fam.gdiv {i : ℤ} (h0 : 0 ≤ i) (h1 : i < n) {f : ℝ → ℂ} (hf : Small f) : Small fun l => f l / G l i := by
  have hg : g i ≠ 0 := fun h => by have := F.gre i h0 h1; rw [h] at this; simp at this
  have hl := F.lim i h0 h1
  have inv := (Nice.const 1).div hl (fun l hl => div_ne_zero (F.gam_ne h0 h1 hl) (lp_ne hl)) hg
  have hb : Small fun l => (((1 / (|l| + 1) : ℝ)) : ℂ) * f l := by
    refine hf.bdd (f' := fun l => ((1 / (|l| + 1) : ℝ) : ℂ)) ?_ fun l => ?_
    · refine Complex.continuous_ofReal.comp (continuous_const.div (by fun_prop) fun l => ?_)
      positivity
    · rw [Complex.norm_real, Real.norm_eq_abs, abs_of_nonneg (by positivity), div_le_one (by positivity)]
      linarith [abs_nonneg l]
  refine (inv.mul_small hb).congr fun l hl => ?_
  have h2 := lp_ne hl
  have h3 := F.gam_ne h0 h1 hl
  rw [abs_of_nonneg hl]
  push_cast
  field_simp

end

section
variable {n : ℤ} {D : ℤ → ℝ} {e1 e2 v1 v2 : ℤ → ℂ} {q1 q2 : ℝ → ℤ → ℂ} {g1 g2 : ℤ → ℂ} {c1 c2 κ : ℂ} {o : Ops}
  {s r : ℤ} {zs zr : ℝ}

/-- Both modes of `greenfct`, after the switches. -/
theorem core_small (ho : Safe o) (hκ : κ ≠ 0)
    (F1 : Fam n D e1 q1 (fun l i => gam o (κ * e1 i) (κ * v1 i) (κ * e2 i) l) g1 c1)
    (F2 : Fam n D e2 q2 (fun l i => gam o (κ * e2 i) (κ * v2 i) (κ * e1 i) l) g2 c2)
    (hv1 : ∀ i, 0 ≤ i → i < n → v1 i ≠ 0) (hv2 : ∀ i, 0 ≤ i → i < n → v2 i ≠ 0)
    (hs : (stk n D e1 q1 0).InClosed s zs) (hr : (stk n D e1 q1 0).InClosed r zr) (hz : zs ≠ zr) (xd : Bool) {ab : ℕ}
    (hab : ab ∈ [11, 12, 21, 22, 14, 15, 24, 25, 13, 23, 31, 32, 34, 35, 16, 26, 33]) :
    Small (fun l => (core o n (depthOf D) (fun i => κ * e1 i) (fun i => κ * v1 i) (fun i => κ * e2 i)
      (fun i => κ * v2 i) zs zr s r l ab xd).1) ∧
    Small (fun l => (core o n (depthOf D) (fun i => κ * e1 i) (fun i => κ * v1 i) (fun i => κ * e2 i)
      (fun i => κ * v2 i) zs zr s r l ab xd).2) := by
  have s0 := hs.1
  have s1 : s < n := hs.2.1
  have r0 := hr.1
  have r1 : r < n := hr.2.1
  have G1 : SignOK ab true → _ := fun h => F1.green ho hκ hs hr hz h xd
  have G2 : SignOK ab false → _ := fun h => F2.green ho hκ hs hr hz h xd
  have es := mul_ne_zero hκ (F1.e_ne s0 s1)
  have er := mul_ne_zero hκ (F1.e_ne r0 r1)
  have vs := mul_ne_zero hκ (hv1 s s0 s1)
  have vr := mul_ne_zero hκ (hv1 r r0 r1)
  have vs2 := mul_ne_zero hκ (hv2 s s0 s1)
  unfold core greenfct
  simp only [Bool.and_false, Bool.false_eq_true, if_false, Bool.false_and]
  split_ifs with m1 m2 m3 m4 m5 m6 m7
  · have k1 := G1 (signOK_TM (by simp only [List.mem_cons, List.not_mem_nil, or_false] at m1 ⊢; omega))
    have k2 := G2 (signOK_TE (by simp only [List.mem_cons, List.not_mem_nil, or_false] at m1 ⊢; omega))
    refine ⟨((F1.gmul r0 r1 k1).smul (1 / (κ * e1 r))).congr fun l hl => ?_,
      ((F2.gdiv s0 s1 k2).smul (κ * e2 s)).congr fun l hl => ?_⟩
    · rw [ho.div _ _ er]; ring
    · rw [ho.div _ _ (F2.gam_ne s0 s1 hl)]; ring
  · have k1 := G1 (signOK_TM (by simp only [List.mem_cons, List.not_mem_nil, or_false] at m2 ⊢; omega))
    have k2 := G2 (signOK_TE (by simp only [List.mem_cons, List.not_mem_nil, or_false] at m2 ⊢; omega))
    refine ⟨((F1.gdiv s0 s1 (F1.gmul r0 r1 k1)).smul (κ * e1 s / (κ * e1 r))).congr fun l hl => ?_, k2⟩
    rw [ho.div _ _ (F1.gam_ne s0 s1 hl), ho.div _ _ er]; ring
  · have k1 := G1 (signOK_TM (by simp only [List.mem_cons, List.not_mem_nil, or_false] at m3 ⊢; omega))
    refine ⟨((F1.gdiv s0 s1 (F1.gmul r0 r1 k1)).smul (-(κ * e1 s / (κ * e1 r) / (κ * v1 s)))).congr fun l hl => ?_,
      Small.zero⟩
    rw [ho.div _ _ (F1.gam_ne s0 s1 hl), ho.div _ _ er, ho.div _ _ vs]; ring
  · have k1 := G1 (signOK_TM (by simp only [List.mem_cons, List.not_mem_nil, or_false] at m4 ⊢; omega))
    refine ⟨(k1.smul (1 / (κ * v1 r))).congr fun l hl => ?_, Small.zero⟩
    rw [ho.div _ _ vr]; ring
  · have k1 := G1 (signOK_TM (by simp only [List.mem_cons, List.not_mem_nil, or_false] at m5 ⊢; omega))
    refine ⟨((F1.gdiv s0 s1 k1).smul (κ * e1 s / (κ * v1 r))).congr fun l hl => ?_, Small.zero⟩
    rw [ho.div _ _ vr, ho.div _ _ (F1.gam_ne s0 s1 hl)]; ring
  · have k2 := G2 (signOK_TE (by simp only [List.mem_cons, List.not_mem_nil, or_false] at m6 ⊢; omega))
    refine ⟨Small.zero, ((F2.gdiv s0 s1 k2).smul (κ * e2 s / (κ * v2 s))).congr fun l hl => ?_⟩
    rw [ho.div _ _ vs2, ho.div _ _ (F2.gam_ne s0 s1 hl)]; ring
  · have k1 := G1 (signOK_TM (by simp only [List.mem_cons, List.not_mem_nil, or_false] at m7 ⊢; omega))
    refine ⟨((F1.gdiv s0 s1 k1).smul (κ * e1 s / (κ * v1 s) / (κ * v1 r))).congr fun l hl => ?_, Small.zero⟩
    rw [ho.div _ _ vr, ho.div _ _ vs, ho.div _ _ (F1.gam_ne s0 s1 hl)]; ring
  · exfalso
    simp only [List.mem_cons, List.not_mem_nil, or_false] at *; omega

end

end Verif.Lemmas
