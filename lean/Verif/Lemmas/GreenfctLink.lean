import Verif.Lemmas.GreenLink
import Verif.Spec.Medium

/-! Helper lemmas: `greenfct` in terms of fields of the specification. -/

namespace Verif.Lemmas
open Verif.Spec Verif.Spec.Stack Verif.Kernel Complex

variable {M : Stack} {G : ℤ → ℂ} {o : Ops}

theorem Good.passive (h : Good M G) : M.Passive := fun i h0 h1 => (h.lay i h0 h1).pas

/-- value at the receiver, with or without the direct field -/
def xval (xd : Bool) (r s : ℤ) (F H : ℝ → ℂ) (z : ℝ) : ℂ :=
  F z - if xd = true ∧ r = s then H z else 0

section
variable (h : Good M G) {s : ℤ} {zs : ℝ}
include h

theorem odd_eq (hs : M.InClosed s zs) {A B : ℝ → ℂ} (hf : M.IsField zs 2 0 A B) (z : ℝ) :
    fldA M G s zs (-1) 1 z = A z ∧ fldB M G s zs (-1) 1 z = B z := by
  have h1 := h.isField (α := -1) (β := 1) hs
  have e1 : (1 : ℂ) - -1 = 2 := by norm_num
  have e2 : -(Yl M G s * (-1 + 1)) = 0 := by ring
  rw [e1, e2] at h1
  have := field_unique h.ord.pos h.passive h1 hf
  exact ⟨this.1 z, this.2 z⟩

theorem even_eq (hs : M.InClosed s zs) {A B : ℝ → ℂ} (hf : M.IsField zs 0 (-2) A B) (z : ℝ) :
    fldA M G s zs 1 1 z = Yl M G s * A z ∧ fldB M G s zs 1 1 z = Yl M G s * B z := by
  have h1 := h.isField (α := 1) (β := 1) hs
  have e1 : (1 : ℂ) - 1 = Yl M G s * 0 := by ring
  have e2 : -(Yl M G s * (1 + 1)) = Yl M G s * (-2) := by ring
  rw [e1, e2] at h1
  have := field_unique h.ord.pos h.passive h1 (field_smul (Yl M G s) hf)
  exact ⟨this.1 z, this.2 z⟩

variable (ho : Safe o) {c : ℂ} (hc : c ≠ 0) {ab : ℕ} {TM : Bool} {r : ℤ} {zr : ℝ} {xd : Bool}
include ho hc

theorem green_xd (hs : M.InClosed s zs) (hr : M.InClosed r zr)
    (hsr : zr = zs → r = s) (hsg : SignOK ab TM) :
    green o M.n (depthOf M.D) (fun i => c * M.e i) G r s zr zs ab xd TM =
      pick (isB ab TM) M G s zs (pmC ab TM) 1 r zr -
        if xd = true ∧ r = s then
          pick (isB ab TM) (homog M s) (fun _ => G s) 0 zs (pmC ab TM) 1 0 zr else 0 := by
  cases xd
  · rw [green_eq h ho hc hs hr hsr hsg]; simp
  · rw [green_xdirect h ho hc hs hr hsr hsg]; simp

theorem green_odd (hs : M.InClosed s zs) (hr : M.InClosed r zr)
    (hsr : zr = zs → r = s) (hsg : SignOK ab TM) (hpm : pmC ab TM = -1)
    {A B Ah Bh : ℝ → ℂ} (hf : M.IsField zs 2 0 A B) (hh : (homog M s).IsField zs 2 0 Ah Bh) :
    green o M.n (depthOf M.D) (fun i => c * M.e i) G r s zr zs ab xd TM =
      if isB ab TM then xval xd r s B Bh zr / Yl M G r else xval xd r s A Ah zr := by
  rw [green_xd h ho hc hs hr hsr hsg, hpm]
  have a := odd_eq h hs hf zr
  have b := odd_eq (h.homog hs.1 hs.2.1) (homog_inClosed M s zs) hh zr
  unfold pick xval
  rw [a.1, a.2, b.1, b.2]
  have hY : Yl (homog M s) (fun _ => G s) 0 = Yl M G s := rfl
  rw [hY]
  by_cases hrs : r = s
  · subst hrs; cases isB ab TM <;> cases xd <;> simp; ring
  · cases isB ab TM <;> cases xd <;> simp [hrs]

theorem green_even (hs : M.InClosed s zs) (hr : M.InClosed r zr)
    (hsr : zr = zs → r = s) (hsg : SignOK ab TM) (hpm : pmC ab TM = 1)
    {A B Ah Bh : ℝ → ℂ} (hf : M.IsField zs 0 (-2) A B)
    (hh : (homog M s).IsField zs 0 (-2) Ah Bh) :
    green o M.n (depthOf M.D) (fun i => c * M.e i) G r s zr zs ab xd TM =
      Yl M G s * if isB ab TM then xval xd r s B Bh zr / Yl M G r else xval xd r s A Ah zr := by
  rw [green_xd h ho hc hs hr hsr hsg, hpm]
  have a := even_eq h hs hf zr
  have b := even_eq (h.homog hs.1 hs.2.1) (homog_inClosed M s zs) hh zr
  unfold pick xval
  rw [a.1, a.2, b.1, b.2]
  have hY : Yl (homog M s) (fun _ => G s) 0 = Yl M G s := rfl
  rw [hY]
  by_cases hrs : r = s
  · subst hrs; cases isB ab TM <;> cases xd <;> simp <;> ring
  · cases isB ab TM <;> cases xd <;> simp [hrs] <;> ring

end

/-- body of `greenfct` after the reciprocity switches -/
noncomputable def core (o : Ops) (nlayer : ℤ) (depth : ℤ → EReal) (etaH etaV zetaH zetaV : ℤ → ℂ)
    (zs zr : ℝ) (ls lr : ℤ) (lam : ℝ) (ab : ℕ) (xdirect : Bool) : ℂ × ℂ :=
  greenfct o ⟨nlayer, depth, etaH, etaV, zetaH, zetaV⟩ zs zr ls lr lam ab xdirect false false

theorem greenfct_ee (o : Ops) (E : Earth) (zs zr : ℝ) (ls lr : ℤ) (lam : ℝ) (ab : ℕ)
    (xd ms : Bool) : greenfct o E zs zr ls lr lam ab xd ms false =
      core o E.nlayer E.depth E.etaH E.etaV E.zetaH E.zetaV zs zr ls lr lam ab xd := by
  cases ms <;> rfl

theorem greenfct_me (o : Ops) (E : Earth) (zs zr : ℝ) (ls lr : ℤ) (lam : ℝ) (ab : ℕ)
    (xd : Bool) : greenfct o E zs zr ls lr lam ab xd false true =
      core o E.nlayer E.depth E.etaH E.etaV E.zetaH E.zetaV zr zs lr ls lam ab xd := rfl

theorem greenfct_mm (o : Ops) (E : Earth) (zs zr : ℝ) (ls lr : ℤ) (lam : ℝ) (ab : ℕ)
    (xd : Bool) : greenfct o E zs zr ls lr lam ab xd true true =
      core o E.nlayer E.depth (fun i => -E.zetaH i) (fun i => -E.zetaV i) (fun i => -E.etaH i)
        (fun i => -E.etaV i) zs zr ls lr lam ab xd := rfl

/-- Two dual stacks (TM and TE of one medium, in either role) and the common factor `c = ±1`. -/
structure Dual (M1 M2 : Stack) (v1 v2 : ℤ → ℂ) (lam : ℝ) (c : ℂ) : Prop where
  csq : c * c = 1
  ord : M1.Ordered
  n_eq : M2.n = M1.n
  D_eq : M2.D = M1.D
  v1_ne : ∀ i, 0 ≤ i → i < M1.n → v1 i ≠ 0
  v2_ne : ∀ i, 0 ≤ i → i < M1.n → v2 i ≠ 0
  pas1 : M1.Passive
  pas2 : M2.Passive
  q1 : ∀ i, M1.q i = (lam : ℂ) ^ 2 / v1 i + M2.e i
  q2 : ∀ i, M2.q i = (lam : ℂ) ^ 2 / v2 i + M1.e i

section
variable {M1 M2 : Stack} {v1 v2 : ℤ → ℂ} {lam : ℝ} {c : ℂ}

theorem Dual.c_ne (d : Dual M1 M2 v1 v2 lam c) : c ≠ 0 := by
  intro h0; have := d.csq; rw [h0] at this; simp at this

theorem layerOK_gam (ho : Safe o) {e e' v q : ℂ} (hcc : c * c = 1) (hc : c ≠ 0) (hv : v ≠ 0)
    (hp : PassiveAt e q) (hq : q = (lam : ℂ) ^ 2 / v + e') :
    LayerOK e q (gam o (c * e) (c * v) (c * e') lam) := by
  have : gam o (c * e) (c * v) (c * e') lam = csqrt (e * q) := by
    unfold gam
    rw [ho.div _ _ (mul_ne_zero hc hv), mul_div_mul_left _ _ hc, hq]
    congr 1
    field_simp
    linear_combination (e * e' * v) * hcc
  rw [this]; exact LayerOK.of_csqrt hp

theorem Dual.good1 (d : Dual M1 M2 v1 v2 lam c) (ho : Safe o) :
    Good M1 (fun i => gam o (c * M1.e i) (c * v1 i) (c * M2.e i) lam) :=
  ⟨d.ord, fun i h0 h1 => layerOK_gam ho d.csq d.c_ne (d.v1_ne i h0 h1) (d.pas1 i h0 h1) (d.q1 i)⟩

theorem Dual.good2 (d : Dual M1 M2 v1 v2 lam c) (ho : Safe o) :
    Good M2 (fun i => gam o (c * M2.e i) (c * v2 i) (c * M1.e i) lam) :=
  ⟨⟨by rw [d.n_eq]; exact d.ord.pos, by rw [d.n_eq, d.D_eq]; exact d.ord.mono⟩,
    fun i h0 h1 => layerOK_gam ho d.csq d.c_ne (d.v2_ne i h0 (by rwa [d.n_eq] at h1))
      (d.pas2 i h0 h1) (d.q2 i)⟩

theorem Dual.inClosed2 (d : Dual M1 M2 v1 v2 lam c) {i : ℤ} {z : ℝ} (h : M1.InClosed i z) :
    M2.InClosed i z := by
  unfold InClosed at *; rw [d.n_eq, d.D_eq]; exact h

/-- Values at the receiver of the odd (jump 2 in `A`) and even (jump -2 in `B`) fields of a
stack, minus the direct field if requested. -/
structure Resp (M : Stack) (zs zr : ℝ) (s r : ℤ) (xd : Bool) (Ao Bo Ae Be : ℂ) : Prop where
  odd : ∃ A B Ah Bh, M.IsField zs 2 0 A B ∧ (homog M s).IsField zs 2 0 Ah Bh ∧
    Ao = xval xd r s A Ah zr ∧ Bo = xval xd r s B Bh zr
  even : ∃ A B Ah Bh, M.IsField zs 0 (-2) A B ∧ (homog M s).IsField zs 0 (-2) Ah Bh ∧
    Ae = xval xd r s A Ah zr ∧ Be = xval xd r s B Bh zr

variable {s r : ℤ} {zs zr : ℝ} {xd : Bool} {ab : ℕ}
  {Ao Bo Ae Be Ao' Bo' Ae' Be' : ℂ}

theorem core_eq (d : Dual M1 M2 v1 v2 lam c) (ho : Safe o) (hs : M1.InClosed s zs)
    (hr : M1.InClosed r zr) (hsr : zr = zs → r = s)
    (R1 : Resp M1 zs zr s r xd Ao Bo Ae Be) (R2 : Resp M2 zs zr s r xd Ao' Bo' Ae' Be') :
    let P := core o M1.n (depthOf M1.D) (fun i => c * M1.e i) (fun i => c * v1 i)
      (fun i => c * M2.e i) (fun i => c * v2 i) zs zr s r lam ab xd
    (ab ∈ [11, 12, 21, 22] → P = (c * Bo, c * Ae')) ∧
    (ab ∈ [14, 15, 24, 25] → P = (Be, Ao')) ∧
    (ab ∈ [13, 23] → P = (-(c * Be / v1 s), 0)) ∧
    (ab ∈ [31, 32] → P = (c * Ao / v1 r, 0)) ∧
    (ab ∈ [34, 35] → P = (Ae / v1 r, 0)) ∧
    (ab ∈ [16, 26] → P = (0, Ae' / v2 s)) ∧
    (ab = 33 → P = (c * Ae / (v1 s * v1 r), 0)) := by
  have hc := d.c_ne
  have g1 := d.good1 ho
  have g2 := d.good2 ho
  have hs2 := d.inClosed2 hs
  have hr2 := d.inClosed2 hr
  obtain ⟨⟨Aof, Bof, Aoh, Boh, fo, fho, rfl, rfl⟩, ⟨Aef, Bef, Aeh, Beh, fe, fhe, rfl, rfl⟩⟩ := R1
  obtain ⟨⟨Aof', Bof', Aoh', Boh', fo', fho', rfl, rfl⟩,
    ⟨Aef', Bef', Aeh', Beh', fe', fhe', rfl, rfl⟩⟩ := R2
  have esh := (d.pas1 s hs.1 hs.2.1).e_ne
  have erh := (d.pas1 r hr.1 hr.2.1).e_ne
  have esh2 := (d.pas2 s hs2.1 hs2.2.1).e_ne
  have erh2 := (d.pas2 r hr2.1 hr2.2.1).e_ne
  have gs := (g1.lay s hs.1 hs.2.1).gam_ne
  have gr := (g1.lay r hr.1 hr.2.1).gam_ne
  have gs2 := (g2.lay s hs2.1 hs2.2.1).gam_ne
  have gr2 := (g2.lay r hr2.1 hr2.2.1).gam_ne
  have vs := d.v1_ne s hs.1 hs.2.1
  have vr := d.v1_ne r hr.1 hr.2.1
  have vs2 := d.v2_ne s hs.1 hs.2.1
  have vr2 := d.v2_ne r hr.1 hr.2.1
  have T2 : ∀ xd, green o M1.n (depthOf M1.D) (fun i => c * M2.e i)
      (fun i => gam o (c * M2.e i) (c * v2 i) (c * M1.e i) lam) r s zr zs ab xd false =
      green o M2.n (depthOf M2.D) (fun i => c * M2.e i)
      (fun i => gam o (c * M2.e i) (c * v2 i) (c * M1.e i) lam) r s zr zs ab xd false := by
    intro xd; rw [d.n_eq, d.D_eq]
  have cc := d.csq
  have cinv : c⁻¹ = c := by field_simp; rw [pow_two, cc]
  unfold core greenfct
  simp only [Bool.and_false, Bool.false_eq_true, if_false, Bool.false_and]
  simp only [T2]
  refine ⟨?_, ?_, ?_, ?_, ?_, ?_, ?_⟩
  · intro hab
    rw [if_pos hab]
    have hp1 : pmC ab true = -1 := by
      simp only [List.mem_cons, List.not_mem_nil, or_false] at hab
      rcases hab with h | h | h | h <;> subst h <;> simp [pmC, plusset]
    have hp2 : pmC ab false = 1 := by
      simp only [List.mem_cons, List.not_mem_nil, or_false] at hab
      rcases hab with h | h | h | h <;> subst h <;> simp [pmC, plusset]
    have hb1 : isB ab true = true := by
      simp only [List.mem_cons, List.not_mem_nil, or_false] at hab
      rcases hab with h | h | h | h <;> subst h <;> simp [isB, bset]
    have hb2 : isB ab false = false := by simp [isB]
    rw [green_odd g1 ho hc hs hr hsr (signOK_TM (by
        simp only [List.mem_cons, List.not_mem_nil, or_false] at hab ⊢; omega)) hp1 fo fho,
      green_even g2 ho hc hs2 hr2 hsr (signOK_TE (by
        simp only [List.mem_cons, List.not_mem_nil, or_false] at hab ⊢; omega)) hp2 fe' fhe',
      hb1, hb2, ho.div _ _ (mul_ne_zero hc erh), ho.div _ _ gs2]
    simp only [if_true, Bool.false_eq_true, if_false]
    ext1
    · simp only [Yl]
      field_simp
      simp only [pow_two, cc, mul_one, one_mul]
    · simp only [Yl]
      field_simp
  · intro hab
    have n1 : ab ∉ [11, 12, 21, 22] := by
      simp only [List.mem_cons, List.not_mem_nil, or_false] at hab ⊢; omega
    rw [if_neg n1, if_pos hab]
    have hp1 : pmC ab true = 1 := by
      simp only [List.mem_cons, List.not_mem_nil, or_false] at hab
      rcases hab with h | h | h | h <;> subst h <;> simp [pmC, plusset]
    have hp2 : pmC ab false = -1 := by
      simp only [List.mem_cons, List.not_mem_nil, or_false] at hab
      rcases hab with h | h | h | h <;> subst h <;> simp [pmC, plusset]
    have hb1 : isB ab true = true := by
      simp only [List.mem_cons, List.not_mem_nil, or_false] at hab
      rcases hab with h | h | h | h <;> subst h <;> simp [isB, bset]
    have hb2 : isB ab false = false := by simp [isB]
    rw [green_even g1 ho hc hs hr hsr (signOK_TM (by
        simp only [List.mem_cons, List.not_mem_nil, or_false] at hab ⊢; omega)) hp1 fe fhe,
      green_odd g2 ho hc hs2 hr2 hsr (signOK_TE (by
        simp only [List.mem_cons, List.not_mem_nil, or_false] at hab ⊢; omega)) hp2 fo' fho',
      hb1, hb2, ho.div _ _ (mul_ne_zero hc erh), ho.div _ _ gs]
    simp only [if_true, Bool.false_eq_true, if_false]
    ext1
    · simp only [Yl]
      field_simp
    · rfl
  · intro hab
    have n1 : ab ∉ [11, 12, 21, 22] := by
      simp only [List.mem_cons, List.not_mem_nil, or_false] at hab ⊢; omega
    have n2 : ab ∉ [14, 15, 24, 25] := by
      simp only [List.mem_cons, List.not_mem_nil, or_false] at hab ⊢; omega
    rw [if_neg n1, if_neg n2, if_pos hab]
    have hp1 : pmC ab true = 1 := by
      simp only [List.mem_cons, List.not_mem_nil, or_false] at hab
      rcases hab with h | h <;> subst h <;> simp [pmC, plusset]
    have hb1 : isB ab true = true := by
      simp only [List.mem_cons, List.not_mem_nil, or_false] at hab
      rcases hab with h | h <;> subst h <;> simp [isB, bset]
    rw [green_even g1 ho hc hs hr hsr (signOK_TM (by
        simp only [List.mem_cons, List.not_mem_nil, or_false] at hab ⊢; omega)) hp1 fe fhe,
      hb1, ho.div _ _ (mul_ne_zero hc erh), ho.div _ _ (mul_ne_zero hc vs), ho.div _ _ gs]
    simp only [if_true]
    ext1
    · simp only [Yl]
      field_simp
      simp only [pow_two, cc, mul_one, one_mul]
    · rfl
  · intro hab
    have n1 : ab ∉ [11, 12, 21, 22] := by
      simp only [List.mem_cons, List.not_mem_nil, or_false] at hab ⊢; omega
    have n2 : ab ∉ [14, 15, 24, 25] := by
      simp only [List.mem_cons, List.not_mem_nil, or_false] at hab ⊢; omega
    have n3 : ab ∉ [13, 23] := by
      simp only [List.mem_cons, List.not_mem_nil, or_false] at hab ⊢; omega
    rw [if_neg n1, if_neg n2, if_neg n3, if_pos hab]
    have hp1 : pmC ab true = -1 := by
      simp only [List.mem_cons, List.not_mem_nil, or_false] at hab
      rcases hab with h | h <;> subst h <;> simp [pmC, plusset]
    have hb1 : isB ab true = false := by
      simp only [List.mem_cons, List.not_mem_nil, or_false] at hab
      rcases hab with h | h <;> subst h <;> simp [isB, bset]
    rw [green_odd g1 ho hc hs hr hsr (signOK_TM (by
        simp only [List.mem_cons, List.not_mem_nil, or_false] at hab ⊢; omega)) hp1 fo fho,
      hb1, ho.div _ _ (mul_ne_zero hc vr)]
    simp only [Bool.false_eq_true, if_false]
    ext1
    · simp only
      field_simp
      simp only [pow_two, cc, mul_one, one_mul]
    · rfl
  · intro hab
    have n1 : ab ∉ [11, 12, 21, 22] := by
      simp only [List.mem_cons, List.not_mem_nil, or_false] at hab ⊢; omega
    have n2 : ab ∉ [14, 15, 24, 25] := by
      simp only [List.mem_cons, List.not_mem_nil, or_false] at hab ⊢; omega
    have n3 : ab ∉ [13, 23] := by
      simp only [List.mem_cons, List.not_mem_nil, or_false] at hab ⊢; omega
    have n4 : ab ∉ [31, 32] := by
      simp only [List.mem_cons, List.not_mem_nil, or_false] at hab ⊢; omega
    rw [if_neg n1, if_neg n2, if_neg n3, if_neg n4, if_pos hab]
    have hp1 : pmC ab true = 1 := by
      simp only [List.mem_cons, List.not_mem_nil, or_false] at hab
      rcases hab with h | h <;> subst h <;> simp [pmC, plusset]
    have hb1 : isB ab true = false := by
      simp only [List.mem_cons, List.not_mem_nil, or_false] at hab
      rcases hab with h | h <;> subst h <;> simp [isB, bset]
    rw [green_even g1 ho hc hs hr hsr (signOK_TM (by
        simp only [List.mem_cons, List.not_mem_nil, or_false] at hab ⊢; omega)) hp1 fe fhe,
      hb1, ho.div _ _ (mul_ne_zero hc vr), ho.div _ _ gs]
    simp only [Bool.false_eq_true, if_false]
    ext1
    · simp only [Yl]
      field_simp
    · rfl
  · intro hab
    have n1 : ab ∉ [11, 12, 21, 22] := by
      simp only [List.mem_cons, List.not_mem_nil, or_false] at hab ⊢; omega
    have n2 : ab ∉ [14, 15, 24, 25] := by
      simp only [List.mem_cons, List.not_mem_nil, or_false] at hab ⊢; omega
    have n3 : ab ∉ [13, 23] := by
      simp only [List.mem_cons, List.not_mem_nil, or_false] at hab ⊢; omega
    have n4 : ab ∉ [31, 32] := by
      simp only [List.mem_cons, List.not_mem_nil, or_false] at hab ⊢; omega
    have n5 : ab ∉ [34, 35] := by
      simp only [List.mem_cons, List.not_mem_nil, or_false] at hab ⊢; omega
    rw [if_neg n1, if_neg n2, if_neg n3, if_neg n4, if_neg n5, if_pos hab]
    have hp1 : pmC ab false = 1 := by
      simp only [List.mem_cons, List.not_mem_nil, or_false] at hab
      rcases hab with h | h <;> subst h <;> simp [pmC, plusset]
    have hb1 : isB ab false = false := by simp [isB]
    rw [green_even g2 ho hc hs2 hr2 hsr (signOK_TE (by
        simp only [List.mem_cons, List.not_mem_nil, or_false] at hab ⊢; omega)) hp1 fe' fhe',
      hb1, ho.div _ _ (mul_ne_zero hc vs2), ho.div _ _ gs2]
    simp only [Bool.false_eq_true, if_false]
    ext1
    · rfl
    · simp only [Yl]
      field_simp
  · intro hab
    subst hab
    have hp1 : pmC 33 true = 1 := by simp [pmC, plusset]
    have hb1 : isB 33 true = false := by simp [isB, bset]
    rw [if_neg (by simp), if_neg (by simp), if_neg (by simp), if_neg (by simp), if_neg (by simp),
      if_neg (by simp), if_pos (by simp),
      green_even g1 ho hc hs hr hsr (signOK_TM (by simp)) hp1 fe fhe,
      hb1, ho.div _ _ (mul_ne_zero hc vs), ho.div _ _ (mul_ne_zero hc vr), ho.div _ _ gs]
    simp only [Bool.false_eq_true, if_false]
    ext1
    · simp only [Yl]
      field_simp
      simp only [pow_two, cc, mul_one, one_mul]
    · rfl

end

end Verif.Lemmas
