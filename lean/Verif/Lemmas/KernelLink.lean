import Verif.Lemmas.Exist

/-! Helper lemmas: the loops of the kernel model compute the amplitudes of the explicit field. -/

namespace Verif.Lemmas
open Verif.Spec Verif.Spec.Stack Verif.Kernel Complex

/-- Primitives that are correct where they are defined: division by non-zero numbers and
exponentials that cannot overflow.  Everything else (`x/0`, `exp` of growing arguments,
unassigned variables) is arbitrary. -/
structure Safe (o : Ops) : Prop where
  div : ∀ a b, b ≠ 0 → o.div a b = a / b
  exp : ∀ z : ℂ, z.re ≤ 0 → o.exp z = Complex.exp z

theorem safe_exact : Safe Ops.exact := ⟨fun _ _ _ => rfl, fun _ _ => rfl⟩

/-- the depth vector of the code: `-inf` followed by the interfaces -/
noncomputable def depthOf (D : ℤ → ℝ) (i : ℤ) : EReal := if i = 0 then ⊥ else (D i : EReal)

theorem xexp_real {o : Ops} (ho : Safe o) {c : ℂ} {d : ℝ} (hc : 0 ≤ c.re) (hd : 0 ≤ d) :
    xexp o c (d : EReal) = Complex.exp (-c * (d : ℂ)) := by
  unfold xexp
  rw [if_neg (EReal.coe_ne_top d), if_neg (EReal.coe_ne_bot d), EReal.toReal_coe]
  apply ho.exp
  rw [Complex.mul_re, Complex.neg_re, Complex.ofReal_re, Complex.ofReal_im, mul_zero, sub_zero]
  have := mul_nonneg hc hd
  linarith

theorem depthOf_sub (D : ℤ → ℝ) {i j : ℤ} (hi : i ≠ 0) (hj : j ≠ 0) :
    depthOf D i - depthOf D j = ((D i - D j : ℝ) : EReal) := by
  simp [depthOf, hi, hj]

theorem depthOf_sub_real (D : ℤ → ℝ) {i : ℤ} (z : ℝ) (hi : i ≠ 0) :
    depthOf D i - (z : EReal) = ((D i - z : ℝ) : EReal) := by
  simp [depthOf, hi]

theorem real_sub_depthOf (D : ℤ → ℝ) {i : ℤ} (z : ℝ) (hi : i ≠ 0) :
    (z : EReal) - depthOf D i = ((z - D i : ℝ) : EReal) := by
  simp [depthOf, hi]

variable {M : Stack} {G : ℤ → ℂ} {o : Ops}

theorem Good.re_nonneg (h : Good M G) {i : ℤ} (h0 : 0 ≤ i) (h1 : i < M.n) : 0 ≤ (G i).re :=
  (h.lay i h0 h1).re.le

theorem two_mul_re (c : ℂ) (h : 0 ≤ c.re) : 0 ≤ (2 * c).re := by
  rw [Complex.mul_re]; norm_num; exact h

/-- thickness exponentials -/
theorem Good.xexp_E1 (h : Good M G) (ho : Safe o) {i : ℤ} (h0 : 1 ≤ i) (h1 : i + 1 < M.n) :
    xexp o (G i) (depthOf M.D (i + 1) - depthOf M.D i) = E1 M G i := by
  rw [depthOf_sub _ (by omega) (by omega), xexp_real ho (h.re_nonneg (by omega) (by omega))
    (sub_nonneg.2 (h.ord.mono i h0 h1))]
  rfl

theorem Good.xexp_E2 (h : Good M G) (ho : Safe o) {i : ℤ} (h0 : 1 ≤ i) (h1 : i + 1 < M.n) :
    xexp o (2 * G i) (depthOf M.D (i + 1) - depthOf M.D i) = E2 M G i := by
  rw [depthOf_sub _ (by omega) (by omega),
    xexp_real ho (two_mul_re _ (h.re_nonneg (by omega) (by omega)))
    (sub_nonneg.2 (h.ord.mono i h0 h1))]
  rfl

/-- local reflection coefficient of the code -/
theorem Good.rloc (h : Good M G) (ho : Safe o) {c : ℂ} (hc : c ≠ 0) {i j : ℤ}
    (hi0 : 0 ≤ i) (hi1 : i < M.n) (hj0 : 0 ≤ j) (hj1 : j < M.n) :
    o.div (c * M.e j * G i - c * M.e i * G j) (c * M.e j * G i + c * M.e i * G j) =
      (Yl M G i - Yl M G j) / (Yl M G i + Yl M G j) := by
  have hei := (h.lay i hi0 hi1).pas.e_ne
  have hej := (h.lay j hj0 hj1).pas.e_ne
  have hs : Yl M G i + Yl M G j ≠ 0 := by
    intro hh
    have a := h.Y_re hi0 hi1
    have b := h.Y_re hj0 hj1
    have := congrArg Complex.re hh
    rw [Complex.add_re] at this
    simp only [Complex.zero_re] at this
    linarith
  have hden : c * M.e j * G i + c * M.e i * G j = c * M.e i * M.e j * (Yl M G i + Yl M G j) := by
    unfold Yl; field_simp
  have hnum : c * M.e j * G i - c * M.e i * G j = c * M.e i * M.e j * (Yl M G i - Yl M G j) := by
    unfold Yl; field_simp
  have hne : c * M.e j * G i + c * M.e i * G j ≠ 0 := by
    rw [hden]; exact mul_ne_zero (mul_ne_zero (mul_ne_zero hc hei) hej) hs
  rw [ho.div _ _ hne, hden, hnum, mul_div_mul_left]
  exact mul_ne_zero (mul_ne_zero hc hei) hej

/-- the value of `tRef` after one pass of the loop -/
noncomputable def tstep (o : Ops) (depth : ℤ → EReal) (e_zH Gam : ℤ → ℂ) (pm first iz : ℤ)
    (t : ℂ) : ℂ :=
  let rloca := e_zH (iz + pm) * Gam iz
  let rlocb := e_zH iz * Gam (iz + pm)
  let rloc := o.div (rloca - rlocb) (rloca + rlocb)
  if iz = first then rloc
  else
    let ddepth := depth (iz + 1 + pm) - depth (iz + pm)
    let term := t * xexp o (2 * Gam (iz + pm)) ddepth
    o.div (rloc + term) (1 + rloc * term)

theorem reflStep_eq (depth : ℤ → EReal) (e Gam : ℤ → ℂ) (lrec lsrc pm minmax first size : ℤ)
    (st : RState) (iz : ℤ) :
    reflStep o depth e Gam lrec lsrc pm minmax first size st iz =
      if lrec ≠ lsrc ∧ pm * iz ≤ minmax then
        ⟨tstep o depth e Gam pm first iz st.tRef,
          setAt size st.Ref st.izout (tstep o depth e Gam pm first iz st.tRef), st.izout - pm⟩
      else ⟨tstep o depth e Gam pm first iz st.tRef, st.Ref, st.izout⟩ := rfl

theorem Good.tstep_dn (h : Good M G) (ho : Safe o) {c : ℂ} (hc : c ≠ 0) {iz : ℤ} (h0 : 0 ≤ iz)
    (h1 : iz ≤ M.n - 2) {t : ℂ} (ht : iz ≠ M.n - 2 → t = Rdn M G (iz + 1)) :
    tstep o (depthOf M.D) (fun i => c * M.e i) G 1 (M.n - 2) iz t = Rdn M G iz := by
  have hr := h.rloc ho hc (i := iz) (j := iz + 1) h0 (by omega) (by omega) (by omega)
  unfold tstep
  simp only [hr]
  by_cases hf : iz = M.n - 2
  · rw [if_pos hf, Rdn_step M G (by omega)]
    have : Rdn M G (iz + 1) = 0 := by rw [show iz + 1 = M.n - 1 by omega]; exact Rdn_last M G
    simp [rstep, this]
  · rw [if_neg hf, ht hf, show iz + 1 + 1 = (iz + 1) + 1 by ring, h.xexp_E2 ho (by omega) (by omega),
      Rdn_step M G (i := iz) (by omega)]
    have hc := Adm.cross (h.Y_re h0 (by omega)) (h.Y_re (i := iz + 1) (by omega) (by omega))
      ((h.adm_dn (i := iz + 1) (by omega) (by omega)).2 (by omega))
    rw [ho.div _ _ hc.2.1]
    rfl

theorem Good.tstep_up (h : Good M G) (ho : Safe o) {c : ℂ} (hc : c ≠ 0) {iz : ℤ} (h0 : 1 ≤ iz)
    (h1 : iz ≤ M.n - 1) {t : ℂ} (ht : iz ≠ 1 → t = Rup M G (iz - 1)) :
    tstep o (depthOf M.D) (fun i => c * M.e i) G (-1) 1 iz t = Rup M G iz := by
  have hr := h.rloc ho hc (i := iz) (j := iz - 1) (by omega) (by omega) (by omega) (by omega)
  unfold tstep
  rw [← sub_eq_add_neg]
  simp only [hr]
  by_cases hf : iz = 1
  · rw [if_pos hf, Rup_step M G (by omega)]
    have : Rup M G (iz - 1) = 0 := by rw [show iz - 1 = 0 by omega]; exact Rup_first M G
    simp [rstep, this]
  · have e := h.xexp_E2 (i := iz - 1) ho (by omega) (by omega)
    rw [if_neg hf, ht hf, show iz + 1 + -1 = (iz - 1) + 1 by ring, e,
      Rup_step M G (i := iz) (by omega)]
    have hc := Adm.cross (h.Y_re (i := iz) (by omega) (by omega))
      (h.Y_re (i := iz - 1) (by omega) (by omega))
      ((h.adm_up (i := iz - 1) (by omega) (by omega)).2 (by omega))
    rw [ho.div _ _ hc.2.1]
    rfl

theorem arangeDown_ne {a b : ℤ} (h : b < a) : arangeDown a b ≠ [] ∧ (arangeDown a b).headD 0 = a := by
  unfold arangeDown
  obtain ⟨k, hk⟩ : ∃ k : ℕ, (a - b).toNat = k + 1 := ⟨(a - b).toNat - 1, by omega⟩
  rw [hk, List.range_succ_eq_map]
  simp

theorem arangeDown_nil {a b : ℤ} (h : a ≤ b) : arangeDown a b = [] := by
  unfold arangeDown
  have : (a - b).toNat = 0 := by omega
  rw [this]; rfl

theorem arangeUp_ne {a b : ℤ} (h : a < b) : arangeUp a b ≠ [] ∧ (arangeUp a b).headD 0 = a := by
  unfold arangeUp
  obtain ⟨k, hk⟩ : ∃ k : ℕ, (b - a).toNat = k + 1 := ⟨(b - a).toNat - 1, by omega⟩
  rw [hk, List.range_succ_eq_map]
  simp

theorem arangeUp_nil {a b : ℤ} (h : b ≤ a) : arangeUp a b = [] := by
  unfold arangeUp
  have : (b - a).toNat = 0 := by omega
  rw [this]; rfl

section folds
variable (h : Good M G) (ho : Safe o) {c : ℂ} (hc : c ≠ 0)
include h ho hc

/-- invariant of the downward loop: `tRef` -/
theorem fold_dn_tRef (lrec lsrc minmax size : ℤ) (st : RState) (k : ℕ) (hk : (k : ℤ) ≤ M.n - 1)
    (hk1 : 1 ≤ k) :
    (((List.range k).map fun m : ℕ => (M.n - 2) - (m : ℤ)).foldl
      (reflStep o (depthOf M.D) (fun i => c * M.e i) G lrec lsrc 1 minmax (M.n - 2) size)
      st).tRef = Rdn M G (M.n - 1 - k) := by
  induction k with
  | zero => omega
  | succ k ih =>
    rw [List.range_succ, List.map_append, List.foldl_append]
    simp only [List.map_cons, List.map_nil, List.foldl_cons, List.foldl_nil, reflStep_eq]
    push_cast at *
    have e : M.n - 1 - ((k : ℤ) + 1) = M.n - 2 - k := by ring
    rw [e]
    have := h.tstep_dn ho hc (iz := M.n - 2 - k) (by omega) (by omega)
      (t := (((List.range k).map fun m : ℕ => (M.n - 2) - (m : ℤ)).foldl
      (reflStep o (depthOf M.D) (fun i => c * M.e i) G lrec lsrc 1 minmax (M.n - 2) size)
      st).tRef) (by
        intro hne
        rw [ih (by omega) (by omega)]; congr 1; ring)
    split <;> simpa using this

theorem fold_up_tRef (lrec lsrc minmax size : ℤ) (st : RState) (k : ℕ) (hk : (k : ℤ) ≤ M.n - 1)
    (hk1 : 1 ≤ k) :
    (((List.range k).map fun m : ℕ => (1 : ℤ) + (m : ℤ)).foldl
      (reflStep o (depthOf M.D) (fun i => c * M.e i) G lrec lsrc (-1) minmax 1 size)
      st).tRef = Rup M G k := by
  induction k with
  | zero => omega
  | succ k ih =>
    rw [List.range_succ, List.map_append, List.foldl_append]
    simp only [List.map_cons, List.map_nil, List.foldl_cons, List.foldl_nil, reflStep_eq]
    push_cast at *
    have := h.tstep_up ho hc (iz := 1 + k) (by omega) (by omega)
      (t := (((List.range k).map fun m : ℕ => (1 : ℤ) + (m : ℤ)).foldl
      (reflStep o (depthOf M.D) (fun i => c * M.e i) G lrec lsrc (-1) minmax 1 size)
      st).tRef) (by
        intro hne
        rw [ih (by omega) (by omega)]; congr 1; ring)
    rw [show (k : ℤ) + 1 = 1 + k by ring]
    split <;> simpa using this

/-- invariant of the downward loop: stored values, aligned case -/
theorem fold_dn_Ref {lrec lsrc minl maxl size : ℤ} (hne : lrec ≠ lsrc) (st : RState)
    (hst : st.Ref = fun _ => 0) (hiz : st.izout = min (M.n - 1) (maxl + 1) - 1 - minl)
    (k : ℕ) (hk : (k : ℤ) ≤ M.n - 1 - minl) (hmin : 0 ≤ minl) :
    let st' := ((List.range k).map fun m : ℕ => (M.n - 2) - (m : ℤ)).foldl
      (reflStep o (depthOf M.D) (fun i => c * M.e i) G lrec lsrc 1 (1 * maxl) (M.n - 2) size) st
    st'.izout = min (M.n - 1 - k) (maxl + 1) - 1 - minl ∧
    ∀ j, st'.Ref (j - minl) = if M.n - 1 - k ≤ j ∧ j ≤ maxl ∧ j ≤ M.n - 1 then Rdn M G j else 0 := by
  induction k with
  | zero =>
    simp only [List.range_zero, List.map_nil, List.foldl_nil, hst, hiz]
    refine ⟨by simp, fun j => ?_⟩
    split
    · rename_i hj
      have : j = M.n - 1 := by push_cast at hj; omega
      rw [this, Rdn_last]
    · rfl
  | succ k ih =>
    have ht := fold_dn_tRef h ho hc lrec lsrc (1 * maxl) size st (k + 1)
      (by push_cast at *; omega) (by omega)
    obtain ⟨ih1, ih2⟩ := ih (by push_cast at *; omega)
    simp only at ih1 ih2 ⊢
    rw [List.range_succ, List.map_append, List.foldl_append] at ht ⊢
    simp only [List.map_cons, List.map_nil, List.foldl_cons, List.foldl_nil, reflStep_eq] at ht ⊢
    set st' := ((List.range k).map fun m : ℕ => (M.n - 2) - (m : ℤ)).foldl
      (reflStep o (depthOf M.D) (fun i => c * M.e i) G lrec lsrc 1 (1 * maxl) (M.n - 2) size) st
    have ht' : tstep o (depthOf M.D) (fun i => c * M.e i) G 1 (M.n - 2) (M.n - 2 - k) st'.tRef =
        Rdn M G (M.n - 1 - (k + 1 : ℕ)) := by
      revert ht; split <;> exact id
    by_cases hcond : M.n - 2 - (k : ℤ) ≤ maxl
    · rw [if_pos ⟨hne, by rw [one_mul, one_mul]; exact hcond⟩]
      simp only [ht']
      have hidx : st'.izout = M.n - 2 - k - minl := by rw [ih1]; omega
      have hnn : ¬ st'.izout < 0 := by rw [hidx]; push_cast at hk; omega
      refine ⟨by rw [hidx]; push_cast; omega, fun j => ?_⟩
      simp only [setAt, hnn, if_false]
      by_cases hj : j = M.n - 2 - k
      · rw [hj, hidx, Function.update_self, if_pos]
        · congr 1; push_cast; ring
        · push_cast; omega
      · rw [Function.update_of_ne (by rw [hidx]; omega), ih2]
        apply if_congr _ rfl rfl
        push_cast
        omega
    · rw [if_neg (by rw [one_mul, one_mul]; exact fun hh => hcond hh.2)]
      refine ⟨by rw [ih1]; push_cast; omega, fun j => ?_⟩
      simp only [ih2]
      apply if_congr _ rfl rfl
      push_cast
      omega

/-- invariant of the upward loop: stored values, aligned case -/
theorem fold_up_Ref {lrec lsrc minl size : ℤ} (hne : lrec ≠ lsrc) (st : RState)
    (hst : st.Ref = fun _ => 0) (hiz : st.izout = max 1 minl - minl)
    (k : ℕ) (hk : (k : ℤ) ≤ M.n - 1) (hmin : 0 ≤ minl) :
    let st' := ((List.range k).map fun m : ℕ => (1 : ℤ) + (m : ℤ)).foldl
      (reflStep o (depthOf M.D) (fun i => c * M.e i) G lrec lsrc (-1) (-1 * minl) 1 size) st
    st'.izout = max ((k : ℤ) + 1) minl - minl ∧
    ∀ j, st'.Ref (j - minl) = if 0 ≤ j ∧ minl ≤ j ∧ j ≤ k then Rup M G j else 0 := by
  induction k with
  | zero =>
    simp only [List.range_zero, List.map_nil, List.foldl_nil, hst, hiz]
    refine ⟨by simp, fun j => ?_⟩
    split
    · rename_i hj
      have : j = 0 := by push_cast at hj; omega
      rw [this, Rup_first]
    · rfl
  | succ k ih =>
    have ht := fold_up_tRef h ho hc lrec lsrc (-1 * minl) size st (k + 1)
      (by push_cast at *; omega) (by omega)
    obtain ⟨ih1, ih2⟩ := ih (by push_cast at *; omega)
    simp only at ih1 ih2 ⊢
    rw [List.range_succ, List.map_append, List.foldl_append] at ht ⊢
    simp only [List.map_cons, List.map_nil, List.foldl_cons, List.foldl_nil, reflStep_eq] at ht ⊢
    set st' := ((List.range k).map fun m : ℕ => (1 : ℤ) + (m : ℤ)).foldl
      (reflStep o (depthOf M.D) (fun i => c * M.e i) G lrec lsrc (-1) (-1 * minl) 1 size) st
    have ht' : tstep o (depthOf M.D) (fun i => c * M.e i) G (-1) 1 (1 + k) st'.tRef =
        Rup M G ((k + 1 : ℕ) : ℤ) := by
      revert ht; split <;> exact id
    by_cases hcond : minl ≤ 1 + (k : ℤ)
    · rw [if_pos ⟨hne, by omega⟩]
      simp only [ht']
      have hidx : st'.izout = 1 + k - minl := by rw [ih1]; omega
      have hnn : ¬ st'.izout < 0 := by rw [hidx]; omega
      refine ⟨by rw [hidx]; push_cast; omega, fun j => ?_⟩
      simp only [setAt, hnn, if_false]
      by_cases hj : j = 1 + k
      · rw [hj, hidx, Function.update_self, if_pos]
        · congr 1; push_cast; ring
        · push_cast; omega
      · rw [Function.update_of_ne (by rw [hidx]; omega), ih2]
        apply if_congr _ rfl rfl
        push_cast
        omega
    · rw [if_neg (by intro hh; apply hcond; have := hh.2; omega)]
      refine ⟨by rw [ih1]; push_cast; omega, fun j => ?_⟩
      simp only [ih2]
      apply if_congr _ rfl rfl
      push_cast
      omega

/-- `Rp` of the code, for all layers between source and receiver. -/
theorem refl_plus {lrec lsrc : ℤ} (hr0 : 0 ≤ lrec) (hr1 : lrec < M.n) (hs0 : 0 ≤ lsrc)
    (hs1 : lsrc < M.n) (hal : ¬ (lsrc = M.n - 1 ∧ lrec < lsrc)) {j : ℤ}
    (hj0 : min lrec lsrc ≤ j) (hj1 : j ≤ max lrec lsrc) :
    reflections o M.n (depthOf M.D) (fun i => c * M.e i) G lrec lsrc true (j - min lrec lsrc) =
      Rdn M G j := by
  unfold reflections
  simp only [if_true, Bool.true_eq_false, and_false, false_or, and_true]
  by_cases hne : lrec = lsrc
  · subst hne
    have hj : j = lrec := by omega
    subst hj
    simp only [min_self, max_self, true_and]
    by_cases hlast : j = M.n - 1
    · rw [arangeDown_nil (by omega)]
      simp [hlast, Rdn_last]
    · obtain ⟨h1, h2⟩ := arangeDown_ne (a := M.n - 2) (b := j - 1) (by omega)
      simp only [h1, not_false_eq_true, ne_eq, if_true, h2]
      have := fold_dn_tRef h ho hc j j (1 * j) (j - j + 1)
        ⟨o.div 0 0, fun _ => 0, if j > j ∧ j = M.n - 1 then |j - j| - 1 else |j - j|⟩
        (M.n - 2 - (j - 1)).toNat (by omega) (by omega)
      unfold arangeDown
      rw [this]
      simp only [setAt, sub_self]
      simp only [lt_irrefl, if_false, Function.update_self]
      congr 1; omega
  · have hne' : ¬ (lsrc = lrec) := fun hh => hne hh.symm
    simp only [hne', false_and, if_false]
    by_cases hempty : M.n - 2 < min lrec lsrc
    · omega
    · obtain ⟨h1, h2⟩ := arangeDown_ne (a := M.n - 2) (b := min lrec lsrc - 1) (by omega)
      rw [h2]
      have habs : |lsrc - lrec| = max lrec lsrc - min lrec lsrc := by
        rcases le_total lrec lsrc with hh | hh
        · rw [abs_of_nonneg (by omega), max_eq_right hh, min_eq_left hh]
        · rw [abs_of_nonpos (by omega), max_eq_left hh, min_eq_right hh]; ring
      rw [habs]
      have key := (fold_dn_Ref h ho hc (lrec := lrec) (lsrc := lsrc) (minl := min lrec lsrc)
        (maxl := max lrec lsrc) (size := max lrec lsrc - min lrec lsrc + 1) hne
        ⟨o.div 0 0, fun _ => 0, if lrec > lsrc ∧ lrec = M.n - 1 then
          max lrec lsrc - min lrec lsrc - 1 else max lrec lsrc - min lrec lsrc⟩ rfl
        (by simp only; split <;> omega) (M.n - 2 - (min lrec lsrc - 1)).toNat (by omega) (by omega)).2 j
      unfold arangeDown
      rw [key, if_pos (by omega)]

/-- `Rm` of the code, for all layers between source and receiver. -/
theorem refl_minus {lrec lsrc : ℤ} (hr0 : 0 ≤ lrec) (hr1 : lrec < M.n) (hs0 : 0 ≤ lsrc)
    (hs1 : lsrc < M.n) (hal : ¬ (lsrc = 0 ∧ lrec > lsrc)) {j : ℤ}
    (hj0 : min lrec lsrc ≤ j) (hj1 : j ≤ max lrec lsrc) :
    reflections o M.n (depthOf M.D) (fun i => c * M.e i) G lrec lsrc false (j - min lrec lsrc) =
      Rup M G j := by
  unfold reflections
  simp only [Bool.false_eq_true, if_false, and_false, or_false, and_true]
  by_cases hne : lrec = lsrc
  · subst hne
    have hj : j = lrec := by omega
    subst hj
    simp only [min_self, max_self, true_and]
    by_cases hlast : j = 0
    · rw [arangeUp_nil (by omega)]
      simp [hlast, Rup_first]
    · obtain ⟨h1, h2⟩ := arangeUp_ne (a := 1) (b := j + 1) (by omega)
      simp only [h1, not_false_eq_true, ne_eq, if_true, h2]
      have := fold_up_tRef h ho hc j j (-1 * j) (j - j + 1)
        ⟨o.div 0 0, fun _ => 0, if j < j ∧ j = 0 then 0 - -1 else 0⟩
        (j + 1 - 1).toNat (by omega) (by omega)
      unfold arangeUp
      rw [this]
      simp only [setAt, sub_self]
      simp only [lt_irrefl, if_false, Function.update_self]
      congr 1; omega
  · have hne' : ¬ (lsrc = lrec) := fun hh => hne hh.symm
    simp only [hne', false_and, if_false]
    obtain ⟨h1, h2⟩ := arangeUp_ne (a := 1) (b := max lrec lsrc + 1) (by omega)
    rw [h2]
    have key := (fold_up_Ref h ho hc (lrec := lrec) (lsrc := lsrc) (minl := min lrec lsrc)
      (size := max lrec lsrc - min lrec lsrc + 1) hne
      ⟨o.div 0 0, fun _ => 0, if lrec < lsrc ∧ lrec = 0 then 0 - -1 else 0⟩ rfl
      (by simp only; split <;> omega) (max lrec lsrc + 1 - 1).toNat (by omega) (by omega)).2 j
    unfold arangeUp
    rw [key, if_pos (by omega)]

end folds

end Verif.Lemmas
