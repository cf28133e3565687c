import Verif.Model.Tmtemod
import Verif.Lemmas.Ring36
import Verif.Props.C18_Dlf
import Verif.Props.C01_Maxwell
import Verif.Spec.Moves
import Verif.Lemmas.Laplace

/-!
# C40 — the contributions of the TM/TE add-on sum to the response of the dipole routine
-/

namespace Verif.Props
open Verif.Spec Verif.Kernel Verif.Lemmas Verif.Model Verif.Transform Verif.Tmtemod

/-! ## Specification -/

/-- The sum of the ten contributions. -/
noncomputable def sumTen (P : Five ℂ × Five ℂ) : ℂ :=
  P.1.uu + P.1.ud + P.1.du + P.1.dd + P.1.df + (P.2.uu + P.2.ud + P.2.du + P.2.dd + P.2.df)

/-- The kernels of the dipole routine (x-directed electric source and receiver) as functions of wavenumber. -/
noncomputable def kernels11 (o : Ops) (zs zr : ℝ) (s r : ℤ) (xd : Bool) (M : Medium) : KernelFn :=
  let W := fun lam => wavenumber o (earthOf M) zs zr s r lam 11 xd false false
  (some fun lam => (W lam).1.getD 0, some fun lam => (W lam).2.1.getD 0, some fun lam => (W lam).2.2.getD 0)

/-- What the Hankel transform of the dipole routine gets from the kernel. -/
theorem kernels11_eq (o : Ops) (zs zr : ℝ) (s r : ℤ) (xd : Bool) (M : Medium) (lam : ℝ) :
    (kernels11 o zs zr s r xd M).at lam = wavenumber o (earthOf M) zs zr s r lam 11 xd false false := by
  simp [kernels11, KernelFn.at, wavenumber]

/-! ## Lemmas -/

variable {M : Medium} {o : Ops} {s : ℤ} {zs zr : ℝ}

/-- The five contributions of one mode, added. -/
noncomputable def sumFive (P : Five ℂ) : ℂ := P.uu + P.ud + P.du + P.dd + P.df

theorem pass_up {S : Stack} {G : ℤ → ℂ} (h : Good S G) (ho : Safe o) {Rp Rm : ℤ → ℂ} (TM : Bool)
    (hs : S.InClosed s zs) (hRp : Rp 0 = Rdn S G s) (hRm : Rm 0 = Rup S G s) :
    let P := fieldsPass o S.n (depthOf S.D) Rp Rm G s s zs TM true
    P.1 + P.2 = fields o S.n (depthOf S.D) Rp Rm G s s zs 11 TM true := by
  have hp := h.p3_ne hs.1 (by have := hs.2.1; omega)
  unfold fieldsPass fields
  by_cases hl : s = S.n - 1
  · simp [hl]
  · simp only [gt_iff_lt, lt_irrefl, or_false, hl, and_false, if_false, if_true,
      Bool.true_eq_false, false_and, ne_eq, not_false_eq_true]
    rw [hRp, hRm]
    by_cases h0 : s = 0
    · rw [if_pos h0, if_pos h0]; simp
    · rw [if_neg h0, if_neg h0, h.xexp_xp ho hs hl, h.xexp_E1xm ho hs h0 hl,
        h.xexp_E2 ho (by have := hs.1; omega) (by have := hs.2.1; omega)]
      have hp' : 1 - Rdn S G s * Rup S G s * E2 S G s = p3 S G s := by unfold p3; ring
      rw [hp', ho.div _ _ hp, ho.div _ _ hp]
      cases TM <;> simp [plusset] <;> ring

theorem pass_dn {S : Stack} {G : ℤ → ℂ} (h : Good S G) (ho : Safe o) {Rp Rm : ℤ → ℂ} (TM : Bool)
    (hs : S.InClosed s zs) (hRp : Rp 0 = Rdn S G s) (hRm : Rm 0 = Rup S G s) :
    let P := fieldsPass o S.n (depthOf S.D) Rp Rm G s s zs TM false
    P.1 + P.2 = fields o S.n (depthOf S.D) Rp Rm G s s zs 11 TM false := by
  have hp := h.p3_ne hs.1 (by have := hs.2.1; omega)
  unfold fieldsPass fields
  by_cases h0 : s = 0
  · simp [h0]
  · simp only [gt_iff_lt, lt_irrefl, or_false, h0, and_false, if_false, if_true,
      Bool.false_eq_true, false_and, ne_eq]
    rw [hRp, hRm]
    by_cases hl : s = S.n - 1
    · rw [if_pos hl, if_pos hl]; simp
    · simp only [hl, if_false, not_false_eq_true, if_true]
      rw [h.xexp_xm ho hs h0, h.xexp_E1xp ho hs h0 hl,
        h.xexp_E2 ho (by have := hs.1; omega) (by have := hs.2.1; omega)]
      have hp' : 1 - Rup S G s * Rdn S G s * E2 S G s = p3 S G s := by unfold p3; ring
      rw [hp', ho.div _ _ hp, ho.div _ _ hp]
      cases TM <;> simp [plusset] <;> ring

theorem pass_sum {S : Stack} {G : ℤ → ℂ} (h : Good S G) (ho : Safe o) (TM : Bool) (hn : 1 < S.n)
    (hs : S.InClosed s zs) (eH zH : ℤ → ℂ) :
    sumFive (greenPass o S.n (depthOf S.D) S.e eH zH G s s zr zs TM) =
      green o S.n (depthOf S.D) S.e G s s zr zs 11 false TM *
        (if TM then o.div (G s) (eH s) else o.div (zH s) (G s)) := by
  have e1 : (fun i => (1 : ℂ) * S.e i) = S.e := funext fun i => one_mul _
  have hRp := refl_plus (c := 1) h ho one_ne_zero hs.1 hs.2.1 hs.1 hs.2.1 (by omega) (j := s) (by simp) (by simp)
  have hRm := refl_minus (c := 1) h ho one_ne_zero hs.1 hs.2.1 hs.1 hs.2.1 (by omega) (j := s) (by simp) (by simp)
  rw [min_self, sub_self, e1] at hRp hRm
  have hu := pass_up h ho TM hs hRp hRm
  have hd := pass_dn h ho TM hs hRp hRm
  dsimp only at hu hd
  unfold greenPass green
  simp only [if_true]
  rw [← hu, ← hd]
  have hn' : S.n > 1 := hn
  have h1 : ¬ (11 ∈ [13, 23, 31, 32, 14, 24, 15, 25]) := by decide
  have h2 : 11 ∈ [11, 12, 13, 14, 15, 21, 22, 23, 24, 25] := by decide
  have h3 : ¬ (11 ∈ [13, 14, 15, 23, 24, 25, 31, 32]) := by decide
  cases TM <;> simp only [sumFive, hn', h1, h2, h3, and_false, and_true, if_false, if_true, Bool.false_eq_true] <;> ring

/-- The five kernels of the add-on are a decomposition of the kernels of the dipole routine. -/
theorem five_sum (hM : M.OK) (ho : Safe o) (hn : 1 < M.n) (hs : M.InClosed s zs) (lam : ℝ) :
    (sumFive (Tmtemod.greenfct o (earthOf M) zs zr s s lam).1, sumFive (Tmtemod.greenfct o (earthOf M) zs zr s s lam).2)
      = Kernel.greenfct o (earthOf M) zs zr s s lam 11 false false false := by
  have g1 := (OK.dualEE hM lam).good1 ho
  have g2 := (OK.dualEE hM lam).good2 ho
  simp only [one_mul] at g1 g2
  have h1 := pass_sum (zr := zr) g1 ho true hn hs M.etaH M.zetaH
  have h2 := pass_sum (zr := zr) g2 ho false hn hs M.etaH M.zetaH
  simp only [if_true, Bool.false_eq_true, if_false] at h1 h2
  unfold Tmtemod.greenfct Kernel.greenfct
  simp only [Bool.and_self, Bool.false_eq_true, if_false, Bool.not_false, Bool.and_true, List.mem_cons, true_or, if_true]
  exact Prod.ext h1 h2

/-- The transforms of a sum. -/
theorem transform_add (F : Filter) (off ang half : ℝ) (f g : ℝ → ℂ) :
    transform F off ang half (fun l => f l + g l) = transform F off ang half f + transform F off ang half g := by
  simp only [transform, dot_eq]
  rw [← add_div]
  congr 1
  simp only [mul_add, add_mul, neg_add, Finset.sum_add_distrib, add_div]
  ring

/-- The contributions without corrections sum to the filter sum. -/
theorem transform_sum (hM : M.OK) (ho : Safe o) (hn : 1 < M.n) (hs : M.InClosed s zs) (F : Filter)
    (off ang : ℝ) :
    transform F off ang ((ang + 1) / 2)
        (fun lam => sumFive (Tmtemod.greenfct o (earthOf M) zs zr s s lam).1) +
      transform F off ang ((ang - 1) / 2)
        (fun lam => sumFive (Tmtemod.greenfct o (earthOf M) zs zr s s lam).2) =
      filterSum F (kernels11 o zs zr s s false M) 11 off ang := by
  have h1 : ∀ lam, sumFive (Tmtemod.greenfct o (earthOf M) zs zr s s lam).1 =
      (Kernel.greenfct o (earthOf M) zs zr s s lam 11 false false false).1 := fun lam =>
    congrArg Prod.fst (five_sum (zr := zr) hM ho hn hs lam)
  have h2 : ∀ lam, sumFive (Tmtemod.greenfct o (earthOf M) zs zr s s lam).2 =
      (Kernel.greenfct o (earthOf M) zs zr s s lam 11 false false false).2 := fun lam =>
    congrArg Prod.snd (five_sum (zr := zr) hM ho hn hs lam)
  simp only [h1, h2, transform, filterSum, dot_eq, kernels11_eq]
  have hpi : (4 * (Real.pi : ℂ)) ≠ 0 := by simp [Real.pi_ne_zero]
  have hpi8 : (1 * 8 * (Real.pi : ℂ)) ≠ 0 := by simp [Real.pi_ne_zero]
  have hπ : (Real.pi : ℂ) ≠ 0 := by simp [Real.pi_ne_zero]
  rw [← add_div, Complex.ofReal_mul, ← div_div]
  congr 1
  rw [div_eq_iff (by push_cast; exact hpi), Finset.mul_sum, Finset.mul_sum, Finset.sum_mul, Finset.sum_div, Finset.sum_div,
    ← Finset.sum_add_distrib, ← Finset.sum_add_distrib, ← Finset.sum_add_distrib]
  refine Finset.sum_congr rfl fun k _ => ?_
  generalize hP : Kernel.greenfct o (earthOf M) zs zr s s (F.base k / off) 11 false false false = P
  have hw : wavenumber o (earthOf M) zs zr s s (F.base k / off) 11 false false false =
      (some ((P.1 - P.2) * (((F.base k / off : ℝ) : ℂ) / (1 * 8 * (Real.pi : ℂ)))), some (-1 * ((P.1 + P.2) / (4 * (Real.pi : ℂ)))),
        some (1 / 2 * ((P.1 + P.2) / (4 * (Real.pi : ℂ))) * ((F.base k / off : ℝ) : ℂ))) := by
    unfold wavenumber
    rw [hP]
    simp [ho.div _ _ hpi, ho.div _ _ (show (8 * (Real.pi : ℂ)) ≠ 0 by simpa using hpi8)]
  rw [hw]
  generalize ((F.base k / off : ℝ) : ℂ) = l
  simp only [hankelIntegrand, j2codes, List.mem_cons, true_or, if_true]
  push_cast
  field_simp
  ring

/-- The reflection factors of the two modes at vertical incidence are opposite. -/
theorem rstep_opp {S T : Stack} {G : ℤ → ℂ} (hD : T.D = S.D) (i j : ℤ) {R : ℂ}
    (hi : S.e i ≠ 0 ∧ T.e i ≠ 0 ∧ S.e i * T.e i = G i * G i) (hj : S.e j ≠ 0 ∧ T.e j ≠ 0 ∧ S.e j * T.e j = G j * G j)
    (hGi : G i ≠ 0) (hGj : G j ≠ 0) :
    rstep T G i j (-R) = -rstep S G i j R := by
  have e2 : E2 T G j = E2 S G j := by unfold E2; rw [hD]
  have key : (Yl T G i - Yl T G j) / (Yl T G i + Yl T G j) = -((Yl S G i - Yl S G j) / (Yl S G i + Yl S G j)) := by
    have ei : Yl T G i = (Yl S G i)⁻¹ := by
      unfold Yl; rw [inv_div, div_eq_div_iff hi.2.1 hGi]; linear_combination -hi.2.2
    have ej : Yl T G j = (Yl S G j)⁻¹ := by
      unfold Yl; rw [inv_div, div_eq_div_iff hj.2.1 hGj]; linear_combination -hj.2.2
    have ni : Yl S G i ≠ 0 := div_ne_zero hGi hi.1
    have nj : Yl S G j ≠ 0 := div_ne_zero hGj hj.1
    rw [ei, ej, ← neg_div]
    by_cases h0 : Yl S G i + Yl S G j = 0
    · have : (Yl S G i)⁻¹ + (Yl S G j)⁻¹ = 0 := by
        field_simp; linear_combination h0
      rw [this, h0]; simp
    · have h1 : Yl S G j + Yl S G i ≠ 0 := by rwa [add_comm]
      field_simp
      ring
  unfold rstep
  rw [key, e2]
  generalize (Yl S G i - Yl S G j) / (Yl S G i + Yl S G j) = r
  rw [← neg_div]
  congr 1 <;> ring

section opposite
variable {S T : Stack} {G : ℤ → ℂ} (hD : T.D = S.D) (hn : T.n = S.n)
  (hk : ∀ i, 0 ≤ i → i < S.n → (S.e i ≠ 0 ∧ T.e i ≠ 0 ∧ S.e i * T.e i = G i * G i) ∧ G i ≠ 0)
include hD hn hk

theorem Rdn_opp (k : ℕ) (h : (k : ℤ) ≤ S.n - 1) : RdnN T G k = -RdnN S G k := by
  induction k with
  | zero => simp [RdnN]
  | succ k ih =>
    push_cast at h
    obtain ⟨h1, h2⟩ := hk (S.n - 2 - k) (by omega) (by omega)
    obtain ⟨h3, h4⟩ := hk (S.n - 2 - k + 1) (by omega) (by omega)
    simp only [RdnN]
    rw [ih (by omega), hn, rstep_opp hD _ _ h1 h3 h2 h4]

theorem Rup_opp (k : ℕ) (h : (k : ℤ) ≤ S.n - 1) : RupN T G k = -RupN S G k := by
  induction k with
  | zero => simp [RupN]
  | succ k ih =>
    push_cast at h
    obtain ⟨h1, h2⟩ := hk (k + 1) (by omega) (by omega)
    obtain ⟨h3, h4⟩ := hk k (by omega) (by omega)
    simp only [RupN]
    rw [ih (by omega), rstep_opp hD _ _ h1 h3 h2 h4]

end opposite

/-- The corrections of the two modes have opposite reflection factors and the same prefactor. -/
theorem corrections (hM : M.OK) (ho : Safe o) (hs0 : 0 ≤ s) (hs1 : s < M.n) (off ang : ℝ) (ds : EReal) :
    let h := getRpRm o (earthOf M) s s off ang ds (earthOf M).etaH
    let e := getRpRm o (earthOf M) s s off ang ds (earthOf M).zetaH
    e.1 = -h.1 ∧ e.2.1 = -h.2.1 ∧ e.2.2 = h.2.2 := by
  have g1 := (OK.dualEE hM 0).good1 ho
  have g2 := (OK.dualEE hM 0).good2 ho
  simp only [one_mul] at g1 g2
  have eG1 : (fun i => gam o ((M.tm 0).e i) (M.etaV i) ((M.te 0).e i) 0) = fun i => csqrt (M.zetaH i * M.etaH i) := by
    funext i; simp [gam, Medium.tm, Medium.te]
  have eG2 : (fun i => gam o ((M.te 0).e i) (M.zetaV i) ((M.tm 0).e i) 0) = fun i => csqrt (M.zetaH i * M.etaH i) := by
    funext i; simp [gam, Medium.tm, Medium.te, mul_comm]
  rw [eG1] at g1
  rw [eG2] at g2
  have f1 : (fun i => (1 : ℂ) * (M.tm 0).e i) = M.etaH := funext fun i => one_mul _
  have f2 : (fun i => (1 : ℂ) * (M.te 0).e i) = M.zetaH := funext fun i => one_mul _
  have hp1 := refl_plus (c := 1) g1 ho one_ne_zero hs0 hs1 hs0 hs1 (by omega) (j := s) (by simp) (by simp)
  have hm1 := refl_minus (c := 1) g1 ho one_ne_zero hs0 hs1 hs0 hs1 (by omega) (j := s) (by simp) (by simp)
  have hp2 := refl_plus (c := 1) g2 ho one_ne_zero hs0 hs1 hs0 hs1 (by omega) (j := s) (by simp) (by simp)
  have hm2 := refl_minus (c := 1) g2 ho one_ne_zero hs0 hs1 hs0 hs1 (by omega) (j := s) (by simp) (by simp)
  rw [min_self, sub_self, f1] at hp1 hm1
  rw [min_self, sub_self, f2] at hp2 hm2
  have hk : ∀ i, 0 ≤ i → i < (M.tm 0).n → ((M.tm 0).e i ≠ 0 ∧ (M.te 0).e i ≠ 0 ∧
      (M.tm 0).e i * (M.te 0).e i = csqrt (M.zetaH i * M.etaH i) * csqrt (M.zetaH i * M.etaH i)) ∧
      csqrt (M.zetaH i * M.etaH i) ≠ 0 := by
    intro i h0 h1
    have l1 := g1.lay i h0 h1
    have l2 := g2.lay i h0 h1
    have hg := l1.gam_ne
    have he : (M.tm 0).e i ≠ 0 := by
      intro h; have := l1.sq; rw [h, zero_mul] at this; exact mul_ne_zero hg hg this
    have hz : (M.te 0).e i ≠ 0 := by
      intro h; have := l2.sq; rw [h, zero_mul] at this; exact mul_ne_zero hg hg this
    have hq : csqrt (M.zetaH i * M.etaH i) * csqrt (M.zetaH i * M.etaH i) = (M.tm 0).e i * (M.tm 0).q i := by
      have := l1.sq
      rw [← this]
    have hqq : (M.tm 0).q i = (M.te 0).e i := by simp [Medium.tm, Medium.te]
    rw [hqq] at hq
    exact ⟨⟨he, hz, hq.symm⟩, hg⟩
  have hd := Rdn_opp (S := M.tm 0) (T := M.te 0) rfl rfl hk (M.n - 1 - s).toNat (by
    have : (M.tm 0).n = M.n := rfl
    omega)
  have hu := Rup_opp (S := M.tm 0) (T := M.te 0) rfl rfl hk s.toNat (by
    have : (M.tm 0).n = M.n := rfl
    omega)
  have hd' : Rdn (M.te 0) (fun i => csqrt (M.zetaH i * M.etaH i)) s =
      -Rdn (M.tm 0) (fun i => csqrt (M.zetaH i * M.etaH i)) s := hd
  have hu' : Rup (M.te 0) (fun i => csqrt (M.zetaH i * M.etaH i)) s =
      -Rup (M.tm 0) (fun i => csqrt (M.zetaH i * M.etaH i)) s := hu
  have a1 : reflections o (earthOf M).nlayer (earthOf M).depth M.etaH
      (fun i => csqrt ((earthOf M).zetaH i * (earthOf M).etaH i)) s s true 0 = _ := hp1
  have a2 : reflections o (earthOf M).nlayer (earthOf M).depth M.etaH
      (fun i => csqrt ((earthOf M).zetaH i * (earthOf M).etaH i)) s s false 0 = _ := hm1
  have a3 : reflections o (earthOf M).nlayer (earthOf M).depth M.zetaH
      (fun i => csqrt ((earthOf M).zetaH i * (earthOf M).etaH i)) s s true 0 = _ := hp2
  have a4 : reflections o (earthOf M).nlayer (earthOf M).depth M.zetaH
      (fun i => csqrt ((earthOf M).zetaH i * (earthOf M).etaH i)) s s false 0 = _ := hm2
  dsimp only [getRpRm]
  rw [show (earthOf M).etaH = M.etaH from rfl, show (earthOf M).zetaH = M.zetaH from rfl] at *
  rw [a1, a2, a3, a4, hd', hu', neg_mul_neg]
  exact ⟨rfl, rfl, rfl⟩

/-! ## Theorems -/

/-- **C40.**  For every layered medium (at least two layers, any anisotropy, any complex passive properties), every
source and receiver in one of its layers, every filter and all offsets: the add-on returns ten contributions per
offset, and their sum is what the dipole routine (`fem` with the standard digital filter method, the same filter,
x-directed electric source and receiver, direct field in the wavenumber domain) returns for this offset, with any
setting of its loop option. -/
theorem C40_sum (hM : M.OK) (ho : Safe o) (hn : 1 < M.n) (hs : M.InClosed s zs) (R : RSpl) (F : Filter)
    (full : ℕ → ℕ → ℂ) (offs : List (ℝ × ℝ)) (same isfull lf lo conv : Bool) :
    ∃ L, Tmtemod.dipole o F M.n [earthOf M] zs zr s s offs = .ok L ∧ L.length = offs.length ∧
      ∀ j (hj : j < L.length), sumTen L[j] =
        (fem (hankelDlf R F 11 fun xd m lam => sampled (kernels11 o zs zr s s xd m) lam) full 11 offs [M] same
          (some false) isfull false false lf lo conv).val 0 j := by
  refine ⟨_, by unfold Tmtemod.dipole; rw [if_neg (by simp), if_neg (by omega)], by simp, fun j hj => ?_⟩
  have hj' : j < offs.length := by simpa using hj
  have hf := (C17_fem (C17_dlf R F 11 (fun xd m => kernels11 o zs zr s s xd m)
    (fun xd m => Or.inl (by simp [kernels11]))) full 11 offs [M] same (some false) isfull false false lf lo conv).1 0 j
    (by simp) hj'
  rw [hf, if_neg (by simp [Direct]), if_neg (by simp [Skipped]), zero_add]
  simp only [Option.getD_some, List.getElem_cons_zero, List.getElem_map]
  obtain ⟨c1, c2, c3⟩ := corrections hM ho hs.1 hs.2.1 offs[j].1 (angleFactor offs[j].2 11 false false)
    (depthInf (earthOf M) (s + 1) - depthInf (earthOf M) s)
  rw [← transform_sum hM ho hn hs F]
  simp only [sumFive, transform_add]
  unfold sumTen contributions
  dsimp only
  rw [c1, c2, c3]
  ring

/-- The restrictions of the add-on: source and receiver in different layers, a model of one layer and several
frequencies are rejected. -/
theorem C40_rejected (F : Filter) (nlayer : ℤ) (rows : List Earth) (lsrc lrec : ℤ) (offs : List (ℝ × ℝ))
    (h : lsrc ≠ lrec ∨ nlayer < 2 ∨ 2 ≤ rows.length) :
    Tmtemod.dipole o F nlayer rows zs zr lsrc lrec offs = .error .valueError := by
  unfold Tmtemod.dipole
  split_ifs with h1 h2
  · rfl
  · rfl
  · have : 2 ≤ rows.length := by tauto
    match rows, this with
    | _ :: _ :: _, _ => rfl

/-- Non-vacuity: the marine example of C01, source and receiver in the water, a filter of any length. -/
example (R : RSpl) (F : Filter) (full : ℕ → ℕ → ℂ) :
    ∃ P Q, Tmtemod.dipole Ops.exact F 3 [earthOf exMedium] 990 1000 1 1 [(500, 0), (700, 1)] = .ok [P, Q] ∧
      sumTen P = (fem (hankelDlf R F 11 fun xd m lam => sampled (kernels11 Ops.exact 990 1000 1 1 xd m) lam) full 11
        [(500, 0), (700, 1)] [exMedium] true (some false) false false false false false true).val 0 0 ∧
      sumTen Q = (fem (hankelDlf R F 11 fun xd m lam => sampled (kernels11 Ops.exact 990 1000 1 1 xd m) lam) full 11
        [(500, 0), (700, 1)] [exMedium] true (some false) false false false false false true).val 0 1 := by
  obtain ⟨L, h1, h2, h3⟩ := C40_sum (zr := 1000) exMedium_ok safe_exact (by norm_num [exMedium]) exMedium_src R F full
    [(500, 0), (700, 1)] true false false false true
  match L, h2 with
  | [P, Q], _ => exact ⟨P, Q, h1, h3 0 (by simp), h3 1 (by simp)⟩

/-! ## The individual contributions depend on where depth is counted from -/

theorem depthOf_shift (D : ℤ → ℝ) (c : ℝ) (i j : ℤ) :
    depthOf (fun i => D i + c) i - depthOf (fun i => D i + c) j = depthOf D i - depthOf D j := by
  unfold depthOf
  by_cases hi : i = 0 <;> by_cases hj : j = 0 <;> simp only [hi, hj, if_true, if_false]
  · rw [EReal.bot_sub, EReal.bot_sub]
  · rw [EReal.coe_sub_bot, EReal.coe_sub_bot]
  · rw [← EReal.coe_sub, ← EReal.coe_sub]; congr 1; ring

theorem depthOf_shift_sub (D : ℤ → ℝ) (c z : ℝ) (i : ℤ) :
    depthOf (fun i => D i + c) i - ((z + c : ℝ) : EReal) = depthOf D i - (z : EReal) := by
  unfold depthOf
  by_cases hi : i = 0 <;> simp only [hi, if_true, if_false]
  · rw [EReal.bot_sub, EReal.bot_sub]
  · rw [← EReal.coe_sub, ← EReal.coe_sub]; congr 1; ring

theorem depthOf_sub_shift (D : ℤ → ℝ) (c z : ℝ) (i : ℤ) :
    ((z + c : ℝ) : EReal) - depthOf (fun i => D i + c) i = (z : EReal) - depthOf D i := by
  unfold depthOf
  by_cases hi : i = 0 <;> simp only [hi, if_true, if_false]
  · rw [EReal.coe_sub_bot, EReal.coe_sub_bot]
  · rw [← EReal.coe_sub, ← EReal.coe_sub]; congr 1; ring

theorem depthInf_shift (M : Medium) (c : ℝ) (i j : ℤ) :
    depthInf (earthOf (M.shift c)) i - depthInf (earthOf (M.shift c)) j =
      depthInf (earthOf M) i - depthInf (earthOf M) j := by
  have := depthOf_shift M.D c i j
  unfold depthInf earthOf depthOf Medium.shift at *
  dsimp only at *
  split_ifs at * <;> first | rfl | exact this | (simp)

theorem depthInf_shift_two (M : Medium) (c zs zr : ℝ) (i : ℤ) :
    2 * depthInf (earthOf (M.shift c)) i - ((zr + c : ℝ) : EReal) - ((zs + c : ℝ) : EReal) =
      2 * depthInf (earthOf M) i - (zr : EReal) - (zs : EReal) := by
  unfold depthInf earthOf depthOf Medium.shift
  dsimp only
  have h2 : (2 : EReal) = ((2 : ℝ) : EReal) := rfl
  split_ifs
  · rw [h2, EReal.coe_mul_top_of_pos (by norm_num)]
    rfl
  · rw [h2, EReal.coe_mul_bot_of_pos (by norm_num)]
    rfl
  · rw [h2]
    norm_cast
    ring

theorem shift_add_sub (x : EReal) (zr zs c : ℝ) :
    x - ((zr + c : ℝ) : EReal) + ((zs + c : ℝ) : EReal) = x - (zr : EReal) + (zs : EReal) := by
  induction x with
  | bot => rfl
  | top => rfl
  | coe x => norm_cast; ring

theorem shift_sub_add (x : EReal) (zr zs c : ℝ) :
    x + ((zr + c : ℝ) : EReal) - ((zs + c : ℝ) : EReal) = x + (zr : EReal) - (zs : EReal) := by
  induction x with
  | bot => rfl
  | top => rfl
  | coe x => norm_cast; ring

theorem reflections_shift (D : ℤ → ℝ) (c : ℝ) (n : ℤ) (e G : ℤ → ℂ) (lrec lsrc : ℤ) (plus : Bool) :
    reflections o n (depthOf fun i => D i + c) e G lrec lsrc plus = reflections o n (depthOf D) e G lrec lsrc plus := by
  have : ∀ pm minmax first size, reflStep o (depthOf fun i => D i + c) e G lrec lsrc pm minmax first size =
      reflStep o (depthOf D) e G lrec lsrc pm minmax first size := by
    intro pm minmax first size
    funext st iz
    simp only [reflStep, depthOf_shift]
  unfold reflections
  simp only [this]

theorem fieldsPass_shift (D : ℤ → ℝ) (c : ℝ) (n : ℤ) (Rp Rm G : ℤ → ℂ) (lrec lsrc : ℤ) (TM up : Bool) :
    fieldsPass o n (depthOf fun i => D i + c) Rp Rm G lrec lsrc (zs + c) TM up =
      fieldsPass o n (depthOf D) Rp Rm G lrec lsrc zs TM up := by
  unfold fieldsPass
  simp only [depthOf_shift, depthOf_shift_sub, depthOf_sub_shift]

theorem greenPass_shift (D : ℤ → ℝ) (c : ℝ) (n : ℤ) (e eH zH G : ℤ → ℂ) (lrec lsrc : ℤ) (TM : Bool) :
    greenPass o n (depthOf fun i => D i + c) e eH zH G lrec lsrc (zr + c) (zs + c) TM =
      greenPass o n (depthOf D) e eH zH G lrec lsrc zr zs TM := by
  have habs : zs + c - (zr + c) = zs - zr := by ring
  unfold greenPass
  simp only [fieldsPass_shift, reflections_shift, depthOf_shift_sub, depthOf_sub_shift, habs]

theorem greenfct_shift (M : Medium) (c : ℝ) (lsrc lrec : ℤ) :
    Tmtemod.greenfct o (earthOf (M.shift c)) (zs + c) (zr + c) lsrc lrec =
      Tmtemod.greenfct o (earthOf M) zs zr lsrc lrec := by
  funext lam
  unfold Tmtemod.greenfct earthOf Medium.shift
  dsimp only
  rw [greenPass_shift, greenPass_shift]

/-- **C40, the single contributions.**  Moving the whole experiment (layers, source, receiver) up or down by `c` does
not change the contributions, except the two `du` ones: they change by the correction times
`exp(−γ(z_r + z_s + 2c)) − exp(−γ(z_r + z_s))`, since their correction uses the depths of source and receiver themselves
and not the distances to the top of their layer. -/
theorem C40_origin (M : Medium) (F : Filter) (c off ang : ℝ) :
    let P := contributions o F (earthOf (M.shift c)) (zs + c) (zr + c) s s off ang
    let Q := contributions o F (earthOf M) zs zr s s off ang
    let g := csqrt (M.zetaH s * M.etaH s)
    let f := fun e => getRpRm o (earthOf M) s s off (angleFactor ang 11 false false)
      (depthInf (earthOf M) (s + 1) - depthInf (earthOf M) s) e
    (P.1.uu = Q.1.uu ∧ P.1.ud = Q.1.ud ∧ P.1.dd = Q.1.dd ∧ P.1.df = Q.1.df) ∧
    (P.2.uu = Q.2.uu ∧ P.2.ud = Q.2.ud ∧ P.2.dd = Q.2.dd ∧ P.2.df = Q.2.df) ∧
    P.1.du - Q.1.du = (f M.etaH).2.2 * (f M.etaH).2.1 * (o.exp (-g * (zr + zs + 2 * c)) - o.exp (-g * (zr + zs))) ∧
    P.2.du - Q.2.du = (f M.zetaH).2.2 * (f M.zetaH).2.1 * (o.exp (-g * (zr + zs + 2 * c)) - o.exp (-g * (zr + zs))) := by
  have hg : ∀ off ang ds e, getRpRm o (earthOf (M.shift c)) s s off ang ds e = getRpRm o (earthOf M) s s off ang ds e := by
    intro off ang ds e
    simp only [getRpRm, earthOf, Medium.shift, reflections_shift]
  have hx : ∀ (g : ℂ) (a b : ℝ), xexp o g ((a : EReal) + (b : EReal)) = o.exp (-g * (a + b)) := by
    intro g a b
    rw [← EReal.coe_add]
    simp only [xexp, EReal.coe_ne_top, EReal.coe_ne_bot, if_false, EReal.toReal_coe, Complex.ofReal_add]
  intro P Q g f
  have hP : P = contributions o F (earthOf (M.shift c)) (zs + c) (zr + c) s s off ang := rfl
  have hQ : Q = contributions o F (earthOf M) zs zr s s off ang := rfl
  unfold contributions at hP hQ
  rw [greenfct_shift] at hP
  simp only [hg, depthInf_shift, depthInf_shift_two, shift_add_sub, shift_sub_add, hx] at hP hQ
  have e1 : (earthOf (M.shift c)).zetaH = M.zetaH := rfl
  have e2 : (earthOf (M.shift c)).etaH = M.etaH := rfl
  have e3 : (earthOf M).zetaH = M.zetaH := rfl
  have e4 : (earthOf M).etaH = M.etaH := rfl
  simp only [e1, e2] at hP
  simp only [e3, e4] at hQ
  rw [hP, hQ]
  have e5 : ((zr + c : ℝ) : ℂ) + ((zs + c : ℝ) : ℂ) = zr + zs + 2 * c := by push_cast; ring
  rw [e5]
  refine ⟨⟨rfl, rfl, rfl, rfl⟩, ⟨rfl, rfl, rfl, rfl⟩, ?_, ?_⟩
  · simp only [f, g]; ring
  · simp only [f, g]; ring

/-- Two half-spaces, interface at 1. -/
noncomputable def exHalves : Medium where
  n := 2
  D := fun _ => 1
  etaH := fun i => if i = 0 then 1 else 4
  etaV := fun i => if i = 0 then 1 else 4
  zetaH := fun _ => 1
  zetaV := fun _ => 1

/-- The two `du` contributions do depend on the origin of depth: source and receiver one and two metres below an
interface, once with the interface at depth 1, once at depth 2. -/
theorem C40_origin_violated (F : Filter) :
    (contributions Ops.exact F (earthOf (exHalves.shift 1)) (2 + 1) (3 + 1) 1 1 1 0).1.du ≠
      (contributions Ops.exact F (earthOf exHalves) 2 3 1 1 1 0).1.du := by
  intro h
  have h1 := (C40_origin (o := Ops.exact) (s := 1) (zs := 2) (zr := 3) exHalves F 1 1 0).2.2.1
  dsimp only at h1
  rw [h, sub_self] at h1
  have c1 : csqrt 1 = 1 := by
    have := csqrt_ofReal (x := 1) (by norm_num); simpa using this
  have c4 : csqrt 4 = 2 := by
    have := csqrt_ofReal (x := 4) (by norm_num)
    rw [show Real.sqrt 4 = 2 by rw [show (4 : ℝ) = 2 ^ 2 by norm_num]; exact Real.sqrt_sq (by norm_num)] at this
    simpa using this
  have hang : angleFactor 0 11 false false = 1 := by
    have : ¬ isclose 0 (Real.pi / 2) 1e-10 1e-14 := by
      unfold isclose; have := Real.two_le_pi
      rw [abs_of_nonneg (by linarith : (0 : ℝ) ≤ Real.pi / 2), abs_of_nonpos (by linarith)]; norm_num; linarith
    have h3 : ¬ isclose 0 (3 * Real.pi / 2) 1e-10 1e-14 := by
      unfold isclose; have := Real.two_le_pi
      rw [abs_of_nonneg (by linarith : (0 : ℝ) ≤ 3 * Real.pi / 2), abs_of_nonpos (by linarith)]; norm_num; linarith
    simp [angleFactor, this, h3]
  have hrp : ∀ G, reflections Ops.exact 2 (depthOf fun _ => 1) exHalves.etaH G 1 1 true 0 = 0 := by
    intro G; simp [reflections, arangeDown]
  have hrm : reflections Ops.exact 2 (depthOf fun _ => 1) exHalves.etaH
      (fun i => csqrt (exHalves.zetaH i * exHalves.etaH i)) 1 1 false 0 = -1 / 3 := by
    simp [reflections, arangeUp, reflStep, setAt, exHalves, c1, c4, Ops.exact]; norm_num
  have hf : getRpRm Ops.exact (earthOf exHalves) 1 1 1 1 (depthInf (earthOf exHalves) (1 + 1) -
      depthInf (earthOf exHalves) 1) exHalves.etaH = ((0 : ℂ), (-1 / 3 : ℂ), (1 / (4 * (Real.pi : ℂ) * 2) : ℂ)) := by
    simp only [getRpRm, show (earthOf exHalves).nlayer = 2 from rfl,
      show (earthOf exHalves).depth = depthOf fun _ => 1 from rfl, show (earthOf exHalves).zetaH = exHalves.zetaH from rfl,
      show (earthOf exHalves).etaH = exHalves.etaH from rfl, hrp, hrm]
    simp [exHalves, c4, Ops.exact]
  rw [hang, hf] at h1
  have hg : csqrt (exHalves.zetaH 1 * exHalves.etaH 1) = 2 := by simp [exHalves, c4]
  rw [hg] at h1
  have hpi : (Real.pi : ℂ) ≠ 0 := by simp [Real.pi_ne_zero]
  have h2 : Complex.exp (-2 * (3 + 2 + 2 * 1)) - Complex.exp (-2 * (3 + 2)) = 0 := by
    have hne : (1 / (4 * (Real.pi : ℂ) * 2)) * (-1 / 3) ≠ 0 := by
      refine mul_ne_zero (one_div_ne_zero (by simp [Real.pi_ne_zero])) (by norm_num)
    have := h1.symm
    simp only [Ops.exact] at this
    push_cast at this
    exact (mul_eq_zero.1 this).resolve_left hne
  have h3 : Real.exp (-14) = Real.exp (-10) := by
    have := sub_eq_zero.1 h2
    rw [show (-2 * (3 + 2 + 2 * 1) : ℂ) = ((-14 : ℝ) : ℂ) by push_cast; norm_num,
      show (-2 * (3 + 2) : ℂ) = ((-10 : ℝ) : ℂ) by push_cast; norm_num] at this
    exact_mod_cast this
  have := Real.exp_injective h3
  norm_num at this

end Verif.Props
