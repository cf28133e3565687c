import Verif.Lemmas.Conj
import Verif.Model.FullspaceReal
import Verif.Props.C51_Cases

/-!
# C52: the Laplace domain

Negative frequencies: `s = -f` instead of `2πif`.  All arrays are real then.
-/

namespace Verif.Props
open Verif.Py Verif.Py.W Verif.Utils Verif.Spec Verif.Model Verif.Kernel Verif.Lemmas Verif.Transform Verif.Time
open Verif.Args Verif.Hank Verif.Fullspace

/-- Complex conjugation. -/
local notation "σ" => (starRingEnd ℂ)

/-! ## Media with real parameters -/

/-- All parameters are real and not negative. -/
def RealMedium (M : Medium) : Prop := ∀ i, ∃ a b c d : ℝ, 0 ≤ a ∧ 0 ≤ b ∧ 0 ≤ c ∧ 0 ≤ d ∧
  M.etaH i = a ∧ M.etaV i = b ∧ M.zetaH i = c ∧ M.zetaV i = d

theorem epsVac_pos : 0 < epsVac := by unfold epsVac muVac; positivity
theorem muVac_pos : 0 < muVac := by unfold muVac; positivity

theorem user_real {U : UserModel} {mr : ℝ} (hm : 0 < mr) (h : U.Valid mr) {s : ℝ} (hs : 0 ≤ s) :
    RealMedium (U.medium s) := by
  intro i
  by_cases hi : 0 ≤ i ∧ i < U.z.length + 1
  · have hn : i.toNat < U.z.length + 1 := by omega
    have r1 := hm.trans_le (h.rhoH _ hn)
    have r2 := hm.trans_le (h.rhoV _ hn)
    have e1 := h.epsH _ hn
    have e2 := h.epsV _ hn
    have u1 := h.muH _ hn
    have u2 := h.muV _ hn
    have := epsVac_pos
    have := muVac_pos
    refine ⟨1 / U.rhoH i.toNat + s * (U.epsH i.toNat * epsVac), 1 / U.rhoV i.toNat + s * (U.epsV i.toNat * epsVac),
      s * (U.muH i.toNat * muVac), s * (U.muV i.toNat * muVac), by positivity, by positivity, by positivity,
      by positivity, ?_, ?_, ?_, ?_⟩ <;> simp [UserModel.medium, UserModel.layer, hi]
  · refine ⟨0, 0, 0, 0, le_rfl, le_rfl, le_rfl, le_rfl, ?_, ?_, ?_, ?_⟩ <;>
      simp only [UserModel.medium, UserModel.layer, if_neg hi, Complex.ofReal_zero]

theorem arg_real {x : ℝ} (h : 0 ≤ x) : (x : ℂ).arg ≠ Real.pi := by
  rw [Complex.arg_ofReal_of_nonneg h]; exact Real.pi_ne_zero.symm

/-- A kernel, if any, is real. -/
def RealOpt (k : Option ℂ) : Prop := ∀ z, k = some z → z.im = 0

theorem realOpt_of {k : Option ℂ} (h : k = k.map σ) : RealOpt k := by
  rintro z rfl
  exact Complex.conj_eq_iff_im.1 (Option.some.inj h).symm

/-- **C52, kernels.**  For real Laplace parameters all kernels are real: computing with real arrays loses nothing. -/
theorem C52_kernel {M : Medium} (hM : M.OK) (hr : RealMedium M) {o : Ops} (ho : Safe o) (lam : ℝ) {zs zr : ℝ}
    {ls lr : ℤ} (hs : M.InClosed ls zs) (hl : M.InClosed lr zr) (hsr : zr = zs → lr = ls) {ab : AbArg} {abc : ℕ}
    {ms mr : Bool} (hab : checkAb ab = .ok (abc, ms, mr)) (xd : Bool) :
    let k := wavenumber o (earthOf M) zs zr ls lr lam abc xd ms mr
    RealOpt k.1 ∧ RealOpt k.2.1 ∧ RealOpt k.2.2 := by
  intro k
  obtain ⟨Ao, Bo, Ae, Be, R1⟩ := resp_exists (OK.tm_ord hM lam) (OK.tm_pas hM lam) hs zr lr xd
  obtain ⟨Ao', Bo', Ae', Be', R2⟩ := resp_exists (OK.te_ord hM lam) (OK.te_pas hM lam) hs zr lr xd
  have e : k = wavenumber Ops.exact (earthOf M) zs zr ls lr lam abc xd ms mr :=
    wn_det hM hM ho safe_exact hs hl hsr hs hl hsr R1 R2 R1 R2 rfl rfl rfl rfl hab
  have hE : conjEarth (earthOf M) = earthOf M := by
    have h1 : ∀ i, σ (M.etaH i) = M.etaH i := fun i => by
      obtain ⟨a, b, c, d, -, -, -, -, h, -⟩ := hr i; rw [h, Complex.conj_ofReal]
    have h2 : ∀ i, σ (M.etaV i) = M.etaV i := fun i => by
      obtain ⟨a, b, c, d, -, -, -, -, -, h, -⟩ := hr i; rw [h, Complex.conj_ofReal]
    have h3 : ∀ i, σ (M.zetaH i) = M.zetaH i := fun i => by
      obtain ⟨a, b, c, d, -, -, -, -, -, -, h, -⟩ := hr i; rw [h, Complex.conj_ofReal]
    have h4 : ∀ i, σ (M.zetaV i) = M.zetaV i := fun i => by
      obtain ⟨a, b, c, d, -, -, -, -, -, -, -, h⟩ := hr i; rw [h, Complex.conj_ofReal]
    simp only [conjEarth, earthOf, h1, h2, h3, h4]
  have q1 : OffCut Ops.exact M.etaH M.etaV M.zetaH lam := by
    intro i
    obtain ⟨a, b, c, d, ha, hb, hc, hd, h1, h2, h3, h4⟩ := hr i
    rw [h1, h2, h3]
    have : Ops.exact.div (a : ℂ) b * ((lam : ℂ) * lam) + c * a = ((a / b * (lam * lam) + c * a : ℝ) : ℂ) := by
      simp [Ops.exact]
    rw [this]
    exact arg_real (by have := mul_self_nonneg lam; positivity)
  have q2 : OffCut Ops.exact M.zetaH M.zetaV M.etaH lam := by
    intro i
    obtain ⟨a, b, c, d, ha, hb, hc, hd, h1, h2, h3, h4⟩ := hr i
    rw [h1, h3, h4]
    have : Ops.exact.div (c : ℂ) d * ((lam : ℂ) * lam) + a * c = ((c / d * (lam * lam) + a * c : ℝ) : ℂ) := by
      simp [Ops.exact]
    rw [this]
    exact arg_real (by have := mul_self_nonneg lam; positivity)
  have neg : ∀ {a b c : ℤ → ℂ}, OffCut Ops.exact a b c lam →
      OffCut Ops.exact (fun i => -a i) (fun i => -b i) (fun i => -c i) lam := by
    intro a b c h i
    have := h i
    simp only [Ops.exact, neg_div_neg_eq, neg_mul_neg] at this ⊢
    exact this
  have h := wavenumber_conj conjOps_exact (earthOf M) zs zr ls lr lam abc xd ms mr q1 q2 (neg q1) (neg q2)
  rw [hE] at h
  rw [e]
  exact ⟨realOpt_of (congrArg Prod.fst h), realOpt_of (congrArg (fun p => p.2.1) h),
    realOpt_of (congrArg (fun p => p.2.2) h)⟩

/-! ## Closed form -/

theorem sqrt_real {sqrt : ℂ → ℂ} (hq : IsSqrt sqrt) {x : ℝ} (hx : 0 ≤ x) : σ (sqrt x) = sqrt x := by
  rcases hx.eq_or_lt with rfl | hx
  · have := hq.sq ((0 : ℝ) : ℂ)
    have h0 : sqrt ((0 : ℝ) : ℂ) = 0 := pow_eq_zero_iff (two_ne_zero) |>.1 (by rw [this]; simp)
    rw [h0, map_zero]
  · rw [hq.main _ (by simp [hx]), ← csqrt_conj (arg_real hx.le), Complex.conj_ofReal]

/-- A real number, as complex number, that is not negative. -/
def NonnegR (z : ℂ) : Prop := ∃ x : ℝ, 0 ≤ x ∧ z = x

theorem fullspaceAt_real {sqrt : ℂ → ℂ} (hq : IsSqrt sqrt) {med : Med} (hm : σ med.etaH = med.etaH ∧ σ med.etaV = med.etaV ∧
      σ med.zetaH = med.zetaH ∧ σ med.zetaV = med.zetaV) (off θ zs zr : ℝ) (ab : ℕ) (ms mr : Bool)
    (hab : ab ∈ [11, 12, 21, 22, 13, 23, 31, 32, 33, 14, 24, 15, 25, 34, 35, 16, 26])
    (h : ∀ r ∈ radicands (if mr && ms then med.dual else med) off (if mr && !ms then zr else zs)
      (if mr && !ms then zs else zr) ab, NonnegR r) :
    (fullspaceAt sqrt false med off θ zs zr ab ms mr).im = 0 := by
  have hs : ∀ {z : ℂ}, NonnegR z → σ (sqrt z) = sqrt z := by
    rintro z ⟨x, hx, rfl⟩; exact sqrt_real hq hx
  have hex : ∀ z, σ (Complex.exp z) = Complex.exp (σ z) := fun z => (Complex.exp_conj z).symm
  obtain ⟨m1, m2, m3, m4⟩ : σ (if mr && ms then med.dual else med).etaH = (if mr && ms then med.dual else med).etaH ∧
      σ (if mr && ms then med.dual else med).etaV = (if mr && ms then med.dual else med).etaV ∧
      σ (if mr && ms then med.dual else med).zetaH = (if mr && ms then med.dual else med).zetaH ∧
      σ (if mr && ms then med.dual else med).zetaV = (if mr && ms then med.dual else med).zetaV := by
    split_ifs
    · simp only [Med.dual, map_neg, hm, and_self]
    · exact hm
  rw [← Complex.conj_eq_iff_im]
  unfold fullspaceAt
  simp only
  generalize (if mr && ms then med.dual else med) = m at *
  generalize (if mr && !ms then zr else zs) = zs' at *
  generalize (if mr && !ms then zs else zr) = zr' at *
  generalize (if mr && !ms then Real.cos θ * off * -1 else Real.cos θ * off) = xco at *
  generalize (if mr && !ms then Real.sin θ * off * -1 else Real.sin θ * off) = yco at *
  have e1 : ∀ (c : Prop) [Decidable c] (a b : ℂ), σ (if c then a else b) = if c then σ a else σ b :=
    fun c _ a b => apply_ite σ c a b
  suffices hg : ∀ g : ℂ, σ g = g → σ (if mr = true then g * -1 else g) = if mr = true then g * -1 else g by
    refine hg _ ?_
    simp only [List.mem_cons, List.not_mem_nil, or_false] at hab
    rcases hab with rfl | rfl | rfl | rfl | rfl | rfl | rfl | rfl | rfl | rfl | rfl | rfl | rfl | rfl | rfl | rfl | rfl <;>
      (simp [radicands] at h
       simp [ginH, ginHV, ginV, ginEM, ginZM, emTerm, lGam, Fullspace.dist, uGam, m1, m2, m3, m4, hs, h, hex, Complex.conj_ofNat])
  intro g hg
  rw [e1]
  simp [hg]

theorem nonneg_mul {z w : ℂ} (hz : NonnegR z) (hw : NonnegR w) : NonnegR (z * w) := by
  obtain ⟨x, hx, rfl⟩ := hz
  obtain ⟨y, hy, rfl⟩ := hw
  exact ⟨x * y, mul_nonneg hx hy, by simp⟩

theorem nonneg_div {z w : ℂ} (hz : NonnegR z) (hw : NonnegR w) : NonnegR (z / w) := by
  obtain ⟨x, hx, rfl⟩ := hz
  obtain ⟨y, hy, rfl⟩ := hw
  exact ⟨x / y, div_nonneg hx hy, by simp⟩

theorem nonneg_dist {z : ℂ} (hz : NonnegR z) (off a b : ℝ) :
    NonnegR ((off : ℂ) * off + ((a : ℂ) - b) * (a - b) * z) := by
  obtain ⟨x, hx, rfl⟩ := hz
  exact ⟨off * off + (a - b) * (a - b) * x, add_nonneg (mul_self_nonneg _) (mul_nonneg (mul_self_nonneg _) hx), by simp⟩

theorem radicands_nonneg {med : Med} (h1 : NonnegR med.etaH) (h2 : NonnegR med.etaV) (h3 : NonnegR med.zetaH)
    (h4 : NonnegR med.zetaV) (off zs zr : ℝ) (ab : ℕ) (d : Bool) (hd : d = true → ab ∉ [11, 12, 21, 22]) :
    ∀ r ∈ radicands (if d then med.dual else med) off zs zr ab, NonnegR r := by
  intro r hr
  cases d
  · simp only [Bool.false_eq_true, if_false, radicands, List.mem_append, List.mem_ite_nil_right, List.mem_cons,
      List.not_mem_nil, or_false] at hr
    rcases hr with ((((⟨-, rfl | rfl⟩ | ⟨-, rfl⟩) | ⟨-, rfl | rfl⟩) | ⟨-, rfl⟩) | ⟨-, rfl | rfl⟩) | ⟨-, rfl⟩
    · exact nonneg_mul h3 h2
    · exact nonneg_dist (nonneg_div h1 h2) _ _ _
    · exact nonneg_div h1 h2
    · exact nonneg_mul h4 h1
    · exact nonneg_dist (nonneg_div h3 h4) _ _ _
    · exact nonneg_div h3 h4
    · exact h3
    · exact h1
    · exact nonneg_mul h1 h3
  · have hn := hd rfl
    simp only [if_true, radicands, if_neg hn, List.append_nil] at hr
    simp only [Med.dual, List.mem_append, List.mem_ite_nil_right,
      List.mem_cons, List.not_mem_nil, or_false, neg_mul_neg, neg_div_neg_eq] at hr
    rcases hr with (((⟨-, rfl | rfl⟩ | ⟨-, rfl⟩) | ⟨-, rfl | rfl⟩) | ⟨-, rfl⟩) | ⟨-, rfl⟩
    · exact nonneg_mul h1 h4
    · exact nonneg_dist (nonneg_div h3 h4) _ _ _
    · exact nonneg_div h3 h4
    · exact nonneg_mul h2 h3
    · exact nonneg_dist (nonneg_div h1 h2) _ _ _
    · exact nonneg_div h1 h2
    · exact nonneg_mul h3 h1

theorem nonneg_conj {z : ℂ} (h : NonnegR z) : σ z = z := by
  obtain ⟨x, -, rfl⟩ := h
  exact Complex.conj_ofReal x

theorem nonneg_re {z : ℂ} (h : NonnegR z) : ¬ z.re < 0 := by
  obtain ⟨x, hx, rfl⟩ := h
  simpa using hx

/-- A layer in the Laplace domain: real, conducting parameters. -/
structure LaplaceMed (m : Med) : Prop where
  etaH : NonnegR m.etaH
  etaV : NonnegR m.etaV
  zetaH : NonnegR m.zetaH
  zetaV : NonnegR m.zetaV
  ne : m.etaH ≠ 0

/-- **C52, closed form.**  In the Laplace domain the closed form, computed in real numbers, is the formula of the
frequency domain at the real Laplace parameter; it is real.  All source-receiver combinations but horizontal magnetic
receivers for horizontal magnetic sources. -/
theorem C52_direct {sqrt : ℂ → ℂ} (hq : IsSqrt sqrt) {med : Med} (hm : LaplaceMed med) (off θ zs zr : ℝ) {a b : ℕ}
    (ha : 1 ≤ a ∧ a ≤ 6) (hb : 1 ≤ b ∧ b ≤ 6) (hx : ¬ (a ∈ [4, 5] ∧ b ∈ [4, 5])) {abc : ℕ} {ms mr : Bool}
    (hc : checkAb (.int (10 * a + b)) = .ok (abc, ms, mr)) (h36 : abc ≠ 36) :
    ∃ v : ℝ, fullspaceReal sqrt med off θ zs zr abc ms mr = some (v : ℂ) ∧
      fullspaceAt sqrt false med off θ zs zr abc ms mr = v := by
  have hab : abc ∈ [11, 12, 21, 22, 13, 23, 31, 32, 33, 14, 24, 15, 25, 34, 35, 16, 26] ∧
      ((mr && ms) = true → abc ∉ [11, 12, 21, 22]) := by
    rw [checkAb_digits ha hb] at hc
    simp only [Except.ok.injEq, Prod.mk.injEq] at hc
    obtain ⟨rfl, rfl, rfl⟩ := hc
    obtain ⟨a1, a2⟩ := ha
    obtain ⟨b1, b2⟩ := hb
    interval_cases a <;> interval_cases b <;> simp at hx h36 ⊢
  have hr := radicands_nonneg hm.etaH hm.etaV hm.zetaH hm.zetaV off (if mr && !ms then zr else zs)
    (if mr && !ms then zs else zr) abc (mr && ms) hab.2
  have him := fullspaceAt_real hq ⟨nonneg_conj hm.etaH, nonneg_conj hm.etaV, nonneg_conj hm.zetaH, nonneg_conj hm.zetaV⟩
    off θ zs zr abc ms mr hab.1 hr
  have hv : fullspaceAt sqrt false med off θ zs zr abc ms mr =
      ((fullspaceAt sqrt false med off θ zs zr abc ms mr).re : ℂ) := Complex.ext (by simp) (by simpa using him)
  refine ⟨_, ?_, hv⟩
  unfold fullspaceReal
  rw [if_neg (by rintro ⟨r, h1, h2⟩; exact nonneg_re (hr r h1) h2), ← hv]

/-- **Horizontal magnetic receivers, horizontal magnetic sources: `nan`.**  Source and receiver are treated as electric in
a medium whose `η` and `ζ` change sign; the real square roots of these negative numbers do not exist. -/
theorem C52_direct_violated (sqrt : ℂ → ℂ) {med : Med} (hm : LaplaceMed med) (off θ zs zr : ℝ) {a b : ℕ}
    (ha : a ∈ [4, 5]) (hb : b ∈ [4, 5]) {abc : ℕ} {ms mr : Bool}
    (hc : checkAb (.int (10 * a + b)) = .ok (abc, ms, mr)) :
    fullspaceReal sqrt med off θ zs zr abc ms mr = none := by
  obtain ⟨x, hx, he⟩ := hm.etaH
  have hx0 : 0 < x := hx.lt_of_ne (by rintro rfl; exact hm.ne (by rw [he]; simp))
  have hab : abc ∈ [11, 12, 21, 22] ∧ ms = true ∧ mr = true := by
    simp only [List.mem_cons, List.not_mem_nil, or_false] at ha hb
    rw [checkAb_digits (by omega) (by omega)] at hc
    simp only [Except.ok.injEq, Prod.mk.injEq] at hc
    obtain ⟨rfl, rfl, rfl⟩ := hc
    rcases ha with rfl | rfl <;> rcases hb with rfl | rfl <;> simp
  obtain ⟨h1, rfl, rfl⟩ := hab
  unfold fullspaceReal
  rw [if_pos]
  refine ⟨med.dual.zetaH, ?_, ?_⟩
  · simp only [radicands, if_pos h1, Bool.and_self, if_true]
    exact List.mem_append_left _ (List.mem_append_right _ List.mem_cons_self)
  · simp only [Med.dual, he, Complex.neg_re, Complex.ofReal_re]
    linarith

/-! ## `dipole` -/

/-- **QWE and QUAD raise `TypeError` in the Laplace domain**, for all accepted arguments, wherever the Hankel transform
is needed: their results are complex, the array they are added to is real. -/
theorem C52_types_violated (H : HBack) (A : DipoleArgs) (hn : Needs H A) (ht : String) (htarg : Dict) {h : String × Dict}
    (hc : (Verb.checkHankel H.C H.lib H.dflt ht htarg A.verb).val = .ok h) (hr : Runs H h.1 h.2)
    (hq : h.1 = "qwe" ∨ h.1 = "quad") (hf : ∀ f ∈ A.freq, f ≤ 0) :
    (dipoleH H A ht htarg).val = .error .typeError := by
  obtain ⟨mo, fo, c, src, rcv, h1, h2, h3, h4, h5, h6, h7, h8, h9⟩ := hn
  have key : (dipoleHFull H A ht htarg inFreq).val = .error .typeError := by
    have hk : ¬ (c.1 = 36 ∨ (mo.isfullspace && A.xdirect.getD true) = true) := by
      rintro (h | h)
      · exact h6 h
      · rcases h7 with h7 | h7 <;> simp [h7] at h
    have b3 : (Model.ofExcept (checkAb A.ab)).val = .ok c := h3
    have b4 : (Model.ofExcept (checkDipole A.src)).val = .ok src := h4
    have b5 : (Model.ofExcept (checkDipole A.rcv)).val = .ok rcv := h5
    unfold dipoleHFull
    rw [bind_ok h1, bind_ok h2, bind_ok hc]
    simp only
    rw [bind_ok b3, bind_ok b4, bind_ok b5]
    simp only [kfn_eq, if_neg hk, hr.name, not_true_eq_false, if_false]
    obtain ⟨E, rows, hE⟩ := List.exists_cons_of_ne_nil h8
    have hrow : ∀ offs : List (ℝ × ℝ), offs ≠ [] → ∀ (f : KernelFn) ab, f.given →
        rowErr H h.1 h.2 A.freq f ab offs = some .typeError := by
      intro offs ho f ab hg
      rcases hr f ab offs hg with ⟨r, hrr⟩ | ⟨h0, -⟩
      · unfold rowErr
        rw [hrr, if_pos ⟨hq, hf⟩]
        rfl
      · exact absurd h0 ho
    simp only [hE, List.findSome?_cons]
    rw [hrow _ (by
        intro h0
        have := congrArg List.length h0
        simp only [List.length_map, List.length_range, List.length_nil] at this
        exact h9 this) _ _ (kernelFn_given ..)]
    rfl
  unfold dipoleH
  rw [bind_val, key]
  rfl

theorem hankelIntegrand_real {k : Option ℂ × Option ℂ × Option ℂ} (h : RealOpt k.1 ∧ RealOpt k.2.1 ∧ RealOpt k.2.2)
    (ab : ℕ) (off ang x y : ℝ) : (hankelIntegrand k ab off ang x y).im = 0 := by
  obtain ⟨k0, k1, k2⟩ := k
  obtain ⟨h0, h1, h2⟩ := h
  have e : ∀ {q : Option ℂ}, RealOpt q → q = none ∨ ∃ x : ℝ, q = some (x : ℂ) := by
    intro q hq
    cases q with
    | none => exact Or.inl rfl
    | some z => exact Or.inr ⟨z.re, congrArg some (Complex.ext (by simp) (by simpa using hq z rfl))⟩
  rw [← Complex.conj_eq_iff_im]
  rcases e h0 with rfl | ⟨z0, rfl⟩ <;> rcases e h1 with rfl | ⟨z1, rfl⟩ <;> rcases e h2 with rfl | ⟨z2, rfl⟩ <;>
    by_cases hab : ab ∈ j2codes <;> simp [hankelIntegrand, hab]

theorem laplace_s {m : ℝ} (hm : 0 < m) {freq : List ℝ} (hf : ∀ f ∈ freq, f ≤ 0) (f : ℝ) :
    0 < max (-f) m ∧ sParam m freq f = ((max (-f) m : ℝ) : ℂ) := by
  refine ⟨lt_max_of_lt_right hm, ?_⟩
  rw [sParam, if_neg]
  rintro ⟨g, hg, h⟩
  exact absurd (hf g hg) (not_le.2 h)

theorem laplace_med {U : UserModel} {mr : ℝ} (hm : 0 < mr) (h : U.Valid mr) {s : ℝ} (hs : 0 < s) {i : ℤ}
    (hi : 0 ≤ i ∧ i < (U.medium s).n) : LaplaceMed (layerMed (U.medium s) i) := by
  obtain ⟨a, b, c, d, ha, hb, hc, hd, e1, e2, e3, e4⟩ := user_real hm h hs.le i
  refine ⟨⟨a, ha, e1⟩, ⟨b, hb, e2⟩, ⟨c, hc, e3⟩, ⟨d, hd, e4⟩, ?_⟩
  have hM : (U.medium s).OK := user_ok (m := ⟨0, 0, 0, mr, 0⟩) hm h (by exact_mod_cast hs.ne') (by simpa using hs.le)
  intro h0
  have := (hM.pas i hi.1 hi.2).etaH_re
  change (U.medium s).etaH i = 0 at h0
  rw [h0] at this
  simp at this

theorem filterRule_real (F : Filter) (ρ : ℝ) {g : ℝ → ℂ → ℂ → ℂ} (h : ∀ (lam x y : ℝ), (g lam x y).im = 0) :
    (filterRule F ρ g).im = 0 := by
  rw [← Complex.conj_eq_iff_im]
  unfold filterRule
  rw [map_div₀, map_sum, Complex.conj_ofReal]
  congr 1
  exact Finset.sum_congr rfl fun k _ => Complex.conj_eq_iff_im.2 (h _ _ _)

open Classical in
/-- **C52, DLF.**  With the standard DLF, negative frequencies give an array of real numbers of the usual shape; entry by
entry the closed form, computed in real numbers, plus the filter applied to the kernel of the medium at `s = -f` (the
minimum frequency if this is larger).  Not for horizontal magnetic receivers and sources with the direct field in
closed form. -/
theorem C52_dlf {H : HBack} (hm : 0 < H.m.minRes) (hfr : 0 < H.m.minFreq) (ho : Safe H.o) (hq : IsSqrt H.sqrt)
    {A : DipoleArgs} {ht : String} {htarg : Dict} {d : Dict} {F : Filter} (hd : DlfSet d F 0)
    (hh : (Verb.checkHankel H.C H.lib H.dflt ht htarg A.verb).val = .ok ("dlf", d))
    {U : UserModel} (hU : U.Valid H.m.minRes) (hA : Describes A U) {a b : ℕ} (ha : 1 ≤ a ∧ a ≤ 6)
    (hb : 1 ≤ b ∧ b ≤ 6) (hab : toInt A.ab = .ok (10 * a + b)) {xs ys xr yr : List ℝ} {zs zr : ℝ}
    (hsrc : A.src = [xs, ys, [zs]]) (hrcv : A.rcv = [xr, yr, [zr]])
    (hls : xs.length = ys.length ∨ xs.length = 1 ∨ ys.length = 1)
    (hlr : xr.length = yr.length ∨ xr.length = 1 ∨ yr.length = 1)
    {abc : ℕ} {ms mr : Bool} (hc : checkAb (.int (10 * a + b)) = .ok (abc, ms, mr))
    (ns : 0 < numDipoles A.src) (nr : 0 < numDipoles A.rcv) (hf : ∀ f ∈ A.freq, f ≤ 0)
    (hx : A.xdirect ≠ some true ∨ ¬ (a ∈ [4, 5] ∧ b ∈ [4, 5])) :
    ∃ arr, (dipoleH H A ht htarg).val = .ok (if A.squeeze then NdArray.squeeze arr else arr) ∧
      arr.shape = [A.freq.length, numDipoles A.rcv, numDipoles A.src] ∧
      ∀ (f r s : ℕ) (hf : f < A.freq.length), r < numDipoles A.rcv → s < numDipoles A.src →
        let M := U.medium ((max (-A.freq[f]) H.m.minFreq : ℝ) : ℂ)
        let ρ := rhoOf H.m.minOff (bc xr r - bc xs s) (bc yr r - bc ys s)
        let θ := thetaOf (bc xr r - bc xs s) (bc yr r - bc ys s)
        ∀ ls lr, M.InUpper ls zs → M.InUpper lr zr → ∃ u v : ℝ, arr.get [f, r, s] = ((u + v : ℝ) : ℂ) ∧
          (if abc ≠ 36 ∧ A.xdirect = some true ∧ (ls = lr ∨ U.Uniform) then
            fullspaceReal H.sqrt (layerMed M lr) ρ θ zs zr abc ms mr else some 0) = some (u : ℂ) ∧
          (if abc = 36 ∨ (U.Uniform ∧ A.xdirect ≠ some false) then 0 else
            filterRule F ρ (hIntegrand H.o (earthOf M) zs zr ls lr abc (A.xdirect.getD true) ms mr ρ
              (angleFactor θ abc ms mr))) = v := by
  have hr := dlf_runs H hd
  have hdip := C51_dipole H A ht htarg hh hr (by rintro ⟨h | h, -⟩ <;> simp at h)
  have hc' : checkAb A.ab = .ok (abc, ms, mr) := by rw [checkAb, hab]; exact hc
  obtain ⟨arr, h1, h2, h3⟩ := C44_entry (B := backOf H "dlf" d) hm (C51_dlf H hd) hU hA hc' hsrc hrcv hls hlr ns nr
  refine ⟨arr, ?_, h2, ?_⟩
  · rw [hdip]
    unfold Model.dipole
    rw [bind_val, h1]
    rfl
  intro f r s hfl hrl hsl M ρ θ ls lr hsu hru
  have h := h3 f r s hfl hrl hsl
  simp only at h
  obtain ⟨hs0, es⟩ := laplace_s (m := H.m.minFreq) hfr hf A.freq[f]
  have hM : M.OK := user_ok hm hU (by exact_mod_cast hs0.ne') (by simpa using hs0.le)
  have e1 := (user_layer hU _ _ _).1 hsu
  have e2 := (user_layer hU _ _ _).1 hru
  have hfull := user_full (m := H.m) hm hU
  have hlay : ((layerOf (userOut H.m U).depth zs == layerOf (userOut H.m U).depth zr) = true) ↔ ls = lr := by
    rw [e1, e2]; simp
  have hsr : zr = zs → lr = ls := by rintro rfl; rw [e1, e2]
  have hk := fun lam : ℝ => C52_kernel hM (user_real hm hU hs0.le) ho lam (upper_closed hsu) (upper_closed hru) hsr hc'
    (A.xdirect.getD true)
  have hdir : Direct A.xdirect (userOut H.m U).isfullspace
      (layerOf (userOut H.m U).depth zs == layerOf (userOut H.m U).depth zr) ↔
      A.xdirect = some true ∧ (ls = lr ∨ U.Uniform) := by
    unfold Direct; rw [hfull, hlay, or_comm]
  have hskip : Skipped abc A.xdirect (userOut H.m U).isfullspace ↔
      abc = 36 ∨ (U.Uniform ∧ A.xdirect ≠ some false) := by
    unfold Skipped; rw [hfull]
  -- the closed form
  obtain ⟨u, hu1, hu2⟩ : ∃ u : ℝ, (if abc ≠ 36 ∧ A.xdirect = some true ∧ (ls = lr ∨ U.Uniform) then
        fullspaceReal H.sqrt (layerMed M lr) ρ θ zs zr abc ms mr else some 0) = some (u : ℂ) ∧
      (if abc ≠ 36 ∧ A.xdirect = some true ∧ (ls = lr ∨ U.Uniform) then
        (Fullspace.fullspace H.sqrt (A.freq.map fun g => layerMed (U.medium (sParam H.m.minFreq A.freq g)) lr) ρ θ zs zr
          abc ms mr).getD f 0 else 0) = (u : ℂ) := by
    by_cases hcase : abc ≠ 36 ∧ A.xdirect = some true ∧ (ls = lr ∨ U.Uniform)
    · rw [if_pos hcase, if_pos hcase]
      have hx' : ¬ (a ∈ [4, 5] ∧ b ∈ [4, 5]) := by
        rcases hx with hx | hx
        · exact absurd hcase.2.1 hx
        · exact hx
      obtain ⟨u, hu1, hu2⟩ := C52_direct hq (laplace_med hm hU hs0 (i := lr) ⟨hru.1, hru.2.1⟩) ρ θ zs zr ha hb hx' hc hcase.1
      refine ⟨u, hu1, ?_⟩
      rw [Fullspace.fullspace, getD_eq (by simpa using hfl), List.getElem_map]
      have hneg : decide (∃ m ∈ A.freq.map fun g => layerMed (U.medium (sParam H.m.minFreq A.freq g)) lr,
          (if (mr && ms) = true then m.dual else m).zetaH.im < 0) = false := by
        rw [decide_eq_false_iff_not]
        rintro ⟨m, hmm, hlt⟩
        obtain ⟨g, -, rfl⟩ := List.mem_map.1 hmm
        obtain ⟨hg0, eg⟩ := laplace_s (m := H.m.minFreq) hfr hf g
        obtain ⟨a', b', c', d', -, -, -, -, q1, -, q3, -⟩ := user_real hm hU hg0.le lr
        rw [← eg] at q1 q3
        split_ifs at hlt
        · simp only [Med.dual, layerMed, q1, Complex.neg_im, Complex.ofReal_im, neg_zero, lt_irrefl] at hlt
        · simp only [layerMed, q3, Complex.ofReal_im, lt_irrefl] at hlt
      simp only [List.getElem_map, hneg, es]
      exact hu2
    · rw [if_neg hcase, if_neg hcase]
      exact ⟨0, by simp, by simp⟩
  -- the integral
  obtain ⟨v, hv⟩ : ∃ v : ℝ, (if abc = 36 ∨ (U.Uniform ∧ A.xdirect ≠ some false) then 0 else
      filterRule F ρ (hIntegrand H.o (earthOf M) zs zr ls lr abc (A.xdirect.getD true) ms mr ρ
        (angleFactor θ abc ms mr))) = (v : ℂ) := by
    split_ifs
    · exact ⟨0, by simp⟩
    · refine ⟨_, Complex.ext (by rw [Complex.ofReal_re]) ?_⟩
      rw [Complex.ofReal_im]
      exact filterRule_real F ρ fun lam x y => hankelIntegrand_real (hk lam) _ _ _ _ _
  refine ⟨u, v, ?_, hu1, hv⟩
  rw [h, Complex.ofReal_add, ← hu2, ← hv]
  have hes : sParam (backOf H "dlf" d).m.minFreq A.freq A.freq[f] = ((max (-A.freq[f]) H.m.minFreq : ℝ) : ℂ) := es
  rw [hes]
  simp only [show (backOf H "dlf" d).m = H.m from rfl, show (backOf H "dlf" d).sqrt = H.sqrt from rfl,
    show (backOf H "dlf" d).o = H.o from rfl, hdir, hskip, ← e1, ← e2]
  rfl

end Verif.Props
