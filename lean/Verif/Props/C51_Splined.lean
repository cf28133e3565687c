import Verif.Props.C51_Quad
import Verif.Lemmas.GaussHankel

/-!
# C51: QWE with interpolated kernels, and the zeros of the Bessel function
-/

namespace Verif.Props
open Verif.Py Verif.Py.W Verif.Utils Verif.Spec Verif.Model Verif.Kernel Verif.Lemmas Verif.Transform Verif.Time
open Verif.Args Verif.Hank

/-! ## The ends of the intervals -/

/-- The map of Newton's method for a zero of `f`. -/
noncomputable def newtonMap (f : ℝ → ℝ) (x : ℝ) : ℝ := x - f x / deriv f x

/-- The step of the code is Newton's step for `J₁`, where `J₂ = 2 J₁/x - J₀`. -/
theorem newton_step {H : HBack} (hJ0 : ∀ x, (H.J0 x : ℂ) = besselJ0 x) (hJ1 : ∀ x, (H.J1 x : ℂ) = besselJ1 x)
    (hJ2 : ∀ x, H.J2 x = 2 * H.J1 x / x - H.J0 x) {x : ℝ} (hx : x ≠ 0) :
    x + newtonStep H x = newtonMap H.J1 x := by
  have hd : HasDerivAt H.J1 (H.J0 x - H.J1 x / x) x := by
    have h := (Complex.reCLM.hasFDerivAt.comp_hasDerivAt x (J1_deriv hx))
    have e : (⇑Complex.reCLM ∘ besselJ1) = H.J1 := by
      funext y
      simp [Function.comp, ← hJ1]
    rw [e] at h
    refine h.congr_deriv ?_
    rw [← hJ0, ← hJ1, ← Complex.ofReal_div, ← Complex.ofReal_sub]
    simp
  unfold newtonMap newtonStep
  rw [hd.deriv, hJ2]
  rw [show H.J1 x / x - (2 * H.J1 x / x - H.J0 x) = H.J0 x - H.J1 x / x by ring]
  ring

theorem newton_iter (H : HBack) (n left : ℕ) : ∀ b : ℕ → ℝ, ∃ k ≤ left,
    newton H n left b = (fun c i => c i + newtonStep H (c i))^[k] b ∧
    (k < left → 0 < k ∧ ∀ i < n, |newtonStep H ((fun c i => c i + newtonStep H (c i))^[k - 1] b i)| <
      8 * H.eps * newton H n left b i) := by
  induction left with
  | zero => exact fun b => ⟨0, le_rfl, rfl, fun h => absurd h (lt_irrefl 0)⟩
  | succ left ih =>
    intro b
    by_cases h : ∀ i < n, |newtonStep H (b i)| < 8 * H.eps * (b i + newtonStep H (b i))
    · refine ⟨1, by omega, ?_, fun _ => ⟨one_pos, ?_⟩⟩
      · unfold newton; simp only [if_pos h]; rfl
      · unfold newton; simp only [if_pos h]; exact h
    · obtain ⟨k, hk, h1, h2⟩ := ih fun i => b i + newtonStep H (b i)
      have e : newton H n (left + 1) b = newton H n left fun i => b i + newtonStep H (b i) := by
        rw [newton]; simp only [if_neg h]
      refine ⟨k + 1, by omega, by rw [e, h1]; rfl, fun hlt => ⟨by omega, ?_⟩⟩
      obtain ⟨h3, h4⟩ := h2 (by omega)
      intro i hi
      have := h4 i hi
      rw [e]
      obtain ⟨m, rfl⟩ : ∃ m, k = m + 1 := ⟨k - 1, by omega⟩
      exact this

theorem iter_app (H : HBack) (k : ℕ) : ∀ b : ℕ → ℝ, (fun c : ℕ → ℝ => fun i => c i + newtonStep H (c i))^[k] b =
    fun i => (fun x => x + newtonStep H x)^[k] (b i) := by
  induction k with
  | zero => intro b; rfl
  | succ k ih => intro b; rw [Function.iterate_succ_apply, ih]; rfl

/-- **C51, the intervals of QWE.**  Unless an iterate is exactly zero, the `i`-th end is what at most ten steps of
Newton's method for `J₁` make of `π (i + 5/4)`, the same number of steps for all; if fewer than ten, the last one
changed each end by less than `8 eps` of it. -/
theorem C51_zeros {H : HBack} (hJ0 : ∀ x, (H.J0 x : ℂ) = besselJ0 x) (hJ1 : ∀ x, (H.J1 x : ℂ) = besselJ1 x)
    (hJ2 : ∀ x, H.J2 x = 2 * H.J1 x / x - H.J0 x) (n : ℕ) : ∃ k ≤ 10,
      ∀ i < n, (∀ m < k, (newtonMap H.J1)^[m] (Real.pi * (i + 5 / 4)) ≠ 0) →
        bZero H n i = (newtonMap H.J1)^[k] (Real.pi * (i + 5 / 4)) ∧
        (k < 10 → 0 < k ∧ |bZero H n i - (newtonMap H.J1)^[k - 1] (Real.pi * (i + 5 / 4))| < 8 * H.eps * bZero H n i) := by
  obtain ⟨k, hk, h1, h2⟩ := newton_iter H n 10 fun i => Real.pi * (1.25 + i)
  refine ⟨k, hk, fun i hi h0 => ?_⟩
  have start : Real.pi * (1.25 + (i : ℝ)) = Real.pi * (i + 5 / 4) := by ring
  have key : ∀ m ≤ k, (fun x => x + newtonStep H x)^[m] (Real.pi * (i + 5 / 4)) =
      (newtonMap H.J1)^[m] (Real.pi * (i + 5 / 4)) := by
    intro m
    induction m with
    | zero => intro _; rfl
    | succ m ih =>
      intro hm
      rw [Function.iterate_succ_apply', Function.iterate_succ_apply', ih (by omega)]
      exact newton_step hJ0 hJ1 hJ2 (h0 m (by omega))
  have hz : bZero H n i = (newtonMap H.J1)^[k] (Real.pi * (i + 5 / 4)) := by
    rw [bZero, h1, iter_app]
    beta_reduce
    rw [start, key k le_rfl]
  refine ⟨hz, fun hlt => ?_⟩
  obtain ⟨h3, h4⟩ := h2 hlt
  refine ⟨h3, ?_⟩
  have h5 := h4 i hi
  rw [iter_app] at h5
  beta_reduce at h5
  rw [start, key (k - 1) (by omega)] at h5
  have e : bZero H n i - (newtonMap H.J1)^[k - 1] (Real.pi * (i + 5 / 4)) =
      newtonStep H ((newtonMap H.J1)^[k - 1] (Real.pi * (i + 5 / 4))) := by
    obtain ⟨m, rfl⟩ : ∃ m, k = m + 1 := ⟨k - 1, by omega⟩
    rw [hz, Function.iterate_succ_apply', Nat.add_sub_cancel, ← newton_step hJ0 hJ1 hJ2 (h0 m (by omega))]
    ring
  rw [e]
  exact h5

/-- A zero of `J₁` is left alone. -/
example {H : HBack} {x : ℝ} (hx : H.J1 x = 0) : newtonMap H.J1 x = x := by
  simp [newtonMap, hx]

/-! ## Interpolated kernels -/

/-- Checked arguments of QWE with interpolation; `none`: not given (or zero). -/
structure HQweSpl (d : Dict) (nq mx : ℕ) (ppd rtol atol dq : ℝ) (a e limit : Option ℝ) : Prop where
  rtol : d.lookup "rtol" = some (.num rtol)
  atol : d.lookup "atol" = some (.num atol)
  nquad : d.lookup "nquad" = some (.num (nq : ℝ))
  maxint : d.lookup "maxint" = some (.num (mx : ℝ))
  pts : d.lookup "pts_per_dec" = some (.num ppd)
  diff : d.lookup "diff_quad" = some (.num dq)
  a : getOpt "a" d = .ok a
  e : getOpt "b" d = .ok e
  limit : getOpt "limit" d = .ok limit

/-- Sum of the kernels. -/
noncomputable def kernelSum (f : KernelFn) (l : ℝ) : ℂ :=
  ((f.at l).1).getD 0 + ((f.at l).2.1).getD 0 + ((f.at l).2.2).getD 0

/-- In no interval the kernels decay by the factor `dq` or more. -/
def Gentle (f : KernelFn) (b : ℕ → ℝ) (M : ℕ) (dq ρ : ℝ) : Prop :=
  ∀ i < M, ‖kernelSum f ((if i = 0 then 1e-20 else b (i - 1)) / ρ)‖ < dq * ‖kernelSum f (b i / ρ)‖

theorem gentle_iff (f : KernelFn) (b : ℕ → ℝ) (M : ℕ) (dq ρ : ℝ) :
    doQweH b M dq f ρ = true ↔ Gentle f b M dq ρ := by
  have hs : ∀ l, kerSum f l = kernelSum f l := fun l => rfl
  unfold doQweH Gentle
  rw [decide_eq_true_iff]
  refine forall₂_congr fun i _ => ?_
  have e1 : hInt b (i + 1) = b i := by simp [hInt]
  rw [hs, hs, e1]
  change _ ↔ ‖kernelSum f (hInt b i / ρ)‖ < _
  have h1 := norm_nonneg (kernelSum f (hInt b i / ρ))
  rcases (norm_nonneg (kernelSum f (b i / ρ))).eq_or_lt with h | h
  · rw [← h]; simp
  · rw [div_lt_iff₀ h]
    exact ⟨fun h => h.2, fun h' => ⟨h.ne', h'⟩⟩

theorem hTermSpl_eq (H : HBack) (b : ℕ → ℝ) (Q : Waveform.Quad) (f : KernelFn) (ab : ℕ) (p : ℝ × ℝ) (i : ℕ) :
    hTermSpl H b Q f ab p i = hTerm H b Q f ab p i := by
  unfold hTermSpl hTerm
  rw [(C20_kernel ..).1, (C20_kernel ..).2]

theorem filter_pos {α : Type} (P : α → Bool) : ∀ (l : List α) (d : α) (j : ℕ) (hj : j < l.length), P l[j] = true →
    ((l.take j).filter P).length < (l.filter P).length ∧
    (l.filter P).getD ((l.take j).filter P).length d = l[j]
  | [], _, j, hj, _ => absurd hj (by simp)
  | x :: t, d, 0, _, h => by
    have h : P x = true := h
    simp [List.filter_cons, h]
  | x :: t, d, j + 1, hj, h => by
    have hj' : j < t.length := by simpa using hj
    obtain ⟨h1, h2⟩ := filter_pos P t d j hj' h
    simp only [List.getElem_cons_succ, List.take_succ_cons, List.filter_cons]
    by_cases hx : P x = true
    · simp only [hx, if_true, List.length_cons, List.getD_cons_succ]
      exact ⟨by omega, h2⟩
    · simp only [hx, if_false, Bool.false_eq_true]
      exact ⟨h1, h2⟩

open Classical in
/-- **C51, QWE with interpolation.**  The kernels are interpolated between the smallest and the largest wavenumber of
all offsets.  Where the interpolated kernels do not decay too fast the value is the one of QWE, otherwise of
`quad` between `a` and `b` (by default the ends of the first and of the last interval), both with interpolated kernels
(`quadAt_eq` for an exact integrator). -/
theorem C51_qwe_splined (H : HBack) {d : Dict} {nq mx : ℕ} {ppd rtol atol dq : ℝ} {a e limit : Option ℝ}
    (hd : HQweSpl d nq mx ppd rtol atol dq a e limit) (hp : ppd ≠ 0) {f : KernelFn} {ab : ℕ}
    {offs : List (ℝ × ℝ)} {r : (ℕ → ℂ) × Bool} (h : hankelRow H "qwe" d f ab offs = .ok r) :
    let b := bZero H mx
    let Q := H.gauss nq
    let par : QPar := ⟨rtol, atol, H.tiny, H.big, H.zero⟩
    let lam := offs.flatMap fun p => (List.range mx).flatMap fun i => (List.range Q.n).map fun q =>
      ((b i - if i = 0 then 1e-20 else b (i - 1)) / 2 * (Q.x q + 1) + if i = 0 then 1e-20 else b (i - 1)) / p.1
    ∃ g, lamGrid (lam.min?.getD 0) (lam.max?.getD 0) ppd = .ok g ∧ LogOK g.length (fun i => g.getD i 0) ∧
      let S : KernelFn := interpK H.R g f
      let one := fun p : ℝ × ℝ => quadAt H g f ab (a.getD (1e-20 / p.1)) (e.getD (b (mx - 1) / p.1)) atol rtol
        (limit.getD mx) p
      (∀ j (hj : j < offs.length), r.1 j =
        if Gentle S b mx dq offs[j].1 then
          withBessel H.J0 H.J1 (qweRule par b Q mx) offs[j].1 fun l x y =>
            hankelIntegrand (S.at l) ab offs[j].1 offs[j].2 x y
        else (one offs[j]).1) ∧
      (r.2 = true ↔ ∀ p ∈ offs, if Gentle S b mx dq p.1 then
          ∃ k, k + 1 < mx ∧ FirstPass par (fun i => gaussOn Q (fun l => hankelIntegrand (S.at l) ab p.1 p.2
            (H.J0 (l * p.1) : ℂ) (H.J1 (l * p.1) : ℂ)) ((if i = 0 then 1e-20 else b (i - 1)) / p.1) (b i / p.1)) k
        else (one p).2 = true) := by
  intro b Q par lam
  rw [hankelRow, if_neg (by decide), if_pos rfl, qweRow] at h
  simp only [getNum_some hd.rtol, getNum_some hd.atol, getNum_some hd.nquad, getNum_some hd.maxint,
    getNum_some hd.pts, getNum_some hd.diff, hd.a, hd.e, hd.limit, bind, Except.bind, need, Nat.one_le_cast,
    Nat.floor_natCast, if_neg hp] at h
  split_ifs at h with h1
  have hlam : allLam (bZero H mx) (H.gauss nq) mx offs = lam := by
    simp only [allLam, hBx, hInt, Nat.add_sub_cancel, lam]
    rfl
  rw [hlam] at h
  cases hg : lamGrid (lam.min?.getD 0) (lam.max?.getD 0) ppd with
  | error e => simp only [hg] at h; cases h
  | ok g =>
    simp only [hg] at h
    split_ifs at h with h2 h3
    refine ⟨g, rfl, h2, ?_⟩
    intro S one
    obtain rfl := Except.ok.inj h
    have hS : interpK H.R g f = S := rfl
    have hI0 : ∀ p : ℝ × ℝ, hInt b 0 / p.1 = 1e-20 / p.1 := fun p => rfl
    have hIm : ∀ p : ℝ × ℝ, hInt b mx / p.1 = b (mx - 1) / p.1 := fun p => by
      rw [hInt, if_neg (by omega)]
    simp only [hS]
    have hone : ∀ p : ℝ × ℝ, quadAt H g f ab (a.getD (hInt b 0 / p.1)) (e.getD (hInt b mx / p.1)) atol rtol
        (limit.getD mx) p = one p := fun p => by rw [hI0, hIm]
    set P : ℝ × ℝ → Bool := fun p => doQweH b mx dq S p.1 with hP
    have hPg : ∀ p : ℝ × ℝ, P p = true ↔ Gentle S b mx dq p.1 := fun p => gentle_iff S b mx dq p.1
    set good := offs.filter P with hgood
    have term : ∀ p : ℝ × ℝ, hTermSpl H b Q S ab p = fun i => gaussOn Q (fun l => hankelIntegrand (S.at l) ab p.1 p.2
        (H.J0 (l * p.1) : ℂ) (H.J1 (l * p.1) : ℂ)) ((if i = 0 then 1e-20 else b (i - 1)) / p.1) (b i / p.1) := by
      intro p; funext i; rw [hTermSpl_eq, hTerm_eq]
    have h3' : good ≠ [] → 2 ≤ mx := fun hne => by
      by_contra hc
      exact h3 ⟨hne, by omega⟩
    have lim : good ≠ [] → ∃ q, (qwe par mx good.length fun j i => hTermSpl H b Q S ab (good.getD j (0, 0)) i) = some q ∧
        (∀ j < good.length, q.1 j = qweLimit par mx (hTermSpl H b Q S ab (good.getD j (0, 0)))) ∧
        (q.2.2 = true ↔ ∀ j < good.length, ∃ k, k + 1 < mx ∧
          FirstPass par (hTermSpl H b Q S ab (good.getD j (0, 0))) k) := by
      intro hne
      cases hr : qwe par mx good.length fun j i => hTermSpl H b Q S ab (good.getD j (0, 0)) i with
      | none => have := h3' hne; rw [C20_raises] at hr; omega
      | some q =>
        obtain ⟨l1, l2⟩ := qwe_limit hr
        exact ⟨q, rfl, l1, l2 (List.length_pos_iff.2 hne)⟩
    refine ⟨fun j hj => ?_, ?_⟩
    · rw [List.getD_eq_getElem _ _ hj]
      by_cases hc : P offs[j] = true
      · obtain ⟨f1, f2⟩ := filter_pos P offs (0, 0) j hj hc
        rw [if_pos hc, if_pos ((hPg _).1 hc)]
        obtain ⟨q, q1, q2, -⟩ := lim (by intro h0; rw [← hgood, h0] at f1; simp at f1)
        change ((qwe par mx good.length fun j i => hTermSpl H b Q S ab (good.getD j (0, 0)) i).getD
          (fun _ => 0, 0, true)).1 _ = _
        rw [q1, Option.getD_some, q2 _ f1, f2, term]
        rfl
      · rw [if_neg hc, if_neg (fun h => hc ((hPg _).2 h))]
        exact congrArg Prod.fst (hone offs[j])
    · rw [Bool.and_eq_true, List.all_eq_true]
      have key : (good.isEmpty || ((qwe par mx good.length fun j i =>
          hTermSpl H b Q S ab (good.getD j (0, 0)) i).getD (fun _ => 0, 0, true)).2.2) = true ↔
          ∀ p ∈ good, ∃ k, k + 1 < mx ∧ FirstPass par (hTermSpl H b Q S ab p) k := by
        by_cases hne : good = []
        · rw [hne]; simp
        · obtain ⟨q, q1, -, q3⟩ := lim hne
          rw [q1, Option.getD_some, Bool.or_eq_true, q3]
          have : good.isEmpty = false := by simpa using hne
          rw [this]
          simp only [Bool.false_eq_true, false_or]
          constructor
          · intro h p hp
            obtain ⟨j, hj, rfl⟩ := List.getElem_of_mem hp
            have := h j hj
            rwa [List.getD_eq_getElem _ _ hj] at this
          · intro h j hj
            rw [List.getD_eq_getElem _ _ hj]
            exact h _ (List.getElem_mem hj)
      refine (and_congr_right fun _ => key).trans ?_
      constructor
      · rintro ⟨c1, c2⟩ p hp
        by_cases hc : P p = true
        · rw [if_pos ((hPg _).1 hc), ← term]
          exact c2 p (List.mem_filter.2 ⟨hp, hc⟩)
        · rw [if_neg (fun h => hc ((hPg _).2 h)), ← hone]
          exact c1 p (List.mem_filter.2 ⟨hp, by simpa [hP] using hc⟩)
      · intro c
        refine ⟨fun p hp => ?_, fun p hp => ?_⟩
        · obtain ⟨hp, hc⟩ := List.mem_filter.1 hp
          have hc : ¬ P p = true := by simpa [hP] using hc
          have := c p hp
          rw [if_neg (fun h => hc ((hPg _).2 h)), ← hone] at this
          exact this
        · obtain ⟨hp, hc⟩ := List.mem_filter.1 hp
          have := c p hp
          rw [if_pos ((hPg _).1 hc), ← term] at this
          exact this

/-- With at least two intervals and enough wavenumbers to interpolate, QWE with interpolation does not raise. -/
theorem C51_splined_runs (H : HBack) {d : Dict} {nq mx : ℕ} {ppd rtol atol dq : ℝ} {a e limit : Option ℝ}
    (hd : HQweSpl d nq mx ppd rtol atol dq a e limit) (hp : ppd ≠ 0) (hq : 1 ≤ nq) (hm : 2 ≤ mx) (f : KernelFn) (ab : ℕ)
    {offs : List (ℝ × ℝ)} (ho : offs ≠ []) {g : List ℝ}
    (hg : lamGrid ((allLam (bZero H mx) (H.gauss nq) mx offs).min?.getD 0)
      ((allLam (bZero H mx) (H.gauss nq) mx offs).max?.getD 0) ppd = .ok g)
    (hl : LogOK g.length fun i => g.getD i 0) : ∃ r, hankelRow H "qwe" d f ab offs = .ok r := by
  rw [hankelRow, if_neg (by decide), if_pos rfl, qweRow]
  simp only [getNum_some hd.rtol, getNum_some hd.atol, getNum_some hd.nquad, getNum_some hd.maxint,
    getNum_some hd.pts, getNum_some hd.diff, hd.a, hd.e, hd.limit, bind, Except.bind, need, Nat.one_le_cast,
    Nat.floor_natCast, if_neg hp]
  rw [if_pos ⟨hq, by omega, ho⟩]
  simp only [hg, if_pos hl]
  rw [if_neg (by omega)]
  exact ⟨_, rfl⟩

/-! ## The wavenumbers of the interpolations -/

/-- **C51, wavenumbers of QUAD and of the splined QWE**: from `x` to `y` with equal ratios, one more than the points per
decade times the decades (rounded down). -/
theorem C51_grid {x y ppd : ℝ} (hx : 0 < x) (hxy : x ≤ y) (hp : 0 ≤ ppd) :
    lamGrid x y ppd = .ok ((List.range (⌊Real.logb 10 (y / x) * ppd⌋₊ + 1)).map fun i : ℕ =>
      x * (y / x) ^ ((i : ℝ) / (⌊Real.logb 10 (y / x) * ppd⌋₊ : ℝ))) := by
  have hy := hx.trans_le hxy
  have hl : Real.logb 10 (y / x) = Real.logb 10 y - Real.logb 10 x := Real.logb_div hy.ne' hx.ne'
  have h0 : 0 ≤ Real.logb 10 (y / x) * ppd :=
    mul_nonneg (Real.logb_nonneg (by norm_num) ((one_le_div hx).2 hxy)) hp
  set t := Real.logb 10 (y / x) * ppd with ht
  have hn : Tem.trunc ((Real.logb 10 y - Real.logb 10 x) * ppd + 1) = ((⌊t⌋₊ + 1 : ℕ) : ℤ) := by
    rw [← hl, ← ht, Tem.trunc, if_pos (by linarith), Int.floor_add_one, Nat.cast_succ, Int.natCast_floor_eq_floor h0]
  unfold lamGrid logspace
  rw [hn, if_neg (by omega)]
  refine congrArg Except.ok ?_
  rw [Int.toNat_natCast]
  refine List.map_congr_left fun i _ => ?_
  have e : ((((⌊t⌋₊ + 1 : ℕ) : ℤ) : ℝ) - 1) = (⌊t⌋₊ : ℝ) := by push_cast; ring
  rw [e, Real.rpow_add (by norm_num), Real.rpow_logb (by norm_num) (by norm_num) hx]
  congr 1
  rw [show (i : ℝ) * ((Real.logb 10 y - Real.logb 10 x) / (⌊t⌋₊ : ℝ)) =
    Real.logb 10 (y / x) * ((i : ℝ) / (⌊t⌋₊ : ℝ)) by rw [hl]; ring, Real.rpow_mul (by norm_num),
    Real.rpow_logb (by norm_num) (by norm_num) (div_pos hy hx)]

/-- Two decades, two points per decade: five wavenumbers. -/
example : lamGrid 1 100 2 = .ok [1, 1 * 100 ^ (1 / 4 : ℝ), 1 * 100 ^ (2 / 4 : ℝ), 1 * 100 ^ (3 / 4 : ℝ), 100] := by
  have h2 : Real.logb 10 (100 / 1) = 2 := by
    rw [show (100 / 1 : ℝ) = 10 ^ (2 : ℝ) by norm_num, Real.logb_rpow (by norm_num) (by norm_num)]
  have h4 : ⌊(2 : ℝ) * 2⌋₊ = 4 := by norm_num
  rw [C51_grid (by norm_num) (by norm_num) (by norm_num), h2, h4]
  simp [List.range_succ]

/-! ## Where no transform is needed -/

/-- No transform is used: a vertical electric and a vertical magnetic dipole, or a full space whose direct field is not
computed in the wavenumber domain. -/
def NoTransform (H : HBack) (A : DipoleArgs) : Prop :=
  (∃ c, checkAb A.ab = .ok c ∧ c.1 = 36) ∨ (∃ mo,
    (checkModel H.m A.depth A.res A.aniso A.epermH A.epermV A.mpermH A.mpermV A.xdirect A.verb).val = .ok mo ∧
    mo.isfullspace = true ∧ A.xdirect ≠ some false)

theorem skip_of {H : HBack} {A : DipoleArgs} (hn : NoTransform H A) {mo c}
    (hmo : (checkModel H.m A.depth A.res A.aniso A.epermH A.epermV A.mpermH A.mpermV A.xdirect A.verb).val = .ok mo)
    (hc : checkAb A.ab = .ok c) : c.1 = 36 ∨ (mo.isfullspace && A.xdirect.getD true) = true := by
  rcases hn with ⟨c', h1, h2⟩ | ⟨mo', h1, h2, h3⟩
  · rw [h1] at hc
    obtain rfl := Except.ok.inj hc
    exact Or.inl h2
  · rw [h1] at hmo
    obtain rfl := Except.ok.inj hmo
    refine Or.inr ?_
    rw [h2]
    cases hd : A.xdirect with
    | none => rfl
    | some b => cases b <;> simp_all

theorem fem_skip {α : Type} (hank : Calc α) (full : ℕ → ℕ → ℂ) {ab : ℕ} (offs : List (ℝ × ℝ)) (rows : List α)
    (same : Bool) {xd : Option Bool} {isf : Bool} (ms mr lf lo conv : Bool)
    (h : ab = 36 ∨ (isf && xd.getD true) = true) :
    fem hank full ab offs rows same xd isf ms mr lf lo conv =
      ⟨fun i j => if ab ≠ 36 ∧ xd = some true ∧ (isf = true ∨ same = true) then full i j else 0, 0, conv⟩ := by
  unfold fem
  by_cases h36 : ab = 36
  · simp [h36]
  · have h : (isf && xd.getD true) = true := h.resolve_left h36
    by_cases hx : xd = some true ∧ (isf = true ∨ same = true)
    · simp only [h36, List.mem_singleton, if_false, if_pos hx, if_pos h, zero_add, ne_eq, not_false_eq_true, true_and]
    · simp only [h36, List.mem_singleton, if_false, if_neg hx, if_pos h, ne_eq, not_false_eq_true, true_and]

/-- **C51, without transform.**  Where no transform is used, neither the method nor its arguments matter once they
are accepted: same array or same exception for all of them. -/
theorem C51_unneeded (H : HBack) (A : DipoleArgs) (hn : NoTransform H A) {ht ht' : String} {htarg htarg' : Dict}
    {h h' : String × Dict} (hc : (Verb.checkHankel H.C H.lib H.dflt ht htarg A.verb).val = .ok h)
    (hc' : (Verb.checkHankel H.C H.lib H.dflt ht' htarg' A.verb).val = .ok h') :
    (dipoleH H A ht htarg).val = (dipoleH H A ht' htarg').val := by
  unfold dipoleH
  have key : (dipoleHFull H A ht htarg inFreq).val = (dipoleHFull H A ht' htarg' inFreq).val := by
    unfold dipoleHFull
    refine bind_val_congr fun mo hmo => bind_val_congr fun fo _ => ?_
    rw [bind_ok hc, bind_ok hc']
    refine bind_val_congr fun c hab => bind_val_congr fun src _ => bind_val_congr fun rcv _ => ?_
    have hx := skip_of hn hmo hab
    simp only [if_pos hx]
    simp only [bind_val, say_val, Except.bind, inFreq, pure_val]
    simp only [fem_skip _ _ _ _ _ _ _ _ _ _ hx]
  rw [bind_val, bind_val, key]

/-- It is also the array of the model without arguments. -/
theorem C51_unneeded_dipole (H : HBack) (A : DipoleArgs) (hn : NoTransform H A) {ht : String} {htarg : Dict}
    {h : String × Dict} (hc : (Verb.checkHankel H.C H.lib H.dflt ht htarg A.verb).val = .ok h) :
    (dipoleH H A ht htarg).val = (Model.dipole (backOf H h.1 h.2) A).val := by
  unfold dipoleH Model.dipole
  have key : (dipoleHFull H A ht htarg inFreq).val = (dipoleFull (backOf H h.1 h.2) A).val := by
    unfold dipoleHFull dipoleFull dipoleWith dipoleTail
    refine bind_val_congr fun mo hmo => bind_val_congr fun fo _ => ?_
    rw [bind_ok hc]
    refine bind_val_congr fun c hab => bind_val_congr fun src _ => bind_val_congr fun rcv _ => ?_
    simp only [if_pos (skip_of hn hmo hab)]
    rfl
  rw [bind_val, bind_val, key]

/-! ## The test at the first interval -/

/-- **The test for steep kernels extrapolates.**  For one offset (as with `loop='off'`) and nodes above `-1`, the first
wavenumber at which the interpolated kernels are compared lies below all the wavenumbers between which
they are interpolated. -/
theorem C51_first_test (b : ℕ → ℝ) (Q : Waveform.Quad) (mx : ℕ) {ρ : ℝ} (hρ : 0 < ρ)
    (hb : ∀ i < mx, (if i = 0 then 1e-20 else b (i - 1)) < b i) (hQ : ∀ q < Q.n, -1 < Q.x q) (ang : ℝ) :
    ∀ l ∈ allLam b Q mx [(ρ, ang)], 1e-20 / ρ < l := by
  have hge : ∀ i < mx, (1e-20 : ℝ) ≤ if i = 0 then 1e-20 else b (i - 1) := by
    intro i
    induction i with
    | zero => intro _; simp
    | succ i ih =>
      intro hi
      rw [if_neg (by omega), Nat.add_sub_cancel]
      exact (ih (by omega)).trans (hb i (by omega)).le
  intro l hl
  simp only [allLam, List.flatMap_cons, List.flatMap_nil, List.append_nil, List.mem_flatMap, List.mem_map,
    List.mem_range] at hl
  obtain ⟨i, hi, q, hq, rfl⟩ := hl
  refine div_lt_div_of_pos_right ?_ hρ
  have h1 := hb i hi
  have h2 := hQ q hq
  have h3 := hge i hi
  have e : hBx b Q i q = (b i - if i = 0 then 1e-20 else b (i - 1)) / 2 * (Q.x q + 1) +
      if i = 0 then 1e-20 else b (i - 1) := by
    simp only [hBx, hInt, Nat.add_sub_cancel]; rfl
  rw [e]
  have : 0 < (b i - if i = 0 then 1e-20 else b (i - 1)) / 2 * (Q.x q + 1) :=
    mul_pos (by linarith) (by linarith)
  linarith

end Verif.Props
