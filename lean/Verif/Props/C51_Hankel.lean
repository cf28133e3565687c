import Verif.Model.HankelFull
import Verif.Props.C50_FourierQwe
import Verif.Props.C20_Qwe
import Verif.Props.C21_Quad
import Verif.Props.C45_Decay

/-!
# C51: `dipole` with any Hankel transform and its arguments
-/

namespace Verif.Props
open Verif.Py Verif.Py.W Verif.Utils Verif.Spec Verif.Model Verif.Kernel Verif.Lemmas Verif.Transform Verif.Time
open Verif.Args Verif.Hank

/-! ## Specification: the rules -/

/-- The quadrature rule `Q` for the integral of a complex function from `a` to `b`. -/
noncomputable def gaussOn (Q : Waveform.Quad) (h : ℝ → ℂ) (a b : ℝ) : ℂ :=
  (((b - a) / 2 : ℝ) : ℂ) * ∑ q ∈ Finset.range Q.n, (Q.w q : ℂ) * h ((b - a) / 2 * (Q.x q + 1) + a)

open Classical in
/-- What quadrature with extrapolation (C20) makes of the contributions `t` of at most `M` intervals. -/
noncomputable def qweLimit (p : QPar) (M : ℕ) (t : ℕ → ℂ) : ℂ :=
  zeroBig p (if h : ∃ k < M, FirstPass p t k then
      (if h.choose = 2 then 0 else extrapolated p t (h.choose - 1))
    else extrapolated p t (M - 1))

/-- Quadrature with extrapolation as rule: at offset `ρ` the wavenumbers are cut at `1e-20/ρ` and at `b i/ρ`. -/
noncomputable def qweRule (p : QPar) (b : ℕ → ℝ) (Q : Waveform.Quad) (M : ℕ) (ρ : ℝ) (h : ℝ → ℂ) : ℂ :=
  qweLimit p M fun i => gaussOn Q h ((if i = 0 then 1e-20 else b (i - 1)) / ρ) (b i / ρ)

/-- A rule for wavenumbers, used with given Bessel functions. -/
noncomputable def withBessel (J0 J1 : ℝ → ℝ) (T : ℝ → (ℝ → ℂ) → ℂ) : HRule := fun ρ g =>
  T ρ fun lam => g lam (J0 (lam * ρ) : ℂ) (J1 (lam * ρ) : ℂ)

/-! ## Kernels as functions of wavenumber -/

theorem lift_map (f : Option (ℝ → ℂ)) : lift (fun l => f.map fun g => g l) = f := by
  cases f <;> simp [lift]

theorem kfn_eq (o : Ops) (E : Earth) (zs zr : ℝ) (ls lr : ℤ) (abc : ℕ) (xd ms mr : Bool) :
    kfn o E zs zr ls lr abc xd ms mr = kernelFn o E zs zr ls lr abc xd ms mr := by
  have h : ∀ l, wavenumber o E zs zr ls lr l abc xd ms mr = (kernelFn o E zs zr ls lr abc xd ms mr).at l :=
    fun l => (kernelFn_at o E zs zr ls lr abc xd ms mr l).symm
  unfold kfn
  simp only [h]
  generalize kernelFn o E zs zr ls lr abc xd ms mr = f
  obtain ⟨f0, f1, f2⟩ := f
  simp only [KernelFn.at, lift_map]

theorem kernelFn_given (o : Ops) (E : Earth) (zs zr : ℝ) (ls lr : ℤ) (abc : ℕ) (xd ms mr : Bool) :
    (kernelFn o E zs zr ls lr abc xd ms mr).given := by
  unfold KernelFn.given kernelFn
  by_cases h33 : abc ∈ [33]
  · have h3 : abc ∈ [11, 22, 24, 15, 33] := by
      simp only [List.mem_cons, List.not_mem_nil, or_false] at h33 ⊢; omega
    left; simp only [if_pos h3, Option.isSome_some]
  · right; left; simp only [if_pos h33, Option.isSome_some]

theorem given_bool {f : KernelFn} (h : f.given) : ¬ (f.1.isSome || f.2.1.isSome || f.2.2.isSome) = false := by
  unfold KernelFn.given at h
  rcases h with h | h | h <;> simp [h]

/-! ## Quadrature with extrapolation, one entry at a time -/

theorem firstPass_unique {p : QPar} {t : ℕ → ℂ} {i k : ℕ} (hi : FirstPass p t i) (hk : FirstPass p t k) : i = k := by
  rcases lt_trichotomy i k with h | h | h
  · have := hk.2.2 i hi.1 h
    rw [hi.2.1] at this; cases this
  · exact h
  · have := hi.2.2 k hk.1 h
    rw [hk.2.1] at this; cases this

theorem qwe_limit {p : QPar} {M n : ℕ} {t : ℕ → ℕ → ℂ} {out : (ℕ → ℂ) × ℕ × Bool} (h : qwe p M n t = some out) :
    (∀ j < n, out.1 j = qweLimit p M (t j)) ∧
    (0 < n → (out.2.2 = true ↔ ∀ j < n, ∃ k, k + 1 < M ∧ FirstPass p (t j) k)) := by
  refine ⟨fun j hj => ?_, fun hn => (C20_qwe_partial p M n hn t out h).2.2.2.1⟩
  obtain ⟨h2, h3, h4, h5, h6, h7, -⟩ := C20_qwe_partial p M n (by omega) t out h
  have hend : out.2.2 = false → out.2.1 = M := by
    intro hc
    unfold qwe at h
    split_ifs at h with h1
    have h := Option.some.inj h
    subst h
    simp only [ne_eq, decide_eq_false_iff_not, not_not] at hc ⊢
    omega
  have hcnt : ∀ k, k < M → FirstPass p (t j) k → k < out.2.1 := by
    intro k hk hp
    cases hc : out.2.2 with
    | false => rw [hend hc]; exact hk
    | true =>
      obtain ⟨k', hk', hp'⟩ := C20_stops p M n t out h hc j hj
      rwa [firstPass_unique hp hp']
  unfold qweLimit
  by_cases hx : ∃ k < M, FirstPass p (t j) k
  · rw [dif_pos hx]
    exact h6 j _ (hcnt _ hx.choose_spec.1 hx.choose_spec.2) hx.choose_spec.2
  · rw [dif_neg hx]
    have hno : ∀ k, k < out.2.1 → ¬ FirstPass p (t j) k := fun k hk hp => hx ⟨k, by omega, hp⟩
    rw [h7 j hno]
    cases hc : out.2.2 with
    | false => rw [hend hc]
    | true =>
      obtain ⟨k', hk', hp'⟩ := C20_stops p M n t out h hc j hj
      exact absurd hp' (hno k' hk')

theorem integrand_scale (k : Option ℂ × Option ℂ × Option ℂ) (ab : ℕ) (r ang : ℝ) (w x y : ℂ) :
    hankelIntegrand k ab r ang (x * w) (y * w) = w * hankelIntegrand k ab r ang x y := by
  obtain ⟨k0, k1, k2⟩ := k
  by_cases hab : ab ∈ j2codes <;> cases k0 <;> cases k1 <;> cases k2 <;>
    simp [hankelIntegrand, hab] <;> ring

/-- The contribution of an interval is the quadrature of the Hankel integrand over this interval. -/
theorem hTerm_eq (H : HBack) (b : ℕ → ℝ) (Q : Waveform.Quad) (f : KernelFn) (ab : ℕ) (p : ℝ × ℝ) (i : ℕ) :
    hTerm H b Q f ab p i = gaussOn Q (fun lam => hankelIntegrand (f.at lam) ab p.1 p.2 (H.J0 (lam * p.1) : ℂ)
      (H.J1 (lam * p.1) : ℂ)) ((if i = 0 then 1e-20 else b (i - 1)) / p.1) (b i / p.1) := by
  obtain ⟨ρ, ang⟩ := p
  have hi : hInt b (i + 1) = b i := by simp [hInt]
  have hi0 : hInt b i = if i = 0 then 1e-20 else b (i - 1) := rfl
  unfold hTerm gaussOn
  simp only
  rw [← hi0, ← hi, mul_comm, (C20_kernel _ _ _ _ _ _ _).1]
  by_cases hρ : ρ = 0
  · subst hρ; simp [hWeight]
  refine congrArg₂ (· * ·) rfl (Finset.sum_congr rfl fun q _ => ?_)
  have e : (hInt b (i + 1) / ρ - hInt b i / ρ) / 2 * (Q.x q + 1) + hInt b i / ρ = hBx b Q i q / ρ := by
    unfold hBx; ring
  rw [e, div_mul_cancel₀ _ hρ]
  simp only [Complex.ofReal_mul, integrand_scale]
  congr 2
  obtain ⟨f0, f1, f2⟩ := f
  simp only [kerAt, KernelFn.at, Option.map_map]
  rfl

/-! ## Arguments -/

/-- Checked arguments of the standard DLF. -/
structure DlfSet (d : Dict) (F : Filter) (ppd : ℝ) : Prop where
  dlf : ∃ a, d.lookup "dlf" = some (.filter a F)
  pts : d.lookup "pts_per_dec" = some (.num ppd)

/-- Checked arguments of QWE without interpolation. -/
structure HQweSet (d : Dict) (nq mx : ℕ) (rtol atol : ℝ) : Prop where
  rtol : d.lookup "rtol" = some (.num rtol)
  atol : d.lookup "atol" = some (.num atol)
  nquad : d.lookup "nquad" = some (.num (nq : ℝ))
  maxint : d.lookup "maxint" = some (.num (mx : ℝ))
  pts : d.lookup "pts_per_dec" = some (.num 0)

theorem qweRow_eq (H : HBack) {d : Dict} {nq mx : ℕ} {rtol atol : ℝ} (hd : HQweSet d nq mx rtol atol) (K : KFn)
    (ab : ℕ) (offs : List (ℝ × ℝ)) : qweRow H d K ab offs =
      if 1 ≤ nq ∧ 1 ≤ mx ∧ offs ≠ [] then
        match qwe ⟨rtol, atol, H.tiny, H.big, H.zero⟩ mx offs.length fun j i =>
            hTerm H (bZero H mx) (H.gauss nq) K ab (offs.getD j (0, 0)) i with
        | none => .error .unboundLocal
        | some r => .ok (r.1, r.2.2)
      else .error .valueError := by
  unfold qweRow
  simp only [getNum_some hd.rtol, getNum_some hd.atol, getNum_some hd.nquad, getNum_some hd.maxint,
    getNum_some hd.pts, bind, Except.bind, need, Nat.one_le_cast, Nat.floor_natCast]
  by_cases h : 1 ≤ nq ∧ 1 ≤ mx ∧ offs ≠ []
  · rw [if_pos h, if_pos h]
    simp only [if_true]
    rfl
  · rw [if_neg h, if_neg h]

theorem dlfRow_eq (H : HBack) {d : Dict} {F : Filter} (hd : DlfSet d F 0) {f : KernelFn} (hf : f.given)
    (ab : ℕ) {offs : List (ℝ × ℝ)} (ho : offs ≠ []) : dlfRow H d f ab offs =
      .ok (fun j => (dlfHankel H.R .standard F ⟨0, fun _ => 0, fun i => (offs.map Prod.fst).getD i 0, 0, fun _ => 0⟩
        (sampled f fun i k => F.base k / (offs.map Prod.fst).getD i 0) (some (offs.map Prod.snd)) ab j).getD 0, true) := by
  obtain ⟨a, ha⟩ := hd.dlf
  have h1 : (getDlf d).val = .ok F := by simp only [getDlf, ha, pure_val]
  unfold dlfRow
  simp only [h1, getNum_some hd.pts, bind, Except.bind, need]
  rw [if_pos (by simpa using ho)]
  simp only [if_neg (given_bool hf), if_true]
  rfl

/-! ## Which rule -/

theorem hank_uses {H : HBack} {ht : String} {d : Dict} {T : HRule} {k : KernelFn → ℕ → ℝ × ℝ → Bool}
    (hv : ∀ (f : KernelFn) ab offs, f.given → offs ≠ [] → ∃ r, hankelRow H ht d f ab offs = .ok r ∧
      (∀ j (hj : j < offs.length), r.1 j = T offs[j].1 fun lam x y =>
        hankelIntegrand (f.at lam) ab offs[j].1 offs[j].2 x y) ∧
      (r.2 = true ↔ ∀ p ∈ offs, k f ab p = true))
    (he : ∀ (f : KernelFn) ab, ∃ e, hankelRow H ht d f ab [] = .error e ∨
      ∃ r, hankelRow H ht d f ab [] = .ok r ∧ r.2 = true) : Uses (backOf H ht d) T := by
  intro zs zr ls lr abc ms mr
  refine ⟨fun xd E p => k (kernelFn H.o E zs zr ls lr abc xd ms mr) abc p, ?_, ?_⟩
  · intro xd rows offs i j hi hj
    obtain ⟨r, h1, h2, -⟩ := hv (kernelFn H.o rows[i] zs zr ls lr abc xd ms mr) abc offs
      (kernelFn_given _ _ _ _ _ _ _ _ _ _) (by rintro rfl; simp at hj)
    simp only [backOf, List.getElem?_eq_getElem hi, kfn_eq, h1, okOr]
    rw [h2 j hj]
    simp only [kernelFn_at]
    rfl
  · intro xd rows offs
    simp only [backOf, List.all_eq_true, kfn_eq]
    refine forall₂_congr fun E _ => ?_
    by_cases ho : offs = []
    · subst ho
      simp only [List.not_mem_nil, false_imp_iff, implies_true, iff_true]
      obtain ⟨e, h | ⟨r, h, h'⟩⟩ := he (kernelFn H.o E zs zr ls lr abc xd ms mr) abc
      · rw [h]; rfl
      · rw [h]; exact h'
    · obtain ⟨r, h1, -, h3⟩ := hv (kernelFn H.o E zs zr ls lr abc xd ms mr) abc offs
        (kernelFn_given _ _ _ _ _ _ _ _ _ _) ho
      rw [h1]
      exact h3

/-- **C51, digital filters.**  The standard DLF with filter `F` applies the filter to each frequency and each
offset. -/
theorem C51_dlf (H : HBack) {d : Dict} {F : Filter} (hd : DlfSet d F 0) :
    Uses (backOf H "dlf" d) (filterRule F) := by
  refine hank_uses (k := fun _ _ _ => true) (fun f ab offs hf ho => ?_) (fun f ab => ?_)
  · refine ⟨_, by rw [hankelRow, if_pos rfl]; exact dlfRow_eq H hd hf ab ho, fun j hj => ?_, by simp⟩
    have h := (C17_dlf H.R F ab (fun _ (_ : Unit) => f) (fun _ _ => hf)).val true [()] offs 0 j (by simp) hj
    simp only [hankelDlf, List.getElem?_cons_zero] at h
    exact h
  · obtain ⟨a, ha⟩ := hd.dlf
    have h1 : (getDlf d).val = .ok F := by simp only [getDlf, ha, pure_val]
    refine ⟨.valueError, Or.inl ?_⟩
    rw [hankelRow, if_pos rfl, dlfRow]
    simp only [h1, getNum_some hd.pts, bind, Except.bind, need]
    simp

/-- **C51, QWE.**  Without interpolation, with at least one quadrature point and at least two intervals: for each
frequency and each offset the Hankel integrand is integrated with the Gauss rule between the zeros `bZero` divided by
the offset, and the contributions are extrapolated, independently of all other frequencies and offsets. -/
theorem C51_qwe (H : HBack) {d : Dict} {nq mx : ℕ} {rtol atol : ℝ} (hd : HQweSet d nq mx rtol atol) (hq : 1 ≤ nq)
    (hm : 2 ≤ mx) : Uses (backOf H "qwe" d) (withBessel H.J0 H.J1
      (qweRule ⟨rtol, atol, H.tiny, H.big, H.zero⟩ (bZero H mx) (H.gauss nq) mx)) := by
  classical
  refine hank_uses (k := fun f ab p => decide (∃ k, k + 1 < mx ∧ FirstPass ⟨rtol, atol, H.tiny, H.big, H.zero⟩
    (hTerm H (bZero H mx) (H.gauss nq) f ab p) k)) (fun f ab offs hf ho => ?_) (fun f ab => ?_)
  · have hrow : hankelRow H "qwe" d f ab offs = qweRow H d f ab offs := by
      rw [hankelRow, if_neg (by decide), if_pos rfl]
    rw [hrow, qweRow_eq H hd, if_pos ⟨hq, by omega, ho⟩]
    cases hr : qwe ⟨rtol, atol, H.tiny, H.big, H.zero⟩ mx offs.length fun j i =>
        hTerm H (bZero H mx) (H.gauss nq) f ab (offs.getD j (0, 0)) i with
    | none => rw [C20_raises] at hr; omega
    | some r =>
      obtain ⟨h1, h2⟩ := qwe_limit hr
      refine ⟨_, rfl, fun j hj => ?_, ?_⟩
      · simp only
        rw [h1 j hj]
        unfold withBessel qweRule
        congr 1
        funext i
        rw [hTerm_eq, List.getD_eq_getElem _ _ hj]
      · simp only
        rw [h2 (List.length_pos_iff.2 ho)]
        simp only [decide_eq_true_eq]
        constructor
        · intro h p hp
          obtain ⟨j, hj, rfl⟩ := List.getElem_of_mem hp
          obtain ⟨k, hk, hp⟩ := h j hj
          rw [List.getD_eq_getElem _ _ hj] at hp
          exact ⟨k, hk, hp⟩
        · intro h j hj
          obtain ⟨k, hk, hp⟩ := h offs[j] (List.getElem_mem hj)
          refine ⟨k, hk, ?_⟩
          rw [List.getD_eq_getElem _ _ hj]
          exact hp
  · refine ⟨.valueError, Or.inl ?_⟩
    rw [hankelRow, if_neg (by decide), if_pos rfl, qweRow_eq H hd, if_neg (by simp)]

/-! ## QWE as a rule in the sense of C44 -/

theorem qweLimit_congr (p : QPar) {M : ℕ} (hM : 2 ≤ M) {t t' : ℕ → ℂ} (h : ∀ i < M, t i = t' i) :
    qweLimit p M t = qweLimit p M t' := by
  have key : ∀ u : ℕ → ℂ, ((qwe p M 1 fun _ => u).getD (fun _ => 0, 0, true)).1 0 = qweLimit p M u := by
    intro u
    cases hr : qwe p M 1 fun _ => u with
    | none => rw [C20_raises] at hr; omega
    | some r => exact (qwe_limit hr).1 0 (by omega)
  rw [← key, ← key]
  exact (qwe_congr p fun _ _ => h).1 0 (by omega)

theorem eps_zero {p : QPar} (hp : 0 < p.tiny) (k : ℕ) : ∀ n, eps p (fun _ => 0) (k + 2) n = (p.big : ℂ) := by
  induction k with
  | zero => intro n; simp [eps, recip, hp]
  | succ k ih =>
    intro n
    rw [eps, ih, ih]
    simp [recip, hp]

theorem extrapolated_zero {p : QPar} (hp : 0 < p.tiny) (i : ℕ) :
    extrapolated p (fun _ => 0) i = 0 ∨ extrapolated p (fun _ => 0) i = (p.big : ℂ) := by
  have hs : partialSum (fun _ => 0) = fun _ => 0 := by funext n; simp [partialSum]
  unfold extrapolated
  rw [hs]
  simp only [add_zero]
  match i with
  | 0 => left; simp [eps]
  | 1 => left; simp [eps]
  | i + 2 => right; split_ifs <;> exact eps_zero hp _ _

theorem zeroBig_of {p : QPar} {z : ℂ} (h : z = 0 ∨ z = (p.big : ℂ)) : zeroBig p z = 0 := by
  unfold zeroBig
  rcases h with rfl | rfl
  · split_ifs <;> apply Complex.ext <;> simp
  · rw [if_pos (by simp)]; apply Complex.ext <;> simp

theorem qweLimit_zero {p : QPar} (hp : 0 < p.tiny) (M : ℕ) : qweLimit p M (fun _ => 0) = 0 := by
  unfold qweLimit
  refine zeroBig_of ?_
  split_ifs
  · exact Or.inl rfl
  · exact extrapolated_zero hp _
  · exact extrapolated_zero hp _

/-- With positive interval ends and nodes in `[-1, 1]`, QWE uses positive wavenumbers only, and integrates zero to
zero. -/
theorem qwe_isRule {p : QPar} (hp : 0 < p.tiny) {b : ℕ → ℝ} {Q : Waveform.Quad} {M : ℕ} (hM : 2 ≤ M)
    (hb : ∀ i < M, 0 < b i) (hQ : ∀ q < Q.n, |Q.x q| ≤ 1) : IsRule (qweRule p b Q M) where
  pos ρ hρ g h e := by
    refine qweLimit_congr p hM fun i hi => ?_
    have ha : 0 < (if i = 0 then 1e-20 else b (i - 1)) / ρ := by
      refine div_pos ?_ hρ
      split_ifs with h0
      · norm_num
      · exact hb _ (by omega)
    have hc : 0 < b i / ρ := div_pos (hb i hi) hρ
    unfold gaussOn
    refine congrArg₂ (· * ·) rfl (Finset.sum_congr rfl fun q hq => ?_)
    rw [e]
    obtain ⟨h1, h2⟩ := abs_le.1 (hQ q (Finset.mem_range.1 hq))
    generalize (if i = 0 then 1e-20 else b (i - 1)) / ρ = x at *
    generalize b i / ρ = y at *
    rcases h2.lt_or_eq with h2 | h2
    · nlinarith [mul_nonneg hc.le (by linarith : 0 ≤ 1 + Q.x q), mul_pos ha (by linarith : 0 < 1 - Q.x q)]
    · rw [h2]; linarith
  zero ρ := by
    unfold qweRule gaussOn
    simp only [mul_zero, Finset.sum_const_zero]
    exact qweLimit_zero hp M

/-! ## `dipole` with its arguments -/

/-- The transform raises only without offsets. -/
def Runs (H : HBack) (ht : String) (d : Dict) : Prop :=
  ∀ (f : KernelFn) ab offs, f.given →
    (∃ r, hankelRow H ht d f ab offs = .ok r) ∨ (offs = [] ∧ hankelRow H ht d f ab offs = .error .valueError)

theorem Runs.name {H : HBack} {ht : String} {d : Dict} (h : Runs H ht d) : ht ∈ ["dlf", "qwe", "quad"] := by
  by_contra hn
  simp only [List.mem_cons, List.not_mem_nil, or_false, not_or] at hn
  have hr : hankelRow H ht d (some fun _ => 0, none, none) 11 [] = .error .attributeError := by
    rw [hankelRow, if_neg hn.1, if_neg hn.2.1, if_neg hn.2.2]
  rcases h (some fun _ => 0, none, none) 11 [] (Or.inl rfl) with ⟨r, h⟩ | ⟨-, h⟩ <;> rw [hr] at h <;> cases h

theorem rowErr_eq {H : HBack} {ht : String} {d : Dict} {freq : List ℝ} {K : KFn} {ab : ℕ} {offs : List (ℝ × ℝ)}
    (h : ¬ ((ht = "qwe" ∨ ht = "quad") ∧ ∀ f ∈ freq, f ≤ 0)) :
    rowErr H ht d freq K ab offs = errOf (hankelRow H ht d K ab offs) := by
  unfold rowErr
  rw [if_neg h]
  cases errOf (hankelRow H ht d K ab offs) <;> rfl

theorem bind_val_congr {α β : Type} {x : W α} {f g : α → W β} (h : ∀ a, x.val = .ok a → (f a).val = (g a).val) :
    (x >>= f).val = (x >>= g).val := by
  rw [bind_val, bind_val]
  cases hx : x.val with
  | error e => rfl
  | ok a => exact h a hx

/-- A complex result for the Laplace domain, in which no frequency is positive. -/
def Mixed (ht : String) (freq : List ℝ) : Prop := (ht = "qwe" ∨ ht = "quad") ∧ freq ≠ [] ∧ ∀ f ∈ freq, f ≤ 0

/-- If the arguments of the transform are accepted and the transform runs, `dipole` with `ht` and `htarg` is
`dipole` with this transform: same array or same exception.  Except in the Laplace domain with QWE or QUAD, see
C52. -/
theorem C51_dipole (H : HBack) (A : DipoleArgs) (ht : String) (htarg : Dict) {h : String × Dict}
    (hc : (Verb.checkHankel H.C H.lib H.dflt ht htarg A.verb).val = .ok h) (hr : Runs H h.1 h.2)
    (hx : ¬ Mixed h.1 A.freq) :
    (dipoleH H A ht htarg).val = (Model.dipole (backOf H h.1 h.2) A).val := by
  unfold dipoleH Model.dipole
  have key : (dipoleHFull H A ht htarg inFreq).val = (dipoleFull (backOf H h.1 h.2) A).val := by
    unfold dipoleHFull dipoleFull dipoleWith dipoleTail
    refine bind_val_congr fun mo _ => bind_val_congr fun fo hfo => ?_
    rw [bind_ok hc]
    refine bind_val_congr fun c _ => bind_val_congr fun src _ => bind_val_congr fun rcv _ => ?_
    simp only [kfn_eq, hr.name, not_true_eq_false, if_false]
    split
    · rename_i e he
      split_ifs at he with h1
      obtain ⟨E, hE, he⟩ := List.exists_of_findSome?_eq_some he
      have hne : A.freq ≠ [] := by
        rintro h0
        rw [C30_frequency, h0] at hfo
        have hl : fo.freq.length = 0 := by rw [← Except.ok.inj hfo]; rfl
        rw [rowsOf, hl] at hE
        simp at hE
      rw [rowErr_eq fun q => hx ⟨q.1, hne, q.2⟩, errOf_some] at he
      rcases hr _ _ _ (kernelFn_given ..) with ⟨r, hrow⟩ | ⟨ho, hrow⟩
      · rw [hrow] at he; cases he
      · rw [hrow] at he
        obtain rfl := Except.error.inj he
        have h0 : rcv.1.length * src.1.length = 0 := by
          have := congrArg List.length ho
          simp only [List.length_map, List.length_range, List.length_nil] at this
          rw [mul_comm]; exact this
        rw [bind_val, say_val]
        simp only [Except.bind, inFreq, h0, if_true]
        rfl
    · rfl
  rw [bind_val, bind_val, key]

theorem dlf_runs (H : HBack) {d : Dict} {F : Filter} (hd : DlfSet d F 0) : Runs H "dlf" d := by
  intro f ab offs hf
  rw [hankelRow, if_pos rfl]
  by_cases ho : offs = []
  · subst ho
    obtain ⟨a, ha⟩ := hd.dlf
    have h1 : (getDlf d).val = .ok F := by simp only [getDlf, ha, pure_val]
    refine Or.inr ⟨rfl, ?_⟩
    rw [dlfRow]
    simp only [h1, getNum_some hd.pts, bind, Except.bind, need]
    simp
  · exact Or.inl ⟨_, dlfRow_eq H hd hf ab ho⟩

theorem qwe_runs (H : HBack) {d : Dict} {nq mx : ℕ} {rtol atol : ℝ} (hd : HQweSet d nq mx rtol atol) (hq : 1 ≤ nq)
    (hm : 2 ≤ mx) : Runs H "qwe" d := by
  intro f ab offs hf
  rw [hankelRow, if_neg (by decide), if_pos rfl, qweRow_eq H hd]
  by_cases ho : offs = []
  · exact Or.inr ⟨ho, if_neg (by simp [ho])⟩
  · rw [if_pos ⟨hq, by omega, ho⟩]
    cases hr : qwe ⟨rtol, atol, H.tiny, H.big, H.zero⟩ mx offs.length fun j i =>
        hTerm H (bZero H mx) (H.gauss nq) f ab (offs.getD j (0, 0)) i with
    | none => rw [C20_raises] at hr; omega
    | some r => exact Or.inl ⟨_, rfl⟩

end Verif.Props
