import Verif.Model.Dlf
import Verif.Props.C17_Fem
import Mathlib.Data.List.MinMax
import Mathlib.Data.List.GetD

/-!
# C18 — the DLF result is the filter sum, whatever optimisation is active
-/

namespace Verif.Props
open Verif.Transform

/-! ## Specification -/

/-- Three kernels, as functions of wavenumber. -/
abbrev KernelFn := Option (ℝ → ℂ) × Option (ℝ → ℂ) × Option (ℝ → ℂ)

/-- The kernels at one wavenumber. -/
def KernelFn.at (f : KernelFn) (l : ℝ) : Option ℂ × Option ℂ × Option ℂ :=
  (f.1.map fun g => g l, f.2.1.map fun g => g l, f.2.2.map fun g => g l)

/-- A digital filter replaces `∫ g(λ) J_ν(λ r) dλ` by `(1/r) Σ_k g(b_k/r) h_k`: the integrand of the
Hankel transforms with the filter coefficients in place of the Bessel functions. -/
noncomputable def filterSum (F : Filter) (f : KernelFn) (ab : ℕ) (r ang : ℝ) : ℂ :=
  (∑ k ∈ Finset.range F.n,
    hankelIntegrand (f.at (F.base k / r)) ab r ang (F.j0 k : ℂ) (F.j1 k : ℂ)) / (r : ℂ)

/-- Some kernel is given. -/
def KernelFn.given (f : KernelFn) : Prop := f.1.isSome ∨ f.2.1.isSome ∨ f.2.2.isSome

/-- The kernels sampled at `lam i k`. -/
def sampled (f : KernelFn) (lam : ℕ → ℕ → ℝ) : Kernels :=
  (f.1.map fun g i k => g (lam i k), f.2.1.map fun g i k => g (lam i k),
    f.2.2.map fun g i k => g (lam i k))

/-! ## Lemmas -/

theorem dot_eq (n : ℕ) (s : ℕ → ℂ) (c : ℕ → ℝ) :
    dot n s c = ∑ k ∈ Finset.range n, s k * (c k : ℂ) := by
  unfold dot
  induction n with
  | zero => simp
  | succ n ih => rw [List.range_succ, List.map_append, List.sum_append, ih, Finset.sum_range_succ]; simp

/-- If smallest and largest entry agree, all entries are equal to the first. -/
theorem angAt_eq (a : List ℝ) (j : ℕ) (hj : j < a.length) : angAt a j = a[j] := by
  unfold angAt oneAngle
  split_ifs with h
  · have h := of_decide_eq_true h
    have h0 : a ≠ [] := by rintro rfl; simp at hj
    obtain ⟨mn, hmn⟩ := Option.ne_none_iff_exists'.1 (mt List.min?_eq_none_iff.1 h0)
    rw [hmn] at h
    have le1 : ∀ x ∈ a, mn ≤ x := (List.min?_eq_some_iff.1 hmn).2
    have le2 : ∀ x ∈ a, x ≤ mn := (List.max?_eq_some_iff.1 h.symm).2
    have all : ∀ x ∈ a, x = mn := fun x hx => le_antisymm (le2 x hx) (le1 x hx)
    cases a with
    | nil => simp at hj
    | cons b t =>
      exact (all b (by simp)).trans (all _ (List.getElem_mem hj)).symm
  · rw [List.getD_eq_getElem _ _ hj]

/-- Multiplication by the angle factor: the shortcuts do not change anything. -/
theorem mulAng_eq (a : List ℝ) (K : Kernels) (j : ℕ) (hj : j < a.length) (x : ℂ)
    (hx : K.2.1 = none → K.2.2 = none → x = 0) :
    mulAng (some a) K j x = x * (a[j] : ℂ) := by
  have hang := angAt_eq a j hj
  unfold mulAng hasAngle
  by_cases hK : (K.2.1.isSome || K.2.2.isSome) = true
  · by_cases ho : oneAngle a = true
    · by_cases h1 : a.headD 0 = 1
      · have h2 : angAt a j = 1 := by rw [angAt, if_pos ho, h1]
        rw [h2] at hang
        simp only [ho, h1, ← hang]
        simp
      · simp only [ho, hK, h1, ne_eq, not_false_eq_true, decide_true, if_true, Bool.and_self, hang]
    · simp only [ho, hK, if_true, Bool.and_self, hang]
      simp
  · have : K.2.1 = none ∧ K.2.2 = none := by
      simpa [Option.isSome_iff_ne_none] using hK
    rw [hx this.1 this.2]; simp

theorem angPart_none (F : Filter) (K : Kernels) (ab : ℕ) (r : ℝ) (i : ℕ)
    (h1 : K.2.1 = none) (h2 : K.2.2 = none) : angPart F K ab r i = 0 := by
  simp [angPart, h1, h2, kdot]

/-- The integrand with a missing kernel taken as zero. -/
theorem integrand_eq (k : Option ℂ × Option ℂ × Option ℂ) (ab : ℕ) (r ang : ℝ) (J0 J1 : ℂ) :
    hankelIntegrand k ab r ang J0 J1 = k.1.getD 0 * J0 +
      (if ab ∈ j2codes then k.2.1.getD 0 * J1 / (r : ℂ) else k.2.1.getD 0 * J1) * ang +
      k.2.2.getD 0 * J0 * ang := by
  obtain ⟨k0, k1, k2⟩ := k
  by_cases hab : ab ∈ j2codes <;> cases k0 <;> cases k1 <;> cases k2 <;>
    simp [hankelIntegrand, hab] <;> ring

/-- The transform of one row is the filter sum, times the offset. -/
theorem row_eq (F : Filter) (f : KernelFn) (lam : ℕ → ℕ → ℝ) (ab i : ℕ) (r ang : ℝ)
    (hr : r ≠ 0) (hlam : ∀ k < F.n, lam i k = F.base k / r) :
    angPart F (sampled f lam) ab r i * (ang : ℂ) + kdot F.n (sampled f lam).1 F.j0 i =
      filterSum F f ab r ang * (r : ℂ) := by
  have hr' : (r : ℂ) ≠ 0 := by exact_mod_cast hr
  rw [filterSum, div_mul_cancel₀ _ hr']
  obtain ⟨f0, f1, f2⟩ := f
  have e : ∀ (g : ℝ → ℂ) (c : ℕ → ℝ), dot F.n (fun k => g (lam i k)) c =
      ∑ k ∈ Finset.range F.n, g (F.base k / r) * (c k : ℂ) := by
    intro g c
    rw [dot_eq]
    exact Finset.sum_congr rfl fun k hk => by rw [hlam k (Finset.mem_range.1 hk)]
  have s0 : kdot F.n (f0.map fun g i k => g (lam i k)) F.j0 i =
      ∑ k ∈ Finset.range F.n, (f0.map fun g => g (F.base k / r)).getD 0 * (F.j0 k : ℂ) := by
    cases f0 <;> simp [kdot, e]
  have s1 : kdot F.n (f1.map fun g i k => g (lam i k)) F.j1 i =
      ∑ k ∈ Finset.range F.n, (f1.map fun g => g (F.base k / r)).getD 0 * (F.j1 k : ℂ) := by
    cases f1 <;> simp [kdot, e]
  have s2 : kdot F.n (f2.map fun g i k => g (lam i k)) F.j0 i =
      ∑ k ∈ Finset.range F.n, (f2.map fun g => g (F.base k / r)).getD 0 * (F.j0 k : ℂ) := by
    cases f2 <;> simp [kdot, e]
  simp only [angPart, sampled, KernelFn.at, s0, s1, s2, integrand_eq, Finset.sum_add_distrib,
    ← Finset.sum_mul]
  split_ifs
  · rw [← Finset.sum_div]; ring
  · ring

/-! ## Theorems -/

theorem sampled_given (f : KernelFn) (lam : ℕ → ℕ → ℝ) (hf : f.given) :
    ((sampled f lam).1.isSome || (sampled f lam).2.1.isSome || (sampled f lam).2.2.isSome) ≠ false := by
  obtain ⟨f0, f1, f2⟩ := f
  simp only [KernelFn.given] at hf
  rcases hf with h | h | h <;> simp [sampled, h]

/-- **C18, standard DLF.**  Every entry is the filter sum at its own offset with its own angle
factor: the shortcut for equal angles, the shortcut for angle factors 1 and missing kernels do not
matter. -/
theorem C18_standard (R : RSpl) (F : Filter) (P : Pts) (f : KernelFn) (ang : List ℝ) (ab j : ℕ)
    (hf : f.given) (hj : j < ang.length) (hr : P.out j ≠ 0) :
    dlfHankel R .standard F P (sampled f fun i k => F.base k / P.out i) (some ang) ab j =
      some (filterSum F f ab (P.out j) ang[j]) := by
  have hr' : (P.out j : ℂ) ≠ 0 := by exact_mod_cast hr
  have hp : prepareK R .standard F P (sampled f fun i k => F.base k / P.out i) =
      sampled f fun i k => F.base k / P.out i := by
    have : prepare R .standard F P = id := rfl
    simp [prepareK, this]
  rw [dlfHankel, if_neg (sampled_given f _ hf)]
  simp only [transformK, hp]
  rw [mulAng_eq ang _ j hj _ (angPart_none F _ ab _ j),
    row_eq F f _ ab j (P.out j) ang[j] hr (fun _ _ => rfl), mul_div_cancel_right₀ _ hr']

/-- Without angle factors the standard DLF takes them as 1. -/
theorem C18_no_angles (R : RSpl) (F : Filter) (P : Pts) (f : KernelFn) (ab j : ℕ)
    (hf : f.given) (hr : P.out j ≠ 0) :
    dlfHankel R .standard F P (sampled f fun i k => F.base k / P.out i) none ab j =
      some (filterSum F f ab (P.out j) 1) := by
  have hr' : (P.out j : ℂ) ≠ 0 := by exact_mod_cast hr
  have hp : prepareK R .standard F P (sampled f fun i k => F.base k / P.out i) =
      sampled f fun i k => F.base k / P.out i := by
    have : prepare R .standard F P = id := rfl
    simp [prepareK, this]
  rw [dlfHankel, if_neg (sampled_given f _ hf)]
  simp only [transformK, hp, mulAng]
  have := row_eq F f (fun i k => F.base k / P.out i) ab j (P.out j) 1 hr (fun _ _ => rfl)
  rw [Complex.ofReal_one, mul_one] at this
  rw [this, mul_div_cancel_right₀ _ hr']

/-- The kernels after interpolation in the wavenumber domain. -/
noncomputable def interpolated (R : RSpl) (P : Pts) (f : KernelFn) : KernelFn :=
  (f.1.map fun g => spline R P.nout (fun i => g (P.points i)) P.points,
    f.2.1.map fun g => spline R P.nout (fun i => g (P.points i)) P.points,
    f.2.2.map fun g => spline R P.nout (fun i => g (P.points i)) P.points)

/-- **C18, splined DLF.**  The result is the filter sum of the interpolated kernels, whether or not
all angles are equal. -/
theorem C18_splined (R : RSpl) (F : Filter) (P : Pts) (f : KernelFn) (ang : List ℝ) (ab j : ℕ)
    (hf : f.given) (hj : j < ang.length) (hr : P.out j ≠ 0) :
    dlfHankel R .splined F P (sampled f fun _ k => P.points k) (some ang) ab j =
      some (filterSum F (interpolated R P f) ab (P.out j) ang[j]) := by
  have hr' : (P.out j : ℂ) ≠ 0 := by exact_mod_cast hr
  have hp : prepareK R .splined F P (sampled f fun _ k => P.points k) =
      sampled (interpolated R P f) fun i k => F.base k / P.out i := by
    obtain ⟨f0, f1, f2⟩ := f
    cases f0 <;> cases f1 <;> cases f2 <;> rfl
  rw [dlfHankel, if_neg (sampled_given f _ hf)]
  simp only [hp]
  have key := row_eq F (interpolated R P f) (fun i k => F.base k / P.out i) ab j (P.out j) ang[j] hr
    (fun _ _ => rfl)
  cases oneAngle ang <;> simp only [transformK] <;>
    rw [mulAng_eq ang _ j hj _ (angPart_none F _ ab _ j), key, mul_div_cancel_right₀ _ hr']

/-- A spline depends linearly on the values, and only on the values at its points. -/
structure RLinear (R : RSpl) : Prop where
  comb : ∀ m x (a : ℝ) v w y, R m x (fun i => a * v i + w i) y = a * R m x v y + R m x w y
  congr : ∀ m x v w y, (∀ i < m, v i = w i) → R m x v y = R m x w y

theorem spline_comb {R : RSpl} (hR : RLinear R) (m : ℕ) (x : ℕ → ℝ) (a : ℝ) (v w : ℕ → ℂ) (y : ℝ) :
    spline R m (fun i => v i * (a : ℂ) + w i) x y = spline R m v x y * (a : ℂ) + spline R m w x y := by
  have h1 : (fun i => (v i * (a : ℂ) + w i).re) = fun i => a * (v i).re + (w i).re := by
    funext i; simp [mul_comm]
  have h2 : (fun i => (v i * (a : ℂ) + w i).im) = fun i => a * (v i).im + (w i).im := by
    funext i; simp [mul_comm]
  simp only [spline, h1, h2, hR.comb]
  push_cast
  ring

theorem spline_congr {R : RSpl} (hR : RLinear R) (m : ℕ) (x : ℕ → ℝ) (v w : ℕ → ℂ) (y : ℝ)
    (h : ∀ i < m, v i = w i) : spline R m v x y = spline R m w x y := by
  simp only [spline]
  rw [hR.congr m _ (fun i => (v i).re) (fun i => (w i).re) _ fun i hi => by rw [h i hi],
    hR.congr m _ (fun i => (v i).im) (fun i => (w i).im) _ fun i hi => by rw [h i hi]]

theorem spline_zero {R : RSpl} (hR : RLinear R) (m : ℕ) (x : ℕ → ℝ) (y : ℝ) :
    spline R m (fun _ => 0) x y = 0 := by
  have := spline_comb hR m x (-1) (fun _ => 0) (fun _ => 0) y
  simpa using this

/-- Tiling, padding and reshaping gives every row its own window of the signal. -/
theorem lagWindow_eq (nout m n : ℕ) (val : ℕ → ℂ) (i k : ℕ) (hm : m + n = nout + 1) (hi : i < m)
    (hk : k < n) : lagWindow nout m val i k = val (i + k) := by
  have h1 : (m * nout + m) / m = nout + 1 := by
    rw [show m * nout + m = m * (nout + 1) by ring]
    exact Nat.mul_div_cancel_left _ (by omega)
  have h2 : i * (nout + 1) + k = (i + k) + nout * i := by ring
  have h3 : (i + k) + nout * i < m * nout := by
    have : nout * i + nout ≤ m * nout := by
      calc nout * i + nout = (i + 1) * nout := by ring
        _ ≤ m * nout := Nat.mul_le_mul_right _ hi
    omega
  simp only [lagWindow, h1, h2, if_pos h3]
  rw [Nat.add_mul_mod_self_left, Nat.mod_eq_of_lt (by omega)]

/-- The windows of the lagged convolution fit: there are as many rows as offsets `intp`, and the
wavenumbers of row `i` are those that the filter needs at offset `intp i` (see `C19_window`). -/
structure Windows (P : Pts) (F : Filter) : Prop where
  size : P.m + F.n = P.nout + 1
  lam : ∀ i k, i < P.m → k < F.n → P.points (i + k) = F.base k / P.intp i
  ne : ∀ i, P.intp i ≠ 0

/-- **C18, lagged convolution.**  The result is the interpolation, over the offsets `intp`, of the
filter sum times the offset, divided by the offset; for equal angles as for different angles. -/
theorem C18_lagged (R : RSpl) (hR : RLinear R) (F : Filter) (P : Pts) (hP : Windows P F)
    (f : KernelFn) (ang : List ℝ) (ab j : ℕ) (hf : f.given) (hj : j < ang.length) :
    dlfHankel R .lagged F P (sampled f fun _ k => P.points k) (some ang) ab j =
      some (splineRev R P.m (fun i => filterSum F f ab (P.intp i) ang[j] * (P.intp i : ℂ)) P.intp
        (P.out j) / (P.out j : ℂ)) := by
  let S := sampled f fun i k => P.points (i + k)
  let K := prepareK R .lagged F P (sampled f fun _ k => P.points k)
  have hK1 : K.1.isSome = S.1.isSome := by simp [K, S, prepareK, sampled]
  have hK2 : K.2.1 = none ↔ S.2.1 = none := by simp [K, S, prepareK, sampled]
  have hK3 : K.2.2 = none ↔ S.2.2 = none := by simp [K, S, prepareK, sampled]
  have hdot : ∀ (g : ℝ → ℂ) c i, i < P.m →
      dot F.n (lagWindow P.nout P.m (fun k => g (P.points k)) i) c =
        dot F.n (fun k => g (P.points (i + k))) c := by
    intro g c i hi
    rw [dot_eq, dot_eq]
    exact Finset.sum_congr rfl fun k hk => by
      rw [lagWindow_eq P.nout P.m F.n _ i k hP.size hi (Finset.mem_range.1 hk)]
  have hk : ∀ (g : Option (ℝ → ℂ)) c i, i < P.m →
      kdot F.n ((g.map fun g (_ : ℕ) k => g (P.points k)).map (prepare R .lagged F P)) c i =
        kdot F.n (g.map fun g i k => g (P.points (i + k))) c i := by
    intro g c i hi
    cases g with
    | none => rfl
    | some g => exact hdot g c i hi
  have hk0 : ∀ i, i < P.m → kdot F.n K.1 F.j0 i = kdot F.n S.1 F.j0 i := hk f.1 F.j0
  have ha : ∀ i, i < P.m → angPart F K ab (P.intp i) i = angPart F S ab (P.intp i) i := by
    intro i hi
    have e1 : kdot F.n K.2.1 F.j1 i = kdot F.n S.2.1 F.j1 i := hk f.2.1 F.j1 i hi
    have e2 : kdot F.n K.2.2 F.j0 i = kdot F.n S.2.2 F.j0 i := hk f.2.2 F.j0 i hi
    simp only [angPart, e1, e2]
  have row : ∀ i, i < P.m → angPart F K ab (P.intp i) i * (ang[j] : ℂ) + kdot F.n K.1 F.j0 i =
      filterSum F f ab (P.intp i) ang[j] * (P.intp i : ℂ) := by
    intro i hi
    rw [ha i hi, hk0 i hi]
    exact row_eq F f _ ab i _ _ (hP.ne i) fun k hk => hP.lam i k hi hk
  have rowRev : ∀ i, i < P.m →
      angPart F K ab (P.intp (P.m - 1 - i)) (P.m - 1 - i) * (ang[j] : ℂ) +
        kdot F.n K.1 F.j0 (P.m - 1 - i) =
      filterSum F f ab (P.intp (P.m - 1 - i)) ang[j] * (P.intp (P.m - 1 - i) : ℂ) :=
    fun i hi => row _ (by omega)
  rw [dlfHankel, if_neg (sampled_given f _ hf)]
  have goal : ∀ b, transformK R .lagged F P K (some ang) b ab j =
      splineRev R P.m (fun i => filterSum F f ab (P.intp i) ang[j] * (P.intp i : ℂ)) P.intp
        (P.out j) := by
    intro b
    cases b with
    | true =>
      have hm : ∀ i, mulAng (some ang) K j (angPart F K ab (P.intp i) i) =
          angPart F K ab (P.intp i) i * (ang[j] : ℂ) := fun i =>
        mulAng_eq ang K j hj _ (angPart_none F K ab _ i)
      simp only [transformK, splineRev, hm]
      exact spline_congr hR _ _ _ _ _ rowRev
    | false =>
      have h0 : (if K.1.isSome then splineRev R P.m (fun i => kdot F.n K.1 F.j0 i) P.intp (P.out j)
          else 0) = splineRev R P.m (fun i => kdot F.n K.1 F.j0 i) P.intp (P.out j) := by
        cases hc : K.1 with
        | some p => rfl
        | none =>
          have : (fun i => kdot F.n (none : Option (ℕ → ℕ → ℂ)) F.j0 i) = fun _ => 0 := rfl
          rw [this]
          exact (spline_zero hR _ _ _).symm
      simp only [transformK]
      rw [h0, mulAng_eq ang K j hj]
      · simp only [splineRev]
        rw [← spline_comb hR]
        exact spline_congr hR _ _ _ _ _ rowRev
      · intro h1 h2
        have : (fun i => angPart F K ab (P.intp i) i) = fun _ => 0 :=
          funext fun i => angPart_none F K ab _ i h1 h2
        rw [this]
        exact spline_zero hR _ _ _
  exact congrArg some (congrArg (· / (P.out j : ℂ)) (goal _))

/-- The value at one offset does not depend on the other offsets, nor on their angles. -/
theorem C18_independent (R : RSpl) (F : Filter) (P P' : Pts) (f : KernelFn) (ang ang' : List ℝ)
    (ab j j' : ℕ) (hf : f.given) (hj : j < ang.length) (hj' : j' < ang'.length)
    (hr : P.out j ≠ 0) (ho : P'.out j' = P.out j) (ha : ang'[j'] = ang[j]) :
    dlfHankel R .standard F P (sampled f fun i k => F.base k / P.out i) (some ang) ab j =
      dlfHankel R .standard F P' (sampled f fun i k => F.base k / P'.out i) (some ang') ab j' := by
  rw [C18_standard R F P f ang ab j hf hj hr, C18_standard R F P' f ang' ab j' hf hj' (ho ▸ hr),
    ho, ha]

/-- `a • f + g`, kernel by kernel. -/
noncomputable def KernelFn.comb (a : ℂ) (f g : KernelFn) : KernelFn :=
  (Option.map₂ (fun p q l => a * p l + q l) f.1 g.1,
    Option.map₂ (fun p q l => a * p l + q l) f.2.1 g.2.1,
    Option.map₂ (fun p q l => a * p l + q l) f.2.2 g.2.2)

theorem comb_getD (a : ℂ) (f g : Option (ℝ → ℂ)) (l : ℝ) (h : f.isSome = g.isSome) :
    ((Option.map₂ (fun (p q : ℝ → ℂ) l => a * p l + q l) f g).map fun g => g l).getD 0 =
      a * (f.map fun g => g l).getD 0 + (g.map fun g => g l).getD 0 := by
  cases f <;> cases g <;> simp_all

/-- The result is linear in the kernels. -/
theorem C18_linear (R : RSpl) (F : Filter) (P : Pts) (f g : KernelFn) (a : ℂ) (ang : List ℝ)
    (ab j : ℕ) (hf : f.given) (h0 : f.1.isSome = g.1.isSome) (h1 : f.2.1.isSome = g.2.1.isSome)
    (h2 : f.2.2.isSome = g.2.2.isSome) (hj : j < ang.length) (hr : P.out j ≠ 0) :
    let T := fun f : KernelFn =>
      dlfHankel R .standard F P (sampled f fun i k => F.base k / P.out i) (some ang) ab j
    ∃ x y, T f = some x ∧ T g = some y ∧ T (f.comb a g) = some (a * x + y) := by
  intro T
  have hg : g.given := by
    simpa only [KernelFn.given, ← h0, ← h1, ← h2] using hf
  have hc : (f.comb a g).given := by
    obtain ⟨f0, f1, f2⟩ := f
    obtain ⟨g0, g1, g2⟩ := g
    cases f0 <;> cases f1 <;> cases f2 <;> cases g0 <;> cases g1 <;> cases g2 <;>
      simp_all [KernelFn.given, KernelFn.comb]
  refine ⟨_, _, C18_standard R F P f ang ab j hf hj hr, C18_standard R F P g ang ab j hg hj hr, ?_⟩
  refine (C18_standard R F P _ ang ab j hc hj hr).trans (congrArg some ?_)
  have hlin : ∀ l J0 J1, hankelIntegrand ((f.comb a g).at l) ab (P.out j) ang[j] J0 J1 =
      a * hankelIntegrand (f.at l) ab (P.out j) ang[j] J0 J1 +
        hankelIntegrand (g.at l) ab (P.out j) ang[j] J0 J1 := by
    intro l J0 J1
    simp only [integrand_eq, KernelFn.comb, KernelFn.at, comb_getD a _ _ l h0, comb_getD a _ _ l h1,
      comb_getD a _ _ l h2]
    split_ifs <;> ring
  simp only [filterSum, hlin, Finset.sum_add_distrib, ← Finset.mul_sum]
  ring

/-- Without a kernel, and without angle factors in the splined and lagged variants, the call
raises. -/
theorem C18_raises (R : RSpl) (v : Variant) (F : Filter) (P : Pts) (ang : Option (List ℝ)) (ab j : ℕ)
    (K : Kernels) :
    dlfHankel R v F P K ang ab j = none ↔
      (K.1 = none ∧ K.2.1 = none ∧ K.2.2 = none) ∨ (ang = none ∧ v ≠ .standard) := by
  obtain ⟨k0, k1, k2⟩ := K
  cases k0 <;> cases k1 <;> cases k2 <;> cases ang <;> cases v <;> simp [dlfHankel]

/-- **C18, Fourier transform.**  Standard DLF: the filter sum of the imaginary part with the sine
filter (sign reversed), or of the real part with the cosine filter. -/
theorem C18_fourier (R : RSpl) (F : Filter) (P : Pts) (E : ℝ → ℂ) (j : ℕ) :
    dlfFourier R .standard F P (fun i k => E (F.base k / P.out i)) true j =
      ((-(∑ k ∈ Finset.range F.n, (E (F.base k / P.out j)).im * F.sin k) / P.out j : ℝ) : ℂ) ∧
    dlfFourier R .standard F P (fun i k => E (F.base k / P.out i)) false j =
      (((∑ k ∈ Finset.range F.n, (E (F.base k / P.out j)).re * F.cos k) / P.out j : ℝ) : ℂ) := by
  constructor <;> simp [dlfFourier, prepare, dot_eq, Finset.sum_neg_distrib]

/-- **C18, Fourier transform, lagged convolution.**  The interpolation over the times `intp` of the
standard transform times the time, divided by the time. -/
theorem C18_fourier_lagged (R : RSpl) (hR : RLinear R) (F : Filter) (P : Pts) (hP : Windows P F)
    (E : ℝ → ℂ) (sine : Bool) (j : ℕ) :
    dlfFourier R .lagged F P (fun _ k => E (P.points k)) sine j =
      splineRev R P.m (fun i => dlfFourier R .standard F { P with out := P.intp }
        (fun i k => E (F.base k / P.intp i)) sine i * (P.intp i : ℂ)) P.intp (P.out j) /
        (P.out j : ℂ) := by
  simp only [dlfFourier, if_true, reduceCtorEq, if_false, splineRev]
  congr 1
  refine spline_congr hR _ _ _ _ _ fun i hi => ?_
  have hne : (P.intp (P.m - 1 - i) : ℂ) ≠ 0 := by exact_mod_cast hP.ne _
  rw [div_mul_cancel₀ _ hne, dot_eq, dot_eq]
  refine Finset.sum_congr rfl fun k hk => ?_
  have hk := Finset.mem_range.1 hk
  have hi' : P.m - 1 - i < P.m := by omega
  simp only [prepare]
  rw [lagWindow_eq P.nout P.m F.n _ _ k hP.size hi' hk, hP.lam _ k hi' hk]

/-- **C17 for the digital filter method.**  The standard DLF treats frequencies and offsets one by
one, so that the loop option does not matter (`C17_loops`). -/
theorem C17_dlf {α : Type} (R : RSpl) (F : Filter) (ab : ℕ) (f : Bool → α → KernelFn)
    (hf : ∀ xd a, (f xd a).given) :
    Elementwise (hankelDlf R F ab fun xd a lam => sampled (f xd a) lam)
      (fun xd a p => filterSum F (f xd a) ab p.1 p.2) (fun _ _ _ => true) := by
  refine ⟨fun xd rows offs i j hi hj => ?_, fun xd rows offs => by simp [hankelDlf]⟩
  have ho : (offs.map Prod.fst).getD j 0 = offs[j].1 := by
    rw [List.getD_eq_getElem _ _ (by simpa using hj)]; simp
  have hs : j < (offs.map Prod.snd).length := by simpa using hj
  simp only [hankelDlf, List.getElem?_eq_getElem hi]
  by_cases hr : offs[j].1 = 0
  · -- not reached: offsets are positive
    rw [filterSum, hr, Complex.ofReal_zero, div_zero]
    rw [dlfHankel, if_neg (sampled_given _ _ (hf xd _))]
    simp only [ho, hr, Complex.ofReal_zero, div_zero, Option.getD_some]
  · rw [C18_standard R F _ (f xd rows[i]) _ ab j (hf xd _) hs (by simpa only [ho] using hr)]
    simp only [ho, Option.getD_some, List.getElem_map]

/-! ## A concrete case -/

/-- Two filter points, kernels `PJ0 = 1/λ`, `PJ1 = 1`, no `PJ0b`; offsets 1 and 2 with different
angles 3 and 5; code 12 (with the second-order Bessel function): `(1 + 1/2 + 5·(7 + 11)/2)/2` at the
second offset. -/
example (R : RSpl) (F : Filter) (hn : F.n = 2) (hb : ∀ k : ℕ, F.base k = k + 1)
    (h0 : ∀ k : ℕ, F.j0 k = 1 / 2) (h1 : ∀ k : ℕ, F.j1 k = 7 + 4 * k) (P : Pts)
    (ho : ∀ i : ℕ, P.out i = i + 1) :
    dlfHankel R .standard F P
      (sampled (some fun l => ((1 / l : ℝ) : ℂ), some fun _ => 1, none) fun i k => F.base k / P.out i)
      (some [3, 5]) 12 1 = some ((1 + 1 / 2 + 5 * (7 + 11) / 2) / 2) := by
  rw [C18_standard R F P _ [3, 5] 12 1 (by simp [KernelFn.given]) (by simp) (by rw [ho]; norm_num)]
  simp [filterSum, hn, hb, h0, h1, ho, Finset.sum_range_succ, KernelFn.at, hankelIntegrand, j2codes]
  norm_num

end Verif.Props
