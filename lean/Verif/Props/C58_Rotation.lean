import Verif.Props.C58_Plane

/-!
# C58: turning sources and receivers by any angle, from the arguments

The response for arbitrary directions of source and receiver is put together from nine calls of `dipole`.  All positions and
both directions are turned about the vertical axis: the response does not change.
-/

namespace Verif.Props
open Verif.Spec Verif.Py Verif.Py.W Verif.Utils Verif.Model Verif.Kernel Verif.Transform Verif.Fullspace
  Verif.Lemmas MeasureTheory Set

/-! ## Specification -/

/-- The positions `(x', y')` are the positions `(x, y)` turned by `α`; `n` positions. -/
def TurnedBy (α : ℝ) (x y x' y' : List ℝ) (n : ℕ) : Prop :=
  ∀ s < n, bc x' s = Real.cos α * bc x s - Real.sin α * bc y s ∧ bc y' s = Real.sin α * bc x s + Real.cos α * bc y s

/-- The rule may be taken into the sum over the nine combinations of components. -/
def Sums (T : HRule) (ρ : ℝ) (g : ℕ → ℕ → ℝ → ℂ → ℂ → ℂ) : Prop :=
  ∀ w : ℕ → ℕ → ℂ, T ρ (fun lam x y => ∑ a ∈ Finset.Icc 1 3, ∑ b ∈ Finset.Icc 1 3, w a b * g a b lam x y) =
    ∑ a ∈ Finset.Icc 1 3, ∑ b ∈ Finset.Icc 1 3, w a b * T ρ (g a b)

/-- Digital filters: always. -/
theorem filter_sums (F : Filter) (ρ : ℝ) (g : ℕ → ℕ → ℝ → ℂ → ℂ → ℂ) : Sums (filterRule F) ρ g := by
  intro w
  unfold filterRule
  rw [Finset.sum_comm, Finset.sum_div]
  refine Finset.sum_congr rfl fun a _ => ?_
  rw [Finset.sum_comm, Finset.sum_div]
  refine Finset.sum_congr rfl fun b _ => ?_
  rw [← Finset.mul_sum, mul_div_assoc]

/-- Exact integration: if the nine integrals exist. -/
theorem exact_sums (ρ : ℝ) (g : ℕ → ℕ → ℝ → ℂ → ℂ → ℂ)
    (h : ∀ a ∈ Finset.Icc 1 3, ∀ b ∈ Finset.Icc 1 3,
      IntegrableOn (fun lam => g a b lam (besselJ0 (lam * ρ)) (besselJ1 (lam * ρ))) (Ioi 0)) :
    Sums (besselRule fun _ g => ∫ lam in Ioi (0 : ℝ), g lam) ρ g := by
  intro w
  unfold besselRule
  dsimp only
  rw [integral_finset_sum _ fun a ha => integrable_finset_sum _ fun b hb => (h a ha b hb).const_mul _]
  refine Finset.sum_congr rfl fun a ha => ?_
  rw [integral_finset_sum _ fun b hb => (h a ha b hb).const_mul _]
  exact Finset.sum_congr rfl fun b _ => integral_const_mul _ _

/-! ## Integrands -/

/-- The integrand with fixed values of the Bessel functions, as a transform of the kernels. -/
noncomputable def pointMethod (l ρ : ℝ) (x y : ℂ) : Method where
  t0 g := g l * x
  t1 g := g l * y
  t2 g := g l / ρ * y
  tb g := g l * x
  odd0 g := by simp
  odd1 g := by simp
  odd2 g := by simp [neg_div]
  oddb g := by simp

theorem point_value (l ρ : ℝ) (x y : ℂ) (o : Ops) (E : Earth) (zs zr : ℝ) (s r : ℤ) (c : ℕ) (xd ms mr : Bool) (f : ℝ) :
    (pointMethod l ρ x y).value (kernFns o E zs zr s r c xd ms mr) c f =
      hankelIntegrand (wavenumber o E zs zr s r l c xd ms mr) c ρ f x y := by
  rw [← wn_at]
  obtain ⟨k1, k2, k3⟩ := kernFns o E zs zr s r c xd ms mr
  unfold Method.value Method.angular hankelIntegrand pointMethod KernelFn.at
  cases k1 <;> cases k2 <;> cases k3 <;> simp only [Option.map_none, Option.map_some, Option.elim] <;> (try split_ifs) <;> ring

/-- The code, and the two flags, for component `10 a + b`. -/
noncomputable def decode (a b : ℕ) : ℕ × Bool × Bool :=
  (if 3 < a then (if 3 < b then 10 * (a - 3) + (b - 3) else 10 * b + a) else 10 * a + b, decide (3 < b), decide (3 < a))

theorem decode_ok {a b : ℕ} (ha : 1 ≤ a ∧ a ≤ 6) (hb : 1 ≤ b ∧ b ≤ 6) :
    checkAb (.int (10 * a + b)) = .ok ((decode a b).1, (decode a b).2.1, (decode a b).2.2) := checkAb_digits ha hb

theorem off_range {t a : ℕ} (ht : t = 0 ∨ t = 3) (h : a ∈ Finset.Icc 1 3) : 1 ≤ t + a ∧ t + a ≤ 6 := by
  rw [Finset.mem_Icc] at h; omega

theorem integrand_turn {o : Ops} (ho : Safe o) (E : Earth) (zs zr : ℝ) (s r : ℤ) (l : ℝ) (xd : Bool) {ta tb : ℕ}
    (hta : ta = 0 ∨ ta = 3) (htb : tb = 0 ∨ tb = 3) (u v : ℕ → ℂ) (θ α ρ : ℝ) (x y : ℂ) :
    ∑ a ∈ Finset.Icc 1 3, ∑ b ∈ Finset.Icc 1 3, turn α u a * turn α v b *
      hankelIntegrand (wavenumber o E zs zr s r l (decode (ta + a) (tb + b)).1 xd (decode (ta + a) (tb + b)).2.1
        (decode (ta + a) (tb + b)).2.2) (decode (ta + a) (tb + b)).1 ρ
        (exactFactor (θ + α) (decode (ta + a) (tb + b)).1 (decode (ta + a) (tb + b)).2.1 (decode (ta + a) (tb + b)).2.2) x y =
    ∑ a ∈ Finset.Icc 1 3, ∑ b ∈ Finset.Icc 1 3, u a * v b *
      hankelIntegrand (wavenumber o E zs zr s r l (decode (ta + a) (tb + b)).1 xd (decode (ta + a) (tb + b)).2.1
        (decode (ta + a) (tb + b)).2.2) (decode (ta + a) (tb + b)).1 ρ
        (exactFactor θ (decode (ta + a) (tb + b)).1 (decode (ta + a) (tb + b)).2.1 (decode (ta + a) (tb + b)).2.2) x y := by
  have h := C08_method (pointMethod l ρ x y) (S := ⟨o, E, zs, zr, s, r, xd⟩) ho θ α u v hta htb
  have key : ∀ (u v : ℕ → ℂ) (θ : ℝ), (pointMethod l ρ x y).response ⟨o, E, zs, zr, s, r, xd⟩ exactFactor ta tb u v θ =
      ∑ a ∈ Finset.Icc 1 3, ∑ b ∈ Finset.Icc 1 3, u a * v b *
      hankelIntegrand (wavenumber o E zs zr s r l (decode (ta + a) (tb + b)).1 xd (decode (ta + a) (tb + b)).2.1
        (decode (ta + a) (tb + b)).2.2) (decode (ta + a) (tb + b)).1 ρ
        (exactFactor θ (decode (ta + a) (tb + b)).1 (decode (ta + a) (tb + b)).2.1 (decode (ta + a) (tb + b)).2.2) x y := by
    intro u v θ
    unfold Method.response
    refine Finset.sum_congr rfl fun a ha => Finset.sum_congr rfl fun b hb => ?_
    rw [comp_eq _ _ _ _ (decode_ok (off_range hta ha) (off_range htb hb)), point_value]
  rw [key, key] at h
  exact h

/-! ## Closed form -/

theorem turn_mat {t : ℕ} (ht : t = 0 ∨ t = 3) (α : ℝ) (u f : ℕ → ℂ) :
    ∑ a ∈ Finset.Icc 1 3, turn α u a * ∑ a' ∈ Finset.Icc 1 6, rotMat α (t + a) a' * f a' =
      ∑ a ∈ Finset.Icc 1 3, u a * f (t + a) := by
  have e3 : Finset.Icc 1 3 = ({1, 2, 3} : Finset ℕ) := by decide
  have e6 : Finset.Icc 1 6 = ({1, 2, 3, 4, 5, 6} : Finset ℕ) := by decide
  have hcs : (Real.cos α : ℂ) ^ 2 + (Real.sin α : ℂ) ^ 2 = 1 := by
    have := Real.sin_sq_add_cos_sq α
    rw [add_comm]; exact_mod_cast this
  rw [e3, e6]
  rcases ht with rfl | rfl
  · simp [rotMat, turn]
    simp only [Complex.ofReal_cos, Complex.ofReal_sin] at hcs
    linear_combination (u 1 * f 1 + u 2 * f 2) * hcs
  · simp [rotMat, turn]
    simp only [Complex.ofReal_cos, Complex.ofReal_sin] at hcs
    linear_combination (u 1 * f 4 + u 2 * f 5) * hcs

theorem resp_turn (sqrt : ℂ → ℂ) (meds : List Med) {i : ℕ} (hi : i < meds.length) {ta tb : ℕ} (hta : ta = 0 ∨ ta = 3)
    (htb : tb = 0 ∨ tb = 3) (u v : ℕ → ℂ) (x y zs zr α : ℝ) :
    ∑ a ∈ Finset.Icc 1 3, ∑ b ∈ Finset.Icc 1 3, turn α u a * turn α v b * resp sqrt meds i (ta + a) (tb + b)
        (Real.cos α * x - Real.sin α * y) (Real.sin α * x + Real.cos α * y) zs zr =
      ∑ a ∈ Finset.Icc 1 3, ∑ b ∈ Finset.Icc 1 3, u a * v b * resp sqrt meds i (ta + a) (tb + b) x y zs zr := by
  calc _ = ∑ a ∈ Finset.Icc 1 3, turn α u a * ∑ a' ∈ Finset.Icc 1 6, rotMat α (ta + a) a' *
        ∑ b ∈ Finset.Icc 1 3, turn α v b * ∑ b' ∈ Finset.Icc 1 6, rotMat α (tb + b) b' * resp sqrt meds i a' b' x y zs zr := by
        refine Finset.sum_congr rfl fun a ha => ?_
        have e : ∀ b ∈ Finset.Icc 1 3, turn α u a * turn α v b * resp sqrt meds i (ta + a) (tb + b)
            (Real.cos α * x - Real.sin α * y) (Real.sin α * x + Real.cos α * y) zs zr =
            turn α u a * ∑ a' ∈ Finset.Icc 1 6, rotMat α (ta + a) a' * (turn α v b *
              ∑ b' ∈ Finset.Icc 1 6, rotMat α (tb + b) b' * resp sqrt meds i a' b' x y zs zr) := by
          intro b hb
          rw [C36_rotation sqrt meds hi (off_range hta ha) (off_range htb hb), mul_assoc, Finset.mul_sum]
          congr 1
          refine Finset.sum_congr rfl fun a' _ => ?_
          rw [Finset.mul_sum, Finset.mul_sum, Finset.mul_sum]
          refine Finset.sum_congr rfl fun b' _ => by ring
        rw [Finset.sum_congr rfl e, ← Finset.mul_sum, Finset.sum_comm]
        congr 1
        refine Finset.sum_congr rfl fun a' _ => ?_
        rw [Finset.mul_sum]
    _ = _ := by
        rw [turn_mat hta α u]
        refine Finset.sum_congr rfl fun a _ => ?_
        rw [turn_mat htb α v (fun b' => resp sqrt meds i (ta + a) b' x y zs zr), Finset.mul_sum]
        exact Finset.sum_congr rfl fun b _ => by ring

/-! ## Entries -/

theorem theta_turn {dx dy : ℝ} (h : dx ≠ 0 ∨ dy ≠ 0) (α : ℝ) :
    ∃ k : ℤ, thetaOf (Real.cos α * dx - Real.sin α * dy) (Real.sin α * dx + Real.cos α * dy) =
      thetaOf dx dy + α + k * (2 * Real.pi) := by
  have hp : 0 < Real.sqrt (dx ^ 2 + dy ^ 2) := by
    apply Real.sqrt_pos.2
    rcases h with h | h
    · have := pow_pos (abs_pos.2 h) 2
      rw [sq_abs] at this
      positivity
    · have := pow_pos (abs_pos.2 h) 2
      rw [sq_abs] at this
      positivity
  obtain ⟨c1, s1⟩ := xy_polar dx dy
  obtain ⟨c2, s2⟩ := xy_polar (Real.cos α * dx - Real.sin α * dy) (Real.sin α * dx + Real.cos α * dy)
  have hn : (Real.cos α * dx - Real.sin α * dy) ^ 2 + (Real.sin α * dx + Real.cos α * dy) ^ 2 = dx ^ 2 + dy ^ 2 := by
    have := Real.sin_sq_add_cos_sq α
    linear_combination (dx ^ 2 + dy ^ 2) * this
  rw [hn] at c2 s2
  have := Real.Angle.cos_sin_inj
    (θ := Complex.arg ⟨Real.cos α * dx - Real.sin α * dy, Real.sin α * dx + Real.cos α * dy⟩)
    (ψ := Complex.arg ⟨dx, dy⟩ + α)
    (mul_right_cancel₀ hp.ne' (by rw [c2, Real.cos_add]; linear_combination -Real.cos α * c1 + Real.sin α * s1))
    (mul_right_cancel₀ hp.ne' (by rw [s2, Real.sin_add]; linear_combination -Real.sin α * c1 - Real.cos α * s1))
  rw [Real.Angle.angle_eq_iff_two_pi_dvd_sub] at this
  obtain ⟨k, hk⟩ := this
  exact ⟨k, by rw [thetaOf, thetaOf]; linarith⟩

/-- The nine integrands. -/
noncomputable def nine (B : Back) (U : UserModel) (freq : List ℝ) (xd : Option Bool) (ta tb : ℕ) (zs zr ρ θ : ℝ) (f : ℕ) :
    ℕ → ℕ → ℝ → ℂ → ℂ → ℂ := fun a b =>
  hIntegrand B.o (earthOf (U.medium (sParam B.m.minFreq freq (freq.getD f 0)))) zs zr (layerOf (userOut B.m U).depth zs)
    (layerOf (userOut B.m U).depth zr) (decode (ta + a) (tb + b)).1 (xd.getD true) (decode (ta + a) (tb + b)).2.1
    (decode (ta + a) (tb + b)).2.2 ρ
    (exactFactor θ (decode (ta + a) (tb + b)).1 (decode (ta + a) (tb + b)).2.1 (decode (ta + a) (tb + b)).2.2)

theorem sums_zero {T : HRule} {ρ : ℝ} {g : ℕ → ℕ → ℝ → ℂ → ℂ → ℂ} (h : Sums T ρ g) : T ρ (fun _ _ _ => 0) = 0 := by
  have := h fun _ _ => 0
  simpa using this

open Classical in
theorem entry_parts {B : Back} (ho : Safe B.o) {T : HRule} {U : UserModel} {ta tb : ℕ} (hta : ta = 0 ∨ ta = 3)
    (htb : tb = 0 ∨ tb = 3) {a b : ℕ} (ha : a ∈ Finset.Icc 1 3) (hb : b ∈ Finset.Icc 1 3) (freq : List ℝ)
    (xd : Option Bool) (zs zr : ℝ) {ρ θ : ℝ} (hρ : 0 < ρ) (hcl : ClearAngle θ) {f : ℕ} (hf : f < freq.length)
    (h0 : T ρ (fun _ _ _ => 0) = 0) :
    entryOf B T U freq xd (decode (ta + a) (tb + b)).1 (decode (ta + a) (tb + b)).2.1 (decode (ta + a) (tb + b)).2.2 zs zr ρ θ f =
      (if Direct xd (userOut B.m U).isfullspace (layerOf (userOut B.m U).depth zs == layerOf (userOut B.m U).depth zr) then
        resp B.sqrt (freq.map fun g => layerMed (U.medium (sParam B.m.minFreq freq g)) (layerOf (userOut B.m U).depth zr)) f
          (ta + a) (tb + b) (ρ * Real.cos θ) (ρ * Real.sin θ) zs zr else 0) +
      (if Skipped 0 xd (userOut B.m U).isfullspace then 0 else T ρ (nine B U freq xd ta tb zs zr ρ θ f a b)) := by
  have hc := decode_ok (off_range hta ha) (off_range htb hb)
  unfold entryOf
  dsimp only
  rw [clear_exact hcl]
  by_cases h36 : (decode (ta + a) (tb + b)).1 = 36
  · have hs : Skipped (decode (ta + a) (tb + b)).1 xd (userOut B.m U).isfullspace := Or.inl h36
    rw [if_neg (fun q => q.1 h36), if_pos hs]
    have hr : ∀ (x y : ℝ), resp B.sqrt (freq.map fun g => layerMed (U.medium (sParam B.m.minFreq freq g))
        (layerOf (userOut B.m U).depth zr)) f (ta + a) (tb + b) x y zs zr = 0 := by
      intro x y
      rw [resp_ok (by simpa using hf) hc, if_neg (not_not.2 h36)]
    have hT : T ρ (nine B U freq xd ta tb zs zr ρ θ f a b) = 0 := by
      rw [← h0]
      refine congrArg (T ρ) ?_
      funext lam x y
      unfold nine hIntegrand
      rw [h36]
      obtain ⟨-, -, -, -, -, -, -, n3⟩ := wn_forms ho (earthOf (U.medium (sParam B.m.minFreq freq (freq.getD f 0)))) zs zr
        (layerOf (userOut B.m U).depth zs) (layerOf (userOut B.m U).depth zr) lam (xd.getD true)
        (decode (ta + a) (tb + b)).2.1 (decode (ta + a) (tb + b)).2.2
      rw [n3]
      simp [hankelIntegrand]
    rw [hr, hT, ite_self, ite_self]
  · congr 1
    · by_cases hd : Direct xd (userOut B.m U).isfullspace
          (layerOf (userOut B.m U).depth zs == layerOf (userOut B.m U).depth zr)
      · rw [if_pos ⟨h36, hd⟩, if_pos hd, direct_resp (by simpa using hf) hc hρ _ _ _ h36]
      · rw [if_neg (fun q => hd q.2), if_neg hd]
    · have : Skipped (decode (ta + a) (tb + b)).1 xd (userOut B.m U).isfullspace ↔
          Skipped 0 xd (userOut B.m U).isfullspace := by
        constructor
        · rintro (h | h)
          · exact absurd h h36
          · exact Or.inr h
        · rintro (h | h)
          · exact absurd h (by norm_num)
          · exact Or.inr h
      by_cases q : Skipped 0 xd (userOut B.m U).isfullspace
      · rw [if_pos q, if_pos (this.2 q)]
      · rw [if_neg q, if_neg (fun w => q (this.1 w))]
        rfl

theorem entry_turn {B : Back} (ho : Safe B.o) {T : HRule} {U : UserModel} {ta tb : ℕ} (hta : ta = 0 ∨ ta = 3)
    (htb : tb = 0 ∨ tb = 3) (u v : ℕ → ℂ) (freq : List ℝ) (xd : Option Bool) (zs zr α : ℝ) {ρ θ θ' : ℝ} (hρ : 0 < ρ)
    (hcl : ClearAngle θ) (hcl' : ClearAngle θ') {k : ℤ} (hk : θ' = θ + α + k * (2 * Real.pi)) {f : ℕ} (hf : f < freq.length)
    (hS : Sums T ρ (nine B U freq xd ta tb zs zr ρ θ f)) (hS' : Sums T ρ (nine B U freq xd ta tb zs zr ρ θ' f)) :
    ∑ a ∈ Finset.Icc 1 3, ∑ b ∈ Finset.Icc 1 3, turn α u a * turn α v b *
      entryOf B T U freq xd (decode (ta + a) (tb + b)).1 (decode (ta + a) (tb + b)).2.1 (decode (ta + a) (tb + b)).2.2 zs zr ρ θ' f =
    ∑ a ∈ Finset.Icc 1 3, ∑ b ∈ Finset.Icc 1 3, u a * v b *
      entryOf B T U freq xd (decode (ta + a) (tb + b)).1 (decode (ta + a) (tb + b)).2.1 (decode (ta + a) (tb + b)).2.2 zs zr ρ θ f := by
  classical
  have h0 := sums_zero hS
  have e1 : ∀ a ∈ Finset.Icc 1 3, ∀ b ∈ Finset.Icc 1 3, _ := fun a ha b hb =>
    entry_parts (U := U) ho hta htb ha hb freq xd zs zr hρ hcl hf h0
  have e2 : ∀ a ∈ Finset.Icc 1 3, ∀ b ∈ Finset.Icc 1 3, _ := fun a ha b hb =>
    entry_parts (U := U) ho hta htb ha hb freq xd zs zr hρ hcl' hf h0
  refine (Finset.sum_congr rfl fun a ha => Finset.sum_congr rfl fun b hb => by rw [e2 a ha b hb]).trans
    (Eq.trans ?_ (Finset.sum_congr rfl fun a ha => Finset.sum_congr rfl fun b hb => by rw [e1 a ha b hb]).symm)
  simp only [mul_add, Finset.sum_add_distrib]
  congr 1
  · by_cases hd : Direct xd (userOut B.m U).isfullspace
        (layerOf (userOut B.m U).depth zs == layerOf (userOut B.m U).depth zr)
    · simp only [if_pos hd]
      have hx : ρ * Real.cos θ' = Real.cos α * (ρ * Real.cos θ) - Real.sin α * (ρ * Real.sin θ) := by
        rw [hk, Real.cos_add_int_mul_two_pi, Real.cos_add]; ring
      have hy : ρ * Real.sin θ' = Real.sin α * (ρ * Real.cos θ) + Real.cos α * (ρ * Real.sin θ) := by
        rw [hk, Real.sin_add_int_mul_two_pi, Real.sin_add]; ring
      rw [hx, hy]
      exact resp_turn _ _ (by simpa using hf) hta htb u v _ _ _ _ α
    · simp only [if_neg hd, mul_zero, Finset.sum_const_zero]
  · by_cases hs : Skipped 0 xd (userOut B.m U).isfullspace
    · simp only [if_pos hs, mul_zero, Finset.sum_const_zero]
    · simp only [if_neg hs]
      rw [← hS fun a b => u a * v b, ← hS' fun a b => turn α u a * turn α v b]
      refine congrArg (T ρ) ?_
      funext lam x y
      have hfac : ∀ c ms mr, exactFactor θ' c ms mr = exactFactor (θ + α) c ms mr := by
        intro c ms mr; rw [hk, exact_periodic]
      unfold nine hIntegrand
      simp only [hfac]
      exact integrand_turn ho _ _ _ _ _ _ _ hta htb u v θ α ρ x y

/-! ## The routine -/

section
variable {B : Back} (hm : 0 < B.m.minRes) (hof : 0 < B.m.minOff) (ho : Safe B.o) {T : HRule} (hB : Uses B T)
  {U : UserModel} (hU : U.Valid B.m.minRes) {A A' : ℕ → ℕ → DipoleArgs} (hA : ∀ a b, Describes (A a b) U)
  (hA' : ∀ a b, Describes (A' a b) U) {ta tb : ℕ} (hta : ta = 0 ∨ ta = 3) (htb : tb = 0 ∨ tb = 3)
  (hab : ∀ a ∈ Finset.Icc 1 3, ∀ b ∈ Finset.Icc 1 3,
    toInt (A a b).ab = .ok (10 * ((ta + a : ℕ) : ℤ) + ((tb + b : ℕ) : ℤ)) ∧
    toInt (A' a b).ab = .ok (10 * ((ta + a : ℕ) : ℤ) + ((tb + b : ℕ) : ℤ)))
  {xs ys xr yr xs' ys' xr' yr' : List ℝ} {zs zr : ℝ}
  (hsrc : ∀ a b, (A a b).src = [xs, ys, [zs]]) (hrcv : ∀ a b, (A a b).rcv = [xr, yr, [zr]])
  (hsrc' : ∀ a b, (A' a b).src = [xs', ys', [zs]]) (hrcv' : ∀ a b, (A' a b).rcv = [xr', yr', [zr]])
  {freq : List ℝ} (hfq : ∀ a b, (A a b).freq = freq ∧ (A' a b).freq = freq)
  {xd : Option Bool} (hxd : ∀ a b, (A a b).xdirect = xd ∧ (A' a b).xdirect = xd)
  (hls : xs.length = ys.length ∨ xs.length = 1 ∨ ys.length = 1) (hlr : xr.length = yr.length ∨ xr.length = 1 ∨ yr.length = 1)
  (hls' : xs'.length = ys'.length ∨ xs'.length = 1 ∨ ys'.length = 1)
  (hlr' : xr'.length = yr'.length ∨ xr'.length = 1 ∨ yr'.length = 1)
  {ns nr : ℕ} (hns : 0 < ns ∧ numDipoles [xs, ys, [zs]] = ns ∧ numDipoles [xs', ys', [zs]] = ns)
  (hnr : 0 < nr ∧ numDipoles [xr, yr, [zr]] = nr ∧ numDipoles [xr', yr', [zr]] = nr)
  {α : ℝ} (hts : TurnedBy α xs ys xs' ys' ns) (htr : TurnedBy α xr yr xr' yr' nr)

include hm hof ho hB hU hA hA' hta htb hab hsrc hrcv hsrc' hrcv' hfq hxd hls hlr hls' hlr' hns hnr hts htr

theorem rotation_all :
    ∃ arr arr' : ℕ → ℕ → NdArray,
      (∀ a ∈ Finset.Icc 1 3, ∀ b ∈ Finset.Icc 1 3,
        (dipole B (A a b)).val = .ok (if (A a b).squeeze then (arr a b).squeeze else arr a b) ∧
        (dipole B (A' a b)).val = .ok (if (A' a b).squeeze then (arr' a b).squeeze else arr' a b) ∧
        (arr a b).shape = [freq.length, nr, ns] ∧ (arr' a b).shape = [freq.length, nr, ns]) ∧
      ∀ (u v : ℕ → ℂ) (f r s : ℕ), f < freq.length → r < nr → s < ns → (bc xr r ≠ bc xs s ∨ bc yr r ≠ bc ys s) →
        ClearAngle (thetaOf (bc xr r - bc xs s) (bc yr r - bc ys s)) →
        ClearAngle (thetaOf (bc xr' r - bc xs' s) (bc yr' r - bc ys' s)) →
        Sums T (rhoOf B.m.minOff (bc xr r - bc xs s) (bc yr r - bc ys s)) (nine B U freq xd ta tb zs zr
          (rhoOf B.m.minOff (bc xr r - bc xs s) (bc yr r - bc ys s)) (thetaOf (bc xr r - bc xs s) (bc yr r - bc ys s)) f) →
        Sums T (rhoOf B.m.minOff (bc xr r - bc xs s) (bc yr r - bc ys s)) (nine B U freq xd ta tb zs zr
          (rhoOf B.m.minOff (bc xr r - bc xs s) (bc yr r - bc ys s)) (thetaOf (bc xr' r - bc xs' s) (bc yr' r - bc ys' s)) f) →
        ∑ a ∈ Finset.Icc 1 3, ∑ b ∈ Finset.Icc 1 3, turn α u a * turn α v b * (arr' a b).get [f, r, s] =
          ∑ a ∈ Finset.Icc 1 3, ∑ b ∈ Finset.Icc 1 3, u a * v b * (arr a b).get [f, r, s] := by
  haveI : Nonempty NdArray := ⟨⟨[], fun _ => 0⟩⟩
  have E1 : ∀ a b, ∃ arr : NdArray, a ∈ Finset.Icc 1 3 → b ∈ Finset.Icc 1 3 → _ := fun a b => by
    by_cases h : a ∈ Finset.Icc 1 3 ∧ b ∈ Finset.Icc 1 3
    · obtain ⟨arr, e⟩ := entries hm hB hU (hA a b) (hab a h.1 b h.2).1 (decode_ok (off_range hta h.1) (off_range htb h.2))
        (hsrc a b) (hrcv a b) hls hlr (by rw [hsrc, hns.2.1]; exact hns.1) (by rw [hrcv, hnr.2.1]; exact hnr.1)
      exact ⟨arr, fun _ _ => e⟩
    · exact ⟨⟨[], fun _ => 0⟩, fun h1 h2 => absurd ⟨h1, h2⟩ h⟩
  have E2 : ∀ a b, ∃ arr : NdArray, a ∈ Finset.Icc 1 3 → b ∈ Finset.Icc 1 3 → _ := fun a b => by
    by_cases h : a ∈ Finset.Icc 1 3 ∧ b ∈ Finset.Icc 1 3
    · obtain ⟨arr, e⟩ := entries hm hB hU (hA' a b) (hab a h.1 b h.2).2 (decode_ok (off_range hta h.1) (off_range htb h.2))
        (hsrc' a b) (hrcv' a b) hls' hlr' (by rw [hsrc', hns.2.2]; exact hns.1) (by rw [hrcv', hnr.2.2]; exact hnr.1)
      exact ⟨arr, fun _ _ => e⟩
    · exact ⟨⟨[], fun _ => 0⟩, fun h1 h2 => absurd ⟨h1, h2⟩ h⟩
  choose arr e using E1
  choose arr' g using E2
  refine ⟨arr, arr', fun a ha b hb => ⟨(e a b ha hb).1, (g a b ha hb).1, ?_, ?_⟩, ?_⟩
  · rw [(e a b ha hb).2.1, hsrc, hrcv, hns.2.1, hnr.2.1, (hfq a b).1]
  · rw [(g a b ha hb).2.1, hsrc', hrcv', hns.2.2, hnr.2.2, (hfq a b).2]
  intro u v f r s hf hr hs hne hcl hcl' hS hS'
  have v1 : ∀ a ∈ Finset.Icc 1 3, ∀ b ∈ Finset.Icc 1 3, (arr a b).get [f, r, s] = _ := fun a ha b hb =>
    (e a b ha hb).2.2 f r s (by rw [(hfq a b).1]; exact hf) (by rw [hrcv, hnr.2.1]; exact hr) (by rw [hsrc, hns.2.1]; exact hs)
  have v2 : ∀ a ∈ Finset.Icc 1 3, ∀ b ∈ Finset.Icc 1 3, (arr' a b).get [f, r, s] = _ := fun a ha b hb =>
    (g a b ha hb).2.2 f r s (by rw [(hfq a b).2]; exact hf) (by rw [hrcv', hnr.2.2]; exact hr)
      (by rw [hsrc', hns.2.2]; exact hs)
  have hdx : bc xr' r - bc xs' s = Real.cos α * (bc xr r - bc xs s) - Real.sin α * (bc yr r - bc ys s) := by
    rw [(htr r hr).1, (hts s hs).1]; ring
  have hdy : bc yr' r - bc ys' s = Real.sin α * (bc xr r - bc xs s) + Real.cos α * (bc yr r - bc ys s) := by
    rw [(htr r hr).2, (hts s hs).2]; ring
  have hrho : rhoOf B.m.minOff (bc xr' r - bc xs' s) (bc yr' r - bc ys' s) =
      rhoOf B.m.minOff (bc xr r - bc xs s) (bc yr r - bc ys s) := by
    rw [hdx, hdy]
    unfold rhoOf
    congr 2
    have := Real.sin_sq_add_cos_sq α
    linear_combination ((bc xr r - bc xs s) ^ 2 + (bc yr r - bc ys s) ^ 2) * this
  obtain ⟨k, hk⟩ := theta_turn (dx := bc xr r - bc xs s) (dy := bc yr r - bc ys s) (by
    rcases hne with h | h
    · exact Or.inl (sub_ne_zero.2 h)
    · exact Or.inr (sub_ne_zero.2 h)) α
  rw [← hdx, ← hdy] at hk
  have hρ : 0 < rhoOf B.m.minOff (bc xr r - bc xs s) (bc yr r - bc ys s) := lt_max_of_lt_right hof
  have key := entry_turn ho hta htb u v freq xd zs zr α hρ hcl hcl' hk hf hS hS'
  refine (Finset.sum_congr rfl fun a ha => Finset.sum_congr rfl fun b hb => ?_).trans
    (key.trans (Finset.sum_congr rfl fun a ha => Finset.sum_congr rfl fun b hb => ?_))
  · rw [v2 a ha b hb, hrho, (hfq a b).2, (hxd a b).2]
  · rw [v1 a ha b hb, (hfq a b).1, (hxd a b).1]

/-- **C58, rotation, digital filters.**  Positions of all sources and receivers, and the directions `u` of the receivers
and `v` of the sources (each electric, `t = 0`, or magnetic, `t = 3`) turned by any angle `α` about the vertical axis: the
response put together from the nine calls is the same.  Excluded are coincident horizontal positions, and pairs whose
azimuth, before or after, is within `1e-9` of a multiple of 45° without being one. -/
theorem C58_rotation (hT : ∀ ρ g, Sums T ρ g) :
    ∃ arr arr' : ℕ → ℕ → NdArray,
      (∀ a ∈ Finset.Icc 1 3, ∀ b ∈ Finset.Icc 1 3,
        (dipole B (A a b)).val = .ok (if (A a b).squeeze then (arr a b).squeeze else arr a b) ∧
        (dipole B (A' a b)).val = .ok (if (A' a b).squeeze then (arr' a b).squeeze else arr' a b) ∧
        (arr a b).shape = [freq.length, nr, ns] ∧ (arr' a b).shape = [freq.length, nr, ns]) ∧
      ∀ (u v : ℕ → ℂ) (f r s : ℕ), f < freq.length → r < nr → s < ns → (bc xr r ≠ bc xs s ∨ bc yr r ≠ bc ys s) →
        ClearAngle (thetaOf (bc xr r - bc xs s) (bc yr r - bc ys s)) →
        ClearAngle (thetaOf (bc xr' r - bc xs' s) (bc yr' r - bc ys' s)) →
        ∑ a ∈ Finset.Icc 1 3, ∑ b ∈ Finset.Icc 1 3, turn α u a * turn α v b * (arr' a b).get [f, r, s] =
          ∑ a ∈ Finset.Icc 1 3, ∑ b ∈ Finset.Icc 1 3, u a * v b * (arr a b).get [f, r, s] := by
  obtain ⟨arr, arr', h1, h2⟩ := rotation_all hm hof ho hB hU hA hA' hta htb hab hsrc hrcv hsrc' hrcv' hfq hxd hls hlr hls' hlr'
    hns hnr hts htr
  exact ⟨arr, arr', h1, fun u v f r s hf hr hs hne hcl hcl' => h2 u v f r s hf hr hs hne hcl hcl' (hT _ _) (hT _ _)⟩

end

/-! ## Concrete case -/

/-- Call `(a, b)` of the nine: receiver direction `3 + a` (magnetic), source direction `b` (electric). -/
noncomputable def marineNine (a b : ℕ) : DipoleArgs :=
  { marineArgs with ab := .int (10 * ((3 + a : ℕ) : ℤ) + ((0 + b : ℕ) : ℤ)) }

/-- The same with the receivers turned by one radian about the source. -/
noncomputable def marineRad (a b : ℕ) : DipoleArgs :=
  { marineNine a b with rcv := [[Real.cos 1 * 1000, Real.cos 1 * 2000, Real.cos 1 * 3000],
      [Real.sin 1 * 1000, Real.sin 1 * 2000, Real.sin 1 * 3000], [1000]] }

theorem nine_describes (a b : ℕ) : Describes (marineNine a b) marine :=
  ⟨_, .topDown false false (by simp [marineNine, marineArgs, marine, allDepths]) rfl rfl rfl rfl rfl rfl⟩

theorem rad_describes (a b : ℕ) : Describes (marineRad a b) marine :=
  ⟨_, .topDown false false (by simp [marineRad, marineNine, marineArgs, marine, allDepths]) rfl rfl rfl rfl rfl rfl⟩

theorem rad_theta : thetaOf (3000 * Real.cos 1) (3000 * Real.sin 1) = 1 := by
  have h3 := Real.pi_gt_three
  have := Complex.arg_mul_cos_add_sin_mul_I (r := 3000) (θ := 1) (by norm_num) ⟨by linarith, by linarith⟩
  refine Eq.trans (congrArg Complex.arg ?_) this
  rw [← Complex.ofReal_cos, ← Complex.ofReal_sin]
  generalize Real.cos 1 = c
  generalize Real.sin 1 = s
  apply Complex.ext <;> simp

theorem clear_one : ClearAngle 1 := by
  intro k
  right
  have h3 := Real.pi_gt_three
  have h4 := Real.pi_lt_d2
  rcases le_or_gt k 1 with h | h
  · have : (k : ℝ) ≤ 1 := by exact_mod_cast h
    exact lt_of_lt_of_le (by nlinarith) (le_abs_self _)
  · have : (2 : ℝ) ≤ k := by exact_mod_cast h
    exact lt_of_lt_of_le (by nlinarith) (neg_le_abs _)

/-- Marine model, any digital filter: the magnetic field of an inline electric source, turned by one radian. -/
example (R : RSpl) (F : Filter) (junk : ℕ → ℝ) : ∃ arr arr' : ℕ → ℕ → NdArray,
    (∀ a ∈ Finset.Icc 1 3, ∀ b ∈ Finset.Icc 1 3,
      (dipole (dlfBack Mins.init Ops.exact csqrt R F junk) (marineNine a b)).val = .ok (NdArray.squeeze (arr a b)) ∧
      (dipole (dlfBack Mins.init Ops.exact csqrt R F junk) (marineRad a b)).val = .ok (NdArray.squeeze (arr' a b)) ∧
      (arr a b).shape = [2, 3, 1]) ∧
    ∀ u v : ℕ → ℂ, ∑ a ∈ Finset.Icc 1 3, ∑ b ∈ Finset.Icc 1 3, turn 1 u a * turn 1 v b * (arr' a b).get [1, 2, 0] =
      ∑ a ∈ Finset.Icc 1 3, ∑ b ∈ Finset.Icc 1 3, u a * v b * (arr a b).get [1, 2, 0] := by
  obtain ⟨arr, arr', h1, h2⟩ := C58_rotation (B := dlfBack Mins.init Ops.exact csqrt R F junk)
    (by norm_num [dlfBack, Mins.init]) (by norm_num [dlfBack, Mins.init]) safe_exact (C44_dlf _ _ _ _ _ _) marine_valid
    nine_describes rad_describes (ta := 3) (tb := 0) (Or.inr rfl) (Or.inl rfl) (fun a _ b _ => ⟨rfl, rfl⟩)
    (xs := [0]) (ys := [0]) (xr := [1000, 2000, 3000]) (yr := [0]) (zs := 950) (zr := 1000)
    (xs' := [0]) (ys' := [0]) (fun _ _ => rfl) (fun _ _ => rfl) (fun _ _ => rfl) (fun _ _ => rfl)
    (freq := [1, 10]) (fun _ _ => ⟨rfl, rfl⟩) (xd := some true) (fun _ _ => ⟨rfl, rfl⟩)
    (by simp) (by simp) (by simp) (by simp) (ns := 1) (nr := 3) (by simp [numDipoles]) (by simp [numDipoles]) (α := 1)
    (by intro s _; simp [bc])
    (by intro s hs; interval_cases s <;> simp [bc]) (filter_sums F)
  refine ⟨arr, arr', fun a ha b hb => ⟨(h1 a ha b hb).1, (h1 a ha b hb).2.1, (h1 a ha b hb).2.2.1⟩, fun u v => ?_⟩
  refine h2 u v 1 2 0 (by simp) (by simp) (by simp) (Or.inl (by simp [bc])) ?_ ?_
  · have : thetaOf (bc [1000, 2000, 3000] 2 - bc [0] 0) (bc [0] 2 - bc [0] 0) = 0 := by
      have e1 : bc [1000, 2000, 3000] 2 - bc [0] 0 = 3000 := by simp [bc]
      have e2 : bc [0] 2 - bc [0] 0 = 0 := by simp [bc]
      rw [e1, e2, thetaOf, Complex.arg_eq_zero_iff]
      exact ⟨by norm_num, rfl⟩
    rw [this]; exact clear_zero
  · have : thetaOf (bc [Real.cos 1 * 1000, Real.cos 1 * 2000, Real.cos 1 * 3000] 2 - bc [0] 0)
        (bc [Real.sin 1 * 1000, Real.sin 1 * 2000, Real.sin 1 * 3000] 2 - bc [0] 0) = 1 := by
      refine Eq.trans ?_ rad_theta
      congr 1 <;> simp [bc, mul_comm]
    rw [this]; exact clear_one

end Verif.Props
