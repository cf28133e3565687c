import Verif.Props.C08_Rotation
import Verif.Props.C18_Dlf
import Verif.Lemmas.Angle

/-!
# C08 — rotation covariance for digital filters and other transforms

`C08_rotation` is about the Hankel integrand with exact Bessel functions.  Here the Bessel functions are replaced by
whatever the transform uses: covariance only needs that a transform handles every kernel for itself and is odd in it.
-/

namespace Verif.Props
open Verif.Spec Verif.Kernel Verif.Transform Verif.Utils Verif.Lemmas Complex

/-! ## Statement -/

/-- The kernels as functions of the wavenumber. -/
noncomputable def kernFns (o : Ops) (E : Earth) (zs zr : ℝ) (s r : ℤ) (c : ℕ) (xd ms mr : Bool) : KernelFn :=
  let w := fun l => wavenumber o E zs zr s r l c xd ms mr
  ((w 1).1.map fun _ l => (w l).1.getD 0, (w 1).2.1.map fun _ l => (w l).2.1.getD 0,
    (w 1).2.2.map fun _ l => (w l).2.2.getD 0)

/-- A transform, at one offset, that handles the kernels `PJ0`, `PJ1` (for first and for second order) and `PJ0b`
separately and is odd in each of them. -/
structure Method where
  t0 : (ℝ → ℂ) → ℂ
  t1 : (ℝ → ℂ) → ℂ
  t2 : (ℝ → ℂ) → ℂ
  tb : (ℝ → ℂ) → ℂ
  odd0 : ∀ g, t0 (-g) = -t0 g
  odd1 : ∀ g, t1 (-g) = -t1 g
  odd2 : ∀ g, t2 (-g) = -t2 g
  oddb : ∀ g, tb (-g) = -tb g

/-- What is multiplied with the angle factor. -/
noncomputable def Method.angular (T : Method) (f : KernelFn) (c : ℕ) : ℂ :=
  (f.2.1.elim 0 fun g => if c ∈ j2codes then T.t2 g else T.t1 g) + f.2.2.elim 0 T.tb

/-- Result of the transform with a given angle factor. -/
noncomputable def Method.value (T : Method) (f : KernelFn) (c : ℕ) (fac : ℝ) : ℂ :=
  f.1.elim 0 T.t0 + fac * T.angular f c

/-- Setting of source and receiver. -/
structure Setting where
  o : Ops
  E : Earth
  zs : ℝ
  zr : ℝ
  s : ℤ
  r : ℤ
  xd : Bool

/-- Response for receiver component `a` and source component `b` at azimuth `θ`; `fac` computes the angle factor. -/
noncomputable def Method.comp (T : Method) (S : Setting) (fac : ℝ → ℕ → Bool → Bool → ℝ) (a b : ℕ) (θ : ℝ) : ℂ :=
  match checkAb (.int (10 * a + b)) with
  | .ok (c, ms, mr) => T.value (kernFns S.o S.E S.zs S.zr S.s S.r c S.xd ms mr) c (fac θ c ms mr)
  | .error _ => 0

/-- Response for receiver direction `u` and source direction `v`. -/
noncomputable def Method.response (T : Method) (S : Setting) (fac : ℝ → ℕ → Bool → Bool → ℝ) (ta tb : ℕ)
    (u v : ℕ → ℂ) (θ : ℝ) : ℂ :=
  ∑ a ∈ Finset.Icc 1 3, ∑ b ∈ Finset.Icc 1 3, u a * v b * T.comp S fac (ta + a) (tb + b) θ

/-! ## The kernels of a group of components -/

theorem wn_at (o : Ops) (E : Earth) (zs zr : ℝ) (s r : ℤ) (c : ℕ) (xd ms mr : Bool) (l : ℝ) :
    (kernFns o E zs zr s r c xd ms mr).at l = wavenumber o E zs zr s r l c xd ms mr := by
  have h : ∀ l l', ((wavenumber o E zs zr s r l c xd ms mr).1.isSome =
      (wavenumber o E zs zr s r l' c xd ms mr).1.isSome) ∧
      ((wavenumber o E zs zr s r l c xd ms mr).2.1.isSome =
      (wavenumber o E zs zr s r l' c xd ms mr).2.1.isSome) ∧
      ((wavenumber o E zs zr s r l c xd ms mr).2.2.isSome =
      (wavenumber o E zs zr s r l' c xd ms mr).2.2.isSome) := by
    intro l l'
    unfold wavenumber
    dsimp only
    split_ifs <;> simp
  have k : ∀ a b : Option ℂ, a.isSome = b.isSome → (a.map fun _ => b.getD 0) = b := by
    intro a b h; cases a <;> cases b <;> simp_all
  obtain ⟨h1, h2, h3⟩ := h 1 l
  simp only [KernelFn.at, kernFns, Option.map_map, Function.comp_def]
  rw [k _ _ h1, k _ _ h2, k _ _ h3]

/-- `fields` and `green` only look at the group of the component. -/
theorem green_congr {ab ab' : ℕ} (o : Ops) (n : ℤ) (D : ℤ → EReal) (e G : ℤ → ℂ) (lr ls : ℤ) (zr zs : ℝ) (xd TM : Bool)
    (h0 : ab ∈ plusset ↔ ab' ∈ plusset)
    (h1 : ab ∈ [13, 23, 31, 32, 14, 24, 15, 25] ↔ ab' ∈ [13, 23, 31, 32, 14, 24, 15, 25])
    (h2 : ab ∈ [11, 12, 13, 14, 15, 21, 22, 23, 24, 25] ↔ ab' ∈ [11, 12, 13, 14, 15, 21, 22, 23, 24, 25])
    (h3 : ab ∈ [13, 14, 15, 23, 24, 25, 31, 32] ↔ ab' ∈ [13, 14, 15, 23, 24, 25, 31, 32])
    (h4 : ab ∈ [11, 12, 13, 21, 22, 23, 14, 24, 15, 25] ↔ ab' ∈ [11, 12, 13, 21, 22, 23, 14, 24, 15, 25]) :
    green o n D e G lr ls zr zs ab xd TM = green o n D e G lr ls zr zs ab' xd TM := by
  have hf : ∀ Rp Rm up, fields o n D Rp Rm G lr ls zs ab TM up = fields o n D Rp Rm G lr ls zs ab' TM up := by
    intro Rp Rm up
    unfold fields
    simp only [h0]
  unfold green
  simp only [h1, h2, h3, h4, hf]

section
variable {o : Ops} (ho : Safe o) (E : Earth) (zs zr : ℝ) (s r : ℤ) (xd ms mr : Bool)

theorem gf_congr {ab ab' : ℕ}
    (h : (ab, ab') ∈ [(12, 11), (21, 11), (22, 11), (24, 15), (14, 15), (25, 15), (23, 13), (32, 31), (34, 35),
      (26, 16)]) (l : ℝ) :
    greenfct o E zs zr s r l ab xd ms mr = greenfct o E zs zr s r l ab' xd ms mr := by
  have hg : ∀ e G lr ls zr zs TM, green o E.nlayer E.depth e G lr ls zr zs ab xd TM =
      green o E.nlayer E.depth e G lr ls zr zs ab' xd TM := by
    intro e G lr ls zr zs TM
    simp only [List.mem_cons, Prod.mk.injEq, List.not_mem_nil, or_false] at h
    rcases h with ⟨rfl, rfl⟩ | ⟨rfl, rfl⟩ | ⟨rfl, rfl⟩ | ⟨rfl, rfl⟩ | ⟨rfl, rfl⟩ | ⟨rfl, rfl⟩ | ⟨rfl, rfl⟩ |
      ⟨rfl, rfl⟩ | ⟨rfl, rfl⟩ | ⟨rfl, rfl⟩ <;>
    exact green_congr o _ _ e G lr ls zr zs xd TM (by decide) (by decide) (by decide) (by decide) (by decide)
  unfold greenfct
  simp only [hg]
  simp only [List.mem_cons, Prod.mk.injEq, List.not_mem_nil, or_false] at h
  rcases h with ⟨rfl, rfl⟩ | ⟨rfl, rfl⟩ | ⟨rfl, rfl⟩ | ⟨rfl, rfl⟩ | ⟨rfl, rfl⟩ | ⟨rfl, rfl⟩ | ⟨rfl, rfl⟩ |
      ⟨rfl, rfl⟩ | ⟨rfl, rfl⟩ | ⟨rfl, rfl⟩ <;>
  simp

include ho in
theorem grp_ee : ∃ p q b : ℝ → ℂ,
    kernFns o E zs zr s r 11 xd ms mr = (some p, some q, some b) ∧
    kernFns o E zs zr s r 22 xd ms mr = (some p, some (-q), some (-b)) ∧
    kernFns o E zs zr s r 12 xd ms mr = (none, some q, some b) ∧
    kernFns o E zs zr s r 21 xd ms mr = (none, some q, some b) := by
  have g12 := gf_congr (o := o) E zs zr s r xd ms mr (ab := 12) (ab' := 11) (by simp)
  have g21 := gf_congr (o := o) E zs zr s r xd ms mr (ab := 21) (ab' := 11) (by simp)
  have g22 := gf_congr (o := o) E zs zr s r xd ms mr (ab := 22) (ab' := 11) (by simp)
  refine ⟨_, _, _, rfl, ?_, ?_, ?_⟩
  · unfold kernFns wavenumber
    simp only [g22]
    cases mr <;> simp [funext_iff, div4 ho, div8 ho, div8n ho] <;> intros <;> ring
  · unfold kernFns wavenumber
    simp [g12]
  · unfold kernFns wavenumber
    simp [g21]

include ho in
theorem grp_em : ∃ p q b : ℝ → ℂ,
    kernFns o E zs zr s r 15 xd ms mr = (some p, some q, some b) ∧
    kernFns o E zs zr s r 24 xd ms mr = (some (-p), some q, some b) ∧
    kernFns o E zs zr s r 14 xd ms mr = (none, some (-q), some (-b)) ∧
    kernFns o E zs zr s r 25 xd ms mr = (none, some q, some b) := by
  have g24 := gf_congr (o := o) E zs zr s r xd ms mr (ab := 24) (ab' := 15) (by simp)
  have g14 := gf_congr (o := o) E zs zr s r xd ms mr (ab := 14) (ab' := 15) (by simp)
  have g25 := gf_congr (o := o) E zs zr s r xd ms mr (ab := 25) (ab' := 15) (by simp)
  refine ⟨_, _, _, rfl, ?_, ?_, ?_⟩
  · unfold kernFns wavenumber
    simp only [g24]
    cases mr <;> simp [funext_iff, div4 ho, div8 ho, div8n ho]
  · unfold kernFns wavenumber
    simp only [g14]
    cases mr <;> simp [funext_iff, div4 ho] <;> intros <;> ring
  · unfold kernFns wavenumber
    simp [g25]

theorem grp_one : (∃ q, kernFns o E zs zr s r 13 xd ms mr = (none, some q, none) ∧
      kernFns o E zs zr s r 23 xd ms mr = (none, some q, none)) ∧
    (∃ q, kernFns o E zs zr s r 31 xd ms mr = (none, some q, none) ∧
      kernFns o E zs zr s r 32 xd ms mr = (none, some q, none)) ∧
    (∃ q, kernFns o E zs zr s r 35 xd ms mr = (none, some q, none) ∧
      kernFns o E zs zr s r 34 xd ms mr = (none, some (-q), none)) ∧
    (∃ q, kernFns o E zs zr s r 16 xd ms mr = (none, some q, none) ∧
      kernFns o E zs zr s r 26 xd ms mr = (none, some (-q), none)) ∧
    (∃ p, kernFns o E zs zr s r 33 xd ms mr = (some p, none, none)) ∧
    kernFns o E zs zr s r 36 xd ms mr = (none, some 0, none) := by
  have g23 := gf_congr (o := o) E zs zr s r xd ms mr (ab := 23) (ab' := 13) (by simp)
  have g32 := gf_congr (o := o) E zs zr s r xd ms mr (ab := 32) (ab' := 31) (by simp)
  have g34 := gf_congr (o := o) E zs zr s r xd ms mr (ab := 34) (ab' := 35) (by simp)
  have g26 := gf_congr (o := o) E zs zr s r xd ms mr (ab := 26) (ab' := 16) (by simp)
  refine ⟨⟨_, rfl, ?_⟩, ⟨_, rfl, ?_⟩, ⟨_, rfl, ?_⟩, ⟨_, rfl, ?_⟩, ⟨_, rfl⟩, ?_⟩
  · unfold kernFns wavenumber
    simp [g23]
  · unfold kernFns wavenumber
    simp [g32]
  · unfold kernFns wavenumber
    simp only [g34]
    cases mr <;> simp [funext_iff]
  · unfold kernFns wavenumber
    simp only [g26]
    cases mr <;> simp [funext_iff]
  · unfold kernFns wavenumber
    simp
    rfl

end

/-! ## Rotation -/

theorem turn_trig (α θ : ℝ) (u v : ℕ → ℂ) :
    let u' := turn α u; let v' := turn α v; let θ' := θ + α
    u' 3 = u 3 ∧ v' 3 = v 3 ∧
    u' 1 * v' 1 + u' 2 * v' 2 = u 1 * v 1 + u 2 * v 2 ∧
    u' 1 * v' 2 - u' 2 * v' 1 = u 1 * v 2 - u 2 * v 1 ∧
    (u' 1 * v' 1 - u' 2 * v' 2) * Real.cos (θ' * 2) + (u' 1 * v' 2 + u' 2 * v' 1) * Real.sin (θ' * 2) =
      (u 1 * v 1 - u 2 * v 2) * Real.cos (θ * 2) + (u 1 * v 2 + u 2 * v 1) * Real.sin (θ * 2) ∧
    (u' 1 * v' 2 + u' 2 * v' 1) * Real.cos (θ' * 2) - (u' 1 * v' 1 - u' 2 * v' 2) * Real.sin (θ' * 2) =
      (u 1 * v 2 + u 2 * v 1) * Real.cos (θ * 2) - (u 1 * v 1 - u 2 * v 2) * Real.sin (θ * 2) ∧
    u' 1 * Real.cos θ' + u' 2 * Real.sin θ' = u 1 * Real.cos θ + u 2 * Real.sin θ ∧
    v' 1 * Real.cos θ' + v' 2 * Real.sin θ' = v 1 * Real.cos θ + v 2 * Real.sin θ ∧
    u' 1 * Real.sin θ' - u' 2 * Real.cos θ' = u 1 * Real.sin θ - u 2 * Real.cos θ ∧
    v' 1 * Real.sin θ' - v' 2 * Real.cos θ' = v 1 * Real.sin θ - v 2 * Real.cos θ := by
  have h : (Real.sin α : ℂ) ^ 2 + (Real.cos α : ℂ) ^ 2 = 1 := by exact_mod_cast Real.sin_sq_add_cos_sq α
  have e2 : (θ + α) * 2 = θ * 2 + (α + α) := by ring
  intro u' v' θ'
  simp only [u', v', θ', turn, e2, Real.cos_add, Real.sin_add]
  push_cast at h ⊢
  norm_num
  generalize Complex.sin α = f at *
  generalize Complex.cos α = e at *
  generalize Complex.sin θ = t
  generalize Complex.cos θ = c
  generalize Complex.sin (θ * 2) = t2
  generalize Complex.cos (θ * 2) = c2
  generalize u 1 = u1
  generalize u 2 = u2
  generalize v 1 = v1
  generalize v 2 = v2
  refine ⟨?_, ?_, ?_, ?_, ?_, ?_, ?_, ?_⟩
  · linear_combination (u1 * v1 + u2 * v2) * h
  · linear_combination (u1 * v2 - u2 * v1) * h
  · linear_combination ((u1 * v1 - u2 * v2) * c2 + (u1 * v2 + u2 * v1) * t2) * (f ^ 2 + e ^ 2 + 1) * h
  · linear_combination ((u1 * v2 + u2 * v1) * c2 - (u1 * v1 - u2 * v2) * t2) * (f ^ 2 + e ^ 2 + 1) * h
  · linear_combination (u1 * c + u2 * t) * h
  · linear_combination (v1 * c + v2 * t) * h
  · linear_combination (u1 * t - u2 * c) * h
  · linear_combination (v1 * t - v2 * c) * h

theorem comp_eq (T : Method) (S : Setting) (fac : ℝ → ℕ → Bool → Bool → ℝ) (θ : ℝ) {a b c : ℕ} {ms mr : Bool}
    (h : checkAb (.int (10 * a + b)) = .ok (c, ms, mr)) :
    T.comp S fac a b θ = T.value (kernFns S.o S.E S.zs S.zr S.s S.r c S.xd ms mr) c (fac θ c ms mr) := by
  simp only [Method.comp, h]

/-- **C08, transforms.**  For every transform that handles the kernels separately and is odd in each, every layered
earth, all source and receiver directions, azimuths and rotation angles. -/
theorem C08_method (T : Method) {S : Setting} (ho : Safe S.o) (θ α : ℝ) (u v : ℕ → ℂ) {ta tb : ℕ}
    (hta : ta = 0 ∨ ta = 3) (htb : tb = 0 ∨ tb = 3) :
    T.response S exactFactor ta tb (turn α u) (turn α v) (θ + α) = T.response S exactFactor ta tb u v θ := by
  have z1 : T.t1 0 = 0 := by
    have := T.odd1 0
    rw [neg_zero] at this
    linear_combination this / 2
  have e3 : Finset.Icc 1 3 = ({1, 2, 3} : Finset ℕ) := by decide
  obtain ⟨u3, v3, i1, i2, i3, i4, i5, i6, i7, i8⟩ := turn_trig α θ u v
  unfold Method.response
  simp only [e3, Finset.sum_insert (show (1 : ℕ) ∉ ({2, 3} : Finset ℕ) by decide),
    Finset.sum_insert (show (2 : ℕ) ∉ ({3} : Finset ℕ) by decide), Finset.sum_singleton]
  have cp : ∀ x : ℝ, Real.cos ((x + Real.pi) * 2) = Real.cos (x * 2) := fun x => by
    rw [add_mul, mul_comm Real.pi, Real.cos_add_two_pi]
  have sp : ∀ x : ℝ, Real.sin ((x + Real.pi) * 2) = Real.sin (x * 2) := fun x => by
    rw [add_mul, mul_comm Real.pi, Real.sin_add_two_pi]
  rcases hta with rfl | rfl <;> rcases htb with rfl | rfl
  · simp only [comp_eq T S _ _ (a := 0 + 1) (b := 0 + 1) (c := 11) (ms := false) (mr := false) rfl, comp_eq T S _ _ (a := 0 + 1) (b := 0 + 2) (c := 12) (ms := false) (mr := false) rfl, comp_eq T S _ _ (a := 0 + 1) (b := 0 + 3) (c := 13) (ms := false) (mr := false) rfl, comp_eq T S _ _ (a := 0 + 2) (b := 0 + 1) (c := 21) (ms := false) (mr := false) rfl, comp_eq T S _ _ (a := 0 + 2) (b := 0 + 2) (c := 22) (ms := false) (mr := false) rfl, comp_eq T S _ _ (a := 0 + 2) (b := 0 + 3) (c := 23) (ms := false) (mr := false) rfl, comp_eq T S _ _ (a := 0 + 3) (b := 0 + 1) (c := 31) (ms := false) (mr := false) rfl, comp_eq T S _ _ (a := 0 + 3) (b := 0 + 2) (c := 32) (ms := false) (mr := false) rfl, comp_eq T S _ _ (a := 0 + 3) (b := 0 + 3) (c := 33) (ms := false) (mr := false) rfl]
    obtain ⟨p, q, b, k1, k2, k3, k4⟩ := grp_ee ho S.E S.zs S.zr S.s S.r S.xd false false
    obtain ⟨⟨q1, m1, m2⟩, ⟨q2, m3, m4⟩, ⟨q3, m5, m6⟩, ⟨q4, m7, m8⟩, ⟨p5, m9⟩, m10⟩ :=
      grp_one (o := S.o) S.E S.zs S.zr S.s S.r S.xd false false
    simp only [k1, k2, k3, k4, m1, m2, m3, m4, m5, m6, m7, m8, m9, m10, Method.value, Method.angular, Option.elim,
      T.odd0, T.odd1, T.odd2, T.oddb, z1, j2codes, exactFactor, List.mem_cons, Nat.reduceEqDiff, List.not_mem_nil,
      or_false, or_true, true_or, or_self, and_self, if_true, if_false, u3, v3, Bool.true_eq_false, Bool.false_eq_true, and_false, and_true, false_and, cp, sp,
      Real.cos_add_pi, Real.sin_add_pi, Complex.ofReal_neg]
    linear_combination T.t0 p * i1 + (T.t2 q + T.tb b) * i3 + v 3 * T.t1 q1 * i5 + u 3 * T.t1 q2 * i6
  · simp only [comp_eq T S _ _ (a := 0 + 1) (b := 3 + 1) (c := 14) (ms := true) (mr := false) rfl, comp_eq T S _ _ (a := 0 + 1) (b := 3 + 2) (c := 15) (ms := true) (mr := false) rfl, comp_eq T S _ _ (a := 0 + 1) (b := 3 + 3) (c := 16) (ms := true) (mr := false) rfl, comp_eq T S _ _ (a := 0 + 2) (b := 3 + 1) (c := 24) (ms := true) (mr := false) rfl, comp_eq T S _ _ (a := 0 + 2) (b := 3 + 2) (c := 25) (ms := true) (mr := false) rfl, comp_eq T S _ _ (a := 0 + 2) (b := 3 + 3) (c := 26) (ms := true) (mr := false) rfl, comp_eq T S _ _ (a := 0 + 3) (b := 3 + 1) (c := 34) (ms := true) (mr := false) rfl, comp_eq T S _ _ (a := 0 + 3) (b := 3 + 2) (c := 35) (ms := true) (mr := false) rfl, comp_eq T S _ _ (a := 0 + 3) (b := 3 + 3) (c := 36) (ms := true) (mr := false) rfl]
    obtain ⟨p, q, b, k1, k2, k3, k4⟩ := grp_em ho S.E S.zs S.zr S.s S.r S.xd true false
    obtain ⟨⟨q1, m1, m2⟩, ⟨q2, m3, m4⟩, ⟨q3, m5, m6⟩, ⟨q4, m7, m8⟩, ⟨p5, m9⟩, m10⟩ :=
      grp_one (o := S.o) S.E S.zs S.zr S.s S.r S.xd true false
    simp only [k1, k2, k3, k4, m1, m2, m3, m4, m5, m6, m7, m8, m9, m10, Method.value, Method.angular, Option.elim,
      T.odd0, T.odd1, T.odd2, T.oddb, z1, j2codes, exactFactor, List.mem_cons, Nat.reduceEqDiff, List.not_mem_nil,
      or_false, or_true, true_or, or_self, and_self, if_true, if_false, u3, v3, Bool.true_eq_false, Bool.false_eq_true, and_false, and_true, false_and, cp, sp,
      Real.cos_add_pi, Real.sin_add_pi, Complex.ofReal_neg]
    linear_combination T.t0 p * i2 + (T.t2 q + T.tb b) * i4 + v 3 * T.t1 q4 * i7 - u 3 * T.t1 q3 * i8
  · simp only [comp_eq T S _ _ (a := 3 + 1) (b := 0 + 1) (c := 14) (ms := false) (mr := true) rfl, comp_eq T S _ _ (a := 3 + 1) (b := 0 + 2) (c := 24) (ms := false) (mr := true) rfl, comp_eq T S _ _ (a := 3 + 1) (b := 0 + 3) (c := 34) (ms := false) (mr := true) rfl, comp_eq T S _ _ (a := 3 + 2) (b := 0 + 1) (c := 15) (ms := false) (mr := true) rfl, comp_eq T S _ _ (a := 3 + 2) (b := 0 + 2) (c := 25) (ms := false) (mr := true) rfl, comp_eq T S _ _ (a := 3 + 2) (b := 0 + 3) (c := 35) (ms := false) (mr := true) rfl, comp_eq T S _ _ (a := 3 + 3) (b := 0 + 1) (c := 16) (ms := false) (mr := true) rfl, comp_eq T S _ _ (a := 3 + 3) (b := 0 + 2) (c := 26) (ms := false) (mr := true) rfl, comp_eq T S _ _ (a := 3 + 3) (b := 0 + 3) (c := 36) (ms := false) (mr := true) rfl]
    obtain ⟨p, q, b, k1, k2, k3, k4⟩ := grp_em ho S.E S.zs S.zr S.s S.r S.xd false true
    obtain ⟨⟨q1, m1, m2⟩, ⟨q2, m3, m4⟩, ⟨q3, m5, m6⟩, ⟨q4, m7, m8⟩, ⟨p5, m9⟩, m10⟩ :=
      grp_one (o := S.o) S.E S.zs S.zr S.s S.r S.xd false true
    simp only [k1, k2, k3, k4, m1, m2, m3, m4, m5, m6, m7, m8, m9, m10, Method.value, Method.angular, Option.elim,
      T.odd0, T.odd1, T.odd2, T.oddb, z1, j2codes, exactFactor, List.mem_cons, Nat.reduceEqDiff, List.not_mem_nil,
      or_false, or_true, true_or, or_self, and_self, if_true, if_false, u3, v3, Bool.true_eq_false, Bool.false_eq_true, and_false, and_true, false_and, cp, sp,
      Real.cos_add_pi, Real.sin_add_pi, Complex.ofReal_neg]
    linear_combination -T.t0 p * i2 + (T.t2 q + T.tb b) * i4 + v 3 * T.t1 q3 * i7 - u 3 * T.t1 q4 * i8
  · simp only [comp_eq T S _ _ (a := 3 + 1) (b := 3 + 1) (c := 11) (ms := true) (mr := true) rfl, comp_eq T S _ _ (a := 3 + 1) (b := 3 + 2) (c := 12) (ms := true) (mr := true) rfl, comp_eq T S _ _ (a := 3 + 1) (b := 3 + 3) (c := 13) (ms := true) (mr := true) rfl, comp_eq T S _ _ (a := 3 + 2) (b := 3 + 1) (c := 21) (ms := true) (mr := true) rfl, comp_eq T S _ _ (a := 3 + 2) (b := 3 + 2) (c := 22) (ms := true) (mr := true) rfl, comp_eq T S _ _ (a := 3 + 2) (b := 3 + 3) (c := 23) (ms := true) (mr := true) rfl, comp_eq T S _ _ (a := 3 + 3) (b := 3 + 1) (c := 31) (ms := true) (mr := true) rfl, comp_eq T S _ _ (a := 3 + 3) (b := 3 + 2) (c := 32) (ms := true) (mr := true) rfl, comp_eq T S _ _ (a := 3 + 3) (b := 3 + 3) (c := 33) (ms := true) (mr := true) rfl]
    obtain ⟨p, q, b, k1, k2, k3, k4⟩ := grp_ee ho S.E S.zs S.zr S.s S.r S.xd true true
    obtain ⟨⟨q1, m1, m2⟩, ⟨q2, m3, m4⟩, ⟨q3, m5, m6⟩, ⟨q4, m7, m8⟩, ⟨p5, m9⟩, m10⟩ :=
      grp_one (o := S.o) S.E S.zs S.zr S.s S.r S.xd true true
    simp only [k1, k2, k3, k4, m1, m2, m3, m4, m5, m6, m7, m8, m9, m10, Method.value, Method.angular, Option.elim,
      T.odd0, T.odd1, T.odd2, T.oddb, z1, j2codes, exactFactor, List.mem_cons, Nat.reduceEqDiff, List.not_mem_nil,
      or_false, or_true, true_or, or_self, and_self, if_true, if_false, u3, v3, Bool.true_eq_false, Bool.false_eq_true, and_false, and_true, false_and, cp, sp,
      Real.cos_add_pi, Real.sin_add_pi, Complex.ofReal_neg]
    linear_combination T.t0 p * i1 + (T.t2 q + T.tb b) * i3 + v 3 * T.t1 q1 * i5 + u 3 * T.t1 q2 * i6

/-! ## The angle factors of the code -/

/-- What multiplies the angle factor in the response of one component. -/
noncomputable def Method.angComp (T : Method) (S : Setting) (a b : ℕ) : ℂ :=
  match checkAb (.int (10 * a + b)) with
  | .ok (c, ms, mr) => T.angular (kernFns S.o S.E S.zs S.zr S.s S.r c S.xd ms mr) c
  | .error _ => 0

theorem comp_close (T : Method) (S : Setting) (a b : ℕ) (θ : ℝ) :
    ‖T.comp S angleFactor a b θ - T.comp S exactFactor a b θ‖ ≤ 1e-9 * ‖T.angComp S a b‖ := by
  unfold Method.comp Method.angComp
  split
  · rename_i c ms mr h
    have e : T.value (kernFns S.o S.E S.zs S.zr S.s S.r c S.xd ms mr) c (angleFactor θ c ms mr) -
        T.value (kernFns S.o S.E S.zs S.zr S.s S.r c S.xd ms mr) c (exactFactor θ c ms mr) =
        ((angleFactor θ c ms mr - exactFactor θ c ms mr : ℝ) : ℂ) *
          T.angular (kernFns S.o S.E S.zs S.zr S.s S.r c S.xd ms mr) c := by
      simp only [Method.value]; push_cast; ring
    rw [e, norm_mul, Complex.norm_real, Real.norm_eq_abs]
    exact mul_le_mul_of_nonneg_right (angleFactor_close θ c ms mr).1 (norm_nonneg _)
  · simp

theorem response_close (T : Method) (S : Setting) (ta tb : ℕ) (u v : ℕ → ℂ) (θ : ℝ) :
    ‖T.response S angleFactor ta tb u v θ - T.response S exactFactor ta tb u v θ‖ ≤
      1e-9 * ∑ a ∈ Finset.Icc 1 3, ∑ b ∈ Finset.Icc 1 3, ‖u a‖ * ‖v b‖ * ‖T.angComp S (ta + a) (tb + b)‖ := by
  unfold Method.response
  simp only [← Finset.sum_sub_distrib, ← mul_sub, Finset.mul_sum]
  refine (norm_sum_le _ _).trans (Finset.sum_le_sum fun a _ => (norm_sum_le _ _).trans (Finset.sum_le_sum fun b _ => ?_))
  rw [norm_mul, norm_mul]
  have := mul_le_mul_of_nonneg_left (comp_close T S (ta + a) (tb + b) θ)
    (mul_nonneg (norm_nonneg (u a)) (norm_nonneg (v b)))
  linarith

/-- **C08, transforms, with the angle factors of the code**, which sets values of the sine and cosine below 1e-9 to
zero: covariant up to 1e-9 times the terms that depend on the angle. -/
theorem C08_snapped (T : Method) {S : Setting} (ho : Safe S.o) (θ α : ℝ) (u v : ℕ → ℂ) {ta tb : ℕ}
    (hta : ta = 0 ∨ ta = 3) (htb : tb = 0 ∨ tb = 3) :
    ‖T.response S angleFactor ta tb (turn α u) (turn α v) (θ + α) - T.response S angleFactor ta tb u v θ‖ ≤
      1e-9 * ∑ a ∈ Finset.Icc 1 3, ∑ b ∈ Finset.Icc 1 3,
        (‖turn α u a‖ * ‖turn α v b‖ + ‖u a‖ * ‖v b‖) * ‖T.angComp S (ta + a) (tb + b)‖ := by
  have h1 := response_close T S ta tb (turn α u) (turn α v) (θ + α)
  have h2 := response_close T S ta tb u v θ
  rw [C08_method T ho θ α u v hta htb] at h1
  simp only [add_mul, Finset.sum_add_distrib, mul_add]
  have h3 := norm_sub_le_norm_sub_add_norm_sub (T.response S angleFactor ta tb (turn α u) (turn α v) (θ + α))
    (T.response S exactFactor ta tb u v θ) (T.response S angleFactor ta tb u v θ)
  rw [norm_sub_rev (T.response S exactFactor ta tb u v θ)] at h3
  linarith

/-! ## Digital filters -/

theorem kernFns_given (S : Setting) (c : ℕ) (ms mr : Bool) :
    (kernFns S.o S.E S.zs S.zr S.s S.r c S.xd ms mr).given := by
  unfold KernelFn.given kernFns
  simp only [Option.isSome_map]
  unfold wavenumber
  dsimp only
  split_ifs <;> simp_all

/-- One entry of the result of `dlf` for receiver component `a` and source component `b`: kernels at the wavenumbers
of the variant, angle factors of the azimuths `angs`. -/
noncomputable def dlfComp (R : RSpl) (w : Variant) (F : Filter) (P : Pts) (S : Setting)
    (fac : ℝ → ℕ → Bool → Bool → ℝ) (a b : ℕ) (angs : List ℝ) (j : ℕ) : ℂ :=
  match checkAb (.int (10 * a + b)) with
  | .ok (c, ms, mr) =>
    (dlfHankel R w F P (sampled (kernFns S.o S.E S.zs S.zr S.s S.r c S.xd ms mr)
      (if w = .standard then fun i k => F.base k / P.out i else fun _ k => P.points k))
      (some (angs.map fun θ => fac θ c ms mr)) c j).getD 0
  | .error _ => 0

/-- Filter sum of one function with one set of coefficients. -/
noncomputable def fsum (F : Filter) (h : ℕ → ℝ) (r : ℝ) (g : ℝ → ℂ) : ℂ :=
  ∑ k ∈ Finset.range F.n, g (F.base k / r) * (h k : ℂ)

theorem fsum_neg (F : Filter) (h : ℕ → ℝ) (r : ℝ) (g : ℝ → ℂ) : fsum F h r (-g) = -fsum F h r g := by
  simp [fsum, Finset.sum_neg_distrib]

theorem filterSum_split (F : Filter) (f : KernelFn) (c : ℕ) (r ang : ℝ) :
    filterSum F f c r ang = (f.1.elim 0 (fsum F F.j0 r) + ang *
      ((f.2.1.elim 0 fun g => if c ∈ j2codes then fsum F F.j1 r g / r else fsum F F.j1 r g) +
        f.2.2.elim 0 (fsum F F.j0 r))) / r := by
  obtain ⟨f0, f1, f2⟩ := f
  simp only [filterSum, KernelFn.at, integrand_eq, Finset.sum_add_distrib]
  congr 1
  by_cases hc : c ∈ j2codes <;> cases f0 <;> cases f1 <;> cases f2 <;>
    simp [hc, fsum, Finset.sum_div, Finset.mul_sum, Finset.sum_mul, mul_add, mul_comm, ← mul_div_assoc] <;> ring

theorem spline_neg {R : RSpl} (hR : RLinear R) (m : ℕ) (v : ℕ → ℂ) (x : ℕ → ℝ) (y : ℝ) :
    spline R m (fun i => -v i) x y = -spline R m v x y := by
  have h := spline_comb hR m x (-1) v (fun _ => 0) y
  rw [spline_zero hR] at h
  simpa using h

theorem elim_div (f : Option (ℝ → ℂ)) (t : (ℝ → ℂ) → ℂ) (r : ℂ) :
    f.elim 0 t / r = f.elim 0 fun g => t g / r := by cases f <;> simp

/-- Every variant of `dlf` is a transform in the sense above. -/
theorem dlf_method (R : RSpl) (hR : RLinear R) (w : Variant) (F : Filter) (P : Pts) (j : ℕ) (hr : P.out j ≠ 0)
    (hP : w = .lagged → Windows P F) :
    ∃ T : Method, ∀ S fac a b (angs : List ℝ) (hj : j < angs.length),
      dlfComp R w F P S fac a b angs j = T.comp S fac a b angs[j] := by
  have key : (∃ T : Method, ∀ (f : KernelFn) (c : ℕ) (ang : List ℝ) (hj : j < ang.length), f.given →
      (dlfHankel R w F P (sampled f (if w = .standard then fun i k => F.base k / P.out i else fun _ k => P.points k))
      (some ang) c j).getD 0 = T.value f c ang[j]) := by
    cases w with
    | standard =>
      refine ⟨⟨fun g => fsum F F.j0 (P.out j) g / P.out j, fun g => fsum F F.j1 (P.out j) g / P.out j,
        fun g => fsum F F.j1 (P.out j) g / P.out j / P.out j, fun g => fsum F F.j0 (P.out j) g / P.out j,
        fun g => ?_, fun g => ?_, fun g => ?_, fun g => ?_⟩, fun f c ang hj hf => ?_⟩
      iterate 4 rw [fsum_neg]; ring
      rw [if_pos rfl, C18_standard R F P f ang c j hf hj hr, Option.getD_some, filterSum_split]
      obtain ⟨f0, f1, f2⟩ := f
      by_cases hc : c ∈ j2codes <;> cases f0 <;> cases f1 <;> cases f2 <;>
        simp [Method.value, Method.angular, hc] <;> ring
    | splined =>
      let g' : (ℝ → ℂ) → ℝ → ℂ := fun g => spline R P.nout (fun i => g (P.points i)) P.points
      have gn : ∀ g, g' (-g) = -g' g := fun g => by
        funext y; exact spline_neg hR _ _ _ _
      refine ⟨⟨fun g => fsum F F.j0 (P.out j) (g' g) / P.out j, fun g => fsum F F.j1 (P.out j) (g' g) / P.out j,
        fun g => fsum F F.j1 (P.out j) (g' g) / P.out j / P.out j, fun g => fsum F F.j0 (P.out j) (g' g) / P.out j,
        fun g => ?_, fun g => ?_, fun g => ?_, fun g => ?_⟩, fun f c ang hj hf => ?_⟩
      iterate 4 rw [gn, fsum_neg]; ring
      rw [if_neg (by simp), C18_splined R F P f ang c j hf hj hr, Option.getD_some, filterSum_split]
      obtain ⟨f0, f1, f2⟩ := f
      by_cases hc : c ∈ j2codes <;> cases f0 <;> cases f1 <;> cases f2 <;>
        simp [Method.value, Method.angular, hc, interpolated, g'] <;> ring
    | lagged =>
      have hW := hP rfl
      let sp : (ℕ → ℂ) → ℂ := fun v => splineRev R P.m v P.intp (P.out j)
      have sn : ∀ v : ℕ → ℂ, sp (fun i => -v i) = -sp v := fun v => spline_neg hR _ _ _ _
      have sc : ∀ (v w : ℕ → ℂ) (a : ℝ), sp (fun i => v i * (a : ℂ) + w i) = sp v * a + sp w := fun v w a =>
        spline_comb hR _ _ a (fun i => v (P.m - 1 - i)) (fun i => w (P.m - 1 - i)) _
      have s0 : sp (fun _ => 0) = 0 := spline_zero hR _ _ _
      refine ⟨⟨fun g => sp (fun i => fsum F F.j0 (P.intp i) g) / P.out j,
        fun g => sp (fun i => fsum F F.j1 (P.intp i) g) / P.out j,
        fun g => sp (fun i => fsum F F.j1 (P.intp i) g / P.intp i) / P.out j,
        fun g => sp (fun i => fsum F F.j0 (P.intp i) g) / P.out j,
        fun g => ?_, fun g => ?_, fun g => ?_, fun g => ?_⟩, fun f c ang hj hf => ?_⟩
      iterate 4 simp only [fsum_neg, neg_div, sn]
      rw [if_neg (by simp), C18_lagged R hR F P hW f ang c j hf hj, Option.getD_some]
      have e : (fun i => filterSum F f c (P.intp i) ang[j] * (P.intp i : ℂ)) = fun i =>
          ((f.2.1.elim 0 fun g => if c ∈ j2codes then fsum F F.j1 (P.intp i) g / P.intp i else
            fsum F F.j1 (P.intp i) g) * ((1 : ℝ) : ℂ) + f.2.2.elim 0 (fsum F F.j0 (P.intp i))) * (ang[j] : ℂ) +
          f.1.elim 0 (fsum F F.j0 (P.intp i)) := by
        funext i
        have hi : (P.intp i : ℂ) ≠ 0 := by exact_mod_cast hW.ne i
        rw [filterSum_split, div_mul_cancel₀ _ hi]
        push_cast
        ring
      change sp _ / _ = _
      rw [e, sc, sc]
      obtain ⟨f0, f1, f2⟩ := f
      by_cases hc : c ∈ j2codes <;> cases f0 <;> cases f1 <;> cases f2 <;>
        simp [Method.value, Method.angular, hc, s0] <;> ring
  obtain ⟨T, hT⟩ := key
  refine ⟨T, fun S fac a b angs hj => ?_⟩
  unfold dlfComp Method.comp
  split
  · rw [hT _ _ _ (by simpa using hj) (kernFns_given S _ _ _)]
    simp
  · rfl

/-- **C08, digital filters.**  Rotating the azimuths of all receivers, the receiver direction and the source direction
by the same angle leaves every entry unchanged, up to the snapping of the angle factors: for the standard, the splined
and the lagged variant, every filter, every layered earth, equal or different azimuths. -/
theorem C08_dlf (R : RSpl) (hR : RLinear R) (w : Variant) (F : Filter) (P : Pts) (j : ℕ) (hr : P.out j ≠ 0)
    (hP : w = .lagged → Windows P F) {S : Setting} (ho : Safe S.o) (angs : List ℝ) (hj : j < angs.length) (α : ℝ)
    (u v : ℕ → ℂ) {ta tb : ℕ} (hta : ta = 0 ∨ ta = 3) (htb : tb = 0 ∨ tb = 3) :
    let resp := fun fac (u v : ℕ → ℂ) (angs : List ℝ) => ∑ a ∈ Finset.Icc 1 3, ∑ b ∈ Finset.Icc 1 3,
      u a * v b * dlfComp R w F P S fac (ta + a) (tb + b) angs j
    resp exactFactor (turn α u) (turn α v) (angs.map (· + α)) = resp exactFactor u v angs ∧
    ∃ A : ℕ → ℕ → ℂ, (∀ fac a b, dlfComp R w F P S fac a b angs j =
        dlfComp R w F P S (fun _ _ _ _ => 0) a b angs j +
          match checkAb (.int (10 * a + b)) with
          | .ok (c, ms, mr) => fac angs[j] c ms mr * A a b
          | .error _ => 0) ∧
      ‖resp angleFactor (turn α u) (turn α v) (angs.map (· + α)) - resp angleFactor u v angs‖ ≤
        1e-9 * ∑ a ∈ Finset.Icc 1 3, ∑ b ∈ Finset.Icc 1 3,
          (‖turn α u a‖ * ‖turn α v b‖ + ‖u a‖ * ‖v b‖) * ‖A (ta + a) (tb + b)‖ := by
  obtain ⟨T, hT⟩ := dlf_method R hR w F P j hr hP
  have e1 : ∀ fac a b, dlfComp R w F P S fac a b (angs.map (· + α)) j = T.comp S fac a b (angs[j] + α) := by
    intro fac a b
    rw [hT S fac a b _ (by simpa using hj)]
    simp
  intro resp
  refine ⟨?_, T.angComp S, fun fac a b => ?_, ?_⟩
  · simp only [resp, e1, hT S _ _ _ _ hj]
    exact C08_method T ho _ α u v hta htb
  · rw [hT S _ _ _ _ hj, hT S _ _ _ _ hj]
    unfold Method.comp Method.angComp
    split
    · simp only [Method.value]; push_cast; ring
    · simp
  · simp only [resp, e1, hT S _ _ _ _ hj]
    exact C08_snapped T ho _ α u v hta htb

/-- Two receivers at different offsets and azimuths, a filter with two points, turned by two radians. -/
example (R : RSpl) (hR : RLinear R) (E : Earth) (u v : ℕ → ℂ) :
    let F : Filter := ⟨2, fun k => k + 1, 2, fun k => k, fun k => 1 - k, fun _ => 0, fun _ => 0⟩
    let P : Pts := ⟨0, fun _ => 0, fun i => 100 * (i + 1), 0, fun _ => 0⟩
    let S : Setting := ⟨Ops.exact, E, 990, 1000, 1, 1, false⟩
    ∑ a ∈ Finset.Icc 1 3, ∑ b ∈ Finset.Icc 1 3, turn 2 u a * turn 2 v b *
        dlfComp R .standard F P S exactFactor (3 + a) (0 + b) [0 + 2, 1 + 2] 1 =
      ∑ a ∈ Finset.Icc 1 3, ∑ b ∈ Finset.Icc 1 3, u a * v b *
        dlfComp R .standard F P S exactFactor (3 + a) (0 + b) [0, 1] 1 := by
  intro F P S
  exact (C08_dlf R hR .standard F P 1 (by norm_num [P]) (by simp) (S := S) safe_exact [0, 1] (by simp) 2 u v
    (Or.inr rfl) (Or.inl rfl)).1

end Verif.Props
