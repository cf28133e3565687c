import Verif.Model.Qwe
import Mathlib.MeasureTheory.Integral.IntervalIntegral.Basic

/-!
# C21 — QUAD reports convergence honestly
-/

namespace Verif.Props
open Verif.Transform

/-! ## Specification -/

/-- The integrator returns a tuple of three elements, and at least four if it issued a warning. -/
def Integrator.OK (Q : Integrator) : Prop := ∀ f, 3 ≤ (Q f).2

/-- The integrator issued a warning. -/
def warned (Q : Integrator) (f : ℝ → ℝ) : Prop := 3 < (Q f).2

/-- The factors of the kernels in the integrands of `PJ0`, `PJ1`, `PJ0b`. -/
def weight0 (J0 : ℝ → ℝ) (off : ℝ) (l : ℝ) : ℝ := J0 (off * l)
@[inherit_doc weight0]
noncomputable def weight1 (J1 : ℝ → ℝ) (ab : ℕ) (off ang : ℝ) (l : ℝ) : ℝ :=
  ang * J1 (off * l) * (if ab ∈ j2codes then 1 / off else 1)
@[inherit_doc weight0]
def weight0b (J0 : ℝ → ℝ) (off ang : ℝ) (l : ℝ) : ℝ := ang * J0 (off * l)

/-- The real and imaginary integrands of the kernels that are given. -/
noncomputable def integrands (J0 J1 : ℝ → ℝ) (s0 s1 s0b : SplK) (ab : ℕ) (off ang : ℝ) :
    List ((ℝ → ℝ) × (ℝ → ℝ)) :=
  (s0.toList.map fun s => ((fun l => weight0 J0 off l * s.1 l), fun l => weight0 J0 off l * s.2 l)) ++
  (s1.toList.map fun s =>
    ((fun l => weight1 J1 ab off ang l * s.1 l), fun l => weight1 J1 ab off ang l * s.2 l)) ++
  (s0b.toList.map fun s =>
    ((fun l => weight0b J0 off ang l * s.1 l), fun l => weight0b J0 off ang l * s.2 l))

/-! ## The code -/

theorem quadWarn_iff (Q : Integrator) (hQ : Integrator.OK Q) (f g : ℝ → ℝ) :
    quadWarn (Q f).2 (Q g).2 = true ↔ warned Q f := by
  have := hQ f
  have h0 : (Q f).2 ≠ 0 := by omega
  simp [quadWarn, warned, h0]

theorem quad_eq (Q : Integrator) (J0 J1 : ℝ → ℝ) (s0 s1 s0b : SplK) (ab : ℕ) (off ang : ℝ) :
    quad Q J0 J1 s0 s1 s0b ab off ang =
      (integrands J0 J1 s0 s1 s0b ab off ang).foldl (fun st g => quadBlock Q (some g) st) (0, true) := by
  have w0 : (fun (s : ℝ → ℝ) l => s l * J0 (off * l)) = fun s l => weight0 J0 off l * s l := by
    funext s l; simp only [weight0]; ring
  have w1 : (fun (s : ℝ → ℝ) l => (if ab ∈ j2codes then ang * s l / off else ang * s l) * J1 (off * l)) =
      fun s l => weight1 J1 ab off ang l * s l := by
    funext s l; simp only [weight1]; split_ifs <;> ring
  have w2 : (fun (s : ℝ → ℝ) l => ang * s l * J0 (off * l)) = fun s l => weight0b J0 off ang l * s l := by
    funext s l; simp only [weight0b]; ring
  unfold quad
  rw [w0, w1, w2]
  cases s0 <;> cases s1 <;> cases s0b <;> rfl

theorem quad_fold (Q : Integrator) (hQ : Integrator.OK Q) : ∀ (L : List ((ℝ → ℝ) × (ℝ → ℝ))) (st : ℂ × Bool),
    let r := L.foldl (fun st g => quadBlock Q (some g) st) st
    r.1 = st.1 + (L.map fun g => (((Q g.1).1 : ℂ) + Complex.I * ((Q g.2).1 : ℂ))).sum ∧
    (r.2 = true ↔ st.2 = true ∧ ∀ g ∈ L, ¬ warned Q g.1) := by
  intro L
  induction L with
  | nil => intro st; simp
  | cons g t ih =>
    intro st
    obtain ⟨h1, h2⟩ := ih (quadBlock Q (some g) st)
    simp only [List.foldl_cons]
    refine ⟨?_, ?_⟩
    · rw [h1]; simp only [quadBlock, List.map_cons, List.sum_cons]; ring
    · rw [h2]
      simp only [quadBlock, List.forall_mem_cons]
      have := quadWarn_iff Q hQ g.1 g.2
      by_cases hw : quadWarn (Q g.1).2 (Q g.2).2 = true
      · simp [hw, this.1 hw]
      · have hn : ¬ warned Q g.1 := fun h => hw (this.2 h)
        simp [hw, hn]

/-! ## Theorems -/

/-- **C21.**  The result is the sum of the integrals; success is reported exactly if no real part
raised a warning.  Missing for the full property: the imaginary parts, see `C21_violated`. -/
theorem C21_quad_partial (Q : Integrator) (hQ : Integrator.OK Q) (J0 J1 : ℝ → ℝ) (s0 s1 s0b : SplK)
    (ab : ℕ) (off ang : ℝ) :
    let r := quad Q J0 J1 s0 s1 s0b ab off ang
    let L := integrands J0 J1 s0 s1 s0b ab off ang
    r.1 = (L.map fun g => (((Q g.1).1 : ℂ) + Complex.I * ((Q g.2).1 : ℂ))).sum ∧
    (r.2 = true ↔ ∀ g ∈ L, ¬ warned Q g.1) := by
  intro r L
  have := quad_fold Q hQ L (0, true)
  rw [← quad_eq] at this
  simpa using this

/-- The same over all offsets: success exactly if no offset had a warning in a real part. -/
theorem C21_offsets_partial (Q : Integrator) (hQ : Integrator.OK Q) (J0 J1 : ℝ → ℝ)
    (s0 s1 s0b : SplK) (ab : ℕ) (offs : List (ℝ × ℝ)) :
    let r := hankelQuad Q J0 J1 s0 s1 s0b ab offs
    r.1 = offs.map (fun p => (quad Q J0 J1 s0 s1 s0b ab p.1 p.2).1) ∧
    (r.2.2 = true ↔ ∀ p ∈ offs, ∀ g ∈ integrands J0 J1 s0 s1 s0b ab p.1 p.2, ¬ warned Q g.1) := by
  intro r
  refine ⟨by simp [r, hankelQuad], ?_⟩
  have hf : ∀ (L : List (ℂ × Bool)) (c : Bool),
      L.foldl (fun c x => c && x.2) c = true ↔ c = true ∧ ∀ x ∈ L, x.2 = true := by
    intro L
    induction L with
    | nil => intro c; simp
    | cons x t ih => intro c; simp [ih, and_assoc]
  simp only [r, hankelQuad, hf, true_and, List.forall_mem_map]
  exact forall₂_congr fun p _ => (C21_quad_partial Q hQ J0 J1 s0 s1 s0b ab p.1 p.2).2

/-- **Warnings of imaginary parts are not reported.**  For every kernel whose imaginary integrand
differs from the real one there is an integrator that warns about it while success is reported. -/
theorem C21_violated (J0 J1 : ℝ → ℝ) (s : (ℝ → ℝ) × (ℝ → ℝ)) (ab : ℕ) (off ang : ℝ)
    (hne : (fun l => weight0 J0 off l * s.1 l) ≠ fun l => weight0 J0 off l * s.2 l) :
    ∃ Q : Integrator, Integrator.OK Q ∧
      (∃ g ∈ integrands J0 J1 (some s) none none ab off ang, warned Q g.2) ∧
      (quad Q J0 J1 (some s) none none ab off ang).2 = true := by
  classical
  let fi := fun l => weight0 J0 off l * s.2 l
  refine ⟨fun f => (0, if f = fi then 4 else 3), fun f => ?_, ⟨(fun l => weight0 J0 off l * s.1 l, fi),
    by simp [integrands, fi], ?_⟩, ?_⟩
  · simp only; split_ifs <;> omega
  · simp [warned, fi]
  · rw [(C21_quad_partial _ (fun f => by simp only; split_ifs <;> omega) ..).2]
    intro g hg
    simp only [integrands, Option.toList_some, List.map_cons, List.map_nil, Option.toList_none,
      List.append_nil, List.mem_singleton] at hg
    subst hg
    simp [warned, fi, hne]

/-- With an integrator that is exact for the integrands, the result is the integral of the Hankel integrand between the limits. -/
theorem C21_value (Q : Integrator) (hQ : Integrator.OK Q) (a b : ℝ)
    (J0 J1 : ℝ → ℝ) (s0 s1 s0b : SplK) (ab : ℕ) (off ang : ℝ)
    (hex : ∀ g ∈ integrands J0 J1 s0 s1 s0b ab off ang,
      (Q g.1).1 = ∫ l in a..b, g.1 l ∧ (Q g.2).1 = ∫ l in a..b, g.2 l)
    (hint : ∀ g ∈ integrands J0 J1 s0 s1 s0b ab off ang,
      IntervalIntegrable g.1 MeasureTheory.volume a b ∧
      IntervalIntegrable g.2 MeasureTheory.volume a b) :
    (quad Q J0 J1 s0 s1 s0b ab off ang).1 =
      ∫ l in a..b, hankelIntegrand
        (s0.map fun s => (⟨s.1 l, s.2 l⟩ : ℂ), s1.map fun s => (⟨s.1 l, s.2 l⟩ : ℂ),
          s0b.map fun s => (⟨s.1 l, s.2 l⟩ : ℂ)) ab off ang (J0 (off * l)) (J1 (off * l)) := by
  rw [(C21_quad_partial Q hQ J0 J1 s0 s1 s0b ab off ang).1]
  have key : ∀ L : List ((ℝ → ℝ) × (ℝ → ℝ)),
      (∀ g ∈ L, IntervalIntegrable g.1 MeasureTheory.volume a b ∧
        IntervalIntegrable g.2 MeasureTheory.volume a b) →
      (∀ g ∈ L, (Q g.1).1 = ∫ l in a..b, g.1 l ∧ (Q g.2).1 = ∫ l in a..b, g.2 l) →
      IntervalIntegrable (fun l => (L.map fun g => (⟨g.1 l, g.2 l⟩ : ℂ)).sum) MeasureTheory.volume a b ∧
      (L.map fun g => (((Q g.1).1 : ℂ) + Complex.I * ((Q g.2).1 : ℂ))).sum =
        ∫ l in a..b, (L.map fun g => (⟨g.1 l, g.2 l⟩ : ℂ)).sum := by
    intro L
    induction L with
    | nil => intro _ _; simp
    | cons g t ih =>
      intro h he
      obtain ⟨i1, i2⟩ := ih (fun g hg => h g (List.mem_cons_of_mem _ hg))
        (fun g hg => he g (List.mem_cons_of_mem _ hg))
      obtain ⟨e1, e2⟩ := he g (by simp)
      obtain ⟨h1, h2⟩ := h g (by simp)
      have hg : (fun l => (⟨g.1 l, g.2 l⟩ : ℂ)) = fun l => (g.1 l : ℂ) + Complex.I * (g.2 l : ℂ) := by
        funext l; apply Complex.ext <;> simp
      have hi1 : IntervalIntegrable (fun l => (g.1 l : ℂ)) MeasureTheory.volume a b :=
        ⟨h1.1.ofReal, h1.2.ofReal⟩
      have hi2 : IntervalIntegrable (fun l => Complex.I * (g.2 l : ℂ)) MeasureTheory.volume a b :=
        (show IntervalIntegrable (fun l => (g.2 l : ℂ)) MeasureTheory.volume a b from
          ⟨h2.1.ofReal, h2.2.ofReal⟩).const_mul _
      have hgi : IntervalIntegrable (fun l => (⟨g.1 l, g.2 l⟩ : ℂ)) MeasureTheory.volume a b := by
        rw [hg]; exact hi1.add hi2
      simp only [List.map_cons, List.sum_cons]
      refine ⟨hgi.add i1, ?_⟩
      rw [intervalIntegral.integral_add hgi i1, i2, hg, intervalIntegral.integral_add hi1 hi2,
        intervalIntegral.integral_const_mul, intervalIntegral.integral_ofReal,
        intervalIntegral.integral_ofReal, e1, e2]
  rw [(key _ hint hex).2]
  congr 1
  funext l
  have hz : ∀ (w x y : ℝ), (⟨w * x, w * y⟩ : ℂ) = (w : ℂ) * ⟨x, y⟩ := by
    intro w x y; apply Complex.ext <;> simp
  by_cases hab : ab ∈ j2codes <;> cases s0 <;> cases s1 <;> cases s0b <;>
    simp only [integrands, hankelIntegrand, hz, weight0, weight1, weight0b, hab, if_true, if_false,
      Option.toList_none, Option.toList_some, List.map_nil, List.map_cons, List.nil_append,
      List.cons_append, List.sum_nil, List.sum_cons, Option.map_none, Option.map_some,
      Complex.ofReal_mul, Complex.ofReal_div, Complex.ofReal_one] <;> ring

/-- Real kernel 1, imaginary kernel -1, Bessel functions 1: an integrator that fails for the imaginary
part only. -/
example : ∃ Q : Integrator, Integrator.OK Q ∧
    (∃ g ∈ integrands (fun _ => 1) (fun _ => 1) (some (fun _ => 1, fun _ => -1)) none none 11 1 1,
      warned Q g.2) ∧
    (quad Q (fun _ => 1) (fun _ => 1) (some (fun _ => 1, fun _ => -1)) none none 11 1 1).2 = true := by
  refine C21_violated _ _ _ _ _ _ fun h => ?_
  have := congrFun h 0
  norm_num [weight0] at this

end Verif.Props
