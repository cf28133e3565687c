import Verif.Props.C35_Halfspace

/-!
# C35: receiver straight above or below the source

`halfspace` has own formulae for a vanishing horizontal offset; they ought to be the limits of the others.
-/

namespace Verif.Props
open Set Filter Topology Verif.Halfspace

/-- The receiver moved to the horizontal distance `r`, in the same direction. -/
def atOffset (p : Pos) (r : ℝ) : Pos := { p with off := r }

/-- Direction cosines: the product of the coordinates over the square of the distance. -/
noncomputable def dirProd (angle : ℝ) (ab : ℕ) : ℝ :=
  if ab = 11 then Real.cos angle * Real.cos angle
  else if ab = 22 then Real.sin angle * Real.sin angle
  else Real.sin angle * Real.cos angle

theorem dirProd_xy (p : Pos) {ab : ℕ} (hab : ab ∈ [11, 12, 21, 22]) :
    (xy p ab).1 * (xy p ab).2 = dirProd p.angle ab * p.off ^ 2 := by
  simp only [List.mem_cons, List.not_mem_nil, or_false] at hab
  rcases hab with rfl | rfl | rfl | rfl <;> norm_num [xy, dirProd, Pos.xco, Pos.yco] <;> ring

/-- The difference of two diffusive functions at the rescaled and at the true distance, over the square of the
offset. -/
theorem slope_lim {K : Type} [NormedAddCommGroup K] [NormedSpace ℝ K] {f : ℝ → K} {d : K} {t a b : ℝ}
    (hf : HasDerivAt f d t) :
    Tendsto (fun r : ℝ => (r ^ 2)⁻¹ • (f (t + a * r ^ 2) - f (t + b * r ^ 2))) (𝓝[>] 0) (𝓝 ((a - b) • d)) := by
  have hl : ∀ c : ℝ, HasDerivAt (fun u : ℝ => f (t + c * u)) (c • d) 0 := by
    intro c
    have h1 : HasDerivAt (fun u : ℝ => t + c * u) c 0 := by
      simpa using ((hasDerivAt_id (0 : ℝ)).const_mul c).const_add t
    have h2 : HasDerivAt f d (t + c * 0) := by simpa using hf
    exact h2.scomp (0 : ℝ) h1
  have h := ((hl a).sub (hl b)).tendsto_slope_zero
  have hsq : Tendsto (fun r : ℝ => r ^ 2) (𝓝[>] 0) (𝓝[≠] 0) := by
    refine tendsto_nhdsWithin_of_tendsto_nhds_of_eventually_within _ ?_ ?_
    · have : Tendsto (fun r : ℝ => r ^ 2) (𝓝 0) (𝓝 (0 ^ 2)) := (continuous_pow 2).tendsto 0
      simpa using this.mono_left nhdsWithin_le_nhds
    · filter_upwards [self_mem_nhdsWithin] with r hr
      exact (pow_pos hr 2).ne'
  have h2 := h.comp hsq
  rw [sub_smul]
  refine h2.congr fun r => ?_
  simp

/-- What all diffusive functions of the code have in common (as functions of the diffusion time): they are continuous, and
the second is the integral of the third. -/
structure Diffusive {K : Type} [NormedAddCommGroup K] [NormedSpace ℝ K] (F : ℝ → F3 K) : Prop where
  c0 : ∀ t, 0 < t → ContinuousAt (fun t => (F t).f0) t
  d1 : ∀ t, 0 < t → HasDerivAt (fun t => (F t).f1) (-((Real.sqrt t)⁻¹ • (F t).f2)) t
  c2 : ∀ t, 0 < t → ContinuousAt (fun t => (F t).f2) t

/-- Distances near the axis. -/
theorem axis_geo (p : Pos) {r : ℝ} (hr : 0 ≤ r) :
    (atOffset p r).rh = r ∧ (atOffset p r).hm = p.hm ∧ (atOffset p r).hp = p.hp ∧
    (atOffset p r).hsm = p.hsm ∧ (atOffset p r).hsp = p.hsp ∧
    (atOffset p r).rm = Real.sqrt (r ^ 2 + p.hm ^ 2) ∧ (atOffset p r).rp = Real.sqrt (r ^ 2 + p.hp ^ 2) ∧
    (atOffset p r).rsm = Real.sqrt (r ^ 2 + p.hsm ^ 2) ∧ (atOffset p r).rsp = Real.sqrt (r ^ 2 + p.hsp ^ 2) := by
  have e := xy_sq (atOffset p r)
  refine ⟨?_, rfl, rfl, rfl, rfl, ?_, ?_, ?_, ?_⟩
  · rw [Pos.rh, e]; exact Real.sqrt_sq hr
  all_goals first | rw [Pos.rp] | rw [Pos.rm] | rw [Pos.rsp] | rw [Pos.rsm]
  all_goals rw [e]; rfl

/-- Diffusion times near the axis. -/
theorem axis_times (p : Pos) (hl : 0 < p.aniso) {r : ℝ} (hr : 0 ≤ r) :
    (atOffset p r).tm = mu0 * p.hm ^ 2 / (p.res * 4) + mu0 / (p.res * 4) * r ^ 2 ∧
    (atOffset p r).tp = mu0 * p.hp ^ 2 / (p.res * 4) + mu0 / (p.res * 4) * r ^ 2 ∧
    (atOffset p r).tsm = mu0 * p.hm ^ 2 / (p.res * 4) + mu0 / (p.res * p.aniso ^ 2 * 4) * r ^ 2 ∧
    (atOffset p r).tsp = mu0 * p.hp ^ 2 / (p.res * 4) + mu0 / (p.res * p.aniso ^ 2 * 4) * r ^ 2 := by
  obtain ⟨-, -, -, -, -, h1, h2, h3, h4⟩ := axis_geo p hr
  have hl' := hl.ne'
  simp only [Pos.tm, Pos.tp, Pos.tsm, Pos.tsp, h1, h2, h3, h4]
  rw [Real.sq_sqrt (by positivity), Real.sq_sqrt (by positivity), Real.sq_sqrt (by positivity),
    Real.sq_sqrt (by positivity)]
  simp only [Pos.hsm, Pos.hsp, atOffset]
  by_cases h0 : p.res = 0
  · simp [h0]
  · refine ⟨?_, ?_, ?_, ?_⟩ <;> field_simp <;> ring

/-- The part that is singular in its single terms: `TM` part of the direct or reflected field, together with the counterpart
of its singular coefficient. -/
theorem axis_TM {K : Type} [NormedAddCommGroup K] [NormedSpace ℝ K] {F : ℝ → F3 K} (hF : Diffusive F) {h lam res q d : ℝ}
    (hh : 0 < h) (hl : 0 < lam) (hr : 0 < res) :
    Tendsto (fun r : ℝ =>
      let rs := Real.sqrt (r ^ 2 + (h * lam) ^ 2)
      let ts := mu0 * h ^ 2 / (res * 4) + mu0 / (res * lam ^ 2 * 4) * r ^ 2
      let t := mu0 * h ^ 2 / (res * 4) + mu0 / (res * 4) * r ^ 2
      (res * lam * (3 * (q * r ^ 2) - rs ^ 2 * d) / (4 * Real.pi * rs ^ 5)) • (F ts).f0 +
      ((((3 * (q * r ^ 2) - rs ^ 2 * d) / rs ^ 4 - (q * r ^ 2 - (r ^ 2 * d - q * r ^ 2)) / r ^ 4) *
        Real.sqrt (mu0 * res) / (4 * Real.pi)) • (F ts).f1) +
      (mu0 * (q * r ^ 2) / (4 * Real.pi * lam * rs) * (1 / rs ^ 2 - 1 / r ^ 2)) • (F ts).f2 +
      (Real.sqrt (mu0 * res) * (q * r ^ 2 - (r ^ 2 * d - q * r ^ 2)) / (4 * Real.pi * r ^ 4)) • (F t).f1)
      (𝓝[>] 0)
      (𝓝 (let t := mu0 * h ^ 2 / (res * 4)
        (res * lam * (-((h * lam) ^ 2 * d)) / (4 * Real.pi * (h * lam) ^ 5)) • (F t).f0 +
        (-Real.sqrt (mu0 * res) * d / (4 * Real.pi * (h * lam) ^ 2)) • (F t).f1 +
        (-mu0 * d / (8 * Real.pi * lam * (h * lam)) - mu0 * (2 * q - d) / (8 * Real.pi * h)) • (F t).f2)) := by
  have hm := vacuum_pos
  have hpi := Real.pi_pos
  set t := mu0 * h ^ 2 / (res * 4) with ht
  have tpos : 0 < t := by rw [ht]; positivity
  set A := mu0 / (res * lam ^ 2 * 4)
  set B := mu0 / (res * 4)
  have hr2 : Tendsto (fun r : ℝ => r ^ 2) (𝓝[>] 0) (𝓝 0) := by
    have : Tendsto (fun r : ℝ => r ^ 2) (𝓝 0) (𝓝 (0 ^ 2)) := (continuous_pow 2).tendsto 0
    simpa using this.mono_left nhdsWithin_le_nhds
  have hts : ∀ c : ℝ, Tendsto (fun r : ℝ => t + c * r ^ 2) (𝓝[>] 0) (𝓝 t) := by
    intro c
    simpa using (hr2.const_mul c).const_add t
  have hrs : Tendsto (fun r : ℝ => Real.sqrt (r ^ 2 + (h * lam) ^ 2)) (𝓝[>] 0) (𝓝 (h * lam)) := by
    have := (Real.continuous_sqrt.tendsto _).comp (hr2.add_const ((h * lam) ^ 2))
    simpa [Function.comp_def, Real.sqrt_sq (by positivity : 0 ≤ h * lam)] using this
  have hs0 : h * lam ≠ 0 := by positivity
  have f0 := (hF.c0 t tpos).tendsto.comp (hts A)
  have f1 := (hF.d1 t tpos).continuousAt.tendsto.comp (hts A)
  have f2 := (hF.c2 t tpos).tendsto.comp (hts A)
  have g0 : Tendsto (fun r : ℝ => res * lam * (3 * (q * r ^ 2) - Real.sqrt (r ^ 2 + (h * lam) ^ 2) ^ 2 * d) /
      (4 * Real.pi * Real.sqrt (r ^ 2 + (h * lam) ^ 2) ^ 5)) (𝓝[>] 0)
      (𝓝 (res * lam * (3 * (q * 0) - (h * lam) ^ 2 * d) / (4 * Real.pi * (h * lam) ^ 5))) :=
    ((((hr2.const_mul q).const_mul 3).sub ((hrs.pow 2).mul_const d)).const_mul (res * lam)).div
      ((hrs.pow 5).const_mul (4 * Real.pi)) (by positivity)
  have g1 : Tendsto (fun r : ℝ => (3 * (q * r ^ 2) - Real.sqrt (r ^ 2 + (h * lam) ^ 2) ^ 2 * d) /
      Real.sqrt (r ^ 2 + (h * lam) ^ 2) ^ 4 * (Real.sqrt (mu0 * res) / (4 * Real.pi))) (𝓝[>] 0)
      (𝓝 ((3 * (q * 0) - (h * lam) ^ 2 * d) / (h * lam) ^ 4 * (Real.sqrt (mu0 * res) / (4 * Real.pi)))) :=
    ((((hr2.const_mul q).const_mul 3).sub ((hrs.pow 2).mul_const d)).div (hrs.pow 4) (by positivity)).mul_const _
  have g2 : Tendsto (fun r : ℝ => mu0 * q / (4 * Real.pi * lam * Real.sqrt (r ^ 2 + (h * lam) ^ 2)) *
      (r ^ 2 / Real.sqrt (r ^ 2 + (h * lam) ^ 2) ^ 2 - 1)) (𝓝[>] 0)
      (𝓝 (mu0 * q / (4 * Real.pi * lam * (h * lam)) * (0 / (h * lam) ^ 2 - 1))) :=
    (tendsto_const_nhds.div (hrs.const_mul (4 * Real.pi * lam)) (by positivity)).mul
      ((hr2.div (hrs.pow 2) (by positivity)).sub_const 1)
  have g3 := (slope_lim (a := A) (b := B) (hF.d1 t tpos)).const_smul
    (-(Real.sqrt (mu0 * res) * (2 * q - d) / (4 * Real.pi)))
  have key := (((g0.smul f0).add (g1.smul f1)).add (g2.smul f2)).add g3
  have hsq : Real.sqrt t = Real.sqrt (mu0 * res) * h / (2 * res) := by
    rw [ht, Real.sqrt_eq_iff_mul_self_eq (by positivity) (by positivity)]
    field_simp
    rw [Real.sq_sqrt (by positivity)]; ring
  have hsr : 0 < Real.sqrt (mu0 * res) := Real.sqrt_pos.2 (by positivity)
  have hlim : (res * lam * (3 * (q * 0) - (h * lam) ^ 2 * d) / (4 * Real.pi * (h * lam) ^ 5)) • (F t).f0 +
      ((3 * (q * 0) - (h * lam) ^ 2 * d) / (h * lam) ^ 4 * (Real.sqrt (mu0 * res) / (4 * Real.pi))) • (F t).f1 +
      (mu0 * q / (4 * Real.pi * lam * (h * lam)) * (0 / (h * lam) ^ 2 - 1)) • (F t).f2 +
      (-(Real.sqrt (mu0 * res) * (2 * q - d) / (4 * Real.pi))) • (A - B) • -((Real.sqrt t)⁻¹ • (F t).f2) =
      (res * lam * (-((h * lam) ^ 2 * d)) / (4 * Real.pi * (h * lam) ^ 5)) • (F t).f0 +
        (-Real.sqrt (mu0 * res) * d / (4 * Real.pi * (h * lam) ^ 2)) • (F t).f1 +
        (-mu0 * d / (8 * Real.pi * lam * (h * lam)) - mu0 * (2 * q - d) / (8 * Real.pi * h)) • (F t).f2 := by
    rw [hsq]
    simp only [A, B]
    generalize Real.sqrt (mu0 * res) = sm at hsr
    match_scalars <;> field_simp <;> ring
  rw [hlim] at key
  refine key.congr' ?_
  filter_upwards [self_mem_nhdsWithin] with r hr0
  have hr0 : (0 : ℝ) < r := hr0
  have hrs0 : 0 < Real.sqrt (r ^ 2 + (h * lam) ^ 2) := Real.sqrt_pos.2 (by positivity)
  simp only [Function.comp_apply, smul_sub, smul_smul]
  generalize Real.sqrt (r ^ 2 + (h * lam) ^ 2) = rs at hrs0 ⊢
  generalize Real.sqrt (mu0 * res) = sm
  generalize (F (t + A * r ^ 2)).f0 = x0
  generalize (F (t + A * r ^ 2)).f1 = x1
  generalize (F (t + A * r ^ 2)).f2 = x2
  generalize (F (t + B * r ^ 2)).f1 = y1
  match_scalars <;> field_simp <;> ring

/-- All parts for given diffusive functions. -/
noncomputable def partsWith {K : Type} [NormedAddCommGroup K] [NormedSpace ℝ K] (F : ℝ → F3 K) (p : Pos) (ab : ℕ) : Parts K :=
  parts (coeffs p ab) (F p.tsm) (F p.tm) (F p.tsp) (F p.tp) 0

theorem axis_direct {K : Type} [NormedAddCommGroup K] [NormedSpace ℝ K] {F : ℝ → F3 K} (hF : Diffusive F) {p : Pos}
    (hres : 0 < p.res) (hl : 0 < p.aniso) (hm : p.zrec ≠ p.zsrc) {ab : ℕ} (hab : ab ∈ [11, 12, 21, 22]) :
    Tendsto (fun r => (partsWith F (atOffset p r) ab).direct) (𝓝[>] 0)
      (𝓝 ((partsWith F (atOffset p 0) ab).direct -
        (mu0 * delta ab / (4 * Real.pi * p.hm)) • (F (atOffset p 0).tm).f2)) := by
  have hm0 := vacuum_pos
  have hpi := Real.pi_pos
  have hh : 0 < p.hm := abs_pos.2 (sub_ne_zero.2 hm)
  have key := axis_TM hF (q := dirProd p.angle ab) (d := delta ab) hh hl hres
  have hr2 : Tendsto (fun r : ℝ => r ^ 2) (𝓝[>] 0) (𝓝 0) := by
    have : Tendsto (fun r : ℝ => r ^ 2) (𝓝 0) (𝓝 (0 ^ 2)) := (continuous_pow 2).tendsto 0
    simpa using this.mono_left nhdsWithin_le_nhds
  have htm : Tendsto (fun r : ℝ => mu0 * p.hm ^ 2 / (p.res * 4) + mu0 / (p.res * 4) * r ^ 2) (𝓝[>] 0)
      (𝓝 (mu0 * p.hm ^ 2 / (p.res * 4))) := by
    simpa using (hr2.const_mul (mu0 / (p.res * 4))).const_add (mu0 * p.hm ^ 2 / (p.res * 4))
  have hrm : Tendsto (fun r : ℝ => Real.sqrt (r ^ 2 + p.hm ^ 2)) (𝓝[>] 0) (𝓝 p.hm) := by
    have := (Real.continuous_sqrt.tendsto _).comp (hr2.add_const (p.hm ^ 2))
    simpa [Function.comp_def, Real.sqrt_sq hh.le] using this
  have f2 := (hF.c2 (mu0 * p.hm ^ 2 / (p.res * 4)) (by positivity)).tendsto.comp htm
  have g2 : Tendsto (fun r : ℝ => -(mu0 * (delta ab - dirProd p.angle ab)) / (4 * Real.pi * Real.sqrt (r ^ 2 + p.hm ^ 2)))
      (𝓝[>] 0) (𝓝 (-(mu0 * (delta ab - dirProd p.angle ab)) / (4 * Real.pi * p.hm))) :=
    tendsto_const_nhds.div (hrm.const_mul (4 * Real.pi)) (by positivity)
  have tot := key.add (g2.smul f2)
  have hz : (partsWith F (atOffset p 0) ab).direct =
      (p.res * p.aniso * (-((p.hm * p.aniso) ^ 2 * delta ab)) / (4 * Real.pi * (p.hm * p.aniso) ^ 5)) •
        (F (mu0 * p.hm ^ 2 / (p.res * 4))).f0 +
      (-Real.sqrt (mu0 * p.res) * delta ab / (4 * Real.pi * (p.hm * p.aniso) ^ 2)) • (F (mu0 * p.hm ^ 2 / (p.res * 4))).f1 +
      (-mu0 * delta ab / (8 * Real.pi * p.aniso * (p.hm * p.aniso)) + mu0 * delta ab / (8 * Real.pi * p.hm)) •
        (F (mu0 * p.hm ^ 2 / (p.res * 4))).f2 := by
    obtain ⟨a1, a2, a3, a4, a5, a6, a7, a8, a9⟩ := axis_geo p le_rfl
    obtain ⟨b1, b2, b3, b4⟩ := axis_times p hl le_rfl
    have hxy := dirProd_xy (atOffset p 0) hab
    have hs : 0 < p.hm * p.aniso := by positivity
    have c0 : 3 * (xy (atOffset p 0) ab).1 * (xy (atOffset p 0) ab).2 = 0 := by
      rw [mul_assoc, hxy]; simp [atOffset]
    simp only [partsWith, parts, coeffs, if_pos hab, coeffsH, a1, a2, a4, a8, b1, b3, c0]
    simp only [ne_eq, not_true_eq_false, if_false, hh.ne', not_false_eq_true, if_true]
    simp only [Pos.hsm, atOffset]
    norm_num [Real.sqrt_sq hs.le]
    module
  have ht0 : (atOffset p 0).tm = mu0 * p.hm ^ 2 / (p.res * 4) := by
    rw [(axis_times p hl le_rfl).1]; simp
  rw [hz, ht0]
  refine (tot.congr' ?_).trans (le_of_eq ?_)
  · filter_upwards [self_mem_nhdsWithin] with r hr
    have hr : (0 : ℝ) < r := hr
    obtain ⟨a1, a2, a3, a4, a5, a6, a7, a8, a9⟩ := axis_geo p hr.le
    obtain ⟨b1, b2, b3, b4⟩ := axis_times p hl hr.le
    have hxy := dirProd_xy (atOffset p r) hab
    have hrm0 : 0 < Real.sqrt (r ^ 2 + p.hm ^ 2) := Real.sqrt_pos.2 (by positivity)
    have c0 : 3 * (xy (atOffset p r) ab).1 * (xy (atOffset p r) ab).2 = 3 * (dirProd p.angle ab * r ^ 2) := by
      rw [mul_assoc, hxy]; rfl
    have c1 : (xy (atOffset p r) ab).1 * (xy (atOffset p r) ab).2 = dirProd p.angle ab * r ^ 2 := hxy
    have c2 : mu0 * (xy (atOffset p r) ab).1 * (xy (atOffset p r) ab).2 = mu0 * (dirProd p.angle ab * r ^ 2) := by
      rw [mul_assoc, hxy]; rfl
    simp only [partsWith, parts, coeffs, if_pos hab, coeffsH, a1, a2, a4, a6, a8, b1, b3, c0, c1, c2, fab]
    simp only [ne_eq, hr.ne', not_false_eq_true, if_true]
    simp only [Pos.hsm, atOffset, Function.comp_apply]
    rw [add_assoc]
    congr 2
    congr 1
    field_simp
  · congr 1
    match_scalars <;> field_simp <;> ring

theorem axis_reflect {K : Type} [NormedAddCommGroup K] [NormedSpace ℝ K] {F : ℝ → F3 K} (hF : Diffusive F) {p : Pos}
    (hres : 0 < p.res) (hl : 0 < p.aniso) (hm : p.zrec ≠ p.zsrc) (hp : p.zrec + p.zsrc ≠ 0) {ab : ℕ}
    (hab : ab ∈ [11, 12, 21, 22]) :
    Tendsto (fun r => (partsWith F (atOffset p r) ab).reflect) (𝓝[>] 0)
      (𝓝 ((partsWith F (atOffset p 0) ab).reflect -
        (mu0 * delta ab / (4 * Real.pi * p.hp)) • (F (atOffset p 0).tp).f2)) := by
  have hm0 := vacuum_pos
  have hpi := Real.pi_pos
  have hmm : 0 < p.hm := abs_pos.2 (sub_ne_zero.2 hm)
  have hh : 0 < p.hp := abs_pos.2 hp
  have key := axis_TM hF (q := dirProd p.angle ab) (d := delta ab) hh hl hres
  have hr2 : Tendsto (fun r : ℝ => r ^ 2) (𝓝[>] 0) (𝓝 0) := by
    have : Tendsto (fun r : ℝ => r ^ 2) (𝓝 0) (𝓝 (0 ^ 2)) := (continuous_pow 2).tendsto 0
    simpa using this.mono_left nhdsWithin_le_nhds
  have htm : Tendsto (fun r : ℝ => mu0 * p.hp ^ 2 / (p.res * 4) + mu0 / (p.res * 4) * r ^ 2) (𝓝[>] 0)
      (𝓝 (mu0 * p.hp ^ 2 / (p.res * 4))) := by
    simpa using (hr2.const_mul (mu0 / (p.res * 4))).const_add (mu0 * p.hp ^ 2 / (p.res * 4))
  have hrm : Tendsto (fun r : ℝ => Real.sqrt (r ^ 2 + p.hp ^ 2)) (𝓝[>] 0) (𝓝 p.hp) := by
    have := (Real.continuous_sqrt.tendsto _).comp (hr2.add_const (p.hp ^ 2))
    simpa [Function.comp_def, Real.sqrt_sq hh.le] using this
  have tpos : 0 < mu0 * p.hp ^ 2 / (p.res * 4) := by positivity
  have f0 := (hF.c0 _ tpos).tendsto.comp htm
  have f1 := (hF.d1 _ tpos).continuousAt.tendsto.comp htm
  have f2 := (hF.c2 _ tpos).tendsto.comp htm
  have g0 : Tendsto (fun r : ℝ => p.res * (3 * ((delta ab - dirProd p.angle ab) * r ^ 2) -
      Real.sqrt (r ^ 2 + p.hp ^ 2) ^ 2 * delta ab) / (2 * Real.pi * Real.sqrt (r ^ 2 + p.hp ^ 2) ^ 5))
      (𝓝[>] 0) (𝓝 (p.res * (3 * ((delta ab - dirProd p.angle ab) * 0) - p.hp ^ 2 * delta ab) /
        (2 * Real.pi * p.hp ^ 5))) :=
    ((((hr2.const_mul _).const_mul 3).sub ((hrm.pow 2).mul_const _)).const_mul _).div
      ((hrm.pow 5).const_mul (2 * Real.pi)) (by positivity)
  have g1 : Tendsto (fun r : ℝ => Real.sqrt (mu0 * p.res) * (3 * ((delta ab - dirProd p.angle ab) * r ^ 2) -
      Real.sqrt (r ^ 2 + p.hp ^ 2) ^ 2 * delta ab) / (2 * Real.pi * Real.sqrt (r ^ 2 + p.hp ^ 2) ^ 4))
      (𝓝[>] 0) (𝓝 (Real.sqrt (mu0 * p.res) * (3 * ((delta ab - dirProd p.angle ab) * 0) - p.hp ^ 2 * delta ab) /
        (2 * Real.pi * p.hp ^ 4))) :=
    ((((hr2.const_mul _).const_mul 3).sub ((hrm.pow 2).mul_const _)).const_mul _).div
      ((hrm.pow 4).const_mul (2 * Real.pi)) (by positivity)
  have g2 : Tendsto (fun r : ℝ => mu0 * (delta ab - dirProd p.angle ab) / (4 * Real.pi * Real.sqrt (r ^ 2 + p.hp ^ 2)) *
      (2 * r ^ 2 / Real.sqrt (r ^ 2 + p.hp ^ 2) ^ 2 - 1))
      (𝓝[>] 0) (𝓝 (mu0 * (delta ab - dirProd p.angle ab) / (4 * Real.pi * p.hp) * (2 * 0 / p.hp ^ 2 - 1))) :=
    (tendsto_const_nhds.div (hrm.const_mul (4 * Real.pi)) (by positivity)).mul
      (((hr2.const_mul 2).div (hrm.pow 2) (by positivity)).sub_const 1)
  have tot := key.add (((g0.smul f0).add (g1.smul f1)).add (g2.smul f2))
  have hz : (partsWith F (atOffset p 0) ab).reflect =
      (p.res * p.aniso * (-((p.hp * p.aniso) ^ 2 * delta ab)) / (4 * Real.pi * (p.hp * p.aniso) ^ 5)) •
        (F (mu0 * p.hp ^ 2 / (p.res * 4))).f0 +
      (-Real.sqrt (mu0 * p.res) * delta ab / (4 * Real.pi * (p.hp * p.aniso) ^ 2)) • (F (mu0 * p.hp ^ 2 / (p.res * 4))).f1 +
      (-mu0 * delta ab / (8 * Real.pi * p.aniso * (p.hp * p.aniso)) + mu0 * delta ab / (8 * Real.pi * p.hp)) •
        (F (mu0 * p.hp ^ 2 / (p.res * 4))).f2 +
      ((-(p.res * (p.hp ^ 2 * delta ab)) / (2 * Real.pi * p.hp ^ 5)) • (F (mu0 * p.hp ^ 2 / (p.res * 4))).f0 +
        (-Real.sqrt (mu0 * p.res) * delta ab / (2 * Real.pi * p.hp ^ 2)) • (F (mu0 * p.hp ^ 2 / (p.res * 4))).f1) := by
    obtain ⟨a1, a2, a3, a4, a5, a6, a7, a8, a9⟩ := axis_geo p le_rfl
    obtain ⟨b1, b2, b3, b4⟩ := axis_times p hl le_rfl
    have hxy := dirProd_xy (atOffset p 0) hab
    have hs : 0 < p.hp * p.aniso := by positivity
    have c1 : (xy (atOffset p 0) ab).1 * (xy (atOffset p 0) ab).2 = 0 := by
      rw [hxy]; simp [atOffset]
    have c0 : 3 * (xy (atOffset p 0) ab).1 * (xy (atOffset p 0) ab).2 = 0 := by
      rw [mul_assoc, c1, mul_zero]
    simp only [partsWith, parts, coeffs, if_pos hab, coeffsH, a1, a2, a3, a5, a7, a9, b2, b4, c0, fab, c1]
    simp only [ne_eq, not_true_eq_false, if_false, hmm.ne', not_false_eq_true, if_true]
    simp only [Pos.hsp, atOffset]
    norm_num [Real.sqrt_sq hs.le, Real.sqrt_sq hh.le]
    module
  have ht0 : (atOffset p 0).tp = mu0 * p.hp ^ 2 / (p.res * 4) := by
    rw [(axis_times p hl le_rfl).2.1]; simp
  rw [hz, ht0]
  refine (tot.congr' ?_).trans (le_of_eq ?_)
  · filter_upwards [self_mem_nhdsWithin] with r hr
    have hr : (0 : ℝ) < r := hr
    obtain ⟨a1, a2, a3, a4, a5, a6, a7, a8, a9⟩ := axis_geo p hr.le
    obtain ⟨b1, b2, b3, b4⟩ := axis_times p hl hr.le
    have hxy := dirProd_xy (atOffset p r) hab
    have hrm0 : 0 < Real.sqrt (r ^ 2 + p.hp ^ 2) := Real.sqrt_pos.2 (by positivity)
    have c1 : (xy (atOffset p r) ab).1 * (xy (atOffset p r) ab).2 = dirProd p.angle ab * r ^ 2 := hxy
    have c0 : 3 * (xy (atOffset p r) ab).1 * (xy (atOffset p r) ab).2 = 3 * (dirProd p.angle ab * r ^ 2) := by
      rw [mul_assoc, c1]
    have c2 : mu0 * (xy (atOffset p r) ab).1 * (xy (atOffset p r) ab).2 = mu0 * (dirProd p.angle ab * r ^ 2) := by
      rw [mul_assoc, c1]
    simp only [partsWith, parts, coeffs, if_pos hab, coeffsH, a1, a3, a5, a7, a9, b2, b4, c0, c1, c2, fab]
    simp only [ne_eq, hr.ne', not_false_eq_true, if_true]
    simp only [Pos.hsp, atOffset, Function.comp_apply]
    generalize Real.sqrt (r ^ 2 + p.hp ^ 2) = rp at hrm0
    match_scalars <;> field_simp <;> ring
  · congr 1
    match_scalars <;> field_simp <;> ring

/-! ## The functions of the code -/

theorem diffusive_freq (s : ℂ) : Diffusive (fFreq s) := by
  have d0 : ∀ t : ℝ, 0 < t → HasDerivAt (fun t : ℝ => (fFreq s t).f0)
      (-(Kernel.csqrt s / (Real.sqrt t : ℝ)) * (fFreq s t).f0) t := by
    intro t ht
    have hs : (Real.sqrt t : ℂ) ≠ 0 := by exact_mod_cast (Real.sqrt_pos.2 ht).ne'
    have h1 : HasDerivAt (fun t : ℝ => ((Real.sqrt t : ℝ) : ℂ)) ((1 / (2 * Real.sqrt t) : ℝ) : ℂ) t :=
      (Real.hasDerivAt_sqrt ht.ne').ofReal_comp
    have h2 : HasDerivAt (fun t : ℝ => Complex.exp (-2 * (Kernel.csqrt s * ((Real.sqrt t : ℝ) : ℂ))))
        (-(Kernel.csqrt s / (Real.sqrt t : ℝ)) * Complex.exp (-2 * (Kernel.csqrt s * ((Real.sqrt t : ℝ) : ℂ)))) t := by
      refine ((h1.const_mul _).const_mul (-2)).cexp.congr_deriv ?_
      push_cast
      field_simp
    refine (h2.congr_of_eventuallyEq ?_).congr_deriv ?_
    · filter_upwards [lt_mem_nhds ht] with u hu
      simp only [fFreq, Lemmas.csqrt_mul_pos hu, mul_comm]
    · rw [fFreq, Lemmas.csqrt_mul_pos ht, mul_comm (Kernel.csqrt s)]
  refine ⟨fun t ht => (d0 t ht).continuousAt, fun t ht => ?_, fun t ht => ?_⟩
  · refine ((d0 t ht).const_mul (Kernel.csqrt s)).congr_deriv ?_
    simp only [fFreq, Complex.real_smul]
    have := Lemmas.csqrt_sq' s
    push_cast
    linear_combination (-(Complex.exp (-2 * Kernel.csqrt (s * t)) / (Real.sqrt t : ℝ))) * this
  · exact ((d0 t ht).const_mul s).continuousAt

theorem diffusive_step {T : ℝ} (hT : 0 < T) : Diffusive (fStep T) := by
  have d1 : ∀ t : ℝ, HasDerivAt (fun t : ℝ => (fStep T t).f1) (-((fStep T t).f1 / T)) t := by
    intro t
    simp only [fStep]
    refine ((((hasDerivAt_id t).neg.div_const T).exp).div_const _).congr_deriv ?_
    simp only [Pi.neg_apply, id]
    ring
  refine ⟨fun t ht => ?_, fun t ht => ?_, fun t ht => ?_⟩
  · simp only [fStep]
    exact ((Lemmas.erfc_hasDeriv _).continuousAt).comp
      (Real.continuous_sqrt.continuousAt.comp (continuousAt_id.div_const T))
  · refine (d1 t).congr_deriv ?_
    have := Real.sqrt_pos.2 ht
    simp only [fStep, smul_eq_mul]
    generalize Real.exp (-t / T) / Real.sqrt (Real.pi * T) = x
    field_simp
  · have : ContinuousAt (fun t : ℝ => (fStep T t).f1 * Real.sqrt t / T) t :=
      ((d1 t).continuousAt.mul Real.continuous_sqrt.continuousAt).div_const T
    exact this

theorem diffusive_imp {T : ℝ} (hT : 0 < T) : Diffusive (fImp T) := by
  have c0 : ∀ t : ℝ, ContinuousAt (fun t : ℝ => (fImp T t).f0) t := by
    intro t
    simp only [fImp]
    exact (Real.continuous_sqrt.continuousAt.comp (continuousAt_id.div_const _)).mul
      ((continuousAt_id.neg.div_const T).rexp)
  refine ⟨fun t _ => c0 t, fun t ht => ?_, fun t ht => ?_⟩
  · have e : (fun t : ℝ => (fImp T t).f1) =ᶠ[𝓝 t]
        fun t => (t / T - 0.5) * (Real.exp (-t / T) / Real.sqrt (Real.pi * T ^ 3)) := by
      filter_upwards [lt_mem_nhds ht] with u hu
      have := Real.sqrt_pos.2 hu
      have h3 : 0 < Real.sqrt (Real.pi * T ^ 3) := Real.sqrt_pos.2 (by have := Real.pi_pos; positivity)
      simp only [fImp]
      rw [Real.sqrt_div hu.le]
      field_simp
    have h1 : HasDerivAt (fun t : ℝ => Real.exp (-t / T) / Real.sqrt (Real.pi * T ^ 3))
        (-(Real.exp (-t / T) / Real.sqrt (Real.pi * T ^ 3) / T)) t := by
      refine ((((hasDerivAt_id t).neg.div_const T).exp).div_const _).congr_deriv ?_
      simp only [Pi.neg_apply, id]
      ring
    have h2 : HasDerivAt (fun t : ℝ => t / T - 0.5) (1 / T) t := ((hasDerivAt_id t).div_const T).sub_const _
    refine ((h2.mul h1).congr_of_eventuallyEq e).congr_deriv ?_
    have := Real.sqrt_pos.2 ht
    have h3 : 0 < Real.sqrt (Real.pi * T ^ 3) := Real.sqrt_pos.2 (by have := Real.pi_pos; positivity)
    simp only [fImp, smul_eq_mul]
    rw [Real.sqrt_div ht.le]
    field_simp
    ring
  · have : ContinuousAt (fun t : ℝ => (t / T - 1.5) / T * (fImp T t).f0) t :=
      (((continuousAt_id.div_const T).sub_const _).div_const T).mul (c0 t)
    exact this

/-! ## The limit -/

/-- Source and receiver in the halfspace, above each other, at different depths. -/
structure Aligned (p : Pos) : Prop where
  res : 0 < p.res
  aniso : 0 < p.aniso
  src : 0 ≤ p.zsrc
  rcv : 0 ≤ p.zrec
  off : p.off = 0
  apart : p.zrec ≠ p.zsrc

/-- **C35.**  Horizontal components, receiver above or below the source: for the off-diagonal components the value is the
limit for vanishing offset, of direct and of reflected field, in frequency and time domain, for every direction from which
the axis is approached. -/
theorem C35_axis_partial (B : Bessel) {p : Pos} (h : Aligned p) (s : ℂ) {T : ℝ} (hT : 0 < T) (step : Bool) {ab : ℕ}
    (hab : ab ∈ [12, 21]) :
    Tendsto (fun r => (partsFreq B (atOffset p r) ab s).direct) (𝓝[>] 0) (𝓝 (partsFreq B p ab s).direct) ∧
    Tendsto (fun r => (partsFreq B (atOffset p r) ab s).reflect) (𝓝[>] 0) (𝓝 (partsFreq B p ab s).reflect) ∧
    Tendsto (fun r => (partsTime B (atOffset p r) ab step T).direct) (𝓝[>] 0) (𝓝 (partsTime B p ab step T).direct) ∧
    Tendsto (fun r => (partsTime B (atOffset p r) ab step T).reflect) (𝓝[>] 0) (𝓝 (partsTime B p ab step T).reflect) := by
  have e : atOffset p 0 = p := by
    have := h.off
    cases p
    simp_all [atOffset]
  have hab' : ab ∈ [11, 12, 21, 22] := by
    simp only [List.mem_cons, List.not_mem_nil, or_false] at hab ⊢
    tauto
  have hd : delta ab = 0 := by
    simp only [List.mem_cons, List.not_mem_nil, or_false] at hab
    rcases hab with rfl | rfl <;> simp [delta]
  have hsum : p.zrec + p.zsrc ≠ 0 := by
    intro h0
    have h1 := h.src
    have h2 := h.rcv
    exact h.apart (by linarith)
  have hF : Diffusive ((if step then fStep else fImp) T) := by
    cases step
    · exact diffusive_imp hT
    · exact diffusive_step hT
  have a1 := axis_direct (diffusive_freq s) h.res h.aniso h.apart hab'
  have a2 := axis_reflect (diffusive_freq s) h.res h.aniso h.apart hsum hab'
  have a3 := axis_direct hF h.res h.aniso h.apart hab'
  have a4 := axis_reflect hF h.res h.aniso h.apart hsum hab'
  rw [e, hd, mul_zero, zero_div, zero_smul, sub_zero] at a1 a2 a3 a4
  exact ⟨a1, a2, a3, a4⟩

/-- **C35 fails** on the axis: for the diagonal components the value which the code has for a vanishing offset differs from
the limit of its values for small offsets, by `μ₀/(4πh)` times the third diffusive function (the coefficients `g2m` and
`g2p`, kernel.py 1114-1115, have the wrong sign).  So it is for every medium, frequency and pair of depths. -/
theorem C35_axis_violated (B : Bessel) {p : Pos} (h : Aligned p) {s : ℂ} (hs : s ≠ 0) {T : ℝ} (hT : 0 < T) {ab : ℕ}
    (hab : ab ∈ [11, 22]) :
    (∃ L, Tendsto (fun r => total (halfspaceFreq B (atOffset p r) ab "dfs" s)) (𝓝[>] 0) (𝓝 L) ∧
      L = total (halfspaceFreq B p ab "dfs" s) - mu0 / (4 * Real.pi * |p.zrec - p.zsrc|) * (fFreq s p.tm).f2 ∧
      L ≠ total (halfspaceFreq B p ab "dfs" s)) ∧
    (∃ L, Tendsto (fun r => (partsFreq B (atOffset p r) ab s).reflect) (𝓝[>] 0) (𝓝 L) ∧
      L = (partsFreq B p ab s).reflect - mu0 / (4 * Real.pi * |p.zrec + p.zsrc|) * (fFreq s p.tp).f2 ∧
      L ≠ (partsFreq B p ab s).reflect) ∧
    (∃ L, Tendsto (fun r => total (halfspaceTime B (atOffset p r) ab 1 "dfs" T)) (𝓝[>] 0) (𝓝 L) ∧
      L = total (halfspaceTime B p ab 1 "dfs" T) - mu0 / (4 * Real.pi * |p.zrec - p.zsrc|) * (fStep T p.tm).f2 ∧
      L ≠ total (halfspaceTime B p ab 1 "dfs" T)) ∧
    (∃ L, Tendsto (fun r => total (halfspaceTime B (atOffset p r) ab 0 "dfs" T)) (𝓝[>] 0) (𝓝 L) ∧
      L = total (halfspaceTime B p ab 0 "dfs" T) - mu0 / (4 * Real.pi * |p.zrec - p.zsrc|) * (fImp T p.tm).f2) := by
  have e : atOffset p 0 = p := by
    have := h.off
    cases p
    simp_all [atOffset]
  have hab' : ab ∈ [11, 12, 21, 22] := by
    simp only [List.mem_cons, List.not_mem_nil, or_false] at hab ⊢
    tauto
  have hd : delta ab = 1 := by
    simp only [List.mem_cons, List.not_mem_nil, or_false] at hab
    rcases hab with rfl | rfl <;> simp [delta]
  have hsum : p.zrec + p.zsrc ≠ 0 := by
    intro h0
    have h1 := h.src
    have h2 := h.rcv
    exact h.apart (by linarith)
  have hm0 := vacuum_pos
  have hpi := Real.pi_pos
  have hm : 0 < |p.zrec - p.zsrc| := abs_pos.2 (sub_ne_zero.2 h.apart)
  have hp : 0 < |p.zrec + p.zsrc| := abs_pos.2 hsum
  have htm : 0 < p.tm := by
    have := (axis_times p h.aniso le_rfl).1
    rw [e] at this
    have h1 := h.res
    have h2 : 0 < p.hm := hm
    rw [this]
    positivity
  have a1 := axis_direct (diffusive_freq s) h.res h.aniso h.apart hab'
  have a2 := axis_reflect (diffusive_freq s) h.res h.aniso h.apart hsum hab'
  have a3 := axis_direct (diffusive_step hT) h.res h.aniso h.apart hab'
  have a4 := axis_direct (diffusive_imp hT) h.res h.aniso h.apart hab'
  rw [e, hd, mul_one] at a1 a2 a3 a4
  have n1 : ∀ {z : ℝ} (t : ℝ), 0 < z → ((mu0 / (4 * Real.pi * z) : ℝ)) • (fFreq s t).f2 ≠ 0 := by
    intro z t hz
    refine smul_ne_zero (by positivity) ?_
    exact mul_ne_zero hs (Complex.exp_ne_zero _)
  have n2 : (mu0 / (4 * Real.pi * |p.zrec - p.zsrc|)) • (fStep T p.tm).f2 ≠ 0 := by
    refine smul_ne_zero (by positivity) ?_
    have h1 := Real.sqrt_pos.2 htm
    have h2 : 0 < Real.sqrt (Real.pi * T) := Real.sqrt_pos.2 (by positivity)
    simp only [fStep]
    positivity
  have w1 : ∀ q, total (halfspaceFreq B q ab "dfs" s) = (partsWith (fFreq s) q ab).direct := by
    intro q
    simp [total, halfspaceFreq, Parts.out, values, partsWith, partsFreq, parts]
  have w2 : ∀ q, total (halfspaceTime B q ab 1 "dfs" T) = (partsWith (fStep T) q ab).direct := by
    intro q
    simp [total, halfspaceTime, Parts.out, values, partsWith, partsTime, parts]
  have w3 : ∀ q, total (halfspaceTime B q ab 0 "dfs" T) = (partsWith (fImp T) q ab).direct := by
    intro q
    simp [total, halfspaceTime, Parts.out, values, partsWith, partsTime, parts]
  refine ⟨⟨_, by simpa only [w1] using a1, ?_, ?_⟩, ⟨_, a2, ?_, ?_⟩, ⟨_, by simpa only [w2] using a3, ?_, ?_⟩,
    ⟨_, by simpa only [w3] using a4, ?_⟩⟩
  · rw [w1, Complex.real_smul]; push_cast; rfl
  · rw [w1]; exact fun h => n1 _ hm (sub_eq_self.1 h)
  · rw [Complex.real_smul]; push_cast; rfl
  · exact fun h => n1 _ hp (sub_eq_self.1 h)
  · rw [w2]; rfl
  · rw [w2]; exact fun h => n2 (sub_eq_self.1 h)
  · rw [w3]; rfl

/-- One metre apart, 1 Hz, and a resistivity of one. -/
example (B : Bessel) : ∃ L, Tendsto
    (fun r => total (halfspaceFreq B ⟨r, 0, 1, 2, 1, 1⟩ 11 "dfs" (2 * Real.pi * Complex.I))) (𝓝[>] 0) (𝓝 L) ∧
    L ≠ total (halfspaceFreq B ⟨0, 0, 1, 2, 1, 1⟩ 11 "dfs" (2 * Real.pi * Complex.I)) := by
  have h : Aligned ⟨0, 0, 1, 2, 1, 1⟩ := ⟨by norm_num, by norm_num, by norm_num, by norm_num, rfl, by norm_num⟩
  have hs : (2 * Real.pi * Complex.I : ℂ) ≠ 0 := by
    simp [Real.pi_ne_zero, Complex.I_ne_zero]
  obtain ⟨⟨L, h1, -, h2⟩, -⟩ := C35_axis_violated B h hs one_pos (ab := 11) (by simp)
  exact ⟨L, h1, h2⟩

end Verif.Props
