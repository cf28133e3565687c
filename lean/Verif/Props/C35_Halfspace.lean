import Verif.Model.Halfspace
import Verif.Lemmas.Laplace

/-!
# C35: the analytical diffusive halfspace
-/

namespace Verif.Props
open MeasureTheory Set Filter Topology Verif.Halfspace Verif.Py

/-! ## The output modes add up -/

/-- The four outputs of one entry: `dhs`, `dfs`, `dsplit`, `dtetm`. -/
def AddUp {K : Type} [Add K] (out : String → Out K) : Prop :=
  ∃ total direct reflect air dTE dTM rTE rTM : K,
    out "dhs" = .whole total ∧ out "dfs" = .whole direct ∧ out "dsplit" = .split direct reflect air ∧
    out "dtetm" = .tetm dTE dTM rTE rTM air ∧
    total = direct + reflect + air ∧ direct = dTE + dTM ∧ reflect = rTE + rTM

/-- **C35.**  Frequency (or Laplace) domain: the whole is the sum of direct field, reflected field and
airwave, and each of the first two is the sum of its TE and TM part. -/
theorem C35_sum_freq (B : Bessel) (p : Pos) (ab : ℕ) (s : ℂ) :
    AddUp fun sol => halfspaceFreq B p ab sol s :=
  ⟨_, _, _, _, _, _, _, _, rfl, rfl, rfl, rfl, rfl, add_comm _ _, add_comm _ _⟩

/-- **C35.**  Time domain, for every signal, including the switch-off branch, which treats the parts
separately. -/
theorem C35_sum_time (B : Bessel) (p : Pos) (ab : ℕ) (signal : ℤ) (t : ℝ) :
    AddUp fun sol => halfspaceTime B p ab signal sol t := by
  by_cases h : signal = -1
  · simp only [halfspaceTime, if_pos h]
    refine ⟨_, _, _, _, _, _, _, _, rfl, rfl, rfl, rfl, rfl, ?_, ?_⟩
    · simp only [Parts.sub, partsTime, parts]; ring
    · simp only [Parts.sub, partsTime, parts]; ring
  · simp only [halfspaceTime, if_neg h]
    exact ⟨_, _, _, _, _, _, _, _, rfl, rfl, rfl, rfl, rfl, add_comm _ _, add_comm _ _⟩

/-! ## Time and frequency domain belong together -/

/-- `v` is the Laplace transform of `w` at `s`. -/
def Transforms (w : ℝ → ℝ) (s v : ℂ) : Prop :=
  IntegrableOn (fun t : ℝ => Complex.exp (-s * t) * (w t : ℂ)) (Ioi 0) ∧
    ∫ t in Ioi (0 : ℝ), Complex.exp (-s * t) * (w t : ℂ) = v

/-- The setting in which the formulae are meant: positive offset, resistivity and anisotropy. -/
structure Regular (p : Pos) : Prop where
  off : 0 < p.off
  res : 0 < p.res
  aniso : 0 < p.aniso

theorem xy_sq (p : Pos) : p.xco ^ 2 + p.yco ^ 2 = p.off ^ 2 := by
  simp only [Pos.xco, Pos.yco]
  have := Real.sin_sq_add_cos_sq p.angle
  linear_combination p.off ^ 2 * this

theorem vacuum_pos : 0 < mu0 := by unfold mu0; have := Real.pi_pos; positivity

theorem Regular.dist {p : Pos} (h : Regular p) :
    p.rh = p.off ∧ 0 < p.rp ∧ 0 < p.rm ∧ 0 < p.rsp ∧ 0 < p.rsm := by
  have := h.off
  have e := xy_sq p
  refine ⟨?_, ?_, ?_, ?_, ?_⟩
  · rw [Pos.rh, e, Real.sqrt_sq h.off.le]
  all_goals
    first
    | rw [Pos.rp] | rw [Pos.rm] | rw [Pos.rsp] | rw [Pos.rsm]
    rw [e]
    exact Real.sqrt_pos.2 (by positivity)

theorem Regular.times {p : Pos} (h : Regular p) : 0 < p.tp ∧ 0 < p.tm ∧ 0 < p.tsp ∧ 0 < p.tsm := by
  obtain ⟨-, h1, h2, h3, h4⟩ := h.dist
  have := h.res
  have := h.aniso
  have := vacuum_pos
  refine ⟨?_, ?_, ?_, ?_⟩
  · unfold Pos.tp; positivity
  · unfold Pos.tm; positivity
  · unfold Pos.tsp; positivity
  · unfold Pos.tsm; positivity

/-- **C35.**  The frequency-domain values of direct and reflected field, TE and TM, are the Laplace
transforms (for `s = iω`: the Fourier transforms) of the impulse responses, for every component, every
medium and every `s ≠ 0` with `Re s ≥ 0`.  (The airwave is not covered.) -/
theorem C35_laplace_partial (B : Bessel) {p : Pos} (hp : Regular p) (ab : ℕ) {s : ℂ} (h : 0 ≤ s.re)
    (h0 : s ≠ 0) :
    Transforms (fun t => (partsTime B p ab false t).directTM) s (partsFreq B p ab s).directTM ∧
    Transforms (fun t => (partsTime B p ab false t).directTE) s (partsFreq B p ab s).directTE ∧
    Transforms (fun t => (partsTime B p ab false t).direct) s (partsFreq B p ab s).direct ∧
    Transforms (fun t => (partsTime B p ab false t).reflectTM) s (partsFreq B p ab s).reflectTM ∧
    Transforms (fun t => (partsTime B p ab false t).reflectTE) s (partsFreq B p ab s).reflectTE ∧
    Transforms (fun t => (partsTime B p ab false t).reflect) s (partsFreq B p ab s).reflect := by
  obtain ⟨t1, t2, t3, t4⟩ := hp.times
  obtain ⟨a0, a1, a2⟩ := Lemmas.fImp_lap t1 h h0
  obtain ⟨b0, b1, b2⟩ := Lemmas.fImp_lap t2 h h0
  obtain ⟨c0, c1, c2⟩ := Lemmas.fImp_lap t3 h h0
  obtain ⟨d0, d1, d2⟩ := Lemmas.fImp_lap t4 h h0
  generalize hg : coeffs p ab = g
  have dTM : Lemmas.HasLap (fun t => (partsTime B p ab false t).directTM) s
      (partsFreq B p ab s).directTM := by
    simp only [partsTime, partsFreq, parts, hg]
    exact ((d0.smul _).add (d1.smul _)).add (d2.smul _)
  have dTE : Lemmas.HasLap (fun t => (partsTime B p ab false t).directTE) s
      (partsFreq B p ab s).directTE := by
    simp only [partsTime, partsFreq, parts, hg]
    exact (b1.smul _).add (b2.smul _)
  have rTM : Lemmas.HasLap (fun t => (partsTime B p ab false t).reflectTM) s
      (partsFreq B p ab s).reflectTM := by
    simp only [partsTime, partsFreq, parts, hg]
    exact ((c0.smul _).add (c1.smul _)).add (c2.smul _)
  have rTE : Lemmas.HasLap (fun t => (partsTime B p ab false t).reflectTE) s
      (partsFreq B p ab s).reflectTE := by
    simp only [partsTime, partsFreq, parts, hg]
    exact ((a0.smul _).add (a1.smul _)).add (a2.smul _)
  exact ⟨dTM, dTE, dTM.add dTE, rTM, rTE, rTM.add rTE⟩

/-- **C35.**  The step response has the impulse response as time derivative and starts from 0, for
direct and reflected field.  (The airwave is not covered.) -/
theorem C35_step_partial (B : Bessel) {p : Pos} (hp : Regular p) (ab : ℕ) :
    (∀ t : ℝ, 0 < t →
      HasDerivAt (fun t => (partsTime B p ab true t).direct) (partsTime B p ab false t).direct t ∧
      HasDerivAt (fun t => (partsTime B p ab true t).reflect) (partsTime B p ab false t).reflect t) ∧
    Tendsto (fun t => (partsTime B p ab true t).direct) (𝓝[>] 0) (𝓝 0) ∧
    Tendsto (fun t => (partsTime B p ab true t).reflect) (𝓝[>] 0) (𝓝 0) := by
  obtain ⟨t1, t2, t3, t4⟩ := hp.times
  generalize hg : coeffs p ab = g
  refine ⟨fun t ht => ?_, ?_, ?_⟩
  · obtain ⟨a0, a1, a2⟩ := Lemmas.fStep_deriv t1 ht
    obtain ⟨b0, b1, b2⟩ := Lemmas.fStep_deriv t2 ht
    obtain ⟨c0, c1, c2⟩ := Lemmas.fStep_deriv t3 ht
    obtain ⟨d0, d1, d2⟩ := Lemmas.fStep_deriv t4 ht
    simp only [partsTime, parts, hg]
    exact ⟨(((d0.const_mul _).add (d1.const_mul _)).add (d2.const_mul _)).add
      ((b1.const_mul _).add (b2.const_mul _)),
      (((c0.const_mul _).add (c1.const_mul _)).add (c2.const_mul _)).add
      (((a0.const_mul _).add (a1.const_mul _)).add (a2.const_mul _))⟩
  · obtain ⟨b0, b1, b2⟩ := Lemmas.fStep_zero t2
    obtain ⟨d0, d1, d2⟩ := Lemmas.fStep_zero t4
    simp only [partsTime, parts, hg]
    have := (((d0.const_mul g.gs0m).add (d1.const_mul g.gs1m)).add (d2.const_mul g.gs2m)).add
      ((b1.const_mul g.g1m).add (b2.const_mul g.g2m))
    simpa using this
  · obtain ⟨a0, a1, a2⟩ := Lemmas.fStep_zero t1
    obtain ⟨c0, c1, c2⟩ := Lemmas.fStep_zero t3
    simp only [partsTime, parts, hg]
    have := (((c0.const_mul g.gs0p).add (c1.const_mul g.gs1p)).add (c2.const_mul g.gs2p)).add
      (((a0.const_mul g.g0p).add (a1.const_mul g.g1p)).add (a2.const_mul g.g2p))
    simpa using this

/-! ## Switch-off -/

/-- Values of an output, in the order of the tuple. -/
def values {K : Type} : Out K → List K
  | .whole v => [v]
  | .split d r a => [d, r, a]
  | .tetm a b c d e => [a, b, c, d, e]

/-- **C35.**  For every solution: switch-off at `t` is switch-on at `1e4` s minus switch-on at `t`. -/
theorem C35_off (B : Bessel) (p : Pos) (ab : ℕ) (sol : String) (t : ℝ) :
    values (halfspaceTime B p ab (-1) sol t) =
      List.zipWith (· - ·) (values (halfspaceTime B p ab 1 sol 1e4))
        (values (halfspaceTime B p ab 1 sol t)) := by
  have e : decide (|(-1 : ℤ)| = 1) = true := by decide
  have e' : decide (|(1 : ℤ)| = 1) = true := by decide
  have n : ¬ (1 : ℤ) = -1 := by decide
  simp only [halfspaceTime, if_true, if_neg n, e, e', Parts.out]
  split_ifs
  · simp [values, Parts.sub]
  · simp [values, Parts.sub]
  · simp [values, Parts.sub]
  · simp only [values, Parts.sub, List.zipWith_cons_cons, List.zipWith_nil_left, List.cons.injEq,
      and_true]
    ring

theorem step_top {τ : ℝ} (hτ : 0 < τ) :
    Tendsto (fun t => (fStep t τ).f0) atTop (𝓝 (erfc 0)) ∧
    Tendsto (fun t => (fStep t τ).f1) atTop (𝓝 0) ∧
    Tendsto (fun t => (fStep t τ).f2) atTop (𝓝 0) := by
  have hpi : 0 < Real.sqrt Real.pi := Real.sqrt_pos.2 Real.pi_pos
  refine ⟨?_, ?_, ?_⟩
  · refine (Lemmas.dK_top_zero (τ := τ)).congr fun u => ?_
    simp [fStep, Lemmas.dK, Real.sqrt_div hτ.le]
  · have h := (Lemmas.dW_top (s := 0) 0 hτ le_rfl).const_mul (1 / Real.sqrt Real.pi)
    rw [mul_zero] at h
    refine h.congr' ?_
    filter_upwards [eventually_gt_atTop 0] with u hu
    have := Real.sqrt_pos.2 hu
    simp only [fStep, Lemmas.dW, pow_zero, mul_one, zero_mul, sub_zero]
    rw [Real.sqrt_mul Real.pi_pos.le]
    field_simp
  · have h := (Lemmas.dW_top (s := 0) 1 hτ le_rfl).const_mul (Real.sqrt τ / Real.sqrt Real.pi)
    rw [mul_zero] at h
    refine h.congr' ?_
    filter_upwards [eventually_gt_atTop 0] with u hu
    have hu : 0 < u := hu
    have := Real.sqrt_pos.2 hu
    simp only [fStep, Lemmas.dW, pow_one, zero_mul, sub_zero]
    rw [Real.sqrt_mul Real.pi_pos.le]
    field_simp

/-- A position used in the counterexamples and examples below: source 1 m above the receiver,
horizontal offset `√2` m, 1 Ohm.m. -/
noncomputable def demoPos : Pos := ⟨Real.sqrt 2, 0, 1, 2, 1, 1⟩

theorem demoPos_regular : Regular demoPos :=
  ⟨Real.sqrt_pos.2 two_pos, one_pos, one_pos⟩

/-- **C35, where the code falls short.**  A switch-off response has to decay.  The code subtracts from
the value at `1e4` s, so that its switch-off response is 0 at `1e4` s for every model, and afterwards
tends to a value that is in general not 0. -/
theorem C35_off_violated (B : Bessel) :
    (∀ p ab sol, ∀ v ∈ values (halfspaceTime B p ab (-1) sol 1e4), v = 0) ∧
    ∃ L, L ≠ 0 ∧ Tendsto (fun t => (values (halfspaceTime B demoPos 33 (-1) "dfs" t)).sum) atTop
      (𝓝 L) := by
  constructor
  · intro p ab sol v hv
    rw [C35_off] at hv
    generalize values (halfspaceTime B p ab 1 sol 1e4) = l at hv
    rw [List.zipWith_self] at hv
    simp only [sub_self, List.mem_map] at hv
    obtain ⟨_, -, rfl⟩ := hv; rfl
  · have hr := demoPos_regular
    obtain ⟨-, -, -, -, hd⟩ := hr.dist
    obtain ⟨-, -, -, ht⟩ := hr.times
    have hm : demoPos.hm = 1 := by simp only [Pos.hm, demoPos]; norm_num
    have hsm : demoPos.hsm = 1 := by rw [Pos.hsm, hm]; simp [demoPos]
    have rsm2 : demoPos.rsm ^ 2 = 3 := by
      have e := xy_sq demoPos
      have h3 : (0 : ℝ) ≤ 2 + 1 := by norm_num
      have o2 : demoPos.off ^ 2 = 2 := by
        show Real.sqrt 2 ^ 2 = 2
        exact Real.sq_sqrt two_pos.le
      rw [Pos.rsm, e, hsm, o2, one_pow, Real.sq_sqrt h3]; norm_num
    have cg : coeffs demoPos 33 = coeffsV demoPos := by simp [coeffs]
    have g0 : (coeffs demoPos 33).gs0m = 0 := by
      rw [cg]; simp only [coeffsV, hsm, rsm2]; norm_num
    have g1 : (coeffs demoPos 33).gs1m = 0 := by
      rw [cg]; simp only [coeffsV, hsm, rsm2]; norm_num
    have g2 : (coeffs demoPos 33).gs2m ≠ 0 := by
      rw [cg]; simp only [coeffsV, hsm, rsm2]
      have := vacuum_pos.ne'
      have := Real.pi_pos.ne'
      have h1 : demoPos.aniso = 1 := rfl
      rw [h1]
      have hd' := hd.ne'
      have : (1 : ℝ) ^ 2 - 3 ≠ 0 := by norm_num
      positivity
    have gE : (coeffs demoPos 33).g1m = 0 ∧ (coeffs demoPos 33).g2m = 0 := by
      rw [cg]; exact ⟨rfl, rfl⟩
    have key : ∀ t, (values (halfspaceTime B demoPos 33 (-1) "dfs" t)).sum =
        (coeffs demoPos 33).gs2m * (fStep 1e4 demoPos.tsm).f2 -
        (coeffs demoPos 33).gs2m * (fStep t demoPos.tsm).f2 := by
      intro t
      have e : decide (|(-1 : ℤ)| = 1) = true := by decide
      simp only [halfspaceTime, if_true, e, Parts.out, values, List.sum_cons, List.sum_nil, add_zero,
        Parts.sub, partsTime, parts, g0, g1, gE.1, gE.2, zero_smul, zero_add, smul_eq_mul]
      simp
    have l2 := ((step_top ht).2.2.const_mul (coeffs demoPos 33).gs2m).const_sub
      ((coeffs demoPos 33).gs2m * (fStep 1e4 demoPos.tsm).f2)
    refine ⟨_, ?_, l2.congr fun t => (key t).symm⟩
    rw [mul_zero, sub_zero]
    refine mul_ne_zero g2 ?_
    simp only [fStep]
    have := Real.sqrt_pos.2 ht
    have : (0 : ℝ) < Real.sqrt (Real.pi * 1e4) := Real.sqrt_pos.2 (by have := Real.pi_pos; positivity)
    positivity

/-! ## Physics of the surface, reciprocity -/

/-- Total of an output. -/
def total {K : Type} [AddCommMonoid K] (o : Out K) : K := (values o).sum

theorem parts_surface {K : Type} [AddCommGroup K] [Module ℝ K] {p : Pos} (hz : p.zrec = 0)
    (hs : 0 ≤ p.zsrc) {ab : ℕ} (hab : ab ∈ [31, 32, 33]) (f : ℝ → F3 K) (air : K) :
    let q := parts (coeffs p ab) (f p.tsm) (f p.tm) (f p.tsp) (f p.tp) air
    q.directTM + q.reflectTM = 0 ∧ q.directTE = 0 ∧ q.reflectTE = 0 ∧ q.direct + q.reflect = 0 := by
  have hhp : p.hp = p.zsrc := by rw [Pos.hp, hz, zero_add, abs_of_nonneg hs]
  have hhm : p.hm = p.zsrc := by rw [Pos.hm, hz, zero_sub, abs_neg, abs_of_nonneg hs]
  have hh : p.hsm = p.hsp := by rw [Pos.hsm, Pos.hsp, hhp, hhm]
  have hr : p.rsm = p.rsp := by rw [Pos.rsm, Pos.rsp, hh]
  have ht : p.tsm = p.tsp := by rw [Pos.tsm, Pos.tsp, hr]
  have main : ∀ g : Coeffs, g.gs0m = -g.gs0p → g.gs1m = -g.gs1p → g.gs2m = -g.gs2p →
      g.g1m = 0 → g.g2m = 0 → g.g0p = 0 → g.g1p = 0 → g.g2p = 0 →
      let q := parts g (f p.tsm) (f p.tm) (f p.tsp) (f p.tp) air
      q.directTM + q.reflectTM = 0 ∧ q.directTE = 0 ∧ q.reflectTE = 0 ∧ q.direct + q.reflect = 0 := by
    intro g h0 h1 h2 h3 h4 h5 h6 h7
    simp only [parts, h0, h1, h2, h3, h4, h5, h6, h7, ht, zero_smul, add_zero, neg_smul]
    refine ⟨?_, trivial, trivial, ?_⟩ <;> abel
  simp only [List.mem_cons, List.not_mem_nil, or_false] at hab
  rcases hab with rfl | rfl | rfl
  · apply main <;>
      simp [coeffs, coeffsHV, rev, hr, hhp, hz] <;> ring
  · apply main <;>
      simp [coeffs, coeffsHV, rev, hr, hhp, hz] <;> ring
  · apply main <;>
      simp [coeffs, coeffsV, hr, hh] <;> ring

/-- **C35.**  No current crosses the surface: directly below the air the total vertical electric field
vanishes, in frequency and time domain, for every horizontal or vertical source in the ground. -/
theorem C35_surface (B : Bessel) {p : Pos} (hz : p.zrec = 0) (hs : 0 ≤ p.zsrc) {ab : ℕ}
    (hab : ab ∈ [31, 32, 33]) :
    (∀ s, total (halfspaceFreq B p ab "dhs" s) = 0) ∧
    ∀ signal t, total (halfspaceTime B p ab signal "dhs" t) = 0 := by
  have hn : ab ∉ [11, 12, 21, 22] := by
    simp only [List.mem_cons, List.not_mem_nil, or_false] at hab ⊢
    omega
  have kf : ∀ s, (partsFreq B p ab s).direct + (partsFreq B p ab s).reflect + (partsFreq B p ab s).air
      = 0 := by
    intro s
    have := (parts_surface hz hs hab (fFreq s) (0 : ℂ)).2.2.2
    simp only [partsFreq, if_neg hn]
    rw [this]; simp [parts]
  have kt : ∀ b t, (partsTime B p ab b t).direct + (partsTime B p ab b t).reflect +
      (partsTime B p ab b t).air = 0 := by
    intro b t
    have := (parts_surface hz hs hab ((if b then fStep else fImp) t) (0 : ℝ)).2.2.2
    simp only [partsTime, if_neg hn]
    rw [this]; simp [parts]
  constructor
  · intro s
    simp only [total, halfspaceFreq, Parts.out]
    simpa [values] using kf s
  · intro signal t
    by_cases h : signal = -1
    · have h1 := kt (decide (|signal| = 1)) 1e4
      have h2 := kt (decide (|signal| = 1)) t
      simp only [total, halfspaceTime, if_pos h, Parts.out]
      simp [values, Parts.sub] at h1 h2 ⊢
      linarith
    · simp only [total, halfspaceTime, if_neg h, Parts.out]
      simpa [values] using kt (decide (|signal| = 1)) t

/-- Source and receiver exchanged. -/
noncomputable def exchange (p : Pos) : Pos :=
  { p with angle := p.angle + Real.pi, zsrc := p.zrec, zrec := p.zsrc }

/-- Component of the exchanged experiment. -/
def transposed (ab : ℕ) : ℕ := 10 * (ab % 10) + ab / 10

/-- The nine electric components. -/
def electric : List ℕ := [11, 12, 13, 21, 22, 23, 31, 32, 33]

theorem exchange_geo (p : Pos) :
    (exchange p).xco = -p.xco ∧ (exchange p).yco = -p.yco ∧ (exchange p).hp = p.hp ∧
    (exchange p).hm = p.hm ∧ (exchange p).hsp = p.hsp ∧ (exchange p).hsm = p.hsm ∧
    (exchange p).rh = p.rh ∧ (exchange p).rp = p.rp ∧ (exchange p).rm = p.rm ∧
    (exchange p).rsp = p.rsp ∧ (exchange p).rsm = p.rsm ∧ (exchange p).res = p.res ∧
    (exchange p).aniso = p.aniso := by
  have hx : (exchange p).xco = -p.xco := by simp [exchange, Pos.xco, Real.cos_add_pi]
  have hy : (exchange p).yco = -p.yco := by simp [exchange, Pos.yco, Real.sin_add_pi]
  have h1 : (exchange p).hp = p.hp := by simp [exchange, Pos.hp, add_comm]
  have h2 : (exchange p).hm = p.hm := by simp [exchange, Pos.hm, abs_sub_comm]
  have ha : (exchange p).aniso = p.aniso := rfl
  have h3 : (exchange p).hsp = p.hsp := by rw [Pos.hsp, Pos.hsp, h1, ha]
  have h4 : (exchange p).hsm = p.hsm := by rw [Pos.hsm, Pos.hsm, h2, ha]
  refine ⟨hx, hy, h1, h2, h3, h4, ?_, ?_, ?_, ?_, ?_, rfl, ha⟩
  · rw [Pos.rh, Pos.rh, hx, hy, neg_sq, neg_sq]
  · rw [Pos.rp, Pos.rp, hx, hy, neg_sq, neg_sq, h1]
  · rw [Pos.rm, Pos.rm, hx, hy, neg_sq, neg_sq, h2]
  · rw [Pos.rsp, Pos.rsp, hx, hy, neg_sq, neg_sq, h3]
  · rw [Pos.rsm, Pos.rsm, hx, hy, neg_sq, neg_sq, h4]

theorem exchange_coeffs (p : Pos) {ab : ℕ} (hab : ab ∈ electric) :
    coeffs (exchange p) (transposed ab) = coeffs p ab ∧ delta (transposed ab) = delta ab ∧
    (xy (exchange p) (transposed ab)).1 * (xy (exchange p) (transposed ab)).2 =
      (xy p ab).1 * (xy p ab).2 ∧ (ab ∈ [11, 12, 21, 22] ↔ transposed ab ∈ [11, 12, 21, 22]) := by
  obtain ⟨hx, hy, h1, h2, h3, h4, h5, h6, h7, h8, h9, h10, h11⟩ := exchange_geo p
  have hd : (exchange p).zrec - (exchange p).zsrc = -(p.zrec - p.zsrc) := by simp [exchange]
  simp only [electric, List.mem_cons, List.not_mem_nil, or_false] at hab
  rcases hab with rfl | rfl | rfl | rfl | rfl | rfl | rfl | rfl | rfl
  all_goals
    refine ⟨?_, by simp [transposed, delta], ?_, by simp [transposed]⟩
  all_goals try (simp [transposed, xy, hx, hy]; try ring)
  all_goals
    simp [coeffs, coeffsH, coeffsHV, coeffsV, fab, transposed, xy, delta, rev, hx, hy, h1, h2, h3, h4,
      h5, h6, h7, h8, h9, h10, h11, hd]
  all_goals try ring_nf
  all_goals try simp

/-- **C35.**  Reciprocity of all nine components and of all parts, in frequency and time domain. -/
theorem C35_reciprocity (B : Bessel) (p : Pos) {ab : ℕ} (hab : ab ∈ electric) :
    (∀ sol s, halfspaceFreq B (exchange p) (transposed ab) sol s = halfspaceFreq B p ab sol s) ∧
    ∀ signal sol t, halfspaceTime B (exchange p) (transposed ab) signal sol t =
      halfspaceTime B p ab signal sol t := by
  obtain ⟨hx, hy, h1, h2, h3, h4, h5, h6, h7, h8, h9, h10, h11⟩ := exchange_geo p
  obtain ⟨hc, hd, hxy, hm⟩ := exchange_coeffs p hab
  have hf : fab (exchange p) (transposed ab) = fab p ab := by rw [fab, fab, h5, hd, hxy]
  have t1 : (exchange p).tp = p.tp := by rw [Pos.tp, Pos.tp, h6, h10]
  have t2 : (exchange p).tm = p.tm := by rw [Pos.tm, Pos.tm, h7, h10]
  have t3 : (exchange p).tsp = p.tsp := by rw [Pos.tsp, Pos.tsp, h8, h10, h11]
  have t4 : (exchange p).tsm = p.tsm := by rw [Pos.tsm, Pos.tsm, h9, h10, h11]
  have ha : ∀ s, airwave B (exchange p) (transposed ab) s = airwave B p ab s := fun s => by
    simp only [airwave, hf, hd, h1, h6, h10]
  have has : ∀ t, airStep B (exchange p) (transposed ab) t = airStep B p ab t := fun t => by
    simp only [airStep, ha]
  have hai : ∀ t, airImp B (exchange p) (transposed ab) t = airImp B p ab t := fun t => by
    simp only [airImp, hxy, hd, h1, h5, h10]
  have kf : ∀ s, partsFreq B (exchange p) (transposed ab) s = partsFreq B p ab s := fun s => by
    simp only [partsFreq, hc, t1, t2, t3, t4, ha, hm]
  have kt : ∀ b t, partsTime B (exchange p) (transposed ab) b t = partsTime B p ab b t := by
    intro b t
    cases b
    · simp only [partsTime, hc, t1, t2, t3, t4, hai, hm, Bool.false_eq_true, if_false]
    · simp only [partsTime, hc, t1, t2, t3, t4, has, hm, if_true]
  exact ⟨fun sol s => by rw [halfspaceFreq, kf, halfspaceFreq],
    fun signal sol t => by simp only [halfspaceTime, kt]⟩

/-! ## The diffusive fullspace is the fullspace -/

/-- **C35.**  The direct field of `halfspace` (`solution='dfs'`) and the independent routine
`fullspace` (`solution='fs'`) agree for a medium without displacement currents, for all nine electric
components and every `s ≠ 0` in the closed first quadrant (frequencies and Laplace values). -/
theorem C35_fullspace (B : Bessel) {sqrt : ℂ → ℂ} (hq : Fullspace.IsSqrt sqrt) {p : Pos}
    (hp : Regular p) {ab : ℕ} (hab : ab ∈ electric) {s : ℂ} (h : 0 ≤ s.re) (hi : 0 ≤ s.im)
    (h0 : s ≠ 0) :
    halfspaceFreq B p ab "dfs" s = .whole ((Fullspace.fullspace sqrt
      [⟨1 / p.res, 1 / (p.res * p.aniso ^ 2), s * mu0, s * mu0⟩] p.off p.angle p.zsrc p.zrec ab false
      false).getD 0 0) := by
  obtain ⟨hrh, hrp, hrm, hrsp, hrsm⟩ := hp.dist
  obtain ⟨t1, t2, t3, t4⟩ := hp.times
  have ho := hp.off
  have hres := hp.res
  have han := hp.aniso
  have hmu := vacuum_pos
  -- names for the square roots
  obtain ⟨m, hm0, hm⟩ : ∃ m : ℝ, 0 < m ∧ mu0 = m ^ 2 :=
    ⟨Real.sqrt mu0, Real.sqrt_pos.2 hmu, (Real.sq_sqrt hmu.le).symm⟩
  obtain ⟨ρ, hρ0, hρ⟩ : ∃ ρ : ℝ, 0 < ρ ∧ p.res = ρ ^ 2 :=
    ⟨Real.sqrt p.res, Real.sqrt_pos.2 hres, (Real.sq_sqrt hres.le).symm⟩
  set q := Kernel.csqrt s with hqd
  have hsq : s = q ^ 2 := (Lemmas.csqrt_sq' s).symm
  have hslit := Lemmas.slit_of_re h h0
  have hreal : ∀ x : ℝ, 0 < x → sqrt ((x ^ 2 : ℝ) : ℂ) = x := by
    intro x hx
    rw [hq.main _ (by rw [Complex.mem_slitPlane_iff]; left; rw [Complex.ofReal_re]; positivity),
      Lemmas.csqrt_ofReal (by positivity), Real.sqrt_sq hx.le]
  have hmul : ∀ x : ℝ, 0 < x → sqrt (((x ^ 2 : ℝ) : ℂ) * s) = x * q := by
    intro x hx
    have hx2 : 0 < x ^ 2 := by positivity
    rw [hq.main _ ?_, Lemmas.csqrt_ofReal_mul hx2, Real.sqrt_sq hx.le]
    apply Lemmas.slit_of_re
    · rw [Complex.re_ofReal_mul]; positivity
    · exact mul_ne_zero (by exact_mod_cast hx2.ne') h0
  -- the ingredients of `fullspace`
  have eG : sqrt (s * mu0 * (1 / (p.res * p.aniso ^ 2))) = ((m / (ρ * p.aniso) : ℝ) : ℂ) * q := by
    rw [← hmul _ (by positivity), hm, hρ]; congr 1; push_cast; field_simp
  have eG' : sqrt (s * mu0 * (1 / p.res)) = ((m / ρ : ℝ) : ℂ) * q := by
    rw [← hmul _ (by positivity), hm, hρ]; congr 1; push_cast; field_simp
  have hdz : p.hm ^ 2 = (p.zsrc - p.zrec) ^ 2 := by rw [Pos.hm, sq_abs]; ring
  have hrsm2 : p.rsm ^ 2 = p.off ^ 2 + (p.zsrc - p.zrec) ^ 2 * p.aniso ^ 2 := by
    rw [Pos.rsm, xy_sq, Real.sq_sqrt (by positivity), Pos.hsm, mul_pow, hdz]
  have hrm2 : p.rm ^ 2 = p.off ^ 2 + (p.zsrc - p.zrec) ^ 2 := by
    rw [Pos.rm, xy_sq, Real.sq_sqrt (by positivity), hdz]
  have hres' : (p.res : ℂ) ≠ 0 := by exact_mod_cast hres.ne'
  have han' : (p.aniso : ℂ) ≠ 0 := by exact_mod_cast han.ne'
  have hmu' : (mu0 : ℂ) ≠ 0 := by exact_mod_cast hmu.ne'
  have hratio : (1 / (p.res : ℂ)) / (1 / (p.res * p.aniso ^ 2)) = ((p.aniso ^ 2 : ℝ) : ℂ) := by
    push_cast; field_simp
  have hone : (s * mu0) / (s * mu0) = 1 := div_self (mul_ne_zero h0 hmu')
  have eR : sqrt (p.off * p.off + (p.zsrc - p.zrec) * (p.zsrc - p.zrec) *
      ((1 / (p.res : ℂ)) / (1 / (p.res * p.aniso ^ 2)))) = (p.rsm : ℂ) := by
    rw [hratio, ← hreal _ hrsm, hrsm2]; congr 1; push_cast; ring
  have eR' : sqrt (p.off * p.off + (p.zsrc - p.zrec) * (p.zsrc - p.zrec) * (s * mu0 / (s * mu0))) =
      (p.rm : ℂ) := by
    rw [hone, ← hreal _ hrm, hrm2]; congr 1; push_cast; ring
  have eL : sqrt ((1 / (p.res : ℂ)) / (1 / (p.res * p.aniso ^ 2))) = (p.aniso : ℂ) := by
    rw [hratio, hreal _ han]
  have eL' : sqrt (s * mu0 / (s * mu0)) = 1 := by
    rw [hone]; simpa using hreal 1 one_pos
  have eZ : sqrt (s * mu0) = m * q := by
    rw [← hmul _ hm0, hm]; congr 1; push_cast; ring
  have eE : sqrt (1 / (p.res : ℂ)) = 1 / ρ := by
    have := hreal (1 / ρ) (by positivity)
    rw [hρ]; push_cast at this ⊢; rw [← this]; congr 1; field_simp
  -- the diffusion functions
  have x1 : Complex.exp (-2 * Kernel.csqrt (s * p.tsm)) =
      Complex.exp (-(((m / (ρ * p.aniso) : ℝ) : ℂ) * q) * p.rsm) := by
    have e : Real.sqrt p.tsm = m * p.rsm / (2 * ρ * p.aniso) := by
      rw [Pos.tsm, hm, hρ]
      have : m ^ 2 * p.rsm ^ 2 / (ρ ^ 2 * p.aniso ^ 2 * 4) = (m * p.rsm / (2 * ρ * p.aniso)) ^ 2 := by
        field_simp; ring
      rw [this, Real.sqrt_sq (by positivity)]
    rw [Lemmas.csqrt_mul_pos t4, e]
    congr 1
    have : (ρ : ℂ) ≠ 0 := by exact_mod_cast hρ0.ne'
    rw [← hqd]; push_cast; field_simp
  have x2 : Complex.exp (-2 * Kernel.csqrt (s * p.tm)) =
      Complex.exp (-(((m / ρ : ℝ) : ℂ) * q) * p.rm) := by
    have e : Real.sqrt p.tm = m * p.rm / (2 * ρ) := by
      rw [Pos.tm, hm, hρ]
      have : m ^ 2 * p.rm ^ 2 / (ρ ^ 2 * 4) = (m * p.rm / (2 * ρ)) ^ 2 := by
        field_simp; ring
      rw [this, Real.sqrt_sq (by positivity)]
    rw [Lemmas.csqrt_mul_pos t2, e]
    congr 1
    have : (ρ : ℂ) ≠ 0 := by exact_mod_cast hρ0.ne'
    rw [← hqd]; push_cast; field_simp
  have hneg : ¬ (s * (mu0 : ℂ)).im < 0 := by
    rw [Complex.mul_im]; simp; positivity
  have hsmr : Real.sqrt (mu0 * p.res) = m * ρ := by
    rw [hm, hρ, ← mul_pow, Real.sqrt_sq (by positivity)]
  have hpi : (Real.pi : ℂ) ≠ 0 := by exact_mod_cast Real.pi_pos.ne'
  have hrsm' : (p.rsm : ℂ) ≠ 0 := by exact_mod_cast hrsm.ne'
  have hrm' : (p.rm : ℂ) ≠ 0 := by exact_mod_cast hrm.ne'
  have hoff' : (p.off : ℂ) ≠ 0 := by exact_mod_cast ho.ne'
  have hρ' : (ρ : ℂ) ≠ 0 := by exact_mod_cast hρ0.ne'
  have hm' : (m : ℂ) ≠ 0 := by exact_mod_cast hm0.ne'
  have hhsm : p.hsm ^ 2 = (p.zrec - p.zsrc) ^ 2 * p.aniso ^ 2 := by
    rw [Pos.hsm, mul_pow, hdz]; ring
  have hrh0 : p.off ≠ 0 := ho.ne'
  have out : halfspaceFreq B p ab "dfs" s = .whole (partsFreq B p ab s).direct := rfl
  have full : ∀ md : Fullspace.Med, ¬ md.zetaH.im < 0 → (Fullspace.fullspace sqrt [md] p.off p.angle
      p.zsrc p.zrec ab false false).getD 0 0 =
      Fullspace.fullspaceAt sqrt false md p.off p.angle p.zsrc p.zrec ab false false := by
    intro md hmd
    simp [Fullspace.fullspace, decide_eq_false hmd]
  rw [out, full _ hneg]
  congr 1
  clear out full hneg
  have hx : Real.cos p.angle * p.off = p.xco := rfl
  have hy : Real.sin p.angle * p.off = p.yco := rfl
  simp only [electric, List.mem_cons, List.not_mem_nil, or_false] at hab
  rcases hab with rfl | rfl | rfl | rfl | rfl | rfl | rfl | rfl | rfl
  all_goals
    simp only [Fullspace.fullspaceAt, Fullspace.ginH, Fullspace.ginHV, Fullspace.ginV,
      Fullspace.lGam, Fullspace.dist, Fullspace.uGam, hx, hy, Bool.false_and, Bool.false_eq_true,
      if_false, eG, eG', eR, eR', eL, eL', eZ, eE]
    simp [partsFreq, parts, fFreq, coeffs, coeffsH, coeffsHV, coeffsV, fab, xy, delta, hrh,
      hrh0, hsmr, hhsm, x1, x2, -one_div, -neg_mul, -Complex.ofReal_div]
    generalize Complex.exp (-(((m / (ρ * p.aniso) : ℝ) : ℂ) * q) * p.rsm) = X1
    generalize Complex.exp (-(((m / ρ : ℝ) : ℂ) * q) * p.rm) = X2
    have cm : (mu0 : ℂ) = (m : ℂ) ^ 2 := by rw [hm]; push_cast; rfl
    have cr : (p.res : ℂ) = (ρ : ℂ) ^ 2 := by rw [hρ]; push_cast; rfl
    simp only [← hqd]
    clear_value q
    push_cast
    rw [hsq, cm, cr]
    field_simp
    try ring

/-! ## Concrete cases -/

theorem csqrt_isSqrt : Fullspace.IsSqrt Kernel.csqrt :=
  ⟨Lemmas.csqrt_sq', fun _ _ => rfl⟩

/-- The whole of a vertical pair in the ground, in closed form per part: the airwave is 0. -/
example (B : Bessel) (s : ℂ) :
    halfspaceFreq B demoPos 33 "dhs" s =
      .whole ((partsFreq B demoPos 33 s).direct + (partsFreq B demoPos 33 s).reflect + 0) := by
  simp [halfspaceFreq, Parts.out, partsFreq, parts]

example (B : Bessel) : Transforms (fun t => (partsTime B demoPos 13 false t).direct) Complex.I
    (partsFreq B demoPos 13 Complex.I).direct :=
  (C35_laplace_partial B demoPos_regular 13 (by simp) Complex.I_ne_zero).2.2.1

example (B : Bessel) (s : ℂ) :
    halfspaceFreq B (exchange demoPos) 31 "dhs" s = halfspaceFreq B demoPos 13 "dhs" s :=
  (C35_reciprocity B demoPos (ab := 13) (by simp [electric])).1 "dhs" s

example (B : Bessel) :
    halfspaceFreq B demoPos 12 "dfs" Complex.I = .whole ((Fullspace.fullspace Kernel.csqrt
      [⟨1 / demoPos.res, 1 / (demoPos.res * demoPos.aniso ^ 2), Complex.I * mu0, Complex.I * mu0⟩]
      demoPos.off demoPos.angle demoPos.zsrc demoPos.zrec 12 false false).getD 0 0) :=
  C35_fullspace B csqrt_isSqrt demoPos_regular (by simp [electric]) (by simp) (by simp)
    Complex.I_ne_zero

example (B : Bessel) (t : ℝ) :
    total (halfspaceTime B ⟨5, 1, 3, 0, 2, 1⟩ 31 (-1) "dhs" t) = 0 :=
  (C35_surface B (p := ⟨5, 1, 3, 0, 2, 1⟩) rfl (by norm_num) (by simp)).2 _ _

end Verif.Props
