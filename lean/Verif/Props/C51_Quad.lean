import Verif.Props.C51_Hankel
import Verif.Props.C27_Hankel
import Verif.Props.C19_Points

/-!
# C51: fields, QUAD, interpolated filters, exceptions
-/

namespace Verif.Props
open Verif.Py Verif.Py.W Verif.Utils Verif.Spec Verif.Model Verif.Kernel Verif.Lemmas Verif.Transform Verif.Time
open Verif.Args Verif.Hank

/-! ## What `check_hankel` returns -/

/-- What is accepted with printing is accepted without. -/
theorem hankel_ok {C : Conv} {lib : String → Option Val} {dflt : Val} {ht : String} {htarg : Dict} {v : ℤ}
    {h : String × Dict} (hc : (Verb.checkHankel C lib dflt ht htarg v).val = .ok h) :
    (Args.checkHankel C lib dflt ht htarg v).val = .ok h := by
  rw [Verb.checkHankel, bind_eq_ok] at hc
  obtain ⟨s, h1, hc⟩ := hc
  rw [bind_eq_ok] at hc
  obtain ⟨_, -, hc⟩ := hc
  rw [Args.checkHankel, bind_ok h1]
  exact hc

/-- Without a filter the two are the same. -/
theorem hankel_same (C : Conv) (lib : String → Option Val) (dflt : Val) {ht : String} (hn : lower ht ≠ "dlf")
    (htarg : Dict) (v : ℤ) : (Verb.checkHankel C lib dflt ht htarg v).val =
      (Args.checkHankel C lib dflt ht htarg v).val := by
  rw [Verb.checkHankel, Args.checkHankel]
  exact bind_val_congr fun s _ => bind_ok (info_ok v fun h => absurd h hn) _

/-- The default arguments of QWE. -/
theorem qwe_default (C : Conv) (lib : String → Option Val) (dflt : Val) (v : ℤ) :
    ∃ d, (Verb.checkHankel C lib dflt "qwe" [] v).val = .ok ("qwe", d) ∧ HQweSet d 51 100 1e-12 1e-30 := by
  have hq : lower "qwe" = "qwe" := by decide
  have t : ∀ n : ℕ, Tem.trunc (n : ℝ) = n := fun n => by simp [Tem.trunc]
  have t51 : Tem.trunc (51 : ℝ) = 51 := by exact_mod_cast t 51
  have t100 : Tem.trunc (100 : ℝ) = 100 := by exact_mod_cast t 100
  have t0 : Tem.trunc (0 : ℝ) = 0 := by exact_mod_cast t 0
  obtain ⟨h1, h2⟩ := C27_values C lib dflt "qwe" [] v (Or.inl hq)
  obtain ⟨⟨m, d⟩, hr⟩ := h1.2 (by
    rw [hq, table, if_pos rfl]
    intro p hp
    simp only [List.mem_cons, List.not_mem_nil, or_false] at hp
    rcases hp with rfl | rfl | rfl | rfl | rfl | rfl | rfl | rfl | rfl <;>
      simp [Param.given, Reading.read, C.flt_num, C.int_num, Except.map])
  obtain ⟨rfl, hf⟩ := h2 m d hr
  rw [hq] at hf hr
  rw [table, if_pos rfl] at hf
  refine ⟨d, by rw [hankel_same _ _ _ (by decide)]; exact hr, ?_, ?_, ?_, ?_, ?_⟩
  · obtain ⟨w, hw, hl⟩ := hf.1 ⟨"rtol", .num 1e-12, .float⟩ (by simp)
    simp only [Param.given, Reading.read, List.lookup_nil, Option.getD_none, C.flt_num, Except.ok.injEq] at hw
    rw [hl, ← hw]
  · obtain ⟨w, hw, hl⟩ := hf.1 ⟨"atol", .num 1e-30, .float⟩ (by simp)
    simp only [Param.given, Reading.read, List.lookup_nil, Option.getD_none, C.flt_num, Except.ok.injEq] at hw
    rw [hl, ← hw]
  · obtain ⟨w, hw, hl⟩ := hf.1 ⟨"nquad", .num 51, .integer⟩ (by simp)
    simp only [Param.given, Reading.read, List.lookup_nil, Option.getD_none, C.int_num, Except.ok.injEq, t51] at hw
    rw [hl, ← hw]; norm_num
  · obtain ⟨w, hw, hl⟩ := hf.1 ⟨"maxint", .num 100, .integer⟩ (by simp)
    simp only [Param.given, Reading.read, List.lookup_nil, Option.getD_none, C.int_num, Except.ok.injEq, t100] at hw
    rw [hl, ← hw]; norm_num
  · obtain ⟨w, hw, hl⟩ := hf.1 ⟨"pts_per_dec", .num 0, .integerFrom 0⟩ (by simp)
    simp only [Param.given, Reading.read, List.lookup_nil, Option.getD_none, C.int_num, Except.map, t0,
      Except.ok.injEq] at hw
    rw [hl, ← hw]; simp [raised]

/-! ## Fields -/

open Classical in
/-- **C51, fields with QWE.**  `dipole(..., ht='qwe', htarg)` without interpolation, for every valid description of a
layered medium, all accepted coordinates, components, and settings of `xdirect`, `loop`, `squeeze`, `verb`, in the
frequency domain (for the Laplace domain see C52): the array of C44, in which integrals over wavenumber are taken with the Gauss rule between the zeros of the Bessel
function and extrapolated. -/
theorem C51_qwe_dipole {H : HBack} (hm : 0 < H.m.minRes) (hfr : 0 < H.m.minFreq) (hof : 0 < H.m.minOff)
    (ho : Safe H.o) (hJ0 : ∀ x, (H.J0 x : ℂ) = besselJ0 x) (hJ1 : ∀ x, (H.J1 x : ℂ) = besselJ1 x)
    (ht0 : 0 < H.tiny) {A : DipoleArgs} {ht : String} {htarg d : Dict} {nq mx : ℕ} {rtol atol : ℝ}
    (hc : (Verb.checkHankel H.C H.lib H.dflt ht htarg A.verb).val = .ok ("qwe", d))
    (hd : HQweSet d nq mx rtol atol) (hq : 1 ≤ nq) (hmx : 2 ≤ mx) (hz : ∀ i < mx, 0 < bZero H mx i)
    (hg : ∀ q < (H.gauss nq).n, |(H.gauss nq).x q| ≤ 1) (hx : ∃ f ∈ A.freq, 0 < f)
    {U : UserModel} (hU : U.Valid H.m.minRes) (hA : Describes A U) {a b : ℕ} (ha : 1 ≤ a ∧ a ≤ 6)
    (hb : 1 ≤ b ∧ b ≤ 6) (hab : toInt A.ab = .ok (10 * a + b)) {xs ys xr yr : List ℝ} {zs zr : ℝ}
    (hsrc : A.src = [xs, ys, [zs]]) (hrcv : A.rcv = [xr, yr, [zr]])
    (hls : xs.length = ys.length ∨ xs.length = 1 ∨ ys.length = 1)
    (hlr : xr.length = yr.length ∨ xr.length = 1 ∨ yr.length = 1)
    (ns : 0 < numDipoles A.src) (nr : 0 < numDipoles A.rcv) :
    ∃ arr, (dipoleH H A ht htarg).val = .ok (if A.squeeze then NdArray.squeeze arr else arr) ∧
      arr.shape = [A.freq.length, numDipoles A.rcv, numDipoles A.src] ∧
      ∀ (f r s : ℕ) (hf : f < A.freq.length), r < numDipoles A.rcv → s < numDipoles A.src →
        let M := fun g => U.medium (sParam H.m.minFreq A.freq g)
        let ρ := rhoOf H.m.minOff (bc xr r - bc xs s) (bc yr r - bc ys s)
        let θ := thetaOf (bc xr r - bc xs s) (bc yr r - bc ys s)
        ∃ θ', |θ' - θ| ≤ 1e-9 ∧
        ∀ ls lr, (M A.freq[f]).InUpper ls zs → (M A.freq[f]).InUpper lr zr →
        ∀ F Fh : ℝ → ℝ → PlaneField,
        (∀ lam > 0, ∀ φ, IsPlaneField (M A.freq[f]) (lam * Real.cos φ) (lam * Real.sin φ) zs ls
          (unitDipole b) (F lam φ)) →
        (∀ lam > 0, ∀ φ, IsPlaneField ((M A.freq[f]).homog ls) (lam * Real.cos φ) (lam * Real.sin φ)
          zs 0 (unitDipole b) (Fh lam φ)) →
        arr.get [f, r, s] =
          (if A.xdirect = some true ∧ (ls = lr ∨ U.Uniform) then
            resp H.sqrt (A.freq.map fun g => layerMed (M g) lr) f a b (ρ * Real.cos θ) (ρ * Real.sin θ) zs zr
            else 0) +
          qweRule ⟨rtol, atol, H.tiny, H.big, H.zero⟩ (bZero H mx) (H.gauss nq) mx ρ fun lam =>
            ringIntegral (fun φ => (F lam φ).comp a lr zr -
            if A.xdirect ≠ some false ∧ (ls = lr ∨ U.Uniform) then (Fh lam φ).comp a 0 zr else 0) lam ρ θ' := by
  have hu := C51_qwe H hd hq hmx
  have e : withBessel H.J0 H.J1 (qweRule ⟨rtol, atol, H.tiny, H.big, H.zero⟩ (bZero H mx) (H.gauss nq) mx) =
      besselRule (qweRule ⟨rtol, atol, H.tiny, H.big, H.zero⟩ (bZero H mx) (H.gauss nq) mx) := by
    funext ρ g
    simp only [withBessel, besselRule, hJ0, hJ1]
  rw [e] at hu
  rw [C51_dipole H A ht htarg hc (qwe_runs H hd hq hmx) fun q => by
    obtain ⟨f, hf, hp⟩ := hx
    exact absurd hp (not_lt.2 (q.2.2 f hf))]
  exact C44_dipole (B := backOf H "qwe" d) hm hfr hof ho (qwe_isRule ht0 hmx hz hg) hu hU hA ha hb hab hsrc hrcv
    hls hlr ns nr

/-! ## Interpolated digital filters -/

/-- **C51, splined DLF.**  With a positive number of points per decade, the kernels are interpolated; no other change. -/
theorem C51_splined (H : HBack) {d : Dict} {F : Filter} {ppd : ℝ} (hp : 0 < ppd) (hd : DlfSet d F ppd) {f : KernelFn}
    (hf : f.given) (ab : ℕ) {offs : List (ℝ × ℝ)} {r : (ℕ → ℂ) × Bool} (h : hankelRow H "dlf" d f ab offs = .ok r)
    (j : ℕ) (hj : j < offs.length) (h0 : offs[j].1 ≠ 0) :
    let off := offs.map Prod.fst
    let P := splPoints F (off.min?.getD 0) (off.max?.getD 0) ppd fun i => off.getD i 0
    r.1 j = filterSum F (interpolated H.R P f) ab offs[j].1 offs[j].2 ∧ r.2 = true := by
  intro off P
  obtain ⟨a, ha⟩ := hd.dlf
  have h1 : (getDlf d).val = .ok F := by simp only [getDlf, ha, pure_val]
  rw [hankelRow, if_pos rfl, dlfRow] at h
  simp only [h1, getNum_some hd.pts, bind, Except.bind, need, if_neg (given_bool hf), if_neg hp.ne',
    if_neg (not_lt.2 hp.le)] at h
  split_ifs at h with h2 h3
  obtain rfl := Except.ok.inj h
  refine ⟨?_, rfl⟩
  have ho : P.out j = offs[j].1 := by
    change (offs.map Prod.fst).getD j 0 = _
    rw [List.getD_eq_getElem _ _ (by simpa using hj), List.getElem_map]
  have := C18_splined H.R F P f (offs.map Prod.snd) ab j hf (by simpa using hj) (by rw [ho]; exact h0)
  rw [ho, List.getElem_map] at this
  change (dlfHankel H.R .splined F P (sampled f fun _ k => P.points k) (some (offs.map Prod.snd)) ab j).getD 0 = _
  rw [this]; rfl

theorem range_pos {l : List ℝ} (hl : l ≠ []) (hp : ∀ x ∈ l, 0 < x) :
    0 < l.min?.getD 0 ∧ l.min?.getD 0 ≤ l.max?.getD 0 := by
  obtain ⟨x, t, rfl⟩ := List.exists_cons_of_ne_nil hl
  obtain ⟨a, ha⟩ : ∃ a, (x :: t).min? = some a := ⟨_, rfl⟩
  obtain ⟨b, hb⟩ : ∃ b, (x :: t).max? = some b := ⟨_, rfl⟩
  rw [ha, hb]
  have hm := List.min?_mem ha
  exact ⟨hp a hm, (List.max?_eq_some_iff.1 hb).2 a hm⟩

/-- **C51, lagged convolution.**  With a negative number of points per decade, the standard DLF is evaluated at offsets
spaced as the filter, times the offset, and interpolated. -/
theorem C51_lagged (H : HBack) (hR : RLinear H.R) {d : Dict} {F : Filter} (hF : GeoFilter F) {ppd : ℝ} (hp : ppd < 0)
    (hd : DlfSet d F ppd) {f : KernelFn} (hf : f.given) (ab : ℕ) {offs : List (ℝ × ℝ)} (hpos : ∀ p ∈ offs, 0 < p.1)
    {r : (ℕ → ℂ) × Bool} (h : hankelRow H "dlf" d f ab offs = .ok r) (j : ℕ) (hj : j < offs.length) :
    let off := offs.map Prod.fst
    let P := lagPoints F (off.min?.getD 0) (off.max?.getD 0) fun i => off.getD i 0
    r.1 j = splineRev H.R P.m (fun i => filterSum F f ab (P.intp i) offs[j].2 * (P.intp i : ℂ)) P.intp offs[j].1 /
      (offs[j].1 : ℂ) ∧ r.2 = true := by
  intro off P
  obtain ⟨a, ha⟩ := hd.dlf
  have h1 : (getDlf d).val = .ok F := by simp only [getDlf, ha, pure_val]
  rw [hankelRow, if_pos rfl, dlfRow] at h
  simp only [h1, getNum_some hd.pts, bind, Except.bind, need, if_neg (given_bool hf), if_neg hp.ne, if_pos hp] at h
  split_ifs at h with h2 h3
  obtain rfl := Except.ok.inj h
  refine ⟨?_, rfl⟩
  obtain ⟨l1, l2⟩ := range_pos (l := off) h2 (by
    intro x hx
    obtain ⟨p, hp, rfl⟩ := List.mem_map.1 hx
    exact hpos p hp)
  have ho : P.out j = offs[j].1 := by
    change (offs.map Prod.fst).getD j 0 = _
    rw [List.getD_eq_getElem _ _ (by simpa using hj), List.getElem_map]
  have := C18_lagged H.R hR F P (C19_window hF l1 l2 _) f (offs.map Prod.snd) ab j hf (by simpa using hj)
  rw [ho, List.getElem_map] at this
  change (dlfHankel H.R .lagged F P (sampled f fun _ k => P.points k) (some (offs.map Prod.snd)) ab j).getD 0 = _
  rw [this]; rfl

/-! ## QUAD -/

/-- Checked arguments of QUAD. -/
structure HQuadSet (d : Dict) (a b ppd rtol atol limit : ℝ) : Prop where
  a : d.lookup "a" = some (.num a)
  b : d.lookup "b" = some (.num b)
  pts : d.lookup "pts_per_dec" = some (.num ppd)
  rtol : d.lookup "rtol" = some (.num rtol)
  atol : d.lookup "atol" = some (.num atol)
  limit : d.lookup "limit" = some (.num limit)

/-- QUAD as rule: the integral from `a` to `b` of the factors of the Bessel functions, interpolated over the
wavenumbers `g`, times the Bessel functions. -/
noncomputable def quadRule (H : HBack) (g : List ℝ) (a b : ℝ) : HRule := fun ρ h =>
  ∫ l in a..b, interpC H.R g (fun l => h l 1 0) l * (H.J0 (ρ * l) : ℂ) +
    interpC H.R g (fun l => h l 0 1) l * (H.J1 (ρ * l) : ℂ)

theorem interpC_spline (R : RSpl) (g : List ℝ) (f : ℝ → ℂ) (l : ℝ) :
    interpC R g f l = spline R g.length (fun i => f (g.getD i 0)) (fun i => g.getD i 0) l := by
  unfold interpC interp spline
  apply Complex.ext <;> simp

theorem interpC_lin {R : RSpl} (hR : RLinear R) (g : List ℝ) (f h : ℝ → ℂ) (c : ℝ) (l : ℝ) :
    interpC R g (fun l => f l * (c : ℂ) + h l) l = interpC R g f l * (c : ℂ) + interpC R g h l := by
  simp only [interpC_spline]
  exact spline_comb hR _ _ _ _ _ _

theorem interpC_zero {R : RSpl} (hR : RLinear R) (g : List ℝ) (l : ℝ) : interpC R g (fun _ => 0) l = 0 := by
  simp only [interpC_spline]
  exact spline_zero hR _ _ _

theorem interpC_mul {R : RSpl} (hR : RLinear R) (g : List ℝ) (f : ℝ → ℂ) (c : ℝ) (l : ℝ) :
    interpC R g (fun l => f l * (c : ℂ)) l = interpC R g f l * (c : ℂ) := by
  have := interpC_lin hR g f (fun _ => 0) c l
  simpa only [add_zero, interpC_zero hR] using this

/-- Interpolating the kernels is interpolating the factors of the Bessel functions. -/
theorem interp_integrand {R : RSpl} (hR : RLinear R) (g : List ℝ) (f : KernelFn) (ab : ℕ) (ρ ang l : ℝ) (x y : ℂ) :
    hankelIntegrand (f.1.map fun k => interpC R g k l, f.2.1.map fun k => interpC R g k l,
        f.2.2.map fun k => interpC R g k l) ab ρ ang x y =
      interpC R g (fun l => hankelIntegrand (f.at l) ab ρ ang 1 0) l * x +
        interpC R g (fun l => hankelIntegrand (f.at l) ab ρ ang 0 1) l * y := by
  obtain ⟨k0, k1, k2⟩ := f
  have h0 : ∀ k : ℝ → ℂ, (fun l => (ang : ℂ) * k l) = fun l => k l * (ang : ℂ) := fun k => by funext l; ring
  have h1 : ∀ k : ℝ → ℂ, (fun l => (ang : ℂ) * k l / (ρ : ℂ)) = fun l => k l * ((ang / ρ : ℝ) : ℂ) := fun k => by
    funext l; push_cast; ring
  have h2 : ∀ k k' : ℝ → ℂ, (fun l => k l + (ang : ℂ) * k' l) = fun l => k' l * (ang : ℂ) + k l := fun k k' => by
    funext l; ring
  by_cases hab : ab ∈ j2codes <;> cases k0 <;> cases k1 <;> cases k2 <;>
    simp only [hankelIntegrand, KernelFn.at, hab, Option.map_some, Option.map_none, if_true, if_false, mul_one,
      mul_zero, zero_add, add_zero, h0, h1, h2, interpC_lin hR, interpC_mul hR, interpC_zero hR] <;>
    push_cast <;> ring

theorem quadRow_eq (H : HBack) {d : Dict} {a b ppd rtol atol limit : ℝ} (hd : HQuadSet d a b ppd rtol atol limit)
    (ha : 0 < a) (hb : 0 < b) {g : List ℝ} (hg : lamGrid a b ppd = .ok g) (hl : LogOK g.length fun i => g.getD i 0)
    (f : KernelFn) (ab : ℕ) (offs : List (ℝ × ℝ)) : quadRow H d f ab offs =
      .ok (fun j => (quadAt H g f ab a b atol rtol limit (offs.getD j (0, 0))).1,
        offs.all fun p => (quadAt H g f ab a b atol rtol limit p).2) := by
  unfold quadRow
  simp only [getNum_some hd.a, getNum_some hd.b, getNum_some hd.pts, getNum_some hd.rtol, getNum_some hd.atol,
    getNum_some hd.limit, bind, Except.bind, need, if_pos (And.intro ha hb), hg, if_pos hl]

theorem quad_runs (H : HBack) {d : Dict} {a b ppd rtol atol limit : ℝ} (hd : HQuadSet d a b ppd rtol atol limit)
    (ha : 0 < a) (hb : 0 < b) {g : List ℝ} (hg : lamGrid a b ppd = .ok g)
    (hl : LogOK g.length fun i => g.getD i 0) : Runs H "quad" d := by
  intro f ab offs _
  rw [hankelRow, if_neg (by decide), if_neg (by decide), if_pos rfl, quadRow_eq H hd ha hb hg hl]
  exact Or.inl ⟨_, rfl⟩

/-- The integrator is exact for continuous functions between `a` and `b` and returns at least three things;
splines and Bessel functions are continuous. -/
structure QuadExact (H : HBack) (a b atol rtol limit : ℝ) : Prop where
  val : ∀ f : ℝ → ℝ, ContinuousOn f (Set.uIcc a b) → (H.quad f a b atol rtol limit).1 = ∫ l in a..b, f l
  len : ∀ f, 3 ≤ (H.quad f a b atol rtol limit).2
  spl : ∀ n x v, SplOK n x → Continuous (H.R n x v)
  J0 : Continuous H.J0
  J1 : Continuous H.J1

/-- With an exact integrator, `quad` is the integral of the Hankel integrand with interpolated kernels. -/
theorem quadAt_eq (H : HBack) {a b rtol atol limit : ℝ} (ha : 0 < a) (hb : 0 < b) {g : List ℝ}
    (hl : LogOK g.length fun i => g.getD i 0) (hx : QuadExact H a b atol rtol limit) (f : KernelFn) (ab : ℕ)
    (p : ℝ × ℝ) : (quadAt H g f ab a b atol rtol limit p).1 = ∫ l in a..b, hankelIntegrand
      (KernelFn.at (interpK H.R g f) l) ab p.1 p.2 (H.J0 (p.1 * l) : ℂ) (H.J1 (p.1 * l) : ℂ) := by
  have hpos : ∀ l ∈ Set.uIcc a b, l ≠ 0 := fun l hl => (lt_of_lt_of_le (lt_min ha hb) hl.1).ne'
  have hlog : SplOK g.length fun i => Real.log (g.getD i 0) := by
    have hp : ∀ i, i < g.length → 0 < g.getD i 0 := by
      intro i
      induction i with
      | zero => intro _; exact hl.2
      | succ i ih => intro hi; exact (ih (by omega)).trans (hl.1.2 i hi)
    exact ⟨hl.1.1, fun i hi => Real.log_lt_log (hp i (by omega)) (hl.1.2 i hi)⟩
  have hspl : ∀ v, ContinuousOn (fun l => H.R g.length (fun i => Real.log (g.getD i 0)) v (Real.log l))
      (Set.uIcc a b) := fun v => (hx.spl _ _ v hlog).comp_continuousOn
        (Real.continuousOn_log.mono fun l hl => hpos l hl)
  have hJ0 : ContinuousOn (fun l => H.J0 (p.1 * l)) (Set.uIcc a b) :=
    (hx.J0.comp (continuous_const.mul continuous_id)).continuousOn
  have hJ1 : ContinuousOn (fun l => H.J1 (p.1 * l)) (Set.uIcc a b) :=
    (hx.J1.comp (continuous_const.mul continuous_id)).continuousOn
  have hcont : ∀ q ∈ integrands H.J0 H.J1 (f.1.map (interp H.R g)) (f.2.1.map (interp H.R g))
      (f.2.2.map (interp H.R g)) ab p.1 p.2, ContinuousOn q.1 (Set.uIcc a b) ∧ ContinuousOn q.2 (Set.uIcc a b) := by
    intro q hq
    simp only [integrands, List.mem_append, List.mem_map, Option.mem_toList, Option.map_eq_some_iff] at hq
    rcases hq with (⟨s, ⟨k, -, rfl⟩, rfl⟩ | ⟨s, ⟨k, -, rfl⟩, rfl⟩) | ⟨s, ⟨k, -, rfl⟩, rfl⟩
    · exact ⟨hJ0.mul (hspl _), hJ0.mul (hspl _)⟩
    · exact ⟨((continuousOn_const.mul hJ1).mul continuousOn_const).mul (hspl _),
        ((continuousOn_const.mul hJ1).mul continuousOn_const).mul (hspl _)⟩
    · exact ⟨(continuousOn_const.mul hJ0).mul (hspl _), (continuousOn_const.mul hJ0).mul (hspl _)⟩
  unfold quadAt
  rw [C21_value _ (fun f => hx.len f) a b _ _ _ _ _ _ _ _
    (fun q hq => ⟨hx.val _ (hcont q hq).1, hx.val _ (hcont q hq).2⟩)
    (fun q hq => ⟨(hcont q hq).1.intervalIntegrable, (hcont q hq).2.intervalIntegrable⟩)]
  congr 1
  funext l
  simp only [interpK, KernelFn.at, Option.map_map]
  rfl

/-- **C51, QUAD.**  With an exact integrator, for each frequency and offset the integral between the limits `a`
and `b` of the integrand with interpolated kernels. -/
theorem C51_quad (H : HBack) (hR : RLinear H.R) {d : Dict} {a b ppd rtol atol limit : ℝ}
    (hd : HQuadSet d a b ppd rtol atol limit) (ha : 0 < a) (hb : 0 < b) {g : List ℝ} (hg : lamGrid a b ppd = .ok g)
    (hl : LogOK g.length fun i => g.getD i 0) (hx : QuadExact H a b atol rtol limit) :
    Uses (backOf H "quad" d) (quadRule H g a b) := by
  refine hank_uses (k := fun f ab p => (quadAt H g f ab a b atol rtol limit p).2) (fun f ab offs hf ho => ?_)
    (fun f ab => ?_)
  · have hrow : hankelRow H "quad" d f ab offs = quadRow H d f ab offs := by
      rw [hankelRow, if_neg (by decide), if_neg (by decide), if_pos rfl]
    rw [hrow, quadRow_eq H hd ha hb hg hl]
    refine ⟨_, rfl, fun j hj => ?_, by simp⟩
    simp only
    rw [List.getD_eq_getElem _ _ hj]
    rw [quadAt_eq H ha hb hl hx]
    unfold quadRule
    congr 1
    funext l
    rw [← interp_integrand hR]
    simp only [interpK, KernelFn.at, Option.map_map]
    rfl
  · have hrow : hankelRow H "quad" d f ab [] = quadRow H d f ab [] := by
      rw [hankelRow, if_neg (by decide), if_neg (by decide), if_pos rfl]
    rw [hrow, quadRow_eq H hd ha hb hg hl]
    exact ⟨.valueError, Or.inr ⟨_, rfl, by simp⟩⟩

/-! ## Exceptions -/

/-- The checks of `dipole` pass, there are a frequency, a source and a receiver, and the Hankel transform is needed:
not a vertical magnetic dipole with a vertical electric one, and not a full space without its direct field. -/
def Needs (H : HBack) (A : DipoleArgs) : Prop :=
  ∃ mo fo c src rcv,
    (checkModel H.m A.depth A.res A.aniso A.epermH A.epermV A.mpermH A.mpermV A.xdirect A.verb).val = .ok mo ∧
    (checkFrequency H.m A.freq mo.res mo.aniso mo.epermH mo.epermV mo.mpermH mo.mpermV A.verb).val = .ok fo ∧
    checkAb A.ab = .ok c ∧ checkDipole A.src = .ok src ∧ checkDipole A.rcv = .ok rcv ∧
    c.1 ≠ 36 ∧ (mo.isfullspace = false ∨ A.xdirect = some false) ∧ rowsOf mo.depth fo ≠ [] ∧
    src.1.length * rcv.1.length ≠ 0

/-- If the transform raises for all kernels, so does `dipole`. -/
theorem C51_raises (H : HBack) (A : DipoleArgs) (hn : Needs H A) (ht : String) (htarg : Dict) {h : String × Dict}
    (hc : (Verb.checkHankel H.C H.lib H.dflt ht htarg A.verb).val = .ok h) {e : PyErr}
    (he : ∀ (f : KernelFn) ab offs, f.given → offs ≠ [] → hankelRow H h.1 h.2 f ab offs = .error e)
    (ha : h.1 ∉ ["dlf", "qwe", "quad"] → e = .attributeError) :
    (dipoleH H A ht htarg).val = .error e := by
  obtain ⟨mo, fo, c, src, rcv, h1, h2, h3, h4, h5, h6, h7, h8, h9⟩ := hn
  have key : (dipoleHFull H A ht htarg inFreq).val = .error e := by
    have hk : ¬ (c.1 = 36 ∨ (mo.isfullspace && A.xdirect.getD true) = true) := by
      rintro (h | h)
      · exact h6 h
      · rcases h7 with h7 | h7 <;> simp [h7] at h
    have b3 : (Model.ofExcept (checkAb A.ab)).val = .ok c := h3
    have b4 : (Model.ofExcept (checkDipole A.src)).val = .ok src := h4
    have b5 : (Model.ofExcept (checkDipole A.rcv)).val = .ok rcv := h5
    unfold dipoleHFull
    rw [bind_ok h1, bind_ok h2, bind_ok hc]
    simp only
    rw [bind_ok b3, bind_ok b4, bind_ok b5]
    simp only [kfn_eq, if_neg hk]
    obtain ⟨E, rows, hE⟩ := List.exists_cons_of_ne_nil h8
    by_cases hname : h.1 ∉ ["dlf", "qwe", "quad"]
    · simp only [if_pos hname, ha hname]
      rfl
    · simp only [if_neg hname, hE, List.findSome?_cons]
      unfold rowErr
      rw [he _ _ _ (kernelFn_given ..) (by
        intro h0
        have := congrArg List.length h0
        simp only [List.length_map, List.length_range, List.length_nil] at this
        exact h9 this)]
      rfl
  unfold dipoleH
  rw [bind_val, key]
  rfl

/-- **Names that are parts of the word `quad` are not rejected by `check_hankel`**: with any arguments that QUAD
accepts, `dipole` runs into an `AttributeError` where the Hankel transform is needed ... -/
theorem C51_method_violated (H : HBack) (A : DipoleArgs) (hn : Needs H A) (ht : String) (htarg : Dict)
    (hp : lower ht ∈ ["", "q", "u", "a", "d", "qu", "ua", "ad", "qua", "uad"])
    (hr : Readable H.C (table "quad") htarg) : (dipoleH H A ht htarg).val = .error .attributeError := by
  obtain ⟨r, hq⟩ := (C27_values H.C H.lib H.dflt "quad" htarg A.verb (Or.inr (by decide))).1.2
    (by rw [show lower "quad" = "quad" by decide]; exact hr)
  have hd : lower ht ≠ "dlf" := by rintro h; rw [h] at hp; revert hp; decide
  have hnot : lower ht ∉ ["dlf", "qwe", "quad"] := by
    intro h
    simp only [List.mem_cons, List.not_mem_nil, or_false] at h
    rcases h with h | h | h <;> rw [h] at hp <;> revert hp <;> decide
  refine C51_raises H A hn ht htarg (h := (lower ht, r.2)) ?_ (fun f ab offs _ _ => ?_) fun _ => rfl
  · rw [hankel_same _ _ _ hd, C27_method_violated _ _ _ _ _ _ hp, hq]
    rfl
  · simp only [List.mem_cons, List.not_mem_nil, or_false, not_or] at hnot
    rw [hankelRow, if_neg hnot.1, if_neg hnot.2.1, if_neg hnot.2.2]

/-- **QWE with a single interval** raises `UnboundLocalError`. -/
theorem C51_maxint_violated (H : HBack) (A : DipoleArgs) (hn : Needs H A) (ht : String) (htarg : Dict) {d : Dict}
    {nq : ℕ} {rtol atol : ℝ} (hq : 1 ≤ nq)
    (hc : (Verb.checkHankel H.C H.lib H.dflt ht htarg A.verb).val = .ok ("qwe", d)) (hd : HQweSet d nq 1 rtol atol) :
    (dipoleH H A ht htarg).val = .error .unboundLocal := by
  refine C51_raises H A hn ht htarg hc (fun f ab offs _ ho => ?_) fun h => absurd h (by simp)
  change hankelRow H "qwe" d f ab offs = _
  rw [hankelRow, if_neg (by decide), if_pos rfl, qweRow_eq H hd, if_pos ⟨hq, le_rfl, ho⟩, (C20_raises ..).2 le_rfl]

/-- Without quadrature points or without intervals QWE raises `ValueError`. -/
theorem C51_nquad (H : HBack) (A : DipoleArgs) (hn : Needs H A) (ht : String) (htarg : Dict) {d : Dict}
    {nq mx : ℕ} {rtol atol : ℝ} (hq : nq = 0 ∨ mx = 0)
    (hc : (Verb.checkHankel H.C H.lib H.dflt ht htarg A.verb).val = .ok ("qwe", d)) (hd : HQweSet d nq mx rtol atol) :
    (dipoleH H A ht htarg).val = .error .valueError := by
  refine C51_raises H A hn ht htarg hc (fun f ab offs _ _ => ?_) fun h => absurd h (by simp)
  change hankelRow H "qwe" d f ab offs = _
  rw [hankelRow, if_neg (by decide), if_pos rfl, qweRow_eq H hd, if_neg (by omega)]

/-- Whatever the method: if `dipole` returns an array, `check_hankel` accepted the arguments, and the array is the one
of the transform with the arguments it returned. -/
theorem C51_accept (H : HBack) (A : DipoleArgs) (ht : String) (htarg : Dict) {arr : NdArray}
    (h : (dipoleH H A ht htarg).val = .ok arr) :
    ∃ m d, (Args.checkHankel H.C H.lib H.dflt ht htarg A.verb).val = .ok (m, d) ∧
      (Model.dipole (backOf H m d) A).val = .ok arr := by
  unfold dipoleH at h
  rw [bind_eq_ok] at h
  obtain ⟨EM, h, h'⟩ := h
  unfold dipoleHFull at h
  rw [bind_eq_ok] at h
  obtain ⟨mo, h1, h⟩ := h
  rw [bind_eq_ok] at h
  obtain ⟨fo, h2, h⟩ := h
  rw [bind_eq_ok] at h
  obtain ⟨⟨m, d⟩, hc, h⟩ := h
  refine ⟨m, d, hankel_ok hc, ?_⟩
  simp only [bind_eq_ok] at h
  obtain ⟨c, h3, src, h4, rcv, h5, h⟩ := h
  unfold Model.dipole dipoleFull dipoleWith dipoleTail
  rw [bind_eq_ok]
  refine ⟨EM, ?_, h'⟩
  have b1 : (checkModel (backOf H m d).m A.depth A.res A.aniso A.epermH A.epermV A.mpermH A.mpermV A.xdirect
    A.verb).val = .ok mo := h1
  have b2 : (checkFrequency (backOf H m d).m A.freq mo.res mo.aniso mo.epermH mo.epermV mo.mpermH mo.mpermV
    A.verb).val = .ok fo := h2
  rw [bind_ok b1, bind_ok b2]
  simp only
  rw [bind_ok h3, bind_ok h4, bind_ok h5]
  split at h
  · cases h
  · exact h

end Verif.Props
