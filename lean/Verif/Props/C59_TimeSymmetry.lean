import Verif.Props.C36_Xdirect
import Verif.Props.C48_Time
import Verif.Props.C58_Rotation

/-!
# C59: symmetries in the time domain, from the arguments

Two calls of `dipole` with times that describe the same physical situation return the same values.  The time domain is the
one of C48 with the standard digital filter (`ft='dlf'`, `pts_per_dec=0`), the frequency domain the one of C57 and C58.
-/

namespace Verif.Props
open Verif.Spec Verif.Py Verif.Py.W Verif.Utils Verif.Model Verif.Kernel Verif.Transform Verif.Fullspace
  Verif.Lemmas Verif.Time MeasureTheory Set

/-! ## Specification -/

/-- The signal and the Fourier arguments are acceptable: a number that becomes -1, 0 or 1 as an integer, and the standard
digital filter, with a filter that has what is needed (utils.py, `check_time`). -/
structure StdTime (T : FBack) (ft : String) (ftarg : Args.Dict) (sg : ℝ) (F : Filter) : Prop where
  std : StdDlf T ft ftarg F
  sig : -2 < sg ∧ sg < 2
  complete : ∃ a k, filterFor T.lib T.dflt ftarg = some (.filter a F) ∧ kindFor sg ftarg = .str k ∧ (k = "sin" ∨ k = "cos") ∧
    ∀ x ∈ ["name", "base", k, "factor"], x ∈ a

/-! ## Times -/

open Classical in
/-- The filter sum of C48 for one time. -/
noncomputable def timeSum (m : Mins) (F : Filter) (sg : ℝ) (ftarg : Args.Dict) (t : ℝ) (x : ℕ → ℂ) : ℝ :=
  2 / Real.pi / t * ∑ k ∈ Finset.range F.n,
    (let E := x k * Tem.scale sg (max (F.base k / t / (2 * Real.pi)) m.minFreq)
     if kindFor sg ftarg = .str "sin" then -E.im * F.sin k else E.re * F.cos k)

theorem timeSum_sign (m : Mins) (F : Filter) (sg : ℝ) (ftarg : Args.Dict) (t : ℝ) {x y : ℕ → ℂ} {σ : ℂ} (hσ : σ = 1 ∨ σ = -1)
    (h : ∀ k < F.n, y k = σ * x k) : ((timeSum m F sg ftarg t y : ℝ) : ℂ) = σ * ((timeSum m F sg ftarg t x : ℝ) : ℂ) := by
  classical
  rcases hσ with rfl | rfl
  · rw [one_mul]
    congr 1
    unfold timeSum
    congr 1
    refine Finset.sum_congr rfl fun k hk => ?_
    rw [h k (Finset.mem_range.1 hk), one_mul]
  · rw [← Complex.ofReal_one, ← Complex.ofReal_neg, ← Complex.ofReal_mul]
    congr 1
    unfold timeSum
    rw [neg_one_mul, ← mul_neg, ← Finset.sum_neg_distrib]
    congr 1
    refine Finset.sum_congr rfl fun k hk => ?_
    rw [h k (Finset.mem_range.1 hk)]
    simp only [neg_one_mul, neg_mul, Complex.neg_im, Complex.neg_re, neg_neg]
    by_cases q : kindFor sg ftarg = .str "sin"
    · simp only [if_pos q, one_mul]; ring
    · simp only [if_neg q, one_mul]

theorem describes_times {A : DipoleArgs} {U : UserModel} (h : Describes A U) (g : List ℝ) :
    Describes { A with freq := g, squeeze := false } U := by
  obtain ⟨k, h⟩ := h
  cases h with
  | topDown lo hi depth res aniso epermH epermV mpermH mpermV =>
    exact ⟨_, .topDown lo hi depth res aniso epermH epermV mpermH mpermV⟩
  | bottomUp lo hi depth two strict res aniso epermH epermV mpermH mpermV =>
    exact ⟨_, .bottomUp lo hi depth two strict res aniso epermH epermV mpermH mpermV⟩

/-- Two calls whose frequency-domain entries agree up to a sign agree up to this sign for every time. -/
theorem time_pair {B : Back} (hB : Pointwise B) (hm : 0 < B.m.minTime) {T : FBack} {A A' : DipoleArgs} {sg : ℝ} {ft : String}
    {ftarg : Args.Dict} {F : Filter} (hS : StdTime T ft ftarg sg F) (hfq : A'.freq = A.freq) (ht : A.freq ≠ [])
    (hv : A.verb ≤ 2 ∨ A.freq.length = 1) (hv' : A'.verb ≤ 2 ∨ A.freq.length = 1) {σ : ℂ} (hσ : σ = 1 ∨ σ = -1)
    {P : ℕ → ℕ → ℕ → ℕ → Prop}
    (hP : ∀ r s r' s', P r s r' s' → (r < numDipoles A.rcv ∧ s < numDipoles A.src) ∧
      r' < numDipoles A'.rcv ∧ s' < numDipoles A'.src)
    (h : ∀ g : List ℝ, ∃ D D', (dipole B { A with freq := g, squeeze := false }).val = .ok D ∧
      (dipole B { A' with freq := g, squeeze := false }).val = .ok D' ∧
      ∀ f r s r' s', f < g.length → P r s r' s' → D'.get [f, r', s'] = σ * D.get [f, r, s]) :
    ∃ arr arr', (dipoleTime B T A (.num sg) ft ftarg).val = .ok (if A.squeeze then arr.squeeze else arr) ∧
      (dipoleTime B T A' (.num sg) ft ftarg).val = .ok (if A'.squeeze then arr'.squeeze else arr') ∧
      arr.shape = [A.freq.length, numDipoles A.rcv, numDipoles A.src] ∧
      arr'.shape = [A.freq.length, numDipoles A'.rcv, numDipoles A'.src] ∧
      ∀ i r s r' s', i < A.freq.length → P r s r' s' → arr'.get [i, r', s'] = σ * arr.get [i, r, s] := by
  obtain ⟨a, k, c1, c2, c3, c4⟩ := hS.complete
  obtain ⟨D, D', hD, hD', -⟩ := h A.freq
  obtain ⟨out, ho⟩ := C48_standard_accept hm (A := A) hS.sig hS.std c1 c2 c3 c4 ht hv hD
  obtain ⟨out', ho'⟩ := C48_standard_accept hm (A := A') hS.sig hS.std c1 c2 c3 c4 (by rw [hfq]; exact ht)
    (by rw [hfq]; exact hv') (by rw [hfq]; exact hD')
  obtain ⟨arr, rfl, e1, e2⟩ := C48_standard hB hm hS.std ho
  obtain ⟨arr', rfl, g1, g2⟩ := C48_standard hB hm hS.std ho'
  refine ⟨arr, arr', ho, ho', e1, by rw [g1, hfq], fun i r s r' s' hi hp => ?_⟩
  obtain ⟨⟨p1, p2⟩, p3, p4⟩ := hP r s r' s' hp
  obtain ⟨X, x1, x2⟩ := e2 i hi
  obtain ⟨Y, y1, y2⟩ := g2 i (by rw [hfq]; exact hi)
  rw [hfq] at y1 y2
  obtain ⟨X', Y', z1, z2, z3⟩ := h (needed F (max (A.freq.getD i 0) B.m.minTime))
  obtain rfl := Except.ok.inj (x1.symm.trans z1)
  obtain rfl := Except.ok.inj (y1.symm.trans z2)
  rw [x2 r s p1 p2, y2 r' s' p3 p4]
  exact timeSum_sign B.m F sg ftarg _ hσ fun k hk => z3 k r s r' s' (by simpa [needed] using hk) hp

/-! ## The routine -/

/-- **C59, reciprocity.**  Source and receiver exchanged, in the time domain. -/
theorem C59_reciprocity {B : Back} (hm : 0 < B.m.minRes) (hfr : 0 < B.m.minFreq) (hof : 0 < B.m.minOff) (hti : 0 < B.m.minTime)
    (ho : Safe B.o) {R : HRule} (hR : OddRule R) (hB : Uses B R) {T : FBack} {sg : ℝ} {ft : String} {ftarg : Args.Dict}
    {F : Filter} (hS : StdTime T ft ftarg sg F) {A A' : DipoleArgs}
    {U : UserModel} (hU : U.Valid B.m.minRes) (hA : Describes A U) (hA' : Describes A' U)
    (hsw : A'.src = A.rcv ∧ A'.rcv = A.src) (hfq : A'.freq = A.freq) (hxd : A'.xdirect = A.xdirect) (ht : A.freq ≠ [])
    (hv : A.verb ≤ 2 ∨ A.freq.length = 1) (hv' : A'.verb ≤ 2 ∨ A.freq.length = 1)
    {a b : ℕ} (ha : 1 ≤ a ∧ a ≤ 6) (hb : 1 ≤ b ∧ b ≤ 6) (hab : toInt A.ab = .ok (10 * a + b))
    (hab' : toInt A'.ab = .ok (10 * b + a)) {xs ys xr yr : List ℝ} {zs zr : ℝ}
    (hsrc : A.src = [xs, ys, [zs]]) (hrcv : A.rcv = [xr, yr, [zr]])
    (hls : xs.length = ys.length ∨ xs.length = 1 ∨ ys.length = 1)
    (hlr : xr.length = yr.length ∨ xr.length = 1 ∨ yr.length = 1)
    (ns : 0 < numDipoles A.src) (nr : 0 < numDipoles A.rcv) :
    ∃ arr arr', (dipoleTime B T A (.num sg) ft ftarg).val = .ok (if A.squeeze then arr.squeeze else arr) ∧
      (dipoleTime B T A' (.num sg) ft ftarg).val = .ok (if A'.squeeze then arr'.squeeze else arr') ∧
      arr.shape = [A.freq.length, numDipoles A.rcv, numDipoles A.src] ∧
      arr'.shape = [A.freq.length, numDipoles A.src, numDipoles A.rcv] ∧
      ∀ i r s : ℕ, i < A.freq.length → r < numDipoles A.rcv → s < numDipoles A.src →
        (bc xr r ≠ bc xs s ∨ bc yr r ≠ bc ys s) →
        ClearAngle (thetaOf (bc xr r - bc xs s) (bc yr r - bc ys s)) →
        arr'.get [i, s, r] = recipSign a * recipSign b * arr.get [i, r, s] := by
  have hσ : recipSign a * recipSign b = 1 ∨ recipSign a * recipSign b = -1 := by
    unfold recipSign; split_ifs <;> simp
  obtain ⟨arr, arr', h1, h2, h3, h4, h5⟩ := time_pair hB.pointwise hti hS hfq ht hv hv' hσ
    (P := fun r s r' s' => (r' = s ∧ s' = r) ∧ r < numDipoles A.rcv ∧ s < numDipoles A.src ∧
      (bc xr r ≠ bc xs s ∨ bc yr r ≠ bc ys s) ∧ ClearAngle (thetaOf (bc xr r - bc xs s) (bc yr r - bc ys s)))
    (by
      rintro r s r' s' ⟨⟨rfl, rfl⟩, p1, p2, -⟩
      rw [hsw.1, hsw.2]
      exact ⟨⟨p1, p2⟩, p2, p1⟩)
    (fun g => by
      obtain ⟨D, D', e1, e2, -, -, e5⟩ := C57_reciprocity hm hfr hof ho hR hB (A := { A with freq := g, squeeze := false })
        (A' := { A' with freq := g, squeeze := false }) hU (describes_times hA g) (describes_times hA' g) hsw rfl hxd ha hb hab
        hab' hsrc hrcv hls hlr ns nr
      refine ⟨D, D', e1, e2, ?_⟩
      rintro f r s r' s' hf ⟨⟨rfl, rfl⟩, p1, p2, p3, p4⟩
      rw [e5 f _ _ hf p1 p2 p3 p4]
      rcases hσ with q | q <;> rw [q] <;> ring)
  refine ⟨arr, arr', h1, h2, h3, by rw [h4, hsw.1, hsw.2], fun i r s hi hr hs hne hcl => ?_⟩
  exact h5 i r s s r hi ⟨⟨rfl, rfl⟩, hr, hs, hne, hcl⟩

/-- **C59, moves and other descriptions.**  In the time domain, for every way of integrating. -/
theorem C59_moved {B : Back} (hm : 0 < B.m.minRes) (hfr : 0 < B.m.minFreq) (hof : 0 < B.m.minOff) (hti : 0 < B.m.minTime)
    (ho : Safe B.o) {R : HRule} (hB : Uses B R) {T : FBack} {sg : ℝ} {ft : String} {ftarg : Args.Dict}
    {F : Filter} (hS : StdTime T ft ftarg sg F) {A A' : DipoleArgs}
    {U V : UserModel} (hU : U.Valid B.m.minRes) (hV : V.Valid B.m.minRes) (hA : Describes A U) (hA' : Describes A' V)
    {p q d : ℝ} (hmv : Moved U V d) {xs ys xr yr : List ℝ} {zs zr : ℝ}
    (hsrc : A.src = [xs, ys, [zs]]) (hrcv : A.rcv = [xr, yr, [zr]])
    (hsrc' : A'.src = [xs.map (· + p), ys.map (· + q), [zs + d]])
    (hrcv' : A'.rcv = [xr.map (· + p), yr.map (· + q), [zr + d]])
    (hfq : A'.freq = A.freq) (hxd : A'.xdirect = A.xdirect) (habe : A'.ab = A.ab)
    (hx : A.xdirect = some false ∨ ((U.Uniform ↔ V.Uniform) ∧ (SameLayer U zs zr ↔ SameLayer V (zs + d) (zr + d))))
    (ht : A.freq ≠ []) (hv : A.verb ≤ 2 ∨ A.freq.length = 1) (hv' : A'.verb ≤ 2 ∨ A.freq.length = 1)
    {a b : ℕ} (ha : 1 ≤ a ∧ a ≤ 6) (hb : 1 ≤ b ∧ b ≤ 6) (hab : toInt A.ab = .ok (10 * a + b))
    (hls : xs.length = ys.length ∨ xs.length = 1 ∨ ys.length = 1)
    (hlr : xr.length = yr.length ∨ xr.length = 1 ∨ yr.length = 1)
    (ns : 0 < numDipoles A.src) (nr : 0 < numDipoles A.rcv) :
    ∃ arr arr', (dipoleTime B T A (.num sg) ft ftarg).val = .ok (if A.squeeze then arr.squeeze else arr) ∧
      (dipoleTime B T A' (.num sg) ft ftarg).val = .ok (if A'.squeeze then arr'.squeeze else arr') ∧
      arr.shape = [A.freq.length, numDipoles A.rcv, numDipoles A.src] ∧ arr'.shape = arr.shape ∧
      ∀ i r s : ℕ, i < A.freq.length → r < numDipoles A.rcv → s < numDipoles A.src →
        arr'.get [i, r, s] = arr.get [i, r, s] := by
  have n1 : numDipoles A'.src = numDipoles A.src := by rw [hsrc, hsrc']; simp [numDipoles]
  have n2 : numDipoles A'.rcv = numDipoles A.rcv := by rw [hrcv, hrcv']; simp [numDipoles]
  obtain ⟨arr, arr', h1, h2, h3, h4, h5⟩ := time_pair hB.pointwise hti hS hfq ht hv hv' (σ := 1) (Or.inl rfl)
    (P := fun r s r' s' => (r' = r ∧ s' = s) ∧ r < numDipoles A.rcv ∧ s < numDipoles A.src)
    (by
      rintro r s r' s' ⟨⟨rfl, rfl⟩, p1, p2⟩
      rw [n1, n2]
      exact ⟨⟨p1, p2⟩, p1, p2⟩)
    (fun g => by
      obtain ⟨D, D', e1, e2, -, -, e5⟩ := C57_moved hm hfr hof ho hB (A := { A with freq := g, squeeze := false })
        (A' := { A' with freq := g, squeeze := false }) hU hV (describes_times hA g) (describes_times hA' g) hmv hsrc hrcv
        hsrc' hrcv' rfl hxd habe hx ha hb hab hls hlr ns nr
      refine ⟨D, D', e1, e2, ?_⟩
      rintro f r s r' s' hf ⟨⟨rfl, rfl⟩, p1, p2⟩
      rw [e5 f _ _ hf p1 p2, one_mul])
  refine ⟨arr, arr', h1, h2, h3, by rw [h4, h3, n1, n2], fun i r s hi hr hs => ?_⟩
  rw [h5 i r s r s hi ⟨⟨rfl, rfl⟩, hr, hs⟩, one_mul]

/-- **C59, reflection.**  All `y` coordinates with the opposite sign, in the time domain. -/
theorem C59_side {B : Back} (hm : 0 < B.m.minRes) (hof : 0 < B.m.minOff) (hti : 0 < B.m.minTime)
    (ho : Safe B.o) {R : HRule} (hB : Uses B R) {T : FBack} {sg : ℝ} {ft : String} {ftarg : Args.Dict}
    {F : Filter} (hS : StdTime T ft ftarg sg F)
    {A A' : DipoleArgs} {U : UserModel} (hU : U.Valid B.m.minRes) (hA : Describes A U) (hA' : Describes A' U)
    {xs ys xr yr : List ℝ} {zs zr : ℝ} (hsrc : A.src = [xs, ys, [zs]]) (hrcv : A.rcv = [xr, yr, [zr]])
    (hsrc' : A'.src = [xs, ys.map (-·), [zs]]) (hrcv' : A'.rcv = [xr, yr.map (-·), [zr]])
    (hfq : A'.freq = A.freq) (hxd : A'.xdirect = A.xdirect) {a b : ℕ} (ha : 1 ≤ a ∧ a ≤ 6) (hb : 1 ≤ b ∧ b ≤ 6)
    (hab : toInt A.ab = .ok (10 * a + b)) (hab' : toInt A'.ab = .ok (10 * a + b))
    (hR : sideSign a * sideSign b = 1 ∨ OddRule R)
    (ht : A.freq ≠ []) (hv : A.verb ≤ 2 ∨ A.freq.length = 1) (hv' : A'.verb ≤ 2 ∨ A.freq.length = 1)
    (hls : xs.length = ys.length ∨ xs.length = 1 ∨ ys.length = 1)
    (hlr : xr.length = yr.length ∨ xr.length = 1 ∨ yr.length = 1)
    (ns : 0 < numDipoles A.src) (nr : 0 < numDipoles A.rcv) :
    ∃ arr arr', (dipoleTime B T A (.num sg) ft ftarg).val = .ok (if A.squeeze then arr.squeeze else arr) ∧
      (dipoleTime B T A' (.num sg) ft ftarg).val = .ok (if A'.squeeze then arr'.squeeze else arr') ∧
      arr.shape = [A.freq.length, numDipoles A.rcv, numDipoles A.src] ∧ arr'.shape = arr.shape ∧
      ∀ i r s : ℕ, i < A.freq.length → r < numDipoles A.rcv → s < numDipoles A.src →
        ClearAngle (thetaOf (bc xr r - bc xs s) (bc yr r - bc ys s)) →
        arr'.get [i, r, s] = sideSign a * sideSign b * arr.get [i, r, s] := by
  have n1 : numDipoles A'.src = numDipoles A.src := by rw [hsrc, hsrc', num_neg]
  have n2 : numDipoles A'.rcv = numDipoles A.rcv := by rw [hrcv, hrcv', num_neg]
  have hσ : sideSign a * sideSign b = 1 ∨ sideSign a * sideSign b = -1 := by
    unfold sideSign; split_ifs <;> simp
  obtain ⟨arr, arr', h1, h2, h3, h4, h5⟩ := time_pair hB.pointwise hti hS hfq ht hv hv' hσ
    (P := fun r s r' s' => (r' = r ∧ s' = s) ∧ r < numDipoles A.rcv ∧ s < numDipoles A.src ∧
      ClearAngle (thetaOf (bc xr r - bc xs s) (bc yr r - bc ys s)))
    (by
      rintro r s r' s' ⟨⟨rfl, rfl⟩, p1, p2, -⟩
      rw [n1, n2]
      exact ⟨⟨p1, p2⟩, p1, p2⟩)
    (fun g => by
      obtain ⟨D, D', e1, e2, -, -, e5⟩ := C58_side hm hof ho hB (A := { A with freq := g, squeeze := false })
        (A' := { A' with freq := g, squeeze := false }) hU (describes_times hA g) (describes_times hA' g) hsrc hrcv hsrc' hrcv'
        rfl hxd ha hb hab hab' hR hls hlr ns nr
      refine ⟨D, D', e1, e2, ?_⟩
      rintro f r s r' s' hf ⟨⟨rfl, rfl⟩, p1, p2, p3⟩
      exact e5 f _ _ hf p1 p2 p3)
  refine ⟨arr, arr', h1, h2, h3, by rw [h4, h3, n1, n2], fun i r s hi hr hs hcl => ?_⟩
  exact h5 i r s r s hi ⟨⟨rfl, rfl⟩, hr, hs, hcl⟩

/-- **C59, exchange of the axes.**  `x` and `y` exchanged for positions and directions, in the time domain. -/
theorem C59_swap {B : Back} (hm : 0 < B.m.minRes) (hof : 0 < B.m.minOff) (hti : 0 < B.m.minTime)
    (ho : Safe B.o) {R : HRule} (hB : Uses B R) {T : FBack} {sg : ℝ} {ft : String} {ftarg : Args.Dict}
    {F : Filter} (hS : StdTime T ft ftarg sg F)
    {A A' : DipoleArgs} {U : UserModel} (hU : U.Valid B.m.minRes) (hA : Describes A U) (hA' : Describes A' U)
    {xs ys xr yr : List ℝ} {zs zr : ℝ} (hsrc : A.src = [xs, ys, [zs]]) (hrcv : A.rcv = [xr, yr, [zr]])
    (hsrc' : A'.src = [ys, xs, [zs]]) (hrcv' : A'.rcv = [yr, xr, [zr]])
    (hfq : A'.freq = A.freq) (hxd : A'.xdirect = A.xdirect) {a b : ℕ} (ha : 1 ≤ a ∧ a ≤ 6) (hb : 1 ≤ b ∧ b ≤ 6)
    (hab : toInt A.ab = .ok (10 * a + b)) (hab' : toInt A'.ab = .ok (10 * swapDir a + swapDir b))
    (hR : swapSign a * swapSign b = 1 ∨ OddRule R)
    (ht : A.freq ≠ []) (hv : A.verb ≤ 2 ∨ A.freq.length = 1) (hv' : A'.verb ≤ 2 ∨ A.freq.length = 1)
    (hls : xs.length = ys.length ∨ xs.length = 1 ∨ ys.length = 1)
    (hlr : xr.length = yr.length ∨ xr.length = 1 ∨ yr.length = 1)
    (ns : 0 < numDipoles A.src) (nr : 0 < numDipoles A.rcv) :
    ∃ arr arr', (dipoleTime B T A (.num sg) ft ftarg).val = .ok (if A.squeeze then arr.squeeze else arr) ∧
      (dipoleTime B T A' (.num sg) ft ftarg).val = .ok (if A'.squeeze then arr'.squeeze else arr') ∧
      arr.shape = [A.freq.length, numDipoles A.rcv, numDipoles A.src] ∧ arr'.shape = arr.shape ∧
      ∀ i r s : ℕ, i < A.freq.length → r < numDipoles A.rcv → s < numDipoles A.src →
        (bc xr r ≠ bc xs s ∨ bc yr r ≠ bc ys s) →
        ClearAngle (thetaOf (bc xr r - bc xs s) (bc yr r - bc ys s)) →
        arr'.get [i, r, s] = swapSign a * swapSign b * arr.get [i, r, s] := by
  have n1 : numDipoles A'.src = numDipoles A.src := by rw [hsrc, hsrc', num_swap hls]
  have n2 : numDipoles A'.rcv = numDipoles A.rcv := by rw [hrcv, hrcv', num_swap hlr]
  have hσ : swapSign a * swapSign b = 1 ∨ swapSign a * swapSign b = -1 := by
    unfold swapSign; split_ifs <;> simp
  obtain ⟨arr, arr', h1, h2, h3, h4, h5⟩ := time_pair hB.pointwise hti hS hfq ht hv hv' hσ
    (P := fun r s r' s' => (r' = r ∧ s' = s) ∧ r < numDipoles A.rcv ∧ s < numDipoles A.src ∧
      (bc xr r ≠ bc xs s ∨ bc yr r ≠ bc ys s) ∧ ClearAngle (thetaOf (bc xr r - bc xs s) (bc yr r - bc ys s)))
    (by
      rintro r s r' s' ⟨⟨rfl, rfl⟩, p1, p2, -⟩
      rw [n1, n2]
      exact ⟨⟨p1, p2⟩, p1, p2⟩)
    (fun g => by
      obtain ⟨D, D', e1, e2, -, -, e5⟩ := C58_swap hm hof ho hB (A := { A with freq := g, squeeze := false })
        (A' := { A' with freq := g, squeeze := false }) hU (describes_times hA g) (describes_times hA' g) hsrc hrcv hsrc' hrcv'
        rfl hxd ha hb hab hab' hR hls hlr ns nr
      refine ⟨D, D', e1, e2, ?_⟩
      rintro f r s r' s' hf ⟨⟨rfl, rfl⟩, p1, p2, p3, p4⟩
      exact e5 f _ _ hf p1 p2 p3 p4)
  refine ⟨arr, arr', h1, h2, h3, by rw [h4, h3, n1, n2], fun i r s hi hr hs hne hcl => ?_⟩
  exact h5 i r s r s hi ⟨⟨rfl, rfl⟩, hr, hs, hne, hcl⟩

/-- **C59, quarter turn.**  Positions and directions turned by 90° about the vertical axis, in the time domain. -/
theorem C59_turn {B : Back} (hm : 0 < B.m.minRes) (hof : 0 < B.m.minOff) (hti : 0 < B.m.minTime)
    (ho : Safe B.o) {R : HRule} (hB : Uses B R) {T : FBack} {sg : ℝ} {ft : String} {ftarg : Args.Dict}
    {F : Filter} (hS : StdTime T ft ftarg sg F)
    {A A' : DipoleArgs} {U : UserModel} (hU : U.Valid B.m.minRes) (hA : Describes A U) (hA' : Describes A' U)
    {xs ys xr yr : List ℝ} {zs zr : ℝ} (hsrc : A.src = [xs, ys, [zs]]) (hrcv : A.rcv = [xr, yr, [zr]])
    (hsrc' : A'.src = [ys.map (-·), xs, [zs]]) (hrcv' : A'.rcv = [yr.map (-·), xr, [zr]])
    (hfq : A'.freq = A.freq) (hxd : A'.xdirect = A.xdirect) {a b : ℕ} (ha : 1 ≤ a ∧ a ≤ 6) (hb : 1 ≤ b ∧ b ≤ 6)
    (hab : toInt A.ab = .ok (10 * a + b)) (hab' : toInt A'.ab = .ok (10 * swapDir a + swapDir b))
    (hR : (sideSign a * sideSign b = 1 ∧ swapSign a * swapSign b = 1) ∨ OddRule R)
    (ht : A.freq ≠ []) (hv : A.verb ≤ 2 ∨ A.freq.length = 1) (hv' : A'.verb ≤ 2 ∨ A.freq.length = 1)
    (hls : xs.length = ys.length ∨ xs.length = 1 ∨ ys.length = 1)
    (hlr : xr.length = yr.length ∨ xr.length = 1 ∨ yr.length = 1)
    (ns : 0 < numDipoles A.src) (nr : 0 < numDipoles A.rcv) :
    ∃ arr arr', (dipoleTime B T A (.num sg) ft ftarg).val = .ok (if A.squeeze then arr.squeeze else arr) ∧
      (dipoleTime B T A' (.num sg) ft ftarg).val = .ok (if A'.squeeze then arr'.squeeze else arr') ∧
      arr.shape = [A.freq.length, numDipoles A.rcv, numDipoles A.src] ∧ arr'.shape = arr.shape ∧
      ∀ i r s : ℕ, i < A.freq.length → r < numDipoles A.rcv → s < numDipoles A.src →
        (bc xr r ≠ bc xs s ∨ bc yr r ≠ bc ys s) →
        ClearAngle (thetaOf (bc xr r - bc xs s) (bc yr r - bc ys s)) →
        arr'.get [i, r, s] = turnSign a * turnSign b * arr.get [i, r, s] := by
  have n1 : numDipoles A'.src = numDipoles A.src := by rw [hsrc, hsrc', num_swap (by simpa using hls), num_neg]
  have n2 : numDipoles A'.rcv = numDipoles A.rcv := by rw [hrcv, hrcv', num_swap (by simpa using hlr), num_neg]
  have hσ : turnSign a * turnSign b = 1 ∨ turnSign a * turnSign b = -1 := by
    unfold turnSign; split_ifs <;> simp
  obtain ⟨arr, arr', h1, h2, h3, h4, h5⟩ := time_pair hB.pointwise hti hS hfq ht hv hv' hσ
    (P := fun r s r' s' => (r' = r ∧ s' = s) ∧ r < numDipoles A.rcv ∧ s < numDipoles A.src ∧
      (bc xr r ≠ bc xs s ∨ bc yr r ≠ bc ys s) ∧ ClearAngle (thetaOf (bc xr r - bc xs s) (bc yr r - bc ys s)))
    (by
      rintro r s r' s' ⟨⟨rfl, rfl⟩, p1, p2, -⟩
      rw [n1, n2]
      exact ⟨⟨p1, p2⟩, p1, p2⟩)
    (fun g => by
      obtain ⟨D, D', e1, e2, -, -, e5⟩ := C58_turn hm hof ho hB (A := { A with freq := g, squeeze := false })
        (A' := { A' with freq := g, squeeze := false }) hU (describes_times hA g) (describes_times hA' g) hsrc hrcv hsrc' hrcv'
        rfl hxd ha hb hab hab' hR hls hlr ns nr
      refine ⟨D, D', e1, e2, ?_⟩
      rintro f r s r' s' hf ⟨⟨rfl, rfl⟩, p1, p2, p3, p4⟩
      exact e5 f _ _ hf p1 p2 p3 p4)
  refine ⟨arr, arr', h1, h2, h3, by rw [h4, h3, n1, n2], fun i r s hi hr hs hne hcl => ?_⟩
  exact h5 i r s r s hi ⟨⟨rfl, rfl⟩, hr, hs, hne, hcl⟩

/-- **C59, upside down.**  Depth and the order of the layers reversed, in the time domain. -/
theorem C59_mirror {B : Back} (hm : 0 < B.m.minRes) (hfr : 0 < B.m.minFreq) (hof : 0 < B.m.minOff) (hti : 0 < B.m.minTime)
    (ho : Safe B.o) {R : HRule} (hR : OddRule R) (hB : Uses B R) {T : FBack} {sg : ℝ} {ft : String} {ftarg : Args.Dict}
    {F : Filter} (hS : StdTime T ft ftarg sg F) {A A' : DipoleArgs}
    {U V : UserModel} (hU : U.Valid B.m.minRes) (hV : V.Valid B.m.minRes) (hA : Describes A U) (hA' : Describes A' V)
    (hmv : Mirrored U V) {xs ys xr yr : List ℝ} {zs zr : ℝ}
    (hsrc : A.src = [xs, ys, [zs]]) (hrcv : A.rcv = [xr, yr, [zr]])
    (hsrc' : A'.src = [xs, ys, [-zs]]) (hrcv' : A'.rcv = [xr, yr, [-zr]])
    (hfq : A'.freq = A.freq) (hxd : A'.xdirect = A.xdirect) (habe : A'.ab = A.ab)
    (hin : zs ∉ U.z ∧ zr ∉ U.z ∧ -zs ∉ V.z ∧ -zr ∉ V.z)
    (hx : A.xdirect = some false ∨ ((U.Uniform ↔ V.Uniform) ∧ (SameLayer U zs zr ↔ SameLayer V (-zs) (-zr))))
    (ht : A.freq ≠ []) (hv : A.verb ≤ 2 ∨ A.freq.length = 1) (hv' : A'.verb ≤ 2 ∨ A.freq.length = 1)
    {a b : ℕ} (ha : 1 ≤ a ∧ a ≤ 6) (hb : 1 ≤ b ∧ b ≤ 6) (hab : toInt A.ab = .ok (10 * a + b))
    (hls : xs.length = ys.length ∨ xs.length = 1 ∨ ys.length = 1)
    (hlr : xr.length = yr.length ∨ xr.length = 1 ∨ yr.length = 1)
    (ns : 0 < numDipoles A.src) (nr : 0 < numDipoles A.rcv) :
    ∃ arr arr', (dipoleTime B T A (.num sg) ft ftarg).val = .ok (if A.squeeze then arr.squeeze else arr) ∧
      (dipoleTime B T A' (.num sg) ft ftarg).val = .ok (if A'.squeeze then arr'.squeeze else arr') ∧
      arr.shape = [A.freq.length, numDipoles A.rcv, numDipoles A.src] ∧ arr'.shape = arr.shape ∧
      ∀ i r s : ℕ, i < A.freq.length → r < numDipoles A.rcv → s < numDipoles A.src →
        arr'.get [i, r, s] = mirrorSign a * mirrorSign b * arr.get [i, r, s] := by
  have n1 : numDipoles A'.src = numDipoles A.src := by rw [hsrc, hsrc']; simp [numDipoles]
  have n2 : numDipoles A'.rcv = numDipoles A.rcv := by rw [hrcv, hrcv']; simp [numDipoles]
  have hσ : mirrorSign a * mirrorSign b = 1 ∨ mirrorSign a * mirrorSign b = -1 := by
    unfold mirrorSign; split_ifs <;> simp
  obtain ⟨arr, arr', h1, h2, h3, h4, h5⟩ := time_pair hB.pointwise hti hS hfq ht hv hv' hσ
    (P := fun r s r' s' => (r' = r ∧ s' = s) ∧ r < numDipoles A.rcv ∧ s < numDipoles A.src)
    (by
      rintro r s r' s' ⟨⟨rfl, rfl⟩, p1, p2⟩
      rw [n1, n2]
      exact ⟨⟨p1, p2⟩, p1, p2⟩)
    (fun g => by
      obtain ⟨D, D', e1, e2, -, -, e5⟩ := C57_mirror hm hfr hof ho hR hB (A := { A with freq := g, squeeze := false })
        (A' := { A' with freq := g, squeeze := false }) hU hV (describes_times hA g) (describes_times hA' g) hmv hsrc hrcv
        hsrc' hrcv' rfl hxd habe hin hx ha hb hab hls hlr ns nr
      refine ⟨D, D', e1, e2, ?_⟩
      rintro f r s r' s' hf ⟨⟨rfl, rfl⟩, p1, p2⟩
      exact e5 f _ _ hf p1 p2)
  refine ⟨arr, arr', h1, h2, h3, by rw [h4, h3, n1, n2], fun i r s hi hr hs => ?_⟩
  exact h5 i r s r s hi ⟨⟨rfl, rfl⟩, hr, hs⟩

/-! ## Rotation -/

open Classical in
/-- One term of the filter sum, as function of the response. -/
noncomputable def timeTerm (m : Mins) (F : Filter) (sg : ℝ) (ftarg : Args.Dict) (t : ℝ) (k : ℕ) : ℂ →ₗ[ℝ] ℝ where
  toFun z :=
    let E := z * Tem.scale sg (max (F.base k / t / (2 * Real.pi)) m.minFreq)
    if kindFor sg ftarg = .str "sin" then -E.im * F.sin k else E.re * F.cos k
  map_add' x y := by
    by_cases q : kindFor sg ftarg = .str "sin"
    · simp only [if_pos q, add_mul, Complex.add_im]; ring
    · simp only [if_neg q, add_mul, Complex.add_re]
  map_smul' c x := by
    by_cases q : kindFor sg ftarg = .str "sin"
    · simp only [if_pos q, Complex.real_smul, mul_assoc, Complex.im_ofReal_mul, RingHom.id_apply, smul_eq_mul]; ring
    · simp only [if_neg q, Complex.real_smul, mul_assoc, Complex.re_ofReal_mul, RingHom.id_apply, smul_eq_mul]

theorem timeSum_lin (m : Mins) (F : Filter) (sg : ℝ) (ftarg : Args.Dict) (t : ℝ) (w : ℕ → ℕ → ℝ) (x : ℕ → ℕ → ℕ → ℂ) :
    timeSum m F sg ftarg t (fun k => ∑ a ∈ Finset.Icc 1 3, ∑ b ∈ Finset.Icc 1 3, (w a b : ℂ) * x a b k) =
      ∑ a ∈ Finset.Icc 1 3, ∑ b ∈ Finset.Icc 1 3, w a b * timeSum m F sg ftarg t (x a b) := by
  have e : ∀ y, timeSum m F sg ftarg t y = 2 / Real.pi / t * ∑ k ∈ Finset.range F.n, timeTerm m F sg ftarg t k (y k) :=
    fun _ => rfl
  simp only [e, ← Complex.real_smul, map_sum, map_smul, smul_eq_mul]
  rw [Finset.sum_comm, Finset.mul_sum]
  refine Finset.sum_congr rfl fun a _ => ?_
  rw [Finset.sum_comm, Finset.mul_sum]
  refine Finset.sum_congr rfl fun b _ => ?_
  rw [← Finset.mul_sum]
  ring

theorem timeSum_congr (m : Mins) (F : Filter) (sg : ℝ) (ftarg : Args.Dict) (t : ℝ) {x y : ℕ → ℂ}
    (h : ∀ k < F.n, y k = x k) : timeSum m F sg ftarg t y = timeSum m F sg ftarg t x := by
  have := timeSum_sign m F sg ftarg t (x := x) (y := y) (Or.inl rfl) fun k hk => by rw [h k hk, one_mul]
  rw [one_mul] at this
  exact_mod_cast this

/-- A direction turned about the vertical axis, with real components. -/
noncomputable def turnReal (α : ℝ) (u : ℕ → ℝ) (a : ℕ) : ℝ :=
  if a = 1 then Real.cos α * u 1 - Real.sin α * u 2 else if a = 2 then Real.sin α * u 1 + Real.cos α * u 2 else u a

theorem turnReal_cast (α : ℝ) (u : ℕ → ℝ) (a : ℕ) : turn α (fun a => (u a : ℂ)) a = ((turnReal α u a : ℝ) : ℂ) := by
  unfold turn turnReal
  split_ifs <;> push_cast <;> rfl

/-- What the time domain makes of one of the calls. -/
theorem time_values {B : Back} (hB : Pointwise B) (hm : 0 < B.m.minTime) {T : FBack} {A : DipoleArgs} {sg : ℝ} {ft : String}
    {ftarg : Args.Dict} {F : Filter} (hS : StdTime T ft ftarg sg F) (ht : A.freq ≠ [])
    (hv : A.verb ≤ 2 ∨ A.freq.length = 1)
    (h : ∃ D, (dipole B { A with squeeze := false }).val = .ok D) :
    ∃ arr, (dipoleTime B T A (.num sg) ft ftarg).val = .ok (if A.squeeze then arr.squeeze else arr) ∧
      arr.shape = [A.freq.length, numDipoles A.rcv, numDipoles A.src] ∧
      ∀ i < A.freq.length, ∃ D, (dipole B { A with freq := needed F (max (A.freq.getD i 0) B.m.minTime), squeeze := false }).val =
          .ok D ∧
        ∀ r s, r < numDipoles A.rcv → s < numDipoles A.src →
          arr.get [i, r, s] = ((timeSum B.m F sg ftarg (max (A.freq.getD i 0) B.m.minTime) fun k => D.get [k, r, s] : ℝ) : ℂ) := by
  obtain ⟨a, k, c1, c2, c3, c4⟩ := hS.complete
  obtain ⟨D, hD⟩ := h
  obtain ⟨out, ho⟩ := C48_standard_accept hm (A := A) hS.sig hS.std c1 c2 c3 c4 ht hv hD
  obtain ⟨arr, rfl, e1, e2⟩ := C48_standard hB hm hS.std ho
  exact ⟨arr, ho, e1, e2⟩

/-- **C59, rotation.**  Positions and (real) directions turned by any angle: the time-domain response put together from nine
calls is the same.  Digital filters for both transforms. -/
theorem C59_rotation {B : Back} (hm : 0 < B.m.minRes) (hof : 0 < B.m.minOff) (hti : 0 < B.m.minTime) (ho : Safe B.o)
    {R : HRule} (hB : Uses B R) (hR : ∀ ρ g, Sums R ρ g) {T : FBack} {sg : ℝ} {ft : String} {ftarg : Args.Dict}
    {F : Filter} (hS : StdTime T ft ftarg sg F)
    {U : UserModel} (hU : U.Valid B.m.minRes) {A A' : ℕ → ℕ → DipoleArgs} (hA : ∀ a b, Describes (A a b) U)
    (hA' : ∀ a b, Describes (A' a b) U) {ta tb : ℕ} (hta : ta = 0 ∨ ta = 3) (htb : tb = 0 ∨ tb = 3)
    (hab : ∀ a ∈ Finset.Icc 1 3, ∀ b ∈ Finset.Icc 1 3,
      toInt (A a b).ab = .ok (10 * ((ta + a : ℕ) : ℤ) + ((tb + b : ℕ) : ℤ)) ∧
      toInt (A' a b).ab = .ok (10 * ((ta + a : ℕ) : ℤ) + ((tb + b : ℕ) : ℤ)))
    {xs ys xr yr xs' ys' xr' yr' : List ℝ} {zs zr : ℝ}
    (hsrc : ∀ a b, (A a b).src = [xs, ys, [zs]]) (hrcv : ∀ a b, (A a b).rcv = [xr, yr, [zr]])
    (hsrc' : ∀ a b, (A' a b).src = [xs', ys', [zs]]) (hrcv' : ∀ a b, (A' a b).rcv = [xr', yr', [zr]])
    {time : List ℝ} (hfq : ∀ a b, (A a b).freq = time ∧ (A' a b).freq = time) (ht : time ≠ [])
    (hv : ∀ a b, ((A a b).verb ≤ 2 ∨ time.length = 1) ∧ ((A' a b).verb ≤ 2 ∨ time.length = 1))
    {xd : Option Bool} (hxd : ∀ a b, (A a b).xdirect = xd ∧ (A' a b).xdirect = xd)
    (hls : xs.length = ys.length ∨ xs.length = 1 ∨ ys.length = 1) (hlr : xr.length = yr.length ∨ xr.length = 1 ∨ yr.length = 1)
    (hls' : xs'.length = ys'.length ∨ xs'.length = 1 ∨ ys'.length = 1)
    (hlr' : xr'.length = yr'.length ∨ xr'.length = 1 ∨ yr'.length = 1)
    {ns nr : ℕ} (hns : 0 < ns ∧ numDipoles [xs, ys, [zs]] = ns ∧ numDipoles [xs', ys', [zs]] = ns)
    (hnr : 0 < nr ∧ numDipoles [xr, yr, [zr]] = nr ∧ numDipoles [xr', yr', [zr]] = nr)
    {α : ℝ} (hts : TurnedBy α xs ys xs' ys' ns) (htr : TurnedBy α xr yr xr' yr' nr) :
    ∃ arr arr' : ℕ → ℕ → NdArray,
      (∀ a ∈ Finset.Icc 1 3, ∀ b ∈ Finset.Icc 1 3,
        (dipoleTime B T (A a b) (.num sg) ft ftarg).val = .ok (if (A a b).squeeze then (arr a b).squeeze else arr a b) ∧
        (dipoleTime B T (A' a b) (.num sg) ft ftarg).val = .ok (if (A' a b).squeeze then (arr' a b).squeeze else arr' a b) ∧
        (arr a b).shape = [time.length, nr, ns] ∧ (arr' a b).shape = [time.length, nr, ns]) ∧
      ∀ (u v : ℕ → ℝ) (i r s : ℕ), i < time.length → r < nr → s < ns → (bc xr r ≠ bc xs s ∨ bc yr r ≠ bc ys s) →
        ClearAngle (thetaOf (bc xr r - bc xs s) (bc yr r - bc ys s)) →
        ClearAngle (thetaOf (bc xr' r - bc xs' s) (bc yr' r - bc ys' s)) →
        ∑ a ∈ Finset.Icc 1 3, ∑ b ∈ Finset.Icc 1 3, (turnReal α u a : ℂ) * turnReal α v b * (arr' a b).get [i, r, s] =
          ∑ a ∈ Finset.Icc 1 3, ∑ b ∈ Finset.Icc 1 3, (u a : ℂ) * v b * (arr a b).get [i, r, s] := by
  have rot : ∀ g : List ℝ, _ := fun g => C58_rotation hm hof ho hB hU
    (A := fun a b => { A a b with freq := g, squeeze := false }) (A' := fun a b => { A' a b with freq := g, squeeze := false })
    (fun a b => describes_times (hA a b) g) (fun a b => describes_times (hA' a b) g) hta htb hab hsrc hrcv hsrc' hrcv'
    (freq := g) (fun _ _ => ⟨rfl, rfl⟩) hxd hls hlr hls' hlr' hns hnr hts htr hR
  haveI : Nonempty NdArray := ⟨⟨[], fun _ => 0⟩⟩
  have E1 : ∀ a b, ∃ arr : NdArray, a ∈ Finset.Icc 1 3 → b ∈ Finset.Icc 1 3 → _ := fun a b => by
    by_cases h : a ∈ Finset.Icc 1 3 ∧ b ∈ Finset.Icc 1 3
    · obtain ⟨D, D', hD, -⟩ := rot time
      obtain ⟨arr, e⟩ := time_values hB.pointwise hti hS (A := A a b) (by rw [(hfq a b).1]; exact ht)
        (by rw [(hfq a b).1]; exact (hv a b).1) ⟨D a b, by
          have := (hD a h.1 b h.2).1
          rw [← (hfq a b).1] at this
          exact this⟩
      exact ⟨arr, fun _ _ => e⟩
    · exact ⟨⟨[], fun _ => 0⟩, fun h1 h2 => absurd ⟨h1, h2⟩ h⟩
  have E2 : ∀ a b, ∃ arr : NdArray, a ∈ Finset.Icc 1 3 → b ∈ Finset.Icc 1 3 → _ := fun a b => by
    by_cases h : a ∈ Finset.Icc 1 3 ∧ b ∈ Finset.Icc 1 3
    · obtain ⟨D, D', hD, -⟩ := rot time
      obtain ⟨arr, e⟩ := time_values hB.pointwise hti hS (A := A' a b) (by rw [(hfq a b).2]; exact ht)
        (by rw [(hfq a b).2]; exact (hv a b).2) ⟨D' a b, by
          have := (hD a h.1 b h.2).2.1
          rw [← (hfq a b).2] at this
          exact this⟩
      exact ⟨arr, fun _ _ => e⟩
    · exact ⟨⟨[], fun _ => 0⟩, fun h1 h2 => absurd ⟨h1, h2⟩ h⟩
  choose arr e using E1
  choose arr' g using E2
  refine ⟨arr, arr', fun a ha b hb => ⟨(e a b ha hb).1, (g a b ha hb).1, ?_, ?_⟩, ?_⟩
  · rw [(e a b ha hb).2.1, hsrc, hrcv, hns.2.1, hnr.2.1, (hfq a b).1]
  · rw [(g a b ha hb).2.1, hsrc', hrcv', hns.2.2, hnr.2.2, (hfq a b).2]
  intro u v i r s hi hr hs hne hcl hcl'
  obtain ⟨D, D', hD, hrel⟩ := rot (needed F (max (time.getD i 0) B.m.minTime))
  have v1 : ∀ a ∈ Finset.Icc 1 3, ∀ b ∈ Finset.Icc 1 3, (arr a b).get [i, r, s] =
      ((timeSum B.m F sg ftarg (max (time.getD i 0) B.m.minTime) fun k => (D a b).get [k, r, s] : ℝ) : ℂ) := by
    intro a ha b hb
    obtain ⟨X, x1, x2⟩ := (e a b ha hb).2.2 i (by rw [(hfq a b).1]; exact hi)
    rw [(hfq a b).1] at x1 x2
    obtain rfl := Except.ok.inj (x1.symm.trans (hD a ha b hb).1)
    exact x2 r s (by rw [hrcv, hnr.2.1]; exact hr) (by rw [hsrc, hns.2.1]; exact hs)
  have v2 : ∀ a ∈ Finset.Icc 1 3, ∀ b ∈ Finset.Icc 1 3, (arr' a b).get [i, r, s] =
      ((timeSum B.m F sg ftarg (max (time.getD i 0) B.m.minTime) fun k => (D' a b).get [k, r, s] : ℝ) : ℂ) := by
    intro a ha b hb
    obtain ⟨X, x1, x2⟩ := (g a b ha hb).2.2 i (by rw [(hfq a b).2]; exact hi)
    rw [(hfq a b).2] at x1 x2
    obtain rfl := Except.ok.inj (x1.symm.trans (hD a ha b hb).2.1)
    exact x2 r s (by rw [hrcv', hnr.2.2]; exact hr) (by rw [hsrc', hns.2.2]; exact hs)
  refine (Finset.sum_congr rfl fun a ha => Finset.sum_congr rfl fun b hb => by rw [v2 a ha b hb]).trans
    (Eq.trans ?_ (Finset.sum_congr rfl fun a ha => Finset.sum_congr rfl fun b hb => by rw [v1 a ha b hb]).symm)
  have l1 := timeSum_lin B.m F sg ftarg (max (time.getD i 0) B.m.minTime) (fun a b => turnReal α u a * turnReal α v b)
    fun a b k => (D' a b).get [k, r, s]
  have l2 := timeSum_lin B.m F sg ftarg (max (time.getD i 0) B.m.minTime) (fun a b => u a * v b)
    fun a b k => (D a b).get [k, r, s]
  have l3 := timeSum_congr B.m F sg ftarg (max (time.getD i 0) B.m.minTime)
    (y := fun k => ∑ a ∈ Finset.Icc 1 3, ∑ b ∈ Finset.Icc 1 3, ((turnReal α u a * turnReal α v b : ℝ) : ℂ) *
      (D' a b).get [k, r, s])
    (x := fun k => ∑ a ∈ Finset.Icc 1 3, ∑ b ∈ Finset.Icc 1 3, ((u a * v b : ℝ) : ℂ) * (D a b).get [k, r, s])
    fun k hk => by
      have := hrel (fun a => (u a : ℂ)) (fun a => (v a : ℂ)) k r s (by simpa [needed] using hk) hr hs hne hcl hcl'
      simp only [turnReal_cast] at this
      simpa only [Complex.ofReal_mul] using this
  have := congrArg (fun z : ℝ => (z : ℂ)) ((l1.symm.trans l3).trans l2)
  push_cast at this
  exact this

/-! ## Concrete cases -/

theorem twoBack_time (E : Args.Env) (R : RSpl) : StdTime (twoBack E R) "DLF" [("pts_per_dec", .num 0)] (-1) twoPoint where
  std := twoBack_std E R
  sig := by norm_num
  complete := ⟨_, "cos", rfl, by simp [kindFor], Or.inr rfl, by simp⟩

/-- The marine case at 0.5 s and 4 s, switch-off: with source and receivers exchanged, the magnetic source gives the opposite
sign at 4 s and 3 km. -/
example (E : Args.Env) (R : RSpl) : ∃ arr arr',
    (dipoleTime (ruleBack fun _ g => ∫ lam in Ioi (0 : ℝ), g lam) (twoBack E R) { marineArgs with freq := [0.5, 4] } (.num (-1))
      "DLF" [("pts_per_dec", .num 0)]).val = .ok (NdArray.squeeze arr) ∧
    (dipoleTime (ruleBack fun _ g => ∫ lam in Ioi (0 : ℝ), g lam) (twoBack E R) { marineBack with freq := [0.5, 4] } (.num (-1))
      "DLF" [("pts_per_dec", .num 0)]).val = .ok (NdArray.squeeze arr') ∧
    arr.shape = [2, 3, 1] ∧ arr'.shape = [2, 1, 3] ∧ arr'.get [1, 0, 2] = -arr.get [1, 2, 0] := by
  obtain ⟨arr, arr', h1, h2, h3, h4, h5⟩ := C59_reciprocity (B := ruleBack fun _ g => ∫ lam in Ioi (0 : ℝ), g lam)
    (by norm_num [ruleBack, Mins.init]) (by norm_num [ruleBack, Mins.init]) (by norm_num [ruleBack, Mins.init])
    (by norm_num [ruleBack, Mins.init])
    safe_exact exact_odd (ruleBack_uses _) (twoBack_time E R) (A := { marineArgs with freq := [0.5, 4] })
    (A' := { marineBack with freq := [0.5, 4] }) marine_valid
    ⟨_, .topDown false false (by simp [marineArgs, marine, allDepths]) rfl rfl rfl rfl rfl rfl⟩
    ⟨_, .topDown false false (by simp [marineBack, marineArgs, marine, allDepths]) rfl rfl rfl rfl rfl rfl⟩
    ⟨rfl, rfl⟩ rfl rfl (by simp) (Or.inl (by simp [marineArgs])) (Or.inl (by simp [marineBack, marineArgs]))
    (a := 2) (b := 4) (by norm_num) (by norm_num) rfl rfl (xs := [0]) (ys := [0]) (zs := 950)
    (xr := [1000, 2000, 3000]) (yr := [0]) (zr := 1000) rfl rfl (by simp) (by simp)
    (by simp [numDipoles, marineArgs]) (by simp [numDipoles, marineArgs])
  refine ⟨arr, arr', h1, h2, by simpa [marineArgs, numDipoles] using h3, by simpa [marineArgs, numDipoles] using h4, ?_⟩
  have t0 : thetaOf (bc [1000, 2000, 3000] 2 - bc [0] 0) (bc [0] 2 - bc [0] 0) = 0 := by
    have : ((⟨3000, 0⟩ : ℂ)) = ((3000 : ℝ) : ℂ) := rfl
    simp [thetaOf, bc]
    rw [this]; exact Complex.arg_ofReal_of_nonneg (by norm_num)
  have := h5 1 2 0 (by simp) (by simp [numDipoles, marineArgs]) (by simp [numDipoles, marineArgs]) (Or.inl (by simp [bc]))
    (by rw [t0]; exact clear_zero)
  rw [this]
  simp [recipSign]

/-- The marine case at 0.5 s and 4 s, switch-off, any digital filter for the Hankel transform: turned by one radian. -/
example (E : Args.Env) (R : RSpl) (F : Filter) (junk : ℕ → ℝ) : ∃ arr arr' : ℕ → ℕ → NdArray,
    (∀ a ∈ Finset.Icc 1 3, ∀ b ∈ Finset.Icc 1 3,
      (dipoleTime (dlfBack Mins.init Ops.exact csqrt R F junk) (twoBack E R) { marineNine a b with freq := [0.5, 4] }
        (.num (-1)) "DLF" [("pts_per_dec", .num 0)]).val = .ok (NdArray.squeeze (arr a b)) ∧
      (dipoleTime (dlfBack Mins.init Ops.exact csqrt R F junk) (twoBack E R) { marineRad a b with freq := [0.5, 4] }
        (.num (-1)) "DLF" [("pts_per_dec", .num 0)]).val = .ok (NdArray.squeeze (arr' a b)) ∧
      (arr a b).shape = [2, 3, 1]) ∧
    ∀ u v : ℕ → ℝ, ∑ a ∈ Finset.Icc 1 3, ∑ b ∈ Finset.Icc 1 3,
        (turnReal 1 u a : ℂ) * turnReal 1 v b * (arr' a b).get [1, 2, 0] =
      ∑ a ∈ Finset.Icc 1 3, ∑ b ∈ Finset.Icc 1 3, (u a : ℂ) * v b * (arr a b).get [1, 2, 0] := by
  obtain ⟨arr, arr', h1, h2⟩ := C59_rotation (B := dlfBack Mins.init Ops.exact csqrt R F junk)
    (by norm_num [dlfBack, Mins.init]) (by norm_num [dlfBack, Mins.init]) (by norm_num [dlfBack, Mins.init]) safe_exact
    (C44_dlf _ _ _ _ _ _) (filter_sums F) (twoBack_time E R) marine_valid
    (A := fun a b => { marineNine a b with freq := [0.5, 4] }) (A' := fun a b => { marineRad a b with freq := [0.5, 4] })
    (fun a b => ⟨_, .topDown false false (by simp [marineNine, marineArgs, marine, allDepths]) rfl rfl rfl rfl rfl rfl⟩)
    (fun a b => ⟨_, .topDown false false (by simp [marineRad, marineNine, marineArgs, marine, allDepths]) rfl rfl rfl rfl rfl
      rfl⟩)
    (ta := 3) (tb := 0) (Or.inr rfl) (Or.inl rfl) (fun a _ b _ => ⟨rfl, rfl⟩)
    (xs := [0]) (ys := [0]) (xr := [1000, 2000, 3000]) (yr := [0]) (zs := 950) (zr := 1000)
    (xs' := [0]) (ys' := [0]) (fun _ _ => rfl) (fun _ _ => rfl) (fun _ _ => rfl) (fun _ _ => rfl)
    (time := [0.5, 4]) (fun _ _ => ⟨rfl, rfl⟩) (by simp)
    (fun _ _ => ⟨Or.inl (by simp [marineNine, marineArgs]), Or.inl (by simp [marineRad, marineNine, marineArgs])⟩)
    (xd := some true) (fun _ _ => ⟨rfl, rfl⟩)
    (by simp) (by simp) (by simp) (by simp) (ns := 1) (nr := 3) (by simp [numDipoles]) (by simp [numDipoles]) (α := 1)
    (by intro s _; simp [bc])
    (by intro s hs; interval_cases s <;> simp [bc])
  refine ⟨arr, arr', fun a ha b hb => ⟨(h1 a ha b hb).1, (h1 a ha b hb).2.1, (h1 a ha b hb).2.2.1⟩, fun u v => ?_⟩
  refine h2 u v 1 2 0 (by simp) (by simp) (by simp) (Or.inl (by simp [bc])) ?_ ?_
  · have : thetaOf (bc [1000, 2000, 3000] 2 - bc [0] 0) (bc [0] 2 - bc [0] 0) = 0 := by
      have e1 : bc [1000, 2000, 3000] 2 - bc [0] 0 = 3000 := by simp [bc]
      have e2 : bc [0] 2 - bc [0] 0 = 0 := by simp [bc]
      rw [e1, e2, thetaOf, Complex.arg_eq_zero_iff]
      exact ⟨by norm_num, rfl⟩
    rw [this]; exact clear_zero
  · have : thetaOf (bc [Real.cos 1 * 1000, Real.cos 1 * 2000, Real.cos 1 * 3000] 2 - bc [0] 0)
        (bc [Real.sin 1 * 1000, Real.sin 1 * 2000, Real.sin 1 * 3000] 2 - bc [0] 0) = 1 := by
      refine Eq.trans ?_ rad_theta
      congr 1 <;> simp [bc, mul_comm]
    rw [this]; exact clear_one

/-- The marine case with receivers on the diagonal: the same on the other side, any integration rule. -/
example (E : Args.Env) (R : RSpl) (Q : ℝ → (ℝ → ℂ) → ℂ) : ∃ arr arr',
    (dipoleTime (ruleBack Q) (twoBack E R) { marineDiag with freq := [0.5, 4] } (.num (-1)) "DLF"
      [("pts_per_dec", .num 0)]).val = .ok (NdArray.squeeze arr) ∧
    (dipoleTime (ruleBack Q) (twoBack E R) { marineSide with freq := [0.5, 4] } (.num (-1)) "DLF"
      [("pts_per_dec", .num 0)]).val = .ok (NdArray.squeeze arr') ∧
    arr.shape = [2, 3, 1] ∧ arr'.get [1, 2, 0] = arr.get [1, 2, 0] := by
  obtain ⟨arr, arr', h1, h2, h3, h4, h5⟩ := C59_side (B := ruleBack Q)
    (by norm_num [ruleBack, Mins.init]) (by norm_num [ruleBack, Mins.init]) (by norm_num [ruleBack, Mins.init])
    safe_exact (ruleBack_uses _) (twoBack_time E R) (A := { marineDiag with freq := [0.5, 4] })
    (A' := { marineSide with freq := [0.5, 4] }) marine_valid
    ⟨_, .topDown false false (by simp [marineDiag, marineArgs, marine, allDepths]) rfl rfl rfl rfl rfl rfl⟩
    ⟨_, .topDown false false (by simp [marineSide, marineArgs, marine, allDepths]) rfl rfl rfl rfl rfl rfl⟩
    (xs := [0]) (ys := [0]) (zs := 950)
    (xr := [1000, 2000, 3000]) (yr := [1000, 2000, 3000]) (zr := 1000) rfl rfl rfl rfl rfl rfl
    (a := 1) (b := 1) (by norm_num) (by norm_num) rfl rfl (by simp [sideSign]) (by simp)
    (Or.inl (by simp [marineDiag, marineArgs])) (Or.inl (by simp [marineSide, marineArgs])) (by simp) (by simp)
    (by simp [numDipoles, marineDiag, marineArgs]) (by simp [numDipoles, marineDiag])
  refine ⟨arr, arr', h1, h2, by simpa [marineDiag, marineArgs, numDipoles] using h3, ?_⟩
  rw [h5 1 2 0 (by simp) (by simp [numDipoles, marineDiag]) (by simp [numDipoles, marineDiag, marineArgs]) diag_clear]
  simp [sideSign]

/-- The marine case with the sea water in two layers, from bottom to top, 100 m further east. -/
example (E : Args.Env) (R : RSpl) (Q : ℝ → (ℝ → ℂ) → ℂ) : ∃ arr arr',
    (dipoleTime (ruleBack Q) (twoBack E R) { marineArgs with freq := [0.5, 4] } (.num (-1)) "DLF"
      [("pts_per_dec", .num 0)]).val = .ok (NdArray.squeeze arr) ∧
    (dipoleTime (ruleBack Q) (twoBack E R) { marineTwoArgs with freq := [0.5, 4] } (.num (-1)) "DLF"
      [("pts_per_dec", .num 0)]).val = .ok (NdArray.squeeze arr') ∧
    arr.shape = [2, 3, 1] ∧ arr'.get [1, 2, 0] = arr.get [1, 2, 0] := by
  obtain ⟨arr, arr', h1, h2, h3, h4, h5⟩ := C59_moved (B := ruleBack Q)
    (by norm_num [ruleBack, Mins.init]) (by norm_num [ruleBack, Mins.init]) (by norm_num [ruleBack, Mins.init])
    (by norm_num [ruleBack, Mins.init])
    safe_exact (ruleBack_uses _) (twoBack_time E R) (A := { marineArgs with freq := [0.5, 4] })
    (A' := { marineTwoArgs with freq := [0.5, 4] }) marine_valid marineTwo_valid
    ⟨_, .topDown false false (by simp [marineArgs, marine, allDepths]) rfl rfl rfl rfl rfl rfl⟩
    ⟨_, .bottomUp false false (by simp [marineTwoArgs, marineTwo, allDepths]) (by simp [marineTwo, allDepths])
      (by simp [marineTwo]; norm_num) rfl rfl rfl rfl rfl rfl⟩ (p := 100) (q := 0)
    marineTwo_moved (xs := [0]) (ys := [0]) (zs := 950)
    (xr := [1000, 2000, 3000]) (yr := [0]) (zr := 1000) rfl rfl rfl rfl rfl rfl rfl
    (Or.inr ⟨iff_of_false marine_layered.1 marine_layered.2, iff_of_true marine_same.1 (by simpa using marine_same.2)⟩)
    (by simp) (Or.inl (by simp [marineArgs])) (Or.inl (by simp [marineTwoArgs, marineArgs]))
    (a := 2) (b := 4) (by norm_num) (by norm_num) rfl (by simp) (by simp)
    (by simp [numDipoles, marineArgs]) (by simp [numDipoles, marineArgs])
  exact ⟨arr, arr', h1, h2, by simpa [marineArgs, numDipoles] using h3, h5 1 2 0 (by simp) (by simp [numDipoles, marineArgs])
    (by simp [numDipoles, marineArgs])⟩

theorem marineDown_valid : marineDown.Valid 1e-20 where
  order := by simp [marineDown]
  len := by simp [marineDown]
  lens := by
    intro l h
    simp [marineDown] at h
    simp [h, marineDown]
  rhoH := by
    intro i hi
    simp only [marineDown, List.length_cons, List.length_nil] at hi
    interval_cases i <;> norm_num [UserModel.rhoH, marineDown]
  rhoV := by
    intro i hi
    simp only [marineDown, List.length_cons, List.length_nil] at hi
    interval_cases i <;> norm_num [UserModel.rhoV, UserModel.rhoH, UserModel.val, marineDown]
  aniso := by
    intro i hi
    simp only [marineDown, List.length_cons, List.length_nil] at hi
    interval_cases i <;> norm_num [UserModel.val, marineDown]
  epsH := fun i _ => by norm_num [UserModel.epsH, UserModel.val, marineDown]
  epsV := fun i _ => by norm_num [UserModel.epsV, UserModel.epsH, UserModel.val, marineDown]
  muH := fun i _ => by norm_num [UserModel.muH, UserModel.val, marineDown]
  muV := fun i _ => by norm_num [UserModel.muV, UserModel.muH, UserModel.val, marineDown]

theorem marineDown_mirrored : Mirrored marine marineDown := by
  rintro i j z ⟨i1, i2, i3⟩ ⟨j1, j2, j3⟩
  simp only [marine, marineDown, List.length_cons, List.length_nil] at i1 i2 i3 j1 j2 j3
  interval_cases i <;> interval_cases j <;> simp at i2 i3 j2 j3 <;>
    first
      | (exfalso; linarith)
      | (simp [SameRock, marine, marineDown, UserModel.rhoH, UserModel.rhoV, UserModel.epsH, UserModel.epsV, UserModel.muH,
          UserModel.muV, UserModel.val])

/-- Receivers 10 m above the sea bottom, times 0.5 s and 4 s. -/
noncomputable def marineUp : DipoleArgs :=
  { marineArgs with rcv := [[1000, 2000, 3000], [0], [990]], freq := [0.5, 4], xdirect := some false }

/-- The same upside down. -/
noncomputable def marineUpside : DipoleArgs :=
  { marineUp with
    src := [[0], [0], [-950]]
    rcv := [[1000, 2000, 3000], [0], [-990]]
    depth := some [((-1000 : ℝ) : EReal), ((0 : ℝ) : EReal)]
    res := .array [1, 0.3, 1e8]
    aniso := some [2, 1, 1] }

/-- The marine case upside down: the electric component stays, the magnetic source changes its sign. -/
example (E : Args.Env) (R : RSpl) : ∃ arr arr',
    (dipoleTime (ruleBack fun _ g => ∫ lam in Ioi (0 : ℝ), g lam) (twoBack E R) marineUp (.num (-1)) "DLF"
      [("pts_per_dec", .num 0)]).val = .ok (NdArray.squeeze arr) ∧
    (dipoleTime (ruleBack fun _ g => ∫ lam in Ioi (0 : ℝ), g lam) (twoBack E R) marineUpside (.num (-1)) "DLF"
      [("pts_per_dec", .num 0)]).val = .ok (NdArray.squeeze arr') ∧
    arr.shape = [2, 3, 1] ∧ arr'.get [1, 2, 0] = -arr.get [1, 2, 0] := by
  obtain ⟨arr, arr', h1, h2, h3, h4, h5⟩ := C59_mirror (B := ruleBack fun _ g => ∫ lam in Ioi (0 : ℝ), g lam)
    (by norm_num [ruleBack, Mins.init]) (by norm_num [ruleBack, Mins.init]) (by norm_num [ruleBack, Mins.init])
    (by norm_num [ruleBack, Mins.init])
    safe_exact exact_odd (ruleBack_uses _) (twoBack_time E R) (A := marineUp)
    (A' := marineUpside) marine_valid marineDown_valid
    ⟨_, .topDown false false (by simp [marineUp, marineArgs, marine, allDepths]) rfl rfl rfl rfl rfl rfl⟩
    ⟨_, .topDown false false (by simp [marineUpside, marineDown, allDepths]) rfl rfl rfl rfl rfl rfl⟩
    marineDown_mirrored (xs := [0]) (ys := [0]) (zs := 950)
    (xr := [1000, 2000, 3000]) (yr := [0]) (zr := 990) rfl rfl rfl rfl rfl rfl rfl
    (by norm_num [marine, marineDown]) (Or.inl rfl) (by simp [marineUp])
    (Or.inl (by simp [marineUp, marineArgs])) (Or.inl (by simp [marineUpside, marineUp, marineArgs]))
    (a := 2) (b := 4) (by norm_num) (by norm_num) rfl (by simp) (by simp)
    (by simp [numDipoles, marineUp, marineArgs]) (by simp [numDipoles, marineUp])
  refine ⟨arr, arr', h1, h2, by simpa [marineUp, marineArgs, numDipoles] using h3, ?_⟩
  rw [h5 1 2 0 (by simp [marineUp]) (by simp [numDipoles, marineUp]) (by simp [numDipoles, marineUp, marineArgs])]
  simp [mirrorSign]

/-- The diagonal receivers turned by 90°, `y` dipole and `y` component instead of `x`, any integration rule. -/
example (E : Args.Env) (R : RSpl) (Q : ℝ → (ℝ → ℂ) → ℂ) : ∃ arr arr',
    (dipoleTime (ruleBack Q) (twoBack E R) { marineDiag with freq := [0.5, 4] } (.num (-1)) "DLF"
      [("pts_per_dec", .num 0)]).val = .ok (NdArray.squeeze arr) ∧
    (dipoleTime (ruleBack Q) (twoBack E R) { marineTurn with freq := [0.5, 4] } (.num (-1)) "DLF"
      [("pts_per_dec", .num 0)]).val = .ok (NdArray.squeeze arr') ∧
    arr.shape = [2, 3, 1] ∧ arr'.get [1, 2, 0] = arr.get [1, 2, 0] := by
  obtain ⟨arr, arr', h1, h2, h3, h4, h5⟩ := C59_turn (B := ruleBack Q)
    (by norm_num [ruleBack, Mins.init]) (by norm_num [ruleBack, Mins.init]) (by norm_num [ruleBack, Mins.init])
    safe_exact (ruleBack_uses _) (twoBack_time E R) (A := { marineDiag with freq := [0.5, 4] })
    (A' := { marineTurn with freq := [0.5, 4] }) marine_valid
    ⟨_, .topDown false false (by simp [marineDiag, marineArgs, marine, allDepths]) rfl rfl rfl rfl rfl rfl⟩
    ⟨_, .topDown false false (by simp [marineTurn, marineArgs, marine, allDepths]) rfl rfl rfl rfl rfl rfl⟩
    (xs := [0]) (ys := [0]) (zs := 950)
    (xr := [1000, 2000, 3000]) (yr := [1000, 2000, 3000]) (zr := 1000) rfl rfl rfl rfl rfl rfl
    (a := 1) (b := 1) (by norm_num) (by norm_num) rfl rfl (by simp [sideSign, swapSign]) (by simp)
    (Or.inl (by simp [marineDiag, marineArgs])) (Or.inl (by simp [marineTurn, marineArgs])) (by simp) (by simp)
    (by simp [numDipoles, marineDiag, marineArgs]) (by simp [numDipoles, marineDiag])
  refine ⟨arr, arr', h1, h2, by simpa [marineDiag, marineArgs, numDipoles] using h3, ?_⟩
  rw [h5 1 2 0 (by simp) (by simp [numDipoles, marineDiag]) (by simp [numDipoles, marineDiag, marineArgs])
    (Or.inl (by simp [bc])) diag_clear]
  simp [turnSign]

/-- The axes exchanged, integrated exactly: the sign of the response to the magnetic dipole changes. -/
example (E : Args.Env) (R : RSpl) : ∃ arr arr',
    (dipoleTime (ruleBack fun _ g => ∫ lam in Ioi (0 : ℝ), g lam) (twoBack E R) { marineArgs with freq := [0.5, 4] } (.num (-1))
      "DLF" [("pts_per_dec", .num 0)]).val = .ok (NdArray.squeeze arr) ∧
    (dipoleTime (ruleBack fun _ g => ∫ lam in Ioi (0 : ℝ), g lam) (twoBack E R) { marineY with freq := [0.5, 4] } (.num (-1))
      "DLF" [("pts_per_dec", .num 0)]).val = .ok (NdArray.squeeze arr') ∧
    arr.shape = [2, 3, 1] ∧ arr'.get [1, 2, 0] = -arr.get [1, 2, 0] := by
  obtain ⟨arr, arr', h1, h2, h3, h4, h5⟩ := C59_swap (B := ruleBack fun _ g => ∫ lam in Ioi (0 : ℝ), g lam)
    (by norm_num [ruleBack, Mins.init]) (by norm_num [ruleBack, Mins.init]) (by norm_num [ruleBack, Mins.init])
    safe_exact (ruleBack_uses _) (twoBack_time E R) (A := { marineArgs with freq := [0.5, 4] })
    (A' := { marineY with freq := [0.5, 4] }) marine_valid
    ⟨_, .topDown false false (by simp [marineArgs, marine, allDepths]) rfl rfl rfl rfl rfl rfl⟩
    ⟨_, .topDown false false (by simp [marineY, marineArgs, marine, allDepths]) rfl rfl rfl rfl rfl rfl⟩
    (xs := [0]) (ys := [0]) (zs := 950)
    (xr := [1000, 2000, 3000]) (yr := [0]) (zr := 1000) rfl rfl rfl rfl rfl rfl
    (a := 2) (b := 4) (by norm_num) (by norm_num) rfl rfl (Or.inr exact_odd) (by simp)
    (Or.inl (by simp [marineArgs])) (Or.inl (by simp [marineY, marineArgs])) (by simp) (by simp)
    (by simp [numDipoles, marineArgs]) (by simp [numDipoles, marineArgs])
  refine ⟨arr, arr', h1, h2, by simpa [marineArgs, numDipoles] using h3, ?_⟩
  have t0 : thetaOf (bc [1000, 2000, 3000] 2 - bc [0] 0) (bc [0] 2 - bc [0] 0) = 0 := by
    have : ((⟨3000, 0⟩ : ℂ)) = ((3000 : ℝ) : ℂ) := rfl
    simp [thetaOf, bc]
    rw [this]; exact Complex.arg_ofReal_of_nonneg (by norm_num)
  rw [h5 1 2 0 (by simp) (by simp [numDipoles, marineArgs]) (by simp [numDipoles, marineArgs])
    (Or.inl (by simp [bc])) (by rw [t0]; exact clear_zero)]
  norm_num [swapSign]

end Verif.Props
