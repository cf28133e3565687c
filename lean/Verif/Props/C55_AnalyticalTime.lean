import Verif.Props.C55_Analytical
import Verif.Props.C35_Airwave

/-!
# C55: `analytical` in the time domain

The responses in the time domain and in the frequency domain belong to the same field: impulse responses and frequency
responses are Laplace transforms of each other, step responses are integrals of impulse responses, switch-off responses
are differences of switch-on responses.
-/

namespace Verif.Props
open Verif.Py Verif.Utils Verif.Kernel Verif.Model Verif.Spec Verif.Lemmas Filter Topology

/-- The setting: permittivity zero, electric components, coordinates which fit, at least one source and receiver; the
depth below the surface of the source and the receiver do not cancel. -/
structure DiffRequest (m : Mins) (A : AnaArgs) (U : UserModel) (a b : ℕ) (xs ys xr yr : List ℝ) (zs zr : ℝ) : Prop where
  valid : U.Valid m.minRes
  desc : Describes (anaDipole A) U
  epsH : U.epsH 0 = 0
  epsV : U.epsV 0 = 0
  ha : 1 ≤ a ∧ a ≤ 3
  hb : 1 ≤ b ∧ b ≤ 3
  ab : toInt A.ab = .ok (10 * a + b)
  src : A.src = [xs, ys, [zs]]
  rcv : A.rcv = [xr, yr, [zr]]
  lens : xs.length = ys.length ∨ xs.length = 1 ∨ ys.length = 1
  lenr : xr.length = yr.length ∨ xr.length = 1 ∨ yr.length = 1
  nsrc : 0 < numDipoles A.src
  nrec : 0 < numDipoles A.rcv

/-- The array returned for these frequencies or times, this signal and this solution. -/
def Returns (Bes : Halfspace.Bessel) (T : Time.FBack) (m : Mins) (sqrt : ℂ → ℂ) (junk : ℕ → ℝ) (K : Hooks) (A : AnaArgs)
    (ft : List ℝ) (sig : Option ℝ) (sol : String) (arr : NdArray) : Prop :=
  (analyticalFull Bes T m sqrt junk K
    { A with freqtime := ft, isList := false, signal := sig.map .num, solution := sol }).val =
      .ok (if A.squeeze then arr.squeeze else arr) ∧
  arr.shape = [ft.length, numDipoles A.rcv, numDipoles A.src]

theorem describes_args {A : AnaArgs} {U : UserModel} (h : Describes (anaDipole A) U) (l : List ℝ) (b : Bool)
    (g : Option Time.Signal) (sol : String) :
    Describes (anaDipole { A with freqtime := l, isList := b, signal := g, solution := sol }) U := by
  obtain ⟨k, h⟩ := h
  refine ⟨k, ?_⟩
  cases h with
  | topDown lo hi h1 h2 h3 h4 h5 h6 h7 => exact .topDown lo hi h1 h2 h3 h4 h5 h6 h7
  | bottomUp lo hi h1 h2 h3 h4 h5 h6 h7 h8 h9 => exact .bottomUp lo hi h1 h2 h3 h4 h5 h6 h7 h8 h9

/-- Position of the pair `(r, s)`, and the medium. -/
noncomputable def pairPos (m : Mins) (U : UserModel) (xs ys xr yr : List ℝ) (zs zr : ℝ) (r s : ℕ) : Halfspace.Pos :=
  ⟨rhoOf m.minOff (bc xr r - bc xs s) (bc yr r - bc ys s), thetaOf (bc xr r - bc xs s) (bc yr r - bc ys s), zs, zr,
    U.rhoH 0, UserModel.val U.aniso 1 0⟩

theorem pair_regular {m : Mins} (hm : 0 < m.minRes) (hof : 0 < m.minOff) {A : AnaArgs} {U : UserModel} {a b : ℕ}
    {xs ys xr yr : List ℝ} {zs zr : ℝ} (h : DiffRequest m A U a b xs ys xr yr zs zr) (r s : ℕ) :
    Regular (pairPos m U xs ys xr yr zs zr r s) :=
  ⟨lt_max_of_lt_right hof, lt_of_lt_of_le hm (h.valid.rhoH 0 (by omega)), h.valid.aniso 0 (by omega)⟩

theorem freq_entries (Bes : Halfspace.Bessel) (T : Time.FBack) {m : Mins} (hm : 0 < m.minRes) (sqrt : ℂ → ℂ)
    (junk : ℕ → ℝ) (K : Hooks) {A : AnaArgs} {U : UserModel} {a b : ℕ} {xs ys xr yr : List ℝ} {zs zr : ℝ}
    (h : DiffRequest m A U a b xs ys xr yr zs zr) {sol : String} (hsol : sol = "dfs" ∨ sol = "dhs") {fs : List ℝ}
    (hfs : fs ≠ []) :
    ∃ arr, Returns Bes T m sqrt junk K A fs none sol arr ∧ ∀ (f r s : ℕ) (hf : f < fs.length), r < numDipoles A.rcv →
      s < numDipoles A.src → arr.get [f, r, s] = (outList (Halfspace.halfspaceFreq Bes
        (pairPos m U xs ys xr yr zs zr r s) (10 * a + b) sol (sParam m.minFreq fs fs[f]))).getD 0 0 := by
  have hd : sol ∈ diffusive := by rcases hsol with rfl | rfl <;> simp [diffusive]
  have ht : tupleOf sol = none := by rcases hsol with rfl | rfl <;> simp [tupleOf]
  obtain ⟨e, d1, d2⟩ := diff_at Bes T hm sqrt junk K
    (A := { A with freqtime := fs, isList := false, signal := none, solution := sol }) h.valid (describes_args h.desc _ _ _ _)
    hd (fun _ => rfl) (time := fs) rfl hfs trivial h.ha h.hb h.ab h.src h.rcv h.lens h.lenr h.nsrc h.nrec
  refine ⟨stack sol fs.length (numDipoles A.rcv) (numDipoles A.src) e,
    ⟨d1, (stack_whole ht _ _ _ e (f := 0) h.nrec h.nsrc).1⟩, fun f r s hf hr hs => ?_⟩
  refine (stack_whole ht _ _ _ e (f := f) hr hs).2.trans ?_
  rw [(d2 f r s hf hr hs).1 rfl]
  simp only [firstMedium_dc hm h.valid h.epsH h.epsV, pairPos]

theorem time_entries (Bes : Halfspace.Bessel) (T : Time.FBack) {m : Mins} (hm : 0 < m.minRes) (sqrt : ℂ → ℂ)
    (junk : ℕ → ℝ) (K : Hooks) {A : AnaArgs} {U : UserModel} {a b : ℕ} {xs ys xr yr : List ℝ} {zs zr : ℝ}
    (h : DiffRequest m A U a b xs ys xr yr zs zr) {sol : String} (hsol : sol = "dfs" ∨ sol = "dhs") {ts : List ℝ}
    (hts : ts ≠ []) {q : ℝ} (hq : -2 < q ∧ q < 2) :
    ∃ arr, Returns Bes T m sqrt junk K A ts (some q) sol arr ∧ ∀ (f r s : ℕ) (hf : f < ts.length), r < numDipoles A.rcv →
      s < numDipoles A.src → arr.get [f, r, s] = (((outList (Halfspace.halfspaceTime Bes
        (pairPos m U xs ys xr yr zs zr r s) (10 * a + b) (signalCode (.num q)) sol
        (max ts[f] m.minTime))).getD 0 0 : ℝ) : ℂ) := by
  have hd : sol ∈ diffusive := by rcases hsol with rfl | rfl <;> simp [diffusive]
  have ht : tupleOf sol = none := by rcases hsol with rfl | rfl <;> simp [tupleOf]
  obtain ⟨e, d1, d2⟩ := diff_at Bes T hm sqrt junk K
    (A := { A with freqtime := ts, isList := false, signal := some (.num q), solution := sol }) h.valid
    (describes_args h.desc _ _ _ _) hd (fun _ => rfl) (time := ts.map (cut m.minTime))
    (by rw [time_num (s := q) _ _ _ rfl, if_pos hq]) (by simpa using hts) hq h.ha h.hb h.ab h.src h.rcv h.lens h.lenr h.nsrc h.nrec
  rw [List.length_map] at d1
  refine ⟨stack sol ts.length (numDipoles A.rcv) (numDipoles A.src) e,
    ⟨d1, (stack_whole ht _ _ _ e (f := 0) h.nrec h.nsrc).1⟩, fun f r s hf hr hs => ?_⟩
  refine (stack_whole ht _ _ _ e (f := f) hr hs).2.trans ?_
  rw [(d2 f r s (by simpa using hf) hr hs).2 _ rfl]
  have hc : ∀ x, cut m.minTime x = max x m.minTime := fun x => by
    unfold cut
    split_ifs with hx
    · exact (max_eq_right hx.le).symm
    · exact (max_eq_left (not_lt.1 hx)).symm
  simp only [firstMedium_dc hm h.valid h.epsH h.epsV, pairPos, List.getElem_map, hc, List.getD_eq_getElem?_getD,
    List.getElem?_map]
  cases (outList _)[0]? <;> simp

/-- **C55, impulse responses.**  For every homogeneous medium without displacement currents, all coordinates (for the
half-space: not both on the surface) and electric components, both for the full-space and the half-space: there is one
function of time for each pair of source and receiver such that every call with `signal=0` returns its values at the times
asked for (raised to the minimum time), and every call in the frequency or Laplace domain returns its Laplace transform at
the frequencies asked for. -/
theorem C55_impulse {Bes : Halfspace.Bessel} (hB : Scaled Bes) (T : Time.FBack) {m : Mins} (hm : 0 < m.minRes)
    (hfr : 0 < m.minFreq) (hof : 0 < m.minOff) (sqrt : ℂ → ℂ) (junk : ℕ → ℝ) (K : Hooks) {A : AnaArgs} {U : UserModel}
    {a b : ℕ} {xs ys xr yr : List ℝ} {zs zr : ℝ} (h : DiffRequest m A U a b xs ys xr yr zs zr) {sol : String}
    (hsol : sol = "dfs" ∨ (sol = "dhs" ∧ zs + zr ≠ 0)) :
    ∃ w : ℕ → ℕ → ℝ → ℝ,
      (∀ ts ≠ [], ∃ arr, Returns Bes T m sqrt junk K A ts (some 0) sol arr ∧ ∀ (f r s : ℕ) (hf : f < ts.length),
        r < numDipoles A.rcv → s < numDipoles A.src → arr.get [f, r, s] = (w r s (max ts[f] m.minTime) : ℂ)) ∧
      ∀ fs ≠ [], ∃ arr, Returns Bes T m sqrt junk K A fs none sol arr ∧ ∀ (f r s : ℕ) (hf : f < fs.length),
        r < numDipoles A.rcv → s < numDipoles A.src →
        Transforms (w r s) (sParam m.minFreq fs fs[f]) (arr.get [f, r, s]) := by
  have hs' : sol = "dfs" ∨ sol = "dhs" := hsol.imp_right And.left
  refine ⟨fun r s t => (outList (Halfspace.halfspaceTime Bes (pairPos m U xs ys xr yr zs zr r s) (10 * a + b) 0 sol
    t)).getD 0 0, fun ts hts => ?_, fun fs hfs => ?_⟩
  · obtain ⟨arr, h1, h2⟩ := time_entries Bes T hm sqrt junk K h hs' hts (q := 0) (by norm_num)
    have e : signalCode (.num 0) = 0 := by simp [signalCode]
    rw [e] at h2
    exact ⟨arr, h1, h2⟩
  · obtain ⟨arr, h1, h2⟩ := freq_entries Bes T hm sqrt junk K h hs' hfs
    refine ⟨arr, h1, fun f r s hf hr hs => ?_⟩
    rw [h2 f r s hf hr hs]
    obtain ⟨s0, sre⟩ := sParam_spec hfr fs fs[f]
    have hreg := pair_regular hm hof h r s
    rcases hsol with rfl | ⟨rfl, hz⟩
    · exact (C35_laplace_partial Bes hreg (10 * a + b) sre s0).2.2.1
    · have hd : 0 < (pairPos m U xs ys xr yr zs zr r s).hp := by
        simp only [Halfspace.Pos.hp, pairPos]
        exact abs_pos.2 (by rwa [add_comm])
      obtain ⟨w, v, g1, g2, g3⟩ := C35_laplace hB hreg hd (10 * a + b) sre s0
      rw [g2]
      simp only [g1, outList]
      exact g3

/-- **C55, switching on and off, full-space.**  There is one function of time for each pair of source and receiver such
that every call with `signal=1` returns its values at the times asked for; it starts from zero and its derivative is the
response to an impulse: every call with `signal=0` returns the values of the derivative.  Every call with `signal=-1`
returns the difference to the value at `1e4` s. -/
theorem C55_step (Bes : Halfspace.Bessel) (T : Time.FBack) {m : Mins} (hm : 0 < m.minRes) (hof : 0 < m.minOff)
    (hti : 0 < m.minTime) (sqrt : ℂ → ℂ) (junk : ℕ → ℝ) (K : Hooks) {A : AnaArgs} {U : UserModel} {a b : ℕ}
    {xs ys xr yr : List ℝ} {zs zr : ℝ} (h : DiffRequest m A U a b xs ys xr yr zs zr) :
    ∃ w : ℕ → ℕ → ℝ → ℝ, (∀ r s, Tendsto (w r s) (𝓝[>] 0) (𝓝 0)) ∧ ∀ ts ≠ [], ∃ imp on off : NdArray,
      Returns Bes T m sqrt junk K A ts (some 0) "dfs" imp ∧ Returns Bes T m sqrt junk K A ts (some 1) "dfs" on ∧
      Returns Bes T m sqrt junk K A ts (some (-1)) "dfs" off ∧
      ∀ (f r s : ℕ) (hf : f < ts.length), r < numDipoles A.rcv → s < numDipoles A.src →
        on.get [f, r, s] = (w r s (max ts[f] m.minTime) : ℂ) ∧
        (∃ d : ℝ, imp.get [f, r, s] = (d : ℂ) ∧ HasDerivAt (w r s) d (max ts[f] m.minTime)) ∧
        off.get [f, r, s] = (w r s 1e4 : ℂ) - on.get [f, r, s] := by
  refine ⟨fun r s t => (Halfspace.partsTime Bes (pairPos m U xs ys xr yr zs zr r s) (10 * a + b) true t).direct,
    fun r s => (C35_step_partial Bes (pair_regular hm hof h r s) _).2.1, fun ts hts => ?_⟩
  obtain ⟨imp, i1, i2⟩ := time_entries Bes T hm sqrt junk K h (Or.inl rfl) hts (q := 0) (by norm_num)
  obtain ⟨on, o1, o2⟩ := time_entries Bes T hm sqrt junk K h (Or.inl rfl) hts (q := 1) (by norm_num)
  obtain ⟨off, f1, f2⟩ := time_entries Bes T hm sqrt junk K h (Or.inl rfl) hts (q := -1) (by norm_num)
  have e0 : signalCode (.num 0) = 0 := by simp [signalCode]
  have e1 : signalCode (.num 1) = 1 := by norm_num [signalCode]
  have e2 : signalCode (.num (-1)) = -1 := by simp [signalCode]
  rw [e0] at i2
  rw [e1] at o2
  rw [e2] at f2
  have v0 : ∀ p ab t, (outList (Halfspace.halfspaceTime Bes p ab 0 "dfs" t)).getD 0 0 =
      (Halfspace.partsTime Bes p ab false t).direct := fun p ab t => by
    simp [Halfspace.halfspaceTime, Halfspace.Parts.out, outList]
  have v1 : ∀ p ab t, (outList (Halfspace.halfspaceTime Bes p ab 1 "dfs" t)).getD 0 0 =
      (Halfspace.partsTime Bes p ab true t).direct := fun p ab t => by
    simp [Halfspace.halfspaceTime, Halfspace.Parts.out, outList]
  have v2 : ∀ p ab t, (outList (Halfspace.halfspaceTime Bes p ab (-1) "dfs" t)).getD 0 0 =
      (Halfspace.partsTime Bes p ab true 1e4).direct - (Halfspace.partsTime Bes p ab true t).direct := fun p ab t => by
    simp [Halfspace.halfspaceTime, Halfspace.Parts.out, Halfspace.Parts.sub, outList]
  refine ⟨imp, on, off, i1, o1, f1, fun f r s hf hr hs => ⟨?_, ⟨_, i2 f r s hf hr hs, ?_⟩, ?_⟩⟩
  · rw [o2 f r s hf hr hs, v1]
  · rw [v0]
    exact ((C35_step_partial Bes (pair_regular hm hof h r s) _).1 _ (lt_max_of_lt_right hti)).1
  · rw [f2 f r s hf hr hs, o2 f r s hf hr hs, v1, v2]
    push_cast; rfl

/-! ## Concrete case -/

theorem land_diffusive : DiffRequest Mins.init (landArgs (some [0])) (land (some [0])) 3 3 [0] [0] [1000, 2000] [0] 100
    100 where
  valid := land_valid (Or.inr rfl)
  desc := land_describes _
  epsH := by simp [land, UserModel.epsH, UserModel.val]
  epsV := by simp [land, UserModel.epsV, UserModel.epsH, UserModel.val]
  ha := by omega
  hb := by omega
  ab := rfl
  src := rfl
  rcv := rfl
  lens := by simp
  lenr := by simp
  nsrc := by simp [numDipoles, landArgs]
  nrec := by simp [numDipoles, landArgs]

/-- The half-space response of the second receiver at 1 s and its Laplace transform at `s = 3`. -/
example {Bes : Halfspace.Bessel} (hB : Scaled Bes) (T : Time.FBack) : ∃ (w : ℝ → ℝ) (arr lap : NdArray),
    Returns Bes T Mins.init csqrt (fun _ => 0) ⟨none, none⟩ (landArgs (some [0])) [1] (some 0) "dhs" arr ∧
    Returns Bes T Mins.init csqrt (fun _ => 0) ⟨none, none⟩ (landArgs (some [0])) [-3] none "dhs" lap ∧
    arr.get [0, 1, 0] = (w 1 : ℂ) ∧ Transforms w 3 (lap.get [0, 1, 0]) := by
  obtain ⟨m1, m2, m3⟩ := land_mins
  obtain ⟨w, h1, h2⟩ := C55_impulse hB T m1 m2 m3 csqrt (fun _ => 0) ⟨none, none⟩ land_diffusive
    (sol := "dhs") (Or.inr ⟨rfl, by norm_num⟩)
  obtain ⟨arr, a1, a2⟩ := h1 [1] (by simp)
  obtain ⟨lap, l1, l2⟩ := h2 [-3] (by simp)
  have a2 := a2 0 1 0 (by simp) (by simp [numDipoles, landArgs]) (by simp [numDipoles, landArgs])
  have l2 := l2 0 1 0 (by simp) (by simp [numDipoles, landArgs]) (by simp [numDipoles, landArgs])
  have n : ¬ ∃ g ∈ ([-3] : List ℝ), 0 < g := by simp
  have e : ∀ n0 : ℝ, n0 ≤ 3 → sParam n0 [-3] (-3) = 3 := fun n0 h => by
    rw [sParam, if_neg n, neg_neg, max_eq_left h]; norm_num
  have t : ∀ n0 : ℝ, n0 ≤ 1 → max 1 n0 = 1 := fun n0 h => max_eq_left h
  refine ⟨w 1 0, arr, lap, a1, l1, ?_, ?_⟩
  · rw [a2]; simp only [List.getElem_cons_zero]; rw [t _ (by norm_num [Mins.init])]
  · simp only [List.getElem_cons_zero] at l2
    rwa [e _ (by norm_num [Mins.init])] at l2

/-- Switching on, at 1 s and 2 s. -/
example (Bes : Halfspace.Bessel) (T : Time.FBack) : ∃ (w : ℝ → ℝ) (on : NdArray), Tendsto w (𝓝[>] 0) (𝓝 0) ∧
    Returns Bes T Mins.init csqrt (fun _ => 0) ⟨none, none⟩ (landArgs (some [0])) [1, 2] (some 1) "dfs" on ∧
    on.get [1, 1, 0] = (w 2 : ℂ) := by
  obtain ⟨m1, m2, m3⟩ := land_mins
  obtain ⟨w, h1, h2⟩ := C55_step Bes T m1 m3 (by norm_num [Mins.init]) csqrt (fun _ => 0) ⟨none, none⟩ land_diffusive
  obtain ⟨imp, on, off, _, o1, _, o2⟩ := h2 [1, 2] (by simp)
  have o2 := (o2 1 1 0 (by simp) (by simp [numDipoles, landArgs]) (by simp [numDipoles, landArgs])).1
  have t : ∀ n0 : ℝ, n0 ≤ 2 → max 2 n0 = 2 := fun n0 h => max_eq_left h
  refine ⟨w 1 0, on, h1 1 0, o1, ?_⟩
  rw [o2]
  simp only [List.getElem_cons_succ, List.getElem_cons_zero]
  rw [t _ (by norm_num [Mins.init])]

end Verif.Props
