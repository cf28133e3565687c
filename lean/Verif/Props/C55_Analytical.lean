import Verif.Model.AnalyticalFull
import Verif.Props.C22_Signals
import Verif.Props.C35_Analytical
import Verif.Props.C36_XdirectDipole
import Verif.Props.C54_DipoleK

/-!
# C55: `analytical` from its arguments
-/

namespace Verif.Props
open Verif.Py Verif.Py.W Verif.Utils Verif.Kernel Verif.Model Verif.Spec Verif.Lemmas

/-- The call of `dipole` which belongs to a call of `analytical`: no interfaces. -/
def anaDipole (A : AnaArgs) : DipoleArgs where
  src := A.src
  rcv := A.rcv
  depth := some []
  res := A.res
  freq := A.freqtime
  ab := A.ab
  aniso := A.aniso
  epermH := A.epermH
  epermV := A.epermV
  mpermH := A.mpermH
  mpermV := A.mpermV
  xdirect := some true
  loop := none
  squeeze := A.squeeze
  verb := A.verb

theorem bind_okE {α β : Type} (a : α) (f : α → Except PyErr β) : (Except.ok a : Except PyErr α).bind f = f a := rfl

theorem bindE_ok {α β : Type} {x : Except PyErr α} {f : α → Except PyErr β} {b : β} (h : x.bind f = .ok b) :
    ∃ a, x = .ok a ∧ f a = .ok b := by
  cases x with
  | error e => cases h
  | ok a => exact ⟨a, rfl, h⟩

theorem checkDepth_nil : (checkDepth (some [])).val = .ok ([⊥], false) := by
  rw [checkDepth_val]
  simp [normDepth]

theorem layerOf_bot (z : ℝ) : layerOf [⊥] z = 0 := by
  simp [layerOf, getLayerNr, bounds, List.zipIdx]

theorem len_one {l : List ℝ} (h : l.length = 1) : ∀ x ∈ l, ∀ y ∈ l, x = y := by
  obtain ⟨a, rfl⟩ := List.length_eq_one_iff.1 h
  simp

/-- What `check_model` returns for a model without interfaces. -/
theorem ana_model {m : Mins} {A : AnaArgs} {mo : ModelOut}
    (h : (checkModel m (some []) A.res A.aniso A.epermH A.epermV A.mpermH A.mpermV (some true) A.verb).val = .ok mo) :
    LenOK 1 A.res A.aniso A.epermH A.epermV A.mpermH A.mpermV ∧
    mo = modelVal m [⊥] false A.res A.aniso A.epermH A.epermV A.mpermH A.mpermV := by
  rw [checkModel_val, checkDepth_nil] at h
  simp only [List.length_singleton] at h
  split_ifs at h with hl
  exact ⟨hl, (Except.ok.inj h).symm⟩

theorem inpVal_len {n : ℕ} {mn : Option ℝ} {o : Option (List ℝ)} (h : lenOK n o) : (inpVal n mn o).length = n := by
  cases o with
  | none => simp [inpVal]
  | some v => cases mn <;> simp [inpVal, h v rfl]

theorem anisoVal_len {n : ℕ} {r : List ℝ} {mn : ℝ} {o : Option (List ℝ)} (hr : r.length = n) (h : lenOK n o) :
    (anisoVal n r mn o).length = n := by
  cases o with
  | none => simp [anisoVal]
  | some v => simp [anisoVal, h v rfl, hr]

/-- Without interfaces and without a dictionary the model is a fullspace. -/
theorem ana_fullspace {m : Mins} {res : ResArg} {aniso epermH epermV mpermH mpermV : Option (List ℝ)}
    (h : LenOK 1 res aniso epermH epermV mpermH mpermV) (hr : ResArg.extra res = none) :
    (modelVal m [⊥] false res aniso epermH epermV mpermH mpermV).isfullspace = true := by
  obtain ⟨h1, h2, h3, h4, h5, h6, -⟩ := h
  have k : ∀ {l : List ℝ}, l.length = 1 → allSame l = true := fun h => (allSame_iff _).2 (len_one h)
  have r1 : ((ResArg.res res).map (cut m.minRes)).length = 1 := by simpa using h1
  simp only [modelVal, hr, Option.isNone_none, Bool.true_and, rev, List.length_singleton]
  have v1 : (if epermV = none then inpVal 1 (some 0) epermH else inpVal 1 (some 0) epermV).length = 1 := by
    split_ifs
    · exact inpVal_len h3
    · exact inpVal_len h4
  have v2 : (if mpermV = none then inpVal 1 (some 0) mpermH else inpVal 1 (some 0) mpermV).length = 1 := by
    split_ifs
    · exact inpVal_len h5
    · exact inpVal_len h6
  simp only [Bool.false_eq_true, if_false]
  rw [k r1, k (anisoVal_len r1 h2), k (inpVal_len h3), k (inpVal_len h5), k v1, k v2]
  rfl

/-- The field of a fullspace in `dipole`. -/
theorem fem_full {B : Back} {A : DipoleArgs} {mo : ModelOut} {fo : FreqOut} {c : ℕ × Bool × Bool}
    {src rcv : List ℝ × List ℝ × ℝ} (hx : A.xdirect = some true) (hf : mo.isfullspace = true) :
    (femOf B A mo fo c src rcv).val = fun i j => if c.1 ≠ 36 then
      (Fullspace.fullspace B.sqrt ((rowsOf mo.depth fo).map (medAt (layerOf mo.depth rcv.2.2)))
        ((getOffAng B.m (src.1.getD · 0) (src.2.1.getD · 0) (rcv.1.getD · 0) (rcv.2.1.getD · 0)
          src.1.length rcv.1.length B.junk B.junk).1 j)
        ((getOffAng B.m (src.1.getD · 0) (src.2.1.getD · 0) (rcv.1.getD · 0) (rcv.2.1.getD · 0)
          src.1.length rcv.1.length B.junk B.junk).2 j) src.2.2 rcv.2.2 c.1 c.2.1 c.2.2).getD i 0 else 0 := by
  funext i j
  by_cases h36 : c.1 = 36
  · simp [femOf, fem, h36]
  · simp [femOf, fem, h36, hx, hf]

theorem tail_val (B : Back) (A : DipoleArgs) (mo : ModelOut) (fo : FreqOut) :
    (dipoleTail B A inFreq mo fo).val = (checkAb A.ab).bind fun c => (checkDipole A.src).bind fun src =>
      (checkDipole A.rcv).bind fun rcv => if rcv.1.length * src.1.length = 0 then .error .valueError else
        .ok (reshapeF fo.freq.length rcv.1.length src.1.length (femOf B A mo fo c src rcv).val) := by
  unfold dipoleTail
  simp only [bind_val, Model.ofExcept, say_val, inFreq, pure_val]
  congr 1; funext c; congr 1; funext src; congr 1; funext rcv
  simp only [Except.bind]
  split_ifs <;> rfl

/-- The steps of `analytical`. -/
theorem ana_val (Bes : Halfspace.Bessel) (T : Time.FBack) (m : Mins) (sqrt : ℂ → ℂ) (junk : ℕ → ℝ) (K : Hooks) (A : AnaArgs) :
    (analyticalArr Bes T m sqrt junk K A).val = (anaTime T m A).val.bind fun time =>
      (checkModel m (some []) A.res A.aniso A.epermH A.epermV A.mpermH A.mpermV (some true) A.verb).val.bind fun mo =>
      (checkFrequency m time mo.res mo.aniso mo.epermH mo.epermV mo.mpermH mo.mpermV A.verb).val.bind fun fo =>
      (K.run mo fo).bind fun fo => (checkAb A.ab).bind fun c => (checkDipole A.src).bind fun src =>
      (checkDipole A.rcv).bind fun rcv => anaField Bes sqrt m junk A time mo fo c src rcv := by
  unfold analyticalArr
  simp only [bind_val, Model.ofExcept]

/-- The array of the complete fullspace. -/
theorem fs_field (Bes : Halfspace.Bessel) (sqrt : ℂ → ℂ) (m : Mins) (junk : ℕ → ℝ) {A : AnaArgs} (time : List ℝ)
    {mo : ModelOut} {fo : FreqOut} (c : ℕ × Bool × Bool) (src rcv : List ℝ × List ℝ × ℝ)
    (hs : A.solution = "fs") (hg : A.signal = none) :
    anaField Bes sqrt m junk A time mo fo c src rcv = if rcv.1.length * src.1.length = 0 then .error .valueError else
      .ok (reshapeF fo.freq.length rcv.1.length src.1.length fun i j => if c.1 ≠ 36 then
      (Fullspace.fullspace sqrt ((rowsOf mo.depth fo).map (medAt 0))
        ((getOffAng m (src.1.getD · 0) (src.2.1.getD · 0) (rcv.1.getD · 0) (rcv.2.1.getD · 0)
          src.1.length rcv.1.length junk junk).1 j)
        ((getOffAng m (src.1.getD · 0) (src.2.1.getD · 0) (rcv.1.getD · 0) (rcv.2.1.getD · 0)
          src.1.length rcv.1.length junk junk).2 j) src.2.2 rcv.2.2 c.1 c.2.1 c.2.2).getD i 0 else 0) := by
  have hc : Halfspace.checkSolution "fs" none c.2.1 c.2.2 = .ok () := by simp [Halfspace.checkSolution]
  unfold anaField
  rw [hg, hs]
  simp only [Option.map_none, hc]
  change ((anaEntries Bes sqrt m junk A time mo fo c src rcv).bind _) = _
  have he : ∃ e, anaEntries Bes sqrt m junk A time mo fo c src rcv = .ok e ∧ ∀ i r s, (e i r s).getD 0 0 =
      if c.1 ≠ 36 then (Fullspace.fullspace sqrt ((rowsOf mo.depth fo).map (medAt 0))
        ((getOffAng m (src.1.getD · 0) (src.2.1.getD · 0) (rcv.1.getD · 0) (rcv.2.1.getD · 0)
          src.1.length rcv.1.length junk junk).1 (s * rcv.1.length + r))
        ((getOffAng m (src.1.getD · 0) (src.2.1.getD · 0) (rcv.1.getD · 0) (rcv.2.1.getD · 0)
          src.1.length rcv.1.length junk junk).2 (s * rcv.1.length + r)) src.2.2 rcv.2.2 c.1 c.2.1 c.2.2).getD i 0
        else 0 := by
    unfold anaEntries
    cases hl : (rowsOf mo.depth fo).map (medAt 0) with
    | nil =>
      refine ⟨fun _ _ _ => [0], by simp [hs], fun i r s => ?_⟩
      simp [Fullspace.fullspace]
    | cons m0 ms =>
      refine ⟨fun i r s => [if c.1 ≠ 36 then (Fullspace.fullspace sqrt (m0 :: ms)
        ((getOffAng m (src.1.getD · 0) (src.2.1.getD · 0) (rcv.1.getD · 0) (rcv.2.1.getD · 0)
          src.1.length rcv.1.length junk junk).1 (s * rcv.1.length + r))
        ((getOffAng m (src.1.getD · 0) (src.2.1.getD · 0) (rcv.1.getD · 0) (rcv.2.1.getD · 0)
          src.1.length rcv.1.length junk junk).2 (s * rcv.1.length + r)) src.2.2 rcv.2.2 c.1 c.2.1 c.2.2).getD i 0
        else 0], ?_, fun i r s => rfl⟩
      simp only [Halfspace.analytical, hs, hg, Option.map_none, hc]
      rfl
  obtain ⟨e, he, hv⟩ := he
  rw [he]
  simp only [Except.bind]
  by_cases h0 : rcv.1.length * src.1.length = 0
  · rw [if_pos h0, if_pos h0]
  · rw [if_neg h0, if_neg h0]
    have ht : tupleOf "fs" = none := by simp [tupleOf]
    simp only [stack, ht, reshapeF]
    congr 2
    funext k
    simp only [hv, mul_comm (k % src.1.length), add_comm _ (k / src.1.length % rcv.1.length)]

/-- **C55, the complete fullspace is `dipole` without interfaces.**  For a plain resistivity (no dictionary) the two
routines raise the same exception or return the same array, whatever the Hankel transform and the other settings of
`dipole`. -/
theorem C55_dipole (Bes : Halfspace.Bessel) (T : Time.FBack) (B : Back) (K : Hooks) {A : AnaArgs} (loop : Option String)
    (hs : A.solution = "fs") (hg : A.signal = none) (hr : ResArg.extra A.res = none) :
    (analyticalFull Bes T B.m B.sqrt B.junk K A).val =
      (Model.dipole B { anaDipole A with loop := loop }).val := by
  unfold analyticalFull Model.dipole dipoleFull dipoleWith
  rw [bind_val, bind_val, ana_val]
  congr 1
  simp only [anaTime, hg, pure_val, bind_okE]
  rw [bind_val]
  cases hM : (checkModel B.m (some []) A.res A.aniso A.epermH A.epermV A.mpermH A.mpermV (some true) A.verb).val with
  | error e => simp only [anaDipole, hM, Except.bind]
  | ok mo =>
    simp only [anaDipole, hM, bind_okE]
    rw [bind_val]
    obtain ⟨hl, hmo⟩ := ana_model hM
    have hf : mo.isfullspace = true := by rw [hmo]; exact ana_fullspace hl hr
    have hd : mo.depth = [⊥] := by rw [hmo]; rfl
    have hx : mo.extra = none := by rw [hmo]; simp [modelVal, hr]
    congr 1
    funext fo
    have hk : K.run mo fo = .ok fo := by simp [Hooks.run, hx]
    rw [hk, tail_val, bind_okE]
    refine congrArg _ (funext fun c => congrArg _ (funext fun src => congrArg _ (funext fun rcv => ?_)))
    rw [fs_field Bes _ _ _ _ _ _ _ hs hg, fem_full rfl hf, hd, layerOf_bot]

/-! ## Layout -/

theorem stack_whole {sol : String} (h : tupleOf sol = none) (nf nrec nsrc : ℕ) (e : ℕ → ℕ → ℕ → List ℂ) {f r s : ℕ}
    (hr : r < nrec) (hs : s < nsrc) :
    (stack sol nf nrec nsrc e).shape = [nf, nrec, nsrc] ∧
    (stack sol nf nrec nsrc e).get [f, r, s] = (e f r s).getD 0 0 := by
  have h1 := reshapeF_get nf nrec nsrc (fun i j => (e i (j % nrec) (j / nrec)).getD 0 0) (f := f) hr hs
  have n0 : 0 < nrec := by omega
  have n1 : 0 < nsrc := by omega
  simp only [stack, h]
  refine ⟨trivial, ?_⟩
  rw [show (r + nrec * s) % nrec = r by rw [Nat.add_mul_mod_self_left, Nat.mod_eq_of_lt hr],
    show (r + nrec * s) / nrec = s by rw [Nat.add_mul_div_left _ _ n0, Nat.div_eq_of_lt hr, Nat.zero_add]] at h1
  rw [← h1]
  simp only [reshapeF, NdArray.get]
  have : ∀ k, (k / nsrc % nrec + nrec * (k % nsrc)) % nrec = k / nsrc % nrec ∧
      (k / nsrc % nrec + nrec * (k % nsrc)) / nrec = k % nsrc := fun k => by
    constructor
    · rw [Nat.add_mul_mod_self_left, Nat.mod_mod]
    · rw [Nat.add_mul_div_left _ _ n0, Nat.div_eq_of_lt (Nat.mod_lt _ n0), Nat.zero_add]
  simp only [(this _).1, (this _).2]

theorem stack_tuple {sol : String} {w : ℕ} (h : tupleOf sol = some w) (nf nrec nsrc : ℕ) (e : ℕ → ℕ → ℕ → List ℂ)
    {t f r s : ℕ} (hf : f < nf) (hr : r < nrec) (hs : s < nsrc) :
    (stack sol nf nrec nsrc e).shape = [w, nf, nrec, nsrc] ∧
    (stack sol nf nrec nsrc e).get [t, f, r, s] = (e f r s).getD t 0 := by
  have e1 : ∀ n, (n * nsrc + s) / nsrc = n := fun n => by
    rw [Nat.add_comm, Nat.add_mul_div_right _ _ (by omega), Nat.div_eq_of_lt hs, Nat.zero_add]
  have e2 : ∀ n, (n * nsrc + s) % nsrc = s := fun n => by
    rw [Nat.add_comm, Nat.add_mul_mod_self_right, Nat.mod_eq_of_lt hs]
  have e3 : ∀ n, (n * nrec + r) / nrec = n := fun n => by
    rw [Nat.add_comm, Nat.add_mul_div_right _ _ (by omega), Nat.div_eq_of_lt hr, Nat.zero_add]
  have e4 : ∀ n, (n * nrec + r) % nrec = r := fun n => by
    rw [Nat.add_comm, Nat.add_mul_mod_self_right, Nat.mod_eq_of_lt hr]
  have e5 : (t * nf + f) / nf = t := by
    rw [Nat.add_comm, Nat.add_mul_div_right _ _ (by omega), Nat.div_eq_of_lt hf, Nat.zero_add]
  have e6 : (t * nf + f) % nf = f := by
    rw [Nat.add_comm, Nat.add_mul_mod_self_right, Nat.mod_eq_of_lt hf]
  simp only [stack, h, NdArray.get, List.zip_cons_cons, List.zip_nil_right, List.foldl_cons, List.foldl_nil,
    Nat.zero_mul, Nat.zero_add, e1, e2, e3, e4, e5, e6, and_self]

/-! ## Acceptance and the sums of the diffusive solutions -/

theorem analyticalFull_val (Bes : Halfspace.Bessel) (T : Time.FBack) (m : Mins) (sqrt : ℂ → ℂ) (junk : ℕ → ℝ) (K : Hooks)
    (A : AnaArgs) : (analyticalFull Bes T m sqrt junk K A).val =
      (analyticalArr Bes T m sqrt junk K A).val.bind fun EM => .ok (if A.squeeze then EM.squeeze else EM) := by
  unfold analyticalFull
  rw [bind_val]
  rfl

/-- The diffusive solutions. -/
def diffusive : List String := ["dfs", "dhs", "dsplit", "dtetm"]

theorem diffusive_cases {sol : String} (h : sol ∈ diffusive) (sig : Option ℤ) (ms mr : Bool) :
    sol.toList.head? = some 'd' ∧ Halfspace.checkSolution sol sig ms mr =
      if ms = true ∨ mr = true then .error .valueError else .ok () := by
  simp only [diffusive, List.mem_cons, List.not_mem_nil, or_false] at h
  rcases h with rfl | rfl | rfl | rfl <;> simp [Halfspace.checkSolution]

/-- What the four diffusive solutions have in common once everything is checked. -/
theorem diff_entries (Bes : Halfspace.Bessel) (sqrt : ℂ → ℂ) (m : Mins) (junk : ℕ → ℝ) (A : AnaArgs) (time : List ℝ)
    (mo : ModelOut) (fo : FreqOut) (c : ℕ × Bool × Bool) (src rcv : List ℝ × List ℝ × ℝ) (h1 : c.2.1 = false)
    (h2 : c.2.2 = false) :
    (∃ e, ∀ sol ∈ diffusive, anaEntries Bes sqrt m junk { A with solution := sol } time mo fo c src rcv = .error e) ∨
    (∃ f : String → ℕ → ℕ → ℕ → Halfspace.Out ℂ, (∀ sol ∈ diffusive,
      anaEntries Bes sqrt m junk { A with solution := sol } time mo fo c src rcv =
        .ok fun i r s => outList (f sol i r s)) ∧ ∀ i r s, AddUp fun sol => f sol i r s) := by
  unfold anaEntries
  cases hl : (rowsOf mo.depth fo).map (medAt 0) with
  | nil =>
    left
    refine ⟨if A.signal.isNone && A.isList then .typeError else .indexError, fun sol hs => ?_⟩
    simp only [(diffusive_cases hs none false false).1, if_true]
  | cons m0 ms =>
    have key : ∀ sol ∈ diffusive, Halfspace.checkSolution sol (A.signal.map signalCode) c.2.1 c.2.2 = .ok () :=
      fun sol hs => by rw [(diffusive_cases hs _ _ _).2]; simp [h1, h2]
    cases hg : A.signal with
    | none =>
      cases hL : A.isList with
      | true =>
        left
        refine ⟨.typeError, fun sol hs => ?_⟩
        have hk := key sol hs
        rw [hg] at hk
        simp only [Halfspace.analytical, hk, (diffusive_cases hs none false false).1]
        rfl
      | false =>
        right
        let a := anaSetup m junk A time fo m0 ms src rcv
        refine ⟨fun sol i r s => Halfspace.halfspaceFreq Bes (a.pos (s * a.nrec + r)) c.1 sol (a.sval i),
          fun sol hs => ?_, fun i r s => C35_sum_freq Bes _ _ _⟩
        have hk := key sol hs
        rw [hg] at hk
        simp only [Halfspace.analytical, hk, (diffusive_cases hs none false false).1]
        rfl
    | some g =>
      right
      let a := anaSetup m junk A time fo m0 ms src rcv
      let up : Halfspace.Out ℝ → Halfspace.Out ℂ := fun o => match o with
        | .whole v => .whole v
        | .split d r a => .split d r a
        | .tetm a b c d e => .tetm a b c d e
      refine ⟨fun sol i r s => up (Halfspace.halfspaceTime Bes (a.pos (s * a.nrec + r)) c.1 (signalCode g) sol (a.time i)),
          fun sol hs => ?_, fun i r s => ?_⟩
      · have hk := key sol hs
        rw [hg] at hk
        simp only [Halfspace.analytical, hk, (diffusive_cases hs none false false).1]
        change Except.ok _ = Except.ok _
        congr 1
        funext i r s
        simp only [entryList]
        change (outList (Halfspace.halfspaceTime Bes (a.pos (s * a.nrec + r)) c.1 (signalCode g) sol (a.time i))).map _ = _
        cases Halfspace.halfspaceTime Bes (a.pos (s * a.nrec + r)) c.1 (signalCode g) sol (a.time i) <;> rfl
      · obtain ⟨t, d, r', a', x1, x2, x3, x4, q1, q2, q3, q4, q5, q6, q7⟩ :=
          C35_sum_time Bes (a.pos (s * a.nrec + r)) c.1 (signalCode g) (a.time i)
        refine ⟨t, d, r', a', x1, x2, x3, x4, ?_, ?_, ?_, ?_, ?_, ?_, ?_⟩
        · simp only [q1, up]
        · simp only [q2, up]
        · simp only [q3, up]
        · simp only [q4, up]
        · rw [q5]; push_cast; ring
        · rw [q6]; push_cast; ring
        · rw [q7]; push_cast; ring

theorem diff_field (Bes : Halfspace.Bessel) (sqrt : ℂ → ℂ) (m : Mins) (junk : ℕ → ℝ) (A : AnaArgs) (time : List ℝ)
    (mo : ModelOut) (fo : FreqOut) (c : ℕ × Bool × Bool) (src rcv : List ℝ × List ℝ × ℝ) :
    (∃ e, ∀ sol ∈ diffusive, anaField Bes sqrt m junk { A with solution := sol } time mo fo c src rcv = .error e) ∨
    (∃ f : String → ℕ → ℕ → ℕ → Halfspace.Out ℂ, (∀ sol ∈ diffusive,
      anaField Bes sqrt m junk { A with solution := sol } time mo fo c src rcv =
        .ok (stack sol fo.freq.length rcv.1.length src.1.length fun i r s => outList (f sol i r s))) ∧
      ∀ i r s, AddUp fun sol => f sol i r s) := by
  by_cases hc : c.2.1 = true ∨ c.2.2 = true
  · left
    refine ⟨.valueError, fun sol hs => ?_⟩
    unfold anaField
    simp only [(diffusive_cases hs _ _ _).2, if_pos hc]
    rfl
  have hc1 : c.2.1 = false := by simpa using fun h => hc (Or.inl h)
  have hc2 : c.2.2 = false := by simpa using fun h => hc (Or.inr h)
  have key : ∀ sol ∈ diffusive, Halfspace.checkSolution sol (A.signal.map signalCode) c.2.1 c.2.2 = .ok () :=
    fun sol hs => by rw [(diffusive_cases hs _ _ _).2]; simp [hc1, hc2]
  by_cases hw : ∃ n a s q, A.signal = some (.wave n a s q)
  · obtain ⟨n, a, s, q, hw⟩ := hw
    left
    refine ⟨.typeError, fun sol hs => ?_⟩
    have hk := key sol hs
    unfold anaField
    simp only [hk, hw]
    rw [hw] at hk
    simp only [hk]
    rfl
  have step : ∀ sol ∈ diffusive, anaField Bes sqrt m junk { A with solution := sol } time mo fo c src rcv =
      (anaEntries Bes sqrt m junk { A with solution := sol } time mo fo c src rcv).bind fun e =>
        if rcv.1.length * src.1.length = 0 then .error .valueError
        else .ok (stack sol fo.freq.length rcv.1.length src.1.length e) := by
    intro sol hs
    have hk := key sol hs
    unfold anaField
    cases hg : A.signal with
    | none =>
      rw [hg] at hk
      simp only [hk]
      rfl
    | some g =>
      cases g with
      | num g =>
        rw [hg] at hk
        simp only [hk]
        rfl
      | wave n a s q => exact absurd ⟨n, a, s, q, hg⟩ hw
  rcases diff_entries Bes sqrt m junk A time mo fo c src rcv hc1 hc2 with ⟨e, he⟩ | ⟨f, hf, hs⟩
  · left
    exact ⟨e, fun sol hs => by rw [step sol hs, he sol hs]; rfl⟩
  · by_cases h0 : rcv.1.length * src.1.length = 0
    · left
      exact ⟨.valueError, fun sol hs => by rw [step sol hs, hf sol hs, bind_okE, if_pos h0]⟩
    · right
      exact ⟨f, fun sol hs => by rw [step sol hs, hf sol hs, bind_okE, if_neg h0], hs⟩

theorem bind_either {α β : Type} {x : Except PyErr α} {g : String → α → Except PyErr β} {P : (String → β) → Prop}
    (h : ∀ a, (∃ e, ∀ sol ∈ diffusive, g sol a = .error e) ∨
      ∃ arr : String → β, (∀ sol ∈ diffusive, g sol a = .ok (arr sol)) ∧ P arr) :
    (∃ e, ∀ sol ∈ diffusive, x.bind (g sol) = .error e) ∨
      ∃ arr : String → β, (∀ sol ∈ diffusive, x.bind (g sol) = .ok (arr sol)) ∧ P arr := by
  cases x with
  | error e => exact Or.inl ⟨e, fun _ _ => rfl⟩
  | ok a => exact h a

/-- Shapes and sums of the four diffusive results, before they are squeezed. -/
structure SumsUp (arr : String → NdArray) : Prop where
  mk ::
  sums : ∃ n nr ns : ℕ, (arr "dfs").shape = [n, nr, ns] ∧ (arr "dhs").shape = [n, nr, ns] ∧
    (arr "dsplit").shape = [3, n, nr, ns] ∧ (arr "dtetm").shape = [5, n, nr, ns] ∧
    ∀ f r s, f < n → r < nr → s < ns →
      let split := fun k => (arr "dsplit").get [k, f, r, s]
      let tetm := fun k => (arr "dtetm").get [k, f, r, s]
      (arr "dhs").get [f, r, s] = split 0 + split 1 + split 2 ∧
      (arr "dfs").get [f, r, s] = split 0 ∧ split 0 = tetm 0 + tetm 1 ∧ split 1 = tetm 2 + tetm 3 ∧ split 2 = tetm 4

/-- **C55, sums.**  Same arguments but for `solution`: the four diffusive solutions raise the same exception, or all of
them return.  Then `'dhs'` is the sum of the three parts of `'dsplit'`, `'dfs'` the first of them, and the five parts of
`'dtetm'` add up to the three: for every entry, in the frequency and the time domain, with functions of the user or
without. -/
theorem C55_sums (Bes : Halfspace.Bessel) (T : Time.FBack) (m : Mins) (sqrt : ℂ → ℂ) (junk : ℕ → ℝ) (K : Hooks)
    (A : AnaArgs) :
    (∃ e, ∀ sol ∈ diffusive, (analyticalFull Bes T m sqrt junk K { A with solution := sol }).val = .error e) ∨
    (∃ arr : String → NdArray, (∀ sol ∈ diffusive, (analyticalFull Bes T m sqrt junk K { A with solution := sol }).val =
      .ok (if A.squeeze then (arr sol).squeeze else arr sol)) ∧ SumsUp arr) := by
  have main : (∃ e, ∀ sol ∈ diffusive, (analyticalArr Bes T m sqrt junk K { A with solution := sol }).val = .error e) ∨
    (∃ arr : String → NdArray, (∀ sol ∈ diffusive, (analyticalArr Bes T m sqrt junk K { A with solution := sol }).val =
      .ok (arr sol)) ∧ SumsUp arr) := by
    simp only [ana_val]
    have ht : ∀ sol, anaTime T m { A with solution := sol } = anaTime T m A := fun _ => rfl
    simp only [ht]
    refine bind_either fun time => bind_either fun mo => bind_either fun fo => bind_either fun fo =>
      bind_either fun c => bind_either fun src => bind_either fun rcv => ?_
    rcases diff_field Bes sqrt m junk A time mo fo c src rcv with h | ⟨f, hf, hs⟩
    · exact Or.inl h
    · right
      refine ⟨_, hf, ⟨fo.freq.length, rcv.1.length, src.1.length, ?_, ?_, ?_, ?_, ?_⟩⟩
      · simp [stack, tupleOf]
      · simp [stack, tupleOf]
      · simp [stack, tupleOf]
      · simp [stack, tupleOf]
      intro i r s hi hr hsr
      obtain ⟨t, d, r', a', x1, x2, x3, x4, q1, q2, q3, q4, q5, q6, q7⟩ := hs i r s
      have t1 : tupleOf "dsplit" = some 3 := by simp [tupleOf]
      have t2 : tupleOf "dtetm" = some 5 := by simp [tupleOf]
      have t3 : tupleOf "dhs" = none := by simp [tupleOf]
      have t4 : tupleOf "dfs" = none := by simp [tupleOf]
      simp only [(stack_tuple t1 _ _ _ _ hi hr hsr).2, (stack_tuple t2 _ _ _ _ hi hr hsr).2,
        (stack_whole t3 _ _ _ _ (f := i) hr hsr).2, (stack_whole t4 _ _ _ _ (f := i) hr hsr).2]
      beta_reduce at q1 q2 q3 q4
      simp only [q1, q2, q3, q4, outList]
      exact ⟨q5, rfl, q6, q7, rfl⟩
  simp only [analyticalFull_val]
  rcases main with ⟨e, h⟩ | ⟨arr, h, hs⟩
  · exact Or.inl ⟨e, fun sol hm => by rw [h sol hm]; rfl⟩
  · exact Or.inr ⟨arr, fun sol hm => by rw [h sol hm]; rfl, hs⟩

/-- Signals `analytical` can use: none, or a number which is truncated to -1, 0 or 1.  Not a waveform. -/
def SignalOK : Option Time.Signal → Prop
  | none => True
  | some (.num s) => -2 < s ∧ s < 2
  | some (.wave ..) => False

/-- Requests which are documented and work: the complete fullspace in the frequency domain for all components; the
diffusive solutions for electric dipoles, with at least one time, or at least one frequency that does not come as list. -/
def Supported (A : AnaArgs) (a b : ℕ) : Prop :=
  (A.solution = "fs" ∧ A.signal = none) ∨
  (A.solution ∈ diffusive ∧ a ≤ 3 ∧ b ≤ 3 ∧ A.freqtime ≠ [] ∧ (A.signal = none → A.isList = false))

theorem time_num (T : Time.FBack) (m : Mins) (A : AnaArgs) {s : ℝ} (h : A.signal = some (.num s)) :
    (anaTime T m A).val = if -2 < s ∧ s < 2 then .ok (A.freqtime.map (cut m.minTime)) else .error .valueError := by
  unfold anaTime Time.checkTimeOnly Verb.checkTimeOnly
  rw [h]
  simp only
  rw [bind_val, bind_val, bind_val, checkMin_val, bind_okE, bind_val, say_val, bind_okE, bind_val]
  by_cases hs : -2 < s ∧ s < 2
  · rw [(C22_accepted s).2 hs, if_pos hs, bind_okE, bind_val, say_val]
    rfl
  · have : (Tem.checkSignal s).val = .error .valueError := by
      rw [← C22_accepted] at hs
      unfold Tem.checkSignal at hs ⊢
      split_ifs at hs ⊢ with h
      · exact absurd rfl hs
      · rfl
    rw [this, if_neg hs]
    rfl

theorem rows_nil {depth : List EReal} {fo : FreqOut} : (rowsOf depth fo).map (medAt 0) = [] ↔ fo.freq = [] := by
  simp [rowsOf]

theorem sol_not_d {s : String} (h : s = "fs") : ¬ s.toList.head? = some 'd' := by subst h; simp

/-- The field is computed exactly for the supported requests. -/
theorem field_accept (Bes : Halfspace.Bessel) (sqrt : ℂ → ℂ) (m : Mins) (junk : ℕ → ℝ) (A : AnaArgs) (time : List ℝ)
    (mo : ModelOut) (fo : FreqOut) {a b : ℕ} (ha : 1 ≤ a ∧ a ≤ 6) (hb : 1 ≤ b ∧ b ≤ 6) {c : ℕ × Bool × Bool}
    (hc : checkAb (.int (10 * a + b)) = .ok c) (src rcv : List ℝ × List ℝ × ℝ) (hsig : SignalOK A.signal)
    (hfo : fo.freq = [] ↔ A.freqtime = []) :
    ((∃ arr, anaField Bes sqrt m junk A time mo fo c src rcv = .ok arr) ↔
      Supported A a b ∧ 0 < src.1.length ∧ 0 < rcv.1.length) ∧
    ∀ e, anaField Bes sqrt m junk A time mo fo c src rcv = .error e → e = .valueError ∨
      (e = .typeError ∧ A.signal = none ∧ A.isList = true) ∨ (e = .indexError ∧ A.freqtime = []) := by
  have hlen : (0 < src.1.length ∧ 0 < rcv.1.length) ↔ rcv.1.length * src.1.length ≠ 0 := by
    rw [Nat.mul_ne_zero_iff]; omega
  rw [hlen]
  rw [checkAb_digits ha hb] at hc
  have c1 : c.2.1 = decide (3 < b) := by rw [← Except.ok.inj hc]
  have c2 : c.2.2 = decide (3 < a) := by rw [← Except.ok.inj hc]
  have hw : ∀ n a s q, A.signal ≠ some (.wave n a s q) := by
    intro n a s q h; rw [h] at hsig; exact hsig
  by_cases hs : A.solution = "fs"
  · cases hg : A.signal with
    | none =>
      rw [fs_field Bes sqrt m junk time c src rcv hs hg]
      by_cases h0 : rcv.1.length * src.1.length = 0
      · rw [if_pos h0]
        exact ⟨⟨fun ⟨_, h⟩ => (by cases h), fun h => absurd h0 h.2⟩, fun e he => Or.inl (Except.error.inj he).symm⟩
      · rw [if_neg h0]
        exact ⟨⟨fun _ => ⟨Or.inl ⟨hs, hg⟩, h0⟩, fun _ => ⟨_, rfl⟩⟩, fun e he => by cases he⟩
    | some g =>
      have he : anaField Bes sqrt m junk A time mo fo c src rcv = .error .valueError := by
        unfold anaField
        rw [hs, hg]
        simp [Halfspace.checkSolution]
        rfl
      rw [he]
      refine ⟨⟨fun ⟨_, h⟩ => (by cases h), ?_⟩, fun e he => Or.inl (Except.error.inj he).symm⟩
      rintro ⟨h | h, -⟩
      · rw [hg] at h; cases h.2
      · have := h.1; rw [hs] at this; simp [diffusive] at this
  by_cases hd : A.solution ∈ diffusive
  swap
  · have he : anaField Bes sqrt m junk A time mo fo c src rcv = .error .valueError := by
      unfold anaField
      have : Halfspace.checkSolution A.solution (A.signal.map signalCode) c.2.1 c.2.2 = .error .valueError := by
        simp only [diffusive, List.mem_cons, List.not_mem_nil, or_false, not_or] at hd
        simp [Halfspace.checkSolution, hs, hd]
      rw [this]
      rfl
    rw [he]
    refine ⟨⟨fun ⟨_, h⟩ => (by cases h), ?_⟩, fun e he => Or.inl (Except.error.inj he).symm⟩
    rintro ⟨h | h, -⟩
    · exact absurd h.1 hs
    · exact absurd h.1 hd
  have hk := (diffusive_cases hd (A.signal.map signalCode) c.2.1 c.2.2).2
  have hhd := (diffusive_cases hd none false false).1
  by_cases hm : 3 < b ∨ 3 < a
  · have he : anaField Bes sqrt m junk A time mo fo c src rcv = .error .valueError := by
      unfold anaField
      rw [hk, if_pos (by simpa [c1, c2] using hm)]
      rfl
    rw [he]
    refine ⟨⟨fun ⟨_, h⟩ => (by cases h), ?_⟩, fun e he => Or.inl (Except.error.inj he).symm⟩
    rintro ⟨h | h, -⟩
    · exact absurd h.1 hs
    · obtain ⟨-, h1, h2, -⟩ := h; omega
  push_neg at hm
  rw [if_neg (by simpa [c1, c2] using hm)] at hk
  have step : anaField Bes sqrt m junk A time mo fo c src rcv =
      (anaEntries Bes sqrt m junk A time mo fo c src rcv).bind fun e =>
        if rcv.1.length * src.1.length = 0 then .error .valueError
        else .ok (stack A.solution fo.freq.length rcv.1.length src.1.length e) := by
    unfold anaField
    rw [hk]
    cases hg : A.signal with
    | none => rfl
    | some g =>
      cases g with
      | num g => rfl
      | wave n a s q => exact absurd hg (hw n a s q)
  rw [step]
  unfold anaEntries
  cases hl : (rowsOf mo.depth fo).map (medAt 0) with
  | nil =>
    have hf := hfo.1 (rows_nil.1 hl)
    simp only [hhd, if_true]
    refine ⟨⟨fun ⟨_, h⟩ => (by cases h), ?_⟩, fun e he => ?_⟩
    · rintro ⟨h | h, -⟩
      · exact absurd h.1 hs
      · exact absurd hf h.2.2.2.1
    · have he := Except.error.inj he
      by_cases q : (A.signal.isNone && A.isList) = true
      · rw [if_pos q] at he
        simp only [Bool.and_eq_true, Option.isNone_iff_eq_none] at q
        exact Or.inr (Or.inl ⟨he.symm, q.1, q.2⟩)
      · rw [if_neg q] at he
        exact Or.inr (Or.inr ⟨he.symm, hf⟩)
  | cons m0 ms =>
    have hf : A.freqtime ≠ [] := fun h => by
      have := rows_nil (depth := mo.depth).2 (hfo.2 h)
      rw [hl] at this; cases this
    by_cases q : A.signal = none ∧ A.isList = true
    · have e : Halfspace.analytical Bes sqrt (anaSetup m junk A time fo m0 ms src rcv) A.solution
          (A.signal.map signalCode) A.isList c.1 c.2.1 c.2.2 = .error .typeError := by
        rw [q.1, Option.map_none] at hk ⊢
        simp only [Halfspace.analytical, hk, hhd, if_true, q.2]
      simp only [e]
      refine ⟨⟨fun ⟨_, h⟩ => (by cases h), ?_⟩, fun e he => ?_⟩
      · rintro ⟨h | h, -⟩
        · exact absurd h.1 hs
        · have := h.2.2.2.2 q.1; rw [q.2] at this; cases this
      · exact Or.inr (Or.inl ⟨(Except.error.inj he).symm, q.1, q.2⟩)
    · have hS : Supported A a b := by
        refine Or.inr ⟨hd, hm.2, hm.1, hf, fun h => ?_⟩
        cases hi : A.isList with
        | true => exact absurd ⟨h, hi⟩ q
        | false => rfl
      obtain ⟨v, e⟩ : ∃ v, Halfspace.analytical Bes sqrt (anaSetup m junk A time fo m0 ms src rcv) A.solution
          (A.signal.map signalCode) A.isList c.1 c.2.1 c.2.2 = .ok v := by
        cases hg : A.signal with
        | none =>
          rw [hg, Option.map_none] at hk
          have hi : A.isList = false := by
            cases hi : A.isList with
            | true => exact absurd ⟨hg, hi⟩ q
            | false => rfl
          simp only [Halfspace.analytical, hk, hhd, if_true, hi, Option.map_none]
          exact ⟨_, rfl⟩
        | some g =>
          rw [hg, Option.map_some] at hk
          simp only [Halfspace.analytical, hk, hhd, if_true, Option.map_some]
          exact ⟨_, rfl⟩
      simp only [e]
      change ((∃ arr, (if rcv.1.length * src.1.length = 0 then _ else _) = _) ↔ _) ∧
        ∀ e, (if rcv.1.length * src.1.length = 0 then _ else _) = _ → _
      by_cases h0 : rcv.1.length * src.1.length = 0
      · simp only [if_pos h0]
        exact ⟨⟨fun ⟨_, h⟩ => (by cases h), fun h => absurd h0 h.2⟩, fun e he => Or.inl (Except.error.inj he).symm⟩
      · simp only [if_neg h0]
        exact ⟨⟨fun _ => ⟨hS, h0⟩, fun _ => ⟨_, rfl⟩⟩, fun e he => by cases he⟩

/-- All given vectors describe a single layer. -/
def SingleLayer (A : AnaArgs) : Prop :=
  A.res.res.length = 1 ∧
  (∀ l, (some l = A.aniso ∨ some l = A.epermH ∨ some l = A.epermV ∨ some l = A.mpermH ∨ some l = A.mpermV) →
    l.length = 1) ∧
  (∀ e, A.res.extra = some e → ∀ k l, (k, some l) ∈ e → l.length = 1)

theorem single_accept (m : Mins) (A : AnaArgs) :
    (∃ mo, (checkModel m (some []) A.res A.aniso A.epermH A.epermV A.mpermH A.mpermV (some true) A.verb).val = .ok mo) ↔
      SingleLayer A := by
  rw [C11_accept.1]
  have h : numLayers ([] : List EReal) = 1 := by simp [numLayers]
  rw [h]
  exact ⟨fun q => q.2, fun q => ⟨Or.inl List.Pairwise.nil, q⟩⟩

/-- **C55, acceptance.**  Without functions of the user `analytical` returns an array exactly if the signal is none or a
number strictly between -2 and 2, every given vector of the model has length one, the truncated code is one of the 36
codes, sources and receivers have three coordinates of matching lengths with a single depth, there is at least one of
each, and the request is supported.  Everything else raises; if the signal is all right: `ValueError`, or `TypeError` for
a code which is no number or for frequencies as list, or `IndexError` without frequencies and times. -/
theorem C55_accept (Bes : Halfspace.Bessel) (T : Time.FBack) (m : Mins) (sqrt : ℂ → ℂ) (junk : ℕ → ℝ) {K : Hooks}
    {A : AnaArgs} (hK : K = ⟨none, none⟩ ∨ A.res.extra = none) :
    ((∃ arr, (analyticalFull Bes T m sqrt junk K A).val = .ok arr) ↔
      SignalOK A.signal ∧ SingleLayer A ∧
      (∃ a b : ℕ, (1 ≤ a ∧ a ≤ 6) ∧ (1 ≤ b ∧ b ≤ 6) ∧ toInt A.ab = .ok (10 * a + b) ∧ Supported A a b) ∧
      CoordsOK A.src ∧ CoordsOK A.rcv ∧ 0 < numDipoles A.src ∧ 0 < numDipoles A.rcv) ∧
    (SignalOK A.signal → ∀ e, (analyticalFull Bes T m sqrt junk K A).val = .error e → e = .valueError ∨
      (e = .typeError ∧ (A.ab = .other ∨ (A.signal = none ∧ A.isList = true))) ∨
      (e = .indexError ∧ A.freqtime = [])) := by
  have arrIff : (∃ arr, (analyticalFull Bes T m sqrt junk K A).val = .ok arr) ↔
      ∃ arr, (analyticalArr Bes T m sqrt junk K A).val = .ok arr := by
    rw [analyticalFull_val]
    cases (analyticalArr Bes T m sqrt junk K A).val with
    | error e => exact ⟨fun ⟨_, h⟩ => (by cases h), fun ⟨_, h⟩ => (by cases h)⟩
    | ok a => exact ⟨fun _ => ⟨a, rfl⟩, fun _ => ⟨_, rfl⟩⟩
  have errIff : ∀ e, (analyticalFull Bes T m sqrt junk K A).val = .error e →
      (analyticalArr Bes T m sqrt junk K A).val = .error e := by
    intro e
    rw [analyticalFull_val]
    cases (analyticalArr Bes T m sqrt junk K A).val with
    | error e => exact fun h => h
    | ok a => intro h; cases h
  rw [arrIff]
  suffices main : ((∃ arr, (analyticalArr Bes T m sqrt junk K A).val = .ok arr) ↔
      SignalOK A.signal ∧ SingleLayer A ∧
      (∃ a b : ℕ, (1 ≤ a ∧ a ≤ 6) ∧ (1 ≤ b ∧ b ≤ 6) ∧ toInt A.ab = .ok (10 * a + b) ∧ Supported A a b) ∧
      CoordsOK A.src ∧ CoordsOK A.rcv ∧ 0 < numDipoles A.src ∧ 0 < numDipoles A.rcv) ∧
    (SignalOK A.signal → ∀ e, (analyticalArr Bes T m sqrt junk K A).val = .error e → e = .valueError ∨
      (e = .typeError ∧ (A.ab = .other ∨ (A.signal = none ∧ A.isList = true))) ∨
      (e = .indexError ∧ A.freqtime = [])) from ⟨main.1, fun hs e he => main.2 hs e (errIff e he)⟩
  rw [ana_val]
  by_cases hsig : SignalOK A.signal
  swap
  · refine ⟨⟨fun ⟨arr, h⟩ => ?_, fun h => absurd h.1 hsig⟩, fun h => absurd h hsig⟩
    exfalso
    cases hg : A.signal with
    | none => rw [hg] at hsig; exact hsig trivial
    | some g =>
      cases g with
      | num s =>
        rw [hg] at hsig
        rw [time_num T m A hg, if_neg (show ¬ (-2 < s ∧ s < 2) from hsig)] at h
        cases h
      | wave n a s q =>
        obtain ⟨time, -, h⟩ := bindE_ok h
        obtain ⟨mo, -, h⟩ := bindE_ok h
        obtain ⟨fo, -, h⟩ := bindE_ok h
        obtain ⟨fo', -, h⟩ := bindE_ok h
        obtain ⟨c, -, h⟩ := bindE_ok h
        obtain ⟨src, -, h⟩ := bindE_ok h
        obtain ⟨rcv, -, h⟩ := bindE_ok h
        unfold anaField at h
        obtain ⟨u, -, h⟩ := bindE_ok (show Except.bind _ _ = _ from h)
        simp only [hg] at h
        cases h
  have ht : ∃ time, (anaTime T m A).val = .ok time ∧ (time = [] ↔ A.freqtime = []) := by
    cases hg : A.signal with
    | none => exact ⟨A.freqtime, by simp [anaTime, hg], Iff.rfl⟩
    | some g =>
      cases g with
      | num s =>
        rw [hg] at hsig
        exact ⟨_, by rw [time_num T m A hg, if_pos (show -2 < s ∧ s < 2 from hsig)], by simp⟩
      | wave n a s q => rw [hg] at hsig; exact hsig.elim
  obtain ⟨time, ht, hte⟩ := ht
  rw [ht, bind_okE]
  by_cases hL : SingleLayer A
  swap
  · cases hM : (checkModel m (some []) A.res A.aniso A.epermH A.epermV A.mpermH A.mpermV (some true) A.verb).val with
    | ok mo => exact absurd ((single_accept m A).1 ⟨mo, hM⟩) hL
    | error e =>
      refine ⟨⟨fun ⟨arr, h⟩ => (by cases h), fun h => absurd h.2.1 hL⟩, fun _ e' he => ?_⟩
      rw [← Except.error.inj he]
      exact Or.inl (checkModel_error hM)
  obtain ⟨mo, hM⟩ := (single_accept m A).2 hL
  have hx : K = ⟨none, none⟩ ∨ mo.extra = none := hK.imp id fun h => by
    rw [(ana_model hM).2]; simp [modelVal, h]
  rw [hM, bind_okE, C30_frequency, bind_okE]
  generalize hfo : FreqOut.mk _ _ _ _ _ = fo
  have hff : fo.freq = [] ↔ A.freqtime = [] := by rw [← hte, ← hfo]; simp
  have hrun : K.run mo fo = .ok fo := by
    rcases hx with rfl | hx
    · unfold Hooks.run Hooks.runEta Hooks.runZeta
      split_ifs <;> rfl
    · simp [Hooks.run, hx]
  rw [hrun, bind_okE]
  by_cases hab : ∃ c, checkAb A.ab = .ok c
  swap
  · cases hc : checkAb A.ab with
    | ok c => exact absurd ⟨c, hc⟩ hab
    | error e =>
      refine ⟨⟨fun ⟨arr, h⟩ => (by cases h), ?_⟩, fun _ e' he => ?_⟩
      · rintro ⟨-, -, ⟨a, b, ha, hb, h, -⟩, -⟩
        exact absurd ((checkAb_reach A.ab).2 ⟨a, b, ha, hb, h⟩) hab
      · rw [← Except.error.inj he]
        rcases checkAb_error hc with h | h
        · exact Or.inl h
        · exact Or.inr (Or.inl ⟨h.1, Or.inl h.2⟩)
  obtain ⟨a, b, ha, hb, hab'⟩ := (checkAb_reach A.ab).1 hab
  obtain ⟨c, hc⟩ := hab
  have hc' : checkAb (.int (10 * a + b)) = .ok c := by
    rw [← hc, checkAb, checkAb, hab']; rfl
  have huniq : (∃ a b : ℕ, (1 ≤ a ∧ a ≤ 6) ∧ (1 ≤ b ∧ b ≤ 6) ∧ toInt A.ab = .ok (10 * a + b) ∧ Supported A a b) ↔
      Supported A a b := by
    constructor
    · rintro ⟨a', b', ha', hb', h, hS⟩
      rw [hab'] at h
      have h := Except.ok.inj h
      obtain rfl : a = a' := by omega
      obtain rfl : b = b' := by omega
      exact hS
    · exact fun hS => ⟨a, b, ha, hb, hab', hS⟩
  rw [huniq, hc, bind_okE]
  cases hsrc : checkDipole A.src with
  | error e =>
    refine ⟨⟨fun ⟨arr, h⟩ => (by cases h), fun h => ?_⟩, fun _ e' he => ?_⟩
    · obtain ⟨p, hp⟩ := (checkDipole_iff A.src).2 h.2.2.2.1
      rw [hsrc] at hp; cases hp
    · rw [← Except.error.inj he]; exact Or.inl (checkDipole_err hsrc)
  | ok src =>
  rw [bind_okE]
  cases hrcv : checkDipole A.rcv with
  | error e =>
    refine ⟨⟨fun ⟨arr, h⟩ => (by cases h), fun h => ?_⟩, fun _ e' he => ?_⟩
    · obtain ⟨p, hp⟩ := (checkDipole_iff A.rcv).2 h.2.2.2.2.1
      rw [hrcv] at hp; cases hp
    · rw [← Except.error.inj he]; exact Or.inl (checkDipole_err hrcv)
  | ok rcv =>
  rw [bind_okE]
  obtain ⟨f1, f2⟩ := field_accept Bes sqrt m junk A time mo fo ha hb hc' src rcv hsig hff
  obtain ⟨-, -, -, -, -, n1, -⟩ := checkDipole_ok hsrc
  obtain ⟨-, -, -, -, -, n2, -⟩ := checkDipole_ok hrcv
  rw [f1, n1, n2]
  refine ⟨⟨fun h => ⟨hsig, hL, h.1, (checkDipole_iff _).1 ⟨src, hsrc⟩, (checkDipole_iff _).1 ⟨rcv, hrcv⟩, h.2⟩,
    fun h => ⟨h.2.2.1, h.2.2.2.2.2⟩⟩, fun _ e he => ?_⟩
  rcases f2 e he with h | h | h
  · exact Or.inl h
  · exact Or.inr (Or.inl ⟨h.1, Or.inr h.2⟩)
  · exact Or.inr (Or.inr h)

/-! ## The complete fullspace -/

/-- A Hankel transform which is not used. -/
noncomputable def noBack (m : Mins) (sqrt : ℂ → ℂ) (junk : ℕ → ℝ) : Back where
  m := m
  o := Ops.exact
  sqrt := sqrt
  ht := "quad"
  ptsPerDec := 0
  hank := fun _ _ _ _ _ _ _ _ _ _ => ⟨fun _ _ => 0, 1, true⟩
  junk := junk

theorem noBack_uses (m : Mins) (sqrt : ℂ → ℂ) (junk : ℕ → ℝ) : Uses (noBack m sqrt junk) (besselRule fun _ _ => 0) := by
  intro zs zr ls lr abc ms mr
  exact ⟨fun _ _ _ => true, fun xd rows offs i j hi hj => rfl, by simp [noBack]⟩

/-- Component `a` of an electric (1, 2, 3) and a magnetic (4, 5, 6) field. -/
def vecComp (E H : Vec) (a : ℕ) : ℝ → ℝ → ℝ → ℂ :=
  match a with
  | 1 => E.x
  | 2 => E.y
  | 3 => E.z
  | 4 => H.x
  | 5 => H.y
  | _ => H.z

theorem vecComp_field (sqrt : ℂ → ℂ) (meds : List Fullspace.Med) (i b : ℕ) (zs : ℝ) {a : ℕ} (ha : 1 ≤ a ∧ a ≤ 6)
    (x y z : ℝ) : vecComp (fieldE sqrt meds i b zs) (fieldH sqrt meds i b zs) a x y z = resp sqrt meds i a b x y zs z := by
  obtain ⟨a1, a2⟩ := ha
  interval_cases a <;> rfl

theorem ana_flat {A : AnaArgs} {U : UserModel} (h : Describes (anaDipole A) U) : U.z = [] := by
  obtain ⟨k, h⟩ := h
  cases h with
  | topDown lo hi depth =>
    have : lo = false ∧ U.z = [] ∧ hi = false := by simpa [anaDipole, allDepths] using depth.symm
    exact this.2.1
  | bottomUp lo hi depth =>
    have : hi = false ∧ U.z = [] ∧ lo = false := by simpa [anaDipole, allDepths] using depth.symm
    exact this.2.1

theorem flat_in {U : UserModel} (h : U.z = []) (s : ℂ) (z : ℝ) :
    (U.medium s).InUpper 0 z ∧ (U.medium s).InClosed 0 z := by
  have hn : (U.medium s).n = 1 := by simp [UserModel.medium, h]
  refine ⟨⟨le_refl _, by rw [hn]; norm_num, by simp, by rw [hn]; simp⟩,
    ⟨le_refl _, by rw [hn]; norm_num, by simp, by rw [hn]; simp⟩⟩

theorem flat_uniform {U : UserModel} (h : U.z = []) : U.Uniform := by
  intro i hi j hj
  rw [h] at hi hj
  obtain rfl : i = 0 := by simpa using hi
  obtain rfl : j = 0 := by simpa using hj
  simp

/-- `E`, `H` are the electric and the magnetic field of a unit dipole `b` at depth `zs` on the axis `x = y = 0` of the
homogeneous medium `M`: they satisfy Maxwell's equations off the axis, and above and below the source they are the sum of
the plane waves of the exact solution. -/
structure IsDipoleField (M : Medium) (b : ℕ) (zs : ℝ) (mag : Prop) (E H : Vec) : Prop where
  maxwell : ∀ x y z : ℝ, 0 < x ^ 2 + y ^ 2 → (4 ≤ b → mag) →
    MaxwellAt (M.etaH 0) (M.etaV 0) (M.zetaH 0) (M.zetaV 0) E H x y z
  waves : ∀ a ρ θ z, 1 ≤ a ∧ a ≤ 6 → 0 < ρ → z ≠ zs → (4 ≤ a → 4 ≤ b → mag) → ∀ F : ℝ → ℝ → PlaneField,
    (∀ lam > 0, ∀ φ, IsPlaneField M (lam * Real.cos φ) (lam * Real.sin φ) zs 0 (unitDipole b) (F lam φ)) →
    MeasureTheory.IntegrableOn (fun lam => ringIntegral (fun φ => (F lam φ).comp a 0 z) lam ρ θ) (Set.Ioi 0) ∧
    ∫ lam in Set.Ioi (0 : ℝ), ringIntegral (fun φ => (F lam φ).comp a 0 z) lam ρ θ =
      vecComp E H a (ρ * Real.cos θ) (ρ * Real.sin θ) z

open Fullspace in
/-- **C55, the field of the complete fullspace.**  Every homogeneous anisotropic medium, all coordinates, every component
pair, every list of frequencies or Laplace parameters: `analytical` with `solution='fs'` returns an array over
frequencies, receivers and sources, and its entries are the component `a` of the exact field of the dipole `b`, at the
place of the receiver relative to the source.  Offsets are raised to the minimum offset.  Magnetic sources need
displacement currents and a frequency where stated. -/
theorem C55_field {m : Mins} (hm : 0 < m.minRes) (hfr : 0 < m.minFreq) (hof : 0 < m.minOff) {sqrt : ℂ → ℂ}
    (hq : IsSqrt sqrt) (Bes : Halfspace.Bessel) (T : Time.FBack) (junk : ℕ → ℝ) (K : Hooks) {A : AnaArgs}
    (hs : A.solution = "fs") (hg : A.signal = none) {U : UserModel} (hU : U.Valid m.minRes)
    (hA : Describes (anaDipole A) U) {a b : ℕ} (ha : 1 ≤ a ∧ a ≤ 6) (hb : 1 ≤ b ∧ b ≤ 6)
    (hab : toInt A.ab = .ok (10 * a + b)) {xs ys xr yr : List ℝ} {zs zr : ℝ}
    (hsrc : A.src = [xs, ys, [zs]]) (hrcv : A.rcv = [xr, yr, [zr]])
    (hls : xs.length = ys.length ∨ xs.length = 1 ∨ ys.length = 1)
    (hlr : xr.length = yr.length ∨ xr.length = 1 ∨ yr.length = 1)
    (ns : 0 < numDipoles A.src) (nr : 0 < numDipoles A.rcv) :
    ∃ arr, (analyticalFull Bes T m sqrt junk K A).val = .ok (if A.squeeze then arr.squeeze else arr) ∧
      arr.shape = [A.freqtime.length, numDipoles A.rcv, numDipoles A.src] ∧
      ∃ E H : ℕ → Vec, ∀ (f : ℕ) (hf : f < A.freqtime.length),
        IsDipoleField (U.medium (sParam m.minFreq A.freqtime A.freqtime[f])) b zs
          ((∃ g ∈ A.freqtime, 0 < g) ∧ 0 < U.epsH 0) (E f) (H f) ∧
        ∀ r s, r < numDipoles A.rcv → s < numDipoles A.src →
          let ρ := rhoOf m.minOff (bc xr r - bc xs s) (bc yr r - bc ys s)
          let θ := thetaOf (bc xr r - bc xs s) (bc yr r - bc ys s)
          arr.get [f, r, s] = vecComp (E f) (H f) a (ρ * Real.cos θ) (ρ * Real.sin θ) zr := by
  have hz := ana_flat hA
  have hr : ResArg.extra A.res = none := by
    obtain ⟨k, h⟩ := hA
    cases h with
    | topDown lo hi depth res => have : A.res = .array U.res := res; rw [this]; rfl
    | bottomUp lo hi depth two strict res => have : A.res = .array _ := res; rw [this]; rfl
  obtain ⟨c, ms, mr, hc⟩ : ∃ c ms mr, checkAb (.int (10 * a + b)) = .ok (c, ms, mr) :=
    ⟨_, _, _, checkAb_digits ha hb⟩
  have hdip := C55_dipole Bes T (noBack m sqrt junk) K none hs hg hr
  obtain ⟨arr, e1, e2, e3⟩ := dipole_at (B := noBack m sqrt junk) hm hfr hof safe_exact (T := fun _ _ => 0)
    ⟨fun _ _ _ _ _ => rfl, fun _ => rfl⟩ (noBack_uses m sqrt junk) hU hA ha hb hab hsrc hrcv hls hlr hc ns nr
  refine ⟨arr, hdip.trans e1, e2, fun f => fieldE sqrt (A.freqtime.map fun g =>
      layerMed (U.medium (sParam m.minFreq A.freqtime g)) 0) f b zs, fun f => fieldH sqrt (A.freqtime.map fun g =>
      layerMed (U.medium (sParam m.minFreq A.freqtime g)) 0) f b zs, fun f hf => ?_⟩
  set M := fun g => U.medium (sParam m.minFreq A.freqtime g) with hM
  have hP : ∀ g, Physical (layerMed (M g) 0) := fun g =>
    (user_physical hm hU (le_refl _) (by positivity) (sParam_spec hfr A.freqtime g).1
      (sParam_spec hfr A.freqtime g).2 (sParam_im hfr A.freqtime g).1).1
  have hO : ((∃ g ∈ A.freqtime, 0 < g) ∧ 0 < U.epsH 0) → Oscillating (layerMed (M A.freqtime[f]) 0) := fun h =>
    (user_physical hm hU (le_refl _) (by positivity) (sParam_spec hfr A.freqtime _).1
      (sParam_spec hfr A.freqtime _).2 (sParam_im hfr A.freqtime _).1).2 ((sParam_im hfr A.freqtime _).2 h.1) h.2
  have hp : ∀ q ∈ A.freqtime.map fun g => layerMed (M g) 0, Physical q := by
    intro q hq
    simp only [List.mem_map] at hq
    obtain ⟨g, _, rfl⟩ := hq
    exact hP g
  have hi : f < (A.freqtime.map fun g => layerMed (M g) 0).length := by simpa using hf
  have hE : (A.freqtime.map fun g => layerMed (M g) 0)[f] = layerMed (M A.freqtime[f]) 0 := by simp
  have hOK : (M A.freqtime[f]).OK := user_ok hm hU (sParam_spec hfr A.freqtime _).1 (sParam_spec hfr A.freqtime _).2
  refine ⟨⟨fun x y z h hmag => ?_, fun a' ρ θ z ha' hρ hzs hmag F hF => ?_⟩, fun r s hr hs => ?_⟩
  · have := C36_maxwell hq hp hi hb (fun h4 => by rw [hE]; exact hO (hmag h4)) h zs z
    rw [hE] at this
    exact this
  · obtain ⟨Fh, hH⟩ := plane_family (OK.homog hOK (le_refl 0) (by simpa using hOK.pos))
      (homog_closed _ 0 zs) (unitDipole b)
    have key := C36_plane_waves hOK (le_refl 0) hOK.pos hq hp hi hE ha' hb (fun h4 h5 => by rw [hE]; exact hO (hmag h4 h5))
      θ hzs.symm hρ hH
    rw [vecComp_field _ _ _ _ _ ha', ← key.2]
    have e : ∀ lam > 0, ∀ φ, (F lam φ).comp a' 0 z = (Fh lam φ).comp a' 0 z := fun lam hl φ =>
      plane_uniform hOK hl φ (flat_in hz _ zs).2 (flat_in hz _ z).2 (user_uniform (flat_uniform hz) _ (le_refl 0) hOK.pos)
        (hF lam hl φ) (hH lam hl φ) ha'
    have e' : ∀ lam ∈ Set.Ioi (0 : ℝ), ringIntegral (fun φ => (F lam φ).comp a' 0 z) lam ρ θ =
        ringIntegral (fun φ => (Fh lam φ).comp a' 0 z) lam ρ θ := fun lam hl => by
      congr 1; funext φ; exact e lam hl φ
    exact ⟨key.1.congr_fun (fun lam hl => (e' lam hl).symm) measurableSet_Ioi,
      MeasureTheory.setIntegral_congr_fun measurableSet_Ioi e'⟩
  · intro ρ θ
    obtain ⟨θ', -, hθe⟩ := angle_near θ c ms mr
    obtain ⟨F, hF⟩ := plane_family hOK (flat_in hz _ zs).2 (unitDipole b)
    obtain ⟨Fh, hH⟩ := plane_family (OK.homog hOK (le_refl 0) hOK.pos) (homog_closed _ 0 zs) (unitDipole b)
    have := e3 f r s hf hr hs θ' hθe 0 0 (flat_in hz _ zs).1 (flat_in hz _ zr).1 F Fh hF hH
    rw [this, vecComp_field _ _ _ _ _ ha]
    simp only [add_zero]
    rw [if_pos (by simp [anaDipole])]
    rfl


/-! ## The diffusive solutions -/

/-- Offsets and azimuths of all pairs, from accepted coordinates. -/
theorem coords_at (m : Mins) (junk : ℕ → ℝ) {csrc crcv : List (List ℝ)} {xs ys xr yr : List ℝ} {zs zr : ℝ}
    (hsrc : csrc = [xs, ys, [zs]]) (hrcv : crcv = [xr, yr, [zr]])
    (hls : xs.length = ys.length ∨ xs.length = 1 ∨ ys.length = 1)
    (hlr : xr.length = yr.length ∨ xr.length = 1 ∨ yr.length = 1) :
    ∃ src rcv, checkDipole csrc = .ok src ∧ checkDipole crcv = .ok rcv ∧ src.1.length = numDipoles csrc ∧
      rcv.1.length = numDipoles crcv ∧ src.2.2 = zs ∧ rcv.2.2 = zr ∧
      ∀ r s, r < rcv.1.length → s < src.1.length →
        let oa := getOffAng m (src.1.getD · 0) (src.2.1.getD · 0) (rcv.1.getD · 0) (rcv.2.1.getD · 0)
          src.1.length rcv.1.length junk junk
        oa.1 (s * rcv.1.length + r) = rhoOf m.minOff (bc xr r - bc xs s) (bc yr r - bc ys s) ∧
        oa.2 (s * rcv.1.length + r) = thetaOf (bc xr r - bc xs s) (bc yr r - bc ys s) := by
  obtain ⟨src, h4⟩ := (checkDipole_iff csrc).2 ⟨xs, ys, zs, hsrc, hls⟩
  obtain ⟨rcv, h5⟩ := (checkDipole_iff crcv).2 ⟨xr, yr, zr, hrcv, hlr⟩
  obtain ⟨x1, y1, z1, e1, zs1, n1, v1⟩ := checkDipole_ok h4
  obtain ⟨x2, y2, z2, e2, zr1, n2, v2⟩ := checkDipole_ok h5
  rw [hsrc] at e1
  rw [hrcv] at e2
  simp only [List.cons.injEq, and_true] at e1 e2
  obtain ⟨rfl, rfl, rfl⟩ := e1
  obtain ⟨rfl, rfl, rfl⟩ := e2
  refine ⟨src, rcv, h4, h5, n1, n2, zs1, zr1, fun r s hr hs => ?_⟩
  obtain ⟨o1, o2⟩ := off_ang_eq m (src.1.getD · 0) (src.2.1.getD · 0) (rcv.1.getD · 0) (rcv.2.1.getD · 0)
    src.1.length rcv.1.length junk junk hs hr
  simp only [(v1 s hs).1, (v1 s hs).2, (v2 r hr).1, (v2 r hr).2] at o1 o2
  exact ⟨o1, o2⟩

theorem ana_array {A : AnaArgs} {U : UserModel} (hA : Describes (anaDipole A) U) : ResArg.extra A.res = none := by
  obtain ⟨k, h⟩ := hA
  cases h with
  | topDown lo hi depth res => have : A.res = .array U.res := res; rw [this]; rfl
  | bottomUp lo hi depth two strict res => have : A.res = .array _ := res; rw [this]; rfl

/-- The checks pass, and what they hand over. -/
theorem ana_flow (Bes : Halfspace.Bessel) (T : Time.FBack) {m : Mins} (hm : 0 < m.minRes) (sqrt : ℂ → ℂ) (junk : ℕ → ℝ)
    (K : Hooks) {A : AnaArgs} {U : UserModel} (hU : U.Valid m.minRes) (hA : Describes (anaDipole A) U) {time : List ℝ}
    (ht : (anaTime T m A).val = .ok time) {c : ℕ × Bool × Bool} (hc : checkAb A.ab = .ok c)
    {src rcv : List ℝ × List ℝ × ℝ} (hsrc : checkDipole A.src = .ok src) (hrcv : checkDipole A.rcv = .ok rcv) :
    ∃ fo : FreqOut, (analyticalArr Bes T m sqrt junk K A).val =
        anaField Bes sqrt m junk A time (userOut m U) fo c src rcv ∧
      fo.freq = (time.map fun f => if ∃ g ∈ time, 0 < g then max f m.minFreq else max (-f) m.minFreq) ∧
      (rowsOf (userOut m U).depth fo).map (medAt 0) =
        time.map fun g => layerMed (U.medium (sParam m.minFreq time g)) 0 := by
  have h1 := describes_checkModel hU hA
  have hx : (userOut m U).extra = none := by simp [userOut, modelVal, ResArg.extra]
  have h2 := C30_frequency m time (userOut m U).res (userOut m U).aniso (userOut m U).epermH (userOut m U).epermV
    (userOut m U).mpermH (userOut m U).mpermV A.verb
  obtain ⟨hl, hrows⟩ := user_rows hm hU h2
  generalize hfo : FreqOut.mk _ _ _ _ _ = fo at h2 hl hrows
  refine ⟨fo, ?_, by rw [← hfo], ?_⟩
  rotate_left
  · rw [hrows, List.map_map]
    exact map_range_getD time fun g => layerMed (U.medium (sParam m.minFreq time g)) 0
  · rw [ana_val, ht, bind_okE]
    simp only [anaDipole] at h1
    rw [h1, bind_okE, h2, bind_okE]
    simp only [Hooks.run, hx, hc, hsrc, hrcv]
    rfl

/-- Resistivity and anisotropy as `halfspace` derives them, from the first frequency or time. -/
noncomputable def firstMedium (m : Mins) (U : UserModel) (time : List ℝ) : ℝ × ℝ :=
  let M := U.medium (sParam m.minFreq time (time.headD 0))
  Halfspace.medium (M.etaH 0) (M.etaV 0)

/-- The entries of the diffusive solutions, in terms of `halfspace` for a single frequency or time. -/
theorem diff_at (Bes : Halfspace.Bessel) (T : Time.FBack) {m : Mins} (hm : 0 < m.minRes) (sqrt : ℂ → ℂ) (junk : ℕ → ℝ)
    (K : Hooks) {A : AnaArgs} {U : UserModel} (hU : U.Valid m.minRes) (hA : Describes (anaDipole A) U)
    (hs : A.solution ∈ diffusive) (hg : A.signal = none → A.isList = false) {time : List ℝ}
    (ht : (anaTime T m A).val = .ok time) (ht0 : time ≠ []) (hsig : SignalOK A.signal) {a b : ℕ} (ha : 1 ≤ a ∧ a ≤ 3)
    (hb : 1 ≤ b ∧ b ≤ 3) (hab : toInt A.ab = .ok (10 * a + b)) {xs ys xr yr : List ℝ} {zs zr : ℝ}
    (hsrc : A.src = [xs, ys, [zs]]) (hrcv : A.rcv = [xr, yr, [zr]])
    (hls : xs.length = ys.length ∨ xs.length = 1 ∨ ys.length = 1)
    (hlr : xr.length = yr.length ∨ xr.length = 1 ∨ yr.length = 1)
    (ns : 0 < numDipoles A.src) (nr : 0 < numDipoles A.rcv) :
    ∃ e, (analyticalFull Bes T m sqrt junk K A).val = .ok (
        let arr := stack A.solution time.length (numDipoles A.rcv) (numDipoles A.src) e
        if A.squeeze then arr.squeeze else arr) ∧
      ∀ (f r s : ℕ) (hf : f < time.length), r < numDipoles A.rcv → s < numDipoles A.src →
        let ρ := rhoOf m.minOff (bc xr r - bc xs s) (bc yr r - bc ys s)
        let θ := thetaOf (bc xr r - bc xs s) (bc yr r - bc ys s)
        let p : Halfspace.Pos := ⟨ρ, θ, zs, zr, (firstMedium m U time).1, (firstMedium m U time).2⟩
        (A.signal = none → e f r s = outList (Halfspace.halfspaceFreq Bes p (10 * a + b) A.solution
          (sParam m.minFreq A.freqtime time[f]))) ∧
        (∀ g, A.signal = some g → e f r s = (outList (Halfspace.halfspaceTime Bes p (10 * a + b) (signalCode g)
          A.solution time[f])).map fun x : ℝ => (x : ℂ)) := by
  have hc : checkAb A.ab = .ok (10 * a + b, false, false) := by
    have e : checkAb A.ab = checkAb (.int (10 * a + b)) := by rw [checkAb, hab]; rfl
    rw [e, checkAb_digits (by omega) (by omega)]
    have h1 : ¬ 3 < a := by omega
    have h2 : ¬ 3 < b := by omega
    simp [h1, h2]
  obtain ⟨src, rcv, q1, q2, n1, n2, z1, z2, hoa⟩ := coords_at m junk hsrc hrcv hls hlr
  obtain ⟨fo, hv, hfr, hrow⟩ := ana_flow Bes T hm sqrt junk K hU hA ht hc q1 q2
  have hfl : fo.freq.length = time.length := by rw [hfr]; simp
  obtain ⟨t0, ts, rfl⟩ := List.exists_cons_of_ne_nil ht0
  rw [List.map_cons] at hrow
  have hk := (diffusive_cases hs (A.signal.map signalCode) false false).2
  have hhd := (diffusive_cases hs none false false).1
  simp only [Bool.false_eq_true, or_self, if_false] at hk
  have h0 : ¬ rcv.1.length * src.1.length = 0 := by
    rw [n1, n2]; exact Nat.mul_ne_zero nr.ne' ns.ne'
  set S := anaSetup m junk A (t0 :: ts) fo (layerMed (U.medium (sParam m.minFreq (t0 :: ts) t0)) 0)
    (ts.map fun g => layerMed (U.medium (sParam m.minFreq (t0 :: ts) g)) 0) src rcv with hS
  have hpos : ∀ r s, r < numDipoles A.rcv → s < numDipoles A.src → S.pos (s * S.nrec + r) =
      ⟨rhoOf m.minOff (bc xr r - bc xs s) (bc yr r - bc ys s), thetaOf (bc xr r - bc xs s) (bc yr r - bc ys s), zs, zr,
        (firstMedium m U (t0 :: ts)).1, (firstMedium m U (t0 :: ts)).2⟩ := by
    intro r s hr hs'
    obtain ⟨o1, o2⟩ := hoa r s (by rw [n2]; exact hr) (by rw [n1]; exact hs')
    rw [← o1, ← o2, ← z1, ← z2]
    rfl
  cases hsg : A.signal with
  | none =>
    have ht' : A.freqtime = t0 :: ts := by
      have := ht
      rw [anaTime, hsg] at this
      exact Except.ok.inj this
    refine ⟨fun i r s => outList (Halfspace.halfspaceFreq Bes (S.pos (s * S.nrec + r)) (10 * a + b) A.solution (S.sval i)),
      ?_, fun f r s hf hr hs' => ⟨fun _ => ?_, fun g h => by cases h⟩⟩
    · rw [hsg, Option.map_none] at hk
      rw [analyticalFull_val, hv]
      unfold anaField
      rw [hsg, Option.map_none, hk]
      unfold anaEntries
      rw [hrow, hsg]
      simp only [Halfspace.analytical, Option.map_none, hk, hhd, hg hsg, if_true, Bool.false_eq_true, if_false]
      change ((if rcv.1.length * src.1.length = 0 then _ else _) : Except PyErr NdArray).bind _ = _
      rw [if_neg h0, bind_okE, ← n1, ← n2, ← hfl]
      rfl
    · simp only [hpos r s hr hs']
      congr 2
      rw [hS]
      simp only [anaSetup, hfr, ht', sParam]
      split_ifs with q
      · rw [getD_eq (by simpa using hf)]
        simp only [List.getElem_map]
        ring
      · rw [getD_eq (by simpa using hf)]
        simp only [List.getElem_map]
  | some g =>
    cases g with
    | wave n a s q => rw [hsg] at hsig; exact hsig.elim
    | num g =>
    refine ⟨fun i r s => (outList (Halfspace.halfspaceTime Bes (S.pos (s * S.nrec + r)) (10 * a + b)
        (signalCode (.num g)) A.solution (S.time i))).map fun x : ℝ => (x : ℂ),
      ?_, fun f r s hf hr hs' => ⟨fun h => (by cases h), fun g' h => ?_⟩⟩
    · rw [hsg, Option.map_some] at hk
      rw [analyticalFull_val, hv]
      unfold anaField
      rw [hsg, Option.map_some, hk]
      unfold anaEntries
      rw [hrow, hsg]
      simp only [Halfspace.analytical, Option.map_some, hk, hhd, if_true]
      change ((if rcv.1.length * src.1.length = 0 then _ else _) : Except PyErr NdArray).bind _ = _
      rw [if_neg h0, bind_okE, ← n1, ← n2, ← hfl]
      rfl
    · obtain rfl := Option.some.inj h
      simp only [hpos r s hr hs']
      congr 3
      rw [hS]
      simp only [anaSetup]
      rw [getD_eq hf]

/-- The entries of the complete fullspace, in terms of `fullspace`. -/
theorem fs_at (Bes : Halfspace.Bessel) (T : Time.FBack) {m : Mins} (hm : 0 < m.minRes) (sqrt : ℂ → ℂ) (junk : ℕ → ℝ)
    (K : Hooks) {A : AnaArgs} {U : UserModel} (hU : U.Valid m.minRes) (hA : Describes (anaDipole A) U)
    (hs : A.solution = "fs") (hg : A.signal = none) {c : ℕ × Bool × Bool} (hc : checkAb A.ab = .ok c) (h36 : c.1 ≠ 36)
    {xs ys xr yr : List ℝ} {zs zr : ℝ}
    (hsrc : A.src = [xs, ys, [zs]]) (hrcv : A.rcv = [xr, yr, [zr]])
    (hls : xs.length = ys.length ∨ xs.length = 1 ∨ ys.length = 1)
    (hlr : xr.length = yr.length ∨ xr.length = 1 ∨ yr.length = 1)
    (ns : 0 < numDipoles A.src) (nr : 0 < numDipoles A.rcv) :
    ∃ arr, (analyticalFull Bes T m sqrt junk K A).val = .ok (if A.squeeze then arr.squeeze else arr) ∧
      arr.shape = [A.freqtime.length, numDipoles A.rcv, numDipoles A.src] ∧
      ∀ (f r s : ℕ), f < A.freqtime.length → r < numDipoles A.rcv → s < numDipoles A.src →
        let ρ := rhoOf m.minOff (bc xr r - bc xs s) (bc yr r - bc ys s)
        let θ := thetaOf (bc xr r - bc xs s) (bc yr r - bc ys s)
        arr.get [f, r, s] = (Fullspace.fullspace sqrt
          (A.freqtime.map fun g => layerMed (U.medium (sParam m.minFreq A.freqtime g)) 0) ρ θ zs zr c.1 c.2.1 c.2.2).getD
            f 0 := by
  obtain ⟨src, rcv, q1, q2, n1, n2, z1, z2, hoa⟩ := coords_at m junk hsrc hrcv hls hlr
  have ht : (anaTime T m A).val = .ok A.freqtime := by rw [anaTime, hg]; rfl
  obtain ⟨fo, hv, hfr, hrow⟩ := ana_flow Bes T hm sqrt junk K hU hA ht hc q1 q2
  have hfl : fo.freq.length = A.freqtime.length := by rw [hfr]; simp
  have h0 : ¬ rcv.1.length * src.1.length = 0 := by
    rw [n1, n2]; exact Nat.mul_ne_zero nr.ne' ns.ne'
  rw [fs_field Bes sqrt m junk _ c src rcv hs hg, if_neg h0] at hv
  generalize hR : reshapeF _ _ _ _ = R at hv
  refine ⟨R, ?_, ?_, fun f r s hf hr hs' => ?_⟩
  · rw [analyticalFull_val, hv]
    rfl
  · rw [← hR]; simp only [reshapeF, n1, n2, hfl]
  · rw [← n2] at hr
    rw [← n1] at hs'
    intro ρ θ
    subst hR
    obtain ⟨o1, o2⟩ := hoa r s hr hs'
    rw [reshapeF_get _ _ _ _ hr hs', if_pos h36, hrow, show r + rcv.1.length * s = s * rcv.1.length + r by ring, o1, o2,
      z1, z2]

/-- Without displacement currents the medium is read off correctly, at every frequency. -/
theorem firstMedium_dc {m : Mins} (hm : 0 < m.minRes) {U : UserModel} (hU : U.Valid m.minRes) (hH : U.epsH 0 = 0)
    (hV : U.epsV 0 = 0) (time : List ℝ) : firstMedium m U time = (U.rhoH 0, UserModel.val U.aniso 1 0) := by
  have r0 : 0 < U.rhoH 0 := lt_of_lt_of_le hm (hU.rhoH 0 (by omega))
  have a0 := hU.aniso 0 (by omega)
  have hn : (0 : ℤ) ≤ 0 ∧ (0 : ℤ) < (U.z.length : ℤ) + 1 := ⟨le_refl _, by positivity⟩
  simp only [firstMedium, UserModel.medium, UserModel.layer, if_pos hn, Int.toNat_zero, hH, hV, zero_mul,
    Complex.ofReal_zero, mul_zero, add_zero, UserModel.rhoV]
  push_cast
  exact C35_medium r0 a0

theorem fullspace_one (sqrt : ℂ → ℂ) {meds : List Fullspace.Med} (h : ∀ q ∈ meds, 0 ≤ q.zetaH.im) {f : ℕ}
    (hf : f < meds.length) (off angle zs zr : ℝ) (ab : ℕ) :
    (Fullspace.fullspace sqrt meds off angle zs zr ab false false).getD f 0 =
      (Fullspace.fullspace sqrt [meds[f]] off angle zs zr ab false false).getD 0 0 := by
  have n : ∀ l : List Fullspace.Med, (∀ q ∈ l, 0 ≤ q.zetaH.im) →
      (open Classical in decide (∃ q ∈ l, (if (false && false) = true then q.dual else q).zetaH.im < 0)) = false := by
    intro l hl
    simp only [Bool.and_self, Bool.false_eq_true, if_false, decide_eq_false_iff_not, not_exists, not_and, not_lt]
    exact hl
  unfold Fullspace.fullspace
  rw [n meds h, n [meds[f]] (by simpa using h _ (List.getElem_mem hf)), List.getD_eq_getElem _ _ (by simpa using hf)]
  simp

/-- **C55, two routines for the same field.**  Electric components, permittivity zero and permeability one (the diffusive
approximation), every other property of the homogeneous medium, all coordinates, all frequencies or Laplace parameters:
`'fs'` (`kernel.fullspace`) and `'dfs'` (`kernel.halfspace`) return arrays of the same shape with the same entries. -/
theorem C55_dfs (Bes : Halfspace.Bessel) (T : Time.FBack) {m : Mins} (hm : 0 < m.minRes) (hfr : 0 < m.minFreq)
    (hof : 0 < m.minOff) {sqrt : ℂ → ℂ} (hq : Fullspace.IsSqrt sqrt) (junk : ℕ → ℝ) (K : Hooks) {A : AnaArgs}
    {U : UserModel} (hU : U.Valid m.minRes) (hA : Describes (anaDipole A) U) (eH : U.epsH 0 = 0) (eV : U.epsV 0 = 0)
    (mH : U.muH 0 = 1) (mV : U.muV 0 = 1) (hg : A.signal = none) (hL : A.isList = false) (hne : A.freqtime ≠ [])
    {a b : ℕ} (ha : 1 ≤ a ∧ a ≤ 3) (hb : 1 ≤ b ∧ b ≤ 3) (hab : toInt A.ab = .ok (10 * a + b))
    {xs ys xr yr : List ℝ} {zs zr : ℝ} (hsrc : A.src = [xs, ys, [zs]]) (hrcv : A.rcv = [xr, yr, [zr]])
    (hls : xs.length = ys.length ∨ xs.length = 1 ∨ ys.length = 1)
    (hlr : xr.length = yr.length ∨ xr.length = 1 ∨ yr.length = 1)
    (ns : 0 < numDipoles A.src) (nr : 0 < numDipoles A.rcv) :
    ∃ fs dfs : NdArray,
      (analyticalFull Bes T m sqrt junk K { A with solution := "fs" }).val =
        .ok (if A.squeeze then fs.squeeze else fs) ∧
      (analyticalFull Bes T m sqrt junk K { A with solution := "dfs" }).val =
        .ok (if A.squeeze then dfs.squeeze else dfs) ∧
      fs.shape = [A.freqtime.length, numDipoles A.rcv, numDipoles A.src] ∧ dfs.shape = fs.shape ∧
      ∀ f r s, f < A.freqtime.length → r < numDipoles A.rcv → s < numDipoles A.src →
        fs.get [f, r, s] = dfs.get [f, r, s] := by
  have hc : checkAb A.ab = .ok (10 * a + b, false, false) := by
    have e : checkAb A.ab = checkAb (.int (10 * a + b)) := by rw [checkAb, hab]; rfl
    rw [e, checkAb_digits (by omega) (by omega)]
    have h1 : ¬ 3 < a := by omega
    have h2 : ¬ 3 < b := by omega
    simp [h1, h2]
  have hel : 10 * a + b ∈ electric := by
    obtain ⟨a1, a2⟩ := ha
    obtain ⟨b1, b2⟩ := hb
    interval_cases a <;> interval_cases b <;> simp [electric]
  obtain ⟨fs, g1, g2, g3⟩ := fs_at Bes T hm sqrt junk K (A := { A with solution := "fs" }) hU hA rfl hg hc
    (by simp only; omega) hsrc hrcv hls hlr ns nr
  obtain ⟨e, d1, d2⟩ := diff_at Bes T hm sqrt junk K (A := { A with solution := "dfs" }) hU hA (by simp [diffusive])
    (fun _ => hL) (time := A.freqtime) (by rw [anaTime]; simp only [hg]; rfl) hne (by simp only [hg]; trivial) ha hb hab
    hsrc hrcv hls hlr ns nr
  have t4 : tupleOf "dfs" = none := by simp [tupleOf]
  refine ⟨fs, _, g1, d1, g2, ?_, fun f r s hf hr hs => ?_⟩
  · rw [g2]; exact (stack_whole t4 _ _ _ e (f := 0) nr ns).1
  · rw [g3 f r s hf hr hs]
    have w := (stack_whole t4 A.freqtime.length (numDipoles A.rcv) (numDipoles A.src) e (f := f) hr hs).2
    refine Eq.trans ?_ w.symm
    rw [(d2 f r s hf hr hs).1 hg]
    obtain ⟨s0, sre⟩ := sParam_spec hfr A.freqtime A.freqtime[f]
    have r0 : 0 < U.rhoH 0 := lt_of_lt_of_le hm (hU.rhoH 0 (by omega))
    rw [C35_fullspace Bes hq ⟨lt_max_of_lt_right hof, by rw [firstMedium_dc hm hU eH eV]; exact r0,
      by rw [firstMedium_dc hm hU eH eV]; exact hU.aniso 0 (by omega)⟩ hel sre (sParam_im hfr A.freqtime _).1 s0]
    have hn : (0 : ℤ) ≤ 0 ∧ (0 : ℤ) < (U.z.length : ℤ) + 1 := ⟨le_refl _, by positivity⟩
    have hmed : ∀ g, layerMed (U.medium (sParam m.minFreq A.freqtime g)) 0 = ⟨1 / (U.rhoH 0 : ℂ),
        1 / ((U.rhoH 0 : ℂ) * (UserModel.val U.aniso 1 0 : ℂ) ^ 2), sParam m.minFreq A.freqtime g * (Halfspace.mu0 : ℂ),
        sParam m.minFreq A.freqtime g * (Halfspace.mu0 : ℂ)⟩ := by
      intro g
      simp only [layerMed, UserModel.medium, UserModel.layer, if_pos hn, Int.toNat_zero, eH, eV, mH, mV, zero_mul, one_mul,
        Complex.ofReal_zero, mul_zero, add_zero, UserModel.rhoV]
      push_cast
      rfl
    have hmu : 0 < Halfspace.mu0 := vacuum_pos
    rw [fullspace_one sqrt _ (by simpa using hf)]
    · simp only [List.getElem_map, hmed, firstMedium_dc hm hU eH eV]
      rfl
    · intro q hq'
      simp only [List.mem_map] at hq'
      obtain ⟨g, _, rfl⟩ := hq'
      rw [hmed]
      simp only [Complex.mul_im, Complex.ofReal_re, Complex.ofReal_im, mul_zero, zero_add]
      have := (sParam_im hfr A.freqtime g).1
      positivity

/-! ## One frequency or time at a time -/

theorem describes_freq {A : AnaArgs} {U : UserModel} (h : Describes (anaDipole A) U) (l : List ℝ) :
    Describes (anaDipole { A with freqtime := l }) U := by
  obtain ⟨k, h⟩ := h
  refine ⟨k, ?_⟩
  cases h with
  | topDown lo hi h1 h2 h3 h4 h5 h6 h7 => exact .topDown lo hi h1 h2 h3 h4 h5 h6 h7
  | bottomUp lo hi h1 h2 h3 h4 h5 h6 h7 h8 h9 => exact .bottomUp lo hi h1 h2 h3 h4 h5 h6 h7 h8 h9

/-- **C55, single frequencies and times, without displacement currents.**  If the permittivities are zero, then the values
of a diffusive solution at one of several positive frequencies, or at one of several times, are those of a call with that
frequency or time alone.  (Missing for the full claim: displacement currents, where it fails, see `C55_single_violated`.) -/
theorem C55_single_partial (Bes : Halfspace.Bessel) (T : Time.FBack) {m : Mins} (hm : 0 < m.minRes) (sqrt : ℂ → ℂ)
    (junk : ℕ → ℝ) (K : Hooks) {A : AnaArgs} {U : UserModel} (hU : U.Valid m.minRes) (hA : Describes (anaDipole A) U)
    (eH : U.epsH 0 = 0) (eV : U.epsV 0 = 0) (hs : A.solution ∈ ["dfs", "dhs", "dsplit", "dtetm"])
    (hg : (A.signal = none ∧ A.isList = false ∧ ∀ g ∈ A.freqtime, 0 < g) ∨
      ∃ q, A.signal = some (.num q) ∧ -2 < q ∧ q < 2)
    {a b : ℕ} (ha : 1 ≤ a ∧ a ≤ 3) (hb : 1 ≤ b ∧ b ≤ 3) (hab : toInt A.ab = .ok (10 * a + b))
    {xs ys xr yr : List ℝ} {zs zr : ℝ} (hsrc : A.src = [xs, ys, [zs]]) (hrcv : A.rcv = [xr, yr, [zr]])
    (hls : xs.length = ys.length ∨ xs.length = 1 ∨ ys.length = 1)
    (hlr : xr.length = yr.length ∨ xr.length = 1 ∨ yr.length = 1)
    (ns : 0 < numDipoles A.src) (nr : 0 < numDipoles A.rcv) {f : ℕ} (hf : f < A.freqtime.length) :
    ∃ all one : NdArray,
      (analyticalFull Bes T m sqrt junk K A).val = .ok (if A.squeeze then all.squeeze else all) ∧
      (analyticalFull Bes T m sqrt junk K { A with freqtime := [A.freqtime[f]] }).val =
        .ok (if A.squeeze then one.squeeze else one) ∧
      ∀ r s, r < numDipoles A.rcv → s < numDipoles A.src →
        (A.solution = "dfs" ∨ A.solution = "dhs" → all.shape = [A.freqtime.length, numDipoles A.rcv, numDipoles A.src] ∧
          one.shape = [1, numDipoles A.rcv, numDipoles A.src] ∧ all.get [f, r, s] = one.get [0, r, s]) ∧
        ∀ w, (A.solution, w) ∈ [("dsplit", 3), ("dtetm", 5)] →
          all.shape = [w, A.freqtime.length, numDipoles A.rcv, numDipoles A.src] ∧
          one.shape = [w, 1, numDipoles A.rcv, numDipoles A.src] ∧ ∀ t, all.get [t, f, r, s] = one.get [t, 0, r, s] := by
  have hs' : A.solution ∈ diffusive := by simpa [diffusive] using hs
  have key : ∃ e e1 : ℕ → ℕ → ℕ → List ℂ,
      (analyticalFull Bes T m sqrt junk K A).val = .ok (
        let arr := stack A.solution A.freqtime.length (numDipoles A.rcv) (numDipoles A.src) e
        if A.squeeze then arr.squeeze else arr) ∧
      (analyticalFull Bes T m sqrt junk K { A with freqtime := [A.freqtime[f]] }).val = .ok (
        let arr := stack A.solution 1 (numDipoles A.rcv) (numDipoles A.src) e1
        if A.squeeze then arr.squeeze else arr) ∧
      ∀ r s, r < numDipoles A.rcv → s < numDipoles A.src → e f r s = e1 0 r s := by
    rcases hg with ⟨h0, hL, hpos⟩ | ⟨q, hq, q1⟩
    · obtain ⟨e, d1, d2⟩ := diff_at Bes T hm sqrt junk K (A := A) hU hA hs' (fun _ => hL) (time := A.freqtime)
        (by rw [anaTime, h0]; rfl) (List.ne_nil_of_length_pos (by omega)) (by rw [h0]; trivial) ha hb hab hsrc hrcv hls
        hlr ns nr
      obtain ⟨e1, b1, b2⟩ := diff_at Bes T hm sqrt junk K (A := { A with freqtime := [A.freqtime[f]] }) hU
        (describes_freq hA _) hs'
        (fun _ => hL) (time := [A.freqtime[f]]) (by rw [anaTime]; simp only [h0]; rfl) (by simp)
        (by simp only [h0]; trivial) ha hb hab hsrc hrcv hls hlr ns nr
      refine ⟨e, e1, d1, b1, fun r s hr hs0 => ?_⟩
      have u1 := (d2 f r s hf hr hs0).1 h0
      have u2 := (b2 0 r s (by simp) hr hs0).1 h0
      rw [u1, u2]
      have p1 : ∃ g ∈ A.freqtime, 0 < g := ⟨_, List.getElem_mem hf, hpos _ (List.getElem_mem hf)⟩
      have p2 : ∃ g ∈ [A.freqtime[f]], 0 < g := ⟨_, by simp, hpos _ (List.getElem_mem hf)⟩
      simp only [firstMedium_dc hm hU eH eV, sParam, if_pos p1, if_pos p2, List.getElem_cons_zero]
    · obtain ⟨e, d1, d2⟩ := diff_at Bes T hm sqrt junk K (A := A) hU hA hs' (fun h => by rw [hq] at h; cases h)
        (time := A.freqtime.map (cut m.minTime)) (by rw [time_num T m A hq, if_pos q1])
        (List.ne_nil_of_length_pos (by simp; omega)) (by rw [hq]; exact q1) ha hb hab hsrc hrcv hls hlr ns nr
      obtain ⟨e1, b1, b2⟩ := diff_at Bes T hm sqrt junk K (A := { A with freqtime := [A.freqtime[f]] }) hU
        (describes_freq hA _) hs'
        (fun h => by rw [show A.signal = none from h] at hq; cases hq) (time := [A.freqtime[f]].map (cut m.minTime))
        (by rw [time_num T m { A with freqtime := [A.freqtime[f]] } hq, if_pos q1])
        (by simp) (by simp only [hq]; exact q1) ha hb hab hsrc hrcv hls hlr ns nr
      rw [List.length_map] at d1
      refine ⟨e, e1, d1, b1, fun r s hr hs0 => ?_⟩
      have u1 := (d2 f r s (by simpa using hf) hr hs0).2 _ hq
      have u2 := (b2 0 r s (by simp) hr hs0).2 _ hq
      rw [u1, u2]
      simp only [firstMedium_dc hm hU eH eV, List.getElem_map, List.getElem_cons_zero]
  obtain ⟨e, e1, k1, k2, k3⟩ := key
  refine ⟨_, _, k1, k2, fun r s hr hs0 => ⟨fun hw => ?_, fun w hw => ?_⟩⟩
  · have t : tupleOf A.solution = none := by rcases hw with h | h <;> simp [h, tupleOf]
    obtain ⟨v1, v2⟩ := stack_whole t A.freqtime.length _ _ e (f := f) hr hs0
    obtain ⟨v3, v4⟩ := stack_whole t 1 _ _ e1 (f := 0) hr hs0
    exact ⟨v1, v3, by rw [v2, v4, k3 r s hr hs0]⟩
  · have t : tupleOf A.solution = some w := by
      simp only [List.mem_cons, Prod.mk.injEq, List.not_mem_nil, or_false] at hw
      rcases hw with ⟨h, rfl⟩ | ⟨h, rfl⟩ <;> simp [h, tupleOf]
    refine ⟨(stack_tuple t A.freqtime.length _ _ e (t := 0) hf hr hs0).1,
      (stack_tuple t 1 _ _ e1 (t := 0) (f := 0) one_pos hr hs0).1, fun i => ?_⟩
    rw [(stack_tuple t A.freqtime.length _ _ e (t := i) hf hr hs0).2,
      (stack_tuple t 1 _ _ e1 (t := i) (f := 0) one_pos hr hs0).2, k3 r s hr hs0]

/-- The field of a vertical dipole at its own depth depends on the permittivity the medium was read off with. -/
theorem direct33_inj (B : Halfspace.Bessel) {off angle z ρ w v ω : ℝ} (ho : 0 < off) (hr : 0 < ρ) (hω : 0 < ω)
    (h : (outList (Halfspace.halfspaceFreq B ⟨off, angle, z, z,
        (Halfspace.medium (1 / ρ + Complex.I * w) (1 / ρ + Complex.I * w)).1,
        (Halfspace.medium (1 / ρ + Complex.I * w) (1 / ρ + Complex.I * w)).2⟩ 33 "dfs" (Complex.I * ω))).getD 0 0 =
      (outList (Halfspace.halfspaceFreq B ⟨off, angle, z, z,
        (Halfspace.medium (1 / ρ + Complex.I * v) (1 / ρ + Complex.I * v)).1,
        (Halfspace.medium (1 / ρ + Complex.I * v) (1 / ρ + Complex.I * v)).2⟩ 33 "dfs" (Complex.I * ω))).getD 0 0) :
    w ^ 2 = v ^ 2 := by
  rw [medium_eperm hr, medium_eperm hr] at h
  have o : ∀ p, (outList (Halfspace.halfspaceFreq B p 33 "dfs" (Complex.I * ω))).getD 0 0 =
      (Halfspace.partsFreq B p 33 (Complex.I * ω)).direct := fun p => rfl
  rw [o, o] at h
  have h1 : ∀ w : ℝ, (0 : ℝ) < 1 + (w * ρ) ^ 2 := fun w => by positivity
  have h2 : ∀ w : ℝ, 0 < Real.sqrt (1 + (w * ρ) ^ 2) := fun w => Real.sqrt_pos.2 (h1 w)
  have e : ∀ w : ℝ, ρ / (1 + (w * ρ) ^ 2) * Real.sqrt (1 + (w * ρ) ^ 2) ^ 2 = ρ := fun w => by
    rw [Real.sq_sqrt (h1 w).le]; exact div_mul_cancel₀ _ (h1 w).ne'
  rw [direct33 B ho (div_pos hr (h1 w)) (h2 w), direct33 B ho (div_pos hr (h1 v)) (h2 v), e, e] at h
  set G := (((ρ / off ^ 3 : ℝ) : ℂ) + ((Real.sqrt (Halfspace.mu0 * ρ) / off ^ 2 : ℝ) : ℂ) *
    Kernel.csqrt (Complex.I * ω) + ((Halfspace.mu0 / off : ℝ) : ℂ) * (Complex.I * ω)) / (4 * Real.pi) *
        Complex.exp (-2 * Kernel.csqrt (Complex.I * ω * ((Halfspace.mu0 * off ^ 2 / (ρ * 4) : ℝ) : ℂ))) with hG
  have g0 : G ≠ 0 := by
    rw [hG]
    refine mul_ne_zero (div_ne_zero ?_ ?_) (Complex.exp_ne_zero _)
    · intro hz
      have hz := congrArg Complex.re hz
      have hq : 0 ≤ (Kernel.csqrt (Complex.I * ω)).re := (Lemmas.csqrt_re_pos (by simpa using hω.ne')).le
      rw [Complex.add_re, Complex.add_re, Complex.re_ofReal_mul, Complex.re_ofReal_mul,
        Complex.ofReal_re] at hz
      have : (Complex.I * (ω : ℂ)).re = 0 := by simp
      rw [this, mul_zero, add_zero, Complex.zero_re] at hz
      have a1 : 0 < ρ / off ^ 3 := by positivity
      have a2 : 0 ≤ Real.sqrt (Halfspace.mu0 * ρ) / off ^ 2 * (Kernel.csqrt (Complex.I * ω)).re := by positivity
      linarith
    · have := Real.pi_pos.ne'
      exact mul_ne_zero (by norm_num) (by exact_mod_cast this)
  have h := neg_inj.1 (mul_right_cancel₀ g0 h)
  have h : Real.sqrt (1 + (w * ρ) ^ 2) = Real.sqrt (1 + (v * ρ) ^ 2) := by exact_mod_cast h
  have h := (Real.sqrt_inj (h1 w).le (h1 v).le).1 h
  have h : w ^ 2 * ρ ^ 2 = v ^ 2 * ρ ^ 2 := by linear_combination h
  exact mul_right_cancel₀ (by positivity) h

/-- **C55, single frequencies: violated with displacement currents.**  Every isotropic medium with permittivity (the
default is one), every pair of distinct frequencies, a vertical dipole and a vertical receiver at the same depth, every
offset: the value of `'dfs'` at the second frequency is another one if the first frequency is in the list as well. -/
theorem C55_single_violated (Bes : Halfspace.Bessel) (T : Time.FBack) {m : Mins} (hm : 0 < m.minRes)
    (hfr : 0 < m.minFreq) (hof : 0 < m.minOff) (sqrt : ℂ → ℂ) (junk : ℕ → ℝ) (K : Hooks) {A : AnaArgs} {U : UserModel}
    (hU : U.Valid m.minRes) (hA : Describes (anaDipole A) U) (iso : UserModel.val U.aniso 1 0 = 1) (e0 : 0 < U.epsH 0)
    (eV : U.epsV 0 = U.epsH 0) (hs : A.solution = "dfs") (hg : A.signal = none) (hL : A.isList = false)
    (hab : toInt A.ab = .ok 33) {xs ys xr yr : List ℝ} {z : ℝ} (hsrc : A.src = [xs, ys, [z]]) (hrcv : A.rcv = [xr, yr, [z]])
    (hls : xs.length = ys.length ∨ xs.length = 1 ∨ ys.length = 1)
    (hlr : xr.length = yr.length ∨ xr.length = 1 ∨ yr.length = 1)
    (ns : 0 < numDipoles A.src) (nr : 0 < numDipoles A.rcv) {f0 f1 : ℝ} (h0 : m.minFreq ≤ f0) (h1 : m.minFreq ≤ f1)
    (hne : f0 ≠ f1) :
    ∃ all one : NdArray,
      (analyticalFull Bes T m sqrt junk K { A with freqtime := [f0, f1] }).val =
        .ok (if A.squeeze then all.squeeze else all) ∧
      (analyticalFull Bes T m sqrt junk K { A with freqtime := [f1] }).val =
        .ok (if A.squeeze then one.squeeze else one) ∧
      all.shape = [2, numDipoles A.rcv, numDipoles A.src] ∧ one.shape = [1, numDipoles A.rcv, numDipoles A.src] ∧
      ∀ r s, r < numDipoles A.rcv → s < numDipoles A.src → all.get [1, r, s] ≠ one.get [0, r, s] := by
  have go := fun l : List ℝ => diff_at Bes T hm sqrt junk K (A := { A with freqtime := l }) hU
    (describes_freq hA l)
    (by simp only [hs]; simp [diffusive]) (fun _ => hL) (time := l) (by rw [anaTime]; simp only [hg]; rfl)
  have r0 : 0 < U.rhoH 0 := lt_of_lt_of_le hm (hU.rhoH 0 (by omega))
  have hfm : ∀ g l, m.minFreq ≤ g → firstMedium m U (g :: l) =
      Halfspace.medium (1 / (U.rhoH 0 : ℂ) + Complex.I * ((2 * Real.pi * g * (U.epsH 0 * epsVac) : ℝ) : ℂ))
        (1 / (U.rhoH 0 : ℂ) + Complex.I * ((2 * Real.pi * g * (U.epsH 0 * epsVac) : ℝ) : ℂ)) := by
    intro g l hg'
    have hn : (0 : ℤ) ≤ 0 ∧ (0 : ℤ) < (U.z.length : ℤ) + 1 := ⟨le_refl _, by positivity⟩
    have hp : ∃ x ∈ g :: l, 0 < x := ⟨g, by simp, lt_of_lt_of_le hfr hg'⟩
    simp only [firstMedium, UserModel.medium, UserModel.layer, if_pos hn, Int.toNat_zero, eV, UserModel.rhoV, iso, one_pow,
      mul_one, sParam, if_pos hp, List.headD_cons, max_eq_left hg']
    push_cast
    congr 2 <;> ring
  obtain ⟨e, d1, d2⟩ := go [f0, f1] (by simp) (by simp only [hg]; trivial) (a := 3) (b := 3) (by omega) (by omega) hab hsrc
    hrcv hls hlr ns nr
  obtain ⟨e1, b1, b2⟩ := go [f1] (by simp) (by simp only [hg]; trivial) (a := 3) (b := 3) (by omega) (by omega) hab hsrc
    hrcv hls hlr ns nr
  have t : tupleOf A.solution = none := by simp [hs, tupleOf]
  refine ⟨_, _, d1, b1, (stack_whole t _ _ _ e (f := 0) nr ns).1, (stack_whole t _ _ _ e1 (f := 0) nr ns).1,
    fun r s hr hs' => ?_⟩
  have u1 := (stack_whole t 2 _ _ e (f := 1) hr hs').2
  have u2 := (stack_whole t 1 _ _ e1 (f := 0) hr hs').2
  intro h
  have h : (e 1 r s).getD 0 0 = (e1 0 r s).getD 0 0 := u1.symm.trans (h.trans u2)
  rw [(d2 1 r s (by simp) hr hs').1 hg, (b2 0 r s (by simp) hr hs').1 hg] at h
  have p1 : ∃ x ∈ [f0, f1], 0 < x := ⟨f1, by simp, lt_of_lt_of_le hfr h1⟩
  have p2 : ∃ x ∈ [f1], 0 < x := ⟨f1, by simp, lt_of_lt_of_le hfr h1⟩
  have c1 : ((2 : ℂ) * Real.pi * Complex.I * (f1 : ℂ)) = Complex.I * ((2 * Real.pi * f1 : ℝ) : ℂ) := by push_cast; ring
  simp only [hfm f0 _ h0, hfm f1 _ h1, hs, List.getElem_cons_zero, List.getElem_cons_succ, sParam, if_pos p1, if_pos p2,
    max_eq_left h1, c1] at h
  have q0 : 0 < f0 := lt_of_lt_of_le hfr h0
  have q1 : 0 < f1 := lt_of_lt_of_le hfr h1
  have hpi := Real.pi_pos
  have hv : 0 < epsVac := by unfold epsVac muVac; positivity
  have w := direct33_inj Bes (off := rhoOf m.minOff (bc xr r - bc xs s) (bc yr r - bc ys s)) (lt_max_of_lt_right hof) r0
    (by positivity) h
  have w := (pow_left_inj₀ (by positivity) (by positivity) two_ne_zero).1 w
  apply hne
  have c : 0 < 2 * Real.pi * (U.epsH 0 * epsVac) := by positivity
  exact mul_left_cancel₀ c.ne' (by linear_combination w)

/-! ## Concrete cases -/

/-- A homogeneous half-space of 10 Ωm; permittivity `eps`. -/
noncomputable def land (eps : Option (List ℝ)) : UserModel := ⟨[], [10], none, eps, none, none, none⟩

theorem land_valid {eps : Option (List ℝ)} (h : eps = none ∨ eps = some [0]) : (land eps).Valid 1e-20 where
  order := by simp [land]
  len := by simp [land]
  lens := by
    intro l hl
    rcases h with rfl | rfl
    · simp [land] at hl
    · simp [land] at hl; simp [hl, land]
  rhoH := by
    intro i hi
    simp only [land, List.length_nil] at hi
    interval_cases i; norm_num [UserModel.rhoH, land]
  rhoV := by
    intro i hi
    simp only [land, List.length_nil] at hi
    interval_cases i; norm_num [UserModel.rhoV, UserModel.rhoH, UserModel.val, land]
  aniso := fun i _ => by norm_num [UserModel.val, land]
  epsH := by
    intro i hi
    simp only [land, List.length_nil] at hi
    interval_cases i
    rcases h with rfl | rfl <;> norm_num [UserModel.epsH, UserModel.val, land]
  epsV := by
    intro i hi
    simp only [land, List.length_nil] at hi
    interval_cases i
    rcases h with rfl | rfl <;> norm_num [UserModel.epsV, UserModel.epsH, UserModel.val, land]
  muH := fun i _ => by norm_num [UserModel.muH, UserModel.val, land]
  muV := fun i _ => by norm_num [UserModel.muV, UserModel.muH, UserModel.val, land]

/-- Vertical dipole and two vertical receivers at 100 m depth, two frequencies as array. -/
noncomputable def landArgs (eps : Option (List ℝ)) : AnaArgs where
  src := [[0], [0], [100]]
  rcv := [[1000, 2000], [0], [100]]
  res := .array [10]
  freqtime := [1, 10]
  isList := false
  solution := "dfs"
  signal := none
  ab := .int 33
  aniso := none
  epermH := eps
  epermV := none
  mpermH := none
  mpermV := none
  squeeze := false
  verb := 2

theorem land_describes (eps : Option (List ℝ)) : Describes (anaDipole (landArgs eps)) (land eps) :=
  ⟨_, .topDown false false (by simp [anaDipole, landArgs, land, allDepths]) rfl rfl rfl rfl rfl rfl⟩

theorem land_mins : (0 : ℝ) < Mins.init.minRes ∧ (0 : ℝ) < Mins.init.minFreq ∧ (0 : ℝ) < Mins.init.minOff := by
  norm_num [Mins.init]

/-- `'fs'` and `dipole`, in the same fullspace. -/
example (Bes : Halfspace.Bessel) (T : Time.FBack) (B : Back) :
    (analyticalFull Bes T B.m B.sqrt B.junk ⟨none, none⟩ { landArgs none with solution := "fs" }).val =
      (Model.dipole B (anaDipole (landArgs none))).val :=
  C55_dipole Bes T B ⟨none, none⟩ (A := { landArgs none with solution := "fs" }) none rfl rfl rfl

theorem land_accept {A : AnaArgs} (Bes : Halfspace.Bessel) (T : Time.FBack) (m : Mins) (sqrt : ℂ → ℂ) (junk : ℕ → ℝ)
    (h : ∃ g l sol, SignalOK g ∧ sol ∈ diffusive ∧ (g = none → l = false) ∧
      A = { landArgs none with signal := g, isList := l, solution := sol }) :
    ∃ arr, (analyticalFull Bes T m sqrt junk ⟨none, none⟩ A).val = .ok arr := by
  obtain ⟨g, l, sol, h1, h2, h3, rfl⟩ := h
  refine (C55_accept Bes T m sqrt junk (Or.inl rfl)).1.2 ⟨h1, ⟨rfl, ?_, ?_⟩, ⟨3, 3, by omega, by omega, rfl,
    Or.inr ⟨h2, by omega, by omega, by simp [landArgs], h3⟩⟩, ?_, ?_, by simp [numDipoles, landArgs],
    by simp [numDipoles, landArgs]⟩
  · intro l hl; simp [landArgs] at hl
  · intro e he; simp [landArgs, ResArg.extra] at he
  · simp [CoordsOK, landArgs]
  · simp [CoordsOK, landArgs]

/-- A step response comes as an array, also for times as list. -/
example (Bes : Halfspace.Bessel) (T : Time.FBack) : ∃ arr, (analyticalFull Bes T Mins.init csqrt (fun _ => 0) ⟨none, none⟩
    { landArgs none with signal := some (.num 1), isList := true, solution := "dhs" }).val = .ok arr :=
  land_accept _ _ _ _ _ ⟨some (.num 1), true, "dhs", by norm_num [SignalOK], by simp [diffusive], by simp, rfl⟩

/-- Its parts add up: three of the four solutions, for two times and two receivers. -/
example (Bes : Halfspace.Bessel) (T : Time.FBack) : ∃ arr : String → NdArray, (∀ sol ∈ diffusive,
      (analyticalFull Bes T Mins.init csqrt (fun _ => 0) ⟨none, none⟩
        { landArgs none with signal := some (.num 1), solution := sol }).val = .ok (arr sol)) ∧ SumsUp arr := by
  rcases C55_sums Bes T Mins.init csqrt (fun _ => 0) ⟨none, none⟩ { landArgs none with signal := some (.num 1) } with
    ⟨e, h⟩ | ⟨arr, h, hs⟩
  · exfalso
    obtain ⟨arr, h'⟩ := land_accept Bes T Mins.init csqrt (fun _ => 0)
      ⟨some (.num 1), false, "dhs", by norm_num [SignalOK], by simp [diffusive], by simp, rfl⟩
    have h := h "dhs" (by simp [diffusive])
    have h' : (analyticalFull Bes T Mins.init csqrt (fun _ => 0) ⟨none, none⟩
      { landArgs none with signal := some (.num 1), solution := "dhs" }).val = .ok arr := h'
    rw [h'] at h; cases h
  · exact ⟨arr, h, hs⟩

/-- Frequencies as list, a magnetic receiver, the complete fullspace in the time domain: rejected. -/
example (Bes : Halfspace.Bessel) (T : Time.FBack) (A : AnaArgs)
    (h : A = { landArgs none with isList := true } ∨ A = { landArgs none with ab := .int 43 } ∨
      A = { landArgs none with solution := "fs", signal := some (.num 0) }) :
    ¬ ∃ arr, (analyticalFull Bes T Mins.init csqrt (fun _ => 0) ⟨none, none⟩ A).val = .ok arr := by
  rw [(C55_accept Bes T Mins.init csqrt (fun _ => 0) (Or.inl rfl)).1]
  rintro ⟨_, _, ⟨a, b, _, _, h1, h2⟩, _⟩
  rcases h with rfl | rfl | rfl
  · rcases h2 with ⟨h2, _⟩ | ⟨_, _, _, _, h2⟩
    · simp [landArgs] at h2
    · simp [landArgs] at h2
  · rcases h2 with ⟨h2, _⟩ | ⟨_, h3, h4, _, h2⟩
    · simp [landArgs] at h2
    · have h1 : (Except.ok 43 : Except PyErr ℤ) = .ok (10 * a + b) := h1
      have h1 := Except.ok.inj h1
      omega
  · rcases h2 with ⟨_, h2⟩ | ⟨h2, _⟩
    · cases h2
    · simp [diffusive] at h2

/-- The complete fullspace at 10 Hz: the vertical component of the field of the vertical dipole, 2 km from it. -/
example (Bes : Halfspace.Bessel) (T : Time.FBack) : ∃ arr, (analyticalFull Bes T Mins.init csqrt (fun _ => 0) ⟨none, none⟩
      { landArgs none with solution := "fs" }).val = .ok arr ∧ arr.shape = [2, 2, 1] ∧
    ∃ E H : Vec, IsDipoleField ((land none).medium (2 * Real.pi * Complex.I * (10 : ℝ))) 3 100 True E H ∧
      arr.get [1, 1, 0] = vecComp E H 3 2000 0 100 := by
  obtain ⟨m1, m2, m3⟩ := land_mins
  obtain ⟨arr, h1, h2, E, H, h3⟩ := C55_field m1 m2 m3 csqrt_isSqrt Bes T (fun _ => 0) ⟨none, none⟩
    (A := { landArgs none with solution := "fs" }) rfl rfl (land_valid (Or.inl rfl)) (land_describes none) (a := 3)
    (b := 3) (by omega) (by omega) rfl rfl rfl (by simp) (by simp) (by simp [numDipoles, landArgs])
    (by simp [numDipoles, landArgs])
  obtain ⟨g1, g2⟩ := h3 1 (by simp [landArgs])
  refine ⟨arr, h1, by rw [h2]; simp [landArgs, numDipoles], E 1, H 1, ?_, ?_⟩
  · have e : sParam Mins.init.minFreq (landArgs none).freqtime ((landArgs none).freqtime[1]'(by simp [landArgs])) =
        2 * Real.pi * Complex.I * (10 : ℝ) := by
      have p : ∃ x ∈ ([1, 10] : List ℝ), 0 < x := ⟨1, by simp, by norm_num⟩
      have q : ∀ n : ℝ, 0 < n → n ≤ 10 → sParam n [1, 10] 10 = 2 * Real.pi * Complex.I * (10 : ℝ) := fun n _ hn => by
        rw [sParam, if_pos p, max_eq_left hn]
      exact q _ m2 (by norm_num [Mins.init])
    have g1 : IsDipoleField ((land none).medium (sParam Mins.init.minFreq (landArgs none).freqtime
      ((landArgs none).freqtime[1]'(by simp [landArgs])))) 3 100
        ((∃ g ∈ (landArgs none).freqtime, 0 < g) ∧ 0 < (land none).epsH 0) (E 1) (H 1) := g1
    rw [e] at g1
    have p : (∃ g ∈ (landArgs none).freqtime, 0 < g) ∧ 0 < (land none).epsH 0 :=
      ⟨⟨1, by simp [landArgs], by norm_num⟩, by norm_num [UserModel.epsH, UserModel.val, land]⟩
    exact ⟨fun x y z h _ => g1.maxwell x y z h fun _ => p, fun a ρ θ z ha hr hz _ => g1.waves a ρ θ z ha hr hz fun _ _ => p⟩
  · have g2 := g2 1 0 (by simp [numDipoles, landArgs]) (by simp [numDipoles, landArgs])
    have r : rhoOf Mins.init.minOff (bc [1000, 2000] 1 - bc [0] 0) (bc [0] 1 - bc [0] 0) = 2000 := by
      have : Real.sqrt (2000 ^ 2) = 2000 := Real.sqrt_sq (by norm_num)
      simp [rhoOf, bc, Mins.init, this]
      norm_num
    have t : thetaOf (bc [1000, 2000] 1 - bc [0] 0) (bc [0] 1 - bc [0] 0) = 0 := by
      have : ((⟨2000, 0⟩ : ℂ)) = ((2000 : ℝ) : ℂ) := rfl
      simp [thetaOf, bc]
      rw [this]; exact Complex.arg_ofReal_of_nonneg (by norm_num)
    simp only [r, t, Real.cos_zero, Real.sin_zero, mul_one, mul_zero] at g2
    exact g2

/-- Without displacement currents the two routines agree, and a single frequency may be asked for. -/
example (Bes : Halfspace.Bessel) (T : Time.FBack) : ∃ fs dfs one,
    (analyticalFull Bes T Mins.init csqrt (fun _ => 0) ⟨none, none⟩
      { landArgs (some [0]) with solution := "fs" }).val = .ok fs ∧
    (analyticalFull Bes T Mins.init csqrt (fun _ => 0) ⟨none, none⟩ (landArgs (some [0]))).val = .ok dfs ∧
    (analyticalFull Bes T Mins.init csqrt (fun _ => 0) ⟨none, none⟩
      { landArgs (some [0]) with freqtime := [10] }).val = .ok one ∧
    fs.get [1, 1, 0] = dfs.get [1, 1, 0] ∧ dfs.get [1, 1, 0] = one.get [0, 1, 0] := by
  obtain ⟨m1, m2, m3⟩ := land_mins
  obtain ⟨fs, dfs, h1, h2, _, _, h3⟩ := C55_dfs Bes T m1 m2 m3 csqrt_isSqrt (fun _ => 0) ⟨none, none⟩
    (A := landArgs (some [0])) (land_valid (Or.inr rfl)) (land_describes _) (by simp [land, UserModel.epsH, UserModel.val])
    (by simp [land, UserModel.epsV, UserModel.epsH, UserModel.val]) (by simp [land, UserModel.muH, UserModel.val])
    (by simp [land, UserModel.muV, UserModel.muH, UserModel.val]) rfl rfl (by simp [landArgs]) (a := 3) (b := 3) (by omega)
    (by omega) rfl rfl rfl (by simp) (by simp) (by simp [numDipoles, landArgs]) (by simp [numDipoles, landArgs])
  obtain ⟨all, one, g1, g2, g3⟩ := C55_single_partial Bes T m1 csqrt (fun _ => 0) ⟨none, none⟩
    (A := landArgs (some [0])) (land_valid (Or.inr rfl)) (land_describes _) (by simp [land, UserModel.epsH, UserModel.val])
    (by simp [land, UserModel.epsV, UserModel.epsH, UserModel.val]) (by simp [landArgs])
    (Or.inl ⟨rfl, rfl, by simp [landArgs]⟩) (a := 3) (b := 3) (by omega)
    (by omega) rfl rfl rfl (by simp) (by simp) (by simp [numDipoles, landArgs]) (by simp [numDipoles, landArgs]) (f := 1)
    (by simp [landArgs])
  have e : all = dfs := by
    have : (.ok all : Except PyErr NdArray) = .ok dfs := g1.symm.trans h2
    exact Except.ok.inj this
  subst e
  exact ⟨fs, all, one, h1, g1, g2, h3 1 1 0 (by simp [landArgs]) (by simp [numDipoles, landArgs])
    (by simp [numDipoles, landArgs]), ((g3 1 0 (by simp [numDipoles, landArgs]) (by simp [numDipoles, landArgs])).1
      (Or.inl rfl)).2.2⟩

/-- With the default permittivity, 10 Hz asked for together with 1 Hz gives another value than 10 Hz alone. -/
example (Bes : Halfspace.Bessel) (T : Time.FBack) : ∃ all one,
    (analyticalFull Bes T Mins.init csqrt (fun _ => 0) ⟨none, none⟩ (landArgs none)).val = .ok all ∧
    (analyticalFull Bes T Mins.init csqrt (fun _ => 0) ⟨none, none⟩ { landArgs none with freqtime := [10] }).val =
      .ok one ∧ all.get [1, 0, 0] ≠ one.get [0, 0, 0] := by
  obtain ⟨m1, m2, m3⟩ := land_mins
  obtain ⟨all, one, h1, h2, _, _, h3⟩ := C55_single_violated Bes T m1 m2 m3 csqrt (fun _ => 0) ⟨none, none⟩
    (A := landArgs none) (land_valid (Or.inl rfl)) (land_describes _) (by simp [land, UserModel.val])
    (by simp [land, UserModel.epsH, UserModel.val]) (by simp [land, UserModel.epsV, UserModel.epsH, UserModel.val]) rfl rfl
    rfl rfl rfl rfl (by simp) (by simp) (by simp [numDipoles, landArgs]) (by simp [numDipoles, landArgs]) (f0 := 1)
    (f1 := 10) (by norm_num [Mins.init]) (by norm_num [Mins.init]) (by norm_num)
  exact ⟨all, one, h1, h2, h3 0 0 (by simp [numDipoles, landArgs]) (by simp [numDipoles, landArgs])⟩

end Verif.Props
