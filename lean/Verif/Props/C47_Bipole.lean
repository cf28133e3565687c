import Verif.Model.BipoleFull
import Verif.Props.C44_Dipole

/-!
# C47: the array returned by `bipole` is the superposition of `dipole` responses
-/

namespace Verif.Props
open Verif.Py Verif.Py.W Verif.Utils Verif.Spec Verif.Model Verif.Kernel Verif.Lemmas Verif.Transform

/-! ## Specification of a pole -/

/-- What a pole (source or receiver) is for the calculation: points with weights, direction, length. -/
structure QPole where
  n : ℕ
  x : ℕ → ℝ
  y : ℕ → ℝ
  z : ℕ → ℝ
  w : ℕ → ℝ
  dir : ℕ → ℝ
  len : ℝ

/-- Point `t` of the segment from `a` to `b`. -/
def seg (a b t : ℝ) : ℝ := a + t * (b - a)

/-- Pole `k` of the given input: `[x, y, z, azimuth, dip]` is one point with unit length; `[x0, x1, y0, y1,
z0, z1]` is the segment between its end points, represented by the middle or by `pts` points with weights
that sum to one.  Depths are given up to 1e-8, points on the segment up to `δ`. -/
inductive IsPole (inp : List (List ℝ)) (k : ℕ) (pts : ℤ) (δ : ℝ) (P : QPole) : Prop
  | point (x y z a d : List ℝ) (h : inp = [x, y, z, a, d]) (n : P.n = 1) (hx : P.x 0 = bc x k)
      (hy : P.y 0 = bc y k) (hz : |P.z 0 - bc z k| ≤ 1e-8) (w : P.w 0 = 1) (len : P.len = 1)
      (dir : ∀ i, P.dir i = direction (bc a k * (Real.pi / 180)) (bc d k * (Real.pi / 180)) i)
  | segment (x0 x1 y0 y1 z0 z1 : List ℝ) (h : inp = [x0, x1, y0, y1, z0, z1]) (za zb : ℝ)
      (ha : |za - bc z0 k| ≤ 1e-8) (hb : |zb - bc z1 k| ≤ 1e-8)
      (n : P.n = if pts > 2 then pts.toNat else 1)
      (w : ∑ i ∈ Finset.range P.n, P.w i = 1)
      (len : P.len = Real.sqrt ((bc x1 k - bc x0 k) ^ 2 + (bc y1 k - bc y0 k) ^ 2 + (zb - za) ^ 2))
      (pos : 0 < P.len)
      (dx : P.len * P.dir 1 = bc x1 k - bc x0 k) (dy : P.len * P.dir 2 = bc y1 k - bc y0 k)
      (dz : P.len * P.dir 3 = zb - za)
      (on : ∀ i < P.n, ∃ t, 0 ≤ t ∧ t ≤ 1 ∧ (¬ pts > 2 → t = 1 / 2) ∧
        |P.x i - seg (bc x0 k) (bc x1 k) t| ≤ δ ∧ |P.y i - seg (bc y0 k) (bc y1 k) t| ≤ δ ∧
        |P.z i - seg za zb t| ≤ δ)

/-- Number of poles. -/
def numPoles (inp : List (List ℝ)) : ℕ := (inp.map List.length).foldl max 0

/-- Factor at the receiver: current density is conductivity times electric field, flux is permeability
times magnetic field (both times `s` in the code's convention). -/
noncomputable def fluxFactor (eta zeta : ℂ) : XType → ℂ
  | .field => 1
  | .flux => zeta
  | .current => eta

/-- The arguments of a call of `dipole` for one source point and one receiver point in the same model. -/
def BipoleArgs.toDipole (A : BipoleArgs) (xs ys zs xr yr zr : ℝ) (ab : ℕ) : DipoleArgs where
  src := [[xs], [ys], [zs]]
  rcv := [[xr], [yr], [zr]]
  depth := A.depth
  res := A.res
  freq := A.freq
  ab := .int ab
  aniso := A.aniso
  epermH := A.epermH
  epermV := A.epermV
  mpermH := A.mpermH
  mpermV := A.mpermV
  xdirect := A.xdirect
  loop := A.loop
  squeeze := false
  verb := A.verb

/-- The Hankel transform treats frequencies and offsets one by one. -/
def Pointwise (B : Back) : Prop :=
  ∀ zs zr ls lr abc ms mr, ∃ c k, Elementwise (B.hank zs zr ls lr abc ms mr) c k

/-! ## Poles -/

/-- The geometry of pole `k` as a pole of the specification. -/
noncomputable def qpole (g : AzmDip) (len : ℝ) : QPole :=
  ⟨g.intpts, g.tx, g.ty, g.tz, g.gw, direction (bc g.azm 0) (bc g.dip 0), len⟩

theorem checkPoles_pos {inp : List (List ℝ)} {p : Poles} (h : checkPoles inp = .ok p) :
    0 < maxPoles inp := by
  rcases Nat.eq_zero_or_pos (maxPoles inp) with h0 | h0
  · exfalso
    have hl : ∀ l ∈ inp, l = [] := fun l hl => by
      have := maxPoles_ge inp hl
      exact List.length_eq_zero_iff.1 (by omega)
    by_cases h5 : inp.length = 5 ∨ inp.length = 6
    · rcases h5 with h5 | h5
      · match inp, h5 with
        | [a, b, c, d, e], _ =>
          obtain rfl := hl a (by simp)
          obtain rfl := hl b (by simp)
          obtain rfl := hl c (by simp)
          obtain rfl := hl d (by simp)
          obtain rfl := hl e (by simp)
          cases h
      · match inp, h5 with
        | [a, b, c, d, e, f], _ =>
          obtain rfl := hl a (by simp)
          obtain rfl := hl b (by simp)
          obtain rfl := hl c (by simp)
          obtain rfl := hl d (by simp)
          obtain rfl := hl e (by simp)
          obtain rfl := hl f (by simp)
          cases h
    · rw [C16_poles_length (by tauto)] at h
      cases h
  · exact h0

/-- The poles the code makes of accepted input are the poles of the input. -/
theorem poles_spec {e : Ext} {δ : ℝ} (he : ExtOK e δ) {inp : List (List ℝ)} {p : Poles}
    (h : checkPoles inp = .ok p) (pts : ℤ) (st : ℝ) (isSrc : Bool) :
    PolesOK p ∧ p.n = numPoles inp ∧ 0 < p.n ∧ ∀ k < p.n, ∃ len,
      IsPole inp k pts δ (qpole (alone e p k pts st isSrc) len) ∧
      (0 < st → (alone e p k pts st isSrc).w 0 = if isSrc then len * st else len) := by
  have hpos := checkPoles_pos h
  have hlen : inp.length = 5 ∨ inp.length = 6 := by
    by_contra hn
    rw [C16_poles_length (by tauto)] at h
    cases h
  rcases hlen with h5 | h6
  · match inp, h5 with
    | [x, y, z, a, d], _ =>
      by_cases hs : SizesOK [x, y, z, a, d]
      swap
      · rw [(C16_poles_dipole x y z a d hpos).1 hs] at h; cases h
      obtain ⟨p', h', ok, hd, hn, hk⟩ := (C16_poles_dipole x y z a d hpos).2 hs
      obtain rfl : p' = p := Except.ok.inj (h'.symm.trans h)
      refine ⟨ok, hn, ok.pos, fun k hkn => ⟨1, ?_, ?_⟩⟩
      · obtain ⟨q1, q2, q3, q4, q5⟩ := hk k hkn
        have hg : alone e p' k pts st isSrc = getAzmDip e (single p' k) 0 pts st isSrc := rfl
        unfold getAzmDip at hg
        simp only [show (single p' k).isdipole = true from hd, if_true,
          show (single p' k).nz = 1 from rfl] at hg
        refine .point x y z a d rfl ?_ ?_ ?_ ?_ ?_ rfl ?_
        · simp only [qpole, hg]
        · simp only [qpole, hg]; exact q1
        · simp only [qpole, hg]; exact q2
        · simp only [qpole, hg]; exact q3
        · simp only [qpole, hg]
        · intro i
          simp only [qpole, hg, single, List.map_cons, List.map_nil, bc_single, q4, q5, deg2rad]
      · intro hst
        simp only [alone, getAzmDip, show (single p' k).isdipole = true from hd, if_true]
        cases isSrc <;> simp [hst]
  · match inp, h6 with
    | [x0, x1, y0, y1, z0, z1], _ =>
      by_cases hs : SizesOK [x0, x1, y0, y1, z0, z1]
      swap
      · rw [(C16_poles_finite x0 x1 y0 y1 z0 z1 hpos).1 hs] at h; cases h
      rcases (C16_poles_finite x0 x1 y0 y1 z0 z1 hpos).2 hs with ⟨hbad, -⟩ | ⟨p', h', ok, hd, hn, hk⟩
      · rw [hbad] at h; cases h
      obtain rfl : p' = p := Except.ok.inj (h'.symm.trans h)
      refine ⟨ok, hn, ok.pos, fun k hkn => ?_⟩
      obtain ⟨q1, q2, q3, q4, q5, q6⟩ := hk k hkn
      have hseg := ok.seg hd k hkn
      have hsd : (single p' k).isdipole = false := hd
      have hC : let G := alone e p' k pts st isSrc
          let dx := p'.x1 k - p'.x0 k
          let dy := p'.y1 k - p'.y0 k
          let dz := p'.z1 (depthIndex p' k) - p'.z0 (depthIndex p' k)
          G.intpts = (if pts > 2 then pts.toNat else 1) ∧ G.azm = [segAzm dx dy] ∧ G.dip = [segDip dx dy dz] ∧
          ((List.range G.intpts).map G.gw).sum = 1 ∧
          (∀ j : ℕ, G.w j = if st > 0 then (if isSrc then segLen dx dy dz * st else segLen dx dy dz) else 1) ∧
          ∀ i, i < G.intpts → ∃ t : ℝ, 0 ≤ t ∧ t ≤ 1 ∧ |G.tz i - (p'.z0 (depthIndex p' k) + t * dz)| ≤ δ ∧
            ∀ j : ℕ, |G.tx (j * G.intpts + i) - (p'.x0 k + t * dx)| ≤ δ ∧
              |G.ty (j * G.intpts + i) - (p'.y0 k + t * dy)| ≤ δ :=
        C15_bipole he hsd (by norm_num [single]) 0 pts st isSrc (fun j => hseg)
      simp only at hC
      generalize hG : alone e p' k pts st isSrc = G at hC ⊢
      obtain ⟨c1, c2, c3, c4, c5, c6⟩ := hC
      have hdir := C15_direction hseg
      have hl := segLen_pos hseg
      rw [q1, q2, q3, q4] at c2 c3 c5 hdir hl
      set za := p'.z0 (depthIndex p' k)
      set zb := p'.z1 (depthIndex p' k)
      refine ⟨segLen (bc x1 k - bc x0 k) (bc y1 k - bc y0 k) (zb - za), ?_, ?_⟩
      · have ea : G.azm = [segAzm (bc x1 k - bc x0 k) (bc y1 k - bc y0 k)] := c2
        have ed : G.dip =
          [segDip (bc x1 k - bc x0 k) (bc y1 k - bc y0 k) (zb - za)] := c3
        refine .segment x0 x1 y0 y1 z0 z1 rfl za zb q5 q6 c1 ?_ rfl hl ?_ ?_ ?_ ?_
        · rw [← c4]
          simp only [qpole]
          generalize G.intpts = n
          induction n with
          | zero => simp
          | succ n ih => rw [List.range_succ, List.map_append, List.sum_append, ← ih, Finset.sum_range_succ]; simp
        · simp only [qpole, ea, ed, bc_single]; exact hdir.1
        · simp only [qpole, ea, ed, bc_single]; exact hdir.2.1
        · simp only [qpole, ea, ed, bc_single]; exact hdir.2.2
        · intro i hi
          by_cases h2 : pts > 2
          · obtain ⟨t, t0, t1, t2, t3⟩ := c6 i hi
            refine ⟨t, t0, t1, fun q => absurd h2 q, ?_, ?_, t2⟩
            · have := (t3 0).1
              rw [zero_mul, zero_add, q1, q2] at this
              exact this
            · have := (t3 0).2
              rw [zero_mul, zero_add, q3, q4] at this
              exact this
          · refine ⟨1 / 2, by norm_num, by norm_num, fun _ => rfl, ?_⟩
            have hg : G = getAzmDip e (single p' k) 0 pts st isSrc := hG.symm
            unfold getAzmDip at hg
            simp only [hsd, Bool.false_eq_true, if_false, h2, show (single p' k).nz = 1 from rfl,
              if_true] at hg
            simp only [qpole, hg, single, q1, q2, q3, q4, seg]
            refine ⟨?_, ?_, ?_⟩
            · rw [show bc x0 k + 1 / 2 * (bc x1 k - bc x0 k) = bc x0 k + (bc x1 k - bc x0 k) / 2 by ring]
              exact he.rnd _
            · rw [show bc y0 k + 1 / 2 * (bc y1 k - bc y0 k) = bc y0 k + (bc y1 k - bc y0 k) / 2 by ring]
              exact he.rnd _
            · rw [show za + 1 / 2 * (zb - za) = za + (zb - za) / 2 by ring]
              exact he.rnd _
      · intro hst
        have := c5 0
        rw [if_pos hst] at this
        exact this

/-! ## The calls -/

theorem checkBipole_iff (isSrc : Bool) (mx : MxArg) (inp : List (List ℝ)) (q : Poles × Bool × XType) :
    checkBipole isSrc mx inp = .ok q ↔ checkMx isSrc mx = .ok q.2 ∧ checkPoles inp = .ok q.1 := by
  obtain ⟨p, f⟩ := q
  cases mx with
  | none =>
    unfold checkBipole checkMx
    cases checkPoles inp <;> simp [bind, Except.bind]
  | bool b =>
    unfold checkBipole
    cases hp : checkPoles inp <;> cases hm : checkMx isSrc (.bool b) <;>
      simp [bind, Except.bind, and_comm, hm]
  | str t =>
    unfold checkBipole
    cases hp : checkPoles inp <;> cases hm : checkMx isSrc (.str t) <;>
      simp [bind, Except.bind, and_comm, hm]

theorem bipoleTail_iff (B : Back) (e : Ext) (A : BipoleArgs) (post : Post) (mo : ModelOut) (fo : FreqOut)
    (arr : NdArray) :
    (bipoleTail B e A post mo fo).val = .ok arr ↔ ∃ src sf rcv rf EM,
      checkMx true A.msrc = .ok sf ∧ checkPoles A.src = .ok src ∧
      checkMx false A.mrec = .ok rf ∧ checkPoles A.rcv = .ok rcv ∧
      (post fo.freq (rcv.n * src.n) fun i =>
        bipoleRow (setupAt B e A mo fo sf rf i) src rcv A.srcpts A.recpts).val = .ok EM ∧
      arr = reshapeF EM.1 rcv.n src.n EM.2 := by
  unfold bipoleTail
  simp only [bind_eq_ok, Model.ofExcept, checkBipole_iff]
  constructor
  · rintro ⟨⟨src, sf⟩, ⟨h3, h4⟩, ⟨rcv, rf⟩, ⟨h5, h6⟩, EM, hp, h7⟩
    exact ⟨src, sf, rcv, rf, EM, h3, h4, h5, h6, hp, (Except.ok.inj h7).symm⟩
  · rintro ⟨src, sf, rcv, rf, EM, h3, h4, h5, h6, hp, rfl⟩
    exact ⟨(src, sf), ⟨h3, h4⟩, (rcv, rf), ⟨h5, h6⟩, EM, hp, rfl⟩

theorem bipoleWith_iff (B : Back) (e : Ext) (A : BipoleArgs) (post : Post) (arr : NdArray) :
    (bipoleWith B e A post).val = .ok arr ↔ ∃ mo fo src sf rcv rf EM,
      (checkModel B.m A.depth A.res A.aniso A.epermH A.epermV A.mpermH A.mpermV A.xdirect A.verb).val =
        .ok mo ∧
      (checkFrequency B.m A.freq mo.res mo.aniso mo.epermH mo.epermV mo.mpermH mo.mpermV A.verb).val =
        .ok fo ∧
      checkMx true A.msrc = .ok sf ∧ checkPoles A.src = .ok src ∧
      checkMx false A.mrec = .ok rf ∧ checkPoles A.rcv = .ok rcv ∧
      (post fo.freq (rcv.n * src.n) fun i =>
        bipoleRow (setupAt B e A mo fo sf rf i) src rcv A.srcpts A.recpts).val = .ok EM ∧
      arr = reshapeF EM.1 rcv.n src.n EM.2 := by
  unfold bipoleWith bipoleTail
  simp only [bind_eq_ok, Model.ofExcept, checkBipole_iff]
  constructor
  · rintro ⟨mo, h1, fo, h2, ⟨src, sf⟩, ⟨h3, h4⟩, ⟨rcv, rf⟩, ⟨h5, h6⟩, EM, hp, h7⟩
    exact ⟨mo, fo, src, sf, rcv, rf, EM, h1, h2, h3, h4, h5, h6, hp, (Except.ok.inj h7).symm⟩
  · rintro ⟨mo, fo, src, sf, rcv, rf, EM, h1, h2, h3, h4, h5, h6, hp, rfl⟩
    exact ⟨mo, h1, fo, h2, (src, sf), ⟨h3, h4⟩, (rcv, rf), ⟨h5, h6⟩, EM, hp, rfl⟩

theorem bipoleFull_iff (B : Back) (e : Ext) (A : BipoleArgs) (arr : NdArray) :
    (bipoleFull B e A).val = .ok arr ↔ ∃ mo fo src sf rcv rf,
      (checkModel B.m A.depth A.res A.aniso A.epermH A.epermV A.mpermH A.mpermV A.xdirect A.verb).val =
        .ok mo ∧
      (checkFrequency B.m A.freq mo.res mo.aniso mo.epermH mo.epermV mo.mpermH mo.mpermV A.verb).val =
        .ok fo ∧
      checkMx true A.msrc = .ok sf ∧ checkPoles A.src = .ok src ∧
      checkMx false A.mrec = .ok rf ∧ checkPoles A.rcv = .ok rcv ∧
      arr = reshapeF fo.freq.length rcv.n src.n fun i =>
        bipoleRow (setupAt B e A mo fo sf rf i) src rcv A.srcpts A.recpts := by
  unfold bipoleFull
  rw [bipoleWith_iff]
  constructor
  · rintro ⟨mo, fo, src, sf, rcv, rf, EM, h1, h2, h3, h4, h5, h6, hp, rfl⟩
    obtain rfl := Except.ok.inj hp
    exact ⟨mo, fo, src, sf, rcv, rf, h1, h2, h3, h4, h5, h6, rfl⟩
  · rintro ⟨mo, fo, src, sf, rcv, rf, h1, h2, h3, h4, h5, h6, rfl⟩
    exact ⟨mo, fo, src, sf, rcv, rf, _, h1, h2, h3, h4, h5, h6, rfl, rfl⟩

open Classical in
/-- Value of `fem` for one offset and one frequency. -/
noncomputable def femValue (B : Back) (A : BipoleArgs) (mo : ModelOut) (rows : List Earth)
    (c : ℝ → ℝ → ℕ → ℕ → ℕ → Bool → Bool → Bool → Earth → ℝ × ℝ → ℂ) (ms mr : Bool) (f : ℕ)
    (hf : f < rows.length) (ab : ℕ) (ρ θ zs zr : ℝ) (ls lr : ℕ) : ℂ :=
  (if ab ≠ 36 ∧ Direct A.xdirect mo.isfullspace (ls == lr) then
    (Fullspace.fullspace B.sqrt (rows.map (medAt lr)) ρ θ zs zr ab ms mr).getD f 0 else 0) +
  (if Skipped ab A.xdirect mo.isfullspace then 0
    else c zs zr ls lr ab ms mr (A.xdirect.getD true) rows[f] (ρ, angleFactor θ ab ms mr))

/-- `dipole` for one source point and one receiver point, after the checks of model and frequencies. -/
theorem dipoleTail_single {B : Back}
    {c : ℝ → ℝ → ℕ → ℕ → ℕ → Bool → Bool → Bool → Earth → ℝ × ℝ → ℂ}
    {k : ℝ → ℝ → ℕ → ℕ → ℕ → Bool → Bool → Bool → Earth → ℝ × ℝ → Bool}
    (hc : ∀ zs zr ls lr abc ms mr, Elementwise (B.hank zs zr ls lr abc ms mr) (c zs zr ls lr abc ms mr)
      (k zs zr ls lr abc ms mr)) (A : BipoleArgs) (mo : ModelOut) (fo : FreqOut)
    (ms mr : Bool) (xs ys zs xr yr zr : ℝ) {a b : ℕ} (ha : 1 ≤ a ∧ a ≤ 3) (hb : 1 ≤ b ∧ b ≤ 3) :
    ∃ D, (dipoleTail B (BipoleArgs.toDipole A xs ys zs xr yr zr (userCode ms mr a b)) inFreq mo fo).val = .ok D ∧
      ∀ f (hf : f < (rowsOf mo.depth fo).length), D.get [f, 0, 0] =
        femValue B A mo (rowsOf mo.depth fo) c ms mr f hf (abEntry ms mr a b)
          (max (Real.sqrt ((xr - xs) ^ 2 + (yr - ys) ^ 2)) B.m.minOff)
          (Complex.arg ⟨xr - xs, yr - ys⟩) zs zr (layerOf mo.depth zs) (layerOf mo.depth zr) := by
  refine ⟨reshapeF fo.freq.length 1 1 (femOf B (BipoleArgs.toDipole A xs ys zs xr yr zr (userCode ms mr a b))
    mo fo (abEntry ms mr a b, ms, mr) ([xs], [ys], zs) ([xr], [yr], zr)).val, ?_, fun f hf => ?_⟩
  · exact (dipoleTail_iff B _ _ _ _ _).2 ⟨(abEntry ms mr a b, ms, mr), ([xs], [ys], zs),
      ([xr], [yr], zr), _, C14_codes ms mr ha hb, rfl, rfl, rfl, by simp, rfl⟩
  · rw [reshapeF_get _ _ _ _ (by norm_num) (by norm_num)]
    obtain ⟨o1, o2⟩ := off_ang_eq B.m (fun j => [xs].getD j 0) (fun j => [ys].getD j 0) (fun j => [xr].getD j 0)
      (fun j => [yr].getD j 0) 1 1 B.junk B.junk (i := 0) (j := 0) (by norm_num) (by norm_num)
    simp only [List.getD_cons_zero, Nat.zero_mul, Nat.add_zero] at o1 o2
    have hoff : offsOf B.m B.junk ([xs], [ys], zs) ([xr], [yr], zr) =
        [(max (Real.sqrt ((xr - xs) ^ 2 + (yr - ys) ^ 2)) B.m.minOff, Complex.arg ⟨xr - xs, yr - ys⟩)] := by
      simp only [offsOf, List.length_cons, List.length_nil, Nat.zero_add, Nat.mul_one, List.range_one,
        List.map_cons, List.map_nil, o1, o2]
    unfold femOf
    dsimp only
    rw [hoff]
    refine ((C17_fem (hc zs zr (layerOf mo.depth zs) (layerOf mo.depth zr) (abEntry ms mr a b) ms mr) _ _ _ _ _ _
      _ _ _ _ _ _).1 f _ hf (by simp)).trans ?_
    unfold femValue
    simp only [Nat.zero_add, Nat.mul_zero, List.length_cons, List.length_nil]
    rw [o1, o2]
    rfl

/-- Only receivers measure current density. -/
theorem checkMx_src {mx : MxArg} {f : Bool} {t : XType} (h : checkMx true mx = .ok (f, t)) :
    t ≠ .current := by
  unfold checkMx at h
  cases mx with
  | none => cases h
  | bool b => cases h; simp
  | str w =>
    simp only [Bool.true_eq_false, and_false, if_false] at h
    split_ifs at h
    cases h; simp

theorem rows_length (depth : List EReal) (fo : FreqOut) : (rowsOf depth fo).length = fo.freq.length := by
  simp [rowsOf]

/-- Superposition after the checks of model and frequencies. -/
theorem tail_superposition {B : Back} (hmin : B.m.minAngle ≤ 1e-8) (hB : Pointwise B) {e : Ext} {δ : ℝ}
    (he : ExtOK e δ) {A : BipoleArgs} {mo : ModelOut} {fo : FreqOut} {arr : NdArray}
    (h : (bipoleTail B e A inFreq mo fo).val = .ok arr) :
    ∃ ms ts mr tr,
      checkMx true A.msrc = .ok (ms, ts) ∧ checkMx false A.mrec = .ok (mr, tr) ∧
      arr.shape = [fo.freq.length, numPoles A.rcv, numPoles A.src] ∧
      ∀ r s, r < numPoles A.rcv → s < numPoles A.src →
        ∃ S R, IsPole A.src s A.srcpts δ S ∧ IsPole A.rcv r A.recpts δ R ∧
        ∃ D : ℕ → ℕ → ℕ → ℕ → NdArray,
          (∀ i j a b, 1 ≤ a ∧ a ≤ 3 → 1 ≤ b ∧ b ≤ 3 → (dipoleTail B (BipoleArgs.toDipole A (S.x i) (S.y i)
            (S.z i) (R.x j) (R.y j) (R.z j) (userCode ms mr a b)) inFreq mo fo).val = .ok (D i j a b)) ∧
          ∀ f, f < fo.freq.length → ∃ W : ℕ → ℕ → ℝ,
            (∀ a b, 1 ≤ a ∧ a ≤ 3 → 1 ≤ b ∧ b ≤ 3 → |W a b - R.dir a * S.dir b| ≤ 1e-8) ∧
            let eta := fun z => (fo.etaH.getD f []).getD (layerOf mo.depth z) 0
            let zeta := fun z => (fo.zetaH.getD f []).getD (layerOf mo.depth z) 0
            arr.get [f, r, s] =
              (if A.strength > 0 then ((S.len * A.strength * R.len : ℝ) : ℂ) else 1) *
              ∑ i ∈ Finset.range S.n, ∑ j ∈ Finset.range R.n,
                ((S.w i * R.w j : ℝ) : ℂ) * fluxFactor (eta (S.z i)) (zeta (S.z i)) ts *
                  fluxFactor (eta (R.z j)) (zeta (R.z j)) tr *
                ∑ a ∈ Finset.Icc 1 3, ∑ b ∈ Finset.Icc 1 3, (W a b : ℂ) * (D i j a b).get [f, 0, 0] := by
  obtain ⟨src, ⟨ms, ts⟩, rcv, ⟨mr, tr⟩, EM, h3, h4, h5, h6, hp, rfl⟩ := (bipoleTail_iff B e A _ mo fo arr).1 h
  obtain rfl := Except.ok.inj hp
  obtain ⟨oks, ns, -, ps⟩ := poles_spec he h4 A.srcpts A.strength true
  obtain ⟨okr, nr, -, pr⟩ := poles_spec he h6 A.recpts A.strength false
  refine ⟨ms, ts, mr, tr, h3, h5, by simp only [reshapeF, ns, nr], fun r s hr hs => ?_⟩
  rw [← nr] at hr
  rw [← ns] at hs
  obtain ⟨lenS, hS, wS⟩ := ps s hs
  obtain ⟨lenR, hR, wR⟩ := pr r hr
  refine ⟨_, _, hS, hR, ?_⟩
  choose c k hc using hB
  have hD := fun (i j a b : ℕ) (ha : 1 ≤ a ∧ a ≤ 3) (hb : 1 ≤ b ∧ b ≤ 3) => dipoleTail_single hc A mo fo ms mr
    ((alone e src s A.srcpts A.strength true).tx i) ((alone e src s A.srcpts A.strength true).ty i)
    ((alone e src s A.srcpts A.strength true).tz i) ((alone e rcv r A.recpts A.strength false).tx j)
    ((alone e rcv r A.recpts A.strength false).ty j) ((alone e rcv r A.recpts A.strength false).tz j) ha hb
  classical
  refine ⟨fun i j a b => if hh : (1 ≤ a ∧ a ≤ 3) ∧ (1 ≤ b ∧ b ≤ 3) then (hD i j a b hh.1 hh.2).choose else ⟨[], 0⟩,
    fun i j a b ha hb => ?_, fun f hf => ?_⟩
  · beta_reduce
    rw [dif_pos ⟨ha, hb⟩]
    exact (hD i j a b ha hb).choose_spec.1
  have hf' : f < (rowsOf mo.depth fo).length := by rw [rows_length]; exact hf
  obtain ⟨W, w1, w2⟩ := C16_bipole (setupAt B e A mo fo (ms, ts) (mr, tr) f) hmin oks okr A.srcpts A.recpts
    (g := femValue B A mo (rowsOf mo.depth fo) c ms mr f hf') (by
      intro ab offs zs zr ls lr q hq
      refine ((C17_fem (hc zs zr ls lr ab ms mr) _ _ _ _ _ _ _ _ _ _ _ _).1 f q hf' hq).trans ?_
      unfold femValue
      rw [List.getD_eq_getElem _ _ hq]) hs hr
  refine ⟨W, fun a b ha hb => w1 a b ha.1 ha.2 hb.1 hb.2, ?_⟩
  rw [reshapeF_get _ _ _ _ hr hs]
  refine w2.trans ?_
  unfold pairResponse
  have hst : (setupAt B e A mo fo (ms, ts) (mr, tr) f).strength = A.strength := rfl
  rw [hst]
  dsimp only
  congr 1
  · by_cases hp : A.strength > 0
    · rw [if_pos hp, if_pos hp]
      have := wS hp
      have := wR hp
      simp only [if_true, Bool.false_eq_true, if_false] at *
      congr 1
      rw [show (setupAt B e A mo fo (ms, ts) (mr, tr) f).e = e from rfl]
      simp only [*, qpole]
    · rw [if_neg hp, if_neg hp]
  · refine Finset.sum_congr rfl fun i _ => Finset.sum_congr rfl fun j _ => ?_
    have es : ∀ l, srcFactor (setupAt B e A mo fo (ms, ts) (mr, tr) f) l =
        fluxFactor ((fo.etaH.getD f []).getD l 0) ((fo.zetaH.getD f []).getD l 0) ts := by
      intro l
      have := checkMx_src h3
      unfold srcFactor fluxFactor
      cases ts <;> simp [setupAt] at this ⊢
    have er : ∀ l, recFactor (setupAt B e A mo fo (ms, ts) (mr, tr) f) l =
        fluxFactor ((fo.etaH.getD f []).getD l 0) ((fo.zetaH.getD f []).getD l 0) tr := by
      intro l
      unfold recFactor fluxFactor
      cases tr <;> simp [setupAt]
    rw [es, er]
    congr 1
    refine Finset.sum_congr rfl fun a ha => Finset.sum_congr rfl fun b hb => ?_
    rw [Finset.mem_Icc] at ha hb
    rw [dif_pos ⟨ha, hb⟩, (hD i j a b ha hb).choose_spec.2 f hf']
    rfl

/-- **C47, superposition.**  Whatever `bipole` returns: it has one entry per frequency, receiver and source,
and the entry is the sum over the points of the source and of the receiver and over the nine component
pairs of what `dipole` returns for these two points, this pair and the same model and settings, with the
weights of the points, the products of the direction cosines (up to 1e-8), the factors for flux and
current density in the layers of the two points, and, if a strength is given, strength and lengths. -/
theorem C47_superposition {B : Back} (hmin : B.m.minAngle ≤ 1e-8) (hB : Pointwise B) {e : Ext} {δ : ℝ}
    (he : ExtOK e δ) {A : BipoleArgs} {arr : NdArray} (h : (bipoleFull B e A).val = .ok arr) :
    ∃ mo fo ms ts mr tr,
      (checkModel B.m A.depth A.res A.aniso A.epermH A.epermV A.mpermH A.mpermV A.xdirect A.verb).val =
        .ok mo ∧
      (checkFrequency B.m A.freq mo.res mo.aniso mo.epermH mo.epermV mo.mpermH mo.mpermV A.verb).val =
        .ok fo ∧
      checkMx true A.msrc = .ok (ms, ts) ∧ checkMx false A.mrec = .ok (mr, tr) ∧
      arr.shape = [A.freq.length, numPoles A.rcv, numPoles A.src] ∧
      ∀ r s, r < numPoles A.rcv → s < numPoles A.src →
        ∃ S R, IsPole A.src s A.srcpts δ S ∧ IsPole A.rcv r A.recpts δ R ∧
        ∃ D : ℕ → ℕ → ℕ → ℕ → NdArray,
          (∀ i j a b, 1 ≤ a ∧ a ≤ 3 → 1 ≤ b ∧ b ≤ 3 → (dipole B (BipoleArgs.toDipole A (S.x i) (S.y i)
            (S.z i) (R.x j) (R.y j) (R.z j) (userCode ms mr a b))).val = .ok (D i j a b)) ∧
          ∀ f, f < A.freq.length → ∃ W : ℕ → ℕ → ℝ,
            (∀ a b, 1 ≤ a ∧ a ≤ 3 → 1 ≤ b ∧ b ≤ 3 → |W a b - R.dir a * S.dir b| ≤ 1e-8) ∧
            let eta := fun z => (fo.etaH.getD f []).getD (layerOf mo.depth z) 0
            let zeta := fun z => (fo.zetaH.getD f []).getD (layerOf mo.depth z) 0
            arr.get [f, r, s] =
              (if A.strength > 0 then ((S.len * A.strength * R.len : ℝ) : ℂ) else 1) *
              ∑ i ∈ Finset.range S.n, ∑ j ∈ Finset.range R.n,
                ((S.w i * R.w j : ℝ) : ℂ) * fluxFactor (eta (S.z i)) (zeta (S.z i)) ts *
                  fluxFactor (eta (R.z j)) (zeta (R.z j)) tr *
                ∑ a ∈ Finset.Icc 1 3, ∑ b ∈ Finset.Icc 1 3, (W a b : ℂ) * (D i j a b).get [f, 0, 0] := by
  unfold bipoleFull bipoleWith at h
  rw [bind_eq_ok] at h
  obtain ⟨mo, h1, h⟩ := h
  rw [bind_eq_ok] at h
  obtain ⟨fo, h2, h⟩ := h
  have hfl : fo.freq.length = A.freq.length := by
    rw [C30_frequency] at h2
    rw [← Except.ok.inj h2]
    simp
  obtain ⟨ms, ts, mr, tr, h3, h5, hs, H⟩ := tail_superposition hmin hB he h
  rw [hfl] at hs
  refine ⟨mo, fo, ms, ts, mr, tr, h1, h2, h3, h5, hs, fun r s hr hs => ?_⟩
  obtain ⟨S, R, hS, hR, D, hD, hE⟩ := H r s hr hs
  refine ⟨S, R, hS, hR, D, fun i j a b ha hb => ?_, fun f hf => hE f (hfl ▸ hf)⟩
  unfold Model.dipole
  rw [bind_val, dipoleFull_tail (A := BipoleArgs.toDipole A _ _ _ _ _ _ _) h1 h2, hD i j a b ha hb]
  rfl

theorem bipole_full_iff (B : Back) (e : Ext) (A : BipoleArgs) (out : NdArray) :
    (bipole B e A).val = .ok out ↔
      ∃ arr, (bipoleFull B e A).val = .ok arr ∧ out = if A.squeeze then arr.squeeze else arr := by
  unfold bipole
  simp only [bind_eq_ok, pure_val, Except.ok.injEq]
  exact exists_congr fun a => and_congr_right fun _ => eq_comm

/-- **C47.**  The same in terms of the medium the user described: flux at a point is the permeability `s μ`,
current density the admittivity `σ + s ε` of the layer this point lies in, at the Laplace parameter of the
frequency, times the field. -/
theorem C47_bipole {B : Back} (hmin : B.m.minAngle ≤ 1e-8) (hm : 0 < B.m.minRes) (hB : Pointwise B) {e : Ext}
    {δ : ℝ} (he : ExtOK e δ) {A : BipoleArgs} {U : UserModel} (hU : U.Valid B.m.minRes)
    (hA : Describes (BipoleArgs.toDipole A 0 0 0 0 0 0 11) U) {out : NdArray}
    (h : (bipole B e A).val = .ok out) :
    ∃ arr ms ts mr tr, out = (if A.squeeze then arr.squeeze else arr) ∧
      checkMx true A.msrc = .ok (ms, ts) ∧ checkMx false A.mrec = .ok (mr, tr) ∧
      arr.shape = [A.freq.length, numPoles A.rcv, numPoles A.src] ∧
      ∀ r s, r < numPoles A.rcv → s < numPoles A.src →
        ∃ S R, IsPole A.src s A.srcpts δ S ∧ IsPole A.rcv r A.recpts δ R ∧
        ∃ D : ℕ → ℕ → ℕ → ℕ → NdArray,
          (∀ i j a b, 1 ≤ a ∧ a ≤ 3 → 1 ≤ b ∧ b ≤ 3 → (dipole B (BipoleArgs.toDipole A (S.x i) (S.y i)
            (S.z i) (R.x j) (R.y j) (R.z j) (userCode ms mr a b))).val = .ok (D i j a b)) ∧
          ∀ f (hf : f < A.freq.length), ∃ W : ℕ → ℕ → ℝ,
            (∀ a b, 1 ≤ a ∧ a ≤ 3 → 1 ≤ b ∧ b ≤ 3 → |W a b - R.dir a * S.dir b| ≤ 1e-8) ∧
            let M := U.medium (sParam B.m.minFreq A.freq A.freq[f])
            ∀ ls lr : ℕ → ℤ, (∀ i, M.InUpper (ls i) (S.z i)) → (∀ j, M.InUpper (lr j) (R.z j)) →
            arr.get [f, r, s] =
              (if A.strength > 0 then ((S.len * A.strength * R.len : ℝ) : ℂ) else 1) *
              ∑ i ∈ Finset.range S.n, ∑ j ∈ Finset.range R.n,
                ((S.w i * R.w j : ℝ) : ℂ) * fluxFactor (M.etaH (ls i)) (M.zetaH (ls i)) ts *
                  fluxFactor (M.etaH (lr j)) (M.zetaH (lr j)) tr *
                ∑ a ∈ Finset.Icc 1 3, ∑ b ∈ Finset.Icc 1 3, (W a b : ℂ) * (D i j a b).get [f, 0, 0] := by
  obtain ⟨arr, h1, h2⟩ := (bipole_full_iff B e A out).1 h
  obtain ⟨mo, fo, ms, ts, mr, tr, g1, g2, g3, g4, g5, g6⟩ := C47_superposition hmin hB he h1
  refine ⟨arr, ms, ts, mr, tr, h2, g3, g4, g5, fun r s hr hs => ?_⟩
  obtain ⟨S, R, p1, p2, D, d1, d2⟩ := g6 r s hr hs
  refine ⟨S, R, p1, p2, D, d1, fun f hf => ?_⟩
  obtain ⟨W, w1, w2⟩ := d2 f hf
  refine ⟨W, w1, ?_⟩
  intro M ls lr hls hlr
  have hmo : mo = userOut B.m U :=
    Except.ok.inj (g1.symm.trans (describes_checkModel (A := BipoleArgs.toDipole A 0 0 0 0 0 0 11) hU hA))
  subst hmo
  rw [C30_frequency] at g2
  have hfo := (Except.ok.inj g2).symm
  have hrow := user_row (m := B.m) hm hU (sParam B.m.minFreq A.freq A.freq[f])
  have key : ∀ (z : ℝ) (l : ℤ), M.InUpper l z →
      (fo.etaH.getD f []).getD (layerOf (userOut B.m U).depth z) 0 = M.etaH l ∧
      (fo.zetaH.getD f []).getD (layerOf (userOut B.m U).depth z) 0 = M.zetaH l := by
    intro z l hl
    have el := (user_layer (m := B.m) hU _ z l).1 hl
    have r1 := congrFun (congrArg Earth.etaH hrow) l
    have r2 := congrFun (congrArg Earth.zetaH hrow) l
    simp only [rowEarth, earthOf, entry, el, Nat.cast_nonneg, if_true, Int.toNat_natCast] at r1 r2
    have q : ∀ F : ℝ → List ℂ, (A.freq.map F).getD f [] = F A.freq[f] := by
      intro F
      rw [getD_eq (by simpa using hf), List.getElem_map]
    rw [hfo]
    simp only [q]
    rw [r1, r2, el]
    exact ⟨rfl, rfl⟩
  rw [w2]
  congr 1
  refine Finset.sum_congr rfl fun i _ => Finset.sum_congr rfl fun j _ => ?_
  beta_reduce
  rw [(key _ _ (hls i)).1, (key _ _ (hls i)).2, (key _ _ (hlr j)).1, (key _ _ (hlr j)).2]

/-! ## Acceptance -/

/-- The flags `bipole` accepts for sources and for receivers. -/
def FlagOK (isSrc : Bool) (mx : MxArg) : Prop :=
  (∃ b, mx = .bool b) ∨ mx = .str "b" ∨ mx = .str "loop" ∨ (mx = .str "j" ∧ isSrc = false)

/-- What they mean. -/
theorem C47_flags (isSrc : Bool) (mx : MxArg) :
    ((∃ f, checkMx isSrc mx = .ok f) ↔ FlagOK isSrc mx) ∧
    (∀ b, checkMx isSrc (.bool b) = .ok (b, .field)) ∧
    checkMx isSrc (.str "b") = .ok (true, .flux) ∧ checkMx isSrc (.str "loop") = .ok (true, .flux) ∧
    checkMx false (.str "j") = .ok (false, .current) := by
  refine ⟨⟨?_, ?_⟩, fun b => rfl, ?_, ?_, ?_⟩
  · rintro ⟨f, h⟩
    cases mx with
    | none => cases h
    | bool b => exact Or.inl ⟨b, rfl⟩
    | str t =>
      unfold checkMx at h
      simp only at h
      split_ifs at h with c1 c2
      · obtain ⟨rfl, rfl⟩ := c1; exact Or.inr (Or.inr (Or.inr ⟨rfl, rfl⟩))
      · rcases c2 with rfl | rfl
        · exact Or.inr (Or.inl rfl)
        · exact Or.inr (Or.inr (Or.inl rfl))
  · rintro (⟨b, rfl⟩ | rfl | rfl | ⟨rfl, rfl⟩)
    · exact ⟨_, rfl⟩
    · exact ⟨_, by simp [checkMx]; rfl⟩
    · exact ⟨_, by simp [checkMx]; rfl⟩
    · exact ⟨_, by simp [checkMx]; rfl⟩
  · simp [checkMx]
  · simp [checkMx]
  · simp [checkMx]

/-- **C47, acceptance.**  `bipole` returns an array exactly if the model is accepted (`C11_accept`), both flags
are, and the coordinates of sources and receivers are (`C16_poles_dipole`, `C16_poles_finite`). -/
theorem C47_accept (B : Back) (e : Ext) (A : BipoleArgs) :
    (∃ arr, (bipole B e A).val = .ok arr) ↔
      (∃ mo, (checkModel B.m A.depth A.res A.aniso A.epermH A.epermV A.mpermH A.mpermV A.xdirect
        A.verb).val = .ok mo) ∧
      FlagOK true A.msrc ∧ FlagOK false A.mrec ∧ (∃ p, checkPoles A.src = .ok p) ∧
      (∃ p, checkPoles A.rcv = .ok p) := by
  simp only [bipole_full_iff, bipoleFull_iff]
  rw [← (C47_flags true A.msrc).1, ← (C47_flags false A.mrec).1]
  constructor
  · rintro ⟨_, arr, ⟨mo, fo, src, sf, rcv, rf, h1, -, h3, h4, h5, h6, -⟩, -⟩
    exact ⟨⟨mo, h1⟩, ⟨sf, h3⟩, ⟨rf, h5⟩, ⟨src, h4⟩, ⟨rcv, h6⟩⟩
  · rintro ⟨⟨mo, h1⟩, ⟨sf, h3⟩, ⟨rf, h5⟩, ⟨src, h4⟩, ⟨rcv, h6⟩⟩
    exact ⟨_, _, ⟨mo, _, src, sf, rcv, rf, h1, C30_frequency _ _ _ _ _ _ _ _ _, h3, h4, h5, h6, rfl⟩, rfl⟩

theorem checkPoles_err {inp : List (List ℝ)} {er : PyErr} (h : checkPoles inp = .error er) :
    er = .valueError ∨ (er = .indexError ∧ ∀ l ∈ inp, l = []) := by
  by_cases hl : inp.length ≠ 5 ∧ inp.length ≠ 6
  · rw [C16_poles_length hl] at h
    exact Or.inl (Except.error.inj h).symm
  rcases Nat.eq_zero_or_pos (maxPoles inp) with h0 | h0
  · have he : ∀ l ∈ inp, l = [] := fun l hl => by
      have := maxPoles_ge inp hl
      exact List.length_eq_zero_iff.1 (by omega)
    refine Or.inr ⟨?_, he⟩
    rcases not_and_or.1 hl with h5 | h6
    · match inp, not_not.1 h5 with
      | [a, b, c, d, e], _ =>
        obtain rfl := he a (by simp)
        obtain rfl := he b (by simp)
        obtain rfl := he c (by simp)
        obtain rfl := he d (by simp)
        obtain rfl := he e (by simp)
        exact (Except.error.inj h).symm
    · match inp, not_not.1 h6 with
      | [a, b, c, d, e, f], _ =>
        obtain rfl := he a (by simp)
        obtain rfl := he b (by simp)
        obtain rfl := he c (by simp)
        obtain rfl := he d (by simp)
        obtain rfl := he e (by simp)
        obtain rfl := he f (by simp)
        exact (Except.error.inj h).symm
  · left
    rcases not_and_or.1 hl with h5 | h6
    · match inp, not_not.1 h5 with
      | [x, y, z, a, d], _ =>
        by_cases hs : SizesOK [x, y, z, a, d]
        · obtain ⟨p, hp, -⟩ := (C16_poles_dipole x y z a d h0).2 hs
          rw [hp] at h; cases h
        · rw [(C16_poles_dipole x y z a d h0).1 hs] at h
          exact (Except.error.inj h).symm
    · match inp, not_not.1 h6 with
      | [x0, x1, y0, y1, z0, z1], _ =>
        by_cases hs : SizesOK [x0, x1, y0, y1, z0, z1]
        · rcases (C16_poles_finite x0 x1 y0 y1 z0 z1 h0).2 hs with ⟨hb, -⟩ | ⟨p, hp, -⟩
          · rw [hb] at h; exact (Except.error.inj h).symm
          · rw [hp] at h; cases h
        · rw [(C16_poles_finite x0 x1 y0 y1 z0 z1 h0).1 hs] at h
          exact (Except.error.inj h).symm

theorem checkBipole_err {isSrc : Bool} {mx : MxArg} {inp : List (List ℝ)} {er : PyErr}
    (h : checkBipole isSrc mx inp = .error er) :
    er = .valueError ∨ (er = .typeError ∧ (∃ t, mx = .str t) ∧ ¬ FlagOK isSrc mx) ∨
      (er = .indexError ∧ ∀ l ∈ inp, l = []) := by
  have hp : ∀ {er'}, checkPoles inp = .error er' → er' = er →
      er = .valueError ∨ (er = .typeError ∧ (∃ t, mx = .str t) ∧ ¬ FlagOK isSrc mx) ∨
      (er = .indexError ∧ ∀ l ∈ inp, l = []) := by
    rintro er' h1 rfl
    exact (checkPoles_err h1).imp id Or.inr
  unfold checkBipole at h
  cases mx with
  | none =>
    cases hc : checkPoles inp with
    | error e1 => rw [hc] at h; exact hp hc (Except.error.inj h)
    | ok p => rw [hc] at h; exact Or.inl (Except.error.inj h).symm
  | bool b =>
    cases hc : checkPoles inp with
    | error e1 => rw [hc] at h; exact hp hc (Except.error.inj h)
    | ok p => rw [hc] at h; cases h
  | str t =>
    simp only at h
    cases hm : checkMx isSrc (.str t) with
    | error e1 =>
      rw [hm] at h
      obtain rfl := Except.error.inj h
      refine Or.inr (Or.inl ⟨?_, ⟨t, rfl⟩, fun hf => ?_⟩)
      · unfold checkMx at hm
        simp only at hm
        split_ifs at hm
        exact (Except.error.inj hm).symm
      · obtain ⟨f, hf⟩ := (C47_flags isSrc (.str t)).1.2 hf
        rw [hf] at hm; cases hm
    | ok f =>
      rw [hm] at h
      cases hc : checkPoles inp with
      | error e1 => rw [hc] at h; exact hp hc (Except.error.inj h)
      | ok p => rw [hc] at h; cases h

/-- **C47, errors.**  Everything else raises `ValueError`; `TypeError` for a flag that is another string (also
`'j'` for sources), `IndexError` if all coordinates are empty. -/
theorem C47_errors (B : Back) (e : Ext) (A : BipoleArgs) {er : PyErr} (h : (bipole B e A).val = .error er) :
    er = .valueError ∨
    (er = .typeError ∧ (((∃ t, A.msrc = .str t) ∧ ¬ FlagOK true A.msrc) ∨
      ((∃ t, A.mrec = .str t) ∧ ¬ FlagOK false A.mrec))) ∨
    (er = .indexError ∧ ((∀ l ∈ A.src, l = []) ∨ ∀ l ∈ A.rcv, l = [])) := by
  have h' : (bipoleFull B e A).val = .error er := by
    unfold bipole at h
    rw [bind_val] at h
    cases hv : (bipoleFull B e A).val with
    | error e' => rw [hv] at h; exact h
    | ok a => rw [hv] at h; cases h
  unfold bipoleFull bipoleWith bipoleTail inFreq at h'
  rw [bind_val] at h'
  cases h1 : (checkModel B.m A.depth A.res A.aniso A.epermH A.epermV A.mpermH A.mpermV A.xdirect
      A.verb).val with
  | error e1 =>
    rw [h1] at h'
    obtain rfl : e1 = er := Except.error.inj h'
    left
    rw [checkModel_val] at h1
    cases hq : (checkDepth A.depth).val with
    | error e2 =>
      rw [hq] at h1
      obtain rfl : e2 = e1 := Except.error.inj h1
      rw [checkDepth_val] at hq
      simp only at hq
      split_ifs at hq
      exact (Except.error.inj hq).symm
    | ok p =>
      rw [hq] at h1
      simp only at h1
      split_ifs at h1
      exact (Except.error.inj h1).symm
  | ok mo =>
    rw [h1] at h'
    simp only [Except.bind] at h'
    rw [bind_val, C30_frequency] at h'
    simp only [Except.bind] at h'
    rw [bind_val] at h'
    simp only [Model.ofExcept] at h'
    cases h3 : checkBipole true A.msrc A.src with
    | error e1 =>
      rw [h3] at h'
      obtain rfl : e1 = er := Except.error.inj h'
      rcases checkBipole_err h3 with q | ⟨q1, q2⟩ | ⟨q1, q2⟩
      · exact Or.inl q
      · exact Or.inr (Or.inl ⟨q1, Or.inl q2⟩)
      · exact Or.inr (Or.inr ⟨q1, Or.inl q2⟩)
    | ok src =>
      rw [h3] at h'
      simp only [Except.bind] at h'
      rw [bind_val] at h'
      simp only at h'
      cases h4 : checkBipole false A.mrec A.rcv with
      | error e1 =>
        rw [h4] at h'
        obtain rfl : e1 = er := Except.error.inj h'
        rcases checkBipole_err h4 with q | ⟨q1, q2⟩ | ⟨q1, q2⟩
        · exact Or.inl q
        · exact Or.inr (Or.inl ⟨q1, Or.inr q2⟩)
        · exact Or.inr (Or.inr ⟨q1, Or.inr q2⟩)
      | ok rcv =>
        rw [h4] at h'
        cases h'

/-- A source cannot measure current density. -/
example (B : Back) (e : Ext) (A : BipoleArgs) : ¬ ∃ arr, (bipole B e { A with msrc := .str "j" }).val = .ok arr := by
  rw [C47_accept]
  rintro ⟨-, h, -⟩
  simp [FlagOK] at h

/-- **C47, `loop`.**  The deprecated function is `bipole` for a magnetic source with flux, whatever is given
for the source. -/
theorem C47_loop (B : Back) (e : Ext) (A : BipoleArgs) (m : MxArg) (n : ℤ) :
    (loop B e { A with msrc := m, srcpts := n }).val =
      (bipole B e { A with msrc := .str "b", srcpts := 1 }).val := by
  unfold loop
  rw [bind_val, say_val]
  rfl

/-! ## Concrete cases -/

/-- Rules that are applied to each frequency and offset treat them one by one: all of `C44` applies. -/
theorem Uses.pointwise {B : Back} {T : HRule} (h : Uses B T) : Pointwise B := fun zs zr ls lr abc ms mr =>
  ⟨_, h zs zr ls lr abc ms mr⟩

/-- The composite midpoint rule instead of the Gauss rule. -/
noncomputable def midExt : Ext where
  node n i := -1 + (2 * i + 1) / n
  weight n _ := 2 / n
  rnd := id

theorem midExt_ok : ExtOK midExt 0 where
  rnd x := by simp [midExt]
  node n i h := by
    have hn : (0 : ℝ) < n := by exact_mod_cast (Nat.zero_le i).trans_lt h
    have hi : (i : ℝ) + 1 ≤ n := by exact_mod_cast h
    have h2 : (2 * (i : ℝ) + 1) / n ≤ 2 := by rw [div_le_iff₀ hn]; linarith
    have h1 : 0 ≤ (2 * (i : ℝ) + 1) / n := by positivity
    simp only [midExt]
    constructor <;> linarith
  weight n h := by
    have hn : (n : ℝ) ≠ 0 := by exact_mod_cast h.ne'
    simp [midExt]
    field_simp

/-- The marine model: a source of 200 m length and 800 A in x-direction 50 m above the sea floor, flux
in z-direction at two receivers on the sea floor. -/
noncomputable def marineBipole : BipoleArgs where
  src := [[-100], [100], [0], [0], [950], [950]]
  rcv := [[1000, 2000], [0], [1000], [0], [90]]
  depth := some [0, ((1000 : ℝ) : EReal)]
  res := .array [1e8, 0.3, 1]
  freq := [1, 10]
  aniso := some [1, 1, 2]
  epermH := none
  epermV := none
  mpermH := none
  mpermV := none
  msrc := .bool false
  srcpts := 5
  mrec := .str "b"
  recpts := 1
  strength := 800
  xdirect := some true
  loop := none
  squeeze := true
  verb := 2

theorem marineBipole_describes : Describes (BipoleArgs.toDipole marineBipole 0 0 0 0 0 0 11) marine :=
  ⟨_, .topDown false false (by simp [BipoleArgs.toDipole, marineBipole, marine, allDepths]) rfl rfl rfl rfl rfl rfl⟩

/-- Two frequencies and two receivers (2 × 2 after squeezing); the entry for the second frequency and
second receiver is 200 m (depths are equal up to 1e-8) × 800 A × the weighted sum of five `dipole` responses per component pair, times
`s μ` of the sea water; source points have y = 0, z = 950 and |x| ≤ 100. -/
example (T : ℝ → (ℝ → ℂ) → ℂ) :
    ∃ arr, (bipole (ruleBack T) midExt marineBipole).val = .ok (NdArray.squeeze arr) ∧
      arr.squeeze.shape = [2, 2] ∧
      ∃ (S R : QPole) (D : ℕ → ℕ → ℕ → ℕ → NdArray) (W : ℕ → ℕ → ℝ),
        S.n = 5 ∧ (∀ i < 5, |S.x i| ≤ 100 ∧ S.y i = 0) ∧ R.x 0 = 2000 ∧ |W 3 1 - 1| ≤ 2e-8 ∧
        (∀ i j a b, 1 ≤ a ∧ a ≤ 3 → 1 ≤ b ∧ b ≤ 3 → (dipole (ruleBack T) (BipoleArgs.toDipole marineBipole (S.x i)
          (S.y i) (S.z i) (R.x j) (R.y j) (R.z j) (10 * (a + 3) + b))).val = .ok (D i j a b)) ∧
        ∃ (len : ℝ) (zeta : ℂ), 200 ≤ len ∧ len ≤ 200 + 1e-8 ∧ arr.get [1, 1, 0] = ((len * 800 * 1 : ℝ) : ℂ) * ∑ i ∈ Finset.range 5,
          ((S.w i : ℝ) : ℂ) * zeta * ∑ a ∈ Finset.Icc 1 3, ∑ b ∈ Finset.Icc 1 3,
            (W a b : ℂ) * (D i 0 a b).get [1, 0, 0] := by
  have hv : marine.Valid (ruleBack T).m.minRes := marine_valid
  have n1 : maxPoles marineBipole.src = 1 := by simp [maxPoles, marineBipole]
  have n2 : maxPoles marineBipole.rcv = 2 := by simp [maxPoles, marineBipole]
  have p1 : ∃ p, checkPoles marineBipole.src = .ok p := by
    rcases (C16_poles_finite [-100] [100] [0] [0] [950] [950] (by simp [maxPoles])).2 (by
      intro l hl
      simp only [List.mem_cons, List.not_mem_nil, or_false] at hl
      rcases hl with rfl | rfl | rfl | rfl | rfl | rfl <;> simp) with ⟨-, k, -, q, -⟩ | ⟨p, hp, -⟩
    · simp only [bc_single] at q; norm_num at q
    · exact ⟨p, hp⟩
  have p2 : ∃ p, checkPoles marineBipole.rcv = .ok p := by
    obtain ⟨p, hp, -⟩ := (C16_poles_dipole [1000, 2000] [0] [1000] [0] [90] (by simp [maxPoles])).2 (by
      intro l hl
      simp only [List.mem_cons, List.not_mem_nil, or_false] at hl
      rcases hl with rfl | rfl | rfl | rfl | rfl <;> simp [maxPoles])
    exact ⟨p, hp⟩
  obtain ⟨out, h⟩ := (C47_accept (ruleBack T) midExt marineBipole).2
    ⟨⟨_, describes_checkModel (A := BipoleArgs.toDipole marineBipole 0 0 0 0 0 0 11) hv marineBipole_describes⟩,
      Or.inl ⟨_, rfl⟩, Or.inr (Or.inl rfl), p1, p2⟩
  obtain ⟨arr, h1, h2⟩ := (bipole_full_iff _ _ _ _).1 h
  obtain ⟨mo, fo, ms, ts, mr, tr, g1, g2, g3, g4, g5, g6⟩ := C47_superposition (by norm_num [ruleBack, Mins.init])
    (ruleBack_uses T).pointwise midExt_ok h1
  have e1 : (false, XType.field) = (ms, ts) := Except.ok.inj ((C47_flags true .none).2.1 false ▸ g3)
  have e2 : (true, XType.flux) = (mr, tr) := Except.ok.inj ((C47_flags false .none).2.2.1 ▸ g4)
  obtain ⟨rfl, rfl⟩ := Prod.mk.inj e1
  obtain ⟨rfl, rfl⟩ := Prod.mk.inj e2
  have m1 : numPoles marineBipole.src = 1 := n1
  have m2 : numPoles marineBipole.rcv = 2 := n2
  rw [m1, m2] at g5
  refine ⟨arr, h.trans (by rw [h2]; rfl), by simp [NdArray.squeeze, g5, marineBipole], ?_⟩
  obtain ⟨S, R, hS, hR, D, d1, d2⟩ := g6 1 0 (by rw [m2]; norm_num) (by rw [m1]; norm_num)
  obtain ⟨W, w1, w2⟩ := d2 1 (by simp [marineBipole])
  cases hS with
  | point x y z a d hh => simp [marineBipole] at hh
  | segment x0 x1 y0 y1 z0 z1 hh za zb ha hb n w len pos dx dy dz on =>
  simp only [marineBipole, List.cons.injEq, and_true] at hh
  obtain ⟨rfl, rfl, rfl, rfl, rfl, rfl⟩ := hh
  cases hR with
  | segment x0 x1 y0 y1 z0 z1 hh => simp [marineBipole] at hh
  | point x y z a d hh n' hx hy hz w' len' dir =>
  simp only [marineBipole, List.cons.injEq, and_true] at hh
  obtain ⟨rfl, rfl, rfl, rfl, rfl⟩ := hh
  have hn : S.n = 5 := n
  simp only [bc_single] at ha hb len dx
  have ha' := abs_le.1 ha
  have hb' := abs_le.1 hb
  have hsq : S.len ^ 2 = 200 ^ 2 + (zb - za) ^ 2 := by
    rw [len, Real.sq_sqrt (by positivity)]; norm_num
  have hz2 : (zb - za) ^ 2 ≤ (2e-8) ^ 2 := by
    apply sq_le_sq'
    · linarith [ha'.1, ha'.2, hb'.1, hb'.2]
    · linarith [ha'.1, ha'.2, hb'.1, hb'.2]
  have l1 : 200 ≤ S.len := by nlinarith [sq_nonneg (zb - za)]
  have l2 : S.len ≤ 200 + 1e-8 := by nlinarith
  refine ⟨S, R, D, W, hn, ?_, ?_, ?_, ?_, S.len, (fo.zetaH.getD 1 []).getD (layerOf mo.depth (R.z 0)) 0, l1, l2, ?_⟩
  · intro i hi
    obtain ⟨t, t0, t1, -, t2, t3, -⟩ := on i (by omega)
    have t2' := abs_eq_zero.1 (le_antisymm t2 (abs_nonneg _))
    have t3' := abs_eq_zero.1 (le_antisymm t3 (abs_nonneg _))
    simp only [bc_single, seg] at t2' t3'
    refine ⟨?_, by linarith⟩
    rw [abs_le]
    constructor <;> linarith
  · rw [hx]; simp [bc]
  · have hd3 : R.dir 3 = 1 := by
      rw [dir]
      simp only [direction, bc_single]
      rw [show (90 : ℝ) * (Real.pi / 180) = Real.pi / 2 by ring, Real.sin_pi_div_two]
      norm_num
    have h31 := w1 3 1 (by norm_num) (by norm_num)
    rw [hd3, one_mul] at h31
    have hs1 : S.dir 1 ≤ 1 ∧ 1 - 1e-8 ≤ S.dir 1 := by
      have : S.dir 1 = 200 / S.len := by rw [eq_div_iff pos.ne']; linarith
      rw [this]
      refine ⟨by rw [div_le_one pos]; exact l1, ?_⟩
      rw [le_div_iff₀ pos]; nlinarith
    have := abs_le.1 h31
    rw [abs_le]
    constructor <;> linarith [this.1, this.2, hs1.1, hs1.2]
  · intro i j a b ha hb
    have := d1 i j a b ha hb
    exact this
  · rw [w2, if_pos (by norm_num [marineBipole]), n', hn, len']
    congr 1
    refine Finset.sum_congr rfl fun i _ => ?_
    simp only [Finset.sum_range_one, fluxFactor, w', mul_one]

end Verif.Props
