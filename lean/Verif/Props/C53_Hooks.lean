import Verif.Spec.Law
import Verif.Model.Hooks
import Verif.Props.C44_Dipole

/-!
# C53: functions of the user
-/

namespace Verif.Props
open Verif.Py Verif.Py.W Verif.Utils Verif.Spec Verif.Model Verif.Kernel Verif.Lemmas Verif.Transform

/-! ## Helper lemmas -/

theorem hookWith_tail {B : Back} {K : Hooks} {b : Option Band} {A : DipoleArgs} {post : Post} {mo : ModelOut}
    {fo fo' : FreqOut}
    (h1 : (checkModel B.m A.depth A.res A.aniso A.epermH A.epermV A.mpermH A.mpermV A.xdirect A.verb).val = .ok mo)
    (h2 : (checkFrequency B.m A.freq mo.res mo.aniso mo.epermH mo.epermV mo.mpermH mo.mpermV A.verb).val = .ok fo)
    (h3 : K.run mo fo = .ok fo') :
    (dipoleHookWith B K b A post).val = (dipoleTail B A (withBand b post) mo fo').val := by
  unfold dipoleHookWith
  rw [bind_ok h1, bind_ok h2]
  have h3' : (ofExcept (K.run mo fo)).val = .ok fo' := h3
  rw [bind_ok h3']

/-- The layer parameters as a function of the user finds them. -/
def parOf (mo : ModelOut) (i : ℕ) : LayerPar where
  rhoH := mo.res.getD i 0
  aniso := mo.aniso.getD i 0
  epsH := mo.epermH.getD i 0
  epsV := mo.epermV.getD i 0
  muH := mo.mpermH.getD i 0
  muV := mo.mpermV.getD i 0
  extra := fun k => ((mo.extra.getD []).lookup k).map fun l => l.getD i 0

/-- The values so far as a function of the user finds them. -/
def fourOf (fo : FreqOut) (g i : ℕ) : Four where
  etaH := (fo.etaH.getD g []).getD i 0
  etaV := (fo.etaV.getD g []).getD i 0
  zetaH := (fo.zetaH.getD g []).getD i 0
  zetaV := (fo.zetaV.getD g []).getD i 0

/-- A function of the user computes the law `L`, layer by layer and frequency by frequency, if the parameters `names` are
in the dictionary. -/
def Follows (names : List String) (h : Hook) (L : Law) : Prop :=
  ∀ mo fo, (∀ k ∈ names, ∃ l, (mo.extra.getD []).lookup k = some l) →
    h mo fo = .ok (
      Gallery.table mo fo fun g i => (L (parOf mo i) (fo.freq.getD g 0) (fourOf fo g i)).1,
      Gallery.table mo fo fun g i => (L (parOf mo i) (fo.freq.getD g 0) (fourOf fo g i)).2)

/-- There is a function exactly if there is a law, and it computes the law. -/
def FollowsOpt (names : List String) : Option Hook → Option Law → Prop
  | none, none => True
  | some h, some L => Follows names h L
  | _, _ => False

/-- The functions compute the laws of the model from its parameters. -/
structure Obeys (K : Hooks) (V : LawModel) : Prop where
  eta : ∃ names, FollowsOpt names K.eta V.eta ∧ ∀ k ∈ names, ∃ o, V.extra.lookup k = some o
  zeta : ∃ names, FollowsOpt names K.zeta V.zeta ∧ ∀ k ∈ names, ∃ o, V.extra.lookup k = some o

/-- The arguments list the layers of the model with laws, top to bottom or bottom to top; `res` is a dictionary. -/
inductive ListsLaw (A : DipoleArgs) (V : LawModel) : Prop
  | topDown (lo hi : Bool) (depth : A.depth.getD [] = allDepths V.U lo hi) (res : A.res = .dict V.U.res V.extra)
      (aniso : A.aniso = V.U.aniso) (epermH : A.epermH = V.U.epermH) (epermV : A.epermV = V.U.epermV)
      (mpermH : A.mpermH = V.U.mpermH) (mpermV : A.mpermV = V.U.mpermV)
  | bottomUp (lo hi : Bool) (depth : A.depth.getD [] = (allDepths V.U lo hi).reverse)
      (two : 2 ≤ (allDepths V.U lo hi).length) (strict : V.U.z.Pairwise (· < ·))
      (res : A.res = .dict V.U.res.reverse (V.extra.map fun p => (p.1, p.2.map List.reverse)))
      (aniso : A.aniso = V.U.aniso.map List.reverse) (epermH : A.epermH = V.U.epermH.map List.reverse)
      (epermV : A.epermV = V.U.epermV.map List.reverse) (mpermH : A.mpermH = V.U.mpermH.map List.reverse)
      (mpermV : A.mpermV = V.U.mpermV.map List.reverse)

/-- Result of `check_model` for a model with laws. -/
noncomputable def lawOut (m : Mins) (V : LawModel) : ModelOut :=
  { userOut m V.U with
    extra := some (V.extra.map fun p => (p.1, inpVal (V.U.z.length + 1) none p.2))
    isfullspace := false }

theorem law_depths {V : LawModel} {m : Mins} (h : V.Valid m.minRes) (lo hi : Bool) (xd : Option Bool) (verb : ℤ) :
    (checkModel m (some (allDepths V.U lo hi)) (.dict V.U.res V.extra) V.U.aniso V.U.epermH V.U.epermV V.U.mpermH
      V.U.mpermV xd verb).val = .ok (lawOut m V) := by
  have h1 := C10_interfaces (zs := V.U.z) h.user.order (pre := if lo then [⊥] else []) (post := if hi then [⊤] else [])
    (by cases lo <;> simp) (by cases hi <;> simp)
  have hd : (checkDepth (some (allDepths V.U lo hi))).val = .ok (⊥ :: zE V.U, false) := h1
  have hn : (⊥ :: zE V.U).length = V.U.z.length + 1 := by simp [zE]
  rw [checkModel_val, hd]
  simp only
  rw [if_pos]
  · unfold lawOut userOut modelVal
    simp only [ResArg.res, ResArg.extra, Option.map_some, Option.isNone_some, Bool.false_and, hn]
    rfl
  · rw [hn]
    refine ⟨h.user.len, ?_, ?_, ?_, ?_, ?_, ?_⟩
    · intro v hv; exact h.user.lens v (by simp [hv])
    · intro v hv; exact h.user.lens v (by simp [hv])
    · intro v hv; exact h.user.lens v (by simp [hv])
    · intro v hv; exact h.user.lens v (by simp [hv])
    · intro v hv; exact h.user.lens v (by simp [hv])
    · intro e he p hp
      obtain rfl := Option.some.inj he
      exact h.lens p hp

theorem depths_strict {U : UserModel} (strict : U.z.Pairwise (· < ·)) (lo hi : Bool) :
    (allDepths U lo hi).Pairwise (· < ·) := by
  have hz : (U.z.map fun z : ℝ => (z : EReal)).Pairwise (· < ·) := by
    rw [List.pairwise_map]
    exact strict.imp fun h => EReal.coe_lt_coe_iff.2 h
  unfold allDepths
  rw [List.pairwise_append, List.pairwise_append]
  refine ⟨⟨by cases lo <;> simp, hz, ?_⟩, by cases hi <;> simp, ?_⟩
  · intro a ha b hb
    obtain ⟨z, -, rfl⟩ := List.mem_map.1 hb
    cases lo <;> simp at ha
    rw [ha]; exact EReal.bot_lt_coe z
  · intro a ha b hb
    cases hi <;> simp at hb
    rw [hb]
    rcases List.mem_append.1 ha with q | q
    · cases lo <;> simp at q
      rw [q]; exact bot_lt_top
    · obtain ⟨z, -, rfl⟩ := List.mem_map.1 q
      exact EReal.coe_lt_top z

theorem law_checkModel {A : DipoleArgs} {V : LawModel} {m : Mins} (h : V.Valid m.minRes) (hA : ListsLaw A V) :
    (checkModel m A.depth A.res A.aniso A.epermH A.epermV A.mpermH A.mpermV A.xdirect A.verb).val =
      .ok (lawOut m V) := by
  rw [checkModel_getD]
  cases hA with
  | topDown lo hi depth res aniso epermH epermV mpermH mpermV =>
    rw [depth, res, aniso, epermH, epermV, mpermH, mpermV]
    exact law_depths h lo hi _ _
  | bottomUp lo hi depth two strict res aniso epermH epermV mpermH mpermV =>
    rw [depth, res, aniso, epermH, epermV, mpermH, mpermV, ← law_depths h lo hi A.xdirect A.verb]
    exact C10_reverse (res := .dict V.U.res V.extra) (depths_strict strict lo hi) two

theorem lookup_map {β γ : Type} (g : β → γ) (l : List (String × β)) (k : String) :
    (l.map fun p => (p.1, g p.2)).lookup k = (l.lookup k).map g := by
  induction l with
  | nil => rfl
  | cons p t ih =>
    obtain ⟨a, c⟩ := p
    simp only [List.map_cons, List.lookup_cons]
    cases hk : k == a <;> simp [ih]

theorem parOf_law {V : LawModel} {m : Mins} (hm : 0 < m.minRes) (h : V.Valid m.minRes) {i : ℕ}
    (hi : i < V.U.z.length + 1) : parOf (lawOut m V) i = V.layerPar i := by
  obtain ⟨q1, q2, q3, q4, q5, q6, v1, v2, v3, v4, v5, v6⟩ := user_entries hm h.user hi
  unfold parOf LawModel.layerPar lawOut
  simp only [getD_eq q1, getD_eq q2, getD_eq q3, getD_eq q4, getD_eq q5, getD_eq q6, v1, v2, v3, v4, v5, v6,
    Option.getD_some]
  congr 1
  funext k
  rw [lookup_map (inpVal (V.U.z.length + 1) none)]
  cases ho : V.extra.lookup k with
  | none => rfl
  | some o =>
    simp only [Option.map_some, Option.some.injEq]
    cases o with
    | none => simp [inpVal, UserModel.val, hi]
    | some l => rfl

theorem entry_layer (U : UserModel) {l : List ℂ} {f : ℕ → ℂ} (hl : l.length = U.z.length + 1)
    (he : ∀ i < U.z.length + 1, ∀ hi : i < l.length, l[i] = f i) : entry l 0 = U.layer f := by
  funext i
  unfold entry UserModel.layer
  by_cases h0 : 0 ≤ i
  · by_cases h1 : i < U.z.length + 1
    · rw [if_pos h0, if_pos ⟨h0, h1⟩]
      have hi : i.toNat < U.z.length + 1 := by omega
      rw [getD_eq (by omega)]
      exact he _ hi _
    · rw [if_pos h0, if_neg (fun q => h1 q.2)]
      rw [List.getD_eq_default _ _ (by omega)]
  · rw [if_neg h0, if_neg (fun q => h0 q.1)]

open Classical in
/-- The value a function of the user finds under `freq`. -/
noncomputable def usedVal (minFreq : ℝ) (freq : List ℝ) (f : ℝ) : ℝ :=
  if ∃ g ∈ freq, 0 < g then max f minFreq else max (-f) minFreq

/-- What `check_frequency` returns for a valid model, entry by entry. -/
theorem law_freq {V : LawModel} {m : Mins} (hm : 0 < m.minRes) (h : V.Valid m.minRes) {freq : List ℝ} {verb : ℤ}
    {fo : FreqOut} (hf : (checkFrequency m freq (lawOut m V).res (lawOut m V).aniso (lawOut m V).epermH
      (lawOut m V).epermV (lawOut m V).mpermH (lawOut m V).mpermV verb).val = .ok fo) :
    fo.freq.length = freq.length ∧ ∀ g (hg : g < freq.length),
      fo.freq.getD g 0 = usedVal m.minFreq freq freq[g] ∧
      ((fo.etaH.getD g []).length = V.U.z.length + 1 ∧ (fo.etaV.getD g []).length = V.U.z.length + 1 ∧
        (fo.zetaH.getD g []).length = V.U.z.length + 1 ∧ (fo.zetaV.getD g []).length = V.U.z.length + 1) ∧
      ∀ i < V.U.z.length + 1, fourOf fo g i = V.plain (sParam m.minFreq freq freq[g]) i := by
  obtain ⟨-, c1, c2, c3, c4, c5, c6, c7⟩ := user_lengths (m := m) h.user
  obtain ⟨hl, hrows⟩ := user_rows (m := m) hm h.user (freq := freq) (verb := verb) hf
  rw [C30_frequency] at hf
  have hfo := Except.ok.inj hf
  refine ⟨hl, fun g hg => ⟨?_, ?_, fun i hi => ?_⟩⟩
  · rw [← hfo]
    simp only
    rw [getD_eq (by simpa using hg), List.getElem_map]
    rfl
  · rw [← hfo]
    simp only
    rw [getD_eq (by simpa using hg), getD_eq (by simpa using hg), getD_eq (by simpa using hg),
      getD_eq (by simpa using hg)]
    have d2 : (lawOut m V).res.length = V.U.z.length + 1 := c2
    have d3 : (lawOut m V).aniso.length = V.U.z.length + 1 := c3
    have d4 : (lawOut m V).epermH.length = V.U.z.length + 1 := c4
    have d5 : (lawOut m V).epermV.length = V.U.z.length + 1 := c5
    have d6 : (lawOut m V).mpermH.length = V.U.z.length + 1 := c6
    have d7 : (lawOut m V).mpermV.length = V.U.z.length + 1 := c7
    simp [d2, d3, d4, d5, d6, d7]
  · have hrow : rowEarth (userOut m V.U).depth (fo.etaH.getD g []) (fo.etaV.getD g []) (fo.zetaH.getD g [])
        (fo.zetaV.getD g []) = earthOf (V.U.medium (sParam m.minFreq freq freq[g])) := by
      have e := congrArg (fun l => l[g]?) hrows
      simp only [rowsOf, List.getElem?_map, hl, List.getElem?_range hg, Option.map_some,
        Option.some.injEq, getD_eq hg] at e
      exact e
    have r : ∀ (f : ℕ → ℂ), V.U.layer f (i : ℤ) = f i := fun f => by
      unfold UserModel.layer
      rw [if_pos ⟨by omega, by omega⟩]; simp
    have en : ∀ l : List ℂ, entry l 0 (i : ℤ) = l.getD i 0 := fun l => by
      unfold entry; rw [if_pos (by omega)]; simp
    have k1 := congrFun (congrArg Earth.etaH hrow) (i : ℤ)
    have k2 := congrFun (congrArg Earth.etaV hrow) (i : ℤ)
    have k3 := congrFun (congrArg Earth.zetaH hrow) (i : ℤ)
    have k4 := congrFun (congrArg Earth.zetaV hrow) (i : ℤ)
    simp only [rowEarth, earthOf, UserModel.medium, en, r] at k1 k2 k3 k4
    unfold fourOf LawModel.plain
    rw [k1, k2, k3, k4]

/-- The arrays of a medium row by row. -/
structure TableOf (V : LawModel) (fo : FreqOut) (q : ℕ → ℕ → Four) : Prop where
  lens : ∀ g < fo.freq.length, (fo.etaH.getD g []).length = V.U.z.length + 1 ∧
    (fo.etaV.getD g []).length = V.U.z.length + 1 ∧ (fo.zetaH.getD g []).length = V.U.z.length + 1 ∧
    (fo.zetaV.getD g []).length = V.U.z.length + 1
  vals : ∀ g < fo.freq.length, ∀ i < V.U.z.length + 1, fourOf fo g i = q g i

theorem table_getD {mo : ModelOut} {fo : FreqOut} {v : ℕ → ℕ → ℂ} {g : ℕ} (hg : g < fo.freq.length) :
    (Gallery.table mo fo v).getD g [] = (List.range mo.depth.length).map (v g) := by
  unfold Gallery.table
  rw [getD_eq (by simpa using hg)]
  simp

theorem table_entry {mo : ModelOut} {fo : FreqOut} {v : ℕ → ℕ → ℂ} {g i : ℕ} (hg : g < fo.freq.length)
    (hi : i < mo.depth.length) : ((Gallery.table mo fo v).getD g []).getD i 0 = v g i := by
  rw [table_getD hg, getD_eq (by simpa using hi)]
  simp

theorem run_obeys {V : LawModel} {m : Mins} (hm : 0 < m.minRes) (hV : V.Valid m.minRes) {K : Hooks}
    (hK : Obeys K V) {fo : FreqOut} {q : ℕ → ℕ → Four} (hq : TableOf V fo q) :
    ∃ fo', K.run (lawOut m V) fo = .ok fo' ∧ fo'.freq = fo.freq ∧
      TableOf V fo' fun g i => ((q g i).setEta V.eta (V.layerPar i) (fo.freq.getD g 0)).setZeta V.zeta (V.layerPar i)
        (fo.freq.getD g 0) := by
  have hn : (lawOut m V).depth.length = V.U.z.length + 1 := (user_lengths (m := m) hV.user).2.1
  have present : ∀ names : List String, (∀ k ∈ names, ∃ o, V.extra.lookup k = some o) →
      ∀ k ∈ names, ∃ l, ((lawOut m V).extra.getD []).lookup k = some l := by
    intro names hnm k hk
    obtain ⟨o, ho⟩ := hnm k hk
    refine ⟨inpVal (V.U.z.length + 1) none o, ?_⟩
    simp only [lawOut, Option.getD_some]
    rw [lookup_map (inpVal (V.U.z.length + 1) none), ho]
    rfl
  -- first function
  obtain ⟨fo1, h1, hf1, t1⟩ : ∃ fo', K.runEta (lawOut m V) fo = .ok fo' ∧ fo'.freq = fo.freq ∧
      TableOf V fo' fun g i => (q g i).setEta V.eta (V.layerPar i) (fo.freq.getD g 0) := by
    obtain ⟨names, hfo, hnm⟩ := hK.eta
    unfold Hooks.runEta
    cases hk : K.eta with
    | none =>
      cases hv : V.eta with
      | none => exact ⟨fo, rfl, rfl, hq.lens, hq.vals⟩
      | some L => rw [hk, hv] at hfo; exact hfo.elim
    | some h =>
      cases hv : V.eta with
      | none => rw [hk, hv] at hfo; exact hfo.elim
      | some L =>
        rw [hk, hv] at hfo
        simp only [hfo _ fo (present names hnm), bind, Except.bind]
        refine ⟨_, rfl, rfl, ?_, ?_⟩
        · intro g hg
          have hg' : g < fo.freq.length := hg
          obtain ⟨-, -, l3, l4⟩ := hq.lens g hg'
          exact ⟨by rw [table_getD hg']; simp [hn], by rw [table_getD hg']; simp [hn], l3, l4⟩
        · intro g hg i hi
          have hg' : g < fo.freq.length := hg
          have hv' := hq.vals g hg' i hi
          have hz1 : (fo.zetaH.getD g []).getD i 0 = (q g i).zetaH := congrArg Four.zetaH hv'
          have hz2 : (fo.zetaV.getD g []).getD i 0 = (q g i).zetaV := congrArg Four.zetaV hv'
          rw [fourOf]
          simp only [Four.setEta]
          rw [table_entry hg' (by rw [hn]; exact hi), table_entry hg' (by rw [hn]; exact hi), hv', parOf_law hm hV hi,
            hz1, hz2]
  obtain ⟨names, hfo, hnm⟩ := hK.zeta
  unfold Hooks.run
  have he : (lawOut m V).extra.isSome = true := rfl
  rw [if_pos he]
  simp only [h1, bind, Except.bind]
  unfold Hooks.runZeta
  cases hk : K.zeta with
  | none =>
    cases hv : V.zeta with
    | none => exact ⟨fo1, rfl, hf1, t1.lens, t1.vals⟩
    | some L => rw [hk, hv] at hfo; exact hfo.elim
  | some h =>
    cases hv : V.zeta with
    | none => rw [hk, hv] at hfo; exact hfo.elim
    | some L =>
      rw [hk, hv] at hfo
      simp only [hfo _ fo1 (present names hnm), bind, Except.bind]
      refine ⟨_, rfl, hf1, ?_, ?_⟩
      · intro g hg
        have hg' : g < fo1.freq.length := hg
        obtain ⟨l1, l2, -, -⟩ := t1.lens g hg'
        exact ⟨l1, l2, by rw [table_getD hg']; simp [hn], by rw [table_getD hg']; simp [hn]⟩
      · intro g hg i hi
        have hg' : g < fo1.freq.length := hg
        have hv' := t1.vals g hg' i hi
        have hz1 : (fo1.etaH.getD g []).getD i 0 = _ := congrArg Four.etaH hv'
        have hz2 : (fo1.etaV.getD g []).getD i 0 = _ := congrArg Four.etaV hv'
        rw [fourOf]
        simp only [Four.setZeta]
        rw [table_entry hg' (by rw [hn]; exact hi), table_entry hg' (by rw [hn]; exact hi), hv', parOf_law hm hV hi,
          hz1, hz2, hf1]

/-- The rows `fem` gets are those of the media with laws. -/
theorem law_rows {V : LawModel} {m : Mins} (hm : 0 < m.minRes) (hV : V.Valid m.minRes) {K : Hooks}
    (hK : Obeys K V) {freq : List ℝ} {verb : ℤ}
    {fo : FreqOut} (hf : (checkFrequency m freq (lawOut m V).res (lawOut m V).aniso (lawOut m V).epermH
      (lawOut m V).epermV (lawOut m V).mpermH (lawOut m V).mpermV verb).val = .ok fo) :
    ∃ fo', K.run (lawOut m V) fo = .ok fo' ∧ fo'.freq = fo.freq ∧ fo'.freq.length = freq.length ∧
      rowsOf (lawOut m V).depth fo' = (List.range fo'.freq.length).map fun g =>
        earthOf (V.medium (sParam m.minFreq freq (freq.getD g 0)) (usedVal m.minFreq freq (freq.getD g 0))) := by
  obtain ⟨hl, hE⟩ := law_freq hm hV hf
  obtain ⟨hl', hrows⟩ := user_rows (m := m) hm hV.user (freq := freq) (verb := verb) hf
  obtain ⟨fo', h1, h2, h3⟩ := run_obeys hm hV hK (fo := fo)
    (q := fun g i => V.plain (sParam m.minFreq freq (freq.getD g 0)) i)
    ⟨fun g hg => (hE g (hl ▸ hg)).2.1, fun g hg i hi => by
      rw [(hE g (hl ▸ hg)).2.2 i hi, getD_eq (hl ▸ hg : g < freq.length)]⟩
  have hl2 : fo'.freq.length = freq.length := by rw [h2, hl]
  refine ⟨fo', h1, h2, hl2, ?_⟩
  unfold rowsOf
  refine List.map_congr_left fun g hg => ?_
  have hg0 : g < freq.length := by rw [← hl2]; exact List.mem_range.1 hg
  have hg' : g < fo'.freq.length := List.mem_range.1 hg
  obtain ⟨l1, l2, l3, l4⟩ := h3.lens g hg'
  have hfr : fo.freq.getD g 0 = usedVal m.minFreq freq (freq.getD g 0) := by
    rw [(hE g hg0).1, getD_eq hg0]
  have val : ∀ i, i < V.U.z.length + 1 → fourOf fo' g i = V.four (sParam m.minFreq freq (freq.getD g 0))
      (usedVal m.minFreq freq (freq.getD g 0)) i := by
    intro i hi
    rw [h3.vals g hg' i hi, hfr]
    rfl
  have hdep : entry (lawOut m V).depth 0 = depthOf (V.medium (sParam m.minFreq freq (freq.getD g 0))
      (usedVal m.minFreq freq (freq.getD g 0))).D := by
    have e := congrArg (fun l => l[g]?) hrows
    simp only [rowsOf, List.getElem?_map, hl, List.getElem?_range hg0, Option.map_some,
      Option.some.injEq] at e
    exact congrArg Earth.depth e
  have hn : ((lawOut m V).depth.length : ℤ) = V.U.z.length + 1 := by
    have := (user_lengths (m := m) hV.user).2.1
    exact_mod_cast this
  unfold rowEarth earthOf
  rw [hdep]
  simp only [LawModel.medium]
  rw [entry_layer V.U l1 (f := fun i => (V.four (sParam m.minFreq freq (freq.getD g 0))
      (usedVal m.minFreq freq (freq.getD g 0)) i).etaH) (fun i hi hi' => by
        rw [← val i hi]; exact (getD_eq hi' 0).symm),
    entry_layer V.U l2 (f := fun i => (V.four (sParam m.minFreq freq (freq.getD g 0))
      (usedVal m.minFreq freq (freq.getD g 0)) i).etaV) (fun i hi hi' => by
        rw [← val i hi]; exact (getD_eq hi' 0).symm),
    entry_layer V.U l3 (f := fun i => (V.four (sParam m.minFreq freq (freq.getD g 0))
      (usedVal m.minFreq freq (freq.getD g 0)) i).zetaH) (fun i hi hi' => by
        rw [← val i hi]; exact (getD_eq hi' 0).symm),
    entry_layer V.U l4 (f := fun i => (V.four (sParam m.minFreq freq (freq.getD g 0))
      (usedVal m.minFreq freq (freq.getD g 0)) i).zetaV) (fun i hi hi' => by
        rw [← val i hi]; exact (getD_eq hi' 0).symm), hn]

theorem law_ok {V : LawModel} {m : Mins} (hm : 0 < m.minRes) (hV : V.Valid m.minRes) {s : ℂ} {f : ℝ}
    (hp : V.Passive s f) : (V.medium s f).OK where
  pos := by simp only [LawModel.medium]; omega
  mono := fun i h1 h2 => (user_ok (m := m) (s := 1) hm hV.user one_ne_zero (by simp)).mono i h1 h2
  pas := by
    intro i h1 h2
    have hi : i.toNat < V.U.z.length + 1 := by
      simp only [LawModel.medium] at h2; omega
    have e : ∀ f, V.U.layer f i = f i.toNat := fun f => by
      unfold UserModel.layer; rw [if_pos ⟨h1, by simp only [LawModel.medium] at h2; omega⟩]
    simp only [LawModel.medium, e]
    exact hp _ hi

/-! ## The functions decide the medium -/

/-- Layer of a depth for the checked model with laws. -/
theorem law_layer {V : LawModel} {m : Mins} (hV : V.Valid m.minRes) {s : ℂ} {f z : ℝ} {i : ℤ}
    (h : (V.medium s f).InUpper i z) : i = layerOf (lawOut m V).depth z :=
  (user_layer (m := m) hV.user s z i).1 h

open Classical in
/-- With the azimuth the code uses. -/
theorem dipoleHook_at {B : Back} (hm : 0 < B.m.minRes) (hof : 0 < B.m.minOff)
    (ho : Safe B.o) {T : ℝ → (ℝ → ℂ) → ℂ} (hT : IsRule T) (hB : Uses B (besselRule T)) {A : DipoleArgs}
    {V : LawModel} (hV : V.Valid B.m.minRes) (hA : ListsLaw A V) {K : Hooks} (hK : Obeys K V)
    (hp : ∀ g ∈ A.freq, V.Passive (sParam B.m.minFreq A.freq g) (usedVal B.m.minFreq A.freq g))
    {a b : ℕ} (ha : 1 ≤ a ∧ a ≤ 6)
    (hb : 1 ≤ b ∧ b ≤ 6) (hab : toInt A.ab = .ok (10 * a + b)) {xs ys xr yr : List ℝ} {zs zr : ℝ}
    (hsrc : A.src = [xs, ys, [zs]]) (hrcv : A.rcv = [xr, yr, [zr]])
    (hls : xs.length = ys.length ∨ xs.length = 1 ∨ ys.length = 1)
    (hlr : xr.length = yr.length ∨ xr.length = 1 ∨ yr.length = 1)
    {abc : ℕ} {ms mr : Bool} (hc : checkAb (.int (10 * a + b)) = .ok (abc, ms, mr))
    (ns : 0 < numDipoles A.src) (nr : 0 < numDipoles A.rcv) :
    ∃ arr, (dipoleHook B K none A).val = .ok (if A.squeeze then arr.squeeze else arr) ∧
      arr.shape = [A.freq.length, numDipoles A.rcv, numDipoles A.src] ∧
      ∀ (f r s : ℕ) (hf : f < A.freq.length), r < numDipoles A.rcv → s < numDipoles A.src →
        let M := fun g => V.medium (sParam B.m.minFreq A.freq g) (usedVal B.m.minFreq A.freq g)
        let ρ := rhoOf B.m.minOff (bc xr r - bc xs s) (bc yr r - bc ys s)
        let θ := thetaOf (bc xr r - bc xs s) (bc yr r - bc ys s)
        ∀ θ', angleFactor θ abc ms mr = exactFactor θ' abc ms mr →
        ∀ ls lr, (M A.freq[f]).InUpper ls zs → (M A.freq[f]).InUpper lr zr →
        ∀ F Fh : ℝ → ℝ → PlaneField,
        (∀ lam > 0, ∀ φ, IsPlaneField (M A.freq[f]) (lam * Real.cos φ) (lam * Real.sin φ) zs ls
          (unitDipole b) (F lam φ)) →
        (∀ lam > 0, ∀ φ, IsPlaneField ((M A.freq[f]).homog ls) (lam * Real.cos φ) (lam * Real.sin φ)
          zs 0 (unitDipole b) (Fh lam φ)) →
        arr.get [f, r, s] =
          (if A.xdirect = some true ∧ ls = lr then
            resp B.sqrt (A.freq.map fun g => layerMed (M g) lr) f a b (ρ * Real.cos θ) (ρ * Real.sin θ) zs zr
            else 0) +
          T ρ fun lam => ringIntegral (fun φ => (F lam φ).comp a lr zr -
            if A.xdirect ≠ some false ∧ ls = lr then (Fh lam φ).comp a 0 zr else 0) lam ρ θ' := by
  have h1 := law_checkModel hV hA
  have h2 := C30_frequency B.m A.freq (lawOut B.m V).res (lawOut B.m V).aniso (lawOut B.m V).epermH
    (lawOut B.m V).epermV (lawOut B.m V).mpermH (lawOut B.m V).mpermV A.verb
  obtain ⟨fo', h3, -, hl, hrows⟩ := law_rows hm hV hK h2
  obtain ⟨arr, e1, e2, e3⟩ := tail_field hof ho hT hB hrows
    (fun f hf => law_ok hm hV (hp _ (by
      rw [hl] at hf
      rw [getD_eq hf]; exact List.getElem_mem hf)))
    (fun f _ z i => law_layer hV) (P := False) (by simp [lawOut])
    (fun hu => hu.elim) ha hb hab hsrc hrcv hls hlr hc ns nr
  rw [hl] at e2
  refine ⟨arr, ?_, e2, ?_⟩
  · unfold dipoleHook
    have e1' : (dipoleHookWith B K none A inFreq).val = .ok arr := by
      rw [hookWith_tail h1 h2 h3]; exact e1
    rw [bind_ok e1']
    rfl
  intro f r s hf hr hs M ρ θ θ' hθe ls lr hsu hru F Fh hF hH
  have e := e3 f r s (by rw [hl]; exact hf) hr hs θ' hθe ls lr
  simp only [hl, getD_eq hf, or_false] at e
  simp only [map_range_getD A.freq (fun g => layerMed (V.medium (sParam B.m.minFreq A.freq g)
    (usedVal B.m.minFreq A.freq g)) lr)] at e
  exact e hsu hru F Fh hF hH

open Classical in
/-- **C53.**  `dipole` with a dictionary in `res`: whatever laws the functions `func_eta` and `func_zeta` compute from the
parameters of a layer, the frequency and the values so far, and however the layers are listed (`Obeys`, `ListsLaw`), the
result is the response of the medium these laws describe, as long as it is passive: at every frequency the integral over
the plane waves of the exact solution of Maxwell's equations.  The direct field is taken out (`xdirect` not `False`) and
added in closed form (`xdirect = True`), with the values of the laws, if source and receiver are in the same layer. -/
theorem C53_dipole {B : Back} (hm : 0 < B.m.minRes) (hof : 0 < B.m.minOff)
    (ho : Safe B.o) {T : ℝ → (ℝ → ℂ) → ℂ} (hT : IsRule T) (hB : Uses B (besselRule T)) {A : DipoleArgs}
    {V : LawModel} (hV : V.Valid B.m.minRes) (hA : ListsLaw A V) {K : Hooks} (hK : Obeys K V)
    (hp : ∀ g ∈ A.freq, V.Passive (sParam B.m.minFreq A.freq g) (usedVal B.m.minFreq A.freq g))
    {a b : ℕ} (ha : 1 ≤ a ∧ a ≤ 6)
    (hb : 1 ≤ b ∧ b ≤ 6) (hab : toInt A.ab = .ok (10 * a + b)) {xs ys xr yr : List ℝ} {zs zr : ℝ}
    (hsrc : A.src = [xs, ys, [zs]]) (hrcv : A.rcv = [xr, yr, [zr]])
    (hls : xs.length = ys.length ∨ xs.length = 1 ∨ ys.length = 1)
    (hlr : xr.length = yr.length ∨ xr.length = 1 ∨ yr.length = 1)
    (ns : 0 < numDipoles A.src) (nr : 0 < numDipoles A.rcv) :
    ∃ arr, (dipoleHook B K none A).val = .ok (if A.squeeze then arr.squeeze else arr) ∧
      arr.shape = [A.freq.length, numDipoles A.rcv, numDipoles A.src] ∧
      ∀ (f r s : ℕ) (hf : f < A.freq.length), r < numDipoles A.rcv → s < numDipoles A.src →
        let M := fun g => V.medium (sParam B.m.minFreq A.freq g) (usedVal B.m.minFreq A.freq g)
        let ρ := rhoOf B.m.minOff (bc xr r - bc xs s) (bc yr r - bc ys s)
        let θ := thetaOf (bc xr r - bc xs s) (bc yr r - bc ys s)
        ∃ θ', |θ' - θ| ≤ 1e-9 ∧
        ∀ ls lr, (M A.freq[f]).InUpper ls zs → (M A.freq[f]).InUpper lr zr →
        ∀ F Fh : ℝ → ℝ → PlaneField,
        (∀ lam > 0, ∀ φ, IsPlaneField (M A.freq[f]) (lam * Real.cos φ) (lam * Real.sin φ) zs ls
          (unitDipole b) (F lam φ)) →
        (∀ lam > 0, ∀ φ, IsPlaneField ((M A.freq[f]).homog ls) (lam * Real.cos φ) (lam * Real.sin φ)
          zs 0 (unitDipole b) (Fh lam φ)) →
        arr.get [f, r, s] =
          (if A.xdirect = some true ∧ ls = lr then
            resp B.sqrt (A.freq.map fun g => layerMed (M g) lr) f a b (ρ * Real.cos θ) (ρ * Real.sin θ) zs zr
            else 0) +
          T ρ fun lam => ringIntegral (fun φ => (F lam φ).comp a lr zr -
            if A.xdirect ≠ some false ∧ ls = lr then (Fh lam φ).comp a 0 zr else 0) lam ρ θ' := by
  obtain ⟨abc, ms, mr, hc⟩ : ∃ abc ms mr, checkAb (.int (10 * a + b)) = .ok (abc, ms, mr) :=
    ⟨_, _, _, checkAb_digits ha hb⟩
  obtain ⟨arr, h1, h2, h3⟩ := dipoleHook_at hm hof ho hT hB hV hA hK hp ha hb hab hsrc hrcv hls hlr hc ns nr
  refine ⟨arr, h1, h2, ?_⟩
  intro f r s hf hr hs M ρ θ
  obtain ⟨θ', hθ, hθe⟩ := angle_near θ abc ms mr
  exact ⟨θ', hθ, h3 f r s hf hr hs θ' hθe⟩

/-! ## Without functions -/

/-- **C53.**  With an array in `res` no function is called: `dipole` is `dipole` without functions. -/
theorem C53_array (B : Back) (K : Hooks) {A : DipoleArgs} {r : List ℝ} (hr : A.res = .array r) :
    (dipoleHook B K none A).val = (Model.dipole B A).val := by
  unfold dipoleHook Model.dipole dipoleHookWith dipoleFull dipoleWith
  have key : ∀ mo, (checkModel B.m A.depth A.res A.aniso A.epermH A.epermV A.mpermH A.mpermV A.xdirect A.verb).val
      = .ok mo → mo.extra = none := by
    intro mo h
    rw [checkModel_val] at h
    split at h
    · cases h
    · split_ifs at h
      rw [← Except.ok.inj h, hr]
      rfl
  simp only [bind_val]
  cases h1 : (checkModel B.m A.depth A.res A.aniso A.epermH A.epermV A.mpermH A.mpermV A.xdirect A.verb).val with
  | error e => rfl
  | ok mo =>
    simp only [Except.bind]
    cases h2 : (checkFrequency B.m A.freq mo.res mo.aniso mo.epermH mo.epermV mo.mpermH mo.mpermV A.verb).val with
    | error e => rfl
    | ok fo =>
      have : K.run mo fo = .ok fo := by unfold Hooks.run; rw [key mo h1]; rfl
      dsimp only
      rw [this]
      rfl

/-- **C53.**  A dictionary without functions, of a model whose layers are not all the same, gives the result of the array:
further parameters have no effect. -/
theorem C53_dict {B : Back} (hm : 0 < B.m.minRes) {A A' : DipoleArgs} {V : LawModel} (hV : V.Valid B.m.minRes)
    (hA : ListsLaw A V)
    (hA' : Describes A' V.U) (hu : ¬ V.U.Uniform)
    (same : A'.src = A.src ∧ A'.rcv = A.rcv ∧ A'.freq = A.freq ∧ A'.ab = A.ab ∧ A'.xdirect = A.xdirect ∧
      A'.loop = A.loop ∧ A'.squeeze = A.squeeze ∧ A'.verb = A.verb) :
    (dipoleHook B ⟨none, none⟩ none A).val = (Model.dipole B A').val := by
  obtain ⟨s1, s2, s3, s4, s5, s6, s7, s8⟩ := same
  have h1 := law_checkModel hV hA
  have h1' := describes_checkModel hV.user hA'
  have h2 := C30_frequency B.m A.freq (lawOut B.m V).res (lawOut B.m V).aniso (lawOut B.m V).epermH
    (lawOut B.m V).epermV (lawOut B.m V).mpermH (lawOut B.m V).mpermV A.verb
  have h2' := h2
  rw [← s3, ← s8] at h2'
  have h3 : ∀ fo, (⟨none, none⟩ : Hooks).run (lawOut B.m V) fo = .ok fo := fun fo => rfl
  have hiso : (userOut B.m V.U).isfullspace = (lawOut B.m V).isfullspace := by
    have := user_full (m := B.m) hm hV.user
    cases hq : (userOut B.m V.U).isfullspace with
    | false => rfl
    | true => exact absurd (this.1 hq) hu
  unfold dipoleHook Model.dipole
  rw [bind_val, bind_val, hookWith_tail h1 h2 (h3 _), dipoleFull_tail h1' h2', s7]
  congr 1
  unfold dipoleTail
  rw [s1, s2, s4, s5, s6, s8, hiso, s3]
  rfl

/-- **C53.**  An exception in a function of the user is the exception of `dipole`, whatever the sources, the receivers and
`ab` are; the function for `η` comes first. -/
theorem C53_error {B : Back} {A : DipoleArgs} {V : LawModel} (hV : V.Valid B.m.minRes) (hA : ListsLaw A V)
    {K : Hooks} {h : Hook} (hK : K.eta = some h) {e : PyErr} (he : ∀ mo fo, h mo fo = .error e) (b : Option Band)
    (post : Post) : (dipoleHookWith B K b A post).val = .error e := by
  have h1 := law_checkModel hV hA
  have h2 := C30_frequency B.m A.freq (lawOut B.m V).res (lawOut B.m V).aniso (lawOut B.m V).epermH
    (lawOut B.m V).epermV (lawOut B.m V).mpermH (lawOut B.m V).mpermV A.verb
  unfold dipoleHookWith
  rw [bind_ok h1, bind_ok h2]
  have : ∀ fo, K.run (lawOut B.m V) fo = .error e := by
    intro fo
    unfold Hooks.run Hooks.runEta
    have q : (lawOut B.m V).extra.isSome = true := rfl
    rw [if_pos q, hK]
    simp [he, bind, Except.bind]
  rw [this]
  rfl

end Verif.Props
