import Verif.Spec.User
import Verif.Model.Dipole
import Verif.Props.C30_Frequency
import Verif.Spec.Moves
import Mathlib.Data.List.GetD

/-! Helper lemmas: the arrays the code computes from a valid user model are those of `U.medium`. -/

namespace Verif.Lemmas
open Verif.Py Verif.Py.W Verif.Utils Verif.Spec Verif.Model Verif.Kernel Verif.Props

theorem muVac_eq : muVac = mu0 := rfl
theorem epsVac_eq : epsVac = eps0 := by unfold epsVac eps0 muVac mu0; ring

variable {U : UserModel} {m : Mins}

/-- The interfaces as the code gets them. -/
noncomputable def zE (U : UserModel) : List EReal := U.z.map fun z : ℝ => (z : EReal)

/-- Result of `check_model` for a user model. -/
noncomputable def userOut (m : Mins) (U : UserModel) : ModelOut :=
  modelVal m (⊥ :: zE U) false (.array U.res) U.aniso U.epermH U.epermV U.mpermH U.mpermV

theorem user_checkModel (h : U.Valid m.minRes) (xd : Option Bool) (verb : ℤ) :
    (checkModel m (some (zE U)) (.array U.res) U.aniso U.epermH U.epermV U.mpermH U.mpermV xd
      verb).val = .ok (userOut m U) := by
  have hd : (checkDepth (some (zE U))).val = .ok (⊥ :: zE U, false) := by
    have := C10_interfaces (zs := U.z) h.order (pre := []) (post := []) (by simp) (by simp)
    simpa [zE] using this
  rw [checkModel_val, hd]
  simp only
  rw [if_pos]
  · rfl
  · have hn : (⊥ :: zE U).length = U.z.length + 1 := by simp [zE]
    rw [hn]
    refine ⟨h.len, ?_, ?_, ?_, ?_, ?_, by simp [ResArg.extra]⟩ <;> intro v hv
    · exact h.lens v (by simp [hv])
    · exact h.lens v (by simp [hv])
    · exact h.lens v (by simp [hv])
    · exact h.lens v (by simp [hv])
    · exact h.lens v (by simp [hv])

theorem getD_eq {α : Type} {l : List α} {i : ℕ} (h : i < l.length) (d : α) : l.getD i d = l[i] :=
  List.getD_eq_getElem _ _ h

theorem inp_entry {n : ℕ} {o : Option (List ℝ)} (hl : ∀ l, o = some l → l.length = n) {i : ℕ}
    (hi : i < n) (h0 : 0 ≤ UserModel.val o 1 i) :
    ∃ h : i < (inpVal n (some 0) o).length, (inpVal n (some 0) o)[i] = UserModel.val o 1 i := by
  cases o with
  | none => exact ⟨by simp [inpVal, hi], by simp [inpVal, UserModel.val]⟩
  | some l =>
    have e := hl l rfl
    refine ⟨by simp [inpVal, e, hi], ?_⟩
    simp only [UserModel.val, getD_eq (show i < l.length by omega)] at h0 ⊢
    simp only [inpVal, List.getElem_map, cut_eq]
    exact max_eq_left h0

theorem aniso_entry {n : ℕ} {o : Option (List ℝ)} {r : List ℝ} {mn : ℝ}
    (hl : ∀ l, o = some l → l.length = n) {i : ℕ} (hi : i < n) (hr : i < r.length) (h0 : 0 < r[i])
    (p : 0 < UserModel.val o 1 i) (e : mn ≤ r[i] * UserModel.val o 1 i ^ 2) :
    ∃ h : i < (anisoVal n r mn o).length, (anisoVal n r mn o)[i] = UserModel.val o 1 i := by
  cases o with
  | none => exact ⟨by simp [anisoVal, hi], by simp [anisoVal, UserModel.val]⟩
  | some v =>
    have hv : i < v.length := by rw [hl v rfl]; exact hi
    refine ⟨by simp [anisoVal, hv, hr], ?_⟩
    simp only [UserModel.val, getD_eq hv] at e p ⊢
    simp only [anisoVal, List.getElem_zipWith, List.getElem_map]
    rw [cut_eq, max_eq_left (by rw [mul_comm]; exact e), mul_div_cancel_right₀ _ h0.ne',
      Real.sqrt_sq p.le]

/-- Everything in layer `i`. -/
theorem user_entries (hm : 0 < m.minRes) (h : U.Valid m.minRes) {i : ℕ} (hi : i < U.z.length + 1) :
    let o := userOut m U
    ∃ (h1 : i < o.res.length) (h2 : i < o.aniso.length) (h3 : i < o.epermH.length)
      (h4 : i < o.epermV.length) (h5 : i < o.mpermH.length) (h6 : i < o.mpermV.length),
      o.res[i] = U.rhoH i ∧ o.aniso[i] = UserModel.val U.aniso 1 i ∧ o.epermH[i] = U.epsH i ∧
      o.epermV[i] = U.epsV i ∧ o.mpermH[i] = U.muH i ∧ o.mpermV[i] = U.muV i := by
  intro o
  have hn : (⊥ :: zE U).length = U.z.length + 1 := by simp [zE]
  have hr : i < U.res.length := by rw [h.len]; exact hi
  have er : cut m.minRes (U.res[i]'hr) = U.rhoH i := by
    have := h.rhoH i hi
    rw [UserModel.rhoH, getD_eq hr] at this
    rw [cut_eq, UserModel.rhoH, getD_eq hr]
    exact max_eq_left this
  have hpos : 0 < U.rhoH i := lt_of_lt_of_le hm (h.rhoH i hi)
  have e1 : o.res = U.res.map (cut m.minRes) := by
    simp [o, userOut, modelVal, rev, ResArg.res]
  have e2 : o.aniso = anisoVal (U.z.length + 1) (U.res.map (cut m.minRes)) m.minRes U.aniso := by
    simp [o, userOut, modelVal, rev, ResArg.res, hn]
  have e3 : o.epermH = inpVal (U.z.length + 1) (some 0) U.epermH := by
    simp [o, userOut, modelVal, rev, hn]
  have e4 : o.epermV = if U.epermV = none then inpVal (U.z.length + 1) (some 0) U.epermH
      else inpVal (U.z.length + 1) (some 0) U.epermV := by
    simp [o, userOut, modelVal, rev, hn]
  have e5 : o.mpermH = inpVal (U.z.length + 1) (some 0) U.mpermH := by
    simp [o, userOut, modelVal, rev, hn]
  have e6 : o.mpermV = if U.mpermV = none then inpVal (U.z.length + 1) (some 0) U.mpermH
      else inpVal (U.z.length + 1) (some 0) U.mpermV := by
    simp [o, userOut, modelVal, rev, hn]
  have g1 : ∃ h1 : i < o.res.length, o.res[i] = U.rhoH i := by
    simp only [e1]
    exact ⟨by simpa using hr, by rw [List.getElem_map, er]⟩
  have g2 : ∃ h2 : i < o.aniso.length, o.aniso[i] = UserModel.val U.aniso 1 i := by
    simp only [e2]
    refine aniso_entry (fun l hl => h.lens l (by simp [hl])) hi (by simpa using hr) ?_ (h.aniso i hi) ?_
    · rw [List.getElem_map, er]; exact hpos
    · rw [List.getElem_map, er]; exact h.rhoV i hi
  obtain ⟨h3, g3⟩ := inp_entry (n := U.z.length + 1) (o := U.epermH)
    (fun l hl => h.lens l (by simp [hl])) hi (h.epsH i hi)
  obtain ⟨h5, g5⟩ := inp_entry (n := U.z.length + 1) (o := U.mpermH)
    (fun l hl => h.lens l (by simp [hl])) hi (h.muH i hi).le
  have g4 : ∃ h4 : i < o.epermV.length, o.epermV[i] = U.epsV i := by
    simp only [e4]
    have q := h.epsV i hi
    by_cases hv : U.epermV = none
    · simp only [hv, if_true]
      exact ⟨h3, by rw [g3, UserModel.epsV, hv]; rfl⟩
    · simp only [hv, if_false]
      have ev : U.epsV i = UserModel.val U.epermV 1 i := by
        rw [UserModel.epsV]; cases hq : U.epermV with
        | none => exact absurd hq hv
        | some l => rfl
      rw [ev] at q ⊢
      exact inp_entry (n := U.z.length + 1) (o := U.epermV) (fun l hl => h.lens l (by simp [hl])) hi q
  have g6 : ∃ h6 : i < o.mpermV.length, o.mpermV[i] = U.muV i := by
    simp only [e6]
    have q := h.muV i hi
    by_cases hv : U.mpermV = none
    · simp only [hv, if_true]
      exact ⟨h5, by rw [g5, UserModel.muV, hv]; rfl⟩
    · simp only [hv, if_false]
      have ev : U.muV i = UserModel.val U.mpermV 1 i := by
        rw [UserModel.muV]; cases hq : U.mpermV with
        | none => exact absurd hq hv
        | some l => rfl
      rw [ev] at q ⊢
      exact inp_entry (n := U.z.length + 1) (o := U.mpermV) (fun l hl => h.lens l (by simp [hl])) hi q.le
  obtain ⟨h1, g1⟩ := g1
  obtain ⟨h2, g2⟩ := g2
  obtain ⟨h4, g4⟩ := g4
  obtain ⟨h6, g6⟩ := g6
  refine ⟨h1, h2, by rw [e3]; exact h3, h4, by rw [e5]; exact h5, h6, g1, g2, ?_, g4, ?_, g6⟩
  · simp only [e3]; exact g3
  · simp only [e5]; exact g5

theorem user_lengths (h : U.Valid m.minRes) :
    let o := userOut m U
    o.depth = ⊥ :: zE U ∧ o.depth.length = U.z.length + 1 ∧ o.res.length = U.z.length + 1 ∧
    o.aniso.length = U.z.length + 1 ∧ o.epermH.length = U.z.length + 1 ∧
    o.epermV.length = U.z.length + 1 ∧ o.mpermH.length = U.z.length + 1 ∧
    o.mpermV.length = U.z.length + 1 := by
  intro o
  have hd : o.depth = ⊥ :: zE U := rfl
  have hl : o.depth.length = U.z.length + 1 := by rw [hd]; simp [zE]
  obtain ⟨-, -, l1, l2, l3, l4, l5, l6⟩ := C10_internal (user_checkModel (m := m) h none 0)
  rw [← hl]
  exact ⟨hd, rfl, l1, l2, l3, l4, l5, l6⟩

/-- Rows of the four arrays. -/
theorem user_row (hm : 0 < m.minRes) (h : U.Valid m.minRes) (s : ℂ) :
    let o := userOut m U
    rowEarth o.depth
      (List.zipWith (fun ρ e : ℝ => 1 / (ρ : ℂ) + s * ((e * eps0 : ℝ) : ℂ)) o.res o.epermH)
      (List.zipWith (fun ρ e : ℝ => 1 / (ρ : ℂ) + s * ((e * eps0 : ℝ) : ℂ))
        (List.zipWith (fun r a => r * a * a) o.res o.aniso) o.epermV)
      (o.mpermH.map fun u : ℝ => s * ((u * mu0 : ℝ) : ℂ))
      (o.mpermV.map fun u : ℝ => s * ((u * mu0 : ℝ) : ℂ)) = earthOf (U.medium s) := by
  intro o
  obtain ⟨hd, l0, l1, l2, l3, l4, l5, l6⟩ := user_lengths (m := m) h
  have key : ∀ (l : List ℂ) (f : ℕ → ℂ), l.length = U.z.length + 1 →
      (∀ i < U.z.length + 1, ∀ hi : i < l.length, l[i] = f i) → entry l 0 = U.layer f := by
    intro l f hl he
    funext i
    unfold entry UserModel.layer
    by_cases h0 : 0 ≤ i
    · by_cases h1 : i < U.z.length + 1
      · rw [if_pos h0, if_pos ⟨h0, h1⟩]
        have hi : i.toNat < U.z.length + 1 := by omega
        rw [getD_eq (by omega)]
        exact he _ hi _
      · rw [if_pos h0, if_neg (fun q => h1 q.2)]
        rw [List.getD_eq_default _ _ (by omega)]
    · rw [if_neg h0, if_neg (fun q => h0 q.1)]
  unfold rowEarth earthOf
  have c1 : o.depth.length = U.z.length + 1 := l0
  have c2 : o.res.length = U.z.length + 1 := l1
  have c3 : o.aniso.length = U.z.length + 1 := l2
  have c4 : o.epermH.length = U.z.length + 1 := l3
  have c5 : o.epermV.length = U.z.length + 1 := l4
  have c6 : o.mpermH.length = U.z.length + 1 := l5
  have c7 : o.mpermV.length = U.z.length + 1 := l6
  congr 1
  · rw [c1]; simp [UserModel.medium]
  · funext i
    unfold entry depthOf
    change (if 0 ≤ i then (⊥ :: zE U).getD i.toNat 0 else 0) = _
    by_cases h0 : i = 0
    · subst h0; simp
    · rw [if_neg h0]
      by_cases h1 : 1 ≤ i
      · rw [if_pos (by omega)]
        obtain ⟨k, hk⟩ : ∃ k : ℕ, i.toNat = k + 1 := ⟨i.toNat - 1, by omega⟩
        simp only [UserModel.medium, if_pos h1, hk, List.getD_cons_succ, Nat.add_sub_cancel]
        by_cases hlt : k < U.z.length
        · rw [getD_eq (by simpa [zE] using hlt), getD_eq hlt]; simp [zE]
        · rw [List.getD_eq_default _ _ (by simp [zE]; omega), List.getD_eq_default _ _ (by omega)]; rfl
      · rw [if_neg (by omega)]
        simp [UserModel.medium, h1]
  · simp only [UserModel.medium]
    apply key
    · simp [c2, c4]
    intro i hi h'
    obtain ⟨q1, q2, q3, q4, q5, q6, v1, v2, v3, v4, v5, v6⟩ := user_entries hm h hi
    rw [List.getElem_zipWith, epsVac_eq]
    simp only [o, v1, v3]
  · simp only [UserModel.medium]
    apply key
    · simp [c2, c3, c5]
    intro i hi h'
    obtain ⟨q1, q2, q3, q4, q5, q6, v1, v2, v3, v4, v5, v6⟩ := user_entries hm h hi
    rw [List.getElem_zipWith, List.getElem_zipWith, epsVac_eq]
    simp only [o, v1, v2, v4, UserModel.rhoV]
    rw [mul_assoc, ← pow_two]
  · simp only [UserModel.medium]
    apply key
    · simp [c6]
    intro i hi h'
    obtain ⟨q1, q2, q3, q4, q5, q6, v1, v2, v3, v4, v5, v6⟩ := user_entries hm h hi
    rw [List.getElem_map, muVac_eq]
    simp only [o, v5]
  · simp only [UserModel.medium]
    apply key
    · simp [c7]
    intro i hi h'
    obtain ⟨q1, q2, q3, q4, q5, q6, v1, v2, v3, v4, v5, v6⟩ := user_entries hm h hi
    rw [List.getElem_map, muVac_eq]
    simp only [o, v6]

/-- A valid user model is a passive layered medium. -/
theorem user_ok (hm : 0 < m.minRes) (h : U.Valid m.minRes) {s : ℂ} (h0 : s ≠ 0) (hre : 0 ≤ s.re) :
    (U.medium s).OK where
  pos := by simp only [UserModel.medium]; omega
  mono := by
    intro i h1 h2
    simp only [UserModel.medium] at h2 ⊢
    rw [if_pos h1, if_pos (by omega), getD_eq (by omega), getD_eq (by omega)]
    exact List.pairwise_iff_getElem.1 h.order _ _ _ _ (by omega)
  pas := by
    intro i h1 h2
    have hi : i.toNat < U.z.length + 1 := by
      simp only [UserModel.medium] at h2; omega
    have e : ∀ f, U.layer f i = f i.toNat := fun f => by
      unfold UserModel.layer; rw [if_pos ⟨h1, by omega⟩]
    have hmu := mu0_pos
    have z1 : ∀ u : ℝ, 0 < u → s * ((u * muVac : ℝ) : ℂ) ≠ 0 ∧ 0 ≤ (s * ((u * muVac : ℝ) : ℂ)).re := by
      intro u hu
      rw [muVac_eq]
      refine ⟨mul_ne_zero h0 (by exact_mod_cast (mul_pos hu mu0_pos).ne'), ?_⟩
      rw [Complex.re_mul_ofReal]; exact mul_nonneg hre (mul_pos hu mu0_pos).le
    simp only [UserModel.medium, e]
    refine ⟨?_, ?_, (z1 _ (h.muH _ hi)).2, (z1 _ (h.muV _ hi)).2, (z1 _ (h.muH _ hi)).1,
      (z1 _ (h.muV _ hi)).1⟩
    · rw [epsVac_eq]; exact passive_eta hre (lt_of_lt_of_le hm (h.rhoH _ hi)) (h.epsH _ hi)
    · rw [epsVac_eq]; exact passive_eta hre (lt_of_lt_of_le hm (h.rhoV _ hi)) (h.epsV _ hi)

/-- The layer number of the code is the layer that contains the depth, interfaces counting to the layer
above. -/
theorem user_layer (h : U.Valid m.minRes) (s : ℂ) (z : ℝ) (i : ℤ) :
    (U.medium s).InUpper i z ↔ i = layerOf (userOut m U).depth z := by
  have hm := user_checkModel (m := m) h none 0
  obtain ⟨hb, hd, -⟩ := C10_internal hm
  obtain ⟨g, g1, g2⟩ := C12_layer_nr hb hd
  have hlay : layerOf (userOut m U).depth z = g z := by unfold layerOf; rw [g1]; rfl
  rw [hlay]
  obtain ⟨k1, k2, k3⟩ := g2 z
  have hdep : (userOut m U).depth = ⊥ :: zE U := rfl
  have hlen : (userOut m U).depth.length = U.z.length + 1 := by rw [hdep]; simp [zE]
  have ent : ∀ k : ℕ, 1 ≤ k → k < U.z.length + 1 →
      (userOut m U).depth[k]? = some (((U.medium s).D k : ℝ) : EReal) := by
    intro k h1 h2
    obtain ⟨j, rfl⟩ : ∃ j, k = j + 1 := ⟨k - 1, by omega⟩
    rw [hdep, List.getElem?_cons_succ]
    simp only [zE, List.getElem?_map, List.getElem?_eq_getElem (show j < U.z.length by omega),
      Option.map_some, UserModel.medium]
    rw [if_pos (by push_cast; omega)]
    have : ((j + 1 : ℕ) : ℤ).toNat - 1 = j := by omega
    rw [this, getD_eq (show j < U.z.length by omega)]
  have iff : ∀ k : ℕ, (U.medium s).InUpper k z ↔ InLayer (userOut m U).depth k z := by
    intro k
    have n1 : (U.medium s).n = (U.z.length : ℤ) + 1 := rfl
    constructor
    · rintro ⟨-, b, c, d⟩
      rw [n1] at b d
      have hk : k < U.z.length + 1 := by omega
      constructor
      · by_cases h0 : k = 0
        · subst h0; exact ⟨⊥, by rw [hdep]; rfl, EReal.bot_lt_coe z⟩
        · exact ⟨_, ent k (by omega) hk, EReal.coe_lt_coe_iff.2 (c (by exact_mod_cast h0))⟩
      · intro d' hd'
        have hlt : k + 1 < U.z.length + 1 := by
          have := (List.getElem?_eq_some_iff.1 hd').1
          omega
        rw [ent (k + 1) (by omega) hlt] at hd'
        obtain rfl := Option.some.inj hd'
        have := d (by omega)
        exact EReal.coe_le_coe_iff.2 (by exact_mod_cast this)
    · rintro ⟨⟨d, e1, e2⟩, e3⟩
      have hk : k < U.z.length + 1 := by
        have := (List.getElem?_eq_some_iff.1 e1).1
        omega
      refine ⟨by omega, by rw [n1]; omega, ?_, ?_⟩
      · intro h0
        rw [ent k (by omega) hk] at e1
        obtain rfl := Option.some.inj e1
        exact EReal.coe_lt_coe_iff.1 e2
      · intro h0
        rw [n1] at h0
        have := e3 _ (ent (k + 1) (by omega) (by omega))
        have := EReal.coe_le_coe_iff.1 this
        exact_mod_cast this
  constructor
  · intro hi
    obtain ⟨k, rfl⟩ : ∃ k : ℕ, i = k := ⟨i.toNat, (Int.toNat_of_nonneg hi.1).symm⟩
    exact_mod_cast k3 k ((iff k).1 hi)
  · rintro rfl
    exact (iff _).2 k2

theorem upper_closed {M : Medium} {i : ℤ} {z : ℝ} (h : M.InUpper i z) : M.InClosed i z :=
  ⟨h.1, h.2.1, fun q => (h.2.2.1 q).le, h.2.2.2⟩

/-- The full-space flag. -/
theorem user_full (hm : 0 < m.minRes) (h : U.Valid m.minRes) :
    (userOut m U).isfullspace = true ↔ U.Uniform := by
  rw [C11_fullspace (user_checkModel (m := m) h none 0)]
  obtain ⟨-, l0, l1, l2, l3, l4, l5, l6⟩ := user_lengths (m := m) h
  have key : ∀ (l : List ℝ) (g : ℕ → ℝ), l.length = U.z.length + 1 →
      (∀ i, i < U.z.length + 1 → ∃ hi : i < l.length, l[i] = g i) →
      ((∀ x ∈ l, ∀ y ∈ l, x = y) ↔ ∀ i < U.z.length + 1, ∀ j < U.z.length + 1, g i = g j) := by
    intro l g hl hg
    constructor
    · intro hx i hi j hj
      obtain ⟨a, ha⟩ := hg i hi
      obtain ⟨b, hb⟩ := hg j hj
      rw [← ha, ← hb]
      exact hx _ (List.getElem_mem _) _ (List.getElem_mem _)
    · intro hx x hxl y hyl
      obtain ⟨i, hi, rfl⟩ := List.getElem_of_mem hxl
      obtain ⟨j, hj, rfl⟩ := List.getElem_of_mem hyl
      obtain ⟨a, ha⟩ := hg i (by omega)
      obtain ⟨b, hb⟩ := hg j (by omega)
      rw [ha, hb]
      exact hx i (by omega) j (by omega)
  simp only [List.forall_mem_cons, List.not_mem_nil, IsEmpty.forall_iff, implies_true, and_true]
  rw [key _ U.rhoH l1 (fun i hi => by
      obtain ⟨q1, q2, q3, q4, q5, q6, v1, v2, v3, v4, v5, v6⟩ := user_entries hm h hi; exact ⟨q1, v1⟩),
    key _ (UserModel.val U.aniso 1) l2 (fun i hi => by
      obtain ⟨q1, q2, q3, q4, q5, q6, v1, v2, v3, v4, v5, v6⟩ := user_entries hm h hi; exact ⟨q2, v2⟩),
    key _ U.epsH l3 (fun i hi => by
      obtain ⟨q1, q2, q3, q4, q5, q6, v1, v2, v3, v4, v5, v6⟩ := user_entries hm h hi; exact ⟨q3, v3⟩),
    key _ U.epsV l4 (fun i hi => by
      obtain ⟨q1, q2, q3, q4, q5, q6, v1, v2, v3, v4, v5, v6⟩ := user_entries hm h hi; exact ⟨q4, v4⟩),
    key _ U.muH l5 (fun i hi => by
      obtain ⟨q1, q2, q3, q4, q5, q6, v1, v2, v3, v4, v5, v6⟩ := user_entries hm h hi; exact ⟨q5, v5⟩),
    key _ U.muV l6 (fun i hi => by
      obtain ⟨q1, q2, q3, q4, q5, q6, v1, v2, v3, v4, v5, v6⟩ := user_entries hm h hi; exact ⟨q6, v6⟩)]
  constructor
  · rintro ⟨-, h1, h2, h3, h4, h5, h6⟩ i hi j hj
    exact ⟨h1 i hi j hj, h2 i hi j hj, h3 i hi j hj, h4 i hi j hj, h5 i hi j hj, h6 i hi j hj⟩
  · intro hu
    exact ⟨rfl, fun i hi j hj => (hu i hi j hj).1, fun i hi j hj => (hu i hi j hj).2.1,
      fun i hi j hj => (hu i hi j hj).2.2.1, fun i hi j hj => (hu i hi j hj).2.2.2.1,
      fun i hi j hj => (hu i hi j hj).2.2.2.2.1, fun i hi j hj => (hu i hi j hj).2.2.2.2.2⟩

theorem user_uniform (hu : U.Uniform) (s : ℂ) {k : ℤ} (h0 : 0 ≤ k) (h1 : k < (U.medium s).n) :
    (U.medium s).Uniform k := by
  intro i i0 i1
  have hn : (U.medium s).n = (U.z.length : ℤ) + 1 := rfl
  rw [hn] at h1 i1
  obtain ⟨g1, g2, g3, g4, g5, g6⟩ := hu i.toNat (by omega) k.toNat (by omega)
  simp only [UserModel.medium, UserModel.layer, if_pos (And.intro i0 i1), if_pos (And.intro h0 h1), UserModel.rhoV,
    g1, g2, g3, g4, g5, g6, and_self]

end Verif.Lemmas
