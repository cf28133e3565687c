import Verif.Props.C44_Dipole

/-!
# C41: in-phase and quadrature are the secondary-to-primary ratios of the magnetic field
-/

namespace Verif.Props
open Verif.Py Verif.Py.W Verif.Utils Verif.Spec Verif.Model Verif.Kernel Verif.Lemmas Verif.Transform

/-! ## Specification -/

/-- The homogeneous medium of the material of layer `k`. -/
def onlyLayer (U : UserModel) (k : ℕ) : UserModel where
  z := []
  res := [U.res.getD k 0]
  aniso := U.aniso.map fun l => [l.getD k 0]
  epermH := U.epermH.map fun l => [l.getD k 0]
  epermV := U.epermV.map fun l => [l.getD k 0]
  mpermH := U.mpermH.map fun l => [l.getD k 0]
  mpermV := U.mpermV.map fun l => [l.getD k 0]

/-- The dipole `d` with its moment multiplied by `c`. -/
noncomputable def moment (c : ℂ) (d : Dipole) : Dipole :=
  ⟨c * d.Jx, c * d.Jy, c * d.Jz, c * d.Kx, c * d.Ky, c * d.Kz⟩

/-- All components of a field multiplied by `c`. -/
noncomputable def scaledField (c : ℂ) (F : PlaneField) : PlaneField :=
  ⟨fun z => c * F.Ex z, fun z => c * F.Ey z, fun i z => c * F.Ez i z, fun z => c * F.Hx z,
   fun z => c * F.Hy z, fun i z => c * F.Hz i z⟩

/-! ## Helper lemmas -/

theorem scaled_comp (c : ℂ) (F : PlaneField) (a : ℕ) (r : ℤ) (z : ℝ) :
    (scaledField c F).comp a r z = c * F.comp a r z := by
  unfold PlaneField.comp scaledField
  split_ifs <;> rfl

theorem jump_smul {A : ℝ → ℂ} {z0 : ℝ} {j j' : ℂ} (c : ℂ) (h : JumpAt A z0 j) (e : j' = c * j) :
    JumpAt (fun z => c * A z) z0 j' := by
  subst e
  constructor
  · rw [show c * A z0 - c * j / 2 = c * (A z0 - j / 2) by ring]
    exact h.1.const_mul c
  · rw [show c * A z0 + c * j / 2 = c * (A z0 + j / 2) by ring]
    exact h.2.const_mul c

/-- The field is proportional to the moment. -/
theorem scaled_field {M : Medium} {kx ky zs : ℝ} {s : ℤ} {d : Dipole} {F : PlaneField}
    (h : IsPlaneField M kx ky zs s d F) (c : ℂ) : IsPlaneField M kx ky zs s (moment c d) (scaledField c F) where
  faradayY i z hi hz := ((h.faradayY i z hi hz).const_mul c).congr_deriv (by simp only [scaledField]; ring)
  faradayX i z hi hz := ((h.faradayX i z hi hz).const_mul c).congr_deriv (by simp only [scaledField]; ring)
  faradayZ i z hi := by simp only [scaledField]; linear_combination c * h.faradayZ i z hi
  ampereY i z hi hz := ((h.ampereY i z hi hz).const_mul c).congr_deriv (by simp only [scaledField]; ring)
  ampereX i z hi hz := ((h.ampereX i z hi hz).const_mul c).congr_deriv (by simp only [scaledField]; ring)
  ampereZ i z hi := by simp only [scaledField]; linear_combination c * h.ampereZ i z hi
  cont z hi hz := by
    obtain ⟨h1, h2, h3, h4⟩ := h.cont z hi hz
    exact ⟨h1.const_mul c, h2.const_mul c, h3.const_mul c, h4.const_mul c⟩
  jumpEx := jump_smul c h.jumpEx (by simp only [moment]; ring)
  jumpEy := jump_smul c h.jumpEy (by simp only [moment]; ring)
  jumpHx := jump_smul c h.jumpHx (by simp only [moment]; ring)
  jumpHy := jump_smul c h.jumpHy (by simp only [moment]; ring)
  decay := by
    obtain ⟨⟨a1, a2⟩, ⟨b1, b2⟩, ⟨c1, c2⟩, ⟨d1, d2⟩⟩ := h.decay
    refine ⟨⟨?_, ?_⟩, ⟨?_, ?_⟩, ⟨?_, ?_⟩, ⟨?_, ?_⟩⟩
    · have := a1.const_mul c; rwa [mul_zero] at this
    · have := a2.const_mul c; rwa [mul_zero] at this
    · have := b1.const_mul c; rwa [mul_zero] at this
    · have := b2.const_mul c; rwa [mul_zero] at this
    · have := c1.const_mul c; rwa [mul_zero] at this
    · have := c2.const_mul c; rwa [mul_zero] at this
    · have := d1.const_mul c; rwa [mul_zero] at this
    · have := d2.const_mul c; rwa [mul_zero] at this

theorem only_val (o : Option (List ℝ)) (d : ℝ) (k : ℕ) :
    UserModel.val (o.map fun l => [l.getD k 0]) d 0 = UserModel.val o d k := by
  cases o <;> rfl

theorem only_eps (U : UserModel) (k : ℕ) : (onlyLayer U k).epsH 0 = U.epsH k ∧
    (onlyLayer U k).epsV 0 = U.epsV k ∧ (onlyLayer U k).muH 0 = U.muH k ∧ (onlyLayer U k).muV 0 = U.muV k ∧
    (onlyLayer U k).rhoH 0 = U.rhoH k ∧ (onlyLayer U k).rhoV 0 = U.rhoV k := by
  have h1 : (onlyLayer U k).epsH 0 = U.epsH k := only_val _ _ _
  have h3 : (onlyLayer U k).muH 0 = U.muH k := only_val _ _ _
  have h5 : (onlyLayer U k).rhoH 0 = U.rhoH k := rfl
  refine ⟨h1, ?_, h3, ?_, h5, ?_⟩
  · unfold UserModel.epsV
    rw [h1]; exact only_val _ _ _
  · unfold UserModel.muV
    rw [h3]; exact only_val _ _ _
  · unfold UserModel.rhoV
    rw [h5]
    congr 2
    exact only_val _ _ _

theorem only_valid {U : UserModel} {mn : ℝ} (h : U.Valid mn) {k : ℕ} (hk : k < U.z.length + 1) :
    (onlyLayer U k).Valid mn := by
  obtain ⟨e1, e2, e3, e4, e5, e6⟩ := only_eps U k
  have z0 : ∀ i, i < (onlyLayer U k).z.length + 1 → i = 0 := by
    intro i hi; simp only [onlyLayer, List.length_nil] at hi; omega
  refine ⟨by simp [onlyLayer], rfl, ?_, ?_, ?_, ?_, ?_, ?_, ?_, ?_⟩
  · intro l hl
    simp only [onlyLayer, List.length_nil] at hl ⊢
    rcases hl with q | q | q | q | q
    all_goals
      obtain ⟨v, -, rfl⟩ := Option.map_eq_some_iff.1 q.symm
      rfl
  · intro i hi; rw [z0 i hi, e5]; exact h.rhoH k hk
  · intro i hi; rw [z0 i hi, e6]; exact h.rhoV k hk
  · intro i hi; rw [z0 i hi]; exact lt_of_lt_of_eq (h.aniso k hk) (only_val _ _ _).symm
  · intro i hi; rw [z0 i hi, e1]; exact h.epsH k hk
  · intro i hi; rw [z0 i hi, e2]; exact h.epsV k hk
  · intro i hi; rw [z0 i hi, e3]; exact h.muH k hk
  · intro i hi; rw [z0 i hi, e4]; exact h.muV k hk

theorem only_uniform (U : UserModel) (k : ℕ) : (onlyLayer U k).Uniform := by
  intro i hi j hj
  simp only [onlyLayer, List.length_nil] at hi hj
  obtain rfl : i = 0 := by omega
  obtain rfl : j = 0 := by omega
  exact ⟨rfl, rfl, rfl, rfl, rfl, rfl⟩

/-- It is the medium of layer `k`. -/
theorem only_med (U : UserModel) {k : ℕ} (hk : k < U.z.length + 1) (s : ℂ) :
    layerMed ((onlyLayer U k).medium s) 0 = layerMed (U.medium s) k := by
  obtain ⟨e1, e2, e3, e4, e5, e6⟩ := only_eps U k
  have c0 : (0 : ℤ) ≤ 0 ∧ (0 : ℤ) < ((onlyLayer U k).z.length : ℤ) + 1 := by simp [onlyLayer]
  have ck : (0 : ℤ) ≤ (k : ℤ) ∧ (k : ℤ) < (U.z.length : ℤ) + 1 := by omega
  unfold layerMed UserModel.medium UserModel.layer
  simp only [if_pos c0, if_pos ck, Int.toNat_zero, Int.toNat_natCast, e1, e2, e3, e4, e5, e6]

theorem first_opt {o : Option (List ℝ)} (h : ∀ l, o = some l → 0 < l.length) :
    (firstOf o).val = .ok (o.map fun l => [l.getD 0 0]) := by
  match o, h with
  | none, _ => rfl
  | some [], h => exact absurd (h [] rfl) (by simp)
  | some (a :: l), _ => rfl

theorem getD_reverse {l : List ℝ} {n : ℕ} (h : l.length = n + 1) : l.reverse.getD 0 0 = l.getD n 0 := by
  rw [getD_eq (by simp [h]), getD_eq (by omega), List.getElem_reverse]
  congr 1
  omega

/-- The first value of every parameter is that of the layer listed first. -/
theorem lists_first {A : DipoleArgs} {U : UserModel} {mn : ℝ} (hU : U.Valid mn) {k : ℕ} (h : Lists A U k) :
    k < U.z.length + 1 ∧
    (firstRes A.res).val = .ok (.array (onlyLayer U k).res) ∧
    (firstOf A.aniso).val = .ok (onlyLayer U k).aniso ∧
    (firstOf A.epermH).val = .ok (onlyLayer U k).epermH ∧
    (firstOf A.epermV).val = .ok (onlyLayer U k).epermV ∧
    (firstOf A.mpermH).val = .ok (onlyLayer U k).mpermH ∧
    (firstOf A.mpermV).val = .ok (onlyLayer U k).mpermV := by
  have res1 : ∀ l : List ℝ, 0 < l.length → (firstRes (.array l)).val = .ok (.array [l.getD 0 0]) := by
    intro l hl
    match l, hl with
    | a :: l, _ => rfl
  have key1 : ∀ o : Option (List ℝ), (∀ l, some l = o → l.length = U.z.length + 1) →
      (firstOf o).val = .ok (o.map fun l => [l.getD 0 0]) :=
    fun o ho => first_opt fun l hl => by rw [ho l hl.symm]; omega
  have key2 : ∀ o : Option (List ℝ), (∀ l, some l = o → l.length = U.z.length + 1) →
      (firstOf (o.map List.reverse)).val = .ok (o.map fun l => [l.getD U.z.length 0]) := by
    intro o ho
    cases o with
    | none => rfl
    | some l =>
      have hl := ho l rfl
      rw [first_opt]
      · simp only [Option.map_some, getD_reverse hl]
      · intro v hv
        simp only [Option.map_some, Option.some.injEq] at hv
        rw [← hv, List.length_reverse, hl]; omega
  cases h with
  | topDown lo hi depth res aniso epermH epermV mpermH mpermV =>
    rw [res, aniso, epermH, epermV, mpermH, mpermV]
    refine ⟨by omega, res1 _ (by rw [hU.len]; omega), ?_, ?_, ?_, ?_, ?_⟩ <;> apply key1 <;> intro l hl
    · exact hU.lens l (by simp [hl])
    · exact hU.lens l (by simp [hl])
    · exact hU.lens l (by simp [hl])
    · exact hU.lens l (by simp [hl])
    · exact hU.lens l (by simp [hl])
  | bottomUp lo hi depth two strict res aniso epermH epermV mpermH mpermV =>
    rw [res, aniso, epermH, epermV, mpermH, mpermV]
    refine ⟨by omega, ?_, ?_, ?_, ?_, ?_, ?_⟩
    · rw [res1 _ (by rw [List.length_reverse, hU.len]; omega), getD_reverse hU.len]; rfl
    all_goals (apply key2; intro l hl)
    · exact hU.lens l (by simp [hl])
    · exact hU.lens l (by simp [hl])
    · exact hU.lens l (by simp [hl])
    · exact hU.lens l (by simp [hl])
    · exact hU.lens l (by simp [hl])

open Classical in
/-- In a homogeneous medium with `xdirect=True` the entries are the closed form. -/
theorem dipole_homogeneous {B : Back} (hm : 0 < B.m.minRes) (hfr : 0 < B.m.minFreq) (hof : 0 < B.m.minOff)
    (ho : Safe B.o) {T : ℝ → (ℝ → ℂ) → ℂ} (hT : IsRule T) (hB : Uses B (besselRule T)) {A : DipoleArgs}
    {U : UserModel} (hU : U.Valid B.m.minRes) (hz : U.z = []) (hA : Describes A U) (hx : A.xdirect = some true)
    {a b : ℕ} (ha : 1 ≤ a ∧ a ≤ 6)
    (hb : 1 ≤ b ∧ b ≤ 6) (hab : toInt A.ab = .ok (10 * a + b)) {xs ys xr yr : List ℝ} {zs zr : ℝ}
    (hsrc : A.src = [xs, ys, [zs]]) (hrcv : A.rcv = [xr, yr, [zr]])
    (hls : xs.length = ys.length ∨ xs.length = 1 ∨ ys.length = 1)
    (hlr : xr.length = yr.length ∨ xr.length = 1 ∨ yr.length = 1)
    (ns : 0 < numDipoles A.src) (nr : 0 < numDipoles A.rcv) :
    ∃ arr, (dipole B A).val = .ok (if A.squeeze then arr.squeeze else arr) ∧
      arr.shape = [A.freq.length, numDipoles A.rcv, numDipoles A.src] ∧
      ∀ (f r s : ℕ), f < A.freq.length → r < numDipoles A.rcv → s < numDipoles A.src →
        let ρ := rhoOf B.m.minOff (bc xr r - bc xs s) (bc yr r - bc ys s)
        let θ := thetaOf (bc xr r - bc xs s) (bc yr r - bc ys s)
        arr.get [f, r, s] = resp B.sqrt
          (A.freq.map fun g => layerMed (U.medium (sParam B.m.minFreq A.freq g)) 0) f a b
          (ρ * Real.cos θ) (ρ * Real.sin θ) zs zr := by
  obtain ⟨arr, h1, h2, h3⟩ := C44_dipole hm hfr hof ho hT hB hU hA ha hb hab hsrc hrcv hls hlr ns nr
  refine ⟨arr, h1, h2, fun f r s hf hr hs => ?_⟩
  obtain ⟨θ', -, h⟩ := h3 f r s hf hr hs
  obtain ⟨s0, sre⟩ := sParam_spec hfr A.freq A.freq[f]
  have hM : (U.medium (sParam B.m.minFreq A.freq A.freq[f])).OK := user_ok hm hU s0 sre
  have hn : (U.medium (sParam B.m.minFreq A.freq A.freq[f])).n = 1 := by
    simp [UserModel.medium, hz]
  have hin : ∀ z, (U.medium (sParam B.m.minFreq A.freq A.freq[f])).InUpper 0 z := by
    intro z
    refine ⟨le_refl _, by rw [hn]; norm_num, fun q => absurd rfl q, fun q => absurd ?_ q⟩
    rw [hn]; norm_num
  have hcl := upper_closed (hin zs)
  have hcl' : ((U.medium (sParam B.m.minFreq A.freq A.freq[f])).homog 0).InClosed 0 zs :=
    ⟨le_refl _, by simp [Medium.homog], by simp, by simp [Medium.homog]⟩
  have ex1 : ∀ lam φ : ℝ, ∃ F, 0 < lam → IsPlaneField (U.medium (sParam B.m.minFreq A.freq A.freq[f]))
      (lam * Real.cos φ) (lam * Real.sin φ) zs 0 (unitDipole b) F := by
    intro lam φ
    by_cases hl : 0 < lam
    · obtain ⟨F, hF⟩ := plane_exists (kx := lam * Real.cos φ) (ky := lam * Real.sin φ) (lam := lam) hM hl.ne'
        (by have := Real.sin_sq_add_cos_sq φ; linear_combination lam ^ 2 * this) hcl (unitDipole b)
      exact ⟨F, fun _ => hF⟩
    · exact ⟨⟨0, 0, 0, 0, 0, 0⟩, fun q => absurd q hl⟩
  have ex2 : ∀ lam φ : ℝ, ∃ F, 0 < lam →
      IsPlaneField ((U.medium (sParam B.m.minFreq A.freq A.freq[f])).homog 0)
      (lam * Real.cos φ) (lam * Real.sin φ) zs 0 (unitDipole b) F := by
    intro lam φ
    by_cases hl : 0 < lam
    · obtain ⟨F, hF⟩ := plane_exists (kx := lam * Real.cos φ) (ky := lam * Real.sin φ) (lam := lam)
        (OK.homog hM hcl.1 hcl.2.1) hl.ne'
        (by have := Real.sin_sq_add_cos_sq φ; linear_combination lam ^ 2 * this) hcl' (unitDipole b)
      exact ⟨F, fun _ => hF⟩
    · exact ⟨⟨0, 0, 0, 0, 0, 0⟩, fun q => absurd q hl⟩
  choose F hF using ex1
  choose Fh hH using ex2
  have hu : U.Uniform := by
    intro i hi j hj
    simp only [hz, List.length_nil] at hi hj
    obtain rfl : i = 0 := by omega
    obtain rfl : j = 0 := by omega
    exact ⟨rfl, rfl, rfl, rfl, rfl, rfl⟩
  refine (h 0 0 (hin zs) (hin zr) F Fh (fun lam hl φ => hF lam φ hl) (fun lam hl φ => hH lam φ hl)).trans ?_
  rw [if_pos ⟨hx, Or.inl rfl⟩]
  have : (T (rhoOf B.m.minOff (bc xr r - bc xs s) (bc yr r - bc ys s)) fun lam =>
      ringIntegral (fun φ => (F lam φ).comp a 0 zr -
        if A.xdirect ≠ some false ∧ ((0 : ℤ) = 0 ∨ U.Uniform) then (Fh lam φ).comp a 0 zr else 0) lam
        (rhoOf B.m.minOff (bc xr r - bc xs s) (bc yr r - bc ys s)) θ') = 0 := by
    refine (hT.pos _ (lt_max_of_lt_right hof) _ _ fun lam hl => ?_).trans (hT.zero _)
    have hz0 : (fun φ => (F lam φ).comp a 0 zr -
        if A.xdirect ≠ some false ∧ ((0 : ℤ) = 0 ∨ U.Uniform) then (Fh lam φ).comp a 0 zr else 0) =
        fun _ => 0 := by
      funext φ
      rw [if_pos ⟨by rw [hx]; simp, Or.inl rfl⟩, plane_uniform hM hl φ hcl (upper_closed (hin zr))
        (user_uniform hu _ hcl.1 hcl.2.1) (hF lam φ hl) (hH lam φ hl) ha, sub_self]
    rw [hz0]
    simp [ringIntegral]
  rw [this, add_zero]

theorem depths_ok {src rcv : List (List ℝ)} {x y x' y' : List ℝ} {z z' : ℝ} (h : src = [x, y, [z]])
    (h' : rcv = [x', y', [z']]) : ∃ c, (depthsClose src rcv).val = .ok c := by
  subst h h'
  unfold depthsClose
  simp only [List.getElem?_cons_succ, List.getElem?_cons_zero, List.length_cons, List.length_nil, true_or,
    if_true]
  exact ⟨_, rfl⟩

/-- Both calls succeed: the result is the ratio of the arrays. -/
theorem ipq_ok {B : Back} {A : DipoleArgs} {scale : ℝ} {n : ℤ} (hn : toInt A.ab = .ok n) (hc : n ∈ ipqCodes)
    {xs ys xr yr : List ℝ} {zs zr : ℝ}
    (hsrc : A.src = [xs, ys, [zs]]) (hrcv : A.rcv = [xr, yr, [zr]]) {Hs Hp : NdArray}
    {res : ResArg} {an eh ev mh mv : Option (List ℝ)}
    (h1 : (firstRes A.res).val = .ok res) (h2 : (firstOf A.aniso).val = .ok an)
    (h3 : (firstOf A.epermH).val = .ok eh) (h4 : (firstOf A.epermV).val = .ok ev)
    (h5 : (firstOf A.mpermH).val = .ok mh) (h6 : (firstOf A.mpermV).val = .ok mv)
    (hs : (dipole B { A with xdirect := none }).val = .ok Hs)
    (hp : (dipole B { A with ab := coplanar A.ab, depth := some [], res := res, aniso := an, epermH := eh,
                             epermV := ev, mpermH := mh, mpermV := mv, xdirect := some true }).val = .ok Hp) :
    (ipAndQ B A false scale).val =
      .ok (⟨Hs.shape, fun k => ((B.o.div (scale * Hs.data k) (Hp.data k)).re : ℂ)⟩,
        ⟨Hs.shape, fun k => ((B.o.div (scale * Hs.data k) (Hp.data k)).im : ℂ)⟩) := by
  obtain ⟨c, hcl⟩ := depths_ok hsrc hrcv
  unfold ipAndQ
  rw [bind_val]
  simp only [Model.ofExcept, hn, Except.bind]
  rw [if_neg (not_not.2 hc), if_neg (by simp), bind_val]
  have hcl' : ∃ c, (if A.verb > 0 then depthsClose A.src A.rcv else pure true : W Bool).val = .ok c := by
    by_cases hv : A.verb > 0
    · rw [if_pos hv]; exact ⟨c, hcl⟩
    · rw [if_neg hv]; exact ⟨true, rfl⟩
  obtain ⟨c', hc'⟩ := hcl'
  rw [hc']
  simp only [Except.bind]
  rw [bind_val, say_val]
  simp only [Except.bind]
  rw [bind_val, hs]
  simp only [Except.bind]
  rw [bind_val, h1]
  simp only [Except.bind]
  rw [bind_val, h2]
  simp only [Except.bind]
  rw [bind_val, h3]
  simp only [Except.bind]
  rw [bind_val, h4]
  simp only [Except.bind]
  rw [bind_val, h5]
  simp only [Except.bind]
  rw [bind_val, h6]
  simp only [Except.bind]
  rw [bind_val, hp]
  rfl

open Classical in
/-- Secondary and primary field of the result; component `p` is that of the receiver of the primary field. -/
theorem ipq_fields {B : Back} (hm : 0 < B.m.minRes) (hfr : 0 < B.m.minFreq) (hof : 0 < B.m.minOff)
    (ho : Safe B.o) {T : ℝ → (ℝ → ℂ) → ℂ} (hT : IsRule T) (hB : Uses B (besselRule T)) {A : DipoleArgs}
    {U : UserModel} (hU : U.Valid B.m.minRes) {k : ℕ} (hA : Lists A U k) {a b p : ℕ} (ha : 4 ≤ a ∧ a ≤ 6)
    (hb : 4 ≤ b ∧ b ≤ 6) (hp : 4 ≤ p ∧ p ≤ 6) (hab : toInt A.ab = .ok (10 * a + b))
    (hcp : toInt (coplanar A.ab) = .ok (10 * p + b)) {xs ys xr yr : List ℝ} {zs zr : ℝ}
    (hsrc : A.src = [xs, ys, [zs]]) (hrcv : A.rcv = [xr, yr, [zr]])
    (hls : xs.length = ys.length ∨ xs.length = 1 ∨ ys.length = 1)
    (hlr : xr.length = yr.length ∨ xr.length = 1 ∨ yr.length = 1)
    (ns : 0 < numDipoles A.src) (nr : 0 < numDipoles A.rcv) (scale : ℝ) :
    ∃ IP Q : NdArray, (ipAndQ B A false scale).val = .ok (if A.squeeze then (IP.squeeze, Q.squeeze) else (IP, Q)) ∧
      IP.shape = [A.freq.length, numDipoles A.rcv, numDipoles A.src] ∧
      Q.shape = [A.freq.length, numDipoles A.rcv, numDipoles A.src] ∧
      ∀ (f r s : ℕ) (hf : f < A.freq.length), r < numDipoles A.rcv → s < numDipoles A.src →
        let M := fun g => U.medium (sParam B.m.minFreq A.freq g)
        let ρ := rhoOf B.m.minOff (bc xr r - bc xs s) (bc yr r - bc ys s)
        let θ := thetaOf (bc xr r - bc xs s) (bc yr r - bc ys s)
        let Hp := resp B.sqrt (A.freq.map fun g => layerMed (M g) k) f p b (ρ * Real.cos θ) (ρ * Real.sin θ)
          zs zr
        ∃ θ', |θ' - θ| ≤ 1e-9 ∧
        ∀ ls lr, (M A.freq[f]).InUpper ls zs → (M A.freq[f]).InUpper lr zr →
        ∀ F Fh : ℝ → ℝ → PlaneField,
        (∀ lam > 0, ∀ φ, IsPlaneField (M A.freq[f]) (lam * Real.cos φ) (lam * Real.sin φ) zs ls
          (unitDipole b) (F lam φ)) →
        (∀ lam > 0, ∀ φ, IsPlaneField ((M A.freq[f]).homog ls) (lam * Real.cos φ) (lam * Real.sin φ)
          zs 0 (unitDipole b) (Fh lam φ)) →
        let Hs := T ρ fun lam => ringIntegral (fun φ => (F lam φ).comp a lr zr -
            if ls = lr ∨ U.Uniform then (Fh lam φ).comp a 0 zr else 0) lam ρ θ'
        Hp ≠ 0 →
          IP.get [f, r, s] = ((scale * Hs / Hp).re : ℂ) ∧ Q.get [f, r, s] = ((scale * Hs / Hp).im : ℂ) := by
  obtain ⟨hk, f1, f2, f3, f4, f5, f6⟩ := lists_first hU hA
  have hdesc : Describes { A with xdirect := none } U := by
    refine ⟨k, ?_⟩
    cases hA with
    | topDown lo hi depth res aniso epermH epermV mpermH mpermV =>
      exact .topDown lo hi depth res aniso epermH epermV mpermH mpermV
    | bottomUp lo hi depth two strict res aniso epermH epermV mpermH mpermV =>
      exact .bottomUp lo hi depth two strict res aniso epermH epermV mpermH mpermV
  have hdp : Describes
      { A with ab := coplanar A.ab, depth := some [], res := .array (onlyLayer U k).res,
               aniso := (onlyLayer U k).aniso, epermH := (onlyLayer U k).epermH,
               epermV := (onlyLayer U k).epermV, mpermH := (onlyLayer U k).mpermH,
               mpermV := (onlyLayer U k).mpermV, xdirect := some true } (onlyLayer U k) :=
    ⟨0, .topDown false false (by simp [allDepths, onlyLayer]) rfl rfl rfl rfl rfl rfl⟩
  obtain ⟨S, s1, s2, s3⟩ := C44_dipole hm hfr hof ho hT hB hU hdesc (a := a) (b := b) (by omega) (by omega) hab
    hsrc hrcv hls hlr ns nr
  obtain ⟨P, p1, p2, p3⟩ := dipole_homogeneous hm hfr hof ho hT hB (only_valid hU hk) rfl hdp rfl
    (a := p) (b := b) (by omega) (by omega) hcp hsrc hrcv hls hlr ns nr
  have hmem : (10 * (a : ℤ) + b) ∈ ipqCodes := by
    obtain ⟨a1, a2⟩ := ha
    obtain ⟨b1, b2⟩ := hb
    interval_cases a <;> interval_cases b <;> decide
  have hout := ipq_ok (scale := scale) hab hmem hsrc hrcv f1 f2 f3 f4 f5 f6 s1 p1
  simp only at s2 p2
  refine ⟨⟨S.shape, fun k => ((B.o.div (scale * S.data k) (P.data k)).re : ℂ)⟩,
    ⟨S.shape, fun k => ((B.o.div (scale * S.data k) (P.data k)).im : ℂ)⟩, ?_, s2, s2, ?_⟩
  · rw [hout]
    simp only
    cases A.squeeze <;> rfl
  intro f r s hf hr hs M ρ θ Hp
  obtain ⟨θ', t1, t2⟩ := s3 f r s hf hr hs
  have t3 := p3 f r s hf hr hs
  refine ⟨θ', t1, ?_⟩
  intro ls lr hsu hru F Fh hF hH Hs hne
  have eS := t2 ls lr hsu hru F Fh hF hH
  simp only at eS t3
  have hHp : P.get [f, r, s] = Hp := by
    rw [t3]
    simp only [Hp]
    congr 1
    exact List.map_congr_left fun g _ => only_med U hk _
  have hHs : S.get [f, r, s] = Hs := by
    rw [eS, if_neg (by simp), zero_add]
    simp only [Hs, ne_eq, reduceCtorEq, not_false_eq_true, true_and]
    rfl
  have hshape : P.shape = S.shape := by rw [s2, p2]
  simp only [NdArray.get] at hHp hHs ⊢
  rw [hshape] at hHp
  rw [hHp, hHs, ho.div _ _ hne]
  exact ⟨rfl, rfl⟩

/-! ## Theorems -/

theorem coplanar_int {a b : ℕ} (ha : 4 ≤ a ∧ a ≤ 6) (hb : 4 ≤ b ∧ b ≤ 6) :
    coplanar (.int (10 * a + b)) = .int (10 * b + b) := by
  obtain ⟨a1, a2⟩ := ha
  obtain ⟨b1, b2⟩ := hb
  interval_cases a <;> interval_cases b <;> simp [coplanar]

open Classical in
/-- **C41.**  For every valid layered model, all frequencies, all accepted coordinates, magnetic receiver
component `a` and magnetic source component `b`: `ip_and_q` returns real and imaginary part of
`scale·Hs/Hp`, one value per frequency, receiver and source, where

* `Hp` is the magnetic field of the same source in the homogeneous medium of the layer listed first
  (`k`), in the direction of the source (`b`), whatever the receiver component is;
* `Hs` is the field component `a` of the layered medium without the direct field, provided that source and
  receiver are in the same layer (otherwise it is the total field). -/
theorem C41_ratio {B : Back} (hm : 0 < B.m.minRes) (hfr : 0 < B.m.minFreq) (hof : 0 < B.m.minOff)
    (ho : Safe B.o) {T : ℝ → (ℝ → ℂ) → ℂ} (hT : IsRule T) (hB : Uses B (besselRule T)) {A : DipoleArgs}
    {U : UserModel} (hU : U.Valid B.m.minRes) {k : ℕ} (hA : Lists A U k) {a b : ℕ} (ha : 4 ≤ a ∧ a ≤ 6)
    (hb : 4 ≤ b ∧ b ≤ 6) (hab : A.ab = .int (10 * a + b)) {xs ys xr yr : List ℝ} {zs zr : ℝ}
    (hsrc : A.src = [xs, ys, [zs]]) (hrcv : A.rcv = [xr, yr, [zr]])
    (hls : xs.length = ys.length ∨ xs.length = 1 ∨ ys.length = 1)
    (hlr : xr.length = yr.length ∨ xr.length = 1 ∨ yr.length = 1)
    (ns : 0 < numDipoles A.src) (nr : 0 < numDipoles A.rcv) (scale : ℝ) :
    ∃ IP Q : NdArray, (ipAndQ B A false scale).val = .ok (if A.squeeze then (IP.squeeze, Q.squeeze) else (IP, Q)) ∧
      IP.shape = [A.freq.length, numDipoles A.rcv, numDipoles A.src] ∧
      Q.shape = [A.freq.length, numDipoles A.rcv, numDipoles A.src] ∧
      ∀ (f r s : ℕ) (hf : f < A.freq.length), r < numDipoles A.rcv → s < numDipoles A.src →
        let M := fun g => U.medium (sParam B.m.minFreq A.freq g)
        let ρ := rhoOf B.m.minOff (bc xr r - bc xs s) (bc yr r - bc ys s)
        let θ := thetaOf (bc xr r - bc xs s) (bc yr r - bc ys s)
        let Hp := resp B.sqrt (A.freq.map fun g => layerMed (M g) k) f b b (ρ * Real.cos θ) (ρ * Real.sin θ)
          zs zr
        ∃ θ', |θ' - θ| ≤ 1e-9 ∧
        ∀ ls lr, (M A.freq[f]).InUpper ls zs → (M A.freq[f]).InUpper lr zr →
        ∀ F Fh : ℝ → ℝ → PlaneField,
        (∀ lam > 0, ∀ φ, IsPlaneField (M A.freq[f]) (lam * Real.cos φ) (lam * Real.sin φ) zs ls
          (unitDipole b) (F lam φ)) →
        (∀ lam > 0, ∀ φ, IsPlaneField ((M A.freq[f]).homog ls) (lam * Real.cos φ) (lam * Real.sin φ)
          zs 0 (unitDipole b) (Fh lam φ)) →
        let Hs := T ρ fun lam => ringIntegral (fun φ => (F lam φ).comp a lr zr -
            if ls = lr ∨ U.Uniform then (Fh lam φ).comp a 0 zr else 0) lam ρ θ'
        Hp ≠ 0 →
          IP.get [f, r, s] = ((scale * Hs / Hp).re : ℂ) ∧ Q.get [f, r, s] = ((scale * Hs / Hp).im : ℂ) :=
  ipq_fields hm hfr hof ho hT hB hU hA ha hb hb (by rw [hab]; rfl)
    (by rw [hab, coplanar_int ha hb]; rfl) hsrc hrcv hls hlr ns nr scale

open Classical in
/-- **C41, moment.**  The result is the same for every moment `c` of the source: the fields of a source of
moment `c` (both of which are `c` times as large) have the same ratio. -/
theorem C41_moment {B : Back} (hm : 0 < B.m.minRes) (hfr : 0 < B.m.minFreq) (hof : 0 < B.m.minOff)
    (ho : Safe B.o) {T : ℝ → (ℝ → ℂ) → ℂ} (hT : IsRule T)
    (hl : ∀ ρ (c : ℂ) g, T ρ (fun lam => c * g lam) = c * T ρ g) (hB : Uses B (besselRule T)) {A : DipoleArgs}
    {U : UserModel} (hU : U.Valid B.m.minRes) {k : ℕ} (hA : Lists A U k) {a b : ℕ} (ha : 4 ≤ a ∧ a ≤ 6)
    (hb : 4 ≤ b ∧ b ≤ 6) (hab : A.ab = .int (10 * a + b)) {xs ys xr yr : List ℝ} {zs zr : ℝ}
    (hsrc : A.src = [xs, ys, [zs]]) (hrcv : A.rcv = [xr, yr, [zr]])
    (hls : xs.length = ys.length ∨ xs.length = 1 ∨ ys.length = 1)
    (hlr : xr.length = yr.length ∨ xr.length = 1 ∨ yr.length = 1)
    (ns : 0 < numDipoles A.src) (nr : 0 < numDipoles A.rcv) (scale : ℝ) {c : ℂ} (hc : c ≠ 0) :
    ∃ IP Q : NdArray, (ipAndQ B A false scale).val = .ok (if A.squeeze then (IP.squeeze, Q.squeeze) else (IP, Q)) ∧
      ∀ (f r s : ℕ) (hf : f < A.freq.length), r < numDipoles A.rcv → s < numDipoles A.src →
        let M := fun g => U.medium (sParam B.m.minFreq A.freq g)
        let ρ := rhoOf B.m.minOff (bc xr r - bc xs s) (bc yr r - bc ys s)
        let θ := thetaOf (bc xr r - bc xs s) (bc yr r - bc ys s)
        let Hp := c * resp B.sqrt (A.freq.map fun g => layerMed (M g) k) f b b (ρ * Real.cos θ)
          (ρ * Real.sin θ) zs zr
        ∃ θ', |θ' - θ| ≤ 1e-9 ∧
        ∀ ls lr, (M A.freq[f]).InUpper ls zs → (M A.freq[f]).InUpper lr zr →
        ∀ F Fh : ℝ → ℝ → PlaneField,
        (∀ lam > 0, ∀ φ, IsPlaneField (M A.freq[f]) (lam * Real.cos φ) (lam * Real.sin φ) zs ls
          (moment c (unitDipole b)) (F lam φ)) →
        (∀ lam > 0, ∀ φ, IsPlaneField ((M A.freq[f]).homog ls) (lam * Real.cos φ) (lam * Real.sin φ)
          zs 0 (moment c (unitDipole b)) (Fh lam φ)) →
        let Hs := T ρ fun lam => ringIntegral (fun φ => (F lam φ).comp a lr zr -
            if ls = lr ∨ U.Uniform then (Fh lam φ).comp a 0 zr else 0) lam ρ θ'
        Hp ≠ 0 →
          IP.get [f, r, s] = ((scale * Hs / Hp).re : ℂ) ∧ Q.get [f, r, s] = ((scale * Hs / Hp).im : ℂ) := by
  obtain ⟨IP, Q, h1, -, -, h2⟩ := C41_ratio hm hfr hof ho hT hB hU hA ha hb hab hsrc hrcv hls hlr ns nr scale
  refine ⟨IP, Q, h1, ?_⟩
  intro f r s hf hr hs M ρ θ Hp
  obtain ⟨θ', t1, t2⟩ := h2 f r s hf hr hs
  refine ⟨θ', t1, ?_⟩
  intro ls lr hsu hru F Fh hF hH Hs hne
  have back : moment c⁻¹ (moment c (unitDipole b)) = unitDipole b := by
    simp only [moment, ← mul_assoc, inv_mul_cancel₀ hc, one_mul]
  have h3 := t2 ls lr hsu hru (fun lam φ => scaledField c⁻¹ (F lam φ)) (fun lam φ => scaledField c⁻¹ (Fh lam φ))
    (fun lam hl φ => by have := scaled_field (hF lam hl φ) c⁻¹; rwa [back] at this)
    (fun lam hl φ => by have := scaled_field (hH lam hl φ) c⁻¹; rwa [back] at this)
    (fun q => hne (by simp only [Hp]; rw [q, mul_zero]))
  have e : (T ρ fun lam => ringIntegral (fun φ => (scaledField c⁻¹ (F lam φ)).comp a lr zr -
      if ls = lr ∨ U.Uniform then (scaledField c⁻¹ (Fh lam φ)).comp a 0 zr else 0) lam ρ θ') = c⁻¹ * Hs := by
    simp only [Hs]
    rw [← hl]
    congr 1
    funext lam
    unfold ringIntegral
    rw [mul_left_comm]
    congr 1
    rw [← intervalIntegral.integral_const_mul]
    congr 1
    funext φ
    rw [← mul_assoc]
    congr 1
    dsimp only
    rw [scaled_comp, scaled_comp]
    by_cases q : ls = lr ∨ U.Uniform
    · rw [if_pos q, if_pos q]; ring
    · rw [if_neg q, if_neg q]; ring
  simp only at h3
  rw [e] at h3
  have q : scale * Hs / Hp = scale * (c⁻¹ * Hs) / resp B.sqrt (A.freq.map fun g => layerMed (M g) k) f b b
      (ρ * Real.cos θ) (ρ * Real.sin θ) zs zr := by
    simp only [Hp]
    rw [div_mul_eq_div_div]
    congr 1
    field_simp
  rw [q]
  exact h3

/-! ### The primary field -/

theorem layer_physical {U : UserModel} {mn : ℝ} (hm : 0 < mn) (hU : U.Valid mn) {k : ℕ}
    (hk : k < U.z.length + 1) {w : ℝ} (hw : 0 < w) :
    Physical (layerMed (U.medium (w * Complex.I)) k) ∧
    (0 < U.epsH k → Oscillating (layerMed (U.medium (w * Complex.I)) k)) := by
  have ck : (0 : ℤ) ≤ (k : ℤ) ∧ (k : ℤ) < (U.z.length : ℤ) + 1 := by omega
  have hmu : 0 < muVac := by unfold muVac; positivity
  have hep : 0 < epsVac := by unfold epsVac; positivity
  have r1 : 0 < U.rhoH k := lt_of_lt_of_le hm (hU.rhoH k hk)
  have r2 : 0 < U.rhoV k := lt_of_lt_of_le hm (hU.rhoV k hk)
  have e1 := hU.epsH k hk
  have e2 := hU.epsV k hk
  have m1 := hU.muH k hk
  have m2 := hU.muV k hk
  have key : ∀ r e : ℝ, (1 / (r : ℂ) + w * Complex.I * (e : ℂ)).re = 1 / r ∧
      (1 / (r : ℂ) + w * Complex.I * (e : ℂ)).im = w * e := by
    intro r e
    rw [show (1 / (r : ℂ)) = ((1 / r : ℝ) : ℂ) by push_cast; ring]
    constructor <;> simp
  have key2 : ∀ e : ℝ, (w * Complex.I * (e : ℂ)).re = 0 ∧ (w * Complex.I * (e : ℂ)).im = w * e := by
    intro e; constructor <;> simp
  have key3 : ∀ e : ℝ, 0 < e → (w * Complex.I * (e : ℂ)) ≠ 0 := by
    intro e he q
    have := congrArg Complex.im q
    rw [(key2 e).2] at this
    simp at this
    rcases this with h | h <;> linarith
  simp only [layerMed, UserModel.medium, UserModel.layer, if_pos ck, Int.toNat_natCast]
  refine ⟨⟨?_, ?_, ?_, ?_⟩, fun he => ⟨?_, ?_⟩⟩ <;> simp only
  · rw [(key _ _).1, (key _ _).2]; exact ⟨by positivity, by positivity⟩
  · rw [(key _ _).1, (key _ _).2]; exact ⟨by positivity, by positivity⟩
  · rw [(key2 _).1, (key2 _).2]; exact ⟨le_refl _, by positivity, key3 _ (by positivity)⟩
  · rw [(key2 _).1, (key2 _).2]; exact ⟨le_refl _, by positivity, key3 _ (by positivity)⟩
  · rw [(key _ _).2]; positivity
  · rw [(key2 _).2]; positivity

/-- **C41, primary field.**  Frequency domain, isotropic first layer with displacement currents: the primary
field is the textbook field of a magnetic dipole,
`e^{-γR}/(4πζR³) [(3 + 3γR + γ²R²) r_b²/R² - (1 + γR + γ²R²)]`; for vertical dipoles at the same depth it never
vanishes. -/
theorem C41_primary {sqrt : ℂ → ℂ} (hq : Fullspace.IsSqrt sqrt) {mn minFreq : ℝ} (hm : 0 < mn) (hfr : 0 < minFreq)
    {U : UserModel} (hU : U.Valid mn) {k : ℕ}
    (hk : k < U.z.length + 1) {freq : List ℝ} (hf : ∃ g ∈ freq, 0 < g) (ha : UserModel.val U.aniso 1 k = 1)
    (he : U.epsV k = U.epsH k) (he0 : 0 < U.epsH k) (hmu : U.muV k = U.muH k) {f : ℕ} (hl : f < freq.length)
    {b : ℕ} (hb : 4 ≤ b ∧ b ≤ 6) {x y : ℝ} (hxy : 0 < x ^ 2 + y ^ 2) (zs zr : ℝ) :
    let m := layerMed (U.medium (sParam minFreq freq freq[f])) k
    let γ := Kernel.csqrt m.etaH * Kernel.csqrt m.zetaH
    let Hp := resp sqrt (freq.map fun g => layerMed (U.medium (sParam minFreq freq g)) k) f b b x y zs zr
    Hp = isoDirect γ m.zetaH (b - 3) (b - 3) x y (zr - zs) ∧ (b = 6 → zr = zs → Hp ≠ 0) := by
  intro m γ Hp
  have hs : ∀ g, ∃ w : ℝ, 0 < w ∧ sParam minFreq freq g = w * Complex.I := by
    intro g
    refine ⟨2 * Real.pi * max g minFreq, ?_, ?_⟩
    · have : 0 < max g minFreq := lt_max_of_lt_right hfr
      positivity
    · rw [sParam, if_pos hf]; push_cast; ring
  have hphys : ∀ g, Physical (layerMed (U.medium (sParam minFreq freq g)) k) := by
    intro g
    obtain ⟨w, w0, e⟩ := hs g
    rw [e]; exact (layer_physical hm hU hk w0).1
  have hosc : Oscillating m := by
    obtain ⟨w, w0, e⟩ := hs freq[f]
    simp only [m]
    rw [e]; exact (layer_physical hm hU hk w0).2 he0
  have hmf : (freq.map fun g => layerMed (U.medium (sParam minFreq freq g)) k)[f]'(by simpa using hl) = m := by
    simp only [List.getElem_map, m]
  have ck : (0 : ℤ) ≤ (k : ℤ) ∧ (k : ℤ) < (U.z.length : ℤ) + 1 := by omega
  have hr : U.rhoV k = U.rhoH k := by rw [UserModel.rhoV, ha]; ring
  have hV : m.etaV = m.etaH ∧ m.zetaV = m.zetaH := by
    simp only [m, layerMed, UserModel.medium, UserModel.layer, if_pos ck, Int.toNat_natCast, he, hmu, hr,
      and_self]
  have h := (C36_isotropic hq (meds := freq.map fun g => layerMed (U.medium (sParam minFreq freq g)) k)
    (by simp only [List.mem_map]; rintro _ ⟨g, -, rfl⟩; exact hphys g) (i := f) (by simpa using hl)
    (by rw [hmf]; exact hV.1) (by rw [hmf]; exact hV.2) (a := b - 3) (b := b - 3) (by omega) (by omega) hxy zs
    zr).2.2.2 (by rw [hmf]; exact hosc)
  rw [hmf, show b - 3 + 3 = b by omega] at h
  refine ⟨h, ?_⟩
  rintro rfl rfl
  simp only [Hp]
  rw [h]
  have hp := hphys freq[f]
  obtain ⟨a1, a2, a3, -, -⟩ := octant hp.etaH.1.le hp.etaH.2
    (fun q => by have := hp.etaH.1; rw [q] at this; simp at this)
  obtain ⟨b1, b2, b3, -, -⟩ := octant hp.zetaH.1 hp.zetaH.2.1 hp.zetaH.2.2
  have hγ : 0 ≤ γ.re := by
    simp only [γ, Complex.mul_re]
    exact sub_nonneg.2 (mul_le_mul a3 b3 b2 a1.le)
  have hR : 0 < Real.sqrt (x ^ 2 + y ^ 2 + (0 : ℝ) ^ 2) := Real.sqrt_pos.2 (by nlinarith)
  have hR' : ((Real.sqrt (x ^ 2 + y ^ 2 + (0 : ℝ) ^ 2) : ℝ) : ℂ) ≠ 0 := by exact_mod_cast hR.ne'
  have hw : ∀ w : ℂ, 0 ≤ w.re → 1 + w + w ^ 2 ≠ 0 := by
    intro w w0 q
    have q1 := congrArg Complex.im q
    have q2 := congrArg Complex.re q
    simp only [pow_two, Complex.add_im, Complex.add_re, Complex.mul_im, Complex.mul_re, Complex.one_im,
      Complex.one_re, Complex.zero_im, Complex.zero_re] at q1 q2
    have q3 : w.im * (1 + 2 * w.re) = 0 := by linarith
    rcases mul_eq_zero.1 q3 with h | h
    · rw [h] at q2; nlinarith
    · linarith
  have hne := hw (γ * Real.sqrt (x ^ 2 + y ^ 2 + (0 : ℝ) ^ 2)) (by
    rw [Complex.re_mul_ofReal]; exact mul_nonneg hγ hR.le)
  rw [mul_pow] at hne
  simp only [sub_self, isoDirect]
  have hpos : pos x y 0 (6 - 3) = 0 := by simp [pos]
  rw [hpos]
  simp only [if_true, mul_zero, zero_div, zero_sub, mul_one, Complex.ofReal_zero]
  refine mul_ne_zero (div_ne_zero (Complex.exp_ne_zero _) ?_) (neg_ne_zero.2 hne)
  have hpi : (Real.pi : ℂ) ≠ 0 := by exact_mod_cast Real.pi_ne_zero
  exact mul_ne_zero (mul_ne_zero (mul_ne_zero (by norm_num) hpi) hp.zetaH.2.2) (pow_ne_zero 3 hR')

/-! ### Rejected input -/

/-- **C41, rejection.**  Whatever else is given: a result means that source and receiver are magnetic and no
time-domain signal was asked for; the three other cases raise. -/
theorem C41_reject (B : Back) (A : DipoleArgs) (signal : Bool) (scale : ℝ) :
    ((∃ r, (ipAndQ B A signal scale).val = .ok r) → signal = false ∧
      ∃ a b : ℕ, (4 ≤ a ∧ a ≤ 6) ∧ (4 ≤ b ∧ b ≤ 6) ∧ toInt A.ab = .ok (10 * a + b)) ∧
    (A.ab = .other → (ipAndQ B A signal scale).val = .error .typeError) ∧
    (∀ n, toInt A.ab = .ok n → ¬ (∃ a b : ℕ, (4 ≤ a ∧ a ≤ 6) ∧ (4 ≤ b ∧ b ≤ 6) ∧ n = 10 * a + b) →
      (ipAndQ B A signal scale).val = .error .valueError) ∧
    (∀ n, toInt A.ab = .ok n → signal = true → (ipAndQ B A signal scale).val = .error .valueError) := by
  have hcode : ∀ n : ℤ, n ∈ ipqCodes ↔ ∃ a b : ℕ, (4 ≤ a ∧ a ≤ 6) ∧ (4 ≤ b ∧ b ≤ 6) ∧ n = 10 * a + b := by
    intro n
    constructor
    · intro h
      simp only [ipqCodes, List.mem_cons, List.not_mem_nil, or_false] at h
      refine ⟨(n / 10).toNat, (n % 10).toNat, ?_, ?_, ?_⟩ <;> omega
    · rintro ⟨a, b, ⟨a1, a2⟩, ⟨b1, b2⟩, rfl⟩
      interval_cases a <;> interval_cases b <;> decide
  have step : ∀ n, toInt A.ab = .ok n → n ∉ ipqCodes ∨ signal = true →
      (ipAndQ B A signal scale).val = .error .valueError := by
    intro n hn h
    unfold ipAndQ
    rw [bind_val]
    simp only [Model.ofExcept, hn, Except.bind]
    by_cases hc : n ∉ ipqCodes
    · rw [if_pos hc]; rfl
    · rw [if_neg hc, if_pos (h.resolve_left hc)]; rfl
  have other : A.ab = .other → (ipAndQ B A signal scale).val = .error .typeError := by
    intro h
    unfold ipAndQ
    rw [bind_val]
    simp only [Model.ofExcept, h, toInt, Except.bind]
  refine ⟨?_, other, fun n hn h => step n hn (Or.inl fun q => h ((hcode n).1 q)),
    fun n hn h => step n hn (Or.inr h)⟩
  rintro ⟨r, hr⟩
  cases hn : toInt A.ab with
  | error e =>
    have : A.ab = .other := by
      cases h : A.ab with
      | int n => rw [h] at hn; cases hn
      | float x => rw [h] at hn; cases hn
      | other => rfl
    rw [other this] at hr; cases hr
  | ok n =>
    have h1 : ¬ (n ∉ ipqCodes ∨ signal = true) := fun q => by rw [step n hn q] at hr; cases hr
    push Not at h1
    obtain ⟨a, b, ha, hb, rfl⟩ := (hcode n).1 h1.1
    exact ⟨by simpa using h1.2, a, b, ha, hb, rfl⟩

/-- **C41, dictionaries.**  With `res` as a dictionary the routine works for homogeneous models only: the primary
model gets the whole dictionary, but no interfaces. -/
theorem C41_dict_violated {B : Back} {A : DipoleArgs} {r : List ℝ} {e : List (String × Option (List ℝ))}
    (h : A.res = .dict r e) (hr : r.length ≠ 1) (signal : Bool) (scale : ℝ) :
    ∃ err, (ipAndQ B A signal scale).val = .error err := by
  cases hres : (ipAndQ B A signal scale).val with
  | error err => exact ⟨err, rfl⟩
  | ok out =>
    exfalso
    obtain ⟨hsig, -⟩ := (C41_reject B A signal scale).1 ⟨out, hres⟩
    unfold ipAndQ at hres
    obtain ⟨n, -, hres⟩ := bind_eq_ok.1 hres
    by_cases c1 : n ∉ ipqCodes
    · rw [if_pos c1] at hres; cases hres
    rw [if_neg c1, if_neg (by simp [hsig])] at hres
    obtain ⟨_, -, hres⟩ := bind_eq_ok.1 hres
    obtain ⟨_, -, hres⟩ := bind_eq_ok.1 hres
    obtain ⟨Hs, -, hres⟩ := bind_eq_ok.1 hres
    obtain ⟨res, h1, hres⟩ := bind_eq_ok.1 hres
    obtain ⟨an, -, hres⟩ := bind_eq_ok.1 hres
    obtain ⟨eh, -, hres⟩ := bind_eq_ok.1 hres
    obtain ⟨ev, -, hres⟩ := bind_eq_ok.1 hres
    obtain ⟨mh, -, hres⟩ := bind_eq_ok.1 hres
    obtain ⟨mv, -, hres⟩ := bind_eq_ok.1 hres
    obtain ⟨Hp, h2, -⟩ := bind_eq_ok.1 hres
    rw [h] at h1
    obtain rfl : ResArg.dict r e = res := Except.ok.inj h1
    obtain ⟨⟨mo, hmo⟩, -⟩ := (C44_accept B _).1.1 ⟨Hp, h2⟩
    simp only at hmo
    rw [checkModel_val, checkDepth_val] at hmo
    simp only [Option.getD_some, List.Pairwise.nil, if_true] at hmo
    split_ifs at hmo with hl
    exact hr (by simpa [ResArg.res, normDepth] using hl.1)

open Classical in
/-- **C41, codes that are no integers.**  `ab` between two codes passes the check (`int()` truncates), but the
primary field is then not the co-planar one: its receiver component is that of `ab` itself. -/
theorem C41_float_violated {B : Back} (hm : 0 < B.m.minRes) (hfr : 0 < B.m.minFreq) (hof : 0 < B.m.minOff)
    (ho : Safe B.o) {T : ℝ → (ℝ → ℂ) → ℂ} (hT : IsRule T) (hB : Uses B (besselRule T)) {A : DipoleArgs}
    {U : UserModel} (hU : U.Valid B.m.minRes) {k : ℕ} (hA : Lists A U k) {a b : ℕ} (ha : 4 ≤ a ∧ a ≤ 6)
    (hb : 4 ≤ b ∧ b ≤ 6) {v : ℝ} (hab : A.ab = .float v) (hv : (10 * a + b : ℕ) < v ∧ v < (10 * a + b : ℕ) + 1)
    {xs ys xr yr : List ℝ} {zs zr : ℝ}
    (hsrc : A.src = [xs, ys, [zs]]) (hrcv : A.rcv = [xr, yr, [zr]])
    (hls : xs.length = ys.length ∨ xs.length = 1 ∨ ys.length = 1)
    (hlr : xr.length = yr.length ∨ xr.length = 1 ∨ yr.length = 1)
    (ns : 0 < numDipoles A.src) (nr : 0 < numDipoles A.rcv) (scale : ℝ) :
    ∃ IP Q : NdArray, (ipAndQ B A false scale).val = .ok (if A.squeeze then (IP.squeeze, Q.squeeze) else (IP, Q)) ∧
      ∀ (f r s : ℕ) (hf : f < A.freq.length), r < numDipoles A.rcv → s < numDipoles A.src →
        let M := fun g => U.medium (sParam B.m.minFreq A.freq g)
        let ρ := rhoOf B.m.minOff (bc xr r - bc xs s) (bc yr r - bc ys s)
        let θ := thetaOf (bc xr r - bc xs s) (bc yr r - bc ys s)
        let Hp := resp B.sqrt (A.freq.map fun g => layerMed (M g) k) f a b (ρ * Real.cos θ) (ρ * Real.sin θ)
          zs zr
        ∃ θ', |θ' - θ| ≤ 1e-9 ∧
        ∀ ls lr, (M A.freq[f]).InUpper ls zs → (M A.freq[f]).InUpper lr zr →
        ∀ F Fh : ℝ → ℝ → PlaneField,
        (∀ lam > 0, ∀ φ, IsPlaneField (M A.freq[f]) (lam * Real.cos φ) (lam * Real.sin φ) zs ls
          (unitDipole b) (F lam φ)) →
        (∀ lam > 0, ∀ φ, IsPlaneField ((M A.freq[f]).homog ls) (lam * Real.cos φ) (lam * Real.sin φ)
          zs 0 (unitDipole b) (Fh lam φ)) →
        let Hs := T ρ fun lam => ringIntegral (fun φ => (F lam φ).comp a lr zr -
            if ls = lr ∨ U.Uniform then (Fh lam φ).comp a 0 zr else 0) lam ρ θ'
        Hp ≠ 0 →
          IP.get [f, r, s] = ((scale * Hs / Hp).re : ℂ) ∧ Q.get [f, r, s] = ((scale * Hs / Hp).im : ℂ) := by
  have h0 : (0 : ℝ) ≤ v := le_trans (by positivity) hv.1.le
  have hint : toInt (.float v) = .ok (10 * a + b : ℤ) := by
    simp only [toInt, if_pos h0]
    congr 1
    rw [Int.floor_eq_iff]
    push_cast at hv ⊢
    exact ⟨hv.1.le, hv.2⟩
  have hcop : coplanar (.float v) = .float v := by
    have hn : ∀ n : ℤ, v ≠ n := by
      rintro n rfl
      have h1 : ((10 * a + b : ℕ) : ℤ) < n := by exact_mod_cast hv.1
      have h2 : n < ((10 * a + b : ℕ) : ℤ) + 1 := by exact_mod_cast hv.2
      omega
    unfold coplanar
    simp only [hn, or_self, if_false]
  obtain ⟨IP, Q, h1, -, -, h2⟩ := ipq_fields hm hfr hof ho hT hB hU hA ha hb ha (by rw [hab, hint])
    (by rw [hab, hcop, hint]) hsrc hrcv hls hlr ns nr scale
  exact ⟨IP, Q, h1, h2⟩

/-! ## Concrete cases -/

/-- Air above a conductive half-space. -/
noncomputable def field1 : UserModel := ⟨[0], [1e8, 10], none, none, none, none, none⟩

theorem field1_valid : field1.Valid 1e-20 where
  order := by simp [field1]
  len := by simp [field1]
  lens := by intro l h; simp [field1] at h
  rhoH := by
    intro i hi
    simp only [field1, List.length_cons, List.length_nil] at hi
    interval_cases i <;> norm_num [UserModel.rhoH, field1]
  rhoV := by
    intro i hi
    simp only [field1, List.length_cons, List.length_nil] at hi
    interval_cases i <;> norm_num [UserModel.rhoV, UserModel.rhoH, UserModel.val, field1]
  aniso := fun i _ => by norm_num [UserModel.val, field1]
  epsH := fun i _ => by norm_num [UserModel.epsH, UserModel.val, field1]
  epsV := fun i _ => by norm_num [UserModel.epsV, UserModel.epsH, UserModel.val, field1]
  muH := fun i _ => by norm_num [UserModel.muH, UserModel.val, field1]
  muV := fun i _ => by norm_num [UserModel.muV, UserModel.muH, UserModel.val, field1]

/-- Horizontal co-planar coils 10 m apart, 1 m above the ground, 9 kHz. -/
noncomputable def coils : DipoleArgs where
  src := [[0], [0], [-1]]
  rcv := [[10], [0], [-1]]
  depth := some [0]
  res := .array [1e8, 10]
  freq := [9000]
  ab := .int 66
  aniso := none
  epermH := none
  epermV := none
  mpermH := none
  mpermV := none
  xdirect := some true
  loop := none
  squeeze := true
  verb := 2

/-- The ratio, with exact integration; nothing is assumed about the primary field. -/
example : ∃ IP Q : NdArray, (ipAndQ (ruleBack fun _ g => ∫ lam in Set.Ioi (0 : ℝ), g lam) coils false 1000).val =
      .ok (IP.squeeze, Q.squeeze) ∧ IP.squeeze.shape = [] ∧
    ∃ θ' : ℝ, ∀ F Fh : ℝ → ℝ → PlaneField,
      let M := field1.medium (sParam 1e-20 [9000] 9000)
      (∀ lam > 0, ∀ φ, IsPlaneField M (lam * Real.cos φ) (lam * Real.sin φ) (-1) 0 (unitDipole 6) (F lam φ)) →
      (∀ lam > 0, ∀ φ, IsPlaneField (M.homog 0) (lam * Real.cos φ) (lam * Real.sin φ) (-1) 0
        (unitDipole 6) (Fh lam φ)) →
      ∃ Hp : ℂ, Hp ≠ 0 ∧ IP.get [0, 0, 0] = ((1000 * (∫ lam in Set.Ioi (0 : ℝ),
        ringIntegral (fun φ => (F lam φ).comp 6 0 (-1) - (Fh lam φ).comp 6 0 (-1)) lam
          (rhoOf 1e-3 10 0) θ') / Hp).re : ℂ) := by
  have m0 : 0 < (ruleBack fun _ g => ∫ lam in Set.Ioi (0 : ℝ), g lam).m.minRes := by
    norm_num [ruleBack, Mins.init]
  have m1 : 0 < (ruleBack fun _ g => ∫ lam in Set.Ioi (0 : ℝ), g lam).m.minFreq := by
    norm_num [ruleBack, Mins.init]
  have m2 : 0 < (ruleBack fun _ g => ∫ lam in Set.Ioi (0 : ℝ), g lam).m.minOff := by
    norm_num [ruleBack, Mins.init]
  have hv : field1.Valid (ruleBack fun _ g => ∫ lam in Set.Ioi (0 : ℝ), g lam).m.minRes := field1_valid
  have hl : Lists coils field1 0 :=
    .topDown false false (by simp [coils, field1, allDepths]) rfl rfl rfl rfl rfl rfl
  obtain ⟨IP, Q, h1, h2, -, h3⟩ := C41_ratio m0 m1 m2 safe_exact exact_rule (ruleBack_uses _) hv hl
    (a := 6) (b := 6) (by norm_num) (by norm_num) rfl (xs := [0]) (ys := [0]) (zs := -1)
    (xr := [10]) (yr := [0]) (zr := -1) rfl rfl (by simp) (by simp)
    (by simp [numDipoles, coils]) (by simp [numDipoles, coils]) 1000
  refine ⟨IP, Q, h1, ?_, ?_⟩
  · simp only [NdArray.squeeze, h2]; simp [coils, numDipoles]
  obtain ⟨θ', -, e2⟩ := h3 0 0 0 (by simp [coils]) (by simp [numDipoles, coils]) (by simp [numDipoles, coils])
  refine ⟨θ', ?_⟩
  intro F Fh M hF hH
  have hin : M.InUpper 0 (-1) := by
    refine ⟨le_refl _, by norm_num [M, UserModel.medium, field1], fun q => absurd rfl q, fun _ => ?_⟩
    norm_num [M, UserModel.medium, field1]
  have hr : 0 < rhoOf (ruleBack fun _ g => ∫ lam in Set.Ioi (0 : ℝ), g lam).m.minOff
      (bc [10] 0 - bc [0] 0) (bc [0] 0 - bc [0] 0) := lt_max_of_lt_right m2
  have hp := (C41_primary (sqrt := (ruleBack fun _ g => ∫ lam in Set.Ioi (0 : ℝ), g lam).sqrt) 
    ⟨Lemmas.csqrt_sq', fun _ _ => rfl⟩ m0 m1 hv (k := 0) (by simp [field1])
    (freq := coils.freq) ⟨9000, by simp [coils], by norm_num⟩
    (by simp [UserModel.val, field1]) (by simp [UserModel.epsV, UserModel.epsH, UserModel.val, field1])
    (by simp [UserModel.epsH, UserModel.val, field1])
    (by simp [UserModel.muV, UserModel.muH, UserModel.val, field1]) (f := 0) (by simp [coils]) (b := 6)
    (by norm_num)
    (x := rhoOf (ruleBack fun _ g => ∫ lam in Set.Ioi (0 : ℝ), g lam).m.minOff
      (bc [10] 0 - bc [0] 0) (bc [0] 0 - bc [0] 0) * Real.cos (thetaOf (bc [10] 0 - bc [0] 0) (bc [0] 0 - bc [0] 0)))
    (y := rhoOf (ruleBack fun _ g => ∫ lam in Set.Ioi (0 : ℝ), g lam).m.minOff
      (bc [10] 0 - bc [0] 0) (bc [0] 0 - bc [0] 0) * Real.sin (thetaOf (bc [10] 0 - bc [0] 0) (bc [0] 0 - bc [0] 0)))
    (by
      rw [mul_pow, mul_pow, ← mul_add, Real.cos_sq_add_sin_sq]; positivity) (-1) (-1)).2 rfl rfl
  have := (e2 0 0 hin hin F Fh hF hH hp).1
  refine ⟨_, hp, ?_⟩
  simp only [true_or, if_true] at this
  rw [this]
  simp [bc, ruleBack, Mins.init]

/-- Electric receiver: rejected. -/
example (B : Back) : (ipAndQ B { coils with ab := .int 16 } false 1000).val = .error .valueError :=
  (C41_reject B { coils with ab := .int 16 } false 1000).2.2.1 16 rfl (by rintro ⟨a, b, ha, hb, h⟩; omega)

end Verif.Props
