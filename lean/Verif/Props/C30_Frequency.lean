import Verif.Props.C12_Layers

/-!
# C30, C11 (passivity), C26 (these routines) and the way from user input to the kernel
-/

namespace Verif.Props
open Verif.Py Verif.Py.W Verif.Utils Verif.Spec Verif.Lemmas

/-! ## C30 -/

open Classical in
/-- The Laplace parameter that belongs to the input value `f` of the vector `freq`: `2πi f` if some
input is positive, otherwise `-f`; values below the minimum are replaced by the minimum. -/
noncomputable def sParam (minFreq : ℝ) (freq : List ℝ) (f : ℝ) : ℂ :=
  if ∃ g ∈ freq, 0 < g then 2 * Real.pi * Complex.I * (max f minFreq : ℝ)
  else ((max (-f) minFreq : ℝ) : ℂ)

theorem sParam_spec {minFreq : ℝ} (h : 0 < minFreq) (freq : List ℝ) (f : ℝ) :
    sParam minFreq freq f ≠ 0 ∧ 0 ≤ (sParam minFreq freq f).re := by
  unfold sParam
  split_ifs
  · have : 0 < max f minFreq := lt_max_of_lt_right h
    constructor
    · simp [Real.pi_ne_zero, this.ne']
    · simp
  · have : 0 < max (-f) minFreq := lt_max_of_lt_right h
    constructor
    · exact_mod_cast this.ne'
    · simp only [Complex.ofReal_re]; exact this.le

open Classical in
/-- **C30.**  Laplace domain exactly if no input is positive; in every case `eta = 1/ρ + s ε` and
`zeta = s μ` with the Laplace parameter `s` above, one row per frequency and one column per layer;
the routine never fails and its values do not depend on the verbosity. -/
theorem C30_frequency (m : Mins) (freq res aniso epermH epermV mpermH mpermV : List ℝ) (verb : ℤ) :
    (checkFrequency m freq res aniso epermH epermV mpermH mpermV verb).val = .ok
      { freq := freq.map fun f =>
          if ∃ g ∈ freq, 0 < g then max f m.minFreq else max (-f) m.minFreq
        etaH := freq.map fun f => List.zipWith (fun ρ e : ℝ => 1 / (ρ : ℂ) +
          sParam m.minFreq freq f * ((e * eps0 : ℝ) : ℂ)) res epermH
        etaV := freq.map fun f => List.zipWith (fun ρ e : ℝ => 1 / (ρ : ℂ) +
          sParam m.minFreq freq f * ((e * eps0 : ℝ) : ℂ))
          (List.zipWith (fun r a => r * a * a) res aniso) epermV
        zetaH := freq.map fun f => mpermH.map fun u : ℝ =>
          sParam m.minFreq freq f * ((u * mu0 : ℝ) : ℂ)
        zetaV := freq.map fun f => mpermV.map fun u : ℝ =>
          sParam m.minFreq freq f * ((u * mu0 : ℝ) : ℂ) } := by
  unfold checkFrequency
  have hc : ∀ a : ℝ, cut a = fun x => max x a := fun a => by funext x; exact cut_eq a x
  by_cases h : ∃ g ∈ freq, 0 < g
  · have h' : (decide (¬ ∃ f ∈ freq, f > 0)) = false := by simpa using h
    have e : ∀ f : ℝ, 2 * Complex.I * (Real.pi : ℂ) * ((max f m.minFreq : ℝ) : ℂ) =
        2 * Real.pi * Complex.I * ((max f m.minFreq : ℝ) : ℂ) := fun f => by ring
    simp only [h', Bool.false_eq_true, if_false]
    rw [bind_val, checkMin_val]
    simp only [Except.bind]
    rw [bind_val]
    simp only [say_val, Except.bind, pure_val, List.map_map, hc, sParam, h, if_true,
      Function.comp_def, e]
  · have h' : (decide (¬ ∃ f ∈ freq, f > 0)) = true := by simpa using h
    simp only [h', if_true]
    rw [bind_val, checkMin_val]
    simp only [Except.bind]
    rw [bind_val]
    simp only [say_val, Except.bind, pure_val, List.map_map, hc, sParam, h, if_false,
      Function.comp_def]

/-- Mixed signs: frequencies, and the negative value is replaced by the minimum.  Only non-positive
values: Laplace values. -/
example : sParam 1e-20 [1, -2] (-2) = 2 * Real.pi * Complex.I * (1e-20 : ℝ) ∧
    sParam 1e-20 [0, -2] (-2) = 2 := by
  constructor
  · have : ∃ g ∈ ([1, -2] : List ℝ), 0 < g := ⟨1, by simp, by norm_num⟩
    rw [sParam, if_pos this]
    norm_num
  · have : ¬ ∃ g ∈ ([0, -2] : List ℝ), 0 < g := by
      rintro ⟨g, hg, h⟩
      simp at hg
      rcases hg with rfl | rfl <;> norm_num at h
    rw [sParam, if_neg this]
    norm_num

/-! ## C26 for these routines -/

/-- **C26** (`_check_min`, `check_model`, `check_frequency`): the verbosity does not influence the
values, and nothing is printed for `verb ≤ 0`. -/
theorem C26_model (m : Mins) (d : Option (List EReal)) (res : ResArg)
    (aniso epermH epermV mpermH mpermV : Option (List ℝ)) (xd : Option Bool) (v v' : ℤ) :
    (checkModel m d res aniso epermH epermV mpermH mpermV xd v).val =
      (checkModel m d res aniso epermH epermV mpermH mpermV xd v').val ∧
    (v ≤ 0 → (checkModel m d res aniso epermH epermV mpermH mpermV xd v).out = []) := by
  constructor
  · rw [checkModel_val, checkModel_val]
  · intro hv
    have e0 : ¬ v > 0 := by omega
    have e2 : ¬ v > 2 := by omega
    have hmin : ∀ l o s, (checkMin l o s v).out = [] := by
      intro l o s
      cases o with
      | none => rfl
      | some a =>
        unfold checkMin
        exact bind_silent (by simp [e0]) (fun _ => by simp)
    have hvar : ∀ {α : Type} (l : List α) n, (checkVar l n).out = [] := by
      intro α l n; unfold checkVar; split <;> simp
    have hinp : ∀ n o s mi, (checkInp n o s mi v).out = [] := by
      intro n o s mi
      cases o with
      | none => rfl
      | some a => exact bind_silent (hvar _ _) (fun _ => hmin _ _ _)
    have hvert : ∀ n o h s, (checkVert n o h s v).out = [] := by
      intro n o h s
      cases o with
      | none => rfl
      | some a => exact hinp _ _ _ _
    have han : ∀ n r o mi, (checkAniso n r o mi v).out = [] := by
      intro n r o mi
      cases o with
      | none => rfl
      | some a =>
        exact bind_silent (hvar _ _) (fun _ => bind_silent (hmin _ _ _) (fun _ => by simp))
    have hex : ∀ n sw l, (checkExtra n sw v l).out = [] := by
      intro n sw l
      induction l with
      | nil => rfl
      | cons p t ih =>
        obtain ⟨k, o⟩ := p
        exact bind_silent (hinp _ _ _ _) (fun _ => bind_silent (by simp [e2])
          (fun _ => bind_silent ih (fun _ => by simp)))
    have hdict : ∀ n sw f o, (checkDict n sw v f o).out = [] := by
      intro n sw f o
      cases o with
      | none => rfl
      | some l => exact bind_silent (hex _ _ _) (fun _ => by simp)
    have hdep : (checkDepth d).out = [] := by
      unfold checkDepth
      dsimp only
      split
      · simp
      · split <;> simp
    unfold checkModel
    refine bind_silent hdep fun p => ?_
    refine bind_silent (hvar _ _) fun _ => ?_
    refine bind_silent (hmin _ _ _) fun _ => ?_
    refine bind_silent (han _ _ _ _) fun _ => ?_
    refine bind_silent (hinp _ _ _ _) fun _ => ?_
    refine bind_silent (hvert _ _ _ _) fun _ => ?_
    refine bind_silent (hinp _ _ _ _) fun _ => ?_
    refine bind_silent (hvert _ _ _ _) fun _ => ?_
    refine bind_silent (by simp [e2]) fun _ => ?_
    refine bind_silent (hdict _ _ _ _) fun _ => ?_
    refine bind_silent (by simp [e2]) fun _ => ?_
    exact bind_silent (by simp [e2]) fun _ => by simp

/-- **C26** for `check_frequency`. -/
theorem C26_frequency (m : Mins) (freq res aniso epermH epermV mpermH mpermV : List ℝ) (v v' : ℤ) :
    (checkFrequency m freq res aniso epermH epermV mpermH mpermV v).val =
      (checkFrequency m freq res aniso epermH epermV mpermH mpermV v').val ∧
    (v ≤ 0 → (checkFrequency m freq res aniso epermH epermV mpermH mpermV v).out = []) := by
  refine ⟨by rw [C30_frequency, C30_frequency], fun hv => ?_⟩
  have e0 : ¬ v > 0 := by omega
  have e2 : ¬ v > 2 := by omega
  unfold checkFrequency
  refine bind_silent ?_ fun _ => bind_silent (by simp [e2]) fun _ => by simp
  unfold checkMin
  exact bind_silent (by simp [e0]) (fun _ => by simp)

/-! ## From user input to the kernel -/

theorem zip_rev {α β : Type} (sw : Bool) {l : List α} {l' : List β} (h : l.length = l'.length) :
    List.zip (rev sw l) (rev sw l') = rev sw (List.zip l l') := by
  unfold rev
  split
  · exact (List.reverse_zipWith (f := Prod.mk) h).symm
  · rfl

theorem mem_rev {α : Type} (sw : Bool) (l : List α) (x : α) : x ∈ rev sw l ↔ x ∈ l := by
  unfold rev; split <;> simp

/-- Bounds on what `check_model` returns. -/
theorem model_bounds {m : Mins} (hmin : 0 < m.minRes) {d : Option (List EReal)} {res : ResArg}
    {aniso epermH epermV mpermH mpermV : Option (List ℝ)} {xd : Option Bool} {verb : ℤ}
    {out : ModelOut}
    (h : (checkModel m d res aniso epermH epermV mpermH mpermV xd verb).val = .ok out) :
    (∀ r ∈ out.res, 0 < r) ∧ (∀ p ∈ List.zip out.res out.aniso, 0 < p.1 * p.2 * p.2) ∧
    (∀ e ∈ out.epermH, 0 ≤ e) ∧ (∀ e ∈ out.epermV, 0 ≤ e) ∧
    (∀ e ∈ out.mpermH, 0 ≤ e) ∧ (∀ e ∈ out.mpermV, 0 ≤ e) := by
  rw [checkModel_val] at h
  cases hd : (checkDepth d).val with
  | error e => rw [hd] at h; cases h
  | ok r =>
    obtain ⟨D, sw⟩ := r
    rw [hd] at h
    simp only at h
    split_ifs at h with hl
    obtain rfl := Except.ok.inj h
    obtain ⟨h1, h2, -⟩ := hl
    have hinp : ∀ o : Option (List ℝ), ∀ e ∈ inpVal D.length (some 0) o, (0 : ℝ) ≤ e := by
      intro o e he
      cases o with
      | none =>
        rw [List.eq_of_mem_replicate (show e ∈ List.replicate D.length 1 from he)]; norm_num
      | some v =>
        obtain ⟨x, -, rfl⟩ := List.mem_map.1 (show e ∈ v.map (cut 0) from he)
        rw [cut_eq]; exact le_max_right _ _
    have hr : ∀ x ∈ res.res.map (cut m.minRes), 0 < x := by
      intro x hx
      obtain ⟨y, -, rfl⟩ := List.mem_map.1 hx
      rw [cut_eq]; exact lt_max_of_lt_right hmin
    have hlen : (res.res.map (cut m.minRes)).length =
        (anisoVal D.length (res.res.map (cut m.minRes)) m.minRes aniso).length := by
      cases aniso with
      | none => simp [anisoVal, h1]
      | some v => simp [anisoVal, h1, h2 v rfl]
    refine ⟨?_, ?_, ?_, ?_, ?_, ?_⟩
    · intro x hx
      exact hr x ((mem_rev _ _ _).1 hx)
    · intro p hp
      simp only [modelVal] at hp
      rw [zip_rev _ hlen, mem_rev] at hp
      cases aniso with
      | none =>
        obtain ⟨i, hi, rfl⟩ := List.mem_iff_getElem.1 hp
        simp only [anisoVal, List.getElem_zip, List.getElem_replicate, mul_one]
        exact hr _ (List.getElem_mem _)
      | some v =>
        obtain ⟨i, hi, rfl⟩ := List.mem_iff_getElem.1 hp
        simp only [anisoVal, List.getElem_zip, List.getElem_zipWith, List.getElem_map]
        have hi' : i < res.res.length := by simp at hi; exact hi.1
        have h3 : 0 < cut m.minRes (res.res[i]'hi') := by
          rw [cut_eq]; exact lt_max_of_lt_right hmin
        have hpos : ∀ y, 0 < Real.sqrt (cut m.minRes y / cut m.minRes (res.res[i]'hi')) := by
          intro y
          apply Real.sqrt_pos.2
          apply div_pos _ h3
          rw [cut_eq]; exact lt_max_of_lt_right hmin
        exact mul_pos (mul_pos h3 (hpos _)) (hpos _)
    · intro e he; exact hinp _ e ((mem_rev _ _ _).1 he)
    · intro e he
      have he := (mem_rev _ _ _).1 he
      split at he <;> exact hinp _ e he
    · intro e he; exact hinp _ e ((mem_rev _ _ _).1 he)
    · intro e he
      have he := (mem_rev _ _ _).1 he
      split at he <;> exact hinp _ e he

theorem mu0_pos : 0 < mu0 := by unfold mu0; positivity
theorem eps0_pos : 0 < eps0 := by unfold eps0; have := mu0_pos; positivity

theorem passive_eta {s : ℂ} (hs : 0 ≤ s.re) {ρ e : ℝ} (hρ : 0 < ρ) (he : 0 ≤ e) :
    0 < (1 / (ρ : ℂ) + s * ((e * eps0 : ℝ) : ℂ)).re := by
  have e1 : (1 / (ρ : ℂ)).re = 1 / ρ := by
    rw [show (1 / (ρ : ℂ)) = ((1 / ρ : ℝ) : ℂ) by push_cast; rfl, Complex.ofReal_re]
  rw [Complex.add_re, e1, Complex.re_mul_ofReal]
  have : 0 ≤ s.re * (e * eps0) := mul_nonneg hs (mul_nonneg he eps0_pos.le)
  positivity

/-- **C11, passivity** (partial): everything `check_model` and `check_frequency` let through is a
passive medium in the sense the kernel theorems need — ordered interfaces, positive real part of
`eta`, non-vanishing `zeta` with non-negative real part — provided the relative permeabilities
are positive and only the first depth is infinite.  Missing: permeability zero, see
`C11_mperm_zero`.  Together with the layer numbers of `get_layer_nr` all hypotheses of
`C01_kernel_is_maxwell` are met. -/
theorem C11_passive_partial {m : Mins} (hres : 0 < m.minRes) (hfreq : 0 < m.minFreq)
    {d : Option (List EReal)} {res : ResArg}
    {aniso epermH epermV mpermH mpermV : Option (List ℝ)} {xd : Option Bool} {verb verb' : ℤ}
    {out : ModelOut}
    (h : (checkModel m d res aniso epermH epermV mpermH mpermV xd verb).val = .ok out)
    (hmu : (∀ u ∈ out.mpermH, 0 < u) ∧ ∀ u ∈ out.mpermV, 0 < u)
    {freq : List ℝ} {fo : FreqOut}
    (hf : (checkFrequency m freq out.res out.aniso out.epermH out.epermV out.mpermH out.mpermV
      verb').val = .ok fo)
    {f : ℕ} {eH eV zH zV : List ℂ} (h1 : fo.etaH[f]? = some eH) (h2 : fo.etaV[f]? = some eV)
    (h3 : fo.zetaH[f]? = some zH) (h4 : fo.zetaV[f]? = some zV)
    {M : Medium} (hM : Represents M out.depth eH eV zH zV) :
    M.OK ∧ ∀ {zs zr : ℝ} {s r : ℕ}, getLayerNr [zs] out.depth = [s] →
      getLayerNr [zr] out.depth = [r] →
      M.InClosed s zs ∧ M.InClosed r zr ∧ (zr = zs → (r : ℤ) = s) := by
  obtain ⟨hb, hd, l1, l2, l3, l4, l5, l6⟩ := C10_internal h
  obtain ⟨b1, b2, b3, b4, b5, b6⟩ := model_bounds hres h
  have hpos : 0 < out.depth.length := by
    cases hq : out.depth with
    | nil => rw [hq] at hb; simp at hb
    | cons a t => simp
  rw [C30_frequency] at hf
  obtain rfl := Except.ok.inj hf
  simp only [List.getElem?_map, Option.map_eq_some_iff] at h1 h2 h3 h4
  obtain ⟨x, hx, rfl⟩ := h1
  obtain ⟨x2, hx2, rfl⟩ := h2
  obtain ⟨x3, hx3, rfl⟩ := h3
  obtain ⟨x4, hx4, rfl⟩ := h4
  rw [hx] at hx2 hx3 hx4
  obtain rfl := Option.some.inj hx2
  obtain rfl := Option.some.inj hx3
  obtain rfl := Option.some.inj hx4
  obtain ⟨hs0, hsre⟩ := sParam_spec hfreq freq x
  set sp := sParam m.minFreq freq x
  have nat : ∀ i : ℤ, 0 ≤ i → ∃ k : ℕ, i = k := fun i hi => ⟨i.toNat, (Int.toNat_of_nonneg hi).symm⟩
  refine ⟨⟨?_, ?_, ?_⟩, ?_⟩
  · rw [hM.n]; exact_mod_cast hpos
  · intro i hi1 hi2
    obtain ⟨k, rfl⟩ := nat i (by omega)
    rw [hM.n] at hi2
    have k2 : k + 1 < out.depth.length := by exact_mod_cast hi2
    have e1 := hM.D k (by exact_mod_cast hi1) (by omega)
    have e2 := hM.D (k + 1) (by omega) k2
    have := List.pairwise_iff_getElem.1 hd k (k + 1) (by omega) k2 (by omega)
    rw [← e1, ← e2, EReal.coe_le_coe_iff] at this
    exact_mod_cast this
  · intro i hi1 hi2
    obtain ⟨k, rfl⟩ := nat i hi1
    rw [hM.n] at hi2
    have hk : k < out.depth.length := by exact_mod_cast hi2
    have k1 : k < out.res.length := by omega
    have k2 : k < out.aniso.length := by omega
    have k3 : k < out.epermH.length := by omega
    have k4 : k < out.epermV.length := by omega
    have k5 : k < out.mpermH.length := by omega
    have k6 : k < out.mpermV.length := by omega
    have ez : ∀ u : ℝ, 0 < u → sp * ((u * mu0 : ℝ) : ℂ) ≠ 0 := fun u hu =>
      mul_ne_zero hs0 (by exact_mod_cast (mul_pos hu mu0_pos).ne')
    have ezr : ∀ u : ℝ, 0 < u → 0 ≤ (sp * ((u * mu0 : ℝ) : ℂ)).re := fun u hu => by
      rw [Complex.re_mul_ofReal]; exact mul_nonneg hsre (mul_pos hu mu0_pos).le
    constructor
    · rw [hM.etaH k (by simp; omega), List.getElem_zipWith]
      exact passive_eta hsre (b1 _ (List.getElem_mem _)) (b3 _ (List.getElem_mem _))
    · rw [hM.etaV k (by simp; omega), List.getElem_zipWith, List.getElem_zipWith]
      refine passive_eta hsre ?_ (b4 _ (List.getElem_mem _))
      have := b2 (out.res[k], out.aniso[k]) (by
        rw [List.mem_iff_getElem]
        exact ⟨k, by simp; omega, by simp⟩)
      exact this
    · rw [hM.zetaH k (by simp; omega), List.getElem_map]
      exact ezr _ (hmu.1 _ (List.getElem_mem _))
    · rw [hM.zetaV k (by simp; omega), List.getElem_map]
      exact ezr _ (hmu.2 _ (List.getElem_mem _))
    · rw [hM.zetaH k (by simp; omega), List.getElem_map]
      exact ez _ (hmu.1 _ (List.getElem_mem _))
    · rw [hM.zetaV k (by simp; omega), List.getElem_map]
      exact ez _ (hmu.2 _ (List.getElem_mem _))
  · intro zs zr s r e1 e2
    obtain ⟨g, g1, g2⟩ := C12_layer_nr hb hd
    rw [g1] at e1 e2
    simp only [List.map_cons, List.map_nil, List.cons.injEq, and_true] at e1 e2
    have hin : ∀ z : ℝ, M.InClosed (g z) z := by
      intro z
      obtain ⟨k1, ⟨⟨dd, k2, k3⟩, k4⟩, -⟩ := g2 z
      refine ⟨by omega, by rw [hM.n]; exact_mod_cast k1, ?_, ?_⟩
      · intro h0
        have := hM.D (g z) (by omega) k1
        obtain ⟨_, e⟩ := List.getElem?_eq_some_iff.1 k2
        rw [e] at this
        rw [← this] at k3
        exact (EReal.coe_lt_coe_iff.1 k3).le
      · intro h0
        rw [hM.n] at h0
        have hlt : g z + 1 < out.depth.length := by omega
        have := hM.D (g z + 1) (by omega) hlt
        have k5 := k4 _ (List.getElem?_eq_getElem hlt)
        rw [← this] at k5
        exact_mod_cast EReal.coe_le_coe_iff.1 k5
    subst e1; subst e2
    exact ⟨hin zs, hin zr, fun h => by rw [h]⟩

/-- Finding: a relative permeability of zero is accepted and gives `zeta = 0`, for which the
kernel equations are singular; the full passivity statement is false. -/
theorem C11_mperm_zero : ∃ out fo,
    (checkModel Mins.init none (.array [1]) none none none (some [0]) none none 0).val = .ok out ∧
    (checkFrequency Mins.init [1] out.res out.aniso out.epermH out.epermV out.mpermH out.mpermV 0).val
      = .ok fo ∧ fo.zetaH = [[0]] := by
  have hd : (checkDepth none).val = .ok ([⊥], false) := by
    rw [checkDepth_val]; simp [normDepth]
  have hl : LenOK ([⊥] : List EReal).length (.array [1]) none none none (some [0]) none := by
    simp [LenOK, lenOK, ResArg.res, ResArg.extra]
  refine ⟨modelVal Mins.init [⊥] false (.array [1]) none none none (some [0]) none, _, ?_,
    C30_frequency _ _ _ _ _ _ _ _ _, ?_⟩
  · rw [checkModel_val, hd]
    simp only
    rw [if_pos hl]
  · simp [modelVal, rev, inpVal, cut]

/-- The hypotheses of `C11_passive_partial` can be met: an accepted two-layer model at 1 Hz. -/
example : ∃ out fo M eH eV zH zV,
    (checkModel Mins.init (some [((0 : ℝ) : EReal)]) (.array [1e12, 1]) none none none none none none
      0).val = .ok out ∧
    (checkFrequency Mins.init [1] out.res out.aniso out.epermH out.epermV out.mpermH out.mpermV 0).val
      = .ok fo ∧ fo.etaH[0]? = some eH ∧ fo.etaV[0]? = some eV ∧ fo.zetaH[0]? = some zH ∧
    fo.zetaV[0]? = some zV ∧ Represents M out.depth eH eV zH zV ∧ M.OK := by
  have hd : (checkDepth (some [((0 : ℝ) : EReal)])).val = .ok ([⊥, ((0 : ℝ) : EReal)], false) :=
    C10_interfaces (zs := [0]) (pre := []) (post := []) (by simp) (by simp) (by simp)
  have hl : LenOK ([⊥, ((0 : ℝ) : EReal)] : List EReal).length (.array [1e12, 1]) none none none none
      none := by
    simp [LenOK, lenOK, ResArg.res, ResArg.extra]
  have h : (checkModel Mins.init (some [((0 : ℝ) : EReal)]) (.array [1e12, 1]) none none none none none
      none 0).val = .ok (modelVal Mins.init [⊥, ((0 : ℝ) : EReal)] false (.array [1e12, 1]) none none
        none none none) := by
    rw [checkModel_val, hd]
    simp only
    rw [if_pos hl]
  have hr : (modelVal Mins.init [⊥, ((0 : ℝ) : EReal)] false (.array [1e12, 1]) none none
        none none none).depth = [⊥, ((0 : ℝ) : EReal)] := rfl
  let row (l : List ℂ) : ℤ → ℂ := fun i => l.getD i.toNat 0
  have hrow : ∀ (l : List ℂ) (i : ℕ) (hi : i < l.length), row l i = l[i] := by
    intro l i hi; simp [row, hi]
  have key : ∀ eH eV zH zV : List ℂ, Represents ⟨2, fun _ => 0, row eH, row eV, row zH, row zV⟩
      [⊥, ((0 : ℝ) : EReal)] eH eV zH zV := by
    intro eH eV zH zV
    refine ⟨by simp, ?_, hrow eH, hrow eV, hrow zH, hrow zV⟩
    intro i hi hl
    have : i = 1 := by simp at hl; omega
    subst this; rfl
  refine ⟨_, _, _, _, _, _, _, h, C30_frequency _ _ _ _ _ _ _ _ _, rfl, rfl, rfl, rfl, key _ _ _ _, ?_⟩
  refine (C11_passive_partial (by norm_num [Mins.init]) (by norm_num [Mins.init]) h ?_
    (C30_frequency _ [1] _ _ _ _ _ _ 0) (f := 0) rfl rfl rfl rfl (key _ _ _ _)).1
  constructor <;> intro u hu <;> simp [modelVal, rev, inpVal] at hu <;> rw [hu] <;> norm_num

end Verif.Props
