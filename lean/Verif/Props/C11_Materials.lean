import Verif.Props.C10_Model

/-!
# C11, C12, C24, C30 and parts of C26 — material properties, layer numbers, cut-off, frequencies
-/

namespace Verif.Props
open Verif.Py Verif.Py.W Verif.Utils Verif.Spec Verif.Lemmas

variable {m : Mins} {depth : List EReal} {res : ResArg}
  {aniso epermH epermV mpermH mpermV : Option (List ℝ)} {xd : Option Bool} {verb : ℤ}

/-! ## C24: cut-off -/

theorem cut_eq (a x : ℝ) : cut a x = max x a := by
  unfold cut
  split_ifs with h
  · exact (max_eq_right h.le).symm
  · exact (max_eq_left (not_lt.1 h)).symm

/-- **C24.**  `_check_min` never fails, keeps the number of entries, replaces exactly the values
below the minimum by the minimum, is idempotent, and prints its warning exactly if something was
changed and `verb > 0`; without a minimum nothing happens. -/
theorem C24_cut (par : List ℝ) (a : ℝ) (name : String) (verb : ℤ) :
    ∃ out : List ℝ, (checkMin par (some a) name verb).val = .ok out ∧
      out.length = par.length ∧
      (∀ i (h : i < par.length) (h' : i < out.length),
        (par[i] < a → out[i] = a) ∧ (¬ par[i] < a → out[i] = par[i])) ∧
      (checkMin out (some a) name verb).val = .ok out ∧
      (checkMin out (some a) name verb).out = [] ∧
      ((checkMin par (some a) name verb).out ≠ [] ↔ 0 < verb ∧ ¬ (∀ x ∈ par, a ≤ x)) ∧
      (checkMin par none name verb).val = .ok par ∧ (checkMin par none name verb).out = [] := by
  refine ⟨par.map (cut a), by rw [checkMin_val], by simp, ?_, ?_, ?_, ?_, rfl, rfl⟩
  · intro i h h'
    simp only [List.getElem_map, cut]
    constructor <;> intro h2
    · rw [if_pos h2]
    · rw [if_neg h2]
  · rw [checkMin_val]
    simp only [List.map_map]
    congr 2
    funext x
    simp [cut_eq]
  · unfold checkMin
    rw [bind_out]
    have : ¬ (verb > 0 ∧ ∃ x ∈ par.map (cut a), x < a) := by
      rintro ⟨-, x, hx, h⟩
      obtain ⟨y, -, rfl⟩ := List.mem_map.1 hx
      rw [cut_eq] at h
      exact absurd h (not_lt.2 (le_max_right _ _))
    simp only [say_out, this, if_false, say_val, pure_out, List.append_nil]
  · unfold checkMin
    rw [bind_out]
    simp only [say_out, say_val, pure_out, List.append_nil]
    constructor
    · intro h
      by_contra h2
      refine h (if_neg ?_)
      rintro ⟨h3, x, hx, h4⟩
      exact h2 ⟨h3, fun h5 => absurd (h5 x hx) (not_le.2 h4)⟩
    · rintro ⟨h1, h2⟩
      push Not at h2
      rw [if_pos ⟨h1, h2⟩]
      simp

example : (checkMin [1, -3, 0] (some 0) "res" 1).val = .ok [1, 0, 0] ∧
    (checkMin [1, -3, 0] (some 0) "res" 1).out ≠ [] ∧
    (checkMin [1, -3, 0] (some 0) "res" 0).out = [] := by
  have h := C24_cut [1, -3, 0] 0 "res"
  obtain ⟨out, -, -, -, -, -, h6, -⟩ := h 1
  obtain ⟨out', -, -, -, -, -, h6', -⟩ := h 0
  refine ⟨by rw [checkMin_val]; norm_num [cut], h6.2 ⟨by norm_num, ?_⟩, ?_⟩
  · intro h; have := h (-3) (by simp); norm_num at this
  · by_contra hc; exact absurd (h6'.1 hc).1 (by norm_num)

/-! ## C11: acceptance -/

theorem mem_bot_iff {a : EReal} {t : List EReal} (h : TopDown (a :: t)) : ⊥ ∈ a :: t ↔ a = ⊥ := by
  constructor
  · intro hm
    rcases List.mem_cons.1 hm with hm | hm
    · exact hm.symm
    · exact le_bot_iff.1 ((List.pairwise_cons.1 h).1 _ hm)
  · rintro rfl; simp

theorem mem_top_iff {l : List EReal} (h : TopDown l) : ⊤ ∈ l ↔ l.getLast? = some ⊤ := by
  constructor
  · intro hm
    obtain ⟨x, hx⟩ : ∃ x, l.getLast? = some x := by
      cases hl : l.getLast? with
      | none => rw [List.getLast?_eq_none_iff] at hl; subst hl; simp at hm
      | some x => exact ⟨x, rfl⟩
    rw [hx]
    obtain ⟨ys, rfl⟩ := List.getLast?_eq_some_iff.1 hx
    rcases List.mem_append.1 hm with h1 | h1
    · have := (List.pairwise_append.1 h).2.2 _ h1 x (by simp)
      rw [top_le_iff.1 this]
    · simp only [List.mem_singleton] at h1; rw [h1]
  · intro h; exact List.mem_of_getLast? h

theorem normDepth_length {d : List EReal} (h : TopDown d) :
    (normDepth d).length = numLayers d := by
  cases d with
  | nil => simp [normDepth, numLayers]
  | cons a t =>
    have e1 := mem_bot_iff h
    have e2 := mem_top_iff h
    unfold normDepth numLayers
    by_cases ha : a = ⊥
    · have hb := e1.2 ha
      have hn : ¬ (a ≠ ⊥) := not_not.2 ha
      simp only [hn, if_false, hb, if_true]
      by_cases hl : (a :: t).getLast? = some ⊤
      · have ht := e2.2 hl
        simp only [hl, ht, if_true, List.length_dropLast, List.length_cons]; omega
      · have ht : ¬ ⊤ ∈ a :: t := fun h => hl (e2.1 h)
        simp only [hl, ht, if_false, List.length_cons]; omega
    · have hb : ¬ ⊥ ∈ a :: t := fun h => ha (e1.1 h)
      have e3 : (⊥ :: a :: t).getLast? = (a :: t).getLast? := by simp
      simp only [ne_eq, ha, not_false_eq_true, if_true, hb, if_false, e3]
      by_cases hl : (a :: t).getLast? = some ⊤
      · have ht := e2.2 hl
        simp only [hl, ht, if_true, List.length_dropLast, List.length_cons]; omega
      · have ht : ¬ ⊤ ∈ a :: t := fun h => hl (e2.1 h)
        simp only [hl, ht, if_false, List.length_cons]; omega

theorem numLayers_reverse (d : List EReal) : numLayers d.reverse = numLayers d := by
  simp [numLayers]

/-- **C11, acceptance.**  A model is accepted exactly if the interfaces are ordered and every given
vector has one entry per layer; anything else raises `ValueError`. -/
theorem C11_accept :
    ((∃ out, (checkModel m (some depth) res aniso epermH epermV mpermH mpermV xd verb).val =
        .ok out) ↔
      (TopDown depth ∨ BottomUp depth) ∧ res.res.length = numLayers depth ∧
      (∀ l, (some l = aniso ∨ some l = epermH ∨ some l = epermV ∨ some l = mpermH ∨
        some l = mpermV) → l.length = numLayers depth) ∧
      (∀ e, res.extra = some e → ∀ k l, (k, some l) ∈ e → l.length = numLayers depth)) ∧
    (∀ e, (checkModel m (some depth) res aniso epermH epermV mpermH mpermV xd verb).val =
        .error e → e = .valueError) := by
  have hL : ∀ n, LenOK n res aniso epermH epermV mpermH mpermV ↔ (res.res.length = n ∧
      (∀ l, (some l = aniso ∨ some l = epermH ∨ some l = epermV ∨ some l = mpermH ∨
        some l = mpermV) → l.length = n) ∧
      (∀ e, res.extra = some e → ∀ k l, (k, some l) ∈ e → l.length = n)) := by
    intro n
    unfold LenOK lenOK
    constructor
    · rintro ⟨h1, h2, h3, h4, h5, h6, h7⟩
      refine ⟨h1, ?_, fun e he k l hk => h7 e he _ hk l rfl⟩
      rintro l (h | h | h | h | h)
      · exact h2 l h.symm
      · exact h3 l h.symm
      · exact h4 l h.symm
      · exact h5 l h.symm
      · exact h6 l h.symm
    · rintro ⟨h1, h2, h3⟩
      refine ⟨h1, fun l h => h2 l (by simp [h]), fun l h => h2 l (by simp [h]),
        fun l h => h2 l (by simp [h]), fun l h => h2 l (by simp [h]), fun l h => h2 l (by simp [h]),
        ?_⟩
      rintro e he ⟨k, p⟩ hk l rfl
      exact h3 e he k l hk
  rw [checkModel_val, checkDepth_val]
  simp only [Option.getD_some]
  by_cases h1 : TopDown depth
  · have h1' := h1
    unfold TopDown at h1'
    rw [if_pos h1']
    simp only [h1, true_or, true_and, ← hL, ← normDepth_length h1]
    split_ifs with h <;> simp [h]
  · have h1' := h1
    unfold TopDown at h1'
    rw [if_neg h1']
    by_cases h2 : BottomUp depth
    · have h2' := h2
      unfold BottomUp at h2'
      rw [if_pos h2']
      have hr : TopDown depth.reverse := by
        unfold TopDown; rw [List.pairwise_reverse]; exact h2'.imp fun h => le_of_lt h
      simp only [← numLayers_reverse depth, ← normDepth_length hr, h2, or_true, true_and, ← hL]
      split_ifs with h <;> simp [h]
    · have h2' := h2
      unfold BottomUp at h2'
      rw [if_neg h2']
      simp [h1, h2]

/-- **C11, values** (top-down input): resistivities are cut off at the minimum; the vertical
resistivity `ρ_v = ρ_h λ²` is cut off at the same minimum; permittivities and permeabilities are cut
off at zero; what is missing is one, a missing vertical value is the horizontal one. -/
theorem C11_values {r : List ℝ} (hd : TopDown depth) {out : ModelOut} (hmin : 0 < m.minRes)
    (h : (checkModel m (some depth) (.array r) aniso epermH epermV mpermH mpermV xd verb).val =
      .ok out) :
    out.res = r.map (max · m.minRes) ∧
    (List.zipWith (fun ρ a => ρ * a ^ 2) out.res out.aniso =
      match aniso with
      | none => out.res
      | some v => List.zipWith (fun ρ a => max (a ^ 2 * ρ) m.minRes) out.res v) ∧
    (∀ a ∈ out.aniso, 0 ≤ a) ∧
    out.epermH = (epermH.elim (List.replicate r.length 1) (List.map (max · 0))) ∧
    out.epermV = (epermV.elim out.epermH (List.map (max · 0))) ∧
    out.mpermH = (mpermH.elim (List.replicate r.length 1) (List.map (max · 0))) ∧
    out.mpermV = (mpermV.elim out.mpermH (List.map (max · 0))) := by
  rw [checkModel_val, checkDepth_val] at h
  simp only [Option.getD_some] at h
  have hd' := hd
  unfold TopDown at hd'
  rw [if_pos hd'] at h
  simp only at h
  split_ifs at h with hl
  obtain rfl := Except.ok.inj h
  obtain ⟨h1, h2, -⟩ := hl
  have hc : cut m.minRes = (max · m.minRes) := by funext x; exact cut_eq _ _
  have hc0 : cut 0 = (max · 0) := by funext x; exact cut_eq _ _
  have h1' : r.length = (normDepth depth).length := h1
  refine ⟨by simp [modelVal, rev, ResArg.res, hc], ?_, ?_, ?_, ?_, ?_, ?_⟩
  · simp only [modelVal, rev, ResArg.res, Bool.false_eq_true, if_false, hc]
    cases aniso with
    | none =>
      apply List.ext_getElem
      · simp [anisoVal, h1']
      · intro i hi hi'
        simp [anisoVal]
    | some v =>
      have hv := h2 v rfl
      apply List.ext_getElem
      · simp [anisoVal, h1', hv]
      · intro i hi hi'
        simp only [anisoVal, List.getElem_zipWith, List.getElem_map, hc]
        have hir : i < r.length := by simp at hi'; omega
        have hpos : 0 < max (r[i]'hir) m.minRes := lt_max_of_lt_right hmin
        rw [Real.sq_sqrt (div_nonneg (le_trans hmin.le (le_max_right _ _)) hpos.le)]
        field_simp
  · intro a ha
    simp only [modelVal, rev, ResArg.res, Bool.false_eq_true, if_false] at ha
    cases aniso with
    | none =>
      simp only [anisoVal] at ha
      rw [List.eq_of_mem_replicate ha]; norm_num
    | some v =>
      simp only [anisoVal] at ha
      obtain ⟨i, hi, rfl⟩ := List.mem_iff_getElem.1 ha
      simp only [List.getElem_zipWith]
      exact Real.sqrt_nonneg _
  · cases epermH <;> simp [modelVal, rev, inpVal, hc0, h1']
  · cases epermV <;> cases epermH <;> simp [modelVal, rev, inpVal, hc0]
  · cases mpermH <;> simp [modelVal, rev, inpVal, hc0, h1']
  · cases mpermV <;> cases mpermH <;> simp [modelVal, rev, inpVal, hc0]

theorem allSame_iff (l : List ℝ) : allSame l = true ↔ ∀ x ∈ l, ∀ y ∈ l, x = y := by
  unfold allSame
  rw [decide_eq_true_iff]
  constructor
  · intro h x hx y hy
    linarith [h x hx, h y hy]
  · intro h x hx
    cases l with
    | nil => simp at hx
    | cons a t => simp [h x hx a (by simp)]

/-- **C11, full-space flag**: raised exactly if no user-defined parameters are given and all layers
(one layer included) have the same properties. -/
theorem C11_fullspace {d : Option (List EReal)} {out : ModelOut}
    (h : (checkModel m d res aniso epermH epermV mpermH mpermV xd verb).val = .ok out) :
    out.isfullspace = true ↔ res.extra = none ∧
      ∀ l ∈ [out.res, out.aniso, out.epermH, out.epermV, out.mpermH, out.mpermV],
        ∀ x ∈ l, ∀ y ∈ l, x = y := by
  rw [checkModel_val] at h
  cases hd : (checkDepth d).val with
  | error e => rw [hd] at h; cases h
  | ok r =>
    rw [hd] at h
    simp only at h
    split_ifs at h with hl
    obtain rfl := Except.ok.inj h
    simp only [modelVal, Bool.and_eq_true, Option.isNone_iff_eq_none, allSame_iff, List.forall_mem_cons,
      List.not_mem_nil, IsEmpty.forall_iff, implies_true, and_true, and_assoc]

/-- Two layers of the same material. -/
example : ∃ out, (checkModel Mins.init (some [0]) (.array [2, 2]) none none none none none none 0).val
    = .ok out ∧ out.isfullspace = true := by
  obtain ⟨out, h⟩ := (C11_accept (m := Mins.init) (depth := [0]) (res := .array [2, 2]) (aniso := none)
    (epermH := none) (epermV := none) (mpermH := none) (mpermV := none) (xd := none)
    (verb := 0)).1.2 ⟨Or.inl (by simp [TopDown]), by
      have e : ¬ ((⊥ : EReal) = 0) := by simp
      have e2 : ¬ ((⊤ : EReal) = 0) := by simp
      simp [numLayers, ResArg.res, e, e2], by simp, by simp [ResArg.extra]⟩
  refine ⟨out, h, (C11_fullspace h).2 ⟨rfl, ?_⟩⟩
  obtain ⟨h1, h2, ha, h4, h5, h6, h7⟩ := C11_values (by simp [TopDown])
    (by norm_num [Mins.init]) h
  have hlen := C10_internal h
  have hr : out.res = [2, 2] := by rw [h1]; norm_num [Mins.init]
  have h3 : (List.zipWith (fun ρ a => ρ * a ^ 2) out.res out.aniso) = out.res := h2
  have hl : out.aniso.length = 2 := by rw [hlen.2.2.2.1, ← hlen.2.2.1, hr]; rfl
  have h4' : out.epermH = [1, 1] := h4
  have h5' : out.epermV = out.epermH := h5
  have h6' : out.mpermH = [1, 1] := h6
  have h7' : out.mpermV = out.mpermH := h7
  have han : out.aniso = [1, 1] := by
    match hq : out.aniso, hl with
    | [a, b], _ =>
      rw [hr, hq] at h3
      simp at h3
      have e1 := ha a (by simp [hq])
      have e2 := ha b (by simp [hq])
      rw [h3.1.resolve_right (by linarith), h3.2.resolve_right (by linarith)]
  rw [hr, han, h5', h7', h4', h6']
  simp

end Verif.Props
