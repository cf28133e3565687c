import Verif.Lemmas.CheckModel
import Verif.Spec.Layers
import Verif.Lemmas.Ring36

/-!
# C10, C11, C12, C24, C30 — `check_model`, `check_frequency`, `get_layer_nr`
-/

namespace Verif.Props
open Verif.Py Verif.Py.W Verif.Utils Verif.Spec Verif.Lemmas

variable {m : Mins} {depth : List EReal} {res : ResArg}
  {aniso epermH epermV mpermH mpermV : Option (List ℝ)} {xd : Option Bool} {verb : ℤ}

/-! ## C10: depths -/

/-- Depths that are not ordered one way or the other are rejected, whatever else is given. -/
theorem C10_reject (h1 : ¬ TopDown depth) (h2 : ¬ BottomUp depth) :
    (checkModel m (some depth) res aniso epermH epermV mpermH mpermV xd verb).val =
      .error .valueError := by
  rw [checkModel_val, checkDepth_val]
  simp only [Option.getD_some]
  unfold TopDown at h1; unfold BottomUp at h2
  rw [if_neg h1, if_neg h2]

theorem checkDepth_ok (d : Option (List EReal)) {r : List EReal × Bool}
    (h : (checkDepth d).val = .ok r) : ∃ t, r.1 = ⊥ :: t ∧ TopDown (⊥ :: t) := by
  rw [checkDepth_val] at h
  simp only at h
  split_ifs at h with h1 h2
  · obtain rfl := Except.ok.inj h; exact normDepth_spec h1
  · obtain rfl := Except.ok.inj h
    refine normDepth_spec ?_
    rw [List.pairwise_reverse]; exact h2.imp fun h => le_of_lt h

/-- Whatever is accepted starts with `-inf`, is ordered, and all other vectors have one entry per
layer. -/
theorem C10_internal {d : Option (List EReal)} {out : ModelOut}
    (h : (checkModel m d res aniso epermH epermV mpermH mpermV xd verb).val = .ok out) :
    out.depth.head? = some ⊥ ∧ TopDown out.depth ∧ out.res.length = out.depth.length ∧
    out.aniso.length = out.depth.length ∧ out.epermH.length = out.depth.length ∧
    out.epermV.length = out.depth.length ∧ out.mpermH.length = out.depth.length ∧
    out.mpermV.length = out.depth.length := by
  rw [checkModel_val] at h
  cases hd : (checkDepth d).val with
  | error e => rw [hd] at h; cases h
  | ok r =>
    obtain ⟨D, swap⟩ := r
    rw [hd] at h
    simp only at h
    split_ifs at h with hl
    obtain rfl := Except.ok.inj h
    obtain ⟨t, ht, hs⟩ := checkDepth_ok d hd
    obtain ⟨h1, h2, h3, h4, h5, h6, h7⟩ := hl
    have hrev : ∀ {α : Type} (l : List α), (rev swap l).length = l.length := by
      intro α l; unfold rev; split <;> simp
    have hinp : ∀ o mi, lenOK D.length o → (inpVal D.length mi o).length = D.length := by
      intro o mi ho
      cases o with
      | none => simp [inpVal]
      | some v => cases mi <;> simp [inpVal, ho v rfl]
    refine ⟨by simp [modelVal, show D = ⊥ :: t from ht], by
      change TopDown D; rw [show D = ⊥ :: t from ht]; exact hs, ?_, ?_, ?_, ?_, ?_, ?_⟩ <;>
      simp only [modelVal, hrev]
    · simp [h1]
    · cases aniso with
      | none => simp [anisoVal]
      | some v => simp [anisoVal, h1, h2 v rfl]
    · exact hinp _ _ h3
    · split
      · exact hinp _ _ h3
      · exact hinp _ _ h4
    · exact hinp _ _ h5
    · split
      · exact hinp _ _ h5
      · exact hinp _ _ h6

/-- Interfaces `z₁ ≤ z₂ ≤ …` are used as given; a leading `-inf` and a trailing `+inf` may be
given or not. -/
theorem C10_interfaces {zs : List ℝ} (hz : zs.Pairwise (· ≤ ·)) {pre post : List EReal}
    (hpre : pre = [] ∨ pre = [⊥]) (hpost : post = [] ∨ post = [⊤]) :
    (checkDepth (some (pre ++ zs.map (fun z : ℝ => (z : EReal)) ++ post))).val =
      .ok (⊥ :: zs.map (fun z : ℝ => (z : EReal)), false) := by
  have hs : (zs.map (fun z : ℝ => (z : EReal))).Pairwise (· ≤ ·) := by
    rw [List.pairwise_map]; exact hz.imp fun h => EReal.coe_le_coe_iff.2 h
  have hp : (pre ++ zs.map (fun z : ℝ => (z : EReal)) ++ post).Pairwise (· ≤ ·) := by
    rw [List.pairwise_append, List.pairwise_append]
    refine ⟨⟨?_, hs, ?_⟩, ?_, ?_⟩
    · rcases hpre with rfl | rfl <;> simp
    · rcases hpre with rfl | rfl <;> simp
    · rcases hpost with rfl | rfl <;> simp
    · rcases hpost with rfl | rfl <;> simp
  rw [checkDepth_val]
  simp only [Option.getD_some]
  rw [if_pos hp]
  have key : ∀ l : List ℝ, (if (⊥ :: l.map (fun z : ℝ => (z : EReal))).getLast? = some ⊤ then
      (⊥ :: l.map (fun z : ℝ => (z : EReal))).dropLast else ⊥ :: l.map (fun z : ℝ => (z : EReal))) =
      ⊥ :: l.map (fun z : ℝ => (z : EReal)) := by
    intro l
    rw [if_neg]
    intro h
    have h2 : (⊤ : EReal) ∈ ⊥ :: l.map (fun z : ℝ => (z : EReal)) := List.mem_of_getLast? h
    simp at h2
  have key2 : ∀ l : List EReal, (if (⊥ :: (l ++ [⊤])).getLast? = some ⊤ then
      (⊥ :: (l ++ [⊤])).dropLast else ⊥ :: (l ++ [⊤])) = ⊥ :: l := by
    intro l
    rw [← List.cons_append, if_pos (by rw [List.getLast?_concat]), List.dropLast_concat]
  congr 2
  unfold normDepth
  rcases hpre with rfl | rfl <;> rcases hpost with rfl | rfl
  · cases zs with
    | nil => simp
    | cons a t =>
      have := key (a :: t)
      simpa using this
  · cases zs with
    | nil => simp
    | cons a t =>
      have := key2 ((a :: t).map (fun z : ℝ => (z : EReal)))
      simpa using this
  · have := key zs
    simpa using this
  · have := key2 (zs.map (fun z : ℝ => (z : EReal)))
    simpa using this

/-- The model upside down: all vectors reversed. -/
def upsideDown : ResArg → ResArg
  | .array r => .array r.reverse
  | .dict r e => .dict r.reverse (e.map fun p => (p.1, p.2.map List.reverse))

theorem modelVal_rev {D : List EReal}
    (hl : LenOK D.length res aniso epermH epermV mpermH mpermV) :
    modelVal m D true (upsideDown res)
      (aniso.map List.reverse) (epermH.map List.reverse) (epermV.map List.reverse)
      (mpermH.map List.reverse) (mpermV.map List.reverse) =
    modelVal m D false res aniso epermH epermV mpermH mpermV := by
  have hi : ∀ mi o, (inpVal D.length mi (o.map List.reverse)).reverse = inpVal D.length mi o := by
    intro mi o
    cases o with
    | none => simp [inpVal]
    | some v => cases mi <;> simp [inpVal]
  have hn : ∀ o : Option (List ℝ), o.map List.reverse = none ↔ o = none := by
    intro o; cases o <;> simp
  have hv : ∀ (o o' : Option (List ℝ)),
      (if o.map List.reverse = none then inpVal D.length (some 0) (o'.map List.reverse)
        else inpVal D.length (some 0) (o.map List.reverse)).reverse =
      if o = none then inpVal D.length (some 0) o' else inpVal D.length (some 0) o := by
    intro o o'
    by_cases h : o = none
    · subst h; simp [hi]
    · rw [if_neg h, if_neg (by rwa [hn]), hi]
  obtain ⟨h1, h2, -⟩ := hl
  have key : ∀ r : List ℝ, r.length = D.length →
      (anisoVal D.length r.reverse m.minRes (aniso.map List.reverse)).reverse =
        anisoVal D.length r m.minRes aniso := by
    intro r hr
    cases aniso with
    | none => simp [anisoVal]
    | some v =>
      have hv := h2 v rfl
      simp only [anisoVal, Option.map_some]
      rw [← List.reverse_zipWith (by rw [hv, hr]), List.map_reverse, ← List.reverse_zipWith (by simp [hv, hr]),
        List.reverse_reverse]
  cases res with
  | array r =>
    have hr : (r.map (cut m.minRes)).length = D.length := by simpa [ResArg.res] using h1
    simp only [modelVal, upsideDown, rev, if_true, Bool.false_eq_true, if_false, ResArg.res, ResArg.extra, hi, hv,
      List.map_reverse, List.reverse_reverse, key _ hr, Option.map_none]
  | dict r e =>
    have hr : (r.map (cut m.minRes)).length = D.length := by simpa [ResArg.res] using h1
    simp only [modelVal, upsideDown, rev, if_true, Bool.false_eq_true, if_false, ResArg.res, ResArg.extra, hi, hv,
      List.map_reverse, List.reverse_reverse, key _ hr, Option.map_some, List.map_map,
      Function.comp_def, Option.isNone_some, Bool.false_and]

/-- **C10.**  Two or more interfaces given strictly from bottom to top, with all property vectors
reversed, give exactly the internal model (or the exception) of the top-down description. -/
theorem C10_reverse (h : depth.Pairwise (· < ·)) (h2 : 2 ≤ depth.length) :
    (checkModel m (some depth.reverse) (upsideDown res) (aniso.map List.reverse)
      (epermH.map List.reverse) (epermV.map List.reverse) (mpermH.map List.reverse)
      (mpermV.map List.reverse) xd verb).val =
    (checkModel m (some depth) res aniso epermH epermV mpermH mpermV xd verb).val := by
  have hdec : depth.reverse.Pairwise (fun a b => b < a) := by
    rw [List.pairwise_reverse]; exact h
  have hnot : ¬ depth.reverse.Pairwise (· ≤ ·) := by
    match hd : depth.reverse with
    | [] => rw [List.reverse_eq_nil_iff] at hd; simp [hd] at h2
    | [a] => have := congrArg List.length hd; simp at this; omega
    | a :: b :: t =>
      intro h3
      rw [hd] at hdec
      exact absurd ((List.pairwise_cons.1 h3).1 b (by simp))
        (not_le.2 ((List.pairwise_cons.1 hdec).1 b (by simp)))
  have hinc : depth.Pairwise (· ≤ ·) := h.imp fun h => le_of_lt h
  rw [checkModel_val, checkModel_val, checkDepth_val, checkDepth_val]
  simp only [Option.getD_some]
  rw [if_neg hnot, if_pos hdec, if_pos hinc, List.reverse_reverse]
  simp only
  have hlen : ∀ n (o : Option (List ℝ)), lenOK n (o.map List.reverse) ↔ lenOK n o := by
    intro n o; cases o <;> simp [lenOK]
  have hL : LenOK (normDepth depth).length (upsideDown res) (aniso.map List.reverse)
      (epermH.map List.reverse) (epermV.map List.reverse) (mpermH.map List.reverse)
      (mpermV.map List.reverse) ↔
      LenOK (normDepth depth).length res aniso epermH epermV mpermH mpermV := by
    unfold LenOK
    simp only [hlen]
    cases res <;> simp [upsideDown, ResArg.res, ResArg.extra, hlen]
  by_cases hok : LenOK (normDepth depth).length res aniso epermH epermV mpermH mpermV
  · rw [if_pos hok, if_pos (hL.2 hok)]
    congr 1
    exact modelVal_rev hok
  · rw [if_neg hok, if_neg (fun h => hok (hL.1 h))]

/-- Three layers, sea bottom at 300 m, basement at 1000 m, both ways. -/
example : (checkModel Mins.init (some [1000, 300]) (.array [1, 2, 0.3]) (some [1, 2, 1]) none none
      none none none 0).val =
    (checkModel Mins.init (some [300, 1000]) (.array [0.3, 2, 1]) (some [1, 2, 1]) none none none
      none none 0).val := by
  have := C10_reverse (m := Mins.init) (depth := [300, 1000]) (res := .array [0.3, 2, 1])
    (aniso := some [1, 2, 1]) (epermH := none) (epermV := none) (mpermH := none) (mpermV := none)
    (xd := none) (verb := 0)
    (by simp only [List.pairwise_cons]
        refine ⟨?_, by simp, List.Pairwise.nil⟩
        intro a ha
        simp only [List.mem_singleton] at ha
        subst ha
        exact_mod_cast (by norm_num : (300 : ℝ) < 1000)) (by simp)
  simpa [upsideDown] using this

end Verif.Props
