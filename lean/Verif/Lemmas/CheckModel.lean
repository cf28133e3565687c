import Verif.Model.CheckModel

/-! Helper lemmas about `check_model` and friends: closed forms. -/

namespace Verif.Lemmas
open Verif.Py Verif.Py.W Verif.Utils

theorem decr_iff : ∀ l : List EReal, Decr l ↔ l.Pairwise (fun a b => b < a)
  | [] => by simp [Decr]
  | [a] => by simp [Decr]
  | a :: b :: t => by
    rw [Decr, decr_iff (b :: t), List.pairwise_cons (a := a)]
    constructor
    · rintro ⟨h1, h2⟩
      refine ⟨?_, h2⟩
      intro x hx
      rcases List.mem_cons.1 hx with rfl | hx
      · exact h1
      · exact ((List.pairwise_cons.1 h2).1 x hx).trans h1
    · rintro ⟨h1, h2⟩
      exact ⟨h1 b (by simp), h2⟩

theorem someUp_iff : ∀ l : List EReal, ¬ SomeUp l ↔ l.Pairwise (· ≤ ·)
  | [] => by simp [SomeUp]
  | [a] => by simp [SomeUp]
  | a :: b :: t => by
    rw [SomeUp, not_or, someUp_iff (b :: t), List.pairwise_cons (a := a), not_lt]
    constructor
    · rintro ⟨h1, h2⟩
      refine ⟨?_, h2⟩
      intro x hx
      rcases List.mem_cons.1 hx with rfl | hx
      · exact h1
      · exact h1.trans ((List.pairwise_cons.1 h2).1 x hx)
    · rintro ⟨h1, h2⟩
      exact ⟨h1 b (by simp), h2⟩

/-- What `checkDepth` does after the order is established. -/
noncomputable def normDepth : List EReal → List EReal
  | [] => [⊥]
  | a :: t =>
    let d1 := if a ≠ ⊥ then ⊥ :: a :: t else a :: t
    if d1.getLast? = some ⊤ then d1.dropLast else d1

open Classical in
theorem checkDepth_val (depth : Option (List EReal)) :
    (checkDepth depth).val =
      let d := depth.getD []
      if d.Pairwise (· ≤ ·) then .ok (normDepth d, false)
      else if d.Pairwise (fun a b => b < a) then .ok (normDepth d.reverse, true)
      else .error .valueError := by
  unfold checkDepth
  set d := depth.getD []
  by_cases hm : d.Pairwise (· ≤ ·)
  · have hs : decide (d.length > 1 ∧ Decr d) = false := by
      rw [decide_eq_false_iff_not, decr_iff]
      rintro ⟨h1, h2⟩
      match d, h1, h2, hm with
      | a :: b :: t, _, h2, hm =>
        have e1 := (List.pairwise_cons.1 h2).1 b (by simp)
        have e2 := (List.pairwise_cons.1 hm).1 b (by simp)
        exact absurd e1 (not_lt.2 e2)
    have hr := (someUp_iff d).2 hm
    simp only [hs, rev, Bool.false_eq_true, if_false, hm, if_true, hr]
    unfold normDepth
    cases d <;> simp
  · simp only [hm, if_false]
    have hlen : d.length > 1 := by
      match d, hm with
      | [], hm => simp at hm
      | [a], hm => simp at hm
      | a :: b :: t, _ => simp
    by_cases hd : d.Pairwise (fun a b => b < a)
    · have hs : decide (d.length > 1 ∧ Decr d) = true := by
        rw [decide_eq_true_iff, decr_iff]; exact ⟨hlen, hd⟩
      have hr : ¬ SomeUp d.reverse := by
        rw [someUp_iff, List.pairwise_reverse]
        exact hd.imp fun h => le_of_lt h
      simp only [hs, rev, if_true, hr, if_false, hd]
      unfold normDepth
      cases d.reverse <;> simp
    · have hs : decide (d.length > 1 ∧ Decr d) = false := by
        rw [decide_eq_false_iff_not, decr_iff]
        exact fun h => hd h.2
      have hr : SomeUp d := by
        by_contra h
        exact hm ((someUp_iff d).1 h)
      simp only [hs, rev, Bool.false_eq_true, if_false, hd, hr, if_true]
      simp

theorem normDepth_spec {d : List EReal} (h : d.Pairwise (· ≤ ·)) :
    ∃ t, normDepth d = ⊥ :: t ∧ (⊥ :: t).Pairwise (· ≤ ·) := by
  match d, h with
  | [], _ => exact ⟨[], rfl, by simp⟩
  | a :: t, h =>
    have hb : ∃ t', (if a ≠ ⊥ then ⊥ :: a :: t else a :: t) = ⊥ :: t' ∧
        (⊥ :: t').Pairwise (· ≤ ·) := by
      by_cases ha : a = ⊥
      · subst ha; exact ⟨t, by simp, h⟩
      · refine ⟨a :: t, by simp [ha], ?_⟩
        rw [List.pairwise_cons]; exact ⟨fun x _ => bot_le, h⟩
    obtain ⟨t', e, p⟩ := hb
    unfold normDepth
    simp only [e]
    split_ifs with hl
    · match t', hl, p with
      | [], hl, _ => simp at hl
      | x :: t'', _, p =>
        refine ⟨(x :: t'').dropLast, by rw [List.dropLast_cons_of_ne_nil (by simp)], ?_⟩
        have : (⊥ :: x :: t'').dropLast.Pairwise (· ≤ ·) := p.sublist (List.dropLast_sublist _)
        rwa [List.dropLast_cons_of_ne_nil (by simp)] at this
    · exact ⟨t', rfl, p⟩

/-! ## values of the remaining checks -/

theorem checkMin_val (par : List ℝ) (min : Option ℝ) (name : String) (verb : ℤ) :
    (checkMin par min name verb).val =
      .ok (match min with | none => par | some m => par.map (cut m)) := by
  unfold checkMin
  cases min with
  | none => rfl
  | some m => rw [bind_val]; rfl

theorem checkVar_val {α : Type} (var : List α) (n : ℕ) :
    (checkVar var n).val = if var.length = n then .ok var else .error .valueError := by
  unfold checkVar; split_ifs <;> rfl

/-- value of `check_inp` -/
noncomputable def inpVal (n : ℕ) (min : Option ℝ) : Option (List ℝ) → List ℝ
  | none => List.replicate n 1
  | some v => match min with | none => v | some m => v.map (cut m)

/-- the shape check of `check_inp` -/
def lenOK (n : ℕ) (o : Option (List ℝ)) : Prop := ∀ v, o = some v → v.length = n

instance (n : ℕ) (o : Option (List ℝ)) : Decidable (lenOK n o) := by
  unfold lenOK
  cases o with
  | none => exact isTrue (by simp)
  | some v => exact decidable_of_iff (v.length = n) (by simp)

theorem checkInp_val (n : ℕ) (var : Option (List ℝ)) (name : String) (min : Option ℝ) (verb : ℤ) :
    (checkInp n var name min verb).val =
      if lenOK n var then .ok (inpVal n min var) else .error .valueError := by
  cases var with
  | none =>
    have : lenOK n none := by simp [lenOK]
    rw [if_pos this]; rfl
  | some v =>
    change (checkVar v n >>= fun p => checkMin p min ("Parameter " ++ name) verb).val = _
    rw [bind_val, checkVar_val]
    by_cases h : v.length = n
    · have h' : lenOK n (some v) := by simpa [lenOK] using h
      rw [if_pos h, if_pos h']
      change (checkMin v min _ verb).val = _
      rw [checkMin_val]
      cases min <;> rfl
    · have h' : ¬ lenOK n (some v) := by simpa [lenOK] using h
      rw [if_neg h, if_neg h']; rfl

/-- value of `check_inp` for `aniso` -/
noncomputable def anisoVal (n : ℕ) (res : List ℝ) (min : ℝ) : Option (List ℝ) → List ℝ
  | none => List.replicate n 1
  | some v => List.zipWith (fun v r => Real.sqrt (v / r))
      ((List.zipWith (fun a r => a ^ 2 * r) v res).map (cut min)) res

theorem checkAniso_val (n : ℕ) (res : List ℝ) (var : Option (List ℝ)) (min : ℝ) (verb : ℤ) :
    (checkAniso n res var min verb).val =
      if lenOK n var then .ok (anisoVal n res min var) else .error .valueError := by
  cases var with
  | none =>
    have : lenOK n none := by simp [lenOK]
    rw [if_pos this]; rfl
  | some v =>
    unfold checkAniso
    rw [bind_val, checkVar_val]
    by_cases h : v.length = n
    · have h' : lenOK n (some v) := by simpa [lenOK] using h
      rw [if_pos h, if_pos h']
      change (checkMin _ _ _ _ >>= _).val = _
      rw [bind_val, checkMin_val]
      rfl
    · have h' : ¬ lenOK n (some v) := by simpa [lenOK] using h
      rw [if_neg h, if_neg h']; rfl

theorem checkExtra_val (n : ℕ) (swap : Bool) (verb : ℤ) (l : List (String × Option (List ℝ))) :
    (checkExtra n swap verb l).val =
      if ∀ p ∈ l, lenOK n p.2 then .ok (l.map fun p => (p.1, rev swap (inpVal n none p.2)))
      else .error .valueError := by
  induction l with
  | nil => simp [checkExtra]
  | cons p t ih =>
    obtain ⟨k, v⟩ := p
    unfold checkExtra
    rw [bind_val, checkInp_val]
    by_cases h : lenOK n v
    · rw [if_pos h]
      change (say _ _ >>= _).val = _
      rw [bind_val]
      change (checkExtra n swap verb t >>= _).val = _
      rw [bind_val, ih]
      by_cases h2 : ∀ p ∈ t, lenOK n p.2
      · rw [if_pos h2, if_pos (by
          intro p hp; rcases List.mem_cons.1 hp with rfl | hp
          · exact h
          · exact h2 p hp)]
        rfl
      · rw [if_neg h2, if_neg (fun h3 => h2 fun p hp => h3 p (List.mem_cons_of_mem _ hp))]
        rfl
    · rw [if_neg h, if_neg (fun h3 => h (h3 (k, v) (by simp)))]
      rfl

/-- All arrays have one entry per layer. -/
def LenOK (n : ℕ) (res : ResArg) (aniso epermH epermV mpermH mpermV : Option (List ℝ)) : Prop :=
  (ResArg.res res).length = n ∧ lenOK n aniso ∧ lenOK n epermH ∧ lenOK n epermV ∧ lenOK n mpermH ∧
    lenOK n mpermV ∧ ∀ e, ResArg.extra res = some e → ∀ p ∈ e, lenOK n p.2

/-- Result of `check_model` for depth vector `d`. -/
noncomputable def modelVal (m : Mins) (d : List EReal) (swap : Bool) (res : ResArg)
    (aniso epermH epermV mpermH mpermV : Option (List ℝ)) : ModelOut :=
  let n := d.length
  let r := (ResArg.res res).map (cut m.minRes)
  let eH := inpVal n (some 0) epermH
  let mH := inpVal n (some 0) mpermH
  let r' := rev swap r
  let an' := rev swap (anisoVal n r m.minRes aniso)
  let eH' := rev swap eH
  let eV' := rev swap (if epermV = none then eH else inpVal n (some 0) epermV)
  let mH' := rev swap mH
  let mV' := rev swap (if mpermV = none then mH else inpVal n (some 0) mpermV)
  ⟨d, r', (ResArg.extra res).map fun e => e.map fun p => (p.1, rev swap (inpVal n none p.2)), an',
    eH', eV', mH', mV', (ResArg.extra res).isNone && (allSame r' && allSame an' &&
      (allSame eH' && allSame eV') && (allSame mH' && allSame mV'))⟩

theorem checkVert_val (n : ℕ) (o : Option (List ℝ)) (eH : List ℝ) (name : String) (verb : ℤ) :
    (checkVert n o eH name verb).val =
    if lenOK n o then .ok (if o = none then eH else inpVal n (some 0) o)
    else .error .valueError := by
  cases o with
  | none =>
    have : lenOK n none := by simp [lenOK]
    rw [if_pos this]; rfl
  | some v => simp only [checkVert, checkInp_val]; simp

open Classical in
theorem checkDict_val (n : ℕ) (swap : Bool) (verb : ℤ) (full : Bool)
    (e : Option (List (String × Option (List ℝ)))) :
    (checkDict n swap verb full e).val =
      if ∀ l, e = some l → ∀ p ∈ l, lenOK n p.2 then
        .ok (e.isNone && full, e.map fun l => l.map fun p => (p.1, rev swap (inpVal n none p.2)))
      else .error .valueError := by
  cases e with
  | none => simp [checkDict]
  | some l =>
    unfold checkDict
    rw [bind_val, checkExtra_val]
    by_cases h : ∀ p ∈ l, lenOK n p.2
    · rw [if_pos h, if_pos (by rintro _ ⟨⟩; exact h)]; rfl
    · rw [if_neg h, if_neg (fun h' => h (h' l rfl))]; rfl

open Classical in
theorem checkModel_val (m : Mins) (depth : Option (List EReal)) (res : ResArg)
    (aniso epermH epermV mpermH mpermV : Option (List ℝ)) (xdirect : Option Bool) (verb : ℤ) :
    (checkModel m depth res aniso epermH epermV mpermH mpermV xdirect verb).val =
      match (checkDepth depth).val with
      | .error e => .error e
      | .ok (d, swap) =>
        if LenOK d.length res aniso epermH epermV mpermH mpermV then
          .ok (modelVal m d swap res aniso epermH epermV mpermH mpermV)
        else .error .valueError := by
  unfold checkModel
  rw [bind_val]
  cases hd : (checkDepth depth).val with
  | error e => rfl
  | ok p =>
    obtain ⟨d, swap⟩ := p
    simp only [Except.bind]
    rw [bind_val, checkVar_val]
    by_cases h1 : (ResArg.res res).length = d.length
    swap
    · rw [if_neg h1, if_neg (show ¬ LenOK d.length res aniso epermH epermV mpermH mpermV from fun h => h1 h.1)]; rfl
    rw [if_pos h1]
    simp only [Except.bind]
    rw [bind_val, checkMin_val]
    simp only [Except.bind]
    rw [bind_val, checkAniso_val]
    by_cases h2 : lenOK d.length aniso
    swap
    · rw [if_neg h2, if_neg (show ¬ LenOK d.length res aniso epermH epermV mpermH mpermV from fun h => h2 h.2.1)]; rfl
    rw [if_pos h2]
    simp only [Except.bind]
    rw [bind_val, checkInp_val]
    by_cases h3 : lenOK d.length epermH
    swap
    · rw [if_neg h3, if_neg (show ¬ LenOK d.length res aniso epermH epermV mpermH mpermV from fun h => h3 h.2.2.1)]; rfl
    rw [if_pos h3]
    simp only [Except.bind]
    rw [bind_val, checkVert_val]
    by_cases h4 : lenOK d.length epermV
    swap
    · rw [if_neg h4, if_neg (show ¬ LenOK d.length res aniso epermH epermV mpermH mpermV from fun h => h4 h.2.2.2.1)]; rfl
    rw [if_pos h4]
    simp only [Except.bind]
    rw [bind_val, checkInp_val]
    by_cases h5 : lenOK d.length mpermH
    swap
    · rw [if_neg h5, if_neg (show ¬ LenOK d.length res aniso epermH epermV mpermH mpermV from fun h => h5 h.2.2.2.2.1)]; rfl
    rw [if_pos h5]
    simp only [Except.bind]
    rw [bind_val, checkVert_val]
    by_cases h6 : lenOK d.length mpermV
    swap
    · rw [if_neg h6, if_neg (show ¬ LenOK d.length res aniso epermH epermV mpermH mpermV from fun h => h6 h.2.2.2.2.2.1)]; rfl
    rw [if_pos h6]
    simp only [Except.bind]
    rw [bind_val]
    simp only [say_val, Except.bind]
    rw [bind_val, checkDict_val]
    by_cases h7 : ∀ l, ResArg.extra res = some l → ∀ p ∈ l, lenOK d.length p.2
    swap
    · rw [if_neg h7, if_neg (show ¬ LenOK d.length res aniso epermH epermV mpermH mpermV from fun h => h7 h.2.2.2.2.2.2)]; rfl
    rw [if_pos h7, if_pos (show LenOK d.length res aniso epermH epermV mpermH mpermV from
      ⟨h1, h2, h3, h4, h5, h6, h7⟩)]
    simp only [Except.bind]
    rw [bind_val]
    simp only [say_val, Except.bind]
    rw [bind_val]
    simp only [say_val, Except.bind, pure_val, modelVal]

end Verif.Lemmas
