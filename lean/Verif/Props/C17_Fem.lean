import Verif.Model.Fem
import Mathlib.Data.List.GetD

/-!
# C17 — the loop option never changes results
-/

namespace Verif.Props
open Verif.Model Verif.Kernel

/-- A Hankel transform that treats frequencies and offsets one by one: values given by `c`,
converged if every pair is (`k`). -/
structure Elementwise {α : Type} (hank : Calc α) (c : Bool → α → ℝ × ℝ → ℂ)
    (k : Bool → α → ℝ × ℝ → Bool) : Prop where
  val : ∀ xd rows offs i j (hi : i < rows.length) (hj : j < offs.length),
    (hank xd rows offs).val i j = c xd rows[i] offs[j]
  conv : ∀ xd rows offs, (hank xd rows offs).conv = true ↔ ∀ a ∈ rows, ∀ b ∈ offs, k xd a b = true

/-- The direct field is added analytically. -/
def Direct (xdirect : Option Bool) (isfullspace same : Bool) : Prop :=
  xdirect = some true ∧ (isfullspace = true ∨ same = true)

/-- The wavenumber-domain calculation is skipped. -/
def Skipped (ab : ℕ) (xdirect : Option Bool) (isfullspace : Bool) : Prop :=
  ab = 36 ∨ (isfullspace = true ∧ xdirect ≠ some false)

variable {α : Type} {hank : Calc α} {c : Bool → α → ℝ × ℝ → ℂ} {k : Bool → α → ℝ × ℝ → Bool}

theorem freqLoop (hc : Elementwise hank c k) (xd : Bool) (offs : List (ℝ × ℝ)) :
    ∀ (rows : List α) (n : ℕ) (st : HankelOut),
    let st' := (rows.zipIdx n).foldl (freqStep hank xd offs) st
    (∀ i j (hi : i < rows.length) (hj : j < offs.length),
      st'.val (n + i) j = st.val (n + i) j + c xd rows[i] offs[j]) ∧
    (∀ i j, i < n → st'.val i j = st.val i j) ∧
    (st'.conv = true ↔ st.conv = true ∧ ∀ a ∈ rows, ∀ b ∈ offs, k xd a b = true) := by
  intro rows
  induction rows with
  | nil => intro n st; exact ⟨fun i j hi => absurd hi (by simp), fun _ _ _ => rfl, by simp⟩
  | cons a t ih =>
    intro n st
    simp only [List.zipIdx_cons, List.foldl_cons]
    obtain ⟨i1, i2, i3⟩ := ih (n + 1) (freqStep hank xd offs st (a, n))
    refine ⟨fun i j hi hj => ?_, fun i j hi => ?_, ?_⟩
    · cases i with
      | zero =>
        simp only [Nat.add_zero]
        rw [i2 n j (by omega)]
        have := hc.val xd [a] offs 0 j (by simp) hj
        simp only [freqStep, if_true, this, List.getElem_cons_zero]
      | succ i =>
        have := i1 i j (by simpa using hi) hj
        rw [show n + (i + 1) = n + 1 + i by omega, this]
        have hne : ¬ n + 1 + i = n := by omega
        simp only [freqStep, hne, if_false, List.getElem_cons_succ]
    · rw [i2 i j (by omega)]
      have hne : ¬ i = n := by omega
      simp only [freqStep, hne, if_false]
    · rw [i3]
      simp only [freqStep, Bool.and_eq_true, hc.conv]
      constructor
      · rintro ⟨⟨h1, h2⟩, h3⟩
        refine ⟨h1, fun x hx => ?_⟩
        rcases List.mem_cons.1 hx with rfl | hx
        · exact h2 x (by simp)
        · exact h3 x hx
      · rintro ⟨h1, h2⟩
        refine ⟨⟨h1, fun x hx => ?_⟩, fun x hx => h2 x (List.mem_cons_of_mem _ hx)⟩
        rw [List.mem_singleton.1 hx]
        exact h2 a (by simp)

theorem offLoop (hc : Elementwise hank c k) (xd : Bool) (rows : List α) :
    ∀ (offs : List (ℝ × ℝ)) (n : ℕ) (st : HankelOut),
    let st' := (offs.zipIdx n).foldl (offStep hank xd rows) st
    (∀ i j (hi : i < rows.length) (hj : j < offs.length),
      st'.val i (n + j) = st.val i (n + j) + c xd rows[i] offs[j]) ∧
    (∀ i j, j < n → st'.val i j = st.val i j) ∧
    (st'.conv = true ↔ st.conv = true ∧ ∀ b ∈ offs, ∀ a ∈ rows, k xd a b = true) := by
  intro offs
  induction offs with
  | nil => intro n st; exact ⟨fun i j _ hj => absurd hj (by simp), fun _ _ _ => rfl, by simp⟩
  | cons a t ih =>
    intro n st
    simp only [List.zipIdx_cons, List.foldl_cons]
    obtain ⟨i1, i2, i3⟩ := ih (n + 1) (offStep hank xd rows st (a, n))
    refine ⟨fun i j hi hj => ?_, fun i j hj => ?_, ?_⟩
    · cases j with
      | zero =>
        simp only [Nat.add_zero]
        rw [i2 i n (by omega)]
        have := hc.val xd rows [a] i 0 hi (by simp)
        simp only [offStep, if_true, this, List.getElem_cons_zero]
      | succ j =>
        have := i1 i j hi (by simpa using hj)
        rw [show n + (j + 1) = n + 1 + j by omega, this]
        have hne : ¬ n + 1 + j = n := by omega
        simp only [offStep, hne, if_false, List.getElem_cons_succ]
    · rw [i2 i j (by omega)]
      have hne : ¬ j = n := by omega
      simp only [offStep, hne, if_false]
    · rw [i3]
      simp only [offStep, Bool.and_eq_true, hc.conv]
      constructor
      · rintro ⟨⟨h1, h2⟩, h3⟩
        refine ⟨h1, fun x hx => ?_⟩
        rcases List.mem_cons.1 hx with rfl | hx
        · exact fun y hy => h2 y hy x (by simp)
        · exact h3 x hx
      · rintro ⟨h1, h2⟩
        refine ⟨⟨h1, fun y hy x hx => ?_⟩, fun x hx => h2 x (List.mem_cons_of_mem _ hx)⟩
        rw [List.mem_singleton.1 hx]
        exact h2 a (by simp) y hy

open Classical in
/-- **C17.**  For every loop setting, every frequency `i` and every offset `j`: the value is the
analytical direct field (if requested and source and receiver share a layer or the model is a
fullspace) plus the transform of the kernel for this frequency and this offset (unless the code is
36, or the model is a fullspace and the direct field is not to come from the kernel); the flag is
raised exactly if all transforms that were carried out have converged. -/
theorem C17_fem (hc : Elementwise hank c k) (full : ℕ → ℕ → ℂ) (ab : ℕ) (offs : List (ℝ × ℝ))
    (rows : List α) (same : Bool) (xdirect : Option Bool) (isfullspace msrc mrec : Bool)
    (loopFreq loopOff conv : Bool) :
    let out := fem hank full ab offs rows same xdirect isfullspace msrc mrec loopFreq loopOff conv
    let pt := fun b : ℝ × ℝ => (b.1, angleFactor b.2 ab msrc mrec)
    (∀ i j (hi : i < rows.length) (hj : j < offs.length), out.val i j =
      (if ab ≠ 36 ∧ Direct xdirect isfullspace same then full i j else 0) +
      (if Skipped ab xdirect isfullspace then 0
        else c (xdirect.getD true) rows[i] (pt offs[j]))) ∧
    (out.conv = true ↔ conv = true ∧ (¬ Skipped ab xdirect isfullspace →
      ∀ a ∈ rows, ∀ b ∈ offs, k (xdirect.getD true) a (pt b) = true)) := by
  intro out pt
  have hout : out = fem hank full ab offs rows same xdirect isfullspace msrc mrec loopFreq loopOff
    conv := rfl
  unfold fem at hout
  by_cases h36 : ab = 36
  · have hs : Skipped ab xdirect isfullspace := Or.inl h36
    simp only [h36, List.mem_singleton, if_true] at hout
    rw [hout]
    exact ⟨fun i j _ _ => by simp [Skipped, h36], by simp [Skipped, h36]⟩
  · have h36' : ¬ ab ∈ [36] := by simpa using h36
    simp only [h36', if_false] at hout
    have hD : ∀ i j, (if xdirect = some true ∧ (isfullspace = true ∨ same = true) then
        fun i j => (0 : ℂ) + full i j else fun _ _ => 0) i j =
        if ab ≠ 36 ∧ Direct xdirect isfullspace same then full i j else 0 := by
      intro i j
      by_cases h : xdirect = some true ∧ (isfullspace = true ∨ same = true)
      · have h' : ab ≠ 36 ∧ Direct xdirect isfullspace same := ⟨h36, h⟩
        rw [if_pos h, if_pos h', zero_add]
      · have h' : ¬ (ab ≠ 36 ∧ Direct xdirect isfullspace same) := fun q => h q.2
        rw [if_neg h, if_neg h']
    by_cases hsk : (isfullspace && xdirect.getD true) = true
    · have hs : Skipped ab xdirect isfullspace := by
        right
        rw [Bool.and_eq_true] at hsk
        refine ⟨hsk.1, ?_⟩
        rintro rfl
        exact absurd hsk.2 (by simp)
      simp only [hsk, if_true] at hout
      rw [hout]
      refine ⟨fun i j _ _ => ?_, by simp [hs]⟩
      rw [if_pos hs, add_zero]
      exact hD i j
    · have hs : ¬ Skipped ab xdirect isfullspace := by
        rintro (h | ⟨h1, h2⟩)
        · exact h36 h
        · apply hsk
          rw [h1]
          cases xdirect with
          | none => rfl
          | some x => cases x <;> simp_all
      simp only [hsk, if_false, Bool.false_eq_true] at hout
      simp only [hs, if_false, not_false_eq_true, forall_const]
      by_cases hf : loopFreq = true
      · simp only [hf, if_true] at hout
        obtain ⟨i1, -, i3⟩ := freqLoop hc (xdirect.getD true)
          (offs.map fun p => (p.1, angleFactor p.2 ab msrc mrec)) rows 0
          ⟨if xdirect = some true ∧ (isfullspace = true ∨ same = true) then
            fun i j => (0 : ℂ) + full i j else fun _ _ => 0, 0, conv⟩
        rw [hout]
        refine ⟨fun i j hi hj => ?_, ?_⟩
        · have := i1 i j hi (by simpa using hj)
          rw [zero_add] at this
          rw [← hD i j]
          rw [this]
          simp [pt]
        · refine i3.trans ?_
          simp only [List.forall_mem_map, pt]
      · simp only [hf, Bool.false_eq_true, if_false] at hout
        by_cases ho : loopOff = true
        · simp only [ho, if_true] at hout
          obtain ⟨i1, -, i3⟩ := offLoop hc (xdirect.getD true) rows
            (offs.map fun p => (p.1, angleFactor p.2 ab msrc mrec)) 0
            ⟨if xdirect = some true ∧ (isfullspace = true ∨ same = true) then
            fun i j => (0 : ℂ) + full i j else fun _ _ => 0, 0, conv⟩
          rw [hout]
          refine ⟨fun i j hi hj => ?_, ?_⟩
          · have := i1 i j hi (by simpa using hj)
            rw [zero_add] at this
            rw [← hD i j]
            rw [this]
            simp [pt]
          · refine i3.trans ?_
            simp only [List.forall_mem_map, pt]
            exact and_congr_right fun _ => ⟨fun h a ha b hb => h b hb a ha, fun h b hb a ha => h a ha b hb⟩
        · simp only [ho, Bool.false_eq_true, if_false] at hout
          rw [hout]
          refine ⟨fun i j hi hj => ?_, ?_⟩
          · simp only
            rw [hD i j, hc.val _ _ _ i j hi (by simpa using hj)]
            simp [pt]
          · simp only [Bool.and_eq_true, hc.conv, List.forall_mem_map, pt]

/-- The loops differ in nothing but the number of kernel calls. -/
theorem C17_loops (hc : Elementwise hank c k) (full : ℕ → ℕ → ℂ) (ab : ℕ) (offs : List (ℝ × ℝ))
    (rows : List α) (same : Bool) (xdirect : Option Bool) (isfullspace msrc mrec : Bool)
    (lf lo lf' lo' conv : Bool) :
    let out := fem hank full ab offs rows same xdirect isfullspace msrc mrec lf lo conv
    let out' := fem hank full ab offs rows same xdirect isfullspace msrc mrec lf' lo' conv
    (∀ i j, i < rows.length → j < offs.length → out.val i j = out'.val i j) ∧
    out.conv = out'.conv := by
  intro out out'
  obtain ⟨a1, a2⟩ := C17_fem hc full ab offs rows same xdirect isfullspace msrc mrec lf lo conv
  obtain ⟨b1, b2⟩ := C17_fem hc full ab offs rows same xdirect isfullspace msrc mrec lf' lo' conv
  refine ⟨fun i j hi hj => (a1 i j hi hj).trans (b1 i j hi hj).symm, ?_⟩
  have : out.conv = true ↔ out'.conv = true := a2.trans b2.symm
  cases h : out.conv <;> cases h' : out'.conv <;> simp_all

theorem freqCount (h1 : ∀ xd r o, (hank xd r o).kcount = 1) (xd : Bool) (offs : List (ℝ × ℝ)) :
    ∀ (rows : List α) (n : ℕ) (st : HankelOut),
    ((rows.zipIdx n).foldl (freqStep hank xd offs) st).kcount = st.kcount + rows.length := by
  intro rows
  induction rows with
  | nil => intro n st; simp
  | cons a t ih =>
    intro n st
    simp only [List.zipIdx_cons, List.foldl_cons, List.length_cons]
    rw [ih]
    simp only [freqStep, h1]
    omega

theorem offCount (h1 : ∀ xd r o, (hank xd r o).kcount = 1) (xd : Bool) (rows : List α) :
    ∀ (offs : List (ℝ × ℝ)) (n : ℕ) (st : HankelOut),
    ((offs.zipIdx n).foldl (offStep hank xd rows) st).kcount = st.kcount + offs.length := by
  intro offs
  induction offs with
  | nil => intro n st; simp
  | cons a t ih =>
    intro n st
    simp only [List.zipIdx_cons, List.foldl_cons, List.length_cons]
    rw [ih]
    simp only [offStep, h1]
    omega

open Classical in
/-- The kernel count of a transform that counts 1 per call is the number of calls. -/
theorem C17_kcount (h1 : ∀ xd r o, (hank xd r o).kcount = 1) (full : ℕ → ℕ → ℂ) (ab : ℕ)
    (offs : List (ℝ × ℝ)) (rows : List α) (same : Bool) (xdirect : Option Bool)
    (isfullspace msrc mrec : Bool) (lf lo conv : Bool) :
    (fem hank full ab offs rows same xdirect isfullspace msrc mrec lf lo conv).kcount =
      if Skipped ab xdirect isfullspace then 0
      else if lf then rows.length else if lo then offs.length else 1 := by
  unfold fem
  by_cases hab : ab = 36
  · simp [Skipped, hab]
  · have hS : Skipped ab xdirect isfullspace ↔ (isfullspace && xdirect.getD true) = true := by
      cases xdirect with
      | none => simp [Skipped, hab]
      | some b => cases b <;> simp [Skipped, hab]
    simp only [List.mem_singleton, hab, if_false, hS]
    by_cases hs : (isfullspace && xdirect.getD true) = true
    · rw [if_pos hs, if_pos hs]
    · rw [if_neg hs, if_neg hs]
      cases lf
      · cases lo
        · simp [h1]
        · simp only [Bool.false_eq_true, if_false, if_true]
          rw [offCount h1]; simp
      · simp only [if_true]
        rw [freqCount h1]; simp

/-- The option is only honoured for the standard digital filter method; at most one of the two
loops is selected. -/
theorem C17_check_loop (loop : Option String) (ht : String) (pts : ℝ) :
    ¬ ((checkLoop loop ht pts).1 = true ∧ (checkLoop loop ht pts).2 = true) ∧
    ((ht = "qwe" ∨ ht = "quad" ∨ (ht = "dlf" ∧ pts ≠ 0)) → checkLoop loop ht pts = (true, false)) ∧
    (ht = "dlf" → pts = 0 → ((checkLoop loop ht pts).1 = true ↔ loop = some "freq") ∧
      ((checkLoop loop ht pts).2 = true ↔ loop = some "off")) := by
  unfold checkLoop
  refine ⟨?_, ?_, ?_⟩
  · simp only
    split_ifs
    · simp
    · rintro ⟨h1, h2⟩
      simp only [decide_eq_true_eq] at h1 h2
      rw [h1] at h2
      exact absurd h2 (by decide)
  · intro h
    simp only
    rw [if_pos]
    rcases h with h | h | h
    · exact Or.inl h
    · exact Or.inr (Or.inl h)
    · exact Or.inr (Or.inr (by simpa using h))
  · rintro rfl rfl
    simp

/-- An element-wise transform and a non-trivial case: fullspace model, direct field from the kernel,
loop over offsets. -/
example (full : ℕ → ℕ → ℂ) :
    (fem (α := ℂ) (fun _ rows offs => ⟨fun i j => rows.getD i 0 * ((offs.getD j (0, 0)).1 : ℂ), 1, true⟩)
      full 33 [(5, 0), (7, 1)] [2, 3] true (some false) true false false false true true).val 1 1 =
      21 := by
  have hc : Elementwise (α := ℂ) (fun _ rows offs =>
      ⟨fun i j => rows.getD i 0 * ((offs.getD j (0, 0)).1 : ℂ), 1, true⟩)
      (fun _ a b => a * (b.1 : ℂ)) (fun _ _ _ => true) :=
    ⟨fun xd rows offs i j hi hj => by
      simp only [List.getD_eq_getElem _ _ hi, List.getD_eq_getElem _ _ hj], fun _ _ _ => by simp⟩
  have := (C17_fem hc full 33 [(5, 0), (7, 1)] [2, 3] true (some false) true false false false true
    true).1 1 1 (by simp) (by simp)
  rw [this]
  simp [Direct, Skipped]
  norm_num

end Verif.Props
