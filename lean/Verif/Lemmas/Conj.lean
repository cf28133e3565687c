import Verif.Model.Kernel

/-!
# Complex conjugation commutes with the kernel
-/

namespace Verif.Lemmas
open Verif.Kernel

/-- Complex conjugation. -/
local notation "σ" => (starRingEnd ℂ)

/-- Division and exponential commute with complex conjugation. -/
structure ConjOps (o : Ops) : Prop where
  div : ∀ a b, o.div (σ a) (σ b) = σ (o.div a b)
  exp : ∀ z, o.exp (σ z) = σ (o.exp z)

theorem conjOps_exact : ConjOps Ops.exact :=
  ⟨fun a b => (map_div₀ σ a b).symm, fun z => Complex.exp_conj z⟩

variable {o : Ops}

theorem xexp_conj (ho : ConjOps o) (c : ℂ) (d : EReal) : xexp o (σ c) d = σ (xexp o c d) := by
  unfold xexp
  split_ifs
  · simp
  · rw [← ho.div]; simp
  · rw [← ho.exp]; simp

/-- Conjugated loop state. -/
noncomputable def conjState (st : RState) : RState := ⟨σ st.tRef, fun i => σ (st.Ref i), st.izout⟩

theorem setAt_conj (size : ℤ) (f : ℤ → ℂ) (idx : ℤ) (v : ℂ) :
    setAt size (fun i => σ (f i)) idx (σ v) = fun i => σ (setAt size f idx v i) := by
  funext i
  unfold setAt
  simp only [Function.update_apply]
  split_ifs <;> rfl

theorem reflStep_conj (ho : ConjOps o) (depth : ℤ → EReal) (e G : ℤ → ℂ) (lrec lsrc pm minmax first size : ℤ)
    (st : RState) (iz : ℤ) :
    reflStep o depth (fun i => σ (e i)) (fun i => σ (G i)) lrec lsrc pm minmax first size (conjState st) iz =
      conjState (reflStep o depth e G lrec lsrc pm minmax first size st iz) := by
  have h1 : ∀ a b : ℂ, o.div (σ a) (σ b) = σ (o.div a b) := ho.div
  have h2 : ∀ (c : ℂ) d, xexp o (2 * σ c) d = σ (xexp o (2 * c) d) := by
    intro c d
    rw [← xexp_conj ho, map_mul, Complex.conj_ofNat]
  unfold reflStep conjState
  simp only [h2, ← map_mul, ← map_sub, ← map_add, h1]
  have h3 : ∀ a b : ℂ, o.div (σ a) (1 + σ b) = σ (o.div a (1 + b)) := by
    intro a b; rw [← h1]; simp
  simp only [h3]
  by_cases hz : iz = first
  · simp only [if_pos hz, setAt_conj]
    split_ifs <;> rfl
  · simp only [if_neg hz, setAt_conj]
    split_ifs <;> rfl

theorem reflections_conj (ho : ConjOps o) (n : ℤ) (depth : ℤ → EReal) (e G : ℤ → ℂ) (lrec lsrc : ℤ) (plus : Bool) :
    reflections o n depth (fun i => σ (e i)) (fun i => σ (G i)) lrec lsrc plus =
      fun i => σ (reflections o n depth e G lrec lsrc plus i) := by
  have h0 : σ (o.div 0 0) = o.div 0 0 := by rw [← ho.div]; simp
  have fold : ∀ (l : List ℤ) (pm minmax first size iz : ℤ),
      l.foldl (reflStep o depth (fun i => σ (e i)) (fun i => σ (G i)) lrec lsrc pm minmax first size)
        ⟨o.div 0 0, fun _ => 0, iz⟩ =
      conjState (l.foldl (reflStep o depth e G lrec lsrc pm minmax first size) ⟨o.div 0 0, fun _ => 0, iz⟩) := by
    intro l pm minmax first size iz
    have : (⟨o.div 0 0, fun _ => 0, iz⟩ : RState) = conjState ⟨o.div 0 0, fun _ => 0, iz⟩ := by
      simp [conjState, h0]
    conv_lhs => rw [this]
    exact List.foldl_hom conjState fun st x => (reflStep_conj ho depth e G lrec lsrc pm minmax first size st x)
  unfold reflections
  simp only [fold]
  generalize List.foldl _ _ _ = st
  funext i
  have h1 := congrFun (setAt_conj 1 (fun _ => 0) 0 st.tRef) i
  simp only [map_zero] at h1
  split_ifs <;> first | exact h1 | rfl

theorem fields_conj (ho : ConjOps o) (n : ℤ) (depth : ℤ → EReal) (Rp Rm G : ℤ → ℂ) (lrec lsrc : ℤ) (zs : ℝ)
    (ab : ℕ) (TM up : Bool) :
    fields o n depth (fun i => σ (Rp i)) (fun i => σ (Rm i)) (fun i => σ (G i)) lrec lsrc zs ab TM up =
      σ (fields o n depth Rp Rm G lrec lsrc zs ab TM up) := by
  have h1 : ∀ a b : ℂ, σ (o.div a b) = o.div (σ a) (σ b) := fun a b => (ho.div a b).symm
  have h2 : ∀ (c : ℂ) d, σ (xexp o c d) = xexp o (σ c) d := fun c d => (xexp_conj ho c d).symm
  have e1 : ∀ (c : Prop) [Decidable c] (a b : ℂ), σ (if c then a else b) = if c then σ a else σ b :=
    fun c _ a b => apply_ite σ c a b
  have e2 : ∀ (c : Prop) [Decidable c] (a b : ℤ → ℂ) (i : ℤ),
      (if c then (fun i => σ (a i)) else fun i => σ (b i)) i = σ ((if c then a else b) i) := by
    intro c _ a b i; split_ifs <;> rfl
  have fold : ∀ (l : List ℤ) (f g : ℂ → ℤ → ℂ) (a : ℂ), (∀ x z, g (σ x) z = σ (f x z)) →
      σ (l.foldl f a) = l.foldl g (σ a) := by
    intro l f g a h
    exact (List.foldl_hom σ (fun x z => h x z)).symm
  unfold fields
  simp only [e2]
  simp only [e1, map_zero, map_mul, map_add, map_sub, map_one, map_neg, map_ofNat, h1, h2]
  have hf : ∀ (l : List ℤ) (a : ℂ) (R : ℤ → ℂ) (isr last pup : ℤ),
      σ (l.foldl (fun P iz => if isr + iz ≠ last then
          o.div (P * ((1 + R (iz + pup)) * xexp o (G (isr + iz + pup))
            (depth (isr + iz + pup + 1) - depth (isr + iz + pup))))
            (1 + R iz * xexp o (2 * G (isr + iz)) (depth (isr + iz + 1) - depth (isr + iz)))
        else P * ((1 + R (iz + pup)) * xexp o (G (isr + iz + pup))
            (depth (isr + iz + pup + 1) - depth (isr + iz + pup)))) a) =
      l.foldl (fun P iz => if isr + iz ≠ last then
          o.div (P * ((1 + σ (R (iz + pup))) * xexp o (σ (G (isr + iz + pup)))
            (depth (isr + iz + pup + 1) - depth (isr + iz + pup))))
            (1 + σ (R iz) * xexp o (2 * σ (G (isr + iz))) (depth (isr + iz + 1) - depth (isr + iz)))
        else P * ((1 + σ (R (iz + pup))) * xexp o (σ (G (isr + iz + pup)))
            (depth (isr + iz + pup + 1) - depth (isr + iz + pup)))) (σ a) := by
    intro l a R isr last pup
    refine fold l _ _ a fun x z => ?_
    simp only [e1, map_mul, map_add, map_one, map_ofNat, h1, h2]
  simp only [hf, e1, map_zero, map_mul, map_add, map_sub, map_one, map_neg, map_ofNat, h1, h2]

theorem csqrt_conj {z : ℂ} (h : z.arg ≠ Real.pi) : csqrt (σ z) = σ (csqrt z) := by
  unfold csqrt
  rw [Complex.conj_cpow z _ h]
  congr 2
  simp [Complex.conj_ofNat]

theorem gam_conj (ho : ConjOps o) {a b c : ℂ} {lam : ℝ} (h : (o.div a b * ((lam : ℂ) * lam) + c * a).arg ≠ Real.pi) :
    gam o (σ a) (σ b) (σ c) lam = σ (gam o a b c lam) := by
  unfold gam
  rw [← csqrt_conj h, ho.div]
  congr 1
  simp

theorem green_conj (ho : ConjOps o) (n : ℤ) (depth : ℤ → EReal) (e G : ℤ → ℂ) (lrec lsrc : ℤ) (zr zs : ℝ) (ab : ℕ)
    (xd TM : Bool) :
    green o n depth (fun i => σ (e i)) (fun i => σ (G i)) lrec lsrc zr zs ab xd TM =
      σ (green o n depth e G lrec lsrc zr zs ab xd TM) := by
  have h2 : ∀ (c : ℂ) d, σ (xexp o c d) = xexp o (σ c) d := fun c d => (xexp_conj ho c d).symm
  have e1 : ∀ (c : Prop) [Decidable c] (a b : ℂ), σ (if c then a else b) = if c then σ a else σ b :=
    fun c _ a b => apply_ite σ c a b
  unfold green
  simp only [reflections_conj ho, fields_conj ho, e1, map_zero, map_mul, map_add, map_sub, map_one, map_neg, h2,
    Complex.conj_ofReal]

/-- No layer has its radicand on the negative real axis. -/
def OffCut (o : Ops) (a b c : ℤ → ℂ) (lam : ℝ) : Prop :=
  ∀ i, (o.div (a i) (b i) * ((lam : ℂ) * lam) + c i * a i).arg ≠ Real.pi

/-- The Earth with conjugated parameters. -/
noncomputable def conjEarth (E : Earth) : Earth :=
  ⟨E.nlayer, E.depth, fun i => σ (E.etaH i), fun i => σ (E.etaV i), fun i => σ (E.zetaH i), fun i => σ (E.zetaV i)⟩

theorem greenfct_conj0 (ho : ConjOps o) (E : Earth) (zs zr : ℝ) (ls lr : ℤ) (lam : ℝ) (ab : ℕ) (xd : Bool)
    (h1 : OffCut o E.etaH E.etaV E.zetaH lam) (h2 : OffCut o E.zetaH E.zetaV E.etaH lam) :
    greenfct o (conjEarth E) zs zr ls lr lam ab xd false false =
      (σ (greenfct o E zs zr ls lr lam ab xd false false).1, σ (greenfct o E zs zr ls lr lam ab xd false false).2) := by
  have hd : ∀ a b : ℂ, σ (o.div a b) = o.div (σ a) (σ b) := fun a b => (ho.div a b).symm
  have g1 : ∀ i, gam o (σ (E.etaH i)) (σ (E.etaV i)) (σ (E.zetaH i)) lam = σ (gam o (E.etaH i) (E.etaV i) (E.zetaH i) lam) :=
    fun i => gam_conj ho (h1 i)
  have g2 : ∀ i, gam o (σ (E.zetaH i)) (σ (E.zetaV i)) (σ (E.etaH i)) lam =
      σ (gam o (E.zetaH i) (E.zetaV i) (E.etaH i) lam) := fun i => gam_conj ho (h2 i)
  unfold greenfct
  simp only [conjEarth, Bool.false_and, Bool.false_eq_true, if_false, g1, g2, green_conj ho]
  split_ifs <;> simp only [map_mul, hd, map_neg, map_zero]

/-- The Earth seen by a magnetic receiver of a magnetic source. -/
noncomputable def dualEarth (E : Earth) : Earth :=
  ⟨E.nlayer, E.depth, fun i => -E.zetaH i, fun i => -E.zetaV i, fun i => -E.etaH i, fun i => -E.etaV i⟩

theorem greenfct_conj (ho : ConjOps o) (E : Earth) (zs zr : ℝ) (ls lr : ℤ) (lam : ℝ) (ab : ℕ) (xd ms mr : Bool)
    (h1 : OffCut o E.etaH E.etaV E.zetaH lam) (h2 : OffCut o E.zetaH E.zetaV E.etaH lam)
    (h3 : OffCut o (fun i => -E.etaH i) (fun i => -E.etaV i) (fun i => -E.zetaH i) lam)
    (h4 : OffCut o (fun i => -E.zetaH i) (fun i => -E.zetaV i) (fun i => -E.etaH i) lam) :
    greenfct o (conjEarth E) zs zr ls lr lam ab xd ms mr =
      (σ (greenfct o E zs zr ls lr lam ab xd ms mr).1, σ (greenfct o E zs zr ls lr lam ab xd ms mr).2) := by
  cases mr
  · exact greenfct_conj0 ho E zs zr ls lr lam ab xd h1 h2
  cases ms
  · exact greenfct_conj0 ho E zr zs lr ls lam ab xd h1 h2
  have e : dualEarth (conjEarth E) = conjEarth (dualEarth E) := by simp [dualEarth, conjEarth]
  have h := greenfct_conj0 ho (dualEarth E) zs zr ls lr lam ab xd h4 h3
  rw [← e] at h
  exact h

theorem wavenumber_conj (ho : ConjOps o) (E : Earth) (zs zr : ℝ) (ls lr : ℤ) (lam : ℝ) (ab : ℕ) (xd ms mr : Bool)
    (h1 : OffCut o E.etaH E.etaV E.zetaH lam) (h2 : OffCut o E.zetaH E.zetaV E.etaH lam)
    (h3 : OffCut o (fun i => -E.etaH i) (fun i => -E.etaV i) (fun i => -E.zetaH i) lam)
    (h4 : OffCut o (fun i => -E.zetaH i) (fun i => -E.zetaV i) (fun i => -E.etaH i) lam) :
    wavenumber o (conjEarth E) zs zr ls lr lam ab xd ms mr =
      ((wavenumber o E zs zr ls lr lam ab xd ms mr).1.map σ, (wavenumber o E zs zr ls lr lam ab xd ms mr).2.1.map σ,
       (wavenumber o E zs zr ls lr lam ab xd ms mr).2.2.map σ) := by
  have hd : ∀ a b : ℂ, σ (o.div a b) = o.div (σ a) (σ b) := fun a b => (ho.div a b).symm
  have e1 : ∀ (c : Prop) [Decidable c] (a b : ℂ), σ (if c then a else b) = if c then σ a else σ b :=
    fun c _ a b => apply_ite σ c a b
  have e2 : ∀ (c : Prop) [Decidable c], Option.map σ (if c then some (0 : ℂ) else none) = if c then some 0 else none := by
    intro c _; split_ifs <;> simp
  unfold wavenumber
  simp only [greenfct_conj ho E zs zr ls lr lam ab xd ms mr h1 h2 h3 h4]
  split_ifs <;> simp only [Option.map_some, Option.map_none, map_mul, map_add, map_sub, map_neg, hd, map_one, map_zero,
    Complex.conj_ofReal, Complex.conj_ofNat, map_div₀]

end Verif.Lemmas
