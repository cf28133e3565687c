import Verif.Props.C49_Gpr

/-!
# C50: the Fourier transform with quadrature and extrapolation
-/

namespace Verif.Props
open Verif.Py Verif.Py.W Verif.Utils Verif.Spec Verif.Model Verif.Kernel Verif.Lemmas Verif.Transform Verif.Time
open Verif.Args

/-! ## Specification -/

/-- The quadrature rule `Q` for the integral of `h` from `a` to `b`. -/
noncomputable def ruleOn (Q : Waveform.Quad) (h : ℝ → ℝ) (a b : ℝ) : ℝ :=
  (b - a) / 2 * ∑ q ∈ Finset.range Q.n, Q.w q * h ((b - a) / 2 * (Q.x q + 1) + a)

/-- Integrand of the sine or cosine transform at time `t` as function of the angular frequency; `g` is the response
as function of its logarithm. -/
noncomputable def sincosAt (sine : Bool) (g : ℝ → ℝ) (t w : ℝ) : ℝ :=
  g (Real.log w) * (if sine then Real.sin (w * t) else Real.cos (w * t))

/-- Integral over interval `m` (between two zeros of sine or cosine, the first one from 1e-20) with the rule. -/
noncomputable def overInterval (sine : Bool) (Q : Waveform.Quad) (g : ℝ → ℝ) (t : ℝ) (m : ℕ) : ℝ :=
  ruleOn Q (sincosAt sine g t) (qweInt sine m / t) (qweInt sine (m + 1) / t)

/-! ## What is added up -/

theorem qweCol_eq {sine : Bool} {Q : Waveform.Quad} {g : ℝ → ℝ} {t : ℝ} (ht : 0 < t) {m q : ℕ} (hq : q < Q.n) :
    qweCol sine Q g t (m * Q.n + q) = Q.w q * sincosAt sine g t
      ((qweInt sine (m + 1) / t - qweInt sine m / t) / 2 * (Q.x q + 1) + qweInt sine m / t) := by
  have e1 : (m * Q.n + q) / Q.n = m := by
    rw [Nat.add_comm, Nat.add_mul_div_right _ _ (by omega), Nat.div_eq_of_lt hq, Nat.zero_add]
  have e2 : (m * Q.n + q) % Q.n = q := by
    rw [Nat.add_comm, Nat.add_mul_mod_self_right, Nat.mod_eq_of_lt hq]
  have e3 : qweBx sine m (Q.x q) / t =
      (qweInt sine (m + 1) / t - qweInt sine m / t) / 2 * (Q.x q + 1) + qweInt sine m / t := by
    unfold qweBx; ring
  unfold qweCol sincosAt
  simp only [e1, e2, ← e3, div_mul_cancel₀ _ ht.ne']
  ring

theorem qweInt_step (sine : Bool) (m : ℕ) (hm : 1 ≤ m) : qweInt sine (m + 1) - qweInt sine m = Real.pi := by
  unfold qweInt
  have h0 : ¬ m = 0 := by omega
  have h1 : ¬ m + 1 = 0 := by omega
  rw [if_neg h0, if_neg h1]
  cases sine <;> push_cast <;> ring

theorem overInterval_eq {sine : Bool} {Q : Waveform.Quad} {g : ℝ → ℝ} {t : ℝ} (ht : 0 < t) (m : ℕ) :
    overInterval sine Q g t m = ∑ q ∈ Finset.range Q.n, qweCol sine Q g t (m * Q.n + q) *
      ((qweInt sine (m + 1) / t - qweInt sine m / t) / 2) := by
  unfold overInterval ruleOn
  rw [Finset.mul_sum]
  refine Finset.sum_congr rfl fun q hq => ?_
  rw [qweCol_eq ht (Finset.mem_range.1 hq)]
  ring

/-- **C50, what is added up.**  The terms that are extrapolated are single points, not intervals; `nquad` of them are
the quadrature over one interval, except that all points but one of the first interval get half of π as length
of their interval. -/
theorem C50_sum {sine : Bool} {Q : Waveform.Quad} (hQ : 0 < Q.n) (g : ℝ → ℝ) {t : ℝ} (ht : 0 < t) (m : ℕ) :
    ∑ i ∈ Finset.range ((m + 1) * Q.n), qweTerm sine Q g t i = ∑ j ∈ Finset.range (m + 1), overInterval sine Q g t j +
      (Real.pi - (qweInt sine 1 - qweInt sine 0)) / (2 * t) *
        ∑ q ∈ Finset.range (Q.n - 1), qweCol sine Q g t (q + 1) := by
  induction m with
  | zero =>
    obtain ⟨n, hn⟩ : ∃ n, Q.n = n + 1 := ⟨Q.n - 1, by omega⟩
    have hc : ∀ q, 0 * Q.n + q = q := fun q => by omega
    rw [Finset.sum_range_one, overInterval_eq ht]
    simp only [hc, Nat.zero_add, Nat.one_mul]
    rw [hn, Nat.add_sub_cancel, Finset.sum_range_succ', Finset.sum_range_succ' _ n, Finset.mul_sum]
    have : ∀ q, qweTerm sine Q g t (q + 1) = qweCol sine Q g t (q + 1) * (Real.pi / (2 * t)) := by
      intro q
      unfold qweTerm
      rw [← qweInt_step sine (q + 1) (by omega)]
      ring
    simp only [this]
    have e0 : qweTerm sine Q g t 0 = qweCol sine Q g t 0 * ((qweInt sine 1 / t - qweInt sine 0 / t) / 2) := rfl
    rw [e0, ← add_right_comm]
    congr 1
    rw [← Finset.sum_add_distrib]
    refine Finset.sum_congr rfl fun q _ => ?_
    field_simp
    ring
  | succ m ih =>
    rw [Nat.add_mul (m + 1) 1, Nat.one_mul, Finset.sum_range_add, ih, Finset.sum_range_succ _ (m + 1), overInterval_eq ht]
    have : ∀ q, qweTerm sine Q g t ((m + 1) * Q.n + q) = qweCol sine Q g t ((m + 1) * Q.n + q) *
        ((qweInt sine (m + 1 + 1) / t - qweInt sine (m + 1) / t) / 2) := by
      intro q
      unfold qweTerm
      congr 1
      rw [← sub_div, ← sub_div, qweInt_step sine _ (by nlinarith), qweInt_step sine _ (by omega)]
    simp only [this]
    ring

/-- **C50, sine transform.**  There the difference is negligible. -/
theorem C50_sine {Q : Waveform.Quad} (hQ : 0 < Q.n) (g : ℝ → ℝ) {t : ℝ} (ht : 0 < t) (m : ℕ) :
    |∑ i ∈ Finset.range ((m + 1) * Q.n), qweTerm true Q g t i -
      ∑ j ∈ Finset.range (m + 1), overInterval true Q g t j| ≤
      1e-20 / (2 * t) * ∑ q ∈ Finset.range (Q.n - 1), |qweCol true Q g t (q + 1)| := by
  rw [C50_sum hQ g ht, add_sub_cancel_left, abs_mul]
  have e : Real.pi - (qweInt true 1 - qweInt true 0) = 1e-20 := by simp [qweInt]
  rw [e, abs_of_pos (by positivity)]
  exact mul_le_mul_of_nonneg_left (Finset.abs_sum_le_sum_abs _ _) (by positivity)

/-- **C50, violated for the cosine transform.**  The first interval is half as long as the others, but all its points
but the first are given the length of the others: for a positive response the sum over the first interval is
too large by these points once more. -/
theorem C50_cosine_violated {Q : Waveform.Quad} (hQ : 1 < Q.n) (hx : ∀ q < Q.n, -1 < Q.x q ∧ Q.x q < 1)
    (hw : ∀ q < Q.n, 0 < Q.w q) {g : ℝ → ℝ} (hg : ∀ y, 0 < g y) {t : ℝ} (ht : 0 < t) :
    overInterval false Q g t 0 + (overInterval false Q g t 0 - qweTerm false Q g t 0) <
      ∑ i ∈ Finset.range Q.n, qweTerm false Q g t i ∧
    qweTerm false Q g t 0 < overInterval false Q g t 0 := by
  have hs := C50_sum (sine := false) (Q := Q) (by omega) g ht 0
  have hc : ∀ q, 0 * Q.n + q = q := fun q => by omega
  simp only [Nat.zero_add, Nat.one_mul, Finset.sum_range_one] at hs
  have hi := overInterval_eq (sine := false) (Q := Q) (g := g) ht 0
  simp only [hc] at hi
  have hpi := Real.pi_gt_three
  have i1 : qweInt false 1 = Real.pi / 2 := by simp [qweInt]; ring
  have i0 : qweInt false 0 = 1e-20 := by simp [qweInt]
  have hpos : ∀ q < Q.n, 0 < qweCol false Q g t q := by
    intro q hq
    have := qweCol_eq (sine := false) (g := g) ht (m := 0) hq
    rw [hc] at this
    rw [this]
    refine mul_pos (hw q hq) (mul_pos (hg _) ?_)
    rw [if_neg (by simp)]
    refine Real.cos_pos_of_mem_Ioo ⟨?_, ?_⟩
    · rw [i1, i0]
      have := (hx q hq).1
      have h1 : 0 < (Real.pi / 2 / t - 1e-20 / t) / 2 * (Q.x q + 1) := by
        refine mul_pos (half_pos (sub_pos.2 ?_)) (by linarith)
        exact div_lt_div_of_pos_right (by linarith) ht
      have h2 : 0 < ((Real.pi / 2 / t - 1e-20 / t) / 2 * (Q.x q + 1) + 1e-20 / t) * t := by positivity
      linarith
    · rw [i1, i0]
      have e : ((Real.pi / 2 / t - 1e-20 / t) / 2 * (Q.x q + 1) + 1e-20 / t) * t =
          (Real.pi / 2 - 1e-20) / 2 * (Q.x q + 1) + 1e-20 := by field_simp
      rw [e]
      nlinarith [(hx q hq).2]
  obtain ⟨n, hn⟩ : ∃ n, Q.n = n + 1 := ⟨Q.n - 1, by omega⟩
  rw [hn, Finset.sum_range_succ'] at hi
  rw [hn, Nat.add_sub_cancel] at hs
  have hP : 0 < ∑ q ∈ Finset.range n, qweCol false Q g t (q + 1) :=
    Finset.sum_pos (fun q hq => hpos _ (by have := Finset.mem_range.1 hq; omega)) ⟨0, Finset.mem_range.2 (by omega)⟩
  have e0 : qweTerm false Q g t 0 = qweCol false Q g t 0 * ((qweInt false 1 / t - qweInt false 0 / t) / 2) := rfl
  rw [← Finset.sum_mul, ← e0] at hi
  have hh : 0 < (qweInt false 1 / t - qweInt false 0 / t) / 2 := by
    rw [i1, i0]
    exact half_pos (sub_pos.2 (div_lt_div_of_pos_right (by linarith) ht))
  have e1 : (qweInt false (0 + 1) / t - qweInt false 0 / t) / 2 = (qweInt false 1 / t - qweInt false 0 / t) / 2 := rfl
  rw [e1] at hi
  refine ⟨?_, by rw [hi]; nlinarith [mul_pos hP hh]⟩
  rw [hn, hs]
  have : (qweInt false 1 / t - qweInt false 0 / t) / 2 < (Real.pi - (qweInt false 1 - qweInt false 0)) / (2 * t) := by
    rw [← sub_div, div_div, mul_comm t 2]
    refine div_lt_div_of_pos_right ?_ (by positivity)
    rw [i1, i0]; linarith
  nlinarith

/-! ## What the result depends on -/

theorem qweStep_congr (p : QPar) {t t' : ℕ → ℂ} {i : ℕ} (hi : t i = t' i) (h0 : t 0 = t' 0) (e : QEntry) :
    qweStep p t i e = qweStep p t' i e := by
  unfold qweStep
  rw [hi, h0]

theorem qweLoop_congr (p : QPar) {n M : ℕ} {t t' : ℕ → ℕ → ℂ} (h : ∀ j < n, ∀ i < M, t j i = t' j i) :
    ∀ (left i : ℕ) (e e' : ℕ → QEntry), i + left ≤ M → 0 < M → (∀ j < n, e j = e' j) →
      (qweLoop p n t left i e).2 = (qweLoop p n t' left i e').2 ∧
      ∀ j < n, (qweLoop p n t left i e).1 j = (qweLoop p n t' left i e').1 j := by
  intro left
  induction left with
  | zero => intro i e e' _ _ he; exact ⟨rfl, he⟩
  | succ left ih =>
    intro i e e' hi hM he
    have hs : ∀ j < n, qweStep p (t j) i (e j) = qweStep p (t' j) i (e' j) := fun j hj => by
      rw [he j hj]
      exact qweStep_congr p (h j hj i (by omega)) (h j hj 0 hM) _
    have hall : ((List.range n).all fun j => !(qweStep p (t j) i (e j)).om) =
        (List.range n).all fun j => !(qweStep p (t' j) i (e' j)).om := by
      rw [Bool.eq_iff_iff, List.all_eq_true, List.all_eq_true]
      constructor <;> intro hx j hj
      · rw [← hs j (List.mem_range.1 hj)]; exact hx j hj
      · rw [hs j (List.mem_range.1 hj)]; exact hx j hj
    simp only [qweLoop, hall]
    split
    · exact ⟨rfl, hs⟩
    · exact ih (i + 1) _ _ (by omega) hM hs

theorem qwe_congr (p : QPar) {n M : ℕ} {t t' : ℕ → ℕ → ℂ} (h : ∀ j < n, ∀ i < M, t j i = t' j i) :
    (∀ j < n, ((qwe p M n t).getD (fun _ => 0, 0, true)).1 j = ((qwe p M n t').getD (fun _ => 0, 0, true)).1 j) ∧
    ((qwe p M n t).getD (fun _ => 0, 0, true)).2 = ((qwe p M n t').getD (fun _ => 0, 0, true)).2 := by
  unfold qwe
  split
  · exact ⟨fun _ _ => rfl, rfl⟩
  · obtain ⟨h2, h1⟩ := qweLoop_congr p h (M - 1) 1 (fun _ => qweInit) (fun _ => qweInit) (by omega) (by omega)
      fun _ _ => rfl
    simp only [Option.getD_some]
    refine ⟨fun j hj => ?_, ?_⟩
    · rw [h1 j hj, h2]
    · rw [h2]

theorem qweInt_mono (sine : Bool) {m k : ℕ} (h : m ≤ k) : qweInt sine m ≤ qweInt sine k := by
  induction h with
  | refl => exact le_rfl
  | @step k hk ih =>
    refine ih.trans ?_
    rcases Nat.eq_zero_or_pos k with h0 | h0
    · subst h0
      have := Real.pi_gt_three
      cases sine <;> simp [qweInt] <;> norm_num <;> linarith
    · have := qweInt_step sine k h0
      have := Real.pi_pos
      rw [Nat.succ_eq_add_one]; linarith

theorem qweBx_le (sine : Bool) {m : ℕ} {x : ℝ} (hx : x ≤ 1) : qweBx sine m x ≤ qweInt sine (m + 1) := by
  have := qweInt_mono sine (Nat.le_succ m)
  unfold qweBx
  rw [Nat.succ_eq_add_one] at this
  nlinarith

theorem qweBx_pos (sine : Bool) {m : ℕ} {x : ℝ} (hx : -1 ≤ x) : 0 < qweBx sine m x := by
  have h1 := qweInt_mono sine (Nat.le_succ m)
  have h0 : 0 < qweInt sine m := lt_of_lt_of_le (by simp [qweInt]; norm_num) (qweInt_mono sine (Nat.zero_le m))
  unfold qweBx
  rw [Nat.succ_eq_add_one] at h1
  nlinarith

/-- Arguments of the transform with `nq` quadrature points and `mx` intervals. -/
structure QweSet (d : Dict) (nq mx : ℕ) (sine : Bool) (dq rtol atol : ℝ) : Prop where
  rtol : d.lookup "rtol" = some (.num rtol)
  atol : d.lookup "atol" = some (.num atol)
  nquad : d.lookup "nquad" = some (.num (nq : ℝ))
  maxint : d.lookup "maxint" = some (.num (mx : ℝ))
  diff_quad : d.lookup "diff_quad" = some (.num dq)
  a : d.lookup "a" = some .none
  b : d.lookup "b" = some .none
  limit : d.lookup "limit" = some .none
  sincos : d.lookup "sincos" = some (.str (if sine then "sin" else "cos"))

/-- The part of the interpolated response that is transformed. -/
noncomputable def partOf (sine : Bool) (f : ℝ → ℂ) (y : ℝ) : ℝ := if sine then (f y).im else (f y).re

theorem getNum_some {d : Dict} {k : String} {x : ℝ} (h : d.lookup k = some (.num x)) : (getNum k d).val = .ok x := by
  simp only [getNum, h, pure_val]

theorem fourierQwe_one {T : FBack} {t : ℝ} {freq : List ℝ} {d : Dict} {nq mx : ℕ} {sine : Bool} {dq rtol atol : ℝ}
    (hd : QweSet d nq mx sine dq rtol atol) (hq : 0 < nq) (hm : 0 < mx)
    (hf : LogOK freq.length fun i => 2 * Real.pi * freq.getD i 0) {x : ℕ → ℂ}
    (hdo : doQwe sine mx dq (qweSpl T.R freq x) t = true) :
    Time.fourierQwe T [t] freq d x = if mx ≤ 1 then .error .unboundLocal else
      .ok ([(((qwe ⟨rtol, atol, T.tiny, T.big, T.zero⟩ mx 1 fun j i => (qweTerm sine (T.gauss nq)
          (partOf sine (qweSpl T.R freq x)) ([t].getD j 0) i : ℂ)).getD (fun _ => 0, 0, true)).1 0).re],
        ((qwe ⟨rtol, atol, T.tiny, T.big, T.zero⟩ mx 1 fun j i => (qweTerm sine (T.gauss nq)
          (partOf sine (qweSpl T.R freq x)) ([t].getD j 0) i : ℂ)).getD (fun _ => 0, 0, true)).2.2) := by
  have hs : (decide ((if sine = true then "sin" else "cos") = "sin")) = sine := by cases sine <;> decide
  have hn : need (0 < (nq : ℝ) ∧ 0 < (mx : ℝ) ∧ LogOK freq.length fun i => 2 * Real.pi * freq.getD i 0) = .ok () := by
    unfold need
    rw [if_pos ⟨by exact_mod_cast hq, by exact_mod_cast hm, hf⟩]
  simp only [Time.fourierQwe, getNum_some hd.rtol, getNum_some hd.atol, getNum_some hd.nquad, getNum_some hd.maxint,
    getNum_some hd.diff_quad, getOpt, hd.a, hd.b, hd.limit, getStr, hd.sincos, bind, Except.bind, hn, hs,
    Nat.floor_natCast, List.filter_cons, hdo, List.filter_nil, if_true]
  by_cases h1 : mx ≤ 1
  · rw [if_pos ⟨by simp, h1⟩, if_pos h1]
  · rw [if_neg (by tauto), if_neg h1]
    simp [hdo]
    exact ⟨rfl, rfl⟩

/-- **C50, violated: the number of intervals.**  A time that is treated with QWE only sees the response up to the end
of interval `⌈maxint/nquad⌉`, although `maxint` intervals are documented: responses that agree up to there give the
same value. -/
theorem C50_maxint_violated {T : FBack} {t : ℝ} (ht : 0 < t) {freq : List ℝ} {d : Dict} {nq mx : ℕ} {sine : Bool}
    {dq rtol atol : ℝ} (hd : QweSet d nq mx sine dq rtol atol) (hq : 0 < nq) (hm : 0 < mx)
    (hf : LogOK freq.length fun i => 2 * Real.pi * freq.getD i 0)
    (hn : (T.gauss nq).n = nq) (hx : ∀ q < nq, -1 ≤ (T.gauss nq).x q ∧ (T.gauss nq).x q ≤ 1) {x x' : ℕ → ℂ}
    (hdo : doQwe sine mx dq (qweSpl T.R freq x) t = true) (hdo' : doQwe sine mx dq (qweSpl T.R freq x') t = true)
    (h : ∀ w, 0 < w → w ≤ qweInt sine ((mx - 1) / nq + 1) / t →
      qweSpl T.R freq x (Real.log w) = qweSpl T.R freq x' (Real.log w)) :
    Time.fourierQwe T [t] freq d x = Time.fourierQwe T [t] freq d x' := by
  rw [fourierQwe_one hd hq hm hf hdo, fourierQwe_one hd hq hm hf hdo']
  obtain ⟨h1, h2⟩ := qwe_congr ⟨rtol, atol, T.tiny, T.big, T.zero⟩ (n := 1) (M := mx)
    (t := fun j i => (qweTerm sine (T.gauss nq) (partOf sine (qweSpl T.R freq x)) ([t].getD j 0) i : ℂ))
    (t' := fun j i => (qweTerm sine (T.gauss nq) (partOf sine (qweSpl T.R freq x')) ([t].getD j 0) i : ℂ)) (by
      intro j hj i hi
      obtain rfl : j = 0 := by omega
      simp only [List.getD_cons_zero]
      congr 1
      unfold qweTerm qweCol partOf
      simp only [hn]
      have hb : qweBx sine (i / nq) ((T.gauss nq).x (i % nq)) / t ≤ qweInt sine ((mx - 1) / nq + 1) / t := by
        refine div_le_div_of_nonneg_right ?_ ht.le
        refine (qweBx_le sine (hx _ (Nat.mod_lt _ hq)).2).trans (qweInt_mono sine ?_)
        have : i / nq ≤ (mx - 1) / nq := Nat.div_le_div_right (by omega)
        omega
      rw [h _ (div_pos (qweBx_pos sine (hx _ (Nat.mod_lt _ hq)).1) ht) hb])
  rw [h1 0 (by omega), h2]

/-- **C50, violated for the defaults** (`nquad` 21, `maxint` 200): ten of the 200 intervals. -/
theorem C50_default_violated {T : FBack} {t : ℝ} (ht : 0 < t) {freq : List ℝ} {d : Dict}
    {dq rtol atol : ℝ} (hd : QweSet d 21 200 true dq rtol atol)
    (hf : LogOK freq.length fun i => 2 * Real.pi * freq.getD i 0)
    (hn : (T.gauss 21).n = 21) (hx : ∀ q < 21, -1 ≤ (T.gauss 21).x q ∧ (T.gauss 21).x q ≤ 1) {x x' : ℕ → ℂ}
    (hdo : doQwe true 200 dq (qweSpl T.R freq x) t = true) (hdo' : doQwe true 200 dq (qweSpl T.R freq x') t = true)
    (h : ∀ w, 0 < w → w ≤ 10 * Real.pi / t → qweSpl T.R freq x (Real.log w) = qweSpl T.R freq x' (Real.log w)) :
    Time.fourierQwe T [t] freq d x = Time.fourierQwe T [t] freq d x' := by
  refine C50_maxint_violated ht hd (by omega) (by omega) hf hn hx hdo hdo' ?_
  have : qweInt true ((200 - 1) / 21 + 1) = 10 * Real.pi := by norm_num [qweInt]
  rw [this]
  exact h

/-- **C50, violated: two points and two intervals.**  The value is the sum over the two points of the first interval;
the second interval is not used, and for the cosine transform the second point counts more than double. -/
theorem C50_two_violated {T : FBack} {t : ℝ} (ht : 0 < t) {freq : List ℝ} {d : Dict} {sine : Bool}
    {dq rtol atol : ℝ} (hd : QweSet d 2 2 sine dq rtol atol)
    (hf : LogOK freq.length fun i => 2 * Real.pi * freq.getD i 0) (hn : (T.gauss 2).n = 2) {x : ℕ → ℂ}
    (hdo : doQwe sine 2 dq (qweSpl T.R freq x) t = true) :
    let g := partOf sine (qweSpl T.R freq x)
    let v := overInterval sine (T.gauss 2) g t 0 +
      (Real.pi - (qweInt sine 1 - qweInt sine 0)) / (2 * t) * qweCol sine (T.gauss 2) g t 1
    Time.fourierQwe T [t] freq d x = .ok ([if v = T.big then 0 else v], false) := by
  intro g v
  have hs := C50_sum (sine := sine) (Q := T.gauss 2) (by omega) g ht 0
  rw [hn] at hs
  have hv : v = qweTerm sine (T.gauss 2) g t 0 + qweTerm sine (T.gauss 2) g t 1 := by
    simp only [Nat.zero_add, Nat.one_mul, Finset.sum_range_succ, Finset.sum_range_zero] at hs
    simp only [zero_add] at hs
    exact hs.symm
  rw [fourierQwe_one hd (by omega) (by omega) hf hdo, if_neg (by omega)]
  simp [qwe, qweLoop, qweStep, qweInit, shanks, shanksStep, zeroBig]
  change (if qweTerm sine (T.gauss 2) g t 1 + qweTerm sine (T.gauss 2) g t 0 = T.big then (⟨0, 0⟩ : ℂ) else
    (qweTerm sine (T.gauss 2) g t 1 : ℂ) + (qweTerm sine (T.gauss 2) g t 0 : ℂ)).re = if v = T.big then 0 else v
  rw [hv, add_comm (qweTerm sine (T.gauss 2) g t 1)]
  split
  · rfl
  · rw [Complex.add_re, Complex.ofReal_re, Complex.ofReal_re, add_comm]

/-- **C50, one interval** raises. -/
theorem C50_one_interval {T : FBack} {t : ℝ} {freq : List ℝ} {d : Dict} {nq : ℕ} {sine : Bool}
    {dq rtol atol : ℝ} (hd : QweSet d nq 1 sine dq rtol atol) (hq : 0 < nq)
    (hf : LogOK freq.length fun i => 2 * Real.pi * freq.getD i 0) {x : ℕ → ℂ}
    (hdo : doQwe sine 1 dq (qweSpl T.R freq x) t = true) :
    Time.fourierQwe T [t] freq d x = .error .unboundLocal := by
  rw [fourierQwe_one hd hq (by omega) hf hdo, if_pos le_rfl]

/-! ## Cases -/

/-- Arguments with tolerances 0. -/
def qweDict (nq mx : ℝ) (k : String) : Dict := [("rtol", .num 0), ("atol", .num 0), ("nquad", .num nq),
  ("maxint", .num mx), ("diff_quad", .num 100), ("a", .none), ("b", .none), ("limit", .none), ("sincos", .str k)]

theorem qweDict_set (nq mx : ℕ) (sine : Bool) : QweSet (qweDict nq mx (if sine then "sin" else "cos")) nq mx sine 100 0 0 :=
  ⟨rfl, rfl, rfl, rfl, rfl, rfl, rfl, rfl, rfl⟩

theorem four_ok : LogOK [(1 : ℝ), 2, 3, 4].length fun i => 2 * Real.pi * [(1 : ℝ), 2, 3, 4].getD i 0 := by
  have := Real.pi_pos
  refine ⟨⟨by simp, fun i hi => ?_⟩, by simp [Real.pi_pos]⟩
  simp only [List.length_cons, List.length_nil] at hi
  obtain rfl | rfl | rfl : i = 0 ∨ i = 1 ∨ i = 2 := by omega
  all_goals simp; try linarith

/-- Cosine transform of the response 1 at 1 s with two points and two intervals: the value is larger than 1, the
quadrature over the two intervals is negative. -/
example (E : Args.Env) : ∃ v, Time.fourierQwe (twoBack E fun _ _ v _ => v 0) [1] [1, 2, 3, 4] (qweDict 2 2 "cos")
      (fun _ => 1) = .ok ([v], false) ∧ 1 < v ∧
    overInterval false ((twoBack E fun _ _ v _ => v 0).gauss 2) (fun _ => 1) 1 0 +
      overInterval false ((twoBack E fun _ _ v _ => v 0).gauss 2) (fun _ => 1) 1 1 < 0 := by
  have h3 := Real.pi_gt_d2
  have h4 := Real.pi_lt_d2
  have hf : qweSpl (fun _ _ v _ => v 0) [1, 2, 3, 4] (fun _ => 1) = fun _ => (1 : ℂ) := by
    funext y
    apply Complex.ext <;> simp [qweSpl]
  have hdo : doQwe false 2 100 (qweSpl (twoBack E fun _ _ v _ => v 0).R [1, 2, 3, 4] fun _ => 1) 1 = true := by
    have : (twoBack E fun _ _ v _ => v 0).R = fun _ _ v _ => v 0 := rfl
    rw [this, hf]
    simp [doQwe]
  have h := C50_two_violated one_pos (T := twoBack E fun _ _ v _ => v 0) (qweDict_set 2 2 false) four_ok rfl hdo
  have hg : partOf false (qweSpl (twoBack E fun _ _ v _ => v 0).R [1, 2, 3, 4] fun _ => 1) = fun _ => 1 := by
    have : (twoBack E fun _ _ v _ => v 0).R = fun _ _ v _ => v 0 := rfl
    rw [this, hf]
    funext y
    simp [partOf]
  simp only [hg] at h
  have i0 : qweInt false 0 = 1e-20 := by simp [qweInt]
  have i1 : qweInt false 1 = Real.pi / 2 := by simp [qweInt]; ring
  have i2 : qweInt false 2 = 3 * Real.pi / 2 := by simp [qweInt]; ring
  have o0 : overInterval false ((twoBack E fun _ _ v _ => v 0).gauss 2) (fun _ => 1) 1 0 =
      (Real.pi / 2 - 1e-20) * Real.cos ((Real.pi / 2 - 1e-20) / 2 + 1e-20) := by
    simp [overInterval, ruleOn, twoBack, sincosAt, i0, i1, Finset.sum_range_succ]
    ring
  have o1 : overInterval false ((twoBack E fun _ _ v _ => v 0).gauss 2) (fun _ => 1) 1 1 = -Real.pi := by
    have : (3 * Real.pi / 2 - Real.pi / 2) / 2 + Real.pi / 2 = Real.pi := by ring
    simp [overInterval, ruleOn, twoBack, sincosAt, i1, i2, Finset.sum_range_succ, this]
    ring
  have c1 : qweCol false ((twoBack E fun _ _ v _ => v 0).gauss 2) (fun _ => 1) 1 1 =
      Real.cos ((Real.pi / 2 - 1e-20) / 2 + 1e-20) := by
    simp [qweCol, twoBack, qweBx, i0, i1]
  rw [o0, c1, i0, i1] at h
  have hc := Real.one_sub_sq_div_two_le_cos (x := (Real.pi / 2 - 1e-20) / 2 + 1e-20)
  have hc1 := Real.cos_le_one ((Real.pi / 2 - 1e-20) / 2 + 1e-20)
  rw [o0, o1]
  generalize Real.cos ((Real.pi / 2 - 1e-20) / 2 + 1e-20) = c at *
  have hc2 : 0.6 < c := by
    refine lt_of_lt_of_le ?_ hc
    have : ((Real.pi / 2 - 1e-20) / 2 + 1e-20) ^ 2 ≤ 0.8 ^ 2 := by
      refine pow_le_pow_left₀ ?_ ?_ 2 <;> norm_num <;> linarith
    norm_num at this ⊢
    linarith
  have hv : 1 < (Real.pi / 2 - 1e-20) * c + (Real.pi - (Real.pi / 2 - 1e-20)) / (2 * 1) * c := by
    have : (Real.pi / 2 - 1e-20) * c + (Real.pi - (Real.pi / 2 - 1e-20)) / (2 * 1) * c =
        (3 * Real.pi / 4 - 5e-21) * c := by ring
    rw [this]
    have : (2 : ℝ) ≤ 3 * Real.pi / 4 - 5e-21 := by norm_num; linarith
    nlinarith
  refine ⟨_, ?_, hv, ?_⟩
  · have : (qweDict 2 2 "cos") = qweDict (2 : ℕ) (2 : ℕ) (if false then "sin" else "cos") := by simp
    rw [this, h]
    rw [if_neg]
    intro e
    rw [e] at hv
    exact lt_irrefl _ hv
  · norm_num
    nlinarith

/-- The default numbers: responses -i and one that is doubled above ten intervals give the same value. -/
example (E : Args.Env) : Time.fourierQwe (twoBack E fun _ _ v y => if y ≤ Real.log (10 * Real.pi) then v 0 else v 1) [1]
      [1, 2, 3, 4] (qweDict 21 200 "sin") (fun _ => -Complex.I) =
    Time.fourierQwe (twoBack E fun _ _ v y => if y ≤ Real.log (10 * Real.pi) then v 0 else v 1) [1] [1, 2, 3, 4]
      (qweDict 21 200 "sin") (fun i => if i = 0 then -Complex.I else -2 * Complex.I) := by
  have hR : (twoBack E fun _ _ v y => if y ≤ Real.log (10 * Real.pi) then v 0 else v 1).R =
    fun _ _ v y => if y ≤ Real.log (10 * Real.pi) then v 0 else v 1 := rfl
  have hf : qweSpl (fun _ _ v y => if y ≤ Real.log (10 * Real.pi) then v 0 else v 1) [1, 2, 3, 4]
      (fun _ => -Complex.I) = fun _ => Complex.I := by
    funext y
    apply Complex.ext <;> simp [qweSpl]
  have hf' : qweSpl (fun _ _ v y => if y ≤ Real.log (10 * Real.pi) then v 0 else v 1) [1, 2, 3, 4]
      (fun i => if i = 0 then -Complex.I else -2 * Complex.I) =
      fun y => if y ≤ Real.log (10 * Real.pi) then Complex.I else 2 * Complex.I := by
    funext y
    apply Complex.ext <;> simp [qweSpl] <;> split_ifs <;> simp
  have := C50_default_violated one_pos (T := twoBack E fun _ _ v y => if y ≤ Real.log (10 * Real.pi) then v 0 else v 1)
    (qweDict_set 21 200 true) four_ok rfl (fun _ _ => by simp [twoBack]) (x := fun _ => -Complex.I)
    (x' := fun i => if i = 0 then -Complex.I else -2 * Complex.I) ?_ ?_ ?_
  · simpa using this
  · rw [hR, hf]
    simp [doQwe]
  · rw [hR, hf']
    simp only [doQwe, decide_eq_true_eq]
    intro i _
    refine ⟨?_, ?_⟩ <;> split_ifs <;> norm_num
  · intro w h0 hw
    rw [hR, hf, hf']
    simp only
    rw [div_one] at hw
    rw [if_pos (Real.log_le_log h0 hw)]

/-- The midpoint rule written with two equal points, cosine of the response 1 at 1 s: the second point counts three
halves of π instead of half of it. -/
example : ∑ i ∈ Finset.range 2, qweTerm false ⟨2, fun _ => 0, fun _ => 1⟩ (fun _ => 1) 1 i =
    (3 * Real.pi / 4 - 5e-21) * Real.cos (Real.pi / 4 + 5e-21) := by
  have i0 : qweInt false 0 = 1e-20 := by simp [qweInt]
  have i1 : qweInt false 1 = Real.pi / 2 := by simp [qweInt]; ring
  have i2 : qweInt false 2 = 3 * Real.pi / 2 := by simp [qweInt]; ring
  have e : (Real.pi / 2 - 1e-20) / 2 + 1e-20 = Real.pi / 4 + 5e-21 := by ring
  simp [Finset.sum_range_succ, qweTerm, qweCol, qweBx, i0, i1, i2]
  norm_num at e ⊢
  rw [e]
  ring

/-- One interval. -/
example (E : Args.Env) : Time.fourierQwe (twoBack E fun _ _ v _ => v 0) [1] [1, 2, 3, 4] (qweDict 5 1 "sin")
    (fun _ => -Complex.I) = .error .unboundLocal := by
  have hf : qweSpl (twoBack E fun _ _ v _ => v 0).R [1, 2, 3, 4] (fun _ => -Complex.I) = fun _ => Complex.I := by
    funext y
    apply Complex.ext <;> simp [qweSpl, twoBack]
  have := C50_one_interval (T := twoBack E fun _ _ v _ => v 0) (t := 1) (qweDict_set 5 1 true) (by omega) four_ok
    (x := fun _ => -Complex.I) (by rw [hf]; simp [doQwe])
  simpa using this

end Verif.Props
