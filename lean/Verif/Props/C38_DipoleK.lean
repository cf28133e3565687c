import Verif.Model.DipoleK
import Mathlib.Tactic.IntervalCases
import Mathlib.Tactic.Ring
import Mathlib.Analysis.Real.Pi.Bounds
import Verif.Lemmas.Angle

/-!
# C38: the wavenumber-domain routine returns the kernels of the space-domain routine

The space-domain routine integrates `hankelIntegrand` (transform.py), whose relation to Maxwell's
equations is C01.  `dipole_k` has to return `PJ0`, `PJ1` such that `PJ0 J0 + PJ1 J1` is that integrand.
-/

namespace Verif.Props
open Verif.Py Verif.Utils Verif.Kernel Verif.Transform Verif.Model

/-- The codes of the calculation. -/
def calcCodes : List ℕ := [11, 12, 13, 14, 15, 16, 21, 22, 23, 24, 25, 26, 31, 32, 33, 34, 35, 36]

theorem kernels_some (o : Ops) (E : Earth) (zs zr : ℝ) (ls lr : ℤ) (lam : ℝ) {abc : ℕ}
    (h : abc ∈ calcCodes) (h36 : abc ≠ 36) (ms mr : Bool) :
    let K := wavenumber o E zs zr ls lr lam abc false ms mr
    K.1 = (if abc ∈ [11, 22, 24, 15, 33] then some (K.1.getD 0) else none) ∧
    K.2.1 = (if abc ∉ [33] then some (K.2.1.getD 0) else none) ∧
    K.2.2 = (if abc ∈ [11, 12, 21, 22, 14, 24, 15, 25] then some (K.2.2.getD 0) else none) := by
  simp only [calcCodes, List.mem_cons, List.not_mem_nil, or_false] at h
  rcases h with h | h | h | h | h | h | h | h | h | h | h | h | h | h | h | h | h | h <;> subst h <;>
    first | (exact absurd rfl h36) | simp [wavenumber]

/-- Kernels at one frequency and wavenumber. -/
noncomputable def kern (S : KSetup) (abc : ℕ) (ms mr : Bool) (i : ℕ) (lam : ℝ) :
    Option ℂ × Option ℂ × Option ℂ :=
  wavenumber S.o (S.earth i) S.zsrc S.zrec S.lsrc S.lrec lam abc false ms mr

theorem bcDim_one (n : ℕ) : bcDim n 1 = some n := by
  unfold bcDim; split_ifs with h <;> simp_all

theorem one_bcDim (n : ℕ) : bcDim 1 n = some n := by
  unfold bcDim; split_ifs with h <;> simp_all

theorem bcIdx_lt {n i : ℕ} (h : i < n) : bcIdx n i = i := by
  unfold bcIdx; split_ifs with h'
  · omega
  · rfl

theorem bcIdx_one (i : ℕ) : bcIdx 1 i = 0 := rfl

/-- Rows: which offset belongs to a row, and which wavenumbers. -/
structure Layout (S : KSetup) (w : WaveArg) (rows cols : ℕ) (offIdx : ℕ → ℕ) (lam : ℕ → ℕ → ℝ) : Prop where
  cases : (∃ l, w = .vec l ∧ rows = S.noff ∧ cols = l.length ∧ offIdx = id ∧ lam = fun _ k => l.getD k 0) ∨
    (∃ v, w = .mat rows cols v ∧ S.noff = 1 ∧ offIdx = (fun _ => 0) ∧ lam = v)

/-- What `dipole_k` returns, any code and any result of `check_ab`. -/
theorem dipoleKCore_eq {S : KSetup} {w : WaveArg} {rows cols : ℕ} {offIdx : ℕ → ℕ} {lam : ℕ → ℕ → ℝ}
    (L : Layout S w rows cols offIdx lam) (ab : ℤ) {abc : ℕ} (ms mr : Bool)
    (h36 : abc ≠ 36) :
    ∃ P0 P1, dipoleKCore S w ab (abc, ms, mr) = .ok (P0, P1) ∧
      (P0.n = S.nfreq ∧ P0.r = rows ∧ P0.c = cols) ∧ (P1.n = S.nfreq ∧ P1.r = rows ∧ P1.c = cols) ∧
      ∀ i < S.nfreq, ∀ j < rows, ∀ k < cols,
        let K := kern S abc ms mr i (lam j k)
        let f := angleFactor (S.ang (offIdx j)) ab.toNat ms mr
        P0.v i j k = (if abc ∈ [11, 22, 24, 15, 33] then K.1.getD 0 else 0) +
          (if abc ∈ [11, 12, 21, 22, 14, 24, 15, 25] then f * K.2.2.getD 0 else 0) ∧
        P1.v i j k = (if abc ∉ [33] then
          (if ab ∈ [11, 12, 21, 22, 14, 24, 15, 25] then f * K.2.1.getD 0 / S.off (offIdx j)
           else f * K.2.1.getD 0) else 0) := by
  have h36' : abc ∉ [36] := by simpa using h36
  rcases L.cases with ⟨l, rfl, rfl, rfl, rfl, rfl⟩ | ⟨v, rfl, hn, rfl, rfl⟩
  · by_cases c0 : abc ∈ [11, 22, 24, 15, 33] <;> by_cases c1 : abc ∈ [33] <;>
      by_cases c2 : abc ∈ [11, 12, 21, 22, 14, 24, 15, 25] <;>
      by_cases c3 : ab ∈ ([11, 12, 21, 22, 14, 24, 15, 25] : List ℤ) <;>
    · simp only [dipoleKCore, KSetup.kernels, WaveArg.atleast2d, WaveArg.size, scaleRows, bcDim_one, addInto,
        divRows, c0, c1, c2, c3, if_true, if_false, h36', not_false_eq_true, not_true_eq_false, true_or, or_true,
        and_self, bind, Except.bind, pure, Except.pure]
      refine ⟨_, _, rfl, ⟨rfl, rfl, rfl⟩, ⟨rfl, rfl, rfl⟩, ?_⟩
      intro i hi j hj k hk
      simp only [bcIdx_lt hi, bcIdx_lt hj, bcIdx_lt hk, bcIdx_one, kern, id, zero_add]
      try simp
  · by_cases c0 : abc ∈ [11, 22, 24, 15, 33] <;> by_cases c1 : abc ∈ [33] <;>
      by_cases c2 : abc ∈ [11, 12, 21, 22, 14, 24, 15, 25] <;>
      by_cases c3 : ab ∈ ([11, 12, 21, 22, 14, 24, 15, 25] : List ℤ) <;>
    · simp only [dipoleKCore, KSetup.kernels, WaveArg.atleast2d, WaveArg.size, scaleRows, one_bcDim, addInto,
        divRows, c0, c1, c2, c3, if_true, if_false, h36', not_false_eq_true, not_true_eq_false, true_or, or_true,
        and_self, bind, Except.bind, pure, Except.pure, hn]
      refine ⟨_, _, rfl, ⟨rfl, rfl, rfl⟩, ⟨rfl, rfl, rfl⟩, ?_⟩
      intro i hi j hj k hk
      simp only [bcIdx_lt hi, bcIdx_lt hj, bcIdx_lt hk, bcIdx_one, kern, zero_add]
      try simp

/-- What `dipole_k` returns, any code. -/
theorem dipoleK_eq {S : KSetup} {w : WaveArg} {rows cols : ℕ} {offIdx : ℕ → ℕ} {lam : ℕ → ℕ → ℝ}
    (L : Layout S w rows cols offIdx lam) {ab : ℤ} {abc : ℕ} {ms mr : Bool}
    (hc : checkAbInt ab = .ok (abc, ms, mr)) (h36 : abc ≠ 36) :
    ∃ P0 P1, dipoleK S w ab = .ok (P0, P1) ∧
      (P0.n = S.nfreq ∧ P0.r = rows ∧ P0.c = cols) ∧ (P1.n = S.nfreq ∧ P1.r = rows ∧ P1.c = cols) ∧
      ∀ i < S.nfreq, ∀ j < rows, ∀ k < cols,
        let K := kern S abc ms mr i (lam j k)
        let f := angleFactor (S.ang (offIdx j)) ab.toNat ms mr
        P0.v i j k = (if abc ∈ [11, 22, 24, 15, 33] then K.1.getD 0 else 0) +
          (if abc ∈ [11, 12, 21, 22, 14, 24, 15, 25] then f * K.2.2.getD 0 else 0) ∧
        P1.v i j k = (if abc ∉ [33] then
          (if ab ∈ [11, 12, 21, 22, 14, 24, 15, 25] then f * K.2.1.getD 0 / S.off (offIdx j)
           else f * K.2.1.getD 0) else 0) := by
  obtain ⟨P0, P1, h1, h2⟩ := dipoleKCore_eq L ab ms mr h36
  exact ⟨P0, P1, by rw [dipoleK, hc]; exact h1, h2⟩

/-- The code of the calculation. -/
def calcCode (a b : ℕ) : ℕ :=
  if 4 ≤ a then if 4 ≤ b then 10 * (a - 3) + (b - 3) else 10 * b + a else 10 * a + b

theorem codes : ∀ a ∈ Finset.Icc 1 6, ∀ b ∈ Finset.Icc 1 6,
    checkAbInt (10 * ((a : ℕ) : ℤ) + ((b : ℕ) : ℤ)) = .ok (calcCode a b, decide (4 ≤ b), decide (4 ≤ a)) := by
  decide

/-- The components for which `dipole_k` is right: electric receivers, and five magnetic ones. -/
def RightCode (a b : ℕ) : Prop :=
  a ≤ 3 ∨ (a = 4 ∧ b = 3) ∨ (a = 5 ∧ b = 6) ∨ (a = 6 ∧ b ∈ [1, 3, 5, 6])

/-- The integrand of the space-domain routine for component `a` of source `b`; `fem` (model.py 1630)
returns zero for code 36. -/
noncomputable def integrand (S : KSetup) (a b i : ℕ) (lam off ang : ℝ) (J0 J1 : ℂ) : ℂ :=
  if calcCode a b = 36 then 0
  else hankelIntegrand (kern S (calcCode a b) (decide (4 ≤ b)) (decide (4 ≤ a)) i lam) (calcCode a b) off
    (angleFactor ang (calcCode a b) (decide (4 ≤ b)) (decide (4 ≤ a))) J0 J1

/-- **C38** for 24 of the 36 components: every layered model, number of frequencies and offsets, one
vector of wavenumbers, or for one offset a matrix of them: `PJ0 J0 + PJ1 J1` is the integrand of the
space-domain routine.  For the other twelve see `C38_violated`. -/
theorem C38_kernels_partial {S : KSetup} {w : WaveArg} {rows cols : ℕ} {offIdx : ℕ → ℕ} {lam : ℕ → ℕ → ℝ}
    (L : Layout S w rows cols offIdx lam) {a b : ℕ} (ha : 1 ≤ a ∧ a ≤ 6) (hb : 1 ≤ b ∧ b ≤ 6)
    (hg : RightCode a b) :
    ∃ P0 P1, dipoleK S w (10 * a + b) = .ok (P0, P1) ∧
      (P0.n = S.nfreq ∧ P0.r = rows ∧ P0.c = cols) ∧ (P1.n = S.nfreq ∧ P1.r = rows ∧ P1.c = cols) ∧
      ∀ i < S.nfreq, ∀ j < rows, ∀ k < cols, ∀ J0 J1 : ℂ,
        P0.v i j k * J0 + P1.v i j k * J1 =
          integrand S a b i (lam j k) (S.off (offIdx j)) (S.ang (offIdx j)) J0 J1 := by
  have hc := codes a (Finset.mem_Icc.2 ha) b (Finset.mem_Icc.2 hb)
  by_cases h36 : calcCode a b = 36
  · have : dipoleK S w (10 * a + b) = .ok
        (⟨S.nfreq, rows, cols, fun _ _ _ => 0⟩, ⟨S.nfreq, rows, cols, fun _ _ _ => 0⟩) := by
      rw [h36] at hc
      rcases L.cases with ⟨l, rfl, rfl, rfl, rfl, rfl⟩ | ⟨v, rfl, hn, rfl, rfl⟩ <;>
        simp [dipoleK, dipoleKCore, hc, bind, Except.bind, pure, Except.pure, WaveArg.size, *]
    refine ⟨_, _, this, ⟨rfl, rfl, rfl⟩, ⟨rfl, rfl, rfl⟩, ?_⟩
    intro i _ j _ k _ J0 J1
    simp [integrand, h36]
  · obtain ⟨P0, P1, h1, h2, h3, h4⟩ := dipoleK_eq L hc h36
    refine ⟨P0, P1, h1, h2, h3, ?_⟩
    intro i hi j hj k hk J0 J1
    obtain ⟨e0, e1⟩ := h4 i hi j hj k hk
    rw [e0, e1, integrand, if_neg h36]
    have hm : calcCode a b ∈ calcCodes := by
      obtain ⟨a1, a2⟩ := ha
      obtain ⟨b1, b2⟩ := hb
      interval_cases a <;> interval_cases b <;> decide
    have hf : calcCode a b ≠ 33 → angleFactor (S.ang (offIdx j)) (10 * (a : ℤ) + (b : ℤ)).toNat (decide (4 ≤ b))
        (decide (4 ≤ a)) = angleFactor (S.ang (offIdx j)) (calcCode a b) (decide (4 ≤ b)) (decide (4 ≤ a)) := by
      obtain ⟨a1, a2⟩ := ha
      obtain ⟨b1, b2⟩ := hb
      unfold RightCode at hg
      clear e0 e1 h1 h4 hc
      interval_cases a <;> interval_cases b <;> (try (simp at hg; done)) <;> (try (intro h; exact absurd rfl h)) <;>
        intro _ <;> first | rfl | (simp [calcCode, angleFactor]; split_ifs <;> rfl)
    have hj : (10 * (a : ℤ) + (b : ℤ)) ∈ ([11, 12, 21, 22, 14, 24, 15, 25] : List ℤ) ↔ calcCode a b ∈ j2codes := by
      obtain ⟨a1, a2⟩ := ha
      obtain ⟨b1, b2⟩ := hb
      unfold RightCode at hg
      clear e0 e1 h1 h4 hc
      interval_cases a <;> interval_cases b <;> (try (simp at hg; done)) <;> simp [calcCode, j2codes]
    have hk := kernels_some S.o (S.earth i) S.zsrc S.zrec S.lsrc S.lrec (lam j k) hm h36
      (decide (4 ≤ b)) (decide (4 ≤ a))
    change let K := kern S (calcCode a b) (decide (4 ≤ b)) (decide (4 ≤ a)) i (lam j k)
      K.1 = (if calcCode a b ∈ [11, 22, 24, 15, 33] then some (K.1.getD 0) else none) ∧
      K.2.1 = (if calcCode a b ∉ [33] then some (K.2.1.getD 0) else none) ∧
      K.2.2 = (if calcCode a b ∈ [11, 12, 21, 22, 14, 24, 15, 25] then some (K.2.2.getD 0) else none) at hk
    generalize kern S (calcCode a b) (decide (4 ≤ b)) (decide (4 ≤ a)) i (lam j k) = K at hk ⊢
    obtain ⟨x, y, z⟩ := K
    obtain ⟨k0, k1, k2⟩ := hk
    obtain ⟨x', rfl⟩ : ∃ x', x = if calcCode a b ∈ [11, 22, 24, 15, 33] then some x' else none := ⟨_, k0⟩
    obtain ⟨y', rfl⟩ : ∃ y', y = if calcCode a b ∉ [33] then some y' else none := ⟨_, k1⟩
    obtain ⟨z', rfl⟩ : ∃ z', z = if calcCode a b ∈ [11, 12, 21, 22, 14, 24, 15, 25] then some z' else none := ⟨_, k2⟩
    clear k0 k1 k2 e0 e1
    simp only [hankelIntegrand]
    by_cases h33 : calcCode a b = 33
    · simp [h33]
    · have h33' : calcCode a b ∉ [33] := by simpa using h33
      rw [hf h33]
      by_cases c0 : calcCode a b ∈ [11, 22, 24, 15, 33] <;>
        by_cases c2 : calcCode a b ∈ [11, 12, 21, 22, 14, 24, 15, 25] <;>
        by_cases c3 : calcCode a b ∈ j2codes <;>
      simp only [hj, h33', c0, c2, c3, if_true, if_false, not_false_eq_true, Option.getD_some] <;> ring

/-! ## The other twelve components -/

/-- Angle at which the factors differ. -/
noncomputable def badAngle (b : ℕ) : ℝ := if 4 ≤ b then 2 * Real.pi / 3 else Real.pi / 6

theorem not_close {x y : ℝ} (h : 1 / 100 < |x - y|) (hy : |y| ≤ 10) : ¬ isclose x y 1e-10 1e-14 := by
  unfold isclose
  have := abs_nonneg y
  norm_num
  linarith

/-- No snapping to zero at angles which are far from the tested ones. -/
theorem factor_plain {ang : ℝ} {ab : ℕ} {ms mr : Bool} (h33 : ab ∉ [33])
    (h : ∀ q ∈ [Real.pi / 2, 3 * Real.pi / 2, Real.pi, 2 * Real.pi],
      1 / 100 < |(|(if ab ∈ [11, 22, 15, 24, 12, 21, 14, 25] then
        (if mr = true ∧ ms = false then ang + Real.pi else ang) * 2
        else (if mr = true ∧ ms = false then ang + Real.pi else ang))| - q)|) :
    angleFactor ang ab ms mr = Lemmas.exactFactor ang ab ms mr := by
  have hpi := Real.pi_pos
  have hpi4 := Real.pi_le_four
  have h1 := h _ (by simp : Real.pi / 2 ∈ _)
  have h2 := h _ (by simp : 3 * Real.pi / 2 ∈ _)
  have h3 := h _ (by simp : Real.pi ∈ _)
  have h4 := h _ (by simp : 2 * Real.pi ∈ _)
  have a1 : |Real.pi / 2| ≤ 10 := by rw [abs_of_pos (by positivity)]; linarith
  have a2 : |3 * Real.pi / 2| ≤ 10 := by rw [abs_of_pos (by positivity)]; linarith
  have a3 : |Real.pi| ≤ 10 := by rw [abs_of_pos (by positivity)]; linarith
  have a4 : |2 * Real.pi| ≤ 10 := by rw [abs_of_pos (by positivity)]; linarith
  unfold angleFactor Lemmas.exactFactor
  rw [if_neg h33, if_neg h33]
  by_cases c : ab ∈ [11, 22, 15, 24, 13, 31, 26, 35]
  · rw [if_neg (by rw [if_pos c]; exact not_close h1 a1), if_neg (by rw [if_pos c]; exact not_close h2 a2)]
  · rw [if_neg (by rw [if_neg c]; exact not_close h3 a3), if_neg (by rw [if_neg c]; exact not_close h4 a4)]

theorem far {c d : ℝ} (hc : 0 ≤ c) (hd : 1 / 100 < |c - d|) : 1 / 100 < |(|c * Real.pi| - d * Real.pi)| := by
  have hpi := Real.pi_gt_three
  rw [abs_of_nonneg (a := c * Real.pi) (by positivity), ← sub_mul, abs_mul, abs_of_pos (by linarith : 0 < Real.pi)]
  nlinarith [abs_nonneg (c - d)]

/-- Values of the factors at the bad angle. -/
theorem bad_factor {a b : ℕ} (ha : 4 ≤ a ∧ a ≤ 6) (hb : 1 ≤ b ∧ b ≤ 6) (hg : ¬ RightCode a b) :
    (∀ ab ∈ [10 * a + b, calcCode a b], angleFactor (badAngle b) ab (decide (4 ≤ b)) (decide (4 ≤ a)) =
      Lemmas.exactFactor (badAngle b) ab (decide (4 ≤ b)) (decide (4 ≤ a))) := by
  intro ab hab
  have h33 : ab ∉ [33] := by
    obtain ⟨a1, a2⟩ := ha
    obtain ⟨b1, b2⟩ := hb
    unfold RightCode at hg
    interval_cases a <;> interval_cases b <;> simp [calcCode] at hg hab ⊢ <;> omega
  apply factor_plain h33
  intro q hq
  obtain ⟨d, rfl, hd⟩ : ∃ d : ℝ, q = d * Real.pi ∧ (d = 1 / 2 ∨ d = 3 / 2 ∨ d = 1 ∨ d = 2) := by
    simp only [List.mem_cons, List.not_mem_nil, or_false] at hq
    rcases hq with rfl | rfl | rfl | rfl
    · exact ⟨1 / 2, by ring, by simp⟩
    · exact ⟨3 / 2, by ring, by simp⟩
    · exact ⟨1, by ring, by simp⟩
    · exact ⟨2, by ring, by simp⟩
  have ha4 : decide (4 ≤ a) = true := by simpa using ha.1
  simp only [ha4, true_and, decide_eq_false_iff_not, badAngle]
  by_cases hb4 : 4 ≤ b
  · simp only [hb4, not_true_eq_false, if_false, if_true]
    split_ifs
    · rw [show 2 * Real.pi / 3 * 2 = (4 / 3 : ℝ) * Real.pi by ring]
      exact far (by norm_num) (by rcases hd with rfl | rfl | rfl | rfl <;> norm_num [abs_of_neg, abs_of_pos])
    · rw [show 2 * Real.pi / 3 = (2 / 3 : ℝ) * Real.pi by ring]
      exact far (by norm_num) (by rcases hd with rfl | rfl | rfl | rfl <;> norm_num [abs_of_neg, abs_of_pos])
  · simp only [hb4, not_false_eq_true, if_false, if_true]
    split_ifs
    · rw [show (Real.pi / 6 + Real.pi) * 2 = (7 / 3 : ℝ) * Real.pi by ring]
      exact far (by norm_num) (by rcases hd with rfl | rfl | rfl | rfl <;> norm_num [abs_of_neg, abs_of_pos])
    · rw [show Real.pi / 6 + Real.pi = (7 / 6 : ℝ) * Real.pi by ring]
      exact far (by norm_num) (by rcases hd with rfl | rfl | rfl | rfl <;> norm_num [abs_of_neg, abs_of_pos])

/-- The factor which `dipole_k` applies to the J1 kernel and the one which it should apply. -/
theorem bad_values {a b : ℕ} (ha : 4 ≤ a ∧ a ≤ 6) (hb : 1 ≤ b ∧ b ≤ 6) (hg : ¬ RightCode a b) {off : ℝ}
    (ho : 0 < off) :
    Lemmas.exactFactor (badAngle b) (10 * a + b) (decide (4 ≤ b)) (decide (4 ≤ a)) ≠
      Lemmas.exactFactor (badAngle b) (calcCode a b) (decide (4 ≤ b)) (decide (4 ≤ a)) /
        (if calcCode a b ∈ j2codes then off else 1) := by
  have s3 : (1 : ℝ) < Real.sqrt 3 := by
    rw [show (1 : ℝ) = Real.sqrt 1 by simp]; exact Real.sqrt_lt_sqrt (by norm_num) (by norm_num)
  have e1 : Real.sin (Real.pi / 6 + Real.pi) = -(1 / 2) := by rw [Real.sin_add_pi, Real.sin_pi_div_six]
  have e2 : Real.cos (Real.pi / 6 + Real.pi) = -(Real.sqrt 3 / 2) := by rw [Real.cos_add_pi, Real.cos_pi_div_six]
  have e3 : Real.sin ((Real.pi / 6 + Real.pi) * 2) = Real.sqrt 3 / 2 := by
    rw [show (Real.pi / 6 + Real.pi) * 2 = Real.pi / 3 + 2 * Real.pi by ring, Real.sin_add_two_pi, Real.sin_pi_div_three]
  have e4 : Real.cos ((Real.pi / 6 + Real.pi) * 2) = 1 / 2 := by
    rw [show (Real.pi / 6 + Real.pi) * 2 = Real.pi / 3 + 2 * Real.pi by ring, Real.cos_add_two_pi, Real.cos_pi_div_three]
  have e5 : Real.sin (2 * Real.pi / 3) = Real.sqrt 3 / 2 := by
    rw [show 2 * Real.pi / 3 = Real.pi - Real.pi / 3 by ring, Real.sin_pi_sub, Real.sin_pi_div_three]
  have e6 : Real.cos (2 * Real.pi / 3) = -(1 / 2) := by
    rw [show 2 * Real.pi / 3 = Real.pi - Real.pi / 3 by ring, Real.cos_pi_sub, Real.cos_pi_div_three]
  have e7 : Real.sin (2 * Real.pi / 3 * 2) = -(Real.sqrt 3 / 2) := by
    rw [show 2 * Real.pi / 3 * 2 = Real.pi / 3 + Real.pi by ring, Real.sin_add_pi, Real.sin_pi_div_three]
  have e8 : Real.cos (2 * Real.pi / 3 * 2) = -(1 / 2) := by
    rw [show 2 * Real.pi / 3 * 2 = Real.pi / 3 + Real.pi by ring, Real.cos_add_pi, Real.cos_pi_div_three]
  have opp : ∀ u v : ℝ, (u < 0 ∧ 0 < v) ∨ (0 < u ∧ v < 0) → u ≠ v / off := by
    intro u v h e
    rw [e] at h
    rcases h with ⟨h1, h2⟩ | ⟨h1, h2⟩
    · exact absurd (div_pos h2 ho) (by linarith)
    · exact absurd (div_neg_of_neg_of_pos h2 ho) (by linarith)
  obtain ⟨a1, a2⟩ := ha
  obtain ⟨b1, b2⟩ := hb
  unfold RightCode at hg
  interval_cases a <;> interval_cases b <;> (try (simp at hg; done)) <;>
    simp only [Lemmas.exactFactor, badAngle, calcCode, j2codes] <;>
    norm_num [-one_div, e1, e2, e3, e4, e5, e6, e7, e8] <;>
    first
    | (refine opp _ _ (Or.inl ⟨?_, ?_⟩) <;> first | positivity | (norm_num; done) | linarith)
    | (refine opp _ _ (Or.inr ⟨?_, ?_⟩) <;> first | positivity | (norm_num; done) | linarith)
    | (intro h; linarith)

/-- **C38 is violated** by the other twelve components: `dipole_k` calculates the angle factor from the
requested code instead of the code of the calculation, and does not divide by the offset.  There is an
angle such that for every model, frequency, offset and wavenumber with a J1 kernel which is not zero
the returned values are not the kernels. -/
theorem C38_violated {a b : ℕ} (ha : 1 ≤ a ∧ a ≤ 6) (hb : 1 ≤ b ∧ b ≤ 6) (hg : ¬ RightCode a b)
    {S : KSetup} {l : List ℝ} {i j k : ℕ} (hi : i < S.nfreq) (hj : j < S.noff) (hk : k < l.length)
    (hang : S.ang j = badAngle b) (hoff : 0 < S.off j)
    (hK : (kern S (calcCode a b) (decide (4 ≤ b)) (decide (4 ≤ a)) i (l.getD k 0)).2.1 ≠ some 0) :
    ∃ P0 P1, dipoleK S (.vec l) (10 * a + b) = .ok (P0, P1) ∧
      ∃ J0 J1 : ℂ, P0.v i j k * J0 + P1.v i j k * J1 ≠ integrand S a b i (l.getD k 0) (S.off j) (S.ang j) J0 J1 := by
  have ha4 : 4 ≤ a ∧ a ≤ 6 := by
    refine ⟨?_, ha.2⟩
    by_contra h
    exact hg (Or.inl (by omega))
  have hc := codes a (Finset.mem_Icc.2 ha) b (Finset.mem_Icc.2 hb)
  have hfacts : calcCode a b ∈ calcCodes ∧ calcCode a b ≠ 36 ∧ calcCode a b ≠ 33 ∧
      (10 * (a : ℤ) + (b : ℤ)) ∉ ([11, 12, 21, 22, 14, 24, 15, 25] : List ℤ) ∧
      (10 * (a : ℤ) + (b : ℤ)).toNat = 10 * a + b := by
    obtain ⟨a1, a2⟩ := ha4
    obtain ⟨b1, b2⟩ := hb
    unfold RightCode at hg
    clear hc hK hang
    interval_cases a <;> interval_cases b <;> (try (simp at hg; done)) <;> decide
  obtain ⟨hm, h36, h33, hnj, hnat⟩ := hfacts
  have L : Layout S (.vec l) S.noff l.length id (fun _ k => l.getD k 0) := ⟨Or.inl ⟨l, rfl, rfl, rfl, rfl, rfl⟩⟩
  obtain ⟨P0, P1, h1, -, -, h4⟩ := dipoleK_eq L hc h36
  refine ⟨P0, P1, h1, 0, 1, ?_⟩
  obtain ⟨-, e1⟩ := h4 i hi j hj k hk
  have h33' : calcCode a b ∉ [33] := by simpa using h33
  obtain ⟨-, k1, -⟩ := kernels_some S.o (S.earth i) S.zsrc S.zrec S.lsrc S.lrec (l.getD k 0) hm h36
    (decide (4 ≤ b)) (decide (4 ≤ a))
  rw [if_pos h33'] at k1
  change (kern S (calcCode a b) (decide (4 ≤ b)) (decide (4 ≤ a)) i (l.getD k 0)).2.1 =
    some ((kern S (calcCode a b) (decide (4 ≤ b)) (decide (4 ≤ a)) i (l.getD k 0)).2.1.getD 0) at k1
  have bf := bad_factor ha4 hb hg
  have b1 := bf (10 * a + b) (by simp)
  have b2 := bf (calcCode a b) (by simp)
  have bv := bad_values ha4 hb hg hoff
  rw [e1, if_pos h33', if_neg hnj, id, hang, hnat, b1, integrand, if_neg h36, b2]
  simp only [hankelIntegrand]
  generalize kern S (calcCode a b) (decide (4 ≤ b)) (decide (4 ≤ a)) i (l.getD k 0) = K at *
  obtain ⟨x, y, z⟩ := K
  simp only at k1 hK
  obtain ⟨y', rfl⟩ : ∃ y', y = some y' := ⟨_, k1⟩
  have hy : y' ≠ 0 := fun h => hK (by rw [h])
  generalize Lemmas.exactFactor (badAngle b) (10 * a + b) (decide (4 ≤ b)) (decide (4 ≤ a)) = f1 at *
  generalize Lemmas.exactFactor (badAngle b) (calcCode a b) (decide (4 ≤ b)) (decide (4 ≤ a)) = f2 at *
  intro h
  apply bv
  have hoc : ((S.off j : ℝ) : ℂ) ≠ 0 := by exact_mod_cast hoff.ne'
  have h' : (f1 : ℂ) * y' = (if calcCode a b ∈ j2codes then (f2 : ℂ) * y' / (S.off j : ℂ) else f2 * y') := by
    cases x <;> cases z <;> simpa using h
  by_cases cj : calcCode a b ∈ j2codes
  · rw [if_pos cj] at h' ⊢
    have : (f1 : ℂ) = f2 / (S.off j : ℂ) := by
      apply mul_right_cancel₀ hy
      rw [h']; ring
    exact_mod_cast this
  · rw [if_neg cj] at h' ⊢
    rw [div_one]
    exact_mod_cast mul_right_cancel₀ hy h'

/-! ## Shapes -/

/-- **C38 is violated** for one row of wavenumbers per offset (the layout of the Hankel transforms):
with several offsets, rows and columns `dipole_k` raises ValueError for every code but 36 and 63. -/
theorem C38_rows_violated {S : KSetup} {r c : ℕ} {v : ℕ → ℕ → ℝ} (hn : 1 < S.noff) (hr : 1 < r) (hc1 : 1 < c)
    {a b : ℕ} (ha : 1 ≤ a ∧ a ≤ 6) (hb : 1 ≤ b ∧ b ≤ 6) (h36 : calcCode a b ≠ 36) :
    dipoleK S (.mat r c v) (10 * a + b) = .error .valueError := by
  have hc := codes a (Finset.mem_Icc.2 ha) b (Finset.mem_Icc.2 hb)
  have h36' : calcCode a b ∉ [36] := by simpa using h36
  have n1 : S.noff ≠ 1 := by omega
  have hrc : c ≠ r * c := by
    intro h
    have : 1 * c < r * c := Nat.mul_lt_mul_of_pos_right hr (by omega)
    omega
  have c1 : c ≠ 1 := by omega
  by_cases h33 : calcCode a b ∈ [33]
  · have h0 : calcCode a b ∈ [11, 22, 24, 15, 33] := by simp at h33; simp [h33]
    simp only [dipoleK, dipoleKCore, hc, KSetup.kernels, WaveArg.atleast2d, WaveArg.size, h36', h33, h0, n1, addInto, hrc, c1,
      if_true, if_false, not_true_eq_false, not_false_eq_true, or_false, and_false, bind, Except.bind, pure, Except.pure]
  · simp only [dipoleK, dipoleKCore, hc, KSetup.kernels, WaveArg.atleast2d, WaveArg.size, h36', h33, n1, addInto, hrc, c1, scaleRows,
      if_true, if_false, not_true_eq_false, not_false_eq_true, or_false, and_false, bind, Except.bind, pure, Except.pure]
    cases bcDim S.noff r with
    | none => rfl
    | some q => simp only [hrc, c1, or_false, and_false, if_false]

/-! ## Concrete cases -/

/-- A homogeneous space with unit parameters, source at 0, receiver at 1, one frequency and offset. -/
noncomputable def unitSpace (ang : ℝ) : KSetup :=
  ⟨Ops.exact, 1, fun _ => ⟨1, fun _ => ⊥, fun _ => 1, fun _ => 1, fun _ => 1, fun _ => 1⟩, 1, fun _ => 2,
   fun _ => ang, 0, 1, 0, 0⟩

/-- `Ex` of an `x`-directed source: two wavenumbers. -/
example : ∃ P0 P1, dipoleK (unitSpace 0) (.vec [1, 3]) 11 = .ok (P0, P1) ∧
    (P0.n = 1 ∧ P0.r = 1 ∧ P0.c = 2) ∧ ∀ J0 J1 : ℂ,
      P0.v 0 0 1 * J0 + P1.v 0 0 1 * J1 = integrand (unitSpace 0) 1 1 0 3 2 0 J0 J1 := by
  obtain ⟨P0, P1, h1, h2, -, h4⟩ := C38_kernels_partial (S := unitSpace 0) (w := .vec [1, 3]) (offIdx := id)
    (lam := fun _ k => [1, 3].getD k 0) (rows := 1) (cols := 2) ⟨Or.inl ⟨[1, 3], rfl, rfl, rfl, rfl, rfl⟩⟩
    (a := 1) (b := 1) (by norm_num) (by norm_num) (Or.inl (by norm_num))
  exact ⟨P0, P1, h1, h2, fun J0 J1 => h4 0 (by decide) 0 (by decide) 1 (by decide) J0 J1⟩

/-- `Hy` of a vertical electric source at an angle of 30°: `dipole_k` is wrong. -/
example : ∃ P0 P1, dipoleK (unitSpace (Real.pi / 6)) (.vec [1]) 53 = .ok (P0, P1) ∧
    ∃ J0 J1 : ℂ, P0.v 0 0 0 * J0 + P1.v 0 0 0 * J1 ≠
      integrand (unitSpace (Real.pi / 6)) 5 3 0 1 2 (Real.pi / 6) J0 J1 := by
  refine C38_violated (S := unitSpace (Real.pi / 6)) (l := [1]) (a := 5) (b := 3) (i := 0) (j := 0) (k := 0)
    (by norm_num) (by norm_num) (by simp [RightCode]) (by decide) (by decide) (by decide)
    (by simp [unitSpace, badAngle]) (by simp [unitSpace]) ?_
  have hc : csqrt 2 ≠ 0 := by simp [csqrt]
  have hpi : (Real.pi : ℂ) ≠ 0 := by exact_mod_cast Real.pi_ne_zero
  simp [kern, unitSpace, calcCode, wavenumber, greenfct, green, xexp, gam, Ops.exact]
  norm_num [hc, hpi]
  exact ⟨EReal.coe_ne_top 1, EReal.coe_ne_bot 1⟩

end Verif.Props
