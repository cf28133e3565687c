import Verif.Model.Fdesign
import Mathlib.Analysis.InnerProductSpace.PiL2
import Mathlib.LinearAlgebra.Matrix.DotProduct
import Mathlib.Tactic

/-!
# C42: filter design: candidates, inversion, rating, search
-/

namespace Verif.Props
open Verif.Fdesign Verif.Py

/-! ## Candidates -/

/-- Three numbers are a `linspace`. -/
theorem C42_grid (a b : ℝ) (num : ℕ) (hn : 2 ≤ num) (hab : a ≠ b) :
    ∃ t, ls2ar (.three a b num) = .ok t ∧
      arange t = (List.range num).map fun i : ℕ => a + i * ((b - a) / ((num : ℝ) - 1)) := by
  have h2 : (2 : ℝ) ≤ num := by exact_mod_cast hn
  have hs : (b - a) / ((num : ℝ) - 1) ≠ 0 := div_ne_zero (sub_ne_zero.2 hab.symm) (by linarith)
  refine ⟨_, rfl, ?_⟩
  rw [ls2ar.tail, if_neg (by push Not; exact ⟨h2, hab⟩), arange]
  have : (b + (b - a) / ((num : ℝ) - 1) / 2 - a) / ((b - a) / ((num : ℝ) - 1)) = (num : ℝ) - 1 / 2 := by
    have h1 : (num : ℝ) - 1 ≠ 0 := by linarith
    have h3 : b - a ≠ 0 := sub_ne_zero.2 hab.symm
    field_simp
    ring
  simp only [this]
  rw [show ⌈(num : ℝ) - 1 / 2⌉₊ = num from by
    rw [Nat.ceil_eq_iff (by omega)]
    constructor
    · push_cast [Nat.cast_sub (show 1 ≤ num by omega)]
      linarith
    · linarith]

/-- The first and the last candidate are the ones asked for. -/
theorem C42_grid_ends (a b : ℝ) (num : ℕ) (hn : 2 ≤ num) (hab : a ≠ b) :
    ∃ t, ls2ar (.three a b num) = .ok t ∧ (arange t).length = num ∧ (arange t)[0]? = some a ∧
      (arange t)[num - 1]? = some b := by
  obtain ⟨t, ht, ha⟩ := C42_grid a b num hn hab
  have h1 : ((num : ℝ) - 1) ≠ 0 := by
    have : (2 : ℝ) ≤ num := by exact_mod_cast hn
    linarith
  refine ⟨t, ht, by simp [ha], ?_, ?_⟩
  · rw [ha, List.getElem?_map, List.getElem?_range (by omega)]
    simp
  · rw [ha, List.getElem?_map, List.getElem?_range (by omega)]
    simp only [Option.map_some, Option.some.injEq]
    rw [Nat.cast_sub (by omega), Nat.cast_one]
    field_simp
    ring

theorem tail_single (a b num : ℝ) (h : num < 2 ∨ a = b) : arange (ls2ar.tail a b num) = [a] := by
  rw [ls2ar.tail, if_pos h, arange]
  have : ⌈(a + 1 / 2 - a) / 1⌉₊ = 1 := by
    rw [Nat.ceil_eq_iff (by norm_num)]
    norm_num
  simp only [this]
  simp

/-- One number, fewer than two values, or twice the same number: one candidate. -/
theorem C42_grid_single (a b num : ℝ) (h : num < 2 ∨ a = b) :
    (∃ t, ls2ar (.one a) = .ok t ∧ arange t = [a]) ∧ ∃ t, ls2ar (.three a b num) = .ok t ∧ arange t = [a] :=
  ⟨⟨_, rfl, tail_single a _ _ (.inl (by norm_num))⟩, ⟨_, rfl, tail_single a b num h⟩⟩

/-- Other inputs are rejected. -/
theorem C42_grid_reject : ls2ar .other = .error .valueError := rfl

/-- There is always a candidate. -/
theorem C42_grid_nonempty (inp : LsInput) (t : ℝ × ℝ × ℝ) (h : ls2ar inp = .ok t) : arange t ≠ [] := by
  have key : ∀ a b n : ℝ, arange (ls2ar.tail a b n) ≠ [] := by
    intro a b n
    by_cases hc : n < 2 ∨ a = b
    · rw [tail_single a b n hc]; simp
    · rw [ls2ar.tail, if_neg hc, arange]
      push Not at hc
      have h1 : n - 1 ≠ 0 := by linarith [hc.1]
      have h3 : b - a ≠ 0 := sub_ne_zero.2 hc.2.symm
      have : (b + (b - a) / (n - 1) / 2 - a) / ((b - a) / (n - 1)) = n - 1 / 2 := by
        field_simp
        ring
      simp only [this]
      have : 0 < ⌈n - 1 / 2⌉₊ := Nat.ceil_pos.2 (by linarith [hc.1])
      simp only [ne_eq, List.map_eq_nil_iff, List.range_eq_nil]
      omega
  cases inp with
  | other => cases h
  | one x => cases h; exact key _ _ _
  | three a b n => cases h; exact key _ _ _

/-! ## Base -/

/-- The base is logarithmically spaced with the given spacing and its middle value is that of the shift; it is the only
such base. -/
theorem C42_base (n : ℕ) (spacing shift : ℝ) :
    (∀ i, 0 < base n spacing shift i) ∧
    (∀ i j : Fin n, (j : ℕ) = i + 1 → base n spacing shift j / base n spacing shift i = Real.exp spacing) ∧
    (∀ i : Fin n, (i : ℕ) = n / 2 → base n spacing shift i = Real.exp shift) ∧
    ∀ b : Fin n → ℝ, (∀ i j : Fin n, (j : ℕ) = i + 1 → b j = Real.exp spacing * b i) →
      (∀ i : Fin n, (i : ℕ) = n / 2 → b i = Real.exp shift) → b = base n spacing shift := by
  have hb : ∀ i j : Fin n, (j : ℕ) = i + 1 → base n spacing shift j = Real.exp spacing * base n spacing shift i := by
    intro i j h
    rw [base, base, ← Real.exp_add, h]
    congr 1
    push_cast
    ring
  have hm : ∀ i : Fin n, (i : ℕ) = n / 2 → base n spacing shift i = Real.exp shift := by
    intro i h
    rw [base, h]
    congr 1
    ring
  refine ⟨fun i => Real.exp_pos _, fun i j h => ?_, hm, fun b h1 h2 => ?_⟩
  · rw [hb i j h]
    have := (Real.exp_pos (spacing * ((i : ℝ) - (n / 2 : ℕ)) + shift)).ne'
    rw [base]
    field_simp
  · rcases Nat.eq_zero_or_pos n with rfl | hn
    · funext i; exact i.elim0
    have key : ∀ k : ℕ, ∀ i : Fin n, ((i : ℕ) = n / 2 + k ∨ (i : ℕ) + k = n / 2) → b i = base n spacing shift i := by
      intro k
      induction k with
      | zero =>
        intro i hi
        have : (i : ℕ) = n / 2 := by omega
        rw [h2 i this, hm i this]
      | succ k ih =>
        rintro i (hi | hi)
        · have h := ih ⟨n / 2 + k, by omega⟩ (.inl rfl)
          rw [h1 ⟨n / 2 + k, by omega⟩ i (by simp [hi]; omega), hb ⟨n / 2 + k, by omega⟩ i (by simp [hi]; omega), h]
        · have h := ih ⟨i + 1, by omega⟩ (.inr (by simp; omega))
          rw [h1 i ⟨i + 1, by omega⟩ rfl, hb i ⟨i + 1, by omega⟩ rfl] at h
          exact mul_left_cancel₀ (Real.exp_pos _).ne' h
    funext i
    rcases le_total (n / 2) i with h | h
    · exact key (i - n / 2) i (.inl (by omega))
    · exact key (n / 2 - i) i (.inr (by omega))

example : base 3 (1 / 2) 0 0 = Real.exp (-1 / 2) := by norm_num [base]

theorem iSup_base {n : ℕ} (b : Fin n → ℝ) (i : Fin n) (h : ∀ j, b j ≤ b i) : ⨆ j, b j = b i := by
  haveI : Nonempty (Fin n) := ⟨i⟩
  exact le_antisymm (ciSup_le h) (le_ciSup (Set.finite_range b).bddAbove i)

theorem iInf_base {n : ℕ} (b : Fin n → ℝ) (i : Fin n) (h : ∀ j, b i ≤ b j) : ⨅ j, b j = b i := by
  haveI : Nonempty (Fin n) := ⟨i⟩
  exact le_antisymm (ciInf_le (Set.finite_range b).bddBelow i) (le_ciInf h)

theorem ten_log10 {x : ℝ} (hx : 0 < x) : (10 : ℝ) ^ log10 x = x := by
  rw [log10, Real.rpow_def_of_pos (by norm_num), mul_div_cancel₀ _ (Real.log_pos (by norm_num)).ne', Real.exp_log hx]

/-- The inversion uses logarithmically spaced `r`, from `r_def[0]` decades before the reciprocal of the largest value of
the base to `r_def[1]` decades after the reciprocal of its smallest value. -/
theorem C42_range (rdef : ℝ × ℝ × ℝ) (n : ℕ) (spacing shift : ℝ) (hs : 0 < spacing) (hm : 2 ≤ equations rdef n)
    (i0 i1 : Fin n) (h0 : (i0 : ℕ) = 0) (h1 : (i1 : ℕ) = n - 1) (j0 j1 : Fin (equations rdef n)) (g0 : (j0 : ℕ) = 0)
    (g1 : (j1 : ℕ) = equations rdef n - 1) :
    let b := base n spacing shift
    let r := invR rdef n b
    (∀ i, b i0 ≤ b i ∧ b i ≤ b i1) ∧ r j0 = (10 : ℝ) ^ (-rdef.1) / b i1 ∧ r j1 = (10 : ℝ) ^ rdef.2.1 / b i0 ∧
      ∃ q : ℝ, ∀ i j : Fin (equations rdef n), (j : ℕ) = i + 1 → r j = q * r i := by
  intro b r
  have hmono : ∀ i j : Fin n, (i : ℕ) ≤ j → b i ≤ b j := by
    intro i j h
    have : (i : ℝ) ≤ j := by exact_mod_cast h
    exact Real.exp_le_exp.2 (by nlinarith)
  have hsup : ⨆ j, b j = b i1 := iSup_base b i1 fun j => hmono _ _ (by omega)
  have hinf : ⨅ j, b j = b i0 := iInf_base b i0 fun j => hmono _ _ (by omega)
  have hp : ∀ i, 0 < b i := fun i => Real.exp_pos _
  have hm' : ((equations rdef n : ℕ) : ℝ) - 1 ≠ 0 := by
    have : (2 : ℝ) ≤ (equations rdef n : ℕ) := by exact_mod_cast hm
    linarith
  refine ⟨fun i => ⟨hmono _ _ (by omega), hmono _ _ (by omega)⟩, ?_, ?_, ?_⟩
  · simp only [r, invR, logspace, hsup, g0]
    rw [Nat.cast_zero, zero_mul, add_zero, sub_eq_add_neg, Real.rpow_add (by norm_num), ten_log10 (by have := hp i1; positivity)]
    ring
  · simp only [r, invR, logspace, hsup, hinf, g1]
    rw [Nat.cast_sub (by omega), Nat.cast_one, mul_div_cancel₀ _ hm', add_sub_cancel, Real.rpow_add (by norm_num),
      ten_log10 (by have := hp i0; positivity)]
    ring
  · refine ⟨(10 : ℝ) ^ ((log10 (1 / ⨅ i, b i) + rdef.2.1 - (log10 (1 / ⨆ i, b i) - rdef.1)) / ((equations rdef n : ℕ) - 1 : ℝ)),
      fun i j h => ?_⟩
    simp only [r, invR, logspace]
    rw [← Real.rpow_add (by norm_num), h]
    congr 1
    push_cast
    ring

/-- The numbers printed without `full` for a designed filter with an odd number of values are its spacing and shift. -/
theorem C42_printed_partial (n : ℕ) (spacing shift : ℝ) (h2 : 2 ≤ n) :
    printed (List.ofFn (base n spacing shift)) = .ok (spacing, if n % 2 = 1 then shift else shift - spacing) := by
  rw [printed, if_neg (by simp; omega)]
  have hg : ∀ i (h : i < n), (List.ofFn (base n spacing shift)).getD i 0 = base n spacing shift ⟨i, h⟩ := by
    intro i h
    rw [List.getD_eq_getElem?_getD, List.getElem?_eq_getElem (by simpa using h)]
    simp
  simp only [List.length_ofFn]
  rw [hg _ (show n - 1 < n by omega), hg _ (show n - 2 < n by omega), hg _ (show (n + 1) / 2 - 1 < n by omega),
    (C42_base n spacing shift).2.1 ⟨n - 2, by omega⟩ ⟨n - 1, by omega⟩ (by simp; omega), Real.log_exp, base, Real.log_exp]
  congr 2
  split_ifs with h
  · have : (n + 1) / 2 - 1 = n / 2 := by omega
    simp only [this]
    ring
  · have : (n + 1) / 2 - 1 = n / 2 - 1 := by omega
    simp only [this]
    rw [Nat.cast_sub (by omega), Nat.cast_one]
    ring

/-- For an even number of values the printed shift is wrong. -/
theorem C42_printed_violated (n : ℕ) (spacing shift : ℝ) (h0 : 0 < n) (he : n % 2 = 0) (hs : spacing ≠ 0) :
    ∃ sh, printed (List.ofFn (base n spacing shift)) = .ok (spacing, sh) ∧ sh ≠ shift :=
  ⟨_, C42_printed_partial n spacing shift (by omega), by rw [if_neg (by omega)]; intro h; exact hs (by linarith)⟩

/-! ## Inversion -/

/-- The sum of the squares of the residuals. -/
def misfit {m n : ℕ} (A : Matrix (Fin m) (Fin n) ℝ) (b : Fin m → ℝ) (x : Fin n → ℝ) : ℝ :=
  ∑ i, ((∑ k, A i k * x k) - b i) ^ 2

/-- Equations with independent columns. -/
def Independent {m n : ℕ} (A : Matrix (Fin m) (Fin n) ℝ) : Prop :=
  ∀ x : Fin n → ℝ, (∀ i, ∑ k, A i k * x k = 0) → x = 0

theorem independent_li {m n : ℕ} (A : Matrix (Fin m) (Fin n) ℝ) (h : Independent A) :
    LinearIndependent ℝ fun k : Fin n => (WithLp.toLp 2 fun i => A i k : EuclideanSpace ℝ (Fin m)) := by
  rw [Fintype.linearIndependent_iff]
  intro x hx k
  have := h x fun i => by
    have := congrArg (fun v : EuclideanSpace ℝ (Fin m) => v i) hx
    simp at this
    rw [← this]
    exact Finset.sum_congr rfl fun k _ => mul_comm (A i k) (x k)
  rw [this]; rfl

/-- Independent columns have a QR factorisation. -/
theorem exists_qr {m n : ℕ} (A : Matrix (Fin m) (Fin n) ℝ) (h : Independent A) :
    ∃ Q : Matrix (Fin m) (Fin n) ℝ, ∃ R : Matrix (Fin n) (Fin n) ℝ, A = Q * R ∧ Q.transpose * Q = 1 := by
  let E := EuclideanSpace ℝ (Fin m)
  let col : Fin n → E := fun k => WithLp.toLp 2 fun i => A i k
  have hli : LinearIndependent ℝ col := independent_li A h
  have hd : Module.finrank ℝ (Submodule.span ℝ (Set.range col)) = n := by
    rw [finrank_span_eq_card hli, Fintype.card_fin]
  let B := (stdOrthonormalBasis ℝ (Submodule.span ℝ (Set.range col))).reindex (finCongr hd)
  let Q : Matrix (Fin m) (Fin n) ℝ := Matrix.of fun i j => (B j : E) i
  let R : Matrix (Fin n) (Fin n) ℝ := Matrix.of fun j k => inner ℝ (B j : E) (col k)
  refine ⟨Q, R, ?_, ?_⟩
  · ext i k
    have hk : col k ∈ Submodule.span ℝ (Set.range col) := Submodule.subset_span ⟨k, rfl⟩
    have := B.sum_repr' ⟨col k, hk⟩
    have := congrArg (fun v : Submodule.span ℝ (Set.range col) => (v : E) i) this
    simp at this
    rw [Matrix.mul_apply]
    show A i k = _
    rw [show A i k = (col k) i from rfl, ← this]
    rw [WithLp.ofLp_sum, Finset.sum_apply]
    exact Finset.sum_congr rfl fun j _ => mul_comm _ _
  · ext j k
    rw [Matrix.mul_apply]
    have := B.orthonormal
    rw [orthonormal_iff_ite] at this
    have := this j k
    rw [Matrix.one_apply, ← this]
    show ∑ i, (B j : E) i * (B k : E) i = inner ℝ (B j : E) (B k : E)
    rw [PiLp.inner_apply]
    exact Finset.sum_congr rfl fun i _ => by simp; ring

theorem misfit_eq {m n : ℕ} (A : Matrix (Fin m) (Fin n) ℝ) (b : Fin m → ℝ) (x : Fin n → ℝ) :
    misfit A b x = (A.mulVec x - b) ⬝ᵥ (A.mulVec x - b) := by
  simp only [misfit, dotProduct, Matrix.mulVec, Pi.sub_apply]
  exact Finset.sum_congr rfl fun i _ => by ring

theorem independent_iff {m n : ℕ} (A : Matrix (Fin m) (Fin n) ℝ) :
    Independent A ↔ ∀ x : Fin n → ℝ, A.mulVec x = 0 → x = 0 := by
  refine forall_congr' fun x => imp_congr ?_ Iff.rfl
  rw [funext_iff]
  rfl

open Matrix in
/-- The coefficients are the unique least-squares solution if the equations have one; otherwise they are zero. -/
theorem C42_lsq (L : LinAlg) {m n : ℕ} (A : Matrix (Fin m) (Fin n) ℝ) (b : Fin m → ℝ) :
    (Independent A → ∀ x, x ≠ invert L A b → misfit A b (invert L A b) < misfit A b x) ∧
    (¬ Independent A → invert L A b = 0) := by
  constructor
  · intro hA
    have hmn : ¬ m < n := by
      have := (independent_li A hA).fintype_card_le_finrank
      rw [Fintype.card_fin, finrank_euclideanSpace, Fintype.card_fin] at this
      omega
    obtain ⟨⟨Q, R⟩, hqr⟩ := Option.isSome_iff_exists.1 (L.qr_total A (exists_qr A hA))
    obtain ⟨hAQ, hQ⟩ := L.qr_ok A Q R hqr
    rw [independent_iff] at hA
    have hdet : R.det ≠ 0 := by
      rw [Ne, ← Matrix.exists_mulVec_eq_zero_iff]
      rintro ⟨v, hv, hv0⟩
      refine hv (hA v ?_)
      rw [hAQ, ← Matrix.mulVec_mulVec, hv0, Matrix.mulVec_zero]
    obtain ⟨x, hx⟩ := Option.isSome_iff_exists.1 ((L.solve_total R (Matrix.vecMul b Q)).2 hdet)
    have hRx := L.solve_ok _ _ _ hx
    have hinv : invert L A b = x := by
      rw [invert, if_neg hmn, hqr]
      simp only [hx, Option.getD_some]
    rw [hinv]
    intro y hy
    -- normal equations
    have hn : A.transpose *ᵥ (A *ᵥ x - b) = 0 := by
      rw [Matrix.mulVec_sub, hAQ, Matrix.transpose_mul, ← Matrix.mulVec_mulVec x, hRx, ← Matrix.mulVec_mulVec,
        ← Matrix.mulVec_mulVec, Matrix.mulVec_mulVec _ Q.transpose Q, hQ, Matrix.one_mulVec, Matrix.mulVec_transpose Q b,
        sub_self]
    have hz : A *ᵥ (y - x) ≠ 0 := fun h => hy (sub_eq_zero.1 (hA _ h))
    rw [misfit_eq, misfit_eq]
    have hsplit : A *ᵥ y - b = (A *ᵥ x - b) + A *ᵥ (y - x) := by
      rw [Matrix.mulVec_sub]; abel
    have hc : (A *ᵥ x - b) ⬝ᵥ (A *ᵥ (y - x)) = 0 := by
      rw [Matrix.dotProduct_mulVec, ← Matrix.mulVec_transpose, hn, zero_dotProduct]
    have hpos : 0 < (A *ᵥ (y - x)) ⬝ᵥ (A *ᵥ (y - x)) := by
      rcases (Finset.sum_nonneg fun i _ => mul_self_nonneg ((A *ᵥ (y - x)) i) :
        0 ≤ (A *ᵥ (y - x)) ⬝ᵥ (A *ᵥ (y - x))).lt_or_eq with h | h
      · exact h
      · exact absurd (dotProduct_self_eq_zero.1 h.symm) hz
    rw [hsplit, add_dotProduct, dotProduct_add, dotProduct_add, hc, dotProduct_comm (A *ᵥ (y - x)) (A *ᵥ x - b), hc]
    linarith
  · intro hA
    rw [invert]
    split_ifs with hmn
    · rfl
    · cases hqr : L.qr A with
      | none => rfl
      | some p =>
        obtain ⟨Q, R⟩ := p
        obtain ⟨hAQ, hQ⟩ := L.qr_ok A Q R hqr
        rw [independent_iff] at hA
        push Not at hA
        obtain ⟨v, hv, hv0⟩ := hA
        have hR : R *ᵥ v = 0 := by
          have := congrArg (fun w => Q.transpose *ᵥ w) hv
          simp only [Matrix.mulVec_zero] at this
          rwa [hAQ, ← Matrix.mulVec_mulVec, Matrix.mulVec_mulVec _ Q.transpose Q, hQ, Matrix.one_mulVec] at this
        have hdet : R.det = 0 := Matrix.exists_mulVec_eq_zero_iff.1 ⟨v, hv0, hR⟩
        have : L.solve R (Matrix.vecMul b Q) = none := by
          rw [← Option.not_isSome_iff_eq_none, L.solve_total]
          exact not_not.2 hdet
        simp only [this, Option.getD_none]

open Classical in
/-- There are such routines. -/
noncomputable def someLinAlg : LinAlg where
  qr A := if h : ∃ p : _ × _, A = p.1 * p.2 ∧ p.1.transpose * p.1 = 1 then some h.choose else none
  solve R b := if h : R.det ≠ 0 then some (R⁻¹.mulVec b) else none
  qr_ok A Q R h := by
    split_ifs at h with hp
    have := hp.choose_spec
    rw [Option.some.inj h] at this
    exact this
  qr_total A := by
    rintro ⟨Q, R, h⟩
    rw [dif_pos ⟨(Q, R), h⟩]; rfl
  solve_ok R b x h := by
    split_ifs at h with hd
    rw [← Option.some.inj h, Matrix.mulVec_mulVec, Matrix.mul_nonsing_inv _ (isUnit_iff_ne_zero.2 hd), Matrix.one_mulVec]
  solve_total R b := by
    split_ifs with h <;> simp [h]

/-- Two equations, one unknown: the mean. -/
example : invert someLinAlg (fun (_ : Fin 2) (_ : Fin 1) => (1 : ℝ)) ![1, 3] = fun _ => 2 := by
  by_contra hne
  have hi : Independent (fun (_ : Fin 2) (_ : Fin 1) => (1 : ℝ)) := by
    intro x hx
    funext i
    have := hx 0
    simp at this
    rw [Subsingleton.elim i 0, this]; rfl
  have := (C42_lsq someLinAlg (fun (_ : Fin 2) (_ : Fin 1) => (1 : ℝ)) ![1, 3]).1 hi _ (Ne.symm hne)
  simp [misfit] at this
  nlinarith [sq_nonneg (invert someLinAlg (fun (_ : Fin 2) (_ : Fin 1) => (1 : ℝ)) ![1, 3] 0 - 2)]

end Verif.Props
