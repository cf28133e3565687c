import Verif.Model.EmArray
import Mathlib.Analysis.SpecialFunctions.Complex.Log
import Mathlib.Tactic.Linarith
import Mathlib.Tactic.FieldSimp
import Mathlib.Tactic.LinearCombination

/-!
# C34: amplitude and phase
-/

namespace Verif.Props
open Real Verif.EmArray

theorem ddmod_spec (dd : ℝ) : (∃ k : ℤ, ddmod dd = dd + 2 * π * k) ∧ |ddmod dd| ≤ π := by
  have hp := Real.pi_pos
  set m := pyMod (dd + π) (2 * π) - π with hm
  have hk : m = dd + 2 * π * ((-⌊(dd + π) / (2 * π)⌋ : ℤ) : ℝ) := by
    rw [hm, pyMod]; push_cast; ring
  have h0 : 0 ≤ pyMod (dd + π) (2 * π) := by
    have := Int.floor_le ((dd + π) / (2 * π))
    rw [le_div_iff₀ (by positivity)] at this
    unfold pyMod; linarith
  have h1 : pyMod (dd + π) (2 * π) < 2 * π := by
    have := Int.lt_floor_add_one ((dd + π) / (2 * π))
    rw [div_lt_iff₀ (by positivity)] at this
    unfold pyMod; linarith
  have he : ddmod dd = if m = -π ∧ 0 < dd then π else m := rfl
  rw [he]
  split_ifs with h
  · refine ⟨⟨-⌊(dd + π) / (2 * π)⌋ + 1, ?_⟩, (abs_of_pos hp).le⟩
    have := hk
    rw [h.1] at this
    push_cast at this ⊢
    linarith
  · exact ⟨⟨_, hk⟩, abs_le.2 ⟨by rw [hm]; linarith, by rw [hm]; linarith⟩⟩

theorem correct_spec (dd : ℝ) : (∃ k : ℤ, correct dd = 2 * π * k) ∧ |dd + correct dd| ≤ π := by
  unfold correct
  split_ifs with h
  · exact ⟨⟨0, by simp⟩, by simpa using h.le⟩
  · obtain ⟨⟨k, hk⟩, h2⟩ := ddmod_spec dd
    exact ⟨⟨k, by rw [hk]; ring⟩, by simpa using h2⟩

/-- Each phase is changed by a multiple of `2 π`, and consecutive ones differ by at most `π`. -/
theorem unwrapGo_spec (l : List ℝ) (prev acc : ℝ) (ha : ∃ k : ℤ, acc = 2 * π * k) :
    (unwrapGo prev acc l).length = l.length ∧
    (∀ (i : ℕ) p, l[i]? = some p → ∃ k : ℤ, (unwrapGo prev acc l)[i]? = some (p + 2 * π * k)) ∧
    (∀ (i : ℕ) x y, ((prev + acc) :: unwrapGo prev acc l)[i]? = some x →
      ((prev + acc) :: unwrapGo prev acc l)[i + 1]? = some y → |y - x| ≤ π) := by
  induction l generalizing prev acc with
  | nil => simp [unwrapGo]
  | cons p l ih =>
    obtain ⟨⟨c, hc⟩, hj⟩ := correct_spec (p - prev)
    obtain ⟨k, hk⟩ := ha
    have ha' : ∃ k : ℤ, acc + correct (p - prev) = 2 * π * k := ⟨k + c, by rw [hk, hc]; push_cast; ring⟩
    obtain ⟨h1, h2, h3⟩ := ih p (acc + correct (p - prev)) ha'
    refine ⟨by simp [unwrapGo, h1], fun i q hq => ?_, fun i x y hx hy => ?_⟩
    · cases i with
      | zero =>
        simp only [List.getElem?_cons_zero, Option.some.injEq] at hq
        obtain ⟨m, hm⟩ := ha'
        exact ⟨m, by simp [unwrapGo, hm, ← hq]⟩
      | succ i =>
        simp only [List.getElem?_cons_succ] at hq
        simpa [unwrapGo] using h2 i q hq
    · cases i with
      | zero =>
        simp only [unwrapGo, List.getElem?_cons_zero, List.getElem?_cons_succ, Option.some.injEq] at hx hy
        rw [← hx, ← hy]
        convert hj using 2
        ring
      | succ i =>
        simp only [unwrapGo, List.getElem?_cons_succ] at hx hy
        exact h3 i x y hx (by simpa using hy)

/-- `np.unwrap` of a row: same length, same first phase, multiples of `2 π`, jumps of at most `π`. -/
theorem unwrapRow_spec (l : List ℝ) :
    (unwrapRow l).length = l.length ∧ (unwrapRow l)[0]? = l[0]? ∧
    (∀ (i : ℕ) p, l[i]? = some p → ∃ k : ℤ, (unwrapRow l)[i]? = some (p + 2 * π * k)) ∧
    (∀ (i : ℕ) x y, (unwrapRow l)[i]? = some x → (unwrapRow l)[i + 1]? = some y → |y - x| ≤ π) := by
  cases l with
  | nil => simp [unwrapRow]
  | cons p l =>
    obtain ⟨h1, h2, h3⟩ := unwrapGo_spec l p 0 ⟨0, by simp⟩
    refine ⟨by simp [unwrapRow, h1], by simp [unwrapRow], fun i q hq => ?_, ?_⟩
    · cases i with
      | zero => exact ⟨0, by simpa [unwrapRow] using hq⟩
      | succ i => simpa [unwrapRow] using h2 i q (by simpa using hq)
    · simpa [unwrapRow] using h3

/-- The value whose phase is returned. -/
noncomputable def lagged (lag : Bool) (z : ℂ) : ℂ := if lag then z else (starRingEnd ℂ) z

/-- A phase in radians. -/
noncomputable def radians (deg : Bool) (x : ℝ) : ℝ := if deg then x * (π / 180) else x

/-- The unit of phases. -/
noncomputable def unit (deg : Bool) : ℝ := if deg then 180 / π else 1

theorem radians_unit (deg : Bool) (x : ℝ) : radians deg (x * unit deg) = x := by
  unfold radians unit
  cases deg
  · simp
  · have := Real.pi_ne_zero
    simp only [if_true]
    field_simp

theorem unwrapRow_short {l : List ℝ} (h : l.length ≤ 1) : unwrapRow l = l := by
  match l, h with
  | [], _ => rfl
  | [x], _ => rfl

/-- Rows are treated separately. -/
theorem pha_rows (deg unwrap lag : Bool) (rows : List (List ℂ)) :
    pha deg unwrap lag rows = rows.map fun r =>
      let a := r.map fun z => Complex.arg (lagged lag z)
      (if unwrap then unwrapRow a else a).map fun x => x * unit deg := by
  have h1 : (if lag then rows.map (·.map Complex.arg) else
      rows.map (·.map fun z => Complex.arg ((starRingEnd ℂ) z))) =
      rows.map (·.map fun z => Complex.arg (lagged lag z)) := by
    cases lag <;> simp [lagged]
  have h2 : (if unwrap ∧ 1 < (rows.map List.length).sum then
      (rows.map (·.map fun z => Complex.arg (lagged lag z))).map unwrapRow
      else rows.map (·.map fun z => Complex.arg (lagged lag z))) =
      rows.map fun r => if unwrap then unwrapRow (r.map fun z => Complex.arg (lagged lag z)) else
        r.map fun z => Complex.arg (lagged lag z) := by
    cases unwrap with
    | false => simp
    | true =>
      by_cases hs : 1 < (rows.map List.length).sum
      · simp [hs]
      · simp only [hs, and_false, if_false, if_true]
        refine List.map_congr_left fun r hr => ?_
        have : r.length ≤ (rows.map List.length).sum := List.single_le_sum (by simp) _ (List.mem_map_of_mem hr)
        rw [unwrapRow_short (by simp; omega)]
  unfold pha
  simp only [h1, h2]
  cases deg <;> simp [unit]

/-- The amplitude is the modulus. -/
theorem C34_amp (rows : List (List ℂ)) (r : List ℂ) (i j : ℕ) (z : ℂ) (hr : rows[i]? = some r) (hz : r[j]? = some z) :
    ∃ s a, (amp rows)[i]? = some s ∧ s[j]? = some a ∧ 0 ≤ a ∧ a ^ 2 = z.re ^ 2 + z.im ^ 2 := by
  refine ⟨r.map fun z => ‖z‖, ‖z‖, by simp [amp, hr], by simp [hz], norm_nonneg z, ?_⟩
  rw [Complex.sq_norm, Complex.normSq_apply]
  ring

/-- Amplitude and phase reproduce each value, in both units and sign conventions, unwrapped or not. -/
theorem C34_value (deg unwrap lag : Bool) (rows : List (List ℂ)) (r : List ℂ) (i j : ℕ) (z : ℂ)
    (hr : rows[i]? = some r) (hz : r[j]? = some z) :
    ∃ s t a x, (amp rows)[i]? = some s ∧ s[j]? = some a ∧ (pha deg unwrap lag rows)[i]? = some t ∧ t[j]? = some x ∧
      (a : ℂ) * Complex.exp (radians deg x * Complex.I) = if lag then z else (starRingEnd ℂ) z := by
  have key : ∃ k : ℤ, ((if unwrap then unwrapRow (r.map fun z => Complex.arg (lagged lag z)) else
      r.map fun z => Complex.arg (lagged lag z)) : List ℝ)[j]? = some (Complex.arg (lagged lag z) + 2 * π * k) := by
    have hj : (r.map fun z => Complex.arg (lagged lag z))[j]? = some (Complex.arg (lagged lag z)) := by simp [hz]
    cases unwrap with
    | false => exact ⟨0, by simpa using hj⟩
    | true => exact (unwrapRow_spec _).2.2.1 j _ hj
  obtain ⟨k, hk⟩ := key
  refine ⟨r.map fun z => ‖z‖, _, ‖z‖, (Complex.arg (lagged lag z) + 2 * π * k) * unit deg, by simp [amp, hr],
    by simp [hz], by rw [pha_rows, List.getElem?_map, hr]; rfl, by simp only [List.getElem?_map, hk, Option.map_some], ?_⟩
  rw [radians_unit]
  have hn : ‖z‖ = ‖lagged lag z‖ := by unfold lagged; split_ifs <;> simp
  rw [hn]
  have : ((Complex.arg (lagged lag z) + 2 * π * k : ℝ) : ℂ) * Complex.I =
      Complex.arg (lagged lag z) * Complex.I + k * (2 * π * Complex.I) := by push_cast; ring
  rw [this, Complex.exp_add, Complex.exp_int_mul_two_pi_mul_I, mul_one, Complex.norm_mul_exp_arg_mul_I]
  rfl

/-- Without unwrapping the phase is the principal one. -/
theorem C34_principal (deg lag : Bool) (rows : List (List ℂ)) (r : List ℂ) (i j : ℕ) (z : ℂ)
    (hr : rows[i]? = some r) (hz : r[j]? = some z) :
    ∃ t x, (pha deg false lag rows)[i]? = some t ∧ t[j]? = some x ∧ -π < radians deg x ∧ radians deg x ≤ π := by
  refine ⟨_, Complex.arg (lagged lag z) * unit deg, by rw [pha_rows, List.getElem?_map, hr]; rfl, by simp [hz], ?_⟩
  rw [radians_unit]
  exact ⟨Complex.neg_pi_lt_arg _, Complex.arg_le_pi _⟩

/-- Unwrapping keeps shape and first phase of each row, adds multiples of `2 π`, and leaves no jumps larger
than `π`. -/
theorem C34_unwrap (deg lag : Bool) (rows : List (List ℂ)) (i : ℕ) (t : List ℝ)
    (ht : (pha deg true lag rows)[i]? = some t) :
    ∃ u, (pha deg false lag rows)[i]? = some u ∧ t.length = u.length ∧ t[0]? = u[0]? ∧
      (∀ (j : ℕ) x y, t[j]? = some x → u[j]? = some y → ∃ k : ℤ, radians deg x = radians deg y + 2 * π * k) ∧
      (∀ (j : ℕ) x y, t[j]? = some x → t[j + 1]? = some y → |radians deg y - radians deg x| ≤ π) := by
  rw [pha_rows, List.getElem?_map] at ht
  cases hr : rows[i]? with
  | none => rw [hr] at ht; cases ht
  | some r =>
    rw [hr] at ht
    simp only [Option.map_some, Option.some.injEq, if_true] at ht
    obtain ⟨h1, h2, h3, h4⟩ := unwrapRow_spec (r.map fun z => Complex.arg (lagged lag z))
    refine ⟨(r.map fun z => Complex.arg (lagged lag z)).map fun x => x * unit deg, ?_, ?_, ?_, ?_, ?_⟩
    · rw [pha_rows, List.getElem?_map, hr]; rfl
    · rw [← ht]; simpa using h1
    · rw [← ht, List.getElem?_map, List.getElem?_map, h2]
    · intro j x y hx hy
      rw [← ht, List.getElem?_map] at hx
      rw [List.getElem?_map] at hy
      cases hp : (r.map fun z => Complex.arg (lagged lag z))[j]? with
      | none => rw [hp] at hy; cases hy
      | some p =>
        obtain ⟨k, hk⟩ := h3 j p hp
        rw [hk] at hx
        rw [hp] at hy
        simp only [Option.map_some, Option.some.injEq] at hx hy
        exact ⟨k, by rw [← hx, ← hy, radians_unit, radians_unit]⟩
    · intro j x y hx hy
      rw [← ht, List.getElem?_map] at hx hy
      cases hp : (unwrapRow (r.map fun z => Complex.arg (lagged lag z)))[j]? with
      | none => rw [hp] at hx; cases hx
      | some p =>
        cases hq : (unwrapRow (r.map fun z => Complex.arg (lagged lag z)))[j + 1]? with
        | none => rw [hq] at hy; cases hy
        | some q =>
          rw [hp] at hx
          rw [hq] at hy
          simp only [Option.map_some, Option.some.injEq] at hx hy
          rw [← hx, ← hy, radians_unit, radians_unit]
          exact h4 j p q hp hq

/-- Phases of `I`, `-I`, `I`: the jump of exactly `-π` stays, and so does the one back. -/
example : pha false true true [[Complex.I, -Complex.I, Complex.I]] = [[π / 2, -(π / 2), π / 2]] := by
  have hp := Real.pi_pos
  have h1 : correct (-(π / 2) - π / 2) = 0 := by
    have : -(π / 2) - π / 2 = -π := by ring
    rw [this, correct, if_neg (by rw [abs_neg, abs_of_pos hp]; exact lt_irrefl _), ddmod]
    simp only [neg_add_cancel, pyMod, zero_div, Int.floor_zero, Int.cast_zero, mul_zero, sub_zero, zero_sub]
    rw [if_neg (by rintro ⟨-, h⟩; linarith)]
    ring
  have h2 : correct (π / 2 - -(π / 2)) = 0 := by
    have : π / 2 - -(π / 2) = π := by ring
    rw [this, correct, if_neg (by rw [abs_of_pos hp]; exact lt_irrefl _), ddmod]
    have : (π + π) / (2 * π) = 1 := by field_simp; ring
    simp only [pyMod, this, Int.floor_one, Int.cast_one, mul_one]
    rw [if_pos ⟨by ring, hp⟩, sub_self]
  have h3 : correct π = 0 := by rw [← h2]; congr 1; ring
  simp [pha, unwrapRow, unwrapGo, h1, h3]

/-- Phases of `I` and `-1` in degrees. -/
example : pha true false true [[Complex.I, -1]] = [[90, 180]] := by
  have := Real.pi_ne_zero
  simp only [pha, if_true, List.map_cons, List.map_nil, Complex.arg_I, Complex.arg_neg_one, Bool.false_eq_true,
    false_and, if_false]
  congr 2
  · field_simp; norm_num
  · congr 1; field_simp

end Verif.Props
