import Verif.Lemmas.Moves

/-!
# C09 — decoding of the source-receiver code
-/

namespace Verif.Props
open Verif.Utils Verif.Py Verif.Lemmas

/-- **C09, acceptance.**  An integer is accepted exactly if it is a two-digit number whose digits
are both in 1..6; everything else raises ValueError. -/
theorem C09_accept (n : ℤ) :
    (∃ v, checkAb (.int n) = .ok v) ↔
      ∃ a b : ℕ, (1 ≤ a ∧ a ≤ 6) ∧ (1 ≤ b ∧ b ≤ 6) ∧ n = 10 * a + b := by
  constructor
  · rintro ⟨⟨c, ms, mr⟩, h⟩
    obtain ⟨a, b, ha, hb, h1, -⟩ := reach h
    simp only [toInt, Except.ok.injEq] at h1
    exact ⟨a, b, ha, hb, h1⟩
  · rintro ⟨a, b, ha, hb, rfl⟩
    exact ⟨_, checkAb_digits ha hb⟩

/-- **C09, rejection.**  The only other outcome for an integer is ValueError. -/
theorem C09_reject (n : ℤ) :
    checkAb (.int n) = .error .valueError ↔
      ¬ ∃ a b : ℕ, (1 ≤ a ∧ a ≤ 6) ∧ (1 ≤ b ∧ b ≤ 6) ∧ n = 10 * a + b := by
  rw [← C09_accept]
  change checkAbInt n = _ ↔ ¬ ∃ v, checkAbInt n = .ok v
  by_cases h : n ∈ pab
  · have : ∃ v, checkAbInt n = .ok v := by
      unfold checkAbInt; rw [if_neg (not_not.2 h)]; exact ⟨_, rfl⟩
    obtain ⟨v, hv⟩ := this
    simp [hv]
  · have : checkAbInt n = .error .valueError := by unfold checkAbInt; rw [if_pos h]
    simp [this]

/-- **C09, non-integers.**  Floats are truncated; what cannot be converted raises TypeError. -/
theorem C09_float (x : ℝ) : checkAb (.float x) = checkAb (.int (if 0 ≤ x then ⌊x⌋ else ⌈x⌉)) ∧
    checkAb .other = .error .typeError := ⟨rfl, rfl⟩

/-- **C09, meaning.**  For receiver direction `a` and source direction `b` (1–3 electric x, y, z;
4–6 magnetic x, y, z): the flags tell which is magnetic, and the calculation code is
* `ab` itself for electric receivers,
* the code of the electric-electric pair in the same directions if both are magnetic,
* the code of the swapped experiment (receiver `b`, source `a`) for a magnetic receiver and an
  electric source. -/
theorem C09_meaning {a b : ℕ} (ha : 1 ≤ a ∧ a ≤ 6) (hb : 1 ≤ b ∧ b ≤ 6) :
    ∃ c msrc mrec, checkAb (.int (10 * a + b)) = .ok (c, msrc, mrec) ∧
      (msrc = true ↔ 4 ≤ b) ∧ (mrec = true ↔ 4 ≤ a) ∧
      (a ≤ 3 → c = 10 * a + b) ∧
      (4 ≤ a → 4 ≤ b → c = 10 * (a - 3) + (b - 3)) ∧
      (4 ≤ a → b ≤ 3 → c = 10 * b + a) := by
  refine ⟨_, _, _, checkAb_digits ha hb, ?_, ?_, ?_, ?_, ?_⟩
  · simp; omega
  · simp; omega
  · intro h; rw [if_neg (by omega)]
  · intro h h'; rw [if_pos (by omega), if_pos (by omega)]
  · intro h h'; rw [if_pos (by omega), if_neg (by omega)]

/-- **C09, the kernel implements the code.**  The calculation code is always one of the codes
treated by `wavenumber`/`greenfct` (electric receiver, digits 1–3 and 1–6). -/
theorem C09_implemented {x : AbArg} {c : ℕ} {msrc mrec : Bool}
    (h : checkAb x = .ok (c, msrc, mrec)) :
    ∃ a b : ℕ, (1 ≤ a ∧ a ≤ 3) ∧ (1 ≤ b ∧ b ≤ 6) ∧ c = 10 * a + b := by
  obtain ⟨a, b, ha, hb, -, h2⟩ := reach h
  rw [checkAb_digits ha hb] at h2
  simp only [Except.ok.injEq, Prod.mk.injEq] at h2
  obtain ⟨rfl, -, -⟩ := h2
  split_ifs with h3 h4
  · exact ⟨a - 3, b - 3, by omega, by omega, rfl⟩
  · exact ⟨b, a, by omega, by omega, rfl⟩
  · exact ⟨a, b, by omega, by omega, rfl⟩

example : checkAb (.int 64) = .ok (31, true, true) := rfl
example : checkAb (.int 53) = .ok (35, false, true) := rfl
example : checkAb (.int 17) = .error .valueError := rfl
example : checkAb (.int (-11)) = .error .valueError := rfl

end Verif.Props
