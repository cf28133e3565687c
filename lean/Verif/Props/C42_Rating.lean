import Verif.Props.C42_Design
import Verif.Props.C42_Files

/-!
# C42: what a filter is rated by, and where its tables are stored
-/

namespace Verif.Props
open Verif.Fdesign Verif.Py

/-- The equations of the inversion at one point `r` (fdesign.py 1368-1374, C42_coefficients): the
filter values applied to the kernel are `r` times the transform. -/
def Solves {n : ℕ} (b j : Fin n → ℝ) (lhs g : ℝ → ℂ) (r : ℝ) : Prop :=
  ∑ k, lhs (b k / r) * (j k : ℂ) = g r * r

/-- A filter that solves the equations of the inversion at all points of the rating is rated with the
exact transform; for the pairs with both Bessel functions this is `g₀ + g₁ / r`. -/
theorem C42_response {n : ℕ} (d : Dlf n) (f : Pair) (r : List ℝ) (hr : ∀ x ∈ r, x ≠ 0) :
    (f.name ≠ "j2".toList → ∀ j g, d.coef f.name = some j → (∀ x ∈ r, Solves d.base j f.lhs g x) →
      response d f r = .ok (r.map g)) ∧
    (f.name = "j2".toList → ∀ j0 j1 g0 g1, d.coef "j0".toList = some j0 → d.coef "j1".toList = some j1 →
      (∀ x ∈ r, Solves d.base j0 f.lhs g0 x) → (∀ x ∈ r, Solves d.base j1 f.lhs1 g1 x) →
      response d f r = .ok (r.map fun x => g0 x + g1 x / x)) ∧
    (f.name ≠ "j2".toList → d.coef f.name = none → response d f r = .error .attributeError) ∧
    (f.name = "j2".toList → d.coef "j0".toList = none ∨ d.coef "j1".toList = none →
      response d f r = .error .attributeError) := by
  refine ⟨?_, ?_, ?_, ?_⟩
  · intro hn j g hj hs
    rw [response, if_neg hn, hj]
    refine congrArg _ (List.map_congr_left fun x hx => ?_)
    have h := hs x hx
    unfold Solves at h
    have h0 : (x : ℂ) ≠ 0 := by exact_mod_cast hr x hx
    rw [dot, h]; field_simp
  · intro hn j0 j1 g0 g1 h0 h1 s0 s1
    rw [response, if_pos hn, h0, h1]
    refine congrArg _ (List.map_congr_left fun x hx => ?_)
    have e0 := s0 x hx
    have e1 := s1 x hx
    unfold Solves at e0 e1
    have hx0 : (x : ℂ) ≠ 0 := by exact_mod_cast hr x hx
    rw [dot, dot, e0, e1]; field_simp
  · intro hn h
    rw [response, if_neg hn, h]
  · intro hn h
    rw [response, if_pos hn]
    rcases h with h | h
    · rw [h]
    · rw [h]; cases d.coef "j0".toList <;> rfl

example : Solves (fun _ : Fin 1 => (2 : ℝ)) (fun _ => 3) (fun k => (k : ℂ)) (fun r => 6 / (r : ℂ) ^ 2) 2 := by
  unfold Solves; norm_num

/-- Where the tables are: the name up to its first dot with `_full.txt`, and `.gz` exactly if there is
one dot in the name. -/
theorem C42_full_name (path s t : List Char) (hs : '.' ∉ s) (ht : '.' ∉ t) (u : List Char) :
    fullName path s = path ++ "/".toList ++ s ++ "_full.txt".toList ∧
    fullName path (s ++ '.' :: t) = path ++ "/".toList ++ s ++ "_full.txt.gz".toList ∧
    fullName path (s ++ '.' :: t ++ '.' :: u) = path ++ "/".toList ++ s ++ "_full.txt".toList := by
  have hst : ∀ w, stem (s ++ '.' :: w) = s := by
    intro w
    unfold stem
    rw [List.takeWhile_append_of_pos (fun a ha => by
      simp only [decide_not, Bool.not_eq_true', decide_eq_false_iff_not]; rintro rfl; exact hs ha)]
    simp
  have hs0 : stem s = s := by
    unfold stem
    rw [List.takeWhile_eq_self_iff]
    intro a ha
    simp only [decide_not, Bool.not_eq_true', decide_eq_false_iff_not]
    rintro rfl; exact hs ha
  have cs : s.count '.' = 0 := List.count_eq_zero.2 hs
  have ct : t.count '.' = 0 := List.count_eq_zero.2 ht
  refine ⟨?_, ?_, ?_⟩
  · rw [fullName, hs0, if_neg (by omega)]; simp
  · rw [fullName, hst, if_pos (by simp [cs, ct])]; simp
  · rw [show s ++ '.' :: t ++ '.' :: u = s ++ '.' :: (t ++ '.' :: u) by simp, fullName, hst, if_neg]
    · simp
    · simp [cs, ct]

example : fullName "d".toList "a.gz".toList = "d/a_full.txt.gz".toList := by decide

end Verif.Props
