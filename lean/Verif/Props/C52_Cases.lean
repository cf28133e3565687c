import Verif.Props.C52_Laplace
import Verif.Props.C35_Halfspace

/-!
# C52: concrete cases
-/

namespace Verif.Props
open Verif.Py Verif.Py.W Verif.Utils Verif.Spec Verif.Model Verif.Kernel Verif.Lemmas Verif.Transform Verif.Time
open Verif.Args Verif.Hank Verif.Fullspace

/-- The marine case in the Laplace domain. -/
noncomputable def marineLap : DipoleArgs := { marineArgs with freq := [-1, -10] }

theorem marineLap_describes : Describes marineLap marine := by
  obtain ⟨k, h⟩ := marine_describes
  refine ⟨0, .topDown false false (by simp [marineLap, marineArgs, marine, allDepths]) rfl rfl rfl rfl rfl rfl⟩

theorem marineLap_needs : Needs refH marineLap := by
  refine needs_user (U := marine) (by norm_num [refH, Mins.init]) marine_valid marineLap_describes
    (c := (24, true, false)) ?_ (by norm_num) ?_ ?_ (by simp [numDipoles, marineLap, marineArgs])
    (by simp [numDipoles, marineLap, marineArgs]) (by simp [marineLap]) (Or.inl fun h => ?_)
  · exact checkAb_digits (a := 2) (b := 4) (by norm_num) (by norm_num)
  · exact ⟨[0], [0], 950, rfl, by simp⟩
  · exact ⟨[1000, 2000, 3000], [0], 1000, rfl, by simp⟩
  · have := (h 0 (by simp [marine]) 1 (by simp [marine])).1
    norm_num [UserModel.rhoH, marine] at this

/-- QWE with its default arguments: `TypeError`, where positive frequencies give an array (C51). -/
example : (dipoleH refH marineLap "qwe" []).val = .error .typeError := by
  obtain ⟨d, hc, hd⟩ := qwe_default refH.C refH.lib refH.dflt marineLap.verb
  exact C52_types_violated refH marineLap marineLap_needs "qwe" [] hc (qwe_runs refH hd (by norm_num) (by norm_num))
    (Or.inl rfl) (by simp [marineLap])

theorem dlf_given (C : Conv) (lib : String → Option Val) (dflt : Val) (F : Filter) (v : ℤ) :
    ∃ d, (Verb.checkHankel C lib dflt "DLF" [("dlf", .filter ["base", "j0", "j1", "factor", "name"] F)] v).val =
      .ok ("dlf", d) ∧ DlfSet d F 0 := by
  have hq : lower "DLF" = "dlf" := by decide
  refine ⟨[("dlf", .filter ["base", "j0", "j1", "factor", "name"] F), ("pts_per_dec", .num 0)], ?_, ⟨_, rfl⟩, rfl⟩
  have h1 : (hankelSteps C lib dflt "dlf" v ⟨[("dlf", .filter ["base", "j0", "j1", "factor", "name"] F)], []⟩).val =
      .ok ⟨[], [("dlf", .filter ["base", "j0", "j1", "factor", "name"] F), ("pts_per_dec", .num 0)]⟩ := by
    rw [hankelSteps, if_pos rfl]
    have hf : (filterStep lib dflt ["base", "j0", "j1", "factor"]
        ⟨[("dlf", .filter ["base", "j0", "j1", "factor", "name"] F)], []⟩).val =
        .ok ⟨[], [("dlf", .filter ["base", "j0", "j1", "factor", "name"] F)]⟩ := by
      unfold filterStep
      simp [popVal, popRest, getFilter, needs, bind_val, pure_val, Except.bind]
    rw [bind_ok hf]
    simp [step, check, popVal, popRest, Args.ofExcept, C.flt_num, bind_val, pure_val, Except.bind]
  rw [Verb.checkHankel, hq, bind_ok h1]
  have h2 : (Verb.info "dlf" v [("dlf", .filter ["base", "j0", "j1", "factor", "name"] F), ("pts_per_dec", .num 0)]).val =
      .ok () := by
    unfold Verb.info
    by_cases hv : v > 2
    · rw [if_pos hv, if_pos rfl]
      simp [Verb.filterInfo, List.lookup, Verb.lines]
    · rw [if_neg hv]; exact pure_val ()
  rw [bind_ok h2]
  simp [unknown, bind_val, say_val, pure_val, Except.bind]

/-- The standard DLF with any filter: a (2, 3) array of real numbers. -/
example (F : Filter) : ∃ arr, (dipoleH refH marineLap "DLF"
      [("dlf", .filter ["base", "j0", "j1", "factor", "name"] F)]).val = .ok (NdArray.squeeze arr) ∧
    arr.squeeze.shape = [2, 3] ∧ (arr.get [1, 2, 0]).im = 0 := by
  obtain ⟨d, hc, hd⟩ := dlf_given refH.C refH.lib refH.dflt F marineLap.verb
  obtain ⟨arr, h1, h2, h3⟩ := C52_dlf (H := refH) (by norm_num [refH, Mins.init]) (by norm_num [refH, Mins.init])
    safe_exact csqrt_isSqrt hd hc (U := marine) marine_valid marineLap_describes (a := 2) (b := 4) (by norm_num)
    (by norm_num) rfl (xs := [0]) (ys := [0]) (zs := 950) (xr := [1000, 2000, 3000]) (yr := [0]) (zr := 1000) rfl rfl
    (by simp) (by simp) (checkAb_digits (a := 2) (b := 4) (by norm_num) (by norm_num))
    (by simp [numDipoles, marineLap, marineArgs]) (by simp [numDipoles, marineLap, marineArgs]) (by simp [marineLap])
    (Or.inr (by decide))
  refine ⟨arr, h1, ?_, ?_⟩
  · simp only [NdArray.squeeze, h2]; simp [marineLap, marineArgs, numDipoles]
  have hin : ∀ z : ℝ, 0 < z → z ≤ 1000 →
      (marine.medium ((max (-(-10)) refH.m.minFreq : ℝ) : ℂ)).InUpper 1 z := by
    intro z z0 z1
    refine ⟨by norm_num, by norm_num [UserModel.medium, marine], fun _ => ?_, fun _ => ?_⟩
    · simpa [UserModel.medium, marine] using z0
    · simpa [UserModel.medium, marine] using z1
  obtain ⟨u, v, h, -⟩ := h3 1 2 0 (by simp [marineLap]) (by simp [numDipoles, marineLap, marineArgs])
    (by simp [numDipoles, marineLap, marineArgs]) 1 1 (hin 950 (by norm_num) (by norm_num))
    (hin 1000 (by norm_num) (by norm_num))
  rw [h, Complex.ofReal_im]

/-- Sea water (0.3 Ohm m) at `s = 1`. -/
noncomputable def seaMed : Med := ⟨((10 / 3 + 8.8e-12 : ℝ) : ℂ), ((10 / 3 + 8.8e-12 : ℝ) : ℂ), ((1.2e-6 : ℝ) : ℂ), ((1.2e-6 : ℝ) : ℂ)⟩

theorem seaMed_laplace : LaplaceMed seaMed where
  etaH := ⟨_, by norm_num, rfl⟩
  etaV := ⟨_, by norm_num, rfl⟩
  zetaH := ⟨_, by norm_num, rfl⟩
  zetaV := ⟨_, by norm_num, rfl⟩
  ne := by
    change (((10 / 3 + 8.8e-12 : ℝ)) : ℂ) ≠ 0
    exact_mod_cast (by norm_num : (10 / 3 + 8.8e-12 : ℝ) ≠ 0)

/-- `ab=45`: `nan`; `ab=46`: a real number. -/
example : fullspaceReal csqrt seaMed 500 0.3 950 1000 12 true true = none ∧
    ∃ v : ℝ, fullspaceReal csqrt seaMed 500 0.3 950 1000 13 true true = some (v : ℂ) := by
  refine ⟨C52_direct_violated csqrt seaMed_laplace 500 0.3 950 1000 (a := 4) (b := 5) (by simp) (by simp)
    ((checkAb_digits (a := 4) (b := 5) (by norm_num) (by norm_num)).trans (by simp)), ?_⟩
  obtain ⟨v, h, -⟩ := C52_direct (abc := 13) (ms := true) (mr := true) csqrt_isSqrt seaMed_laplace 500 0.3 950 1000 (a := 4) (b := 6) (by norm_num) (by norm_num)
    (by simp) ((checkAb_digits (a := 4) (b := 6) (by norm_num) (by norm_num)).trans (by simp)) (by norm_num)
  exact ⟨v, h⟩

/-- The kernels of the marine case at `s = 1` are real. -/
example (lam : ℝ) : let k := wavenumber Ops.exact (earthOf (marine.medium (1 : ℝ))) 950 1000 1 1 lam 24 true true false
    RealOpt k.1 ∧ RealOpt k.2.1 ∧ RealOpt k.2.2 := by
  have hin : ∀ z : ℝ, 0 < z → z ≤ 1000 → (marine.medium (1 : ℝ)).InUpper 1 z := by
    intro z z0 z1
    refine ⟨by norm_num, by norm_num [UserModel.medium, marine], fun _ => ?_, fun _ => ?_⟩
    · simpa [UserModel.medium, marine] using z0
    · simpa [UserModel.medium, marine] using z1
  exact C52_kernel (user_ok (m := Mins.init) (by norm_num [Mins.init]) marine_valid (by simp) (by simp))
    (user_real (by norm_num) marine_valid (by norm_num)) safe_exact lam
    (upper_closed (hin 950 (by norm_num) (by norm_num))) (upper_closed (hin 1000 (by norm_num) (by norm_num)))
    (fun h => by norm_num at h) (ab := .int 24) (checkAb_digits (a := 2) (b := 4) (by norm_num) (by norm_num)) true

end Verif.Props
