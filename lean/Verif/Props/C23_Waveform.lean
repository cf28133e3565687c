import Verif.Model.Waveform
import Mathlib.MeasureTheory.Integral.IntervalIntegral.Basic
import Mathlib.Data.List.GetD
import Mathlib.Analysis.SpecialFunctions.Integrals.Basic

/-!
# C23 — arbitrary waveforms are the telescoping superposition of step or impulse responses
-/

namespace Verif.Props
open Verif.Waveform

/-! ## Specification -/

/-- Piecewise linear current through the points (node, amplitude), constant outside. -/
noncomputable def current : List (ℝ × ℝ) → ℝ → ℝ
  | [], _ => 0
  | [p], _ => p.2
  | p :: q :: l, t =>
    open Classical in
    if t ≤ p.1 then p.2
    else if t ≤ q.1 then p.2 + (q.2 - p.2) * ((t - p.1) / (q.1 - p.1))
    else current (q :: l) t

/-- Its slope; zero before the first and after the last node. -/
noncomputable def slopeAt : List (ℝ × ℝ) → ℝ → ℝ
  | [], _ => 0
  | [_], _ => 0
  | p :: q :: l, t =>
    open Classical in
    if t ≤ p.1 then 0
    else if t ≤ q.1 then (q.2 - p.2) / (q.1 - p.1)
    else slopeAt (q :: l) t

/-- Nodes strictly increasing. -/
def Increasing (w : List (ℝ × ℝ)) : Prop := w.Pairwise fun p q => p.1 < q.1

/-- The rule integrates `f` exactly from `c` to `d`. -/
def ExactOn (Q : Quad) (f : ℝ → ℝ) (c d : ℝ) : Prop :=
  ∑ q ∈ Finset.range Q.n, f ((d - c) / 2 * Q.x q + (c + d) / 2) * Q.w q * ((d - c) / 2) = ∫ u in c..d, f u

/-- Contribution of one segment to time `t`, for response `R`. -/
noncomputable def contribution (Q : Quad) (R : ℝ → ℝ) (t : ℝ) (s : Seg) : ℝ :=
  open Classical in
  if s.a < t then
    -s.slope * (∑ q ∈ Finset.range Q.n,
      R ((max (t - s.b) 0 - (t - s.a)) / 2 * Q.x q + ((t - s.a) + max (t - s.b) 0) / 2) * Q.w q *
        (((t - s.a) - max (t - s.b) 0) / 2))
  else 0

/-! ## The code computes the sum of the contributions -/

theorem listSum_range (n : ℕ) (f : ℕ → ℝ) :
    ((List.range n).map f).sum = ∑ k ∈ Finset.range n, f k := by
  induction n with
  | zero => simp
  | succ n ih => rw [List.range_succ, List.map_append, List.sum_append, ih, Finset.sum_range_succ]; simp

theorem tEnd_eq (s : Seg) (t : ℝ) : tEnd s t = max (t - s.b) 0 := by
  unfold tEnd
  split_ifs with h
  · rw [max_eq_right (by linarith)]
  · rw [max_eq_left (by linarith)]

theorem seg_eq (Q : Quad) (R : ℝ → ℝ) (s : Seg) (t : ℝ) :
    ((List.range Q.n).map fun q => R (compTime Q s t q) * Q.w q).sum * segWeight s t =
      contribution Q R t s := by
  rw [listSum_range]
  unfold compTime segWeight contribution
  split_ifs with h
  · simp only [tEnd_eq, Finset.sum_mul, Finset.mul_sum]
    refine Finset.sum_congr rfl fun q _ => ?_
    ring
  · simp

theorem lookup (l : List ℝ) (tmin : ℝ) (R : ℝ → ℝ) (x : ℝ) (hx : x ∈ l) :
    (((unique l).map (cut tmin)).map R).getD (mapTime (unique l) x) 0 = R (cut tmin x) := by
  classical
  have hu : x ∈ unique l := by unfold unique; simp [hx]
  have hi : mapTime (unique l) x < (unique l).length := by
    unfold mapTime; exact List.idxOf_lt_length_of_mem hu
  rw [List.getD_eq_getElem _ _ (by simpa using hi)]
  simp only [List.getElem_map]
  congr 2
  unfold mapTime
  exact List.getElem_idxOf (List.idxOf_lt_length_of_mem hu)

theorem used_sum (time : List ℝ) (t : ℝ) (ht : t ∈ time) (Q : Quad) (R : ℝ → ℝ) (segs : List Seg) :
    ((used time segs).map (contribution Q R t)).sum = (segs.map (contribution Q R t)).sum := by
  unfold used
  induction segs with
  | nil => rfl
  | cons s l ih =>
    by_cases hs : (decide (s.slope ≠ 0) && decide (∃ t ∈ time, s.a < t)) = true
    · rw [List.filter_cons, if_pos hs, List.map_cons, List.sum_cons, ih, List.map_cons, List.sum_cons]
    · rw [List.filter_cons, if_neg hs, ih, List.map_cons, List.sum_cons]
      have : contribution Q R t s = 0 := by
        unfold contribution
        split_ifs with ha
        · have h0 : s.slope = 0 := by
            by_contra hne
            exact hs (by simp only [Bool.and_eq_true, decide_eq_true_eq]; exact ⟨hne, t, ht, ha⟩)
          simp [h0]
        · rfl
      rw [this, zero_add]

/-- **C23, superposition.**  For every response `R` the waveform function applied to the response at the
computed times gives, for every time, the sum over all segments of their contributions; segments that are
skipped, repeated times and segments after the time do not matter. -/
theorem C23_superposition (Q : Quad) (tmin : ℝ) (time nodes amps : List ℝ)
    (ct : List ℝ) (app : List ℝ → List ℝ) (h : checkWaveform Q tmin time nodes amps = some (ct, app))
    (R : ℝ → ℝ) :
    app (ct.map R) = time.map fun t =>
      ((segments nodes amps).map (contribution Q (fun x => R (max x tmin)) t)).sum := by
  unfold checkWaveform at h
  simp only at h
  split_ifs at h
  obtain ⟨rfl, rfl⟩ := Prod.mk.inj (Option.some.inj h)
  have hcut : ∀ x, cut tmin x = max x tmin := fun x => by
    unfold cut; split_ifs with hx
    · rw [max_eq_right hx.le]
    · rw [max_eq_left (not_lt.1 hx)]
  refine List.map_congr_left fun t ht => ?_
  rw [← used_sum time t ht]
  unfold applyWaveform
  congr 1
  refine List.map_congr_left fun s hs => ?_
  rw [← seg_eq]
  congr 2
  refine List.map_congr_left fun q hq => ?_
  rw [lookup, hcut]
  simp only [allTimes, List.mem_flatMap, List.mem_map]
  exact ⟨t, ht, q, hq, s, hs, rfl⟩

/-- **C23, computation times.**  They are never below the minimum time. -/
theorem C23_times (Q : Quad) (tmin : ℝ) (time nodes amps : List ℝ)
    (ct : List ℝ) (app : List ℝ → List ℝ) (h : checkWaveform Q tmin time nodes amps = some (ct, app)) :
    ct ≠ [] ∧ ∀ x ∈ ct, tmin ≤ x := by
  unfold checkWaveform at h
  simp only at h
  split_ifs at h with h0
  obtain ⟨rfl, rfl⟩ := Prod.mk.inj (Option.some.inj h)
  refine ⟨fun he => h0 (by rw [he]; rfl), fun x hx => ?_⟩
  obtain ⟨y, _, rfl⟩ := List.mem_map.1 hx
  unfold cut
  split_ifs with hy
  · exact le_rfl
  · exact not_lt.1 hy

/-- **C23, rejection.**  With at least one time and quadrature point, the call raises exactly if no
segment with a change of current starts before one of the times. -/
theorem C23_raises (Q : Quad) (hQ : 0 < Q.n) (tmin : ℝ) (time nodes amps : List ℝ) :
    checkWaveform Q tmin time nodes amps = none ↔
      ∀ s ∈ segments nodes amps, ∀ t ∈ time, s.slope ≠ 0 → t ≤ s.a := by
  classical
  have hU : used time (segments nodes amps) = [] ↔
      ∀ s ∈ segments nodes amps, ∀ t ∈ time, s.slope ≠ 0 → t ≤ s.a := by
    unfold used
    rw [List.filter_eq_nil_iff]
    refine forall₂_congr fun s _ => ?_
    simp only [Bool.and_eq_true, decide_eq_true_eq, not_and, not_exists, not_lt]
    exact ⟨fun h t ht hs => h hs t ht, fun h hs t ht => h t ht hs⟩
  rw [← hU]
  unfold checkWaveform
  simp only
  rw [ite_eq_left_iff]
  constructor
  · intro h
    by_contra hne
    obtain ⟨s, hs⟩ := List.exists_mem_of_ne_nil _ hne
    have : ∃ t ∈ time, s.a < t := by
      have := (List.mem_filter.1 hs).2
      simp only [Bool.and_eq_true, decide_eq_true_eq] at this
      exact this.2
    obtain ⟨t, ht, _⟩ := this
    have hmem : compTime Q s t 0 ∈ unique (allTimes Q time (used time (segments nodes amps))) := by
      unfold unique
      simp only [allTimes, Finset.mem_sort, List.mem_toFinset, List.mem_flatMap, List.mem_map]
      exact ⟨t, ht, 0, by simpa using hQ, s, hs, rfl⟩
    have := h (by
      rw [List.length_map]
      exact (List.length_pos_of_mem hmem).ne')
    simp at this
  · intro h h0
    refine absurd ?_ h0
    rw [h]
    simp [allTimes, unique]

/-! ## The sum is the convolution -/

theorem segments_cons (p q : ℝ × ℝ) (l : List (ℝ × ℝ)) :
    segments ((p :: q :: l).map Prod.fst) ((p :: q :: l).map Prod.snd) =
      ⟨p.1, q.1, (q.2 - p.2) / (q.1 - p.1)⟩ ::
        segments ((q :: l).map Prod.fst) ((q :: l).map Prod.snd) := by
  simp [segments]

theorem later_zero (Q : Quad) (R : ℝ → ℝ) (t : ℝ) : ∀ (l : List (ℝ × ℝ)), (∀ r ∈ l, t ≤ r.1) →
    ((segments (l.map Prod.fst) (l.map Prod.snd)).map (contribution Q R t)).sum = 0 := by
  intro l
  induction l with
  | nil => intro _; simp [segments]
  | cons r l ih =>
    intro h
    cases l with
    | nil => simp [segments]
    | cons r' l =>
      rw [segments_cons, List.map_cons, List.sum_cons, ih fun x hx => h x (List.mem_cons_of_mem _ hx),
        contribution, if_neg (not_lt.2 (h r (by simp))), add_zero]

theorem contribution_exact (Q : Quad) (R : ℝ → ℝ) (t : ℝ) (s : Seg) (ha : s.a < t)
    (hex : ExactOn Q R (t - s.a) (max (t - s.b) 0)) :
    contribution Q R t s = -(s.slope * ∫ x in s.a..min s.b t, R (t - x)) := by
  have h1 : t - min s.b t = max (t - s.b) 0 := by
    rw [← max_sub_sub_left, sub_self]
  unfold contribution
  rw [if_pos ha, intervalIntegral.integral_comp_sub_left (fun u => R u) t, h1,
    intervalIntegral.integral_symm, ← hex]
  simp only [Finset.mul_sum, neg_mul, ← Finset.sum_neg_distrib]
  refine Finset.sum_congr rfl fun q _ => ?_
  ring

/-- **C23, convolution.**  If the quadrature rule is exact for the response on the segments, the result at
time `t` is minus the convolution of the response with the slope of the current, from the first node to
`t`. -/
theorem C23_convolution (Q : Quad) (R : ℝ → ℝ) (t : ℝ) : ∀ (w : List (ℝ × ℝ)), Increasing w →
    (∀ s ∈ segments (w.map Prod.fst) (w.map Prod.snd), s.a < t →
      ExactOn Q R (t - s.a) (max (t - s.b) 0)) →
    (∀ p ∈ w, p.1 < t → IntervalIntegrable (fun x => R (t - x)) MeasureTheory.volume p.1 t) →
    ∀ p ∈ w.head?, p.1 ≤ t →
    IntervalIntegrable (fun x => slopeAt w x * R (t - x)) MeasureTheory.volume p.1 t ∧
    ((segments (w.map Prod.fst) (w.map Prod.snd)).map (contribution Q R t)).sum =
      -∫ x in p.1..t, slopeAt w x * R (t - x) := by
  intro w
  induction w with
  | nil => intro _ _ _ p hp; simp at hp
  | cons p l ih =>
    intro hw hex hint p' hp' hpt
    obtain rfl : p = p' := by simpa using hp'
    cases l with
    | nil => simp [segments, slopeAt]
    | cons q l =>
      have hpq : p.1 < q.1 := (List.pairwise_cons.1 hw).1 q (by simp)
      have hw' : Increasing (q :: l) := (List.pairwise_cons.1 hw).2
      rw [segments_cons] at hex ⊢
      rw [List.map_cons, List.sum_cons]
      have hex' : ∀ s ∈ segments ((q :: l).map Prod.fst) ((q :: l).map Prod.snd), s.a < t →
          ExactOn Q R (t - s.a) (max (t - s.b) 0) := fun s hs => hex s (List.mem_cons_of_mem _ hs)
      have hint' : ∀ r ∈ q :: l, r.1 < t →
          IntervalIntegrable (fun x => R (t - x)) MeasureTheory.volume r.1 t :=
        fun r hr => hint r (List.mem_cons_of_mem _ hr)
      rcases eq_or_lt_of_le hpt with heq | hlt
      · -- nothing has happened yet
        rw [heq]
        refine ⟨by simp, ?_⟩
        rw [intervalIntegral.integral_same, neg_zero]
        rw [later_zero Q R t (q :: l) fun r hr => by
          have := (List.pairwise_cons.1 hw).1 r hr; linarith]
        rw [contribution, if_neg (by simp [heq]), add_zero]
      · have hI := hint p (by simp) hlt
        have hc := contribution_exact Q R t ⟨p.1, q.1, (q.2 - p.2) / (q.1 - p.1)⟩ hlt
          (hex _ (by simp) hlt)
        simp only at hc
        rw [hc]
        have hmin : p.1 ≤ min q.1 t := le_min hpq.le hlt.le
        -- the first segment
        have hfirst : Set.EqOn (fun x => slopeAt (p :: q :: l) x * R (t - x))
            (fun x => (q.2 - p.2) / (q.1 - p.1) * R (t - x)) (Set.uIoc p.1 (min q.1 t)) := by
          intro x hx
          rw [Set.uIoc_of_le hmin] at hx
          have h1 : ¬ x ≤ p.1 := not_le.2 hx.1
          have h2 : x ≤ q.1 := hx.2.trans (min_le_left _ _)
          simp only [slopeAt, if_neg h1, if_pos h2]
        have hIf : IntervalIntegrable (fun x => R (t - x)) MeasureTheory.volume p.1 (min q.1 t) := by
          refine hI.mono_set ?_
          rw [Set.uIcc_of_le hmin, Set.uIcc_of_le hlt.le]
          exact Set.Icc_subset_Icc_right (min_le_right _ _)
        have hIs : IntervalIntegrable (fun x => slopeAt (p :: q :: l) x * R (t - x))
            MeasureTheory.volume p.1 (min q.1 t) :=
          (hIf.const_mul _).congr fun x hx => (hfirst hx).symm
        have e1 : ∫ x in p.1..min q.1 t, slopeAt (p :: q :: l) x * R (t - x) =
            (q.2 - p.2) / (q.1 - p.1) * ∫ x in p.1..min q.1 t, R (t - x) := by
          rw [← intervalIntegral.integral_const_mul]
          exact intervalIntegral.integral_congr_ae (Filter.Eventually.of_forall fun x hx => hfirst hx)
        by_cases hqt : q.1 ≤ t
        · rw [min_eq_left hqt] at *
          obtain ⟨j1, j2⟩ := ih hw' hex' hint' q (by simp) hqt
          have hrest : Set.EqOn (fun x => slopeAt (p :: q :: l) x * R (t - x))
              (fun x => slopeAt (q :: l) x * R (t - x)) (Set.uIoc q.1 t) := by
            intro x hx
            rw [Set.uIoc_of_le hqt] at hx
            have h1 : ¬ x ≤ p.1 := not_le.2 (hpq.trans hx.1)
            have h2 : ¬ x ≤ q.1 := not_le.2 hx.1
            simp only [slopeAt, if_neg h1, if_neg h2]
          have j1' : IntervalIntegrable (fun x => slopeAt (p :: q :: l) x * R (t - x))
              MeasureTheory.volume q.1 t := j1.congr fun x hx => (hrest hx).symm
          refine ⟨hIs.trans j1', ?_⟩
          rw [j2, ← intervalIntegral.integral_add_adjacent_intervals hIs j1', e1]
          have e2 : ∫ x in q.1..t, slopeAt (p :: q :: l) x * R (t - x) =
              ∫ x in q.1..t, slopeAt (q :: l) x * R (t - x) :=
            intervalIntegral.integral_congr_ae (Filter.Eventually.of_forall fun x hx => hrest hx)
          rw [e2]; ring
        · have hqt := not_le.1 hqt
          rw [min_eq_right hqt.le] at *
          refine ⟨hIs, ?_⟩
          rw [e1]
          have h0 : ((segments ((q :: l).map Prod.fst) ((q :: l).map Prod.snd)).map
              (contribution Q R t)).sum = 0 := by
            refine later_zero Q R t _ fun r hr => ?_
            rcases List.mem_cons.1 hr with rfl | hr
            · exact hqt.le
            · have := (List.pairwise_cons.1 hw').1 r hr; linarith
          rw [h0, add_zero]

/-- **C23, from the input to the output.**  For an increasing sequence of nodes, a continuous response and
a rule that is exact for it, the code returns for every time after the first node minus the convolution of
the slope of the current with the response (held constant below the minimum time).
Missing: the sign is not that of a convolution (`C23_sign_violated`), and the rule is exact only for some
responses (`C23_quadrature`). -/
theorem C23_response_partial (Q : Quad) (tmin : ℝ) (time : List ℝ) (p : ℝ × ℝ) (l : List (ℝ × ℝ))
    (hw : Increasing (p :: l)) (ct : List ℝ) (app : List ℝ → List ℝ)
    (h : checkWaveform Q tmin time ((p :: l).map Prod.fst) ((p :: l).map Prod.snd) = some (ct, app))
    (R : ℝ → ℝ) (hR : Continuous R) (ht : ∀ t ∈ time, p.1 ≤ t)
    (hex : ∀ t ∈ time, ∀ s ∈ segments ((p :: l).map Prod.fst) ((p :: l).map Prod.snd), s.a < t →
      ExactOn Q (fun x => R (max x tmin)) (t - s.a) (max (t - s.b) 0)) :
    app (ct.map R) = time.map fun t =>
      -∫ x in p.1..t, slopeAt (p :: l) x * R (max (t - x) tmin) := by
  rw [C23_superposition Q tmin time _ _ ct app h R]
  refine List.map_congr_left fun t htt => ?_
  refine (C23_convolution Q (fun x => R (max x tmin)) t (p :: l) hw (hex t htt) (fun r _ _ => ?_) p
    (by simp) (ht t htt)).2
  have : Continuous fun x => R (max (t - x) tmin) :=
    hR.comp ((continuous_const.sub continuous_id).max continuous_const)
  exact this.intervalIntegrable _ _

theorem current_le_first (p : ℝ × ℝ) (l : List (ℝ × ℝ)) (t : ℝ) (h : t ≤ p.1) :
    current (p :: l) t = p.2 := by
  cases l with
  | nil => rfl
  | cons q l => simp [current, h]

theorem contribution_const (Q : Quad) (hQ : ∑ q ∈ Finset.range Q.n, Q.w q = 2) (c t : ℝ) (s : Seg)
    (hs : s.a < t) : contribution Q (fun _ => c) t s = -c * (s.slope * (min s.b t - s.a)) := by
  have h1 : t - min s.b t = max (t - s.b) 0 := by
    rw [← max_sub_sub_left, sub_self]
  rw [contribution, if_pos hs, ← Finset.sum_mul, ← Finset.mul_sum, hQ, ← h1]
  ring

theorem telescoping (Q : Quad) (hQ : ∑ q ∈ Finset.range Q.n, Q.w q = 2) (c t : ℝ) :
    ∀ (l : List (ℝ × ℝ)) (p : ℝ × ℝ), Increasing (p :: l) →
    ((segments ((p :: l).map Prod.fst) ((p :: l).map Prod.snd)).map
      (contribution Q (fun _ => c) t)).sum = -c * (current (p :: l) t - p.2) := by
  intro l
  induction l with
  | nil => intro p _; simp [segments, current]
  | cons q l ih =>
    intro p hw
    have hpq : p.1 < q.1 := (List.pairwise_cons.1 hw).1 q (by simp)
    have hw' : Increasing (q :: l) := (List.pairwise_cons.1 hw).2
    rw [segments_cons, List.map_cons, List.sum_cons, ih q hw']
    have hd : q.1 - p.1 ≠ 0 := by linarith [hpq]
    by_cases h1 : t ≤ p.1
    · rw [contribution, if_neg (not_lt.2 h1), current_le_first q l t (by linarith),
        current_le_first p (q :: l) t h1]
      ring
    · rw [contribution_const Q hQ c t _ (not_le.1 h1)]
      by_cases h2 : t ≤ q.1
      · rw [current_le_first q l t h2]
        simp only [current, if_neg h1, if_pos h2, min_eq_right h2]
        field_simp
        ring
      · simp only [current, if_neg h1, if_neg h2, min_eq_left (not_le.1 h2).le]
        field_simp
        ring

theorem causal (Q : Quad) (R : ℝ → ℝ) (t : ℝ) (p : ℝ × ℝ) (hp : t ≤ p.1) (l₁ l₂ : List (ℝ × ℝ)) :
    ∀ (w : List (ℝ × ℝ)), Increasing (w ++ p :: l₁) → Increasing (w ++ p :: l₂) →
    ((segments ((w ++ p :: l₁).map Prod.fst) ((w ++ p :: l₁).map Prod.snd)).map
      (contribution Q R t)).sum =
    ((segments ((w ++ p :: l₂).map Prod.fst) ((w ++ p :: l₂).map Prod.snd)).map
      (contribution Q R t)).sum := by
  have tail : ∀ l : List (ℝ × ℝ), Increasing (p :: l) → ∀ r ∈ p :: l, t ≤ r.1 := by
    intro l hl r hr
    rcases List.mem_cons.1 hr with rfl | hr
    · exact hp
    · exact hp.trans ((List.pairwise_cons.1 hl).1 r hr).le
  intro w
  induction w with
  | nil => intro h1 h2; rw [List.nil_append, List.nil_append, later_zero Q R t _ (tail _ h1),
      later_zero Q R t _ (tail _ h2)]
  | cons a w ih =>
    intro h1 h2
    have i := ih (List.pairwise_cons.1 h1).2 (List.pairwise_cons.1 h2).2
    cases w with
    | nil =>
      simp only [List.cons_append, List.nil_append] at i ⊢
      rw [segments_cons, segments_cons]
      exact congrArg (contribution Q R t _ + ·) i
    | cons b w =>
      simp only [List.cons_append] at i ⊢
      rw [segments_cons, segments_cons]
      exact congrArg (contribution Q R t _ + ·) i

/-- **C23, telescoping.**  For a constant response the segments telescope: the code returns minus the
response times the change of the current since the first node. -/
theorem C23_telescoping (Q : Quad) (hQ : ∑ q ∈ Finset.range Q.n, Q.w q = 2) (tmin : ℝ)
    (time : List ℝ) (p : ℝ × ℝ) (l : List (ℝ × ℝ)) (hw : Increasing (p :: l)) (ct : List ℝ)
    (app : List ℝ → List ℝ)
    (h : checkWaveform Q tmin time ((p :: l).map Prod.fst) ((p :: l).map Prod.snd) = some (ct, app))
    (c : ℝ) :
    app (ct.map fun _ => c) = time.map fun t => -c * (current (p :: l) t - p.2) := by
  rw [C23_superposition Q tmin time _ _ ct app h fun _ => c]
  exact List.map_congr_left fun t _ => telescoping Q hQ c t l p hw

/-- **C23, causality.**  What the current does after the last time does not change the result. -/
theorem C23_causal (Q : Quad) (tmin : ℝ) (time : List ℝ) (w l₁ l₂ : List (ℝ × ℝ)) (p : ℝ × ℝ)
    (hp : ∀ t ∈ time, t ≤ p.1) (h₁ : Increasing (w ++ p :: l₁)) (h₂ : Increasing (w ++ p :: l₂))
    (ct₁ ct₂ : List ℝ) (app₁ app₂ : List ℝ → List ℝ)
    (e₁ : checkWaveform Q tmin time ((w ++ p :: l₁).map Prod.fst) ((w ++ p :: l₁).map Prod.snd) =
      some (ct₁, app₁))
    (e₂ : checkWaveform Q tmin time ((w ++ p :: l₂).map Prod.fst) ((w ++ p :: l₂).map Prod.snd) =
      some (ct₂, app₂)) (R : ℝ → ℝ) : app₁ (ct₁.map R) = app₂ (ct₂.map R) := by
  rw [C23_superposition Q tmin time _ _ ct₁ app₁ e₁, C23_superposition Q tmin time _ _ ct₂ app₂ e₂]
  exact List.map_congr_left fun t ht => causal Q _ t p (hp t ht) l₁ l₂ w h₁ h₂

/-- **C23, sign.**  The documentation says that `signal` is convolved with the waveform.  For a ramp from
current 0 to 1 and a constant response the code returns the negative of the response. -/
theorem C23_sign_violated (Q : Quad) (hQ : ∑ q ∈ Finset.range Q.n, Q.w q = 2) (tmin a b t : ℝ)
    (hab : a < b) (hbt : b < t) (ct : List ℝ) (app : List ℝ → List ℝ)
    (h : checkWaveform Q tmin [t] [a, b] [0, 1] = some (ct, app)) (c : ℝ) :
    app (ct.map fun _ => c) = [-c] := by
  have hw : Increasing [(a, (0 : ℝ)), (b, 1)] := by simp [Increasing, hab]
  rw [C23_telescoping Q hQ tmin [t] (a, 0) [(b, 1)] hw ct app h c]
  have h1 : ¬ t ≤ a := by linarith
  have h2 : ¬ t ≤ b := by linarith
  simp [current, h1, h2]

/-- The default rule, `roots_legendre(3)`. -/
noncomputable def gauss3 : Quad :=
  ⟨3, fun q => if q = 0 then -√(3 / 5) else if q = 1 then 0 else √(3 / 5),
    fun q => if q = 1 then 8 / 9 else 5 / 9⟩

/-- **C23, quadrature.**  The default rule is exact for polynomials up to degree five. -/
theorem C23_quadrature (a : ℕ → ℝ) (c d : ℝ) :
    ExactOn gauss3 (fun x => ∑ k ∈ Finset.range 6, a k * x ^ k) c d := by
  have hi : ∫ u in c..d, ∑ k ∈ Finset.range 6, a k * u ^ k =
      ∑ k ∈ Finset.range 6, a k * ((d ^ (k + 1) - c ^ (k + 1)) / ((k : ℝ) + 1)) := by
    rw [intervalIntegral.integral_finset_sum fun k _ => Continuous.intervalIntegrable (by fun_prop) _ _]
    refine Finset.sum_congr rfl fun k _ => ?_
    rw [intervalIntegral.integral_const_mul, integral_pow]
  have hs : √(3 / 5 : ℝ) ^ 2 = 3 / 5 := Real.sq_sqrt (by norm_num)
  unfold ExactOn
  rw [hi]
  simp only [gauss3]
  generalize √(3 / 5 : ℝ) = r at hs
  have h4 : r ^ 4 = 9 / 25 := by rw [show r ^ 4 = (r ^ 2) ^ 2 by ring, hs]; norm_num
  simp only [Finset.sum_range_succ, Finset.sum_range_zero, if_true, one_ne_zero, if_false,
    OfNat.ofNat_ne_zero, OfNat.ofNat_ne_one, zero_ne_one]
  push_cast
  ring_nf
  rw [hs, h4]
  ring

/-! ## Examples -/

/-- The rule with one point. -/
noncomputable def midpoint : Quad := ⟨1, fun _ => 0, fun _ => 2⟩

theorem midpoint_sum : ∑ q ∈ Finset.range midpoint.n, midpoint.w q = 2 := by simp [midpoint]

/-- The midpoint rule is exact for linear responses. -/
theorem midpoint_exact (m n c d : ℝ) : ExactOn midpoint (fun x => m * x + n) c d := by
  have : ∫ u in c..d, (m * u + n) = m * ((d ^ 2 - c ^ 2) / 2) + (d - c) * n := by
    rw [intervalIntegral.integral_add (Continuous.intervalIntegrable (by fun_prop) _ _) (by simp),
      intervalIntegral.integral_const_mul, integral_id, intervalIntegral.integral_const, smul_eq_mul]
  unfold ExactOn
  rw [this]
  simp [midpoint]
  ring

/-- Trapezoid 0, 1, 1, 0 with nodes 0, 1, 2, 4 and two times: the call succeeds. -/
example : checkWaveform midpoint (1 / 10) [3 / 2, 5] [0, 1, 2, 4] [0, 1, 1, 0] ≠ none := by
  rw [Ne, C23_raises _ (by simp [midpoint])]
  push Not
  refine ⟨⟨0, 1, (1 - 0) / (1 - 0)⟩, by simp [segments], 3 / 2, by simp, by norm_num, by norm_num⟩

/-- Nothing to compute before the waveform starts. -/
example : checkWaveform midpoint (1 / 10) [3 / 2, 5] [6, 7] [0, 1] = none := by
  rw [C23_raises _ (by simp [midpoint])]
  intro s hs t ht _
  simp [segments] at hs
  subst hs
  simp at ht
  rcases ht with rfl | rfl <;> norm_num

/-- After the trapezoid the current is back to zero, and a constant response cancels. -/
example : ((segments [0, 1, 2, 4] [0, 1, 1, 0]).map (contribution midpoint (fun _ => 7) 5)).sum = 0 := by
  have := telescoping midpoint midpoint_sum 7 5 [(1, 1), (2, 1), (4, 0)] (0, 0)
    (by simp [Increasing]; norm_num)
  simp only [List.map_cons, List.map_nil] at this
  rw [this]
  norm_num [current]

/-- In the middle of the last ramp. -/
example : ((segments [0, 1, 2, 4] [0, 1, 1, 0]).map (contribution midpoint (fun _ => 7) 3)).sum
    = -7 / 2 := by
  have := telescoping midpoint midpoint_sum 7 3 [(1, 1), (2, 1), (4, 0)] (0, 0)
    (by simp [Increasing]; norm_num)
  simp only [List.map_cons, List.map_nil] at this
  rw [this]
  norm_num [current]

/-- Linear response: the assumptions of the convolution theorem hold. -/
example (m n : ℝ) : ((segments [0, 1] [0, 1]).map (contribution midpoint (fun x => m * x + n) 3)).sum =
    -∫ x in (0 : ℝ)..3, slopeAt [(0, 0), (1, 1)] x * (m * (3 - x) + n) :=
  (C23_convolution midpoint (fun x => m * x + n) 3 [(0, 0), (1, 1)] (by simp [Increasing])
    (fun s _ _ => midpoint_exact m n _ _) (fun p _ _ => Continuous.intervalIntegrable (by fun_prop) _ _)
    (0, 0) (by simp) (by norm_num)).2

/-- A change of the current after the time has no effect. -/
example (R : ℝ → ℝ) : ((segments [0, 2, 3] [0, 1, 8]).map (contribution midpoint R 1)).sum =
    ((segments [0, 2] [0, 1]).map (contribution midpoint R 1)).sum := by
  have := causal midpoint R 1 (2, 1) (by norm_num) [(3, 8)] [] [(0, 0)]
    (by simp [Increasing]; norm_num) (by simp [Increasing])
  simpa using this

end Verif.Props
