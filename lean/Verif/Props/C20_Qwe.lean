import Verif.Model.Qwe
import Mathlib.Analysis.SpecificLimits.Normed
import Mathlib.Algebra.BigOperators.Field

/-!
# C20 — QWE reports convergence honestly and returns the extrapolated value
-/

namespace Verif.Props
open Verif.Transform

/-! ## Specification: Wynn's epsilon algorithm -/

/-- The epsilon table, with `eps 0 = ε₋₁ = 0`, `eps 1 = ε₀` the partial sums and
`ε_{k+1}(n) = ε_{k-1}(n+1) + 1/(ε_k(n+1) - ε_k(n))`; a difference that is too small gives `big`. -/
noncomputable def eps (p : QPar) (s : ℕ → ℂ) : ℕ → ℕ → ℂ
  | 0, _ => 0
  | 1, n => s n
  | k + 2, n => recip p (eps p s k (n + 1)) (eps p s (k + 1) (n + 1) - eps p s (k + 1) n)

/-- Sum over the intervals 1, ..., n (without the first, which is added at the end). -/
noncomputable def partialSum (t : ℕ → ℂ) (n : ℕ) : ℂ := ∑ i ∈ Finset.range n, t (i + 1)

/-- The extrapolated integral from the intervals 0, ..., i: the entry of highest even order. -/
noncomputable def extrapolated (p : QPar) (t : ℕ → ℂ) (i : ℕ) : ℂ :=
  (if i % 2 = 0 then eps p (partialSum t) (i + 1) 0 else eps p (partialSum t) i 1) + t 0

/-- The error test at interval `i` is the first that is passed. -/
def FirstPass (p : QPar) (t : ℕ → ℂ) (i : ℕ) : Prop :=
  2 ≤ i ∧ goesOn p (extrapolated p t i) (extrapolated p t (i - 1)) = false ∧
    ∀ k, 2 ≤ k → k < i → goesOn p (extrapolated p t k) (extrapolated p t (k - 1)) = true

/-- The documented test: the last two extrapolated values (the new one not zero) differ by less than the relative
tolerance times the new value plus the absolute tolerance at the interval where an entry stops, and not before. -/
theorem C20_tolerance (p : QPar) (t : ℕ → ℂ) (i : ℕ) (h : FirstPass p t i) :
    (extrapolated p t i ≠ 0 → ‖extrapolated p t i - extrapolated p t (i - 1)‖ <
      p.rtol * ‖extrapolated p t i‖ + p.atol) ∧
    ∀ k, 2 ≤ k → k < i → extrapolated p t k ≠ 0 →
      p.rtol * ‖extrapolated p t k‖ + p.atol ≤ ‖extrapolated p t k - extrapolated p t (k - 1)‖ := by
  have key : ∀ new old : ℂ, new ≠ 0 →
      (goesOn p new old = true ↔ p.rtol * ‖new‖ + p.atol ≤ ‖new - old‖) := by
    intro new old hn
    have hp : 0 < ‖new‖ := norm_pos_iff.2 hn
    rw [goesOn, if_neg hn, decide_eq_true_eq, norm_div, le_div_iff₀ hp, add_mul, div_mul_cancel₀ _ hp.ne']
  refine ⟨fun hn => ?_, fun k h2 hk hn => (key _ _ hn).1 (h.2.2 k h2 hk)⟩
  rw [← not_le, ← key _ _ hn, h.2.1]
  simp

/-! ## The recursive loop fills the epsilon table -/

theorem shanks_fold (p : QPar) (s : ℕ → ℂ) (i : ℕ) (S : ℕ → ℂ)
    (hold : ∀ m, m < i → S m = eps p s (i - m) m) (hnew : S i = s i) :
    ∀ q, q ≤ i →
      let st := ((List.range q).map fun q => i - q).foldl (shanksStep p) (0, S)
      (q = 0 ∧ st.1 = 0 ∨ 0 < q ∧ st.1 = eps p s q (i - q)) ∧
      (∀ m, m < i - q → st.2 m = S m) ∧
      (∀ m, i - q ≤ m → m ≤ i → st.2 m = eps p s (i - m + 1) m) := by
  intro q
  induction q with
  | zero =>
    intro _
    refine ⟨Or.inl ⟨rfl, rfl⟩, fun m _ => rfl, fun m h1 h2 => ?_⟩
    have : m = i := by omega
    subst this
    simp only [List.range_zero, List.map_nil, List.foldl_nil, hnew, Nat.sub_self, Nat.zero_add, eps]
  | succ q ih =>
    intro hq
    obtain ⟨ha, hb, hc⟩ := ih (by omega)
    simp only [List.range_succ, List.map_append, List.map_cons, List.map_nil, List.foldl_append,
      List.foldl_cons, List.foldl_nil] at ha hb hc ⊢
    generalize ((List.range q).map fun q => i - q).foldl (shanksStep p) (0, S) = st at ha hb hc
    have hk : i - q - 1 = i - (q + 1) := by omega
    have e1 : st.2 (i - q - 1) = eps p s (q + 1) (i - (q + 1)) := by
      rw [hb _ (by omega), hold _ (by omega), hk, show i - (i - (q + 1)) = q + 1 by omega]
    have e2 : st.2 (i - q) = eps p s (q + 1) (i - (q + 1) + 1) := by
      rw [hc _ le_rfl (by omega), show i - (i - q) + 1 = q + 1 by omega,
        show i - (q + 1) + 1 = i - q by omega]
    have e3 : st.1 = eps p s q (i - (q + 1) + 1) := by
      rw [show i - (q + 1) + 1 = i - q by omega]
      rcases ha with ⟨h0, h1⟩ | ⟨_, h1⟩
      · subst h0; rw [h1, eps]
      · exact h1
    refine ⟨Or.inr ⟨by omega, e1⟩, fun m hm => ?_, fun m h1 h2 => ?_⟩
    · simp only [shanksStep]
      rw [Function.update_of_ne (by omega)]
      exact hb m (by omega)
    · simp only [shanksStep]
      by_cases hm : m = i - (q + 1)
      · subst hm
        rw [hk, Function.update_self, ← hk, e1, e2, e3, show i - (i - q - 1) + 1 = q + 2 by omega, eps,
          hk]
      · rw [Function.update_of_ne (by omega)]
        exact hc m (by omega) h2

theorem shanks_eps (p : QPar) (s : ℕ → ℂ) (i : ℕ) (S : ℕ → ℂ)
    (hold : ∀ m, m < i → S m = eps p s (i - m) m) (hnew : S i = s i) (m : ℕ) (hm : m ≤ i) :
    shanks p i S m = eps p s (i - m + 1) m :=
  (shanks_fold p s i S hold hnew i le_rfl).2.2 m (by omega) hm

/-! ## The extrapolation loop -/

/-- What holds for an entry after interval `i`. -/
structure EntryOK (p : QPar) (t : ℕ → ℂ) (i : ℕ) (e : QEntry) : Prop where
  on : e.om = true → (∀ m, m ≤ i → e.S m = eps p (partialSum t) (i - m + 1) m) ∧
    (1 ≤ i → e.ext (i - 1) = extrapolated p t i) ∧
    (∀ k, 2 ≤ k → k ≤ i → goesOn p (extrapolated p t k) (extrapolated p t (k - 1)) = true) ∧
    e.EM = (if i < 2 then 0 else extrapolated p t i)
  off : e.om = false → ∃ k, k ≤ i ∧ FirstPass p t k ∧
    e.EM = (if k = 2 then 0 else extrapolated p t (k - 1))

theorem entry_init (p : QPar) (t : ℕ → ℂ) : EntryOK p t 0 qweInit := by
  refine ⟨fun _ => ⟨fun m hm => ?_, fun h => absurd h (by omega), fun k h1 h2 => by omega, rfl⟩,
    fun h => by simp [qweInit] at h⟩
  have : m = 0 := by omega
  subst this
  simp [qweInit, eps, partialSum]

theorem entry_step (p : QPar) (t : ℕ → ℂ) (i : ℕ) (e : QEntry) (h : EntryOK p t i e) :
    EntryOK p t (i + 1) (qweStep p t (i + 1) e) := by
  cases hom : e.om with
  | false =>
    have : qweStep p t (i + 1) e = e := by simp [qweStep, hom]
    rw [this]
    refine ⟨fun h' => by simp [hom] at h', fun _ => ?_⟩
    obtain ⟨k, hk, h1, h2⟩ := h.off hom
    exact ⟨k, by omega, h1, h2⟩
  | true =>
    obtain ⟨hS, hE, hT, hM⟩ := h.on hom
    have hs : ∀ m, m ≤ i + 1 → shanks p (i + 1) (Function.update e.S (i + 1) (e.S i + t (i + 1))) m =
        eps p (partialSum t) (i + 1 - m + 1) m := by
      intro m hm
      refine shanks_eps p (partialSum t) (i + 1) _ (fun m hm => ?_) ?_ m hm
      · rw [Function.update_of_ne (by omega), hS m (by omega), show i + 1 - m = i - m + 1 by omega]
      · rw [Function.update_self, hS i le_rfl, Nat.sub_self, Nat.zero_add, eps, partialSum, partialSum,
          Finset.sum_range_succ]
    have hx : shanks p (i + 1) (Function.update e.S (i + 1) (e.S i + t (i + 1))) ((i + 1) % 2) + t 0 =
        extrapolated p t (i + 1) := by
      rw [hs _ (by omega), extrapolated]
      by_cases hpar : (i + 1) % 2 = 0
      · rw [if_pos hpar, hpar, Nat.sub_zero]
      · have : (i + 1) % 2 = 1 := by omega
        rw [if_neg hpar, this, show i + 1 - 1 + 1 = i + 1 by omega]
    have hstep : qweStep p t (i + 1) e =
        if 1 < i + 1 then
          ⟨shanks p (i + 1) (Function.update e.S (i + 1) (e.S i + t (i + 1))),
            Function.update e.ext i (extrapolated p t (i + 1)),
            goesOn p (extrapolated p t (i + 1)) (extrapolated p t i),
            if goesOn p (extrapolated p t (i + 1)) (extrapolated p t i) then extrapolated p t (i + 1)
              else e.EM⟩
        else ⟨shanks p (i + 1) (Function.update e.S (i + 1) (e.S i + t (i + 1))),
            Function.update e.ext i (extrapolated p t (i + 1)), true, e.EM⟩ := by
      simp only [qweStep, hom, if_true, Nat.add_sub_cancel, hx, Function.update_self]
      by_cases h1 : 1 < i + 1
      · have hne : i + 1 - 2 ≠ i := by omega
        rw [if_pos h1, if_pos h1, Function.update_of_ne hne, show i + 1 - 2 = i - 1 by omega,
          hE (by omega)]
      · rw [if_neg h1, if_neg h1]
    rw [hstep]
    by_cases h1 : 1 < i + 1
    · rw [if_pos h1]
      cases hg : goesOn p (extrapolated p t (i + 1)) (extrapolated p t i) with
      | true =>
        refine ⟨fun _ => ⟨hs, fun _ => Function.update_self .., fun k hk1 hk2 => ?_, ?_⟩, fun h' => ?_⟩
        · by_cases hk : k = i + 1
          · subst hk; exact hg
          · exact hT k hk1 (by omega)
        · simp only [if_true]
          rw [if_neg (by omega)]
        · simp at h'
      | false =>
        refine ⟨fun h' => by simp at h', fun _ => ⟨i + 1, le_rfl, ⟨by omega, hg, fun k hk1 hk2 =>
          hT k hk1 (by omega)⟩, ?_⟩⟩
        simp only [Bool.false_eq_true, if_false, hM, Nat.add_sub_cancel]
        by_cases h2 : i < 2
        · rw [if_pos h2, if_pos (by omega)]
        · rw [if_neg h2, if_neg (by omega)]
    · rw [if_neg h1]
      have hi : i = 0 := by omega
      subst hi
      exact ⟨fun _ => ⟨hs, fun _ => by simp, fun k hk1 hk2 => by omega, by
        simpa using hM⟩, fun h' => by simp at h'⟩

/-- The loop: ends after the last interval, or earlier if all entries are done. -/
theorem loop_ok (p : QPar) (n : ℕ) (t : ℕ → ℕ → ℂ) : ∀ (left i : ℕ) (e : ℕ → QEntry),
    (∀ j, EntryOK p (t j) i (e j)) →
    let r := qweLoop p n t left (i + 1) e
    (∀ j, EntryOK p (t j) r.2 (r.1 j)) ∧ i ≤ r.2 ∧ r.2 ≤ i + left ∧
    (0 < left → 0 < r.2) ∧
    (r.2 < i + left → ∀ j < n, (r.1 j).om = false) ∧
    (∀ i', i < i' → i' < r.2 → ∃ j < n, ∀ k ≤ i', ¬ FirstPass p (t j) k) := by
  intro left
  induction left with
  | zero => intro i e h; exact ⟨h, le_rfl, le_rfl, fun h => absurd h (by omega), fun h => by
      simp [qweLoop] at h, fun i' h1 h2 => by simp only [qweLoop] at h2; omega⟩
  | succ left ih =>
    intro i e h
    have hs := fun j => entry_step p (t j) i (e j) (h j)
    simp only [qweLoop]
    split_ifs with hb
    · refine ⟨hs, by omega, by omega, fun _ => by omega, fun _ j hj => ?_, fun i' _ _ => by omega⟩
      have := List.all_eq_true.1 hb j (List.mem_range.2 hj)
      simpa using this
    · obtain ⟨a, b, c, d, f, g⟩ := ih (i + 1) _ hs
      refine ⟨a, by omega, by omega, fun _ => by omega, fun h => f (by omega), fun i' h1 h2 => ?_⟩
      by_cases hi : i' = i + 1
      · subst hi
        have hex : ∃ j < n, (qweStep p (t j) (i + 1) (e j)).om = true := by
          by_contra hno
          push Not at hno
          refine hb (List.all_eq_true.2 fun j hj => ?_)
          have := hno j (List.mem_range.1 hj)
          simpa using this
        obtain ⟨j, hj, hom⟩ := hex
        refine ⟨j, hj, fun k hk hp => ?_⟩
        have := ((hs j).on hom).2.2.1 k hp.1 hk
        rw [hp.2.1] at this; simp at this
      · exact g i' (by omega) h2

/-! ## Theorems -/

/-- **C20.**  `maxint` of at least two is needed, and the number of intervals never exceeds it.
Convergence is reported exactly if every entry passes the error test before the last interval.  An entry
whose test is first passed at interval `k` has the extrapolated value of interval `k - 1` (zero if `k = 2`);
an entry that never passed has the last extrapolated value.  Missing for the full property: the value
should be the one of interval `k`, see `C20_violated`. -/
theorem C20_qwe_partial (p : QPar) (maxint n : ℕ) (hn : 0 < n) (t : ℕ → ℕ → ℂ)
    (out : (ℕ → ℂ) × ℕ × Bool) (h : qwe p maxint n t = some out) :
    2 ≤ maxint ∧ 2 ≤ out.2.1 ∧ out.2.1 ≤ maxint ∧
    (out.2.2 = true ↔ ∀ j < n, ∃ k, k + 1 < maxint ∧ FirstPass p (t j) k) ∧
    (∀ j k, k < out.2.1 → FirstPass p (t j) k →
      out.1 j = zeroBig p (if k = 2 then 0 else extrapolated p (t j) (k - 1))) ∧
    (∀ j, (∀ k, k < out.2.1 → ¬ FirstPass p (t j) k) →
      out.1 j = zeroBig p (extrapolated p (t j) (out.2.1 - 1))) ∧
    (∀ i, i + 1 < out.2.1 → ∃ j < n, ∀ k ≤ i, ¬ FirstPass p (t j) k) := by
  unfold qwe at h
  split_ifs at h with h1
  have h := Option.some.inj h
  obtain ⟨a, -, c, d, f, g⟩ := loop_ok p n t (maxint - 1) 0 (fun _ => qweInit)
    (fun j => entry_init p (t j))
  simp only [Nat.zero_add] at a c d f g
  generalize qweLoop p n t (maxint - 1) 1 (fun _ => qweInit) = r at *
  subst h
  have hd := d (by omega)
  have huniq : ∀ t : ℕ → ℂ, ∀ k k', FirstPass p t k → FirstPass p t k' → k = k' := by
    intro t k k' hk hk'
    by_contra hne
    rcases Nat.lt_or_gt_of_ne hne with hl | hl
    · have := hk'.2.2 k hk.1 hl
      rw [hk.2.1] at this; simp at this
    · have := hk.2.2 k' hk'.1 hl
      rw [hk'.2.1] at this; simp at this
  refine ⟨by omega, by simp only; omega, by simp only; omega, ?_, ?_, ?_, ?_⟩
  · simp only [decide_eq_true_eq]
    constructor
    · intro hc j hj
      obtain ⟨k, hk, hp, -⟩ := (a j).off (f (by omega) j hj)
      exact ⟨k, by omega, hp⟩
    · intro hall hc
      obtain ⟨k0, hk0, hp0⟩ := hall 0 hn
      have := hp0.1
      obtain ⟨j, hj, hno⟩ := g (maxint - 2) (by omega) (by omega)
      obtain ⟨k, hk, hp⟩ := hall j hj
      exact hno k (by omega) hp
  · intro j k hk hp
    simp only at hk ⊢
    cases hom : (r.1 j).om with
    | true =>
      have := ((a j).on hom).2.2.1 k hp.1 (by omega)
      rw [hp.2.1] at this; simp at this
    | false =>
      obtain ⟨k', _, hp', hM⟩ := (a j).off hom
      have := huniq _ _ _ hp hp'
      subst this
      simp only [Bool.false_eq_true, if_false, hM]
  · intro j hno
    simp only at hno ⊢
    cases hom : (r.1 j).om with
    | true =>
      simp only [if_true, Nat.add_sub_cancel_left]
      rw [((a j).on hom).2.1 (by omega)]
    | false =>
      obtain ⟨k, hk, hp, -⟩ := (a j).off hom
      exact absurd hp (hno k (by omega))
  · intro i hi
    simp only at hi
    by_cases h0 : i = 0
    · subst h0
      exact ⟨0, hn, fun k hk hp => by have := hp.1; omega⟩
    · exact g i (by omega) (by omega)

/-- If convergence is reported every entry has passed the error test at one of the intervals used. -/
theorem C20_stops (p : QPar) (maxint n : ℕ) (t : ℕ → ℕ → ℂ) (out : (ℕ → ℂ) × ℕ × Bool)
    (h : qwe p maxint n t = some out) (hc : out.2.2 = true) (j : ℕ) (hj : j < n) :
    ∃ k, k < out.2.1 ∧ FirstPass p (t j) k := by
  unfold qwe at h
  split_ifs at h with h1
  have h := Option.some.inj h
  obtain ⟨a, -, c, d, f, g⟩ := loop_ok p n t (maxint - 1) 0 (fun _ => qweInit)
    (fun j => entry_init p (t j))
  simp only [Nat.zero_add] at a c d f g
  generalize qweLoop p n t (maxint - 1) 1 (fun _ => qweInit) = r at *
  subst h
  simp only [decide_eq_true_eq] at hc ⊢
  obtain ⟨k, hk, hp, -⟩ := (a j).off (f (by omega) j hj)
  exact ⟨k, by omega, hp⟩

/-- It raises exactly if fewer than two intervals are allowed. -/
theorem C20_raises (p : QPar) (maxint n : ℕ) (t : ℕ → ℕ → ℂ) :
    qwe p maxint n t = none ↔ maxint ≤ 1 := by
  unfold qwe; split_ifs <;> simp [*]

/-- **The value that passed the test is not the one returned.**  If the error test is passed at its
first opportunity (interval 2), convergence is reported and the result is zero, whatever the integral. -/
theorem C20_violated (p : QPar) (maxint n : ℕ) (hm : 4 ≤ maxint) (t : ℕ → ℕ → ℂ)
    (j : ℕ) (hj : j < n) (hall : ∀ j < n, FirstPass p (t j) 2) :
    ∃ out, qwe p maxint n t = some out ∧ out.2.2 = true ∧ out.1 j = 0 := by
  cases h : qwe p maxint n t with
  | none => rw [C20_raises] at h; omega
  | some out =>
    obtain ⟨-, h2, h3, h4, h6, h7, h8⟩ := C20_qwe_partial p maxint n (by omega) t out h
    refine ⟨out, rfl, h4.2 fun j hj => ⟨2, by omega, hall j hj⟩, ?_⟩
    have hz : zeroBig p 0 = 0 := by
      unfold zeroBig; split_ifs
      · rfl
      · rfl
    by_cases hk : 2 < out.2.1
    · rw [h6 j 2 hk (hall j hj), if_pos rfl, hz]
    · -- the loop does not stop before interval 2
      exfalso
      have hc : out.2.2 = true := h4.2 fun j hj => ⟨2, by omega, hall j hj⟩
      have := C20_stops p maxint n t out h hc j hj
      obtain ⟨k, hk', hp⟩ := this
      have := hp.1
      omega

/-- The extrapolation is exact for a geometric sequence of contributions: already with three intervals
the value is the sum of the series. -/
theorem C20_geometric (p : QPar) (t : ℕ → ℂ) (q : ℂ) (hq : ‖q‖ < 1) (ht : ∀ i, t (i + 2) = q * t (i + 1))
    (h1 : t 1 ≠ 0) (h2 : q ≠ 0) (ht1 : p.tiny ≤ ‖t 1‖) (ht2 : p.tiny ≤ ‖q * t 1‖)
    (ht3 : p.tiny ≤ ‖1 / (q * t 1) - 1 / t 1‖) :
    HasSum t (extrapolated p t 2) := by
  have hq1 : 1 - q ≠ 0 := by
    intro h
    have : q = 1 := (sub_eq_zero.1 h).symm
    rw [this] at hq; simp at hq
  have hr : ∀ a d, p.tiny ≤ ‖d‖ → recip p a d = a + 1 / d := fun a d h => by
    rw [recip, if_neg (not_lt.2 h)]
  have s0 : partialSum t 0 = 0 := by simp [partialSum]
  have s1 : partialSum t 1 = t 1 := by simp [partialSum]
  have s2 : partialSum t 2 = t 1 + q * t 1 := by simp [partialSum, Finset.sum_range_succ, ht 0]
  have e1 : eps p (partialSum t) 2 0 = 1 / t 1 := by
    simp only [eps, s0, s1, Nat.zero_add, sub_zero]
    rw [hr _ _ ht1, zero_add]
  have e2 : eps p (partialSum t) 2 1 = 1 / (q * t 1) := by
    simp only [eps, s1, s2, Nat.reduceAdd, add_sub_cancel_left]
    rw [hr _ _ ht2, zero_add]
  have e3 : extrapolated p t 2 = t 0 + t 1 * (1 - q)⁻¹ := by
    have : eps p (partialSum t) 3 0 = t 1 + 1 / (1 / (q * t 1) - 1 / t 1) := by
      rw [eps, Nat.zero_add, e1, e2, eps, s1, hr _ _ ht3]
    rw [extrapolated, if_pos rfl, this]
    have h3 : 1 / (q * t 1) - 1 / t 1 = (1 - q) / (q * t 1) := by field_simp
    rw [h3]
    field_simp
    ring
  rw [e3]
  have hg : ∀ i, t (i + 1) = t 1 * q ^ i := by
    intro i
    induction i with
    | zero => simp
    | succ i ih => rw [ht i, ih, pow_succ]; ring
  have := (hasSum_geometric_of_norm_lt_one hq).mul_left (t 1)
  have hs : HasSum (fun i => t (i + 1)) (t 1 * (1 - q)⁻¹) := by
    have e : (fun i => t (i + 1)) = fun i => t 1 * q ^ i := funext hg
    rw [e]; exact this
  exact (hasSum_nat_add_iff' 1).1 (by simpa using hs)

theorem map_range_sum (n : ℕ) (f : ℕ → ℂ) : ((List.range n).map f).sum = ∑ k ∈ Finset.range n, f k := by
  induction n with
  | zero => simp
  | succ n ih => rw [List.range_succ, List.map_append, List.sum_append, ih, Finset.sum_range_succ]; simp

/-- The contribution of an interval, with and without interpolation: the sum over the quadrature points of
the Hankel integrand, with the weighted Bessel functions in place of the Bessel functions. -/
theorem C20_kernel (nq : ℕ) (K : Option (ℕ → ℂ) × Option (ℕ → ℂ) × Option (ℕ → ℂ)) (ab : ℕ)
    (off ang : ℝ) (B0 B1 : ℕ → ℂ) :
    let I := ∑ q ∈ Finset.range nq, hankelIntegrand (K.1.map fun f => f q, K.2.1.map fun f => f q,
      K.2.2.map fun f => f q) ab off ang (B0 q) (B1 q)
    qweKernel nq K ab off ang B0 B1 = I ∧ qweSplined nq K ab off ang B0 B1 = I := by
  obtain ⟨k0, k1, k2⟩ := K
  have hI : ∀ (k : Option ℂ × Option ℂ × Option ℂ) (J0 J1 : ℂ),
      hankelIntegrand k ab off ang J0 J1 = k.1.getD 0 * J0 +
        (if ab ∈ j2codes then k.2.1.getD 0 * J1 / (off : ℂ) else k.2.1.getD 0 * J1) * ang +
        k.2.2.getD 0 * J0 * ang := by
    rintro ⟨k0, k1, k2⟩ J0 J1
    by_cases hab : ab ∈ j2codes <;> cases k0 <;> cases k1 <;> cases k2 <;>
      simp [hankelIntegrand, hab] <;> ring
  by_cases hab : ab ∈ j2codes <;> cases k0 <;> cases k1 <;> cases k2 <;>
    simp only [qweKernel, qweSplined, map_range_sum, hI, hab, if_true, if_false, Option.map_none,
      Option.map_some, Option.getD_none, Option.getD_some, zero_mul, zero_add, add_zero, zero_div,
      Finset.sum_add_distrib, ← Finset.sum_mul, ← Finset.sum_div, Finset.sum_const_zero,
      Option.isSome_none, Option.isSome_some, or_self, or_true, true_or, Bool.false_eq_true,
      and_self] <;>
    (try constructor) <;> first | trivial | ring

/-- Contributions 100, 1, -1/2, relative tolerance 1/100: convergence is reported and the result is 0,
although the extrapolated integral is 302/3. -/
example (p : QPar) (hr : p.rtol = 1 / 100) (ha : p.atol = 0) (ht : p.tiny ≤ 1 / 10)
    (t : ℕ → ℂ) (h0 : t 0 = 100) (h1 : t 1 = 1) (h2 : t 2 = -1 / 2) :
    extrapolated p t 2 = 302 / 3 ∧
    ∃ out, qwe p 100 1 (fun _ => t) = some out ∧ out.2.2 = true ∧ out.1 0 = 0 := by
  have hr' : ∀ a d, 1 / 10 ≤ ‖d‖ → recip p a d = a + 1 / d := fun a d h => by
    rw [recip, if_neg (not_lt.2 (ht.trans h))]
  have s0 : partialSum t 0 = 0 := by simp [partialSum]
  have s1 : partialSum t 1 = 1 := by simp [partialSum, h1]
  have s2 : partialSum t 2 = 1 / 2 := by
    simp [partialSum, Finset.sum_range_succ, h1, h2]; norm_num
  have e1 : eps p (partialSum t) 2 0 = 1 := by
    simp only [eps, s0, s1, Nat.zero_add]
    rw [hr' _ _ (by norm_num)]; norm_num
  have e2 : eps p (partialSum t) 2 1 = -2 := by
    simp only [eps, s1, s2, Nat.reduceAdd]
    rw [hr' _ _ (by norm_num)]; norm_num
  have E2 : extrapolated p t 2 = 302 / 3 := by
    rw [extrapolated, if_pos rfl, eps, Nat.zero_add, e1, e2, eps, s1, h0, hr' _ _ (by norm_num)]
    norm_num
  have E1 : extrapolated p t 1 = 101 := by
    rw [extrapolated, if_neg (by norm_num), eps, s1, h0]; norm_num
  refine ⟨E2, C20_violated p 100 1 (by norm_num) _ 0 (by norm_num) fun j _ =>
    ⟨le_rfl, ?_, fun k h1 h2 => by omega⟩⟩
  rw [show 2 - 1 = 1 from rfl, E1, E2, goesOn, if_neg (by norm_num)]
  rw [hr, ha, decide_eq_false]
  norm_num

end Verif.Props
