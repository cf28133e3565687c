import Verif.Model.Filters
import Mathlib.Data.List.Nodup

/-!
# C32: the filter cache is transparent
-/

namespace Verif.Props
open Verif.Filters Verif.Io

/-- A sound library: for each filter a base of at least two points and one array for each of its coefficients, which
have different names. -/
def SoundLib {N : Type} (L : Lib N) : Prop :=
  ∀ t, ∀ n ∈ L.names t, ("base".toList :: L.values t n).Nodup ∧ (L.data t n).length = (L.values t n).length + 1 ∧
    ∃ a b r, (L.data t n)[0]? = some (a :: b :: r)

/-- A filter with the values of the library: base, coefficients, nothing else, and the factor of the base. -/
structure FromLib {N : Type} (ratio : N → N → N) (L : Lib N) (t : FType) (n : List Char) (f : Filter N) : Prop where
  name : f.name = n
  base : f.attrs "base".toList = (L.data t n)[0]?
  coeff : ∀ i k, (L.values t n)[i]? = some k → f.attrs k = (L.data t n)[i + 1]?
  other : ∀ k, k ≠ "base".toList → k ∉ L.values t n → f.attrs k = none
  factor : ∀ a b r, (L.data t n)[0]? = some (a :: b :: r) → f.factor = some (ratio a b)

theorem setAll_ok {N : Type} (ks : List (List Char)) (vs : List (List N)) (f : Filter N) (hn : ks.Nodup)
    (hl : ks.length ≤ vs.length) :
    ∃ g, setAll ks vs f = .ok g ∧ g.name = f.name ∧ (∀ (i : ℕ) k, ks[i]? = some k → g.attrs k = vs[i]?) ∧
      ∀ k, k ∉ ks → g.attrs k = f.attrs k := by
  induction ks generalizing vs f with
  | nil => exact ⟨f, by rw [setAll], rfl, by simp, by simp⟩
  | cons k ks ih =>
    cases vs with
    | nil => simp at hl
    | cons v vs =>
      obtain ⟨g, h1, h2, h3, h4⟩ := ih vs (f.set k v) (List.nodup_cons.1 hn).2 (by simpa using hl)
      refine ⟨g, by rw [setAll, h1], h2, fun i k' hk => ?_, fun k' hk => ?_⟩
      · cases i with
        | zero =>
          simp at hk
          subst hk
          rw [h4 _ (List.nodup_cons.1 hn).1]
          simp [Filter.set]
        | succ i => simpa using h3 i k' (by simpa using hk)
      · simp only [List.mem_cons, not_or] at hk
        rw [h4 k' hk.2]
        exact Function.update_of_ne hk.1 _ _

theorem loadFilter_ok {N : Type} (ratio : N → N → N) {L : Lib N} (hL : SoundLib L) {t : FType} {n : List Char}
    (hn : n ∈ L.names t) : ∃ f, loadFilter ratio L t n = .ok f ∧ FromLib ratio L t n f := by
  obtain ⟨h1, h2, a, b, r, h3⟩ := hL t n hn
  obtain ⟨g, hg, hname, hk, ho⟩ := setAll_ok ("base".toList :: L.values t n) (L.data t n)
    (Filter.init n none none) h1 (by simp [h2])
  have hb : g.attrs "base".toList = some (a :: b :: r) := by rw [hk 0 _ rfl, h3]
  refine ⟨{ g with factor := some (ratio a b) }, ?_, hname, ?_, fun i k hi => hk (i + 1) k (by simpa using hi), ?_, ?_⟩
  · rw [loadFilter, hg]
    simp only [Except.bind, setFactor, hb]
  · exact hk 0 _ rfl
  · intro k h1 h2
    rw [ho k (by simp only [List.mem_cons, not_or]; exact ⟨h1, h2⟩)]
    rfl
  · intro a' b' r' h
    rw [h3] at h
    simp only [Option.some.injEq, List.cons.injEq] at h
    rw [h.1, h.2.1]

/-- A history without assignments. -/
def OnlyAccesses {N : Type} (h : List (Event N)) : Prop := ∀ e ∈ h, ∃ t n, e = .access t n

/-- The cache points to filters of the library, different ones for different names, and the loads are its names. -/
structure Inv {N : Type} (ratio : N → N → N) (L : Lib N) (s : State N) : Prop where
  sound : ∀ t n i, s.cache t n = some i → ∃ f, s.heap[i]? = some f ∧ FromLib ratio L t n f
  inj : ∀ t n t' n' i, s.cache t n = some i → s.cache t' n' = some i → t = t' ∧ n = n'
  loads : ∀ t n, (t, n) ∈ s.loads ↔ ∃ i, s.cache t n = some i
  nodup : s.loads.Nodup

theorem inv_start {N : Type} (ratio : N → N → N) (L : Lib N) : Inv ratio L (start : State N) := by
  refine ⟨?_, ?_, ?_, List.nodup_nil⟩ <;> simp [start]

theorem inv_access {N : Type} {ratio : N → N → N} {L : Lib N} (hL : SoundLib L) {s : State N} (h : Inv ratio L s)
    (t : FType) (n : List Char) : Inv ratio L (access ratio L t n s).2 := by
  unfold access
  by_cases hn : n ∈ L.names t
  · rw [if_pos hn]
    cases hc : s.cache t n with
    | some i => exact h
    | none =>
      obtain ⟨f, hf, hlib⟩ := loadFilter_ok ratio hL hn
      simp only [hf]
      have hlt : ∀ t n i, s.cache t n = some i → i < s.heap.length := fun t n i hi => by
        obtain ⟨f, hf, -⟩ := h.sound t n i hi
        exact (List.getElem?_eq_some_iff.1 hf).1
      refine ⟨fun t' n' i hi => ?_, fun t1 n1 t2 n2 i h1 h2 => ?_, fun t' n' => ?_, ?_⟩
      · simp only at hi
        split_ifs at hi with he
        · obtain ⟨rfl, rfl⟩ := he
          simp only [Option.some.injEq] at hi
          subst hi
          exact ⟨f, by simp, hlib⟩
        · obtain ⟨g, hg, hl⟩ := h.sound t' n' i hi
          exact ⟨g, by simp only; rw [List.getElem?_append_left (hlt _ _ _ hi), hg], hl⟩
      · simp only at h1 h2
        split_ifs at h1 h2 with e1 e2 e2
        · exact ⟨e1.1.trans e2.1.symm, e1.2.trans e2.2.symm⟩
        · simp only [Option.some.injEq] at h1
          have := hlt _ _ _ h2
          omega
        · simp only [Option.some.injEq] at h2
          have := hlt _ _ _ h1
          omega
        · exact h.inj _ _ _ _ _ h1 h2
      · simp only [List.mem_append, List.mem_singleton, Prod.mk.injEq, h.loads t' n']
        split_ifs with he
        · simp [he]
        · simp [he]
      · refine List.nodup_append.2 ⟨h.nodup, by simp, ?_⟩
        intro a ha b hb hab
        simp only [List.mem_singleton] at hb
        subst hab hb
        obtain ⟨i, hi⟩ := (h.loads t n).1 ha
        rw [hc] at hi
        cases hi
  · rw [if_neg hn]; exact h

theorem inv_run {N : Type} {ratio : N → N → N} {L : Lib N} (hL : SoundLib L) (h : List (Event N))
    (ho : OnlyAccesses h) {s : State N} (hs : Inv ratio L s) : Inv ratio L (run ratio L s h) := by
  induction h generalizing s with
  | nil => exact hs
  | cons e h ih =>
    obtain ⟨t, n, rfl⟩ := ho e (by simp)
    exact ih (fun e he => ho e (by simp [he])) (inv_access hL hs t n)

/-- After any history of accesses each access returns the filter of the library. -/
theorem C32_values_partial {N : Type} (ratio : N → N → N) (L : Lib N) (hL : SoundLib L) (h : List (Event N))
    (ho : OnlyAccesses h) (t : FType) (n : List Char) (hn : n ∈ L.names t) :
    ∃ i s f, access ratio L t n (run ratio L start h) = (.ok i, s) ∧ s.heap[i]? = some f ∧
      FromLib ratio L t n f := by
  have hi := inv_run hL h ho (inv_start ratio L)
  generalize run ratio L start h = s at hi ⊢
  unfold access
  rw [if_pos hn]
  cases hc : s.cache t n with
  | some i =>
    obtain ⟨f, hf, hl⟩ := hi.sound t n i hc
    exact ⟨i, s, f, rfl, hf, hl⟩
  | none =>
    obtain ⟨f, hf, hlib⟩ := loadFilter_ok ratio hL hn
    simp only [hf]
    exact ⟨_, _, f, rfl, by simp, hlib⟩

/-- No filter is loaded twice, whatever is done to the filters in between. -/
theorem C32_once {N : Type} (ratio : N → N → N) (L : Lib N) (h : List (Event N)) :
    (run ratio L start h).loads.Nodup := by
  suffices H : ∀ s : State N, (∀ t n, (t, n) ∈ s.loads → s.cache t n ≠ none) → s.loads.Nodup →
      (run ratio L s h).loads.Nodup from H start (by simp [start]) List.nodup_nil
  induction h with
  | nil => intro s _ h; exact h
  | cons e h ih =>
    intro s hc hn
    cases e with
    | assign i k v => exact ih _ hc hn
    | access t n =>
      refine ih _ ?_ ?_
      · intro t' n'
        simp only [step, access]
        split_ifs with hk
        · split
          · exact hc t' n'
          · split
            · exact hc t' n'
            · simp only [List.mem_append, List.mem_singleton, Prod.mk.injEq]
              rintro (h1 | ⟨rfl, rfl⟩)
              · split_ifs
                · simp
                · exact hc _ _ h1
              · simp
        · exact hc t' n'
      · simp only [step, access]
        split_ifs with hk
        · split
          · exact hn
          · rename_i hnone
            split
            · exact hn
            · refine List.nodup_append.2 ⟨hn, by simp, ?_⟩
              intro a ha b hb hab
              simp only [List.mem_singleton] at hb
              subst hab hb
              exact hc t n ha hnone
        · exact hn

theorem cache_step {N : Type} (ratio : N → N → N) (L : Lib N) (s : State N) (e : Event N) {t : FType}
    {n : List Char} {i : ℕ} (hc : s.cache t n = some i) : (step ratio L s e).cache t n = some i := by
  cases e with
  | assign j k v => exact hc
  | access t' n' =>
    unfold step access
    simp only
    split_ifs with hk
    · split
      · exact hc
      · rename_i hnone
        split
        · exact hc
        · simp only
          rw [if_neg, hc]
          rintro ⟨rfl, rfl⟩
          rw [hc] at hnone
          cases hnone
    · exact hc

theorem access_cache {N : Type} {ratio : N → N → N} {L : Lib N} {s s' : State N} {t : FType} {n : List Char} {i : ℕ}
    (h : access ratio L t n s = (.ok i, s')) : n ∈ L.names t ∧ s'.cache t n = some i := by
  have hn : n ∈ L.names t := by
    by_contra hn
    rw [access, if_neg hn] at h
    simp at h
  refine ⟨hn, ?_⟩
  rw [access, if_pos hn] at h
  cases hc : s.cache t n with
  | some j =>
    simp only [hc, Prod.mk.injEq, Except.ok.injEq] at h
    rw [← h.2, hc, h.1]
  | none =>
    simp only [hc] at h
    cases hf : loadFilter ratio L t n with
    | error e => simp [hf] at h
    | ok f =>
      simp only [hf, Prod.mk.injEq, Except.ok.injEq] at h
      rw [← h.2, ← h.1]
      simp

theorem cache_run {N : Type} (ratio : N → N → N) (L : Lib N) (later : List (Event N)) (s : State N) {t : FType}
    {n : List Char} {i : ℕ} (hc : s.cache t n = some i) : (run ratio L s later).cache t n = some i := by
  induction later generalizing s with
  | nil => exact hc
  | cons e later ih => exact ih _ (cache_step ratio L s e hc)

/-- Once a filter has been accessed every later access returns the identical object. -/
theorem C32_identical {N : Type} (ratio : N → N → N) (L : Lib N) (s s' : State N) (t : FType) (n : List Char) (i : ℕ)
    (h : access ratio L t n s = (.ok i, s')) (later : List (Event N)) :
    ∀ w, access ratio L t n (run ratio L s' later) = w → w.1 = .ok i ∧ w.2 = run ratio L s' later := by
  obtain ⟨hn, hc⟩ := access_cache h
  rintro w rfl
  rw [access, if_pos hn]
  simp only [cache_run ratio L later s' hc, and_self]

/-- Filters with different names, and filters of the two wrappers, are different objects. -/
theorem C32_separate {N : Type} (ratio : N → N → N) (L : Lib N) (hL : SoundLib L) (h later : List (Event N))
    (ho : OnlyAccesses h) (hl : OnlyAccesses later) (t t' : FType) (n n' : List Char) (i : ℕ) (s s' : State N)
    (h1 : access ratio L t n (run ratio L start h) = (.ok i, s))
    (h2 : access ratio L t' n' (run ratio L s later) = (.ok i, s')) : t = t' ∧ n = n' := by
  have hi := inv_access hL (inv_run hL later hl (inv_access hL (inv_run hL h ho (inv_start ratio L)) t n)) t' n'
  have c2 := cache_step ratio L _ (.access t' n') (cache_run ratio L later s (access_cache h1).2)
  rw [step, h2] at c2
  rw [h1, h2] at hi
  exact hi.inj _ _ _ _ _ c2 (access_cache h2).2

/-- A name that is not in the library of the wrapper is an error and changes nothing. -/
theorem C32_unknown {N : Type} (ratio : N → N → N) (L : Lib N) (s : State N) (t : FType) (n : List Char)
    (hn : n ∉ L.names t) : access ratio L t n s = (.error .key, s) := by
  rw [access, if_neg hn]

/-- The cache hands out its own objects: after an assignment to an attribute of a returned filter every later access
returns the changed one, for every library and every name. -/
theorem C32_values_violated {N : Type} (ratio : N → N → N) (L : Lib N) (hL : SoundLib L) (t : FType) (n : List Char)
    (hn : n ∈ L.names t) (v : List N) (hv : (L.data t n)[0]? ≠ some v) :
    ∃ i s f, access ratio L t n (run ratio L start [.access t n, .assign 0 "base".toList v]) = (.ok i, s) ∧
      s.heap[i]? = some f ∧ ¬ FromLib ratio L t n f := by
  obtain ⟨f, hf, hlib⟩ := loadFilter_ok ratio hL hn
  refine ⟨0, ⟨fun t' n' => if t' = t ∧ n' = n then some 0 else none, [f.set "base".toList v], [(t, n)]⟩,
    f.set "base".toList v, ?_, rfl, ?_⟩
  · simp [run, step, access, hn, start, hf]
  · intro h
    have := h.base
    rw [Filter.set] at this
    simp only [Function.update_self] at this
    exact hv this.symm

/-! ## A concrete case -/

/-- Two wrappers with a filter of the same name. -/
def demoLib : Lib ℕ where
  names _ := ["x".toList]
  values t _ := match t with
    | .hankel => ["j0".toList, "j1".toList]
    | .fourier => ["sin".toList]
  data t _ := match t with
    | .hankel => [[1, 2, 4], [5, 6, 7], [8, 9, 10]]
    | .fourier => [[1, 3], [5, 6]]

theorem demoLib_sound : SoundLib demoLib := by
  intro t n _
  cases t
  · exact ⟨by simp only [demoLib]; decide, rfl, 1, 2, [4], rfl⟩
  · exact ⟨by simp only [demoLib]; decide, rfl, 1, 3, [], rfl⟩

/-- Access of both, twice: two loads, two objects. -/
example :
    let h : List (Event ℕ) := [.access .hankel "x".toList, .access .fourier "x".toList, .access .hankel "y".toList,
      .access .fourier "x".toList, .access .hankel "x".toList]
    let s := run (fun a b => b / a) demoLib start h
    s.loads = [(.hankel, "x".toList), (.fourier, "x".toList)] ∧ s.heap.length = 2 ∧
      (s.heap.map fun f => (f.factor, f.attrs "j1".toList)) = [(some 2, some [8, 9, 10]), (some 3, none)] := by
  decide

end Verif.Props
