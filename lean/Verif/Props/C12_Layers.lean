import Verif.Props.C11_Materials
import Verif.Props.C01_Maxwell

/-!
# C12, C30, and the way from user input to the kernel (C11 passivity, C26)
-/

namespace Verif.Props
open Verif.Py Verif.Py.W Verif.Utils Verif.Spec Verif.Lemmas

/-! ## C12 -/

/-- `z` lies in layer `i`: below its upper interface, above or on its lower interface. -/
def InLayer (depth : List EReal) (i : ℕ) (z : ℝ) : Prop :=
  (∃ d, depth[i]? = some d ∧ d < (z : EReal)) ∧ ∀ d, depth[i + 1]? = some d → (z : EReal) ≤ d

theorem inLayer_unique {depth : List EReal} (h : TopDown depth) {z : ℝ} {i j : ℕ}
    (hi : InLayer depth i z) (hj : InLayer depth j z) : i = j := by
  have key : ∀ {i j : ℕ}, InLayer depth i z → InLayer depth j z → ¬ i < j := by
    rintro i j ⟨-, h2⟩ ⟨⟨d, h3, h4⟩, -⟩ hij
    obtain ⟨hj, e⟩ := List.getElem?_eq_some_iff.1 h3
    have hi1 : i + 1 < depth.length := by omega
    have h5 := h2 depth[i + 1] (List.getElem?_eq_getElem hi1)
    have h6 : depth[i + 1] ≤ depth[j] := by
      rcases Nat.eq_or_lt_of_le (show i + 1 ≤ j from hij) with rfl | hlt
      · exact le_refl _
      · exact List.pairwise_iff_getElem.1 h _ _ hi1 hj hlt
    rw [e] at h6
    exact absurd (h5.trans h6) (not_le.2 h4)
  rcases Nat.lt_trichotomy i j with h1 | h1 | h1
  · exact absurd h1 (key hi hj)
  · exact h1
  · exact absurd h1 (key hj hi)

theorem inLayer_exists {depth : List EReal} (hb : depth.head? = some ⊥) (z : ℝ) :
    ∃ i, InLayer depth i z := by
  classical
  have h0 : ∃ d, depth[0]? = some d ∧ d < (z : EReal) := by
    refine ⟨⊥, ?_, EReal.bot_lt_coe z⟩
    rw [← List.head?_eq_getElem?]; exact hb
  let P : ℕ → Prop := fun i => ∃ d, depth[i]? = some d ∧ d < (z : EReal)
  have hP : P (Nat.findGreatest P depth.length) := Nat.findGreatest_spec (m := 0) (Nat.zero_le _) h0
  refine ⟨Nat.findGreatest P depth.length, hP, ?_⟩
  intro d hd
  by_contra hc
  rw [not_le] at hc
  have hlt : Nat.findGreatest P depth.length + 1 < depth.length :=
    (List.getElem?_eq_some_iff.1 hd).1
  exact Nat.findGreatest_is_greatest (P := P) (Nat.lt_succ_self _) hlt.le ⟨d, hd, hc⟩

theorem zipIdx_eq {α : Type} (d : α) (l : List α) :
    l.zipIdx = (List.range l.length).map fun i => (l.getD i d, i) := by
  apply List.ext_getElem
  · simp
  · intro i h1 h2
    have : i < l.length := by simpa using h1
    simp [List.getD_eq_getElem?_getD, this]

theorem filter_single {n k : ℕ} (p : ℕ → Bool) (hk : k < n) (hp : ∀ i, i < n → (p i = true ↔ i = k)) :
    (List.range n).filter p = [k] := by
  have : (List.range n).filter p = (List.range n).filter (fun i => i == k) := by
    apply List.filter_congr
    intro i hi
    rw [List.mem_range] at hi
    have := hp i hi
    by_cases h : i = k
    · rw [this.2 h]; simp [h]
    · have h2 : p i = false := by
        cases hq : p i
        · rfl
        · exact absurd (this.1 hq) h
      rw [h2]; simp [h]
  rw [this, List.filter_beq, List.count_eq_one_of_mem List.nodup_range (List.mem_range.2 hk)]
  rfl

/-- **C12.**  For every vector of depths there is exactly one layer number per entry, in range, and
it is the layer whose half-open interval contains the entry (a depth on an interface belongs to the
layer above). -/
theorem C12_layer_nr {depth : List EReal} (hb : depth.head? = some ⊥) (hd : TopDown depth) :
    ∃ f : ℝ → ℕ, (∀ z : List ℝ, getLayerNr z depth = z.map f) ∧
      ∀ z, f z < depth.length ∧ InLayer depth (f z) z ∧ ∀ i, InLayer depth i z → i = f z := by
  choose f hf using inLayer_exists hb
  have hlt : ∀ z, f z < depth.length := fun z => by
    obtain ⟨⟨d, h, -⟩, -⟩ := hf z
    exact (List.getElem?_eq_some_iff.1 h).1
  refine ⟨f, fun z => ?_, fun z => ⟨hlt z, hf z, fun i hi => inLayer_unique hd hi (hf z)⟩⟩
  unfold getLayerNr
  rw [show z.map f = z.flatMap fun z => [f z] from List.map_eq_flatMap]
  congr 1
  funext z
  have hlen : (bounds depth).length = depth.length := by
    cases depth with
    | nil => simp at hb
    | cons a t => simp [bounds]
  rw [zipIdx_eq (⊥, ⊥), List.filter_map, List.map_map, hlen]
  have : ((fun x : (EReal × EReal) × ℕ => x.2) ∘ fun i => ((bounds depth).getD i (⊥, ⊥), i)) = id := rfl
  rw [this, List.map_id]
  apply filter_single _ (hlt z)
  intro i hi
  have hi' : i < (bounds depth).length := by rw [hlen]; exact hi
  have e : (bounds depth).getD i (⊥, ⊥) = (depth[i], (depth.tail ++ [⊤]).getD i ⊥) := by
    rw [List.getD_eq_getElem?_getD, List.getElem?_eq_getElem hi']
    simp only [bounds, List.getElem_zip, Option.getD_some]
    congr 1
    rw [List.getD_eq_getElem?_getD, List.getElem?_eq_getElem (by
      simp only [List.length_append, List.length_tail, List.length_singleton]; omega)]
    rfl
  simp only [Function.comp_apply, e, decide_eq_true_iff]
  have key : (depth[i] < (z : EReal) ∧ (depth.tail ++ [⊤]).getD i ⊥ ≥ (z : EReal)) ↔
      InLayer depth i z := by
    unfold InLayer
    have h1 : depth[i]? = some depth[i] := List.getElem?_eq_getElem hi
    rw [h1]
    have h2 : (depth.tail ++ [⊤]).getD i ⊥ = (depth[i + 1]?).getD ⊤ := by
      rw [List.getD_eq_getElem?_getD]
      by_cases h : i + 1 < depth.length
      · rw [List.getElem?_append_left (by simp; omega)]
        simp [h]
      · have : depth.length = i + 1 := by omega
        rw [List.getElem?_append_right (by simp; omega)]
        simp [this]
    rw [h2]
    constructor
    · rintro ⟨h3, h4⟩
      exact ⟨⟨_, rfl, h3⟩, fun d hd => by rw [hd] at h4; exact h4⟩
    · rintro ⟨⟨d, h3, h4⟩, h5⟩
      obtain rfl := Option.some.inj h3
      refine ⟨h4, ?_⟩
      cases hq : depth[i + 1]? with
      | none => simp
      | some d => exact h5 d hq
  rw [key]
  exact ⟨fun h => inLayer_unique hd h (hf z), fun h => h ▸ hf z⟩

/-- Sea surface at 0, zero-thickness layer at 1000: a depth on an interface belongs to the layer
above, the layer without thickness is never used. -/
example : getLayerNr [0, 1000, 1001, -5] [⊥, (0 : ℝ), (1000 : ℝ), (1000 : ℝ)] = [0, 1, 3, 0] := by
  have hb : ([⊥, (0 : ℝ), (1000 : ℝ), (1000 : ℝ)] : List EReal).head? = some ⊥ := rfl
  have e1 : ((0 : ℝ) : EReal) < ((1000 : ℝ) : EReal) := EReal.coe_lt_coe_iff.2 (by norm_num)
  have hd : TopDown ([⊥, (0 : ℝ), (1000 : ℝ), (1000 : ℝ)] : List EReal) := by
    simp only [TopDown, List.pairwise_cons, List.mem_cons, List.not_mem_nil, or_false]
    refine ⟨fun _ _ => bot_le, ?_, ?_, by simp, List.Pairwise.nil⟩
    · rintro a (rfl | rfl) <;> exact e1.le
    · rintro a rfl; exact le_refl _
  obtain ⟨f, h1, h2⟩ := C12_layer_nr hb hd
  rw [h1]
  have k0 : f 0 = 0 := ((h2 0).2.2 0 ⟨⟨⊥, rfl, EReal.bot_lt_coe _⟩, by
    rintro d ⟨⟩; exact le_refl _⟩).symm
  have k1 : f 1000 = 1 := ((h2 1000).2.2 1 ⟨⟨_, rfl, e1⟩, by rintro d ⟨⟩; exact le_refl _⟩).symm
  have k2 : f 1001 = 3 := ((h2 1001).2.2 3 ⟨⟨_, rfl, EReal.coe_lt_coe_iff.2 (by norm_num)⟩, by
    simp⟩).symm
  have k3 : f (-5) = 0 := ((h2 (-5)).2.2 0 ⟨⟨⊥, rfl, EReal.bot_lt_coe _⟩, by
    rintro d ⟨⟩; exact EReal.coe_le_coe_iff.2 (by norm_num)⟩).symm
  simp [k0, k1, k2, k3]

end Verif.Props
