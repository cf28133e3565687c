import Verif.Props.C42_Search

/-!
# C42: filter design: `design` as a whole
-/

namespace Verif.Props
open Verif.Fdesign Verif.Py

/-! ## Coefficients -/

/-- The filter values of a transform pair: lines 1371-1380 for one transform. -/
noncomputable def fitted (L : LinAlg) (P : Params) (n : ℕ) (s h : ℝ) (f : Pair) (g : ℝ → ℂ) : Fin n → ℝ :=
  invert L (fun i k => P.reim (f.lhs (base n s h k / invR P.rdef n (base n s h) i)))
    fun i => P.reim (g (invR P.rdef n (base n s h) i) * invR P.rdef n (base n s h) i)

theorem coefLoop_ok (L : LinAlg) (reim : ℂ → ℝ) {n m : ℕ} (b : Fin n → ℝ) (r : Fin m → ℝ) (fs : List Pair) (d : Dlf n)
    (h : ∀ f ∈ fs, ∃ g, f.rhs = .fn g) :
    ∃ d', coefLoop L reim b r fs d = .ok d' ∧ d'.base = d.base ∧
      (∀ k, (∀ f ∈ fs, f.name ≠ k) → d'.coef k = d.coef k) ∧ (∀ f ∈ fs, ∃ j, d'.coef f.name = some j) ∧
      ((fs.map Pair.name).Nodup → ∀ f ∈ fs, ∀ g, f.rhs = .fn g → d'.coef f.name =
        some (invert L (fun i k => reim (f.lhs (b k / r i))) fun i => reim (g (r i) * r i))) := by
  induction fs generalizing d with
  | nil => exact ⟨d, rfl, rfl, fun _ _ => rfl, by simp, by simp⟩
  | cons f fs ih =>
    obtain ⟨g, hg⟩ := h f (by simp)
    obtain ⟨d', h1, h2, h3, h4, h5⟩ := ih
      { d with coef := Function.update d.coef f.name
                (some (invert L (fun i k => reim (f.lhs (b k / r i))) fun i => reim (g (r i) * r i))) }
      fun f hf => h f (by simp [hf])
    refine ⟨d', by rw [coefLoop, hg]; exact h1, h2, fun k hk => ?_, fun f' hf' => ?_, fun hn f' hf' g' hg' => ?_⟩
    · rw [h3 k fun f' hf' => hk f' (by simp [hf'])]
      exact Function.update_of_ne (hk f (by simp)).symm _ _
    · rcases List.mem_cons.1 hf' with rfl | hf'
      · by_cases hex : ∃ f'' ∈ fs, f''.name = f'.name
        · obtain ⟨f'', hf'', e⟩ := hex
          rw [← e]; exact h4 f'' hf''
        · push Not at hex
          rw [h3 _ hex]
          exact ⟨_, Function.update_self ..⟩
      · exact h4 f' hf'
    · rw [List.map_cons, List.nodup_cons] at hn
      rcases List.mem_cons.1 hf' with rfl | hf'
      · rw [h3 _ fun f'' hf'' e => hn.1 (List.mem_map.2 ⟨f'', hf'', e⟩)]
        rw [hg] at hg'
        cases hg'
        exact Function.update_self ..
      · exact h5 hn.2 f' hf' g' hg'

/-- `_calculate_filter` returns the base of its spacing and shift, and for every transform the fitted values. -/
theorem C42_coefficients (L : LinAlg) (P : Params) (n : ℕ) (hn : 0 < n) (fI : List Pair) (h : ∀ f ∈ fI, ∃ g, f.rhs = .fn g)
    (s t : ℝ) :
    ∃ d, calculateFilter L P.reim P.rdef n fI s t = .ok d ∧ d.base = base n s t ∧
      (∀ f ∈ fI, ∃ j, d.coef f.name = some j) ∧
      ((fI.map Pair.name).Nodup → ∀ f ∈ fI, ∀ g, f.rhs = .fn g → d.coef f.name = some (fitted L P n s t f g)) := by
  obtain ⟨d, h1, h2, -, h4, h5⟩ := coefLoop_ok L P.reim (base n s t) (invR P.rdef n (base n s t)) fI
    ⟨base n s t, fun _ => none⟩ h
  exact ⟨d, by rw [calculateFilter, if_neg hn.ne']; exact h1, h2, h4, h5⟩

theorem coefLoop_arr (L : LinAlg) (reim : ℂ → ℝ) {n m : ℕ} (b : Fin n → ℝ) (r : Fin m → ℝ) (fs : List Pair) (d : Dlf n)
    (h : ∃ f ∈ fs, ∃ l, f.rhs = .arr l) : coefLoop L reim b r fs d = .error .typeError := by
  induction fs generalizing d with
  | nil => simp at h
  | cons f fs ih =>
    rw [coefLoop]
    cases hf : f.rhs with
    | arr l => rfl
    | fn g =>
      refine ih _ ?_
      obtain ⟨f', hf', l, e⟩ := h
      rcases List.mem_cons.1 hf' with rfl | hf'
      · rw [hf] at e; cases e
      · exact ⟨f', hf', l, e⟩

/-! ## Objects -/

/-- A transform pair with the values of its right-hand side. -/
def withValues (r : List ℝ) (f : Pair) : Pair :=
  match f.rhs with
  | .fn g => { f with rhs := .arr (r.map g) }
  | .arr _ => f

theorem withValues_fn {r : List ℝ} {f : Pair} {g : ℝ → ℂ} (h : f.rhs = .fn g) :
    withValues r f = { f with rhs := .arr (r.map g) } := by
  rw [withValues, h]

theorem setRhs_ok (r : List ℝ) (is : List ℕ) (heap : List Pair) (hn : is.Nodup)
    (h : ∀ i ∈ is, ∃ f, heap[i]? = some f ∧ ∃ g, f.rhs = .fn g) :
    ∃ heap', setRhs r is heap = .ok heap' ∧ heap'.length = heap.length ∧
      ∀ j : ℕ, heap'[j]? = if j ∈ is then (heap[j]?).map (withValues r) else heap[j]? := by
  induction is generalizing heap with
  | nil => exact ⟨heap, rfl, rfl, by simp⟩
  | cons i is ih =>
    obtain ⟨f, hf, g, hg⟩ := h i (by simp)
    rw [List.nodup_cons] at hn
    have hset : ∀ j : ℕ, (heap.set i { f with rhs := .arr (r.map g) })[j]? =
        if j = i then (heap[j]?).map (withValues r) else heap[j]? := by
      intro j
      rw [List.getElem?_set]
      by_cases hj : j = i
      · subst hj
        rw [if_pos rfl, if_pos rfl, if_pos (List.getElem?_eq_some_iff.1 hf).1, hf, Option.map_some, withValues_fn hg]
      · rw [if_neg (Ne.symm hj), if_neg hj]
    obtain ⟨heap', h1, h2, h3⟩ := ih (heap.set i { f with rhs := .arr (r.map g) }) hn.2 fun j hj => by
      obtain ⟨f', hf', hg'⟩ := h j (by simp [hj])
      refine ⟨f', ?_, hg'⟩
      have hji : j ≠ i := by rintro rfl; exact hn.1 hj
      rw [hset, if_neg hji, hf']
    refine ⟨heap', ?_, by rw [h2, List.length_set], fun j => ?_⟩
    · rw [setRhs, hf]
      simp only [hg]
      exact h1
    · rw [h3, hset]
      by_cases hj : j = i
      · subst hj
        simp [hn.1]
      · simp [hj]

theorem objects_cons (heap : List Pair) (i : ℕ) (is : List ℕ) {f : Pair} (h : heap[i]? = some f) :
    objects heap (i :: is) = f :: objects heap is := by
  rw [objects, List.filterMap_cons, h]; rfl

theorem mem_objects {heap : List Pair} {is : List ℕ} {f : Pair} : f ∈ objects heap is ↔ ∃ i ∈ is, heap[i]? = some f := by
  simp [objects]

theorem objects_map {heap heap' : List Pair} {is : List ℕ} (φ : Pair → Pair)
    (h : ∀ i ∈ is, heap'[i]? = (heap[i]?).map φ) : objects heap' is = (objects heap is).map φ := by
  induction is with
  | nil => rfl
  | cons i is ih =>
    rw [objects, List.filterMap_cons, h i (by simp)]
    have := ih fun j hj => h j (by simp [hj])
    unfold objects at this ⊢
    rw [List.filterMap_cons]
    cases heap[i]? <;> simp [this]

theorem objects_congr {heap heap' : List Pair} {is : List ℕ} (h : ∀ i ∈ is, heap'[i]? = heap[i]?) :
    objects heap' is = objects heap is := by
  have := objects_map (heap := heap) (heap' := heap') (is := is) id fun i hi => by rw [h i hi]; simp
  rwa [List.map_id] at this

theorem objects_length {heap : List Pair} {is : List ℕ} (h : ∀ i ∈ is, ∃ f, heap[i]? = some f) :
    (objects heap is).length = is.length := by
  induction is with
  | nil => rfl
  | cons i is ih =>
    obtain ⟨f, hf⟩ := h i (by simp)
    rw [objects_cons heap i is hf, List.length_cons, ih fun j hj => h j (by simp [hj]), List.length_cons]

theorem objects_copies (heap objs : List Pair) :
    objects (heap ++ objs) ((List.range objs.length).map (heap.length + ·)) = objs := by
  have : ∀ l : List Pair, (List.range l.length).filterMap (l[·]?) = l := by
    intro l
    induction l with
    | nil => rfl
    | cons x l ih =>
      rw [List.length_cons, List.range_succ_eq_map, List.filterMap_cons]
      simp only [List.getElem?_cons_zero, List.filterMap_map]
      congr 1
  rw [objects, List.filterMap_map]
  refine (List.filterMap_congr fun i _ => ?_).trans (this objs)
  simp only [Function.comp_apply]
  rw [List.getElem?_append_right (by omega)]
  congr 1
  omega

/-! ## The whole -/

/-- The filter has the values a transform pair needs. -/
def Answerable (names : List (List Char)) (f : Pair) : Prop :=
  if f.name = "j2".toList then "j0".toList ∈ names ∧ "j1".toList ∈ names else f.name ∈ names

theorem response_ok {n : ℕ} (d : Dlf n) (f : Pair) (r : List ℝ) (names : List (List Char))
    (hd : ∀ k ∈ names, ∃ j, d.coef k = some j) (h : Answerable names f) :
    ∃ c, response d f r = .ok c ∧ c.length = r.length := by
  unfold Answerable at h
  rw [response]
  split_ifs at h ⊢ with h2
  · obtain ⟨j0, e0⟩ := hd _ h.1
    obtain ⟨j1, e1⟩ := hd _ h.2
    rw [e0, e1]
    exact ⟨_, rfl, by simp⟩
  · obtain ⟨j, e⟩ := hd _ h
    rw [e]
    exact ⟨_, rfl, by simp⟩

theorem contributes_ok {n : ℕ} (d : Dlf n) (f : Pair) (r : List ℝ) (error : ℝ) (cvar : Cvar) (names : List (List Char))
    (hd : ∀ k ∈ names, ∃ j, d.coef k = some j) (h : Answerable names f) (hr : r ≠ []) (l : List ℂ) (hf : f.rhs = .arr l) :
    ∃ p, Contributes d r error cvar f p := by
  obtain ⟨c, hc, hl⟩ := response_ok d f r names hd h
  have hlen : 0 < r.length := List.length_pos_iff.2 hr
  have hs : stopIndex error c l < c.length := stopIndex_lt error c l (by rintro rfl; simp at hl; omega)
  have : ∃ x, value cvar r c (stopIndex error c l) = .ok x := by
    unfold value
    rw [List.getElem?_eq_getElem hs, List.getElem?_eq_getElem (by omega)]
    cases cvar <;> exact ⟨_, rfl⟩
  obtain ⟨x, hx⟩ := this
  exact ⟨(_, x), c, l, hc, by rw [Pair.values, hf], rfl, hx⟩

/-- The transform pairs a design is rated with. -/
def wanted (heap : List Pair) (fI : List ℕ) (fC : Option (List ℕ)) : List Pair :=
  match fC with
  | some (i :: is) => objects heap (i :: is)
  | _ => objects heap fI

/-- What `design` does with valid input: it returns a candidate with the smallest rating of all candidates, its filter,
and the tables; the given transform pairs `fI` are not changed, nor is anything if `fC` is not given. -/
theorem C42_design (L : LinAlg) (P : Params) (n : ℕ) (hn : 0 < n) (hr : P.r ≠ []) (spacing shift : LsInput)
    (S H : ℝ × ℝ × ℝ) (hS : ls2ar spacing = .ok S) (hH : ls2ar shift = .ok H) (heap : List Pair) (fI : List ℕ)
    (hne : fI ≠ []) (hI : ∀ i ∈ fI, ∃ f, heap[i]? = some f ∧ (∃ g, f.rhs = .fn g) ∧ f.name ≠ "j2".toList)
    (fC : Option (List ℕ))
    (hC : ∀ l, fC = some l → l.Nodup ∧ ∀ i ∈ l, i ∉ fI ∧ ∃ f, heap[i]? = some f ∧ (∃ g, f.rhs = .fn g) ∧
      Answerable ((objects heap fI).map Pair.name) f) :
    ∃ (D : ℝ → ℝ → Dlf n) (ρ : ℝ → ℝ → EReal) (s t : ℝ) (full : Full EReal) (heap' : List Pair),
      (∀ s t, calculateFilter L P.reim P.rdef n (objects heap fI) s t = .ok (D s t)) ∧
      (∀ s t, rate (D s t) P.r P.error P.cvar ((wanted heap fI fC).map (withValues P.r)) = .ok (ρ s t)) ∧
      design L P n spacing shift fI fC heap = (.ok (D s t, full), heap') ∧
      s ∈ arange S ∧ t ∈ arange H ∧ (∀ s' ∈ arange S, ∀ t' ∈ arange H, ρ s t ≤ ρ s' t') ∧
      full.best = ((s : EReal), (t : EReal)) ∧ full.minVal = ρ s t ∧
      full.nspace = (arange S).length ∧ full.nshift = (arange H).length ∧
      full.spacing = (arange S).map (fun s => (arange H).map fun _ => (s : EReal)) ∧
      full.shift = (arange S).map (fun _ => (arange H).map fun t => (t : EReal)) ∧
      full.vals = (arange S).map (fun s => (arange H).map (ρ s)) ∧
      full.flag = (if P.cvar = .r then 1 else 0) ∧
      ∀ i < heap.length, (∀ l, fC = some l → i ∉ l) → heap'[i]? = heap[i]? := by
  -- objects and copies
  have hIv : ∀ i ∈ fI, i < heap.length := fun i hi => by
    obtain ⟨f, hf, -⟩ := hI i hi
    exact (List.getElem?_eq_some_iff.1 hf).1
  have hlenI : (objects heap fI).length = fI.length := objects_length fun i hi => by
    obtain ⟨f, hf, -⟩ := hI i hi; exact ⟨f, hf⟩
  obtain ⟨fC', heap1, hT, hnd, hdis, hok, hI1, hW, hpre⟩ : ∃ fC' heap1, targets heap fI fC = (fC', heap1) ∧ fC'.Nodup ∧
      (∀ i ∈ fC', i ∉ fI) ∧ (∀ i ∈ fC', ∃ f, heap1[i]? = some f ∧ (∃ g, f.rhs = .fn g) ∧
        Answerable ((objects heap fI).map Pair.name) f) ∧ objects heap1 fI = objects heap fI ∧
      objects heap1 fC' = wanted heap fI fC ∧
      ∀ i < heap.length, (∀ l, fC = some l → i ∉ l) → heap1[i]? = heap[i]? ∧ i ∉ fC' := by
    have copies : ∃ fC' heap1, ((List.range fI.length).map (heap.length + ·), heap ++ fI.filterMap (heap[·]?)) = (fC', heap1) ∧
        fC'.Nodup ∧ (∀ i ∈ fC', i ∉ fI) ∧ (∀ i ∈ fC', ∃ f, heap1[i]? = some f ∧ (∃ g, f.rhs = .fn g) ∧
          Answerable ((objects heap fI).map Pair.name) f) ∧ objects heap1 fI = objects heap fI ∧
        objects heap1 fC' = objects heap fI ∧
        ∀ i < heap.length, (∀ l, fC = some l → i ∉ l) → heap1[i]? = heap[i]? ∧ i ∉ fC' := by
      refine ⟨_, _, rfl, ?_, ?_, ?_, ?_, ?_, ?_⟩
      · exact List.Nodup.map (fun a b h => by simpa using h) List.nodup_range
      · intro i hi hi'
        obtain ⟨j, -, rfl⟩ := List.mem_map.1 hi
        have := hIv _ hi'
        omega
      · intro i hi
        obtain ⟨j, hj, rfl⟩ := List.mem_map.1 hi
        have hj' : j < (objects heap fI).length := by rw [hlenI]; exact List.mem_range.1 hj
        refine ⟨(objects heap fI)[j], ?_, ?_⟩
        · rw [List.getElem?_append_right (by omega), show heap.length + j - heap.length = j by omega]
          exact List.getElem?_eq_getElem hj'
        · have hm : (objects heap fI)[j] ∈ objects heap fI := List.getElem_mem hj'
          obtain ⟨i, hi, e⟩ := mem_objects.1 hm
          obtain ⟨f, hf, hg, h2⟩ := hI i hi
          rw [e] at hf
          cases hf
          refine ⟨hg, ?_⟩
          rw [Answerable, if_neg h2]
          exact List.mem_map.2 ⟨_, hm, rfl⟩
      · exact objects_congr fun i hi => List.getElem?_append_left (hIv i hi)
      · have := objects_copies heap (objects heap fI)
        rw [hlenI] at this
        exact this
      · intro i hi _
        refine ⟨List.getElem?_append_left hi, fun h => ?_⟩
        obtain ⟨j, -, rfl⟩ := List.mem_map.1 h
        omega
    match fC, hC with
    | none, _ => exact copies
    | some [], _ => exact copies
    | some (i :: is), hC =>
      obtain ⟨h1, h2⟩ := hC _ rfl
      exact ⟨_, _, rfl, h1, fun j hj => (h2 j hj).1, fun j hj => (h2 j hj).2, rfl, rfl, fun j _ hj => ⟨rfl, hj _ rfl⟩⟩
  obtain ⟨heap2, h21, h22, h23⟩ := setRhs_ok P.r fC' heap1 hnd fun i hi => by
    obtain ⟨f, hf, hg, -⟩ := hok i hi; exact ⟨f, hf, hg⟩
  have hI2 : objects heap2 fI = objects heap fI := by
    rw [← hI1]
    exact objects_congr fun i hi => by rw [h23, if_neg fun h => hdis i h hi]
  have hC2 : objects heap2 fC' = (wanted heap fI fC).map (withValues P.r) := by
    rw [← hW]
    exact objects_map _ fun i hi => by rw [h23, if_pos hi]
  have hfn : ∀ f ∈ objects heap fI, ∃ g, f.rhs = .fn g := by
    intro f hf
    obtain ⟨i, hi, e⟩ := mem_objects.1 hf
    obtain ⟨f', hf', hg, -⟩ := hI i hi
    rw [e] at hf'; cases hf'; exact hg
  choose D hD1 hD2 hD3 hD4 using fun s t => C42_coefficients L P n hn (objects heap fI) hfn s t
  have hwne : wanted heap fI fC ≠ [] := by
    obtain ⟨i0, is0, rfl⟩ := List.exists_cons_of_ne_nil hne
    obtain ⟨f0, hf0, -⟩ := hI i0 (by simp)
    have hobj : objects heap (i0 :: is0) ≠ [] := by rw [objects_cons _ _ _ hf0]; simp
    match fC, hC with
    | none, _ => exact hobj
    | some [], _ => exact hobj
    | some (i :: is), hC =>
      obtain ⟨f, hf, -⟩ := ((hC _ rfl).2 i (by simp)).2
      rw [wanted, objects_cons _ _ _ hf]; simp
  have hrate : ∀ s t, ∃ x, rate (D s t) P.r P.error P.cvar ((wanted heap fI fC).map (withValues P.r)) = .ok x := by
    intro s t
    have hcon : ∀ f ∈ (wanted heap fI fC).map (withValues P.r), ∃ p, Contributes (D s t) P.r P.error P.cvar f p := by
      intro f hf
      obtain ⟨f1, hf1, rfl⟩ := List.mem_map.1 hf
      rw [← hW] at hf1
      obtain ⟨i, hi, e⟩ := mem_objects.1 hf1
      obtain ⟨f2, hf2, ⟨g, hg⟩, ha⟩ := hok i hi
      rw [e] at hf2; cases hf2
      refine contributes_ok (D s t) _ P.r P.error P.cvar ((objects heap fI).map Pair.name) ?_ ?_ hr (P.r.map g) ?_
      · intro k hk
        obtain ⟨f', hf', rfl⟩ := List.mem_map.1 hk
        exact hD3 s t f' hf'
      · rw [withValues_fn hg]; exact ha
      · rw [withValues_fn hg]
    choose! g hg using hcon
    obtain ⟨b, -, hb, -⟩ := rateLoop_max g _ hg none (by simpa using hwne)
    exact ⟨_, by rw [rate, hb]; rfl⟩
  choose ρ hρ using hrate
  obtain ⟨full, hb, ⟨s, hs, t, ht, hbest, hmin⟩, hle, r1, r2, r3, r4, r5, r6⟩ := C42_search
    (fun s t => (calculateFilter L P.reim P.rdef n (objects heap2 fI) s t).bind fun d =>
      rate d P.r P.error P.cvar (objects heap2 fC')) (arange S) (arange H) (C42_grid_nonempty _ _ hS)
    (C42_grid_nonempty _ _ hH) (if P.cvar = .r then 1 else 0) ρ (fun s _ t _ => by
      rw [hI2, hC2, hD1]
      exact hρ s t)
  refine ⟨D, ρ, s, t, full, heap2, hD1, hρ, ?_, hs, ht, fun s' hs' t' ht' => hmin ▸ hle s' hs' t' ht', hbest, hmin, r1, r2,
    r3, r4, r5, r6, fun i hi hl => ?_⟩
  · have hmain : designMain L P n S H fI fC' heap2 = .ok (D s t, full) := by
      rw [designMain]
      simp only [bind] at hb ⊢
      rw [hb]
      simp only [Except.bind]
      rw [hbest]
      simp only [EReal.toReal_coe]
      rw [hI2, hD1]
    obtain ⟨i0, is0, rfl⟩ := List.exists_cons_of_ne_nil hne
    obtain ⟨f0, hf0, -, hj2⟩ := hI i0 (by simp)
    rw [design, hT]
    simp only
    rw [hI1, objects_cons _ _ _ hf0]
    simp only [if_neg hj2, hS, hH, h21, hmain]
  · obtain ⟨e1, e2⟩ := hpre i hi hl
    rw [h23, if_neg e2, e1]

theorem setRhs_arr (r : List ℝ) (is : List ℕ) (heap : List Pair) (i : ℕ) (his : i ∈ is) (h : ∀ j ∈ is, ∃ f, heap[j]? = some f) :
    setRhs r is heap = .error .typeError ∨
      ∃ heap', setRhs r is heap = .ok heap' ∧ ∃ f l, heap'[i]? = some f ∧ f.rhs = .arr l := by
  have keep : ∀ (is : List ℕ) (heap heap' : List Pair), setRhs r is heap = .ok heap' →
      (∃ f l, heap[i]? = some f ∧ f.rhs = .arr l) → ∃ f l, heap'[i]? = some f ∧ f.rhs = .arr l := by
    intro is
    induction is with
    | nil => intro heap heap' h1 h2; cases h1; exact h2
    | cons j is ih =>
      intro heap heap' h1 h2
      rw [setRhs] at h1
      split at h1
      · cases h1
      · rename_i f hf
        split at h1
        · cases h1
        · rename_i g hg
          refine ih _ _ h1 ?_
          rw [List.getElem?_set]
          split_ifs with e1 e2
          · exact ⟨_, _, rfl, rfl⟩
          · subst e1
            exact absurd (List.getElem?_eq_some_iff.1 hf).1 e2
          · exact h2
  induction is generalizing heap with
  | nil => simp at his
  | cons j is ih =>
    obtain ⟨f, hf⟩ := h j (by simp)
    cases hg : f.rhs with
    | arr l =>
      left
      rw [setRhs, hf]
      simp only [hg]
    | fn g =>
      have hstep : setRhs r (j :: is) heap = setRhs r is (heap.set j { f with rhs := .arr (r.map g) }) := by
        rw [setRhs, hf]
        simp only [hg]
      rw [hstep]
      have hval : ∀ k ∈ is, ∃ f', (heap.set j { f with rhs := .arr (r.map g) })[k]? = some f' := by
        intro k hk
        obtain ⟨f', hf'⟩ := h k (by simp [hk])
        have := (List.getElem?_eq_some_iff.1 hf').1
        exact ⟨_, List.getElem?_eq_getElem (by simpa using this)⟩
      by_cases hi : i ∈ is
      · exact ih _ hi hval
      · have hij : i = j := by rcases List.mem_cons.1 his with h | h; exacts [h, absurd h hi]
        subst hij
        have tot : ∀ (is : List ℕ) (heap : List Pair), (∀ k ∈ is, ∃ f, heap[k]? = some f) →
            setRhs r is heap = .error .typeError ∨ ∃ heap', setRhs r is heap = .ok heap' := by
          intro is
          induction is with
          | nil => intro heap _; exact .inr ⟨heap, rfl⟩
          | cons k is ih =>
            intro heap h
            obtain ⟨f, hf⟩ := h k (by simp)
            rw [setRhs, hf]
            simp only
            cases hg : f.rhs with
            | arr l => exact .inl rfl
            | fn g =>
              refine ih _ fun k' hk' => ?_
              obtain ⟨f', hf'⟩ := h k' (by simp [hk'])
              have := (List.getElem?_eq_some_iff.1 hf').1
              exact ⟨_, List.getElem?_eq_getElem (by simpa using this)⟩
        rcases tot _ _ hval with h1 | ⟨heap', h1⟩
        · exact .inl h1
        · refine .inr ⟨heap', h1, keep _ _ _ h1 ⟨{ f with rhs := .arr (r.map g) }, _, ?_, rfl⟩⟩
          rw [List.getElem?_set, if_pos rfl, if_pos (List.getElem?_eq_some_iff.1 hf).1]

/-- The same object in `fI` and `fC`: `design` raises, since it replaces the right-hand side of the object by its
values. -/
theorem C42_shared_violated (L : LinAlg) (P : Params) (n : ℕ) (hn : 0 < n) (spacing shift : LsInput)
    (S H : ℝ × ℝ × ℝ) (hS : ls2ar spacing = .ok S) (hH : ls2ar shift = .ok H) (heap : List Pair) (fI fC : List ℕ)
    (i : ℕ) (hiI : i ∈ fI) (hiC : i ∈ fC) (hI : ∀ i ∈ fI, ∃ f, heap[i]? = some f ∧ f.name ≠ "j2".toList)
    (hC : ∀ i ∈ fC, ∃ f, heap[i]? = some f) :
    (design L P n spacing shift fI (some fC) heap).1 = .error .typeError := by
  obtain ⟨c0, cs, rfl⟩ := List.exists_cons_of_ne_nil (List.ne_nil_of_mem hiC)
  obtain ⟨i0, is, rfl⟩ := List.exists_cons_of_ne_nil (List.ne_nil_of_mem hiI)
  obtain ⟨f0, hf0, hj2⟩ := hI i0 (by simp)
  rw [design, targets]
  simp only
  rw [objects_cons _ _ _ hf0]
  simp only [if_neg hj2, hS, hH]
  rcases setRhs_arr P.r (c0 :: cs) heap i hiC hC with h | ⟨heap', h, f, l, hf, hl⟩
  · rw [h]
  · rw [h]
    simp only
    rw [designMain]
    have hcalc : ∀ s t, calculateFilter L P.reim P.rdef n (objects heap' (i0 :: is)) s t = .error .typeError := by
      intro s t
      rw [calculateFilter, if_neg hn.ne']
      exact coefLoop_arr _ _ _ _ _ _ ⟨f, mem_objects.2 ⟨i, hiI, hf⟩, l, hl⟩
    simp only [hcalc]
    have : ∀ J : ℝ → ℝ → Except PyErr EReal, (∀ s t, J s t = .error .typeError) →
        brute J (arange S) (arange H) (if P.cvar = .r then 1 else 0) = .error .typeError := by
      intro J hJ
      rw [brute, evalAll_error (C42_grid_nonempty _ _ hS) fun s _ =>
        evalAll_error (C42_grid_nonempty _ _ hH) fun t _ => hJ s t]
      rfl
    refine (congrArg (fun x : Except PyErr (Full EReal) => x.bind _) (this _ fun s t => ?_)).trans rfl
    rfl

/-- `fC` objects cannot be used for a second design. -/
theorem C42_reuse_violated (L : LinAlg) (P : Params) (n : ℕ) (spacing shift : LsInput)
    (S H : ℝ × ℝ × ℝ) (hS : ls2ar spacing = .ok S) (hH : ls2ar shift = .ok H) (heap : List Pair) (fI : List ℕ) (c : ℕ)
    (cs : List ℕ) (hI : ∀ i ∈ fI, ∃ f, heap[i]? = some f ∧ f.name ≠ "j2".toList) (hne : fI ≠ [])
    (f : Pair) (l : List ℂ) (hf : heap[c]? = some f) (hl : f.rhs = .arr l) :
    (design L P n spacing shift fI (some (c :: cs)) heap).1 = .error .typeError := by
  obtain ⟨i0, is, rfl⟩ := List.exists_cons_of_ne_nil hne
  obtain ⟨f0, hf0, hj2⟩ := hI i0 (by simp)
  rw [design, targets]
  simp only
  rw [objects_cons _ _ _ hf0]
  simp only [if_neg hj2, hS, hH]
  rw [setRhs, hf]
  simp only [hl]

/-- `j2` cannot be inverted for; spacing and shift are checked. -/
theorem C42_design_reject (L : LinAlg) (P : Params) (n : ℕ) (spacing shift : LsInput) (heap : List Pair) (i : ℕ)
    (is : List ℕ) (fC : List ℕ) (hC : fC ≠ []) (f : Pair) (hf : heap[i]? = some f)
    (h : f.name = "j2".toList ∨ spacing = .other ∨ shift = .other) :
    (design L P n spacing shift (i :: is) (some fC) heap).1 = .error .valueError := by
  obtain ⟨c0, cs, rfl⟩ := List.exists_cons_of_ne_nil hC
  rw [design, targets]
  simp only
  rw [objects_cons _ _ _ hf]
  simp only
  by_cases h2 : f.name = "j2".toList
  · rw [if_pos h2]
  · rw [if_neg h2]
    rcases h with h | rfl | rfl
    · exact absurd h h2
    · rfl
    · cases spacing <;> rfl

/-- The pair `exp(-x)`, `1/(1+b²)` of the sine transform; the design runs. -/
example (L : LinAlg) : ∃ d full heap', design L ⟨[1, 2], (1, 1, 2), Complex.re, .amp, 1 / 100⟩ 3 (.three (1 / 10) (1 / 5) 2)
    (.one 0) [0] none [⟨"sin".toList, fun x => Complex.exp (-x), 0, .fn fun b => b / (1 + b ^ 2)⟩] =
      (.ok (d, full), heap') ∧ full.nspace = 2 ∧ full.nshift = 1 := by
  obtain ⟨S, hS, hSl⟩ := C42_grid (1 / 10) (1 / 5) 2 le_rfl (by norm_num)
  obtain ⟨T, hT, hTl⟩ := (C42_grid_single 0 0 0 (.inr rfl)).1
  obtain ⟨D, ρ, s, t, full, heap', -, -, h, -, -, -, -, -, h1, h2, -⟩ := C42_design L
    ⟨[1, 2], (1, 1, 2), Complex.re, .amp, 1 / 100⟩ 3 (by norm_num) (by simp) (.three (1 / 10) (1 / 5) 2) (.one 0) S T
    (by simpa using hS) hT
    [⟨"sin".toList, fun x => Complex.exp (-x), 0, .fn fun b => b / (1 + b ^ 2)⟩] [0] (by simp)
    (by simp) none (by simp)
  exact ⟨_, _, _, h, by rw [h1, hSl]; simp, by rw [h2, hTl]; simp⟩

end Verif.Props
