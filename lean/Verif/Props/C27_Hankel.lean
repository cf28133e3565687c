import Verif.Lemmas.Args

/-!
# C27 — arguments of the Hankel transform: defaults, overriding and rejection
-/

namespace Verif.Props
open Verif.Args Verif.Py Verif.Py.W

/-- How an argument is documented to be read. -/
inductive Reading where
  | float
  | integer
  | integerFrom (n : ℕ)
  | optFloat
  | optInteger
  | optIntegerFrom (n : ℕ)
  | twoFloats

/-- Numbers below `n` are replaced by `n`. -/
noncomputable def raised (n : ℕ) : Val → Val
  | .num x => .num (max n x)
  | .arr l => .arr (l.map fun x => max (n : ℝ) x)
  | v => v

/-- The value that is read from `v`. -/
noncomputable def Reading.read (C : Conv) : Reading → Val → Except PyErr Val
  | .float, v => C.flt v
  | .integer, v => C.int v
  | .integerFrom n, v => (C.int v).map (raised n)
  | .optFloat, .none => .ok .none
  | .optFloat, v => C.flt v
  | .optInteger, .none => .ok .none
  | .optInteger, v => C.int v
  | .optIntegerFrom _, .none => .ok .none
  | .optIntegerFrom n, v => (C.int v).map (raised n)
  | .twoFloats, .arr [x, y] => .ok (.arr [x, y])
  | .twoFloats, .arr _ => .error .valueError
  | .twoFloats, v => (C.flt v).bind fun _ => .error .valueError

/-- One documented argument: name, default, how it is read. -/
structure Param where
  key : String
  dflt : Val
  reading : Reading

/-- QWE and QUAD: the documented arguments (model.py 235-261), except `maxint`, whose documented default is 40. -/
noncomputable def table (m : String) : List Param :=
  if m = "qwe" then
    [⟨"rtol", .num 1e-12, .float⟩, ⟨"atol", .num 1e-30, .float⟩, ⟨"nquad", .num 51, .integer⟩,
     ⟨"maxint", .num 100, .integer⟩, ⟨"pts_per_dec", .num 0, .integerFrom 0⟩, ⟨"diff_quad", .num 100, .float⟩,
     ⟨"a", .none, .optFloat⟩, ⟨"b", .none, .optFloat⟩, ⟨"limit", .none, .optInteger⟩]
  else
    [⟨"rtol", .num 1e-12, .float⟩, ⟨"atol", .num 1e-20, .float⟩, ⟨"limit", .num 500, .integer⟩,
     ⟨"a", .num 1e-6, .float⟩, ⟨"b", .num 0.1, .float⟩, ⟨"pts_per_dec", .num 40, .integerFrom 1⟩]

/-- What is given for `p`, or the default. -/
def Param.given (p : Param) (args : Dict) : Val := (args.lookup p.key).getD p.dflt

/-- `d` is what the table says: each documented key has the value read from what is given or from the
default, and there are no other keys. -/
def Fits (C : Conv) (tbl : List Param) (args d : Dict) : Prop :=
  (∀ p ∈ tbl, ∃ v, p.reading.read C (p.given args) = .ok v ∧ d.lookup p.key = some v) ∧
    ∀ k, k ∉ tbl.map Param.key → d.lookup k = none

/-- All documented arguments can be read. -/
def Readable (C : Conv) (tbl : List Param) (args : Dict) : Prop :=
  ∀ p ∈ tbl, ∃ v, p.reading.read C (p.given args) = .ok v

/-- An argument is given that is not documented. -/
def Unknown (tbl : List Param) (args : Dict) : Prop := ∃ k ∈ args.map Prod.fst, k ∉ tbl.map Param.key

/-! ## Link between items and parameters -/

/-- Kind and reading are the same. -/
def Same : Kind → Reading → Prop
  | .flt, .float => True
  | .int, .integer => True
  | .intMin n, .integerFrom m => n = m
  | .optFlt, .optFloat => True
  | .optInt, .optInteger => True
  | .optIntMin n, .optIntegerFrom m => n = m
  | .pair, .twoFloats => True
  | _, _ => False

theorem cutVal_raised (n : ℕ) (v : Val) : cutVal n v = raised n v := by
  have h : ∀ x : ℝ, (if x < n then (n : ℝ) else x) = max (n : ℝ) x := by
    intro x
    split_ifs with h
    · exact (max_eq_left h.le).symm
    · exact (max_eq_right (not_lt.1 h)).symm
  cases v <;> simp only [cutVal, raised, h]

theorem check_val_of_same {C : Conv} {verb : ℤ} {k : Kind} {r : Reading} (h : Same k r) (v : Val) :
    (check C verb k v).val = r.read C v := by
  have hmin : ∀ n : ℕ, ∀ v, ((do let v ← ofExcept (C.int v); minVal n verb v) : W Val).val =
      (C.int v).map (raised n) := by
    intro n v
    rw [bind_val]
    have e : ∀ w, (minVal n verb w).val = .ok (raised n w) := fun w => by
      rw [minVal, bind_val, ← cutVal_raised]; rfl
    simp only [e]
    change (C.int v).bind _ = _
    cases C.int v <;> rfl
  cases k <;> cases r <;> simp only [Same] at h
  · rfl
  · rfl
  · subst h; exact hmin _ _
  · cases v <;> rfl
  · cases v <;> rfl
  · subst h
    cases v <;> first | rfl | exact hmin _ _
  · cases v with
    | arr l =>
      match l with
      | [] => rfl
      | [_] => rfl
      | [x, y] => exact C.flt_arr [x, y]
      | _ :: _ :: _ :: l => rw [check, if_neg (by simp)]; rfl
    | _ => rw [check, bind_val] <;> first | rfl | simp

/-- A list of items does what a table says. -/
def Matches (items : List Item) (tbl : List Param) : Prop :=
  List.Forall₂ (fun i p => i.key = p.key ∧ i.dflt = p.dflt ∧ Same i.kind p.reading) items tbl

theorem Matches.keys {items : List Item} {tbl : List Param} (h : Matches items tbl) :
    items.map Item.key = tbl.map Param.key := by
  induction h with
  | nil => rfl
  | cons h _ ih => rw [List.map_cons, List.map_cons, ih, h.1]

theorem Matches.of_item {items : List Item} {tbl : List Param} (h : Matches items tbl) {i : Item}
    (hi : i ∈ items) : ∃ p ∈ tbl, i.key = p.key ∧ i.dflt = p.dflt ∧ Same i.kind p.reading := by
  induction h with
  | nil => exact absurd hi (by simp)
  | cons h _ ih =>
    rcases List.mem_cons.1 hi with rfl | hi
    · exact ⟨_, List.mem_cons_self, h⟩
    · obtain ⟨p, hp, h⟩ := ih hi
      exact ⟨p, List.mem_cons_of_mem _ hp, h⟩

theorem Matches.of_param {items : List Item} {tbl : List Param} (h : Matches items tbl) {p : Param}
    (hp : p ∈ tbl) : ∃ i ∈ items, i.key = p.key ∧ i.dflt = p.dflt ∧ Same i.kind p.reading := by
  induction h with
  | nil => exact absurd hp (by simp)
  | cons h _ ih =>
    rcases List.mem_cons.1 hp with rfl | hp
    · exact ⟨_, List.mem_cons_self, h⟩
    · obtain ⟨i, hi, h⟩ := ih hp
      exact ⟨i, List.mem_cons_of_mem _ hi, h⟩

theorem valueOf_eq {C : Conv} {verb : ℤ} {i : Item} {p : Param} (args : Dict)
    (h : i.key = p.key ∧ i.dflt = p.dflt ∧ Same i.kind p.reading) :
    valueOf C verb args i = p.reading.read C (p.given args) := by
  rw [valueOf, check_val_of_same h.2.2, Param.given, popVal, h.1, h.2.1]

/-- A sequence of statements that matches a table. -/
theorem steps_table (C : Conv) (verb : ℤ) {items : List Item} {tbl : List Param} (h : Matches items tbl)
    (hd : (tbl.map Param.key).Nodup) (args targ : Dict) :
    (Readable C tbl args → ∃ r, (steps C verb items ⟨args, targ⟩).val = .ok r) ∧
      ∀ r, (steps C verb items ⟨args, targ⟩).val = .ok r →
        Readable C tbl args ∧ (∃ l, r.targ = targ ++ l ∧ Fits C tbl args l ∧
          l.map Prod.fst = tbl.map Param.key) ∧
          r.args = args.filter fun p => decide (p.1 ∉ tbl.map Param.key) := by
  have hd' : (items.map Item.key).Nodup := by rw [h.keys]; exact hd
  constructor
  · intro hr
    have : ∀ i : Item, ∃ v, i ∈ items → valueOf C verb args i = .ok v := by
      intro i
      by_cases hi : i ∈ items
      · obtain ⟨p, hp, hip⟩ := h.of_item hi
        obtain ⟨v, hv⟩ := hr p hp
        exact ⟨v, fun _ => by rw [valueOf_eq args hip]; exact hv⟩
      · exact ⟨.none, fun h => absurd h hi⟩
    choose w hw using this
    exact ⟨_, (steps_val C verb items hd' args targ _).2 ⟨w, fun i hi => hw i hi, rfl⟩⟩
  · intro r hr
    obtain ⟨w, hw, rfl⟩ := (steps_val C verb items hd' args targ r).1 hr
    have key : ∀ p ∈ tbl, ∃ v, p.reading.read C (p.given args) = .ok v ∧
        (items.map fun i => (i.key, w i)).lookup p.key = some v := by
      intro p hp
      obtain ⟨i, hi, hip⟩ := h.of_param hp
      refine ⟨w i, ?_, ?_⟩
      · rw [← valueOf_eq (verb := verb) args hip]; exact hw i hi
      · rw [← hip.1]; exact lookup_items items w hd' i hi
    have hk : (items.map fun i => (i.key, w i)).map Prod.fst = tbl.map Param.key := by
      rw [← h.keys, List.map_map]; rfl
    refine ⟨fun p hp => ?_, ⟨_, rfl, ⟨fun p hp => key p hp, fun k hk' => ?_⟩, hk⟩, ?_⟩
    · obtain ⟨v, hv, -⟩ := key p hp; exact ⟨v, hv⟩
    · exact lookup_notMem _ _ (by rw [hk]; exact hk')
    · simp only [h.keys]

theorem matches_qwe : Matches hankelQwe (table "qwe") := by
  rw [table, if_pos rfl, hankelQwe]
  repeat first | exact .nil | refine .cons ⟨rfl, rfl, by simp only [Same]⟩ ?_

theorem matches_quad : Matches hankelQuadItems (table "quad") := by
  rw [table, if_neg (by decide), hankelQuadItems]
  repeat first | exact .nil | refine .cons ⟨rfl, rfl, by simp only [Same]⟩ ?_

theorem table_nodup (m : String) : ((table m).map Param.key).Nodup := by
  unfold table
  split_ifs <;> simp

/-! ## The theorems -/

theorem unknown_val (verb : ℤ) (s : St) : (unknown verb s).val = .ok s.targ := rfl

theorem checkHankel_val (C : Conv) (lib : String → Option Val) (dflt : Val) (ht : String) (htarg : Dict)
    (verb : ℤ) : (checkHankel C lib dflt ht htarg verb).val =
      (hankelSteps C lib dflt (lower ht) verb ⟨htarg, []⟩).val.map fun s => ((lower ht), s.targ) := by
  rw [checkHankel, bind_val]
  cases (hankelSteps C lib dflt (lower ht) verb ⟨htarg, []⟩).val <;> rfl

/-- Statements of QWE and QUAD. -/
noncomputable def itemsOf (m : String) : List Item := if m = "qwe" then hankelQwe else hankelQuadItems

theorem hankelSteps_eq (C : Conv) (lib : String → Option Val) (dflt : Val) (m : String)
    (hm : m = "qwe" ∨ m = "quad") (verb : ℤ) (s : St) :
    hankelSteps C lib dflt m verb s = steps C verb (itemsOf m) s ∧ Matches (itemsOf m) (table m) := by
  rcases hm with rfl | rfl
  · exact ⟨rfl, matches_qwe⟩
  · refine ⟨?_, matches_quad⟩
    rw [hankelSteps, if_neg (by decide), if_neg (by decide), if_pos (List.infix_refl _)]
    rfl

/-- **C27, QWE and QUAD.**  In any case of letters; the call succeeds if and only if all given arguments of
the table can be read; then each argument is read from what is given or from the default, and there is
nothing else. -/
theorem C27_values (C : Conv) (lib : String → Option Val) (dflt : Val) (ht : String) (htarg : Dict)
    (verb : ℤ) (hm : (lower ht) = "qwe" ∨ (lower ht) = "quad") :
    ((∃ r, (checkHankel C lib dflt ht htarg verb).val = .ok r) ↔ Readable C (table (lower ht)) htarg) ∧
      ∀ m d, (checkHankel C lib dflt ht htarg verb).val = .ok (m, d) →
        m = (lower ht) ∧ Fits C (table m) htarg d := by
  obtain ⟨e, hM⟩ := hankelSteps_eq C lib dflt _ hm verb ⟨htarg, []⟩
  obtain ⟨h1, h2⟩ := steps_table C verb hM (table_nodup _) htarg []
  rw [checkHankel_val, e]
  cases h : (steps C verb (itemsOf (lower ht)) ⟨htarg, []⟩).val with
  | error er =>
    refine ⟨⟨fun ⟨r, hr⟩ => absurd hr (by simp [Except.map]), fun hr => ?_⟩, fun m d hr => ?_⟩
    · obtain ⟨r, hr⟩ := h1 hr
      rw [h] at hr; exact absurd hr (by simp)
    · exact absurd hr (by simp [Except.map])
  | ok s =>
    obtain ⟨hr, ⟨l, hl, hf, -⟩, -⟩ := h2 s h
    rw [List.nil_append] at hl
    subst hl
    refine ⟨⟨fun _ => hr, fun _ => ⟨_, rfl⟩⟩, fun m d hmd => ?_⟩
    simp only [Except.map, Except.ok.injEq, Prod.mk.injEq] at hmd
    obtain ⟨rfl, rfl⟩ := hmd
    exact ⟨rfl, hf⟩

/-- The filter that is asked for: an object, a name in the library, or the default. -/
def filterFor (lib : String → Option Val) (dflt : Val) (args : Dict) : Option Val :=
  match args.lookup "dlf" with
  | none => some dflt
  | some (.str s) => lib s
  | some v => some v

theorem getFilter_iff (lib : String → Option Val) (a : List String) (F : Transform.Filter) (args : Dict)
    (f : Val) : (getFilter lib (popVal "dlf" (.filter a F) args)).val = .ok f ↔
      filterFor lib (.filter a F) args = some f := by
  rw [popVal, filterFor]
  cases h : args.lookup "dlf" with
  | none => simp [getFilter]
  | some v =>
    cases v <;> simp [getFilter]
    rename_i s
    cases lib s <;> simp

/-- A filter with base, factor and both sets of coefficients. -/
def HankelFilter (v : Val) : Prop :=
  ∃ a F, v = .filter a F ∧ "base" ∈ a ∧ "j0" ∈ a ∧ "j1" ∈ a ∧ "factor" ∈ a

/-- **C27, digital filters.**  With a default that is a filter: the call succeeds with filter `f` and points
per decade `v` exactly if `f` is the filter that is asked for, it has what is needed, and `v` is read from
what is given, or 0. -/
theorem C27_dlf (C : Conv) (lib : String → Option Val) (dflt : Val) (hd : HankelFilter dflt) (ht : String)
    (htarg : Dict) (verb : ℤ) (hm : (lower ht) = "dlf") (m : String) (d : Dict) :
    (checkHankel C lib dflt ht htarg verb).val = .ok (m, d) ↔
      m = "dlf" ∧ ∃ f v, filterFor lib dflt htarg = some f ∧ HankelFilter f ∧
        C.flt ((htarg.lookup "pts_per_dec").getD (.num 0)) = .ok v ∧
        d = [("dlf", f), ("pts_per_dec", v)] := by
  have hf : ∀ f, (needs ["base", "j0", "j1", "factor"] f).val = .ok () ↔ HankelFilter f := by
    intro f
    unfold HankelFilter
    cases f <;> simp [needs]
    split_ifs with h
    · simp [h]
    · simp only [raise_val, reduceCtorEq, false_iff]
      exact h
  have hg : ∀ f, (getFilter lib (popVal "dlf" dflt htarg)).val = .ok f ↔ filterFor lib dflt htarg = some f := by
    obtain ⟨a, F, rfl, -⟩ := hd
    exact getFilter_iff lib a F htarg
  have hne : "pts_per_dec" ≠ "dlf" := by decide
  rw [checkHankel_val, hm, hankelSteps, if_pos rfl, bind_val, filterStep, bind_val]
  cases h1 : (getFilter lib (popVal "dlf" dflt htarg)).val with
  | error e =>
    refine ⟨fun h => absurd h (by simp [Except.bind, Except.map]), ?_⟩
    rintro ⟨-, f, v, h, -⟩
    rw [(hg f).2 h] at h1; exact absurd h1 (by simp)
  | ok f =>
    have h1' := (hg f).1 h1
    simp only [Except.bind, bind_val, pure_val]
    cases h2 : (needs ["base", "j0", "j1", "factor"] f).val with
    | error e =>
      refine ⟨fun h => absurd h (by simp [Except.map]), ?_⟩
      rintro ⟨-, f', v, h, hF, -⟩
      rw [h1'] at h
      injection h with h
      subst h
      rw [(hf f).2 hF] at h2; exact absurd h2 (by simp)
    | ok u =>
      have h2' := (hf f).1 h2
      simp only [step_val, valueOf, check, Args.ofExcept, popVal_popRest hne]
      simp only [popVal, List.nil_append, List.cons_append]
      cases h3 : C.flt ((htarg.lookup "pts_per_dec").getD (.num 0)) with
      | error e =>
        simp [Except.bind, Except.map]
      | ok v =>
        simp only [Except.bind, Except.map, Except.ok.injEq, Prod.mk.injEq]
        constructor
        · rintro ⟨rfl, rfl⟩
          exact ⟨rfl, f, v, h1', h2', rfl, rfl⟩
        · rintro ⟨rfl, f', v', h, -, rfl, rfl⟩
          rw [h1'] at h
          injection h with h
          subst h
          exact ⟨rfl, rfl⟩

/-- **C27, unknown method.**  `ValueError`, and nothing is printed - unless the name is part of the word
`quad`, see `C27_method_violated`.  Missing for the full claim: the names that are parts of `quad`. -/
theorem C27_method_partial (C : Conv) (lib : String → Option Val) (dflt : Val) (ht : String) (htarg : Dict)
    (verb : ℤ) (h1 : (lower ht) ≠ "dlf") (h2 : (lower ht) ≠ "qwe")
    (h3 : ¬ (lower ht).toList <:+: "quad".toList) :
    checkHankel C lib dflt ht htarg verb = ⟨.error .valueError, []⟩ := by
  rw [checkHankel, hankelSteps, if_neg h1, if_neg h2, if_neg h3]
  rfl

/-- **C27 does not hold for parts of the word `quad`**: these unknown methods are accepted, for all
arguments that are accepted for QUAD, and returned as method. -/
theorem C27_method_violated (C : Conv) (lib : String → Option Val) (dflt : Val) (ht : String) (htarg : Dict)
    (verb : ℤ) (h : (lower ht) ∈ ["", "q", "u", "a", "d", "qu", "ua", "ad", "qua", "uad"]) :
    (checkHankel C lib dflt ht htarg verb).val =
      (checkHankel C lib dflt "quad" htarg verb).val.map fun r => ((lower ht), r.2) := by
  have key : ∀ m, m ≠ "dlf" → m ≠ "qwe" → m.toList <:+: "quad".toList → ∀ s,
      hankelSteps C lib dflt m verb s = steps C verb hankelQuadItems s := by
    intro m h1 h2 h3 s
    rw [hankelSteps, if_neg h1, if_neg h2, if_pos h3]
  have hq : lower "quad" = "quad" := by decide
  rw [checkHankel_val, checkHankel_val, hq, key "quad" (by decide) (by decide) (List.infix_refl _)]
  have hi : (lower ht) ≠ "dlf" ∧ (lower ht) ≠ "qwe" ∧ (lower ht).toList <:+: "quad".toList := by
    generalize (lower ht) = m at h
    simp only [List.mem_cons, List.not_mem_nil, or_false] at h
    rcases h with rfl | rfl | rfl | rfl | rfl | rfl | rfl | rfl | rfl | rfl <;> decide
  rw [key _ hi.1 hi.2.1 hi.2.2]
  cases (steps C verb hankelQuadItems ⟨htarg, []⟩).val <;> rfl

/-- Names of the arguments of a method. -/
noncomputable def hankelKeys (m : String) : List String :=
  if m = "dlf" then ["dlf", "pts_per_dec"] else (table m).map Param.key

/-- **C27, unknown arguments are ignored.** -/
theorem C27_ignored (C : Conv) (lib : String → Option Val) (dflt : Val) (ht : String) (htarg : Dict)
    (verb : ℤ) (k : String) (v : Val) (hk : k ∉ hankelKeys (lower ht)) :
    (checkHankel C lib dflt ht ((k, v) :: htarg) verb).val = (checkHankel C lib dflt ht htarg verb).val := by
  have key : (hankelSteps C lib dflt (lower ht) verb (keep k v ⟨htarg, []⟩)).val =
      (hankelSteps C lib dflt (lower ht) verb ⟨htarg, []⟩).val.map (keep k v) := by
    unfold hankelKeys at hk
    unfold hankelSteps
    split_ifs at hk ⊢ with h1 h2 h3
    · simp only [List.mem_cons, List.not_mem_nil, or_false, not_or] at hk
      rw [bind_val, bind_val, filterStep_keep _ _ _ _ _ (Ne.symm hk.1)]
      cases (filterStep lib dflt ["base", "j0", "j1", "factor"] ⟨htarg, []⟩).val with
      | error e => rfl
      | ok s => exact step_keep C verb _ k v (Ne.symm hk.2) s
    · rw [h2] at hk
      exact steps_keep C verb k v _ (by rw [matches_qwe.keys]; exact hk) _
    · have : table (lower ht) = table "quad" := by rw [table, if_neg h2, table, if_neg (by decide)]
      rw [this] at hk
      exact steps_keep C verb k v _ (by rw [matches_quad.keys]; exact hk) _
    · rfl
  rw [checkHankel_val, checkHankel_val]
  change (Except.map _ (hankelSteps C lib dflt (lower ht) verb (keep k v ⟨htarg, []⟩)).val) = _
  rw [key]
  cases (hankelSteps C lib dflt (lower ht) verb ⟨htarg, []⟩).val <;> rfl

/-- Whether a number in `v` lies below `n`. -/
def Below (n : ℕ) : Val → Prop
  | .num x => x < n
  | .arr l => ∃ x ∈ l, x < n
  | _ => False

theorem belowMin_iff (n : ℕ) (v : Val) : belowMin n v ↔ Below n v := by
  cases v <;> exact Iff.rfl

/-- Smallest number of points per decade. -/
def leastPts (m : String) : ℕ := if m = "qwe" then 0 else 1

/-- The points per decade, before they are raised. -/
noncomputable def ptsRead (C : Conv) (m : String) (args : Dict) : Except PyErr Val :=
  C.int ((args.lookup "pts_per_dec").getD (.num (if m = "qwe" then 0 else 40)))

theorem leftover_iff (args : Dict) (tbl : List Param) :
    (args.filter fun p => decide (p.1 ∉ tbl.map Param.key)) ≠ [] ↔ Unknown tbl args := by
  rw [Unknown, ne_eq, List.filter_eq_nil_iff]
  push Not
  constructor
  · rintro ⟨p, hp, h⟩
    exact ⟨p.1, List.mem_map_of_mem hp, by simpa using h⟩
  · rintro ⟨k, hk, h⟩
    obtain ⟨p, hp, rfl⟩ := List.mem_map.1 hk
    exact ⟨p, hp, by simpa using h⟩

theorem checkHankel_out (C : Conv) (lib : String → Option Val) (dflt : Val) (ht : String) (htarg : Dict)
    (verb : ℤ) (s : St) (h : (hankelSteps C lib dflt (lower ht) verb ⟨htarg, []⟩).val = .ok s) :
    (checkHankel C lib dflt ht htarg verb).out =
      (hankelSteps C lib dflt (lower ht) verb ⟨htarg, []⟩).out ++ (unknown verb s).out := by
  rw [checkHankel, bind_out, h]
  simp only [bind_out, unknown_val, pure_out, List.append_nil]

theorem check_out_nil (C : Conv) (verb : ℤ) (i : Kind) (v : Val)
    (hi : i = .flt ∨ i = .int ∨ i = .optFlt ∨ i = .optInt) : (check C verb i v).out = [] := by
  rcases hi with rfl | rfl | rfl | rfl
  · rfl
  · rfl
  · cases v <;> rfl
  · cases v <;> rfl

open Classical in
theorem minVal_out (n : ℕ) (verb : ℤ) (w : Val) : (minVal n verb w).out =
    if verb > 0 ∧ Below n w then ["* WARNING :: pts_per_dec is set to its minimum!"] else [] := by
  rw [minVal, bind_out]
  simp only [say_val, say_out, pure_out, List.append_nil, belowMin_iff]

open Classical in
/-- **C27, messages.**  With QWE and QUAD, if the call succeeds: a warning if the points per decade are below
their minimum, then a warning if an unknown argument is given; both only with `verb > 0`; nothing else. -/
theorem C27_messages (C : Conv) (lib : String → Option Val) (dflt : Val) (ht : String) (htarg : Dict)
    (verb : ℤ) (hm : (lower ht) = "qwe" ∨ (lower ht) = "quad") (hr : Readable C (table (lower ht)) htarg) :
    ∃ w, ptsRead C (lower ht) htarg = .ok w ∧ (checkHankel C lib dflt ht htarg verb).out =
      (if verb > 0 ∧ Below (leastPts (lower ht)) w then
        ["* WARNING :: pts_per_dec is set to its minimum!"] else []) ++
      (if verb > 0 ∧ Unknown (table (lower ht)) htarg then ["* WARNING :: Unknown arguments"] else []) := by
  obtain ⟨e, hM⟩ := hankelSteps_eq C lib dflt _ hm verb ⟨htarg, []⟩
  obtain ⟨h1, h2⟩ := steps_table C verb hM (table_nodup _) htarg []
  obtain ⟨s, hs⟩ := h1 hr
  obtain ⟨-, -, hargs⟩ := h2 s hs
  have hok : ∀ i ∈ itemsOf (lower ht), ∃ v, valueOf C verb htarg i = .ok v := by
    intro i hi
    obtain ⟨p, hp, hip⟩ := hM.of_item hi
    rw [valueOf_eq htarg hip]; exact hr p hp
  have hd : ((itemsOf (lower ht)).map Item.key).Nodup := by rw [hM.keys]; exact table_nodup _
  rw [checkHankel_out C lib dflt ht htarg verb s (by rw [e]; exact hs), e,
    steps_out C verb _ hd htarg [] hok]
  have hu : (unknown verb s).out =
      if verb > 0 ∧ Unknown (table (lower ht)) htarg then ["* WARNING :: Unknown arguments"] else [] := by
    rw [unknown, bind_out]
    simp only [say_val, say_out, pure_out, List.append_nil, hargs, leftover_iff]
  rw [hu]
  have hc : ∀ n v w, C.int v = .ok w → (check C verb (.intMin n) v).out = (minVal n verb w).out := by
    intro n v w h
    rw [check, bind_out]
    simp only [Args.ofExcept, h, List.nil_append]
  have hw : ∃ w, ptsRead C (lower ht) htarg = .ok w := by
    have : ∃ n, (⟨"pts_per_dec", .num (if lower ht = "qwe" then 0 else 40), .integerFrom n⟩ : Param) ∈
        table (lower ht) := by
      unfold table
      split_ifs with hq
      · exact ⟨0, by simp⟩
      · exact ⟨1, by simp⟩
    obtain ⟨n, hn⟩ := this
    obtain ⟨v, hv⟩ := hr _ hn
    simp only [Reading.read, Param.given] at hv
    rw [ptsRead]
    cases h : C.int ((htarg.lookup "pts_per_dec").getD (.num (if lower ht = "qwe" then 0 else 40))) with
    | error e => rw [h] at hv; exact absurd hv (by simp [Except.map])
    | ok w => exact ⟨w, rfl⟩
  obtain ⟨w, hw⟩ := hw
  refine ⟨w, hw, ?_⟩
  congr 1
  rw [ptsRead] at hw
  rcases hm with hm | hm
  · rw [hm, if_pos rfl] at hw
    rw [hm, itemsOf, if_pos rfl]
    simp only [hankelQwe, List.flatMap_cons, List.flatMap_nil, List.append_nil]
    change C.int (popVal "pts_per_dec" (.num 0) htarg) = .ok w at hw
    rw [hc 0 _ w hw, minVal_out]
    simp only [check_out_nil C verb _ _ (Or.inl rfl), check_out_nil C verb _ _ (Or.inr (Or.inl rfl)),
      check_out_nil C verb _ _ (Or.inr (Or.inr (Or.inl rfl))),
      check_out_nil C verb _ _ (Or.inr (Or.inr (Or.inr rfl))), List.nil_append, List.append_nil]
    rfl
  · rw [hm, if_neg (by decide)] at hw
    rw [hm, itemsOf, if_neg (by decide)]
    simp only [hankelQuadItems, List.flatMap_cons, List.flatMap_nil, List.append_nil]
    change C.int (popVal "pts_per_dec" (.num 40) htarg) = .ok w at hw
    rw [hc 1 _ w hw, minVal_out]
    simp only [check_out_nil C verb _ _ (Or.inl rfl), check_out_nil C verb _ _ (Or.inr (Or.inl rfl)),
      List.nil_append]
    rfl

/-- The default of `maxint` in the documentation (model.py 240-241). -/
def documentedMaxint : ℝ := 40

/-- **The documented default of `maxint` is not the one that is used**, for any call with QWE that does not
give it. -/
theorem C27_maxint_violated (C : Conv) (lib : String → Option Val) (dflt : Val) (ht : String) (htarg : Dict)
    (verb : ℤ) (hm : lower ht = "qwe") (hn : htarg.lookup "maxint" = none) (m : String) (d : Dict)
    (h : (checkHankel C lib dflt ht htarg verb).val = .ok (m, d)) :
    d.lookup "maxint" = some (.num 100) ∧ (100 : ℝ) ≠ documentedMaxint := by
  obtain ⟨rfl, hf⟩ := (C27_values C lib dflt ht htarg verb (Or.inl hm)).2 m d h
  obtain ⟨v, hv, hl⟩ := hf.1 ⟨"maxint", .num 100, .integer⟩ (by rw [hm]; simp [table])
  simp only [Reading.read, Param.given, hn, Option.getD_none, C.int_num, Except.ok.injEq] at hv
  refine ⟨?_, by norm_num [documentedMaxint]⟩
  rw [hl, ← hv]
  have : Tem.trunc 100 = 100 := by
    rw [Tem.trunc, if_pos (by norm_num)]
    exact_mod_cast Int.floor_intCast (R := ℝ) 100
  rw [this]; norm_num

/-! ## Examples -/

/-- A conversion: numbers, and arrays to `float`. -/
noncomputable def numbersOnly : Conv where
  flt v := match v with | .num x => .ok (.num x) | .arr l => .ok (.arr l) | _ => .error .typeError
  int v := match v with | .num x => .ok (.num (Tem.trunc x)) | _ => .error .typeError
  flt_num _ := rfl
  flt_arr _ := rfl
  int_num _ := rfl

/-- QWE with a larger tolerance, an unknown argument and a limit of `None`. -/
example (lib : String → Option Val) (dflt : Val) :
    ∃ d, (checkHankel numbersOnly lib dflt "QWE" [("rtol", .num 1e-6), ("foo", .num 1)] 2).val =
      .ok ("qwe", d) ∧ d.lookup "rtol" = some (.num 1e-6) ∧ d.lookup "atol" = some (.num 1e-30) ∧
      d.lookup "limit" = some .none ∧ d.lookup "foo" = none := by
  have hq : lower "QWE" = "qwe" := by decide
  obtain ⟨h1, h2⟩ := C27_values numbersOnly lib dflt "QWE" [("rtol", .num 1e-6), ("foo", .num 1)] 2 (Or.inl hq)
  obtain ⟨⟨m, d⟩, hr⟩ := h1.2 (by
    rw [hq, table, if_pos rfl]
    intro p hp
    simp only [List.mem_cons, List.not_mem_nil, or_false] at hp
    rcases hp with rfl | rfl | rfl | rfl | rfl | rfl | rfl | rfl | rfl <;> exact ⟨_, rfl⟩)
  obtain ⟨rfl, hf⟩ := h2 m d hr
  rw [hq] at hf hr
  rw [table, if_pos rfl] at hf
  refine ⟨d, hr, ?_, ?_, ?_, hf.2 _ (by simp)⟩
  · obtain ⟨v, hv, hl⟩ := hf.1 ⟨"rtol", .num 1e-12, .float⟩ (by simp)
    rw [hl]
    change Except.ok (Val.num 1e-6) = Except.ok v at hv
    injection hv with hv
    rw [hv]
  · obtain ⟨v, hv, hl⟩ := hf.1 ⟨"atol", .num 1e-30, .float⟩ (by simp)
    rw [hl]
    change Except.ok (Val.num 1e-30) = Except.ok v at hv
    injection hv with hv
    rw [hv]
  · obtain ⟨v, hv, hl⟩ := hf.1 ⟨"limit", .none, .optInteger⟩ (by simp)
    rw [hl]
    change Except.ok Val.none = Except.ok v at hv
    injection hv with hv
    rw [hv]

/-- `'fht'`, the name of older versions, is rejected. -/
example (lib : String → Option Val) (dflt : Val) :
    (checkHankel numbersOnly lib dflt "fht" [] 2).val = .error .valueError := by
  rw [C27_method_partial _ _ _ _ _ _ (by decide) (by decide) (by decide)]

/-- `'Ad'` is accepted as method. -/
example (lib : String → Option Val) (dflt : Val) :
    ∃ d, (checkHankel numbersOnly lib dflt "Ad" [] 2).val = .ok ("ad", d) := by
  have hq : lower "quad" = "quad" := by decide
  obtain ⟨r, hr⟩ := (C27_values numbersOnly lib dflt "quad" [] 2 (Or.inr hq)).1.2 (by
    rw [hq, table, if_neg (by decide)]
    intro p hp
    simp only [List.mem_cons, List.not_mem_nil, or_false] at hp
    rcases hp with rfl | rfl | rfl | rfl | rfl | rfl <;> exact ⟨_, rfl⟩)
  refine ⟨r.2, ?_⟩
  have hl : lower "Ad" = "ad" := by decide
  rw [C27_method_violated _ _ _ _ _ _ (by rw [hl]; simp), hr, hl]
  rfl

/-- A filter without `j1` is rejected. -/
example (F : Transform.Filter) (lib : String → Option Val) :
    ¬ ∃ r, (checkHankel numbersOnly lib (.filter ["base", "j0", "j1", "factor"] F) "dlf"
      [("dlf", .filter ["base", "j0", "factor"] F)] 2).val = .ok r := by
  rintro ⟨⟨m, d⟩, hr⟩
  obtain ⟨-, f, v, h, ⟨a, F', rfl, -, -, hj, -⟩, -⟩ := (C27_dlf _ lib _ ⟨_, F, rfl, by simp⟩ "dlf" _ 2
    (by decide) m d).1 hr
  simp only [filterFor, List.lookup_cons, beq_self_eq_true, Option.some.injEq, Val.filter.injEq] at h
  rw [← h.1] at hj
  simp at hj

end Verif.Props
