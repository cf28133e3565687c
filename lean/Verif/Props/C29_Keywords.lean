import Verif.Lemmas.Args

/-!
# C29 — keyword arguments; C25 — minimum values
-/

namespace Verif.Props
open Verif.Args Verif.Py Verif.Py.W

/-! ## C29 -/

/-- The keywords that some modelling routine takes but not all of them, as listed in the documentation of
`get_kwargs` (utils.py 1985-1995). -/
def optionalKeywords : List String :=
  -- gpr
  ["cf", "gain"] ++
  -- bipole
  ["msrc", "srcpts", "mrec", "recpts", "strength"] ++
  -- bipole, dipole
  ["bandpass"] ++
  -- dipole_k
  ["freq", "wavenumber"] ++
  -- analytical
  ["solution"] ++
  -- bipole, dipole, gpr
  ["ht", "htarg", "ft", "ftarg", "xdirect", "loop"] ++
  -- bipole, dipole, analytical
  ["signal", "squeeze"] ++
  -- dipole, analytical, gpr, dipole_k
  ["ab"] ++
  -- bipole, dipole, gpr, dipole_k
  ["depth"] ++
  -- bipole, dipole, analytical, gpr
  ["freqtime"]

theorem known_iff (k : String) : k ∈ knownKeys ↔ k ∈ optionalKeywords := by
  simp only [knownKeys, optionalKeywords, List.mem_append, List.mem_cons, List.not_mem_nil, or_false]
  tauto

/-- Keywords that are given but not wanted. -/
def Leftover (wanted : List (String × Val)) (kwargs : Dict) (k : String) : Prop :=
  k ∈ kwargs.map Prod.fst ∧ k ∉ wanted.map Prod.fst

/-- What is given for a name, or the default. -/
def givenOr (kwargs : Dict) (p : String × Val) : Val := (kwargs.lookup p.1).getD p.2

/-- Verbosity: what is given, the default of the routine, or 2 if the routine has none. -/
def verbosity (wanted : List (String × Val)) (kwargs : Dict) : Val :=
  match wanted.lookup "verb" with
  | some d => givenOr kwargs ("verb", d)
  | none => .num 2

theorem kwLoop_eq (wanted : List (String × Val)) (hd : (wanted.map Prod.fst).Nodup) (kw : Dict) (verb : Val) :
    kwLoop wanted kw verb = (wanted.map (givenOr kw),
      kw.filter (fun p => decide (p.1 ∉ wanted.map Prod.fst)),
      match wanted.lookup "verb" with
      | some d => givenOr kw ("verb", d)
      | none => verb) := by
  induction wanted generalizing kw verb with
  | nil => simp [kwLoop]
  | cons p l ih =>
    obtain ⟨n, d⟩ := p
    rw [List.map_cons, List.nodup_cons] at hd
    have hg : ∀ q : String × Val, q.1 ≠ n → givenOr (popRest n kw) q = givenOr kw q := fun q hq =>
      popVal_popRest hq q.2 kw
    have e1 : l.map (givenOr (popRest n kw)) = l.map (givenOr kw) :=
      List.map_congr_left fun q hq => hg q fun h : q.1 = n => hd.1 (List.mem_map.2 ⟨q, hq, h⟩)
    simp only [kwLoop]
    rw [ih hd.2, e1, popRest_filter]
    refine Prod.ext rfl (Prod.ext rfl ?_)
    simp only [List.lookup_cons]
    by_cases hn : n = "verb"
    · subst hn
      have : l.lookup "verb" = none := lookup_notMem l "verb" hd.1
      simp only [this, if_true, beq_self_eq_true]
      rfl
    · have hb : ("verb" == n) = false := beq_eq_false_iff_ne.2 (Ne.symm hn)
      simp only [hb, hn, if_false]
      cases l.lookup "verb" with
      | none => rfl
      | some d' => exact hg ("verb", d') (Ne.symm hn)

theorem leftover_nil (wanted : List (String × Val)) (kw : Dict) :
    (kw.filter fun p => decide (p.1 ∉ wanted.map Prod.fst)) = [] ↔ ¬ ∃ k, Leftover wanted kw k := by
  rw [List.filter_eq_nil_iff]
  constructor
  · rintro h ⟨k, hk, hn⟩
    obtain ⟨p, hp, rfl⟩ := List.mem_map.1 hk
    exact h p hp (by simpa using hn)
  · intro h p hp hn
    exact h ⟨p.1, List.mem_map_of_mem hp, by simpa using hn⟩

theorem leftover_all (wanted : List (String × Val)) (kw : Dict) (P : String → Prop) :
    (∀ p ∈ kw.filter (fun p => decide (p.1 ∉ wanted.map Prod.fst)), P p.1) ↔
      ∀ k, Leftover wanted kw k → P k := by
  constructor
  · rintro h k ⟨hk, hn⟩
    obtain ⟨p, hp, rfl⟩ := List.mem_map.1 hk
    exact h p (List.mem_filter.2 ⟨hp, by simpa using hn⟩)
  · intro h p hp
    obtain ⟨hp, hn⟩ := List.mem_filter.1 hp
    exact h p.1 ⟨List.mem_map_of_mem hp, by simpa using hn⟩

/-- **C29, values.**  If the call succeeds, each wanted keyword has the value that is given, or its default. -/
theorem C29_values (wanted : List (String × Val)) (hd : (wanted.map Prod.fst).Nodup) (kwargs : Dict)
    (out : List Val) (h : (getKwargs wanted kwargs).val = .ok out) :
    out = wanted.map (givenOr kwargs) := by
  rw [getKwargs, kwLoop_eq wanted hd] at h
  simp only at h
  split_ifs at h with h1 h2
  · simpa using h.symm
  · rw [bind_val] at h
    generalize (positive _) = w at h
    cases hw : w.val with
    | error e => rw [hw] at h; exact absurd h (by simp [Except.bind])
    | ok b =>
      rw [hw] at h
      simp only [Except.bind, bind_val, say_val, pure_val, Except.ok.injEq] at h
      exact h.symm
  · simp at h

/-- **C29, rejection.**  Where the verbosity is a number: the call raises exactly if a keyword is left over
that no routine takes, and then it is `TypeError`. -/
theorem C29_rejects (wanted : List (String × Val)) (hd : (wanted.map Prod.fst).Nodup) (kwargs : Dict)
    (x : ℝ) (hx : verbosity wanted kwargs = .num x) :
    (∃ e, (getKwargs wanted kwargs).val = .error e) ↔
      ∃ k, Leftover wanted kwargs k ∧ k ∉ optionalKeywords := by
  have hx' : (match wanted.lookup "verb" with
      | some d => givenOr kwargs ("verb", d)
      | none => Val.num 2) = .num x := hx
  rw [getKwargs, kwLoop_eq wanted hd]
  simp only [hx']
  have ln := leftover_nil wanted kwargs
  have la := leftover_all wanted kwargs (· ∈ knownKeys)
  by_cases h1 : ¬ ∃ k, Leftover wanted kwargs k
  · rw [if_pos (ln.2 h1)]
    simp only [pure_val, reduceCtorEq, exists_false, false_iff]
    rintro ⟨k, hk, -⟩
    exact h1 ⟨k, hk⟩
  · rw [if_neg (fun h => h1 (ln.1 h))]
    by_cases h2 : ∀ k, Leftover wanted kwargs k → k ∈ knownKeys
    · rw [if_neg (not_not.2 (la.2 h2))]
      simp only [positive, bind_val, pure_val, say_val, Except.bind, reduceCtorEq, exists_false, false_iff]
      rintro ⟨k, hk, hn⟩
      exact hn ((known_iff k).1 (h2 k hk))
    · rw [if_pos (fun h => h2 (la.1 h))]
      simp only [raise_val, Except.error.injEq, exists_eq', true_iff]
      push Not at h2
      obtain ⟨k, hk, hn⟩ := h2
      exact ⟨k, hk, fun h => hn ((known_iff k).2 h)⟩

/-- **C29**: the only exception is `TypeError`. -/
theorem C29_typeError (wanted : List (String × Val)) (kwargs : Dict) (e : PyErr)
    (h : (getKwargs wanted kwargs).val = .error e) : e = .typeError := by
  rw [getKwargs] at h
  split_ifs at h with h1 h2
  · simp at h
  · rw [bind_val] at h
    cases hv : (kwLoop wanted kwargs (Val.num 2)).2.2 <;> rw [hv] at h <;>
      simp [positive, Except.bind, bind_val] at h <;> exact h.symm
  · simpa using h.symm

open Classical in
/-- **C29, messages.**  If the call succeeds: a warning if and only if a keyword is left over and the
verbosity is positive. -/
theorem C29_warning (wanted : List (String × Val)) (hd : (wanted.map Prod.fst).Nodup) (kwargs : Dict)
    (x : ℝ) (hx : verbosity wanted kwargs = .num x) (out : List Val)
    (h : (getKwargs wanted kwargs).val = .ok out) :
    (getKwargs wanted kwargs).out =
      if x > 0 ∧ ∃ k, Leftover wanted kwargs k then ["* WARNING :: Unused **kwargs"] else [] := by
  have hx' : (match wanted.lookup "verb" with
      | some d => givenOr kwargs ("verb", d)
      | none => Val.num 2) = .num x := hx
  rw [getKwargs, kwLoop_eq wanted hd] at h ⊢
  simp only [hx'] at h ⊢
  have ln := leftover_nil wanted kwargs
  have la := leftover_all wanted kwargs (· ∈ knownKeys)
  by_cases h1 : ¬ ∃ k, Leftover wanted kwargs k
  · rw [if_pos (ln.2 h1), if_neg (fun h => h1 h.2)]; rfl
  · rw [if_neg (fun h => h1 (ln.1 h))] at h ⊢
    by_cases h2 : ∀ k, Leftover wanted kwargs k → k ∈ knownKeys
    · rw [if_neg (not_not.2 (la.2 h2))]
      simp only [positive, bind_out, pure_out, pure_val, say_out, say_val, List.nil_append, List.append_nil,
        decide_eq_true_eq, not_not.1 h1, and_true]
    · rw [if_pos (fun h => h2 (la.1 h))] at h; simp at h

/-- `dipole_k` takes `verb` only (model.py 1416): given `verb` and `ht`, it warns. -/
example : (getKwargs [("verb", .num 2)] [("ht", .str "dlf"), ("verb", .num 3)]).val = .ok [.num 3] ∧
    (getKwargs [("verb", .num 2)] [("ht", .str "dlf"), ("verb", .num 3)]).out =
      ["* WARNING :: Unused **kwargs"] := by
  have hv : verbosity [("verb", .num 2)] [("ht", .str "dlf"), ("verb", .num 3)] = .num 3 := by
    simp [verbosity, givenOr, List.lookup]
  have hok : ∃ o, (getKwargs [("verb", .num 2)] [("ht", .str "dlf"), ("verb", .num 3)]).val = .ok o := by
    cases h : (getKwargs [("verb", .num 2)] [("ht", .str "dlf"), ("verb", .num 3)]).val with
    | ok o => exact ⟨o, rfl⟩
    | error e =>
      obtain ⟨k, ⟨hk, hn⟩, ho⟩ := (C29_rejects _ (by simp) _ _ hv).1 ⟨e, h⟩
      simp only [List.map_cons, List.map_nil, List.mem_cons, List.not_mem_nil, or_false] at hk hn
      rcases hk with rfl | rfl
      · exact absurd ho (by decide)
      · exact absurd rfl hn
  obtain ⟨o, ho⟩ := hok
  refine ⟨?_, ?_⟩
  · rw [ho, C29_values _ (by simp) _ _ ho]; simp [givenOr, List.lookup]
  · rw [C29_warning _ (by simp) _ _ hv _ ho, if_pos]
    exact ⟨by norm_num, "ht", by simp, by simp⟩

/-- A misspelled keyword raises. -/
example : ∃ e, (getKwargs [("verb", .num 2)] [("vreb", .num 3)]).val = .error e :=
  (C29_rejects _ (by simp) _ 2 (by simp [verbosity, givenOr, List.lookup])).2
    ⟨"vreb", ⟨by simp, by simp⟩, by decide⟩

/-! ## C25 -/

/-- A call of `set_minimum`: what is given for each name. -/
structure SetCall where
  freq : Option ℝ := none
  time : Option ℝ := none
  off : Option ℝ := none
  res : Option ℝ := none
  angle : Option ℝ := none

/-- What the call gives for `name`. -/
def SetCall.gives (c : SetCall) (name : String) : Option ℝ :=
  match name with
  | "min_freq" => c.freq
  | "min_time" => c.time
  | "min_off" => c.off
  | "min_res" => c.res
  | "min_angle" => c.angle
  | _ => none

/-- The state after a history of calls. -/
def afterCalls (m : Utils.Mins) (h : List SetCall) : Utils.Mins :=
  h.foldl (fun m c => setMinimum c.freq c.time c.off c.res c.angle m) m

/-- The last value that was given for `name`. -/
def lastGiven (h : List SetCall) (name : String) : Option ℝ := h.reverse.findSome? fun c => c.gives name

/-- **C25.**  After any history of calls, the minimum that is reported for a quantity is the last value that
was given for it, or the one from before. -/
theorem C25_history (m : Utils.Mins) (h : List SetCall) (name : String) (x : ℝ)
    (hx : (getMinimum m).lookup name = some x) :
    (getMinimum (afterCalls m h)).lookup name = some ((lastGiven h name).getD x) := by
  have one : ∀ (m : Utils.Mins) (c : SetCall) (x : ℝ), (getMinimum m).lookup name = some x →
      (getMinimum (setMinimum c.freq c.time c.off c.res c.angle m)).lookup name =
        some ((c.gives name).getD x) := by
    intro m c x hx
    simp only [getMinimum, List.lookup_cons, List.lookup_nil] at hx ⊢
    have hcase : name = "min_freq" ∨ name = "min_time" ∨ name = "min_off" ∨ name = "min_res" ∨
        name = "min_angle" := by
      by_contra hne
      push Not at hne
      simp [beq_eq_false_iff_ne.2 hne.1, beq_eq_false_iff_ne.2 hne.2.1, beq_eq_false_iff_ne.2 hne.2.2.1,
        beq_eq_false_iff_ne.2 hne.2.2.2.1, beq_eq_false_iff_ne.2 hne.2.2.2.2] at hx
    obtain ⟨f, t, o, r, a⟩ := c
    rcases hcase with rfl | rfl | rfl | rfl | rfl <;> simp at hx <;> subst hx <;>
      cases f <;> cases t <;> cases o <;> cases r <;> cases a <;> simp [setMinimum, SetCall.gives]
  induction h using List.reverseRecOn with
  | nil => simpa [afterCalls, lastGiven] using hx
  | append_singleton l c ih =>
    have := one (afterCalls m l) c _ ih
    simp only [afterCalls, List.foldl_append, List.foldl_cons, List.foldl_nil] at this ⊢
    rw [this]
    simp only [lastGiven, List.reverse_append, List.reverse_cons, List.reverse_nil, List.nil_append,
      List.cons_append, List.findSome?_cons]
    cases c.gives name <;> rfl

/-- The reported names never change. -/
theorem C25_names (m : Utils.Mins) (h : List SetCall) :
    (getMinimum (afterCalls m h)).map Prod.fst =
      ["min_freq", "min_time", "min_off", "min_res", "min_angle"] := rfl

/-- Two calls: the offset of the first stays, the frequency is that of the second. -/
example : (getMinimum (afterCalls Utils.Mins.init [{ freq := some 1, off := some 2 }, { freq := some 3 }])).lookup
      "min_freq" = some 3 ∧
    (getMinimum (afterCalls Utils.Mins.init [{ freq := some 1, off := some 2 }, { freq := some 3 }])).lookup
      "min_off" = some 2 := by
  refine ⟨(C25_history _ _ "min_freq" 1e-20 (by simp [getMinimum, Utils.Mins.init])).trans ?_,
    (C25_history _ _ "min_off" 1e-3 (by simp [getMinimum, Utils.Mins.init, List.lookup])).trans ?_⟩ <;>
    simp [lastGiven, SetCall.gives]

end Verif.Props
