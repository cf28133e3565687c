import Verif.Model.Cli
import Verif.Props.C31_Io

/-!
# C39  The command line

What the command line has to do is stated with the names of the four routines, the contents of the input file,
and the storing and loading of data (C31).
-/

namespace Verif.Props
open Verif.Io Verif.Json Verif.Py Verif.Cli

/-! ## What is asked for -/

/-- The routines of the command line. -/
def cliRoutines : List (List Char × Routine) :=
  [("bipole".toList, .bipole), ("dipole".toList, .dipole), ("loop".toList, .loop), ("analytical".toList, .analytical)]

/-- The parameters of the file, but unsqueezed data; of a repeated key the last value. -/
noncomputable def asked {N : Type} (l : List (List Char × Json N)) : Kwargs N :=
  open Classical in fun k => if k = "squeeze".toList then some (.bool false) else l.reverse.lookup k

/-- Arguments that are no options. -/
def NoOption (a : List Char) : Prop := a.head? ≠ some '-'

/-- Exceptions that `main` returns, so that the program ends with their message. -/
def Reported : Exc → Prop
  | .io .value | .io .type | .io .notFound | .py .typeError | .py .valueError | .py .attributeError => True
  | _ => False

/-- How the command line ends if `e` was raised. -/
def Ends (e : Exc) (o : Outcome) : Prop := (Reported e → o = .returned e) ∧ (¬ Reported e → o = .raised e)

/-! ## Lemmas -/

theorem dictOf_eq {N : Type} (l : List (List Char × Json N)) : dictOf l = fun k => l.reverse.lookup k := by
  induction l using List.reverseRecOn with
  | nil => rfl
  | append_singleton l p ih =>
    funext k
    unfold dictOf at ih ⊢
    rw [List.foldl_append, List.foldl_cons, List.foldl_nil, ih, List.reverse_append, List.reverse_singleton,
      List.singleton_append]
    obtain ⟨a, b⟩ := p
    by_cases h : k = a
    · subst h; rw [Function.update_self, List.lookup_cons_self]
    · rw [Function.update_of_ne h, List.lookup_cons, beq_false_of_ne h]

theorem asked_eq {N : Type} (l : List (List Char × Json N)) :
    Function.update (dictOf l) "squeeze".toList (some (.bool false)) = asked l := by
  funext k
  unfold asked
  rw [dictOf_eq]
  by_cases h : k = "squeeze".toList
  · subst h; rw [Function.update_self, if_pos rfl]
  · rw [Function.update_of_ne h, if_neg h]

theorem kwargsOf_ok {N : Type} (S : Surroundings N) (inp : Option (List Char)) (fs : Fs) (kw : Kwargs N) :
    kwargsOf S inp fs = .ok kw ↔ ∃ i l, inp = some i ∧ loadInput S.env i fs = .ok (.obj l) ∧ kw = asked l := by
  unfold kwargsOf
  cases inp with
  | none => simp
  | some i =>
    cases h : loadInput S.env i fs with
    | error e => simp [h]
    | ok j =>
      cases j with
      | obj m =>
        have := asked_eq m
        dsimp only
        rw [h]
        dsimp only
        rw [this, Except.ok.injEq]
        constructor
        · rintro rfl; exact ⟨i, m, rfl, h, rfl⟩
        · rintro ⟨i', l, hi, hl, rfl⟩
          cases hi
          rw [h] at hl
          cases hl; rfl
      | _ => simp [h]

theorem token_word (q : Quirks) {a : List Char} (h : NoOption a) : token q a = .word a := by
  unfold token
  split
  · exact absurd rfl h
  · rfl

theorem not_dashes {a : List Char} (h : NoOption a) : a ≠ "--".toList := by
  rintro rfl; exact h rfl

theorem tokenize_words (q : Quirks) (l : List (List Char)) (h : ∀ a ∈ l, NoOption a) :
    tokenize q l = l.map .word := by
  induction l with
  | nil => rfl
  | cons a l ih =>
    rw [tokenize, if_neg (not_dashes (h a (by simp))), token_word q (h a (by simp)),
      ih fun b hb => h b (by simp [hb])]
    rfl

theorem words_map (l : List (List Char)) : words (l.map .word) = l := by
  induction l with
  | nil => rfl
  | cons a l ih => rw [List.map_cons, words, ih]

theorem choices_iff (a : List Char) : a ∈ choices ↔ ∃ r, (a, r) ∈ cliRoutines := by
  simp only [choices, cliRoutines, List.mem_cons, List.not_mem_nil, or_false, Prod.mk.injEq]
  constructor
  · rintro (h | h | h | h)
    · exact ⟨_, Or.inl ⟨h, rfl⟩⟩
    · exact ⟨_, Or.inr (Or.inl ⟨h, rfl⟩)⟩
    · exact ⟨_, Or.inr (Or.inr (Or.inl ⟨h, rfl⟩))⟩
    · exact ⟨_, Or.inr (Or.inr (Or.inr ⟨h, rfl⟩))⟩
  · rintro ⟨r, h | h | h | h⟩
    · exact Or.inl h.1
    · exact Or.inr (Or.inl h.1)
    · exact Or.inr (Or.inr (Or.inl h.1))
    · exact Or.inr (Or.inr (Or.inr h.1))

theorem getattr_cli {a : List Char} {r : Routine} (h : (a, r) ∈ cliRoutines) : getattr a = some r := by
  simp only [cliRoutines, List.mem_cons, List.not_mem_nil, or_false, Prod.mk.injEq] at h
  rcases h with ⟨rfl, rfl⟩ | ⟨rfl, rfl⟩ | ⟨rfl, rfl⟩ | ⟨rfl, rfl⟩ <;> decide

theorem noOption_cli {a : List Char} {r : Routine} (h : (a, r) ∈ cliRoutines) : NoOption a := by
  simp only [cliRoutines, List.mem_cons, List.not_mem_nil, or_false, Prod.mk.injEq] at h
  rcases h with ⟨rfl, rfl⟩ | ⟨rfl, rfl⟩ | ⟨rfl, rfl⟩ | ⟨rfl, rfl⟩ <;> (unfold NoOption; decide)

theorem together_words (l : List (List Char)) : together (l.map .word) = true := by
  unfold together
  cases l with
  | nil => rfl
  | cons a l =>
    simp only [List.map_cons, List.dropWhile_cons, Bool.not_true, Bool.false_eq_true, if_false, if_true]
    rw [show List.dropWhile _ (List.map Token.word l) = [] from ?_]
    · rfl
    · rw [List.dropWhile_eq_nil_iff]
      intro x hx
      obtain ⟨y, -, rfl⟩ := List.mem_map.1 hx
      rfl

theorem parse_two (q : Quirks) {name inp : List Char} {r : Routine} (h : (name, r) ∈ cliRoutines)
    (hi : NoOption inp) : parseArgs q [name, inp] = some ⟨some name, some inp, none, false, false⟩ := by
  have ht := tokenize_words q [name, inp] (by
    intro a ha; rcases List.mem_cons.1 ha with rfl | ha
    · exact noOption_cli h
    · rw [List.mem_singleton.1 ha]; exact hi)
  unfold parseArgs
  simp only [ht, together_words, words_map]
  rw [if_neg (by simp), if_neg (by simp), if_pos ((choices_iff name).2 ⟨r, h⟩)]
  simp

theorem parse_three (q : Quirks) {name inp out : List Char} {r : Routine} (h : (name, r) ∈ cliRoutines)
    (hi : NoOption inp) (ho : NoOption out) :
    parseArgs q [name, inp, out] = some ⟨some name, some inp, some out, false, false⟩ := by
  have ht := tokenize_words q [name, inp, out] (by
    intro a ha
    simp only [List.mem_cons, List.not_mem_nil, or_false] at ha
    rcases ha with rfl | rfl | rfl
    · exact noOption_cli h
    · exact hi
    · exact ho)
  unfold parseArgs
  simp only [ht, together_words, words_map]
  rw [if_neg (by simp), if_neg (by simp), if_pos ((choices_iff name).2 ⟨r, h⟩)]
  simp

theorem ends_if (e : Exc) : Ends e (if caught e then .returned e else .raised e) := by
  unfold Ends
  cases e with
  | io e => cases e <;> simp [Reported, caught]
  | py e => cases e <;> simp [Reported, caught]

theorem token_cases (q : Quirks) (a : List Char) : token q a = .word a ∨ ∀ w, token q a ≠ .word w := by
  unfold token
  split
  · rename_i c t
    dsimp only
    have hm : ∀ x ∈ options.filter (fun o => "--".toList.isPrefixOf (List.takeWhile (· ≠ '=') ('-' :: c :: t)) &&
        (List.takeWhile (· ≠ '=') ('-' :: c :: t)).isPrefixOf o.1.toList), ∀ w, x.2 ≠ .word w := by
      intro x hx
      have := List.mem_of_mem_filter hx
      simp only [options, List.mem_cons, List.not_mem_nil, or_false] at this
      rcases this with rfl | rfl | rfl <;> simp
    generalize options.filter _ = f at hm
    rcases f with _ | ⟨⟨s, k⟩, _ | ⟨y, f⟩⟩
    · dsimp only
      split_ifs <;> simp
    · dsimp only
      split_ifs
      · exact Or.inr (hm (s, k) (by simp))
      · simp
    · dsimp only
      simp
  · exact Or.inl rfl

theorem words_sublist (q : Quirks) (l : List (List Char)) : (words (tokenize q l)).Sublist l := by
  induction l with
  | nil => exact List.Sublist.slnil
  | cons a l ih =>
    rw [tokenize]
    split_ifs with h
    · rw [words_map]; exact List.sublist_cons_self a l
    · rcases token_cases q a with ht | ht
      · rw [ht, words]; exact ih.cons_cons a
      · have : words (token q a :: tokenize q l) = words (tokenize q l) := by
          cases hk : token q a with
          | word w => exact absurd hk (ht w)
          | _ => rfl
        rw [this]; exact ih.cons a

theorem parse_some (q : Quirks) (args : List (List Char)) (a : Namespace) (h : parseArgs q args = some a) :
    (∀ n, a.routine = some n → ∃ r, (n, r) ∈ cliRoutines) ∧
    (∀ n i, a.routine = some n → a.input = some i → [n, i].Sublist args) ∧
    (∀ n i o, a.routine = some n → a.input = some i → a.output = some o → [n, i, o].Sublist args) ∧
    a.report = (tokenize q args).contains .report ∧ a.version = (tokenize q args).contains .version := by
  have hs := words_sublist q args
  unfold parseArgs at h
  dsimp only at h
  split_ifs at h with h1 h2
  split at h
  · cases h; simp
  · rename_i x hw
    split_ifs at h with hc
    cases h
    refine ⟨fun n hn => ?_, by simp, by simp, rfl, rfl⟩
    cases hn; exact (choices_iff _).1 hc
  · rename_i x y hw
    split_ifs at h with hc
    cases h
    rw [hw] at hs
    refine ⟨fun n hn => ?_, fun n i hn hi => ?_, by simp, rfl, rfl⟩
    · cases hn; exact (choices_iff _).1 hc
    · cases hn; cases hi; exact hs
  · rename_i x y z hw
    split_ifs at h with hc
    cases h
    rw [hw] at hs
    refine ⟨fun n hn => ?_, fun n i hn hi => ?_, fun n i o hn hi ho => ?_, rfl, rfl⟩
    · cases hn; exact (choices_iff _).1 hc
    · cases hn; cases hi
      exact List.Sublist.trans (by simp) hs
    · cases hn; cases hi; cases ho; exact hs
  · cases h

theorem saveData_only {N : Type} (E : Env N) (fname : List Char) (a : Io.Array N) (info : List Char) (fs : Fs)
    (p : List Char) (hp : p ≠ E.abspath fname) : (saveData E fname a info fs).2 p = fs p := by
  unfold saveData
  split
  · dsimp only
    split_ifs <;> first | rfl | exact Function.update_of_ne hp _ _
  · rfl

/-! ## The property -/

/-- **C39, running.**  `empymod name input`: exactly the routine of that name is called, once, with exactly the
parameters of the file and unsqueezed data; its result is printed, no file is changed. -/
theorem C39_runs {N : Type} (S : Surroundings N) (q : Quirks) (w : World N) (name inp : List Char) (r : Routine)
    (h : (name, r) ∈ cliRoutines) (hi : NoOption inp) (l : List (List Char × Json N))
    (hl : loadInput S.env inp w.fs = .ok (.obj l)) :
    (∀ a, S.call r (asked l) = .ok a →
      commandLine S q [name, inp] w = (.done, ⟨w.fs, .result a :: .computed r (asked l) :: w.log⟩)) ∧
    (∀ e, S.call r (asked l) = .error e →
      ∃ o, Ends e o ∧ commandLine S q [name, inp] w = (o, ⟨w.fs, .computed r (asked l) :: w.log⟩)) := by
  have hk : kwargsOf S (some inp) w.fs = .ok (asked l) := (kwargsOf_ok S _ _ _).2 ⟨inp, l, rfl, hl, rfl⟩
  constructor
  · intro a ha
    unfold commandLine main run
    simp [parse_two q h hi, getattr_cli h, hk, ha]
  · intro e he
    refine ⟨_, ends_if e, ?_⟩
    unfold commandLine main run
    simp [parse_two q h hi, getattr_cli h, hk, he]

/-- **C39, storing.**  `empymod name input output`: the routine is called in the same way, nothing is printed, and
the file `output` (`.json` or `.txt`) afterwards holds the data; no other file is changed. -/
theorem C39_stores {N : Type} (S : Surroundings N) (q : Quirks) (w : World N) (name inp out : List Char) (r : Routine)
    (h : (name, r) ∈ cliRoutines) (hi : NoOption inp) (ho : NoOption out) (l : List (List Char × Json N))
    (hl : loadInput S.env inp w.fs = .ok (.obj l)) (a b c : ℕ) (dtype : List Char) (v : Values N)
    (hr : S.call r (asked l) = .ok ⟨[a, b, c], dtype, v⟩) (hv : FitsData a b c dtype v)
    (hf : ".json".toList <:+ S.env.abspath out ∧ 0 < a ∧ 0 < b ∨
      ".txt".toList <:+ S.env.abspath out ∧ 0 < c ∧ Plain S.env.date ∧ Plain S.env.version ∧ TypeName dtype ∧
        OneLine inp) (h0 : out ≠ []) :
    ∃ fs', commandLine S q [name, inp, out] w = (.done, ⟨fs', .computed r (asked l) :: w.log⟩) ∧
      loadData S.env out fs' = .ok ([a, b, c], v) ∧ ∀ p, p ≠ S.env.abspath out → fs' p = w.fs p := by
  have hk : kwargsOf S (some inp) w.fs = .ok (asked l) := (kwargsOf_ok S _ _ _).2 ⟨inp, l, rfl, hl, rfl⟩
  have hs : ∃ fs', saveData S.env out ⟨[a, b, c], dtype, v⟩ (infoText name inp) w.fs = (.ok (), fs') ∧
      loadData S.env out fs' = .ok ([a, b, c], v) ∧ ∀ p, p ≠ S.env.abspath out → fs' p = w.fs p := by
    rcases hf with ⟨h1, h2, h3⟩ | ⟨h1, h2, h3, h4, h5, h6⟩
    · exact C31_json_partial S.env out a b c dtype _ v w.fs h1 h2 h3 hv
    · refine C31_txt_partial S.env out a b c dtype _ v w.fs h1 h2 h3 h4 h5 ?_ hv
      have hn : OneLine name := by
        simp only [cliRoutines, List.mem_cons, List.not_mem_nil, or_false, Prod.mk.injEq] at h
        rcases h with ⟨rfl, rfl⟩ | ⟨rfl, rfl⟩ | ⟨rfl, rfl⟩ | ⟨rfl, rfl⟩ <;> (unfold OneLine; decide)
      unfold OneLine at h6 hn ⊢
      unfold infoText
      simp only [List.mem_append, not_or]
      exact ⟨⟨⟨⟨⟨by decide, hn.1⟩, by decide⟩, h6.1⟩, by decide⟩, ⟨⟨⟨by decide, hn.2⟩, by decide⟩, h6.2⟩, by decide⟩
  obtain ⟨fs', h1, h2, h3⟩ := hs
  refine ⟨fs', ?_, h2, h3⟩
  unfold commandLine main run
  simp only [parse_three q h hi ho, getattr_cli h, hk, hr]
  cases out with
  | nil => exact absurd rfl h0
  | cons x out => simp [h1]

/-- **C39, nothing else.**  For all arguments, however `main` is called: at most one routine is called; it is one of
the four and named by an argument, the input file is named by a later argument, its parameters are the ones of that
file and unsqueezed data; no file is changed but the one named by a still later argument. -/
theorem C39_only {N : Type} (S : Surroundings N) (q : Quirks) (argc : ℕ) (args : List (List Char)) (w : World N) :
    ∃ new : List (Event N), (main S q argc args w).2.log = new ++ w.log ∧
      (new = [] ∨ new = [.version] ∨ new = [.report] ∨ new = [.hint] ∨
        ∃ name inp r l, (name, r) ∈ cliRoutines ∧ [name, inp].Sublist args ∧
          loadInput S.env inp w.fs = .ok (.obj l) ∧
          (new = [.computed r (asked l)] ∨
            ∃ a, S.call r (asked l) = .ok a ∧ new = [.result a, .computed r (asked l)])) ∧
      ∀ p, (∀ name inp out, [name, inp, out].Sublist args → p ≠ S.env.abspath out) →
        (main S q argc args w).2.fs p = w.fs p := by
  unfold main
  cases hp : parseArgs q args with
  | none => exact ⟨[], rfl, Or.inl rfl, fun p _ => rfl⟩
  | some a =>
    obtain ⟨p1, p2, p3, -, -⟩ := parse_some q args a hp
    dsimp only
    by_cases hv : a.version = true
    · rw [if_pos hv]
      exact ⟨[.version], rfl, by simp, fun p _ => rfl⟩
    rw [if_neg hv]
    by_cases hre : a.report = true
    · rw [if_pos hre]
      exact ⟨[.report], rfl, by simp, fun p _ => rfl⟩
    rw [if_neg hre]
    by_cases hc : argc < 3
    · rw [if_pos hc]
      exact ⟨[.hint], rfl, by simp, fun p _ => rfl⟩
    rw [if_neg hc]
    have key : ∃ new : List (Event N), (run S a w).2.log = new ++ w.log ∧
      (new = [] ∨ new = [.version] ∨ new = [.report] ∨ new = [.hint] ∨
        ∃ name inp r l, (name, r) ∈ cliRoutines ∧ [name, inp].Sublist args ∧
          loadInput S.env inp w.fs = .ok (.obj l) ∧
          (new = [.computed r (asked l)] ∨
            ∃ a, S.call r (asked l) = .ok a ∧ new = [.result a, .computed r (asked l)])) ∧
      ∀ p, (∀ name inp out, [name, inp, out].Sublist args → p ≠ S.env.abspath out) →
        (run S a w).2.fs p = w.fs p := by
      unfold run
      cases hn : a.routine with
      | none => exact ⟨[], rfl, Or.inl rfl, fun p _ => rfl⟩
      | some fct =>
        obtain ⟨r, hr⟩ := p1 fct hn
        dsimp only
        rw [getattr_cli hr]
        dsimp only
        cases hk : kwargsOf S a.input w.fs with
        | error e => exact ⟨[], rfl, Or.inl rfl, fun p _ => rfl⟩
        | ok kw =>
          obtain ⟨i, l, hi, hl, rfl⟩ := (kwargsOf_ok S _ _ _).1 hk
          have hsub := p2 fct i hn hi
          dsimp only
          cases hcall : S.call r (asked l) with
          | error e =>
            exact ⟨[.computed r (asked l)], rfl, by
              right; right; right; right
              exact ⟨fct, i, r, l, hr, hsub, hl, Or.inl rfl⟩, fun p _ => rfl⟩
          | ok out =>
            dsimp only
            split
            · exact ⟨[.result out, .computed r (asked l)], rfl, by
                right; right; right; right
                exact ⟨fct, i, r, l, hr, hsub, hl, Or.inr ⟨out, hcall, rfl⟩⟩, fun p _ => rfl⟩
            · exact ⟨[.result out, .computed r (asked l)], rfl, by
                right; right; right; right
                exact ⟨fct, i, r, l, hr, hsub, hl, Or.inr ⟨out, hcall, rfl⟩⟩, fun p _ => rfl⟩
            · rename_i outfile _ ho
              have hs := saveData_only S.env outfile out (infoText fct (a.input.getD [])) w.fs
              refine ⟨[.computed r (asked l)], ?_, Or.inr (Or.inr (Or.inr (Or.inr
                ⟨fct, i, r, l, hr, hsub, hl, Or.inl rfl⟩))), fun p hpp => ?_⟩
              · split <;> rfl
              · rw [← hs p (hpp fct i outfile (p3 fct i outfile hn hi ho))]
                split <;> rename_i e <;> rw [e]
    obtain ⟨new, k1, k2, k3⟩ := key
    refine ⟨new, ?_, k2, fun p hpp => ?_⟩
    · rw [← k1]; split <;> rename_i e <;> rw [e]
    · rw [← k3 p hpp]; split <;> rename_i e <;> rw [e]

/-- **C39, unknown routines.**  If the first argument that is no option is not the name of one of the four routines,
the program ends without computing, printing a result, or changing a file. -/
theorem C39_unknown {N : Type} (S : Surroundings N) (q : Quirks) (argc : ℕ) (opts rest : List (List Char))
    (x : List Char) (w : World N) (hop : ∀ a ∈ opts, a = "--report".toList ∨ a = "--version".toList)
    (hx : NoOption x) (hn : ∀ r, (x, r) ∉ cliRoutines) :
    main S q argc (opts ++ x :: rest) w = (.exit, w) := by
  have ht : ∃ t u, tokenize q (opts ++ x :: rest) = t ++ .word x :: u ∧ words t = [] := by
    induction opts with
    | nil =>
      refine ⟨[], tokenize q rest, ?_, rfl⟩
      rw [List.nil_append, tokenize, if_neg (not_dashes hx), token_word q hx]; rfl
    | cons a l ih =>
      obtain ⟨t, u, h1, h2⟩ := ih fun b hb => hop b (by simp [hb])
      have ha : a ≠ "--".toList ∧ (token q a = .report ∨ token q a = .version) := by
        rcases hop a (by simp) with rfl | rfl
        · exact ⟨by decide, Or.inl (by simp [token, options])⟩
        · exact ⟨by decide, Or.inr (by simp [token, options])⟩
      refine ⟨token q a :: t, u, ?_, ?_⟩
      · rw [List.cons_append, tokenize, if_neg ha.1, h1]; rfl
      · rcases ha.2 with e | e <;> rw [e] <;> exact h2
  obtain ⟨t, u, h1, h2⟩ := ht
  have hw : words (tokenize q (opts ++ x :: rest)) = x :: words u := by
    rw [h1]
    clear h1
    induction t with
    | nil => rfl
    | cons y t ih =>
      cases y with
      | word z => simp [words] at h2
      | _ => exact ih h2
  have hc : x ∉ choices := fun hc => by
    obtain ⟨r, hr⟩ := (choices_iff x).1 hc
    exact hn r hr
  have : parseArgs q (opts ++ x :: rest) = none := by
    unfold parseArgs
    dsimp only
    split_ifs
    · rfl
    · rfl
    · rw [hw]
      rcases words u with _ | ⟨y, _ | ⟨z, _ | ⟨y', u'⟩⟩⟩
      · exact if_neg hc
      · exact if_neg hc
      · exact if_neg hc
      · rfl
  unfold main
  rw [this]

/-- **C39, no input.**  Without an input file, with one that does not exist, is no JSON file or does not contain a
dictionary, nothing is computed, printed or changed; the exception is handed over. -/
theorem C39_no_input {N : Type} (S : Surroundings N) (q : Quirks) (w : World N) (name inp : List Char) (r : Routine)
    (h : (name, r) ∈ cliRoutines) (hi : NoOption inp) (outs : List (List Char))
    (hout : outs = [] ∨ ∃ out, NoOption out ∧ outs = [out]) :
    (∀ e, loadInput S.env inp w.fs = .error e → ∃ o, Ends (.io e) o ∧
      commandLine S q ([name, inp] ++ outs) w = (o, w)) ∧
    (∀ j, loadInput S.env inp w.fs = .ok j → (∀ l, j ≠ .obj l) →
      commandLine S q ([name, inp] ++ outs) w = (.returned (.py .typeError), w)) ∧
    commandLine S q [name] w = (.done, ⟨w.fs, .hint :: w.log⟩) ∧
    commandLine S q [] w = (.done, ⟨w.fs, .hint :: w.log⟩) := by
  have hpar : ∃ o, parseArgs q ([name, inp] ++ outs) = some ⟨some name, some inp, o, false, false⟩ := by
    rcases hout with rfl | ⟨out, ho, rfl⟩
    · exact ⟨none, parse_two q h hi⟩
    · exact ⟨some out, parse_three q h hi ho⟩
  obtain ⟨o, hpar⟩ := hpar
  have hlen : ¬ ([name, inp] ++ outs).length + 1 < 3 := by simp
  refine ⟨fun e he => ⟨_, ends_if _, ?_⟩, fun j hj hl => ?_, ?_, ?_⟩
  · have hk : kwargsOf S (some inp) w.fs = .error (.io e) := by
      unfold kwargsOf
      dsimp only
      rw [he]
    unfold commandLine main run
    simp only [hpar, getattr_cli h, hk, if_neg hlen]
    rfl
  · have hk : kwargsOf S (some inp) w.fs = .error (.py .typeError) := by
      unfold kwargsOf
      dsimp only
      rw [hj]
      cases j with
      | obj l => exact absurd rfl (hl l)
      | _ => rfl
    unfold commandLine main run
    simp only [hpar, getattr_cli h, hk, if_neg hlen]
    rfl
  · have ht := tokenize_words q [name] (by simpa using noOption_cli h)
    have hp : parseArgs q [name] = some ⟨some name, none, none, false, false⟩ := by
      unfold parseArgs
      simp only [ht, together_words, words_map]
      rw [if_neg (by simp), if_neg (by simp), if_pos ((choices_iff name).2 ⟨r, h⟩)]
      simp
    unfold commandLine main
    simp [hp]
  · unfold commandLine main parseArgs
    simp [tokenize, words, together]

/-- **C39, information only.**  With `--version` or `--report` among the arguments (before any `--`) nothing is computed
and no file is changed. -/
theorem C39_information {N : Type} (S : Surroundings N) (q : Quirks) (argc : ℕ) (args : List (List Char)) (w : World N)
    (hd : "--".toList ∉ args) (h : "--version".toList ∈ args ∨ "--report".toList ∈ args) :
    (main S q argc args w).2.fs = w.fs ∧
      ((main S q argc args w).2.log = w.log ∨ (main S q argc args w).2.log = .version :: w.log ∨
        (main S q argc args w).2.log = .report :: w.log) := by
  have ht : ∀ a t, token q a = t → a ∈ args → t ∈ tokenize q args := by
    intro a t hat ha
    clear h
    induction args with
    | nil => cases ha
    | cons b l ih =>
      rw [tokenize, if_neg (fun hb => hd (by simp [hb]))]
      rcases List.mem_cons.1 ha with rfl | ha
      · rw [hat]; simp
      · exact List.mem_cons_of_mem _ (ih (fun hb => hd (List.mem_cons_of_mem _ hb)) ha)
  unfold main
  cases hp : parseArgs q args with
  | none => exact ⟨rfl, Or.inl rfl⟩
  | some a =>
    obtain ⟨-, -, -, hr, hv⟩ := parse_some q args a hp
    dsimp only
    rcases h with h | h
    · have := ht _ .version (by simp [token, options]) h
      have e : a.version = true := by rw [hv]; simpa using this
      rw [if_pos e]
      exact ⟨rfl, Or.inr (Or.inl rfl)⟩
    · have := ht _ .report (by simp [token, options]) h
      have e : a.report = true := by rw [hr]; simpa using this
      by_cases e' : a.version = true
      · rw [if_pos e']; exact ⟨rfl, Or.inr (Or.inl rfl)⟩
      · rw [if_neg e', if_pos e]; exact ⟨rfl, Or.inr (Or.inr rfl)⟩

/-- **C39 is violated by `main` with arguments**: it looks at the arguments of the process instead of its own.  In a
process without arguments nothing is computed, whatever is asked for. -/
theorem C39_argv_violated {N : Type} (S : Surroundings N) (q : Quirks) (w : World N) (name inp out : List Char)
    (r : Routine) (h : (name, r) ∈ cliRoutines) (hi : NoOption inp) (ho : NoOption out) (argc : ℕ) (hc : argc < 3) :
    main S q argc [name, inp, out] w = (.done, ⟨w.fs, .hint :: w.log⟩) := by
  unfold main
  simp [parse_three q h hi ho, hc]

/-! ## Examples -/

/-- A routine `dipole` that returns one number, if it is asked for unsqueezed data, and all others raise. -/
def demoCall : Routine → Kwargs ℕ → Except Exc (Io.Array ℕ)
  | .dipole, kw =>
    match kw "squeeze".toList with
    | some (.bool false) => .ok ⟨[1, 1, 1], "float64".toList, .real [7]⟩
    | _ => .ok ⟨[], "float64".toList, .real [7]⟩
  | _, _ => .error (.py .valueError)

/-- Everything around. -/
def demoS : Surroundings ℕ := ⟨demoEnv, demoCall⟩

/-- The input asks for squeezed data; the routine is asked for unsqueezed ones all the same, and the result is stored
and can be loaded. -/
example (q : Quirks) : ∃ fs m fs', loadInput demoEnv "/in.json".toList fs = .ok (.obj m) ∧
    SameDict [("ab".toList, .num 11), ("squeeze".toList, .bool true)] m ∧
    commandLine demoS q ["dipole".toList, "/in.json".toList, "/out.txt".toList] ⟨fs, []⟩ =
      (.done, ⟨fs', [.computed .dipole (asked m)]⟩) ∧
    loadData demoEnv "/out.txt".toList fs' = .ok ([1, 1, 1], .real [7]) := by
  obtain ⟨fs, m, -, h2, h3, -⟩ := C31_input_partial demoEnv "/in.json".toList
    [("ab".toList, .num 11), ("squeeze".toList, .bool true)] (fun _ => none) (by decide) (by simp)
    (by simp [SavableDict, Savable])
  have hc : demoCall .dipole (asked m) = .ok ⟨[1, 1, 1], "float64".toList, .real [7]⟩ := by
    unfold demoCall asked
    simp
  obtain ⟨fs', k1, k2, -⟩ := C39_stores demoS q ⟨fs, []⟩ "dipole".toList "/in.json".toList "/out.txt".toList .dipole
    (by simp [cliRoutines]) (by unfold NoOption; decide) (by unfold NoOption; decide) m h2 1 1 1 "float64".toList
    (.real [7]) hc ⟨rfl, not_infix 'c' (by decide) (by decide)⟩
    (Or.inr ⟨by decide, by decide, by unfold Plain OneLine; decide,
      ⟨by unfold OneLine; decide, not_infix 't' (by decide) (by decide)⟩,
      ⟨by decide, not_infix 'd' (by decide) (by decide)⟩, by unfold OneLine; decide⟩) (by decide)
  exact ⟨fs, m, fs', h2, h3, k1, k2⟩

/-- `empymod gpr in.json`: there is such a routine, but not on the command line. -/
example (q : Quirks) (w : World ℕ) :
    commandLine demoS q ["gpr".toList, "/in.json".toList] w = (.exit, w) :=
  C39_unknown demoS q _ [] ["/in.json".toList] "gpr".toList w (by simp) (by unfold NoOption; decide)
    (by simp [cliRoutines])

/-- An abbreviated option; options and arguments in turn are an error in old versions of Python. -/
example : parseArgs ⟨false, fun _ => false⟩ ["--vers".toList, "loop".toList, "a".toList] =
      some ⟨some "loop".toList, some "a".toList, none, false, true⟩ ∧
    parseArgs ⟨false, fun _ => false⟩ ["loop".toList, "--report".toList, "a".toList] = none ∧
    parseArgs ⟨true, fun _ => false⟩ ["loop".toList, "--report".toList, "a".toList] =
      some ⟨some "loop".toList, some "a".toList, none, true, false⟩ ∧
    parseArgs ⟨true, fun _ => false⟩ ["loop".toList, "--squeeze".toList, "a".toList] = none := by
  refine ⟨rfl, rfl, rfl, rfl⟩

/-- A missing file is reported, nothing is computed. -/
example (q : Quirks) : commandLine demoS q ["loop".toList, "/no.json".toList] ⟨fun _ => none, []⟩ =
    (.returned (.io .notFound), ⟨fun _ => none, []⟩) := by
  obtain ⟨o, h1, h2⟩ := (C39_no_input demoS q ⟨fun _ => none, []⟩ "loop".toList "/no.json".toList .loop
    (by simp [cliRoutines]) (by unfold NoOption; decide) [] (Or.inl rfl)).1 .notFound rfl
  rw [h1.1 trivial] at h2
  exact h2

end Verif.Props
