import Verif.Model.Args

/-!
# Lemmas on sequences of statements that take arguments from a dictionary
-/

namespace Verif.Args
open Verif.Py Verif.Py.W

theorem popVal_popRest {k k' : String} (h : k ≠ k') (d : Val) (args : Dict) :
    popVal k d (popRest k' args) = popVal k d args := by
  have : (popRest k' args).lookup k = args.lookup k := by
    induction args with
    | nil => rfl
    | cons p l ih =>
      obtain ⟨q, v⟩ := p
      simp only [popRest] at ih
      simp only [popRest, List.filter_cons]
      by_cases hq : q = k'
      · have hk : (k == q) = false := by rw [beq_eq_false_iff_ne]; rintro rfl; exact h hq
        simp only [hq, ne_eq, not_true_eq_false, decide_false, Bool.false_eq_true, if_false]
        rw [ih, List.lookup_cons, ← hq, hk]
      · simp only [ne_eq, hq, not_false_eq_true, decide_true, if_true, List.lookup_cons, ih]
  rw [popVal, this, popVal]

/-- Value of one argument, if the check succeeds. -/
noncomputable def valueOf (C : Conv) (verb : ℤ) (args : Dict) (i : Item) : Except PyErr Val :=
  (check C verb i.kind (popVal i.key i.dflt args)).val

theorem step_val (C : Conv) (verb : ℤ) (i : Item) (s : St) :
    (step C verb i s).val = (valueOf C verb s.args i).bind fun v =>
      .ok ⟨popRest i.key s.args, s.targ ++ [(i.key, v)]⟩ := by
  rw [step, bind_val]; rfl

theorem popRest_filter (l : List String) (k : String) (args : Dict) :
    (popRest k args).filter (fun p => decide (p.1 ∉ l)) =
      args.filter fun p => decide (p.1 ∉ k :: l) := by
  rw [popRest, List.filter_filter]
  congr 1
  funext p
  simp only [List.mem_cons, not_or, ne_eq, Bool.decide_and]
  exact Bool.and_comm _ _

/-- A sequence of statements for different keys: it succeeds if all checks succeed, and then each key has
its value, and exactly these keys are removed. -/
theorem steps_val (C : Conv) (verb : ℤ) (items : List Item) (hd : (items.map Item.key).Nodup)
    (args targ : Dict) (r : St) :
    (steps C verb items ⟨args, targ⟩).val = .ok r ↔
      ∃ w : Item → Val, (∀ i ∈ items, valueOf C verb args i = .ok (w i)) ∧
        r = ⟨args.filter fun p => decide (p.1 ∉ items.map Item.key),
          targ ++ items.map fun i => (i.key, w i)⟩ := by
  induction items generalizing args targ with
  | nil =>
    simp only [steps, pure_val, Except.ok.injEq, List.not_mem_nil, false_imp_iff, implies_true, List.map_nil,
      not_false_eq_true, decide_true, List.filter_true, List.append_nil, true_and]
    exact ⟨fun h => ⟨fun _ => .none, h.symm⟩, fun ⟨_, h⟩ => h.symm⟩
  | cons i l ih =>
    rw [List.map_cons, List.nodup_cons] at hd
    have hv : ∀ j ∈ l, valueOf C verb (popRest i.key args) j = valueOf C verb args j := by
      intro j hj
      have : j.key ≠ i.key := fun h => hd.1 (h ▸ List.mem_map_of_mem hj)
      rw [valueOf, popVal_popRest this, valueOf]
    rw [steps, bind_val, step_val]
    cases h : valueOf C verb args i with
    | error e =>
      constructor
      · intro h'; exact absurd h' (by simp [Except.bind])
      · rintro ⟨w, hw, -⟩
        rw [hw i List.mem_cons_self] at h
        exact absurd h (by simp)
    | ok v =>
      change (steps C verb l ⟨popRest i.key args, targ ++ [(i.key, v)]⟩).val = .ok r ↔ _
      rw [ih hd.2]
      constructor
      · rintro ⟨w, hw, hr⟩
        classical
        have hne : ∀ j ∈ l, j ≠ i := fun j hj h' => hd.1 (h' ▸ List.mem_map_of_mem hj)
        refine ⟨fun j => if j = i then v else w j, fun j hj => ?_, ?_⟩
        · rcases List.mem_cons.1 hj with rfl | hj
          · simp only [if_true]; exact h
          · simp only [if_neg (hne j hj)]; rw [← hv j hj]; exact hw j hj
        · have e : (l.map fun j => (j.key, w j)) = l.map fun j => (j.key, if j = i then v else w j) :=
            List.map_congr_left fun j hj => by rw [if_neg (hne j hj)]
          rw [hr, popRest_filter, List.append_assoc, List.map_cons, List.map_cons, List.singleton_append, e]
          simp only [if_true]
      · rintro ⟨w, hw, hr⟩
        have hwi := hw i List.mem_cons_self
        rw [h] at hwi
        injection hwi with hwi
        refine ⟨w, fun j hj => ?_, ?_⟩
        · rw [hv j hj]; exact hw j (List.mem_cons_of_mem _ hj)
        · rw [hr, popRest_filter, List.append_assoc, List.map_cons, List.map_cons, hwi,
            List.singleton_append]

/-- Messages of a successful sequence. -/
theorem steps_out (C : Conv) (verb : ℤ) (items : List Item) (hd : (items.map Item.key).Nodup)
    (args targ : Dict) (hok : ∀ i ∈ items, ∃ v, valueOf C verb args i = .ok v) :
    (steps C verb items ⟨args, targ⟩).out =
      items.flatMap fun i => (check C verb i.kind (popVal i.key i.dflt args)).out := by
  induction items generalizing args targ with
  | nil => rfl
  | cons i l ih =>
    rw [List.map_cons, List.nodup_cons] at hd
    have hp : ∀ j ∈ l, popVal j.key j.dflt (popRest i.key args) = popVal j.key j.dflt args := fun j hj =>
      popVal_popRest (fun h : j.key = i.key => hd.1 (h ▸ List.mem_map_of_mem hj)) _ _
    obtain ⟨v, hv⟩ := hok i List.mem_cons_self
    have h1 : (step C verb i ⟨args, targ⟩).val = .ok ⟨popRest i.key args, targ ++ [(i.key, v)]⟩ := by
      rw [step_val, hv]; rfl
    have h2 : (step C verb i ⟨args, targ⟩).out = (check C verb i.kind (popVal i.key i.dflt args)).out := by
      rw [step, bind_out]
      cases (check C verb i.kind (popVal i.key i.dflt args)).val <;> simp
    rw [steps, bind_out, h1, h2, List.flatMap_cons]
    congr 1
    change (steps C verb l ⟨popRest i.key args, targ ++ [(i.key, v)]⟩).out = _
    rw [ih hd.2 _ _ fun j hj => by
      rw [valueOf, hp j hj]; exact hok j (List.mem_cons_of_mem _ hj)]
    exact List.flatMap_congr fun j hj => by rw [hp j hj]

theorem lookup_items (items : List Item) (w : Item → Val) (hd : (items.map Item.key).Nodup) (i : Item)
    (hi : i ∈ items) : (items.map fun i => (i.key, w i)).lookup i.key = some (w i) := by
  induction items with
  | nil => exact absurd hi (by simp)
  | cons j l ih =>
    rw [List.map_cons, List.nodup_cons] at hd
    rw [List.map_cons, List.lookup_cons]
    rcases List.mem_cons.1 hi with rfl | hi
    · simp
    · have : (i.key == j.key) = false := by
        rw [beq_eq_false_iff_ne]
        exact fun h => hd.1 (h ▸ List.mem_map_of_mem hi)
      rw [this]; exact ih hd.2 hi

theorem lookup_notMem (l : Dict) (k : String) (h : k ∉ l.map Prod.fst) : l.lookup k = none := by
  induction l with
  | nil => rfl
  | cons p l ih =>
    rw [List.map_cons, List.mem_cons, not_or] at h
    rw [List.lookup_cons, beq_eq_false_iff_ne.2 h.1]
    exact ih h.2

/-- An argument that is not used stays. -/
def keep (k : String) (v : Val) (s : St) : St := ⟨(k, v) :: s.args, s.targ⟩

theorem popVal_cons {k k' : String} (h : k ≠ k') (v d : Val) (args : Dict) :
    popVal k d ((k', v) :: args) = popVal k d args := by
  rw [popVal, List.lookup_cons, beq_eq_false_iff_ne.2 h, popVal]

theorem popRest_cons {k k' : String} (h : k ≠ k') (v : Val) (args : Dict) :
    popRest k ((k', v) :: args) = (k', v) :: popRest k args := by
  rw [popRest, List.filter_cons, if_pos (by simpa using h.symm)]; rfl

theorem step_keep (C : Conv) (verb : ℤ) (i : Item) (k : String) (v : Val) (h : i.key ≠ k) (s : St) :
    (step C verb i (keep k v s)).val = (step C verb i s).val.map (keep k v) := by
  rw [step_val, step_val, valueOf, keep, popVal_cons h, popRest_cons h]
  simp only [valueOf]
  cases (check C verb i.kind (popVal i.key i.dflt s.args)).val <;> rfl

theorem steps_keep (C : Conv) (verb : ℤ) (k : String) (v : Val) (items : List Item)
    (h : k ∉ items.map Item.key) (s : St) :
    (steps C verb items (keep k v s)).val = (steps C verb items s).val.map (keep k v) := by
  induction items generalizing s with
  | nil => rfl
  | cons i l ih =>
    rw [List.map_cons, List.mem_cons, not_or] at h
    rw [steps, steps, bind_val, bind_val, step_keep C verb i k v (Ne.symm h.1)]
    cases (step C verb i s).val with
    | error e => rfl
    | ok t => exact ih h.2 t

theorem filterStep_keep (lib : String → Option Val) (dflt : Val) (attrs : List String) (k : String) (v : Val)
    (h : "dlf" ≠ k) (s : St) :
    (filterStep lib dflt attrs (keep k v s)).val = (filterStep lib dflt attrs s).val.map (keep k v) := by
  rw [filterStep, filterStep, bind_val, bind_val, keep, popVal_cons h, popRest_cons h]
  simp only [bind_val]
  cases (getFilter lib (popVal "dlf" dflt s.args)).val with
  | error e => rfl
  | ok f =>
    simp only [Except.bind]
    cases (needs attrs f).val <;> rfl

end Verif.Args
