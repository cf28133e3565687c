import Verif.Model.Verb
import Verif.Props.C30_Frequency
import Verif.Props.C29_Keywords

/-!
# C26 — verbosity changes only what is printed
-/

namespace Verif.Props
open Verif.Py Verif.Py.W Verif.Args

/-- The verbosity does not influence the outcome (value or exception), and for `verb ≤ 0` nothing is
printed. -/
def Quiet {α : Type} (f : ℤ → W α) : Prop :=
  (∀ v v', (f v).val = (f v').val) ∧ ∀ v ≤ 0, (f v).out = []

theorem Quiet.const {α : Type} {x : W α} (h : x.out = []) : Quiet fun _ => x :=
  ⟨fun _ _ => rfl, fun _ _ => h⟩

theorem Quiet.pure {α : Type} (a : α) : Quiet fun _ => (Pure.pure a : W α) := Quiet.const rfl

theorem Quiet.raise {α : Type} (e : PyErr) : Quiet fun _ => (W.raise e : W α) := Quiet.const rfl

theorem Quiet.bind {α β : Type} {f : ℤ → W α} {g : ℤ → α → W β} (hf : Quiet f)
    (hg : ∀ a, Quiet fun v => g v a) : Quiet fun v => f v >>= g v := by
  refine ⟨fun v v' => ?_, fun v hv => bind_silent (hf.2 v hv) fun a => (hg a).2 v hv⟩
  rw [bind_val, bind_val, hf.1 v v']
  cases (f v').val with
  | error e => rfl
  | ok a => exact (hg a).1 v v'

theorem Quiet.say {c : ℤ → Prop} [∀ v, Decidable (c v)] {s : String} (h : ∀ v ≤ 0, ¬ c v) :
    Quiet fun v => W.say (c v) s :=
  ⟨fun _ _ => rfl, fun v hv => by rw [say_out, if_neg (h v hv)]⟩

theorem Quiet.congr {α : Type} {f g : ℤ → W α} (h : ∀ v, f v = g v) (hg : Quiet g) : Quiet f := by
  rwa [funext h]

/-! ## Arguments of the transforms -/

open Classical in
theorem quiet_minVal (n : ℕ) (v : Val) : Quiet fun verb => minVal n verb v :=
  Quiet.bind (Quiet.say fun _ h hc => absurd hc.1 (by omega)) fun _ => Quiet.pure _

theorem quiet_check (C : Conv) (k : Kind) (v : Val) : Quiet fun verb => check C verb k v := by
  have ho : ∀ x : Except PyErr Val, Quiet fun _ => Args.ofExcept x := fun x => Quiet.const rfl
  cases k with
  | flt => exact ho _
  | int => exact ho _
  | intMin n => exact Quiet.bind (ho _) fun _ => quiet_minVal _ _
  | optFlt => cases v <;> first | exact Quiet.pure _ | exact ho _
  | optInt => cases v <;> first | exact Quiet.pure _ | exact ho _
  | optIntMin n =>
    cases v <;> first | exact Quiet.pure _ | exact Quiet.bind (ho _) fun _ => quiet_minVal _ _
  | pair =>
    cases v with
    | arr l =>
      refine Quiet.congr (g := fun _ => if l.length = 2 then Args.ofExcept (C.flt (.arr l)) else
        W.raise .valueError) (fun _ => rfl) (Quiet.const ?_)
      split <;> rfl
    | _ => exact Quiet.bind (ho _) fun _ => Quiet.raise _

theorem quiet_step (C : Conv) (i : Item) (s : St) : Quiet fun verb => step C verb i s :=
  Quiet.bind (quiet_check _ _ _) fun _ => Quiet.pure _

theorem quiet_steps (C : Conv) (l : List Item) (s : St) : Quiet fun verb => steps C verb l s := by
  induction l generalizing s with
  | nil => exact Quiet.pure _
  | cons i l ih => exact Quiet.bind (quiet_step _ _ _) fun _ => ih _

theorem filterStep_out (lib : String → Option Val) (dflt : Val) (a : List String) (s : St) :
    (filterStep lib dflt a s).out = [] := by
  refine bind_silent ?_ fun f => bind_silent ?_ fun _ => rfl
  · unfold getFilter; split <;> try rfl
    split <;> rfl
  · unfold needs; split <;> try rfl
    split <;> rfl

theorem quiet_hankelSteps (C : Conv) (lib : String → Option Val) (dflt : Val) (ht : String) (s : St) :
    Quiet fun verb => hankelSteps C lib dflt ht verb s := by
  unfold hankelSteps
  split_ifs
  · exact Quiet.bind (Quiet.const (filterStep_out _ _ _ _)) fun _ => quiet_step _ _ _
  · exact quiet_steps _ _ _
  · exact quiet_steps _ _ _
  · exact Quiet.raise _

theorem quiet_unknown (s : St) : Quiet fun verb => unknown verb s :=
  Quiet.bind (Quiet.say fun _ h hc => absurd hc.1 (by omega)) fun _ => Quiet.pure _

theorem getNum_out (k : String) (d : Dict) : (getNum k d).out = [] := by
  unfold getNum; split <;> rfl

theorem quiet_timeSteps (C : Conv) (lib : String → Option Val) (dflt : Val) (ft : String) (signal : ℝ)
    (s : St) : Quiet fun verb => timeSteps C lib dflt ft signal verb s := by
  have hk : ∀ s, (kindStep signal s).out = [] := by
    intro s; unfold kindStep; dsimp only
    split
    · split <;> rfl
    · rfl
  have hf : ∀ s, (kindFilter lib dflt s).out = [] := by
    intro s; unfold kindFilter
    split
    · exact filterStep_out _ _ _ _
    · rfl
  unfold timeSteps
  by_cases h1 : ft = "dlf"
  · simp only [if_pos h1]
    exact Quiet.bind (quiet_step _ _ _) fun _ => Quiet.bind (Quiet.const (hk _)) fun _ =>
      Quiet.const (hf _)
  simp only [if_neg h1]
  by_cases h2 : ft = "qwe"
  · simp only [if_pos h2]
    exact quiet_steps _ _ _
  simp only [if_neg h2]
  by_cases h3 : ft = "fftlog"
  · simp only [if_pos h3]
    exact Quiet.bind (quiet_steps _ _ _) fun _ => Quiet.bind (Quiet.const (getNum_out _ _)) fun _ =>
      Quiet.pure _
  simp only [if_neg h3]
  by_cases h4 : ft = "fft"
  · simp only [if_pos h4]
    exact Quiet.bind (quiet_steps _ _ _) fun _ => Quiet.bind (Quiet.const (getNum_out _ _)) fun _ =>
      Quiet.bind (quiet_step _ _ _) fun _ => Quiet.bind (Quiet.const (getNum_out _ _)) fun _ =>
      quiet_step _ _ _
  · simp only [if_neg h4]
    exact Quiet.raise _

theorem timeFreq_out (E : Env) (ft : String) (time : List ℝ) (s : St) :
    (timeFreq E ft time s).out = [] := by
  have hmin : (minTime time).out = [] := by unfold minTime; split <;> rfl
  have hmax : (maxTime time).out = [] := by unfold maxTime; split <;> rfl
  have hlog : ∀ a b n, (logspace a b n).out = [] := by
    intro a b n; unfold logspace; split <;> rfl
  have hdlf : ∀ d, (getDlf d).out = [] := by intro d; unfold getDlf; split <;> rfl
  have hpair : ∀ k d, (getPair k d).out = [] := by intro k d; unfold getPair; split <;> rfl
  unfold timeFreq
  split_ifs
  · refine bind_silent ?_ fun _ => rfl
    refine bind_silent (hdlf _) fun _ => bind_silent (getNum_out _ _) fun _ => ?_
    split_ifs
    · rfl
    · exact bind_silent hmin fun _ => bind_silent hmax fun _ => rfl
  · refine bind_silent ?_ fun _ => rfl
    exact bind_silent (getNum_out _ _) fun _ => bind_silent (getNum_out _ _) fun _ =>
      bind_silent (getNum_out _ _) fun _ => bind_silent hmax fun _ => bind_silent hmin fun _ =>
      hlog _ _ _
  · refine bind_silent ?_ fun _ => rfl
    exact bind_silent (getNum_out _ _) fun _ => bind_silent (hpair _ _) fun _ =>
      bind_silent (getNum_out _ _) fun _ => bind_silent (getNum_out _ _) fun _ =>
      bind_silent hmax fun _ => bind_silent hmin fun _ => rfl
  · refine bind_silent ?_ fun _ => rfl
    refine bind_silent (getNum_out _ _) fun _ => bind_silent (getNum_out _ _) fun _ => ?_
    split
    · exact hlog _ _ _
    · rfl

/-- **C26** for `check_hankel` up to the information printed with `verb > 2`: same value or same
exception for all verbosities, nothing printed for `verb ≤ 0`. -/
theorem C26_hankel_args (C : Conv) (lib : String → Option Val) (dflt : Val) (ht : String)
    (htarg : Dict) : Quiet fun v => Args.checkHankel C lib dflt ht htarg v :=
  Quiet.bind (quiet_hankelSteps _ _ _ _ _) fun _ => Quiet.bind (quiet_unknown _) fun _ =>
    Quiet.pure _

/-- **C26** for `check_time` up to the information printed with `verb > 2`. -/
theorem C26_time_args (E : Env) (C : Conv) (lib : String → Option Val) (dflt : Val) (time : List ℝ)
    (signal : ℝ) (ft : String) (ftarg : Dict) :
    Quiet fun v => Args.checkTime E C lib dflt time signal ft ftarg v :=
  Quiet.bind (quiet_timeSteps _ _ _ _ _ _) fun _ =>
    Quiet.bind (Quiet.const (timeFreq_out _ _ _ _)) fun _ =>
    Quiet.bind (quiet_unknown _) fun _ => Quiet.pure _

/-! ## With the information of `verb > 2` -/

theorem info_low {v : ℤ} (hv : v ≤ 2) (m : String) (d : Dict) : Verb.info m v d = pure () := by
  rw [Verb.info, if_neg (by omega)]

theorem bind_unit {α : Type} (f : Unit → W α) : ((pure () : W Unit) >>= f) = f () := by
  change W.andThen (W.ret ()) f = f ()
  unfold W.andThen W.ret
  simp

/-- Up to `verb = 2` the routines with and without the information are the same. -/
theorem hankel_low {v : ℤ} (hv : v ≤ 2) (C : Conv) (lib : String → Option Val) (dflt : Val)
    (ht : String) (htarg : Dict) :
    Verb.checkHankel C lib dflt ht htarg v = Args.checkHankel C lib dflt ht htarg v := by
  unfold Verb.checkHankel Args.checkHankel
  simp only [info_low hv, bind_unit]

theorem time_low {v : ℤ} (hv : v ≤ 2) (E : Env) (C : Conv) (lib : String → Option Val) (dflt : Val)
    (time : List ℝ) (signal : ℝ) (ft : String) (ftarg : Dict) :
    Verb.checkTime E C lib dflt time signal ft ftarg v =
      Args.checkTime E C lib dflt time signal ft ftarg v := by
  unfold Verb.checkTime Args.checkTime
  simp only [info_low hv, ite_self, bind_unit]

/-- A filter object that has a name; other values are fine. -/
def Named : Val → Prop
  | .filter attrs _ => "name" ∈ attrs
  | _ => True

theorem info_ok {m : String} {d : Dict} (v : ℤ) (h : m = "dlf" → (∃ a F, d.lookup "dlf" =
    some (.filter a F) ∧ "name" ∈ a) ∧ ∃ x, d.lookup "pts_per_dec" = some (.num x)) :
    (Verb.info m v d).val = .ok () := by
  unfold Verb.info
  split_ifs with h1 h2
  · obtain ⟨⟨a, F, h3, h4⟩, x, h5⟩ := h h2
    simp only [Verb.filterInfo, h3, not_not.2 h4, if_false, h5, not_true_eq_false]
    rfl
  · rfl
  · rfl

theorem filterStep_ok {lib : String → Option Val} {dflt : Val} {attrs : List String} {s r : St}
    (hl : ∀ n f, lib n = some f → Named f) (hd : Named (popVal "dlf" dflt s.args))
    (h : (filterStep lib dflt attrs s).val = .ok r) :
    ∃ a F, r = ⟨popRest "dlf" s.args, s.targ ++ [("dlf", .filter a F)]⟩ ∧ "name" ∈ a := by
  rw [filterStep, bind_eq_ok] at h
  obtain ⟨f, hf, h⟩ := h
  rw [bind_eq_ok] at h
  obtain ⟨_, hn, h⟩ := h
  obtain rfl := Except.ok.inj h
  have hnam : Named f := by
    unfold getFilter at hf
    split at hf
    · split at hf
      · rename_i g hg
        obtain rfl := Except.ok.inj hf
        exact hl _ _ hg
      · cases hf
    · obtain rfl := Except.ok.inj hf
      exact hd
  cases f with
  | filter a F => exact ⟨a, F, rfl, hnam⟩
  | _ => cases hn

theorem fltStep_num {C : Conv} {v : ℤ} {d : Val} {s r : St} {x : ℝ}
    (hp : popVal "pts_per_dec" d s.args = .num x)
    (h : (step C v ⟨"pts_per_dec", d, .flt⟩ s).val = .ok r) :
    r = ⟨popRest "pts_per_dec" s.args, s.targ ++ [("pts_per_dec", .num x)]⟩ := by
  rw [step, bind_eq_ok] at h
  obtain ⟨w, hw, h⟩ := h
  obtain rfl := Except.ok.inj h
  simp only at hw
  rw [hp] at hw
  change C.flt (.num x) = .ok w at hw
  rw [C.flt_num] at hw
  obtain rfl := Except.ok.inj hw
  rfl

/-- **C26** for `check_hankel` with everything it prints: if the filters (those of the library, the
default, the one given) have names and `pts_per_dec` is a number, the outcome does not depend on the
verbosity and nothing is printed for `verb ≤ 0`. -/
theorem C26_hankel_partial (C : Conv) (lib : String → Option Val) (dflt : Val) (ht : String)
    (htarg : Dict) (hl : ∀ n f, lib n = some f → Named f) (hd : Named (popVal "dlf" dflt htarg))
    (hp : ∃ x, popVal "pts_per_dec" (.num 0) htarg = .num x) :
    Quiet fun v => Verb.checkHankel C lib dflt ht htarg v := by
  have hval : ∀ v, (Verb.checkHankel C lib dflt ht htarg v).val =
      (Args.checkHankel C lib dflt ht htarg v).val := by
    intro v
    unfold Verb.checkHankel Args.checkHankel
    rw [bind_val, bind_val]
    cases hs : (hankelSteps C lib dflt (lower ht) v ⟨htarg, []⟩).val with
    | error e => rfl
    | ok s =>
      have hi : (Verb.info (lower ht) v s.targ).val = .ok () := by
        refine info_ok v fun hm => ?_
        rw [hankelSteps, if_pos hm, bind_eq_ok] at hs
        obtain ⟨r, hr, hs⟩ := hs
        obtain ⟨a, F, rfl, hn⟩ := filterStep_ok hl hd hr
        obtain ⟨x, hx⟩ := hp
        have hx' : popVal "pts_per_dec" (.num 0) (popRest "dlf" htarg) = .num x := by
          rw [popVal_popRest (by decide)]; exact hx
        rw [fltStep_num hx' hs]
        exact ⟨⟨a, F, rfl, hn⟩, x, rfl⟩
      exact bind_ok hi _
  refine ⟨fun v v' => ?_, fun v hv => ?_⟩
  · change (Verb.checkHankel C lib dflt ht htarg v).val = (Verb.checkHankel C lib dflt ht htarg v').val
    rw [hval, hval]
    exact (C26_hankel_args C lib dflt ht htarg).1 v v'
  · change (Verb.checkHankel C lib dflt ht htarg v).out = []
    rw [hankel_low (by omega)]
    exact (C26_hankel_args C lib dflt ht htarg).2 v hv

theorem timeFreq_targ {E : Env} {time : List ℝ} {s : St} {r : List ℝ × St}
    (h : (timeFreq E "dlf" time s).val = .ok r) : r.2 = s := by
  rw [timeFreq, if_pos rfl, bind_eq_ok] at h
  obtain ⟨f, -, h⟩ := h
  obtain rfl := Except.ok.inj h
  rfl

/-- **C26** for `check_time` with everything it prints, under the same conditions. -/
theorem C26_time_partial (E : Env) (C : Conv) (lib : String → Option Val) (dflt : Val)
    (time : List ℝ) (signal : ℝ) (ft : String) (ftarg : Dict)
    (hl : ∀ n f, lib n = some f → Named f) (hd : Named (popVal "dlf" dflt ftarg))
    (hp : ∃ x, popVal "pts_per_dec" (.num (-1)) ftarg = .num x) :
    Quiet fun v => Verb.checkTime E C lib dflt time signal ft ftarg v := by
  have hval : ∀ v, (Verb.checkTime E C lib dflt time signal ft ftarg v).val =
      (Args.checkTime E C lib dflt time signal ft ftarg v).val := by
    intro v
    unfold Verb.checkTime Args.checkTime
    rw [bind_val, bind_val]
    cases hs : (timeSteps C lib dflt (lower ft) signal v ⟨ftarg, []⟩).val with
    | error e => rfl
    | ok s =>
      by_cases hfft : lower ft = "fft"
      · have hi : ∀ d, (Verb.info (lower ft) v d).val = .ok () := fun d =>
          info_ok v fun hm => by rw [hfft] at hm; exact absurd hm (by decide)
        simp only [if_pos hfft, bind_unit, Except.bind]
        rw [bind_val, bind_val]
        cases hr : (timeFreq E (lower ft) time s).val with
        | error e => rfl
        | ok r => exact bind_ok (hi _) _
      · have hi : (Verb.info (lower ft) v s.targ).val = .ok () := by
          refine info_ok v fun hm => ?_
          rw [timeSteps, if_pos hm, bind_eq_ok] at hs
          obtain ⟨r, hr, hs⟩ := hs
          obtain ⟨x, hx⟩ := hp
          rw [fltStep_num hx hr] at hs
          rw [bind_eq_ok] at hs
          obtain ⟨q, hq, hs⟩ := hs
          unfold kindStep at hq
          dsimp only at hq
          split at hq
          · rename_i k _
            split_ifs at hq
            swap
            · cases hq
            obtain rfl := Except.ok.inj hq
            have hs' : (filterStep lib dflt ["base", k, "factor"]
                ⟨popRest "kind" (popRest "pts_per_dec" ftarg),
                  ([] ++ [("pts_per_dec", Val.num x)]) ++ [("kind", .str k)]⟩).val = .ok s := hs
            obtain ⟨a, F, rfl, hn⟩ := filterStep_ok hl (by
              change Named (popVal "dlf" dflt (popRest "kind" (popRest "pts_per_dec" ftarg)))
              rw [popVal_popRest (by decide), popVal_popRest (by decide)]; exact hd) hs'
            exact ⟨⟨a, F, rfl, hn⟩, x, rfl⟩
          · cases hq
        simp only [if_neg hfft, bind_unit, Except.bind]
        exact bind_ok hi _
  refine ⟨fun v v' => ?_, fun v hv => ?_⟩
  · change (Verb.checkTime E C lib dflt time signal ft ftarg v).val =
      (Verb.checkTime E C lib dflt time signal ft ftarg v').val
    rw [hval, hval]
    exact (C26_time_args E C lib dflt time signal ft ftarg).1 v v'
  · change (Verb.checkTime E C lib dflt time signal ft ftarg v).out = []
    rw [time_low (by omega)]
    exact (C26_time_args E C lib dflt time signal ft ftarg).2 v hv

/-- **C26 fails for filters without a name.**  An object with the four attributes that are checked but
without `name` is accepted up to `verb = 2`; with `verb = 3` the same call raises, because the
information that is printed contains the name. -/
theorem C26_name_violated (C : Conv) (lib : String → Option Val) (dflt : Val) (F : Transform.Filter) :
    (Verb.checkHankel C lib dflt "dlf" [("dlf", .filter ["base", "j0", "j1", "factor"] F)] 2).val =
      .ok ("dlf", [("dlf", .filter ["base", "j0", "j1", "factor"] F), ("pts_per_dec", .num 0)]) ∧
    (Verb.checkHankel C lib dflt "dlf" [("dlf", .filter ["base", "j0", "j1", "factor"] F)] 3).val =
      .error .attributeError := by
  have hlow : lower "dlf" = "dlf" := by decide
  have hs : ∀ v, (hankelSteps C lib dflt "dlf" v
      ⟨[("dlf", .filter ["base", "j0", "j1", "factor"] F)], []⟩).val =
      .ok ⟨[], [("dlf", .filter ["base", "j0", "j1", "factor"] F), ("pts_per_dec", .num 0)]⟩ := by
    intro v
    rw [hankelSteps, if_pos rfl, bind_ok (a := ⟨[], [("dlf", .filter ["base", "j0", "j1", "factor"] F)]⟩)]
    · rw [step_val]
      change Except.bind (C.flt (.num 0)) _ = _
      rw [C.flt_num]
      rfl
    · rfl
  constructor
  · unfold Verb.checkHankel
    rw [hlow, bind_ok (hs _)]
    rfl
  · unfold Verb.checkHankel
    rw [hlow, bind_ok (hs _)]
    rfl

/-! ## Codes, loops, times -/

/-- **C26** for `check_ab`, `check_loop` and `check_time_only`; they also return what the models without
printing return. -/
theorem C26_checks (m : Utils.Mins) (ab : Utils.AbArg) (loop : Option String) (ht : String) (ppd : ℝ)
    (time : List ℝ) (signal : ℝ) :
    Quiet (fun v => Verb.checkAb ab v) ∧
    (∀ v, (Verb.checkAb ab v).val = Utils.checkAb ab) ∧
    Quiet (fun v => Verb.checkLoop loop ht ppd v) ∧
    Quiet (fun v => Verb.checkTimeOnly m time signal v) := by
  have h2 : ∀ s, Quiet fun v => W.say (v > 2) s := fun s => Quiet.say fun _ _ _ => by omega
  have hv : ∀ v, (Verb.checkAb ab v).val = Utils.checkAb ab := by
    intro v
    unfold Verb.checkAb Utils.checkAb
    rw [bind_val]
    change Except.bind (Utils.toInt ab) _ = _
    cases Utils.toInt ab with
    | error e => rfl
    | ok n =>
      simp only [Except.bind]
      by_cases hn : n ∉ Utils.pab
      · rw [if_pos hn]
        unfold Utils.checkAbInt
        rw [if_pos hn]; rfl
      · rw [if_neg hn]
        rw [bind_ok rfl, bind_val]
        change Except.bind (Utils.checkAbInt n) _ = _
        cases Utils.checkAbInt n <;> rfl
  refine ⟨⟨fun v v' => by rw [hv, hv], fun v h => ?_⟩, hv, ?_, ?_⟩
  · refine bind_silent rfl fun n => ?_
    by_cases hn : n ∉ Utils.pab
    · rw [if_pos hn]; rfl
    · rw [if_neg hn]
      exact bind_silent ((h2 _).2 v h) fun _ => bind_silent rfl fun _ =>
        bind_silent ((h2 _).2 v h) fun _ => rfl
  · exact Quiet.bind (h2 _) fun _ => Quiet.pure _
  · refine Quiet.bind ?_ fun _ => Quiet.bind (h2 _) fun _ => Quiet.bind (Quiet.const ?_) fun _ =>
      Quiet.bind (h2 _) fun _ => Quiet.pure _
    · exact Quiet.bind (Quiet.say fun _ h hc => absurd hc.1 (by omega)) fun _ => Quiet.pure _
    · unfold Tem.checkSignal; split <;> rfl

/-! ## Whole routines -/

theorem quiet_checkModel (m : Utils.Mins) (d : Option (List EReal)) (res : Utils.ResArg)
    (aniso epermH epermV mpermH mpermV : Option (List ℝ)) (xd : Option Bool) :
    Quiet fun v => Utils.checkModel m d res aniso epermH epermV mpermH mpermV xd v :=
  ⟨fun v v' => (C26_model m d res aniso epermH epermV mpermH mpermV xd v v').1,
    fun v hv => (C26_model m d res aniso epermH epermV mpermH mpermV xd v v).2 hv⟩

theorem quiet_checkFrequency (m : Utils.Mins) (freq res aniso epermH epermV mpermH mpermV : List ℝ) :
    Quiet fun v => Utils.checkFrequency m freq res aniso epermH epermV mpermH mpermV v :=
  ⟨fun v v' => (C26_frequency m freq res aniso epermH epermV mpermH mpermV v v').1,
    fun v hv => (C26_frequency m freq res aniso epermH epermV mpermH mpermV v v).2 hv⟩

/-- **C26** for `dipole`: the response, or the exception, is the same for every verbosity, and with
`verb ≤ 0` nothing is printed. -/
theorem C26_dipole (B : Model.Back) (A : Model.DipoleArgs) :
    Quiet fun v => Model.dipole B { A with verb := v } := by
  refine Quiet.bind ?_ fun EM => Quiet.congr
    (g := fun _ => pure (if A.squeeze then EM.squeeze else EM)) (fun _ => rfl) (Quiet.pure _)
  unfold Model.dipoleFull Model.dipoleWith Model.dipoleTail Model.inFreq
  dsimp only
  refine Quiet.bind (quiet_checkModel _ _ _ _ _ _ _ _ _) fun _ =>
    Quiet.bind (quiet_checkFrequency _ _ _ _ _ _ _ _) fun _ =>
    Quiet.bind (Quiet.const rfl) fun _ => Quiet.bind (Quiet.const rfl) fun _ =>
    Quiet.bind (Quiet.const rfl) fun _ =>
    Quiet.bind (Quiet.say fun _ h hc => absurd hc.1 (by omega)) fun _ =>
    Quiet.bind (Quiet.pure _) fun _ => Quiet.const ?_
  split <;> rfl

theorem checkDipole_shape {p : List (List ℝ)} {r : List ℝ × List ℝ × ℝ}
    (h : Utils.checkDipole p = .ok r) : ∃ z, p[2]? = some [z] := by
  unfold Utils.checkDipole at h
  split at h
  · rename_i x y z
    cases he : Utils.expandXY x y with
    | error e => rw [he] at h; cases h
    | ok q =>
      rw [he] at h
      change Utils.oneDepth z q = .ok r at h
      unfold Utils.oneDepth at h
      split at h
      · exact ⟨_, rfl⟩
      · cases h
  · cases h

theorem dipole_shape {B : Model.Back} {A : Model.DipoleArgs} {r : Model.NdArray}
    (h : (Model.dipole B A).val = .ok r) :
    (∃ z, A.src[2]? = some [z]) ∧ ∃ z, A.rcv[2]? = some [z] := by
  rw [Model.dipole, bind_eq_ok] at h
  obtain ⟨_, h, -⟩ := h
  rw [Model.dipoleFull, Model.dipoleWith, bind_eq_ok] at h
  obtain ⟨_, -, h⟩ := h
  rw [bind_eq_ok] at h
  obtain ⟨_, -, h⟩ := h
  unfold Model.dipoleTail at h
  dsimp only at h
  rw [bind_eq_ok] at h
  obtain ⟨_, -, h⟩ := h
  rw [bind_eq_ok] at h
  obtain ⟨_, h1, h⟩ := h
  rw [bind_eq_ok] at h
  obtain ⟨_, h2, h⟩ := h
  exact ⟨checkDipole_shape h1, checkDipole_shape h2⟩

/-- What `ip_and_q` does after its own warning. -/
noncomputable def ipqBody (B : Model.Back) (A : Model.DipoleArgs) (scale : ℝ) (v : ℤ) :
    W (Model.NdArray × Model.NdArray) := do
  let Hs ← Model.dipole B { A with xdirect := none, verb := v }
  let res ← Model.firstRes A.res
  let aniso ← Model.firstOf A.aniso
  let epermH ← Model.firstOf A.epermH
  let epermV ← Model.firstOf A.epermV
  let mpermH ← Model.firstOf A.mpermH
  let mpermV ← Model.firstOf A.mpermV
  let Hp ← Model.dipole B { A with ab := Model.coplanar A.ab, depth := some [], res := res, aniso := aniso,
                                   epermH := epermH, epermV := epermV, mpermH := mpermH, mpermV := mpermV,
                                   xdirect := some true, verb := v }
  let H := fun k => B.o.div (scale * Hs.data k) (Hp.data k)
  pure (⟨Hs.shape, fun k => ((H k).re : ℂ)⟩, ⟨Hs.shape, fun k => ((H k).im : ℂ)⟩)

theorem quiet_ipqBody (B : Model.Back) (A : Model.DipoleArgs) (scale : ℝ) :
    Quiet fun v => ipqBody B A scale v := by
  have hf : ∀ o, (Model.firstOf o).out = [] := by
    intro o
    cases o with
    | none => rfl
    | some l => cases l <;> rfl
  have hr : (Model.firstRes A.res).out = [] := by
    cases A.res with
    | array l => cases l <;> rfl
    | dict r e => rfl
  exact Quiet.bind (C26_dipole B { A with xdirect := none }) fun _ =>
    Quiet.bind (Quiet.const hr) fun res => Quiet.bind (Quiet.const (hf _)) fun aniso =>
    Quiet.bind (Quiet.const (hf _)) fun eH => Quiet.bind (Quiet.const (hf _)) fun eV =>
    Quiet.bind (Quiet.const (hf _)) fun mH => Quiet.bind (Quiet.const (hf _)) fun mV =>
    Quiet.bind (C26_dipole B { A with ab := Model.coplanar A.ab, depth := some [], res := res, aniso := aniso,
                                      epermH := eH, epermV := eV, mpermH := mH, mpermV := mV,
                                      xdirect := some true }) fun _ => Quiet.pure _

theorem ipq_eq (B : Model.Back) (A : Model.DipoleArgs) (signal : Bool) (scale : ℝ) (v : ℤ) :
    Model.ipAndQ B { A with verb := v } signal scale =
      (Model.ofExcept (Utils.toInt A.ab) >>= fun n =>
        if n ∉ Model.ipqCodes then W.raise .valueError
        else if signal then W.raise .valueError
        else (if v > 0 then Model.depthsClose A.src A.rcv else pure true) >>= fun cl =>
          W.say (v > 0 ∧ cl = false) "* WARNING :: This function is experimental." >>= fun _ =>
          ipqBody B A scale v) := rfl

/-- **C26** for `ip_and_q`: if the call succeeds for one verbosity it succeeds for every verbosity, with
the same values; with `verb ≤ 0` nothing is printed. -/
theorem C26_ipq (B : Model.Back) (A : Model.DipoleArgs) (signal : Bool) (scale : ℝ) :
    (∀ v v' r, (Model.ipAndQ B { A with verb := v } signal scale).val = .ok r →
      (Model.ipAndQ B { A with verb := v' } signal scale).val = .ok r) ∧
    ∀ v ≤ 0, (Model.ipAndQ B { A with verb := v } signal scale).out = [] := by
  refine ⟨fun v v' r h => ?_, fun v hv => ?_⟩
  · rw [ipq_eq, bind_eq_ok] at h ⊢
    obtain ⟨n, hn, h⟩ := h
    refine ⟨n, hn, ?_⟩
    by_cases h1 : n ∉ Model.ipqCodes
    · rw [if_pos h1] at h; cases h
    rw [if_neg h1] at h ⊢
    cases signal with
    | true => cases h
    | false =>
      simp only [Bool.false_eq_true, if_false] at h ⊢
      rw [bind_eq_ok] at h
      obtain ⟨_, -, h⟩ := h
      rw [bind_eq_ok] at h
      obtain ⟨_, -, h⟩ := h
      rw [(quiet_ipqBody B A scale).1 v v'] at h
      obtain ⟨⟨z, hz⟩, z', hz'⟩ := dipole_shape (bind_eq_ok.1 h).choose_spec.1
      have hd : ∃ c, (if v' > 0 then Model.depthsClose A.src A.rcv else pure true : W Bool).val = .ok c := by
        split_ifs
        · have e1 : A.src[2]? = some [z] := hz
          have e2 : A.rcv[2]? = some [z'] := hz'
          unfold Model.depthsClose
          rw [e1, e2]
          exact ⟨_, rfl⟩
        · exact ⟨_, rfl⟩
      obtain ⟨c, hc⟩ := hd
      rw [bind_ok hc]
      exact h
  · rw [ipq_eq]
    refine bind_silent rfl fun n => ?_
    by_cases h1 : n ∉ Model.ipqCodes
    · rw [if_pos h1]; rfl
    rw [if_neg h1]
    cases signal with
    | true => rfl
    | false =>
      simp only [Bool.false_eq_true, if_false, if_neg (show ¬ v > 0 by omega)]
      exact bind_silent rfl fun _ => bind_silent (by rw [say_out, if_neg (by omega)]) fun _ =>
        (quiet_ipqBody B A scale).2 v hv

/-! ## Keyword arguments -/

/-- **C26** for `get_kwargs`: replacing the verbosity in the keyword arguments changes nothing but the
verbosity that is returned; with `verb ≤ 0` nothing is printed. -/
theorem C26_kwargs (wanted : List (String × Val)) (hd : (wanted.map Prod.fst).Nodup)
    (hv : "verb" ∈ wanted.map Prod.fst) (kw : Dict) :
    ∃ r : Except PyErr (List (String × Val)), ∀ x : ℝ,
      (getKwargs wanted (("verb", .num x) :: kw)).val =
        r.map (fun l => l.map fun p => if p.1 = "verb" then .num x else p.2) ∧
      (x ≤ 0 → (getKwargs wanted (("verb", .num x) :: kw)).out = []) := by
  set rest := kw.filter fun p => decide (p.1 ∉ wanted.map Prod.fst) with hrest
  have hf : ∀ x : ℝ, ((("verb", Val.num x) :: kw).filter fun p => decide (p.1 ∉ wanted.map Prod.fst)) =
      rest := by
    intro x
    rw [List.filter_cons_of_neg (by simpa using hv)]
  have hlook : ∃ d, wanted.lookup "verb" = some d := by
    cases h : wanted.lookup "verb" with
    | some d => exact ⟨d, rfl⟩
    | none =>
      rw [List.lookup_eq_none_iff] at h
      obtain ⟨p, hp, hp'⟩ := List.mem_map.1 hv
      exact absurd (h p hp) (by simp [hp'])
  obtain ⟨d, hd'⟩ := hlook
  have hval : ∀ x : ℝ, wanted.map (givenOr (("verb", .num x) :: kw)) =
      (wanted.map fun p => (p.1, givenOr kw p)).map
        fun p => if p.1 = "verb" then Val.num x else p.2 := by
    intro x
    rw [List.map_map]
    refine List.map_congr_left fun p _ => ?_
    simp only [givenOr, Function.comp, List.lookup_cons]
    by_cases hp : p.1 = "verb"
    · simp [hp]
    · rw [beq_eq_false_iff_ne.2 hp, if_neg hp]
  have hverb : ∀ x : ℝ, givenOr (("verb", .num x) :: kw) ("verb", d) = .num x := by
    intro x; simp [givenOr]
  by_cases h1 : rest = []
  · refine ⟨.ok (wanted.map fun p => (p.1, givenOr kw p)), fun x => ?_⟩
    rw [getKwargs, kwLoop_eq wanted hd]
    simp only [hf, h1, if_true, pure_val, pure_out, hval]
    exact ⟨rfl, fun _ => trivial⟩
  · by_cases h2 : ∀ p ∈ rest, p.1 ∈ knownKeys
    · refine ⟨.ok (wanted.map fun p => (p.1, givenOr kw p)), fun x => ?_⟩
      rw [getKwargs, kwLoop_eq wanted hd]
      simp only [hf, if_neg h1, hval, if_neg (not_not.2 h2), hd', hverb]
      refine ⟨rfl, fun hx => ?_⟩
      have hb : (positive (.num x)).val = .ok false := by
        change Except.ok (decide (x > 0)) = _
        rw [decide_eq_false (not_lt.2 hx)]
      rw [bind_out, hb]
      rfl
    · refine ⟨.error .typeError, fun x => ?_⟩
      rw [getKwargs, kwLoop_eq wanted hd]
      simp only [hf, if_neg h1, if_pos h2]
      exact ⟨rfl, fun _ => rfl⟩

/-! ## Non-vacuity -/

/-- With `verb = 1` and a resistivity below the minimum there is a message, so the silence for
`verb ≤ 0` is not for lack of messages; the value is the same. -/
example : (Verb.checkTimeOnly Utils.Mins.init [0, 1] 0 1).out ≠ [] ∧
    (Verb.checkTimeOnly Utils.Mins.init [0, 1] 0 0).out = [] ∧
    (Verb.checkTimeOnly Utils.Mins.init [0, 1] 0 1).val =
      (Verb.checkTimeOnly Utils.Mins.init [0, 1] 0 0).val := by
  have h := (C26_checks Utils.Mins.init (.int 11) none "dlf" 0 [0, 1] 0).2.2.2
  refine ⟨?_, h.2 0 le_rfl, h.1 1 0⟩
  have hw : (Utils.checkMin [0, 1] (some Utils.Mins.init.minTime) "Times" 1).out ≠ [] := by
    have hc : (1 : ℤ) > 0 ∧ ∃ x ∈ ([0, 1] : List ℝ), x < Utils.Mins.init.minTime :=
      ⟨by norm_num, 0, by simp, by norm_num [Utils.Mins.init]⟩
    unfold Utils.checkMin
    dsimp only
    rw [bind_out, say_out, if_pos hc]
    simp
  unfold Verb.checkTimeOnly
  rw [bind_out]
  intro hcon
  exact hw (List.append_eq_nil_iff.1 hcon).1

/-- A filter with a name satisfies the conditions of `C26_hankel_partial`; with `verb = 3` there is
information, the value is that of `verb = 0`. -/
example (C : Conv) (F : Transform.Filter) :
    (Verb.checkHankel C (fun _ => none) .none "dlf"
      [("dlf", .filter ["base", "j0", "j1", "factor", "name"] F)] 3).val =
    (Verb.checkHankel C (fun _ => none) .none "dlf"
      [("dlf", .filter ["base", "j0", "j1", "factor", "name"] F)] 0).val :=
  (C26_hankel_partial C (fun _ => none) .none "dlf"
    [("dlf", .filter ["base", "j0", "j1", "factor", "name"] F)] (by simp)
    (by simp [popVal, Named]) ⟨0, rfl⟩).1 3 0

end Verif.Props
