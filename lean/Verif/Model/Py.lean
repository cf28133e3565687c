/-!
# Common Python notions used by the models

Exceptions are values; what is printed is recorded.  A function that may raise and may print
returns `W α`: the list of printed messages and either a value or an exception.
-/

namespace Verif.Py

/-- The Python exceptions raised by the modelled code. -/
inductive PyErr where
  | typeError
  | valueError
  | keyError
  | indexError
  | attributeError
  | unboundLocal
  deriving DecidableEq, Repr

/-- Result of a computation that prints and may raise. -/
structure W (α : Type) where
  val : Except PyErr α
  out : List String

namespace W

/-- Nothing printed, value `a`. -/
def ret {α : Type} (a : α) : W α := ⟨.ok a, []⟩

/-- Run `x`, then `f` on its value; an exception stops the computation. -/
def andThen {α β : Type} (x : W α) (f : α → W β) : W β :=
  match x.val with
  | .ok a => ⟨(f a).val, x.out ++ (f a).out⟩
  | .error e => ⟨.error e, x.out⟩

instance : Monad W where
  pure := ret
  bind := andThen

/-- `print(s)`, if `c`. -/
def say (c : Prop) [Decidable c] (s : String) : W Unit := ⟨.ok (), if c then [s] else []⟩

/-- `raise e`. -/
def raise {α : Type} (e : PyErr) : W α := ⟨.error e, []⟩

variable {α β : Type}

@[simp] theorem pure_val (a : α) : (pure a : W α).val = .ok a := rfl
@[simp] theorem pure_out (a : α) : (pure a : W α).out = [] := rfl
@[simp] theorem raise_val (e : PyErr) : (raise e : W α).val = .error e := rfl
@[simp] theorem raise_out (e : PyErr) : (raise e : W α).out = [] := rfl
@[simp] theorem say_val (c : Prop) [Decidable c] (s : String) : (say c s).val = .ok () := rfl
@[simp] theorem say_out (c : Prop) [Decidable c] (s : String) :
    (say c s).out = if c then [s] else [] := rfl

theorem bind_val (x : W α) (f : α → W β) :
    (x >>= f).val = x.val.bind fun a => (f a).val := by
  change (andThen x f).val = _
  unfold andThen Except.bind
  cases x.val <;> rfl

theorem bind_ok {x : W α} {a : α} (h : x.val = .ok a) (f : α → W β) :
    (x >>= f).val = (f a).val := by rw [bind_val, h]; rfl

theorem bind_out (x : W α) (f : α → W β) :
    (x >>= f).out = x.out ++ (match x.val with | .ok a => (f a).out | .error _ => []) := by
  change (andThen x f).out = _
  unfold andThen
  cases x.val <;> simp

theorem bind_eq_ok {x : W α} {f : α → W β} {b : β} :
    (x >>= f).val = .ok b ↔ ∃ a, x.val = .ok a ∧ (f a).val = .ok b := by
  rw [bind_val]
  cases x.val <;> simp [Except.bind]

/-- A computation that printed nothing, followed by ones that print nothing. -/
theorem bind_silent {x : W α} {f : α → W β} (hx : x.out = []) (hf : ∀ a, (f a).out = []) :
    (x >>= f).out = [] := by
  rw [bind_out, hx]
  cases x.val <;> simp [hf]

end W

end Verif.Py
