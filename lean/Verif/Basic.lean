/-!
# Common definitions

`Byte` is one `char`/`unsigned char` of the program.  `Out` is the result of running a modelled function:
a value, undefined behaviour (with a reason), or "out of fuel" (the run needs more steps than were allowed;
this is how a non-terminating run shows up in the model).
-/

namespace Verif

/-- `char`/`uint8_t` of the code (e.g. peglib.h 88-222). -/
abbrev Byte := UInt8

/-- Model only (stands for the outcome of any function of peglib.h): Result of a run of modelled code.  Undefined behaviour is a separate outcome. -/
inductive Out (α : Type u) where
  | ok (a : α)
  | ub (why : String)
  | oof
  deriving Repr, DecidableEq

namespace Out

variable {α : Type u} {β : Type v}

def bind (x : Out α) (f : α → Out β) : Out β :=
  match x with
  | ok a => f a
  | ub w => ub w
  | oof => oof

instance : Monad Out where
  pure := ok
  bind := bind

@[simp] theorem ok_bind (a : α) (f : α → Out β) : (ok a).bind f = f a := rfl
@[simp] theorem ub_bind (w : String) (f : α → Out β) : (ub w : Out α).bind f = ub w := rfl
@[simp] theorem oof_bind (f : α → Out β) : (oof : Out α).bind f = oof := rfl

theorem bind_eq_ok {x : Out α} {f : α → Out β} {b : β} :
    x.bind f = ok b ↔ ∃ a, x = ok a ∧ f a = ok b := by
  cases x <;> simp

theorem bind_ne_oof {x : Out α} {f : α → Out β} (h : x.bind f ≠ oof) : x ≠ oof := by
  intro hx; subst hx; exact h rfl

/-- Information order: `oof` is below everything. -/
def Le (x y : Out α) : Prop := x = oof ∨ x = y

theorem Le.refl (x : Out α) : Le x x := Or.inr rfl

theorem Le.oof (x : Out α) : Le .oof x := Or.inl rfl

theorem Le.trans {x y z : Out α} (h : Le x y) (h' : Le y z) : Le x z := by
  rcases h with h | h
  · exact Or.inl h
  · subst h; exact h'

theorem Le.bind {x y : Out α} {f g : α → Out β} (h : Le x y) (hf : ∀ a, Le (f a) (g a)) :
    Le (x.bind f) (y.bind g) := by
  rcases h with h | h
  · subst h; exact Or.inl rfl
  · subst h
    cases x with
    | ok a => exact hf a
    | ub w => exact Or.inr rfl
    | oof => exact Or.inl rfl

theorem Le.eq_ok {x y : Out α} {a : α} (h : Le x y) (hx : x = ok a) : y = ok a := by
  rcases h with h | h
  · rw [h] at hx; cases hx
  · rw [← h, hx]

end Out
end Verif
