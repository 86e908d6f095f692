/-!
# Common vocabulary of the model

Outcomes, bytes, value types, values, tokens and documents.
-/

namespace Srl

/-- A byte string. -/
abbrev Bytes := List UInt8

/-- Outcome of a C++ function:
* `ok`   – it returns;
* `err`  – it throws `Srl::Exception`;
* `ub`   – it executes undefined behaviour;
* `fuel` – the step budget given to a recursive model function was used up
  (an artefact of the model; shown to be unreachable where termination is claimed). -/
inductive Res (α : Type) where
  | ok (a : α)
  | err
  | ub
  | fuel
  deriving DecidableEq, Repr

namespace Res

@[inline] def bind {α β : Type} (x : Res α) (f : α → Res β) : Res β :=
  match x with
  | ok a => f a
  | err => err
  | ub => ub
  | fuel => fuel

instance : Monad Res where
  pure := ok
  bind := bind

@[simp] theorem pure_eq {α : Type} (a : α) : (pure a : Res α) = ok a := rfl
@[simp] theorem ok_bind {α β : Type} (a : α) (f : α → Res β) : (ok a >>= f) = f a := rfl
@[simp] theorem err_bind {α β : Type} (f : α → Res β) : ((err : Res α) >>= f) = err := rfl
@[simp] theorem ub_bind {α β : Type} (f : α → Res β) : ((ub : Res α) >>= f) = ub := rfl
@[simp] theorem fuel_bind {α β : Type} (f : α → Res β) : ((fuel : Res α) >>= f) = fuel := rfl

theorem bind_eq_ok {α β : Type} {x : Res α} {f : α → Res β} {b : β} :
    (x >>= f) = ok b ↔ ∃ a, x = ok a ∧ f a = ok b := by
  cases x <;> simp

theorem bind_eq_ub {α β : Type} {x : Res α} {f : α → Res β} :
    (x >>= f) = ub ↔ x = ub ∨ ∃ a, x = ok a ∧ f a = ub := by
  cases x <;> simp

theorem bind_eq_fuel {α β : Type} {x : Res α} {f : α → Res β} :
    (x >>= f) = fuel ↔ x = fuel ∨ ∃ a, x = ok a ∧ f a = fuel := by
  cases x <;> simp

theorem bind_eq_err {α β : Type} {x : Res α} {f : α → Res β} :
    (x >>= f) = err ↔ x = err ∨ ∃ a, x = ok a ∧ f a = err := by
  cases x <;> simp

/-- Tests that can be evaluated for results without decidable equality. -/
def isUb {α : Type} : Res α → Bool
  | ub => true
  | _ => false

def isErr {α : Type} : Res α → Bool
  | err => true
  | _ => false

theorem eq_ub {α : Type} {x : Res α} (h : x.isUb = true) : x = ub := by
  cases x <;> first | rfl | cases h

theorem eq_err {α : Type} {x : Res α} (h : x.isErr = true) : x = err := by
  cases x <;> first | rfl | cases h

end Res

/-- ASCII text as bytes (used for literals in the model and in examples). -/
def str (s : String) : Bytes := s.toList.map (fun c => UInt8.ofNat c.toNat)

/-- Integer types of `Srl::Type` (include/Srl/Type.h): width in bits and signedness. -/
inductive IntTy where
  | i8 | u8 | i16 | u16 | i32 | u32 | i64 | u64
  deriving DecidableEq, Repr

namespace IntTy

/-- `TpTools::is_signed` on integers (include/Srl/TpTools.h:55). -/
def signed : IntTy → Bool
  | i8 | i16 | i32 | i64 => true
  | _ => false

/-- width in bits (the `size` column of the type table in include/Srl/Type.h, times 8) -/
def bits : IntTy → Nat
  | i8 | u8 => 8
  | i16 | u16 => 16
  | i32 | u32 => 32
  | i64 | u64 => 64

/-- `numeric_limits<T>::lowest()` -/
def lo (t : IntTy) : Int := if t.signed then -(2 ^ (t.bits - 1) : Nat) else 0

/-- `numeric_limits<T>::max()` -/
def hi (t : IntTy) : Int :=
  if t.signed then (2 ^ (t.bits - 1) : Nat) - 1 else (2 ^ t.bits : Nat) - 1

end IntTy

/-- The two kinds of scopes. -/
inductive ScopeTy where
  | object | array
  deriving DecidableEq, Repr

/-- A value as held by `Srl::Value` for types below `Object` (include/Srl/Value.h, Type.h).
Integers are kept as mathematical integers next to their type (`block.i64` / `block.ui64`),
floating point numbers as bit patterns, strings as UTF-8 bytes. -/
inductive Val where
  | bool (b : Bool)
  | int (t : IntTy) (v : Int)
  | fp32 (bits : UInt32)
  | fp64 (bits : UInt64)
  | null
  | str (s : Bytes)
  | bin (s : Bytes)
  deriving DecidableEq, Repr

/-- What `Parser::read` returns and `Parser::write` takes besides the name. -/
inductive Tok where
  | val (v : Val)
  | scope (t : ScopeTy)
  | scopeEnd
  deriving DecidableEq, Repr

/-- One call of `Parser::write` or result of `Parser::read`. -/
structure Event where
  name : Bytes
  tok : Tok
  deriving DecidableEq, Repr

/-- A document: an ordered tree of named values and named scopes. -/
inductive Item where
  | val (name : Bytes) (v : Val)
  | scope (name : Bytes) (t : ScopeTy) (kids : List Item)
  deriving Repr

mutual
/-- The token sequence of a document. -/
def Item.events : Item → List Event
  | .val n v => [⟨n, .val v⟩]
  | .scope n t kids => ⟨n, .scope t⟩ :: (Item.eventsL kids ++ [⟨[], .scopeEnd⟩])
/-- Token sequence of consecutive items. -/
def Item.eventsL : List Item → List Event
  | [] => []
  | i :: is => i.events ++ Item.eventsL is
end

end Srl
