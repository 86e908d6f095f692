import Verif.Model.HTable

/-! # Registration of types (include/Srl/Registration.h, src/lib/Registration.cpp) and pointers to
registered types (include/Srl/Resolve.hpp)

A factory is a value of a type `F`: what matters is which one is called. Identifiers are UTF-8 texts; the
table keeps the pointer given to `register_type`, whose memory has to stay. The hash function of the table
(`HashSrl<String>`, String.h:52-54) is a parameter, as in the model of the table. That the factory found makes
objects of a class derived from the one asked for is not checked by the code and not expressed here. -/

namespace Srl.Registration

/-- `Registrations` (Registration.h:15-49) -/
abbrev Reg (F : Type) := HTable.Tbl Bytes F

variable {F : Type}

/-- `HTable<String, Make> table { 16 }` (Registration.h:44) -/
def Reg.new : Reg F := HTable.new 16

/-- `insert` (Registration.cpp:15-21): whether the identifier was there -/
def insert (cfg : HTable.Cfg Bytes) (r : Reg F) (id : Bytes) (make : F) : Res (Bool × Reg F) := do
  let (t, existed, _, _) ← HTable.insert cfg r id make
  .ok (existed, t)

/-- `find` (Registration.cpp:23-26) -/
def find (cfg : HTable.Cfg Bytes) (r : Reg F) (id : Bytes) : Res (Option F) := do
  let x ← HTable.get cfg r id
  .ok (x.map (·.2))

/-- A call, made by the initialisation of static objects (`TypeRegistration`, Registration.h:52-66) or by
restoring a pointer (Resolve.hpp:462). -/
inductive Call (F : Type) where
  | add (id : Bytes) (make : F)
  | create (id : Bytes)

/-- What a call gives: nothing, an object of the factory, or an exception. -/
inductive Answer (F : Type) where
  | added
  | made (f : F)
  | threw
  deriving DecidableEq

/-- `add` (Registration.h:20-28) and `create` (Registration.h:30-41) -/
def call (cfg : HTable.Cfg Bytes) (r : Reg F) : Call F → Res (Answer F × Reg F)
  | .add id make => do
    let (existed, r) ← insert cfg r id make
    .ok (if existed then .threw else .added, r)
  | .create id => do
    let m ← find cfg r id
    .ok (match m with
      | some f => .made f
      | none => .threw, r)

/-- Calls in sequence; exceptions are caught. -/
def calls (cfg : HTable.Cfg Bytes) : Reg F → List (Call F) → Res (List (Answer F) × Reg F)
  | r, [] => .ok ([], r)
  | r, c :: cs => do
    let (a, r) ← call cfg r c
    let (as, r) ← calls cfg r cs
    .ok (a :: as, r)

/-! ## Raw pointers while an object is restored -/

/-- A raw pointer: null, to an object, or to one that was deleted. -/
inductive Ptr (O : Type) where
  | null
  | live (o : O)
  | dangling

/-- Evaluating `delete p` -/
def Ptr.del {O : Type} : Ptr O → Res Unit
  | .null => .ok ()
  | .live _ => .ok ()
  | .dangling => .ub

/-- The pointer after `if(p != nullptr) delete p`: its value does not change. -/
def Ptr.gone {O : Type} : Ptr O → Ptr O
  | .null => .null
  | _ => .dangling

/-- `Switch<T*>::Paste` (Resolve.hpp:703-721): whether it threw, and the pointer left behind. `inner` is
the result of restoring the object pointed to. -/
def pasteRaw {O : Type} (p : Ptr O) (isNull : Bool) (inner : Res O) : Res (Bool × Ptr O) := do
  p.del
  let p := p.gone
  if isNull then .ok (false, .null)
  else match inner with
    | .ok o => .ok (false, .live o)
    | .err => .ok (true, p)
    | .ub => .ub
    | .fuel => .fuel

/-- `Switch<T*>::Paste` for polymorphic types (Resolve.hpp:447-465): `typeId` is the result of reading the
field with the identifier, `inner f` that of restoring an object of the factory `f`. -/
def pastePoly {O : Type} (cfg : HTable.Cfg Bytes) (r : Reg F) (p : Ptr O) (typeId : Res Bytes)
    (inner : F → Res O) : Res (Bool × Ptr O) :=
  match typeId with
  | .err => .ok (true, p)
  | .ub => .ub
  | .fuel => .fuel
  | .ok id => do
    p.del
    let p := p.gone
    let m ← find cfg r id
    match m with
    | none => .ok (true, p)
    | some f => match inner f with
      | .ok o => .ok (false, .live o)
      | .err => .ok (true, p)
      | .ub => .ub
      | .fuel => .fuel

end Srl.Registration
