import Verif.Model.Shared
import Verif.Props.TypedSpec

/-! # Object graphs: what storing and restoring shared pointers is claimed for -/

namespace Srl.Shared
open Typed

namespace GFields

/-- Names of the members. -/
def names : GFields → List Bytes
  | nil => []
  | cons name _ rest => name :: names rest

end GFields

mutual
/-- Members have different, non-empty names; elements of sequences are scopes. -/
def GTy.Ok : GTy → Prop
  | .plain ty => ty.Ok
  | .vec e => e.isScope = true ∧ e.Ok
  | .record fs => [] ∉ fs.names ∧ fs.names.Nodup ∧ fs.Ok
  | .shared _ _ => True
def GFields.Ok : GFields → Prop
  | .nil => True
  | .cons _ ty rest => ty.Ok ∧ rest.Ok
end

mutual
/-- Objects of a type, without null pointers among the shared pointers. -/
def Storable : GTy → Obj → Prop
  | .plain ty, o => Typed.Storable ty o
  | .vec e, o => ∃ xs, o = .many xs ∧ ∀ x ∈ xs, Storable e x
  | .record fs, o => ∃ xs, o = .many xs ∧ StorableL fs xs
  | .shared _ _, o => ∃ a, o = addr a
def StorableL : GFields → List Obj → Prop
  | .nil, xs => xs = []
  | .cons _ ty rest, xs => ∃ y ys, xs = y :: ys ∧ Storable ty y ∧ StorableL rest ys
end

mutual
/-- Objects of a type, as far as restoring into them needs it. -/
def WT : GTy → Obj → Prop
  | .plain ty, o => Typed.WT ty o
  | .vec _, _ => True
  | .record fs, o => ∃ xs, o = .many xs ∧ WTL fs xs
  | .shared _ _, _ => True
def WTL : GFields → List Obj → Prop
  | .nil, _ => True
  | .cons _ ty rest, xs => ∃ y ys, xs = y :: ys ∧ WT ty y ∧ WTL rest ys
end

mutual
/-- The shared pointers of an object: class and address. -/
def refs : GTy → Obj → List (Nat × Nat)
  | .vec e, .many xs => xs.flatMap (refs e)
  | .record fs, .many xs => refsL fs xs
  | .shared _ c, .ref (.int (.ofNat a)) => [(c, a)]
  | _, _ => []
def refsL : GFields → List Obj → List (Nat × Nat)
  | .cons _ ty rest, x :: xs => refs ty x ++ refsL rest xs
  | _, _ => []
end

mutual
/-- The object with each shared pointer to `a` replaced by one to `m a`. -/
def relabel (m : Nat → Nat) : GTy → Obj → Obj
  | .vec e, .many xs => .many (xs.map (relabel m e))
  | .record fs, .many xs => .many (relabelL m fs xs)
  | .shared _ _, .ref (.int (.ofNat a)) => addr (m a)
  | _, o => o
def relabelL (m : Nat → Nat) : GFields → List Obj → List Obj
  | .cons _ ty rest, x :: xs => relabel m ty x :: relabelL m rest xs
  | _, xs => xs
end

/-- The object at address `a` is referred to as an object of its class only. -/
def PtrsOk (G : Graph) (dom : List Nat) (rs : List (Nat × Nat)) : Prop :=
  ∀ r ∈ rs, r.2 ∈ dom ∧ G.cls r.2 = r.1

/-- `dom` are the addresses of the objects in memory; all of them are objects of their class, and
pointers lead to objects of the right class. -/
structure Graph.Ok (C : Nat → GTy) (G : Graph) (dom : List Nat) : Prop where
  types : ∀ c, (C c).Ok
  objs : ∀ a ∈ dom, Storable (C (G.cls a)) (G.obj a)
  ptrs : ∀ a ∈ dom, PtrsOk G dom (refs (C (G.cls a)) (G.obj a))
  count : dom.length < 2 ^ 64

/-- No cycles: there is an order of the objects in which pointers lead downwards. -/
def Graph.Acyclic (C : Nat → GTy) (G : Graph) : Prop :=
  ∃ rank : Nat → Nat, ∀ a, ∀ r ∈ refs (C (G.cls a)) (G.obj a), rank r.2 < rank a

/-- The addresses that shared pointers lead to, starting from an object. -/
inductive Reach (C : Nat → GTy) (G : Graph) (ty : GTy) (o : Obj) : Nat → Prop
  | root {c a} : (c, a) ∈ refs ty o → Reach C G ty o a
  | step {b c a} : Reach C G ty o b → (c, a) ∈ refs (C (G.cls b)) (G.obj b) → Reach C G ty o a

/-- `y` with the objects `heap` is a copy of `o` with the objects it reaches: `m` gives the address of
the copy of each object, different objects have different copies, every shared pointer leads to the copy
of the object the original leads to, and nothing else was created. -/
def CopyBy (m : Nat → Nat) (C : Nat → GTy) (G : Graph) (ty : GTy) (o y : Obj)
    (heap : List (Nat × Obj)) : Prop :=
  (∀ a b, Reach C G ty o a → Reach C G ty o b → m a = m b → a = b) ∧
  y = relabel m ty o ∧
  (∀ a, Reach C G ty o a →
    heap[m a]? = some (G.cls a, relabel m (C (G.cls a)) (G.obj a))) ∧
  (∀ x, x < heap.length → ∃ a, Reach C G ty o a ∧ m a = x)

/-- Some addresses make it a copy. -/
def Copy (C : Nat → GTy) (G : Graph) (ty : GTy) (o y : Obj) (heap : List (Nat × Obj)) : Prop :=
  ∃ m : Nat → Nat, CopyBy m C G ty o y heap

/-! ## Weak pointers -/

mutual
/-- The addresses in the shared pointers of an object that are not weak. -/
def strong : GTy → Obj → List Nat
  | .vec e, .many xs => xs.flatMap (strong e)
  | .record fs, .many xs => strongL fs xs
  | .shared false _, .ref (.int (.ofNat a)) => [a]
  | _, _ => []
def strongL : GFields → List Obj → List Nat
  | .cons _ ty rest, x :: xs => strong ty x ++ strongL rest xs
  | _, _ => []
end

mutual
/-- The addresses in the weak pointers of an object. -/
def weak : GTy → Obj → List Nat
  | .vec e, .many xs => xs.flatMap (weak e)
  | .record fs, .many xs => weakL fs xs
  | .shared true _, .ref (.int (.ofNat a)) => [a]
  | _, _ => []
def weakL : GFields → List Obj → List Nat
  | .cons _ ty rest, x :: xs => weak ty x ++ weakL rest xs
  | _, _ => []
end

/-- What an object owns: what shared pointers lead to that are not weak, starting from it. -/
inductive Owns (C : Nat → GTy) (G : Graph) (ty : GTy) (o : Obj) : Nat → Prop
  | root {a} : a ∈ strong ty o → Owns C G ty o a
  | step {b a} : Owns C G ty o b → a ∈ strong (C (G.cls b)) (G.obj b) → Owns C G ty o a

/-- The memory that holds the restored objects. -/
def graphOf (heap : List (Nat × Obj)) : Graph where
  cls x := (heap[x]?.getD (0, .null)).1
  obj x := (heap[x]?.getD (0, .null)).2

end Srl.Shared
