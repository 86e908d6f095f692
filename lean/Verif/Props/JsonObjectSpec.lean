import Verif.Props.JsonSpec
import Verif.Props.TypedSpec
import Verif.Props.TypedProper
import Verif.Props.Base64
import Verif.Props.FpUnwrap

/-! # What JSON says about an object (C80)

A specification in terms of JSON values and types of C++ only. -/

namespace Srl.Typed
open Rfc8259

/-- `R` holds of the elements of two lists in turn. -/
inductive Pairwise2 {α β : Type} (R : α → β → Prop) : List α → List β → Prop
  | nil : Pairwise2 R [] []
  | cons (x : α) (y : β) (xs : List α) (ys : List β) : R x y → Pairwise2 R xs ys → Pairwise2 R (x :: xs) (y :: ys)

/-- The number with sign -/
def signed (neg : Bool) (v : ℚ) : ℚ := if neg then -v else v

/-- A double nearest to a number; the sign of zero is left open. -/
def DoubleFor (neg : Bool) (v : ℚ) (d : UInt64) : Prop :=
  ∃ s n, Dec.Nearest v n ∧ d = Fp.join64 s n ∧ (s = neg ∨ v = 0)

/-- A float nearest to a number that is not beyond the greatest float, or to a double nearest to it -/
def FloatFor (neg : Bool) (v : ℚ) (f : UInt32) : Prop :=
  v ≤ (Fp.fltMax : ℚ) ∧ ∃ x : ℤ, Props.NearestFloat x f ∧ ((x : ℚ) = signed neg v * 2 ^ 1074 ∨
    ∃ n, Dec.Nearest v n ∧ x = if neg then -(Fp.mag 52 n : ℤ) else Fp.mag 52 n)

mutual
/-- What a value of JSON says about an object of a type that was `old` before: optional members without a member in
the JSON object stay, elements of sequences and targets of pointers are new objects. Objects may have further
members. Names are not repeated. -/
def ObjFor : Ty → Obj → Obj → Json → Prop
  | .bool, _, o, j => ∃ b, o = .bool b ∧ j = .bool b
  | .int t, _, o, j => ∃ k neg v, o = .int k ∧ j = .num neg v ∧ (k : ℚ) = signed neg v ∧ t.lo ≤ k ∧ k ≤ t.hi
  | .float, _, o, j => ∃ f neg v, o = .float f ∧ j = .num neg v ∧ FloatFor neg v f
  | .double, _, o, j => ∃ d neg v, o = .double d ∧ j = .num neg v ∧ DoubleFor neg v d
  | .str, _, o, j => ∃ s, o = .str s ∧ j = .str s
  | .bytes, _, o, j => ∃ s, o = .str s ∧ j = .str (Props.b64Spec s)
  | .vec e, _, o, j => ∃ xs js, o = .many xs ∧ j = .arr js ∧ Pairwise2 (fun x y => ObjFor e (dflt e) x y) xs js
  | .arr k e, old, o, j => ∃ os xs js, old = .many os ∧ o = .many xs ∧ j = .arr js ∧ js.length = k ∧
      xs.length = k ∧ os.length = k ∧ Pairwise2 (fun p y => ObjFor e p.1 p.2 y) (os.zip xs) js
  | .named e, _, o, j => ∃ xs ms, o = .many xs ∧ j = .obj ms ∧
      Pairwise2 (fun x m => ∃ y, x = .many [.str m.1, y] ∧ ObjFor e (dflt e) y m.2) xs ms
  | .record .object _ fs, old, o, j => ∃ os xs ms, old = .many os ∧ o = .many xs ∧ j = .obj ms ∧
      (ms.map (·.1)).Nodup ∧ MembersFor fs os xs ms
  | .record .array _ fs, old, o, j => ∃ os xs js, old = .many os ∧ o = .many xs ∧ j = .arr js ∧ TupleFor fs os xs js
  | .ptr k e, _, o, j => (k = .raw ∧ e.isScope = false ∧ o = .null ∧ j = .null) ∨
      ∃ x, o = .ref x ∧ (k = .raw → j ≠ .null) ∧ ObjFor e (dflt e) x j
  | .sorted b c, _, o, j => ∃ xs ys, ObjFor c (.many []) (.many xs) j ∧ o = .many ys ∧ Ascending b o ∧ Props.KeptOf b ys xs
/-- Members, found by their names -/
def MembersFor : Fields → List Obj → List Obj → List (Bytes × Json) → Prop
  | .nil, os, xs, _ => os = [] ∧ xs = []
  | .cons name opt ty rest, os, xs, ms => ∃ o os' x xs', os = o :: os' ∧ xs = x :: xs' ∧
      ((∃ j, (name, j) ∈ ms ∧ ObjFor ty o x j) ∨ (opt = true ∧ name ∉ ms.map (·.1) ∧ x = o)) ∧
      MembersFor rest os' xs' ms
/-- Members of a tuple, one after the other -/
def TupleFor : Fields → List Obj → List Obj → List Json → Prop
  | .nil, os, xs, js => os = [] ∧ xs = [] ∧ js = []
  | .cons _ _ ty rest, os, xs, js => ∃ o os' x xs' j js', os = o :: os' ∧ xs = x :: xs' ∧ js = j :: js' ∧
      ObjFor ty o x j ∧ TupleFor rest os' xs' js'
end

mutual
/-- The value has no arrays and objects where the type has no place for them (at any level). -/
def Known : Ty → Json → Prop
  | .vec e, j => ∀ js, j = .arr js → ∀ x ∈ js, Known e x
  | .arr _ e, j => ∀ js, j = .arr js → ∀ x ∈ js, Known e x
  | .named e, j => ∀ ms, j = .obj ms → ∀ x ∈ ms, Known e x.2
  | .record .object _ fs, j => ∀ ms, j = .obj ms → ∀ x ∈ ms, x.2.isScope = true → KnownIn fs x.1 x.2
  | .record .array _ fs, j => ∀ js, j = .arr js → KnownL fs js
  | .ptr _ e, j => Known e j
  | .sorted _ c, j => Known c j
  | _, _ => True
/-- The member of this name is a scope, and the value has only what it has a place for. -/
def KnownIn : Fields → Bytes → Json → Prop
  | .nil, _, _ => False
  | .cons name _ ty rest, n, j => (n = name ∧ ty.isScope = true ∧ Known ty j) ∨ KnownIn rest n j
/-- Likewise for the members of a tuple -/
def KnownL : Fields → List Json → Prop
  | .nil, _ => True
  | .cons _ _ ty rest, js => ∀ x xs, js = x :: xs → Known ty x ∧ KnownL rest xs
end

mutual
/-- No part of the type is a floating point number. -/
def Ty.NoFp : Ty → Prop
  | .float => False
  | .double => False
  | .vec e => e.NoFp
  | .named e => e.NoFp
  | .arr _ e => e.NoFp
  | .record _ _ fs => fs.NoFp
  | .ptr _ e => e.NoFp
  | .sorted _ c => c.NoFp
  | _ => True
def Fields.NoFp : Fields → Prop
  | .nil => True
  | .cons _ _ ty rest => ty.NoFp ∧ rest.NoFp
end

end Srl.Typed

namespace Srl.Props
open Rfc8259

/-- Numbers as in C79, and integers between `2^53` and `2^64` are written as such: doubles are not exact there. -/
def ReadableExactly (t : Bytes) (neg : Bool) (v : ℚ) : Prop :=
  Readable t neg v ∧ (v < 2 ^ 53 ∨ 2 ^ 64 ≤ v ∨ Plain t)

end Srl.Props
