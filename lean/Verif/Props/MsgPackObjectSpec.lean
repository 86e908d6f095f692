import Verif.Props.JsonObjectSpec
import Verif.Props.MsgPackSpec
import Verif.Props.TypedDocsSpec

/-! # What a document in MessagePack says about an object (C82)

A specification in terms of documents (`MsgPack.Format` gives their encodings) and types of C++ only. -/

namespace Srl.Typed

/-- The value is a number that the `double` is exactly. Integers do not stand for negative zero. -/
def DoubleIs (d : UInt64) : Val → Prop
  | .int _ k => Fp.num64 d = .fin (k * Fp.one) ∧ d ≠ 0x8000000000000000
  | .fp32 f => d = Fp.widen f
  | .fp64 x => d = x
  | _ => False

/-- The value is a number that the `float` is exactly. -/
def FloatIs (f : UInt32) : Val → Prop
  | .int _ k => Fp.num32 f = .fin (k * Fp.one) ∧ f ≠ 0x80000000
  | .fp32 x => f = x ∧ Quiet f
  | .fp64 x => x = Fp.widen f ∧ Quiet f
  | _ => False

mutual
/-- What an item of a document says about an object of a type that was `old` before: optional members without an item
stay, elements of sequences and targets of pointers are new objects. Maps may have further items. Names are not
repeated. -/
def ItemFor : Ty → Obj → Obj → Item → Prop
  | .bool, _, o, i => ∃ n b, o = .bool b ∧ i = .val n (.bool b)
  | .int t, _, o, i => ∃ n t' k, o = .int k ∧ i = .val n (.int t' k) ∧ t.lo ≤ k ∧ k ≤ t.hi
  | .float, _, o, i => ∃ n v f, o = .float f ∧ i = .val n v ∧ FloatIs f v
  | .double, _, o, i => ∃ n v d, o = .double d ∧ i = .val n v ∧ DoubleIs d v
  | .str, _, o, i => ∃ n s, o = .str s ∧ i = .val n (.str s)
  | .bytes, _, o, i => ∃ n s, o = .str s ∧ (i = .val n (.bin s) ∨ i = .val n (.str (Props.b64Spec s)))
  | .vec e, _, o, i => ∃ xs n is, o = .many xs ∧ i = .scope n .array is ∧
      Pairwise2 (fun x y => ItemFor e (dflt e) x y) xs is
  | .arr k e, old, o, i => ∃ os xs n is, old = .many os ∧ o = .many xs ∧ i = .scope n .array is ∧ is.length = k ∧
      xs.length = k ∧ os.length = k ∧ Pairwise2 (fun p y => ItemFor e p.1 p.2 y) (os.zip xs) is
  | .named e, _, o, i => ∃ xs n is, o = .many xs ∧ i = .scope n .object is ∧
      Pairwise2 (fun x y => ∃ z, x = .many [.str (itemName y), z] ∧ ItemFor e (dflt e) z y) xs is
  | .record .object _ fs, old, o, i => ∃ os xs n is, old = .many os ∧ o = .many xs ∧ i = .scope n .object is ∧
      (is.map itemName).Nodup ∧ MembersIn fs os xs is
  | .record .array _ fs, old, o, i => ∃ os xs n is, old = .many os ∧ o = .many xs ∧ i = .scope n .array is ∧
      TupleIn fs os xs is
  | .ptr k e, _, o, i => (k = .raw ∧ e.isScope = false ∧ o = .null ∧ ∃ n, i = .val n .null) ∨
      ∃ x, o = .ref x ∧ (k = .raw → ∀ n, i ≠ .val n .null) ∧ ItemFor e (dflt e) x i
  | .sorted b c, _, o, i => ∃ xs ys, ItemFor c (.many []) (.many xs) i ∧ o = .many ys ∧ Ascending b o ∧
      Props.KeptOf b ys xs
/-- Members, found by their names -/
def MembersIn : Fields → List Obj → List Obj → List Item → Prop
  | .nil, os, xs, _ => os = [] ∧ xs = []
  | .cons name opt ty rest, os, xs, is => ∃ o os' x xs', os = o :: os' ∧ xs = x :: xs' ∧
      ((∃ i ∈ is, itemName i = name ∧ ItemFor ty o x i) ∨ (opt = true ∧ name ∉ is.map itemName ∧ x = o)) ∧
      MembersIn rest os' xs' is
/-- Members of a tuple, one after the other -/
def TupleIn : Fields → List Obj → List Obj → List Item → Prop
  | .nil, os, xs, is => os = [] ∧ xs = [] ∧ is = []
  | .cons _ _ ty rest, os, xs, is => ∃ o os' x xs' i is', os = o :: os' ∧ xs = x :: xs' ∧ is = i :: is' ∧
      ItemFor ty o x i ∧ TupleIn rest os' xs' is'
end

/-- What a scope consists of -/
def kidsIn : Item → List Item
  | .val _ _ => []
  | .scope _ _ kids => kids

mutual
/-- The item has scopes only where the type has a place for them. -/
def KnownItem : Ty → Item → Prop
  | .vec e, i => ∀ y ∈ kidsIn i, KnownItem e y
  | .arr _ e, i => ∀ y ∈ kidsIn i, KnownItem e y
  | .named e, i => ∀ y ∈ kidsIn i, KnownItem e y
  | .record .object _ fs, i => ∀ y ∈ kidsIn i, itemScope y = true → KnownMember fs y
  | .record .array _ fs, i => KnownItems fs (kidsIn i)
  | .ptr _ e, i => KnownItem e i
  | .sorted _ c, i => KnownItem c i
  | .bool, _ => True
  | .int _, _ => True
  | .float, _ => True
  | .double, _ => True
  | .str, _ => True
  | .bytes, _ => True
/-- The member of this name is a scope, and the item has only what it has a place for. -/
def KnownMember : Fields → Item → Prop
  | .nil, _ => False
  | .cons name _ ty rest, i => (itemName i = name ∧ ty.isScope = true ∧ KnownItem ty i) ∨ KnownMember rest i
/-- Likewise for the members of a tuple -/
def KnownItems : Fields → List Item → Prop
  | .nil, _ => True
  | .cons _ _ ty rest, is => ∀ y ys, is = y :: ys → KnownItem ty y ∧ KnownItems rest ys
end

end Srl.Typed
