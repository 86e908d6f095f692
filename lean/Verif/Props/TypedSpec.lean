import Verif.Model.Typed
import Verif.Lemmas.Doc

/-! # Documents and types for which restoring while reading is claimed -/

namespace Srl

/-- The scopes among items: name, type, content. -/
def scopesOf : List Item → List (Bytes × ScopeTy × List Item)
  | [] => []
  | .val _ _ :: is => scopesOf is
  | .scope n t kids :: is => (n, t, kids) :: scopesOf is

/-- The values among items. -/
def valuesOf : List Item → List (Bytes × Val)
  | [] => []
  | .val n v :: is => (n, v) :: valuesOf is
  | .scope _ _ _ :: is => valuesOf is

/-- Names of the scopes (`true`) or of the values (`false`) among items. -/
def kindNames (scope : Bool) (items : List Item) : List Bytes :=
  if scope then (scopesOf items).map (·.1) else (valuesOf items).map (·.1)

namespace Typed

/-- Name of an item. -/
def itemName : Item → Bytes
  | .val n _ => n
  | .scope n _ _ => n

/-- Whether an item is a scope. -/
def itemScope : Item → Bool
  | .val _ _ => false
  | .scope _ _ _ => true

namespace Fields

/-- Names of the fields. -/
def names : Fields → List Bytes
  | nil => []
  | cons name _ _ rest => name :: names rest

/-- All fields have names, all of them different: classes and pairs. -/
def Named (fs : Fields) : Prop := [] ∉ fs.names ∧ fs.names.Nodup

/-- No field has a name and none is optional: tuples. -/
def Positional : Fields → Prop
  | nil => True
  | cons name opt _ rest => name = [] ∧ opt = false ∧ Positional rest

end Fields

mutual
/-- Keys of ordered containers: integers, truth values, strings, and sequences, pairs and tuples of keys. -/
def Ty.Key : Ty → Prop
  | .bool => True
  | .int _ => True
  | .str => True
  | .vec e => e.Key
  | .record t strict fs => (t = .array ∨ strict = true) ∧ fs.Key
  | _ => False
def Fields.Key : Fields → Prop
  | .nil => True
  | .cons _ _ ty rest => ty.Key ∧ rest.Key
end

/-- The sequence of the elements of a set of keys, of a map from keys to other objects, or the entries of a table. -/
def Ty.Elems (b : Order) (c : Ty) : Prop :=
  if b.byKey then (∃ k v, k.Key ∧
    c = .vec (.record .object false (.cons (Srl.str "key") false k (.cons (Srl.str "value") false v .nil)))) ∨
    (b.multi = false ∧ ∃ v, c = .named v)
  else ∃ k, k.Key ∧ c = .vec k

mutual
/-- Order of keys: `false` before `true`, integers by size, strings by their bytes, and the lexicographic order. -/
def Less : Obj → Obj → Prop
  | .bool a, .bool b => a = false ∧ b = true
  | .int a, .int b => a < b
  | .str a, .str b => LessBytes a b
  | .many a, .many b => LessL a b
  | _, _ => False
def LessL : List Obj → List Obj → Prop
  | [], _ :: _ => True
  | a :: as, b :: bs => Less a b ∨ (a = b ∧ LessL as bs)
  | _, [] => False
def LessBytes : Bytes → Bytes → Prop
  | [], _ :: _ => True
  | a :: as, b :: bs => a.toNat < b.toNat ∨ (a = b ∧ LessBytes as bs)
  | _, [] => False
end

/-- The key of an element: the first member in maps. -/
def Key (byKey : Bool) (x k : Obj) : Prop := if byKey then ∃ v, x = .many (k :: v) else x = k

/-- The keys of the elements are ascending, or not descending: what containers with an order contain. -/
def Ascending (b : Order) (o : Obj) : Prop :=
  ∀ xs, o = .many xs → xs.Pairwise fun x y => ∀ k l, Key b.byKey x k → Key b.byKey y l →
    Less k l ∨ (b.multi = true ∧ k = l)

/-- An entry of a table: a name and a value -/
def Entry (P : Obj → Prop) (x : Obj) : Prop := ∃ k y, x = .many [.str k, y] ∧ P y

mutual
/-- Classes and pairs consist of fields with different names; tuples of fields without names. Ordered containers
have keys. -/
def Ty.Ok : Ty → Prop
  | .vec e => e.Ok
  | .named e => e.Ok
  | .arr _ e => e.Ok
  | .record t strict fs => fs.Ok ∧
      ((t = .object ∧ fs.Named) ∨ (t = .array ∧ strict = false ∧ fs.Positional))
  | .ptr _ e => e.Ok
  | .sorted b c => c.Ok ∧ c.Elems b
  | .bytes => True
  | .bool => True
  | .int _ => True
  | .float => True
  | .double => True
  | .str => True
def Fields.Ok : Fields → Prop
  | .nil => True
  | .cons _ _ ty rest => ty.Ok ∧ rest.Ok
end

mutual
/-- Without `bin`, no part of the type is binary. -/
def Ty.Bin (bin : Bool) : Ty → Prop
  | .bytes => bin = true
  | .vec e => e.Bin bin
  | .named e => e.Bin bin
  | .arr _ e => e.Bin bin
  | .record _ _ fs => fs.Bin bin
  | .ptr _ e => e.Bin bin
  | .sorted _ c => c.Bin bin
  | _ => True
def Fields.Bin (bin : Bool) : Fields → Prop
  | .nil => True
  | .cons _ _ ty rest => ty.Bin bin ∧ rest.Bin bin
end

/-- The field is among the items: by number among the items of its kind, or by name, where an optional
field is also decided by an item of the other kind. -/
def Found (scope opt : Bool) (name : Bytes) (i : Nat) (items : List Item) : Prop :=
  if name = [] then i < (kindNames scope items).length
  else name ∈ kindNames scope items ∨ (opt = true ∧ name ∈ kindNames (!scope) items)

/-- Some field is not among the items. -/
def Wants : Fields → Nat → Nat → List Item → Prop
  | .nil, _, _, _ => False
  | .cons name opt ty rest, ni, vi, items =>
    ¬ Found ty.isScope opt name (if ty.isScope then ni else vi) items ∨
      Wants rest (if ty.isScope then ni + 1 else ni) (if ty.isScope then vi else vi + 1) items

/-- Each scope among the items comes before the last field of the type has been found. -/
def Covered : Ty → List Item → Prop
  | .record _ _ fs, items => ∀ pre n t kids post, items = pre ++ .scope n t kids :: post →
      Wants fs 0 0 pre
  | .arr k e, items => ∀ pre n t kids post, items = pre ++ .scope n t kids :: post →
      (kindNames e.isScope pre).length < k
  | .ptr _ e, items => Covered e items
  | .sorted _ c, items => Covered c items
  | _, _ => True

mutual
/-- Objects of a type. Of sets and maps only what their elements are; see `Ascending`. -/
def WT : Ty → Obj → Prop
  | .bool, .bool _ => True
  | .int t, .int v => t.lo ≤ v ∧ v ≤ t.hi
  | .float, .float _ => True
  | .double, .double _ => True
  | .str, .str _ => True
  | .bytes, .str _ => True
  | .vec e, .many xs => ∀ x ∈ xs, WT e x
  | .named e, .many xs => ∀ x ∈ xs, Entry (WT e) x
  | .arr k e, .many xs => xs.length = k ∧ ∀ x ∈ xs, WT e x
  | .record _ _ fs, .many xs => WTL fs xs
  | .ptr _ _, .null => True
  | .ptr _ e, .ref o => WT e o
  | .sorted _ c, o => WT c o
  | _, _ => False
def WTL : Fields → List Obj → Prop
  | .nil, [] => True
  | .cons _ _ ty rest, x :: xs => WT ty x ∧ WTL rest xs
  | _, _ => False
end

mutual
/-- What an object of a type in a program can be: integers in the range of the type, arrays with as many elements as
declared, sets and maps ascending. -/
def Proper : Ty → Obj → Prop
  | .bool, .bool _ => True
  | .int t, .int v => t.lo ≤ v ∧ v ≤ t.hi
  | .float, .float _ => True
  | .double, .double _ => True
  | .str, .str _ => True
  | .bytes, .str _ => True
  | .vec e, .many xs => ∀ x ∈ xs, Proper e x
  | .named e, .many xs => ∀ x ∈ xs, Entry (Proper e) x
  | .arr k e, .many xs => xs.length = k ∧ ∀ x ∈ xs, Proper e x
  | .record _ _ fs, .many xs => ProperL fs xs
  | .ptr _ _, .null => True
  | .ptr _ e, .ref o => Proper e o
  | .sorted b c, o => Proper c o ∧ Ascending b o
  | _, _ => False
def ProperL : Fields → List Obj → Prop
  | .nil, [] => True
  | .cons _ _ ty rest, x :: xs => Proper ty x ∧ ProperL rest xs
  | _, _ => False
end

/-- The scope that belongs to a field. -/
def pick (name : Bytes) (i : Nat) (items : List Item) : Option (Bytes × ScopeTy × List Item) :=
  if name = [] then (scopesOf items)[i]? else (scopesOf items).find? (·.1 == name)

mutual
/-- The items are a document for the type as far as restoring while reading needs it: in the scopes
that belong to parts of the type no further scope follows the last field, arrays have as many elements
as the type says, and no optional field occurs both as value and as scope. Nothing is said
about missing fields, values of wrong types, further values or the order of fields. -/
def Fits : Ty → List Item → Prop
  | .vec e, items => e.isScope = true → ∀ x ∈ scopesOf items, Fits e x.2.2 ∧ Covered e x.2.2
  | .named e, items => e.isScope = true → ∀ x ∈ scopesOf items, Fits e x.2.2 ∧ Covered e x.2.2
  | .arr k e, items => (kindNames e.isScope items).length = k ∧
      (e.isScope = true → ∀ x ∈ scopesOf items, Fits e x.2.2 ∧ Covered e x.2.2)
  | .record _ _ fs, items => FitsL fs 0 items
  | .ptr _ e, items => Fits e items
  | .sorted _ c, items => Fits c items
  | .bool, _ => True
  | .int _, _ => True
  | .float, _ => True
  | .double, _ => True
  | .str, _ => True
  | .bytes, _ => True
def FitsL : Fields → Nat → List Item → Prop
  | .nil, _, _ => True
  | .cons name opt ty rest, ni, items =>
    (ty.isScope = true → ∀ x, pick name ni items = some x → Fits ty x.2.2 ∧ Covered ty x.2.2) ∧
    (opt = true → ¬ (name ∈ kindNames true items ∧ name ∈ kindNames false items)) ∧
    FitsL rest (if ty.isScope then ni + 1 else ni) items
end

/-- The pointer, or the last of the pointers, is null. -/
def Obj.isNull : Obj → Bool
  | .null => true
  | .ref o => o.isNull
  | _ => false

/-- Not a signalling NaN -/
def Quiet (f : UInt32) : Prop := Fp.num32 f = .nan → f.toNat / 2 ^ 22 % 2 = 1

mutual
/-- Objects that can be restored once stored: objects of the type in which null pointers are raw
pointers to values, floats are not signalling NaNs, sets and maps (which are sequences) are ascending, and nothing
else is stored as if it were such a null pointer. -/
def Storable : Ty → Obj → Prop
  | .bool, .bool _ => True
  | .int t, .int v => t.lo ≤ v ∧ v ≤ t.hi
  | .float, .float f => Quiet f
  | .double, .double _ => True
  | .str, .str _ => True
  | .bytes, .str _ => True
  | .vec e, .many xs => ∀ x ∈ xs, Storable e x
  | .named e, .many xs => ∀ x ∈ xs, Entry (Storable e) x
  | .arr k e, .many xs => xs.length = k ∧ ∀ x ∈ xs, Storable e x
  | .record _ _ fs, .many xs => StorableL fs xs
  | .ptr k e, .null => k = .raw ∧ e.isScope = false
  | .ptr k e, .ref o => Storable e o ∧ (k = .raw → o.isNull = false)
  | .sorted b c, o => c.isScope = true ∧ Storable c o ∧ Ascending b o
  | _, _ => False
/-- Members that are optional scopes are read into a node first, up to the limit of nesting. -/
def StorableL : Fields → List Obj → Prop
  | .nil, [] => True
  | .cons name opt ty rest, x :: xs => Storable ty x ∧
      (opt = true → ty.isScope = true → (toItem name ty x).depth ≤ maxDepth + 1) ∧ StorableL rest xs
  | _, _ => False
end

end Typed
end Srl
