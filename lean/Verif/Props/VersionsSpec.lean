import Verif.Props.JsonObjectSpec
import Verif.Props.TypedDocsSpec

/-! # Objects stored by another version of a program (C81)

A specification in terms of types and objects of C++ only. -/

namespace Srl.Typed

/-- What is stored of an object: what its pointers point to, the elements of its sets and maps -/
inductive Means : Ty → Obj → Ty → Obj → Prop
  | same (ty : Ty) (o : Obj) : Means ty o ty o
  | ptr (k : PtrKind) (e : Ty) (o : Obj) (ty' : Ty) (o' : Obj) : Means e o ty' o' → Means (.ptr k e) (.ref o) ty' o'
  | sorted (b : Order) (c : Ty) (o : Obj) (ty' : Ty) (o' : Obj) : Means c o ty' o' → Means (.sorted b c) o ty' o'

/-- The object is stored as a sequence. -/
def Sequence (ty : Ty) (o : Obj) (e : Ty) (xs : List Obj) : Prop :=
  Means ty o (.vec e) (.many xs) ∨ ∃ k, Means ty o (.arr k e) (.many xs)

/-- The object is stored as null. -/
def Null (ty : Ty) (o : Obj) : Prop := ∃ k e, Means ty o (.ptr k e) .null

/-- The class has a member with this name, type and value. -/
inductive Member : Fields → List Obj → Bytes → Ty → Obj → Prop
  | here (name : Bytes) (opt : Bool) (ty : Ty) (rest : Fields) (x : Obj) (xs : List Obj) :
      Member (.cons name opt ty rest) (x :: xs) name ty x
  | there (name' : Bytes) (opt : Bool) (ty' : Ty) (rest : Fields) (x' : Obj) (xs : List Obj) (name : Bytes) (ty : Ty)
      (x : Obj) : Member rest xs name ty x → Member (.cons name' opt ty' rest) (x' :: xs) name ty x

mutual
/-- `ReadAs ty' old o' ty o`: what an object `o` of the type `ty` is for a program in which the type is `ty'`. Members
are those of the same names, in any order; optional members that `o` does not have stay as they are in `old`; integers
may have other types and be floating point numbers, floats doubles, sequences and arrays, pointers and what they point to are the same. -/
def ReadAs : Ty → Obj → Obj → Ty → Obj → Prop
  | .bool, _, o', ty, o => ∃ b, o' = .bool b ∧ Means ty o .bool (.bool b)
  | .int t', _, o', ty, o => ∃ k t, o' = .int k ∧ Means ty o (.int t) (.int k) ∧ t'.lo ≤ k ∧ k ≤ t'.hi
  | .float, _, o', ty, o => ∃ f, o' = .float f ∧ (Means ty o .float (.float f) ∨
      ∃ k t, Means ty o (.int t) (.int k) ∧ Fp.num32 f = .fin (k * Fp.one) ∧ f ≠ 0x80000000)
  | .double, _, o', ty, o => ∃ d, o' = .double d ∧ (Means ty o .double (.double d) ∨
      (∃ f, Means ty o .float (.float f) ∧ d = Fp.widen f) ∨
      ∃ k t, Means ty o (.int t) (.int k) ∧ Fp.num64 d = .fin (k * Fp.one) ∧ d ≠ 0x8000000000000000)
  | .str, _, o', ty, o => ∃ s, o' = .str s ∧ Means ty o .str (.str s)
  | .bytes, _, o', ty, o => ∃ s, o' = .str s ∧ Means ty o .bytes (.str s)
  | .vec e', _, o', ty, o => ∃ e xs ys, Sequence ty o e xs ∧ o' = .many ys ∧
      Pairwise2 (fun y x => ReadAs e' (dflt e') y e x) ys xs
  | .arr k e', old, o', ty, o => ∃ e xs os ys, Sequence ty o e xs ∧ old = .many os ∧ o' = .many ys ∧ xs.length = k ∧
      ys.length = k ∧ os.length = k ∧ Pairwise2 (fun p x => ReadAs e' p.1 p.2 e x) (os.zip ys) xs
  | .named e', _, o', ty, o => ∃ e xs ys, Means ty o (.named e) (.many xs) ∧ o' = .many ys ∧
      Pairwise2 (fun y x => ∃ n z w, x = .many [.str n, w] ∧ y = .many [.str n, z] ∧ ReadAs e' (dflt e') z e w) ys xs
  | .record .object _ fs', old, o', ty, o => ∃ st fs xs os ys, Means ty o (.record .object st fs) (.many xs) ∧
      old = .many os ∧ o' = .many ys ∧ MembersAs fs' os ys fs xs
  | .record .array _ fs', old, o', ty, o => ∃ st fs xs os ys, Means ty o (.record .array st fs) (.many xs) ∧
      old = .many os ∧ o' = .many ys ∧ TupleAs fs' os ys fs xs
  | .ptr k e', _, o', ty, o => (k = .raw ∧ e'.isScope = false ∧ o' = .null ∧ Null ty o) ∨
      ∃ y, o' = .ref y ∧ (k = .raw → ¬ Null ty o) ∧ ReadAs e' (dflt e') y ty o
  | .sorted b c', _, o', ty, o => ∃ xs ys, ReadAs c' (.many []) (.many xs) ty o ∧ o' = .many ys ∧ Ascending b o' ∧
      Props.KeptOf b ys xs
/-- Members by their names -/
def MembersAs : Fields → List Obj → List Obj → Fields → List Obj → Prop
  | .nil, os, ys, _, _ => os = [] ∧ ys = []
  | .cons name opt ty' rest, os, ys, fs, xs => ∃ o os' y ys', os = o :: os' ∧ ys = y :: ys' ∧
      ((∃ ty x, Member fs xs name ty x ∧ ReadAs ty' o y ty x) ∨ (opt = true ∧ name ∉ fs.names ∧ y = o)) ∧
      MembersAs rest os' ys' fs xs
/-- Members of tuples in turn -/
def TupleAs : Fields → List Obj → List Obj → Fields → List Obj → Prop
  | .nil, os, ys, fs, xs => os = [] ∧ ys = [] ∧ fs = .nil ∧ xs = []
  | .cons _ _ ty' rest, os, ys, fs, xs => ∃ o os' y ys' n opt ty fs' x xs', os = o :: os' ∧ ys = y :: ys' ∧
      fs = .cons n opt ty fs' ∧ xs = x :: xs' ∧ ReadAs ty' o y ty x ∧ TupleAs rest os' ys' fs' xs'
end

mutual
/-- The classes in `ty'` have members for all members of the classes in `ty` that are no single values. -/
def Placed : Ty → Ty → Obj → Prop
  | .vec e', ty, o => ∀ e xs, Sequence ty o e xs → ∀ x ∈ xs, Placed e' e x
  | .arr _ e', ty, o => ∀ e xs, Sequence ty o e xs → ∀ x ∈ xs, Placed e' e x
  | .named e', ty, o => ∀ e xs, Means ty o (.named e) (.many xs) → ∀ n w, .many [.str n, w] ∈ xs → Placed e' e w
  | .record .object _ fs', ty, o => ∀ st fs xs, Means ty o (.record .object st fs) (.many xs) →
      ∀ name t x, Member fs xs name t x → t.isScope = true → PlacedIn fs' name t x
  | .record .array _ fs', ty, o => ∀ st fs xs, Means ty o (.record .array st fs) (.many xs) → PlacedTuple fs' fs xs
  | .ptr _ e', ty, o => Placed e' ty o
  | .sorted _ c', ty, o => Placed c' ty o
  | .bool, _, _ => True
  | .int _, _, _ => True
  | .float, _, _ => True
  | .double, _, _ => True
  | .str, _, _ => True
  | .bytes, _, _ => True
/-- One of the members has this name and a place for the object. -/
def PlacedIn : Fields → Bytes → Ty → Obj → Prop
  | .nil, _, _, _ => False
  | .cons name' _ ty' rest, name, t, x => (name = name' ∧ ty'.isScope = true ∧ Placed ty' t x) ∨ PlacedIn rest name t x
/-- Members of tuples in turn -/
def PlacedTuple : Fields → Fields → List Obj → Prop
  | .nil, _, _ => True
  | .cons _ _ ty' rest, fs, xs => ∀ n opt t fs' x xs', fs = .cons n opt t fs' → xs = x :: xs' →
      Placed ty' t x ∧ PlacedTuple rest fs' xs'
end

mutual
/-- `Newer ty' ty`: `ty'` is `ty` in a later version of the program: classes may have lost members and have new ones,
if those are optional, in any order; integers may have a wider type or one of floating point numbers that has them
all, floats may be doubles; arrays may have become sequences and objects
owned by pointers. -/
def Newer : Ty → Ty → Prop
  | .bool, ty => ty = .bool
  | .int t', ty => ∃ t, ty = .int t ∧ t'.lo ≤ t.lo ∧ t.hi ≤ t'.hi
  | .float, ty => ty = .float ∨ ∃ t, ty = .int t ∧ t.bits ≤ 16
  | .double, ty => ty = .double ∨ ty = .float ∨ ∃ t, ty = .int t ∧ t.bits ≤ 32
  | .str, ty => ty = .str
  | .bytes, ty => ty = .bytes
  | .vec e', ty => ∃ e, (ty = .vec e ∨ ∃ k, ty = .arr k e) ∧ Newer e' e
  | .arr k e', ty => ∃ e, ty = .arr k e ∧ Newer e' e
  | .named e', ty => ∃ e, ty = .named e ∧ Newer e' e
  | .record .object _ fs', ty => ∃ st fs, ty = .record .object st fs ∧ NewerMembers fs' fs
  | .record .array _ fs', ty => ∃ st fs, ty = .record .array st fs ∧ NewerTuple fs' fs
  | .ptr k e', ty => (∃ e, ty = .ptr k e ∧ Newer e' e) ∨ (k ≠ .raw ∧ Newer e' ty)
  | .sorted b c', ty => ∃ c, ty = .sorted b c ∧ Newer c' c
def NewerMembers : Fields → Fields → Prop
  | .nil, _ => True
  | .cons name opt ty' rest, fs => ((∃ ty, fs.Has name ty ∧ Newer ty' ty) ∨ (opt = true ∧ name ∉ fs.names)) ∧
      NewerMembers rest fs
def NewerTuple : Fields → Fields → Prop
  | .nil, fs => fs = .nil
  | .cons _ _ ty' rest, fs => ∃ n opt ty fs', fs = .cons n opt ty fs' ∧ Newer ty' ty ∧ NewerTuple rest fs'
end

mutual
/-- Members of the classes in `ty` that the classes in `ty'` have lost are single values. -/
def LosesValues : Ty → Ty → Prop
  | .vec e', ty => ∀ e, (ty = .vec e ∨ ∃ k, ty = .arr k e) → LosesValues e' e
  | .arr _ e', ty => ∀ e, (ty = .vec e ∨ ∃ k, ty = .arr k e) → LosesValues e' e
  | .named e', ty => ∀ e, ty = .named e → LosesValues e' e
  | .record .object _ fs', ty => ∀ st fs, ty = .record .object st fs →
      ∀ name t, fs.Has name t → t.isScope = true → LosesValuesIn fs' name t
  | .record .array _ fs', ty => ∀ st fs, ty = .record .array st fs → LosesValuesTuple fs' fs
  | .ptr _ e', ty => (∀ k e, ty = .ptr k e → LosesValues e' e) ∧ LosesValues e' ty
  | .sorted _ c', ty => ∀ b c, ty = .sorted b c → LosesValues c' c
  | .bool, _ => True
  | .int _, _ => True
  | .float, _ => True
  | .double, _ => True
  | .str, _ => True
  | .bytes, _ => True
def LosesValuesIn : Fields → Bytes → Ty → Prop
  | .nil, _, _ => False
  | .cons name' _ ty' rest, name, t => (name = name' ∧ ty'.isScope = true ∧ LosesValues ty' t) ∨ LosesValuesIn rest name t
def LosesValuesTuple : Fields → Fields → Prop
  | .nil, _ => True
  | .cons _ _ ty' rest, fs => ∀ n opt t fs', fs = .cons n opt t fs' → LosesValues ty' t ∧ LosesValuesTuple rest fs'
end

end Srl.Typed
