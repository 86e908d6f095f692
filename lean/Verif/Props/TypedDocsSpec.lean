import Verif.Props.TypedSpec
import Verif.Model.Typed

/-! # Documents that carry the same object: specification for C05, C06, C42 and C46 -/

namespace Srl.Typed

/-! ## C05: the same fields in another order -/

mutual
/-- The second item is the first with the content of objects in another order, at any level. The elements
of arrays keep their places. -/
def Reord : Item → Item → Prop
  | .val n v, j => j = .val n v
  | .scope n t kids, j => ∃ mid kids', j = .scope n t kids' ∧ ReordL kids mid ∧
      (if t = .object then mid.Perm kids' else mid = kids')
/-- The same for each of a list of items. -/
def ReordL : List Item → List Item → Prop
  | [], js => js = []
  | i :: is, js => ∃ j js', js = j :: js' ∧ Reord i j ∧ ReordL is js'
end

/-- The content of a scope in another order. -/
def ReordC (t : ScopeTy) (kids kids' : List Item) : Prop :=
  ∃ mid, ReordL kids mid ∧ (if t = .object then mid.Perm kids' else mid = kids')

/-- Names of the fields that are scopes. -/
def Fields.scopeNames : Fields → List Bytes
  | .nil => []
  | .cons name _ ty rest => if ty.isScope then name :: rest.scopeNames else rest.scopeNames

mutual
/-- The entries of tables occur only as the content of a table (`inside`), and tables only if `w`. -/
def Ty.Tables (w : Prop) : Bool → Ty → Prop
  | inside, .named e => w ∧ inside = true ∧ e.Tables w false
  | _, .sorted _ c => c.Tables w true
  | _, .vec e => e.Tables w false
  | _, .arr _ e => e.Tables w false
  | _, .record _ _ fs => fs.Tables w
  | _, .ptr _ e => e.Tables w false
  | _, .bool => True
  | _, .int _ => True
  | _, .float => True
  | _, .double => True
  | _, .str => True
  | _, .bytes => True
def Fields.Tables (w : Prop) : Fields → Prop
  | .nil => True
  | .cons _ _ ty rest => ty.Tables w false ∧ rest.Tables w
end

mutual
/-- The content of a scope of type `t` has the form of an object of the type: different names, scopes only
where the type has some, arrays of the length the type says. Nothing is said about missing fields,
the types of values or further values. -/
def Plain : Ty → ScopeTy → List Item → Prop
  | .vec e, t, items => t = .array ∧
      (e.isScope = true → ∀ x ∈ scopesOf items, Plain e x.2.1 x.2.2)
  | .named e, t, items => t = .object ∧ (items.map itemName).Nodup ∧
      (e.isScope = true → ∀ x ∈ scopesOf items, Plain e x.2.1 x.2.2)
  | .arr k e, t, items => t = .array ∧ (kindNames e.isScope items).length = k ∧
      (e.isScope = false → scopesOf items = []) ∧
      (e.isScope = true → ∀ x ∈ scopesOf items, Plain e x.2.1 x.2.2)
  | .record t' _ fs, t, items => t = t' ∧
      (if t' = .object then
        (items.map itemName).Nodup ∧ ∀ x ∈ scopesOf items, x.1 ∈ fs.scopeNames
      else (scopesOf items).length ≤ fs.scopeNames.length) ∧ PlainL fs 0 items
  | .ptr _ e, t, items => Plain e t items
  | .sorted _ c, t, items => Plain c t items
  | .bool, _, _ => False
  | .int _, _, _ => False
  | .float, _, _ => False
  | .double, _, _ => False
  | .str, _, _ => False
  | .bytes, _, _ => False
/-- The scopes that belong to fields have the form of the fields. -/
def PlainL : Fields → Nat → List Item → Prop
  | .nil, _, _ => True
  | .cons name _ ty rest, ni, items =>
    (ty.isScope = true → ∀ x, pick name ni items = some x → Plain ty x.2.1 x.2.2) ∧
    PlainL rest (if ty.isScope then ni + 1 else ni) items
end

/-! ## C06: further fields -/

/-- The field is one of the fields. -/
def Fields.Has (name : Bytes) (ty : Ty) : Fields → Prop
  | .nil => False
  | .cons name' _ ty' rest => (name = name' ∧ ty = ty') ∨ rest.Has name ty

/-- The types of the fields that are scopes. -/
def Fields.scopeTys : Fields → List Ty
  | .nil => []
  | .cons _ _ ty rest => if ty.isScope then ty :: rest.scopeTys else rest.scopeTys

/-- The second content is the first with one field more, a value or a scope with any content for which `P`
holds, at any place in a class or pair that is the object or a part of it. -/
inductive Extra (P : Item → Prop) : Ty → List Item → List Item → Prop where
  | here {st : Bool} {fs : Fields} {a b : List Item} {x : Item} (hx : itemName x ∉ fs.names) (hp : P x) :
    Extra P (.record .object st fs) (a ++ b) (a ++ x :: b)
  | field {st : Bool} {fs : Fields} {name : Bytes} {ty : Ty} {t : ScopeTy} {a b k1 k2 : List Item}
    (hty : fs.Has name ty) (hs : ty.isScope = true) (h : Extra P ty k1 k2) :
    Extra P (.record .object st fs) (a ++ .scope name t k1 :: b) (a ++ .scope name t k2 :: b)
  | tuple {st : Bool} {fs : Fields} {name : Bytes} {ty : Ty} {t : ScopeTy} {a b k1 k2 : List Item}
    (hty : fs.scopeTys[(scopesOf a).length]? = some ty) (h : Extra P ty k1 k2) :
    Extra P (.record .array st fs) (a ++ .scope name t k1 :: b) (a ++ .scope name t k2 :: b)
  | vec {e : Ty} {name : Bytes} {t : ScopeTy} {a b k1 k2 : List Item} (hs : e.isScope = true)
    (h : Extra P e k1 k2) :
    Extra P (.vec e) (a ++ .scope name t k1 :: b) (a ++ .scope name t k2 :: b)
  | named {e : Ty} {name : Bytes} {t : ScopeTy} {a b k1 k2 : List Item} (hs : e.isScope = true)
    (h : Extra P e k1 k2) :
    Extra P (.named e) (a ++ .scope name t k1 :: b) (a ++ .scope name t k2 :: b)
  | arr {k : Nat} {e : Ty} {name : Bytes} {t : ScopeTy} {a b k1 k2 : List Item} (hs : e.isScope = true)
    (h : Extra P e k1 k2) :
    Extra P (.arr k e) (a ++ .scope name t k1 :: b) (a ++ .scope name t k2 :: b)
  | ptr {k : PtrKind} {e : Ty} {k1 k2 : List Item} (h : Extra P e k1 k2) : Extra P (.ptr k e) k1 k2
  | sorted {b : Order} {c : Ty} {k1 k2 : List Item} (h : Extra P c k1 k2) : Extra P (.sorted b c) k1 k2

/-- Any number of further fields. -/
inductive Extras (P : Item → Prop) (ty : Ty) : List Item → List Item → Prop where
  | refl (items : List Item) : Extras P ty items items
  | step {a b c : List Item} (h : Extras P ty a b) (h1 : Extra P ty b c) : Extras P ty a c

/-! ## C42: lengths of arrays -/

mutual
/-- Every array in the scopes that belong to parts of the type has exactly the length of the type. -/
def Counted : Ty → List Item → Prop
  | .vec e, items => e.isScope = true → ∀ x ∈ scopesOf items, Counted e x.2.2
  | .named e, items => e.isScope = true → ∀ x ∈ scopesOf items, Counted e x.2.2
  | .arr k e, items => (kindNames e.isScope items).length = k ∧
      (e.isScope = true → ∀ x ∈ scopesOf items, Counted e x.2.2)
  | .record _ _ fs, items => CountedL fs 0 items
  | .ptr _ e, items => Counted e items
  | .sorted _ c, items => Counted c items
  | .bool, _ => True
  | .int _, _ => True
  | .float, _ => True
  | .double, _ => True
  | .str, _ => True
  | .bytes, _ => True
def CountedL : Fields → Nat → List Item → Prop
  | .nil, _, _ => True
  | .cons name _ ty rest, ni, items =>
    (ty.isScope = true → ∀ x, pick name ni items = some x → Counted ty x.2.2) ∧
    CountedL rest (if ty.isScope then ni + 1 else ni) items
end

/-! ## C46: members one by one -/

/-- The item that belongs to a member: the first of its name that is a scope or a value as the type. -/
def itemFor (name : Bytes) (scope : Bool) (items : List Item) : Option Item :=
  items.find? (fun i => itemName i == name && itemScope i == scope)

/-- What becomes of a member: an item of its own is restored; without one an optional member
stays as it is, and others are an error. -/
def member (env : Env) (name : Bytes) (opt : Bool) (ty : Ty) (old : Obj) (items : List Item) : Res Obj :=
  match itemFor name ty.isScope items with
  | none => if opt then .ok old else .err
  | some (.val _ v) => pasteVal env ty old v
  | some (.scope _ t kids) => pasteNode env ty old (.mk t (Item.contentL kids).1 (Item.contentL kids).2)

/-- The members, each by itself. -/
def members (env : Env) (items : List Item) : Fields → List Obj → Res (List Obj)
  | .nil, _ => .ok []
  | .cons _ _ _ _, [] => .ub
  | .cons name opt ty rest, o :: os => do
    let y ← member env name opt ty o items
    let ys ← members env items rest os
    .ok (y :: ys)

end Srl.Typed
