import Verif.Model.Session
import Verif.Props.UnionSpec

/-! # Specification: one tree for several documents -/

namespace Srl.Typed

variable {σ : Type}

/-- What a tree is good for: nothing; a document that was loaded; a document of which items were unpacked. -/
inductive Holding where
  | unknown
  | whole (fs : Fields) (xs : List Obj)
  | begun (fs : Fields) (xs : List Obj) (asked : List (Bytes × Target))

/-- Items of a document that can be unpacked in this order (C70). -/
def Fine (fs : Fields) (xs : List Obj) (qs : List (Bytes × Target)) : Prop :=
  (∀ q ∈ qs, Request fs xs q) ∧ (qs.map (·.1)).Nodup ∧ Timely fs.names false [] qs

/-- What becomes of a tree -/
def Holding.next (doc : σ → Option (Fields × List Obj)) (h : Holding) : Call σ → Holding
  | .unpack s kept qs => match doc s with
    | some (fs, xs) => if kept then .begun fs xs qs else .unknown
    | none => .unknown
  | .load s _ => match doc s with
    | some (fs, xs) => .whole fs xs
    | none => .unknown
  | .paste qs => match h with
    | .begun fs xs asked => .begun fs xs (asked ++ qs)
    | h => h
  | .other => .unknown

/-- Programs: documents are unpacked and loaded at any time, `doc` says what was stored in them. From a tree that was
loaded anything in it may be pasted, as often as one likes. After unpacking some items, others may be pasted, if parser and
source were kept. -/
def Allowed (doc : σ → Option (Fields × List Obj)) : Holding → List (Call σ) → Prop
  | _, [] => True
  | h, c :: cs => (match c with
    | .unpack s _ qs => ∃ fs xs, doc s = some (fs, xs) ∧ Fine fs xs qs
    | .load s _ => ∃ fs xs, doc s = some (fs, xs)
    | .paste qs => match h with
      | .whole fs xs => ∀ q ∈ qs, Request fs xs q
      | .begun fs xs asked => Fine fs xs (asked ++ qs)
      | .unknown => False
    | .other => True) ∧ Allowed doc (h.next doc c) cs

/-- What the calls have to give -/
def Right (doc : σ → Option (Fields × List Obj)) : Holding → List (Call σ) → List (Res (List Got)) → Prop
  | _, [], [] => True
  | h, c :: cs, r :: rs => (match c with
    | .unpack s _ qs => ∀ fs xs, doc s = some (fs, xs) → ∃ gs, r = .ok gs ∧ AllGiven fs xs qs gs
    | .load _ _ => r = .ok []
    | .paste qs => match h with
      | .whole fs xs => ∃ gs, r = .ok gs ∧ AllGiven fs xs qs gs
      | .begun fs xs _ => ∃ gs, r = .ok gs ∧ AllGiven fs xs qs gs
      | .unknown => False
    | .other => True) ∧ Right doc (h.next doc c) cs rs
  | _, _, _ => False

/-- Items that can be stored, in a document of at most `fuel` tokens -/
def CanStore (fuel : Nat) (fs : Fields) (xs : List Obj) : Prop :=
  (Ty.record .object false fs).Ok ∧ fs.Tables True ∧ StorableL fs xs ∧ Item.depthL (fieldItems fs xs) ≤ maxDepth ∧
    (rootItem (.record .object false fs) (.many xs)).events.length ≤ fuel

end Srl.Typed
