import Verif.Model.Views
import Verif.Model.OwnSpec

/-! # Specification: documents with texts, and what can be read of them later -/

namespace Srl.Own

/-- The document `fs`, in the source with bytes `d`, has a value with this name, kind and text; `data` says whether the text
is in the source itself. -/
def Stored (d : Bytes) (fs : List Field) (name : Bytes) (kind : Nat) (data : Piece) (txt : Bytes) : Prop :=
  ∃ nm, .val nm kind data ∈ fs ∧ Spec.piece d nm = some name ∧ Spec.piece d data = some txt

/-- Names of the values of a document in their order -/
def valNames (d : Bytes) : List Field → List Bytes
  | [] => []
  | .val nm _ _ :: fs => (Spec.piece d nm).getD [] :: valNames d fs
  | .scope _ _ _ :: fs => valNames d fs

/-- All pieces of the document are parts of the source. -/
def WellFormed (d : Bytes) (fs : List Field) : Prop := ∃ x, Spec.fields d fs (.mk .object [] [] []) = some x

/-- The value was passed when another one was looked for. -/
def Late (order asked : List Bytes) (x : Bytes) : Prop := ∃ a ∈ asked, ∃ l1 l2, order = l1 ++ x :: l2 ∧ a ∈ l2

/-- What can be read of a restored text later, in memory `m`: what was stored, with two exceptions. A short text that was
passed is gone; one that the parser has put into its own memory is whatever is there. -/
def Seen (m : Mem) (late : Prop) (data : Piece) (txt : Bytes) (v : View) : Prop :=
  (late → (txt ≠ [] ∧ txt.length ≤ 8 → v.read m = .ub) ∧ (txt = [] ∨ 8 < txt.length → v.read m = .ok txt)) ∧
  (¬ late → (∀ o l, data = .src o l → v.read m = .ok txt) ∧
    (data = .scratch txt → v.read m = m.read (.ext .parserValue 0 txt.length)))

/-- Later, in memory `m'`: the tree with environment `e` is there and was not cleared, though it may hold more. -/
def TreeHeld (e : Nat) (m m' : Mem) : Prop :=
  ∀ v, m.env e = .ok v → ∃ v', m'.env e = .ok v' ∧ v'.gen = v.gen ∧ v.data <+: v'.data ∧ v.names <+: v'.names

/-- All members, in the order they are restored -/
def AllSeen (d : Bytes) (fs : List Field) (m : Mem) : List Bytes → List Bytes → List View → Prop
  | _, [], [] => True
  | asked, name :: names, v :: vs =>
    (∀ kind data txt, Stored d fs name kind data txt → Seen m (Late (valNames d fs) asked name) data txt v) ∧
      AllSeen d fs m (name :: asked) names vs
  | _, _, _ => False

/-- All members can be read and give what was stored. -/
def AllText (d : Bytes) (fs : List Field) (m : Mem) : List Bytes → List View → Prop
  | [], [] => True
  | name :: names, v :: vs =>
    (∀ kind data txt, Stored d fs name kind data txt → v.read m = .ok txt) ∧ AllText d fs m names vs
  | _, _ => False

end Srl.Own
