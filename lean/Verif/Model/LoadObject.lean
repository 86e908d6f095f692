import Verif.Model.Tree
import Verif.Model.Typed

/-! # Loading objects into a tree (include/Srl/Tree.hpp: `Tree::load_object`, `TypeSwitch<T>::Insert`) -/

namespace Srl.LoadObject
open TreeApi Typed

mutual
/-- What is done to insert an item: `Node::insert_value` or `Node::open_scope` (Node.hpp:139-154,
Node.cpp:146-164). -/
def actOf : Item → Act
  | .val n v => .value n v
  | .scope n t kids => .scope n t (actsOf kids)
def actsOf : List Item → List Act
  | [] => []
  | i :: is => actOf i :: actsOf is
end

/-- `TypeSwitch<T>::Insert` (Tree.hpp:15-42): `Switch<T>::Insert(tree.root(), o)` inserts the content of
the scope the object is stored as, whatever the type of the root is; other objects are inserted as a value
without name (Node.hpp:36-40). -/
def inserted (ty : Ty) (o : Obj) : List Item :=
  match toItem [] ty o with
  | .scope _ _ kids => kids
  | .val n v => [.val n v]

/-- `Tree::load_object` (Tree.hpp:159-164). A tree without environment gets one (Tree.cpp:83-89, 105-109);
`Tree.new` is such a tree. -/
def loadObject {P : Type} (cfg : HTable.Cfg Nat) (fmt : Fmt P) (ty : Ty) (o : Obj) (t : Tree P) :
    Res Bytes × Tree P :=
  step cfg fmt t.clear (.insert (actsOf (inserted ty o)))

/-- `tree.root()` as a node -/
def rootOf {P : Type} (t : Tree P) : Node := .mk t.type t.values t.nodes

end Srl.LoadObject
