import Verif.Lemmas.Load

/-! Documents with every value passed through a function and the names kept in objects only:
what saving and loading in a format does to a document. -/

namespace Srl

mutual
theorem Node.depth_toItem : ∀ (name : Bytes) (n : Node), (n.toItem name).depth = n.depth + 1
  | name, .mk t vs ns => by
    simp only [Node.toItem, Item.depth, Node.depth]
    rw [Node.depthL_vals, Node.depthL_toItems ns]
theorem Node.depthL_toItems : ∀ (ns : List (Bytes × Node)),
    Item.depthL (Node.toItems ns) = Node.depthL ns
  | [] => rfl
  | (name, n) :: ns => by
    simp only [Node.toItems, Item.depthL, Node.depthL, Node.depth_toItem name n,
      Node.depthL_toItems ns]
theorem Node.depthL_vals : ∀ (vs : List (Bytes × Val)) (is : List Item),
    Item.depthL (vs.map (fun p => Item.val p.1 p.2) ++ is) = Item.depthL is
  | [], _ => rfl
  | _ :: vs, is => by
    simp only [List.map_cons, List.cons_append, Item.depthL, Item.depth, Node.depthL_vals vs is]
    omega
end

theorem Node.length_toItems (ns : List (Bytes × Node)) : (Node.toItems ns).length = ns.length := by
  induction ns with
  | nil => rfl
  | cons p ns ih => obtain ⟨n, x⟩ := p; simp [Node.toItems, ih]

namespace Norm

mutual
def item (nv : Val → Val) (named : Bool) : Item → Item
  | .val n v => .val (if named then n else []) (nv v)
  | .scope n t kids => .scope (if named then n else []) t (items nv (t == .object) kids)
def items (nv : Val → Val) (named : Bool) : List Item → List Item
  | [] => []
  | i :: is => item nv named i :: items nv named is
end

mutual
def node (nv : Val → Val) : Node → Node
  | .mk t vs ns => .mk t (vs.map (fun p => (if t == .object then p.1 else [], nv p.2)))
      (nodes nv (t == .object) ns)
def nodes (nv : Val → Val) (named : Bool) : List (Bytes × Node) → List (Bytes × Node)
  | [] => []
  | (name, n) :: ns => (if named then name else [], node nv n) :: nodes nv named ns
end

variable (nv : Val → Val)

theorem items_append (b : Bool) (x y : List Item) :
    items nv b (x ++ y) = items nv b x ++ items nv b y := by
  induction x with
  | nil => rfl
  | cons i x ih => simp [items, ih]

theorem items_vals (b : Bool) (vs : List (Bytes × Val)) :
    items nv b (vs.map (fun p => Item.val p.1 p.2)) =
      (vs.map (fun p => (if b then p.1 else [], nv p.2))).map (fun p => Item.val p.1 p.2) := by
  induction vs with
  | nil => rfl
  | cons p vs ih => simp [items, item, ih]

theorem length_items (b : Bool) (x : List Item) : (items nv b x).length = x.length := by
  induction x with
  | nil => rfl
  | cons i x ih => simp [items, ih]

mutual
theorem depth_item : ∀ (b : Bool) (i : Item), (item nv b i).depth = i.depth
  | _, .val _ _ => rfl
  | _, .scope _ t kids => by simp only [item, Item.depth, depth_items (t == .object) kids]
theorem depth_items : ∀ (b : Bool) (is : List Item), Item.depthL (items nv b is) = Item.depthL is
  | _, [] => rfl
  | b, i :: is => by simp only [items, Item.depthL, depth_item b i, depth_items b is]
end

mutual
theorem events_length : ∀ (b : Bool) (i : Item), (item nv b i).events.length = i.events.length
  | _, .val _ _ => rfl
  | _, .scope _ t kids => by
    simp only [item, Item.events, List.length_cons, List.length_append, eventsL_length (t == .object) kids]
theorem eventsL_length : ∀ (b : Bool) (is : List Item),
    (Item.eventsL (items nv b is)).length = (Item.eventsL is).length
  | _, [] => rfl
  | b, i :: is => by
    simp only [items, Item.eventsL, List.length_append, events_length b i, eventsL_length b is]
end

mutual
theorem item_toItem : ∀ (b : Bool) (name : Bytes) (n : Node),
    item nv b (n.toItem name) = (node nv n).toItem (if b then name else [])
  | b, name, .mk t vs ns => by
    simp only [Node.toItem, item, node, items_append, items_vals,
      items_toItems (t == .object) ns]
theorem items_toItems : ∀ (b : Bool) (ns : List (Bytes × Node)),
    items nv b (Node.toItems ns) = Node.toItems (nodes nv b ns)
  | _, [] => rfl
  | b, (name, n) :: ns => by
    simp only [Node.toItems, items, nodes, item_toItem b name n, items_toItems b ns]
end

mutual
theorem depth_node : ∀ (n : Node), (node nv n).depth = n.depth
  | .mk t vs ns => by simp only [node, Node.depth, depthL_nodes (t == .object) ns]
theorem depthL_nodes : ∀ (b : Bool) (ns : List (Bytes × Node)),
    Node.depthL (nodes nv b ns) = Node.depthL ns
  | _, [] => rfl
  | b, (_, n) :: ns => by
    simp only [nodes, Node.depthL, depth_node n, depthL_nodes b ns]
end

end Norm
end Srl
