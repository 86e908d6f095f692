import Verif.Model.Own

/-! # What programs may rely on about the content of trees (specification for Props/Own.lean)

Trees and nodes are plain content here, without pointers: what is inserted or loaded is content from then
on. A program must not pass buffers that it has given up, and must not use a node that it holds after the
tree it belongs to was cleared, loaded again or destroyed; everything else is allowed (`none`: the program
has done something that is not). -/

namespace Srl.Own

namespace ANode
def type : ANode → ScopeTy | mk t _ _ _ => t
def name : ANode → Bytes | mk _ n _ _ => n
def values : ANode → List (Bytes × Nat × Bytes) | mk _ _ vs _ => vs
def nodes : ANode → List ANode | mk _ _ _ ns => ns
def addValue (v : Bytes × Nat × Bytes) : ANode → ANode | mk t n vs ns => mk t n (vs ++ [v]) ns
def addNode (c : ANode) : ANode → ANode | mk t n vs ns => mk t n vs (ns ++ [c])
def rename (d : Bytes) : ANode → ANode | mk t _ vs ns => mk t d vs ns
def dropNode (i : Nat) : ANode → ANode | mk t n vs ns => mk t n vs (ns.eraseIdx i)
def dropValue (i : Nat) : ANode → ANode | mk t n vs ns => mk t n (vs.eraseIdx i) ns

def at? : List Nat → ANode → Option ANode
  | [], n => some n
  | i :: p, n => match n.nodes[i]? with
    | some c => at? p c
    | none => none

def update (f : ANode → ANode) : List Nat → ANode → ANode
  | [], n => f n
  | i :: p, mk t m vs ns => match ns[i]? with
    | some c => mk t m vs (ns.set i (update f p c))
    | none => mk t m vs ns
end ANode

namespace Spec

/-- Buffers, content of trees, nodes held with the tree they belong to (`none` if that was cleared,
loaded again or destroyed since). -/
structure World where
  bufs : Nat → Option Bytes
  trees : Nat → ANode
  held : Nat → Option (ANode × Option Nat)

def empty (t : ScopeTy) : ANode := .mk t [] [] []

def init : World := ⟨fun _ => none, fun _ => empty .object, fun _ => none⟩

namespace World

def setTree (w : World) (h : Nat) (n : ANode) : World :=
  { w with trees := fun k => if k = h then n else w.trees k }

def setHeld (w : World) (k : Nat) (x : Option (ANode × Option Nat)) : World :=
  { w with held := fun j => if j = k then x else w.held j }

/-- Nodes that belong to tree `h` are not to be used any more. -/
def expire (w : World) (h : Nat) : World :=
  { w with held := fun j => match w.held j with
      | some (n, some o) => if o = h then some (n, none) else some (n, some o)
      | x => x }

/-- Nodes that belong to `h` belong to `h'` from now on. -/
def handOver (w : World) (h h' : Nat) : World :=
  { w with held := fun j => match w.held j with
      | some (n, some o) => if o = h then some (n, some h') else some (n, some o)
      | x => x }

def root (w : World) : Place → Option ANode
  | .tree h => some (w.trees h)
  | .held k => match w.held k with
    | some (n, some _) => some n
    | _ => none

def setRoot (w : World) (n : ANode) : Place → World
  | .tree h => w.setTree h n
  | .held k => match w.held k with
    | some (_, o) => w.setHeld k (some (n, o))
    | none => w

/-- The tree a place belongs to. -/
def owner (w : World) : Place → Option Nat
  | .tree h => some h
  | .held k => match w.held k with
    | some (_, o) => o
    | none => none

end World

/-- A part of a byte string; `none` if it has no such part. -/
def slice (d : Bytes) (off len : Nat) : Option Bytes :=
  if off + len ≤ d.length then some ((d.drop off).take len) else none

/-- The bytes that are passed; the inner `none`: there is no such node or value. -/
def bytes (w : World) : Src → Option (Option Bytes)
  | .buf b off len => do
    let d ← w.bufs b
    let d ← slice d off len
    some (some d)
  | .data a path i => do
    let n ← w.root a
    match n.at? path with
    | none => some none
    | some c => match c.values[i]? with
      | none => some none
      | some v => some (some v.2.2)
  | .name a path => do
    let n ← w.root a
    match n.at? path with
    | none => some none
    | some c => some (some c.name)

def insertWith (w : World) (a : Place) (path : List Nat) (name : Src) (f : Bytes → ANode → ANode) :
    Option (Out × World) := do
  let nm ← bytes w name
  match nm with
  | none => some (.threw, w)
  | some nm => do
    let r ← w.root a
    match r.at? path with
    | none => some (.threw, w)
    | some _ => some (.done, w.setRoot (r.update (f nm) path) a)

def piece (src : Bytes) : Piece → Option Bytes
  | .src o l => slice src o l
  | .scratch d => some d
  | .num d => some d

mutual
def field (src : Bytes) : Field → ANode → Option ANode
  | .val name kind data, n => do
    let d ← piece src name
    let x ← piece src data
    some (n.addValue (d, kind, x))
  | .scope name t fs, n => do
    let d ← piece src name
    let c ← fields src fs (.mk t d [] [])
    some (ANode.addNode c n)
def fields (src : Bytes) : List Field → ANode → Option ANode
  | [], n => some n
  | f :: fs, n => do
    let n ← field src f n
    fields src fs n
end

def step (w : World) : Op → Option (Out × World)
  | .write b d => some (.done, { w with bufs := fun k => if k = b then some d else w.bufs k })
  | .free b => some (.done, { w with bufs := fun k => if k = b then none else w.bufs k })
  | .create h t => some (.done, (w.expire h).setTree h (empty t))
  | .drop h => some (.done, (w.expire h).setTree h (empty .object))
  | .move h h' =>
    if h = h' then some (.done, w)
    else some (.done, (((w.expire h').handOver h h').setTree h' (w.trees h)).setTree h (empty .object))
  | .clear h => some (.done, (w.expire h).setTree h (empty (w.trees h).type))
  | .insert a path name kind data => do
    let d ← bytes w data
    match d with
    | none => some (.threw, w)
    | some d => insertWith w a path name (fun nm => ANode.addValue (nm, kind, d))
  | .insertNode a path name t => insertWith w a path name (fun nm => ANode.addNode (.mk t nm [] []))
  | .copyNode a path name a' path' => do
    let r ← w.root a'
    match r.at? path' with
    | none => some (.threw, w)
    | some c => insertWith w a path name (fun nm => ANode.addNode (c.rename nm))
  | .copyValue a path name a' path' i => do
    let r ← w.root a'
    match r.at? path' with
    | none => some (.threw, w)
    | some c => match c.values[i]? with
      | none => some (.threw, w)
      | some v => insertWith w a path name (fun nm => ANode.addValue (nm, v.2.1, v.2.2))
  | .removeNode a path i => do
    let r ← w.root a
    match r.at? path with
    | none => some (.threw, w)
    | some _ => some (.done, w.setRoot (r.update (ANode.dropNode i) path) a)
  | .removeValue a path i => do
    let r ← w.root a
    match r.at? path with
    | none => some (.threw, w)
    | some _ => some (.done, w.setRoot (r.update (ANode.dropValue i) path) a)
  | .load h data root fs complete => do
    let d ← bytes w data
    match d with
    | none => some (.threw, w)
    | some d => match root with
      | none => some (.threw, (w.expire h).setTree h (empty (w.trees h).type))
      | some (nm, t) => do
        let nm ← piece d nm
        let n ← fields d fs (.mk t nm [] [])
        some (if complete then .done else .threw, (w.expire h).setTree h n)
  | .declare k h => some (.done, w.setHeld k (some (empty .object, some h)))
  | .hold k a path => do
    let r ← w.root a
    match r.at? path with
    | none => some (.threw, w)
    | some c => some (.done, w.setHeld k (some (c, w.owner a)))
  | .release k =>
    match w.held k with
    | none => some (.done, w)
    | some (_, none) => none
    | some (_, some _) => some (.done, w.setHeld k none)
  | .assign h a path => do
    let r ← w.root a
    match r.at? path with
    | none => some (.threw, w)
    | some c => some (.done, w.setTree h c)
  | .view a path => do
    let r ← w.root a
    match r.at? path with
    | none => some (.threw, w)
    | some c => some (.node c, w)
  | .save a path => do
    let r ← w.root a
    match r.at? path with
    | none => some (.threw, w)
    | some c => some (.saved c, w)

def run : List Op → World → Option (List Out × World)
  | [], w => some ([], w)
  | op :: ops, w => do
    let (o, w) ← step w op
    let (os, w) ← run ops w
    some (o :: os, w)

end Spec
end Srl.Own
