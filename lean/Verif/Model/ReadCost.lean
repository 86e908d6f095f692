import Verif.Model.RestoreCost

/-! # How much is done to restore an object while a document is read

As in `Model/RestoreCost.lean`, with one for each value and scope that the parser gives (the end of a scope is counted with
its begin) and the bytes of strings and binaries. What is done to store names is counted in `Model/Cost.lean`. What is not
reached because of an exception is not counted. -/

namespace Srl.Typed

variable {σ : Type}

/-- What is done with the result of something that may throw -/
def onward {α : Type} (r : Res α) (k : α → Nat) : Nat :=
  match r with
  | .ok a => k a
  | _ => 0

/-- What a token is counted as -/
def tokSteps : Event → Nat
  | ⟨_, .scopeEnd⟩ => 0
  | ⟨_, .scope _⟩ => 1
  | ⟨_, .val v⟩ => valSteps v

/-- The name of a field that is looked for is hashed or compared, a position is not. -/
def Sel.steps : Sel → Nat
  | .name n => 1 + n.length
  | .index _ => 1

/-- The steps of `Doc.readScope`: `Node::read_source` (Node.cpp:246-277) -/
def scopeSteps (read : σ → Res (Event × σ)) : Nat → Nat → σ → Nat
  | 0, _, _ => 0
  | fuel + 1, depth, s => onward (read s) fun (e, s) => tokSteps e +
    match e.tok with
    | .scopeEnd => 0
    | .val _ => scopeSteps read fuel depth s
    | .scope _ =>
      if depth + 1 > maxDepth then 0
      else scopeSteps read fuel (depth + 1) s +
        onward (Doc.readScope read fuel (depth + 1) s) fun (_, s) => scopeSteps read fuel depth s

/-- The steps of `takeOut`: `find_link_iterator` (Node.cpp:124-138) -/
def takeSteps {α : Type} : Sel → List (Bytes × α) → Nat
  | .index _, _ => 1
  | .name n, xs => 1 + n.length + findSteps n xs

/-- The steps of `seekNode` (Node.cpp:341-364, 429-449): the name of each scope is compared. -/
def seekNodeSteps (read : σ → Res (Event × σ)) : Nat → Sel → LNode → σ → Nat
  | 0, _, _, _ => 0
  | fuel + 1, sel, n, s =>
    if n.parsed then 0
    else onward (read s) fun (e, s) => tokSteps e +
      match e.tok with
      | .scopeEnd => 0
      | .scope t => sel.steps +
        if sel.hits e.name then 0
        else scopeSteps read fuel 0 s + onward (Doc.readScope read fuel 0 s) fun ((vs, ns), s) =>
          seekNodeSteps read fuel sel (n.addNode e.name (.mk t vs ns)) s
      | .val v => seekNodeSteps read fuel sel (n.addValue e.name v) s

/-- The steps of `seekValue` (Node.cpp:385-408, 468-487): the name of each value is compared. -/
def seekValueSteps (read : σ → Res (Event × σ)) : Nat → Sel → LNode → σ → Nat
  | 0, _, _, _ => 0
  | fuel + 1, sel, n, s =>
    if n.parsed then 0
    else onward (read s) fun (e, s) => tokSteps e +
      match e.tok with
      | .scopeEnd => 0
      | .scope t => scopeSteps read fuel 0 s + onward (Doc.readScope read fuel 0 s) fun ((vs, ns), s) =>
          seekValueSteps read fuel sel (n.addNode e.name (.mk t vs ns)) s
      | .val v => sel.steps +
        if sel.hits e.name then 0 else seekValueSteps read fuel sel (n.addValue e.name v) s

/-- The steps of `consumeNode` (Node.cpp:329-371, 418-456) -/
def consumeNodeSteps (read : σ → Res (Event × σ)) (fuel : Nat) (sel : Sel) (n : LNode) (s : σ) : Nat :=
  takeSteps sel n.nodes +
  match takeOut sel n.nodes with
  | some _ => 0
  | none => seekNodeSteps read fuel sel n s

/-- The steps of `consumeValue` (Node.cpp:373-415, 458-494) -/
def consumeValueSteps (read : σ → Res (Event × σ)) (fuel : Nat) (sel : Sel) (n : LNode) (s : σ) : Nat :=
  takeSteps sel n.values +
  match takeOut sel n.values with
  | some _ => 0
  | none => seekValueSteps read fuel sel n s

/-- The steps of `seekItem` (Node.cpp:295-320) -/
def seekItemSteps (read : σ → Res (Event × σ)) : Nat → Bytes → LNode → σ → Nat
  | 0, _, _, _ => 0
  | fuel + 1, name, n, s =>
    if n.parsed then 0
    else onward (read s) fun (e, s) => tokSteps e +
      match e.tok with
      | .scopeEnd => 0
      | .scope t => 1 + name.length + scopeSteps read fuel 0 s + onward (Doc.readScope read fuel 0 s) fun ((vs, ns), s) =>
          if e.name == name then 0 else seekItemSteps read fuel name (n.addNode e.name (.mk t vs ns)) s
      | .val v => 1 + name.length +
        if e.name == name then 0 else seekItemSteps read fuel name (n.addValue e.name v) s

/-- The steps of `has` (Node.cpp:664-684, 279-327) -/
def hasSteps (read : σ → Res (Event × σ)) (fuel : Nat) (node : Bool) (name : Bytes) (n : LNode) (s : σ) : Nat :=
  if n.parsed then (if node then findSteps name n.nodes else findSteps name n.values)
  else findSteps name n.nodes +
    if (findName name n.nodes).isSome then 0
    else findSteps name n.values +
      if (findName name n.values).isSome then 0
      else name.length + seekItemSteps read fuel name n s

/-- The steps of `skipScope` (Node.cpp:514-535) -/
def skipSteps (read : σ → Res (Event × σ)) : Nat → Int → σ → Nat
  | 0, _, _ => 0
  | fuel + 1, depth, s => onward (read s) fun (e, s) => tokSteps e +
    match e.tok with
    | .scope _ => skipSteps read fuel (depth + 1) s
    | .scopeEnd => if depth - 1 ≤ 0 then 0 else skipSteps read fuel (depth - 1) s
    | .val _ => skipSteps read fuel depth s

/-- The steps of `finish` (Node.cpp:514-535) -/
def finishSteps (read : σ → Res (Event × σ)) (fuel : Nat) (n : LNode) (s : σ) : Nat :=
  if n.parsed then 0 else skipSteps read fuel 0 s

/-- The steps of `vecNodes` (Resolve.hpp:507-516, 950-960) -/
def vecNodesSteps (read : σ → Res (Event × σ)) (total : Nat) (f : Bytes × LNode → σ → Res (Obj × σ))
    (g : Bytes × LNode → σ → Nat) : Nat → LNode → σ → Nat
  | 0, _, _ => 0
  | fuel + 1, n, s => 1 + consumeNodeSteps read total (.index 0) n s +
    onward (consumeNode read total (.index 0) n s) fun (c, n, s) =>
      if n.parsed then 0
      else match c with
        | none => 0
        | some c => g c s + onward (f c s) fun (_, s) => vecNodesSteps read total f g fuel n s

/-- The steps of `vecValues` (Resolve.hpp:507-516, 950-960) -/
def vecValuesSteps (read : σ → Res (Event × σ)) (total : Nat) (f : Bytes × Val → Res Obj) (g : Bytes × Val → Nat) :
    Nat → LNode → σ → Nat
  | 0, _, _ => 0
  | fuel + 1, n, s => 1 + consumeValueSteps read total (.index 0) n s +
    onward (consumeValue read total (.index 0) n s) fun (c, n, s) =>
      if n.parsed then 0
      else match c with
        | none => 0
        | some v => g v + onward (f v) fun _ => vecValuesSteps read total f g fuel n s

/-- The steps of `arrNodes` (Resolve.hpp:605-612, Node.hpp:113-115) -/
def arrNodesSteps (read : σ → Res (Event × σ)) (total : Nat) (f : Obj → LNode → σ → Res (Obj × σ))
    (g : Obj → LNode → σ → Nat) : List Obj → LNode → σ → Nat
  | [], _, _ => 0
  | o :: os, n, s =>
    if n.parsed then 1
    else 1 + consumeNodeSteps read total (.index 0) n s +
      onward (consumeNode read total (.index 0) n s) fun (c, n, s) =>
        match c with
        | none => 0
        | some (_, c) => g o c s + onward (f o c s) fun (_, s) => arrNodesSteps read total f g os n s

/-- The steps of `arrValues` (Resolve.hpp:605-612, Node.hpp:127-128) -/
def arrValuesSteps (read : σ → Res (Event × σ)) (total : Nat) (f : Obj → Val → Res Obj) (g : Val → Nat) :
    List Obj → LNode → σ → Nat
  | [], _, _ => 0
  | o :: os, n, s =>
    if n.parsed then 1
    else 1 + consumeValueSteps read total (.index 0) n s +
      onward (consumeValue read total (.index 0) n s) fun (c, n, s) =>
        match c with
        | none => 0
        | some (_, v) => g v + onward (f o v) fun _ => arrValuesSteps read total f g os n s

mutual
/-- The steps of `paste` (citations at `pasteNode`) -/
def pasteSteps (env : Env) (read : σ → Res (Event × σ)) (fuel : Nat) : Ty → Obj → LNode → σ → Nat
  | .vec e, old, n, s =>
    if n.parsed then nodeSteps env (.vec e) old (.mk n.type n.values n.nodes)
    else 1 +
      if e.isScope then vecNodesSteps read fuel (fun c s => do
          let (y, c, s) ← paste env read fuel e (dflt e) c.2 s
          let s ← finish read fuel c s
          .ok (y, s))
        (fun c s => pasteSteps env read fuel e (dflt e) c.2 s +
          onward (paste env read fuel e (dflt e) c.2 s) fun (_, c, s) => finishSteps read fuel c s) fuel n s
      else vecValuesSteps read fuel (fun v => pasteVal env e (dflt e) v.2) (fun v => valSteps v.2) fuel n s
  | .named e, old, n, s =>
    if n.type ≠ .object then 1
    else if n.parsed then nodeSteps env (.named e) old (.mk n.type n.values n.nodes)
    else 1 +
      if e.isScope then vecNodesSteps read fuel (fun c s => do
          let (y, d, s) ← paste env read fuel e (dflt e) c.2 s
          let s ← finish read fuel d s
          .ok (.many [.str c.1, y], s))
        (fun c s => c.1.length + pasteSteps env read fuel e (dflt e) c.2 s +
          onward (paste env read fuel e (dflt e) c.2 s) fun (_, c, s) => finishSteps read fuel c s) fuel n s
      else vecValuesSteps read fuel (fun v => do
          let y ← pasteVal env e (dflt e) v.2
          .ok (.many [.str v.1, y])) (fun v => v.1.length + valSteps v.2) fuel n s
  | .arr k e, .many os, n, s =>
    if n.parsed then nodeSteps env (.arr k e) (.many os) (.mk n.type n.values n.nodes)
    else 1 +
      if e.isScope then arrNodesSteps read fuel (fun o c s => do
          let (y, c, s) ← paste env read fuel e o c s
          let s ← finish read fuel c s
          .ok (y, s))
        (fun o c s => pasteSteps env read fuel e o c s +
          onward (paste env read fuel e o c s) fun (_, c, s) => finishSteps read fuel c s) os n s
      else arrValuesSteps read fuel (fun o v => pasteVal env e o v) valSteps os n s
  | .record _ strict fs, .many os, n, s =>
    if strict = true ∧ n.type ≠ .object then 1
    else 1 + membersSteps env read fuel fs os 0 0 n s
  | .ptr _ e, _, n, s => 1 + pasteSteps env read fuel e (dflt e) n s
  | .sorted _ c, _, n, s => 1 + pasteSteps env read fuel c (dflt c) n s
  | _, _, _, _ => 1
/-- The steps of `pasteMembers` (Context.hpp:61-86, Node.hpp:105-130) -/
def membersSteps (env : Env) (read : σ → Res (Event × σ)) (fuel : Nat) :
    Fields → List Obj → Nat → Nat → LNode → σ → Nat
  | .nil, _, _, _, _, _ => 0
  | .cons _ _ _ _, [], _, _, _, _ => 0
  | .cons name opt ty rest, o :: os, ni, vi, n, s =>
    1 + (if opt then hasSteps read fuel ty.isScope name n s else 0) +
    onward (if opt then has read fuel ty.isScope name n s else .ok (true, n, s)) fun (here, n, s) =>
      if here = false then membersSteps env read fuel rest os ni vi n s
      else if ty.isScope then
        if n.parsed then lookupSteps (.of name ni) n.nodes + onward (lookup (.of name ni) n.nodes) fun c =>
          nodeSteps env ty o c + onward (pasteNode env ty o c) fun _ =>
          membersSteps env read fuel rest os (ni + 1) vi n s
        else consumeNodeSteps read fuel (.of name ni) n s + onward (consumeNode read fuel (.of name ni) n s) fun (c, n, s) =>
          match c with
          | none => 0
          | some (_, c) => pasteSteps env read fuel ty o c s + onward (paste env read fuel ty o c s) fun (_, c, s) =>
            finishSteps read fuel c s + onward (finish read fuel c s) fun s =>
            membersSteps env read fuel rest os (ni + 1) vi n s
      else
        if n.parsed then lookupSteps (.of name vi) n.values + onward (lookup (.of name vi) n.values) fun v =>
          valSteps v + onward (pasteVal env ty o v) fun _ =>
          membersSteps env read fuel rest os ni (vi + 1) n s
        else consumeValueSteps read fuel (.of name vi) n s + onward (consumeValue read fuel (.of name vi) n s) fun (c, n, s) =>
          match c with
          | none => 0
          | some (_, v) => valSteps v + onward (pasteVal env ty o v) fun _ =>
            membersSteps env read fuel rest os ni (vi + 1) n s
end

/-- The steps of `restore` (Tree.hpp:133-158, 15-42; Tree.cpp:30-50, 77-83) -/
def restoreSteps (env : Env) (read : σ → Res (Event × σ)) (fuel : Nat) (ty : Ty) (old : Obj) (s : σ) : Nat :=
  onward (read s) fun (e, s) => tokSteps e +
    match e.tok with
    | .scope t =>
      if ty.isScope then pasteSteps env read fuel ty old (.fresh t) s
      else consumeValueSteps read fuel (.index 0) (.fresh t) s +
        onward (consumeValue read fuel (.index 0) (.fresh t) s) fun (c, _, _) =>
          match c with
          | none => 0
          | some (_, v) => valSteps v
    | _ => 0

end Srl.Typed
