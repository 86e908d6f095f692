import Verif.Model.Union

/-! # One tree for several documents (include/Srl/Tree.hpp:71-79, 99-103, Tree.h:50-73; src/lib/Tree.cpp:30-50, 71-91)

The calls that read, and `Node::paste` on `tree.root()` between them. `Model/Tree.lean` has the calls that write. The state is
the root and the pointers to parser and source (Environment.h:69-70). Not covered: trees on which storing has thrown (see
`Model/Tree.lean`), calls that write between calls that read on. What a call that throws leaves in the root is not followed:
it may be anything. -/

namespace Srl.Typed

variable {σ : Type}

/-- `Node::paste_field(name, item)` (Node.hpp:105-137) -/
def pasteOne (env : Env) (read : σ → Res (Event × σ)) (fuel : Nat) (name : Bytes) :
    Target → LNode → σ → Res (Got × LNode × σ)
  | .obj ty old, n, s =>
    if ty.isScope then
      if n.parsed then do
        let c ← lookup (.name name) n.nodes
        let y ← pasteNode env ty old c
        .ok (.obj y, n, s)
      else do
        let (c, n, s) ← consumeNode read fuel (.name name) n s
        match c with
        | none => .err
        | some (_, c) => do
          let (y, c, s) ← paste env read fuel ty old c s
          let s ← finish read fuel c s
          .ok (.obj y, n, s)
    else
      if n.parsed then do
        let v ← lookup (.name name) n.values
        let y ← pasteVal env ty old v
        .ok (.obj y, n, s)
      else do
        let (c, n, s) ← consumeValue read fuel (.name name) n s
        match c with
        | none => .err
        | some (_, v) => do
          let y ← pasteVal env ty old v
          .ok (.obj y, n, s)
  | .union, n, s => do
    let (u, n, s) ← pasteUnion read fuel name n s
    .ok (.union u, n, s)

/-- `Node::paste(name, item, …)` (Node.hpp:98-103) with the state it leaves -/
def pasteMany (env : Env) (read : σ → Res (Event × σ)) (fuel : Nat) :
    List (Bytes × Target) → LNode → σ → Res (List Got × LNode × σ)
  | [], n, s => .ok ([], n, s)
  | (name, t) :: rest, n, s => do
    let (g, n, s) ← pasteOne env read fuel name t n s
    let (gs, n, s) ← pasteMany env read fuel rest n s
    .ok (g :: gs, n, s)

/-- Reading through the pointers to parser and source; `none`: one of them is gone. -/
def readPtr (read : σ → Res (Event × σ)) : Option σ → Res (Event × Option σ)
  | none => .ub
  | some s => do
    let (e, s) ← read s
    .ok (e, some s)

/-- A tree between calls: its root, parser and source -/
structure Sess (σ : Type) where
  root : LNode
  src : Option σ

/-- Calls. `kept`: parser and source exist after the call; by default the parser is a temporary (Tree.h:50-73). `s` is a
cleared parser with a source (Environment.cpp:12-20). -/
inductive Call (σ : Type) where
  /-- `tree.unpack(source, parser, name, item, …)` -/
  | unpack (s : σ) (kept : Bool) (qs : List (Bytes × Target))
  /-- `tree.load_source(source, parser)` -/
  | load (s : σ) (kept : Bool)
  /-- `tree.root().paste(name, item, …)` -/
  | paste (qs : List (Bytes × Target))
  /-- Any other call, or one that throws: what it leaves is not followed. -/
  | other

/-- The pointers after a call -/
def after (kept : Bool) (s : Option σ) : Option σ := if kept then s else none

/-- One call: what it gives and the tree afterwards. -/
def Sess.step (env : Env) (read : σ → Res (Event × σ)) (fuel : Nat) (t : Sess σ) : Call σ → Res (List Got × Sess σ)
  | .unpack s kept qs => do
    let (e, s) ← readPtr read (some s)
    match e.tok with
    | .scope ty => do
      let (gs, n, s) ← pasteMany env (readPtr read) fuel qs (.fresh ty) s
      .ok (gs, ⟨n, after kept s⟩)
    | _ => .err
  | .load s kept => do
    let (r, s) ← Doc.load (readPtr read) fuel (some s)
    match r.node with
    | .mk ty vs ns => .ok ([], ⟨⟨ty, vs, ns, true⟩, after kept s⟩)
  | .paste qs => do
    let (gs, n, s) ← pasteMany env (readPtr read) fuel qs t.root t.src
    .ok (gs, ⟨n, s⟩)
  | .other => .err

/-- A sequence of calls; exceptions are caught. `left` is what is left after calls that throw. -/
def Sess.run (env : Env) (read : σ → Res (Event × σ)) (fuel : Nat) (left : Nat → Sess σ) :
    Nat → Sess σ → List (Call σ) → List (Res (List Got))
  | _, _, [] => []
  | k, t, c :: cs =>
    match t.step env read fuel c with
    | .ok (gs, t) => .ok gs :: Sess.run env read fuel left (k + 1) t cs
    | .err => .err :: Sess.run env read fuel left (k + 1) (left k) cs
    | .ub => [.ub]
    | .fuel => [.fuel]

end Srl.Typed
