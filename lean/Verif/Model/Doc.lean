import Verif.Basic

/-! # Trees and reading them (src/lib/Node.cpp, src/lib/Tree.cpp)

A `Srl::Node` keeps its values and its child nodes in two separate lists. -/

namespace Srl

/-- `Srl::Node`: `scope_type`, `values`, `nodes` (include/Srl/Node.h). -/
inductive Node where
  | mk (type : ScopeTy) (values : List (Bytes × Val)) (nodes : List (Bytes × Node))
  deriving Repr

/-- A loaded tree: name and content of the root. -/
structure Root where
  name : Bytes
  node : Node

/-- `MAX_SAFE_NESTED_SCOPE_DEPTH` (Node.cpp:10) -/
def maxDepth : Nat := 128

namespace Doc

variable {σ : Type}

/-- Content of a scope: values and nodes, in the order of insertion. -/
abbrev Content := List (Bytes × Val) × List (Bytes × Node)

/-- `Node::read_source(scope_depth)` (Node.cpp:246-277) over a token reader (`Parser::read`).
`store_value`/`store_node` append to the two lists (Environment.cpp:75-84, 86-122, 133-143).
The first argument bounds the number of steps. -/
def readScope (read : σ → Res (Event × σ)) : Nat → Nat → σ → Res (Content × σ)
  | 0, _, _ => .fuel
  | fuel + 1, depth, s => do
    let (e, s) ← read s
    match e.tok with
    | .scopeEnd => .ok (([], []), s)
    | .val v => do
      let ((vs, ns), s) ← readScope read fuel depth s
      .ok (((e.name, v) :: vs, ns), s)
    | .scope t =>
      if depth + 1 > maxDepth then .err
      else do
        let ((vs', ns'), s) ← readScope read fuel (depth + 1) s
        let ((vs, ns), s) ← readScope read fuel depth s
        .ok ((vs, (e.name, .mk t vs' ns') :: ns), s)

/-- `Tree::read_source` with `prologue_in` (Tree.cpp:30-50, 71-75): the first token must start a
scope. Returns the tree and the state of parser and source. -/
def load (read : σ → Res (Event × σ)) (fuel : Nat) (s : σ) : Res (Root × σ) := do
  let (e, s) ← read s
  match e.tok with
  | .scope t => do
    let ((vs, ns), s) ← readScope read fuel 0 s
    .ok (⟨e.name, .mk t vs ns⟩, s)
  | _ => .err

end Doc

namespace Node

mutual
/-- Tokens written by `Node::to_source` (Node.cpp:496-512) for a node of the given name: values
first, then nodes. (The parsers ignore the name passed along with a scope end; the model passes
an empty one.) -/
def events : Bytes → Node → List Event
  | name, .mk t vs ns =>
    ⟨name, .scope t⟩ :: (vs.map (fun p => ⟨p.1, .val p.2⟩) ++ eventsL ns ++ [⟨[], .scopeEnd⟩])
def eventsL : List (Bytes × Node) → List Event
  | [] => []
  | (name, n) :: ns => events name n ++ eventsL ns
end

end Node
end Srl
