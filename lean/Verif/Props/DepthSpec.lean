import Verif.Model.Shared

/-! Specification for C77: restoring with a bound on the number of calls of `Switch<T>::Paste` that are
nested in one another, and types that do not contain themselves. -/

namespace Srl.Shared

mutual
/-- The classes that shared pointers in a type lead to. -/
def GTy.leads : GTy → List Nat
  | .plain _ => []
  | .vec e => e.leads
  | .record fs => fs.leads
  | .shared _ c => [c]
def GFields.leads : GFields → List Nat
  | .nil => []
  | .cons _ ty rest => ty.leads ++ rest.leads
end

/-- `kids` -/
def kidsName : Bytes := str "kids"

/-- `struct Person { vector<shared_ptr<Person>> kids; }`: every class is this one. -/
def personTy : GTy := .record (.cons kidsName (.vec (.shared false 0)) .nil)

end Srl.Shared

namespace Srl.Props
open Typed Shared

variable {σ : Type}

/-- `Tree::restore` if at most `depth` calls of `Paste` may be nested in one another: `.fuel` if this is
not enough. `total` bounds the tokens and has nothing to do with the nesting. -/
def restoreWithin (cfg : HTable.Cfg Nat) (env : Env) (C : Nat → GTy) (read : σ → Res (Event × σ))
    (total depth : Nat) (ty : GTy) (old : Obj) (s : σ) : Res (Obj × List (Nat × Obj)) := do
  let (e, s) ← read s
  match e.tok with
  | .scope t => do
    let (o, _, s) ← paste cfg env C read total depth ty old (.fresh t) (s, Objs.new)
    .ok (o, s.2.heap)
  | _ => .err

/-- `Tree::load_source` and restoring from the root of the tree, likewise. -/
def loadWithin (cfg : HTable.Cfg Nat) (env : Env) (C : Nat → GTy) (read : σ → Res (Event × σ))
    (total depth : Nat) (ty : GTy) (old : Obj) (s : σ) : Res (Obj × List (Nat × Obj)) := do
  let (r, s) ← Doc.load read total s
  let (o, _, s) ← paste cfg env C read total depth ty old (whole r.node) (s, Objs.new)
  .ok (o, s.2.heap)

/-- No class leads back to itself: there is an order in which pointers lead downwards. -/
def NotRecursive (C : Nat → GTy) : Prop :=
  ∃ rank : Nat → Nat, ∀ c, ∀ c' ∈ (C c).leads, rank c' < rank c

/-- The result if the bound of the nesting can be any number from `D` on: no call is nested deeper. -/
def Enough {α : Type} (D : Nat) (run : Nat → α) : Prop := ∀ d, D ≤ d → run d = run D

end Srl.Props
