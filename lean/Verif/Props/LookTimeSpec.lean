import Verif.Model.LookCost
import Verif.Props.KeyTime
import Verif.Props.AddrTimeSpec

/-! # What is looked up and added while objects with shared pointers are restored from a tree -/

namespace Srl.Props
open Shared Typed Doc LookCost

/-- The keys that are added -/
def added : List Op → List Nat
  | [] => []
  | .look _ :: ops => added ops
  | .add key :: ops => key :: added ops

/-- The keys that are looked up, one for each pointer -/
def lookedUp : List Op → List Nat
  | [] => []
  | .look key :: ops => key :: lookedUp ops
  | .add _ :: ops => lookedUp ops

/-- What is looked up and added, in order, when an object of a type is restored from a node: `before` was done before it,
`after` is all that was done with it. The object of a pointer is restored if its key is not there, and its key is added
after that. -/
inductive Restores (env : Env) (C : Nat → GTy) : GTy → Node → List Op → List Op → Prop
  | plain {ty n b} : Restores env C (.plain ty) n b b
  | empty {e t vs b} : Restores env C (.vec e) (.mk t vs []) b b
  | item {e t vs x ns b c d} : Restores env C e x.2 b c → Restores env C (.vec e) (.mk t vs ns) c d →
      Restores env C (.vec e) (.mk t vs (x :: ns)) b d
  | done {n b} : Restores env C (.record .nil) n b b
  | value {name ty rest n b d} : ty.isScope = false → Restores env C (.record rest) n b d →
      Restores env C (.record (.cons name ty rest)) n b d
  | scope {name ty rest t vs ns x b c d} : ty.isScope = true → findName name ns = some x → Restores env C ty x b c →
      Restores env C (.record rest) (.mk t vs ns) c d → Restores env C (.record (.cons name ty rest)) (.mk t vs ns) b d
  | known {w c n key b} : HasKey env n key → key ∈ added b → Restores env C (.shared w c) n b (b ++ [.look key])
  | newValue {w c n key b} : HasKey env n key → key ∉ added b → (C c).isScope = false →
      Restores env C (.shared w c) n b (b ++ [.look key] ++ [.add key])
  | newScope {w c t vs ns x key b d} : HasKey env (.mk t vs ns) key → key ∉ added b → (C c).isScope = true →
      findName valueName ns = some x → Restores env C (C c) x (b ++ [.look key]) d →
      Restores env C (.shared w c) (.mk t vs ns) b (d ++ [.add key])

/-- Of the keys that were added so far, none is greater than the number of them (each counted once) by `w` or more. -/
def KeysNear (w : Nat) (ks : List Nat) : Prop :=
  ∀ (n M : Nat), (∀ zs : List Nat, zs.Nodup → (∀ z ∈ zs, z ∈ ks.take n) → zs.length ≤ M) → ∀ k ∈ ks.take n, k < M + w

end Srl.Props
