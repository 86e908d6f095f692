import Verif.Model.Shared
import Verif.Props.LookTimeSpec
import Verif.Props.SharedSpec

/-! # The keys in what is stored for objects with shared pointers -/

namespace Srl.Props
open Shared Typed Doc LookCost

/-- The keys of the shared pointers of an object of a type in what is stored for it, in their order: that of a pointer comes
before those in its object. -/
inductive KeysIn (C : Nat → GTy) : GTy → Item → List Nat → Prop
  | plain {ty i} : KeysIn C (.plain ty) i []
  | empty {e name s} : KeysIn C (.vec e) (.scope name s []) []
  | item {e name s i is ks ls} : KeysIn C e i ks → KeysIn C (.vec e) (.scope name s is) ls →
      KeysIn C (.vec e) (.scope name s (i :: is)) (ks ++ ls)
  | done {name s} : KeysIn C (.record .nil) (.scope name s []) []
  | member {name s field ty rest i is ks ls} : KeysIn C ty i ks → KeysIn C (.record rest) (.scope name s is) ls →
      KeysIn C (.record (.cons field ty rest)) (.scope name s (i :: is)) (ks ++ ls)
  | null {w c name} : KeysIn C (.shared w c) (.val name .null) []
  | again {w c name} {key : Nat} : KeysIn C (.shared w c) (.scope name .object [.val keyName (.int .u64 key)]) [key]
  | first {w c name} {key : Nat} {i ks} : KeysIn C (C c) i ks →
      KeysIn C (.shared w c) (.scope name .object [.val keyName (.int .u64 key), i]) (key :: ks)

/-- The object `o` is restored from the loaded tree; the keys of its pointers are looked up in the order in which they were
given, and for at most 2^32 pointers what is done in the table of keys is in proportion to them. -/
def RestoredInOrder {σ : Type} (env : Env) (C : Nat → GTy) (G : Graph) (ty : GTy) (o old : Obj) (read : σ → Res (Event × σ))
    (fuel : Nat) (s : σ) : Prop :=
  ∃ y heap r s1 ops t k, Shared.loadUnwrap KeyCost.keys env C read fuel ty old s = .ok (y, heap) ∧ Copy C G ty o y heap ∧
    load read fuel s = .ok (r, s1) ∧ Restores env C ty r.node [] ops ∧ KeysInOrder 0 (lookedUp ops) ∧
    run (HTable.new 16) 0 ops = .ok (t, k) ∧ ((lookedUp ops).length ≤ 2 ^ 32 → k ≤ 76 * (lookedUp ops).length + 224)

end Srl.Props
