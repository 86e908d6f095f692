import Verif.Model.Shared

/-! # What is met while objects with shared pointers are stored, and where it is put -/

namespace Srl.Props
open Shared Typed

/-- The addresses of shared pointers in the order in which they are met: `before` were met before the object, `after` are
those with the object. What a pointer points to is visited the first time it is met. -/
inductive Meets (C : Nat → GTy) (G : Graph) : GTy → Obj → List Nat → List Nat → Prop
  | plain {ty o b} : Meets C G (.plain ty) o b b
  | empty {e b} : Meets C G (.vec e) (.many []) b b
  | item {e x xs b c d} : Meets C G e x b c → Meets C G (.vec e) (.many xs) c d → Meets C G (.vec e) (.many (x :: xs)) b d
  | done {xs b} : Meets C G (.record .nil) (.many xs) b b
  | member {name ty rest x xs b c d} : Meets C G ty x b c → Meets C G (.record rest) (.many xs) c d →
      Meets C G (.record (.cons name ty rest)) (.many (x :: xs)) b d
  | null {w c b} : Meets C G (.shared w c) .null b b
  | again {w c} {a : Nat} {b} : a ∈ b → Meets C G (.shared w c) (.ref (.int (.ofNat a))) b (b ++ [a])
  | first {w c} {a : Nat} {b d} : a ∉ b → Meets C G (C c) (G.obj a) (b ++ [a]) d →
      Meets C G (.shared w c) (.ref (.int (.ofNat a))) b d

/-- The place of an address in a table: its halves combined, if there are fewer than `2^32` places -/
def addrPlace (places a : Nat) : Nat := (if places < 2 ^ 32 then a ^^^ a / 2 ^ 32 else a) % places

/-- At most `L` of the addresses that were met so far share a place, in tables of `16·2^j` places that are enough for them. -/
def AddressesSpread (L : Nat) (as : List Nat) : Prop :=
  ∀ (n j b : Nat) (ys : List Nat), (∀ zs : List Nat, zs.Nodup → (∀ z ∈ zs, z ∈ as.take n) → zs.length ≤ 16 * 2 ^ j) →
    ys.Nodup → (∀ y ∈ ys, y ∈ as.take n ∧ addrPlace (16 * 2 ^ j) y = b) → ys.length ≤ L

end Srl.Props
