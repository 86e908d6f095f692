/-! # The keys of shared pointers in the order in which they are given -/

namespace Srl.Props

/-- `N` keys were given before; the next that is new is `N`. -/
inductive KeysInOrder : Nat → List Nat → Prop
  | nil {N : Nat} : KeysInOrder N []
  | again {N k : Nat} {ks : List Nat} : k < N → KeysInOrder N ks → KeysInOrder N (k :: ks)
  | next {N : Nat} {ks : List Nat} : KeysInOrder (N + 1) ks → KeysInOrder N (N :: ks)

end Srl.Props
