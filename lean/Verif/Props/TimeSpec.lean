import Verif.Model.Doc

/-! # The order in which a document has its names -/

namespace Srl.Props

/-- What the parser gives from a state on, to the end of a scope with `depth` scopes open in it: the names -/
inductive NamesRead {σ : Type} (read : σ → Res (Event × σ)) : Nat → σ → List Bytes → Prop
  | done (s s' : σ) (name : Bytes) : read s = .ok (⟨name, .scopeEnd⟩, s') → NamesRead read 0 s []
  | close (depth : Nat) (s s' : σ) (name : Bytes) (xs : List Bytes) : read s = .ok (⟨name, .scopeEnd⟩, s') →
      NamesRead read depth s' xs → NamesRead read (depth + 1) s xs
  | val (depth : Nat) (s s' : σ) (name : Bytes) (v : Val) (xs : List Bytes) : read s = .ok (⟨name, .val v⟩, s') →
      NamesRead read depth s' xs → NamesRead read depth s (name :: xs)
  | scope (depth : Nat) (s s' : σ) (name : Bytes) (t : ScopeTy) (xs : List Bytes) : read s = .ok (⟨name, .scope t⟩, s') →
      NamesRead read (depth + 1) s' xs → NamesRead read depth s (name :: xs)

/-- The names of a document in their order, that of the root first -/
def DocNames {σ : Type} (read : σ → Res (Event × σ)) (s : σ) (xs : List Bytes) : Prop :=
  ∃ (name : Bytes) (t : ScopeTy) (s' : σ) (ys : List Bytes),
    read s = .ok (⟨name, .scope t⟩, s') ∧ NamesRead read 0 s' ys ∧ xs = name :: ys

/-- There are at most `n` different names. -/
def AtMost (n : Nat) (names : List Bytes) : Prop :=
  ∀ zs : List Bytes, zs.Nodup → (∀ z ∈ zs, z ∈ names ∧ z ≠ []) → zs.length ≤ n

mutual
/-- The names that are written for a tree in the Srl format, in their order: those of the items of objects -/
def namesWritten : Node → List Bytes
  | .mk t vs ns => (if t = .object then vs.map (·.1) else []) ++ namesWrittenL t ns
def namesWrittenL : ScopeTy → List (Bytes × Node) → List Bytes
  | _, [] => []
  | t, (name, n) :: ns => (if t = .object then [name] else []) ++ (namesWritten n ++ namesWrittenL t ns)
end

end Srl.Props
