import Verif.Props.Vlq
import Verif.Props.JsonLaxSpec
import Verif.Model.Fp

/-! # Specification: what the library takes for the Srl format (C89)

A grammar in terms of bytes and documents. There is no description of the format apart from the library, so the format is
what the library writes: `odd = false`. `odd = true` adds what it takes besides: bits of flags that have no meaning where
they are, numbers in more bytes than they need or with more than 64 bits, names that are repeated or empty, doubles that
are floats, and negated numbers that are not negative. -/

namespace Srl.LaxSrl

/-- `n` bytes, least significant first -/
def small : Nat → Nat → Bytes
  | 0, _ => []
  | n + 1, v => UInt8.ofNat (v % 256) :: small n (v / 256)

/-- One of the bits is set -/
def has (f bits : UInt8) : Prop := f &&& bits ≠ 0

instance (f bits : UInt8) : Decidable (has f bits) := inferInstanceAs (Decidable (_ ≠ _))

/-- A flag without what it says of the name -/
def plain (f : UInt8) : UInt8 := f &&& 0xf9

/-- Numbers: base 128 in at most ten bytes -/
def Num (odd : Bool) (n : Nat) (b : Bytes) : Prop :=
  b.length ≤ 10 ∧ ∃ k, Props.Base128 k b ∧ n = k % 2 ^ 64 ∧
    (odd = true ∨ k < 2 ^ 64 ∧ (b.length = 1 ∨ b.getLast? ≠ some 0))

/-- The flag of a value and what follows it -/
inductive Body (odd : Bool) : UInt8 → Val → Bytes → Prop
  | bool (f : UInt8) : has f 1 → has f 192 → (odd = true ∨ plain f = 65 ∨ plain f = 129) →
      Body odd f (.bool (decide (has f 64))) []
  | float (f : UInt8) (x : UInt32) : has f 1 → ¬ has f 192 → has f 16 → (odd = true ∨ plain f = 17) →
      Body odd f (.fp32 x) (small 4 x.toNat)
  | double (f : UInt8) (d : UInt64) : has f 1 → ¬ has f 208 → has f 32 →
      (odd = true ∨ plain f = 33 ∧ Fp.ofDouble d = .fp64 d) → Body odd f (Fp.ofDouble d) (small 8 d.toNat)
  | pos (f : UInt8) (n : Nat) (w : Bytes) : has f 1 → ¬ has f 248 → Num odd n w → (odd = true ∨ plain f = 1) →
      Body odd f (.int .u64 n) w
  /-- Of 64 bits the negated number -/
  | neg (f : UInt8) (n : Nat) (v : Int) (w : Bytes) : has f 1 → ¬ has f 240 → has f 8 → Num odd n w →
      -2 ^ 63 < v → v < 2 ^ 63 → (v + n) % 2 ^ 64 = 0 → (odd = true ∨ plain f = 9 ∧ v < 0) →
      Body odd f (.int .i64 v) w
  | str (f : UInt8) (s w : Bytes) : ¬ has f 209 → has f 32 → Num odd s.length w →
      (odd = true ∨ plain f = 32 ∧ s.length < 2 ^ 32) → Body odd f (.str (s.take (s.length % 2 ^ 32))) (w ++ s)
  | bin (f : UInt8) (s w : Bytes) : ¬ has f 193 → has f 16 → Num odd s.length w →
      (odd = true ∨ plain f = 16 ∧ s.length < 2 ^ 32) → Body odd f (.bin (s.take (s.length % 2 ^ 32))) (w ++ s)
  | null (f : UInt8) : ¬ has f 241 → has f 8 → (odd = true ∨ plain f = 8) → Body odd f .null []

/-- The flag of a scope -/
def Opens (odd : Bool) (f : UInt8) : ScopeTy → Prop
  | .object => ¬ has f 1 ∧ has f 64 ∧ (odd = true ∨ plain f = 64)
  | .array => ¬ has f 65 ∧ has f 128 ∧ (odd = true ∨ plain f = 128)

/-- What is between a flag and the rest of an element in a scope: nothing, the place of a name among those that were
given so far, or a name. -/
inductive Key (odd : Bool) : ScopeTy → List Bytes → UInt8 → Bytes → Bytes → List Bytes → Prop
  | none (ty : ScopeTy) (names : List Bytes) (f : UInt8) : ¬ has f 2 ∨ ty = .array → (odd = true ∨ ¬ has f 6) →
      Key odd ty names f [] [] names
  | again (names : List Bytes) (f : UInt8) (i : Nat) (n w : Bytes) : has f 2 → has f 4 → Num odd i w →
      names[i]? = some n → (odd = true ∨ n ≠ [] ∧ ∀ j < i, names[j]? ≠ some n) → Key odd .object names f n w names
  | first (names : List Bytes) (f : UInt8) (n w : Bytes) : has f 2 → ¬ has f 4 → Num odd n.length w →
      (odd = true ∨ n ≠ [] ∧ n ∉ names) → Key odd .object names f n (w ++ n) (names ++ [n])

/-- The elements of a scope and its end, with the names given before and after it -/
inductive Elems (odd : Bool) : ScopeTy → List Bytes → List Item → Bytes → List Bytes → Prop
  | nil (ty : ScopeTy) (names : List Bytes) : Elems odd ty names [] [0] names
  | val (ty : ScopeTy) (a b c : List Bytes) (f : UInt8) (n : Bytes) (v : Val) (is : List Item) (k w r : Bytes) :
      Key odd ty a f n k b → Body odd f v w → Elems odd ty b is r c →
      Elems odd ty a (.val n v :: is) (f :: (k ++ (w ++ r))) c
  | scope (ty t : ScopeTy) (a b c d : List Bytes) (f : UInt8) (n : Bytes) (js is : List Item) (k q r : Bytes) :
      Key odd ty a f n k b → Opens odd f t → Elems odd t b js q c → Elems odd ty c is r d →
      Elems odd ty a (.scope n t js :: is) (f :: (k ++ (q ++ r))) d

/-- A document -/
def Document (odd : Bool) (t : ScopeTy) (is : List Item) (names : List Bytes) (b : Bytes) : Prop :=
  ∃ f c, Opens odd f t ∧ (odd = true ∨ ¬ has f 6) ∧ Elems odd t [] is c names ∧ b = f :: c

/-- Values come before scopes. -/
def Sorted : List Item → Prop
  | [] => True
  | .val _ _ :: is => Sorted is
  | .scope _ _ js :: is => Sorted js ∧ Sorted is ∧ Props.keptValues is = []

end Srl.LaxSrl
