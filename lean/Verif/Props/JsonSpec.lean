import Verif.Props.Decimal
import Verif.Model.Doc

/-! # What JSON texts are and mean (RFC 8259)

A specification, independent of how the library writes and reads. Texts are taken as bytes: which of those from
`0x80` up form characters is not looked at. -/

namespace Srl.Rfc8259

/-- What a text stands for. Numbers are given by sign and magnitude. -/
inductive Json where
  | null
  | bool (b : Bool)
  | num (neg : Bool) (v : ℚ)
  | str (s : Bytes)
  | arr (xs : List Json)
  | obj (ms : List (Bytes × Json))

mutual
/-- Number of nested arrays and objects -/
def Json.depth : Json → Nat
  | .arr xs => Json.depthL xs + 1
  | .obj ms => Json.depthM ms + 1
  | _ => 0
def Json.depthL : List Json → Nat
  | [] => 0
  | x :: xs => max x.depth (Json.depthL xs)
def Json.depthM : List (Bytes × Json) → Nat
  | [] => 0
  | (_, x) :: ms => max x.depth (Json.depthM ms)
end

/-- Arrays and objects -/
def Json.isScope : Json → Bool
  | .arr _ => true
  | .obj _ => true
  | _ => false

/-- Section 2: blanks, tabs and line breaks -/
def Ws (t : Bytes) : Prop := ∀ b ∈ t, b = 32 ∨ b = 9 ∨ b = 10 ∨ b = 13

/-- At least one digit -/
def Digits (t : Bytes) : Prop := t ≠ [] ∧ ∀ c ∈ t, Dec.isDigit c = true

/-- Section 6: no leading zeros -/
def IntPart (i : Bytes) : Prop := Digits i ∧ (i.head? = some 48 → i = [48])

/-- A point and digits `d`, or nothing -/
def Frac (f d : Bytes) : Prop := (f = [] ∧ d = []) ∨ (f = 46 :: d ∧ Digits d)

/-- A power of ten, or nothing -/
def Exponent (x : Bytes) (e : ℤ) : Prop :=
  (x = [] ∧ e = 0) ∨ ∃ c s d, (c = 101 ∨ c = 69) ∧ Digits d ∧ x = c :: (s ++ d) ∧
    ((s = [] ∧ e = Dec.num d) ∨ (s = [43] ∧ e = Dec.num d) ∨ (s = [45] ∧ e = -(Dec.num d : ℤ)))

/-- Section 6: numbers -/
def Number (t : Bytes) (neg : Bool) (v : ℚ) : Prop :=
  ∃ i f d x e, IntPart i ∧ Frac f d ∧ Exponent x e ∧ t = (if neg then [45] else []) ++ (i ++ (f ++ x)) ∧
    v = (Dec.num (i ++ d) : ℚ) * 10 ^ (e - d.length)

/-- A number without a fraction and an exponent -/
def Plain (t : Bytes) : Prop := ∀ c ∈ t, Dec.isDigit c = true ∨ c = 45

/-- Section 7: the short escapes and what they mean -/
def escapes : List (UInt8 × UInt8) :=
  [(34, 34), (92, 92), (47, 47), (98, 8), (102, 12), (110, 10), (114, 13), (116, 9)]

/-- The number written with these hexadecimal digits, in either case -/
def hexDigit (c : UInt8) : Option Nat :=
  if 48 ≤ c ∧ c ≤ 57 then some (c.toNat - 48)
  else if 65 ≤ c ∧ c ≤ 70 then some (c.toNat - 55)
  else if 97 ≤ c ∧ c ≤ 102 then some (c.toNat - 87)
  else none

/-- Four hexadecimal digits and the code unit of UTF-16 they name -/
def Unit16 (t : Bytes) (u : Nat) : Prop :=
  ∃ a b c d x y z w, t = [a, b, c, d] ∧ hexDigit a = some x ∧ hexDigit b = some y ∧ hexDigit c = some z ∧
    hexDigit d = some w ∧ u = ((x * 16 + y) * 16 + z) * 16 + w

/-- Section 7: what is between the quotes of a string, and the bytes it means. `uni`: whether characters are written
by their numbers somewhere. -/
inductive Chars (uni : Bool) : Bytes → Bytes → Prop
  | nil : Chars uni [] []
  | plain (b : UInt8) (t s : Bytes) : 32 ≤ b → b ≠ 34 → b ≠ 92 → Chars uni t s → Chars uni (b :: t) (b :: s)
  | escape (e r : UInt8) (t s : Bytes) : (e, r) ∈ escapes → Chars uni t s → Chars uni (92 :: e :: t) (r :: s)
  | unit (c : Char) (h t s : Bytes) : uni = true → c.toNat < 0x10000 → Unit16 h c.toNat → Chars uni t s →
      Chars uni (92 :: 117 :: (h ++ t)) (String.utf8EncodeChar c ++ s)
  | pair (c : Char) (h l t s : Bytes) : uni = true → 0x10000 ≤ c.toNat →
      Unit16 h (0xD800 + (c.toNat - 0x10000) / 0x400) → Unit16 l (0xDC00 + (c.toNat - 0x10000) % 0x400) →
      Chars uni t s → Chars uni (92 :: 117 :: (h ++ 92 :: 117 :: (l ++ t))) (String.utf8EncodeChar c ++ s)

mutual
/-- Sections 3 to 7: texts of values. `N`: which texts are numbers. -/
inductive Text (uni : Bool) (N : Bytes → Bool → ℚ → Prop) : Bytes → Json → Prop
  | null : Text uni N (str "null") .null
  | true : Text uni N (str "true") (.bool true)
  | false : Text uni N (str "false") (.bool false)
  | num (t : Bytes) (neg : Bool) (v : ℚ) : N t neg v → Text uni N t (.num neg v)
  | str (t s : Bytes) : Chars uni t s → Text uni N (34 :: (t ++ [34])) (.str s)
  | arr0 (w : Bytes) : Ws w → Text uni N (91 :: (w ++ [93])) (.arr [])
  | arr (t : Bytes) (xs : List Json) : Elems uni N t xs → Text uni N (91 :: (t ++ [93])) (.arr xs)
  | obj0 (w : Bytes) : Ws w → Text uni N (123 :: (w ++ [125])) (.obj [])
  | obj (t : Bytes) (ms : List (Bytes × Json)) : Members uni N t ms → Text uni N (123 :: (t ++ [125])) (.obj ms)
/-- What is between the brackets of an array -/
inductive Elems (uni : Bool) (N : Bytes → Bool → ℚ → Prop) : Bytes → List Json → Prop
  | one (a t b : Bytes) (x : Json) : Ws a → Text uni N t x → Ws b → Elems uni N (a ++ (t ++ b)) [x]
  | more (a t b u : Bytes) (x : Json) (xs : List Json) : Ws a → Text uni N t x → Ws b → Elems uni N u xs →
      Elems uni N (a ++ (t ++ (b ++ 44 :: u))) (x :: xs)
/-- What is between the brackets of an object -/
inductive Members (uni : Bool) (N : Bytes → Bool → ℚ → Prop) : Bytes → List (Bytes × Json) → Prop
  | one (a k n b c t d : Bytes) (x : Json) : Ws a → Chars uni k n → Ws b → Ws c → Text uni N t x → Ws d →
      Members uni N (a ++ 34 :: (k ++ 34 :: (b ++ 58 :: (c ++ (t ++ d))))) [(n, x)]
  | more (a k n b c t d u : Bytes) (x : Json) (ms : List (Bytes × Json)) : Ws a → Chars uni k n → Ws b → Ws c →
      Text uni N t x → Ws d → Members uni N u ms →
      Members uni N (a ++ 34 :: (k ++ 34 :: (b ++ 58 :: (c ++ (t ++ (d ++ 44 :: u)))))) ((n, x) :: ms)
end

/-- Section 2: a value with blanks around it -/
def DocumentOf (uni : Bool) (N : Bytes → Bool → ℚ → Prop) (t : Bytes) (x : Json) : Prop :=
  ∃ a u b, t = a ++ (u ++ b) ∧ Ws a ∧ Text uni N u x ∧ Ws b

/-- JSON texts -/
def Document (t : Bytes) (x : Json) : Prop := DocumentOf true Number t x

/-! ## Reading numbers -/

/-- `strtod` rounds correctly, for all texts of JSON numbers that are not so large that they are rounded to infinity. -/
def Rounds (strtod : Bytes → Option UInt64) : Prop :=
  ∀ t neg v, Number t neg v → v < (Dec.dbl (Fp.inf64 - 1) + Dec.dbl Fp.inf64) / 2 →
    ∃ n, Dec.Nearest v n ∧ strtod t = some (Fp.join64 neg n)

/-- There are at most 200 tabs and line ends in a row. -/
def Runs (t : Bytes) : Prop :=
  ∀ x w y : Bytes, t = x ++ (w ++ y) → (∀ b ∈ w, b = 9 ∨ b = 10 ∨ b = 13) → w.length ≤ 200

end Srl.Rfc8259

namespace Srl.Props
open Rfc8259

/-! ## What a tree is as JSON (C78) -/

/-- The number written, nearer to this double than to any other -/
def DoubleAs (d : UInt64) (x : Json) : Prop :=
  ∃ neg v, x = .num neg v ∧ (neg = (Fp.split64 d).1 ∨ v = 0) ∧ Dec.Nearest v (Fp.split64 d).2 ∧
    ∀ n, Dec.Nearest v n → n = (Fp.split64 d).2

/-- What a value is as JSON: integers exactly, floating point numbers such that they can be told from all others,
binary data as base64 text (`b64`). -/
def ValueAs (b64 : Bytes → Bytes) : Val → Json → Prop
  | .null, x => x = .null
  | .bool b, x => x = .bool b
  | .int _ k, x => x = .num (decide (k < 0)) ((k.natAbs : Nat) : ℚ)
  | .fp32 f, x => DoubleAs (Fp.widen f) x
  | .fp64 d, x => DoubleAs d x
  | .str s, x => x = .str s
  | .bin b, x => x = .str (b64 b)

mutual
/-- What a node is as JSON: values first, then nodes; arrays have no names. -/
inductive NodeAs (b64 : Bytes → Bytes) : Node → Json → Prop
  | array (vs : List (Bytes × Val)) (ns : List (Bytes × Node)) (ms : List (Bytes × Json)) :
      FieldsAs b64 vs ns ms → NodeAs b64 (.mk .array vs ns) (.arr (ms.map (·.2)))
  | object (vs : List (Bytes × Val)) (ns : List (Bytes × Node)) (ms : List (Bytes × Json)) :
      FieldsAs b64 vs ns ms → NodeAs b64 (.mk .object vs ns) (.obj ms)
inductive FieldsAs (b64 : Bytes → Bytes) : List (Bytes × Val) → List (Bytes × Node) → List (Bytes × Json) → Prop
  | nil : FieldsAs b64 [] [] []
  | node (n : Bytes) (x : Node) (j : Json) (ns : List (Bytes × Node)) (ms : List (Bytes × Json)) :
      NodeAs b64 x j → FieldsAs b64 [] ns ms → FieldsAs b64 [] ((n, x) :: ns) ((n, j) :: ms)
  | val (n : Bytes) (v : Val) (j : Json) (vs : List (Bytes × Val)) (ns : List (Bytes × Node))
      (ms : List (Bytes × Json)) : ValueAs b64 v j → FieldsAs b64 vs ns ms →
      FieldsAs b64 ((n, v) :: vs) ns ((n, j) :: ms)
end

/-! ## What JSON is as a tree (C79) -/

/-- A number, exactly or rounded to the nearest double -/
def NumberRead (neg : Bool) (v : ℚ) : Val → Prop
  | .int _ k => (k : ℚ) = if neg then -v else v
  | .fp32 f => ∃ n, Dec.Nearest v n ∧ Fp.widen f = Fp.join64 neg n
  | .fp64 d => ∃ n, Dec.Nearest v n ∧ d = Fp.join64 neg n
  | _ => False

/-- What a value is read as -/
def ValueRead : Json → Val → Prop
  | .null, w => w = .null
  | .bool b, w => w = .bool b
  | .num neg v, w => NumberRead neg v w
  | .str s, w => w = .str s
  | .arr _, _ => False
  | .obj _, _ => False

mutual
/-- What an array or object is read as: all members in their order, values and nodes apart. -/
inductive NodeRead : Json → Node → Prop
  | arr (xs : List Json) (vs : List (Bytes × Val)) (ns : List (Bytes × Node)) :
      FieldsRead (xs.map fun x => ([], x)) vs ns → NodeRead (.arr xs) (.mk .array vs ns)
  | obj (ms : List (Bytes × Json)) (vs : List (Bytes × Val)) (ns : List (Bytes × Node)) :
      FieldsRead ms vs ns → NodeRead (.obj ms) (.mk .object vs ns)
inductive FieldsRead : List (Bytes × Json) → List (Bytes × Val) → List (Bytes × Node) → Prop
  | nil : FieldsRead [] [] []
  | val (n : Bytes) (j : Json) (w : Val) (ms : List (Bytes × Json)) (vs : List (Bytes × Val))
      (ns : List (Bytes × Node)) : ValueRead j w → FieldsRead ms vs ns →
      FieldsRead ((n, j) :: ms) ((n, w) :: vs) ns
  | node (n : Bytes) (j : Json) (x : Node) (ms : List (Bytes × Json)) (vs : List (Bytes × Val))
      (ns : List (Bytes × Node)) : NodeRead j x → FieldsRead ms vs ns →
      FieldsRead ((n, j) :: ms) vs ((n, x) :: ns)
end

/-- Numbers the library is able to read: integers below `2^64` and other numbers not rounded to infinity -/
def Readable (t : Bytes) (neg : Bool) (v : ℚ) : Prop :=
  Number t neg v ∧ (Plain t → v < 2 ^ 64) ∧ v < (Dec.dbl (Fp.inf64 - 1) + Dec.dbl Fp.inf64) / 2

end Srl.Props
