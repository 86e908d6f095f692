import Verif.Props.JsonSpec

/-! # The texts the JSON reader takes

A grammar that is wider than that of RFC 8259 (`Props/JsonSpec.lean`): what the library takes for a document, and the
elements it then contains. Texts are given with what is left of them: `s` and then `t`. -/

namespace Srl.Lax
open Rfc8259

/-- What separates tokens: quotes, colons, brackets, slashes -/
def marks : Bytes := str "\":{[}]/"

/-- What words may begin with -/
def starts : Bytes := str "0123456789truefalsTFnN+.-Ei"

/-- What ends words -/
def ends : Bytes := str ", }]"

/-- What is between the quotes of a string, and the bytes it means: anything. Of the escapes not in RFC 8259, `\'` is
an apostrophe and the others are the characters themselves, with the backslash. The two bytes of characters written by
number are swapped (C30). -/
inductive Chars : Bytes → Bytes → Prop
  | nil : Chars [] []
  | plain (b : UInt8) (t s : Bytes) : b ≠ 34 → b ≠ 92 → Chars t s → Chars (b :: t) (b :: s)
  | escape (e r : UInt8) (t s : Bytes) : (e, r) ∈ (39, 39) :: escapes → Chars t s → Chars (92 :: e :: t) (r :: s)
  | odd (e : UInt8) (t s : Bytes) : e ∉ ((39, 39) :: escapes).map (·.1) → e ≠ 117 → Chars (e :: t) s →
      Chars (92 :: e :: t) (92 :: s)
  | unit (u : Nat) (c : Char) (h t s : Bytes) : Unit16 h u → c.toNat = u % 256 * 256 + u / 256 → Chars t s →
      Chars (92 :: 117 :: (h ++ t)) (String.utf8EncodeChar c ++ s)

/-- The next token in a scope of the given type (`none`: in front of the document), given the name and whether there
was a colon, from a text. `word`: what words mean. -/
inductive Token (word : Bytes → Option Val) (top : Option ScopeTy) :
    Option Bytes → Bool → Bytes → Event → Bytes → Prop
  /-- Whatever is no mark is passed over in front of colons in objects. Elsewhere, whatever no word begins with is. -/
  | junk (n : Option Bytes) (c : Bool) (b : UInt8) (s : Bytes) (e : Event) (t : Bytes) : b ∉ marks →
      (c = false ∧ top ≠ some .array ∨ b ∉ starts) → Token word top n c s e t → Token word top n c (b :: s) e t
  /-- Slashes that begin no comment are passed over. -/
  | slash (n : Option Bytes) (c : Bool) (s : Bytes) (e : Event) (t : Bytes) : s.head? ≠ some 42 → s.head? ≠ some 47 →
      Token word top n c s e t → Token word top n c (47 :: s) e t
  /-- Comments up to the end of the line -/
  | line (n : Option Bytes) (c : Bool) (x : Bytes) (l : UInt8) (s : Bytes) (e : Event) (t : Bytes) :
      (∀ b ∈ x, b ≠ 10 ∧ b ≠ 13) → l = 10 ∨ l = 13 → Token word top n c s e t →
      Token word top n c (47 :: 47 :: (x ++ l :: s)) e t
  /-- Comments up to the first `*/`, the asterisk of which may be the first one. The slash is looked at again (C83). -/
  | block (n : Option Bytes) (c : Bool) (s x u : Bytes) (e : Event) (t : Bytes) :
      47 :: 42 :: s = x ++ 42 :: 47 :: u → (∀ y z, x ≠ y ++ 42 :: 47 :: z) → Token word top n c (47 :: u) e t →
      Token word top n c (47 :: 42 :: s) e t
  /-- Colons -/
  | colon (n : Option Bytes) (s : Bytes) (e : Event) (t : Bytes) : Token word top n true s e t →
      Token word top n false (58 :: s) e t
  /-- Names -/
  | name (q k s : Bytes) (e : Event) (t : Bytes) : top = some .object → Chars q k →
      Token word top (some k) false s e t → Token word top none false (34 :: (q ++ 34 :: s)) e t
  /-- Strings -/
  | str (n : Option Bytes) (c : Bool) (q v s : Bytes) : top = some .array ∨ (c = true ∧ top ≠ none) → Chars q v →
      Token word top n c (34 :: (q ++ 34 :: s)) ⟨n.getD [], .val (.str v)⟩ s
  /-- Words: commas and blanks behind them are passed over. -/
  | word (n : Option Bytes) (c : Bool) (b : UInt8) (w : Bytes) (l : UInt8) (s : Bytes) (v : Val) :
      c = true ∨ top = some .array → b ∈ starts → (∀ b ∈ w, b ∉ ends) → l ∈ ends → word (b :: w) = some v →
      Token word top n c (b :: (w ++ l :: s)) ⟨n.getD [], .val v⟩ (if l = 44 ∨ l = 32 then s else l :: s)
  /-- Opening brackets -/
  | opened (n : Option Bytes) (c : Bool) (k : ScopeTy) (s : Bytes) :
      Token word top n c ((match k with | .array => 91 | .object => 123) :: s) ⟨n.getD [], .scope k⟩ s
  /-- Closing brackets, of either kind -/
  | closed (n : Option Bytes) (c : Bool) (b : UInt8) (s : Bytes) : top ≠ none → b = 93 ∨ b = 125 →
      Token word top n c (b :: s) ⟨n.getD [], .scopeEnd⟩ s

/-- The elements of a scope of the given type up to its closing bracket -/
inductive Scope (word : Bytes → Option Val) : ScopeTy → Bytes → List Item → Bytes → Prop
  | nil (ty : ScopeTy) (n s t : Bytes) : Token word (some ty) none false s ⟨n, .scopeEnd⟩ t → Scope word ty s [] t
  | val (ty : ScopeTy) (n : Bytes) (v : Val) (is : List Item) (s u t : Bytes) :
      Token word (some ty) none false s ⟨n, .val v⟩ u → Scope word ty u is t → Scope word ty s (.val n v :: is) t
  | scope (ty k : ScopeTy) (n : Bytes) (is js : List Item) (s u w t : Bytes) :
      Token word (some ty) none false s ⟨n, .scope k⟩ u → Scope word k u is w → Scope word ty w js t →
      Scope word ty s (.scope n k is :: js) t

/-- A document: the first token opens a scope. -/
def Document (word : Bytes → Option Val) (s : Bytes) (k : ScopeTy) (is : List Item) (t : Bytes) : Prop :=
  ∃ n u, Token word none none false s ⟨n, .scope k⟩ u ∧ Scope word k u is t

end Srl.Lax

namespace Srl.Props

mutual
/-- The elements of a scope as the library keeps them: values and nodes apart. -/
def keptValues : List Item → List (Bytes × Val)
  | [] => []
  | .val n v :: is => (n, v) :: keptValues is
  | .scope _ _ _ :: is => keptValues is
def keptNodes : List Item → List (Bytes × Node)
  | [] => []
  | .val _ _ :: is => keptNodes is
  | .scope n k js :: is => (n, .mk k (keptValues js) (keptNodes js)) :: keptNodes is
end

mutual
/-- How many scopes are nested in these elements -/
def nesting : List Item → Nat
  | [] => 0
  | .val _ _ :: is => nesting is
  | .scope _ _ js :: is => max (nesting js + 1) (nesting is)
end

end Srl.Props
