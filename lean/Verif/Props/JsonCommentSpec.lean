import Verif.Props.JsonSpec

/-! # JSON texts with comments

The grammar of `Props/JsonSpec.lean` with comments as in C++ wherever blanks are allowed. -/

namespace Srl.Rfc8259

/-- Blanks and comments: those from `//` to the end of the line and those from `/*` to the next `*/`. With `apart`, no
comment follows a `*/` at once, and none begins with `/*/`. -/
inductive Gap (apart : Bool) : Bytes → Prop
  | nil : Gap apart []
  | blank (b : UInt8) (t : Bytes) : b = 32 ∨ b = 9 ∨ b = 10 ∨ b = 13 → Gap apart t → Gap apart (b :: t)
  | line (c : Bytes) (e : UInt8) (t : Bytes) : (∀ b ∈ c, b ≠ 10 ∧ b ≠ 13) → e = 10 ∨ e = 13 → Gap apart t →
      Gap apart (47 :: 47 :: (c ++ e :: t))
  | block (c t : Bytes) : (∀ x y, c ≠ x ++ 42 :: 47 :: y) → (apart = true → c.head? ≠ some 47 ∧ t.head? ≠ some 47) →
      Gap apart t → Gap apart (47 :: 42 :: (c ++ 42 :: 47 :: t))

/-- A blank is in front of the first comment, or there is none; line ends and tabs do not count. -/
def Spaced (t : Bytes) : Prop :=
  ∃ w r, t = w ++ r ∧ (∀ b ∈ w, b = 9 ∨ b = 10 ∨ b = 13) ∧ (r = [] ∨ r.head? = some 32)

/-- `null`, truth values and numbers -/
def Json.isWord : Json → Bool
  | .null => true
  | .bool _ => true
  | .num _ _ => true
  | _ => false

/-- What may be behind a value: with `apart`, comments are separated from words by a blank. -/
def Behind (apart : Bool) (x : Json) (t : Bytes) : Prop :=
  Gap apart t ∧ (apart = true → x.isWord = true → Spaced t)

mutual
/-- Texts of values with comments in them; as `Text` otherwise. -/
inductive CText (apart uni : Bool) (N : Bytes → Bool → ℚ → Prop) : Bytes → Json → Prop
  | null : CText apart uni N (str "null") .null
  | true : CText apart uni N (str "true") (.bool true)
  | false : CText apart uni N (str "false") (.bool false)
  | num (t : Bytes) (neg : Bool) (v : ℚ) : N t neg v → CText apart uni N t (.num neg v)
  | str (t s : Bytes) : Chars uni t s → CText apart uni N (34 :: (t ++ [34])) (.str s)
  | arr0 (w : Bytes) : Gap apart w → CText apart uni N (91 :: (w ++ [93])) (.arr [])
  | arr (t : Bytes) (xs : List Json) : CElems apart uni N t xs → CText apart uni N (91 :: (t ++ [93])) (.arr xs)
  | obj0 (w : Bytes) : Gap apart w → CText apart uni N (123 :: (w ++ [125])) (.obj [])
  | obj (t : Bytes) (ms : List (Bytes × Json)) : CMembers apart uni N t ms →
      CText apart uni N (123 :: (t ++ [125])) (.obj ms)
inductive CElems (apart uni : Bool) (N : Bytes → Bool → ℚ → Prop) : Bytes → List Json → Prop
  | one (a t b : Bytes) (x : Json) : Gap apart a → CText apart uni N t x → Behind apart x b →
      CElems apart uni N (a ++ (t ++ b)) [x]
  | more (a t b u : Bytes) (x : Json) (xs : List Json) : Gap apart a → CText apart uni N t x → Behind apart x b →
      CElems apart uni N u xs → CElems apart uni N (a ++ (t ++ (b ++ 44 :: u))) (x :: xs)
inductive CMembers (apart uni : Bool) (N : Bytes → Bool → ℚ → Prop) : Bytes → List (Bytes × Json) → Prop
  | one (a k n b c t d : Bytes) (x : Json) : Gap apart a → Chars uni k n → Gap apart b → Gap apart c →
      CText apart uni N t x → Behind apart x d →
      CMembers apart uni N (a ++ 34 :: (k ++ 34 :: (b ++ 58 :: (c ++ (t ++ d))))) [(n, x)]
  | more (a k n b c t d u : Bytes) (x : Json) (ms : List (Bytes × Json)) : Gap apart a → Chars uni k n → Gap apart b →
      Gap apart c → CText apart uni N t x → Behind apart x d → CMembers apart uni N u ms →
      CMembers apart uni N (a ++ 34 :: (k ++ 34 :: (b ++ 58 :: (c ++ (t ++ (d ++ 44 :: u)))))) ((n, x) :: ms)
end

/-- A value with blanks and comments around it -/
def CDocumentOf (apart uni : Bool) (N : Bytes → Bool → ℚ → Prop) (t : Bytes) (x : Json) : Prop :=
  ∃ a u b, t = a ++ (u ++ b) ∧ Gap apart a ∧ CText apart uni N u x ∧ Gap apart b

/-- JSON texts with comments -/
def Commented (t : Bytes) (x : Json) : Prop := CDocumentOf false true Number t x

end Srl.Rfc8259
