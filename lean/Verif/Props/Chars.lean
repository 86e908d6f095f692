import Verif.Lemmas.Chars
import Verif.Model.PJson

/-! # C52 – wide strings; C50, C53 – character arrays

Texts are lists of `Char`, Lean's type of Unicode characters; their UTF-8 form is Lean's own. -/

namespace Srl.Props

open Chars

/-- Specification: the code units of a character in UTF-16. -/
def units16 (c : Char) : List Nat :=
  if c.toNat < 0x10000 then [c.toNat]
  else [0xD800 + (c.toNat - 0x10000) / 0x400, 0xDC00 + (c.toNat - 0x10000) % 0x400]

/-- Specification: the bytes of a text. -/
def textIn : Enc → List Char → Bytes
  | .unknown, _ => []
  | .utf8, t => t.flatMap String.utf8EncodeChar
  | .utf16, t => (t.flatMap units16).flatMap (leBytes 2)
  | .utf32, t => (t.map Char.toNat).flatMap (leBytes 4)

private theorem scalar_char (c : Char) : Scalar c.toNat := by
  rcases c.valid with h | h
  · left
    exact h
  · right
    exact ⟨h.1, h.2⟩

private theorem char_of {n : Nat} (h : Scalar n) : ∃ c : Char, c.toNat = n := by
  have hv : n.isValidChar := by
    rcases h with h | h
    · left; exact h
    · right; exact ⟨by omega, h.2⟩
  exact ⟨Char.ofNat n, by simp [Char.ofNat, hv, Char.ofNatAux, Char.toNat]⟩

private theorem chars_of {cs : List Nat} (h : ∀ c ∈ cs, Scalar c) : ∃ t : List Char, t.map Char.toNat = cs := by
  induction cs with
  | nil => exact ⟨[], rfl⟩
  | cons c cs ih =>
    obtain ⟨a, ha⟩ := char_of (h c (by simp))
    obtain ⟨t, ht⟩ := ih fun x hx => h x (by simp [hx])
    exact ⟨a :: t, by simp [ha, ht]⟩

private theorem utf8_char (c : Char) : String.utf8EncodeChar c = encode .utf8 c.toNat := by
  have hs := scalar_char c
  unfold Scalar at hs
  simp only [String.utf8EncodeChar, encode, Char.toNat_val]
  generalize c.toNat = v at *
  by_cases h1 : v < 0x80
  · rw [if_pos (by omega), if_pos h1]
  · rw [if_neg (by omega), if_neg h1]
    by_cases h2 : v < 0x800
    · rw [if_pos (by omega), if_pos h2]
      rw [show v / 64 % 32 + 192 = 0xC0 + v / 64 by omega, show v % 64 + 128 = 0x80 + v % 64 by omega]
    · rw [if_neg (by omega), if_neg h2]
      by_cases h3 : v < 0x10000
      · rw [if_pos (by omega), if_pos h3]
        rw [show v / 4096 % 16 + 224 = 0xE0 + v / 4096 by omega,
          show v / 64 % 64 + 128 = 0x80 + v / 64 % 64 by omega, show v % 64 + 128 = 0x80 + v % 64 by omega]
      · rw [if_neg (by omega), if_neg h3]
        rw [show v / 262144 % 8 + 240 = 0xF0 + v / 262144 by omega,
          show v / 4096 % 64 + 128 = 0x80 + v / 4096 % 64 by omega,
          show v / 64 % 64 + 128 = 0x80 + v / 64 % 64 by omega, show v % 64 + 128 = 0x80 + v % 64 by omega]

private theorem text_encodes (e : Enc) (t : List Char) : textIn e t = encodes e (t.map Char.toNat) := by
  cases e with
  | unknown => induction t <;> simp_all [textIn, encode]
  | utf8 =>
    induction t with
    | nil => rfl
    | cons c t ih =>
      simp only [textIn, List.flatMap_cons, List.map_cons, encodes_cons] at *
      rw [ih, utf8_char]
  | utf16 =>
    induction t with
    | nil => rfl
    | cons c t ih =>
      simp only [textIn, List.flatMap_cons, List.map_cons, encodes_cons, List.flatMap_append] at *
      rw [ih]
      congr 1
      simp only [units16, encode]
      split <;> simp
  | utf32 =>
    induction t with
    | nil => rfl
    | cons c t ih =>
      simp only [textIn, List.flatMap_cons, List.map_cons, encodes_cons] at *
      rw [ih]
      rfl

private theorem text_inj (e : Enc) (he : e ≠ .unknown) (t : List Char) (cs : List Nat) (r : Bytes)
    (hc : ∀ c ∈ cs, Scalar c) (hr : r = [] ∨ decode e r = none) (h : textIn e t = encodes e cs ++ r) :
    t.map Char.toNat = cs ∧ r = [] := by
  rw [text_encodes] at h
  refine encodes_unique e he cs _ r hc ?_ hr h
  intro c hc
  obtain ⟨x, -, rfl⟩ := List.mem_map.mp hc
  exact scalar_char x

/-! ## Conversion -/

/-- C52: `conv_charset` converts every text exactly, between any two encodings, whatever the buffer is. -/
theorem charset_converts (e d : Enc) (he : e ≠ .unknown) (hd : d ≠ .unknown) (t : List Char) (buf : Bytes)
    (throwError : Bool) :
    ∃ buf', convCharset d (textIn e t) e buf throwError 0 = .ok (buf', (textIn d t).length) ∧
      buf'.take (textIn d t).length = textIn d t := by
  by_cases hed : e = d
  · subst hed
    unfold convCharset
    by_cases h0 : (textIn e t).length < 1
    · have : textIn e t = [] := List.length_eq_zero_iff.mp (by omega)
      rw [if_pos h0, this]
      exact ⟨buf, rfl, by simp⟩
    · rw [if_neg h0, if_pos rfl]
      simp only [Nat.add_zero]
      generalize hb : (if buf.length < (textIn e t).length then resize buf (textIn e t).length else buf) = b
      have hl : (textIn e t).length ≤ b.length := by
        rw [← hb]
        split
        · simp
        · omega
      obtain ⟨b', p1, p2, p3, -⟩ := put_ok b 0 (textIn e t) (by omega) (by omega)
      exact ⟨b', by rw [p1]; rfl, by simpa using p3⟩
  · rcases convCharset_spec e d he hd hed (textIn e t) buf throwError with
      ⟨cs, buf', k1, k2, k3, k4, -⟩ | ⟨cs, rest, k1, k2, k3, k4, -⟩
    · obtain ⟨rfl, -⟩ := text_inj e he t cs [] k1 (.inl rfl) (by simpa using k2)
      rw [text_encodes d]
      exact ⟨buf', k3, k4⟩
    · exact absurd (text_inj e he t cs rest k1 (.inr k4) k2).2 k3

/-- C52: bytes that are not a text of the encoding are refused: with an exception, or with the size 0. -/
theorem charset_rejects (e d : Enc) (he : e ≠ .unknown) (hd : d ≠ .unknown) (hed : e ≠ d) (bs : Bytes)
    (hbad : ∀ t, bs ≠ textIn e t) (buf : Bytes) :
    convCharset d bs e buf true 0 = .err ∧ ∃ buf', convCharset d bs e buf false 0 = .ok (buf', 0) := by
  constructor
  · rcases convCharset_spec e d he hd hed bs buf true with ⟨cs, buf', k1, k2, -⟩ | ⟨cs, rest, -, -, -, -, k⟩
    · obtain ⟨t, rfl⟩ := chars_of k1
      exact absurd (by rw [text_encodes]; exact k2) (hbad t)
    · exact k
  · rcases convCharset_spec e d he hd hed bs buf false with ⟨cs, buf', k1, k2, -⟩ | ⟨cs, rest, -, -, -, -, k⟩
    · obtain ⟨t, rfl⟩ := chars_of k1
      exact absurd (by rw [text_encodes]; exact k2) (hbad t)
    · exact k

private theorem take_width (e : Enc) (he : e ≠ .unknown) (t : List Char) :
    (textIn e t).take ((textIn e t).length / e.width * e.width) = textIn e t := by
  have hd : e.width ∣ (textIn e t).length := by
    rw [text_encodes]
    generalize t.map Char.toNat = cs
    induction cs with
    | nil => simp
    | cons c cs ih =>
      simp only [encodes_cons, List.length_append]
      refine Nat.dvd_add ?_ ih
      cases e with
      | unknown => exact absurd rfl he
      | utf8 => exact Nat.one_dvd _
      | utf16 =>
        simp only [encode, Enc.width]
        split
        · simp
        · simp
      | utf32 => simp [encode, Enc.width]
  rw [Nat.div_mul_cancel hd, List.take_length]

/-- C52: a string of any width restored into a string of any width is the same text. -/
theorem string_restored (e d : Enc) (he : e ≠ .unknown) (hd : d ≠ .unknown) (t : List Char) :
    pasteString d (textIn e t) e = .ok (textIn d t) := by
  unfold pasteString unwrap
  by_cases h0 : (textIn e t).length < 1
  · rw [if_pos h0]
    have h1 : textIn e t = [] := List.length_eq_zero_iff.mp (by omega)
    obtain ⟨h2, -⟩ := text_inj e he t [] [] (by simp) (.inl rfl) (by simpa using h1)
    have : t = [] := by simpa using h2
    subst this
    cases d <;> rfl
  · rw [if_neg h0]
    by_cases hed : e = d
    · subst hed
      rw [if_pos rfl, take_width e he]
    · rw [if_neg hed]
      unfold convVec
      obtain ⟨buf, h1, h2⟩ := charset_converts e d he hd t [] true
      rw [h1]
      simp only [Res.ok_bind]
      have hl : (textIn d t).length ≤ buf.length := by
        have := congrArg List.length h2
        rw [List.length_take] at this
        omega
      have hr : resize buf (textIn d t).length = textIn d t := by
        rw [resize, h2, show (textIn d t).length - buf.length = 0 by omega]
        simp
      rw [hr, take_width d hd]

/-- C52: strings stored one after the other, with any buffer left from before, are written as the UTF-8
form of their texts, in text formats and in binary ones. -/
theorem strings_written (text : Bool) (ss : List (List Char × Enc)) (hs : ∀ p ∈ ss, p.2 ≠ .unknown)
    (buf : Bytes) :
    writeStrs text (ss.map fun p => (textIn p.2 p.1, p.2)) buf = .ok (ss.map fun p => textIn .utf8 p.1) := by
  induction ss generalizing buf with
  | nil => rfl
  | cons p ss ih =>
    obtain ⟨t, e⟩ := p
    have he : e ≠ .unknown := hs (t, e) (by simp)
    have hss : ∀ p ∈ ss, p.2 ≠ .unknown := fun p hp => hs p (by simp [hp])
    simp only [List.map_cons, writeStrs, writeStr]
    by_cases hc : text = false ∧ e = .utf8
    · rw [if_pos hc, hc.2]
      simp only [Res.ok_bind]
      rw [ih hss]
      rfl
    · rw [if_neg hc]
      obtain ⟨buf', h1, h2⟩ := charset_converts e .utf8 he (by decide) t buf true
      rw [h1]
      simp only [Res.ok_bind]
      rw [h2, ih hss]
      rfl

/-- C52: a string of any width, stored in any format and restored into a string of any width, is the same
text; the same type gives the same code units. (That the formats keep the UTF-8 bytes is C01 to C03.) -/
theorem wide_round_trip (e d : Enc) (he : e ≠ .unknown) (hd : d ≠ .unknown) (t : List Char) (text : Bool)
    (buf : Bytes) :
    ∃ w, writeStrs text [(textIn e t, e)] buf = .ok [w] ∧ pasteString d w .utf8 = .ok (textIn d t) :=
  ⟨textIn .utf8 t, strings_written text [(t, e)] (by simpa using he) buf,
    string_restored .utf8 d (by decide) hd t⟩

/-- C52: wide strings that are not valid texts are not written: storing throws. -/
theorem wide_invalid (e : Enc) (he : e = .utf16 ∨ e = .utf32) (bs : Bytes) (hbad : ∀ t, bs ≠ textIn e t)
    (text : Bool) (buf : Bytes) : writeStrs text [(bs, e)] buf = .err := by
  have h1 : e ≠ .unknown ∧ e ≠ .utf8 := by rcases he with rfl | rfl <;> decide
  simp only [writeStrs, writeStr]
  rw [if_neg (by simp [h1.2]), (charset_rejects e .utf8 h1.1 (by decide) h1.2 bs hbad buf).1]
  rfl

/-- C52: strings of `char` are not looked into: any bytes are written as they are and restored into a
`std::string` unchanged. -/
theorem narrow_exact (bs : Bytes) (text : Bool) (buf : Bytes) :
    writeStrs text [(bs, .utf8)] buf = .ok [bs] ∧ pasteString .utf8 bs .utf8 = .ok bs := by
  constructor
  · simp only [writeStrs, writeStr]
    by_cases hc : text = false
    · rw [if_pos (by simp [hc])]
      rfl
    · rw [if_neg (by simp [hc])]
      unfold convCharset
      by_cases h0 : bs.length < 1
      · rw [if_pos h0]
        have : bs = [] := List.length_eq_zero_iff.mp (by omega)
        subst this
        simp
      · rw [if_neg h0, if_pos rfl]
        simp only [Nat.add_zero]
        generalize hb : (if buf.length < bs.length then resize buf bs.length else buf) = b
        have hl : bs.length ≤ b.length := by
          rw [← hb]
          split
          · simp
          · omega
        obtain ⟨b', p1, p2, p3, -⟩ := put_ok b 0 bs (by omega) (by omega)
        rw [p1]
        simp only [Nat.zero_add, List.take_zero, List.nil_append] at p3
        simp only [Res.ok_bind, p3]
  · unfold pasteString unwrap
    by_cases h0 : bs.length < 1
    · rw [if_pos h0]
      have : bs = [] := List.length_eq_zero_iff.mp (by omega)
      rw [this]
    · rw [if_neg h0, if_pos rfl]
      simp [Enc.width]

/-- C52: a single character is restored from the document if it takes one code unit of the type, and
otherwise restoring throws. -/
theorem char_restored (d : Enc) (hd : d ≠ .unknown) (t : List Char) :
    pasteChar d (textIn .utf8 t) .utf8 =
      if (textIn d t).length = d.width then .ok (textIn d t) else .err := by
  unfold pasteChar
  by_cases h : Enc.utf8 = d
  · subst h
    rw [if_pos rfl]
    by_cases hl : (textIn .utf8 t).length = Enc.utf8.width
    · rw [if_neg (by simpa using hl), if_pos hl]
    · rw [if_pos hl, if_neg hl]
  · rw [if_neg h]
    obtain ⟨buf, h1, h2⟩ := charset_converts .utf8 d (by decide) hd t [] true
    rw [h1]
    simp only [Res.ok_bind]
    by_cases hl : (textIn d t).length = d.width
    · rw [if_neg (by simpa using hl), if_pos hl, ← hl, h2]
    · rw [if_pos hl, if_neg hl]

/-- The text "aé€😀" has characters of one to four bytes; its forms in the three encodings. -/
example : textIn .utf8 ['a', 'é', '€', '😀'] = [0x61, 0xC3, 0xA9, 0xE2, 0x82, 0xAC, 0xF0, 0x9F, 0x98, 0x80] ∧
    textIn .utf16 ['a', 'é', '€', '😀'] = [0x61, 0, 0xE9, 0, 0xAC, 0x20, 0x3D, 0xD8, 0x00, 0xDE] ∧
    textIn .utf32 ['a', '😀'] = [0x61, 0, 0, 0, 0x00, 0xF6, 0x01, 0] := by decide +kernel

/-- The model evaluated: the buffer for UTF-16 to UTF-8 is too small at first. -/
example : convCharset .utf8 [0xAC, 0x20, 0xAC, 0x20] .utf16 [] true 0
    = .ok ([0xE2, 0x82, 0xAC, 0xE2, 0x82, 0xAC, 0, 0, 0, 0, 0, 0], 6) := by decide +kernel

/-- A lone surrogate is not a text. -/
example : ∀ t, [0x00, 0xD8] ≠ textIn .utf16 t := by
  intro t h
  rw [← List.append_nil [(0x00 : UInt8), 0xD8]] at h
  have := text_inj .utf16 (by decide) t [] [0x00, 0xD8] (by simp) (.inr (by decide +kernel))
    (by simpa using h.symm)
  exact absurd this.2 (by decide)

/-! ## Restoring into character arrays -/

/-- Specification: an array of `n` characters of width `w`. -/
def IsArray (w n : Nat) (arr : Bytes) : Prop := 0 < w ∧ 0 < n ∧ arr.length = n * w

/-- Specification: what restoring a string into an array has to do. `out` are the bytes of the string as
characters of the array: if they and a terminator fit, they are stored, followed by the terminator, and the
rest is as before; otherwise an exception is thrown. -/
def ArrayExact (w n : Nat) (arr out : Bytes) (r : Res Bytes) : Prop :=
  if out.length + w ≤ n * w then r = .ok (out ++ List.replicate w 0 ++ arr.drop (out.length + w))
  else r = .err

private theorem width_pos {e : Enc} (he : e ≠ .unknown) : 0 < e.width := by
  cases e <;> first | exact absurd rfl he | decide

private theorem store_array (w n k : Nat) (arr out : Bytes) (ha : IsArray w n arr) (hk : out.length = k * w)
    (hfit : k + 1 ≤ n) :
    (copyInto arr out >>= fun a => putZero w a k)
      = .ok (out ++ List.replicate w 0 ++ arr.drop (out.length + w)) := by
  obtain ⟨hw, hn, hl⟩ := ha
  have h1 : (k + 1) * w ≤ n * w := Nat.mul_le_mul_right w hfit
  have h2 : (k + 1) * w = k * w + w := Nat.succ_mul k w
  unfold copyInto
  rw [if_pos (by omega)]
  simp only [Res.ok_bind, putZero]
  rw [if_pos (by simp only [List.length_append, List.length_drop]; omega)]
  congr 1
  rw [List.take_append_of_le_length (by omega), List.take_of_length_le (by omega)]
  congr 1
  rw [List.drop_append, List.drop_of_length_le (by omega), List.nil_append, List.drop_drop]
  congr 1
  omega

private theorem size_fits (w n k : Nat) (hw : 0 < w) (hn : 0 < n) (len : Nat) (hk : len = k * w) :
    (¬ len > (n * w / w - 1) * w) ↔ k + 1 ≤ n := by
  rw [Nat.mul_div_cancel n hw, hk]
  constructor
  · intro h
    have : k * w ≤ (n - 1) * w := by omega
    have := Nat.le_of_mul_le_mul_right this hw
    omega
  · intro h
    have : k * w ≤ (n - 1) * w := Nat.mul_le_mul_right w (by omega)
    omega

/-- C50: restoring a string of the encoding of the array — every string of a document into an array of
`char`, and strings of any width from a tree that was filled from objects — is exact for arrays of all
sizes. -/
theorem array_same_encoding (t : Enc) (ht : t ≠ .unknown) (n : Nat) (arr bs : Bytes)
    (ha : IsArray t.width n arr) (k : Nat) (hk : bs.length = k * t.width) :
    ArrayExact t.width n arr bs (pasteArray t arr bs t) := by
  have hw := width_pos ht
  obtain ⟨-, hn, hl⟩ := ha
  have hs := size_fits t.width n k hw hn bs.length hk
  have h2 : (k + 1) * t.width = k * t.width + t.width := Nat.succ_mul k _
  unfold ArrayExact pasteArray
  simp only [if_true, hl]
  by_cases hf : k + 1 ≤ n
  · have h1 : (k + 1) * t.width ≤ n * t.width := Nat.mul_le_mul_right _ hf
    rw [if_pos (by omega), if_neg (hs.mpr hf)]
    rw [show bs.length / t.width = k by rw [hk, Nat.mul_div_cancel _ hw]]
    exact store_array t.width n k arr bs ⟨hw, hn, hl⟩ hk hf
  · have hgt : bs.length > (n * t.width / t.width - 1) * t.width := by
      rcases Nat.lt_or_ge ((n * t.width / t.width - 1) * t.width) bs.length with h | h
      · exact h
      · exact absurd (hs.mp (by omega)) hf
    rw [if_pos hgt]
    have : ¬ (k + 1) * t.width ≤ n * t.width := fun h => hf (Nat.le_of_mul_le_mul_right h hw)
    rw [if_neg (by omega)]

/-- C50, for the arrays used most: any string of a document into an array of `char`. -/
theorem array_char (n : Nat) (arr bs : Bytes) (hn : 0 < n) (hl : arr.length = n) :
    ArrayExact 1 n arr bs (pasteArray .utf8 arr bs .utf8) :=
  array_same_encoding .utf8 (by decide) n arr bs ⟨by decide, hn, by simpa [Enc.width] using hl⟩ bs.length
    (by simp [Enc.width])

private theorem text_units (e : Enc) (he : e ≠ .unknown) (t : List Char) :
    ∃ k, (textIn e t).length = k * e.width := by
  refine ⟨(textIn e t).length / e.width, ?_⟩
  have := congrArg List.length (take_width e he t)
  rw [List.length_take] at this
  have := Nat.div_mul_le_self (textIn e t).length e.width
  omega

/-- C50, what the code does when it converts, for all texts and arrays: too long texts throw; otherwise the
text is stored, and a zero is written at the index that is the size of the text *before* conversion,
divided by the width of the characters of the array — outside of the array if that is not less than its
size. -/
theorem array_converted (e t : Enc) (he : e ≠ .unknown) (ht : t ≠ .unknown) (het : e ≠ t) (n : Nat)
    (arr : Bytes) (ha : IsArray t.width n arr) (s : List Char) :
    pasteArray t arr (textIn e s) e =
      if (textIn t s).length + t.width ≤ n * t.width then
        putZero t.width (textIn t s ++ arr.drop (textIn t s).length) ((textIn e s).length / t.width)
      else .err := by
  have hw := width_pos ht
  obtain ⟨-, hn, hl⟩ := ha
  obtain ⟨k, hk⟩ := text_units t ht s
  have hs := size_fits t.width n k hw hn _ hk
  have h2 : (k + 1) * t.width = k * t.width + t.width := Nat.succ_mul k _
  obtain ⟨buf, h1, h3⟩ := charset_converts e t he ht s [] true
  unfold pasteArray
  simp only [if_neg het, hl]
  rw [h1]
  simp only [Res.ok_bind, h3]
  by_cases hf : k + 1 ≤ n
  · have h4 : (k + 1) * t.width ≤ n * t.width := Nat.mul_le_mul_right _ hf
    rw [if_neg (hs.mpr hf), if_pos (by omega)]
    unfold copyInto
    rw [if_pos (by omega)]
    rfl
  · have hgt : (textIn t s).length > (n * t.width / t.width - 1) * t.width := by
      rcases Nat.lt_or_ge ((n * t.width / t.width - 1) * t.width) (textIn t s).length with h | h
      · exact h
      · exact absurd (hs.mp (by omega)) hf
    rw [if_pos hgt]
    have : ¬ (k + 1) * t.width ≤ n * t.width := fun h => hf (Nat.le_of_mul_le_mul_right h hw)
    rw [if_neg (by omega)]

/-- C50, partial: conversion is exact for texts whose size before and after conversion gives the same index.
Missing: other texts, for which the property fails, see `array_truncated` and `array_overrun`. -/
theorem array_converted_partial (e t : Enc) (he : e ≠ .unknown) (ht : t ≠ .unknown) (het : e ≠ t) (n : Nat)
    (arr : Bytes) (ha : IsArray t.width n arr) (s : List Char)
    (hlen : (textIn e s).length / t.width = (textIn t s).length / t.width) :
    ArrayExact t.width n arr (textIn t s) (pasteArray t arr (textIn e s) e) := by
  rw [array_converted e t he ht het n arr ha s]
  have hw := width_pos ht
  obtain ⟨k, hk⟩ := text_units t ht s
  have h2 : (k + 1) * t.width = k * t.width + t.width := Nat.succ_mul k _
  unfold ArrayExact
  by_cases hf : (textIn t s).length + t.width ≤ n * t.width
  · rw [if_pos hf, if_pos hf, hlen, hk, Nat.mul_div_cancel _ hw, ← hk]
    have hfit : k + 1 ≤ n := Nat.le_of_mul_le_mul_right (by omega) hw
    have := store_array t.width n k arr _ ha hk hfit
    unfold copyInto at this
    rw [if_pos (by rw [ha.2.2]; omega)] at this
    exact this
  · rw [if_neg hf, if_neg hf]

/-- C50, and never throws silently: bytes that are no text throw when they have to be converted. -/
theorem array_invalid (e t : Enc) (he : e ≠ .unknown) (ht : t ≠ .unknown) (het : e ≠ t) (arr bs : Bytes)
    (hbad : ∀ s, bs ≠ textIn e s) : pasteArray t arr bs e = .err := by
  unfold pasteArray
  simp only [if_neg het]
  rw [(charset_rejects e t he ht het bs hbad []).1]
  rfl

/-- C50 fails: "aaaa" restored from a document into `char16_t[8]` is "aa": the zero is written at index
4 / 2. In `char32_t[8]` only one character remains. -/
theorem array_truncated :
    pasteArray .utf16 (List.replicate 16 1) (textIn .utf8 ['a', 'a', 'a', 'a']) .utf8
      = .ok ([0x61, 0, 0x61, 0, 0, 0, 0x61, 0] ++ List.replicate 8 1) ∧
    ¬ ArrayExact 2 8 (List.replicate 16 1) (textIn .utf16 ['a', 'a', 'a', 'a'])
      (pasteArray .utf16 (List.replicate 16 1) (textIn .utf8 ['a', 'a', 'a', 'a']) .utf8) ∧
    pasteArray .utf32 (List.replicate 32 1) (textIn .utf8 ['a', 'a', 'a', 'a']) .utf8
      = .ok ([0x61, 0, 0, 0, 0, 0, 0, 0, 0x61, 0, 0, 0, 0x61, 0, 0, 0] ++ List.replicate 16 1) := by
  refine ⟨by decide +kernel, ?_, by decide +kernel⟩
  unfold ArrayExact
  decide +kernel

/-- C50 fails: two characters of three bytes into `char16_t[3]`, where they fit: the zero is written at
index 6 / 2, outside of the array. In general for every array of at least three characters. -/
theorem array_overrun (n : Nat) (hn : 3 ≤ n) (arr : Bytes) (ha : IsArray 2 n arr) :
    (textIn .utf16 (List.replicate (n - 1) '€')).length + 2 ≤ n * 2 ∧
    pasteArray .utf16 arr (textIn .utf8 (List.replicate (n - 1) '€')) .utf8 = .ub := by
  have h16 : ∀ m, (textIn .utf16 (List.replicate m '€')).length = 2 * m := by
    intro m
    rw [text_encodes]
    induction m with
    | zero => rfl
    | succ m ih =>
      rw [List.replicate_succ, List.map_cons, encodes_cons, List.length_append, ih]
      have : (encode .utf16 '€'.toNat).length = 2 := by decide +kernel
      omega
  have h8 : ∀ m, (textIn .utf8 (List.replicate m '€')).length = 3 * m := by
    intro m
    rw [text_encodes]
    induction m with
    | zero => rfl
    | succ m ih =>
      rw [List.replicate_succ, List.map_cons, encodes_cons, List.length_append, ih]
      have : (encode .utf8 '€'.toNat).length = 3 := by decide +kernel
      omega
  have e1 : Enc.utf16.width = 2 := rfl
  refine ⟨by rw [h16]; omega, ?_⟩
  rw [array_converted .utf8 .utf16 (by decide) (by decide) (by decide) n arr (by rw [e1]; exact ha), e1]
  rw [if_pos (by rw [h16]; omega)]
  unfold putZero
  obtain ⟨-, -, hl⟩ := ha
  rw [if_neg]
  simp only [List.length_append, List.length_drop, h16, h8, hl]
  omega

/-- Texts for which conversion is exact: two-byte characters. -/
example : ArrayExact 2 4 (List.replicate 8 1) (textIn .utf16 ['é', 'ß', 'µ'])
    (pasteArray .utf16 (List.replicate 8 1) (textIn .utf8 ['é', 'ß', 'µ']) .utf8) :=
  array_converted_partial .utf8 .utf16 (by decide) (by decide) (by decide) 4 _ ⟨by decide, by decide, by decide⟩
    _ (by decide +kernel)

/-! ## Storing character arrays -/

/-- Specification: the bytes of characters of width `w`, none of them a terminator. -/
def Units (w : Nat) (us : List Nat) : Prop := ∀ u ∈ us, 0 < u ∧ u < 256 ^ w

private theorem units_length (w : Nat) (us : List Nat) : (us.flatMap (leBytes w)).length = us.length * w := by
  induction us with
  | nil => simp
  | cons u us ih =>
    rw [List.flatMap_cons, List.length_append, ih, leBytes_length, List.length_cons, Nat.succ_mul]
    omega

private theorem unit_at (w : Nat) (us : List Nat) (r : Bytes) (i : Nat) (hi : i < us.length) :
    ((us.flatMap (leBytes w) ++ r).drop (i * w)).take w = leBytes w us[i] := by
  induction us generalizing i with
  | nil => simp at hi
  | cons u us ih =>
    rw [List.flatMap_cons, List.append_assoc]
    cases i with
    | zero =>
      simp only [Nat.zero_mul, List.drop_zero, List.getElem_cons_zero]
      rw [List.take_append_of_le_length (by simp), List.take_of_length_le (by simp)]
    | succ i =>
      rw [show (i + 1) * w = w + i * w by rw [Nat.succ_mul, Nat.add_comm], ← List.drop_drop,
        List.drop_append_of_le_length (by simp), List.drop_of_length_le (l := leBytes w u) (by simp),
        List.nil_append, List.getElem_cons_succ]
      exact ih i (by simpa using hi)

private theorem unit_nonzero (w u : Nat) (hu : 0 < u) (hw : u < 256 ^ w) :
    (leBytes w u).any (· != 0) = true := by
  induction w generalizing u with
  | zero => simp at hw; omega
  | succ w ih =>
    simp only [leBytes, List.any_cons, Bool.or_eq_true]
    by_cases h : u % 256 = 0
    · right
      refine ih (u / 256) (by omega) ?_
      rw [Nat.pow_succ] at hw
      exact Nat.div_lt_of_lt_mul (by rw [Nat.mul_comm]; exact hw)
    · left
      rw [bne_iff_ne]
      intro h0
      have := congrArg UInt8.toNat h0
      simp at this
      omega

private theorem unit_zero (w : Nat) : (List.replicate w (0 : UInt8)).any (· != 0) = false := by
  induction w with
  | zero => rfl
  | succ w ih => rw [List.replicate_succ, List.any_cons, ih]; rfl

private theorem scan_units (w : Nat) (us : List Nat) (r : Bytes) (hu : Units w us) (m : Nat) :
    ∀ (j i : Nat), i + j = us.length → scan w (us.flatMap (leBytes w) ++ r) (j + m) i
      = scan w (us.flatMap (leBytes w) ++ r) m us.length := by
  intro j
  induction j with
  | zero => intro i hi; rw [Nat.zero_add, show i = us.length by omega]
  | succ j ih =>
    intro i hi
    have hlt : i < us.length := by omega
    have hin : (i + 1) * w ≤ us.length * w := Nat.mul_le_mul_right w hlt
    rw [show j + 1 + m = (j + m) + 1 by omega, scan]
    unfold charAt
    rw [if_pos (by rw [List.length_append, units_length]; omega), unit_at w us r i hlt,
      unit_nonzero w _ (hu _ (List.getElem_mem hlt)).1 (hu _ (List.getElem_mem hlt)).2]
    simp only [Res.ok_bind, if_true]
    exact ih (i + 1) (by omega)

/-- C53: storing an array with a terminator stores the characters before the first one, for every type of
characters and every size of the array, and reads nothing outside. -/
theorem array_stored (t : Enc) (us : List Nat) (hu : Units t.width us) (rest : Bytes)
    (n : Nat) (ha : IsArray t.width n (us.flatMap (leBytes t.width) ++ List.replicate t.width 0 ++ rest)) :
    wrapArray t (us.flatMap (leBytes t.width) ++ List.replicate t.width 0 ++ rest)
      = .ok (us.flatMap (leBytes t.width)) := by
  obtain ⟨hw, hn, hl⟩ := ha
  have hul := units_length t.width us
  have hlen : us.length * t.width + t.width ≤ n * t.width := by
    simp only [List.length_append, List.length_replicate] at hl
    omega
  have hk : us.length + 1 ≤ n :=
    Nat.le_of_mul_le_mul_right (by rw [Nat.succ_mul]; exact hlen) hw
  unfold wrapArray
  rw [hl, Nat.mul_div_cancel _ hw]
  by_cases h1 : n - 1 = 0
  · rw [if_pos h1]
    have : us = [] := List.length_eq_zero_iff.mp (by omega)
    rw [this]
    rfl
  · rw [if_neg h1]
    have hle : us.length ≤ (n - 1) * t.width :=
      Nat.le_trans (show us.length ≤ n - 1 by omega) (Nat.le_mul_of_pos_right _ hw)
    obtain ⟨m, hm⟩ : ∃ m, (n - 1) * t.width = us.length + m := ⟨_, (Nat.add_sub_of_le hle).symm⟩
    rw [hm, List.append_assoc, scan_units t.width us _ hu m us.length 0 (by omega)]
    have hscan : scan t.width (us.flatMap (leBytes t.width) ++ (List.replicate t.width 0 ++ rest)) m us.length
        = .ok us.length := by
      cases m with
      | zero => rfl
      | succ m =>
        rw [scan]
        unfold charAt
        rw [if_pos (by
          simp only [List.length_append, List.length_replicate, hul, Nat.succ_mul]
          omega)]
        rw [List.drop_append, List.drop_of_length_le (by omega), List.nil_append,
          show us.length * t.width - (us.flatMap (leBytes t.width)).length = 0 by omega, List.drop_zero,
          List.take_append_of_le_length (by simp), List.take_of_length_le (by simp), unit_zero]
        rfl
    rw [hscan]
    simp only [Res.ok_bind]
    rw [if_pos (by omega), List.take_append_of_le_length (by omega), List.take_of_length_le (by omega)]

private theorem scan_end (w : Nat) (hw : 0 < w) (us : List Nat) (m : Nat) :
    scan w (us.flatMap (leBytes w)) (m + 1) us.length = .ub := by
  rw [scan]
  unfold charAt
  rw [if_neg (by rw [units_length, Nat.succ_mul]; omega)]
  rfl

/-- C53 fails for arrays without a terminator. Arrays of `char` lose their last character; for wide
characters memory behind the array is read, except for `char16_t[2]` (and arrays of one character, for
which nothing is stored). -/
theorem array_unterminated (t : Enc) (ht : t ≠ .unknown) (us : List Nat) (hu : Units t.width us)
    (hn : 2 ≤ us.length) :
    wrapArray t (us.flatMap (leBytes t.width)) =
      if t = .utf8 then .ok (us.dropLast.flatMap (leBytes t.width))
      else if t = .utf16 ∧ us.length = 2 then .ok (us.flatMap (leBytes t.width))
      else .ub := by
  have hw := width_pos ht
  have hul := units_length t.width us
  unfold wrapArray
  rw [hul, Nat.mul_div_cancel _ hw, if_neg (by omega)]
  by_cases h8 : t = .utf8
  · subst h8
    rw [if_pos rfl]
    obtain ⟨vs, v, rfl⟩ : ∃ vs v, us = vs ++ [v] := by
      refine ⟨us.dropLast, us.getLast (by intro h; simp [h] at hn), ?_⟩
      exact (List.dropLast_concat_getLast _).symm
    have hv : Units Enc.utf8.width vs := fun x hx => hu x (by simp [hx])
    have e1 : Enc.utf8.width = 1 := rfl
    have hvl := units_length Enc.utf8.width vs
    rw [List.dropLast_concat, List.flatMap_append]
    rw [show ((vs ++ [v]).length - 1) * Enc.utf8.width = vs.length + 0 by rw [e1]; simp,
      scan_units Enc.utf8.width vs _ hv 0 vs.length 0 (by omega), scan]
    simp only [Res.ok_bind]
    rw [if_pos (by rw [e1]; simp), List.take_append_of_le_length (by omega),
      List.take_of_length_le (by omega)]
  · rw [if_neg h8]
    have hge : us.length ≤ (us.length - 1) * t.width := by
      cases t with
      | unknown => exact absurd rfl ht
      | utf8 => exact absurd rfl h8
      | utf16 => simp only [Enc.width]; omega
      | utf32 => simp only [Enc.width]; omega
    obtain ⟨m, hm⟩ : ∃ m, (us.length - 1) * t.width = us.length + m := ⟨_, (Nat.add_sub_of_le hge).symm⟩
    have hscan := scan_units t.width us [] hu m us.length 0 (by omega)
    rw [List.append_nil] at hscan
    rw [hm, hscan]
    cases m with
    | zero =>
      have h2 : t = .utf16 ∧ us.length = 2 := by
        cases t with
        | unknown => exact absurd rfl ht
        | utf8 => exact absurd rfl h8
        | utf16 => simp only [Enc.width] at hm; exact ⟨rfl, by omega⟩
        | utf32 => simp only [Enc.width] at hm; omega
      rw [if_pos h2, scan]
      simp only [Res.ok_bind]
      rw [if_pos (by omega), List.take_of_length_le (by omega)]
    | succ m =>
      have h2 : ¬ (t = .utf16 ∧ us.length = 2) := by
        rintro ⟨rfl, h2⟩
        simp only [Enc.width] at hm
        omega
      rw [if_neg h2, scan_end _ hw]
      rfl

/-- C50 and C53: an array with a terminator, stored and restored without conversion into an array that has
room, is the same string: always for `char`. -/
theorem array_round_trip (t : Enc) (ht : t ≠ .unknown) (us : List Nat) (hu : Units t.width us) (rest : Bytes)
    (n m : Nat) (ha : IsArray t.width n (us.flatMap (leBytes t.width) ++ List.replicate t.width 0 ++ rest))
    (arr : Bytes) (hb : IsArray t.width m arr) (hm : us.length < m) :
    ∃ s, wrapArray t (us.flatMap (leBytes t.width) ++ List.replicate t.width 0 ++ rest) = .ok s ∧
      pasteArray t arr s t
        = .ok (us.flatMap (leBytes t.width) ++ List.replicate t.width 0 ++ arr.drop ((us.length + 1) * t.width)) := by
  refine ⟨_, array_stored t us hu rest n ha, ?_⟩
  have hul := units_length t.width us
  have h := array_same_encoding t ht m arr _ hb us.length hul
  have h1 : (us.length + 1) * t.width ≤ m * t.width := Nat.mul_le_mul_right _ hm
  have h2 : (us.length + 1) * t.width = us.length * t.width + t.width := Nat.succ_mul _ _
  unfold ArrayExact at h
  rw [if_pos (by omega), hul, ← h2] at h
  exact h

/-- "ab" in `char16_t[4]`, and "abc" filling `char[3]`. -/
example : wrapArray .utf16 [0x61, 0, 0x62, 0, 0, 0, 7, 7] = .ok [0x61, 0, 0x62, 0] ∧
    wrapArray .utf8 [0x61, 0x62, 0x63] = .ok [0x61, 0x62] ∧
    wrapArray .utf16 [0x61, 0, 0x62, 0, 0x63, 0] = .ub := by decide +kernel

/-! ## The conversion used for escapes in JSON -/

/-- The model of JSON strings has its own account of the conversion of one code unit into the middle of a
buffer (`PJson.convUnit`); it agrees with the general one: the same exceptions, the same bytes, the same
size of the buffer. -/
theorem json_escape_conversion (buf : Bytes) (bufsz idx u : Nat) (hi : idx ≤ buf.length) (hu : u < 0x10000) :
    (PJson.convUnit ⟨bufsz, buf.length⟩ idx u = .err →
      convCharset .utf8 (leBytes 2 u) .utf16 buf true idx = .err) ∧
    (∀ t c, PJson.convUnit ⟨bufsz, buf.length⟩ idx u = .ok (t, c) →
      ∃ buf', convCharset .utf8 (leBytes 2 u) .utf16 buf true idx = .ok (buf', t.length) ∧
        buf'.length = c.size ∧ buf'.take idx = buf.take idx ∧ (buf'.drop idx).take t.length = t) := by
  have hb : ∀ v, (UInt8.ofNat (v % 256)).toNat = v % 256 := by intro v; simp
  have huu : u % 256 + 256 * (u / 256 % 256) = u := by omega
  have hget : PJson.utf8OfUnit u = if 0xD800 ≤ u ∧ u < 0xE000 then .err else .ok (encode .utf8 u) := by
    simp only [PJson.utf8OfUnit, encode]
    by_cases h1 : u < 0x80
    · rw [if_pos h1, if_pos h1, if_neg (by omega)]
    · rw [if_neg h1, if_neg h1]
      by_cases h2 : u < 0x800
      · rw [if_pos h2, if_pos h2, if_neg (by omega)]
      · rw [if_neg h2, if_neg h2, if_pos hu]
  have hdec : decode .utf16 (leBytes 2 u) = if 0xD800 ≤ u ∧ u < 0xE000 then none else some (u, 2) := by
    simp only [decode, leBytes, decode16, hb, huu]
    by_cases h : 0xD800 ≤ u ∧ u < 0xE000
    · rw [if_pos h, if_neg (by simp; omega)]
      split <;> rfl
    · rw [if_neg h, if_pos (by simp; omega)]
  have hpos := encode_pos .utf8 (by decide) u
  have hsz : ∀ b : Bytes, (if idx + 2 > b.length then resize b (idx + 2) else b).length = max b.length (idx + 2) := by
    intro b
    split
    · rw [resize_length]; omega
    · omega
  have htk : (if idx + 2 > buf.length then resize buf (idx + 2) else buf).take idx = buf.take idx := by
    split
    · exact resize_take _ _ _ hi (by omega)
    · rfl
  have hstart : convCharset .utf8 (leBytes 2 u) .utf16 buf true idx =
      (convLoop .utf16 .utf8 idx 3 (leBytes 2 u) (if idx + 2 > buf.length then resize buf (idx + 2) else buf)
        (max buf.length (idx + 2) - idx) 0 >>= fun p => match p.2 with
          | some n => .ok (p.1, n)
          | none => .err) := by
    rw [← hsz buf]
    rfl
  have hicv : ∀ left, iconv .utf16 .utf8 (leBytes 2 u) left =
      match decode .utf16 (leBytes 2 u) with
      | none => .ok ([], leBytes 2 u, .bad)
      | some (c, n) => if (encode .utf8 c).length ≤ left then do
          let (out, rest, st) ← iconvGo .utf16 .utf8 2 ((leBytes 2 u).drop n) (left - (encode .utf8 c).length)
          .ok (encode .utf8 c ++ out, rest, st)
        else .ok ([], leBytes 2 u, .tooBig) := fun _ => rfl
  unfold PJson.convUnit
  rw [hget]
  by_cases hs : 0xD800 ≤ u ∧ u < 0xE000
  · rw [if_pos hs]
    rw [if_pos hs] at hdec
    refine ⟨fun _ => ?_, fun t c h => by cases h⟩
    rw [hstart, convLoop, hicv, hdec]
    simp only [Res.ok_bind, put]
    rw [if_pos (by rw [hsz]; simp; omega)]
    rfl
  · rw [if_neg hs]
    rw [if_neg hs] at hdec
    simp only [Res.ok_bind]
    refine ⟨fun h => by (split at h <;> cases h), fun t c h => ?_⟩
    split at h
    · cases h
    · rename_i hfit
      simp only [Res.ok.injEq, Prod.mk.injEq] at h
      obtain ⟨rfl, rfl⟩ := h
      obtain ⟨b', p1, p2, p3, p4⟩ := put_ok (if idx + 2 > buf.length then resize buf (idx + 2) else buf) idx
        (encode .utf8 u) (by rw [hsz]; omega) (by rw [hsz]; omega)
      rw [hsz] at p2
      refine ⟨b', ?_, p2, by rw [p4, htk], ?_⟩
      · rw [hstart, convLoop, hicv, hdec]
        simp only
        rw [if_pos (by omega)]
        have h2 : (leBytes 2 u).drop 2 = [] := List.drop_of_length_le (by simp)
        simp only [h2, iconvGo, Res.ok_bind, List.append_nil, Nat.add_zero, p1, p2, Res.ok.injEq,
          Prod.mk.injEq, true_and]
        omega
      · have h3 := congrArg (List.drop idx) p3
        rw [List.drop_take, Nat.add_sub_cancel_left] at h3
        rw [h3, List.drop_append, List.drop_of_length_le (by rw [List.length_take]; omega), List.nil_append,
          List.length_take,
          Nat.min_eq_left (by rw [hsz]; omega), Nat.sub_self, List.drop_zero]

/-- An escape for "é" behind three bytes -/
example : PJson.convUnit ⟨10, 10⟩ 3 0xE9 = .ok ([0xC3, 0xA9], ⟨10, 10⟩) := by decide +kernel

end Srl.Props
