import Verif.Lemmas.Hex

/-! # C20 – hex conversion -/

namespace Srl.Props

/-- Specification: value of one hex digit, either case. -/
def hexVal (c : UInt8) : Option Nat :=
  let n := c.toNat
  if '0'.toNat ≤ n ∧ n ≤ '9'.toNat then some (n - '0'.toNat)
  else if 'A'.toNat ≤ n ∧ n ≤ 'F'.toNat then some (n - 'A'.toNat + 10)
  else if 'a'.toNat ≤ n ∧ n ≤ 'f'.toNat then some (n - 'a'.toNat + 10)
  else none

/-- Specification: `s` is a hex text of the bytes `out`, two digits per byte, high digit first. -/
inductive HexText : Bytes → Bytes → Prop
  | nil : HexText [] []
  | cons {h l b : UInt8} {x y : Nat} {s out : Bytes} :
      hexVal h = some x → hexVal l = some y → b.toNat = 16 * x + y →
      HexText s out → HexText (h :: l :: s) (b :: out)

private theorem conv_spec (c : UInt8) :
    (∃ r, Hex.conv c = .ok r ∧ hexVal c = some r.toNat ∧ r.toNat < 16) ∨
    (Hex.conv c = .err ∧ hexVal c = none) := by
  have key : ∀ c : UInt8,
      (match Hex.conv c with
        | .ok r => decide (hexVal c = some r.toNat ∧ r.toNat < 16)
        | .err => decide (hexVal c = none)
        | _ => false) = true := by decide +kernel
  have h := key c
  cases hc : Hex.conv c with
  | ok r => rw [hc] at h; have h := of_decide_eq_true h; exact Or.inl ⟨r, rfl, h.1, h.2⟩
  | err => rw [hc] at h; exact Or.inr ⟨rfl, of_decide_eq_true h⟩
  | ub => rw [hc] at h; cases h
  | fuel => rw [hc] at h; cases h

private theorem pack (h l : UInt8) (hh : h.toNat < 16) (hl : l.toNat < 16) :
    ((h <<< 4) ||| l).toNat = 16 * h.toNat + l.toNat := by
  have key : ∀ i j : Fin 16, ((UInt8.ofNat i.val <<< 4) ||| UInt8.ofNat j.val).toNat
      = 16 * i.val + j.val := by decide +kernel
  have := key ⟨h.toNat, hh⟩ ⟨l.toNat, hl⟩
  simpa using this

private theorem loop_spec (s : Bytes) (he : s.length % 2 = 0) :
    (∃ out, Hex.loop s = .ok out ∧ HexText s out ∧ s.length = 2 * out.length) ∨
    (Hex.loop s = .err ∧ ∀ out, ¬ HexText s out) := by
  induction s using Hex.loop.induct with
  | case1 => exact Or.inl ⟨[], rfl, .nil, rfl⟩
  | case2 => simp at he
  | case3 h l rest ih =>
    have he' : rest.length % 2 = 0 := by simp at he; omega
    rcases conv_spec h with ⟨x, hx, vx, bx⟩ | ⟨hx, vx⟩
    · rcases conv_spec l with ⟨y, hy, vy, by'⟩ | ⟨hy, vy⟩
      · rcases ih he' with ⟨out, ho, ht, hlen⟩ | ⟨ho, hn⟩
        · left
          refine ⟨((x <<< 4) ||| y) :: out, ?_, .cons vx vy (pack x y bx by') ht, ?_⟩
          · simp [Hex.loop, hx, hy, ho]
          · simp; omega
        · right
          refine ⟨by simp [Hex.loop, hx, hy, ho], ?_⟩
          intro out ht; cases ht with | cons _ _ _ ht => exact hn _ ht
      · right
        refine ⟨by simp [Hex.loop, hx, hy], ?_⟩
        intro out ht; cases ht with | cons _ v _ _ => rw [vy] at v; cases v
    · right
      refine ⟨by simp [Hex.loop, hx], ?_⟩
      intro out ht; cases ht with | cons v _ _ _ => rw [vx] at v; cases v

private theorem hexText_length {s out : Bytes} (h : HexText s out) : s.length = 2 * out.length := by
  induction h with
  | nil => rfl
  | cons _ _ _ _ ih => simp; omega

private theorem hexText_fun {s a b : Bytes} (ha : HexText s a) (hb : HexText s b) : a = b := by
  induction ha generalizing b with
  | nil => cases hb; rfl
  | cons v1 v2 v3 _ ih =>
    cases hb with
    | cons w1 w2 w3 hb =>
      rw [v1] at w1; rw [v2] at w2
      cases w1; cases w2
      rw [ih hb, UInt8.toNat_inj.mp (v3.trans w3.symm)]

/-- C20: decoding the hex text of any bytes gives these bytes. -/
theorem hex_roundtrip (bytes : Bytes) : Hex.decode (Hex.encode bytes) = .ok bytes := by
  have := Hex.encode_length bytes
  have h2 : (Hex.encode bytes).length % 2 = 0 := by omega
  simp [Hex.decode, Hex.decodeTo, h2, Hex.loop_encode]

/-- C20: the produced text is a hex text of the bytes in the sense of the specification. -/
theorem hex_encode_spec (bytes : Bytes) : HexText (Hex.encode bytes) bytes := by
  have hl := Hex.encode_length bytes
  rcases loop_spec (Hex.encode bytes) (by omega) with ⟨out, ho, ht, _⟩ | ⟨ho, _⟩
  · rw [Hex.loop_encode] at ho; cases ho; exact ht
  · rw [Hex.loop_encode] at ho; cases ho

/-- C20: decoding into a destination succeeds exactly on hex texts that fit it. -/
theorem hex_decode_ok_iff (destSize : Nat) (s out : Bytes) :
    Hex.decodeTo destSize s = .ok out ↔ HexText s out ∧ out.length ≤ destSize := by
  unfold Hex.decodeTo
  constructor
  · intro h
    split at h
    · cases h
    · split at h
      · cases h
      · rcases loop_spec s (by omega) with ⟨o, ho, ht, hl⟩ | ⟨ho, _⟩
        · rw [ho] at h; cases h; exact ⟨ht, by omega⟩
        · rw [ho] at h; cases h
  · rintro ⟨ht, hd⟩
    have hl := hexText_length ht
    rw [if_neg (by omega), if_neg (by omega)]
    rcases loop_spec s (by omega) with ⟨o, ho, ht', _⟩ | ⟨_, hn⟩
    · rw [ho, hexText_fun ht ht']
    · exact absurd ht (hn _)

/-- C20: everything else raises an exception; there is no undefined behaviour. -/
theorem hex_decode_err_iff (destSize : Nat) (s : Bytes) :
    Hex.decodeTo destSize s = .err ↔ ¬ ∃ out, HexText s out ∧ out.length ≤ destSize := by
  constructor
  · rintro h ⟨out, ht⟩
    rw [(hex_decode_ok_iff destSize s out).mpr ht] at h; cases h
  · intro hn
    unfold Hex.decodeTo
    split
    · rfl
    · split
      · rfl
      · rcases loop_spec s (by omega) with ⟨o, ho, ht, hl⟩ | ⟨ho, _⟩
        · exact absurd ⟨o, ht, by omega⟩ hn
        · exact ho

/-- Instances: a mixed-case text decodes, an odd or malformed one does not. -/
example : Hex.decode (str "fF0a") = .ok [255, 10] := by decide
example : HexText (str "fF0a") [255, 10] := by
  have := (hex_decode_ok_iff 2 (str "fF0a") [255, 10]).mp (by decide); exact this.1
example : Hex.decodeTo 1 (str "fF0a") = .err := by decide
example : Hex.decode (str "fg") = .err := by decide
example : Hex.encode [255, 10, 0] = str "FF0A00" := by decide

end Srl.Props
