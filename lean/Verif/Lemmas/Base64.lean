import Verif.Model.Base64
import Verif.Lemmas.Byte

namespace Srl.Base64

theorem lookup_enc_6 (i : UInt8) : i < 64 → lookup (enc i) = .ok i := by
  revert i; decide +kernel

theorem enc_ne_pad (i : UInt8) : i < 64 → enc i ≠ 61 := by
  revert i; decide +kernel

theorem lt64_shift (b : UInt8) : b >>> 2 < 64 := by revert b; decide +kernel
theorem lt64_mask (b : UInt8) : b &&& 0x3F < 64 := by revert b; decide +kernel
theorem ne_inv (b : UInt8) : b < 64 → b ≠ valInvalid := by revert b; decide +kernel

theorem bits0 (b0 b1 : UInt8) :
    ((b0 >>> 2) <<< 2) ||| ((((b0 <<< 4) ||| (b1 >>> 4)) &&& 0x3F) >>> 4) = b0 := by byte_bits

theorem bits1 (b0 b1 b2 : UInt8) :
    ((((b0 <<< 4) ||| (b1 >>> 4)) &&& 0x3F) <<< 4) |||
      ((((b1 <<< 2) ||| (b2 >>> 6)) &&& 0x3F) >>> 2) = b1 := by byte_bits

theorem bits2 (b1 b2 : UInt8) :
    ((((b1 <<< 2) ||| (b2 >>> 6)) &&& 0x3F) <<< 6) ||| (b2 &&& 0x3F) = b2 := by byte_bits

/-- The encoding in closed recursive form, padding included. -/
def encRec : Bytes → Bytes
  | [] => []
  | [b0] => [enc (b0 >>> 2), enc (((b0 <<< 4) ||| ((0 : UInt8) >>> 4)) &&& 0x3F), 61, 61]
  | [b0, b1] => [enc (b0 >>> 2), enc (((b0 <<< 4) ||| (b1 >>> 4)) &&& 0x3F),
      enc (((b1 <<< 2) ||| ((0 : UInt8) >>> 6)) &&& 0x3F), 61]
  | b0 :: b1 :: b2 :: rest => group b0 b1 b2 ++ encRec rest

theorem encLoop_length (bs : Bytes) : (encLoop bs).length = 4 * ((bs.length + 2) / 3) := by
  induction bs using encLoop.induct with
  | case1 => rfl
  | case2 => simp [encLoop, group]
  | case3 => simp [encLoop, group]
  | case4 b0 b1 b2 rest ih =>
    simp only [encLoop, List.length_append, ih, List.length_cons, group, List.length_nil]; omega

theorem encode_cons3 (b0 b1 b2 : UInt8) (rest : Bytes) :
    encode (b0 :: b1 :: b2 :: rest) = group b0 b1 b2 ++ encode rest := by
  have hr : (b0 :: b1 :: b2 :: rest).length % 3 = rest.length % 3 := by simp; omega
  have hm : 4 * (((b0 :: b1 :: b2 :: rest).length + 2) / 3) = 4 * ((rest.length + 2) / 3) + 4 := by
    simp; omega
  have hg : (group b0 b1 b2).length = 4 := rfl
  unfold encode
  simp only [hr, hm, encLoop]
  by_cases h0 : rest.length % 3 > 0
  · have hle : 4 ≤ 4 * ((rest.length + 2) / 3) := by omega
    by_cases h1 : rest.length % 3 = 1
    · simp only [h1]
      simp only [Nat.lt_add_one, if_true, gt_iff_lt]
      rw [List.set_append_right _ _ (by omega), List.set_append_right _ _ (by omega)]
      simp only [hg]
      congr 2
    · simp only [h0, h1, if_true, if_false]
      rw [List.set_append_right _ _ (by omega)]
      simp only [hg]
      congr 2
  · have h1 : ¬ rest.length % 3 = 1 := by omega
    simp only [h0, h1, if_false]

theorem encode_eq_encRec (bs : Bytes) : encode bs = encRec bs := by
  induction bs using encRec.induct with
  | case1 => rfl
  | case2 => simp [encode, encLoop, group, encRec]
  | case3 => simp [encode, encLoop, group, encRec]
  | case4 b0 b1 b2 rest ih => rw [encode_cons3, ih, encRec]

theorem encRec_length (bs : Bytes) : (encRec bs).length = 4 * ((bs.length + 2) / 3) := by
  induction bs using encRec.induct with
  | case1 => rfl
  | case2 => simp [encRec]
  | case3 => simp [encRec]
  | case4 b0 b1 b2 rest ih =>
    simp only [encRec, List.length_append, ih, List.length_cons, group, List.length_nil]; omega

theorem decodedSize_append4 (c0 c1 c2 c3 : UInt8) (s : Bytes) (h : 4 ≤ s.length)
    (h4 : s.length % 4 = 0) :
    decodedSize (c0 :: c1 :: c2 :: c3 :: s) = 3 + decodedSize s := by
  have h1 : (c0 :: c1 :: c2 :: c3 :: s)[(c0 :: c1 :: c2 :: c3 :: s).length - 1]? = s[s.length - 1]? := by
    have : (c0 :: c1 :: c2 :: c3 :: s).length - 1 = (s.length - 1) + 4 := by simp; omega
    rw [this]; rfl
  have h2 : (c0 :: c1 :: c2 :: c3 :: s)[(c0 :: c1 :: c2 :: c3 :: s).length - 2]? = s[s.length - 2]? := by
    have : (c0 :: c1 :: c2 :: c3 :: s).length - 2 = (s.length - 2) + 4 := by simp; omega
    rw [this]; rfl
  unfold decodedSize
  rw [h1, h2]
  have : ¬ (c0 :: c1 :: c2 :: c3 :: s).length < 4 := by simp
  simp only [this, show ¬ s.length < 4 by omega, if_false]
  have hl : (c0 :: c1 :: c2 :: c3 :: s).length / 4 = s.length / 4 + 1 := by simp; omega
  rw [hl]
  split <;> split <;> omega

theorem decodedSize_encRec (bs : Bytes) : decodedSize (encRec bs) = bs.length := by
  induction bs using encRec.induct with
  | case1 => rfl
  | case2 b0 => simp [encRec, decodedSize]
  | case3 b0 b1 =>
    have := enc_ne_pad (((b1 <<< 2) ||| ((0 : UInt8) >>> 6)) &&& 0x3F) (lt64_mask _)
    simp at this
    simp [encRec, decodedSize, this]
  | case4 b0 b1 b2 rest ih =>
    by_cases h : rest = []
    · subst h
      have h1 := enc_ne_pad _ (lt64_mask b2)
      have h2 := enc_ne_pad _ (lt64_mask ((b1 <<< 2) ||| (b2 >>> 6)))
      simp [encRec, group, decodedSize, h1, h2]
    · have hl := encRec_length rest
      have : 0 < rest.length := List.length_pos_iff.mpr h
      simp only [encRec, group, List.cons_append, List.nil_append]
      rw [decodedSize_append4 _ _ _ _ _ (by omega) (by omega), ih]
      simp; omega

theorem lookup_pad : lookup 61 = .ok 254 := by decide

theorem decLoop_encRec (bs : Bytes) : decLoop bs.length (encRec bs) = .ok bs := by
  induction bs using encRec.induct with
  | case1 => simp [encRec, decLoop]
  | case2 b0 =>
    unfold decLoop
    simp only [encRec, List.length_singleton]
    rw [lookup_enc_6 _ (lt64_shift _), lookup_enc_6 _ (lt64_mask _), lookup_pad]
    have h0 := ne_inv _ (lt64_shift b0)
    have h1 := ne_inv _ (lt64_mask ((b0 <<< 4) ||| ((0 : UInt8) >>> 4)))
    have := bits0 b0 0
    simp only [Res.ok_bind, h0, h1]
    simp [valInvalid, decLoop] at this ⊢
    exact this
  | case3 b0 b1 =>
    unfold decLoop
    simp only [encRec, List.length_cons, List.length_nil]
    rw [lookup_enc_6 _ (lt64_shift _), lookup_enc_6 _ (lt64_mask _), lookup_enc_6 _ (lt64_mask _),
      lookup_pad]
    have h0 := ne_inv _ (lt64_shift b0)
    have h1 := ne_inv _ (lt64_mask ((b0 <<< 4) ||| (b1 >>> 4)))
    have h2 := ne_inv _ (lt64_mask ((b1 <<< 2) ||| ((0 : UInt8) >>> 6)))
    have e0 := bits0 b0 b1
    have e1 := bits1 b0 b1 0
    simp only [Res.ok_bind, h0, h1, h2]
    simp [valInvalid, decLoop] at e0 e1 ⊢
    exact ⟨e0, e1⟩
  | case4 b0 b1 b2 rest ih =>
    unfold decLoop
    simp only [encRec, group, List.cons_append, List.nil_append]
    rw [lookup_enc_6 _ (lt64_shift _), lookup_enc_6 _ (lt64_mask _), lookup_enc_6 _ (lt64_mask _),
      lookup_enc_6 _ (lt64_mask _)]
    have h0 := ne_inv _ (lt64_shift b0)
    have h1 := ne_inv _ (lt64_mask ((b0 <<< 4) ||| (b1 >>> 4)))
    have h2 := ne_inv _ (lt64_mask ((b1 <<< 2) ||| (b2 >>> 6)))
    have h3 := ne_inv _ (lt64_mask b2)
    have hl : (b0 :: b1 :: b2 :: rest).length - 3 = rest.length := by simp
    simp only [Res.ok_bind, h0, h1, h2, h3, hl, ih, bits0, bits1, bits2]
    simp

theorem encRec_length_mod (bs : Bytes) : (encRec bs).length % 4 = 0 := by
  rw [encRec_length]; omega

theorem decLoop_length : ∀ (left : Nat) (s out : Bytes), decLoop left s = .ok out → out.length = left
  | left, c0 :: c1 :: c2 :: c3 :: rest, out, h => by
    unfold decLoop at h
    by_cases h0 : left = 0
    · rw [if_pos h0] at h
      cases h
      exact h0.symm
    · rw [if_neg h0] at h
      obtain ⟨b0, -, h⟩ := Res.bind_eq_ok.mp h
      obtain ⟨b1, -, h⟩ := Res.bind_eq_ok.mp h
      obtain ⟨b2, -, h⟩ := Res.bind_eq_ok.mp h
      obtain ⟨b3, -, h⟩ := Res.bind_eq_ok.mp h
      split at h
      · cases h
      · obtain ⟨t, ht, h⟩ := Res.bind_eq_ok.mp h
        have := decLoop_length (left - 3) rest t ht
        cases h
        simp only [List.length_append, List.length_cons]
        by_cases h1 : 1 < left <;> by_cases h2 : 2 < left <;> simp [h1, h2] <;> omega
  | left, [], out, h => short left out h
  | left, [_], out, h => short left out h
  | left, [_, _], out, h => short left out h
  | left, [_, _, _], out, h => short left out h
where
  short (left : Nat) (out : Bytes) (h : (if left = 0 then .ok [] else .ub : Res Bytes) = .ok out) :
      out.length = left := by
    split at h
    · cases h
      rename_i h0
      exact h0.symm
    · cases h

end Srl.Base64
