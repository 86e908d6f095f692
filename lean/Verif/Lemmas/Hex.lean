import Verif.Model.Hex
import Verif.Lemmas.Byte

namespace Srl.Hex

theorem conv_digit_hi (b : UInt8) : conv (digit ((b >>> 4) &&& 0x0F)) = .ok ((b >>> 4) &&& 0x0F) := by
  revert b; decide +kernel

theorem conv_digit_lo (b : UInt8) : conv (digit (b &&& 0x0F)) = .ok (b &&& 0x0F) := by
  revert b; decide +kernel

theorem nibbles (b : UInt8) : (((b >>> 4) &&& 0x0F) <<< 4) ||| (b &&& 0x0F) = b := by
  revert b; decide +kernel

theorem encode_length (bs : Bytes) : (encode bs).length = 2 * bs.length := by
  induction bs with
  | nil => rfl
  | cons b bs ih => simp [encode] at ih ⊢; omega

theorem loop_encode (bs : Bytes) : loop (encode bs) = .ok bs := by
  induction bs with
  | nil => rfl
  | cons b bs ih =>
    have : encode (b :: bs) = digit ((b >>> 4) &&& 0x0F) :: digit (b &&& 0x0F) :: encode bs := by
      simp [encode]
    rw [this, loop, conv_digit_hi, conv_digit_lo]
    simp [ih, nibbles]

end Srl.Hex
