import Verif.Lemmas.Fp

/-! # C15 – doubles keep their value when stored compactly -/

namespace Srl.Props
open Fp

private theorem sign_widen (f : UInt32) : (split64 (widen f)).1 = (split32 f).1 := by
  have key : ∀ (s : Bool) (n : Nat), n < 2 ^ 63 → (split64 (join64 s n)).1 = s :=
    fun s n h => by rw [split64_join s n h]
  have hn := split32_lt f
  unfold widen
  generalize split32 f = x at *
  obtain ⟨s, n⟩ := x
  simp only at hn ⊢
  split
  · apply key; unfold inf64; unfold inf32 at *; omega
  · split
    · apply key; unfold inf64; omega
    · apply key
      have := widen_field_lt 925 n (by omega) (by unfold inf32 at *; omega)
      omega

private theorem sign_narrow (d : UInt64) : (split32 (narrow d)).1 = (split64 d).1 := by
  have key : ∀ (s : Bool) (n : Nat), n < 2 ^ 31 → (split32 (join32 s n)).1 = s :=
    fun s n h => by rw [split32_join s n h]
  unfold narrow
  generalize split64 d = x at *
  obtain ⟨s, n⟩ := x
  simp only
  split
  · apply key; unfold inf32; omega
  · split
    · apply key; unfold inf32; omega
    · apply key
      have : min inf32 (((mag 52 n).log2 - 948) * 2 ^ 23 +
        rne (mag 52 n) (925 + ((mag 52 n).log2 - 948))) ≤ inf32 := Nat.min_le_left _ _
      unfold inf32 at *; omega

/-- C15: a double put into a value and unwrapped again is the same datum, bit for bit (signed
zeros, infinities, subnormals and NaN payloads included). -/
theorem double_storage_exact (d : UInt64) : toDouble (ofDouble d) = some d := by
  unfold ofDouble
  split
  · rename_i h
    simp only [toDouble, Option.some.injEq]
    exact eq_of_feq h (by rw [sign_widen, sign_narrow])
  · rfl

/-- Converting a float to double does not change its numeric value. -/
theorem widen_exact (f : UInt32) (h : num32 f ≠ .nan) : num64 (widen f) = num32 f := by
  have hn := split32_lt f
  unfold num32 at h
  unfold num64 num32 widen
  generalize split32 f = x at *
  obtain ⟨s, n⟩ := x
  simp only at hn h ⊢
  by_cases h1 : n > inf32
  · simp [h1] at h
  · simp only [h1, if_false]
    by_cases h2 : n = inf32
    · simp only [h2, if_true]
      rw [split64_join _ _ (by unfold inf64; omega)]
      simp
    · simp only [h2, if_false]
      have hlt := widen_field_lt 925 n (by omega) (by unfold inf32 at *; omega)
      rw [split64_join _ _ (by omega)]
      simp only
      rw [if_neg (by unfold inf64; omega), if_neg (by unfold inf64; omega), mag_widen_field 925 n (by omega)]

/-- C15: the compact form is used for every double that is a float: such a value takes four
bytes, and the float is the original one. -/
theorem float_stored_compactly (f : UInt32) (h : num32 f ≠ .nan) :
    ofDouble (widen f) = .fp32 f := by
  have hnar : narrow (widen f) = f := by
    have hn := split32_lt f
    have hj := join32_split f
    unfold num32 at h
    unfold narrow widen
    generalize split32 f = x at *
    obtain ⟨s, n⟩ := x
    simp only at hn h hj ⊢
    by_cases h1 : n > inf32
    · simp [h1] at h
    · simp only [h1, if_false]
      by_cases h2 : n = inf32
      · simp only [h2, if_true] at hj ⊢
        rw [split64_join _ _ (by unfold inf64; omega)]
        simp [hj]
      · simp only [h2, if_false]
        have hlt := widen_field_lt 925 n (by omega) (by unfold inf32 at *; omega)
        rw [split64_join _ _ (by omega)]
        simp only
        rw [if_neg (by unfold inf64; omega), if_neg (by unfold inf64; omega), mag_widen_field 925 n (by omega)]
        obtain ⟨e1, e2⟩ := narrow_field 925 n
        rw [e1, Nat.add_comm, e2, Nat.min_eq_right (by omega), hj]
  have hx := widen_exact f h
  have hfe : feq (widen f) (widen f) = true := by
    unfold feq
    rw [hx]
    cases hv : num32 f with
    | nan => exact absurd hv h
    | inf b => simp
    | fin v => simp
  unfold ofDouble
  rw [hnar, if_pos hfe]

/-- 0.5 is kept in single precision, 0.1 and a NaN are not. -/
example : ofDouble 0x3FE0000000000000 = .fp32 0x3F000000 := by decide +kernel
example : ofDouble 0x3FB999999999999A = .fp64 0x3FB999999999999A := by decide +kernel
example : ofDouble 0x7FF8000000000001 = .fp64 0x7FF8000000000001 := by decide +kernel
example : narrow 0x3FB999999999999A = 0x3DCCCCCD := by decide +kernel
/-- `FLT_MAX`, the smallest float, and rounding up to infinity -/
example : num32 0x7F7FFFFF ≠ .nan ∧ ofDouble 0x47EFFFFFE0000000 = .fp32 0x7F7FFFFF := by
  decide +kernel
example : ofDouble 0x36A0000000000000 = .fp32 1 ∧ narrow 0x47EFFFFFF0000000 = 0x7F800000 := by
  decide +kernel

end Srl.Props
