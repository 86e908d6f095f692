import Verif.Lemmas.FpUnwrap

/-! Integers that are floating point numbers. -/

namespace Srl.Fp

private theorem dvd_scaled (k p c : Nat) (hk : k < 2 ^ (p + 1)) : 2 ^ ((k * 2 ^ c).log2 - p) ∣ k * 2 ^ c := by
  by_cases h0 : k = 0
  · subst h0; simp
  · have hl : (k * 2 ^ c).log2 < p + 1 + c := by
      rw [Nat.log2_lt (Nat.mul_ne_zero h0 (Nat.ne_of_gt (Nat.two_pow_pos c))), Nat.pow_add]
      exact Nat.mul_lt_mul_of_pos_right hk (Nat.two_pow_pos c)
    exact Nat.dvd_trans (Nat.pow_dvd_pow 2 (by omega)) (Nat.dvd_mul_left _ _)

private theorem signed (k : Int) (c : Nat) :
    (if decide (k < 0) then -((k.natAbs * c : Nat) : Int) else (k.natAbs * c : Nat)) = k * c := by
  by_cases h : k < 0
  · rw [if_pos (decide_eq_true h), Int.natCast_mul, ← Int.neg_mul]
    congr 1
    omega
  · rw [if_neg (by simpa using h), Int.natCast_mul]
    congr 1
    omega

/-- Integers of up to 53 bits are doubles. -/
theorem int_double (k : Int) (h1 : -2 ^ 53 < k) (h2 : k < 2 ^ 53) :
    ∃ d, num64 d = .fin (k * one) ∧ d ≠ 0x8000000000000000 := by
  have hk : k.natAbs < 2 ^ (52 + 1) := by omega
  have hm := mag_enc 52 (k.natAbs * 2 ^ 1074) (.inr (dvd_scaled _ 52 1074 hk))
  have hl := enc_lt 52 (k.natAbs * 2 ^ 1074) 1126 (by decide) (by
    rw [show 1126 + 1 = (52 + 1) + 1074 from rfl, Nat.pow_add]
    exact Nat.mul_lt_mul_of_pos_right hk (Nat.two_pow_pos _))
  have hs := split64_join (decide (k < 0)) (enc 52 (k.natAbs * 2 ^ 1074)) (by omega)
  refine ⟨join64 (decide (k < 0)) (enc 52 (k.natAbs * 2 ^ 1074)), ?_, ?_⟩
  · unfold num64
    rw [hs]
    simp only
    rw [if_neg (by unfold inf64; omega), if_neg (by unfold inf64; omega), hm]
    rw [show one = 2 ^ 1074 from rfl, ← signed]
  · intro hz
    rw [hz] at hs
    have e : split64 0x8000000000000000 = (true, 0) := by decide
    rw [e, Prod.mk.injEq] at hs
    rw [← hs.2] at hm
    have hk0 : k < 0 := by simpa using hs.1.symm
    have : 0 < k.natAbs * 2 ^ 1074 := Nat.mul_pos (by omega) (Nat.two_pow_pos _)
    rw [← hm] at this
    exact absurd this (by decide)

/-- Integers of up to 24 bits are floats. -/
theorem int_float (k : Int) (h1 : -2 ^ 24 < k) (h2 : k < 2 ^ 24) :
    ∃ f, num32 f = .fin (k * one) ∧ f ≠ 0x80000000 := by
  have hk : k.natAbs < 2 ^ (23 + 1) := by omega
  have hm := mag_enc 23 (k.natAbs * 2 ^ 149) (.inr (dvd_scaled _ 23 149 hk))
  have hl := enc_lt 23 (k.natAbs * 2 ^ 149) 172 (by decide) (by
    rw [show 172 + 1 = (23 + 1) + 149 from rfl, Nat.pow_add]
    exact Nat.mul_lt_mul_of_pos_right hk (Nat.two_pow_pos _))
  have hs := split32_join (decide (k < 0)) (enc 23 (k.natAbs * 2 ^ 149)) (by omega)
  refine ⟨join32 (decide (k < 0)) (enc 23 (k.natAbs * 2 ^ 149)), ?_, ?_⟩
  · unfold num32
    rw [hs]
    simp only
    rw [if_neg (by unfold inf32; omega), if_neg (by unfold inf32; omega), hm]
    rw [show one = 2 ^ 1074 from rfl, ← signed, Nat.mul_assoc, ← Nat.pow_add]
  · intro hz
    rw [hz] at hs
    have e : split32 0x80000000 = (true, 0) := by decide
    rw [e, Prod.mk.injEq] at hs
    rw [← hs.2] at hm
    have hk0 : k < 0 := by simpa using hs.1.symm
    have : 0 < k.natAbs * 2 ^ 149 := Nat.mul_pos (by omega) (Nat.two_pow_pos _)
    rw [← hm] at this
    exact absurd this (by decide)

end Srl.Fp
