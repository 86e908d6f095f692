import Verif.Lemmas.Fp

/-! Gaps between large floating point numbers. -/

namespace Srl.Fp
/-- Between two neighbouring integers above all mantissas there are no floating point numbers. -/
theorem mag_gap (p n c k E : Nat) (hk : p + 1 < k) (h1 : (2 ^ k - 1) * 2 ^ E < mag p n * 2 ^ c)
    (h2 : mag p n * 2 ^ c ≤ 2 ^ k * 2 ^ E) : mag p n * 2 ^ c = 2 ^ k * 2 ^ E := by
  obtain ⟨M, e, hM, hm⟩ : ∃ M e, M < 2 ^ (p + 1) ∧ mag p n = M * 2 ^ e := by
    have hp := Nat.two_pow_pos p
    have hs : 2 ^ (p + 1) = 2 * 2 ^ p := by rw [Nat.pow_succ, Nat.mul_comm]
    unfold mag
    split
    · rename_i h
      have : n < 2 ^ p := by
        rcases Nat.div_eq_zero_iff.mp h with h | h
        · omega
        · exact h
      exact ⟨n, 0, by omega, by simp⟩
    · exact ⟨_, _, by have := Nat.mod_lt n hp; omega, rfl⟩
  rw [hm, Nat.mul_assoc, ← Nat.pow_add] at h1 h2 ⊢
  by_cases hE : E ≤ e + c
  · have hx : M * 2 ^ (e + c) = (M * 2 ^ (e + c - E)) * 2 ^ E := by
      rw [Nat.mul_assoc, ← Nat.pow_add]
      congr 2
      omega
    rw [hx] at h1 h2 ⊢
    have hp := Nat.two_pow_pos E
    have h3 := Nat.lt_of_mul_lt_mul_right h1
    have h4 := Nat.le_of_mul_le_mul_right h2 hp
    congr 1
    omega
  · exfalso
    have h3 : M * 2 ^ (e + c) ≤ 2 ^ (p + 1) * 2 ^ E :=
      Nat.mul_le_mul (by omega) (Nat.pow_le_pow_right (by decide) (by omega))
    have h4 : 2 ^ (p + 1) ≤ 2 ^ k - 1 := by
      have := Nat.pow_lt_pow_right (a := 2) (by decide) hk
      omega
    have h5 := Nat.mul_le_mul_right (2 ^ E) h4
    omega

theorem num64_gap (d : UInt64) (v : Int) (k : Nat) (hk : 53 < k) (h : num64 d = .fin v)
    (h1 : ((2 ^ k - 1 : Nat) : Int) * one < v) (h2 : v ≤ ((2 ^ k : Nat) : Int) * one) :
    v = ((2 ^ k : Nat) : Int) * one := by
  unfold num64 at h
  simp only at h
  split at h
  · cases h
  split at h
  · cases h
  cases h
  unfold one at h1 h2 ⊢
  have hpos : (0 : Int) ≤ ((2 ^ k - 1 : Nat) : Int) * ((2 ^ 1074 : Nat) : Int) :=
    Int.mul_nonneg (Int.natCast_nonneg _) (Int.natCast_nonneg _)
  split at h1
  · omega
  · rename_i hs
    rw [if_neg hs] at h2 ⊢
    have := mag_gap 52 (split64 d).2 0 k 1074 hk (by rw [Nat.pow_zero, Nat.mul_one]; exact_mod_cast h1)
      (by rw [Nat.pow_zero, Nat.mul_one]; exact_mod_cast h2)
    rw [Nat.pow_zero, Nat.mul_one] at this
    exact (congrArg Int.ofNat this).trans (Int.natCast_mul _ _)

theorem num32_gap (f : UInt32) (v : Int) (k : Nat) (hk : 53 < k) (h : num32 f = .fin v)
    (h1 : ((2 ^ k - 1 : Nat) : Int) * one < v) (h2 : v ≤ ((2 ^ k : Nat) : Int) * one) :
    v = ((2 ^ k : Nat) : Int) * one := by
  unfold num32 at h
  simp only at h
  split at h
  · cases h
  split at h
  · cases h
  cases h
  unfold one at h1 h2 ⊢
  have hpos : (0 : Int) ≤ ((2 ^ k - 1 : Nat) : Int) * ((2 ^ 1074 : Nat) : Int) :=
    Int.mul_nonneg (Int.natCast_nonneg _) (Int.natCast_nonneg _)
  split at h1
  · omega
  · rename_i hs
    rw [if_neg hs] at h2 ⊢
    have := mag_gap 23 (split32 f).2 925 k 1074 (by omega) (by exact_mod_cast h1) (by exact_mod_cast h2)
    exact (congrArg Int.ofNat this).trans (Int.natCast_mul _ _)
end Srl.Fp
