import Verif.Model.Fpconv
import Mathlib.Tactic.Linarith
import Mathlib.Tactic.Ring
import Mathlib.Tactic.IntervalCases

/-! # Doubles as text: the digits -/

namespace Srl.Fpconv

/-! ### Multiplication -/

theorem multiply_frac (a b : Fp) (ha : a.frac < 2 ^ 64) (hb : b.frac < 2 ^ 64) :
    (multiply a b).frac = (a.frac * b.frac + 2 ^ 63) / 2 ^ 64 := by
  unfold multiply
  simp only
  have h1 : a.frac = a.frac / 2 ^ 32 * 2 ^ 32 + a.frac % 2 ^ 32 := by omega
  have h2 : b.frac = b.frac / 2 ^ 32 * 2 ^ 32 + b.frac % 2 ^ 32 := by omega
  have h3 : a.frac / 2 ^ 32 ≤ 2 ^ 32 - 1 := by omega
  have h4 : b.frac / 2 ^ 32 ≤ 2 ^ 32 - 1 := by omega
  have h5 : a.frac % 2 ^ 32 ≤ 2 ^ 32 - 1 := by omega
  have h6 : b.frac % 2 ^ 32 ≤ 2 ^ 32 - 1 := by omega
  have h7 : a.frac * b.frac = (a.frac / 2 ^ 32 * 2 ^ 32 + a.frac % 2 ^ 32) *
    (b.frac / 2 ^ 32 * 2 ^ 32 + b.frac % 2 ^ 32) := by rw [← h1, ← h2]
  rw [h7]
  generalize a.frac / 2 ^ 32 = ah at *
  generalize b.frac / 2 ^ 32 = bh at *
  generalize a.frac % 2 ^ 32 = al at *
  generalize b.frac % 2 ^ 32 = bl at *
  have e : (ah * 2 ^ 32 + al) * (bh * 2 ^ 32 + bl) =
    ah * bh * 2 ^ 64 + (ah * bl + al * bh) * 2 ^ 32 + al * bl := by ring
  rw [e]
  have b1 : ah * bl ≤ (2 ^ 32 - 1) * (2 ^ 32 - 1) := Nat.mul_le_mul h3 h6
  have b2 : al * bh ≤ (2 ^ 32 - 1) * (2 ^ 32 - 1) := Nat.mul_le_mul h5 h4
  have b3 : al * bl ≤ (2 ^ 32 - 1) * (2 ^ 32 - 1) := Nat.mul_le_mul h5 h6
  have b4 : ah * bh ≤ (2 ^ 32 - 1) * (2 ^ 32 - 1) := Nat.mul_le_mul h3 h4
  generalize ah * bl = p at *
  generalize al * bh = q at *
  generalize al * bl = r at *
  generalize ah * bh = t at *
  clear h1 h2 h3 h4 h5 h6 h7 e ha hb
  omega

/-! ### Normalization -/

theorem shiftTo_eq (b : Nat) (hb : b < 63) : ∀ (s fuel f : Nat) (e : Int), 2 ^ b ≤ f * 2 ^ s → f * 2 ^ s < 2 ^ (b + 1) →
    s < fuel → shiftTo b fuel ⟨f, e⟩ = .ok ⟨f * 2 ^ s, e - s⟩
  | 0, 0, _, _, _, _, h => absurd h (by omega)
  | 0, fuel + 1, f, e, h1, h2, _ => by
    simp only [Nat.pow_zero, Nat.mul_one] at h1 h2 ⊢
    have : f / 2 ^ b = 1 := by
      rw [Nat.pow_succ] at h2
      exact Nat.div_eq_of_lt_le (by omega) (by omega)
    rw [shiftTo, if_pos (by rw [Nat.testBit_eq_decide_div_mod_eq, this]; rfl)]
    simp
  | s + 1, 0, _, _, _, _, h => absurd h (by omega)
  | s + 1, fuel + 1, f, e, h1, h2, h3 => by
    have hp : 0 < 2 ^ s := Nat.pow_pos (by decide)
    have e1 : f * 2 ^ (s + 1) = f * 2 * 2 ^ s := by rw [Nat.pow_succ]; ring
    have h4 : f * 2 < 2 ^ (b + 1) := by
      rw [e1] at h2
      exact Nat.lt_of_le_of_lt (Nat.le_mul_of_pos_right _ hp) h2
    have h5 : f < 2 ^ b := by rw [Nat.pow_succ] at h4; omega
    have h6 : 2 ^ (b + 1) ≤ 2 ^ 63 := Nat.pow_le_pow_right (by decide) (by omega)
    rw [shiftTo, if_neg (by rw [Nat.testBit_eq_decide_div_mod_eq, Nat.div_eq_of_lt h5]; simp),
      Nat.mod_eq_of_lt (show f * 2 < 2 ^ 64 by omega)]
    rw [e1] at h1 h2
    rw [shiftTo_eq b hb s fuel (f * 2) (e - 1) h1 h2 (by omega), e1]
    congr 2
    push_cast
    omega

theorem shl_eq (a n : Nat) (hn : n < 64) (h : a * 2 ^ n < 2 ^ 64) : shl a (n : Int) = .ok (a * 2 ^ n) := by
  unfold shl
  rw [if_neg (by omega), Int.toNat_natCast, Nat.mod_eq_of_lt h]

/-- The boundaries of the code -/
def upperOf (f s : Nat) : Nat := (2 * f + 1) * 2 ^ (s + 10)
def lowerOf (f s : Nat) : Nat := if f = 2 ^ 52 then (4 * f - 1) * 2 ^ (s + 9) else (2 * f - 1) * 2 ^ (s + 10)

theorem normalize_eq (f s : Nat) (e : Int) (h1 : 2 ^ 52 ≤ f * 2 ^ s) (h2 : f * 2 ^ s < 2 ^ 53) (hs : s ≤ 52) :
    normalize ⟨f, e⟩ = .ok ⟨f * 2 ^ (s + 11), e - s - 11⟩ := by
  unfold normalize
  rw [shiftTo_eq 52 (by decide) s 64 f e h1 h2 (by omega)]
  simp only [Res.ok_bind]
  have := shl_eq (f * 2 ^ s) 11 (by decide) (by omega)
  rw [show ((11 : Int)) = ((11 : Nat) : Int) from rfl, this]
  simp only [Res.ok_bind]
  rw [Nat.pow_add, Nat.mul_assoc]

theorem boundaries_eq (f s : Nat) (e : Int) (h1 : 2 ^ 52 ≤ f * 2 ^ s) (h2 : f * 2 ^ s < 2 ^ 53) (hs : s ≤ 52) :
    boundaries ⟨f, e⟩ = .ok (⟨lowerOf f s, e - s - 11⟩, ⟨upperOf f s, e - s - 11⟩) := by
  have hp : 0 < 2 ^ s := Nat.pow_pos (by decide)
  have hf : 0 < f := by
    rcases Nat.eq_zero_or_pos f with h | h
    · rw [h] at h1; simp at h1
    · exact h
  have hf53 : f < 2 ^ 53 := Nat.lt_of_le_of_lt (Nat.le_mul_of_pos_right _ hp) h2
  have hsp : 2 ^ s ≤ 2 ^ 52 := Nat.pow_le_pow_right (by decide) hs
  -- the upper one
  have e1 : (2 * f + 1) * 2 ^ s = 2 * (f * 2 ^ s) + 2 ^ s := by ring
  have hsf : 2 ^ s ≤ f * 2 ^ s := Nat.le_mul_of_pos_left _ hf
  have hodd : (2 * f + 1) * 2 ^ s < 2 ^ 54 := by
    -- f + 1 ≤ 2^(53-s)
    have : 2 ^ 53 = 2 ^ (53 - s) * 2 ^ s := by rw [← Nat.pow_add]; congr 1; omega
    rw [this] at h2
    have h3 : f < 2 ^ (53 - s) := Nat.lt_of_mul_lt_mul_right h2
    have h4 : (f + 1) * 2 ^ s ≤ 2 ^ (53 - s) * 2 ^ s := Nat.mul_le_mul_right _ h3
    rw [← this] at h4
    have h5 : (f + 1) * 2 ^ s = f * 2 ^ s + 2 ^ s := by ring
    omega
  unfold boundaries
  simp only
  have a1 : (f * 2 % 2 ^ 64 + 1) % 2 ^ 64 = 2 * f + 1 := by omega
  rw [a1, shiftTo_eq 53 (by decide) s 64 (2 * f + 1) (e - 1) (by omega) hodd (by omega)]
  simp only [Res.ok_bind]
  have a2 := shl_eq ((2 * f + 1) * 2 ^ s) 10 (by decide) (by omega)
  rw [show ((10 : Int)) = ((10 : Nat) : Int) from rfl, a2]
  simp only [Res.ok_bind]
  have eU : (2 * f + 1) * 2 ^ s * 2 ^ 10 = upperOf f s := by
    unfold upperOf; rw [Nat.pow_add, Nat.mul_assoc]
  rw [eU]
  unfold lowerOf hidden
  by_cases hh : f = 2 ^ 52
  · have hs0 : s = 0 := by
      rcases Nat.eq_zero_or_pos s with h | h
      · exact h
      · have : 2 ^ 1 ≤ 2 ^ s := Nat.pow_le_pow_right (by decide) h
        have : f * 2 ≤ f * 2 ^ s := Nat.mul_le_mul_left _ this
        omega
    subst hs0
    rw [if_pos hh, if_pos hh, show ((2 : Int)) = ((2 : Nat) : Int) from rfl, shl_eq f 2 (by decide) (by omega)]
    simp only [Res.ok_bind]
    rw [show (f * 2 ^ 2 + 2 ^ 64 - 1) % 2 ^ 64 = 4 * f - 1 by omega,
      show e - ((2 : Nat) : Int) - (e - 1 - ((0 : Nat) : Int) - ((10 : Nat) : Int)) = ((9 : Nat) : Int) by omega,
      shl_eq _ 9 (by decide) (by omega)]
    simp only [Res.ok_bind]
    rw [show e - 1 - ((0 : Nat) : Int) - ((10 : Nat) : Int) = e - ((0 : Nat) : Int) - 11 by omega]
  · rw [if_neg hh, if_neg hh, show ((1 : Int)) = ((1 : Nat) : Int) from rfl, shl_eq f 1 (by decide) (by omega)]
    simp only [Res.ok_bind]
    have hL : (2 * f - 1) * 2 ^ (s + 10) < 2 ^ 64 := by
      have h3 : (2 * f - 1) * 2 ^ s ≤ (2 * f + 1) * 2 ^ s := Nat.mul_le_mul_right _ (by omega)
      rw [Nat.pow_add, ← Nat.mul_assoc]
      omega
    rw [show (f * 2 ^ 1 + 2 ^ 64 - 1) % 2 ^ 64 = 2 * f - 1 by omega,
      show e - ((1 : Nat) : Int) - (e - ((1 : Nat) : Int) - (s : Int) - ((10 : Nat) : Int)) = ((s + 10 : Nat) : Int) by
        push_cast; omega,
      shl_eq _ (s + 10) (by omega) hL]
    simp only [Res.ok_bind]
    rw [show e - ((1 : Nat) : Int) - (s : Int) - ((10 : Nat) : Int) = e - (s : Int) - 11 by omega]

/-- Every fraction can be normalized. -/
theorem shift_exists (f : Nat) (h0 : 0 < f) (h : f < 2 ^ 53) : ∃ s ≤ 52, 2 ^ 52 ≤ f * 2 ^ s ∧ f * 2 ^ s < 2 ^ 53 := by
  have h1 := Nat.log2_self_le (n := f) (by omega)
  have h2 := Nat.lt_log2_self (n := f)
  have h3 : f.log2 ≤ 52 := by
    rcases Nat.lt_or_ge 52 f.log2 with h4 | h4
    · have : 2 ^ 53 ≤ 2 ^ f.log2 := Nat.pow_le_pow_right (by decide) h4
      omega
    · exact h4
  refine ⟨52 - f.log2, by omega, ?_, ?_⟩
  · calc 2 ^ 52 = 2 ^ f.log2 * 2 ^ (52 - f.log2) := by rw [← Nat.pow_add]; congr 1; omega
      _ ≤ _ := Nat.mul_le_mul_right _ h1
  · calc f * 2 ^ (52 - f.log2) < 2 ^ (f.log2 + 1) * 2 ^ (52 - f.log2) :=
          Nat.mul_lt_mul_of_pos_right h2 (Nat.pow_pos (by decide))
      _ = 2 ^ 53 := by rw [← Nat.pow_add]; congr 1; omega

end Srl.Fpconv
