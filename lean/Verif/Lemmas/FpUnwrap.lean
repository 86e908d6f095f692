import Verif.Lemmas.FpRound
import Verif.Model.Apply
import Verif.Props.Fp
import Verif.Props.TypedSpec

/-! # Unwrapping values as floating point numbers -/

namespace Srl.Fp
open Typed (Quiet)

theorem num32_nan {f : UInt32} : num32 f = .nan ↔ (split32 f).2 > inf32 := by
  unfold num32
  generalize split32 f = x
  obtain ⟨s, n⟩ := x
  simp only
  constructor
  · intro h
    split at h
    · assumption
    · split at h <;> cases h
  · intro h
    rw [if_pos h]

theorem narrow_widen (f : UInt32) (h : Quiet f) : narrow (widen f) = f := by
  by_cases hn : num32 f = .nan
  · have hq := h hn
    have hgt := num32_nan.mp hn
    have hlt := split32_lt f
    have hj := join32_split f
    have hf := f.toNat_lt
    have hb : (split32 f).2 / 2 ^ 22 % 2 = 1 := by
      simp only [split32]
      omega
    unfold narrow widen
    generalize split32 f = x at *
    obtain ⟨s, n⟩ := x
    simp only at hgt hlt hj hb ⊢
    unfold inf32 at *
    rw [if_pos hgt, split64_join _ _ (by unfold inf64; omega)]
    simp only
    unfold inf64
    rw [if_pos (by omega)]
    have : 255 * 2 ^ 23 + 2 ^ 22 + (2047 * 2 ^ 52 + 2 ^ 51 + n % 2 ^ 22 * 2 ^ 29) / 2 ^ 29 % 2 ^ 22 = n := by
      omega
    rw [this, hj]
  · have h1 := Props.float_stored_compactly f hn
    unfold ofDouble at h1
    split at h1
    · injection h1
    · cases h1

theorem toDouble_ofDouble (d : UInt64) : Apply.toDouble (ofDouble d) = .ok d := by
  have h := Props.double_storage_exact d
  unfold ofDouble at h ⊢
  split
  · rename_i hc
    rw [if_pos hc] at h
    simp only [toDouble, Option.some.injEq] at h
    simp only [Apply.toDouble, h]
  · rfl

theorem num64_fin {d : UInt64} {v : Int} (h : num64 d = .fin v) :
    (if (split64 d).1 then -(mag 52 (split64 d).2 : Int) else mag 52 (split64 d).2) = v := by
  unfold num64 at h
  generalize split64 d = x at *
  obtain ⟨s, n⟩ := x
  simp only at h ⊢
  split at h
  · cases h
  · split at h
    · cases h
    · injection h

theorem num32_fin {f : UInt32} {v : Int} (h : num32 f = .fin v) :
    (if (split32 f).1 then -((mag 23 (split32 f).2 * 2 ^ 925 : Nat) : Int)
      else (mag 23 (split32 f).2 * 2 ^ 925 : Nat)) = v := by
  unfold num32 at h
  generalize split32 f = x at *
  obtain ⟨s, n⟩ := x
  simp only at h ⊢
  split at h
  · cases h
  · split at h
    · cases h
    · injection h

private theorem one_pos : 0 < one := by unfold one; exact Nat.two_pow_pos _

/-- A signed magnitude that is `k` times a unit -/
private theorem sign_mag {s : Bool} {m o : Nat} {k : Int} (ho : 0 < o)
    (h : (if s then -(m : Int) else m) = k * o) (hz : m = 0 → s = false) :
    decide (k < 0) = s ∧ k.natAbs * o = m := by
  have hnat : k.natAbs * o = m := by
    have := congrArg Int.natAbs h
    rw [Int.natAbs_mul, Int.natAbs_natCast] at this
    rw [← this]
    cases s <;> simp
  refine ⟨?_, hnat⟩
  have ho' : (0 : Int) < o := by omega
  cases s with
  | false =>
    simp only [Bool.false_eq_true, if_false] at h
    refine decide_eq_false fun hk => ?_
    have := Int.mul_neg_of_neg_of_pos hk ho'
    omega
  | true =>
    simp only [if_true] at h
    refine decide_eq_true (Decidable.byContradiction fun hk => ?_)
    have := Int.mul_nonneg (show 0 ≤ k by omega) (Int.le_of_lt ho')
    exact absurd (hz (by omega)) (by simp)

theorem ofInt64_exact (d : UInt64) (k : Int) (h : num64 d = .fin (k * one))
    (hz : d ≠ 0x8000000000000000) : ofInt64 k = d := by
  have h1 := num64_fin h
  obtain ⟨e1, e2⟩ := sign_mag one_pos h1 (fun h0 => by
    have h0 := mag_eq_zero h0
    have hj := join64_split d
    cases hs : (split64 d).1 with
    | false => rfl
    | true => rw [h0, hs] at hj; exact absurd hj.symm hz)
  unfold ofInt64
  rw [e1, e2]
  have h3 := roundAt_exact 52 0 (split64 d).2 (by decide)
  rw [Nat.pow_zero, Nat.mul_one] at h3
  rw [h3, join64_split]

theorem ofInt32_exact (f : UInt32) (k : Int) (h : num32 f = .fin (k * one))
    (hz : f ≠ 0x80000000) : ofInt32 k = f := by
  have h1 := num32_fin h
  obtain ⟨e1, e2⟩ := sign_mag one_pos h1 (fun h0 => by
    have h0 := mag_eq_zero ((Nat.mul_eq_zero.mp h0).resolve_right (Nat.ne_of_gt (Nat.two_pow_pos 925)))
    have hj := join32_split f
    cases hs : (split32 f).1 with
    | false => rfl
    | true => rw [h0, hs] at hj; exact absurd hj.symm hz)
  unfold ofInt32
  rw [e1, e2, roundAt_exact 23 925 (split32 f).2 (by decide), join32_split]

theorem num64_widen_nan (f : UInt32) (h : num32 f = .nan) : num64 (widen f) = .nan := by
  have hgt := num32_nan.mp h
  have hlt := split32_lt f
  unfold num64 widen
  generalize split32 f = x at *
  obtain ⟨s, n⟩ := x
  simp only at hgt hlt ⊢
  unfold inf32 at *
  rw [if_pos hgt, split64_join _ _ (by unfold inf64; omega)]
  simp only
  rw [if_pos (by unfold inf64; omega)]

theorem toFloat_ofDouble_widen (f : UInt32) (h : Quiet f) : Apply.toFloat (ofDouble (widen f)) = .ok f := by
  by_cases hn : num32 f = .nan
  · have e := num64_widen_nan f hn
    have e2 : ofDouble (widen f) = .fp64 (widen f) := by
      unfold ofDouble feq
      rw [e]
      rw [if_neg]
      split <;> simp_all
    rw [e2]
    simp only [Apply.toFloat, e, ltInt, gtInt]
    simp [narrow_widen f h]
  · rw [Props.float_stored_compactly f hn]
    simp only [Apply.toFloat, narrow_widen f h]

end Srl.Fp
