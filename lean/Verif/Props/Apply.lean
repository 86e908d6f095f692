import Verif.Model.Apply

/-! # C13, C14 – unwrapping as an integer -/

namespace Srl.Props
open Apply

/-- Least and greatest value of the target types, written out. -/
def targetRange : Target → Int × Int
  | .bool => (0, 1)
  | .int .i8 => (-128, 127)
  | .int .u8 => (0, 255)
  | .int .i16 => (-32768, 32767)
  | .int .u16 => (0, 65535)
  | .int .i32 => (-2147483648, 2147483647)
  | .int .u32 => (0, 4294967295)
  | .int .i64 => (-9223372036854775808, 9223372036854775807)
  | .int .u64 => (0, 18446744073709551615)

private theorem range_eq (T : Target) : targetRange T = (T.lo, T.hi) := by
  cases T with
  | bool => rfl
  | int t => cases t <;> decide +kernel

private theorem castInt_id (T : Target) (v : Int) (h1 : (targetRange T).1 ≤ v)
    (h2 : v ≤ (targetRange T).2) : castInt T v = v := by
  cases T with
  | bool => simp only [targetRange] at h1 h2; simp only [castInt]; split <;> omega
  | int t =>
    cases t <;> simp [targetRange] at h1 h2 <;>
      simp [castInt, IntTy.signed, IntTy.bits, IntTy.hi] <;> omega

private theorem signed_cond (T : Target) (v : Int) (h1 : (targetRange (.int .i64)).1 ≤ v)
    (h2 : v ≤ (targetRange (.int .i64)).2) :
    ((!T.signed && decide (v < 0)) || overflowsSigned T v) = true ↔
      ¬ ((targetRange T).1 ≤ v ∧ v ≤ (targetRange T).2) := by
  unfold overflowsSigned
  cases T with
  | bool =>
    rw [if_pos (show Target.bool.bits < 64 by decide)]
    show ((true && decide (v < 0)) || (decide (v > 1) || decide (v < 0))) = true ↔
      ¬ ((0 : Int) ≤ v ∧ v ≤ 1)
    rw [Bool.or_eq_true, Bool.or_eq_true, Bool.and_eq_true, decide_eq_true_iff,
      decide_eq_true_iff]
    omega
  | int t =>
    cases t <;>
      simp [targetRange, Target.signed, IntTy.signed, Target.bits, IntTy.bits, Target.hi,
        Target.lo, IntTy.hi, IntTy.lo, -not_and] at * <;> omega

private theorem unsigned_cond (T : Target) (v : Int) (h1 : 0 ≤ v)
    (h2 : v ≤ (targetRange (.int .u64)).2) :
    overflowsUnsigned T v = true ↔ ¬ ((targetRange T).1 ≤ v ∧ v ≤ (targetRange T).2) := by
  unfold overflowsUnsigned
  cases T with
  | bool => simp [targetRange, Target.bits, Target.hi, -not_and] at *; omega
  | int t =>
    cases t <;>
      simp [targetRange, Target.signed, IntTy.signed, Target.bits, IntTy.bits, Target.hi,
        IntTy.hi, -not_and] at * <;> omega

/-- C13: a stored integer is unwrapped exactly when it is representable in the target. -/
theorem int_unwrap_exact (strtod : Bytes → Option UInt64) (T : Target) (t : IntTy) (v : Int)
    (hlo : (targetRange (.int t)).1 ≤ v) (hhi : v ≤ (targetRange (.int t)).2) :
    paste strtod T (.int t v) =
      if (targetRange T).1 ≤ v ∧ v ≤ (targetRange T).2 then .ok v else .err := by
  have key : ∀ c : Bool, (c = true ↔ ¬ ((targetRange T).1 ≤ v ∧ v ≤ (targetRange T).2)) →
      (if c = true then Res.err else .ok (castInt T v)) =
        if (targetRange T).1 ≤ v ∧ v ≤ (targetRange T).2 then .ok v else .err := by
    intro c hc
    by_cases hr : (targetRange T).1 ≤ v ∧ v ≤ (targetRange T).2
    · rw [castInt_id T v hr.1 hr.2, if_pos hr, if_neg (fun h => hc.mp h hr)]
    · rw [if_neg hr, if_pos (hc.mpr hr)]
  simp only [paste, apply]
  by_cases hs : t.signed = true
  · rw [if_pos hs]
    apply key
    apply signed_cond <;> cases t <;> simp [IntTy.signed, targetRange] at * <;> omega
  · rw [if_neg hs]
    apply key
    apply unsigned_cond <;> cases t <;> simp [IntTy.signed, targetRange] at * <;> omega

/-- C13: booleans unwrap as 0 and 1. -/
theorem bool_unwrap_exact (strtod : Bytes → Option UInt64) (T : Target) (b : Bool) :
    paste strtod T (.bool b) = .ok (if b then 1 else 0) := by
  simp only [paste, apply]
  rw [castInt_id T _ ?_ ?_]
  all_goals cases b <;> cases T <;> try rename_i T <;> cases T
  all_goals simp [targetRange]

example : paste (fun _ => none) (.int .u16) (.int .i64 (-1)) = .err ∧
    paste (fun _ => none) (.int .i64) (.int .u64 (2 ^ 63 - 1)) = .ok (2 ^ 63 - 1) ∧
    paste (fun _ => none) (.int .i64) (.int .u64 (2 ^ 63)) = .err := by decide

/-! ## C14 -/

/-- The full property: the number (in units of `2^-1074`) lies between the target's least and
greatest value – then the result is its truncation – or an exception is thrown. -/
def fpUnwrapSpec (t : IntTy) (x : Fp.Num) : Res Int :=
  match x with
  | .fin v =>
    if (targetRange (.int t)).1 * Fp.one ≤ v ∧ v ≤ (targetRange (.int t)).2 * Fp.one then
      .ok (v.tdiv Fp.one)
    else .err
  | _ => .err

/-- Negation of C14: NaN, `2^63` as `int64_t` and `2^64` as `uint64_t` pass the range check and
are converted although they do not fit, which is undefined. -/
theorem fp_unwrap_undefined :
    paste (fun _ => none) (.int .u8) (.fp64 0x7FF8000000000000) = .ub ∧
    paste (fun _ => none) (.int .i64) (.fp32 0x5F000000) = .ub ∧
    paste (fun _ => none) (.int .u64) (.fp32 0x5F800000) = .ub := by decide +kernel

/-- Floating point numbers the range check lets through although they do not fit. -/
def fpUnwrapHole (t : IntTy) (x : Fp.Num) : Prop :=
  x = .nan ∨ ∃ v, x = .fin v ∧ t.bits = 64 ∧
    (targetRange (.int t)).2 * Fp.one < v ∧ v ≤ ((targetRange (.int t)).2 + 1) * Fp.one

/-- C14 for all numbers but NaN and, for the 64-bit targets, those above the greatest value and
at most one above it (the only such double is `2^63` resp. `2^64`). -/
theorem fp_unwrap_partial (t : IntTy) (x : Fp.Num) (h : ¬ fpUnwrapHole t x) :
    applyFp (.int t) x = fpUnwrapSpec t x := by
  have hr := range_eq (.int t)
  have hL : t.lo ≤ 0 := by cases t <;> decide
  have hH : 0 ≤ t.hi := by cases t <;> decide
  have hD : (0 : Int) < Fp.one := by
    have : 0 < Fp.one := by unfold Fp.one; exact Nat.two_pow_pos _
    omega
  simp only [Target.lo, Target.hi] at hr
  unfold fpUnwrapHole at h
  rw [hr] at h
  cases x with
  | nan => exact absurd (.inl rfl) h
  | inf neg =>
    simp only [applyFp, fpUnwrapSpec, Fp.ltInt, Fp.gtInt]
    cases neg <;> rfl
  | fin v =>
    have hcond : (Fp.ltInt (.fin v) t.lo || Fp.gtInt (.fin v) (maxAsDouble (.int t))) = true ↔
        v < t.lo * Fp.one ∨ v > (if t.bits = 64 then t.hi + 1 else t.hi) * Fp.one := by
      rw [Bool.or_eq_true]
      show decide _ = true ∨ decide _ = true ↔ _
      rw [decide_eq_true_iff, decide_eq_true_iff]
      rfl
    have hl : applyFp (.int t) (.fin v) =
        if v < t.lo * Fp.one ∨ v > (if t.bits = 64 then t.hi + 1 else t.hi) * Fp.one then .err
        else if t.lo ≤ v.tdiv Fp.one ∧ v.tdiv Fp.one ≤ t.hi then .ok (v.tdiv Fp.one) else .ub := by
      unfold applyFp
      show (if (Fp.ltInt (.fin v) t.lo || Fp.gtInt (.fin v) (maxAsDouble (.int t))) = true
        then _ else _) = _
      simp only [hcond]
      rfl
    rw [hl]
    simp only [fpUnwrapSpec, hr]
    generalize (Fp.one : Int) = D at *
    by_cases hin : t.lo * D ≤ v ∧ v ≤ t.hi * D
    · have hle : t.hi * D ≤ (t.hi + 1) * D := Int.mul_le_mul_of_nonneg_right (by omega) (by omega)
      rw [if_neg (by split <;> omega), if_pos hin, if_pos]
      rcases Int.le_total 0 v with hv | hv
      · rw [Int.tdiv_eq_ediv_of_nonneg hv]
        refine ⟨Int.le_trans hL (Int.ediv_nonneg hv (by omega)), ?_⟩
        exact Int.ediv_le_of_le_mul hD hin.2
      · obtain ⟨w, rfl⟩ : ∃ w, v = -w := ⟨-v, by omega⟩
        rw [Int.neg_tdiv, Int.tdiv_eq_ediv_of_nonneg (by omega)]
        have h1 : w / D ≤ -t.lo := by
          apply Int.ediv_le_of_le_mul hD
          rw [Int.neg_mul]; omega
        have h2 : 0 ≤ w / D := Int.ediv_nonneg (by omega) (by omega)
        omega
    · rw [if_neg hin, if_pos]
      by_cases hb : t.bits = 64
      · rw [if_pos hb]
        by_cases hlo : v < t.lo * D
        · exact .inl hlo
        · right
          apply Int.lt_of_not_ge
          intro hge
          exact h (.inr ⟨v, rfl, hb, by show t.hi * D < v; omega, hge⟩)
      · rw [if_neg hb]; omega

/-- Both ways a floating point number can be stored lead here. -/
theorem fp_unwrap_partial' (strtod : Bytes → Option UInt64) (t : IntTy) :
    (∀ d, ¬ fpUnwrapHole t (Fp.num64 d) →
      paste strtod (.int t) (.fp64 d) = fpUnwrapSpec t (Fp.num64 d)) ∧
    (∀ f, ¬ fpUnwrapHole t (Fp.num32 f) →
      paste strtod (.int t) (.fp32 f) = fpUnwrapSpec t (Fp.num32 f)) :=
  ⟨fun _ h => fp_unwrap_partial t _ h, fun _ h => fp_unwrap_partial t _ h⟩

/-- For targets below 64 bits the only hole is NaN. -/
theorem fp_unwrap_small (t : IntTy) (ht : t.bits < 64) (x : Fp.Num) (h : x ≠ .nan) :
    applyFp (.int t) x = fpUnwrapSpec t x := by
  apply fp_unwrap_partial
  rintro (h' | ⟨v, _, h', _⟩)
  · exact h h'
  · omega

/-- 255.5 is above the greatest `uint8_t`, -128.0 is the least `int8_t`, -1.5 truncates to -1. -/
example : paste (fun _ => none) (.int .u8) (.fp64 0x406FF00000000000) = .err ∧
    paste (fun _ => none) (.int .i8) (.fp64 0xC060000000000000) = .ok (-128) ∧
    paste (fun _ => none) (.int .i64) (.fp64 0xBFF8000000000000) = .ok (-1) := by decide +kernel

end Srl.Props
