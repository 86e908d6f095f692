import Verif.Lemmas.FpUnwrap
import Verif.Lemmas.Range
import Verif.Lemmas.TypedSafe

/-! # C60: numbers unwrapped as `float` and `double` -/

namespace Srl.Props
open Fp

/-! ## Specification -/

/-- The number a value stands for, in units of `2^-1074` -/
def numberOf : Val → Option Num
  | .int _ v => some (.fin (v * one))
  | .bool b => some (.fin (if b then one else 0))
  | .fp32 f => some (num32 f)
  | .fp64 d => some (num64 d)
  | .null => some (.fin 0)
  | .str _ => none
  | .bin _ => none

/-- `r` is a finite double, and no other one is nearer to `w`; if another one is as near, the
last bit of `r` is 0. -/
def NearestDouble (w : Int) (r : UInt64) : Prop :=
  ∃ x, num64 r = .fin x ∧ ∀ b y, num64 b = .fin y → (w - x).natAbs ≤ (w - y).natAbs ∧
    (y ≠ x → (w - x).natAbs = (w - y).natAbs → r.toNat % 2 = 0)

/-- Likewise for floats -/
def NearestFloat (w : Int) (r : UInt32) : Prop :=
  ∃ x, num32 r = .fin x ∧ ∀ b y, num32 b = .fin y → (w - x).natAbs ≤ (w - y).natAbs ∧
    (y ≠ x → (w - x).natAbs = (w - y).natAbs → r.toNat % 2 = 0)

/-! ## Rounding signed numbers -/

theorem num64_join (s : Bool) (n : Nat) (h : n < inf64) :
    num64 (join64 s n) = .fin (if s then -(mag 52 n : Int) else mag 52 n) := by
  have hi : inf64 = 2047 * 2 ^ 52 := rfl
  unfold num64
  rw [split64_join s n (by omega)]
  simp only
  rw [if_neg (by omega), if_neg (by omega)]

private theorem num32_join (s : Bool) (n : Nat) (h : n < inf32) :
    num32 (join32 s n) = .fin (if s then -((mag 23 n * 2 ^ 925 : Nat) : Int) else (mag 23 n * 2 ^ 925 : Nat)) := by
  have hi : inf32 = 255 * 2 ^ 23 := rfl
  unfold num32
  rw [split32_join s n (by omega)]
  simp only
  rw [if_neg (by omega), if_neg (by omega)]

/-- From magnitudes to signed numbers -/
private theorem nearest_signed {w : Int} {s : Bool} {r y : Nat} (hs : s = decide (w < 0)) (P : Prop)
    (sy : Bool) (h0 : Fp.dist w.natAbs r ≤ Fp.dist w.natAbs 0)
    (h : Fp.dist w.natAbs r ≤ Fp.dist w.natAbs y ∧ (y ≠ r → Fp.dist w.natAbs r = Fp.dist w.natAbs y → P)) :
    (w - (if s then -(r : Int) else r)).natAbs ≤ (w - (if sy then -(y : Int) else y)).natAbs ∧
    ((if sy then -(y : Int) else y) ≠ (if s then -(r : Int) else r) →
      (w - (if s then -(r : Int) else r)).natAbs = (w - (if sy then -(y : Int) else y)).natAbs → P) := by
  subst hs
  unfold Fp.dist at *
  by_cases hw : w < 0
  · simp only [hw, decide_true, if_true]
    cases sy
    · simp only [Bool.false_eq_true, if_false]
      refine ⟨by omega, fun h1 h2 => h.2 (by omega) (by omega)⟩
    · simp only [if_true]
      refine ⟨by omega, fun h1 h2 => h.2 (by omega) (by omega)⟩
  · simp only [hw, decide_false, Bool.false_eq_true, if_false]
    cases sy
    · simp only [Bool.false_eq_true, if_false]
      refine ⟨by omega, fun h1 h2 => h.2 (by omega) (by omega)⟩
    · simp only [if_true]
      refine ⟨by omega, fun h1 h2 => h.2 (by omega) (by omega)⟩

private theorem join64_even (s : Bool) (n : Nat) (h : n < 2 ^ 63) : (join64 s n).toNat % 2 = n % 2 := by
  unfold join64
  rw [UInt64.toNat_ofNat']
  cases s <;> simp <;> omega

private theorem join32_even (s : Bool) (n : Nat) (h : n < 2 ^ 31) : (join32 s n).toNat % 2 = n % 2 := by
  unfold join32
  rw [UInt32.toNat_ofNat']
  cases s <;> simp <;> omega

private theorem mag_zero (p : Nat) : mag p 0 = 0 := by simp [mag]

/-- Of a number not beyond the greatest double, rounding gives the nearest one. -/
private theorem round64_nearest (w : Int) (h : roundAt 52 0 w.natAbs < inf64) :
    NearestDouble w (join64 (w < 0) (roundAt 52 0 w.natAbs)) := by
  have hi : inf64 = 2047 * 2 ^ 52 := rfl
  refine ⟨_, num64_join _ _ h, fun b y hb => ?_⟩
  have h1 := num64_fin hb
  rw [← h1, join64_even _ _ (by omega)]
  have h2 := roundAt_nearest 52 0 w.natAbs (split64 b).2 (by decide)
  have h3 := (roundAt_nearest 52 0 w.natAbs 0 (by decide)).1
  rw [mag_zero] at h3
  simp only [Nat.pow_zero, Nat.mul_one] at h2 h3
  exact nearest_signed rfl _ _ h3 ⟨h2.1, fun hne => h2.2 (fun he => hne (by rw [he]))⟩

private theorem round32_nearest (w : Int) (h : roundAt 23 925 w.natAbs < inf32) :
    NearestFloat w (join32 (w < 0) (roundAt 23 925 w.natAbs)) := by
  have hi : inf32 = 255 * 2 ^ 23 := rfl
  refine ⟨_, num32_join _ _ h, fun b y hb => ?_⟩
  have h1 := num32_fin hb
  rw [← h1, join32_even _ _ (by omega)]
  have h2 := roundAt_nearest 23 925 w.natAbs (split32 b).2 (by decide)
  have h3 := (roundAt_nearest 23 925 w.natAbs 0 (by decide)).1
  rw [mag_zero, Nat.zero_mul] at h3
  exact nearest_signed rfl _ _ h3 ⟨h2.1, fun hne => h2.2 (fun he => hne (by rw [he]))⟩

private theorem exact64 {d : UInt64} {w : Int} (h : num64 d = .fin w) : NearestDouble w d :=
  ⟨w, h, fun b y _ => ⟨by omega, fun h1 h2 => by omega⟩⟩

private theorem exact32 {f : UInt32} {w : Int} (h : num32 f = .fin w) : NearestFloat w f :=
  ⟨w, h, fun b y _ => ⟨by omega, fun h1 h2 => by omega⟩⟩

private theorem natAbs_one (v : Int) : (v * (one : Int)).natAbs = v.natAbs * one := by
  rw [Int.natAbs_mul, Int.natAbs_natCast]

private theorem one_pos : (0 : Int) < one := by unfold one; exact Int.natCast_pos.mpr (Nat.two_pow_pos _)

private theorem neg_one (v : Int) : decide (v * (one : Int) < 0) = decide (v < 0) := by
  have h1 := one_pos
  by_cases h : v < 0
  · have := Int.mul_neg_of_neg_of_pos h h1
    rw [decide_eq_true h, decide_eq_true this]
  · have := Int.mul_nonneg (show 0 ≤ v by omega) (Int.le_of_lt h1)
    rw [decide_eq_false h, decide_eq_false (by omega)]

/-- `2^64` as a double; `FLT_MAX` as a float -/
private theorem big64 : mag 52 (1087 * 2 ^ 52) * 2 ^ 0 = 2 ^ 64 * one := by decide +kernel
private theorem big32 : ((mag 23 (inf32 - 1) * 2 ^ 925 : Nat) : Int) = fltMax * one := by decide +kernel

theorem int64_lt (v : Int) (h : v.natAbs ≤ 2 ^ 64) : roundAt 52 0 (v.natAbs * one) < inf64 := by
  have := roundAt_le 52 0 (v.natAbs * one) (1087 * 2 ^ 52) (by decide) (by
    rw [big64]; exact Nat.mul_le_mul_right _ h)
  exact Nat.lt_of_le_of_lt this (by decide)

private theorem flt_lt {s : Nat} (h : (s : Int) ≤ fltMax * one) : roundAt 23 925 s < inf32 := by
  rw [← big32] at h
  have := roundAt_le 23 925 s (inf32 - 1) (by decide) (by omega)
  exact Nat.lt_of_le_of_lt this (by decide)

private theorem fltMax_int {v : Int} (h : v.natAbs ≤ 2 ^ 64) : ((v.natAbs * one : Nat) : Int) ≤ fltMax * one := by
  rw [Int.natCast_mul]
  refine Int.mul_le_mul_of_nonneg_right ?_ (Int.le_of_lt one_pos)
  unfold fltMax
  omega

private theorem abs_le {t : IntTy} {v : Int} (h1 : t.lo ≤ v) (h2 : v ≤ t.hi) : v.natAbs ≤ 2 ^ 64 := by
  cases t <;> simp [IntTy.lo, IntTy.hi, IntTy.signed, IntTy.bits] at h1 h2 <;> omega

/-! ## C60 -/

/-- C60: a finite number in a value (integers of the range of their type) unwrapped as `double` is the double
nearest to it. -/
theorem unwrap_double_nearest (strtod : Bytes → Option UInt64) (v : Val) (hv : ValIn v) (w : Int)
    (h : numberOf v = some (.fin w)) :
    ∃ r, Apply.pasteFp strtod Apply.toDouble v = .ok r ∧ NearestDouble w r := by
  have hint : ∀ i : Int, i.natAbs ≤ 2 ^ 64 → NearestDouble (i * one) (ofInt64 i) := by
    intro i hi
    have h1 := round64_nearest (i * one) (by rw [natAbs_one]; exact int64_lt i hi)
    rw [natAbs_one, neg_one] at h1
    exact h1
  cases v with
  | int t i =>
    simp only [numberOf, Option.some.injEq, Num.fin.injEq] at h
    subst h
    exact ⟨_, rfl, hint i (abs_le hv.1 hv.2)⟩
  | bool b =>
    simp only [numberOf, Option.some.injEq, Num.fin.injEq] at h
    subst h
    refine ⟨_, rfl, ?_⟩
    cases b
    · have := hint 0 (by decide); rw [Int.zero_mul] at this; exact this
    · have := hint 1 (by decide); rw [Int.one_mul] at this; exact this
  | fp32 f =>
    simp only [numberOf, Option.some.injEq] at h
    refine ⟨_, rfl, exact64 ?_⟩
    rw [widen_exact f (by rw [h]; simp), h]
  | fp64 d =>
    simp only [numberOf, Option.some.injEq] at h
    exact ⟨_, rfl, exact64 h⟩
  | null =>
    simp only [numberOf, Option.some.injEq, Num.fin.injEq] at h
    subst h
    exact ⟨0, rfl, exact64 (by decide +kernel)⟩
  | str s => cases h
  | bin s => cases h

/-- C60: infinities and NaN unwrapped as `double` are infinities and NaN. -/
theorem unwrap_double_special (strtod : Bytes → Option UInt64) (v : Val) (x : Num) (h : numberOf v = some x)
    (hx : ∀ w, x ≠ .fin w) : ∃ r, Apply.pasteFp strtod Apply.toDouble v = .ok r ∧ num64 r = x := by
  cases v with
  | fp32 f =>
    simp only [numberOf, Option.some.injEq] at h
    refine ⟨_, rfl, ?_⟩
    by_cases hn : num32 f = .nan
    · rw [← h, hn, num64_widen_nan f hn]
    · rw [widen_exact f hn, h]
  | fp64 d =>
    simp only [numberOf, Option.some.injEq] at h
    exact ⟨_, rfl, h⟩
  | _ => simp only [numberOf, Option.some.injEq, reduceCtorEq] at h <;> exact absurd h.symm (hx _)

/-- The comparisons in `try_apply` -/
private theorem range_check (d : UInt64) (w : Int) (h : num64 d = .fin w) :
    (ltInt (num64 d) (-fltMax) || gtInt (num64 d) fltMax) = decide (fltMax * one < w.natAbs) := by
  rw [h]
  simp only [ltInt, gtInt]
  rw [Int.neg_mul, ← Bool.decide_or]
  apply decide_eq_decide.mpr
  have : (0 : Int) ≤ fltMax * one := Int.mul_nonneg (by decide) (Int.le_of_lt one_pos)
  generalize fltMax * (one : Int) = m at *
  omega

/-- C60: a finite number in a value unwrapped as `float` is the float nearest to it, if it is not beyond the
greatest float; otherwise there is an exception. -/
theorem unwrap_float_nearest (strtod : Bytes → Option UInt64) (v : Val) (hv : ValIn v) (w : Int)
    (h : numberOf v = some (.fin w)) :
    if (w.natAbs : Int) ≤ fltMax * one then
      ∃ r, Apply.pasteFp strtod Apply.toFloat v = .ok r ∧ NearestFloat w r
    else Apply.pasteFp strtod Apply.toFloat v = .err := by
  have hint : ∀ i : Int, i.natAbs ≤ 2 ^ 64 →
      (((i * one).natAbs : Nat) : Int) ≤ fltMax * one ∧ NearestFloat (i * one) (ofInt32 i) := by
    intro i hi
    have h0 := fltMax_int hi
    have h1 := round32_nearest (i * one) (by rw [natAbs_one]; exact flt_lt h0)
    rw [natAbs_one, neg_one] at h1
    exact ⟨by rw [natAbs_one]; exact h0, h1⟩
  cases v with
  | int t i =>
    simp only [numberOf, Option.some.injEq, Num.fin.injEq] at h
    subst h
    have := hint i (abs_le hv.1 hv.2)
    rw [if_pos this.1]
    exact ⟨_, rfl, this.2⟩
  | bool b =>
    simp only [numberOf, Option.some.injEq, Num.fin.injEq] at h
    subst h
    cases b
    · have := hint 0 (by decide)
      rw [Int.zero_mul] at this
      simp only [Bool.false_eq_true, if_false]
      rw [if_pos this.1]
      exact ⟨_, rfl, this.2⟩
    · have := hint 1 (by decide)
      rw [Int.one_mul] at this
      simp only [if_true]
      rw [if_pos this.1]
      exact ⟨_, rfl, this.2⟩
  | fp32 f =>
    simp only [numberOf, Option.some.injEq] at h
    have hq : Typed.Quiet f := fun hn => by rw [hn] at h; cases h
    have hle : (w.natAbs : Int) ≤ fltMax * one := by
      have h1 := num32_fin h
      rw [← big32]
      have h2 : (split32 f).2 ≤ inf32 - 1 := by
        have hi : inf32 = 255 * 2 ^ 23 := rfl
        unfold num32 at h
        simp only at h
        split at h
        · cases h
        · split at h
          · cases h
          · omega
      have h3 := Nat.mul_le_mul_right (2 ^ 925) (mag_mono 23 h2)
      have h4 : w.natAbs = mag 23 (split32 f).2 * 2 ^ 925 := by
        rw [← h1]
        split
        · rw [Int.natAbs_neg, Int.natAbs_natCast]
        · rw [Int.natAbs_natCast]
      rw [h4]
      exact Int.ofNat_le.mpr h3
    rw [if_pos hle]
    exact ⟨f, by simp only [Apply.pasteFp, Apply.toFloat, narrow_widen f hq], exact32 h⟩
  | fp64 d =>
    simp only [numberOf, Option.some.injEq] at h
    have hc := range_check d w h
    simp only [Apply.pasteFp, Apply.toFloat, hc, decide_eq_true_eq]
    by_cases hle : (w.natAbs : Int) ≤ fltMax * one
    · rw [if_pos hle, if_neg (by omega)]
      refine ⟨_, rfl, ?_⟩
      have hlt := flt_lt hle
      have h1 := num64_fin h
      have h4 : w.natAbs = mag 52 (split64 d).2 := by
        rw [← h1]
        split
        · rw [Int.natAbs_neg, Int.natAbs_natCast]
        · rw [Int.natAbs_natCast]
      have hfin : ¬ (split64 d).2 > inf64 ∧ (split64 d).2 ≠ inf64 := by
        unfold num64 at h
        simp only at h
        split at h
        · cases h
        · rename_i h5
          split at h
          · cases h
          · rename_i h6
            exact ⟨h5, h6⟩
      have hn : narrow d = join32 (split64 d).1 (roundAt 23 925 w.natAbs) := by
        unfold narrow
        simp only
        rw [if_neg hfin.1, if_neg hfin.2, h4]
        rw [h4] at hlt
        exact congrArg (join32 _) (Nat.min_eq_right (Nat.le_of_lt hlt))
      by_cases hz : w = 0 ∧ (split64 d).1 = true
      · have hm : roundAt 23 925 w.natAbs = 0 := by
          rw [hz.1]
          decide +kernel
        rw [hn, hm, hz.2, hz.1]
        exact exact32 (by decide +kernel)
      · have hs : (split64 d).1 = decide (w < 0) := by
          cases hs : (split64 d).1 with
          | false =>
            rw [hs] at h1
            simp only [Bool.false_eq_true, if_false] at h1
            exact (decide_eq_false (by omega)).symm
          | true =>
            rw [hs] at h1
            simp only [if_true] at h1
            have : w ≠ 0 := fun h0 => hz ⟨h0, hs⟩
            exact (decide_eq_true (by omega)).symm
        rw [hn, hs]
        exact round32_nearest w hlt
    · rw [if_neg hle, if_pos (by omega)]
  | null =>
    simp only [numberOf, Option.some.injEq, Num.fin.injEq] at h
    subst h
    rw [if_pos (by decide +kernel)]
    exact ⟨0, rfl, exact32 (by decide +kernel)⟩
  | str s => cases h
  | bin s => cases h

/-- C60: NaN unwrapped as `float` is a NaN. Infinities are infinities if the value holds a float, as it does when
made of a float or double (`ofDouble_infinite`); an exception otherwise. -/
theorem unwrap_float_special (strtod : Bytes → Option UInt64) (v : Val) (x : Num) (h : numberOf v = some x)
    (hx : ∀ w, x ≠ .fin w) :
    (∃ r, Apply.pasteFp strtod Apply.toFloat v = .ok r ∧ num32 r = x) ∨
    ((∃ d, v = .fp64 d) ∧ x ≠ .nan ∧ Apply.pasteFp strtod Apply.toFloat v = .err) := by
  have hnar : ∀ d, num64 d = .nan → num32 (narrow d) = .nan := by
    intro d hd
    have hgt : (split64 d).2 > inf64 := by
      unfold num64 at hd
      simp only at hd
      split at hd
      · assumption
      · split at hd <;> cases hd
    unfold narrow
    simp only
    rw [if_pos hgt]
    unfold num32
    rw [split32_join _ _ (by unfold inf32; omega)]
    simp only
    rw [if_pos (by unfold inf32; omega)]
  cases v with
  | fp32 f =>
    simp only [numberOf, Option.some.injEq] at h
    left
    refine ⟨_, rfl, ?_⟩
    by_cases hn : num32 f = .nan
    · rw [← h, hn]
      exact hnar _ (num64_widen_nan f hn)
    · rw [narrow_widen f (fun h => absurd h hn), h]
  | fp64 d =>
    simp only [numberOf, Option.some.injEq] at h
    simp only [Apply.pasteFp, Apply.toFloat]
    cases x with
    | fin w => exact absurd rfl (hx w)
    | nan =>
      left
      rw [h]
      exact ⟨_, by simp only [ltInt, gtInt, Bool.or_self, Bool.false_eq_true, if_false], hnar d h⟩
    | inf neg =>
      right
      rw [h]
      refine ⟨⟨d, rfl⟩, by simp, ?_⟩
      cases neg <;> rfl
  | _ => simp only [numberOf, Option.some.injEq, reduceCtorEq] at h <;> exact absurd h.symm (hx _)

/-- Values made of infinite doubles hold floats. -/
theorem ofDouble_infinite (neg : Bool) : ofDouble (join64 neg inf64) = .fp32 (join32 neg inf32) := by
  cases neg <;> decide +kernel

/-- C60 violated: infinity read as a double, as from MessagePack `cb 7f f0 …`, is not unwrapped as `float`. -/
theorem unwrap_double_infinity (strtod : Bytes → Option UInt64) :
    Apply.pasteFp strtod Apply.toFloat (.fp64 0x7FF0000000000000) = .err := by
  have : Apply.toFloat (.fp64 0x7FF0000000000000) = .err := by decide +kernel
  exact this

/-- C60: the sign of zero is kept. -/
theorem unwrap_zero_sign (strtod : Bytes → Option UInt64) :
    Apply.pasteFp strtod Apply.toDouble (.fp32 0x80000000) = .ok 0x8000000000000000 ∧
    Apply.pasteFp strtod Apply.toFloat (.fp32 0x80000000) = .ok 0x80000000 ∧
    Apply.pasteFp strtod Apply.toDouble (.fp64 0x8000000000000000) = .ok 0x8000000000000000 ∧
    Apply.pasteFp strtod Apply.toFloat (.fp64 0x8000000000000000) = .ok 0x80000000 := by
  have h1 : Apply.toDouble (.fp32 0x80000000) = .ok 0x8000000000000000 := by decide +kernel
  have h2 : Apply.toFloat (.fp32 0x80000000) = .ok 0x80000000 := by decide +kernel
  have h3 : Apply.toDouble (.fp64 0x8000000000000000) = .ok 0x8000000000000000 := by decide +kernel
  have h4 : Apply.toFloat (.fp64 0x8000000000000000) = .ok 0x80000000 := by decide +kernel
  exact ⟨h1, h2, h3, h4⟩

/-- C60: nothing unwrapped as `float` or `double` is undefined. -/
theorem unwrap_fp_defined (strtod : Bytes → Option UInt64) (v : Val) :
    Apply.pasteFp strtod Apply.toFloat v ≠ .ub ∧ Apply.pasteFp strtod Apply.toDouble v ≠ .ub := by
  have h1 : ∀ v, Apply.toFloat v ≠ .ub := by
    intro v
    cases v <;> simp only [Apply.toFloat, ne_eq, reduceCtorEq, not_false_eq_true]
    split <;> simp
  have h2 : ∀ v, Apply.toDouble v ≠ .ub := by
    intro v
    cases v <;> simp [Apply.toDouble]
  cases v with
  | str s =>
    simp only [Apply.pasteFp]
    cases IntStr.strToType strtod false s with
    | none => simp
    | some w => exact ⟨h1 w, h2 w⟩
  | bin b => simp [Apply.pasteFp]
  | bool b => exact ⟨h1 (.bool b), h2 (.bool b)⟩
  | int t i => exact ⟨h1 (.int t i), h2 (.int t i)⟩
  | fp32 f => exact ⟨h1 (.fp32 f), h2 (.fp32 f)⟩
  | fp64 d => exact ⟨h1 (.fp64 d), h2 (.fp64 d)⟩
  | null => exact ⟨h1 .null, h2 .null⟩

/-- Rounding happens: `2^53 + 1` lies between two doubles, `2^24 + 1` between two floats, `0.1` between two
floats; `3.5e38` is beyond the greatest float. -/
example : Apply.toDouble (.int .i64 9007199254740993) = .ok 0x4340000000000000 ∧
    Apply.toDouble (.int .i64 9007199254740995) = .ok 0x4340000000000002 ∧
    Apply.toFloat (.int .i64 (-16777217)) = .ok 0xCB800000 ∧
    Apply.toFloat (.fp64 0x3FB999999999999A) = .ok 0x3DCCCCCD ∧
    Apply.toFloat (.fp64 0x47F0747E82000000) = .err ∧
    numberOf (.int .i64 (-16777217)) = some (.fin (-16777217 * one)) ∧
    ValIn (.int .i64 (-16777217)) := by
  refine ⟨by decide +kernel, by decide +kernel, by decide +kernel, by decide +kernel, by decide +kernel, rfl, ?_⟩
  show (-9223372036854775808 : Int) ≤ _ ∧ _ ≤ (9223372036854775807 : Int)
  decide

end Srl.Props
