import Verif.Lemmas.FpconvGen
import Verif.Model.Fp
import Mathlib.Tactic.FieldSimp
import Mathlib.Tactic.Positivity
import Mathlib.Algebra.Order.Field.Rat
import Mathlib.Algebra.Order.Field.Power

/-! # Doubles as text: the digits denote a number nearer to the double than to any other -/

namespace Srl.Fpconv

/-! ### The cached powers -/

theorem findLoop_ok (exp : Int) : ∀ (fuel : Nat) (idx : Int) (x : Fp) (k : Int), findLoop exp fuel idx = .ok (x, k) →
    ∃ i : Nat, powersTen[i]? = some (x.frac, x.exp) ∧ k = -348 + i * 8 ∧ -60 ≤ exp + x.exp + 64 ∧
      exp + x.exp + 64 ≤ -32
  | 0, _, _, _, h => by rw [findLoop] at h; cases h
  | fuel + 1, idx, x, k, h => by
    rw [findLoop] at h
    split at h
    · cases h
    · split at h
      · cases h
      · rename_i h0 _ f e hp
        simp only at h
        split at h
        · exact findLoop_ok exp fuel _ _ _ h
        · split at h
          · exact findLoop_ok exp fuel _ _ _ h
          · simp only [Res.ok.injEq, Prod.mk.injEq] at h
            obtain ⟨rfl, rfl⟩ := h
            refine ⟨idx.toNat, hp, by omega, ?_, ?_⟩
            · show -60 ≤ exp + e + 64
              omega
            · show exp + e + 64 ≤ -32
              omega

private def found (x : Int) : Bool :=
  match findCached x with
  | .ok _ => true
  | _ => false

private theorem found_all : (List.range 2098).all (fun i => found ((i : Int) - 1137)) = true := by decide +kernel

theorem findCached_eq (x : Int) (h1 : -1137 ≤ x) (h2 : x ≤ 960) : ∃ (i cf : Nat) (ce : Int), powersTen[i]? = some (cf, ce) ∧
    findCached x = .ok (⟨cf, ce⟩, -348 + (i : Int) * 8) ∧ -60 ≤ x + ce + 64 ∧ x + ce + 64 ≤ -32 := by
  have h := List.all_eq_true.mp found_all (x + 1137).toNat (by rw [List.mem_range]; omega)
  rw [show (((x + 1137).toNat : Nat) : Int) - 1137 = x by omega] at h
  unfold found at h
  split at h
  · rename_i y hy
    obtain ⟨⟨cf, ce⟩, k⟩ := y
    obtain ⟨i, a1, rfl, a3, a4⟩ := findLoop_ok _ _ _ _ _ hy
    exact ⟨i, cf, ce, a1, hy, a3, a4⟩
  · cases h

/-- The power is `10^k` up to half a unit. -/
private def near (cf : Nat) (ce k : Int) : Bool :=
  decide (2 ^ 63 ≤ cf) && decide (cf < 2 ^ 64) &&
    decide (2 * (10 ^ k.toNat * 2 ^ (-ce).toNat) ≤ (2 * cf + 1) * (10 ^ (-k).toNat * 2 ^ ce.toNat)) &&
    decide ((2 * cf - 1) * (10 ^ (-k).toNat * 2 ^ ce.toNat) ≤ 2 * (10 ^ k.toNat * 2 ^ (-ce).toNat))

private theorem near_all : (powersTen.zipIdx).all (fun p => near p.1.1 p.1.2 (-348 + (p.2 : Int) * 8)) = true := by
  decide +kernel

theorem zpow_split (b : ℚ) (hb : b ≠ 0) (k : ℤ) : b ^ k = b ^ k.toNat / b ^ (-k).toNat := by
  have h : k = (k.toNat : ℤ) - ((-k).toNat : ℤ) := by omega
  conv => lhs; rw [h]
  rw [zpow_sub₀ hb, zpow_natCast, zpow_natCast]

theorem power_near (i cf : Nat) (ce : Int) (h : powersTen[i]? = some (cf, ce)) : 2 ^ 63 ≤ cf ∧ cf < 2 ^ 64 ∧ i < 87 ∧
    (cf : ℚ) - 1 / 2 ≤ (10 : ℚ) ^ (-348 + (i : ℤ) * 8) * 2 ^ (-ce) ∧
    (10 : ℚ) ^ (-348 + (i : ℤ) * 8) * 2 ^ (-ce) ≤ (cf : ℚ) + 1 / 2 := by
  obtain ⟨hi, h⟩ := List.getElem?_eq_some_iff.mp h
  have hm : ((cf, ce), i) ∈ powersTen.zipIdx := by
    rw [List.mk_mem_zipIdx_iff_getElem?]
    rw [List.getElem?_eq_getElem hi, h]
  have hn := List.all_eq_true.mp near_all _ hm
  simp only [near, Bool.and_eq_true, decide_eq_true_eq] at hn
  obtain ⟨⟨⟨n1, n2⟩, n3⟩, n4⟩ := hn
  generalize hk : (-348 + (i : ℤ) * 8) = k at *
  refine ⟨n1, n2, hi, ?_, ?_⟩
  · have n4' : ((2 * cf - 1 : ℕ) : ℚ) * ((10 : ℚ) ^ (-k).toNat * 2 ^ ce.toNat) ≤
        2 * ((10 : ℚ) ^ k.toNat * 2 ^ (-ce).toNat) := by exact_mod_cast n4
    rw [Nat.cast_sub (by omega)] at n4'
    push_cast at n4'
    rw [zpow_split 10 (by norm_num) k, zpow_split 2 (by norm_num) (-ce), neg_neg]
    have p1 : (0 : ℚ) < (10 : ℚ) ^ (-k).toNat := by positivity
    have p2 : (0 : ℚ) < (2 : ℚ) ^ ce.toNat := by positivity
    rw [div_mul_div_comm, le_div_iff₀ (mul_pos p1 p2)]
    linarith
  · have n3' : 2 * ((10 : ℚ) ^ k.toNat * 2 ^ (-ce).toNat) ≤
        (2 * (cf : ℚ) + 1) * ((10 : ℚ) ^ (-k).toNat * 2 ^ ce.toNat) := by exact_mod_cast n3
    rw [zpow_split 10 (by norm_num) k, zpow_split 2 (by norm_num) (-ce), neg_neg]
    have p1 : (0 : ℚ) < (10 : ℚ) ^ (-k).toNat := by positivity
    have p2 : (0 : ℚ) < (2 : ℚ) ^ ce.toNat := by positivity
    rw [div_mul_div_comm, div_le_iff₀ (mul_pos p1 p2)]
    linarith

/-! ### The boundaries -/

theorem bounds_eq (f s : Nat) (h1 : 2 ^ 52 ≤ f * 2 ^ s) (h2 : f * 2 ^ s < 2 ^ 53) (hs : s ≤ 52) :
    2 ^ 63 ≤ upperOf f s ∧ upperOf f s < 2 ^ 64 ∧ lowerOf f s + 1536 ≤ upperOf f s ∧
      upperOf f s ≤ 2 ^ 53 * (upperOf f s - lowerOf f s) := by
  have hp : 0 < 2 ^ s := Nat.pow_pos (by decide)
  have hf : 0 < f := by
    rcases Nat.eq_zero_or_pos f with h | h
    · rw [h] at h1; simp at h1
    · exact h
  have hsf : 2 ^ s ≤ f * 2 ^ s := Nat.le_mul_of_pos_left _ hf
  have e1 : upperOf f s = 2048 * (f * 2 ^ s) + 1024 * 2 ^ s := by unfold upperOf; rw [Nat.pow_add]; ring
  have e53 : 2 ^ 53 = 2 ^ (53 - s) * 2 ^ s := by rw [← Nat.pow_add]; congr 1; omega
  have hf1 : (f + 1) * 2 ^ s ≤ 2 ^ 53 := by
    rw [e53] at h2 ⊢
    exact Nat.mul_le_mul_right _ (Nat.lt_of_mul_lt_mul_right h2)
  have hf2 : f * 2 ^ s + 2 ^ s ≤ 2 ^ 53 := by
    have : (f + 1) * 2 ^ s = f * 2 ^ s + 2 ^ s := by ring
    omega
  have hff : f ≤ f * 2 ^ s := Nat.le_mul_of_pos_right _ hp
  by_cases hh : f = 2 ^ 52
  · have hs0 : s = 0 := by
      rcases Nat.eq_zero_or_pos s with h | h
      · exact h
      · have : 2 ^ 1 ≤ 2 ^ s := Nat.pow_le_pow_right (by decide) h
        have : f * 2 ≤ f * 2 ^ s := Nat.mul_le_mul_left _ this
        omega
    subst hs0 hh
    decide
  · have e2 : lowerOf f s = 2048 * (f * 2 ^ s) - 1024 * 2 ^ s := by
      unfold lowerOf
      rw [if_neg hh, Nat.pow_add, Nat.sub_mul]
      congr 1
      · ring
      · ring
    rw [e1, e2]
    refine ⟨by omega, by omega, by omega, ?_⟩
    rw [show 2048 * (f * 2 ^ s) + 1024 * 2 ^ s - (2048 * (f * 2 ^ s) - 1024 * 2 ^ s) = 2048 * 2 ^ s by omega]
    have : f * 2 ^ s ≤ (2 ^ 53 - 1) * 2 ^ s := Nat.mul_le_mul_right _ (by omega)
    rw [Nat.sub_mul] at this
    omega

theorem scaled_eq (U L cf : Nat) (hU : 2 ^ 63 ≤ U) (hU' : U < 2 ^ 64) (hL : L + 1536 ≤ U) (hR : U ≤ 2 ^ 53 * (U - L))
    (hc : 2 ^ 63 ≤ cf) (hc' : cf < 2 ^ 64) :
    let u := (U * cf + 2 ^ 63) / 2 ^ 64
    let l := (L * cf + 2 ^ 63) / 2 ^ 64
    u < 2 ^ 64 ∧ 2 ^ 62 ≤ u ∧ l + 1 ≤ u - 1 ∧ u - 1 ≤ 10 ^ 16 * (u - 1 - (l + 1)) := by
  intro u l
  have hu1 : u * 2 ^ 64 ≤ U * cf + 2 ^ 63 := Nat.div_mul_le_self _ _
  have hu2 : U * cf + 2 ^ 63 < (u + 1) * 2 ^ 64 := Nat.lt_mul_of_div_lt (Nat.lt_succ_self _) (by decide)
  have hl1 : l * 2 ^ 64 ≤ L * cf + 2 ^ 63 := Nat.div_mul_le_self _ _
  have hl2 : L * cf + 2 ^ 63 < (l + 1) * 2 ^ 64 := Nat.lt_mul_of_div_lt (Nat.lt_succ_self _) (by decide)
  clear_value u l
  have hP : U * cf = L * cf + (U - L) * cf := by rw [← Nat.add_mul]; congr 1; omega
  have h1 : 1536 * 2 ^ 63 ≤ (U - L) * cf := Nat.mul_le_mul (by omega) hc
  have h2 : U * cf ≤ 2 ^ 53 * ((U - L) * cf) := by
    rw [← Nat.mul_assoc]; exact Nat.mul_le_mul_right _ hR
  have h3 : 2 ^ 63 * 2 ^ 63 ≤ U * cf := Nat.mul_le_mul hU hc
  have h4 : U * cf ≤ (2 ^ 64 - 1) * (2 ^ 64 - 1) := Nat.mul_le_mul (by omega) (by omega)
  generalize U * cf = P at *
  generalize L * cf = Q at *
  generalize (U - L) * cf = R at *
  clear hU hU' hL hR hc hc'
  refine ⟨by omega, by omega, by omega, ?_⟩
  have : u = l + 2 + (u - l - 2) := by omega
  have hd : u - 1 - (l + 1) = u - l - 2 := by omega
  rw [hd]
  omega

/-! ### All together -/

/-- The numbers halfway to the neighbours of the double with magnitude field `n` -/
def below (n : Nat) : ℚ := ((Fp.mag 52 (n - 1) + Fp.mag 52 n : Nat) : ℚ) * 2 ^ (-1075 : ℤ)
def above (n : Nat) : ℚ := ((Fp.mag 52 n + Fp.mag 52 (n + 1) : Nat) : ℚ) * 2 ^ (-1075 : ℤ)

theorem build_eq (bits : UInt64) (n : Nat) (hn : bits.toNat % 2 ^ 63 = n) (h0 : 0 < n) (h1 : n < Fp.inf64) :
    ∃ f x : Nat, build bits = ⟨f, (x : Int) - 1074⟩ ∧ 0 < f ∧ f < 2 ^ 53 ∧ x ≤ 2045 ∧ Fp.mag 52 n = f * 2 ^ x ∧
      Fp.mag 52 n + Fp.mag 52 (n + 1) = (2 * f + 1) * 2 ^ x ∧
      2 * (Fp.mag 52 (n - 1) + Fp.mag 52 n) ≤ (if f = 2 ^ 52 then 4 * f - 1 else 2 * (2 * f - 1)) * 2 ^ x ∧
      (2 ^ 52 ≤ f ∨ x = 0) := by
  have hinf : Fp.inf64 = 2047 * 2 ^ 52 := rfl
  rw [hinf] at h1
  unfold build
  have e1 : bits.toNat % 2 ^ 52 = n % 2 ^ 52 := by omega
  have e2 : bits.toNat / 2 ^ 52 % 2048 = n / 2 ^ 52 := by omega
  simp only [e1, e2]
  by_cases hx : n / 2 ^ 52 = 0
  · rw [if_neg (by rw [hx]; simp)]
    have hn52 : n < 2 ^ 52 := by omega
    have m0 : Fp.mag 52 n = n := by unfold Fp.mag; rw [if_pos hx]
    have m1 : Fp.mag 52 (n + 1) = n + 1 := by
      unfold Fp.mag
      by_cases h : (n + 1) / 2 ^ 52 = 0
      · rw [if_pos h]
      · rw [if_neg h]
        have : n + 1 = 2 ^ 52 := by omega
        rw [this]
        decide
    have m2 : Fp.mag 52 (n - 1) = n - 1 := by unfold Fp.mag; rw [if_pos (by omega)]
    refine ⟨n, 0, ?_, h0, by omega, by omega, by omega, by omega, ?_, .inr rfl⟩
    · rw [Nat.mod_eq_of_lt hn52]; rfl
    · rw [if_neg (by omega)]; omega
  · rw [if_pos hx]
    unfold hidden
    have m0 : Fp.mag 52 n = (n % 2 ^ 52 + 2 ^ 52) * 2 ^ (n / 2 ^ 52 - 1) := by
      unfold Fp.mag; rw [if_neg hx, Nat.add_comm]
    have m1 : Fp.mag 52 (n + 1) = (n % 2 ^ 52 + 2 ^ 52 + 1) * 2 ^ (n / 2 ^ 52 - 1) := by
      unfold Fp.mag
      by_cases h : (n + 1) / 2 ^ 52 = n / 2 ^ 52
      · rw [if_neg (by omega), h, show (n + 1) % 2 ^ 52 = n % 2 ^ 52 + 1 by omega]
        congr 1
        omega
      · have h2 : (n + 1) / 2 ^ 52 = n / 2 ^ 52 - 1 + 1 + 1 := by omega
        rw [if_neg (by omega), h2, show (n + 1) % 2 ^ 52 = 0 by omega, show n % 2 ^ 52 = 2 ^ 52 - 1 by omega,
          Nat.add_sub_cancel, Nat.pow_succ]
        omega
    refine ⟨n % 2 ^ 52 + 2 ^ 52, n / 2 ^ 52 - 1, ?_, by omega, by omega, by omega, m0, ?_, ?_, .inl (by omega)⟩
    · congr 1
      omega
    · rw [m0, m1]
      ring
    · have hp : 0 < 2 ^ (n / 2 ^ 52 - 1) := Nat.pow_pos (by decide)
      by_cases hz : n % 2 ^ 52 = 0
      · rw [if_pos (by omega), m0]
        by_cases h1x : n / 2 ^ 52 = 1
        · have : n = 2 ^ 52 := by omega
          rw [this]
          decide
        · have h2 : (n - 1) / 2 ^ 52 = n / 2 ^ 52 - 1 := by omega
          have m2 : Fp.mag 52 (n - 1) = (2 ^ 53 - 1) * 2 ^ (n / 2 ^ 52 - 1 - 1) := by
            unfold Fp.mag
            rw [if_neg (by omega), h2, show (n - 1) % 2 ^ 52 = 2 ^ 52 - 1 by omega]
            rfl
          rw [m2, hz]
          obtain ⟨y, hy⟩ : ∃ y, n / 2 ^ 52 - 1 = y + 1 := ⟨n / 2 ^ 52 - 2, by omega⟩
          rw [hy, Nat.add_sub_cancel, Nat.pow_succ]
          omega
      · rw [if_neg (by omega), m0]
        have m2 : Fp.mag 52 (n - 1) = (n % 2 ^ 52 + 2 ^ 52 - 1) * 2 ^ (n / 2 ^ 52 - 1) := by
          unfold Fp.mag
          rw [if_neg (by omega), show (n - 1) / 2 ^ 52 = n / 2 ^ 52 by omega,
            show (n - 1) % 2 ^ 52 = n % 2 ^ 52 - 1 by omega]
          congr 1
          omega
        rw [m2]
        apply Nat.le_of_eq
        have : n % 2 ^ 52 + 2 ^ 52 = (n % 2 ^ 52 + 2 ^ 52 - 1) + 1 := by omega
        rw [this, Nat.add_sub_cancel]
        generalize n % 2 ^ 52 + 2 ^ 52 - 1 = y
        rw [show 2 * (2 * (y + 1) - 1) = 2 * (2 * y + 1) by omega]
        ring

/-- The value of what the loops give -/
theorem made_between {E M delta : Nat} {ds : Bytes} {κ : Int} (h : Made E M delta ds κ) (hd : delta ≤ M) :
    ((M - delta : Nat) : ℚ) ≤ (dval ds : ℚ) * 10 ^ κ * 2 ^ E ∧ (dval ds : ℚ) * 10 ^ κ * 2 ^ E ≤ (M : ℚ) := by
  rw [Nat.cast_sub hd]
  obtain ⟨-, -, -, -, -, ⟨a, rfl, h1, h2⟩ | ⟨t, rfl, h1, h2⟩⟩ := h
  · rw [zpow_natCast]
    have h1' : (dval ds : ℚ) * (10 ^ a * 2 ^ E) ≤ (M : ℚ) := by exact_mod_cast h1
    have h2' : (M : ℚ) ≤ (dval ds : ℚ) * (10 ^ a * 2 ^ E) + delta := by exact_mod_cast h2
    constructor <;> linarith
  · rw [zpow_neg, zpow_natCast]
    have h1' : (dval ds : ℚ) * 2 ^ E ≤ (M : ℚ) * 10 ^ t := by exact_mod_cast h1
    have h2' : (M : ℚ) * 10 ^ t ≤ (dval ds : ℚ) * 2 ^ E + delta * 10 ^ t := by exact_mod_cast h2
    have hp : (0 : ℚ) < 10 ^ t := by positivity
    have e : (dval ds : ℚ) * ((10 : ℚ) ^ t)⁻¹ * 2 ^ E = (dval ds : ℚ) * 2 ^ E / 10 ^ t := by field_simp
    rw [e]
    constructor
    · rw [le_div_iff₀ hp]; linarith
    · rw [div_le_iff₀ hp]; exact h1'

theorem pow_shift (x s c : Nat) (a b : ℤ) (h : (x : ℤ) + a = ((s + c : Nat) : ℤ) + b) :
    (2 : ℚ) ^ x * 2 ^ a = 2 ^ (s + c) * 2 ^ b := by
  rw [← zpow_natCast (2 : ℚ) x, ← zpow_natCast (2 : ℚ) (s + c), ← zpow_add₀ (by norm_num), ← zpow_add₀ (by norm_num), h]

theorem above_eq {n f x s : Nat} (hup : Fp.mag 52 n + Fp.mag 52 (n + 1) = (2 * f + 1) * 2 ^ x) :
    above n = (upperOf f s : ℚ) * 2 ^ ((x : ℤ) - 1074 - s - 11) := by
  unfold above upperOf
  rw [hup, Nat.cast_mul, Nat.cast_mul, Nat.cast_pow, Nat.cast_pow, Nat.cast_ofNat, mul_assoc, mul_assoc,
    pow_shift x s 10 (-1075) ((x : ℤ) - 1074 - s - 11) (by push_cast; omega)]

theorem below_le {n f x s : Nat}
    (hlo : 2 * (Fp.mag 52 (n - 1) + Fp.mag 52 n) ≤ (if f = 2 ^ 52 then 4 * f - 1 else 2 * (2 * f - 1)) * 2 ^ x) :
    below n ≤ (lowerOf f s : ℚ) * 2 ^ ((x : ℤ) - 1074 - s - 11) := by
  unfold below lowerOf
  have hz : (0 : ℚ) < 2 ^ (-1075 : ℤ) := by positivity
  generalize Fp.mag 52 (n - 1) + Fp.mag 52 n = m at *
  by_cases hh : f = 2 ^ 52
  · rw [if_pos hh] at hlo
    rw [if_pos hh, Nat.cast_mul, Nat.cast_pow, Nat.cast_ofNat, mul_assoc,
      ← pow_shift x s 9 (-1076) ((x : ℤ) - 1074 - s - 11) (by push_cast; omega)]
    generalize 4 * f - 1 = y at *
    have hl : (2 : ℚ) * (m : ℚ) ≤ (y : ℚ) * 2 ^ x := by exact_mod_cast hlo
    have h76 : (2 : ℚ) ^ (-1075 : ℤ) = 2 * 2 ^ (-1076 : ℤ) := by
      rw [show (-1075 : ℤ) = 1 + (-1076) by norm_num, zpow_add₀ (by norm_num), zpow_one]
    have hz' : (0 : ℚ) < 2 ^ (-1076 : ℤ) := by positivity
    rw [h76]
    have := mul_le_mul_of_nonneg_right hl hz'.le
    linarith
  · rw [if_neg hh] at hlo
    rw [if_neg hh, Nat.cast_mul, Nat.cast_pow, Nat.cast_ofNat, mul_assoc,
      ← pow_shift x s 10 (-1075) ((x : ℤ) - 1074 - s - 11) (by push_cast; omega)]
    generalize 2 * f - 1 = y at *
    have hl : (2 : ℚ) * (m : ℚ) ≤ 2 * (y : ℚ) * 2 ^ x := by exact_mod_cast hlo
    have := mul_le_mul_of_nonneg_right hl hz.le
    linarith

theorem grisu2_eq (bits : UInt64) (n : Nat) (hn : bits.toNat % 2 ^ 63 = n) (h0 : 0 < n) (h1 : n < Fp.inf64) :
    ∃ ds K, grisu2 bits = .ok (ds.reverse, K) ∧ Digits ds ∧ ds ≠ [] ∧ ds.length ≤ 17 ∧ K.natAbs ≤ 400 ∧
      below n < (dval ds : ℚ) * 10 ^ K ∧ (dval ds : ℚ) * 10 ^ K < above n := by
  obtain ⟨f, x, hb, hf0, hf53, hx, hm0, hup, hlo, hsub⟩ := build_eq bits n hn h0 h1
  obtain ⟨s, hs, s1, s2⟩ := shift_exists f hf0 hf53
  obtain ⟨b1, b2, b3, b4⟩ := bounds_eq f s s1 s2 hs
  have hsx : (x : Int) - s ≤ 2045 ∧ -52 ≤ (x : Int) - s := by omega
  obtain ⟨i, cf, ce, p1, p2, p3, p4⟩ := findCached_eq ((x : Int) - 1074 - s - 11) (by omega) (by omega)
  obtain ⟨c1, c2, c3, c4, c5⟩ := power_near i cf ce p1
  obtain ⟨g1, g2, g3, g4⟩ := scaled_eq (upperOf f s) (lowerOf f s) cf b1 b2 b3 b4 c1 c2
  have hw64 : f * 2 ^ (s + 11) < 2 ^ 64 := by
    rw [Nat.pow_add, ← Nat.mul_assoc]; omega
  obtain ⟨E, hE⟩ : ∃ E : Nat, (x : Int) - 1074 - s - 11 + ce + 64 = -(E : Int) :=
    ⟨(-((x : Int) - 1074 - s - 11 + ce + 64)).toNat, by omega⟩
  have hE60 : E ≤ 60 := by omega
  have hE32 : 32 ≤ E := by omega
  have hEp : 2 ^ E ≤ 2 ^ 60 := Nat.pow_le_pow_right (by decide) hE60
  -- the call
  have hgen : ∃ ds κ, grisu2 bits = .ok (ds.reverse, -(-348 + (i : Int) * 8) + κ) ∧
      Made E ((upperOf f s * cf + 2 ^ 63) / 2 ^ 64 - 1)
        ((upperOf f s * cf + 2 ^ 63) / 2 ^ 64 - 1 - ((lowerOf f s * cf + 2 ^ 63) / 2 ^ 64 + 1)) ds κ := by
    unfold grisu2
    rw [hb]
    simp only [boundaries_eq f s _ s1 s2 hs, normalize_eq f s _ s1 s2 hs, Res.ok_bind, p2]
    have m1 := multiply_frac ⟨upperOf f s, (x : Int) - 1074 - s - 11⟩ ⟨cf, ce⟩ b2 c2
    have m2 := multiply_frac ⟨lowerOf f s, (x : Int) - 1074 - s - 11⟩ ⟨cf, ce⟩
      (show lowerOf f s < 2 ^ 64 by omega) c2
    simp only at m1 m2
    rw [m1, m2, sub_eq _ _ (by omega) g1, Nat.mod_eq_of_lt (by omega)]
    have he : (multiply ⟨upperOf f s, (x : Int) - 1074 - s - 11⟩ ⟨cf, ce⟩).exp = -(E : Int) := by
      rw [← hE]; rfl
    obtain ⟨ds, κ, k1, k2⟩ := generate_eq (multiply ⟨f * 2 ^ (s + 11), (x : Int) - 1074 - s - 11⟩ ⟨cf, ce⟩).frac
      ((upperOf f s * cf + 2 ^ 63) / 2 ^ 64 - 1) ((lowerOf f s * cf + 2 ^ 63) / 2 ^ 64 + 1)
      (multiply ⟨upperOf f s, (x : Int) - 1074 - s - 11⟩ ⟨cf, ce⟩).exp E (-(-348 + (i : Int) * 8)) he hE60 hE32
      (by omega) g3 (by omega) g4 (by omega)
      (multiply ⟨f * 2 ^ (s + 11), (x : Int) - 1074 - s - 11⟩ ⟨cf, ce⟩).exp
      (multiply ⟨lowerOf f s, (x : Int) - 1074 - s - 11⟩ ⟨cf, ce⟩).exp
    refine ⟨ds, κ, ?_, k2⟩
    rw [k1]
    rfl
  obtain ⟨ds, κ, hg, hmade⟩ := hgen
  refine ⟨ds, _, hg, hmade.1, hmade.2.1, hmade.2.2.1, ?_, ?_⟩
  · have := hmade.2.2.2.1
    have := hmade.2.2.2.2.1
    omega
  -- the value
  have hbt := made_between hmade (Nat.sub_le _ _)
  have hu1 : (upperOf f s * cf + 2 ^ 63) / 2 ^ 64 * 2 ^ 64 ≤ upperOf f s * cf + 2 ^ 63 := Nat.div_mul_le_self _ _
  have hl2 : lowerOf f s * cf + 2 ^ 63 < ((lowerOf f s * cf + 2 ^ 63) / 2 ^ 64 + 1) * 2 ^ 64 :=
    Nat.lt_mul_of_div_lt (Nat.lt_succ_self _) (by decide)
  generalize (upperOf f s * cf + 2 ^ 63) / 2 ^ 64 = u at *
  generalize (lowerOf f s * cf + 2 ^ 63) / 2 ^ 64 = l at *
  rw [show u - 1 - (u - 1 - (l + 1)) = l + 1 by omega, Nat.cast_sub (show 1 ≤ u by omega)] at hbt
  push_cast at hbt
  generalize hk : (-348 + (i : ℤ) * 8) = k at *
  have q1 : (u : ℚ) * 2 ^ 64 ≤ (upperOf f s : ℚ) * cf + 2 ^ 63 := by exact_mod_cast hu1
  have q2 : (lowerOf f s : ℚ) * cf + 2 ^ 63 < ((l : ℚ) + 1) * 2 ^ 64 := by exact_mod_cast hl2
  have q3 : (upperOf f s : ℚ) < 2 ^ 64 := by exact_mod_cast b2
  have q4 : (lowerOf f s : ℚ) ≤ 2 ^ 64 := by exact_mod_cast (show lowerOf f s ≤ 2 ^ 64 by omega)
  have q5 : (0 : ℚ) ≤ (upperOf f s : ℚ) := by positivity
  have q6 : (0 : ℚ) ≤ (lowerOf f s : ℚ) := by positivity
  generalize hT : (10 : ℚ) ^ k * 2 ^ (-ce) = T at *
  have r1 : ((u : ℚ) - 1) * 2 ^ 64 < (upperOf f s : ℚ) * T := by
    have := mul_le_mul_of_nonneg_left c4 q5
    linarith
  have r2 : (lowerOf f s : ℚ) * T < ((l : ℚ) + 1) * 2 ^ 64 := by
    have := mul_le_mul_of_nonneg_left c5 q6
    linarith
  -- in units of the double
  have hup' : above n = (upperOf f s : ℚ) * 2 ^ ((x : ℤ) - 1074 - s - 11) := above_eq hup
  have hlo' : below n ≤ (lowerOf f s : ℚ) * 2 ^ ((x : ℤ) - 1074 - s - 11) := below_le hlo
  rw [hup']
  generalize hq : (x : ℤ) - 1074 - s - 11 = q at *
  -- D * 10^(κ - k) = (D * 10^κ * 2^E) * 2^64 * 2^q / T
  have hTp : (0 : ℚ) < T := by rw [← hT]; positivity
  have hqp : (0 : ℚ) < (2 : ℚ) ^ q := by positivity
  have key : (dval ds : ℚ) * 10 ^ (-k + κ) * T = (dval ds : ℚ) * 10 ^ κ * 2 ^ E * 2 ^ 64 * 2 ^ q := by
    rw [← hT, zpow_add₀ (by norm_num : (10 : ℚ) ≠ 0), zpow_neg]
    have e2 : (2 : ℚ) ^ (-ce) = 2 ^ E * 2 ^ 64 * 2 ^ q := by
      rw [← zpow_natCast (2 : ℚ) E, ← zpow_natCast (2 : ℚ) 64, ← zpow_add₀ (by norm_num), ← zpow_add₀ (by norm_num)]
      congr 1
      push_cast
      omega
    rw [e2]
    have : (10 : ℚ) ^ k ≠ 0 := by positivity
    field_simp
  constructor
  · refine lt_of_le_of_lt hlo' ?_
    rw [← mul_lt_mul_iff_left₀ hTp, key]
    have a1 : (lowerOf f s : ℚ) * T < (dval ds : ℚ) * 10 ^ κ * 2 ^ E * 2 ^ 64 := by
      have := mul_le_mul_of_nonneg_right hbt.1 (show (0 : ℚ) ≤ 2 ^ 64 by norm_num)
      linarith
    have := mul_lt_mul_of_pos_right a1 hqp
    linarith
  · rw [← mul_lt_mul_iff_left₀ hTp, key]
    have a1 : (dval ds : ℚ) * 10 ^ κ * 2 ^ E * 2 ^ 64 < (upperOf f s : ℚ) * T := by
      have := mul_le_mul_of_nonneg_right hbt.2 (show (0 : ℚ) ≤ 2 ^ 64 by norm_num)
      linarith
    have := mul_lt_mul_of_pos_right a1 hqp
    linarith

end Srl.Fpconv
