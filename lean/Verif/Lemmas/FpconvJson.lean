import Verif.Lemmas.FpconvText
import Verif.Lemmas.PJsonTree

/-! # Doubles in JSON, formatted by `fpconv_dtoa` -/

namespace Srl.Fpconv

open Dec (isDigit num dbl)

/-- The text `fpconv_dtoa` writes; it always writes one (`Fpconv.dtoa_some`). -/
def text (d : UInt64) : Bytes := match dtoa d with
  | .ok t => t
  | _ => []

theorem digit_char {c : UInt8} (h : isDigit c = true) : PJson.NumChar c := .inl ((isDigit_iff c).mp h)

theorem shape_chars {neg : Bool} {digits : Bytes} {K : Int} {t : Bytes} (h : Shape neg digits K t)
    (hd : ∀ c ∈ digits, isDigit c = true) : ∀ c ∈ t, PJson.NumChar c := by
  intro c hc
  cases h with
  | int h1 h2 =>
    rcases List.mem_append.mp hc with h | h
    · exact digit_char (hd c h)
    · rw [List.eq_of_mem_replicate h]; decide
  | frac d f h1 h2 h3 h4 h5 h6 h7 h8 =>
    rcases List.mem_append.mp hc with h | h
    · exact digit_char (h3 c h)
    · rcases List.mem_cons.mp h with rfl | h
      · decide
      · exact digit_char (h4 c h)
  | exp d f e s h1 h2 h3 h4 h5 h6 =>
    subst h1
    rcases List.mem_append.mp hc with h | h
    · rcases List.mem_append.mp h with h | h
      · exact digit_char (hd c (List.mem_append_left _ h))
      · split at h
        · cases h
        · rcases List.mem_cons.mp h with rfl | h
          · decide
          · exact digit_char (hd c (List.mem_append_right _ h))
    · rcases List.mem_cons.mp h with rfl | h
      · decide
      rcases List.mem_cons.mp h with h | h
      · subst h; cases s <;> decide
      · exact digit_char (h5 c h)

theorem shape_notInt {neg : Bool} {digits : Bytes} {K : Int} {t : Bytes} (h : Shape neg digits K t) :
    (0 ≤ K ∧ K ≤ 7) ∨ PJson.NotInt t := by
  cases h with
  | int h1 h2 =>
    left
    cases neg <;> simp only [if_true, if_false, Bool.false_eq_true] at h2 <;> omega
  | frac d f h1 h2 h3 h4 h5 h6 h7 h8 => exact .inr ⟨46, by simp, .inl rfl⟩
  | exp d f e s h1 h2 h3 h4 h5 h6 => exact .inr ⟨101, by simp, .inr rfl⟩

/-- Doubles from `2^80` on are not near any number with at most 24 digits. -/
theorem below_large (n : Nat) (h : 2 ^ 80 * Fp.one ≤ Fp.mag 52 n) : (10 : ℚ) ^ 24 < below n := by
  have hn : 1103 * 2 ^ 52 ≤ n := by
    refine Nat.le_of_not_lt fun hlt => ?_
    have h1 := Nat.lt_of_lt_of_le (Dec.mag_lt_succ n) (Dec.mag_le (show n + 1 ≤ 2 ^ 52 * 1103 + 0 by omega))
    rw [Dec.mag_parts 1103 0 (by decide), if_neg (by decide)] at h1
    unfold Fp.one at h
    have : (2 ^ 52 + 0) * 2 ^ (1103 - 1) = 2 ^ 80 * 2 ^ 1074 := by decide +kernel
    omega
  have h2 : Fp.mag 52 (2 ^ 52 * 1102 + (2 ^ 52 - 1)) ≤ Fp.mag 52 (n - 1) := Dec.mag_le (by omega)
  rw [Dec.mag_parts 1102 _ (by decide), if_neg (by decide)] at h2
  have h3 : dbl (n - 1) ≤ dbl n := Dec.dbl_le (by omega)
  rw [below_dbl]
  have h4 : (10 : ℚ) ^ 24 < dbl (n - 1) := by
    unfold Dec.dbl
    have e : (2 ^ 52 + (2 ^ 52 - 1)) * 2 ^ (1102 - 1) = (2 ^ 53 - 1) * 2 ^ 27 * 2 ^ 1074 := by decide +kernel
    rw [e] at h2
    have h2' : ((((2 ^ 53 - 1) * 2 ^ 27 : Nat) : ℚ)) * 2 ^ 1074 ≤ (Fp.mag 52 (n - 1) : ℚ) := by
      exact_mod_cast h2
    have h5 : ((((2 ^ 53 - 1) * 2 ^ 27 : Nat) : ℚ)) ≤ (Fp.mag 52 (n - 1) : ℚ) * 2 ^ (-1074 : ℤ) := by
      rw [zpow_neg, ← div_eq_mul_inv, le_div_iff₀ (by positivity)]
      have : (2 : ℚ) ^ (1074 : ℤ) = 2 ^ (1074 : ℕ) := zpow_natCast 2 1074
      rw [this]
      exact h2'
    refine lt_of_lt_of_le ?_ h5
    norm_num
  linarith

/-- Near a double with fractional part there is no integer. -/
theorem no_integer (n N : Nat) (h : ¬ Fp.one ∣ Fp.mag 52 n) (h1 : below n < (N : ℚ)) (h2 : (N : ℚ) < above n) : False := by
  have hn : n < 2 ^ 52 * 1075 := by
    refine Nat.lt_of_not_le fun hle => h ?_
    obtain ⟨q, r, hr, rfl⟩ : ∃ q r, r < 2 ^ 52 ∧ n = 2 ^ 52 * q + r :=
      ⟨n / 2 ^ 52, n % 2 ^ 52, Nat.mod_lt _ (by decide), (Nat.div_add_mod _ _).symm⟩
    rw [Dec.mag_parts q r hr, if_neg (by omega)]
    exact Dvd.dvd.mul_left (Nat.pow_dvd_pow 2 (by omega)) _
  have hpos : (0 : ℚ) < 2 ^ (1074 : ℕ) := by positivity
  have hz : (2 : ℚ) ^ (-1074 : ℤ) = (2 ^ (1074 : ℕ))⁻¹ := by rw [zpow_neg]; rfl
  have hlt : (N : ℚ) < 2 ^ 52 := by
    have h3 : dbl (n + 1) ≤ dbl (2 ^ 52 * 1075 + 0) := Dec.dbl_le (by omega)
    have h4 : dbl n ≤ dbl (n + 1) := Dec.dbl_le (by omega)
    rw [above_dbl] at h2
    have h5 : dbl (2 ^ 52 * 1075 + 0) = 2 ^ 52 := by
      unfold Dec.dbl
      rw [Dec.mag_parts 1075 0 (by decide), if_neg (by decide), hz, ← div_eq_mul_inv, div_eq_iff (ne_of_gt hpos)]
      exact_mod_cast (by decide +kernel : (2 ^ 52 + 0) * 2 ^ (1075 - 1) = 2 ^ 52 * 2 ^ 1074)
    linarith
  have hlt : N < 2 ^ 52 := by exact_mod_cast hlt
  obtain ⟨m, hm⟩ : ∃ m, Fp.mag 52 m = N * 2 ^ 1074 := by
    refine ⟨Fp.enc 52 (N * 2 ^ 1074), Fp.mag_enc 52 _ (.inr ?_)⟩
    by_cases h0 : N = 0
    · subst h0; simp
    rw [Fp.log2_mul_pow N 1074 h0]
    have : N.log2 ≤ 52 := by
      have := (Nat.log2_lt h0).mpr (show N < 2 ^ 53 by omega)
      omega
    exact Dvd.dvd.mul_left (Nat.pow_dvd_pow 2 (by omega)) _
  have hN : dbl m = N := by
    unfold Dec.dbl
    rw [hm, hz, Nat.cast_mul, Nat.cast_pow, Nat.cast_ofNat, mul_assoc, mul_inv_cancel₀ (ne_of_gt hpos), mul_one]
  rw [below_dbl] at h1
  rw [above_dbl] at h2
  rcases Nat.lt_trichotomy m n with hc | hc | hc
  · have a := Dec.dbl_le (show m ≤ n - 1 by omega)
    have b := Dec.dbl_le (show m ≤ n by omega)
    linarith
  · subst hc
    exact h (by rw [hm]; exact Nat.dvd_mul_left ..)
  · have a := Dec.dbl_le (show n + 1 ≤ m by omega)
    have b := Dec.dbl_le (show n ≤ m by omega)
    linarith

/-- All doubles but NaN and the integers from `2^63` up to `2^80` -/
def JsonDouble (d : UInt64) : Prop := match Fp.num64 d with
  | .fin v => v % Fp.one ≠ 0 ∨ (-2 ^ 63 * (Fp.one : Int) < v ∧ v < 2 ^ 63 * (Fp.one : Int)) ∨
      v ≤ -2 ^ 80 * (Fp.one : Int) ∨ 2 ^ 80 * (Fp.one : Int) ≤ v
  | .inf _ => True
  | .nan => False

theorem num64_fin {d : UInt64} {v : Int} (h : Fp.num64 d = .fin v) :
    (Fp.split64 d).2 < Fp.inf64 ∧ v = if (Fp.split64 d).1 then -(Fp.mag 52 (Fp.split64 d).2 : Int) else Fp.mag 52 (Fp.split64 d).2 := by
  unfold Fp.num64 at h
  simp only at h
  split at h
  · cases h
  split at h
  · cases h
  injection h with h
  exact ⟨by omega, h.symm⟩

theorem fpOk (strtod : Bytes → Option UInt64) (hr : Dec.Rounds strtod) (d : UInt64) (h : JsonDouble d) :
    PJson.FpOk text strtod d := by
  unfold JsonDouble at h
  split at h
  case h_3 => exact h.elim
  case h_2 s hs =>
    right; right
    have hd : d = Fp.join64 s Fp.inf64 := by
      unfold Fp.num64 at hs
      simp only at hs
      split at hs
      · cases hs
      split at hs
      · rename_i h2
        injection hs with hs
        rw [← Fp.join64_split d, hs, h2]
      · cases hs
    refine ⟨fun k => by rw [hs]; exact fun h => (by cases h), ?_, ?_⟩
    · unfold text
      rw [hd, dtoa_inf]
      cases s <;> decide
    · unfold text
      rw [hd, dtoa_inf]
      exact hr.infinite s
  rename_i v hv
  have hc := h
  obtain ⟨h1, hv'⟩ := num64_fin hv
  have hone : (0 : Int) < Fp.one := Int.natCast_pos.mpr (Nat.two_pow_pos _)
  by_cases hint : v % Fp.one = 0 ∧ -2 ^ 63 * (Fp.one : Int) < v ∧ v < 2 ^ 63 * (Fp.one : Int)
  · left
    obtain ⟨k, hk⟩ := Int.dvd_of_emod_eq_zero hint.1
    rw [Int.mul_comm] at hk
    rw [hk] at hint hv
    exact ⟨k, Int.lt_of_mul_lt_mul_right hint.2.1 (by omega), Int.lt_of_mul_lt_mul_right hint.2.2 (by omega), hv⟩
  have hc : v % Fp.one ≠ 0 ∨ v ≤ -2 ^ 80 * (Fp.one : Int) ∨ 2 ^ 80 * (Fp.one : Int) ≤ v := by
    rcases hc with h | h | h
    · exact .inl h
    · exact .inl fun e => hint ⟨e, h⟩
    · exact .inr h
  right; left
  obtain ⟨t, ht, -, hs⟩ := dtoa_rounds strtod hr d h1
  have hne : ∀ k : Int, -2 ^ 63 ≤ k → k ≤ 2 ^ 63 → Fp.num64 d ≠ .fin (k * Fp.one) := by
    intro k k1 k2 he
    rw [hv] at he
    injection he with he
    subst he
    rcases hc with h | h | h
    · exact h (Int.mul_emod_left ..)
    · have := Int.le_of_mul_le_mul_right h hone
      omega
    · have := Int.le_of_mul_le_mul_right h hone
      omega
  have hn0 : 0 < (Fp.split64 d).2 := by
    refine Nat.pos_of_ne_zero fun h0 => ?_
    refine hne 0 (by decide) (by decide) ?_
    rw [hv, hv', h0]
    cases (Fp.split64 d).1 <;> simp [Fp.mag]
  obtain ⟨ds, K, t', sh, hd, hds, hl, ht', hlen, b1, b2, -⟩ := dtoa_eq d hn0 h1
  have hte : text d = (if (Fp.split64 d).1 then [45] else []) ++ t' := by unfold text; rw [ht']
  have hnot : PJson.NotInt t' := by
    rcases shape_notInt sh with h | h
    · exfalso
      obtain ⟨k, rfl⟩ := Int.eq_ofNat_of_zero_le h.1
      have hk : k ≤ 7 := by omega
      have e : (num ds : ℚ) * 10 ^ (k : ℤ) = ((num ds * 10 ^ k : Nat) : ℚ) := by push_cast; rw [zpow_natCast]
      rw [e] at b1 b2
      have hmag : (v % (Fp.one : Int) ≠ 0 → ¬ Fp.one ∣ Fp.mag 52 (Fp.split64 d).2) ∧
          ((v ≤ -2 ^ 80 * (Fp.one : Int) ∨ 2 ^ 80 * (Fp.one : Int) ≤ v) →
            2 ^ 80 * Fp.one ≤ Fp.mag 52 (Fp.split64 d).2) := by
        constructor
        · intro hm hdv
          apply hm
          have : (Fp.one : Int) ∣ v := by
            rw [hv']
            have := Int.natCast_dvd_natCast.mpr hdv
            split
            · exact (Int.dvd_neg).mpr this
            · exact this
          exact Int.emod_eq_zero_of_dvd this
        · intro hb
          have hz : ((2 ^ 80 * Fp.one : Nat) : Int) = 2 ^ 80 * (Fp.one : Int) := by push_cast; rfl
          generalize Fp.mag 52 (Fp.split64 d).2 = mg at *
          revert hv'
          generalize Fp.one = o at *
          split <;> intro hv' <;> omega
      rcases hc with hc | hc
      · exact no_integer _ _ (hmag.1 hc) b1 b2
      · have b3 := below_large _ (hmag.2 hc)
        have b4 : num ds * 10 ^ k ≤ 10 ^ 24 := by
          calc num ds * 10 ^ k ≤ 10 ^ 17 * 10 ^ 7 := Nat.mul_le_mul
                (Nat.le_trans (Nat.le_of_lt (num_lt ds hd)) (Nat.pow_le_pow_right (by decide) hl))
                (Nat.pow_le_pow_right (by decide) hk)
            _ = 10 ^ 24 := by decide
        have b4' : ((num ds * 10 ^ k : Nat) : ℚ) ≤ 10 ^ 24 := by exact_mod_cast b4
        -- the text's value lies above `below`, hence above `10^24`
        linarith
    · exact h
  refine ⟨hne, ?_, ?_, ?_, ?_⟩
  · rw [hte]
    obtain ⟨c, r, rfl, hcd⟩ := shape_head sh hd hds
    cases (Fp.split64 d).1
    · simp only [Bool.false_eq_true, if_false, List.nil_append, List.headD_cons]
      rintro rfl
      exact absurd hcd (by decide)
    · simp only [if_true, List.cons_append, List.headD_cons]
      decide
  · rw [hte]
    intro c hcm
    rcases List.mem_append.mp hcm with h | h
    · cases hb : (Fp.split64 d).1
      · rw [hb] at h; simp at h
      · rw [hb] at h; simp at h; subst h; decide
    · exact shape_chars sh hd c h
  · rw [hte]
    obtain ⟨c, hm, hcc⟩ := hnot
    exact ⟨c, List.mem_append_right _ hm, hcc⟩
  · have : text d = t := by unfold text; rw [ht]
    rw [this]; exact hs

end Srl.Fpconv
