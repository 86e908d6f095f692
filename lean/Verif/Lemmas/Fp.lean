import Verif.Model.Fp

namespace Srl.Fp

theorem enc_mag (p n : Nat) : enc p (mag p n) = n := by
  have hp : 0 < 2 ^ p := Nat.two_pow_pos p
  have hdm := Nat.div_add_mod n (2 ^ p)
  have hm := Nat.mod_lt n hp
  unfold mag
  split
  · rename_i h0
    rw [h0] at hdm
    unfold enc; rw [if_pos (by omega)]
  · rename_i h0
    generalize he : n / 2 ^ p = e at *
    generalize hmm : n % 2 ^ p = m at *
    have hk : 0 < 2 ^ (e - 1) := Nat.two_pow_pos _
    have hge : 2 ^ p ≤ (2 ^ p + m) * 2 ^ (e - 1) := by
      calc 2 ^ p ≤ 2 ^ p + m := by omega
        _ = (2 ^ p + m) * 1 := by omega
        _ ≤ _ := Nat.mul_le_mul_left _ hk
    have hlog : ((2 ^ p + m) * 2 ^ (e - 1)).log2 = p + (e - 1) := by
      rw [Nat.log2_eq_iff (by omega)]
      constructor
      · rw [Nat.pow_add]; exact Nat.mul_le_mul_right _ (by omega)
      · rw [show p + (e - 1) + 1 = (p + 1) + (e - 1) by omega, Nat.pow_add]
        exact Nat.mul_lt_mul_of_pos_right (by rw [Nat.pow_succ]; omega) hk
    unfold enc
    rw [if_neg (by omega), hlog, Nat.add_sub_cancel_left, Nat.mul_div_cancel _ hk]
    rw [Nat.mul_comm] at hdm
    have : e * 2 ^ p = (e - 1) * 2 ^ p + 2 ^ p := by
      rw [← Nat.succ_mul]; congr 1; omega
    omega

theorem mag_inj {p a b : Nat} (h : mag p a = mag p b) : a = b := by
  rw [← enc_mag p a, h, enc_mag]

theorem mag_eq_zero {p n : Nat} (h : mag p n = 0) : n = 0 := by
  apply mag_inj (p := p); rw [h]; simp [mag]

theorem join64_split (b : UInt64) : join64 (split64 b).1 (split64 b).2 = b := by
  have := b.toNat_lt
  apply UInt64.toNat_inj.mp
  simp only [join64, split64, UInt64.toNat_ofNat', decide_eq_true_eq]
  split <;> omega

theorem join32_split (b : UInt32) : join32 (split32 b).1 (split32 b).2 = b := by
  have := b.toNat_lt
  apply UInt32.toNat_inj.mp
  simp only [join32, split32, UInt32.toNat_ofNat', decide_eq_true_eq]
  split <;> omega

theorem split64_join (s : Bool) (n : Nat) (h : n < 2 ^ 63) : split64 (join64 s n) = (s, n) := by
  simp only [join64, split64, UInt64.toNat_ofNat']
  cases s <;> simp <;> omega

theorem split32_join (s : Bool) (n : Nat) (h : n < 2 ^ 31) : split32 (join32 s n) = (s, n) := by
  simp only [join32, split32, UInt32.toNat_ofNat']
  cases s <;> simp <;> omega

theorem split64_lt (b : UInt64) : (split64 b).2 < 2 ^ 63 := by simp only [split64]; omega
theorem split32_lt (b : UInt32) : (split32 b).2 < 2 ^ 31 := by simp only [split32]; omega

/-- Equal doubles of equal sign are the same datum. -/
theorem eq_of_feq {a b : UInt64} (h : feq a b = true) (hs : (split64 a).1 = (split64 b).1) :
    a = b := by
  rw [← join64_split a, ← join64_split b, hs]
  congr 1
  unfold feq num64 at h
  revert h
  generalize split64 a = x at *
  generalize split64 b = y at *
  obtain ⟨sa, na⟩ := x
  obtain ⟨sb, nb⟩ := y
  simp only at hs
  subst hs
  by_cases h1 : na > inf64
  · simp [h1]
  by_cases h2 : nb > inf64
  · simp only [h1, if_false, h2, if_true]; split <;> simp_all
  by_cases h3 : na = inf64
  · by_cases h4 : nb = inf64
    · simp [h3, h4]
    · simp [h2, h3, h4]
  · by_cases h4 : nb = inf64
    · simp [h1, h3, h4]
    · simp only [h1, h2, h3, h4, if_false]
      intro h
      simp only [decide_eq_true_eq, Num.fin.injEq] at h
      apply mag_inj (p := 52)
      cases sa <;> simp at h <;> omega

theorem mag_enc (p s : Nat) (h : s < 2 ^ p ∨ 2 ^ (s.log2 - p) ∣ s) : mag p (enc p s) = s := by
  have hp : 0 < 2 ^ p := Nat.two_pow_pos p
  unfold enc
  split
  · rename_i hlt
    unfold mag
    rw [if_pos (Nat.div_eq_of_lt hlt)]
  · rename_i hge
    have hs : s ≠ 0 := by omega
    have hL : p ≤ s.log2 := by rw [Nat.le_log2 hs]; omega
    have hd : 2 ^ (s.log2 - p) ∣ s := by
      rcases h with h | h
      · omega
      · exact h
    obtain ⟨q, hq⟩ := hd
    have hk : 0 < 2 ^ (s.log2 - p) := Nat.two_pow_pos _
    have hq' : s / 2 ^ (s.log2 - p) = q := by
      have := Nat.mul_div_cancel_left q hk
      rw [← hq] at this; exact this
    have hlo : 2 ^ p ≤ q := by
      have h1 := Nat.log2_self_le hs
      have h2 : 2 ^ s.log2 = 2 ^ p * 2 ^ (s.log2 - p) := by rw [← Nat.pow_add]; congr 1; omega
      rw [h2] at h1
      have h3 : 2 ^ p * 2 ^ (s.log2 - p) ≤ q * 2 ^ (s.log2 - p) := by
        rw [Nat.mul_comm q]; omega
      exact Nat.le_of_mul_le_mul_right h3 hk
    have hhi : q < 2 ^ (p + 1) := by
      have h1 : s < 2 ^ (s.log2 + 1) := Nat.lt_log2_self
      have h2 : 2 ^ (s.log2 + 1) = 2 ^ (p + 1) * 2 ^ (s.log2 - p) := by
        rw [← Nat.pow_add]; congr 1; omega
      have h3 : q * 2 ^ (s.log2 - p) < 2 ^ (p + 1) * 2 ^ (s.log2 - p) := by
        rw [Nat.mul_comm q]; omega
      exact Nat.lt_of_mul_lt_mul_right h3
    rw [hq']
    generalize s.log2 - p = k at *
    have hdiv : (k * 2 ^ p + q) / 2 ^ p = k + 1 := by
      have hq2 : k * 2 ^ p + q = (k + 1) * 2 ^ p + (q - 2 ^ p) := by rw [Nat.succ_mul]; omega
      have : q - 2 ^ p < 2 ^ p := by rw [Nat.pow_succ] at hhi; omega
      rw [hq2, Nat.mul_comm, Nat.mul_add_div hp, Nat.div_eq_of_lt this]
    have hmod : (k * 2 ^ p + q) % 2 ^ p = q - 2 ^ p := by
      have h1 := Nat.div_add_mod (k * 2 ^ p + q) (2 ^ p)
      rw [hdiv, Nat.mul_comm, Nat.succ_mul] at h1
      omega
    unfold mag
    rw [hdiv, if_neg (by omega), hmod, hq]
    simp only [Nat.add_sub_cancel]
    rw [Nat.mul_comm]
    congr 1
    omega

theorem log2_mag (p n : Nat) (h : n / 2 ^ p ≠ 0) : (mag p n).log2 = p + (n / 2 ^ p - 1) := by
  have hp : 0 < 2 ^ p := Nat.two_pow_pos p
  have hm := Nat.mod_lt n hp
  unfold mag
  rw [if_neg h]
  generalize n / 2 ^ p = e at *
  generalize n % 2 ^ p = m at *
  have hk : 0 < 2 ^ (e - 1) := Nat.two_pow_pos _
  have hne : (2 ^ p + m) * 2 ^ (e - 1) ≠ 0 := by
    apply Nat.ne_of_gt; exact Nat.mul_pos (by omega) hk
  rw [Nat.log2_eq_iff hne]
  constructor
  · rw [Nat.pow_add]; exact Nat.mul_le_mul_right _ (by omega)
  · rw [show p + (e - 1) + 1 = (p + 1) + (e - 1) by omega, Nat.pow_add]
    exact Nat.mul_lt_mul_of_pos_right (by rw [Nat.pow_succ]; omega) hk

theorem log2_mul_pow (v k : Nat) (h : v ≠ 0) : (v * 2 ^ k).log2 = v.log2 + k := by
  have hk : 0 < 2 ^ k := Nat.two_pow_pos k
  have hne : v * 2 ^ k ≠ 0 := Nat.ne_of_gt (Nat.mul_pos (by omega) hk)
  rw [Nat.log2_eq_iff hne]
  constructor
  · rw [Nat.pow_add]; exact Nat.mul_le_mul_right _ (Nat.log2_self_le h)
  · rw [show v.log2 + k + 1 = (v.log2 + 1) + k by omega, Nat.pow_add]
    exact Nat.mul_lt_mul_of_pos_right Nat.lt_log2_self hk

theorem enc_lt (p s L : Nat) (hL : p ≤ L) (h : s < 2 ^ (L + 1)) : enc p s < (L - p + 2) * 2 ^ p := by
  have hp : 0 < 2 ^ p := Nat.two_pow_pos p
  unfold enc
  split
  · have : 1 * 2 ^ p ≤ (L - p + 2) * 2 ^ p := Nat.mul_le_mul_right _ (by omega)
    omega
  · rename_i hge
    have hs : s ≠ 0 := by omega
    have hlog : s.log2 ≤ L := by
      have := (Nat.log2_lt hs).mpr h; omega
    have hpl : p ≤ s.log2 := by rw [Nat.le_log2 hs]; omega
    have hq : s / 2 ^ (s.log2 - p) < 2 ^ (p + 1) := by
      rw [Nat.div_lt_iff_lt_mul (Nat.two_pow_pos _), ← Nat.pow_add,
        show p + 1 + (s.log2 - p) = s.log2 + 1 by omega]
      exact Nat.lt_log2_self
    have h1 : (s.log2 - p) * 2 ^ p ≤ (L - p) * 2 ^ p := Nat.mul_le_mul_right _ (by omega)
    rw [Nat.pow_succ] at hq
    rw [Nat.add_mul]
    omega

theorem mag_lt (p n E : Nat) (h : n < (E + 1) * 2 ^ p) : mag p n < 2 ^ (p + 1 + E) := by
  have hp : 0 < 2 ^ p := Nat.two_pow_pos p
  have he : n / 2 ^ p ≤ E := by
    have := (Nat.div_lt_iff_lt_mul hp).mpr h; omega
  have hm := Nat.mod_lt n hp
  have hdm := Nat.div_add_mod n (2 ^ p)
  rw [Nat.pow_add]
  have hE : 0 < 2 ^ E := Nat.two_pow_pos E
  unfold mag
  split
  · rename_i h0
    rw [h0] at hdm
    have : 2 ^ (p + 1) * 1 ≤ 2 ^ (p + 1) * 2 ^ E := Nat.mul_le_mul_left _ hE
    rw [Nat.pow_succ] at *
    omega
  · calc (2 ^ p + n % 2 ^ p) * 2 ^ (n / 2 ^ p - 1)
        < 2 ^ (p + 1) * 2 ^ (n / 2 ^ p - 1) :=
          Nat.mul_lt_mul_of_pos_right (by rw [Nat.pow_succ]; omega) (Nat.two_pow_pos _)
      _ ≤ _ := Nat.mul_le_mul_left _ (Nat.pow_le_pow_right (by omega) (by omega))

/-- A finite float as a finite double (`c = 925`). -/
theorem widen_field_lt (c n : Nat) (hc : 29 ≤ c) (h : n < 255 * 2 ^ 23) :
    enc 52 (mag 23 n * 2 ^ c) < (c + 255) * 2 ^ 52 := by
  have h1 := mag_lt 23 n 254 h
  have h2 : mag 23 n * 2 ^ c < 2 ^ (277 + c + 1) := by
    rw [show 277 + c + 1 = (23 + 1 + 254) + c by omega, Nat.pow_add]
    exact Nat.mul_lt_mul_of_pos_right h1 (Nat.two_pow_pos _)
  have h3 := enc_lt 52 _ (277 + c) (by omega) h2
  have h4 : (277 + c - 52 + 2) * 2 ^ 52 ≤ (c + 255) * 2 ^ 52 := Nat.mul_le_mul_right _ (by omega)
  exact Nat.lt_of_lt_of_le h3 h4

/-- `S = V * 2^c` has few enough significant bits to be a double. -/
theorem mag_widen_field (c n : Nat) (hc : 29 ≤ c) :
    mag 52 (enc 52 (mag 23 n * 2 ^ c)) = mag 23 n * 2 ^ c := by
  apply mag_enc
  by_cases h0 : n / 2 ^ 23 = 0
  · right
    by_cases hz : mag 23 n = 0
    · rw [hz, Nat.zero_mul]; exact Nat.dvd_zero _
    · rw [log2_mul_pow _ _ hz]
      have : (mag 23 n).log2 < 23 := by
        rw [Nat.log2_lt hz]
        unfold mag; rw [if_pos h0]
        exact (Nat.div_eq_zero_iff_lt (by decide)).mp h0
      apply Nat.dvd_mul_left_of_dvd
      exact Nat.pow_dvd_pow 2 (by omega)
  · right
    have hz : mag 23 n ≠ 0 := fun h => by have := mag_eq_zero h; subst this; simp at h0
    rw [log2_mul_pow _ _ hz, log2_mag _ _ h0]
    unfold mag; rw [if_neg h0]
    rw [Nat.mul_assoc, ← Nat.pow_add]
    apply Nat.dvd_mul_left_of_dvd
    exact Nat.pow_dvd_pow 2 (by omega)

theorem rne_exact (q k : Nat) : rne (q * 2 ^ k) k = q := by
  unfold rne
  have hk : 0 < 2 ^ k := Nat.two_pow_pos k
  simp only [Nat.mul_mod_left, Nat.mul_div_cancel _ hk]
  rw [if_neg (by omega)]

theorem narrow_field (c n : Nat) :
    (mag 23 n * 2 ^ c).log2 - (c + 23) = n / 2 ^ 23 - 1 ∧
    rne (mag 23 n * 2 ^ c) (c + (n / 2 ^ 23 - 1)) + (n / 2 ^ 23 - 1) * 2 ^ 23 = n := by
  have hdm := Nat.div_add_mod n (2 ^ 23)
  by_cases h0 : n / 2 ^ 23 = 0
  · have hlt : n < 2 ^ 23 := (Nat.div_eq_zero_iff_lt (by decide)).mp h0
    have hmag : mag 23 n = n := by unfold mag; rw [if_pos h0]
    rw [hmag, h0]
    constructor
    · by_cases hz : n = 0
      · subst hz; simp
      · rw [log2_mul_pow _ _ hz]
        have : n.log2 < 23 := (Nat.log2_lt hz).mpr hlt
        omega
    · simp only [Nat.zero_sub, Nat.add_zero, Nat.zero_mul]
      exact rne_exact _ _
  · have hz : mag 23 n ≠ 0 := fun h => by have := mag_eq_zero h; subst this; simp at h0
    constructor
    · rw [log2_mul_pow _ _ hz, log2_mag _ _ h0]; omega
    · unfold mag
      rw [if_neg h0, Nat.mul_assoc, ← Nat.pow_add, Nat.add_comm _ c, rne_exact]
      omega

end Srl.Fp
