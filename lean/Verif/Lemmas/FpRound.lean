import Verif.Lemmas.Fp

/-! # Rounding to floating point formats -/

namespace Srl.Fp

theorem mag_parts (p q r : Nat) (hr : r < 2 ^ p) :
    mag p (2 ^ p * q + r) = if q = 0 then r else (2 ^ p + r) * 2 ^ (q - 1) := by
  have hp : 0 < 2 ^ p := Nat.two_pow_pos p
  unfold mag
  rw [Nat.mul_add_div hp, Nat.div_eq_of_lt hr, Nat.mul_add_mod, Nat.mod_eq_of_lt hr, Nat.add_zero]
  split
  · rename_i h; rw [h]; omega
  · rfl

/-- The numbers of one binade, and the first one of the next -/
theorem mag_grid (p k d : Nat) (h1 : k = 0 ∨ 2 ^ p ≤ d) (h2 : d ≤ 2 ^ (p + 1)) :
    mag p (k * 2 ^ p + d) = d * 2 ^ k := by
  have hp : 0 < 2 ^ p := Nat.two_pow_pos p
  have e2 : 2 ^ (p + 1) = 2 * 2 ^ p := by rw [Nat.pow_succ]; omega
  have ek : k * 2 ^ p = 2 ^ p * k := Nat.mul_comm ..
  rcases Nat.lt_or_ge d (2 ^ p) with hlt | hge
  · have hk : k = 0 := by omega
    subst hk
    rw [show 0 * 2 ^ p + d = 2 ^ p * 0 + d by omega, mag_parts p 0 d hlt]
    simp
  · rcases Nat.lt_or_ge d (2 ^ (p + 1)) with h3 | h3
    · have e : k * 2 ^ p + d = 2 ^ p * (k + 1) + (d - 2 ^ p) := by rw [Nat.mul_succ]; omega
      rw [e, mag_parts p (k + 1) _ (by omega), if_neg (by omega)]
      congr 1
      omega
    · have hd : d = 2 * 2 ^ p := by omega
      have e : k * 2 ^ p + d = 2 ^ p * (k + 2) + 0 := by rw [Nat.mul_add]; omega
      rw [e, mag_parts p (k + 2) 0 hp, if_neg (by omega), hd, show k + 2 - 1 = k + 1 by omega, Nat.pow_succ,
        Nat.add_zero, Nat.mul_comm 2 (2 ^ p), Nat.mul_assoc, Nat.mul_comm 2 (2 ^ k)]

theorem mag_lt_succ (p n : Nat) : mag p n < mag p (n + 1) := by
  have hp : 0 < 2 ^ p := Nat.two_pow_pos p
  have e2 : 2 ^ (p + 1) = 2 * 2 ^ p := by rw [Nat.pow_succ]; omega
  by_cases h : n < 2 ^ p
  · have h1 := mag_grid p 0 n (.inl rfl) (by omega)
    have h2 := mag_grid p 0 (n + 1) (.inl rfl) (by omega)
    rw [show 0 * 2 ^ p + n = n by omega] at h1
    rw [show 0 * 2 ^ p + (n + 1) = n + 1 by omega] at h2
    rw [h1, h2]
    simp
  · obtain ⟨k, d, hd1, hd2, rfl⟩ : ∃ k d, 2 ^ p ≤ d ∧ d < 2 ^ (p + 1) ∧ n = k * 2 ^ p + d := by
      have h1 := Nat.div_add_mod n (2 ^ p)
      have h2 := Nat.mod_lt n hp
      have h3 : 1 ≤ n / 2 ^ p := (Nat.le_div_iff_mul_le hp).mpr (by omega)
      obtain ⟨q, hq⟩ : ∃ q, n / 2 ^ p = q + 1 := ⟨n / 2 ^ p - 1, by omega⟩
      refine ⟨q, 2 ^ p + n % 2 ^ p, by omega, by omega, ?_⟩
      rw [hq, Nat.mul_succ, Nat.mul_comm] at h1
      omega
    rw [mag_grid p k d (.inr hd1) (by omega), Nat.add_assoc, mag_grid p k (d + 1) (.inr (by omega)) (by omega)]
    exact Nat.mul_lt_mul_of_pos_right (by omega) (Nat.two_pow_pos k)

theorem mag_mono (p : Nat) {a b : Nat} (h : a ≤ b) : mag p a ≤ mag p b := by
  induction h with
  | refl => exact Nat.le_refl _
  | step _ ih => exact Nat.le_trans ih (Nat.le_of_lt (mag_lt_succ p _))

/-- Distance of two numbers -/
def dist (a b : Nat) : Nat := (a - b) + (b - a)

/-- `s` lies between two neighbours; rounding takes the nearer one, or the even one. -/
theorem roundAt_parts (p u s : Nat) : ∃ k d rem, rem < 2 ^ (u + k) ∧ s = d * 2 ^ (u + k) + rem ∧
    mag p (k * 2 ^ p + d) = d * 2 ^ k ∧ mag p (k * 2 ^ p + d + 1) = (d + 1) * 2 ^ k ∧
    roundAt p u s = k * 2 ^ p + (if 2 * rem > 2 ^ (u + k) ∨ (2 * rem = 2 ^ (u + k) ∧ d % 2 = 1) then d + 1 else d) ∧
    (k = 0 ∨ 2 ^ p ≤ d) ∧ d < 2 ^ (p + 1) := by
  have hp : 0 < 2 ^ p := Nat.two_pow_pos p
  have e2 : 2 ^ (p + 1) = 2 * 2 ^ p := by rw [Nat.pow_succ]; omega
  generalize hk : s.log2 - (p + u) = k
  have hD : 0 < 2 ^ (u + k) := Nat.two_pow_pos _
  have hlt : s / 2 ^ (u + k) < 2 ^ (p + 1) := by
    rw [Nat.div_lt_iff_lt_mul hD, ← Nat.pow_add]
    by_cases h0 : s = 0
    · subst h0; exact Nat.two_pow_pos _
    · exact (Nat.log2_lt h0).mp (by omega)
  have hge : k = 0 ∨ 2 ^ p ≤ s / 2 ^ (u + k) := by
    by_cases h : k = 0
    · exact .inl h
    · right
      rw [Nat.le_div_iff_mul_le hD, ← Nat.pow_add]
      have h0 : s ≠ 0 := by
        intro h0; subst h0; simp at hk; omega
      exact (Nat.le_log2 h0).mp (by omega)
  refine ⟨k, s / 2 ^ (u + k), s % 2 ^ (u + k), Nat.mod_lt _ hD, ?_, mag_grid p k _ hge (by omega),
    ?_, ?_, hge, hlt⟩
  · have := Nat.div_add_mod s (2 ^ (u + k))
    rw [Nat.mul_comm] at this
    omega
  · rw [Nat.add_assoc]
    exact mag_grid p k _ (by omega) (by omega)
  · unfold roundAt
    simp only [hk]
    rfl

/-- No number of the format is nearer; of two equally near ones, the even one is taken. -/
theorem roundAt_nearest (p u s n : Nat) (hp : p ≠ 0) :
    dist s (mag p (roundAt p u s) * 2 ^ u) ≤ dist s (mag p n * 2 ^ u) ∧
    (n ≠ roundAt p u s → dist s (mag p (roundAt p u s) * 2 ^ u) = dist s (mag p n * 2 ^ u) →
      roundAt p u s % 2 = 0) := by
  obtain ⟨k, d, rem, h1, h2, h3, h4, h5, -, -⟩ := roundAt_parts p u s
  have hev : ∀ x, (k * 2 ^ p + x) % 2 = x % 2 := by
    intro x
    obtain ⟨q, rfl⟩ : ∃ q, p = q + 1 := ⟨p - 1, by omega⟩
    rw [Nat.pow_succ, ← Nat.mul_assoc]
    omega
  have e1 : d * 2 ^ k * 2 ^ u = d * 2 ^ (u + k) := by rw [Nat.mul_assoc, ← Nat.pow_add, Nat.add_comm]
  have e2 : (d + 1) * 2 ^ k * 2 ^ u = d * 2 ^ (u + k) + 2 ^ (u + k) := by
    rw [Nat.mul_assoc, ← Nat.pow_add, Nat.add_comm k, Nat.succ_mul]
  have hlow : n ≤ k * 2 ^ p + d → mag p n * 2 ^ u ≤ d * 2 ^ (u + k) := by
    intro h
    rw [← e1, ← h3]
    exact Nat.mul_le_mul_right _ (mag_mono p h)
  have hlow' : n < k * 2 ^ p + d → mag p n * 2 ^ u < d * 2 ^ (u + k) := by
    intro h
    rw [← e1, ← h3]
    exact Nat.mul_lt_mul_of_pos_right (Nat.lt_of_lt_of_le (mag_lt_succ p n) (mag_mono p h)) (Nat.two_pow_pos u)
  have hhigh : k * 2 ^ p + d + 1 ≤ n → d * 2 ^ (u + k) + 2 ^ (u + k) ≤ mag p n * 2 ^ u := by
    intro h
    rw [← e2, ← h4]
    exact Nat.mul_le_mul_right _ (mag_mono p h)
  have hhigh' : k * 2 ^ p + d + 1 < n → d * 2 ^ (u + k) + 2 ^ (u + k) < mag p n * 2 ^ u := by
    intro h
    rw [← e2, ← h4]
    exact Nat.mul_lt_mul_of_pos_right (Nat.lt_of_lt_of_le (mag_lt_succ p _) (mag_mono p h)) (Nat.two_pow_pos u)
  rw [h5]
  by_cases hc : 2 * rem > 2 ^ (u + k) ∨ (2 * rem = 2 ^ (u + k) ∧ d % 2 = 1)
  · rw [if_pos hc, ← Nat.add_assoc, h4, e2, Nat.add_assoc, hev]
    generalize mag p n * 2 ^ u = x at *
    generalize d * 2 ^ (u + k) = y at *
    generalize 2 ^ (u + k) = D at *
    generalize k * 2 ^ p = K at *
    unfold dist
    clear hev h3 h4 h5
    rcases Nat.lt_or_ge n (K + d + 1) with h | h
    · have := hlow (by omega)
      constructor
      · omega
      · intro _ he
        omega
    · have := hhigh h
      constructor
      · omega
      · intro hne he
        have := hhigh' (by omega)
        omega
  · rw [if_neg hc, h3, e1, hev]
    generalize mag p n * 2 ^ u = x at *
    generalize d * 2 ^ (u + k) = y at *
    generalize 2 ^ (u + k) = D at *
    generalize k * 2 ^ p = K at *
    unfold dist
    clear hev h3 h4 h5
    rcases Nat.lt_or_ge n (K + d + 1) with h | h
    · have := hlow (by omega)
      constructor
      · omega
      · intro hne he
        have := hlow' (by omega)
        omega
    · have := hhigh h
      constructor
      · omega
      · intro hne he
        omega

/-- Numbers of the format are not changed. -/
theorem roundAt_exact (p u n : Nat) (hp : p ≠ 0) : roundAt p u (mag p n * 2 ^ u) = n := by
  have h := (roundAt_nearest p u (mag p n * 2 ^ u) n hp).1
  unfold dist at h
  have e : mag p (roundAt p u (mag p n * 2 ^ u)) * 2 ^ u = mag p n * 2 ^ u := by omega
  exact mag_inj (Nat.eq_of_mul_eq_mul_right (Nat.two_pow_pos u) e)

/-- Rounding does not go beyond a number of the format. -/
theorem roundAt_le (p u s n : Nat) (hp : p ≠ 0) (h : s ≤ mag p n * 2 ^ u) : roundAt p u s ≤ n := by
  refine Nat.le_of_not_lt fun hlt => ?_
  have h1 := (roundAt_nearest p u s n hp).1
  have h2 : mag p n * 2 ^ u < mag p (roundAt p u s) * 2 ^ u :=
    Nat.mul_lt_mul_of_pos_right (Nat.lt_of_lt_of_le (mag_lt_succ p n) (mag_mono p hlt)) (Nat.two_pow_pos u)
  unfold dist at h1
  omega

end Srl.Fp
