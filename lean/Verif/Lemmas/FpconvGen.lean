import Verif.Lemmas.Fpconv

/-! # Doubles as text: generating digits -/

namespace Srl.Fpconv

/-- A digit -/
def IsDigit (c : UInt8) : Prop := 48 ≤ c.toNat ∧ c.toNat ≤ 57

/-- The number the digits make up; last digit first -/
def dval : Bytes → Nat
  | [] => 0
  | c :: ds => dval ds * 10 + (c.toNat - 48)

/-- Digits without leading zero; last digit first -/
def Digits (ds : Bytes) : Prop := (∀ c ∈ ds, IsDigit c) ∧ (ds = [] ∨ 10 ^ (ds.length - 1) ≤ dval ds)

theorem sub_eq (a b : Nat) (h : b ≤ a) (ha : a < 2 ^ 64) : sub a b = a - b := by
  unfold sub; omega

theorem roundDigit_eq (delta kappa frac : Nat) (hk : 0 < kappa) (hd : delta < 2 ^ 64) (ds : Bytes) :
    ∀ (fuel rem n : Nat) (c : UInt8), rem ≤ delta → delta < rem + (n + 1) * kappa → c.toNat = 48 + n → n < fuel →
    ∃ j ≤ n, ∃ c', c'.toNat = 48 + (n - j) ∧ roundDigit delta kappa frac fuel rem (c :: ds) = .ok (c' :: ds) ∧
      rem + j * kappa ≤ delta
  | 0, _, _, _, _, _, _, h => absurd h (by omega)
  | fuel + 1, rem, n, c, h1, h2, h3, h4 => by
    rw [roundDigit]
    by_cases hc : rem < frac ∧ sub delta rem ≥ kappa ∧
        ((rem + kappa) % 2 ^ 64 < frac ∨ sub frac rem > sub ((rem + kappa) % 2 ^ 64) frac)
    · rw [if_pos hc]
      have h5 := hc.2.1
      rw [sub_eq _ _ h1 hd] at h5
      have h6 : (rem + kappa) % 2 ^ 64 = rem + kappa := Nat.mod_eq_of_lt (by omega)
      have hn : n ≠ 0 := by
        rintro rfl
        omega
      obtain ⟨n, rfl⟩ : ∃ k, n = k + 1 := ⟨n - 1, by omega⟩
      have hc1 : (c - 1).toNat = 48 + n := by
        rw [UInt8.toNat_sub_of_le]
        · simp only [UInt8.toNat_one]; omega
        · rw [UInt8.le_iff_toNat_le]; simp only [UInt8.toNat_one]; omega
      rw [h6]
      obtain ⟨j, k1, c', k2, k3, k4⟩ := roundDigit_eq delta kappa frac hk hd ds fuel (rem + kappa) n (c - 1) (by omega)
        (by
          have : (n + 1 + 1) * kappa = kappa + (n + 1) * kappa := by ring
          omega) hc1 (by omega)
      refine ⟨j + 1, by omega, c', by omega, k3, ?_⟩
      have : (j + 1) * kappa = kappa + j * kappa := by ring
      omega
    · rw [if_neg hc]
      exact ⟨0, by omega, c, by omega, rfl, by omega⟩

theorem putDigit_eq (ds : Bytes) (digit : Nat) (hd : Digits ds) (hl : ds.length < 18) (h : digit < 10) :
    ∃ ds', putDigit ds digit = .ok ds' ∧ Digits ds' ∧ dval ds' = dval ds * 10 + digit ∧
      (digit ≠ 0 ∨ ds ≠ [] → ds'.length = ds.length + 1 ∧ ∃ c, c.toNat = 48 + digit ∧ ds' = c :: ds) ∧
      (digit = 0 → ds = [] → ds' = []) := by
  unfold putDigit
  by_cases hc : digit ≠ 0 ∨ ds ≠ []
  · rw [if_pos hc, if_pos hl]
    have ht : (UInt8.ofNat (digit + 48)).toNat = 48 + digit := by
      rw [UInt8.toNat_ofNat']; omega
    have hv : dval (UInt8.ofNat (digit + 48) :: ds) = dval ds * 10 + digit := by
      simp only [dval, ht]; omega
    refine ⟨_, rfl, ⟨?_, .inr ?_⟩, hv, fun _ => ⟨rfl, _, ht, rfl⟩, ?_⟩
    · intro c hm
      rcases List.mem_cons.mp hm with rfl | hm
      · unfold IsDigit; omega
      · exact hd.1 c hm
    · rw [hv]
      simp only [List.length_cons, Nat.add_sub_cancel]
      rcases hd.2 with h0 | h0
      · subst h0
        simp only [List.length_nil, Nat.pow_zero]
        rcases hc with h | h
        · omega
        · exact absurd rfl h
      · cases ds with
        | nil =>
          simp only [List.length_nil, Nat.pow_zero]
          rcases hc with h | h
          · omega
          · exact absurd rfl h
        | cons x xs =>
          simp only [List.length_cons, Nat.add_sub_cancel] at h0 ⊢
          rw [Nat.pow_succ]
          omega
    · intro h1 h2
      rcases hc with h | h
      · exact absurd h1 h
      · exact absurd h2 h
  · rw [if_neg hc]
    have h0 : digit = 0 := Decidable.byContradiction fun h => hc (.inl h)
    have h1 : ds = [] := by
      cases ds with
      | nil => rfl
      | cons _ _ => exact absurd (.inr (by simp)) hc
    subst h0 h1
    exact ⟨[], rfl, hd, rfl, fun h => absurd h hc, fun _ _ => rfl⟩

theorem digits_round {ds : Bytes} {n j : Nat} {c c' : UInt8} (hd : Digits (c :: ds)) (h0 : ds ≠ [] ∨ 0 < n - j)
    (hc : c.toNat = 48 + n) (hc' : c'.toNat = 48 + (n - j)) (hj : j ≤ n) :
    Digits (c' :: ds) ∧ dval (c' :: ds) + j = dval (c :: ds) := by
  have hn := hd.1 c List.mem_cons_self
  unfold IsDigit at hn
  refine ⟨⟨?_, .inr ?_⟩, ?_⟩
  · intro x hx
    rcases List.mem_cons.mp hx with rfl | hx
    · unfold IsDigit; omega
    · exact hd.1 x (List.mem_cons_of_mem _ hx)
  · cases ds with
    | nil =>
      simp only [List.length_cons, List.length_nil, dval]
      simp only [ne_eq, not_true_eq_false, false_or] at h0
      simp
      omega
    | cons x xs =>
      have h1 : 10 ^ ((x :: xs).length - 1) ≤ dval (x :: xs) := by
        rcases hd.2 with h | h
        · cases h
        · simp only [List.length_cons, Nat.add_sub_cancel, Nat.pow_succ] at h ⊢
          have : dval (c :: x :: xs) = dval (x :: xs) * 10 + (c.toNat - 48) := rfl
          omega
      have h2 : dval (c' :: x :: xs) = dval (x :: xs) * 10 + (c'.toNat - 48) := rfl
      rw [h2]
      simp only [List.length_cons, Nat.add_sub_cancel, Nat.pow_succ] at h1 ⊢
      omega
  · simp only [dval]; omega

/-- What the loops give: the number the digits make up is between the boundaries `M - delta` and `M`, at the
position `κ`. -/
def Made (E M delta : Nat) (ds : Bytes) (κ : Int) : Prop :=
  Digits ds ∧ ds ≠ [] ∧ ds.length ≤ 17 ∧ -17 ≤ κ ∧ κ ≤ 10 ∧
  ((∃ a : Nat, κ = a ∧ dval ds * (10 ^ a * 2 ^ E) ≤ M ∧ M ≤ dval ds * (10 ^ a * 2 ^ E) + delta) ∨
   (∃ t : Nat, κ = -(t : Int) ∧ dval ds * 2 ^ E ≤ M * 10 ^ t ∧ M * 10 ^ t ≤ dval ds * 2 ^ E + delta * 10 ^ t))

theorem pow10_lt {a b : Nat} (h : 10 ^ a < 10 ^ b) : a < b := (Nat.pow_lt_pow_iff_right (by decide)).mp h

theorem loop2_eq (E wfrac M delta0 : Nat) (hE : E ≤ 60) (hM : M ≤ 10 ^ 16 * delta0) :
    ∀ (unit t part2 delta : Nat) (ds : Bytes) (K : Int), unit + t = 18 → t < ds.length → part2 < 2 ^ E →
    delta ≤ part2 → delta = delta0 * 10 ^ t → M * 10 ^ t = dval ds * 2 ^ E + part2 → Digits ds →
    ∃ ds' κ, loop2 E wfrac unit part2 delta (-(t : Int)) ds K = .ok (ds', K + κ) ∧ Made E M delta0 ds' κ := by
  intro unit
  induction unit with
  | zero =>
    intro t part2 delta ds K hu ht hp hd he hv hds
    exfalso
    have hne : ds ≠ [] := by intro h; rw [h] at ht; simp at ht
    have h1 : 10 ^ (ds.length - 1) ≤ dval ds := by
      rcases hds.2 with h | h
      · exact absurd h hne
      · exact h
    have h2 : 10 ^ (ds.length - 1) * 2 ^ E < 10 ^ 16 * 2 ^ E := by
      calc 10 ^ (ds.length - 1) * 2 ^ E ≤ dval ds * 2 ^ E := Nat.mul_le_mul_right _ h1
        _ ≤ M * 10 ^ t := by omega
        _ ≤ 10 ^ 16 * delta0 * 10 ^ t := Nat.mul_le_mul_right _ hM
        _ = 10 ^ 16 * delta := by rw [he]; ring
        _ ≤ 10 ^ 16 * part2 := Nat.mul_le_mul_left _ hd
        _ < 10 ^ 16 * 2 ^ E := Nat.mul_lt_mul_of_pos_left hp (by decide)
    have h3 := pow10_lt (Nat.lt_of_mul_lt_mul_right h2)
    omega
  | succ unit ih =>
    intro t part2 delta ds K hu ht hp hd he hv hds
    have hne : ds ≠ [] := by intro h; rw [h] at ht; simp at ht
    have h1 : 10 ^ (ds.length - 1) ≤ dval ds := by
      rcases hds.2 with h | h
      · exact absurd h hne
      · exact h
    have hlen : ds.length ≤ 16 := by
      have h2 : 10 ^ (ds.length - 1) * 2 ^ E < 10 ^ 16 * 2 ^ E := by
        calc 10 ^ (ds.length - 1) * 2 ^ E ≤ dval ds * 2 ^ E := Nat.mul_le_mul_right _ h1
          _ ≤ M * 10 ^ t := by omega
          _ ≤ 10 ^ 16 * delta0 * 10 ^ t := Nat.mul_le_mul_right _ hM
          _ = 10 ^ 16 * delta := by rw [he]; ring
          _ ≤ 10 ^ 16 * part2 := Nat.mul_le_mul_left _ hd
          _ < 10 ^ 16 * 2 ^ E := Nat.mul_lt_mul_of_pos_left hp (by decide)
      have h3 := pow10_lt (Nat.lt_of_mul_lt_mul_right h2)
      omega
    have hE' : 2 ^ E ≤ 2 ^ 60 := Nat.pow_le_pow_right (by decide) hE
    have hEp : 0 < 2 ^ E := Nat.pow_pos (by decide)
    have e1 : part2 * 10 % 2 ^ 64 = part2 * 10 := Nat.mod_eq_of_lt (by omega)
    have e2 : delta * 10 % 2 ^ 64 = delta * 10 := Nat.mod_eq_of_lt (by omega)
    have hdig : part2 * 10 / 2 ^ E < 10 := Nat.div_lt_of_lt_mul (by omega)
    have e3 : part2 * 10 / 2 ^ E % 2 ^ 32 = part2 * 10 / 2 ^ E := Nat.mod_eq_of_lt (by omega)
    obtain ⟨ds', k1, k2, k3, k4, -⟩ := putDigit_eq ds (part2 * 10 / 2 ^ E) hds (by omega) hdig
    obtain ⟨k5, c, k6, k7⟩ := k4 (.inr hne)
    have hdm : part2 * 10 / 2 ^ E * 2 ^ E + part2 * 10 % 2 ^ E = part2 * 10 := Nat.div_add_mod' _ _
    have hmod : part2 * 10 % 2 ^ E < 2 ^ E := Nat.mod_lt _ hEp
    have hv' : M * 10 ^ (t + 1) = dval ds' * 2 ^ E + part2 * 10 % 2 ^ E := by
      have a1 : M * 10 ^ (t + 1) = (M * 10 ^ t) * 10 := by rw [Nat.pow_succ]; ring
      have a2 : (dval ds * 10 + part2 * 10 / 2 ^ E) * 2 ^ E = dval ds * 2 ^ E * 10 + part2 * 10 / 2 ^ E * 2 ^ E := by ring
      rw [a1, hv, k3, a2]
      omega
    have he' : delta * 10 = delta0 * 10 ^ (t + 1) := by rw [he, Nat.pow_succ]; ring
    rw [loop2]
    simp only [e1, e2, e3, k1, Res.ok_bind]
    by_cases hs : part2 * 10 % 2 ^ E < delta * 10
    · rw [if_pos hs]
      have hlt : unit + 1 < tens.length := by show unit + 1 < 20; omega
      rw [List.getElem?_eq_getElem hlt]
      simp only
      subst k7
      obtain ⟨j, j1, c', j2, j3, j4⟩ := roundDigit_eq (delta * 10) (2 ^ E) (wfrac * tens[unit + 1] % 2 ^ 64) hEp
        (by omega) ds 20 (part2 * 10 % 2 ^ E) (part2 * 10 / 2 ^ E) c (by omega)
        (by
          have : (part2 * 10 / 2 ^ E + 1) * 2 ^ E = part2 * 10 / 2 ^ E * 2 ^ E + 2 ^ E := by ring
          omega) k6 (by omega)
      rw [j3]
      obtain ⟨d1, d2⟩ := digits_round k2 (.inl hne) k6 j2 j1
      refine ⟨c' :: ds, -(t : Int) - 1, rfl, d1, by simp, by simp only [List.length_cons]; omega, by omega, by omega,
        .inr ⟨t + 1, by push_cast; omega, ?_, ?_⟩⟩
      · rw [hv']
        exact Nat.le_trans (Nat.mul_le_mul_right _ (by omega)) (Nat.le_add_right _ _)
      · rw [hv', ← d2, ← he', Nat.add_mul]
        omega
    · rw [if_neg hs]
      have := ih (t + 1) (part2 * 10 % 2 ^ E) (delta * 10) ds' K (by omega) (by omega) hmod (by omega) he' hv' k2
      rw [show (-(t : Int) - 1) = -((t + 1 : Nat) : Int) by push_cast; omega]
      exact this

theorem tens_eq (k : Nat) (h : k < 20) : tens[19 - k]? = some (10 ^ k) := by
  interval_cases k <;> rfl

theorem loop1_eq (E wfrac M delta part2 : Nat) (hE : E ≤ 60) (hM : M ≤ 10 ^ 16 * delta) (hM64 : M < 2 ^ 64)
    (hME : 2 ^ E ≤ M) (hdM : delta < M) (hp2 : part2 < 2 ^ E) :
    ∀ (kappa divp part1 : Nat) (ds : Bytes) (K : Int), kappa ≤ 10 → divp + kappa = 20 → part1 < 10 ^ kappa →
    delta < part1 * 2 ^ E + part2 → M = dval ds * (10 ^ kappa * 2 ^ E) + (part1 * 2 ^ E + part2) → Digits ds →
    ∃ ds' κ, loop1 E wfrac delta part2 kappa divp part1 ds K = .ok (ds', K + κ) ∧ Made E M delta ds' κ := by
  have hEp : 0 < 2 ^ E := Nat.pow_pos (by decide)
  intro kappa
  induction kappa with
  | zero =>
    intro divp part1 ds K hk hdp hp1 hns hv hds
    obtain rfl : part1 = 0 := by simpa using hp1
    simp only [Nat.pow_zero, Nat.one_mul, Nat.zero_mul, Nat.zero_add] at hv hns
    rw [loop1]
    have hne : ds ≠ [] := by
      rintro rfl
      simp only [dval] at hv
      omega
    have := loop2_eq E wfrac M delta hE hM 18 0 part2 delta ds K rfl (List.length_pos_iff.mpr hne) hp2 (by omega)
      (by simp) (by simpa using hv) hds
    exact this
  | succ kappa ih =>
    intro divp part1 ds K hk hdp hp1 hns hv hds
    have hPp : 0 < 10 ^ kappa := Nat.pow_pos (by decide)
    have hlen : ds = [] ∨ ds.length ≤ 16 := by
      rcases hds.2 with h | h
      · exact .inl h
      · right
        have hq : part1 * 2 ^ E + part2 < 10 ^ (kappa + 1) * 2 ^ E := by
          have : (part1 + 1) * 2 ^ E ≤ 10 ^ (kappa + 1) * 2 ^ E := Nat.mul_le_mul_right _ hp1
          rw [Nat.add_mul, Nat.one_mul] at this
          omega
        have h2 : 10 ^ (ds.length - 1) * (10 ^ (kappa + 1) * 2 ^ E) < 10 ^ 16 * (10 ^ (kappa + 1) * 2 ^ E) := by
          calc 10 ^ (ds.length - 1) * (10 ^ (kappa + 1) * 2 ^ E) ≤ dval ds * (10 ^ (kappa + 1) * 2 ^ E) :=
                Nat.mul_le_mul_right _ h
            _ ≤ M := by omega
            _ ≤ 10 ^ 16 * delta := hM
            _ ≤ 10 ^ 16 * (part1 * 2 ^ E + part2) := Nat.mul_le_mul_left _ (by omega)
            _ < _ := Nat.mul_lt_mul_of_pos_left hq (by decide)
        have h3 := pow10_lt (Nat.lt_of_mul_lt_mul_right h2)
        omega
    have hlen18 : ds.length ≤ 16 := by
      rcases hlen with h | h
      · rw [h]; simp
      · exact h
    rw [loop1, show divp = 19 - kappa by omega, tens_eq kappa (by omega)]
    simp only
    have hdig : part1 / 10 ^ kappa < 10 := Nat.div_lt_of_lt_mul (by rw [Nat.pow_succ] at hp1; exact hp1)
    have e3 : part1 / 10 ^ kappa % 2 ^ 32 = part1 / 10 ^ kappa := Nat.mod_eq_of_lt (by omega)
    obtain ⟨ds', k1, k2, k3, k4, k5⟩ := putDigit_eq ds (part1 / 10 ^ kappa) hds (by omega) hdig
    rw [e3, k1]
    simp only [Res.ok_bind]
    have hdm : part1 / 10 ^ kappa * 10 ^ kappa + part1 % 10 ^ kappa = part1 := Nat.div_add_mod' _ _
    have hmod : part1 % 10 ^ kappa < 10 ^ kappa := Nat.mod_lt _ hPp
    have hp1M : part1 * 2 ^ E ≤ M := by omega
    have hp1le : part1 ≤ part1 * 2 ^ E := Nat.le_mul_of_pos_right _ hEp
    have e4 : part1 / 10 ^ kappa * 10 ^ kappa % 2 ^ 64 = part1 / 10 ^ kappa * 10 ^ kappa := Nat.mod_eq_of_lt (by omega)
    have e5 : sub part1 (part1 / 10 ^ kappa * 10 ^ kappa % 2 ^ 64) = part1 % 10 ^ kappa := by
      rw [e4, sub_eq _ _ (by omega) (by omega)]; omega
    rw [e5]
    have hsplit : part1 * 2 ^ E = part1 / 10 ^ kappa * (10 ^ kappa * 2 ^ E) + part1 % 10 ^ kappa * 2 ^ E := by
      conv => lhs; rw [← hdm]
      ring
    rw [shl_eq _ E (by omega) (by omega)]
    simp only [Res.ok_bind]
    have e6 : (part1 % 10 ^ kappa * 2 ^ E + part2) % 2 ^ 64 = part1 % 10 ^ kappa * 2 ^ E + part2 :=
      Nat.mod_eq_of_lt (by omega)
    rw [e6]
    have hv' : M = dval ds' * (10 ^ kappa * 2 ^ E) + (part1 % 10 ^ kappa * 2 ^ E + part2) := by
      have a2 : (dval ds * 10 + part1 / 10 ^ kappa) * (10 ^ kappa * 2 ^ E) =
        dval ds * (10 ^ (kappa + 1) * 2 ^ E) + part1 / 10 ^ kappa * (10 ^ kappa * 2 ^ E) := by
        rw [Nat.pow_succ]; ring
      rw [k3, a2]
      omega
    by_cases hs : part1 % 10 ^ kappa * 2 ^ E + part2 ≤ delta
    · rw [if_pos hs]
      have hd0 : part1 / 10 ^ kappa ≠ 0 := by
        intro h0
        rw [h0, Nat.zero_mul, Nat.zero_add] at hsplit
        omega
      obtain ⟨k6, c, k7, k8⟩ := k4 (.inl hd0)
      have hunit : 10 ^ kappa * 2 ^ E ≤ part1 / 10 ^ kappa * (10 ^ kappa * 2 ^ E) :=
        Nat.le_mul_of_pos_left _ (by omega)
      rw [shl_eq _ E (by omega) (by omega)]
      simp only [Res.ok_bind]
      subst k8
      obtain ⟨j, j1, c', j2, j3, j4⟩ := roundDigit_eq delta (10 ^ kappa * 2 ^ E) wfrac
        (Nat.mul_pos hPp hEp) (by omega) ds 20 (part1 % 10 ^ kappa * 2 ^ E + part2) (part1 / 10 ^ kappa) c hs
        (by
          have : (part1 / 10 ^ kappa + 1) * (10 ^ kappa * 2 ^ E) =
            part1 / 10 ^ kappa * (10 ^ kappa * 2 ^ E) + 10 ^ kappa * 2 ^ E := by ring
          omega) k7 (by omega)
      rw [j3]
      have hnz : ds ≠ [] ∨ 0 < part1 / 10 ^ kappa - j := by
        rcases Nat.eq_zero_or_pos (part1 / 10 ^ kappa - j) with h | h
        · left
          rintro rfl
          have hj : j = part1 / 10 ^ kappa := Nat.le_antisymm j1 (Nat.sub_eq_zero_iff_le.mp h)
          rw [hj] at j4
          have hv0 : M = part1 * 2 ^ E + part2 := by simpa only [dval, Nat.zero_mul, Nat.zero_add] using hv
          clear hv hv' k4 k3 j2 j3 h hj k6 k7 k5
          omega
        · exact .inr h
      obtain ⟨d1, d2⟩ := digits_round k2 hnz k7 j2 j1
      refine ⟨c' :: ds, (kappa : Int), rfl, d1, by simp, by simp only [List.length_cons]; omega, by omega, by omega,
        .inl ⟨kappa, rfl, ?_, ?_⟩⟩
      · conv => rhs; rw [hv']
        exact Nat.le_trans (Nat.mul_le_mul_right _ (by omega)) (Nat.le_add_right _ _)
      · conv => lhs; rw [hv', ← d2]
        rw [Nat.add_mul]
        omega
    · rw [if_neg hs]
      exact ih (19 - kappa + 1) _ ds' K (by omega) (by omega) hmod (by omega) hv' k2

/-- `generate_digits` -/
theorem generate_eq (w u l : Nat) (q : Int) (E : Nat) (K : Int) (hq : q = -(E : Int)) (hE : E ≤ 60) (hE' : 32 ≤ E)
    (hu64 : u < 2 ^ 64) (hl : l ≤ u) (hl0 : 0 < l) (hM : u ≤ 10 ^ 16 * (u - l)) (huE : 2 ^ E ≤ u) (x1 x2 : Int) :
    ∃ ds κ, generate ⟨w, x1⟩ ⟨u, q⟩ ⟨l, x2⟩ K = .ok (ds, K + κ) ∧ Made E u (u - l) ds κ := by
  have hEp : 0 < 2 ^ E := Nat.pow_pos (by decide)
  have hE64 : 2 ^ E ≤ 2 ^ 60 := Nat.pow_le_pow_right (by decide) hE
  have h32 : 2 ^ 32 ≤ 2 ^ E := Nat.pow_le_pow_right (by decide) hE'
  unfold generate
  simp only [hq, Int.neg_neg, Int.toNat_natCast]
  rw [shl_eq 1 E (by omega) (by omega), sub_eq u l hl hu64]
  simp only [Res.ok_bind, Nat.one_mul]
  have hdm : u / 2 ^ E * 2 ^ E + u % 2 ^ E = u := Nat.div_add_mod' _ _
  have hp : u / 2 ^ E < 10 ^ 10 := by
    apply Nat.div_lt_of_lt_mul
    calc u < 2 ^ 64 := hu64
      _ ≤ 2 ^ 32 * 10 ^ 10 := by decide
      _ ≤ 2 ^ E * 10 ^ 10 := Nat.mul_le_mul_right _ h32
  exact loop1_eq E _ u (u - l) (u % 2 ^ E) hE hM hu64 huE (by omega) (Nat.mod_lt _ hEp) 10 10 (u / 2 ^ E) [] K
    (Nat.le_refl _) rfl hp (by omega) (by simp only [dval, Nat.zero_mul]; omega) ⟨by simp, .inl rfl⟩

end Srl.Fpconv
