import Verif.Model.IntStr

namespace Srl.IntStr

/-- Horner evaluation from a start value. -/
def horner (a : Nat) (s : Bytes) : Nat := s.foldl (fun a c => 10 * a + (c.toNat - 48)) a

def Digits (s : Bytes) : Prop := ∀ c ∈ s, 48 ≤ c.toNat ∧ c.toNat ≤ 57

theorem horner_append (a : Nat) (s t : Bytes) : horner a (s ++ t) = horner (horner a s) t := by
  simp [horner, List.foldl_append]

theorem le_horner (a : Nat) (s : Bytes) : a ≤ horner a s := by
  induction s generalizing a with
  | nil => simp [horner]
  | cons c s ih =>
    have := ih (10 * a + (c.toNat - 48))
    simp only [horner, List.foldl_cons] at this ⊢
    omega

theorem digitLoop_exact (s : Bytes) (a : Nat) (hd : Digits s) (hv : horner a s < 2 ^ 64) :
    digitLoop s a = some (horner a s) := by
  induction s generalizing a with
  | nil => rfl
  | cons c s ih =>
    have hc := hd c (by simp)
    have hle := le_horner (10 * a + (c.toNat - 48)) s
    have hv' : horner (10 * a + (c.toNat - 48)) s < 2 ^ 64 := hv
    rw [digitLoop]
    rw [if_neg (by
      rw [gt_iff_lt, UInt8.lt_iff_toNat_lt, UInt8.lt_iff_toNat_lt]
      simp only [UInt8.reduceToNat]
      omega)]
    have ht : (a * 10 + c.toNat - 48) % 2 ^ 64 = 10 * a + (c.toNat - 48) := by
      rw [Nat.mod_eq_of_lt (by omega)]; omega
    simp only [ht]
    rw [if_neg (by omega), ih _ (fun x hx => hd x (by simp [hx])) hv']
    rfl

/-- Whatever is accepted consists of digits, and is right modulo `2^64`. -/
theorem digitLoop_shape (s : Bytes) (a v : Nat) (h : digitLoop s a = some v) (ha : a < 2 ^ 64) :
    Digits s ∧ v = horner a s % 2 ^ 64 := by
  have hmod : ∀ (s : Bytes) (a b : Nat), a % 2 ^ 64 = b % 2 ^ 64 →
      horner a s % 2 ^ 64 = horner b s % 2 ^ 64 := by
    intro s
    induction s with
    | nil => intro a b h; simpa [horner] using h
    | cons c s ih =>
      intro a b h
      apply ih
      show (10 * a + (c.toNat - 48)) % 2 ^ 64 = (10 * b + (c.toNat - 48)) % 2 ^ 64
      omega
  induction s generalizing a with
  | nil =>
    simp only [digitLoop, Option.some.injEq] at h
    refine ⟨by simp [Digits], ?_⟩
    simp only [horner, List.foldl_nil]
    omega
  | cons c s ih =>
    rw [digitLoop] at h
    split at h
    · cases h
    · rename_i hc
      rw [gt_iff_lt, UInt8.lt_iff_toNat_lt, UInt8.lt_iff_toNat_lt] at hc
      simp only [UInt8.reduceToNat] at hc
      simp only at h
      split at h
      · cases h
      · obtain ⟨h1, h2⟩ := ih _ h (Nat.mod_lt _ (by decide))
        refine ⟨?_, ?_⟩
        · intro x hx
          simp only [List.mem_cons] at hx
          rcases hx with rfl | hx
          · omega
          · exact h1 x hx
        · rw [h2]
          apply hmod
          show (a * 10 + c.toNat - 48) % 2 ^ 64 % 2 ^ 64 = (10 * a + (c.toNat - 48)) % 2 ^ 64
          omega

theorem putDigits_spec (k extra val : Nat) (acc : Bytes) (h : val < 10 ^ k) :
    ∃ r ds, putDigits (k + extra) val acc = .ok (r, ds ++ acc) ∧ extra ≤ r ∧
      r + ds.length = k + extra ∧ Digits ds ∧ horner 0 ds = val ∧
      (val ≠ 0 → ds ≠ [] ∧ ds.head? ≠ some 48) ∧ (val = 0 → ds = []) := by
  induction k generalizing val acc with
  | zero =>
    have : val = 0 := by simpa using h
    subst this
    refine ⟨extra, [], ?_, by simp, by simp, by simp [Digits], rfl, by simp, by simp⟩
    cases extra <;> simp [putDigits]
  | succ k ih =>
    by_cases h0 : val = 0
    · subst h0
      refine ⟨k + 1 + extra, [], ?_, by omega, by simp, by simp [Digits], rfl, by simp, by simp⟩
      rw [show k + 1 + extra = (k + extra) + 1 by omega]
      simp [putDigits]
    · have hlt : val / 10 < 10 ^ k := by
        rw [Nat.pow_succ] at h; omega
      obtain ⟨r, ds, h1, h2, h3, h4, h5, h6, h7⟩ := ih (val / 10) (UInt8.ofNat (48 + val % 10) :: acc) hlt
      have hb : (UInt8.ofNat (48 + val % 10)).toNat = 48 + val % 10 := by
        simp only [UInt8.toNat_ofNat']; omega
      refine ⟨r, ds ++ [UInt8.ofNat (48 + val % 10)], ?_, h2, ?_, ?_, ?_, ?_, fun h => absurd h h0⟩
      · rw [show k + 1 + extra = (k + extra) + 1 by omega, putDigits, if_pos (by omega), h1]
        simp
      · simp; omega
      · intro c hc
        simp only [List.mem_append, List.mem_singleton] at hc
        rcases hc with hc | rfl
        · exact h4 c hc
        · rw [hb]; omega
      · rw [horner_append, h5]
        simp only [horner, List.foldl_cons, List.foldl_nil, hb]
        omega
      · intro _
        refine ⟨by simp, ?_⟩
        by_cases hz : val / 10 = 0
        · rw [h7 hz]
          simp only [List.nil_append, List.head?_cons, ne_eq, Option.some.injEq]
          intro he
          have := congrArg UInt8.toNat he
          rw [hb] at this
          simp at this
          omega
        · obtain ⟨hne, hh⟩ := h6 hz
          cases ds with
          | nil => exact absurd rfl hne
          | cons c ds => simpa using hh

theorem digit_not_space (c : UInt8) : (48 ≤ c.toNat ∧ c.toNat ≤ 57) ∨ c = 45 → isSpace c = false := by
  intro h
  unfold isSpace
  rcases h with h | rfl
  · simp only [Bool.or_eq_false_iff, beq_eq_false_iff_ne, ne_eq, Bool.and_eq_false_iff,
      decide_eq_false_iff_not, UInt8.le_iff_toNat_le]
    refine ⟨fun hh => ?_, ?_⟩
    · subst hh; simp at h
    · simp only [UInt8.reduceToNat]; omega
  · decide

theorem trimSpace_id (s : Bytes) (h : ∀ c ∈ s, isSpace c = false) : trimSpace s = s := by
  have key : ∀ t : Bytes, (∀ c ∈ t, isSpace c = false) → t.dropWhile isSpace = t := by
    intro t ht
    cases t with
    | nil => rfl
    | cons c t => rw [List.dropWhile_cons_of_neg]; rw [ht c (by simp)]; simp
  unfold trimSpace
  rw [key s h, key s.reverse (by intro c hc; exact h c (by simpa using hc)), List.reverse_reverse]

/-- Text that neither is blank nor starts with a letter goes to `str_to_int` first. -/
theorem strToType_int (strtod : Bytes → Option UInt64) (c : UInt8) (s : Bytes)
    (hs : ∀ x ∈ c :: s, (48 ≤ x.toNat ∧ x.toNat ≤ 57) ∨ x = 45) :
    strToType strtod false (c :: s) = match strToInt (c :: s) with
      | some (i, true) => some (.int .i64 (-(i : Int)))
      | some (i, false) => some (.int .u64 i)
      | none => (strtod (c :: s)).map Fp.ofDouble := by
  have hlt : ¬ (c ≥ 102) := by
    have := hs c (by simp)
    rw [ge_iff_le, UInt8.le_iff_toNat_le]
    rcases this with h | rfl
    · simp only [UInt8.reduceToNat]; omega
    · decide
  unfold strToType
  rw [trimSpace_id _ (fun x hx => digit_not_space x (hs x hx))]
  simp [hlt]
  rfl

end Srl.IntStr
