import Verif.Model.Vlq
import Verif.Lemmas.In
import Verif.Lemmas.Byte

namespace Srl.Vlq

/-- Closed form of the encoding. -/
def bytes (n : Nat) : Bytes :=
  if n ≥ 128 then UInt8.ofNat (n % 128 + 128) :: bytes (n / 128) else [UInt8.ofNat n]
termination_by n

theorem or_msb (n : Nat) : UInt8.ofNat (n ||| 128) = UInt8.ofNat (n % 128 + 128) := by
  apply UInt8.toNat_inj.mp
  simp only [UInt8.toNat_ofNat']
  have h : (n ||| 128) % 2 ^ 8 = n % 2 ^ 8 ||| 128 % 2 ^ 8 := Nat.or_mod_two_pow
  rw [h]
  have key : ∀ i : Fin 256, i.val ||| 128 = i.val % 128 + 128 := by decide +kernel
  have := key ⟨n % 2 ^ 8, Nat.mod_lt _ (by decide)⟩
  simp only at this
  rw [show (128 : Nat) % 2 ^ 8 = 128 from rfl, this]
  omega

theorem bytes_ne_nil (n : Nat) : bytes n ≠ [] := by
  unfold bytes; split <;> simp

theorem bytes_length_le (k n : Nat) (h : n < 128 ^ (k + 1)) : (bytes n).length ≤ k + 1 := by
  induction k generalizing n with
  | zero => unfold bytes; rw [if_neg (by omega)]; simp
  | succ k ih =>
    unfold bytes
    split
    · have := ih (n / 128) (by rw [Nat.div_lt_iff_lt_mul (by omega)]; rw [Nat.pow_succ] at h; exact h)
      simp only [List.length_cons]; omega
    · simp

theorem le_of_bytes_length (k n : Nat) (h : k + 1 < (bytes n).length) : 128 ^ (k + 1) ≤ n := by
  induction k generalizing n with
  | zero =>
    unfold bytes at h
    split at h
    · omega
    · simp at h
  | succ k ih =>
    unfold bytes at h
    split at h
    · have := ih (n / 128) (by simp only [List.length_cons] at h; omega)
      rw [Nat.pow_succ]
      have h2 := Nat.div_mul_le_self n 128
      calc 128 ^ (k + 1) * 128 ≤ n / 128 * 128 := Nat.mul_le_mul_right _ this
        _ ≤ n := h2
    · simp at h

theorem encLoop_eq (room n : Nat) (h : n < 128 ^ room) : encLoop room n = .ok (bytes n) ∨ room = 0 := by
  induction room generalizing n with
  | zero => exact Or.inr rfl
  | succ room ih =>
    left
    unfold encLoop bytes
    split
    · have hs : n >>> 7 = n / 128 := by rw [Nat.shiftRight_eq_div_pow]
      have h1 : n / 128 < 128 ^ room := by
        rw [Nat.div_lt_iff_lt_mul (by omega)]; rw [Nat.pow_succ] at h; exact h
      rcases ih (n / 128) h1 with h2 | h2
      · rw [hs, h2, or_msb]; rfl
      · subst h2; simp at h1; omega
    · rfl

theorem encode_eq (n : Nat) (h : n < 2 ^ 64) : encode n = .ok (bytes n) := by
  rcases encLoop_eq 10 n (by
    have : (2 : Nat) ^ 64 ≤ 128 ^ 10 := by decide
    omega) with h | h
  · exact h
  · cases h

theorem and127 (b : UInt8) : (127 &&& b).toNat = b.toNat % 128 := by
  revert b; decide +kernel

theorem and128 (b : UInt8) : b &&& 128 = 0 ↔ b.toNat < 128 := by
  revert b; decide +kernel

theorem or_add (a b k : Nat) (h : a < 2 ^ k) : a ||| (b * 2 ^ k) = a + b * 2 ^ k := by
  rw [Nat.or_comm, ← Nat.shiftLeft_eq, ← Nat.shiftLeft_add_eq_or_of_lt h, Nat.shiftLeft_eq]; omega

/-- Decoding the blocks of `n` at bit position `sh`. -/
theorem decLoop_bytes (m : Mem) (n sh out : Nat) (rest : Bytes)
    (hn : n * 2 ^ sh < 2 ^ 64) (hout : out < 2 ^ sh) :
    ∃ b t last, bytes n = b :: t ∧
      decLoop m b (out + (b.toNat % 128) * 2 ^ sh) (sh + 7) (b :: (t ++ rest)) =
        .ok (out + n * 2 ^ sh, sh + 7 * (bytes n).length, last :: rest) := by
  induction n using Nat.strongRecOn generalizing sh out with
  | _ n ih =>
  by_cases h : n ≥ 128
  · have hb : bytes n = UInt8.ofNat (n % 128 + 128) :: bytes (n / 128) := by
      rw [bytes, if_pos h]
    have hbn : (UInt8.ofNat (n % 128 + 128)).toNat = n % 128 + 128 := by
      simp only [UInt8.toNat_ofNat']; omega
    have hsplit : n * 2 ^ sh = (n % 128) * 2 ^ sh + (n / 128) * 2 ^ (sh + 7) := by
      have h1 : n = n % 128 + 128 * (n / 128) := (Nat.mod_add_div n 128).symm
      calc n * 2 ^ sh = (n % 128 + 128 * (n / 128)) * 2 ^ sh := by rw [← h1]
        _ = _ := by rw [Nat.add_mul, Nat.pow_add]; congr 1; rw [Nat.mul_comm 128, Nat.mul_assoc, Nat.mul_comm 128]
    have hn' : (n / 128) * 2 ^ (sh + 7) < 2 ^ 64 := by omega
    have hsh : sh + 7 < 64 := by
      have h1 : 1 ≤ n / 128 := by omega
      have h2 : 2 ^ (sh + 7) ≤ (n / 128) * 2 ^ (sh + 7) := Nat.le_mul_of_pos_left _ h1
      exact (Nat.pow_lt_pow_iff_right (by omega)).mp (Nat.lt_of_le_of_lt h2 hn')
    have hout' : out + (n % 128) * 2 ^ sh < 2 ^ (sh + 7) := by
      have h1 : n % 128 < 128 := Nat.mod_lt _ (by omega)
      have h2 : (n % 128 + 1) * 2 ^ sh ≤ 128 * 2 ^ sh := Nat.mul_le_mul_right _ h1
      rw [Nat.add_mul] at h2
      rw [Nat.pow_add]
      omega
    obtain ⟨b, t, last, hbt, hd⟩ := ih (n / 128) (by omega) (sh + 7) (out + (n % 128) * 2 ^ sh) hn' hout'
    refine ⟨_, _, last, hb, ?_⟩
    rw [hbt] at hb
    rw [hbt, List.cons_append, decLoop]
    rw [if_neg (by rw [and128, hbn]; omega)]
    simp only [In.cur_cons, Res.ok_bind]
    rw [if_neg (by omega)]
    have hmod : (UInt8.ofNat (n % 128 + 128)).toNat % 128 = n % 128 := by rw [hbn]; omega
    have hle : b.toNat % 128 * 2 ^ (sh + 7) < 2 ^ 64 := by
      -- the low part of n / 128
      have hbl : b.toNat % 128 ≤ n / 128 := by
        have : bytes (n / 128) = b :: t := hbt
        unfold bytes at this
        split at this
        · have h2 := (List.cons.inj this).1
          rw [← h2]; simp only [UInt8.toNat_ofNat']; omega
        · have h2 := (List.cons.inj this).1
          rw [← h2]; simp only [UInt8.toNat_ofNat']; omega
      exact Nat.lt_of_le_of_lt (Nat.mul_le_mul_right _ hbl) hn'
    rw [and127, Nat.shiftLeft_eq, Nat.mod_eq_of_lt hle, hmod, or_add _ _ _ hout', hd]
    congr 2
    · rw [hsplit]; omega
    · congr 1
      rw [show bytes n = UInt8.ofNat (n % 128 + 128) :: b :: t from hb, hbt]
      simp only [List.length_cons]; omega
  · have hb : bytes n = [UInt8.ofNat n] := by rw [bytes, if_neg h]
    have hbn : (UInt8.ofNat n).toNat = n := by simp only [UInt8.toNat_ofNat']; omega
    refine ⟨_, [], UInt8.ofNat n, hb, ?_⟩
    simp only [List.nil_append, decLoop]
    rw [if_pos (by rw [and128, hbn]; omega), hbn, hb, Nat.mod_eq_of_lt (by omega)]
    rfl

theorem decode_bytes {m : Mem} (hm : m.Sane) (n : Nat) (h : n < 2 ^ 64) (rest : Bytes) :
    decode m (bytes n ++ rest) = .ok (n, rest) := by
  obtain ⟨b, t, last, hbt, hd⟩ := decLoop_bytes m n 0 0 rest (by omega) (by omega)
  have hlen := bytes_length_le 9 n (by
    have : (2 : Nat) ^ 64 ≤ 128 ^ (9 + 1) := by decide
    omega)
  unfold decode
  rw [hbt] at hd ⊢
  simp only [List.cons_append, In.cur_cons, Res.ok_bind]
  rw [and127]
  have hd' : decLoop m b (b.toNat % 128) 7 (b :: (t ++ rest)) = .ok (n, 7 * (b :: t).length, last :: rest) := by
    have e : 0 + b.toNat % 128 * 2 ^ 0 = b.toNat % 128 := by omega
    rw [e] at hd; rw [show (0 + 7) = 7 from rfl] at hd
    rw [hd]; congr 2 <;> simp
  rw [hd']
  rw [hbt] at hlen
  simp only [Res.ok_bind]
  rw [if_neg (by omega), In.move_one hm]
  rfl

/-- What a successful decoding consumes bounds the result. -/
theorem decLoop_bound (m : Mem) (s : Bytes) (block : UInt8) (out shift v sh : Nat) (s' : Bytes)
    (h : decLoop m block out shift s = .ok (v, sh, s')) (ho : out < 2 ^ shift) :
    v < 2 ^ sh ∧ ∃ pre, s = pre ++ s' ∧ sh = shift + 7 * pre.length := by
  induction s generalizing block out shift with
  | nil =>
    unfold decLoop at h
    split at h
    · cases h; exact ⟨ho, [], rfl, rfl⟩
    · cases hmv : In.move m 1 [] <;> rw [hmv] at h <;> cases h
  | cons b s ih =>
    unfold decLoop at h
    split at h
    · cases h; exact ⟨ho, [], rfl, rfl⟩
    · cases hc : In.cur m s with
      | ok block' =>
        rw [hc] at h
        simp only [Res.ok_bind] at h
        split at h
        · cases h
        · have hlt : out ||| (((127 &&& block').toNat <<< shift) % 2 ^ 64) < 2 ^ (shift + 7) := by
            apply Nat.or_lt_two_pow
            · exact Nat.lt_of_lt_of_le ho (Nat.pow_le_pow_right (by omega) (by omega))
            · apply Nat.lt_of_le_of_lt (Nat.mod_le _ _)
              rw [and127, Nat.shiftLeft_eq, Nat.pow_add, Nat.mul_comm (2 ^ shift)]
              exact Nat.mul_lt_mul_of_pos_right (Nat.mod_lt _ (by omega)) (Nat.pow_pos (by omega))
          obtain ⟨h1, pre, h2, h3⟩ := ih block' _ (shift + 7) h hlt
          exact ⟨h1, b :: pre, by simp [h2], by simp; omega⟩
      | err => rw [hc] at h; cases h
      | ub => rw [hc] at h; cases h
      | fuel => rw [hc] at h; cases h

theorem decode_bound (m : Mem) (pre rest : Bytes) (v : Nat)
    (h : decode m (pre ++ rest) = .ok (v, rest)) : v < 128 ^ pre.length := by
  unfold decode at h
  cases hc : In.cur m (pre ++ rest) with
  | ok block =>
    rw [hc] at h
    simp only [Res.ok_bind] at h
    cases hd : decLoop m block (127 &&& block).toNat 7 (pre ++ rest) with
    | ok r =>
      obtain ⟨out, shift, s⟩ := r
      rw [hd] at h
      simp only [Res.ok_bind] at h
      split at h
      · cases h
      · have hb := decLoop_bound m _ _ _ _ _ _ _ hd (by rw [and127]; omega)
        obtain ⟨hv, p, hp, hs⟩ := hb
        cases hmv : In.move m 1 s with
        | ok s2 =>
          rw [hmv] at h
          simp only [Res.ok_bind, Res.pure_eq, Res.ok.injEq, Prod.mk.injEq] at h
          obtain ⟨h1, h2⟩ := h
          unfold In.move at hmv
          split at hmv
          · cases hmv
          · split at hmv
            · cases hmv
            · cases hmv
              have hl : (pre ++ rest).length = (p ++ s).length := by rw [hp]
              have h2l := congrArg List.length h2
              simp at hl h2l
              have : pre.length = p.length + 1 := by omega
              rw [← h1, this]
              have e : (128 : Nat) ^ (p.length + 1) = 2 ^ shift := by
                rw [hs, show (128 : Nat) = 2 ^ 7 from rfl, ← Nat.pow_mul]; congr 1; omega
              rw [e]; exact hv
        | err => rw [hmv] at h; cases h
        | ub => rw [hmv] at h; cases h
        | fuel => rw [hmv] at h; cases h
    | err => rw [hd] at h; cases h
    | ub => rw [hd] at h; cases h
    | fuel => rw [hd] at h; cases h
  | err => rw [hc] at h; cases h
  | ub => rw [hc] at h; cases h
  | fuel => rw [hc] at h; cases h

end Srl.Vlq
