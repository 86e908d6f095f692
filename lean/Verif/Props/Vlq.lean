import Verif.Lemmas.Vlq

/-! # C21 – variable length integers of the Srl format -/

namespace Srl.Props

/-- Specification: base-128 digits, least significant first; every byte but the last has its top
bit set. -/
inductive Base128 : Nat → Bytes → Prop
  | last {b : UInt8} : b.toNat < 128 → Base128 b.toNat [b]
  | more {b : UInt8} {n : Nat} {bs : Bytes} :
      128 ≤ b.toNat → Base128 n bs → Base128 (b.toNat - 128 + 128 * n) (b :: bs)

private theorem base128_bytes (n : Nat) : Base128 n (Vlq.bytes n) := by
  induction n using Nat.strongRecOn with
  | _ n ih =>
  rw [Vlq.bytes]
  split
  · have hb : (UInt8.ofNat (n % 128 + 128)).toNat = n % 128 + 128 := by
      simp only [UInt8.toNat_ofNat']; omega
    have := Base128.more (b := UInt8.ofNat (n % 128 + 128)) (by omega) (ih (n / 128) (by omega))
    rw [hb] at this
    rw [show n % 128 + 128 - 128 + 128 * (n / 128) = n by omega] at this
    exact this
  · have hb : (UInt8.ofNat n).toNat = n := by simp only [UInt8.toNat_ofNat']; omega
    have := Base128.last (b := UInt8.ofNat n) (by omega)
    rw [hb] at this; exact this

/-- C21: every 64-bit integer is written in one to ten bytes, in base 128. -/
theorem vlq_encode_spec (n : Nat) (h : n < 2 ^ 64) :
    ∃ bs, Vlq.encode n = .ok bs ∧ 1 ≤ bs.length ∧ bs.length ≤ 10 ∧ Base128 n bs := by
  refine ⟨_, Vlq.encode_eq n h, ?_, ?_, base128_bytes n⟩
  · exact List.length_pos_iff.mpr (Vlq.bytes_ne_nil n)
  · exact Vlq.bytes_length_le 9 n (by
      have : (2 : Nat) ^ 64 ≤ 128 ^ (9 + 1) := by decide
      omega)

/-- C21: it is read back exactly, whatever follows and whatever lies behind the source. -/
theorem vlq_roundtrip (m : Mem) (hm : m.Sane) (n : Nat) (h : n < 2 ^ 64) (bs rest : Bytes)
    (he : Vlq.encode n = .ok bs) : Vlq.decode m (bs ++ rest) = .ok (n, rest) := by
  rw [Vlq.encode_eq n h] at he; cases he
  exact Vlq.decode_bytes hm n h rest

/-- C21: no shorter byte sequence is read as the same integer. -/
theorem vlq_minimal (m : Mem) (n : Nat) (h : n < 2 ^ 64) (bs : Bytes) (he : Vlq.encode n = .ok bs)
    (pre rest : Bytes) (hd : Vlq.decode m (pre ++ rest) = .ok (n, rest)) :
    bs.length ≤ pre.length := by
  rw [Vlq.encode_eq n h] at he; cases he
  have hb := Vlq.decode_bound m pre rest n hd
  rcases Nat.lt_or_ge pre.length (Vlq.bytes n).length with hlt | hge
  · exfalso
    cases hp : pre.length with
    | zero =>
      rw [hp] at hb; simp at hb; subst hb
      have : pre = [] := List.length_eq_zero_iff.mp hp
      subst this
      -- nothing consumed although `move(1)` succeeded
      simp only [List.nil_append] at hd
      unfold Vlq.decode at hd
      rw [Res.bind_eq_ok] at hd
      obtain ⟨b, _, hd⟩ := hd
      rw [Res.bind_eq_ok] at hd
      obtain ⟨⟨o, sh, s'⟩, h1, hd⟩ := hd
      obtain ⟨_, p, hp1, _⟩ := Vlq.decLoop_bound m _ _ _ _ _ _ _ h1 (by rw [Vlq.and127]; omega)
      simp only at hd
      split at hd
      · cases hd
      · rw [Res.bind_eq_ok] at hd
        obtain ⟨s2, h2, hd⟩ := hd
        cases hd
        unfold In.move at h2
        split at h2
        · cases h2
        · split at h2
          · cases h2
          · have h3 := congrArg (fun x => match x with | Res.ok s => List.length s | _ => 0) h2
            have h4 := congrArg List.length hp1
            simp at h3 h4
            omega
    | succ k =>
      rw [hp] at hlt hb
      have := Vlq.le_of_bytes_length k n hlt
      omega
  · exact hge

example : Vlq.encode 300 = .ok [172, 2] := by decide
example : Vlq.encode (2 ^ 64 - 1) = .ok [255, 255, 255, 255, 255, 255, 255, 255, 255, 1] := by decide
example : Vlq.decode ⟨none, 4096⟩ ([172, 2] ++ [7]) = .ok (300, [7]) := by decide
example : (⟨none, 4096⟩ : Mem).Sane := by unfold Mem.Sane; decide

end Srl.Props
