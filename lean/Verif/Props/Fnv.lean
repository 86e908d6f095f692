import Verif.Model.Fnv

/-! # C22 – names hash with 64-bit FNV-1a -/

namespace Srl.Props

/-- Specification of 64-bit FNV-1a: offset basis 14695981039346656037, then for each octet
exclusive-or followed by multiplication with 1099511628211 modulo 2^64. -/
def fnv1a (bytes : Bytes) : Nat :=
  bytes.foldl (fun h b => ((h ^^^ b.toNat) * 1099511628211) % 2 ^ 64) 14695981039346656037

open Fnv (step)

private theorem unfold_eq (n : Nat) (bs : Bytes) (h : UInt64) (hn : n ≤ bs.length) :
    Fnv.unfold n bs h = .ok ((bs.take n).foldl step h) := by
  induction n generalizing bs h with
  | zero => simp [Fnv.unfold]
  | succ n ih =>
    cases bs with
    | nil => simp at hn
    | cons b bs => simp only [Fnv.unfold, ih bs _ (by simpa using hn), List.take_succ_cons, List.foldl_cons]

private theorem loop_eq (n : Nat) (bs : Bytes) (h : UInt64) (hn : 8 * n ≤ bs.length) :
    Fnv.loop n bs h = .ok ((bs.take (8 * n)).foldl step h, bs.drop (8 * n)) := by
  induction n generalizing bs h with
  | zero => simp [Fnv.loop]
  | succ n ih =>
    rw [Fnv.loop, unfold_eq 8 bs h (by omega)]
    simp only [Res.ok_bind]
    rw [ih _ _ (by simp; omega)]
    rw [show 8 * (n + 1) = 8 + 8 * n by omega, List.take_add, List.foldl_append, List.drop_drop]

private theorem prime_toNat : Fnv.prime.toNat = 1099511628211 := by decide +kernel

private theorem base_toNat : Fnv.base.toNat = 14695981039346656037 := by decide +kernel

private theorem fold_nat (bs : Bytes) (h : UInt64) :
    (bs.foldl step h).toNat =
      bs.foldl (fun h b => ((h ^^^ b.toNat) * 1099511628211) % 2 ^ 64) h.toNat := by
  induction bs generalizing h with
  | nil => rfl
  | cons b bs ih =>
    simp only [List.foldl_cons, ih]
    have : (step h b).toNat = ((h.toNat ^^^ b.toNat) * 1099511628211) % 2 ^ 64 := by
      unfold step
      rw [UInt64.toNat_mul, UInt64.toNat_xor, UInt8.toNat_toUInt64, prime_toNat, Nat.mul_comm]
    rw [this]

/-- C22: the string hash is 64-bit FNV-1a for every byte string. -/
theorem hash_is_fnv1a (bytes : Bytes) :
    ∃ h, Fnv.hash bytes = .ok h ∧ h.toNat = fnv1a bytes := by
  refine ⟨bytes.foldl step Fnv.base, ?_, by rw [fold_nat, base_toNat, fnv1a]⟩
  have hd := Nat.div_add_mod bytes.length 8
  unfold Fnv.hash
  rw [loop_eq _ _ _ (by omega)]
  simp only [Res.ok_bind]
  split
  · rw [List.take_of_length_le (by omega)]
  · rw [unfold_eq _ _ _ (by simp; omega), ← List.foldl_append]
    rw [List.take_of_length_le (l := List.drop _ _) (by simp; omega), List.take_append_drop]

/-- Published test vectors of FNV-1a. -/
example : fnv1a [] = 0xcbf29ce484222325 ∧ fnv1a (str "a") = 0xaf63dc4c8601ec8c ∧
    fnv1a (str "foobar") = 0x85944171f73967e8 := by decide +kernel
example : Fnv.hash (str "chongo was here!\n") = .ok 0x46810940eff5f915 := by decide +kernel

end Srl.Props
