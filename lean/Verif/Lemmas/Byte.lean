import Verif.Basic

/-! Helper facts and tactics about bytes. -/

namespace Srl

theorem forall_byte {P : UInt8 → Prop} : (∀ b, P b) ↔ ∀ i : Fin 256, P (UInt8.ofNat i.val) := by
  constructor
  · intro h i; exact h _
  · intro h b
    have := h ⟨b.toNat, b.toNat_lt⟩
    simpa using this

instance decForallByte (P : UInt8 → Prop) [DecidablePred P] : Decidable (∀ b, P b) :=
  decidable_of_iff _ forall_byte.symm

/-- Prove an equation between bytes bit by bit. -/
macro "byte_bits" : tactic => `(tactic| (
  apply UInt8.eq_of_toBitVec_eq
  ext i hi
  have h8 : i = 0 ∨ i = 1 ∨ i = 2 ∨ i = 3 ∨ i = 4 ∨ i = 5 ∨ i = 6 ∨ i = 7 := by omega
  rcases h8 with h | h | h | h | h | h | h | h <;> subst h <;> simp))

/-- `n` little endian bytes of a number: what `Out::write(const T&)` stores for an
`n`-byte integer (include/Srl/Out.hpp, native byte order of x86-64). -/
def leBytes : Nat → Nat → Bytes
  | 0, _ => []
  | n + 1, v => UInt8.ofNat (v % 256) :: leBytes n (v / 256)

/-- Number denoted by little endian bytes (`Aux::read<T>` on unsigned `T`, native byte order). -/
def leNat : Bytes → Nat
  | [] => 0
  | b :: bs => b.toNat + 256 * leNat bs

@[simp] theorem leBytes_length (n v : Nat) : (leBytes n v).length = n := by
  induction n generalizing v with
  | zero => rfl
  | succ n ih => simp [leBytes, ih]

theorem leNat_leBytes (n v : Nat) (h : v < 256 ^ n) : leNat (leBytes n v) = v := by
  induction n generalizing v with
  | zero => simp at h; simp [leBytes, leNat, h]
  | succ n ih =>
    have h2 : v / 256 < 256 ^ n := by
      rw [Nat.div_lt_iff_lt_mul (by omega)]; rw [Nat.pow_succ] at h; exact h
    simp only [leBytes, leNat, ih _ h2, UInt8.toNat_ofNat']
    omega

theorem leNat_lt (bs : Bytes) : leNat bs < 256 ^ bs.length := by
  induction bs with
  | nil => simp [leNat]
  | cons b bs ih =>
    simp only [leNat, List.length_cons, Nat.pow_succ]
    have := b.toNat_lt
    omega

theorem leBytes_leNat (bs : Bytes) : leBytes bs.length (leNat bs) = bs := by
  induction bs with
  | nil => rfl
  | cons b bs ih =>
    have hb := b.toNat_lt
    simp only [List.length_cons, leBytes, leNat]
    have h1 : (b.toNat + 256 * leNat bs) % 256 = b.toNat := by omega
    have h2 : (b.toNat + 256 * leNat bs) / 256 = leNat bs := by omega
    rw [h1, h2, ih]; simp

end Srl
