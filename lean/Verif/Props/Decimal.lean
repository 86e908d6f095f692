import Mathlib.Algebra.Order.Field.Rat
import Mathlib.Algebra.Order.Field.Power
import Mathlib.Algebra.Order.Group.Unbundled.Abs
import Mathlib.Tactic.Linarith
import Mathlib.Tactic.Ring
import Mathlib.Tactic.Positivity
import Mathlib.Tactic.NormNum
import Verif.Model.Fp
import Verif.Lemmas.Fp

/-! # What decimal texts mean, and what a correct `strtod` does

A specification, independent of how the library formats numbers. -/

namespace Srl.Dec

def isDigit (c : UInt8) : Bool := decide (48 ≤ c.toNat ∧ c.toNat ≤ 57)

/-- The number written with these digits -/
def num (t : Bytes) : Nat := t.foldl (fun a c => a * 10 + (c.toNat - 48)) 0

/-- `digits [. digits] [e (+|-) digits]`: the number it stands for -/
def unsigned (t : Bytes) : Option ℚ :=
  let i := t.takeWhile isDigit
  let t := t.dropWhile isDigit
  let f := match t with
    | 46 :: t => t.takeWhile isDigit
    | _ => []
  let t := match t with
    | 46 :: t => t.dropWhile isDigit
    | t => t
  if i = [] then none
  else match t with
    | [] => some ((num (i ++ f) : ℚ) * 10 ^ (-(f.length : ℤ)))
    | 101 :: c :: e =>
      if e ≠ [] ∧ e.all isDigit then
        if c = 43 then some ((num (i ++ f) : ℚ) * 10 ^ ((num e : ℤ) - f.length))
        else if c = 45 then some ((num (i ++ f) : ℚ) * 10 ^ (-(num e : ℤ) - f.length))
        else none
      else none
    | _ => none

/-- Sign and magnitude of the number a text stands for -/
def decimal : Bytes → Option (Bool × ℚ)
  | 45 :: t => (unsigned t).map fun v => (true, v)
  | t => (unsigned t).map fun v => (false, v)

/-- The magnitude of the double with exponent-and-mantissa field `n` -/
def dbl (n : Nat) : ℚ := (Fp.mag 52 n : ℚ) * 2 ^ (-1074 : ℤ)

/-- No finite double is nearer to `v`. -/
def Nearest (v : ℚ) (n : Nat) : Prop := n < Fp.inf64 ∧ ∀ m < Fp.inf64, |v - dbl n| ≤ |v - dbl m|

/-- `strtod` rounds correctly: it gives a double that is nearest to the number in the text, with
the text's sign, unless the number is so large that it is rounded to infinity. (Which one it
chooses if two are equally near is left open.) It knows infinity by its name. -/
structure Rounds (strtod : Bytes → Option UInt64) : Prop where
  finite : ∀ t neg v, decimal t = some (neg, v) → v < (dbl (Fp.inf64 - 1) + dbl Fp.inf64) / 2 →
    ∃ n, Nearest v n ∧ strtod t = some (Fp.join64 neg n)
  infinite : ∀ neg, strtod ((if neg then [45] else []) ++ str "inf") = some (Fp.join64 neg Fp.inf64)

theorem nearest_some (v : ℚ) : ∃ n, Nearest v n := by
  have key : ∀ N, ∃ n < N + 1, ∀ m < N + 1, |v - dbl n| ≤ |v - dbl m| := by
    intro N
    induction N with
    | zero => exact ⟨0, by decide, fun m hm => by rw [show m = 0 by omega]⟩
    | succ N ih =>
      obtain ⟨n, h1, h2⟩ := ih
      by_cases h : |v - dbl n| ≤ |v - dbl (N + 1)|
      · refine ⟨n, by omega, fun m hm => ?_⟩
        rcases Nat.lt_or_ge m (N + 1) with h3 | h3
        · exact h2 m h3
        · rw [show m = N + 1 by omega]; exact h
      · refine ⟨N + 1, by omega, fun m hm => ?_⟩
        rcases Nat.lt_or_ge m (N + 1) with h3 | h3
        · have := h2 m h3; linarith
        · rw [show m = N + 1 by omega]
  obtain ⟨n, h1, h2⟩ := key (Fp.inf64 - 1)
  have hi : Fp.inf64 - 1 + 1 = Fp.inf64 := rfl
  rw [hi] at h1 h2
  exact ⟨n, h1, h2⟩

/-- There are such functions: the specification asks for nothing impossible. -/
theorem rounds_some : ∃ strtod, Rounds strtod := by
  classical
  refine ⟨fun t => match decimal t with
    | some (neg, v) => some (Fp.join64 neg (Classical.choose (nearest_some v)))
    | none => if t = str "-inf" then some (Fp.join64 true Fp.inf64) else some (Fp.join64 false Fp.inf64),
    fun t neg v h _ => ?_, fun neg => ?_⟩
  · exact ⟨_, Classical.choose_spec (nearest_some v), by simp only [h]⟩
  · have h1 : decimal (str "inf") = none := by decide +kernel
    have h2 : decimal (str "-inf") = none := by decide +kernel
    cases neg with
    | false =>
      rw [show (if false = true then [45] else []) ++ str "inf" = str "inf" by decide]
      simp only [h1]
      rw [if_neg (by decide)]
    | true =>
      rw [show (if true = true then [45] else []) ++ str "inf" = str "-inf" by decide]
      simp only [h2]
      rw [if_pos trivial]

/-! ## Magnitudes -/

theorem mag_parts (q r : Nat) (hr : r < 2 ^ 52) :
    Fp.mag 52 (2 ^ 52 * q + r) = if q = 0 then r else (2 ^ 52 + r) * 2 ^ (q - 1) := by
  unfold Fp.mag
  rw [Nat.mul_add_div (by decide), Nat.div_eq_of_lt hr, Nat.mul_add_mod, Nat.mod_eq_of_lt hr, Nat.add_zero]
  split
  · rename_i h; rw [h]; omega
  · rfl

theorem mag_lt_succ (n : Nat) : Fp.mag 52 n < Fp.mag 52 (n + 1) := by
  obtain ⟨q, r, hr, rfl⟩ : ∃ q r, r < 2 ^ 52 ∧ n = 2 ^ 52 * q + r :=
    ⟨n / 2 ^ 52, n % 2 ^ 52, Nat.mod_lt _ (by decide), (Nat.div_add_mod _ _).symm⟩
  rw [mag_parts q r hr]
  by_cases h : r = 2 ^ 52 - 1
  · rw [show 2 ^ 52 * q + r + 1 = 2 ^ 52 * (q + 1) + 0 by omega, mag_parts (q + 1) 0 (by decide)]
    rw [if_neg (show q + 1 ≠ 0 by omega)]
    cases q with
    | zero => simp only [if_true]; omega
    | succ k =>
      rw [if_neg (by omega)]
      simp only [Nat.add_sub_cancel, Nat.add_zero]
      rw [Nat.pow_succ 2 k, ← Nat.mul_assoc, Nat.mul_right_comm]
      exact Nat.mul_lt_mul_of_pos_right (by omega) (Nat.two_pow_pos k)
  · rw [Nat.add_assoc, mag_parts q (r + 1) (by omega)]
    split
    · omega
    · exact Nat.mul_lt_mul_of_pos_right (by omega) (Nat.two_pow_pos _)

theorem mag_le {a b : Nat} (h : a ≤ b) : Fp.mag 52 a ≤ Fp.mag 52 b := by
  induction h with
  | refl => exact Nat.le_refl _
  | step _ ih => exact Nat.le_trans ih (Nat.le_of_lt (mag_lt_succ _))

theorem dbl_le {a b : Nat} (h : a ≤ b) : dbl a ≤ dbl b := by
  unfold dbl
  exact mul_le_mul_of_nonneg_right (by exact_mod_cast mag_le h) (by positivity)

theorem dbl_lt {a b : Nat} (h : a < b) : dbl a < dbl b := by
  unfold dbl
  exact mul_lt_mul_of_pos_right (by exact_mod_cast Nat.lt_of_lt_of_le (mag_lt_succ a) (mag_le h)) (by positivity)

/-- A number nearer to one double than the points half way to its neighbours has only that double
as a nearest one. -/
theorem nearest_eq {v : ℚ} {n m : Nat} (hn : n < Fp.inf64) (h1 : n = 0 ∨ (dbl (n - 1) + dbl n) / 2 < v)
    (h2 : v < (dbl n + dbl (n + 1)) / 2) (hm : Nearest v m) : m = n := by
  have hc := hm.2 n hn
  rcases Nat.lt_trichotomy m n with h | h | h
  · exfalso
    rcases h1 with h1 | h1
    · omega
    have a1 := dbl_le (show m ≤ n - 1 by omega)
    have a2 := dbl_lt h
    rw [abs_of_pos (show 0 < v - dbl m by linarith)] at hc
    have := le_abs_self (v - dbl n)
    rcases abs_cases (v - dbl n) with ⟨e, _⟩ | ⟨e, _⟩ <;> linarith
  · exact h
  · exfalso
    have a1 := dbl_le (show n + 1 ≤ m by omega)
    have a2 := dbl_lt h
    rw [abs_of_neg (show v - dbl m < 0 by linarith)] at hc
    rcases abs_cases (v - dbl n) with ⟨e, _⟩ | ⟨e, _⟩ <;> linarith

end Srl.Dec
