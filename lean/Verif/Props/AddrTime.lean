import Verif.Lemmas.AddrCost
import Mathlib.Data.Nat.ModEq
import Mathlib.Data.List.Nodup

/-! # C96: shared pointers are stored in time in proportion to them

The property is: what is done for the addresses of the shared pointers while objects are stored is at most a number for each
of them, wherever they lie in memory (`AddressesProportional`). It holds for addresses that are spread, as those of small
objects that lie one after the other are. It does not hold for others: large objects lie so that all of them share a place. -/

namespace Srl.Props
open Shared Typed KeyCost AddrCost
open HTable (Tbl Inv)

/-- C96 in full: a factor and a constant that suffice for all addresses -/
def AddressesProportional (c d : Nat) : Prop :=
  ∀ (as : List Nat) (t : Seen) (k : Nat), (∀ a ∈ as, a < 2 ^ 47) → insertAll Seen.new as = .ok (t, k) → k ≤ c * as.length + d

/-! ## What is added to the table -/

private def Known (t : Seen) (b : List Nat) : Prop :=
  ∃ k seen, insertAll Seen.new b = .ok (t, k) ∧ SeenIs keys t seen ∧ ∀ a, a ∈ seen ↔ a ∈ b

private theorem known_insert {t t' : Seen} {b : List Nat} {a : Nat} {known : Bool} {key : Nat} (h : Known t b)
    (hi : insertShared keys t a = .ok (known, key, t')) : Known t' (b ++ [a]) ∧ (known = true ↔ a ∈ b) := by
  obtain ⟨k, seen, h1, h2, h3⟩ := h
  obtain ⟨known', key', t2, f1, f2⟩ := insertShared_spec h2 a
  rw [hi] at f1
  cases f1
  have e : insertAll Seen.new (b ++ [a]) = .ok (t', k + Cost.insertSteps keys t a) :=
    insertAll_append b [a] _ t _ k _ h1 (by simp [insertAll, hi])
  rcases f2 with ⟨rfl, f2, f3⟩ | ⟨rfl, -, f2, f3⟩
  · have hm : a ∈ seen := List.mem_of_getElem? f2
    refine ⟨⟨_, seen, e, f3, fun x => ?_⟩, by simp [← h3, hm]⟩
    rw [List.mem_append, List.mem_singleton, ← h3]
    constructor
    · exact .inl
    · rintro (h | rfl)
      · exact h
      · exact hm
  · refine ⟨⟨_, seen ++ [a], e, f3, fun x => ?_⟩, by simp [← h3, f2]⟩
    rw [List.mem_append, List.mem_append, h3]

private theorem stored_each {C : Nat → GTy} {G : Graph} {f : Obj → Seen → Res (Item × Seen)} {e : GTy}
    (hf : ∀ x t i t' b, Known t b → f x t = .ok (i, t') → ∃ c, Meets C G e x b c ∧ Known t' c) :
    ∀ (xs : List Obj) (t t' : Seen) (is : List Item) (b : List Nat), Known t b → eachObj f xs t = .ok (is, t') →
      ∃ c, Meets C G (.vec e) (.many xs) b c ∧ Known t' c
  | [], t, t', is, b, hk, h => by
    cases h
    exact ⟨b, .empty, hk⟩
  | x :: xs, t, t', is, b, hk, h => by
    simp only [eachObj, Res.bind_eq_ok] at h
    obtain ⟨⟨i, t1⟩, h1, ⟨is, t2⟩, h2, h3⟩ := h
    cases h3
    obtain ⟨c, c1, c2⟩ := hf x t i t1 b hk h1
    obtain ⟨d, d1, d2⟩ := stored_each hf xs t1 t2 is c c2 h2
    exact ⟨d, .item c1 d1, d2⟩

private theorem stored_members {C : Nat → GTy} {G : Graph} {f : Bytes → GTy → Obj → Seen → Res (Item × Seen)}
    (hf : ∀ name ty x t i t' b, Known t b → f name ty x t = .ok (i, t') → ∃ c, Meets C G ty x b c ∧ Known t' c) :
    ∀ (fs : GFields) (xs : List Obj) (t t' : Seen) (is : List Item) (b : List Nat), Known t b →
      eachField f fs xs t = .ok (is, t') → ∃ c, Meets C G (.record fs) (.many xs) b c ∧ Known t' c
  | .nil, xs, t, t', is, b, hk, h => by
    cases h
    exact ⟨b, .done, hk⟩
  | .cons _ _ _, [], t, t', is, b, hk, h => by cases h
  | .cons name ty rest, x :: xs, t, t', is, b, hk, h => by
    simp only [eachField, Res.bind_eq_ok] at h
    obtain ⟨⟨i, t1⟩, h1, ⟨is, t2⟩, h2, h3⟩ := h
    cases h3
    obtain ⟨c, c1, c2⟩ := hf name ty x t i t1 b hk h1
    obtain ⟨d, d1, d2⟩ := stored_members hf rest xs t1 t2 is c c2 h2
    exact ⟨d, .member c1 d1, d2⟩

private theorem stored_from {C : Nat → GTy} {G : Graph} : ∀ (fuel : Nat) (name : Bytes) (ty : GTy) (o : Obj) (t : Seen)
    (i : Item) (t' : Seen) (b : List Nat), Known t b → store keys C G fuel name ty o t = .ok (i, t') →
    ∃ c, Meets C G ty o b c ∧ Known t' c
  | 0, _, _, _, _, _, _, _, _, h => by cases h
  | fuel + 1, name, ty, o, t, i, t', b, hk, h => by
    unfold store at h
    split at h
    · cases h
    · cases h
      exact ⟨b, .plain, hk⟩
    · rename_i hu; cases hu
      simp only [Res.bind_eq_ok] at h
      obtain ⟨⟨is, t1⟩, h1, h2⟩ := h
      cases h2
      exact stored_each (fun x t i t' b => stored_from fuel _ _ x t i t' b) _ _ _ _ _ hk h1
    · rename_i hu; cases hu
      simp only [Res.bind_eq_ok] at h
      obtain ⟨⟨is, t1⟩, h1, h2⟩ := h
      cases h2
      exact stored_members (fun name ty x t i t' b => stored_from fuel name ty x t i t' b) _ _ _ _ _ _ hk h1
    · cases h
      exact ⟨b, .null, hk⟩
    · rename_i hu; cases hu
      simp only [Res.bind_eq_ok] at h
      obtain ⟨⟨known, key, t1⟩, h1, h2⟩ := h
      obtain ⟨g1, g2⟩ := known_insert hk h1
      dsimp only at h2
      cases known with
      | true =>
        cases h2
        exact ⟨_, .again (g2.mp rfl), g1⟩
      | false =>
        simp only [Bool.false_eq_true, if_false, Res.bind_eq_ok] at h2
        obtain ⟨⟨i2, t2⟩, h3, h4⟩ := h2
        cases h4
        obtain ⟨c, c1, c2⟩ := stored_from fuel _ _ _ _ _ _ _ g1 h3
        exact ⟨c, .first (fun hm => by simpa using g2.mpr hm) c1, c2⟩
    · cases h

/-- C96 (what is added): when an object of any type is stored, the addresses of the shared pointers that are met are added
to the table one after the other. -/
theorem addresses_stored {C : Nat → GTy} {G : Graph} {fuel : Nat} {name : Bytes} {ty : GTy} {o : Obj} {i : Item} {t : Seen}
    (h : store keys C G fuel name ty o Seen.new = .ok (i, t)) :
    ∃ as k, Meets C G ty o [] as ∧ insertAll Seen.new as = .ok (t, k) := by
  obtain ⟨as, h1, k, _, h2, _⟩ := stored_from fuel name ty o _ i t [] ⟨0, [], rfl, seen_new keys, by simp⟩ h
  exact ⟨as, k, h1, h2⟩

/-- What is met is determined by the objects. -/
theorem met_once {C : Nat → GTy} {G : Graph} {ty : GTy} {o : Obj} {b c d : List Nat} (h1 : Meets C G ty o b c)
    (h2 : Meets C G ty o b d) : c = d := by
  induction h1 generalizing d with
  | plain => cases h2; rfl
  | empty => cases h2; rfl
  | item _ _ ih1 ih2 =>
    cases h2 with
    | item g1 g2 => cases ih1 g1; exact ih2 g2
  | done => cases h2; rfl
  | member _ _ ih1 ih2 =>
    cases h2 with
    | member g1 g2 => cases ih1 g1; exact ih2 g2
  | null => cases h2; rfl
  | again hm =>
    cases h2 with
    | again => rfl
    | first hn => exact absurd hm hn
  | first hn _ ih =>
    cases h2 with
    | again hm => exact absurd hm hn
    | first _ g => exact ih g

/-! ## What holds -/

/-- C96 (what holds): addresses that are spread are added in time in proportion to them. What is missing: other addresses. -/
theorem addresses_time_partial (L : Nat) (as : List Nat) (hL : AddressesSpread L as) (h : ∀ a ∈ as, a < 2 ^ 64) :
    ∃ t k, insertAll Seen.new as = .ok (t, k) ∧ k ≤ (3 * L + 8) * as.length + 16 * (L + 4) := by
  obtain ⟨t, m, k, h1, h2, h3, h4⟩ := insertAll_spread as hL h as [] Seen.new _ rfl good_new
    (by intro e he; simp [Seen.new, HTable.new, Tbl.es] at he) (by simp)
  have e : Seen.new.elements = 0 := rfl
  have := pot_le h2 L as.length (by omega)
  have e1 : (4 + L) * (16 + 2 * as.length) = 64 + 16 * L + 8 * as.length + 2 * (L * as.length) := by
    rw [Nat.add_mul, Nat.mul_add, Nat.mul_add, Nat.mul_left_comm L 2]; omega
  have e2 : (3 * L + 8) * as.length = 3 * (L * as.length) + 8 * as.length := by rw [Nat.add_mul, Nat.mul_assoc]
  refine ⟨t, k, h1, ?_⟩
  rw [e2]
  omega

/-- C96 (what holds): … so it is for all objects with shared pointers. -/
theorem addresses_time_stored_partial (L : Nat) {C : Nat → GTy} {G : Graph} {fuel : Nat} {name : Bytes} {ty : GTy} {o : Obj}
    {i : Item} {t : Seen} {as : List Nat} (h : store keys C G fuel name ty o Seen.new = .ok (i, t)) (hm : Meets C G ty o [] as)
    (hL : AddressesSpread L as) (ha : ∀ a ∈ as, a < 2 ^ 64) :
    ∃ k, insertAll Seen.new as = .ok (t, k) ∧ k ≤ (3 * L + 8) * as.length + 16 * (L + 4) := by
  obtain ⟨bs, k, h1, h2⟩ := addresses_stored h
  cases met_once hm h1
  obtain ⟨t', k', h3, h4⟩ := addresses_time_partial L as hL ha
  rw [h2] at h3
  cases h3
  exact ⟨k, h2, h4⟩

/-! ### Objects that lie one after the other -/

/-- Of the numbers that were given so far, all below some number are there. -/
private theorem order_take : ∀ {N : Nat} {ks : List Nat}, KeysInOrder N ks → ∀ n, ∃ M, N ≤ M ∧ M ≤ N + ks.length ∧
    (∀ k ∈ ks.take n, k < M) ∧ ∀ k, N ≤ k → k < M → k ∈ ks.take n
  | N, _, .nil, n => ⟨N, by omega, by omega, by simp, by intros; omega⟩
  | N, _, _, 0 => ⟨N, by omega, by omega, by simp, by intros; omega⟩
  | N, _, .again (k := k) (ks := ks) h1 h2, n + 1 => by
    obtain ⟨M, a1, a2, a3, a4⟩ := order_take h2 n
    refine ⟨M, a1, by rw [List.length_cons]; omega, ?_, ?_⟩
    · intro x hx
      rw [List.take_succ_cons] at hx
      rcases List.mem_cons.mp hx with rfl | hx
      · omega
      · exact a3 x hx
    · intro x hx hy
      rw [List.take_succ_cons]
      exact List.mem_cons_of_mem _ (a4 x hx hy)
  | N, _, .next (ks := ks) h2, n + 1 => by
    obtain ⟨M, a1, a2, a3, a4⟩ := order_take h2 n
    refine ⟨M, by omega, by rw [List.length_cons]; omega, ?_, ?_⟩
    · intro x hx
      rw [List.take_succ_cons] at hx
      rcases List.mem_cons.mp hx with rfl | hx
      · omega
      · exact a3 x hx
    · intro x hx hy
      rw [List.take_succ_cons]
      by_cases e : x = N
      · rw [e]; simp
      · exact List.mem_cons_of_mem _ (a4 x (by omega) hy)

private theorem addrPlace_mod {p x y H : Nat} (hx : x / 2 ^ 32 = H) (hy : y / 2 ^ 32 = H)
    (h : addrPlace (2 ^ p) x = addrPlace (2 ^ p) y) : x % 2 ^ p = y % 2 ^ p := by
  rw [addrPlace, addrPlace] at h
  by_cases hp : 2 ^ p < 2 ^ 32
  · rw [if_pos hp, if_pos hp, hx, hy, Nat.xor_mod_two_pow, Nat.xor_mod_two_pow] at h
    have := congrArg (· ^^^ (H % 2 ^ p)) h
    simpa [Nat.xor_assoc] using this
  · rw [if_neg hp, if_neg hp] at h
    exact h

/-- C96 (what holds): objects of a size, which lie one after the other in a part of the memory and are met in that order
(some of them again), are spread. What counts is by what power of two their size can be divided. -/
theorem addresses_spread (B D s o : Nat) (hD : D = 2 ^ s * o) (ho : o % 2 = 1) (ks : List Nat) (h : KeysInOrder 0 ks)
    (hB : ∀ k ∈ ks, (B + D * k) / 2 ^ 32 = B / 2 ^ 32) : AddressesSpread (2 ^ s) (ks.map fun k => B + D * k) := by
  intro n j b ys hz hn hy
  obtain ⟨M, -, -, m1, m2⟩ := order_take h n
  have hDp : 0 < D := by rw [hD]; exact Nat.mul_pos (Nat.two_pow_pos s) (by omega)
  have hM : M ≤ 16 * 2 ^ j := by
    have := hz ((List.range M).map fun k => B + D * k)
      (List.Nodup.map (fun x y h => Nat.eq_of_mul_eq_mul_left hDp (Nat.add_left_cancel h)) List.nodup_range) (by
      intro z hz
      obtain ⟨k, hk, rfl⟩ := List.mem_map.mp hz
      rw [← List.map_take]
      exact List.mem_map_of_mem (m2 k (by omega) (List.mem_range.mp hk)))
    simpa using this
  have hp : 16 * 2 ^ j = 2 ^ (j + 4) := by rw [Nat.pow_add]; omega
  rw [hp] at hy hM
  generalize j + 4 = p at hy hM
  have key : ∀ y ∈ ys, ∃ i, i < M ∧ y = B + D * i ∧ y / 2 ^ 32 = B / 2 ^ 32 := by
    intro y h
    have h1 := (hy y h).1
    rw [← List.map_take] at h1
    obtain ⟨i, hi, rfl⟩ := List.mem_map.mp h1
    exact ⟨i, m1 i hi, rfl, hB i (List.mem_of_mem_take hi)⟩
  have hq : 2 ^ p ≤ 2 ^ (p - s) * 2 ^ s := by
    rw [← Nat.pow_add]
    exact Nat.pow_le_pow_right (by omega) (by omega)
  have same : ∀ i i', (B + D * i) / 2 ^ 32 = B / 2 ^ 32 → (B + D * i') / 2 ^ 32 = B / 2 ^ 32 →
      addrPlace (2 ^ p) (B + D * i) = addrPlace (2 ^ p) (B + D * i') → i % 2 ^ (p - s) = i' % 2 ^ (p - s) := by
    intro i i' h1 h2 h3
    by_cases hs : s ≤ p
    · have h4 : B + D * i ≡ B + D * i' [MOD 2 ^ p] := addrPlace_mod h1 h2 h3
      have h5 := Nat.ModEq.add_left_cancel' B h4
      rw [hD, Nat.mul_assoc, Nat.mul_assoc, show p = s + (p - s) by omega, Nat.pow_add] at h5
      have h6 := Nat.ModEq.mul_left_cancel' (Nat.two_pow_pos s).ne' h5
      refine Nat.ModEq.cancel_left_of_coprime ?_ h6
      exact Nat.Coprime.pow_left _ (by rw [Nat.Coprime, Nat.gcd_rec, ho]; rfl)
    · rw [show p - s = 0 by omega, Nat.pow_zero, Nat.mod_one, Nat.mod_one]
  have hnd : (ys.map fun y => (y - B) / D / 2 ^ (p - s)).Nodup := by
    refine List.Nodup.map_on ?_ hn
    intro x hx y hy' he
    obtain ⟨i, -, rfl, hi⟩ := key x hx
    obtain ⟨i', -, rfl, hi'⟩ := key y hy'
    rw [Nat.add_sub_cancel_left, Nat.add_sub_cancel_left, Nat.mul_div_cancel_left _ hDp, Nat.mul_div_cancel_left _ hDp] at he
    have h1 := same i i' hi hi' ((hy _ hx).2.trans (hy _ hy').2.symm)
    have h2 := Nat.div_add_mod i (2 ^ (p - s))
    rw [he, h1, Nat.div_add_mod] at h2
    rw [h2]
  have hsub : ∀ x ∈ ys.map fun y => (y - B) / D / 2 ^ (p - s), x ∈ List.range (2 ^ s) := by
    intro x hx
    obtain ⟨y, hy', rfl⟩ := List.mem_map.mp hx
    obtain ⟨i, hi, rfl, -⟩ := key y hy'
    rw [Nat.add_sub_cancel_left, Nat.mul_div_cancel_left _ hDp, List.mem_range]
    exact Nat.div_lt_of_lt_mul (by omega)
  have := hnd.length_le_of_subset hsub
  simpa using this

/-- C96 (what holds): … and so stored in time in proportion to them. For objects of 48 bytes the factor is 56. -/
theorem addresses_array (B D s o : Nat) (hD : D = 2 ^ s * o) (ho : o % 2 = 1) (ks : List Nat) (h : KeysInOrder 0 ks)
    (hB : ∀ k ∈ ks, (B + D * k) / 2 ^ 32 = B / 2 ^ 32) (h64 : B < 2 ^ 64) :
    ∃ t k, insertAll Seen.new (ks.map fun k => B + D * k) = .ok (t, k) ∧
      k ≤ (3 * 2 ^ s + 8) * ks.length + 16 * (2 ^ s + 4) := by
  have := addresses_time_partial (2 ^ s) _ (addresses_spread B D s o hD ho ks h hB) (by
    intro a ha
    obtain ⟨k, hk, rfl⟩ := List.mem_map.mp ha
    have := hB k hk
    omega)
  rwa [List.length_map] at this

/-! ## What does not hold -/

/-- Addresses of objects of 64 KiB one after the other -/
def farApart (n : Nat) : List Nat := (List.range n).map (· * 2 ^ 16)

private theorem far_nodup (n : Nat) : (farApart n).Nodup := by
  refine List.Nodup.map (fun a b h => ?_) List.nodup_range
  omega

private theorem far_first {n : Nat} (hn : n < 2 ^ 15) : ∀ x ∈ farApart n, x < 2 ^ 47 ∧ First (2 ^ 16) x := by
  intro x hx
  obtain ⟨i, hi, rfl⟩ := List.mem_map.mp hx
  have := List.mem_range.mp hi
  refine ⟨by omega, ?_⟩
  intro j hj
  rw [bucket_key (by omega), if_pos (by omega), Nat.div_eq_of_lt (by omega), Nat.xor_zero]
  have hj12 : j ≤ 12 := by
    rcases Nat.lt_or_ge 12 j with h | h
    · have := Nat.pow_le_pow_right (n := 2) (by omega) h
      omega
    · exact h
  have e : i * 2 ^ 16 = 16 * 2 ^ j * (2 ^ (12 - j) * i) := by
    rw [← Nat.mul_assoc, Nat.mul_assoc 16, ← Nat.pow_add, show j + (12 - j) = 12 by omega]; omega
  rw [e, Nat.mul_mod_right]

/-- Negation of C96: these take the square. -/
theorem addresses_quadratic (n : Nat) (hn : n < 2 ^ 14) (t : Seen) (k : Nat)
    (h : insertAll Seen.new (farApart n) = .ok (t, k)) : n * (n - 1) ≤ 2 * k := by
  have hl : (farApart n).length = n := by simp [farApart]
  have e : (HTable.new 16 : Seen).elements = 0 := rfl
  have := insertAll_same (c := 16) (S := 2 ^ 16) (farApart n) _ t _ k good_new
    (by intro e he; simp [HTable.new, Tbl.es] at he) (far_nodup n)
    (fun x hx => ⟨(far_first (by omega) x hx).2, rfl⟩) (by rw [hl]; show 16 + 2 * (0 + n) ≤ 2 ^ 16; omega) h
  rw [hl, e] at this
  omega

private theorem insertAll_ok : ∀ (as : List Nat) (t : Seen) (seen : List Nat), SeenIs keys t seen →
    ∃ t' k, insertAll t as = .ok (t', k)
  | [], t, _, _ => ⟨t, 0, rfl⟩
  | a :: as, t, seen, hs => by
    obtain ⟨known, key, t1, h1, h2⟩ := insertShared_spec hs a
    obtain ⟨seen', h3⟩ : ∃ seen', SeenIs keys t1 seen' := by
      rcases h2 with ⟨_, _, h⟩ | ⟨_, _, _, h⟩ <;> exact ⟨_, h⟩
    obtain ⟨t2, k, h4⟩ := insertAll_ok as t1 seen' h3
    exact ⟨t2, Cost.insertSteps keys t a + k, by simp only [insertAll, h1, Res.ok_bind, h4]⟩

/-- C96 does not hold with a factor that goes for all addresses. -/
theorem addresses_not_proportional (c d : Nat) (hc : c < 2 ^ 12) (hd : d < 2 ^ 12) : ¬ AddressesProportional c d := by
  intro h
  obtain ⟨t, k, hk⟩ := insertAll_ok (farApart (2 ^ 14 - 1)) _ _ (seen_new keys)
  have h1 := addresses_quadratic (2 ^ 14 - 1) (by omega) t k hk
  have h2 := h (farApart (2 ^ 14 - 1)) t k (fun x hx => (far_first (by omega) x hx).1) hk
  have hl : (farApart (2 ^ 14 - 1)).length = 2 ^ 14 - 1 := by rw [farApart, List.length_map, List.length_range]
  rw [hl] at h2
  have h3 : c * (2 ^ 14 - 1) ≤ 2 ^ 12 * (2 ^ 14 - 1) := Nat.mul_le_mul_right _ (by omega)
  omega

/-- Shared pointers to objects at addresses -/
def pointersTo (as : List Nat) : Obj := .many (as.map fun a => .ref (.int (.ofNat a)))

private theorem pointers_met {C : Nat → GTy} {G : Graph} {c : Nat} {w : Bool} {ty : Ty} (hC : C c = .plain ty) :
    ∀ (as b : List Nat), Meets C G (.vec (.shared w c)) (pointersTo as) b (b ++ as)
  | [], b => by rw [List.append_nil]; exact .empty
  | a :: as, b => by
    have h := pointers_met hC (G := G) (w := w) as (b ++ [a])
    rw [List.append_assoc] at h
    refine .item ?_ h
    by_cases hm : a ∈ b
    · exact .again hm
    · exact .first hm (by rw [hC]; exact .plain)

private theorem pointers_store {C : Nat → GTy} {G : Graph} {c fuel : Nat} {w : Bool} {ty : Ty} (hC : C c = .plain ty) :
    ∀ (as : List Nat) (t : Seen) (seen : List Nat), SeenIs keys t seen → ∃ is t',
      eachObj (store keys C G (fuel + 2) [] (.shared w c)) (as.map fun a => .ref (.int (.ofNat a))) t = .ok (is, t')
  | [], t, _, _ => ⟨[], t, rfl⟩
  | a :: as, t, seen, hs => by
    obtain ⟨known, key, t1, h1, h2⟩ := insertShared_spec hs a
    obtain ⟨seen', h3⟩ : ∃ seen', SeenIs keys t1 seen' := by
      rcases h2 with ⟨_, _, h⟩ | ⟨_, _, _, h⟩ <;> exact ⟨_, h⟩
    obtain ⟨is, t2, h4⟩ := pointers_store hC (fuel := fuel) (G := G) (w := w) as t1 seen' h3
    cases known
    · refine ⟨.scope [] .object [.val keyName (.int .u64 key), toItem valueName ty (G.obj a)] :: is, t2, ?_⟩
      simp only [List.map_cons, eachObj, store, h1, Res.ok_bind, Bool.false_eq_true, if_false, hC, h4]
    · refine ⟨.scope [] .object [.val keyName (.int .u64 key)] :: is, t2, ?_⟩
      simp only [List.map_cons, eachObj, store, h1, Res.ok_bind, if_true, h4]

/-- Negation of C96: storing a vector of `n` shared pointers to objects that lie 64 KiB apart takes `n·(n − 1)/2`. -/
theorem addresses_vector {C : Nat → GTy} {G : Graph} {c fuel : Nat} {w : Bool} {ty : Ty} (hC : C c = .plain ty) (name : Bytes)
    (n : Nat) (hn : n < 2 ^ 14) : ∃ i t k, store keys C G (fuel + 3) name (.vec (.shared w c)) (pointersTo (farApart n)) Seen.new = .ok (i, t) ∧
      Meets C G (.vec (.shared w c)) (pointersTo (farApart n)) [] (farApart n) ∧
      insertAll Seen.new (farApart n) = .ok (t, k) ∧ n * (n - 1) ≤ 2 * k := by
  obtain ⟨is, t, h⟩ := pointers_store (fuel := fuel) (G := G) (w := w) hC (farApart n) _ _ (seen_new keys)
  have hs : store keys C G (fuel + 3) name (.vec (.shared w c)) (pointersTo (farApart n)) Seen.new = .ok (.scope name .array is, t) := by
    simp only [pointersTo, store, h, Res.ok_bind]
  have hm := pointers_met (G := G) (w := w) hC (farApart n) []
  obtain ⟨as, k, h1, h2⟩ := addresses_stored hs
  cases met_once hm h1
  exact ⟨_, t, k, hs, hm, h2, addresses_quadratic n hn t k h2⟩

/-! ## Examples -/

private def addrWork (as : List Nat) : Nat :=
  match insertAll Seen.new as with
  | .ok (_, k) => k
  | _ => 0

/-- Two objects that point to each other: the second pointer back is not followed again. -/
example : Meets (fun _ => .record (.cons [97] (.shared false 0) .nil)) ⟨fun _ => 0, fun a => .many [.ref (.int (.ofNat (48 - a)))]⟩
    (.shared false 0) (.ref (.int 16)) [] [16, 32, 16] :=
  .first (by simp) (.member (.first (by simp) (.member (.again (by simp)) .done)) .done)

/-- Objects of 48 bytes, the third of them met twice -/
example : AddressesSpread 16 ([0, 1, 2, 2, 3].map fun k => 4096 + 48 * k) :=
  addresses_spread 4096 48 4 3 rfl rfl _ (.next (.next (.next (.again (by omega) (.next .nil))))) (by decide)

example : addrWork ((List.range 100).map fun k => 4096 + 48 * k) = 1880 := by decide +kernel

example : addrWork (farApart 100) = 8046 := by decide +kernel

end Srl.Props
