import Verif.Lemmas.FpconvGrisu
import Verif.Props.Decimal

/-! # The text `emit_digits` writes stands for the number -/

namespace Srl.Fpconv

open Dec (isDigit num unsigned decimal)

theorem num_append (a b : Bytes) : num (a ++ b) = num a * 10 ^ b.length + num b := by
  have key : ∀ (b : Bytes) (x : Nat), b.foldl (fun a c => a * 10 + (c.toNat - 48)) x =
      x * 10 ^ b.length + b.foldl (fun a c => a * 10 + (c.toNat - 48)) 0 := by
    intro b
    induction b with
    | nil => intro x; simp
    | cons c b ih =>
      intro x
      simp only [List.foldl_cons, List.length_cons]
      rw [ih, ih (0 * 10 + _), Nat.pow_succ]
      ring
  unfold num
  rw [List.foldl_append, key]

theorem num_zeros (n : Nat) : num (List.replicate n 48) = 0 := by
  induction n with
  | zero => rfl
  | succ n ih => rw [List.replicate_succ']; rw [num_append, ih]; rfl

theorem num_reverse (ds : Bytes) : num ds.reverse = dval ds := by
  induction ds with
  | nil => rfl
  | cons c ds ih =>
    rw [List.reverse_cons, num_append, ih]
    simp [num, dval]

theorem isDigit_iff (c : UInt8) : isDigit c = true ↔ IsDigit c := by simp [isDigit, IsDigit]

theorem takeWhile_digits (d r : Bytes) (hd : ∀ c ∈ d, isDigit c = true) (hr : ∀ c ∈ r.head?, isDigit c = false) :
    (d ++ r).takeWhile isDigit = d ∧ (d ++ r).dropWhile isDigit = r := by
  rw [List.takeWhile_append_of_pos hd, List.dropWhile_append_of_pos hd]
  cases r with
  | nil => simp
  | cons c r =>
    have := hr c (by simp)
    simp [this]

/-- Digits only -/
theorem unsigned_int (d : Bytes) (hd : ∀ c ∈ d, isDigit c = true) (h0 : d ≠ []) :
    unsigned d = some (num d : ℚ) := by
  have h := takeWhile_digits d [] hd (by simp)
  rw [List.append_nil] at h
  unfold unsigned
  simp only [h.1, h.2, if_neg h0]
  simp

theorem unsigned_zero : unsigned [48] = some ((num [48] : Nat) : ℚ) := unsigned_int [48] (by decide) (by decide)

/-- Digits, a point, digits -/
theorem unsigned_frac (d f : Bytes) (hd : ∀ c ∈ d, isDigit c = true) (hf : ∀ c ∈ f, isDigit c = true) (h0 : d ≠ []) :
    unsigned (d ++ 46 :: f) = some ((num (d ++ f) : ℚ) * 10 ^ (-(f.length : ℤ))) := by
  have h := takeWhile_digits d (46 :: f) hd (by simp; decide)
  have h' := takeWhile_digits f [] hf (by simp)
  rw [List.append_nil] at h'
  unfold unsigned
  simp only [h.1, h.2, h'.1, h'.2, if_neg h0]

theorem unsigned_exp (d e : Bytes) (c : UInt8) (s : Bool) (hc : c = if s then 45 else 43) (hd : ∀ c ∈ d, isDigit c = true)
    (he : ∀ c ∈ e, isDigit c = true) (h0 : d ≠ []) (h1 : e ≠ []) :
    unsigned (d ++ 101 :: c :: e) = some ((num d : ℚ) * 10 ^ (if s then -(num e : ℤ) else num e)) := by
  have h := takeWhile_digits d (101 :: c :: e) hd (by simp; decide)
  have he' : e.all isDigit = true := List.all_eq_true.mpr he
  unfold unsigned
  simp only [h.1, h.2, if_neg h0, List.append_nil, he', h1, ne_eq, not_false_iff, and_self, if_true,
    List.length_nil]
  subst hc
  cases s <;> (simp [h1]; exact he)

theorem unsigned_frac_exp (d f e : Bytes) (c : UInt8) (s : Bool) (hc : c = if s then 45 else 43)
    (hd : ∀ c ∈ d, isDigit c = true) (hf : ∀ c ∈ f, isDigit c = true)
    (he : ∀ c ∈ e, isDigit c = true) (h0 : d ≠ []) (h1 : e ≠ []) :
    unsigned (d ++ 46 :: (f ++ 101 :: c :: e)) =
      some ((num (d ++ f) : ℚ) * 10 ^ ((if s then -(num e : ℤ) else num e) - f.length)) := by
  have h := takeWhile_digits d (46 :: (f ++ 101 :: c :: e)) hd (by simp; decide)
  have h' := takeWhile_digits f (101 :: c :: e) hf (by simp; decide)
  have he' : e.all isDigit = true := List.all_eq_true.mpr he
  unfold unsigned
  simp only [h.1, h.2, h'.1, h'.2, if_neg h0, he', h1, ne_eq, not_false_iff, and_self, if_true]
  subst hc
  cases s <;> simp

theorem exponent_eq (e : Nat) (h : e < 1000) :
    num (exponent e) = e ∧ (∀ c ∈ exponent e, isDigit c = true) ∧ exponent e ≠ [] ∧ (exponent e).length ≤ 3 := by
  have key : ∀ e : Fin 1000, num (exponent e.val) = e.val ∧ (exponent e.val).all isDigit = true ∧
      exponent e.val ≠ [] ∧ (exponent e.val).length ≤ 3 := by decide +kernel
  have := key ⟨e, h⟩
  exact ⟨this.1, List.all_eq_true.mp this.2.1, this.2.2⟩

/-- The three shapes of a text: digits only; with a point; in scientific notation. -/
inductive Shape (neg : Bool) (digits : Bytes) (K : Int) : Bytes → Prop where
  | int : 0 ≤ K → K < (if neg then 7 else 8) → Shape neg digits K (digits ++ List.replicate K.toNat 48)
  | frac (d f : Bytes) : K < 0 → d ≠ [] → (∀ c ∈ d, isDigit c = true) → (∀ c ∈ f, isDigit c = true) →
      num (d ++ f) = num digits → (f.length : Int) = -K → d.length + f.length ≤ 20 → (d = [48] ∨ ∃ r, digits = d ++ r) →
      Shape neg digits K (d ++ 46 :: f)
  | exp (d f e : Bytes) (s : Bool) : d ++ f = digits → d.length = 1 → e ≠ [] → e.length ≤ 3 →
      (∀ c ∈ e, isDigit c = true) →
      (if s then -(num e : ℤ) else num e) - f.length = K →
      Shape neg digits K (d ++ (if f = [] then [] else 46 :: f) ++ 101 :: (if s then 45 else 43) :: e)

theorem emit_shape (digits : Bytes) (K : Int) (neg : Bool) (hd : ∀ c ∈ digits, isDigit c = true) (h0 : digits ≠ [])
    (hl : digits.length ≤ 17) (hK : K.natAbs ≤ 400) : Shape neg digits K (emit digits K neg) := by
  have hlen : 0 < digits.length := List.length_pos_iff.mpr h0
  unfold emit
  simp only
  by_cases c1 : K ≥ 0 ∧ (K + digits.length - 1).natAbs < digits.length + (if neg then 6 else 7)
  · rw [if_pos c1]
    exact .int c1.1 (by have := c1.2; cases neg <;> simp only [if_true, if_false, Bool.false_eq_true] at this ⊢ <;> omega)
  rw [if_neg c1]
  by_cases c2 : K < 0 ∧ (K > -7 ∨ (K + digits.length - 1).natAbs < 4)
  · rw [if_pos c2]
    by_cases c3 : (digits.length : Int) - K.natAbs ≤ 0
    · rw [if_pos c3]
      refine .frac [48] _ c2.1 (by decide) (by decide) ?_ ?_ ?_ ?_ (.inl rfl)
      · intro c hc
        rcases List.mem_append.mp hc with h | h
        · rw [List.eq_of_mem_replicate h]; decide
        · exact hd c h
      · rw [← List.append_assoc, num_append, num_append, num_zeros]
        simp [num]
      · simp only [List.length_append, List.length_replicate]; omega
      · simp only [List.length_append, List.length_replicate, List.length_cons, List.length_nil]; omega
    · rw [if_neg c3]
      refine .frac _ _ c2.1 ?_ ?_ ?_ ?_ ?_ ?_ (.inr ⟨_, (List.take_append_drop _ _).symm⟩)
      · intro h
        have := congrArg List.length h
        simp only [List.length_take, List.length_nil] at this
        omega
      · exact fun c hc => hd c (List.mem_of_mem_take hc)
      · exact fun c hc => hd c (List.mem_of_mem_drop hc)
      · rw [List.take_append_drop]
      · simp only [List.length_drop]; omega
      · simp only [List.length_drop, List.length_take]; omega
  · rw [if_neg c2]
    have hmin : min digits.length (if neg then 17 else 18) = digits.length := by
      cases neg <;> simp only [if_true, if_false, Bool.false_eq_true] <;> omega
    rw [hmin]
    obtain ⟨e1, e2, e3, e4⟩ := exponent_eq (K + digits.length - 1).natAbs (by omega)
    have e : (if digits.length > 1 then (46 : UInt8) :: (digits.drop 1).take (digits.length - 1) else []) =
        (if digits.drop 1 = [] then [] else 46 :: digits.drop 1) := by
      by_cases h : digits.length > 1
      · rw [if_pos h, if_neg (by rw [List.drop_eq_nil_iff]; omega), List.take_of_length_le (by simp)]
      · rw [if_neg h, if_pos (by rw [List.drop_eq_nil_iff]; omega)]
    rw [e]
    have hs : (if K + (digits.length : Int) - 1 < 0 then (45 : UInt8) else 43) =
        if decide (K + (digits.length : Int) - 1 < 0) = true then 45 else 43 := by simp
    rw [hs, show ∀ x y z : Bytes, ∀ a b : UInt8, x ++ y ++ [a, b] ++ z = x ++ y ++ a :: b :: z by simp]
    refine .exp _ _ _ _ (List.take_append_drop 1 digits) (by simp; omega) e3 e4 e2 ?_
    rw [e1]
    simp only [List.length_drop, decide_eq_true_eq]
    split <;> omega

theorem zpow_cancel (a : ℚ) (k : Nat) : a * 10 ^ k * 10 ^ (-(k : ℤ)) = a := by
  rw [mul_assoc, zpow_neg, zpow_natCast, mul_inv_cancel₀ (by positivity), mul_one]

theorem shape_value {neg : Bool} {digits : Bytes} {K : Int} {t : Bytes} (h : Shape neg digits K t)
    (hd : ∀ c ∈ digits, isDigit c = true) (h0 : digits ≠ []) : unsigned t = some ((num digits : ℚ) * 10 ^ K) := by
  cases h with
  | int h1 h2 =>
    rw [unsigned_int _ (by
      intro c hc
      rcases List.mem_append.mp hc with h | h
      · exact hd c h
      · rw [List.eq_of_mem_replicate h]; decide) (by simp [h0]), num_append, num_zeros]
    obtain ⟨k, rfl⟩ := Int.eq_ofNat_of_zero_le h1
    simp
  | frac d f h1 h2 h3 h4 h5 h6 h7 h8 =>
    rw [unsigned_frac d f h3 h4 h2, h5, h6, Int.neg_neg]
  | exp d f e s h1 h2 h3 h4 h5 h6 =>
    subst h1
    have hd1 : ∀ c ∈ d, isDigit c = true := fun c hc => hd c (List.mem_append_left _ hc)
    have hf1 : ∀ c ∈ f, isDigit c = true := fun c hc => hd c (List.mem_append_right _ hc)
    have hd0 : d ≠ [] := by intro h; rw [h] at h2; simp at h2
    by_cases hf : f = []
    · subst hf
      rw [if_pos rfl, List.append_nil, unsigned_exp d e _ s rfl hd1 h5 hd0 h3, ← h6]
      simp
    · rw [if_neg hf, List.append_assoc, List.cons_append, unsigned_frac_exp d f e _ s rfl hd1 hf1 h5 hd0 h3, h6]

theorem shape_length {neg : Bool} {digits : Bytes} {K : Int} {t : Bytes} (h : Shape neg digits K t)
    (hl : digits.length ≤ 17) : t.length ≤ if neg then 23 else 24 := by
  cases h with
  | int h1 h2 =>
    simp only [List.length_append, List.length_replicate]
    cases neg <;> simp only [if_true, if_false, Bool.false_eq_true] at h2 ⊢ <;> omega
  | frac d f h1 h2 h3 h4 h5 h6 h7 h8 =>
    simp only [List.length_append, List.length_cons]
    cases neg <;> simp only [if_true, if_false, Bool.false_eq_true] <;> omega
  | exp d f e s h1 h2 h3 h4 h5 h6 =>
    subst h1
    rw [List.length_append] at hl
    simp only [List.length_append, List.length_cons]
    have : (if f = [] then [] else (46 : UInt8) :: f).length ≤ f.length + 1 := by
      split <;> simp
    cases neg <;> simp only [if_true, if_false, Bool.false_eq_true] <;> omega

/-- The first character is a digit. -/
theorem shape_head {neg : Bool} {digits : Bytes} {K : Int} {t : Bytes} (h : Shape neg digits K t)
    (hd : ∀ c ∈ digits, isDigit c = true) (h0 : digits ≠ []) : ∃ c r, t = c :: r ∧ isDigit c = true := by
  have key : ∀ (a b : Bytes), a ≠ [] → (∀ c ∈ a, isDigit c = true) → ∃ c r, a ++ b = c :: r ∧ isDigit c = true := by
    intro a b ha h
    cases a with
    | nil => exact absurd rfl ha
    | cons c a => exact ⟨c, a ++ b, rfl, h c List.mem_cons_self⟩
  cases h with
  | int h1 h2 => exact key _ _ h0 hd
  | frac d f h1 h2 h3 h4 h5 h6 h7 h8 => exact key _ _ h2 h3
  | exp d f e s h1 h2 h3 h4 h5 h6 =>
    subst h1
    rw [List.append_assoc]
    exact key _ _ (by intro h; rw [h] at h2; simp at h2) fun c hc => hd c (List.mem_append_left _ hc)

theorem decimal_sign (neg : Bool) (t : Bytes) (v : ℚ) (h : unsigned t = some v) (hh : ∃ c r, t = c :: r ∧ isDigit c = true) :
    decimal ((if neg then [45] else []) ++ t) = some (neg, v) := by
  obtain ⟨c, r, rfl, hc⟩ := hh
  cases neg with
  | true =>
    simp only [if_true, List.cons_append, List.nil_append]
    unfold decimal
    simp [h]
  | false =>
    simp only [Bool.false_eq_true, if_false, List.nil_append]
    unfold decimal
    split
    · rename_i t' heq
      simp only [List.cons.injEq] at heq
      rw [heq.1] at hc
      exact absurd hc (by decide)
    · simp [h]

theorem below_dbl (n : Nat) : below n = (Dec.dbl (n - 1) + Dec.dbl n) / 2 := by
  unfold below Dec.dbl
  rw [show (-1074 : ℤ) = 1 + (-1075) by norm_num, zpow_add₀ (by norm_num : (2 : ℚ) ≠ 0), zpow_one]
  push_cast
  ring

theorem above_dbl (n : Nat) : above n = (Dec.dbl n + Dec.dbl (n + 1)) / 2 := by
  unfold above Dec.dbl
  rw [show (-1074 : ℤ) = 1 + (-1075) by norm_num, zpow_add₀ (by norm_num : (2 : ℚ) ≠ 0), zpow_one]
  push_cast
  ring

theorem num_lt (d : Bytes) (hd : ∀ c ∈ d, isDigit c = true) : num d < 10 ^ d.length := by
  have key : ∀ ds : Bytes, (∀ c ∈ ds, isDigit c = true) → dval ds < 10 ^ ds.length := by
    intro ds
    induction ds with
    | nil => intro; decide
    | cons c ds ih =>
      intro h
      have h1 := ih fun x hx => h x (List.mem_cons_of_mem _ hx)
      have h2 := (isDigit_iff c).mp (h c List.mem_cons_self)
      unfold IsDigit at h2
      simp only [dval, List.length_cons, Nat.pow_succ]
      omega
  have := key d.reverse fun c hc => hd c (List.mem_reverse.mp hc)
  rw [← num_reverse, List.reverse_reverse, List.length_reverse] at this
  exact this

/-- Without leading zeros -/
theorem digits_lead {ds : Bytes} (h : Digits ds) (h0 : ds ≠ []) : ds.reverse.head? ≠ some 48 := by
  intro h48
  obtain ⟨r, hr⟩ : ∃ r, ds = r ++ [48] := by
    cases he : ds.reverse with
    | nil => rw [he] at h48; cases h48
    | cons c r =>
      rw [he] at h48
      simp only [List.head?_cons, Option.some.injEq] at h48
      have := congrArg List.reverse he
      rw [List.reverse_reverse, List.reverse_cons, h48] at this
      exact ⟨_, this⟩
  have hv := h.2.resolve_left h0
  have hd : ∀ c ∈ r.reverse, isDigit c = true := fun c hc =>
    (isDigit_iff c).mpr (h.1 c (by rw [hr]; exact List.mem_append_left _ (List.mem_reverse.mp hc)))
  rw [← num_reverse, hr, List.reverse_append, List.length_append] at hv
  have h1 : num ([48].reverse ++ r.reverse) = num r.reverse := by rw [num_append]; simp [num]
  rw [h1] at hv
  have := num_lt r.reverse hd
  simp only [List.length_reverse, List.length_cons, List.length_nil, Nat.zero_add, Nat.add_sub_cancel] at this hv
  omega

/-- What `fpconv_dtoa` does for finite numbers other than zero -/
theorem dtoa_eq (bits : UInt64) (h0 : 0 < (Fp.split64 bits).2) (h1 : (Fp.split64 bits).2 < Fp.inf64) :
    ∃ ds K t, Shape (Fp.split64 bits).1 ds K t ∧ (∀ c ∈ ds, isDigit c = true) ∧ ds ≠ [] ∧ ds.length ≤ 17 ∧
      dtoa bits = .ok ((if (Fp.split64 bits).1 then [45] else []) ++ t) ∧
      ((if (Fp.split64 bits).1 then [45] else []) ++ t).length ≤ 24 ∧
      below (Fp.split64 bits).2 < (num ds : ℚ) * 10 ^ K ∧ (num ds : ℚ) * 10 ^ K < above (Fp.split64 bits).2 ∧
      ds.head? ≠ some 48 := by
  have hi : Fp.inf64 = 2047 * 2 ^ 52 := rfl
  simp only [Fp.split64] at *
  obtain ⟨ds, K, g1, g2, g3, g4, g5, g6, g7⟩ := grisu2_eq bits _ rfl h0 h1
  have hd : ∀ c ∈ ds.reverse, isDigit c = true :=
    fun c hc => (isDigit_iff c).mpr (g2.1 c (List.mem_reverse.mp hc))
  have hne : ds.reverse ≠ [] := by simpa using g3
  have hl : ds.reverse.length ≤ 17 := by simpa using g4
  have sh := emit_shape ds.reverse K (decide (bits.toNat ≥ 2 ^ 63)) hd hne hl g5
  have hlen := shape_length sh hl
  have hlen' : ((if decide (bits.toNat ≥ 2 ^ 63) = true then [45] else []) ++
      emit ds.reverse K (decide (bits.toNat ≥ 2 ^ 63))).length ≤ 24 := by
    rw [List.length_append]
    revert hlen
    cases decide (bits.toNat ≥ 2 ^ 63) <;> simp <;> omega
  refine ⟨ds.reverse, K, _, sh, hd, hne, hl, ?_, hlen', ?_, ?_, digits_lead g2 g3⟩
  · unfold dtoa special
    simp only
    rw [if_neg (by omega), if_neg (by omega)]
    simp only [g1, Res.ok_bind]
    rw [if_neg hne]
    exact if_pos hlen'
  · rw [num_reverse]; exact g6
  · rw [num_reverse]; exact g7

theorem dtoa_zero (bits : UInt64) (h : (Fp.split64 bits).2 = 0) :
    dtoa bits = .ok ((if (Fp.split64 bits).1 then [45] else []) ++ [48]) := by
  simp only [Fp.split64] at *
  unfold dtoa special
  simp only
  rw [if_pos h]
  rfl

/-- A correct `strtod` inverts it. -/
theorem dtoa_rounds (strtod : Bytes → Option UInt64) (hr : Dec.Rounds strtod) (bits : UInt64)
    (h1 : (Fp.split64 bits).2 < Fp.inf64) :
    ∃ t, dtoa bits = .ok t ∧ t.length ≤ 24 ∧ strtod t = some bits := by
  have hb := Fp.join64_split bits
  by_cases h0 : (Fp.split64 bits).2 = 0
  · refine ⟨_, dtoa_zero bits h0, by cases (Fp.split64 bits).1 <;> decide, ?_⟩
    have hd := decimal_sign (Fp.split64 bits).1 [48] _ (unsigned_int [48] (by decide) (by decide))
      ⟨48, [], rfl, by decide⟩
    have hn0 : ((num [48] : Nat) : ℚ) = 0 := by simp [num]
    rw [hn0] at hd
    have hz : Dec.dbl 0 = 0 := by simp [Dec.dbl, Fp.mag]
    have hlt := Dec.dbl_lt (show Fp.inf64 - 1 < Fp.inf64 by decide)
    have hle := Dec.dbl_le (Nat.zero_le (Fp.inf64 - 1))
    obtain ⟨n, hn, hs⟩ := hr.finite _ _ _ hd (by linarith)
    have h01 := Dec.dbl_lt (show 0 < 1 by decide)
    have : n = 0 := Dec.nearest_eq (by decide) (.inl rfl) (by simp only [Nat.zero_add]; linarith) hn
    rw [hs, this, ← h0, hb]
  · obtain ⟨ds, K, t, sh, hd, hne, hl, ht, hlen, hv1, hv2, -⟩ := dtoa_eq bits (by omega) h1
    refine ⟨_, ht, hlen, ?_⟩
    have hv := decimal_sign (Fp.split64 bits).1 t _ (shape_value sh hd hne) (shape_head sh hd hne)
    rw [below_dbl] at hv1
    rw [above_dbl] at hv2
    have hi : Fp.inf64 - 1 + 1 = Fp.inf64 := rfl
    have m1 := Dec.dbl_le (show (Fp.split64 bits).2 ≤ Fp.inf64 - 1 by omega)
    have m2 := Dec.dbl_le (show (Fp.split64 bits).2 + 1 ≤ Fp.inf64 by omega)
    obtain ⟨n, hn, hs⟩ := hr.finite _ _ _ hv (by linarith)
    rw [hs, Dec.nearest_eq h1 (.inr hv1) hv2 hn, hb]

theorem dtoa_inf (neg : Bool) : dtoa (Fp.join64 neg Fp.inf64) = .ok ((if neg then [45] else []) ++ str "inf") := by
  cases neg <;> decide +kernel

/-- It never writes more than the 24 bytes it is given. -/
theorem dtoa_some (bits : UInt64) : ∃ t, dtoa bits = .ok t ∧ t.length ≤ 24 := by
  by_cases h : (Fp.split64 bits).2 < Fp.inf64
  · by_cases h0 : (Fp.split64 bits).2 = 0
    · exact ⟨_, dtoa_zero bits h0, by cases (Fp.split64 bits).1 <;> decide⟩
    · obtain ⟨ds, K, t, sh, hd, hne, hl, ht, hlen, hv1, hv2, -⟩ := dtoa_eq bits (by omega) h
      exact ⟨_, ht, hlen⟩
  · have hi : Fp.inf64 = 2047 * 2 ^ 52 := rfl
    have hlt := Fp.split64_lt bits
    simp only [Fp.split64] at h hlt
    have hq : bits.toNat % 2 ^ 63 / 2 ^ 52 % 2048 = 2047 := by omega
    unfold dtoa special
    simp only
    rw [if_neg (by omega), if_pos hq]
    refine ⟨_, rfl, ?_⟩
    split <;> split <;> decide

end Srl.Fpconv
