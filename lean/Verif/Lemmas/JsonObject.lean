import Verif.Lemmas.JsonIn
import Verif.Props.JsonObjectSpec
import Verif.Props.Apply
import Verif.Props.TypedDocs

/-! Lemmas about objects restored from JSON texts. -/

namespace Srl.Typed
open Rfc8259

/-! ### Numbers -/

/-- What restoring needs to know about the value a number is read as -/
structure NumFor (neg : Bool) (v : ℚ) (w : Val) : Prop where
  int : ∀ (strtod : Bytes → Option UInt64) (T : IntTy) (k : ℤ), (k : ℚ) = signed neg v → T.lo ≤ k → k ≤ T.hi →
    Apply.paste strtod (.int T) w = .ok k
  dbl : ∀ strtod : Bytes → Option UInt64, ∃ d, Apply.pasteFp strtod Apply.toDouble w = .ok d ∧ DoubleFor neg v d
  flt : ∀ strtod : Bytes → Option UInt64, v ≤ (Fp.fltMax : ℚ) →
    ∃ f, Apply.pasteFp strtod Apply.toFloat w = .ok f ∧ FloatFor neg v f
  null : w ≠ .null

theorem one_cast : ((Fp.one : ℕ) : ℚ) = 2 ^ 1074 := by
  rw [show Fp.one = 2 ^ 1074 from rfl]; exact_mod_cast rfl

/-- Small integers, and `2^63`, are doubles. -/
theorem exact_double {m : Nat} (h : m < 2 ^ 53 ∨ m = 2 ^ 63) : ∃ n < Fp.inf64, Fp.mag 52 n = m * Fp.one := by
  rcases h with h | rfl
  · rcases Nat.eq_zero_or_pos m with rfl | h0
    · exact ⟨0, by decide, by decide +kernel⟩
    obtain ⟨s, hs, h1, h2⟩ := Fpconv.shift_exists m h0 h
    have hi : Fp.inf64 = 2047 * 2 ^ 52 := rfl
    refine ⟨(1075 - s) * 2 ^ 52 + (m * 2 ^ s - 2 ^ 52), by omega, ?_⟩
    have hd : ((1075 - s) * 2 ^ 52 + (m * 2 ^ s - 2 ^ 52)) / 2 ^ 52 = 1075 - s := by omega
    have hm : ((1075 - s) * 2 ^ 52 + (m * 2 ^ s - 2 ^ 52)) % 2 ^ 52 = m * 2 ^ s - 2 ^ 52 := by omega
    unfold Fp.mag
    rw [hd, hm, if_neg (by omega), Nat.add_sub_of_le h1, Nat.mul_assoc, ← Nat.pow_add,
      show s + (1075 - s - 1) = 1074 by omega]
    rfl
  · exact ⟨1086 * 2 ^ 52, by decide, by decide +kernel⟩

theorem nearest_int (i : ℤ) (hi : i.natAbs ≤ 2 ^ 64) :
    Dec.Nearest ((i.natAbs : ℕ) : ℚ) (Fp.roundAt 52 0 (i.natAbs * Fp.one)) := by
  refine ⟨Props.int64_lt i hi, fun m _ => ?_⟩
  have h := (Fp.roundAt_nearest 52 0 (i.natAbs * Fp.one) m (by decide)).1
  simp only [Nat.pow_zero, Nat.mul_one] at h
  have key : ∀ a b : ℕ, (Fp.dist a b : ℚ) = |(a : ℚ) - b| := by
    intro a b
    unfold Fp.dist
    rcases Nat.le_total a b with h | h
    · rw [Nat.sub_eq_zero_of_le h, Nat.zero_add, Nat.cast_sub h, abs_sub_comm, abs_of_nonneg]
      exact sub_nonneg.mpr (by exact_mod_cast h)
    · rw [Nat.sub_eq_zero_of_le h, Nat.add_zero, Nat.cast_sub h, abs_of_nonneg]
      exact sub_nonneg.mpr (by exact_mod_cast h)
  have h' : ((Fp.dist (i.natAbs * Fp.one) (Fp.mag 52 (Fp.roundAt 52 0 (i.natAbs * Fp.one))) : ℕ) : ℚ) ≤
      (Fp.dist (i.natAbs * Fp.one) (Fp.mag 52 m) : ℕ) := by exact_mod_cast h
  rw [key, key] at h'
  have hd : ∀ n, |((i.natAbs : ℕ) : ℚ) - Dec.dbl n| =
      |((i.natAbs * Fp.one : ℕ) : ℚ) - (Fp.mag 52 n : ℚ)| * 2 ^ (-1074 : ℤ) := by
    intro n
    have h2 : (0 : ℚ) ≤ 2 ^ (-1074 : ℤ) := by positivity
    rw [← abs_of_nonneg h2, ← abs_mul, sub_mul, Dec.dbl]
    congr 2
    rw [Nat.cast_mul, one_cast, mul_assoc, zpow_neg, show ((1074 : ℤ)) = ((1074 : ℕ) : ℤ) from rfl, zpow_natCast,
      mul_inv_cancel₀ (by positivity), mul_one]
  rw [hd, hd]
  exact mul_le_mul_of_nonneg_right h' (by positivity)

theorem mag_cast (n : Nat) : ((Fp.mag 52 n : ℕ) : ℚ) = Dec.dbl n * 2 ^ 1074 := by
  unfold Dec.dbl
  rw [mul_assoc, zpow_neg, show ((1074 : ℤ)) = ((1074 : ℕ) : ℤ) from rfl, zpow_natCast,
    inv_mul_cancel₀ (by positivity), mul_one]

/-- The greatest float is a double. -/
theorem fltMax_double : ∃ n < Fp.inf64, Dec.dbl n = (Fp.fltMax : ℚ) := by
  have h : Fp.mag 52 (1150 * 2 ^ 52 + (2 ^ 52 - 2 ^ 29)) = (2 ^ 128 - 2 ^ 104) * Fp.one := by decide +kernel
  refine ⟨1150 * 2 ^ 52 + (2 ^ 52 - 2 ^ 29), by decide, ?_⟩
  rw [dbl_integral h]
  unfold Fp.fltMax
  norm_num

theorem nearest_fltMax {v : ℚ} {n : Nat} (hn : Dec.Nearest v n) (hv : v ≤ (Fp.fltMax : ℚ)) :
    ((Fp.mag 52 n : ℕ) : ℤ) ≤ Fp.fltMax * (Fp.one : ℤ) := by
  obtain ⟨m, hm, he⟩ := fltMax_double
  have h1 : Dec.dbl n ≤ Fp.fltMax := by
    by_contra hc
    have hc := not_le.mp hc
    have h2 := hn.2 m hm
    rw [he, abs_of_nonpos (by linarith), abs_of_nonpos (by linarith)] at h2
    linarith
  have h2 : ((Fp.mag 52 n : ℕ) : ℚ) ≤ ((Fp.fltMax * (Fp.one : ℤ) : ℤ) : ℚ) := by
    rw [mag_cast, Int.cast_mul, Int.cast_natCast, one_cast]
    exact mul_le_mul_of_nonneg_right h1 (by positivity)
  exact_mod_cast h2

theorem number_nonneg {t : Bytes} {neg : Bool} {v : ℚ} (h : Number t neg v) : 0 ≤ v := by
  obtain ⟨i, f, d, x, e, -, -, -, -, rfl⟩ := h
  positivity

theorem targetRange_int (T : IntTy) : Props.targetRange (.int T) = (T.lo, T.hi) := by cases T <;> decide +kernel

/-- A double given by its number, restored as an integer -/
theorem fp_int (T : IntTy) (k : ℤ) (h1 : T.lo ≤ k) (h2 : k ≤ T.hi) :
    Apply.applyFp (.int T) (.fin (k * (Fp.one : ℤ))) = .ok k := by
  have h0 : (0 : ℤ) < Fp.one := by unfold Fp.one; exact Int.natCast_pos.mpr (Nat.two_pow_pos _)
  have hl : T.lo * (Fp.one : ℤ) ≤ k * (Fp.one : ℤ) := Int.mul_le_mul_of_nonneg_right h1 (Int.le_of_lt h0)
  have hh : k * (Fp.one : ℤ) ≤ T.hi * (Fp.one : ℤ) := Int.mul_le_mul_of_nonneg_right h2 (Int.le_of_lt h0)
  rw [Props.fp_unwrap_partial]
  · simp only [Props.fpUnwrapSpec, targetRange_int]
    rw [if_pos ⟨hl, hh⟩, Int.mul_tdiv_cancel _ (by omega)]
  · rintro (h | ⟨v, h, -, h3, -⟩)
    · cases h
    · cases h
      simp only [targetRange_int] at h3
      omega

theorem abs_range {T : IntTy} {k : ℤ} (h1 : T.lo ≤ k) (h2 : k ≤ T.hi) : -2 ^ 63 ≤ k ∧ k.natAbs < 2 ^ 64 := by
  cases T <;> simp [IntTy.lo, IntTy.hi, IntTy.signed, IntTy.bits] at h1 h2 <;> omega

theorem signed_abs {neg : Bool} {v : ℚ} {k : ℤ} (h0 : 0 ≤ v) (h : (k : ℚ) = signed neg v) :
    v = ((k.natAbs : ℕ) : ℚ) := by
  have : |(k : ℚ)| = v := by
    rw [h]; unfold signed; split
    · rw [abs_neg, abs_of_nonneg h0]
    · rw [abs_of_nonneg h0]
  rw [← this, Nat.cast_natAbs, Int.cast_abs]

/-- Numbers kept as doubles -/
theorem numFor_double {neg : Bool} {v : ℚ} {w : Val} {n : Nat} (h0 : 0 ≤ v) (hn : Dec.Nearest v n)
    (hi : ∀ strtod T, Apply.paste strtod (.int T) w = Apply.applyFp (.int T) (Fp.num64 (Fp.join64 neg n)))
    (hd : ∀ strtod, Apply.pasteFp strtod Apply.toDouble w = .ok (Fp.join64 neg n))
    (hf : Props.numberOf w = some (Fp.num64 (Fp.join64 neg n))) (hv : ValIn w) (hnull : w ≠ .null)
    (hs : ∀ k : ℤ, -2 ^ 63 ≤ k → k.natAbs < 2 ^ 64 → (k : ℚ) = signed neg v → v < 2 ^ 53 ∨ v = 2 ^ 63) :
    NumFor neg v w := by
  have hnum := Props.num64_join neg n hn.1
  refine ⟨fun strtod T k hk h1 h2 => ?_, fun strtod => ⟨_, hd strtod, neg, n, hn, rfl, .inl rfl⟩, fun strtod hle => ?_, hnull⟩
  · obtain ⟨h3, h4⟩ := abs_range h1 h2
    have hva := signed_abs h0 hk
    obtain ⟨m, hm, he⟩ := exact_double (m := k.natAbs) (by
      rcases hs k h3 h4 hk with h | h
      · rw [hva] at h; left; exact_mod_cast h
      · rw [hva] at h; right; exact_mod_cast h)
    have := (nearest_exact hm (v := v) (by rw [dbl_integral he, hva])).2 n hn
    subst this
    rw [hi, hnum, he]
    have : (if neg then -((k.natAbs * Fp.one : ℕ) : ℤ) else (k.natAbs * Fp.one : ℕ)) = k * (Fp.one : ℤ) := by
      have h5 : k = if neg then -(k.natAbs : ℤ) else k.natAbs := by
        unfold signed at hk
        cases neg
        · simp only [Bool.false_eq_true, if_false] at hk ⊢
          have : (0 : ℚ) ≤ k := by rw [hk]; exact h0
          have : 0 ≤ k := by exact_mod_cast this
          omega
        · simp only [if_true] at hk ⊢
          have : (k : ℚ) ≤ 0 := by rw [hk]; linarith
          have : k ≤ 0 := by exact_mod_cast this
          omega
      rw [Nat.cast_mul]
      split
      · rw [if_pos ‹_›] at h5
        rw [← Int.neg_mul, ← h5]
      · rw [if_neg ‹_›] at h5
        rw [← h5]
    rw [this]
    exact fp_int T k h1 h2
  · rw [hnum] at hf
    have h1 := Props.unwrap_float_nearest strtod w hv _ hf
    have h2 : (((if neg then -(Fp.mag 52 n : ℤ) else Fp.mag 52 n : ℤ).natAbs : ℕ) : ℤ) ≤ Fp.fltMax * (Fp.one : ℤ) := by
      have := nearest_fltMax hn hle
      split
      · rw [Int.natAbs_neg, Int.natAbs_natCast]; exact this
      · rw [Int.natAbs_natCast]; exact this
    rw [if_pos h2] at h1
    obtain ⟨f, h3, h4⟩ := h1
    exact ⟨f, h3, hle, _, h4, .inr ⟨n, hn, rfl⟩⟩

/-- Numbers of JSON texts, as the reader keeps them -/
theorem number_exactly (strtod : Bytes → Option UInt64) (hr : Rounds strtod) {t : Bytes} {neg : Bool} {v : ℚ}
    (h : Props.ReadableExactly t neg v) :
    Number t neg v ∧ ∃ w, IntStr.strToType strtod (t.contains 46) t = some w ∧ NumFor neg v w := by
  obtain ⟨h1, h2⟩ := h
  have h0 := number_nonneg h1.1
  obtain ⟨w, hw, hnr, hint⟩ := number_read strtod hr h1
  have hin := IntStr.strToType_in strtod _ _ _ hw
  refine ⟨h1.1, w, hw, ?_⟩
  have hs : (∀ ty k, w ≠ .int ty k) →
      ∀ k : ℤ, -2 ^ 63 ≤ k → k.natAbs < 2 ^ 64 → (k : ℚ) = signed neg v → v < 2 ^ 53 ∨ v = 2 ^ 63 := by
    intro hne k hk1 hk2 hk
    have hva := signed_abs h0 hk
    rcases h2 with h | h | h
    · exact .inl h
    · rw [hva] at h
      have : 2 ^ 64 ≤ k.natAbs := by exact_mod_cast h
      omega
    · right
      by_contra hc
      obtain ⟨ty, k', he⟩ := hint h fun hneg => by
        subst hneg
        have h3 : k ≤ 0 := by
          have : (k : ℚ) ≤ 0 := by rw [hk]; simp only [signed, if_true]; linarith
          exact_mod_cast this
        have h4 : k.natAbs ≠ 2 ^ 63 := fun h => hc (by rw [hva, h]; norm_num)
        have h5 : k.natAbs < 2 ^ 63 := by omega
        rw [hva]
        exact_mod_cast h5
      exact hne _ _ he
  cases w with
  | int ty i =>
    have hi : (i : ℚ) = signed neg v := hnr
    have hva := signed_abs h0 hi
    obtain ⟨ha, hb⟩ := abs_range hin.1 hin.2
    refine ⟨fun strtod T k hk h1 h2 => ?_, fun strtod => ⟨_, rfl, decide (i < 0), _, ?_, rfl, ?_⟩, fun strtod hle => ?_, by simp⟩
    · have : i = k := by
        have : (i : ℚ) = k := by rw [hi, hk]
        exact_mod_cast this
      subst this
      rw [Props.int_unwrap_exact, targetRange_int, if_pos ⟨h1, h2⟩] <;> rw [targetRange_int]
      · exact hin.1
      · exact hin.2
    · rw [hva]; exact nearest_int i (by omega)
    · unfold signed at hi
      cases neg
      · left
        simp only [Bool.false_eq_true, if_false] at hi
        have : (0 : ℚ) ≤ i := by rw [hi]; exact h0
        have : 0 ≤ i := by exact_mod_cast this
        exact decide_eq_false (by omega)
      · simp only [if_true] at hi
        by_cases hz : i < 0
        · exact .inl (decide_eq_true hz)
        · right
          have : (0 : ℚ) ≤ i := by exact_mod_cast (show 0 ≤ i by omega)
          linarith
    · have h1 := Props.unwrap_float_nearest strtod (.int ty i) hin _ rfl
      have h2 : (((i * (Fp.one : ℤ)).natAbs : ℕ) : ℤ) ≤ Fp.fltMax * (Fp.one : ℤ) := by
        rw [Int.natAbs_mul, Int.natAbs_natCast, Int.natCast_mul]
        refine Int.mul_le_mul_of_nonneg_right ?_ (Int.natCast_nonneg _)
        unfold Fp.fltMax
        omega
      rw [if_pos h2] at h1
      obtain ⟨f, h3, h4⟩ := h1
      refine ⟨f, h3, hle, _, h4, .inl ?_⟩
      rw [Int.cast_mul, Int.cast_natCast, one_cast, hi]
  | fp32 f =>
    obtain ⟨n, hn, he⟩ := hnr
    have hnn : Fp.num32 f ≠ .nan := fun hc => by
      have := Fp.num64_widen_nan f hc
      rw [he, Props.num64_join neg n hn.1] at this
      cases this
    have hx := Props.widen_exact f hnn
    rw [he] at hx
    refine numFor_double h0 hn (fun _ T => ?_) (fun _ => ?_) ?_ hin (by simp) (hs (by simp))
    · show Apply.applyFp _ (Fp.num32 f) = _
      rw [hx]
    · show Res.ok (Fp.widen f) = _
      rw [he]
    · show some (Fp.num32 f) = _
      rw [hx]
  | fp64 d =>
    obtain ⟨n, hn, rfl⟩ := hnr
    exact numFor_double h0 hn (fun _ T => rfl) (fun _ => rfl) rfl hin (by simp) (hs (by simp))
  | _ => exact hnr.elim

/-! ### Values -/

/-- Objects stored as scopes are described by arrays and objects, others by other values. -/
theorem objFor_kind : ∀ (ty : Ty) (old o : Obj) (j : Json), ObjFor ty old o j → j.isScope = ty.isScope
  | .bool, _, _, _, h => by obtain ⟨_, -, rfl⟩ := h; rfl
  | .int _, _, _, _, h => by obtain ⟨_, _, _, -, rfl, -⟩ := h; rfl
  | .float, _, _, _, h => by obtain ⟨_, _, _, -, rfl, -⟩ := h; rfl
  | .double, _, _, _, h => by obtain ⟨_, _, _, -, rfl, -⟩ := h; rfl
  | .str, _, _, _, h => by obtain ⟨_, -, rfl⟩ := h; rfl
  | .bytes, _, _, _, h => by obtain ⟨_, -, rfl⟩ := h; rfl
  | .vec _, _, _, _, h => by obtain ⟨_, _, -, rfl, -⟩ := h; rfl
  | .arr _ _, _, _, _, h => by obtain ⟨_, _, _, -, -, rfl, -⟩ := h; rfl
  | .named _, _, _, _, h => by obtain ⟨_, _, -, rfl, -⟩ := h; rfl
  | .record .object _ _, _, _, _, h => by obtain ⟨_, _, _, -, -, rfl, -⟩ := h; rfl
  | .record .array _ _, _, _, _, h => by obtain ⟨_, _, _, -, -, rfl, -⟩ := h; rfl
  | .ptr _ e, _, _, _, h => by
    rcases h with ⟨-, hs, -, rfl⟩ | ⟨x, -, -, h⟩
    · exact hs.symm
    · exact objFor_kind e _ _ _ h
  | .sorted _ c, _, _, _, h => by
    obtain ⟨_, _, h, -⟩ := h
    exact objFor_kind c _ _ _ h

theorem val_for (env : Env) : ∀ (ty : Ty) (old o' : Obj) (j : Json) (w : Val), ty.isScope = false → ty.Ok →
    ObjFor ty old o' j → ScalarAs NumFor j w → ∃ o, pasteVal env ty old w = .ok o ∧ ObjFor ty old o j
  | .bool, old, o', j, w, _, _, h, hw => by
    obtain ⟨b, rfl, rfl⟩ := h
    cases hw
    refine ⟨.bool b, ?_, b, rfl, rfl⟩
    simp only [pasteVal, Props.bool_unwrap_exact, Res.ok_bind]
    cases b <;> rfl
  | .int t, old, o', j, w, _, _, h, hw => by
    obtain ⟨k, neg, v, rfl, rfl, hk, h1, h2⟩ := h
    refine ⟨.int k, ?_, k, neg, v, rfl, rfl, hk, h1, h2⟩
    simp only [pasteVal, (show NumFor neg v w from hw).int env.strtod t k hk h1 h2, Res.ok_bind]
  | .float, old, o', j, w, _, _, h, hw => by
    obtain ⟨f', neg, v, rfl, rfl, hf⟩ := h
    obtain ⟨f, h1, h2⟩ := (show NumFor neg v w from hw).flt env.strtod hf.1
    refine ⟨.float f, ?_, f, neg, v, rfl, rfl, h2⟩
    simp only [pasteVal, h1, Res.ok_bind]
  | .double, old, o', j, w, _, _, h, hw => by
    obtain ⟨f', neg, v, rfl, rfl, hf⟩ := h
    obtain ⟨f, h1, h2⟩ := (show NumFor neg v w from hw).dbl env.strtod
    refine ⟨.double f, ?_, f, neg, v, rfl, rfl, h2⟩
    simp only [pasteVal, h1, Res.ok_bind]
  | .str, old, o', j, w, _, _, h, hw => by
    obtain ⟨s, rfl, rfl⟩ := h
    cases hw
    exact ⟨.str s, rfl, s, rfl, rfl⟩
  | .bytes, old, o', j, w, _, _, h, hw => by
    obtain ⟨s, rfl, rfl⟩ := h
    cases hw
    refine ⟨.str s, ?_, s, rfl, rfl⟩
    simp only [pasteVal, ← Props.base64_encode_spec, Props.base64_restore_binary, Res.ok_bind]
  | .ptr k e, old, o', j, w, hs, hok, h, hw => by
    rcases h with ⟨rfl, hs, rfl, rfl⟩ | ⟨x, rfl, hk, h⟩
    · cases hw
      exact ⟨.null, rfl, .inl ⟨rfl, hs, rfl, rfl⟩⟩
    · obtain ⟨o, h1, h2⟩ := val_for env e _ _ j w hs hok h hw
      refine ⟨.ref o, ?_, .inr ⟨o, rfl, hk, h2⟩⟩
      have : ¬ (k = .raw ∧ w = .null) := by
        rintro ⟨rfl, rfl⟩
        cases j with
        | null => exact hk rfl rfl
        | num neg v => exact (show NumFor neg v .null from hw).null rfl
        | _ => cases hw
      simp only [pasteVal, if_neg this, h1, Res.ok_bind]
  | .sorted b c, old, o', j, w, hs, hok, h, hw => by
    rw [Ty.isScope, (elems_dflt hok.2).2] at hs
    cases hs

/-! ### Lists -/

variable {P : Bool → ℚ → Val → Prop}

theorem scalar_kind {j : Json} {w : Val} (h : ScalarAs P j w) : j.isScope = false := by
  cases j <;> first | rfl | exact h.elim

theorem item_kind {n : Bytes} {j : Json} {i : Item} (h : ItemAs P n j i) : itemScope i = j.isScope := by
  cases h with
  | val _ _ _ h => exact (scalar_kind h).symm
  | arr => rfl
  | obj => rfl

theorem item_name {n : Bytes} {j : Json} {i : Item} (h : ItemAs P n j i) : itemName i = n := by cases h <;> rfl

theorem items_names : ∀ {ms : List (Bytes × Json)} {is : List Item}, ItemsAs P ms is →
    is.map itemName = ms.map (·.1)
  | _, _, .nil => rfl
  | _, _, .cons _ _ _ _ _ h hs => by rw [List.map_cons, List.map_cons, item_name h, items_names hs]

/-- A list of values -/
theorem values_map {R R' : Obj → Bytes × Json → Prop} {F : Bytes × Val → Res Obj} :
    ∀ {xs : List Obj} {ms : List (Bytes × Json)} {is : List Item}, Pairwise2 R xs ms → ItemsAs P ms is →
    (∀ x m, R x m → m.2.isScope = false) →
    (∀ x m w, R x m → ScalarAs P m.2 w → ∃ y, F (m.1, w) = .ok y ∧ R' y m) →
    ∃ ys, mapRes F (valuesOf is) = .ok ys ∧ Pairwise2 R' ys ms
  | _, _, _, .nil, .nil, _, _ => ⟨[], rfl, .nil⟩
  | _, (n, j) :: ms, _, .cons x _ xs _ hr hrs, .cons _ _ i _ is hi his, hk, hf => by
    obtain ⟨ys, h1, h2⟩ := values_map hrs his hk hf
    cases hi with
    | val _ _ w hw =>
      obtain ⟨y, h3, h4⟩ := hf _ _ w hr hw
      exact ⟨y :: ys, by simp only [valuesOf, mapRes, h3, h1, Res.ok_bind], .cons _ _ _ _ h4 h2⟩
    | arr => exact absurd (hk _ _ hr) (by simp [Json.isScope])
    | obj => exact absurd (hk _ _ hr) (by simp [Json.isScope])

/-- A list of scopes -/
theorem nodes_map {R R' : Obj → Bytes × Json → Prop} {F : Bytes × Node → Res Obj} :
    ∀ {xs : List Obj} {ms : List (Bytes × Json)} {is : List Item}, Pairwise2 R xs ms → ItemsAs P ms is →
    (∀ x m, R x m → m.2.isScope = true) →
    (∀ x m t kids, R x m → ItemAs P m.1 m.2 (.scope m.1 t kids) → ∃ y, F (m.1, nodeOf t kids) = .ok y ∧ R' y m) →
    ∃ ys, mapRes F (nodesOf is) = .ok ys ∧ Pairwise2 R' ys ms
  | _, _, _, .nil, .nil, _, _ => ⟨[], rfl, .nil⟩
  | _, (n, j) :: ms, _, .cons x _ xs _ hr hrs, .cons _ _ i _ is hi his, hk, hf => by
    obtain ⟨ys, h1, h2⟩ := nodes_map hrs his hk hf
    cases hi with
    | val _ _ w hw => exact absurd ((scalar_kind hw).symm.trans (hk _ _ hr)) (by simp)
    | arr _ js kids hk' =>
      obtain ⟨y, h3, h4⟩ := hf _ _ .array kids hr (.arr _ _ _ hk')
      exact ⟨y :: ys, by
        show mapRes F ((n, nodeOf .array kids) :: nodesOf is) = _
        simp only [mapRes, h3, h1, Res.ok_bind], .cons _ _ _ _ h4 h2⟩
    | obj _ js kids hk' =>
      obtain ⟨y, h3, h4⟩ := hf _ _ .object kids hr (.obj _ _ _ hk')
      exact ⟨y :: ys, by
        show mapRes F ((n, nodeOf .object kids) :: nodesOf is) = _
        simp only [mapRes, h3, h1, Res.ok_bind], .cons _ _ _ _ h4 h2⟩

/-- An array of values -/
theorem values_zip {R R' : Obj × Obj → Bytes × Json → Prop} {F : Obj → Bytes × Val → Res Obj} :
    ∀ {ms : List (Bytes × Json)} {os xs : List Obj} {is : List Item}, os.length = ms.length →
    xs.length = ms.length → Pairwise2 R (os.zip xs) ms → ItemsAs P ms is → (∀ x m, R x m → m.2.isScope = false) →
    (∀ o x m w, R (o, x) m → ScalarAs P m.2 w → ∃ y, F o (m.1, w) = .ok y ∧ R' (o, y) m) →
    (valuesOf is).length = ms.length ∧
      ∃ ys, zipRes F os (valuesOf is) = .ok ys ∧ ys.length = ms.length ∧ Pairwise2 R' (os.zip ys) ms
  | [], [], [], _, _, _, _, .nil, _, _ => ⟨rfl, [], rfl, rfl, .nil⟩
  | (n, j) :: ms, o :: os, x :: xs, _, ho, hx, .cons _ _ _ _ hr hrs, .cons _ _ i _ is hi his, hk, hf => by
    obtain ⟨hl, ys, h1, hy, h2⟩ := values_zip (by simpa using ho) (by simpa using hx) hrs his hk hf
    cases hi with
    | val _ _ w hw =>
      obtain ⟨y, h3, h4⟩ := hf _ _ _ w hr hw
      exact ⟨by simp [valuesOf, hl], y :: ys, by simp only [valuesOf, zipRes, h3, h1, Res.ok_bind], by simp [hy],
        .cons _ _ _ _ h4 h2⟩
    | arr => exact absurd (hk _ _ hr) (by simp [Json.isScope])
    | obj => exact absurd (hk _ _ hr) (by simp [Json.isScope])

/-- An array of scopes -/
theorem nodes_zip {R R' : Obj × Obj → Bytes × Json → Prop} {F : Obj → Bytes × Node → Res Obj} :
    ∀ {ms : List (Bytes × Json)} {os xs : List Obj} {is : List Item}, os.length = ms.length →
    xs.length = ms.length → Pairwise2 R (os.zip xs) ms → ItemsAs P ms is → (∀ x m, R x m → m.2.isScope = true) →
    (∀ o x m t kids, R (o, x) m → ItemAs P m.1 m.2 (.scope m.1 t kids) →
      ∃ y, F o (m.1, nodeOf t kids) = .ok y ∧ R' (o, y) m) →
    (nodesOf is).length = ms.length ∧
      ∃ ys, zipRes F os (nodesOf is) = .ok ys ∧ ys.length = ms.length ∧ Pairwise2 R' (os.zip ys) ms
  | [], [], [], _, _, _, _, .nil, _, _ => ⟨rfl, [], rfl, rfl, .nil⟩
  | (n, j) :: ms, o :: os, x :: xs, _, ho, hx, .cons _ _ _ _ hr hrs, .cons _ _ i _ is hi his, hk, hf => by
    obtain ⟨hl, ys, h1, hy, h2⟩ := nodes_zip (by simpa using ho) (by simpa using hx) hrs his hk hf
    cases hi with
    | val _ _ w hw => exact absurd ((scalar_kind hw).symm.trans (hk _ _ hr)) (by simp)
    | arr _ js kids hk' =>
      obtain ⟨y, h3, h4⟩ := hf _ _ _ .array kids hr (.arr _ _ _ hk')
      refine ⟨by simp only [nodesOf, scopesOf, List.map_cons, List.length_cons] at hl ⊢; rw [hl], y :: ys, ?_, by simp [hy],
        .cons _ _ _ _ h4 h2⟩
      show zipRes F (o :: os) ((n, nodeOf .array kids) :: nodesOf is) = _
      simp only [zipRes, h3, h1, Res.ok_bind]
    | obj _ js kids hk' =>
      obtain ⟨y, h3, h4⟩ := hf _ _ _ .object kids hr (.obj _ _ _ hk')
      refine ⟨by simp only [nodesOf, scopesOf, List.map_cons, List.length_cons] at hl ⊢; rw [hl], y :: ys, ?_, by simp [hy],
        .cons _ _ _ _ h4 h2⟩
      show zipRes F (o :: os) ((n, nodeOf .object kids) :: nodesOf is) = _
      simp only [zipRes, h3, h1, Res.ok_bind]

theorem Pairwise2.of_map {α β γ : Type} {R : α → β → Prop} {f : γ → β} : ∀ {xs : List α} {ys : List γ},
    Pairwise2 (fun x y => R x (f y)) xs ys → Pairwise2 R xs (ys.map f)
  | _, _, .nil => .nil
  | _, _, .cons _ _ _ _ h hs => .cons _ _ _ _ h hs.of_map

theorem Pairwise2.to_map {α β γ : Type} {R : α → β → Prop} {f : γ → β} : ∀ {xs : List α} {ys : List γ},
    Pairwise2 R xs (ys.map f) → Pairwise2 (fun x y => R x (f y)) xs ys
  | [], [], _ => .nil
  | _ :: _, _ :: _, .cons _ _ _ _ h hs => .cons _ _ _ _ h hs.to_map

/-! ### Members -/

theorem items_none {nm : Bytes} : ∀ {ms : List (Bytes × Json)} {is : List Item}, ItemsAs P ms is →
    nm ∉ ms.map (·.1) → findName nm (valuesOf is) = none ∧ findName nm (nodesOf is) = none
  | _, _, .nil, _ => ⟨rfl, rfl⟩
  | _, _, .cons n j i ms is hi his, h => by
    simp only [List.map_cons, List.mem_cons, not_or] at h
    have hne : (n == nm) = false := by simpa using Ne.symm h.1
    have ih := items_none his h.2
    cases hi with
    | val => exact ⟨by simp only [valuesOf, findName, hne, Bool.false_eq_true, if_false]; exact ih.1, ih.2⟩
    | arr => exact ⟨ih.1, by
        show findName nm ((n, _) :: nodesOf is) = none
        simp only [findName, hne, Bool.false_eq_true, if_false]; exact ih.2⟩
    | obj => exact ⟨ih.1, by
        show findName nm ((n, _) :: nodesOf is) = none
        simp only [findName, hne, Bool.false_eq_true, if_false]; exact ih.2⟩

theorem items_value {nm : Bytes} {x : Json} (hx : x.isScope = false) :
    ∀ {ms : List (Bytes × Json)} {is : List Item}, ItemsAs P ms is →
    (ms.map (·.1)).Nodup → (nm, x) ∈ ms → ∃ w, findName nm (valuesOf is) = some w ∧ ScalarAs P x w
  | _, _, .nil, _, h => by cases h
  | _, _, .cons n j i ms is hi his, hn, h => by
    simp only [List.map_cons, List.nodup_cons] at hn
    rcases List.mem_cons.mp h with h | h
    · cases h
      cases hi with
      | val _ _ w hw => exact ⟨w, by simp only [valuesOf, findName, beq_self_eq_true, if_true], hw⟩
      | arr => cases hx
      | obj => cases hx
    · obtain ⟨w, h1, h2⟩ := items_value hx his hn.2 h
      have hne : (n == nm) = false := by
        simp only [beq_eq_false_iff_ne]
        rintro rfl
        exact hn.1 (List.mem_map.mpr ⟨_, h, rfl⟩)
      refine ⟨w, ?_, h2⟩
      cases hi with
      | val => simp only [valuesOf, findName, hne, Bool.false_eq_true, if_false]; exact h1
      | arr => exact h1
      | obj => exact h1

theorem items_node {nm : Bytes} {x : Json} (hx : x.isScope = true) :
    ∀ {ms : List (Bytes × Json)} {is : List Item}, ItemsAs P ms is →
    (ms.map (·.1)).Nodup → (nm, x) ∈ ms →
    ∃ t kids, findName nm (nodesOf is) = some (nodeOf t kids) ∧ ItemAs P nm x (.scope nm t kids)
  | _, _, .nil, _, h => by cases h
  | _, _, .cons n j i ms is hi his, hn, h => by
    simp only [List.map_cons, List.nodup_cons] at hn
    rcases List.mem_cons.mp h with h | h
    · cases h
      cases hi with
      | val _ _ w hw => rw [scalar_kind hw] at hx; cases hx
      | arr _ _ kids hk =>
        exact ⟨.array, kids, by
          show findName nm ((nm, _) :: nodesOf is) = _
          simp only [findName, beq_self_eq_true, if_true], .arr _ _ _ hk⟩
      | obj _ _ kids hk =>
        exact ⟨.object, kids, by
          show findName nm ((nm, _) :: nodesOf is) = _
          simp only [findName, beq_self_eq_true, if_true], .obj _ _ _ hk⟩
    · obtain ⟨t, kids, h1, h2⟩ := items_node hx his hn.2 h
      have hne : (n == nm) = false := by
        simp only [beq_eq_false_iff_ne]
        rintro rfl
        exact hn.1 (List.mem_map.mpr ⟨_, h, rfl⟩)
      refine ⟨t, kids, ?_, h2⟩
      cases hi with
      | val => exact h1
      | arr =>
        show findName nm ((n, _) :: nodesOf is) = _
        simp only [findName, hne, Bool.false_eq_true, if_false]; exact h1
      | obj =>
        show findName nm ((n, _) :: nodesOf is) = _
        simp only [findName, hne, Bool.false_eq_true, if_false]; exact h1

theorem items_scope : ∀ {ms : List (Bytes × Json)} {is : List Item}, ItemsAs P ms is → ∀ x ∈ scopesOf is,
    ∃ j, (x.1, j) ∈ ms ∧ ItemAs P x.1 j (.scope x.1 x.2.1 x.2.2)
  | _, _, .nil, _, h => by cases h
  | _, _, .cons n j i ms is hi his, x, h => by
    have ih := items_scope his
    cases hi with
    | val =>
      obtain ⟨j', h1, h2⟩ := ih x h
      exact ⟨j', List.mem_cons_of_mem _ h1, h2⟩
    | arr _ js kids hk =>
      rcases List.mem_cons.mp h with rfl | h
      · exact ⟨_, List.mem_cons_self, .arr _ _ _ hk⟩
      · obtain ⟨j', h1, h2⟩ := ih x h
        exact ⟨j', List.mem_cons_of_mem _ h1, h2⟩
    | obj _ js kids hk =>
      rcases List.mem_cons.mp h with rfl | h
      · exact ⟨_, List.mem_cons_self, .obj _ _ _ hk⟩
      · obtain ⟨j', h1, h2⟩ := ih x h
        exact ⟨j', List.mem_cons_of_mem _ h1, h2⟩

/-! ### Objects restored from nodes -/

mutual
theorem node_for (env : Env) : ∀ (ty : Ty) (old o' : Obj) (j : Json) (n : Bytes) (t : ScopeTy) (kids : List Item),
    ty.isScope = true → ty.Ok → ObjFor ty old o' j → ItemAs NumFor n j (.scope n t kids) →
    ∃ o, pasteNode env ty old (nodeOf t kids) = .ok o ∧ ObjFor ty old o j
  | .bool, _, _, _, _, _, _, h, _, _, _ => by cases h
  | .int _, _, _, _, _, _, _, h, _, _, _ => by cases h
  | .float, _, _, _, _, _, _, h, _, _, _ => by cases h
  | .double, _, _, _, _, _, _, h, _, _, _ => by cases h
  | .str, _, _, _, _, _, _, h, _, _, _ => by cases h
  | .bytes, _, _, _, _, _, _, h, _, _, _ => by cases h
  | .vec e, old, o', j, n, t, kids, _, hok, h, hi => by
    obtain ⟨xs, js, rfl, rfl, h⟩ := h
    cases hi with
    | arr _ _ _ hi =>
      have h := Pairwise2.of_map (R := fun x (m : Bytes × Json) => ObjFor e (dflt e) x m.2) (f := fun x => ([], x)) h
      rw [nodeOf, contentL_eq]
      simp only [pasteNode]
      cases hs : e.isScope with
      | true =>
        simp only [if_true]
        obtain ⟨ys, h1, h2⟩ := nodes_map (R' := fun x (m : Bytes × Json) => ObjFor e (dflt e) x m.2)
          (F := fun p => pasteNode env e (dflt e) p.2) h hi (fun x m hr => (objFor_kind e _ _ _ hr).trans hs)
          (fun x m t kids hr hi => node_for env e _ _ _ _ t kids hs hok hr hi)
        exact ⟨.many ys, by rw [h1]; rfl, ys, js, rfl, rfl, h2.to_map⟩
      | false =>
        simp only [Bool.false_eq_true, if_false]
        obtain ⟨ys, h1, h2⟩ := values_map (R' := fun x (m : Bytes × Json) => ObjFor e (dflt e) x m.2)
          (F := fun p => pasteVal env e (dflt e) p.2) h hi (fun x m hr => (objFor_kind e _ _ _ hr).trans hs)
          (fun x m w hr hw => val_for env e _ _ _ w hs hok hr hw)
        exact ⟨.many ys, by rw [h1]; rfl, ys, js, rfl, rfl, h2.to_map⟩
  | .named e, old, o', j, n, t, kids, _, hok, h, hi => by
    obtain ⟨xs, ms, rfl, rfl, h⟩ := h
    cases hi with
    | obj _ _ _ hi =>
      rw [nodeOf, contentL_eq]
      simp only [pasteNode]
      cases hs : e.isScope with
      | true =>
        simp only [if_true, ne_eq, not_true_eq_false, if_false]
        obtain ⟨ys, h1, h2⟩ := nodes_map (R' := fun x m => ∃ y, x = .many [.str m.1, y] ∧ ObjFor e (dflt e) y m.2)
          (F := fun p => do
            let y ← pasteNode env e (dflt e) p.2
            .ok (.many [.str p.1, y])) h hi
          (fun x m hr => by obtain ⟨y, -, hr⟩ := hr; exact (objFor_kind e _ _ _ hr).trans hs)
          (fun x m t kids hr hi => by
            obtain ⟨y, -, hr⟩ := hr
            obtain ⟨z, h1, h2⟩ := node_for env e _ _ _ _ t kids hs hok hr hi
            exact ⟨_, by simp only [h1, Res.ok_bind], z, rfl, h2⟩)
        exact ⟨.many ys, by rw [h1]; rfl, ys, ms, rfl, rfl, h2⟩
      | false =>
        simp only [ne_eq, not_true_eq_false, Bool.false_eq_true, if_false]
        obtain ⟨ys, h1, h2⟩ := values_map (R' := fun x m => ∃ y, x = .many [.str m.1, y] ∧ ObjFor e (dflt e) y m.2)
          (F := fun p => do
            let y ← pasteVal env e (dflt e) p.2
            .ok (.many [.str p.1, y])) h hi
          (fun x m hr => by obtain ⟨y, -, hr⟩ := hr; exact (objFor_kind e _ _ _ hr).trans hs)
          (fun x m w hr hw => by
            obtain ⟨y, -, hr⟩ := hr
            obtain ⟨z, h1, h2⟩ := val_for env e _ _ _ w hs hok hr hw
            exact ⟨_, by simp only [h1, Res.ok_bind], z, rfl, h2⟩)
        exact ⟨.many ys, by rw [h1]; rfl, ys, ms, rfl, rfl, h2⟩
  | .arr k e, old, o', j, n, t, kids, _, hok, h, hi => by
    obtain ⟨os, xs, js, rfl, rfl, rfl, hk, hx, ho, h⟩ := h
    cases hi with
    | arr _ _ _ hi =>
      have h := Pairwise2.of_map (R := fun (p : Obj × Obj) (m : Bytes × Json) => ObjFor e p.1 p.2 m.2)
        (f := fun x => ([], x)) h
      rw [nodeOf, contentL_eq]
      simp only [pasteNode]
      have hl : (js.map fun x => (([] : Bytes), x)).length = k := by rw [List.length_map, hk]
      cases hs : e.isScope with
      | true =>
        simp only [if_true]
        obtain ⟨h0, ys, h1, h2, h3⟩ := nodes_zip (R' := fun (p : Obj × Obj) (m : Bytes × Json) => ObjFor e p.1 p.2 m.2)
          (F := fun o p => pasteNode env e o p.2) (ho.trans hl.symm) (hx.trans hl.symm) h hi
          (fun x m hr => (objFor_kind e _ _ _ hr).trans hs)
          (fun o x m t kids hr hi => node_for env e _ _ _ _ t kids hs hok hr hi)
        rw [if_neg (by rw [h0, hl]; simp)]
        exact ⟨.many ys, by rw [h1]; rfl, os, ys, js, rfl, rfl, rfl, hk, h2.trans hl, ho, h3.to_map⟩
      | false =>
        simp only [Bool.false_eq_true, if_false]
        obtain ⟨h0, ys, h1, h2, h3⟩ := values_zip (R' := fun (p : Obj × Obj) (m : Bytes × Json) => ObjFor e p.1 p.2 m.2)
          (F := fun o p => pasteVal env e o p.2) (ho.trans hl.symm) (hx.trans hl.symm) h hi
          (fun x m hr => (objFor_kind e _ _ _ hr).trans hs)
          (fun o x m w hr hw => val_for env e _ _ _ w hs hok hr hw)
        rw [if_neg (by rw [h0, hl]; simp)]
        exact ⟨.many ys, by rw [h1]; rfl, os, ys, js, rfl, rfl, rfl, hk, h2.trans hl, ho, h3.to_map⟩
  | .record .object st fs, old, o', j, n, t, kids, _, hok, h, hi => by
    obtain ⟨os, xs, ms, rfl, rfl, rfl, hnd, h⟩ := h
    cases hi with
    | obj _ _ _ hi =>
      have h0 : [] ∉ fs.names := by
        rcases hok.2 with ⟨-, h, -⟩ | ⟨h, -⟩
        · exact h
        · cases h
      rw [nodeOf, contentL_eq]
      simp only [pasteNode, ne_eq, not_true_eq_false, and_false, if_false]
      obtain ⟨ys, h1, h2⟩ := members_for env fs os xs ms kids 0 0 hok.1 h0 h hnd hi
      exact ⟨.many ys, by rw [h1]; rfl, os, ys, ms, rfl, rfl, rfl, hnd, h2⟩
  | .record .array st fs, old, o', j, n, t, kids, _, hok, h, hi => by
    obtain ⟨os, xs, js, rfl, rfl, rfl, h⟩ := h
    cases hi with
    | arr _ _ _ hi =>
      obtain ⟨hst, hp⟩ : st = false ∧ fs.Positional := by
        rcases hok.2 with ⟨h, -⟩ | ⟨-, h1, h2⟩
        · cases h
        · exact ⟨h1, h2⟩
      rw [nodeOf, contentL_eq]
      simp only [pasteNode, hst, Bool.false_eq_true, false_and, if_false]
      obtain ⟨ys, h1, h2⟩ := tuple_for env fs os xs js [] kids hok.1 hp h hi
      exact ⟨.many ys, by
        simp only [nodesOf, valuesOf, scopesOf, List.map_nil, List.length_nil, List.nil_append] at h1
        simp only [nodesOf]
        rw [h1]; rfl, os, ys, js, rfl, rfl, rfl, h2⟩
  | .ptr k e, old, o', j, n, t, kids, hs, hok, h, hi => by
    rcases h with ⟨-, -, -, rfl⟩ | ⟨x, rfl, hk, h⟩
    · cases hi
    · obtain ⟨o, h1, h2⟩ := node_for env e _ _ _ n t kids hs hok h hi
      exact ⟨.ref o, by simp only [pasteNode, h1, Res.ok_bind], .inr ⟨o, rfl, hk, h2⟩⟩
  | .sorted b c, old, o', j, n, t, kids, hs, hok, h, hi => by
    obtain ⟨xs, ys, h, -⟩ := h
    obtain ⟨o, h1, h2⟩ := node_for env c _ _ _ n t kids hs hok.1 h hi
    have hd := (elems_dflt hok.2).1
    have hp := Proper.pasteNode_proper env c (dflt c) (nodeOf t kids) hok.1 (Proper.dflt_proper c hok.1) o (by rw [hd, h1])
    have hw := Proper.proper_wt _ _ hp
    obtain ⟨Q, -, hQ⟩ := keyed_elems hok.2
    obtain ⟨zs, rfl, -⟩ := (hQ _).mp hw
    obtain ⟨ys, hy⟩ := (Props.collected hok.2 hw (collect b (.many zs))).mp rfl
    exact ⟨_, by simp only [pasteNode, hd, h1, Res.ok_bind], zs, ys, h2, hy⟩
theorem members_for (env : Env) : ∀ (fs : Fields) (os xs : List Obj) (ms : List (Bytes × Json)) (kids : List Item)
    (ni vi : Nat), fs.Ok → [] ∉ fs.names → MembersFor fs os xs ms → (ms.map (·.1)).Nodup → ItemsAs NumFor ms kids →
    ∃ ys, pasteFields env fs os ni vi (valuesOf kids) (nodesOf kids) = .ok ys ∧ MembersFor fs os ys ms
  | .nil, os, xs, ms, kids, ni, vi, _, _, h, _, _ => by
    obtain ⟨rfl, rfl⟩ := h
    exact ⟨[], rfl, rfl, rfl⟩
  | .cons nm opt ty rest, os, xs, ms, kids, ni, vi, hok, hn, h, hnd, hi => by
    obtain ⟨o, os', x, xs', rfl, rfl, h, hr⟩ := h
    simp only [Fields.names, List.mem_cons, not_or] at hn
    have hsel : ∀ i, Sel.of nm i = .name nm := fun i => by simp only [Sel.of, if_neg (Ne.symm hn.1)]
    have ih := fun ni vi => members_for env rest os' xs' ms kids ni vi hok.2 hn.2 hr hnd hi
    simp only [pasteFields]
    rcases h with ⟨j, hm, h⟩ | ⟨rfl, hm, rfl⟩
    · have hk := objFor_kind ty _ _ _ h
      cases hs : ty.isScope with
      | true =>
        obtain ⟨t, k, h1, h2⟩ := items_node (hk.trans hs) hi hnd hm
        obtain ⟨y, h3, h4⟩ := node_for env ty _ _ _ nm t k hs hok.1 h h2
        obtain ⟨ys, h5, h6⟩ := ih (ni + 1) vi
        exact ⟨y :: ys, by
          simp only [if_true, h1, hsel, lookup, Option.isNone_some, Bool.false_eq_true, and_false, if_false, Res.ok_bind,
            h3, h5], o, os', y, ys, rfl, rfl, .inl ⟨j, hm, h4⟩, h6⟩
      | false =>
        obtain ⟨w, h1, h2⟩ := items_value (hk.trans hs) hi hnd hm
        obtain ⟨y, h3, h4⟩ := val_for env ty _ _ _ w hs hok.1 h h2
        obtain ⟨ys, h5, h6⟩ := ih ni (vi + 1)
        exact ⟨y :: ys, by
          simp only [h1, hsel, lookup, Option.isNone_some, Bool.false_eq_true, and_false, if_false, Res.ok_bind,
            h3, h5], o, os', y, ys, rfl, rfl, .inl ⟨j, hm, h4⟩, h6⟩
    · obtain ⟨h1, h2⟩ := items_none hi hm
      obtain ⟨ys, h5, h6⟩ := ih ni vi
      refine ⟨x :: ys, ?_, x, os', x, ys, rfl, rfl, .inr ⟨rfl, hm, rfl⟩, h6⟩
      cases ty.isScope <;>
        simp only [h1, h2, Option.isNone_none, and_self, if_true, Bool.false_eq_true, if_false, h5, Res.ok_bind]
theorem tuple_for (env : Env) : ∀ (fs : Fields) (os xs : List Obj) (js : List Json) (pre kids : List Item), fs.Ok →
    fs.Positional → TupleFor fs os xs js → ItemsAs NumFor (js.map fun x => ([], x)) kids →
    ∃ ys, pasteFields env fs os (nodesOf pre).length (valuesOf pre).length (valuesOf (pre ++ kids))
      (nodesOf (pre ++ kids)) = .ok ys ∧ TupleFor fs os ys js
  | .nil, os, xs, js, pre, kids, _, _, h, _ => by
    obtain ⟨rfl, rfl, rfl⟩ := h
    exact ⟨[], rfl, rfl, rfl, rfl⟩
  | .cons nm opt ty rest, os, xs, js, pre, kids, hok, hp, h, hi => by
    obtain ⟨o, os', x, xs', j, js', rfl, rfl, rfl, h, hr⟩ := h
    obtain ⟨rfl, rfl, hp⟩ := hp
    have hk := objFor_kind ty _ _ _ h
    cases hi with
    | cons _ _ i _ is hi his =>
      obtain ⟨ys, h5, h6⟩ := tuple_for env rest os' xs' js' (pre ++ [i]) is hok.2 hp hr his
      rw [List.append_assoc, List.singleton_append, nodesOf_append, valuesOf_append, List.length_append,
        List.length_append] at h5
      simp only [pasteFields, Bool.false_eq_true, false_and, if_false]
      cases hs : ty.isScope with
      | true =>
        have hscope : ∀ t k, i = .scope [] t k →
            ∃ ys, (lookup (Sel.of [] (nodesOf pre).length) (nodesOf (pre ++ i :: is)) >>= fun n =>
              pasteNode env ty o n >>= fun y =>
                pasteFields env rest os' ((nodesOf pre).length + 1) (valuesOf pre).length (valuesOf (pre ++ i :: is))
                  (nodesOf (pre ++ i :: is)) >>= fun ys => .ok (y :: ys)) = .ok ys ∧
              TupleFor (.cons [] false ty rest) (o :: os') ys (j :: js') := by
          rintro t k rfl
          obtain ⟨y, h3, h4⟩ := node_for env ty _ _ _ [] t k hs hok.1 h hi
          have h1 : lookup (Sel.of [] (nodesOf pre).length) (nodesOf (pre ++ .scope [] t k :: is)) = .ok (nodeOf t k) := by
            rw [nodesOf_append]
            simp [Sel.of, lookup, nodesOf, scopesOf]
          refine ⟨y :: ys, ?_, o, os', y, ys, j, js', rfl, rfl, rfl, h4, h6⟩
          rw [h1, Res.ok_bind, h3, Res.ok_bind]
          have h7 : (nodesOf [Item.scope [] t k]).length = 1 := rfl
          have h8 : (valuesOf [Item.scope [] t k]).length = 0 := rfl
          rw [h7, h8] at h5
          rw [show (valuesOf pre).length = (valuesOf pre).length + 0 from rfl, h5, Res.ok_bind]
        simp only [if_true]
        cases hi with
        | val _ _ w hw => rw [← hk, scalar_kind hw] at hs; cases hs
        | arr _ _ k => exact hscope _ _ rfl
        | obj _ _ k => exact hscope _ _ rfl
      | false =>
        simp only [Bool.false_eq_true, if_false]
        cases hi with
        | arr => rw [← hk] at hs; cases hs
        | obj => rw [← hk] at hs; cases hs
        | val _ _ w hw =>
          obtain ⟨y, h3, h4⟩ := val_for env ty _ _ _ w hs hok.1 h hw
          have h1 : lookup (Sel.of [] (valuesOf pre).length) (valuesOf (pre ++ .val [] w :: is)) = .ok w := by
            rw [valuesOf_append]
            simp [Sel.of, lookup, valuesOf]
          refine ⟨y :: ys, ?_, o, os', y, ys, j, js', rfl, rfl, rfl, h4, h6⟩
          rw [h1, Res.ok_bind, h3, Res.ok_bind]
          have h7 : (nodesOf [Item.val [] w]).length = 0 := rfl
          have h8 : (valuesOf [Item.val [] w]).length = 1 := rfl
          rw [h7, h8] at h5
          rw [show (nodesOf pre).length = (nodesOf pre).length + 0 from rfl, h5, Res.ok_bind]
end

/-! ### Documents for restoring while reading -/

theorem Pairwise2.mem {α β : Type} {R : α → β → Prop} : ∀ {xs : List α} {ys : List β}, Pairwise2 R xs ys →
    ∀ y ∈ ys, ∃ x ∈ xs, R x y
  | _, _, .nil, _, h => by cases h
  | _, _, .cons x y xs ys h hs, z, hz => by
    rcases List.mem_cons.mp hz with rfl | hz
    · exact ⟨x, List.mem_cons_self, h⟩
    · obtain ⟨w, h1, h2⟩ := hs.mem z hz
      exact ⟨w, List.mem_cons_of_mem _ h1, h2⟩

theorem items_kind {b : Bool} : ∀ {ms : List (Bytes × Json)} {is : List Item}, ItemsAs P ms is →
    (∀ m ∈ ms, m.2.isScope = b) → (kindNames b is).length = ms.length ∧ (b = false → scopesOf is = [])
  | _, _, .nil, _ => ⟨by cases b <;> rfl, fun _ => rfl⟩
  | _, _, .cons n j i ms is hi his, h => by
    obtain ⟨h1, h2⟩ := items_kind his fun m hm => h m (List.mem_cons_of_mem _ hm)
    have hk := h _ List.mem_cons_self
    cases hi with
    | val _ _ w hw =>
      rw [scalar_kind hw] at hk
      subst hk
      exact ⟨by simpa [kindNames, valuesOf] using h1, h2⟩
    | arr =>
      have hk : b = true := hk.symm
      subst hk
      exact ⟨by simpa [kindNames, scopesOf] using h1, by simp⟩
    | obj =>
      have hk : b = true := hk.symm
      subst hk
      exact ⟨by simpa [kindNames, scopesOf] using h1, by simp⟩

theorem knownIn_name : ∀ {fs : Fields} {n : Bytes} {j : Json}, KnownIn fs n j → n ∈ fs.scopeNames
  | .nil, _, _, h => h.elim
  | .cons nm opt ty rest, n, j, h => by
    rcases h with ⟨rfl, hs, -⟩ | h
    · simp [Fields.scopeNames, hs]
    · have := knownIn_name h
      unfold Fields.scopeNames
      split
      · exact List.mem_cons_of_mem _ this
      · exact this

theorem scopeNames_names : ∀ {fs : Fields} {n : Bytes}, n ∈ fs.scopeNames → n ∈ fs.names
  | .nil, _, h => by simp [Fields.scopeNames] at h
  | .cons nm opt ty rest, n, h => by
    unfold Fields.scopeNames at h
    split at h
    · rcases List.mem_cons.mp h with rfl | h
      · exact List.mem_cons_self
      · exact List.mem_cons_of_mem _ (scopeNames_names h)
    · exact List.mem_cons_of_mem _ (scopeNames_names h)

theorem tuple_scopes : ∀ {fs : Fields} {os xs : List Obj} {js : List Json} {kids : List Item}, TupleFor fs os xs js →
    ItemsAs P (js.map fun x => ([], x)) kids → (scopesOf kids).length = fs.scopeNames.length
  | .nil, os, xs, js, kids, h, hi => by
    obtain ⟨rfl, rfl, rfl⟩ := h
    cases hi
    rfl
  | .cons nm opt ty rest, os, xs, js, kids, h, hi => by
    obtain ⟨o, os', x, xs', j, js', rfl, rfl, rfl, h, hr⟩ := h
    cases hi with
    | cons _ _ i _ is hi his =>
      have ih := tuple_scopes hr his
      have hk := objFor_kind ty _ _ _ h
      unfold Fields.scopeNames
      rw [← hk]
      cases hi with
      | val _ _ w hw => rw [scalar_kind hw]; exact ih
      | arr => simp [scopesOf, ih, Json.isScope]
      | obj => simp [scopesOf, ih, Json.isScope]

theorem find_scope {nm : Bytes} {items : List Item} {x : Bytes × ScopeTy × List Item} (h0 : nm ≠ []) {ni : Nat}
    (h : pick nm ni items = some x) : x ∈ scopesOf items ∧ x.1 = nm := by
  unfold pick at h
  rw [if_neg h0] at h
  exact ⟨List.mem_of_find?_eq_some h, by simpa using List.find?_some h⟩

theorem mem_unique {nm : Bytes} {j j' : Json} : ∀ {ms : List (Bytes × Json)}, (ms.map (·.1)).Nodup → (nm, j) ∈ ms →
    (nm, j') ∈ ms → j = j'
  | m :: ms, hnd, h1, h2 => by
    simp only [List.map_cons, List.nodup_cons] at hnd
    rcases List.mem_cons.mp h1 with h3 | h3 <;> rcases List.mem_cons.mp h2 with h4 | h4
    · rw [← h3] at h4; cases h4; rfl
    · rw [← h3] at hnd; exact absurd (List.mem_map.mpr ⟨_, h4, rfl⟩) hnd.1
    · rw [← h4] at hnd; exact absurd (List.mem_map.mpr ⟨_, h3, rfl⟩) hnd.1
    · exact mem_unique hnd.2 h3 h4

mutual
theorem fits_for : ∀ (ty : Ty) (old o : Obj) (j : Json) (n : Bytes) (t : ScopeTy) (kids : List Item), ty.Ok →
    ObjFor ty old o j → Known ty j → ItemAs P n j (.scope n t kids) → Fits ty kids ∧ Covered ty kids
  | .bool, _, _, _, _, _, _, _, _, _, _ => ⟨trivial, trivial⟩
  | .int _, _, _, _, _, _, _, _, _, _, _ => ⟨trivial, trivial⟩
  | .float, _, _, _, _, _, _, _, _, _, _ => ⟨trivial, trivial⟩
  | .double, _, _, _, _, _, _, _, _, _, _ => ⟨trivial, trivial⟩
  | .str, _, _, _, _, _, _, _, _, _, _ => ⟨trivial, trivial⟩
  | .bytes, _, _, _, _, _, _, _, _, _, _ => ⟨trivial, trivial⟩
  | .vec e, old, o, j, n, t, kids, hok, h, hk, hi => by
    obtain ⟨xs, js, rfl, rfl, h⟩ := h
    cases hi with
    | arr _ _ _ hi =>
      refine ⟨fun _ x hx => ?_, trivial⟩
      obtain ⟨j, h1, h2⟩ := items_scope hi x hx
      obtain ⟨y, h3, h4⟩ := List.mem_map.mp h1
      obtain rfl : y = j := congrArg Prod.snd h4
      obtain ⟨z, -, hz⟩ := h.mem y h3
      exact fits_for e _ z y _ _ _ hok hz (hk js rfl y h3) h2
  | .named e, old, o, j, n, t, kids, hok, h, hk, hi => by
    obtain ⟨xs, ms, rfl, rfl, h⟩ := h
    cases hi with
    | obj _ _ _ hi =>
      refine ⟨fun _ x hx => ?_, trivial⟩
      obtain ⟨j, h1, h2⟩ := items_scope hi x hx
      obtain ⟨z, -, y, -, hz⟩ := h.mem _ h1
      exact fits_for e _ y j _ _ _ hok hz (hk ms rfl _ h1) h2
  | .arr k e, old, o, j, n, t, kids, hok, h, hk, hi => by
    obtain ⟨os, xs, js, rfl, rfl, rfl, hl, hx, ho, h⟩ := h
    cases hi with
    | arr _ _ _ hi =>
      obtain ⟨hc, hn⟩ := items_kind hi (b := e.isScope) fun m hm => by
        obtain ⟨y, h3, rfl⟩ := List.mem_map.mp hm
        obtain ⟨z, -, hz⟩ := h.mem y h3
        exact objFor_kind e _ _ _ hz
      rw [List.length_map, hl] at hc
      refine ⟨⟨hc, fun _ x hx => ?_⟩, ?_⟩
      · obtain ⟨j, h1, h2⟩ := items_scope hi x hx
        obtain ⟨y, h3, h4⟩ := List.mem_map.mp h1
        obtain rfl : y = j := congrArg Prod.snd h4
        obtain ⟨z, -, hz⟩ := h.mem y h3
        exact fits_for e _ _ y _ _ _ hok hz (hk js rfl y h3) h2
      · rintro pre n t kids post rfl
        cases hs : e.isScope with
        | true =>
          rw [hs, kindNames_append, List.length_append] at hc
          have : (kindNames true (Item.scope n t kids :: post)).length = (kindNames true post).length + 1 := by
            simp [kindNames, scopesOf]
          omega
        | false =>
          have := hn hs
          rw [scopesOf_append] at this
          simp [scopesOf] at this
  | .record .object st fs, old, o, j, n, t, kids, hok, h, hk, hi => by
    obtain ⟨os, xs, ms, rfl, rfl, rfl, hnd, h⟩ := h
    cases hi with
    | obj _ _ _ hi =>
      have hn : fs.Named := by
        rcases hok.2 with ⟨-, h⟩ | ⟨h, -⟩
        · exact h
        · cases h
      have hnames := items_names hi
      refine ⟨members_fits fs 0 os xs ms kids hok.1 hn h hnd (fun nm j hm hs _ => hk ms rfl (nm, j) hm hs) hi, ?_⟩
      rintro pre n t k post rfl
      obtain ⟨j, h1, h2⟩ := items_scope hi (n, t, k) (by rw [scopesOf_append]; simp [scopesOf])
      refine wants_scopeName ?_ fs 0 0 hn.1 (knownIn_name (hk ms rfl (n, j) h1 (item_kind h2).symm))
      rw [← hnames, List.map_append, List.nodup_append] at hnd
      intro hm
      exact hnd.2.2 n hm n (by simp [itemName]) rfl
  | .record .array st fs, old, o, j, n, t, kids, hok, h, hk, hi => by
    obtain ⟨os, xs, js, rfl, rfl, rfl, h⟩ := h
    cases hi with
    | arr _ _ _ hi =>
      have hp : fs.Positional := by
        rcases hok.2 with ⟨h, -⟩ | ⟨-, -, h2⟩
        · cases h
        · exact h2
      have hl := tuple_scopes h hi
      refine ⟨tuple_fits fs os xs js [] kids hok.1 hp h (hk js rfl) hi, ?_⟩
      rintro pre n t k post rfl
      refine wants_positional fs 0 0 hp ?_ (Nat.zero_le _)
      rw [scopesOf_append, List.length_append] at hl
      simp only [scopesOf, List.length_cons] at hl
      simp only [kindNames, if_true, List.length_map]
      omega
  | .ptr k e, old, o, j, n, t, kids, hok, h, hk, hi => by
    rcases h with ⟨-, -, -, rfl⟩ | ⟨x, rfl, -, h⟩
    · cases hi
    · exact fits_for e _ _ _ _ _ _ hok h hk hi
  | .sorted b c, old, o, j, n, t, kids, hok, h, hk, hi => by
    obtain ⟨xs, ys, h, -⟩ := h
    exact fits_for c _ _ _ _ _ _ hok.1 h hk hi
theorem members_fits : ∀ (fs : Fields) (ni : Nat) (os xs : List Obj) (ms : List (Bytes × Json)) (kids : List Item),
    fs.Ok → fs.Named → MembersFor fs os xs ms → (ms.map (·.1)).Nodup →
    (∀ nm j, (nm, j) ∈ ms → j.isScope = true → nm ∈ fs.names → KnownIn fs nm j) → ItemsAs P ms kids → FitsL fs ni kids
  | .nil, _, _, _, _, _, _, _, _, _, _, _ => trivial
  | .cons nm opt ty rest, ni, os, xs, ms, kids, hok, hn, h, hnd, hk, hi => by
    obtain ⟨o, os', x, xs', rfl, rfl, h, hr⟩ := h
    obtain ⟨hn0, hn1⟩ := hn
    simp only [Fields.names, List.mem_cons, not_or] at hn0
    simp only [Fields.names, List.nodup_cons] at hn1
    refine ⟨fun hs z hz => ?_, fun _ hb => ?_, members_fits rest _ os' xs' ms kids hok.2 ⟨hn0.2, hn1.2⟩ hr hnd
      (fun nm' j hm hs hnm => ?_) hi⟩
    · obtain ⟨h1, h2⟩ := find_scope (Ne.symm hn0.1) hz
      obtain ⟨j, h3, h4⟩ := items_scope hi z h1
      rw [h2] at h3
      have hj : j.isScope = true := (item_kind h4).symm
      have hkn : Known ty j := by
        rcases hk nm j h3 hj List.mem_cons_self with ⟨-, -, h⟩ | h
        · exact h
        · exact absurd (scopeNames_names (knownIn_name h)) hn1.1
      rcases h with ⟨j', hm, h⟩ | ⟨-, hm, -⟩
      · rw [mem_unique hnd hm h3] at h
        exact fits_for ty _ _ _ _ _ _ hok.1 h hkn h4
      · exact absurd (List.mem_map.mpr ⟨_, h3, rfl⟩) hm
    · obtain ⟨x, hx, hx1, hx2⟩ := kindNames_mem hb.1
      obtain ⟨y, hy, hy1, hy2⟩ := kindNames_mem hb.2
      have hnd' : (kids.map itemName).Nodup := by rw [items_names hi]; exact hnd
      have hxy : x = y := by
        clear hi hb
        induction kids with
        | nil => cases hx
        | cons z zs ih =>
          simp only [List.map_cons, List.nodup_cons] at hnd'
          rcases List.mem_cons.mp hx with rfl | hx' <;> rcases List.mem_cons.mp hy with rfl | hy'
          · rfl
          · exact absurd (List.mem_map.mpr ⟨y, hy', hy1.trans hx1.symm⟩) hnd'.1
          · exact absurd (List.mem_map.mpr ⟨x, hx', hx1.trans hy1.symm⟩) hnd'.1
          · exact ih hx' hy' hnd'.2
      subst hxy
      rw [hx2] at hy2
      cases hy2
    · rcases hk nm' j hm hs (List.mem_cons_of_mem _ hnm) with ⟨rfl, -⟩ | h
      · exact absurd hnm hn1.1
      · exact h
theorem tuple_fits : ∀ (fs : Fields) (os xs : List Obj) (js : List Json) (pre kids : List Item), fs.Ok →
    fs.Positional → TupleFor fs os xs js → KnownL fs js → ItemsAs P (js.map fun x => ([], x)) kids →
    FitsL fs (scopesOf pre).length (pre ++ kids)
  | .nil, _, _, _, _, _, _, _, _, _, _ => trivial
  | .cons nm opt ty rest, os, xs, js, pre, kids, hok, hp, h, hk, hi => by
    obtain ⟨o, os', x, xs', j, js', rfl, rfl, rfl, h, hr⟩ := h
    obtain ⟨rfl, rfl, hp⟩ := hp
    obtain ⟨hk1, hk2⟩ := hk j js' rfl
    have hkind := objFor_kind ty _ _ _ h
    cases hi with
    | cons _ _ i _ is hi his =>
      have ih := tuple_fits rest os' xs' js' (pre ++ [i]) is hok.2 hp hr hk2 his
      rw [List.append_assoc, List.singleton_append, scopesOf_append, List.length_append] at ih
      refine ⟨fun hs z hz => ?_, (fun hf => by cases hf), ?_⟩
      · unfold pick at hz
        rw [if_pos rfl, scopesOf_append] at hz
        have hscope : ∀ t k, i = .scope [] t k → Fits ty z.2.2 ∧ Covered ty z.2.2 := by
          rintro t k rfl
          simp [scopesOf] at hz
          subst hz
          exact fits_for ty _ _ _ _ _ _ hok.1 h hk1 hi
        cases hi with
        | val _ _ w hw => rw [← hkind, scalar_kind hw] at hs; cases hs
        | arr => exact hscope _ _ rfl
        | obj => exact hscope _ _ rfl
      · rw [← hkind]
        cases hi with
        | val _ _ w hw => rw [scalar_kind hw]; exact ih
        | arr => exact ih
        | obj => exact ih
end

/-! ### The description determines the object -/

theorem Pairwise2.zip_all {R : Obj × Obj → Json → Prop} {Q : Obj → Prop} : ∀ {os xs : List Obj} {js : List Json},
    os.length = xs.length → Pairwise2 R (os.zip xs) js → (∀ o ∈ os, ∀ x j, R (o, x) j → Q x) → ∀ x ∈ xs, Q x
  | [], [], _, _, _, _, _, h => by cases h
  | o :: os, x :: xs, _, hl, .cons _ _ _ _ h hs, hq, y, hy => by
    rcases List.mem_cons.mp hy with rfl | hy
    · exact hq o List.mem_cons_self y _ h
    · exact hs.zip_all (by simpa using hl) (fun o ho => hq o (List.mem_cons_of_mem _ ho)) y hy

theorem Pairwise2.all {α β : Type} {R : α → β → Prop} : ∀ {xs : List α} {ys : List β}, Pairwise2 R xs ys →
    ∀ x ∈ xs, ∃ y ∈ ys, R x y
  | _, _, .nil, _, h => by cases h
  | _, _, .cons x y xs ys h hs, z, hz => by
    rcases List.mem_cons.mp hz with rfl | hz
    · exact ⟨y, List.mem_cons_self, h⟩
    · obtain ⟨w, h1, h2⟩ := hs.all z hz
      exact ⟨w, List.mem_cons_of_mem _ h1, h2⟩

mutual
theorem objFor_wt : ∀ (ty : Ty) (old o : Obj) (j : Json), ty.Ok → WT ty old → ObjFor ty old o j → WT ty o
  | .bool, _, _, _, _, _, h => by obtain ⟨_, rfl, -⟩ := h; trivial
  | .int _, _, _, _, _, _, h => by obtain ⟨_, _, _, rfl, -, -, h⟩ := h; exact h
  | .float, _, _, _, _, _, h => by obtain ⟨_, _, _, rfl, -⟩ := h; trivial
  | .double, _, _, _, _, _, h => by obtain ⟨_, _, _, rfl, -⟩ := h; trivial
  | .str, _, _, _, _, _, h => by obtain ⟨_, rfl, -⟩ := h; trivial
  | .bytes, _, _, _, _, _, h => by obtain ⟨_, rfl, -⟩ := h; trivial
  | .vec e, _, _, _, hok, _, h => by
    obtain ⟨xs, js, rfl, rfl, h⟩ := h
    intro x hx
    obtain ⟨j, -, hj⟩ := h.all x hx
    exact objFor_wt e _ _ _ hok (Proper.proper_wt _ _ (Proper.dflt_proper e hok)) hj
  | .named e, _, _, _, hok, _, h => by
    obtain ⟨xs, js, rfl, rfl, h⟩ := h
    intro x hx
    obtain ⟨j, -, y, rfl, hj⟩ := h.all x hx
    exact ⟨_, y, rfl, objFor_wt e _ _ _ hok (Proper.proper_wt _ _ (Proper.dflt_proper e hok)) hj⟩
  | .arr k e, _, _, _, hok, hw, h => by
    obtain ⟨os, xs, js, rfl, rfl, rfl, hl, hx, ho, h⟩ := h
    refine ⟨hx, h.zip_all (ho.trans hx.symm) fun o ho x j hr => objFor_wt e _ _ _ hok (hw.2 o ho) hr⟩
  | .record .object _ fs, _, _, _, hok, hw, h => by
    obtain ⟨os, xs, ms, rfl, rfl, rfl, -, h⟩ := h
    exact membersFor_wt fs os xs ms hok.1 hw h
  | .record .array _ fs, _, _, _, hok, hw, h => by
    obtain ⟨os, xs, ms, rfl, rfl, rfl, h⟩ := h
    exact tupleFor_wt fs os xs ms hok.1 hw h
  | .ptr _ e, _, _, _, hok, _, h => by
    rcases h with ⟨-, -, rfl, -⟩ | ⟨x, rfl, -, h⟩
    · trivial
    · exact objFor_wt e _ _ _ hok (Proper.proper_wt _ _ (Proper.dflt_proper e hok)) h
  | .sorted b c, _, _, _, hok, _, h => by
    obtain ⟨xs, ys, h, rfl, -, hk, -⟩ := h
    have h1 := objFor_wt c _ _ _ hok.1 (by
      rw [← (elems_dflt hok.2).1]; exact Proper.proper_wt _ _ (Proper.dflt_proper c hok.1)) h
    obtain ⟨Q, -, hQ⟩ := keyed_elems hok.2
    obtain ⟨zs, he, h2⟩ := (hQ _).mp h1
    cases he
    exact (hQ _).mpr ⟨ys, rfl, fun y hy => h2 y (hk y hy)⟩
theorem membersFor_wt : ∀ (fs : Fields) (os xs : List Obj) (ms : List (Bytes × Json)), fs.Ok → WTL fs os →
    MembersFor fs os xs ms → WTL fs xs
  | .nil, _, _, _, _, _, h => by obtain ⟨rfl, rfl⟩ := h; trivial
  | .cons nm opt ty rest, _, _, ms, hok, hw, h => by
    obtain ⟨o, os', x, xs', rfl, rfl, h, hr⟩ := h
    refine ⟨?_, membersFor_wt rest os' xs' ms hok.2 hw.2 hr⟩
    rcases h with ⟨j, -, h⟩ | ⟨-, -, rfl⟩
    · exact objFor_wt ty _ _ _ hok.1 hw.1 h
    · exact hw.1
theorem tupleFor_wt : ∀ (fs : Fields) (os xs : List Obj) (js : List Json), fs.Ok → WTL fs os →
    TupleFor fs os xs js → WTL fs xs
  | .nil, _, _, _, _, _, h => by obtain ⟨rfl, rfl, rfl⟩ := h; trivial
  | .cons nm opt ty rest, _, _, _, hok, hw, h => by
    obtain ⟨o, os', x, xs', j, js', rfl, rfl, rfl, h, hr⟩ := h
    exact ⟨objFor_wt ty _ _ _ hok.1 hw.1 h, tupleFor_wt rest os' xs' js' hok.2 hw.2 hr⟩
end

theorem Pairwise2.unique {α β : Type} {R : α → β → Prop} (hu : ∀ x x' y, R x y → R x' y → x = x') :
    ∀ {xs xs' : List α} {ys : List β}, Pairwise2 R xs ys → Pairwise2 R xs' ys → xs = xs'
  | _, _, [], .nil, .nil => rfl
  | _, _, _ :: _, .cons _ _ _ _ h hs, .cons _ _ _ _ h' hs' => by rw [hu _ _ _ h h', hs.unique hu hs']

theorem Pairwise2.unique_zip {R : Obj × Obj → Json → Prop} (hu : ∀ o x x' y, R (o, x) y → R (o, x') y → x = x') :
    ∀ {os xs xs' : List Obj} {ys : List Json}, os.length = xs.length → os.length = xs'.length →
    Pairwise2 R (os.zip xs) ys → Pairwise2 R (os.zip xs') ys → xs = xs'
  | [], [], [], _, _, _, _, _ => rfl
  | _ :: _, _ :: _, _ :: _, _ :: _, h1, h2, .cons _ _ _ _ h hs, .cons _ _ _ _ h' hs' => by
    rw [hu _ _ _ _ h h', hs.unique_zip hu (by simpa using h1) (by simpa using h2) hs']

mutual
theorem objFor_unique : ∀ (ty : Ty) (old o o' : Obj) (j : Json), ty.Ok → ty.NoFp → ObjFor ty old o j →
    ObjFor ty old o' j → o = o'
  | .bool, _, _, _, _, _, _, h, h' => by
    obtain ⟨_, rfl, rfl⟩ := h; obtain ⟨_, rfl, he⟩ := h'; cases he; rfl
  | .int _, _, _, _, _, _, _, h, h' => by
    obtain ⟨k, _, _, rfl, rfl, hk, -⟩ := h
    obtain ⟨k', _, _, rfl, he, hk', -⟩ := h'
    cases he
    have : (k : ℚ) = k' := hk.trans hk'.symm
    rw [show k = k' by exact_mod_cast this]
  | .float, _, _, _, _, _, h, _, _ => h.elim
  | .double, _, _, _, _, _, h, _, _ => h.elim
  | .str, _, _, _, _, _, _, h, h' => by
    obtain ⟨_, rfl, rfl⟩ := h; obtain ⟨_, rfl, he⟩ := h'; cases he; rfl
  | .bytes, _, _, _, _, _, _, h, h' => by
    obtain ⟨s, rfl, rfl⟩ := h
    obtain ⟨s', rfl, he⟩ := h'
    have he := Json.str.inj he
    have h1 := Props.base64_restore_binary s
    rw [Props.base64_encode_spec, he, ← Props.base64_encode_spec, Props.base64_restore_binary] at h1
    rw [Res.ok.inj h1]
  | .vec e, _, _, _, _, hok, hn, h, h' => by
    obtain ⟨xs, js, rfl, rfl, h⟩ := h
    obtain ⟨xs', _, rfl, he, h'⟩ := h'
    cases he
    exact congrArg Obj.many (h.unique (fun x x' y h1 h2 => objFor_unique e (dflt e) x x' y hok hn h1 h2) h')
  | .named e, _, _, _, _, hok, hn, h, h' => by
    obtain ⟨xs, js, rfl, rfl, h⟩ := h
    obtain ⟨xs', _, rfl, he, h'⟩ := h'
    cases he
    exact congrArg Obj.many (h.unique (fun x x' y h1 h2 => by
      obtain ⟨a, rfl, h1⟩ := h1
      obtain ⟨b, rfl, h2⟩ := h2
      rw [objFor_unique e _ _ _ _ hok hn h1 h2]) h')
  | .arr _ e, _, _, _, _, hok, hn, h, h' => by
    obtain ⟨os, xs, js, rfl, rfl, rfl, hl, hx, ho, h⟩ := h
    obtain ⟨os', xs', _, he, rfl, he', -, hx', -, h'⟩ := h'
    cases he
    cases he'
    exact congrArg Obj.many (h.unique_zip (fun o x x' y h1 h2 => objFor_unique e _ _ _ _ hok hn h1 h2)
      (ho.trans hx.symm) (ho.trans hx'.symm) h')
  | .record .object _ fs, _, _, _, _, hok, hn, h, h' => by
    obtain ⟨os, xs, ms, rfl, rfl, rfl, hnd, h⟩ := h
    obtain ⟨os', xs', _, he, rfl, he', -, h'⟩ := h'
    cases he
    cases he'
    rw [membersFor_unique fs _ _ _ _ hok.1 hn hnd h h']
  | .record .array _ fs, _, _, _, _, hok, hn, h, h' => by
    obtain ⟨os, xs, js, rfl, rfl, rfl, h⟩ := h
    obtain ⟨os', xs', _, he, rfl, he', h'⟩ := h'
    cases he
    cases he'
    rw [tupleFor_unique fs _ _ _ _ hok.1 hn h h']
  | .ptr _ e, _, _, _, _, hok, hn, h, h' => by
    rcases h with ⟨hk, -, rfl, rfl⟩ | ⟨x, rfl, hk, h⟩ <;> rcases h' with ⟨hk', -, rfl, hj⟩ | ⟨x', rfl, hk', h'⟩
    · rfl
    · exact absurd rfl (hk' hk)
    · exact absurd hj (hk hk')
    · rw [objFor_unique e _ _ _ _ hok hn h h']
  | .sorted b c, _, _, _, _, hok, hn, h, h' => by
    obtain ⟨xs, ys, h, hy⟩ := h
    obtain ⟨xs', ys', h', hy'⟩ := h'
    have he := objFor_unique c _ _ _ _ hok.1 hn h h'
    cases he
    have hw := objFor_wt c _ _ _ hok.1 (by
      rw [← (elems_dflt hok.2).1]; exact Proper.proper_wt _ _ (Proper.dflt_proper c hok.1)) h
    rw [(Props.collected hok.2 hw _).mpr ⟨ys, hy⟩, (Props.collected hok.2 hw _).mpr ⟨ys', hy'⟩]
theorem membersFor_unique : ∀ (fs : Fields) (os xs xs' : List Obj) (ms : List (Bytes × Json)), fs.Ok → fs.NoFp →
    (ms.map (·.1)).Nodup → MembersFor fs os xs ms → MembersFor fs os xs' ms → xs = xs'
  | .nil, _, _, _, _, _, _, _, h, h' => by rw [h.2, h'.2]
  | .cons nm opt ty rest, _, _, _, ms, hok, hn, hnd, h, h' => by
    obtain ⟨o, os, x, xs, rfl, rfl, h, hr⟩ := h
    obtain ⟨_, _, x', xs', he, rfl, h', hr'⟩ := h'
    cases he
    rw [membersFor_unique rest _ _ _ _ hok.2 hn.2 hnd hr hr']
    congr 1
    rcases h with ⟨j, hm, h⟩ | ⟨-, hm, rfl⟩ <;> rcases h' with ⟨j', hm', h'⟩ | ⟨-, hm', rfl⟩
    · rw [mem_unique hnd hm' hm] at h'
      exact objFor_unique ty _ _ _ _ hok.1 hn.1 h h'
    · exact absurd (List.mem_map.mpr ⟨_, hm, rfl⟩) hm'
    · exact absurd (List.mem_map.mpr ⟨_, hm', rfl⟩) hm
    · rfl
theorem tupleFor_unique : ∀ (fs : Fields) (os xs xs' : List Obj) (js : List Json), fs.Ok → fs.NoFp →
    TupleFor fs os xs js → TupleFor fs os xs' js → xs = xs'
  | .nil, _, _, _, _, _, _, h, h' => by rw [h.2.1, h'.2.1]
  | .cons nm opt ty rest, _, _, _, _, hok, hn, h, h' => by
    obtain ⟨o, os, x, xs, j, js, rfl, rfl, rfl, h, hr⟩ := h
    obtain ⟨_, _, x', xs', _, _, he, rfl, he', h', hr'⟩ := h'
    cases he
    cases he'
    rw [tupleFor_unique rest _ _ _ _ hok.2 hn.2 hr hr', objFor_unique ty _ _ _ _ hok.1 hn.1 h h']
end

end Srl.Typed
