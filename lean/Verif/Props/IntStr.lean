import Verif.Lemmas.IntStr

/-! # C16, C17, C49 – integers and their text -/

namespace Srl.Props
open IntStr

/-- Specification: value of a digit string, most significant digit first. -/
def decimal : Bytes → Nat
  | [] => 0
  | c :: s => (c.toNat - 48) * 10 ^ s.length + decimal s

/-- A digit string: at least one character, all of them '0' to '9'. -/
def IsDigits (s : Bytes) : Prop := s ≠ [] ∧ ∀ c ∈ s, 48 ≤ c.toNat ∧ c.toNat ≤ 57

/-- The decimal notation of an integer: a minus sign for negative numbers, no leading zeros. -/
def IsDecimalOf (v : Int) (s : Bytes) : Prop :=
  ∃ ds, s = (if v < 0 then [45] else []) ++ ds ∧ IsDigits ds ∧ decimal ds = v.natAbs ∧
    (ds.head? = some 48 → ds = [48])

private theorem horner_eq (a : Nat) (s : Bytes) : horner a s = a * 10 ^ s.length + decimal s := by
  induction s generalizing a with
  | nil => simp [horner, decimal]
  | cons c s ih =>
    have : horner a (c :: s) = horner (10 * a + (c.toNat - 48)) s := rfl
    rw [this, ih, decimal, List.length_cons, Nat.pow_succ, Nat.add_mul]
    rw [Nat.mul_comm 10 a, Nat.mul_assoc, Nat.mul_comm 10 (10 ^ s.length)]
    omega

private theorem horner_zero (s : Bytes) : horner 0 s = decimal s := by
  rw [horner_eq]; simp

/-- Where the magnitude of a value of this type fits, leaving a byte for the sign. -/
private theorem mag_bound (t : IntTy) (v : Int) (h1 : t.lo ≤ v) (h2 : v ≤ t.hi) :
    v.natAbs < 10 ^ (digits10 t + 1) := by
  cases t <;> simp [IntTy.lo, IntTy.hi, IntTy.signed, IntTy.bits, digits10] at * <;> omega

private theorem format_spec (t : IntTy) (v : Int) (h1 : t.lo ≤ v) (h2 : v ≤ t.hi) :
    ∃ s, format t (t.signed && decide (v < 0)) v.natAbs = .ok s ∧ IsDecimalOf v s ∧
      s.length ≤ bufferSize t := by
  have hs : t.signed = false → ¬ v < 0 := by
    intro h; cases t <;> simp [IntTy.signed] at h <;> simp [IntTy.lo, IntTy.signed] at h1 <;> omega
  unfold format
  by_cases h0 : v.natAbs = 0
  · rw [if_pos h0]
    have : v = 0 := by omega
    subst this
    refine ⟨[48], rfl, ⟨[48], rfl, ⟨by simp, by simp⟩, rfl, by simp⟩, ?_⟩
    unfold bufferSize; simp; omega
  · rw [if_neg h0]
    obtain ⟨r, ds, e1, e2, e3, e4, e5, e6, _⟩ :=
      putDigits_spec (digits10 t + 1) (if t.signed then 1 else 0) v.natAbs [] (mag_bound t v h1 h2)
    obtain ⟨e6, e7⟩ := e6 h0
    have hb : bufferSize t = digits10 t + 1 + if t.signed then 1 else 0 := rfl
    rw [hb, e1]
    simp only [Res.ok_bind, List.append_nil]
    have hdec : IsDigits ds ∧ decimal ds = v.natAbs ∧ (ds.head? = some 48 → ds = [48]) :=
      ⟨⟨e6, e4⟩, by rw [← horner_zero, e5], fun h => absurd h e7⟩
    by_cases hneg : v < 0
    · have hsg : t.signed = true := by
        rcases Bool.eq_false_or_eq_true t.signed with h | h
        · exact h
        · exact absurd hneg (hs h)
      simp only [hsg, hneg, decide_true, Bool.and_true, if_true] at e2 e3 ⊢
      rw [if_neg (by omega)]
      refine ⟨_, rfl, ⟨ds, by simp [hneg], hdec⟩, ?_⟩
      simp; omega
    · simp only [hneg, decide_false, Bool.and_false, Bool.false_eq_true, if_false]
      refine ⟨_, rfl, ⟨ds, by simp [hneg], hdec⟩, ?_⟩
      omega

/-- C49: for every integer of every width the digits and the sign fit the buffer reserved for the
type (no store outside of it), also for the most negative ones. -/
theorem int_format_fits (t : IntTy) (v : Int) (h1 : t.lo ≤ v) (h2 : v ≤ t.hi) :
    ∃ s, format t (t.signed && decide (v < 0)) v.natAbs = .ok s ∧ s.length ≤ bufferSize t := by
  obtain ⟨s, h, _, hl⟩ := format_spec t v h1 h2
  exact ⟨s, h, hl⟩

/-- C16: converting an integer to text gives its decimal notation … -/
theorem int_to_text (t : IntTy) (v : Int) (h1 : t.lo ≤ v) (h2 : v ≤ t.hi) (hmin : v ≠ -2 ^ 63) :
    ∃ s, intToStr t v = .ok s ∧ IsDecimalOf v s := by
  obtain ⟨s, h, hd, _⟩ := format_spec t v h1 h2
  refine ⟨s, ?_, hd⟩
  unfold intToStr
  simp only
  rw [if_neg (by rintro ⟨_, h⟩; apply hmin; simpa using h)]
  exact h

/-- C17 (what holds): text denoting a number below `2^64`, or a negative number above `-2^63`, is
read as exactly this number. Not covered: digit strings denoting `2^64` or more, see
`int_text_wrong`. -/
theorem int_text_exact_partial (strtod : Bytes → Option UInt64) (ds : Bytes) (hd : IsDigits ds) :
    (decimal ds < 2 ^ 64 → strToType strtod false ds = some (.int .u64 (decimal ds))) ∧
    (decimal ds < 2 ^ 63 →
      strToType strtod false (45 :: ds) = some (.int .i64 (-(decimal ds : Int)))) := by
  obtain ⟨hne, hd⟩ := hd
  cases ds with
  | nil => exact absurd rfl hne
  | cons c s =>
    constructor
    · intro hv
      rw [strToType_int strtod c s (fun x hx => .inl (hd x hx))]
      have hc := hd c (by simp)
      have hl := digitLoop_exact (c :: s) 0 hd (by rw [horner_zero]; exact hv)
      have : strToInt (c :: s) = some (decimal (c :: s), false) := by
        unfold strToInt
        split
        · rename_i he; cases he; simp at hc
        · rename_i he; cases he; simp at hc
        · rw [hl, horner_zero]
      rw [this]
    · intro hv
      rw [strToType_int strtod 45 (c :: s) (fun x hx => by
        simp only [List.mem_cons] at hx
        rcases hx with rfl | hx
        · exact .inr rfl
        · exact .inl (hd x (by simpa using hx)))]
      have hl := digitLoop_exact (c :: s) 0 hd (by rw [horner_zero]; omega)
      have : strToInt (45 :: c :: s) = some (decimal (c :: s), true) := by
        simp only [strToInt]
        rw [hl, horner_zero]
        simp only
        rw [if_pos (by omega)]
      rw [this]

/-- C17 (what holds): text accepted as an integer is a digit string, possibly with a minus sign,
and the number read is right modulo `2^64`. -/
theorem int_text_shape (s : Bytes) (v : Nat) (neg : Bool) (h : strToInt s = some (v, neg)) :
    ∃ ds, s = (if neg then [45] else []) ++ ds ∧ (∀ c ∈ ds, 48 ≤ c.toNat ∧ c.toNat ≤ 57) ∧
      v = decimal ds % 2 ^ 64 ∧ (neg = true → v < 2 ^ 63) := by
  unfold strToInt at h
  split at h
  · cases h
  · split at h
    · rename_i hl
      split at h
      · cases h
        obtain ⟨h1, h2⟩ := digitLoop_shape _ _ _ hl (by decide)
        exact ⟨_, rfl, h1, by rw [h2, horner_zero], fun _ => by omega⟩
      · cases h
    · cases h
  · split at h
    · rename_i hl
      cases h
      obtain ⟨h1, h2⟩ := digitLoop_shape _ _ _ hl (by decide)
      exact ⟨_, rfl, h1, by rw [h2, horner_zero], by simp⟩
    · cases h

/-- Negation of C17: the overflow check does not notice every overflow. -/
theorem int_text_wrong :
    ∃ ds, IsDigits ds ∧ decimal ds = 30000000000000000000 ∧
      ∀ strtod, strToType strtod false ds = some (.int .u64 11553255926290448384) := by
  refine ⟨str "30000000000000000000", ⟨by decide, by decide⟩, by decide, fun strtod => ?_⟩
  have h : strToInt (str "30000000000000000000") = some (11553255926290448384, false) := by
    decide +kernel
  have : str "30000000000000000000" = 51 :: str "0000000000000000000" := by decide
  rw [this] at h ⊢
  rw [strToType_int strtod 51 _ (by decide), h]
  rfl

/-- C16: … and reading it gives the number back, for every integer but the most negative 64-bit
one. -/
theorem int_text_roundtrip (strtod : Bytes → Option UInt64) (t : IntTy) (v : Int)
    (h1 : t.lo ≤ v) (h2 : v ≤ t.hi) (hmin : v ≠ -2 ^ 63) :
    ∃ s, intToStr t v = .ok s ∧
      strToType strtod false s = some (.int (if v < 0 then .i64 else .u64) v) := by
  obtain ⟨s, hs, ds, rfl, hd, hv, _⟩ := int_to_text t v h1 h2 hmin
  refine ⟨_, hs, ?_⟩
  obtain ⟨p1, p2⟩ := int_text_exact_partial strtod ds hd
  have hb : -2 ^ 63 ≤ v ∧ v < 2 ^ 64 := by
    cases t <;> simp [IntTy.lo, IntTy.hi, IntTy.signed, IntTy.bits] at * <;> omega
  by_cases hneg : v < 0
  · simp only [hneg, if_true, List.singleton_append]
    rw [p2 (by omega)]
    congr 2; omega
  · simp only [hneg, if_false, List.nil_append]
    rw [p1 (by omega)]
    congr 2; omega

/-- The most negative 64-bit integer is excluded for a reason. -/
theorem int_min_text_undefined : intToStr .i64 (-2 ^ 63) = .ub := by decide

example : intToStr .i8 (-128) = .ok (str "-128") ∧ intToStr .u64 (2 ^ 64 - 1) =
    .ok (str "18446744073709551615") := by decide +kernel
example : IsDigits (str "007") ∧ decimal (str "007") = 7 := ⟨⟨by decide, by decide⟩, by decide⟩
example : strToInt (str "-12") = some (12, true) := by decide

end Srl.Props
