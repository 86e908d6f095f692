import Verif.Lemmas.FpconvJson
import Verif.Lemmas.PJsonTree
import Verif.Props.JsonSpec

/-! Lemmas about the texts the JSON format writes: they follow the grammar of RFC 8259. -/

namespace Srl.Rfc8259
open Dec PJson

/-! ### Numbers -/

theorem decimal_num (s : Bytes) : Props.decimal s = num s := by
  induction s with
  | nil => rfl
  | cons c s ih =>
    rw [Props.decimal, ih, show c :: s = [c] ++ s from rfl, Fpconv.num_append]
    simp [num]

theorem isDigit_of {c : UInt8} (h : 48 ≤ c.toNat ∧ c.toNat ≤ 57) : isDigit c = true := by simp [isDigit, h]

theorem number_int (k : Int) (s : Bytes) (h : Props.IsDecimalOf k s) :
    Number s (decide (k < 0)) ((k.natAbs : Nat) : ℚ) := by
  obtain ⟨ds, rfl, ⟨h1, h2⟩, h3, h4⟩ := h
  refine ⟨ds, [], [], [], 0, ⟨⟨h1, fun c hc => isDigit_of (h2 c hc)⟩, h4⟩, .inl ⟨rfl, rfl⟩, .inl ⟨rfl, rfl⟩, ?_, ?_⟩
  · simp
  · rw [← h3, decimal_num]
    simp

theorem intPart_append {d : Bytes} (r : Bytes) (h : ∀ c ∈ d ++ r, isDigit c = true) (h0 : d ≠ [])
    (hl : d.head? ≠ some 48) : IntPart (d ++ r) := by
  refine ⟨⟨by simp [h0], h⟩, fun hh => ?_⟩
  cases d with
  | nil => exact absurd rfl h0
  | cons c d => exact absurd hh hl

/-- What `fpconv_dtoa` produces are JSON numbers. -/
theorem number_shape {neg : Bool} {ds : Bytes} {K : Int} {t : Bytes} (h : Fpconv.Shape neg ds K t)
    (hd : ∀ c ∈ ds, isDigit c = true) (h0 : ds ≠ []) (hl : ds.head? ≠ some 48) :
    Number ((if neg then [45] else []) ++ t) neg ((num ds : ℚ) * 10 ^ K) := by
  cases h with
  | int h1 h2 =>
    obtain ⟨k, rfl⟩ := Int.eq_ofNat_of_zero_le h1
    refine ⟨ds ++ List.replicate k 48, [], [], [], 0, intPart_append _ ?_ h0 hl, .inl ⟨rfl, rfl⟩,
      .inl ⟨rfl, rfl⟩, ?_, ?_⟩
    · intro c hc
      rcases List.mem_append.mp hc with h | h
      · exact hd c h
      · rw [List.eq_of_mem_replicate h]; decide
    · simp
    · rw [List.append_nil, Fpconv.num_append, Fpconv.num_zeros]
      simp
  | frac d f h1 h2 h3 h4 h5 h6 h7 h8 =>
    refine ⟨d, 46 :: f, f, [], 0, ?_, .inr ⟨rfl, ?_, h4⟩, .inl ⟨rfl, rfl⟩, by simp, ?_⟩
    · rcases h8 with rfl | ⟨r, rfl⟩
      · exact ⟨⟨h2, h3⟩, fun _ => rfl⟩
      · have := intPart_append (d := d) [] (by simpa using h3) h2 (by
          cases d with
          | nil => exact absurd rfl h2
          | cons c d => exact hl)
        rwa [List.append_nil] at this
    · intro h; rw [h] at h6; simp at h6; omega
    · rw [h5, h6]; simp
  | exp d f e s h1 h2 h3 h4 h5 h6 =>
    subst h1
    have hd1 : ∀ c ∈ d, isDigit c = true := fun c hc => hd c (List.mem_append_left _ hc)
    have hf1 : ∀ c ∈ f, isDigit c = true := fun c hc => hd c (List.mem_append_right _ hc)
    refine ⟨d, if f = [] then [] else 46 :: f, f, 101 :: (if s then 45 else 43) :: e,
      if s then -(num e : ℤ) else num e, ?_, ?_, ?_, by simp, by rw [h6]⟩
    · refine ⟨⟨by intro h; rw [h] at h2; simp at h2, hd1⟩, fun hh => ?_⟩
      obtain ⟨c, rfl⟩ := List.length_eq_one_iff.mp h2
      simp only [List.head?_cons, Option.some.injEq] at hh
      rw [hh]
    · by_cases hf : f = []
      · exact .inl ⟨by rw [if_pos hf], hf⟩
      · exact .inr ⟨by rw [if_neg hf], hf, hf1⟩
    · refine .inr ⟨101, [if s then 45 else 43], e, .inl rfl, ⟨h3, h5⟩, rfl, ?_⟩
      cases s <;> simp

/-! ### Doubles -/

theorem nearest_exact {v : ℚ} {n : Nat} (hn : n < Fp.inf64) (h : v = dbl n) :
    Nearest v n ∧ ∀ m, Nearest v m → m = n := by
  subst h
  refine ⟨⟨hn, fun m _ => by rw [sub_self, abs_zero]; exact abs_nonneg _⟩, fun m hm => ?_⟩
  have h1 := hm.2 n hn
  rw [sub_self, abs_zero] at h1
  have h2 := abs_nonneg (dbl n - dbl m)
  have h3 : dbl n - dbl m = 0 := abs_eq_zero.mp (le_antisymm h1 h2)
  rcases Nat.lt_trichotomy m n with h | h | h
  · have := dbl_lt h; linarith
  · exact h
  · have := dbl_lt h; linarith

theorem dbl_integral {n k : Nat} (h : Fp.mag 52 n = k * Fp.one) : dbl n = k := by
  have hz : Fp.one = 2 ^ 1074 := rfl
  unfold dbl
  rw [h, hz, Nat.cast_mul, Nat.cast_pow, Nat.cast_ofNat, mul_assoc, zpow_neg,
    show ((1074 : ℤ)) = ((1074 : ℕ) : ℤ) from rfl, zpow_natCast, mul_inv_cancel₀ (by positivity), mul_one]

/-- Finite doubles but `2^63` and `-2^63` are written as JSON numbers that tell them from all others. -/
theorem double_number (d : UInt64) (v : Int) (hv : Fp.num64 d = .fin v) (h1 : v ≠ 2 ^ 63 * (Fp.one : Int))
    (h2 : v ≠ -2 ^ 63 * (Fp.one : Int)) :
    ∃ t neg q, fpToStr Fpconv.text d = .ok t ∧ Number t neg q ∧ Props.DoubleAs d (.num neg q) := by
  obtain ⟨hfin, hv'⟩ := Fpconv.num64_fin hv
  have hone : (0 : Int) < Fp.one := Int.natCast_pos.mpr (Nat.two_pow_pos _)
  by_cases hint : v % Fp.one = 0 ∧ -2 ^ 63 * (Fp.one : Int) < v ∧ v < 2 ^ 63 * (Fp.one : Int)
  · obtain ⟨k, hk⟩ := Int.dvd_of_emod_eq_zero hint.1
    rw [Int.mul_comm] at hk
    subst hk
    have k1 := Int.lt_of_mul_lt_mul_right hint.2.1 (Int.le_of_lt hone)
    have k2 := Int.lt_of_mul_lt_mul_right hint.2.2 (Int.le_of_lt hone)
    obtain ⟨s, hs, hdec⟩ := Props.int_to_text .i64 k (by show -(2 : Int) ^ 63 ≤ k; omega)
      (by show k ≤ (2 : Int) ^ 63 - 1; omega) (by omega)
    have hmag : Fp.mag 52 (Fp.split64 d).2 = k.natAbs * Fp.one := by
      have : (k * (Fp.one : Int)).natAbs = Fp.mag 52 (Fp.split64 d).2 := by
        rw [hv']
        split <;> simp
      rw [← this, Int.natAbs_mul, Int.natAbs_natCast]
    refine ⟨s, decide (k < 0), k.natAbs, by rw [fpToStr_int _ d k k1 k2 hv, hs], number_int k s hdec,
      decide (k < 0), k.natAbs, rfl, ?_, nearest_exact hfin (dbl_integral hmag).symm⟩
    by_cases hk : k = 0
    · right; simp [hk]
    left
    have hk2 : k * (Fp.one : Int) ≠ 0 := by
      intro h
      rcases Int.mul_eq_zero.mp h with h | h
      · exact hk h
      · omega
    have hk3 : k < 0 ↔ k * (Fp.one : Int) < 0 := by
      constructor
      · intro h
        exact Int.mul_neg_of_neg_of_pos h hone
      · intro h
        by_contra hc
        have := Int.mul_nonneg (show (0 : Int) ≤ k by omega) (Int.le_of_lt hone)
        omega
    cases hb : (Fp.split64 d).1 with
    | false =>
      rw [hb] at hv'
      simp only [Bool.false_eq_true, if_false] at hv'
      rw [decide_eq_false_iff_not, hk3]
      omega
    | true =>
      rw [hb] at hv'
      simp only [if_true] at hv'
      rw [decide_eq_true_iff, hk3]
      omega
  · have hne : ∀ k : Int, -2 ^ 63 ≤ k → k ≤ 2 ^ 63 → Fp.num64 d ≠ .fin (k * Fp.one) := by
      intro k k1 k2 he
      rw [hv] at he
      injection he with he
      subst he
      have e1 : k ≠ 2 ^ 63 := fun h => h1 (by rw [h])
      have e2 : k ≠ -2 ^ 63 := fun h => h2 (by rw [h])
      exact hint ⟨Int.mul_emod_left .., Int.mul_lt_mul_of_pos_right (by omega) hone,
        Int.mul_lt_mul_of_pos_right (by omega) hone⟩
    have hn0 : 0 < (Fp.split64 d).2 := by
      refine Nat.pos_of_ne_zero fun h0 => ?_
      refine hne 0 (by decide) (by decide) ?_
      rw [hv, hv', h0]
      cases (Fp.split64 d).1 <;> simp [Fp.mag]
    obtain ⟨ds, K, t, sh, hd, hds, hl, ht, hlen, b1, b2, b3⟩ := Fpconv.dtoa_eq d hn0 hfin
    have hte : Fpconv.text d = (if (Fp.split64 d).1 then [45] else []) ++ t := by unfold Fpconv.text; rw [ht]
    rw [Fpconv.below_dbl] at b1
    rw [Fpconv.above_dbl] at b2
    have huniq : ∀ n, Nearest ((num ds : ℚ) * 10 ^ K) n → n = (Fp.split64 d).2 :=
      fun n hn => nearest_eq hfin (.inr b1) b2 hn
    obtain ⟨n, hn⟩ := nearest_some ((num ds : ℚ) * 10 ^ K)
    refine ⟨_, (Fp.split64 d).1, _, by rw [fpToStr_other _ d hne, hte], number_shape sh hd hds b3,
      _, _, rfl, .inl rfl, ?_, huniq⟩
    rw [← huniq n hn]
    exact hn

/-! ### Strings -/

/-- Bytes that need no escape, or have a short one -/
def Escapable (b : UInt8) : Prop := 32 ≤ b ∨ b = 8 ∨ b = 9 ∨ b = 10 ∨ b = 12 ∨ b = 13

theorem escapable_cases : ∀ b : UInt8, Escapable b →
    (32 ≤ b ∧ b ≠ 34 ∧ b ≠ 92 ∧ escapeByte b = [b]) ∨ (∃ e, escapeByte b = [92, e] ∧ (e, b) ∈ escapes) := by
  intro b
  unfold Escapable escapeByte
  by_cases h1 : b = 34
  · intro _; right; exact ⟨34, by simp [h1], by simp [h1, escapes]⟩
  by_cases h2 : b = 92
  · intro _; right; exact ⟨92, by simp [h2], by simp [h2, escapes]⟩
  by_cases h3 : b = 47
  · intro _; right; exact ⟨47, by simp [h3], by simp [h3, escapes]⟩
  by_cases h4 : b = 10
  · intro _; right; exact ⟨110, by simp [h4], by simp [h4, escapes]⟩
  by_cases h5 : b = 9
  · intro _; right; exact ⟨116, by simp [h5], by simp [h5, escapes]⟩
  by_cases h6 : b = 13
  · intro _; right; exact ⟨114, by simp [h6], by simp [h6, escapes]⟩
  by_cases h7 : b = 8
  · intro _; right; exact ⟨98, by simp [h7], by simp [h7, escapes]⟩
  by_cases h8 : b = 12
  · intro _; right; exact ⟨102, by simp [h8], by simp [h8, escapes]⟩
  intro h
  left
  refine ⟨by simpa [h4, h5, h6, h7, h8] using h, h1, h2, by simp [h1, h2, h3, h4, h5, h6, h7, h8]⟩

theorem chars_escape (uni : Bool) (s : Bytes) (h : ∀ b ∈ s, Escapable b) : Chars uni (escape s) s := by
  induction s with
  | nil => exact .nil
  | cons b s ih =>
    have he : escape (b :: s) = escapeByte b ++ escape s := by simp [escape]
    have ih := ih fun x hx => h x (List.mem_cons_of_mem _ hx)
    rw [he]
    rcases escapable_cases b (h b List.mem_cons_self) with ⟨h1, h2, h3, h4⟩ | ⟨e, h1, h2⟩
    · rw [h4]; exact .plain b _ _ h1 h2 h3 ih
    · rw [h1]; exact .escape e b _ _ h2 ih

/-- Bytes that need no escape -/
def Bare (b : UInt8) : Prop := 32 ≤ b ∧ b ≠ 34 ∧ b ≠ 92

theorem chars_bare (uni : Bool) (s : Bytes) (h : ∀ b ∈ s, Bare b) : Chars uni s s := by
  induction s with
  | nil => exact .nil
  | cons b s ih =>
    obtain ⟨h1, h2, h3⟩ := h b List.mem_cons_self
    exact .plain b _ _ h1 h2 h3 (ih fun x hx => h x (List.mem_cons_of_mem _ hx))

theorem b64Char_bare (n : Nat) : Bare (Props.b64Char n) := by
  have key : ∀ n : Fin 64, Bare (Props.b64Char n.val) := by unfold Bare; decide +kernel
  by_cases h : n < 64
  · exact key ⟨n, h⟩
  · have : Props.b64Char n = 47 := by
      unfold Props.b64Char
      rw [if_neg (by omega), if_neg (by omega), if_neg (by omega), if_neg (by omega)]
      rfl
    rw [this]; unfold Bare; decide

theorem b64_bare : ∀ b : Bytes, ∀ c ∈ Props.b64Spec b, Bare c
  | [], c, hc => by cases hc
  | [x], c, hc => by
    simp only [Props.b64Spec, List.mem_cons, List.not_mem_nil, or_false] at hc
    rcases hc with rfl | rfl | rfl | rfl
    · exact b64Char_bare _
    · exact b64Char_bare _
    all_goals unfold Bare; decide
  | [x, y], c, hc => by
    simp only [Props.b64Spec, List.mem_cons, List.not_mem_nil, or_false] at hc
    rcases hc with rfl | rfl | rfl | rfl
    · exact b64Char_bare _
    · exact b64Char_bare _
    · exact b64Char_bare _
    · unfold Bare; decide
  | x :: y :: z :: r, c, hc => by
    simp only [Props.b64Spec, List.mem_cons] at hc
    rcases hc with rfl | rfl | rfl | rfl | hc
    · exact b64Char_bare _
    · exact b64Char_bare _
    · exact b64Char_bare _
    · exact b64Char_bare _
    · exact b64_bare r c hc

/-! ### Members -/

variable (dtoa : UInt64 → Bytes) (compact : Bool)

/-- Line breaks and indentation -/
def indent (w : Wr) (n : Nat) : Bytes :=
  if compact then [] else (if w.stack.length > 0 then [10] else []) ++ List.replicate n 9

theorem ws_indent (w : Wr) (n : Nat) : Ws (indent compact w n) := by
  intro b hb
  unfold indent at hb
  split at hb
  · cases hb
  · rcases List.mem_append.mp hb with hb | hb
    · split at hb
      · exact .inr (.inr (.inl (by simpa using hb)))
      · cases hb
    · exact .inr (.inl (List.mem_replicate.mp hb).2)

/-- The text of members: their names and texts -/
def fieldsText : Wr → List (Bytes × Bytes) → Bytes
  | _, [] => []
  | w, (n, t) :: l => spacing compact w false ++ nameText compact w false n ++ t ++ fieldsText ⟨w.stack, false⟩ l

def after : Wr → List (Bytes × Bytes) → Wr
  | w, [] => w
  | w, _ :: _ => ⟨w.stack, false⟩

theorem after_stack (w : Wr) (l : List (Bytes × Bytes)) : (after w l).stack = w.stack := by cases l <;> rfl

theorem fieldsText_append (a b : List (Bytes × Bytes)) : ∀ w : Wr,
    fieldsText compact w (a ++ b) = fieldsText compact w a ++ fieldsText compact (after w a) b := by
  induction a with
  | nil => intro w; rfl
  | cons p a ih =>
    intro w
    obtain ⟨n, t⟩ := p
    simp only [List.cons_append, fieldsText, ih, List.append_assoc]
    cases a <;> rfl

theorem after_append (a b : List (Bytes × Bytes)) (w : Wr) : after w (a ++ b) = after (after w a) b := by
  cases a <;> cases b <;> rfl

/-- Texts with what they mean -/
inductive FieldTexts : List (Bytes × Bytes) → List (Bytes × Json) → Prop
  | nil : FieldTexts [] []
  | cons {n t : Bytes} {j : Json} {l : List (Bytes × Bytes)} {ms : List (Bytes × Json)} :
      Text true Number t j → FieldTexts l ms → FieldTexts ((n, t) :: l) ((n, j) :: ms)

theorem fieldTexts_append {a b : List (Bytes × Bytes)} {x y : List (Bytes × Json)} (h1 : FieldTexts a x)
    (h2 : FieldTexts b y) : FieldTexts (a ++ b) (x ++ y) := by
  induction h1 with
  | nil => exact h2
  | cons ht _ ih => exact .cons ht ih

/-- Members of an array as text -/
theorem elems_fields (sp : Bytes) (hsp : Ws sp) {l : List (Bytes × Bytes)} {ms : List (Bytes × Json)}
    (h : FieldTexts l ms) : l ≠ [] → ∀ (w : Wr) (stk : List ScopeTy), w.stack = .array :: stk →
    ∃ u, fieldsText compact w l ++ sp = (if w.closed then [] else [44]) ++ u ∧
      Elems true Number u (ms.map (·.2)) := by
  induction h with
  | nil => intro h; exact absurd rfl h
  | @cons n t j l ms ht hl ih =>
    intro _ w stk hw
    have hs : spacing compact w false = (if w.closed then [] else [44]) ++ indent compact w w.stack.length := by
      cases hc : w.closed <;> simp [spacing, indent, hc]
    have hn : nameText compact w false n = [] := by simp [nameText, hw]
    have hi := ws_indent compact w w.stack.length
    cases hl with
    | nil =>
      refine ⟨indent compact w w.stack.length ++ (t ++ sp), ?_, .one _ _ _ _ hi ht hsp⟩
      simp [fieldsText, hs, hn]
    | @cons n2 t2 j2 l2 ms2 ht2 hl2 =>
      obtain ⟨u, h1, h2⟩ := ih (by simp) ⟨w.stack, false⟩ stk hw
      refine ⟨indent compact w w.stack.length ++ (t ++ ([] ++ 44 :: u)), ?_,
        .more _ _ _ _ _ _ hi ht (by intro b hb; cases hb) h2⟩
      rw [fieldsText, hs, hn, List.append_assoc, h1]
      simp

/-- Members of an object as text -/
theorem members_fields (sp : Bytes) (hsp : Ws sp) {l : List (Bytes × Bytes)} {ms : List (Bytes × Json)}
    (h : FieldTexts l ms) : l ≠ [] → (∀ p ∈ l, ∀ b ∈ p.1, Bare b) → ∀ (w : Wr) (stk : List ScopeTy),
    w.stack = .object :: stk →
    ∃ u, fieldsText compact w l ++ sp = (if w.closed then [] else [44]) ++ u ∧ Members true Number u ms := by
  induction h with
  | nil => intro h; exact absurd rfl h
  | @cons n t j l ms ht hl ih =>
    intro _ hb w stk hw
    have hs : spacing compact w false = (if w.closed then [] else [44]) ++ indent compact w w.stack.length := by
      cases hc : w.closed <;> simp [spacing, indent, hc]
    have hn : nameText compact w false n = 34 :: (n ++ 34 :: ([] ++ 58 :: (if compact then [] else [32]))) := by
      simp [nameText, hw]
    have hi := ws_indent compact w w.stack.length
    have hk := chars_bare true n (hb (n, t) List.mem_cons_self)
    have h0 : Ws [] := by intro b hb; cases hb
    have hc : Ws (if compact then [] else [32]) := by
      intro b hb
      split at hb
      · cases hb
      · exact .inl (by simpa using hb)
    cases hl with
    | nil =>
      refine ⟨_, ?_, .one _ _ _ _ _ _ _ _ hi hk h0 hc ht hsp⟩
      simp [fieldsText, hs, hn]
    | @cons n2 t2 j2 l2 ms2 ht2 hl2 =>
      obtain ⟨u, h1, h2⟩ := ih (by simp) (fun p hp => hb p (List.mem_cons_of_mem _ hp)) ⟨w.stack, false⟩ stk hw
      refine ⟨_, ?_, .more _ _ _ _ _ _ _ _ _ _ hi hk h0 hc ht h0 h2⟩
      rw [fieldsText, hs, hn, List.append_assoc, h1]
      simp

/-! ### Documents -/

variable {dtoa compact} {P : Val → Prop} {b64 : Bytes → Bytes}
  (hP : ∀ v, P v → ∃ t j, valText dtoa v = .ok t ∧ Text true Number t j ∧ Props.ValueAs b64 v j)
include hP

theorem vals_text (vs : List (Bytes × Val)) (h : ∀ p ∈ vs, P p.2) :
    ∃ l ms, FieldTexts l ms ∧ l.map (·.1) = vs.map (·.1) ∧
      (∀ w : Wr, writeAll dtoa compact w (vs.map (fun p => ⟨p.1, .val p.2⟩)) =
        .ok (fieldsText compact w l, after w l)) ∧
      ∀ ns ms', Props.FieldsAs b64 [] ns ms' → Props.FieldsAs b64 vs ns (ms ++ ms') := by
  induction vs with
  | nil => exact ⟨[], [], .nil, rfl, fun w => rfl, fun ns ms' h => h⟩
  | cons p vs ih =>
    obtain ⟨n, v⟩ := p
    obtain ⟨l, ms, h1, h2, h3, h4⟩ := ih fun q hq => h q (List.mem_cons_of_mem _ hq)
    obtain ⟨t, j, h5, h6, h7⟩ := hP v (h (n, v) List.mem_cons_self)
    refine ⟨(n, t) :: l, (n, j) :: ms, .cons h6 h1, by simp [h2], fun w => ?_, fun ns ms' h => ?_⟩
    · simp only [List.map_cons, writeAll, write, h5, Res.ok_bind, h3, fieldsText]
      cases l <;> rfl
    · exact .val _ _ _ _ _ _ h7 (h4 ns ms' h)

mutual
theorem node_text : ∀ (n : Node) (name : Bytes) (w : Wr), NodeAll P (fun n => ∀ b ∈ n, Bare b) n →
    ∃ t j, Text true Number t j ∧ Props.NodeAs b64 n j ∧ writeAll dtoa compact w (n.events name) =
      .ok (spacing compact w false ++ nameText compact w false name ++ t, ⟨w.stack, false⟩)
  | .mk ty vs ns, name, w, h => by
    simp only [NodeAll] at h
    obtain ⟨l1, m1, a1, a2, a3, a4⟩ := vals_text (compact := compact) hP vs h.1
    obtain ⟨l2, m2, b1, b2, b3, b4⟩ := nodes_text ns (ty == .object) (after ⟨ty :: w.stack, true⟩ l1) h.2.2
    have hl := fieldTexts_append a1 b1
    have hf := a4 ns m2 b4
    have hend : ∀ w1 : Wr, w1.stack = ty :: w.stack → spacing compact w1 true = indent compact w1 w.stack.length := by
      intro w1 h1
      simp [spacing, indent, h1]
    have hw1 : (after ⟨ty :: w.stack, true⟩ (l1 ++ l2)).stack = ty :: w.stack := after_stack _ _
    have hwr : writeAll dtoa compact w ((Node.mk ty vs ns).events name) =
        .ok (spacing compact w false ++ nameText compact w false name ++ ([if ty = .array then 91 else 123] ++
          (fieldsText compact ⟨ty :: w.stack, true⟩ (l1 ++ l2) ++
            (indent compact (after ⟨ty :: w.stack, true⟩ (l1 ++ l2)) w.stack.length ++
              [if ty = .array then 93 else 125]))), ⟨w.stack, false⟩) := by
      rw [← hend _ hw1]
      rw [after_append] at hw1 ⊢
      simp only [Node.events, writeAll, write, Res.ok_bind, writeAll_append, a3, b3, hw1, fieldsText_append]
      simp
    rw [hwr]
    generalize hin : indent compact (after ⟨ty :: w.stack, true⟩ (l1 ++ l2)) w.stack.length = ind
    have hws : Ws ind := by rw [← hin]; exact ws_indent _ _ _
    cases ty with
    | array =>
      refine ⟨_, .arr ((m1 ++ m2).map (·.2)), ?_, .array _ _ _ hf, rfl⟩
      simp only [if_true, List.cons_append, List.nil_append]
      by_cases hne : l1 ++ l2 = []
      · rw [hne] at hl ⊢
        generalize m1 ++ m2 = ms at *
        cases hl
        exact .arr0 _ hws
      · obtain ⟨u, e1, e2⟩ := elems_fields compact ind hws hl hne ⟨.array :: w.stack, true⟩ _ rfl
        rw [← List.append_assoc, e1]
        exact .arr _ _ e2
    | object =>
      refine ⟨_, .obj (m1 ++ m2), ?_, .object _ _ _ hf, rfl⟩
      simp only [reduceCtorEq, if_false, List.cons_append, List.nil_append]
      by_cases hne : l1 ++ l2 = []
      · rw [hne] at hl ⊢
        generalize m1 ++ m2 = ms at *
        cases hl
        exact .obj0 _ hws
      · have hb : ∀ p ∈ l1 ++ l2, ∀ b ∈ p.1, Bare b := by
          intro p hp
          rcases List.mem_append.mp hp with hp | hp
          · have : p.1 ∈ vs.map (·.1) := by rw [← a2]; exact List.mem_map_of_mem hp
            obtain ⟨q, hq, he⟩ := List.mem_map.mp this
            rw [← he]
            exact h.2.1 rfl q hq
          · exact b2 rfl p hp
        obtain ⟨u, e1, e2⟩ := members_fields compact ind hws hl hne hb ⟨.object :: w.stack, true⟩ _ rfl
        rw [← List.append_assoc, e1]
        exact .obj _ _ e2
theorem nodes_text : ∀ (ns : List (Bytes × Node)) (named : Bool) (w : Wr),
    NodesAll P (fun n => ∀ b ∈ n, Bare b) named ns →
    ∃ l ms, FieldTexts l ms ∧ (named = true → ∀ p ∈ l, ∀ b ∈ p.1, Bare b) ∧
      writeAll dtoa compact w (Node.eventsL ns) = .ok (fieldsText compact w l, after w l) ∧
      Props.FieldsAs b64 [] ns ms
  | [], _, w, _ => ⟨[], [], .nil, fun _ p hp => (by cases hp), rfl, .nil⟩
  | (n, x) :: ns, named, w, h => by
    simp only [NodesAll] at h
    obtain ⟨t, j, a1, a2, a3⟩ := node_text x n w h.2.1
    obtain ⟨l, ms, b1, b2, b3, b4⟩ := nodes_text ns named ⟨w.stack, false⟩ h.2.2
    refine ⟨(n, t) :: l, (n, j) :: ms, .cons a1 b1, fun hn p hp => ?_, ?_, .node _ _ _ _ _ a2 b4⟩
    · rcases List.mem_cons.mp hp with rfl | hp
      · exact h.1 hn
      · exact b2 hn p hp
    · simp only [Node.eventsL, writeAll_append, a3, b3, Res.ok_bind, fieldsText]
      cases l <;> rfl
end

end Srl.Rfc8259
