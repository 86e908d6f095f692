import Verif.Lemmas.JsonOut
import Verif.Props.Fp

/-! Lemmas about reading texts that follow the grammar of RFC 8259. -/

namespace Srl.Rfc8259
open Dec PJson Doc

/-! ### Numbers have one meaning -/

theorem exponent_head {x : Bytes} {e : ℤ} (h : Exponent x e) : ∀ c ∈ x.head?, isDigit c = false ∧ c ≠ 46 := by
  rcases h with ⟨rfl, -⟩ | ⟨c, s, d, hc, -, rfl, -⟩
  · intro c hc; cases hc
  · intro c' hc'
    simp only [List.head?_cons, Option.mem_def, Option.some.injEq] at hc'
    subst hc'
    rcases hc with rfl | rfl <;> decide

theorem frac_head {f d x : Bytes} {e : ℤ} (h : Frac f d) (hx : Exponent x e) :
    ∀ c ∈ (f ++ x).head?, isDigit c = false := by
  rcases h with ⟨rfl, -⟩ | ⟨rfl, -⟩
  · exact fun c hc => (exponent_head hx c hc).1
  · intro c hc
    simp only [List.cons_append, List.head?_cons, Option.mem_def, Option.some.injEq] at hc
    subst hc
    decide

theorem digits_split {a b x y : Bytes} (ha : ∀ c ∈ a, isDigit c = true) (hb : ∀ c ∈ b, isDigit c = true)
    (hx : ∀ c ∈ x.head?, isDigit c = false) (hy : ∀ c ∈ y.head?, isDigit c = false) (h : a ++ x = b ++ y) :
    a = b ∧ x = y := by
  have h1 := Fpconv.takeWhile_digits a x ha hx
  have h2 := Fpconv.takeWhile_digits b y hb hy
  rw [h] at h1
  exact ⟨h1.1.symm.trans h2.1, h1.2.symm.trans h2.2⟩

theorem exponent_unique {x : Bytes} {e e' : ℤ} (h : Exponent x e) (h' : Exponent x e') : e = e' := by
  have hd : ∀ d : Bytes, Digits d → ∀ r, d ≠ 43 :: r ∧ d ≠ 45 :: r := by
    intro d hd r
    constructor <;> rintro rfl <;> have := hd.2 _ List.mem_cons_self <;> exact absurd this (by decide)
  rcases h with ⟨rfl, h⟩ | ⟨c, s, d, -, h1, rfl, h2⟩
  · rcases h' with ⟨-, h'⟩ | ⟨c', s', d', -, h1', h3', h2'⟩
    · rw [h, h']
    · cases h3'
  · rcases h' with ⟨h', -⟩ | ⟨c', s', d', -, h1', h3', h2'⟩
    · cases h'
    · simp only [List.cons.injEq] at h3'
      obtain ⟨-, h3'⟩ := h3'
      rcases h2 with ⟨rfl, h2⟩ | ⟨rfl, h2⟩ | ⟨rfl, h2⟩ <;> rcases h2' with ⟨rfl, h2'⟩ | ⟨rfl, h2'⟩ | ⟨rfl, h2'⟩ <;>
        simp only [List.nil_append, List.cons_append, List.cons.injEq, true_and] at h3'
      · rw [h2, h2', h3']
      · exact absurd h3' (hd d h1 _).1
      · exact absurd h3' (hd d h1 _).2
      · exact absurd h3'.symm (hd d' h1' _).1
      · rw [h2, h2', h3']
      · exact absurd h3'.1 (by decide)
      · exact absurd h3'.symm (hd d' h1' _).2
      · exact absurd h3'.1 (by decide)
      · rw [h2, h2', h3']

theorem intPart_head {i r : Bytes} (h : IntPart i) : (i ++ r).head? ≠ some 45 := by
  obtain ⟨⟨h1, h2⟩, -⟩ := h
  cases i with
  | nil => exact absurd rfl h1
  | cons c i =>
    intro hh
    simp only [List.cons_append, List.head?_cons, Option.some.injEq] at hh
    have := h2 c List.mem_cons_self
    rw [hh] at this
    exact absurd this (by decide)

theorem number_unique {t : Bytes} {neg neg' : Bool} {v v' : ℚ} (h : Number t neg v) (h' : Number t neg' v') :
    neg = neg' ∧ v = v' := by
  obtain ⟨i, f, d, x, e, h1, h2, h3, rfl, rfl⟩ := h
  obtain ⟨i', f', d', x', e', h1', h2', h3', h4', rfl⟩ := h'
  have hneg : neg = neg' ∧ i ++ (f ++ x) = i' ++ (f' ++ x') := by
    cases neg <;> cases neg' <;>
      simp only [if_true, if_false, Bool.false_eq_true, List.nil_append, List.cons_append, List.cons.injEq, true_and] at h4'
    · exact ⟨rfl, h4'⟩
    · exact absurd (by rw [h4']; rfl) (intPart_head (r := f ++ x) h1)
    · exact absurd (by rw [← h4']; rfl) (intPart_head (r := f' ++ x') h1')
    · exact ⟨rfl, h4'⟩
  obtain ⟨hi, hr⟩ := digits_split h1.1.2 h1'.1.2 (frac_head h2 h3) (frac_head h2' h3') hneg.2
  have hfx : d = d' ∧ x = x' := by
    rcases h2 with ⟨rfl, rfl⟩ | ⟨rfl, hd⟩ <;> rcases h2' with ⟨rfl, rfl⟩ | ⟨rfl, hd'⟩
    · exact ⟨rfl, hr⟩
    · simp only [List.nil_append] at hr
      exact absurd rfl (exponent_head h3 46 (by rw [hr]; rfl)).2
    · simp only [List.nil_append] at hr
      exact absurd rfl (exponent_head h3' 46 (by rw [← hr]; rfl)).2
    · simp only [List.cons_append, List.cons.injEq, true_and] at hr
      exact digits_split hd.2 hd'.2 (fun c hc => (exponent_head h3 c hc).1) (fun c hc => (exponent_head h3' c hc).1) hr
  obtain ⟨rfl, rfl⟩ := hfx
  subst hi
  rw [exponent_unique h3 h3']
  exact ⟨hneg.1, rfl⟩

/-- There are functions that round correctly. -/
theorem rounds_some : ∃ strtod, Rounds strtod := by
  classical
  refine ⟨fun t => if h : ∃ p : Bool × ℚ, Number t p.1 p.2 then
    some (Fp.join64 (Classical.choose h).1 (Classical.choose (nearest_some (Classical.choose h).2))) else none,
    fun t neg v h _ => ?_⟩
  have hex : ∃ p : Bool × ℚ, Number t p.1 p.2 := ⟨(neg, v), h⟩
  obtain ⟨h1, h2⟩ := number_unique h (Classical.choose_spec hex)
  refine ⟨_, Classical.choose_spec (nearest_some v), ?_⟩
  simp only [dif_pos hex, ← h1, ← h2]

/-! ### Numbers are read -/

/-- Characters of numbers -/
def NChar (c : UInt8) : Prop :=
  (48 ≤ c.toNat ∧ c.toNat ≤ 57) ∨ c = 45 ∨ c = 43 ∨ c = 46 ∨ c = 101 ∨ c = 69

instance (c : UInt8) : Decidable (NChar c) := inferInstanceAs (Decidable (_ ∨ _))

theorem nchar_lit : ∀ c : UInt8, NChar c → (c ≠ 101 → isLit c = true) ∧ isLitEnd c = false ∧
    IntStr.isSpace c = false ∧ ¬ c ≥ 102 := by decide +kernel

theorem digit_nchar {c : UInt8} (h : isDigit c = true) : NChar c := .inl (by simpa [isDigit] using h)

theorem number_chars {t : Bytes} {neg : Bool} {v : ℚ} (h : Number t neg v) : ∀ c ∈ t, NChar c := by
  obtain ⟨i, f, d, x, e, h1, h2, h3, rfl, -⟩ := h
  intro c hc
  rcases List.mem_append.mp hc with hc | hc
  · split at hc
    · exact .inr (.inl (by simpa using hc))
    · cases hc
  rcases List.mem_append.mp hc with hc | hc
  · exact digit_nchar (h1.1.2 c hc)
  rcases List.mem_append.mp hc with hc | hc
  · rcases h2 with ⟨rfl, -⟩ | ⟨rfl, hd⟩
    · cases hc
    · rcases List.mem_cons.mp hc with rfl | hc
      · unfold NChar; decide
      · exact digit_nchar (hd.2 c hc)
  · rcases h3 with ⟨rfl, -⟩ | ⟨k, s, d', hk, hd, rfl, hs⟩
    · cases hc
    · rcases List.mem_cons.mp hc with rfl | hc
      · rcases hk with rfl | rfl <;> (unfold NChar; decide)
      rcases List.mem_append.mp hc with hc | hc
      · rcases hs with ⟨rfl, -⟩ | ⟨rfl, -⟩ | ⟨rfl, -⟩
        · cases hc
        · simp only [List.mem_singleton] at hc; subst hc; unfold NChar; decide
        · simp only [List.mem_singleton] at hc; subst hc; unfold NChar; decide
      · exact digit_nchar (hd.2 c hc)

theorem number_head {t : Bytes} {neg : Bool} {v : ℚ} (h : Number t neg v) : ∃ c r, t = c :: r ∧ c ≠ 101 := by
  obtain ⟨i, f, d, x, e, h1, h2, h3, rfl, -⟩ := h
  cases neg with
  | true => exact ⟨45, i ++ (f ++ x), by simp, by decide⟩
  | false =>
    obtain ⟨⟨h4, h5⟩, -⟩ := h1
    cases i with
    | nil => exact absurd rfl h4
    | cons c i =>
      refine ⟨c, i ++ (f ++ x), by simp, ?_⟩
      rintro rfl
      exact absurd (h5 101 List.mem_cons_self) (by decide)

theorem number_litOk {t : Bytes} {neg : Bool} {v : ℚ} (h : Number t neg v) : LitOk t := by
  have hc := number_chars h
  obtain ⟨c, r, rfl, h1⟩ := number_head h
  exact ⟨(nchar_lit c (hc c List.mem_cons_self)).1 h1,
    fun x hx => ⟨(nchar_lit x (hc x hx)).2.1, (nchar_lit x (hc x hx)).2.2.1⟩⟩

/-- A text of number characters which is not taken for an integer -/
theorem strToType_real (strtod : Bytes → Option UInt64) (t : Bytes) (d : UInt64) (h0 : t ≠ [])
    (hn : ∀ c ∈ t, NChar c) (hi : t.contains 46 = true ∨ IntStr.strToInt t = none) (hs : strtod t = some d) :
    IntStr.strToType strtod (t.contains 46) t = some (Fp.ofDouble d) := by
  have htrim : IntStr.trimSpace t = t := IntStr.trimSpace_id t fun c hc => (nchar_lit c (hn c hc)).2.2.1
  cases t with
  | nil => exact absurd rfl h0
  | cons b t =>
    have hb : ¬ (b ≥ 102) := (nchar_lit b (hn b List.mem_cons_self)).2.2.2
    have hint : (if (b :: t).contains 46 then none else IntStr.strToInt (b :: t)) = none := by
      rcases hi with hi | hi
      · rw [if_pos hi]
      · split
        · rfl
        · exact hi
    unfold IntStr.strToType
    simp only [htrim]
    rw [if_neg (by simp), if_neg (by simp [hb]), if_neg (by simp [hb]), if_neg (by simp [hb])]
    rw [hint, hs]
    rfl

theorem numberRead_double {neg : Bool} {v : ℚ} {n : Nat} (hn : Nearest v n) :
    Props.NumberRead neg v (Fp.ofDouble (Fp.join64 neg n)) := by
  have h := Props.double_storage_exact (Fp.join64 neg n)
  unfold Fp.ofDouble at h ⊢
  split
  · rename_i hc
    rw [if_pos hc] at h
    simp only [Fp.toDouble, Option.some.injEq] at h
    exact ⟨n, hn, h⟩
  · exact ⟨n, hn, rfl⟩

theorem number_read (strtod : Bytes → Option UInt64) (hr : Rounds strtod) {t : Bytes} {neg : Bool} {v : ℚ}
    (h : Props.Readable t neg v) :
    ∃ w, IntStr.strToType strtod (t.contains 46) t = some w ∧ Props.NumberRead neg v w ∧
      (Plain t → (neg = true → v < 2 ^ 63) → ∃ ty k, w = .int ty k) := by
  obtain ⟨hnum, hsmall, hbig⟩ := h
  have hchars := number_chars hnum
  obtain ⟨n, hn, hst⟩ := hr t neg v hnum hbig
  have h0 : t ≠ [] := by obtain ⟨c, r, rfl, -⟩ := number_head hnum; simp
  by_cases hplain : Plain t
  · have hv := hsmall hplain
    have hdot : t.contains 46 = false := PJson.no_dot fun c hc => by
      rcases hplain c hc with h | h
      · exact .inl (by simpa [isDigit] using h)
      · exact .inr h
    obtain ⟨i, f, d, x, e, h1, h2, h3, rfl, rfl⟩ := hnum
    have hf : f = [] ∧ d = [] := by
      rcases h2 with h | ⟨rfl, -⟩
      · exact h
      · rcases hplain 46 (by simp) with h | h
        · exact absurd h (by decide)
        · cases h
    obtain ⟨rfl, rfl⟩ := hf
    have hx : x = [] ∧ e = 0 := by
      rcases h3 with h | ⟨k, s, d', hk, hd, rfl, hs⟩
      · exact h
      · rcases hplain k (by simp) with h | h <;> rcases hk with rfl | rfl
        · exact absurd h (by decide)
        · exact absurd h (by decide)
        · cases h
        · cases h
    obtain ⟨rfl, rfl⟩ := hx
    simp only [List.append_nil, List.length_nil, Nat.cast_zero, sub_self, zpow_zero, mul_one] at hv hn hst ⊢ hdot hchars h0
    have hi : Props.IsDigits i := ⟨h1.1.1, fun c hc => by simpa [isDigit] using h1.1.2 c hc⟩
    have hv' : Props.decimal i < 2 ^ 64 := by rw [decimal_num]; exact_mod_cast hv
    obtain ⟨p1, p2⟩ := Props.int_text_exact_partial strtod i hi
    rw [hdot]
    cases neg with
    | false =>
      simp only [Bool.false_eq_true, if_false, List.nil_append]
      refine ⟨_, p1 hv', ?_, fun _ _ => ⟨_, _, rfl⟩⟩
      simp [Props.NumberRead, decimal_num]
    | true =>
      simp only [if_true, List.cons_append, List.nil_append] at hst hchars hdot ⊢
      by_cases h63 : Props.decimal i < 2 ^ 63
      · refine ⟨_, p2 h63, ?_, fun _ _ => ⟨_, _, rfl⟩⟩
        simp [Props.NumberRead, decimal_num]
      · refine ⟨_, ?_, numberRead_double hn, fun _ h => absurd (h trivial) ?_⟩
        swap
        · intro h
          apply h63
          rw [decimal_num]
          exact_mod_cast h
        rw [← hdot]
        refine strToType_real strtod _ _ (by simp) hchars (.inr ?_) hst
        cases hs : IntStr.strToInt (45 :: i) with
        | none => rfl
        | some p =>
          obtain ⟨w, sg⟩ := p
          obtain ⟨ds, e1, e2, e3, e4⟩ := Props.int_text_shape _ w sg hs
          have hsg : sg = true := by
            cases sg with
            | true => rfl
            | false =>
              simp only [Bool.false_eq_true, if_false, List.nil_append] at e1
              have := e2 45 (by rw [← e1]; exact List.mem_cons_self)
              exact absurd this (by decide)
          subst hsg
          simp only [if_true, List.cons_append, List.nil_append, List.cons.injEq, true_and] at e1
          have := e4 rfl
          rw [e3, ← e1, Nat.mod_eq_of_lt hv'] at this
          exact absurd this h63
  · refine ⟨_, strToType_real strtod t _ h0 hchars ?_ hst, numberRead_double hn, fun h => absurd h hplain⟩
    cases hs : IntStr.strToInt t with
    | none => exact .inr rfl
    | some p =>
      exfalso
      obtain ⟨w, sg⟩ := p
      obtain ⟨ds, e1, e2, e3, e4⟩ := Props.int_text_shape _ w sg hs
      apply hplain
      intro c hc
      rw [e1] at hc
      rcases List.mem_append.mp hc with hc | hc
      · split at hc
        · exact .inr (by simpa using hc)
        · cases hc
      · exact .inl (isDigit_of (e2 c hc))

/-! ### Strings are read -/

theorem unescape_escapes : ∀ p ∈ escapes, unescapeByte p.1 = some p.2 := by decide

theorem chars_read (m : Mem) {t s : Bytes} (h : Chars false t s) : Quoted m t s := by
  induction h with
  | nil =>
    intro rest fuel c steps hf
    cases fuel with
    | zero => simp at hf
    | succ fuel => exact ⟨c, by simp [readString]⟩
  | plain b t s h1 h2 h3 _ ih =>
    intro rest fuel c steps hf
    cases fuel with
    | zero => simp at hf
    | succ fuel =>
      obtain ⟨c', hc'⟩ := ih rest fuel (c.grow steps) (steps + 1) (by simpa using hf)
      exact ⟨c', by rw [List.cons_append, readString_plain m fuel c steps b _ h2 h3, hc']; rfl⟩
  | escape e r t s h1 _ ih =>
    intro rest fuel c steps hf
    cases fuel with
    | zero => simp at hf
    | succ fuel =>
      obtain ⟨c', hc'⟩ := ih rest fuel (c.grow steps) (steps + 1) (by
        simp only [List.length_cons] at hf; omega)
      refine ⟨c', ?_⟩
      rw [List.cons_append, List.cons_append, readString_escaped m fuel c steps e r _ (unescape_escapes _ h1), hc']
      rfl
  | unit _ _ _ _ h => cases h
  | pair _ _ _ _ _ h => cases h

/-! ### Literals are read -/

theorem ws_blank {w : Bytes} (h : Ws w) : ∀ b ∈ w, isBlank b = true := by
  intro b hb
  rcases h b hb with rfl | rfl | rfl | rfl <;> decide

theorem ws_space {w : Bytes} (h : Ws w) : ∀ b ∈ w, IntStr.isSpace b = true := by
  intro b hb
  rcases h b hb with rfl | rfl | rfl | rfl <;> decide

theorem strToType_space (strtod : Bytes → Option UInt64) (h : Bool) (t ws : Bytes) (ht : LitOk t)
    (hw : ∀ x ∈ ws, IntStr.isSpace x = true) :
    IntStr.strToType strtod h (t ++ ws) = IntStr.strToType strtod h t := by
  have htrim : IntStr.trimSpace (t ++ ws) = IntStr.trimSpace t := by
    unfold IntStr.trimSpace
    cases t with
    | nil => simp [LitOk, isLit, str] at ht
    | cons b t =>
      have hb : IntStr.isSpace b = false := (ht.2 b (List.mem_cons_self ..)).2
      rw [List.cons_append, List.dropWhile_cons, List.dropWhile_cons, if_neg (by simp [hb]),
        if_neg (by simp [hb]), ← List.cons_append, List.reverse_append, dropWhile_skip]
      exact fun x hx => hw x (List.mem_reverse.mp hx)
  unfold IntStr.strToType
  rw [htrim]

/-- Blanks followed by a comma or a closing bracket -/
def Tail (tail : Bytes) : Prop := ∃ ws c rest, tail = ws ++ c :: rest ∧ Ws ws ∧ (c = 44 ∨ c = 93 ∨ c = 125)

/-- A character ending a literal, behind tabs and line ends -/
def WordEnd (tail : Bytes) : Prop := ∃ ws c rest, tail = ws ++ c :: rest ∧
    (∀ x ∈ ws, x = 9 ∨ x = 10 ∨ x = 13) ∧ (c = 44 ∨ c = 93 ∨ c = 125 ∨ c = 32)

/-- Up to the character ending a literal -/
theorem tail_end {tail : Bytes} (h : Tail tail) : WordEnd tail := by
  obtain ⟨ws, c, rest, rfl, hw, hc⟩ := h
  induction ws with
  | nil =>
    refine ⟨[], c, rest, rfl, (by intro x hx; cases hx), ?_⟩
    rcases hc with h | h | h
    · exact .inl h
    · exact .inr (.inl h)
    · exact .inr (.inr (.inl h))
  | cons b ws ih =>
    obtain ⟨ws', c', rest', h1, h2, h3⟩ := ih fun x hx => hw x (List.mem_cons_of_mem _ hx)
    rcases hw b List.mem_cons_self with hb | hb
    · exact ⟨[], b, ws ++ c :: rest, by simp, (by intro x hx; cases hx), .inr (.inr (.inr hb))⟩
    · refine ⟨b :: ws', c', rest', by simp [h1], fun x hx => ?_, h3⟩
      rcases List.mem_cons.mp hx with rfl | hx
      · exact hb
      · exact h2 x hx

variable {m : Mem} (hm : m.Sane) (strtod : Bytes → Option UInt64)
include hm

theorem word_round (r : Rd) (st : State) (top : ScopeTy) (stk : List ScopeTy)
    (hs : r.stack = top :: stk) (hv : st.readingValue = true ∨ top = .array) (t tail : Bytes) (w : Val)
    (ht : LitOk t) (htail : WordEnd tail) (hw : IntStr.strToType strtod (t.contains 46) t = some w) :
    ∃ R, round m strtod r st (t ++ tail) = .ok (.done (.val w), r, R) ∧
      R.dropWhile isBlank = tail.dropWhile isBlank := by
  obtain ⟨ws, c, rest, rfl, hws, hc⟩ := htail
  cases t with
  | nil => simp [LitOk, isLit, str] at ht
  | cons b t =>
    have hlit : isLit b = true := ht.1
    obtain ⟨h1, h2, h3, h4, h5, h6, h7, h8⟩ := lit_not_delim b hlit
    have hspace : ∀ x ∈ ws, IntStr.isSpace x = true := by
      intro x hx; rcases hws x hx with rfl | rfl | rfl <;> decide
    have hval : IntStr.strToType strtod ((b :: t ++ ws).contains 46) (b :: t ++ ws) = some w := by
      have : (b :: t ++ ws).contains 46 = (b :: t).contains 46 := by
        have h46 : (46 : UInt8) ∉ ws := by
          intro h; rcases hws _ h with h | h | h <;> cases h
        rw [Bool.eq_iff_iff, List.contains_iff_mem, List.contains_iff_mem, List.mem_append]
        exact ⟨fun h => h.resolve_right h46, .inl⟩
      rw [this, strToType_space strtod _ _ _ ht hspace, hw]
    have hskip : skip m r st (b :: (t ++ (ws ++ c :: rest))) = .ok (b :: (t ++ (ws ++ c :: rest))) := by
      unfold skip
      rw [if_neg (by rcases hv with hv | hv <;> simp [hv, hs])]
      exact moveUntil_hit _ _ _ _ (by simp [h8])
    have hend : isLitEnd c = true := by rcases hc with rfl | rfl | rfl | rfl <;> decide
    have hsplit : b :: (t ++ (ws ++ c :: rest)) = (b :: t ++ ws) ++ c :: rest := by simp
    have hmv : moveUntil m isLitEnd (b :: (t ++ (ws ++ c :: rest))) = .ok (c :: rest) := by
      rw [hsplit, moveUntil_skip, moveUntil_hit _ _ _ _ hend]
      intro x hx
      rcases List.mem_append.mp hx with hx | hx
      · exact (ht.2 x hx).1
      · rcases hws x hx with rfl | rfl | rfl <;> decide
    have hblock : (b :: (t ++ (ws ++ c :: rest))).take
        ((b :: (t ++ (ws ++ c :: rest))).length - (c :: rest).length) = b :: t ++ ws := by
      rw [hsplit, List.length_append, Nat.add_sub_cancel, List.take_left]
    have hblank : ∀ x ∈ ws, isBlank x = true := by
      intro x hx; rcases hws x hx with rfl | rfl | rfl <;> decide
    refine ⟨if c = 93 ∨ c = 125 then c :: rest else rest, ?_, ?_⟩
    · rw [List.cons_append]
      unfold round
      rw [hskip]
      simp only [Res.ok_bind, dispatch, In.cur, if_neg h1, if_neg h2, h3, h4, h5, h6, or_self, if_false,
        if_neg h7, processChar, if_pos hlit, hmv, hblock, hval]
      rcases hc with rfl | rfl | rfl | rfl
      · simp [move_one hm]
      · simp
      · simp
      · simp [move_one hm]
    · rw [dropWhile_skip _ _ _ hblank]
      rcases hc with rfl | rfl | rfl | rfl <;> simp [isBlank]

theorem literal_round (r : Rd) (st : State) (top : ScopeTy) (stk : List ScopeTy)
    (hs : r.stack = top :: stk) (hv : st.readingValue = true ∨ top = .array) (t tail : Bytes) (w : Val)
    (ht : LitOk t) (htail : Tail tail) (hw : IntStr.strToType strtod (t.contains 46) t = some w) :
    ∃ R, round m strtod r st (t ++ tail) = .ok (.done (.val w), r, R) ∧
      R.dropWhile isBlank = tail.dropWhile isBlank :=
  word_round hm strtod r st top stk hs hv t tail w ht (tail_end htail) hw

/-! ### Documents -/

omit hm

/-- What a value is read as, if numbers are read as `P` says -/
def ScalarAs (P : Bool → ℚ → Val → Prop) : Json → Val → Prop
  | .null, w => w = .null
  | .bool b, w => w = .bool b
  | .num neg v, w => P neg v w
  | .str s, w => w = .str s
  | .arr _, _ => False
  | .obj _, _ => False

mutual
/-- What the item for `x`, read under the name `n`, may be, if numbers are read as `P` says -/
inductive ItemAs (P : Bool → ℚ → Val → Prop) : Bytes → Json → Item → Prop
  | val (n : Bytes) (x : Json) (w : Val) : ScalarAs P x w → ItemAs P n x (.val n w)
  | arr (n : Bytes) (xs : List Json) (is : List Item) : ItemsAs P (xs.map fun x => ([], x)) is →
      ItemAs P n (.arr xs) (.scope n .array is)
  | obj (n : Bytes) (ms : List (Bytes × Json)) (is : List Item) : ItemsAs P ms is →
      ItemAs P n (.obj ms) (.scope n .object is)
inductive ItemsAs (P : Bool → ℚ → Val → Prop) : List (Bytes × Json) → List Item → Prop
  | nil : ItemsAs P [] []
  | cons (n : Bytes) (x : Json) (i : Item) (ms : List (Bytes × Json)) (is : List Item) :
      ItemAs P n x i → ItemsAs P ms is → ItemsAs P ((n, x) :: ms) (i :: is)
end

theorem valueRead_of {x : Json} {w : Val} (h : ScalarAs Props.NumberRead x w) : Props.ValueRead x w := by
  cases x <;> exact h

theorem nodeRead_of : ∀ {ms : List (Bytes × Json)} {is : List Item}, ItemsAs Props.NumberRead ms is →
    Props.FieldsRead ms (Item.contentL is).1 (Item.contentL is).2
  | _, _, .nil => .nil
  | _, _, .cons _ _ _ _ _ (.val _ _ _ h) hs => .val _ _ _ _ _ _ (valueRead_of h) (nodeRead_of hs)
  | _, _, .cons _ _ _ _ _ (.arr _ _ _ h) hs => .node _ _ _ _ _ _ (.arr _ _ _ (nodeRead_of h)) (nodeRead_of hs)
  | _, _, .cons _ _ _ _ _ (.obj _ _ _ h) hs => .node _ _ _ _ _ _ (.obj _ _ _ (nodeRead_of h)) (nodeRead_of hs)

theorem tail_comma {b : Bytes} (u : Bytes) (h : Ws b) : Tail (b ++ 44 :: u) := ⟨b, 44, u, rfl, h, .inl rfl⟩

theorem drop_ws {w : Bytes} (s : Bytes) (h : Ws w) : (w ++ s).dropWhile isBlank = s.dropWhile isBlank :=
  dropWhile_skip _ _ _ (ws_blank h)

theorem drop_comma (u : Bytes) : (44 :: u).dropWhile isBlank = u.dropWhile isBlank := by
  rw [List.dropWhile_cons, if_pos (by decide)]

include hm

/-- A closing bracket, behind blanks -/
theorem read_close (r : Rd) (t : ScopeTy) (stk : List ScopeTy) (c : UInt8) (rest s : Bytes)
    (hs : r.stack = t :: stk) (hc : c = 93 ∨ c = 125)
    (h : s.dropWhile isBlank = (c :: rest).dropWhile isBlank) :
    PJson.read m strtod (r, s) = .ok (⟨[], .scopeEnd⟩, { r with stack := stk }, rest) := by
  unfold PJson.read
  rw [loop_blank m strtod _ _ r s _ h]
  exact loop_done strtod (round_close hm strtod r ⟨none, false⟩ t stk c rest hs hc)

/-- Up to the value of a member -/
theorem read_key (r : Rd) (stk : List ScopeTy) (hs : r.stack = .object :: stk) (k n b c body s : Bytes)
    (hk : Chars false k n) (hb : Ws b) (hc : Ws c)
    (h : s.dropWhile isBlank = (34 :: (k ++ 34 :: (b ++ 58 :: (c ++ body)))).dropWhile isBlank) :
    ∃ j r1, PJson.read m strtod (r, s) = loop m strtod (j + 1) ⟨some n, true⟩ (r1, body) ∧ r1.stack = r.stack := by
  have h' := h.trans (dropWhile_head _ _ (by decide))
  have hlen := length_of_dropWhile h'
  obtain ⟨j, hj⟩ : ∃ j, s.length + 1 = j + 1 + 1 + 1 := by
    simp only [List.length_cons, List.length_append] at hlen
    exact ⟨s.length - 2, by omega⟩
  obtain ⟨r1, h1, h2⟩ := round_name hm strtod r k n (b ++ 58 :: (c ++ body)) stk hs (chars_read m hk)
  refine ⟨j, r1, ?_, h1⟩
  unfold PJson.read
  rw [hj, loop_blank m strtod _ _ r s _ h, loop_more strtod h2,
    loop_blank m strtod _ _ r1 _ _ (drop_ws _ hb), loop_more strtod (round_colon hm strtod r1 (some n) _),
    loop_blank m strtod _ _ r1 _ _ (drop_ws _ hc)]

variable {N : Bytes → Bool → ℚ → Prop} {P : Bool → ℚ → Val → Prop}
  (hN : ∀ t neg v, N t neg v → Number t neg v ∧ ∃ w, IntStr.strToType strtod (t.contains 46) t = some w ∧ P neg v w)
include hN

mutual
theorem text_read : ∀ {t : Bytes} {x : Json}, Text false N t x → ∀ (r : Rd) (st : State) (tail : Bytes)
    (fuel : Nat), (x.isScope = true ∨ ∃ top stk, r.stack = top :: stk ∧ (st.readingValue = true ∨ top = .array) ∧
      Tail tail) →
    ∃ i e es r1 R1 r' R', i.events = e :: es ∧ i.events.length ≤ t.length ∧ ItemAs P (st.name.getD []) x i ∧
      i.depth = x.depth ∧ loop m strtod (fuel + 1) st (r, t ++ tail) = .ok (e, r1, R1) ∧
      Emits (PJson.read m strtod) (r1, R1) es (r', R') ∧ r'.stack = r.stack ∧
      R'.dropWhile isBlank = tail.dropWhile isBlank ∧
      (x.isScope = true → R' = tail ∧ ∃ k ty kids, i = .scope k ty kids)
  | _, _, .null, r, st, tail, fuel, h => by
    obtain ⟨top, stk, h1, h2, h3⟩ := h.resolve_left (by simp [Json.isScope])
    obtain ⟨R, h4, h5⟩ := literal_round hm strtod r st top stk h1 h2 (str "null") tail .null
      ⟨by decide +kernel, by decide +kernel⟩ h3 rfl
    exact ⟨.val (st.name.getD []) .null, _, _, _, _, _, _, rfl, by simp [Item.events, Srl.str], (.val _ _ _ rfl), rfl, loop_done strtod h4,
      .nil _, rfl, h5, by simp [Json.isScope]⟩
  | _, _, .true, r, st, tail, fuel, h => by
    obtain ⟨top, stk, h1, h2, h3⟩ := h.resolve_left (by simp [Json.isScope])
    obtain ⟨R, h4, h5⟩ := literal_round hm strtod r st top stk h1 h2 (str "true") tail (.bool true)
      ⟨by decide +kernel, by decide +kernel⟩ h3 rfl
    exact ⟨.val (st.name.getD []) (.bool true), _, _, _, _, _, _, rfl, by simp [Item.events, Srl.str], (.val _ _ _ rfl), rfl, loop_done strtod h4,
      .nil _, rfl, h5, by simp [Json.isScope]⟩
  | _, _, .false, r, st, tail, fuel, h => by
    obtain ⟨top, stk, h1, h2, h3⟩ := h.resolve_left (by simp [Json.isScope])
    obtain ⟨R, h4, h5⟩ := literal_round hm strtod r st top stk h1 h2 (str "false") tail (.bool false)
      ⟨by decide +kernel, by decide +kernel⟩ h3 rfl
    exact ⟨.val (st.name.getD []) (.bool false), _, _, _, _, _, _, rfl, by simp [Item.events, Srl.str], (.val _ _ _ rfl), rfl, loop_done strtod h4,
      .nil _, rfl, h5, by simp [Json.isScope]⟩
  | _, _, .num t neg v hn, r, st, tail, fuel, h => by
    obtain ⟨top, stk, h1, h2, h3⟩ := h.resolve_left (by simp [Json.isScope])
    obtain ⟨hn, w, hw, hw'⟩ := hN t neg v hn
    obtain ⟨R, h4, h5⟩ := literal_round hm strtod r st top stk h1 h2 t tail w (number_litOk hn) h3 hw
    have hlen : 1 ≤ t.length := by obtain ⟨c, r, rfl, -⟩ := number_head hn; simp
    exact ⟨.val (st.name.getD []) w, _, _, _, _, _, _, rfl, hlen, (.val _ _ _ hw'), rfl, loop_done strtod h4,
      .nil _, rfl, h5, by simp [Json.isScope]⟩
  | _, _, .str t s hc, r, st, tail, fuel, h => by
    obtain ⟨top, stk, h1, h2, h3⟩ := h.resolve_left (by simp [Json.isScope])
    obtain ⟨r', h4, h5⟩ := round_string hm strtod r st t s tail top stk h1 (chars_read m hc) h2
    refine ⟨.val (st.name.getD []) (.str s), _, _, _, _, _, _, rfl, by simp [Item.events], (.val _ _ _ rfl), rfl, ?_,
      .nil _, h4, rfl, by simp [Json.isScope]⟩
    have : 34 :: (t ++ [34]) ++ tail = 34 :: (t ++ 34 :: tail) := by simp
    rw [this]
    exact loop_done strtod h5
  | _, _, .arr0 w hw, r, st, tail, fuel, h => by
    have h1 := loop_done (fuel := fuel) strtod (round_open hm strtod r st .array (w ++ 93 :: tail))
    have h2 := read_close hm strtod { r with stack := .array :: r.stack } .array r.stack 93 tail (w ++ 93 :: tail) rfl
      (.inl rfl) (drop_ws _ hw)
    refine ⟨.scope (st.name.getD []) .array [], _, _, _, _, _, _, rfl, by simp [Item.events, Item.eventsL],
      (.arr _ _ _ .nil), rfl, ?_, .cons h2 (.nil _), rfl, rfl, fun _ => ⟨rfl, _, _, _, rfl⟩⟩
    have : 91 :: (w ++ [93]) ++ tail = 91 :: (w ++ 93 :: tail) := by simp
    rw [this]
    exact h1
  | _, _, .arr t xs he, r, st, tail, fuel, h => by
    have h1 := loop_done (fuel := fuel) strtod (round_open hm strtod r st .array (t ++ 93 :: tail))
    obtain ⟨is, e1, e2, e3, r', e4, e5⟩ := elems_read he { r with stack := .array :: r.stack } r.stack rfl tail
      (t ++ 93 :: tail) rfl
    refine ⟨.scope (st.name.getD []) .array is, _, _, _, _, _, _, rfl, ?_, (.arr _ _ _ e2),
      by simp [Item.depth, Json.depth, e3], ?_, e5, e4, rfl, fun _ => ⟨rfl, _, _, _, rfl⟩⟩
    · simp only [Item.events, List.length_cons, List.length_append, List.length_nil]; omega
    have : 91 :: (t ++ [93]) ++ tail = 91 :: (t ++ 93 :: tail) := by simp
    rw [this]
    exact h1
  | _, _, .obj0 w hw, r, st, tail, fuel, h => by
    have h1 := loop_done (fuel := fuel) strtod (round_open hm strtod r st .object (w ++ 125 :: tail))
    have h2 := read_close hm strtod { r with stack := .object :: r.stack } .object r.stack 125 tail (w ++ 125 :: tail)
      rfl (.inr rfl) (drop_ws _ hw)
    refine ⟨.scope (st.name.getD []) .object [], _, _, _, _, _, _, rfl, by simp [Item.events, Item.eventsL],
      (.obj _ _ _ .nil), rfl, ?_, .cons h2 (.nil _), rfl, rfl, fun _ => ⟨rfl, _, _, _, rfl⟩⟩
    have : 123 :: (w ++ [125]) ++ tail = 123 :: (w ++ 125 :: tail) := by simp
    rw [this]
    exact h1
  | _, _, .obj t ms he, r, st, tail, fuel, h => by
    have h1 := loop_done (fuel := fuel) strtod (round_open hm strtod r st .object (t ++ 125 :: tail))
    obtain ⟨is, e1, e2, e3, r', e4, e5⟩ := members_read he { r with stack := .object :: r.stack } r.stack rfl tail
      (t ++ 125 :: tail) rfl
    refine ⟨.scope (st.name.getD []) .object is, _, _, _, _, _, _, rfl, ?_, (.obj _ _ _ e2),
      by simp [Item.depth, Json.depth, e3], ?_, e5, e4, rfl, fun _ => ⟨rfl, _, _, _, rfl⟩⟩
    · simp only [Item.events, List.length_cons, List.length_append, List.length_nil]; omega
    have : 123 :: (t ++ [125]) ++ tail = 123 :: (t ++ 125 :: tail) := by simp
    rw [this]
    exact h1
theorem elems_read : ∀ {u : Bytes} {xs : List Json}, Elems false N u xs → ∀ (r : Rd)
    (stk : List ScopeTy), r.stack = .array :: stk → ∀ rest s : Bytes,
    s.dropWhile isBlank = (u ++ 93 :: rest).dropWhile isBlank →
    ∃ is, (Item.eventsL is).length ≤ u.length ∧
      ItemsAs P (xs.map fun x => ([], x)) is ∧
      Item.depthL is = Json.depthL xs ∧ ∃ r' : Rd, r'.stack = stk ∧
      Emits (PJson.read m strtod) (r, s) (Item.eventsL is ++ [⟨[], .scopeEnd⟩]) (r', rest)
  | _, _, .one a t b x ha ht hb, r, stk, hstk, rest, s, hs => by
    have hs' : s.dropWhile isBlank = (t ++ (b ++ 93 :: rest)).dropWhile isBlank := by
      rw [hs, List.append_assoc, drop_ws _ ha, List.append_assoc]
    obtain ⟨i, e, es, r1, R1, r', R', h1, h2, h3, h4, h5, h6, h7, h8, -⟩ := text_read ht r ⟨none, false⟩
      (b ++ 93 :: rest) s.length (.inr ⟨_, _, hstk, .inr rfl, b, 93, rest, rfl, hb, .inr (.inl rfl)⟩)
    have h9 := read_close hm strtod r' .array stk 93 rest R' (h7.trans hstk) (.inl rfl) (h8.trans (drop_ws _ hb))
    refine ⟨[i], ?_, (.cons _ _ _ _ _ h3 .nil), by simp [Item.depthL, Json.depthL, h4], { r' with stack := stk }, rfl, ?_⟩
    · simp only [Item.eventsL, List.length_append, List.length_nil]; omega
    · simp only [Item.eventsL, List.append_nil, h1]
      refine .cons ?_ (emits_append.mpr ⟨_, h6, .cons h9 (.nil _)⟩)
      unfold PJson.read
      rw [loop_blank m strtod _ _ r s _ hs']
      exact h5
  | _, _, .more a t b u x xs ha ht hb hu, r, stk, hstk, rest, s, hs => by
    have hs' : s.dropWhile isBlank = (t ++ (b ++ 44 :: (u ++ 93 :: rest))).dropWhile isBlank := by
      rw [hs, List.append_assoc, drop_ws _ ha]
      simp
    obtain ⟨i, e, es, r1, R1, r', R', h1, h2, h3, h4, h5, h6, h7, h8, -⟩ := text_read ht r ⟨none, false⟩
      (b ++ 44 :: (u ++ 93 :: rest)) s.length (.inr ⟨_, _, hstk, .inr rfl, tail_comma _ hb⟩)
    obtain ⟨is, g1, g2, g3, r2, g4, g5⟩ := elems_read hu r' stk (h7.trans hstk) rest R'
      ((h8.trans (drop_ws _ hb)).trans (drop_comma _))
    refine ⟨i :: is, ?_, (.cons _ _ _ _ _ h3 g2), by simp [Item.depthL, Json.depthL, h4, g3], r2, g4, ?_⟩
    · simp only [Item.eventsL, List.length_append, List.length_cons]; omega
    · simp only [Item.eventsL, h1, List.cons_append, List.append_assoc]
      refine .cons ?_ (emits_append.mpr ⟨_, h6, g5⟩)
      unfold PJson.read
      rw [loop_blank m strtod _ _ r s _ hs']
      exact h5
theorem members_read : ∀ {u : Bytes} {ms : List (Bytes × Json)}, Members false N u ms → ∀ (r : Rd)
    (stk : List ScopeTy), r.stack = .object :: stk → ∀ rest s : Bytes,
    s.dropWhile isBlank = (u ++ 125 :: rest).dropWhile isBlank →
    ∃ is, (Item.eventsL is).length ≤ u.length ∧
      ItemsAs P ms is ∧
      Item.depthL is = Json.depthM ms ∧ ∃ r' : Rd, r'.stack = stk ∧
      Emits (PJson.read m strtod) (r, s) (Item.eventsL is ++ [⟨[], .scopeEnd⟩]) (r', rest)
  | _, _, .one a k n b c t d x ha hk hb hc ht hd, r, stk, hstk, rest, s, hs => by
    have hs' : s.dropWhile isBlank =
        (34 :: (k ++ 34 :: (b ++ 58 :: (c ++ (t ++ (d ++ 125 :: rest)))))).dropWhile isBlank := by
      rw [hs, List.append_assoc, drop_ws _ ha]
      simp
    obtain ⟨j, r0, f1, f2⟩ := read_key hm strtod r stk hstk k n b c _ s hk hb hc hs'
    obtain ⟨i, e, es, r1, R1, r', R', h1, h2, h3, h4, h5, h6, h7, h8, -⟩ := text_read ht r0 ⟨some n, true⟩
      (d ++ 125 :: rest) j (.inr ⟨_, _, f2.trans hstk, .inl rfl, d, 125, rest, rfl, hd, .inr (.inr rfl)⟩)
    have h9 := read_close hm strtod r' .object stk 125 rest R' ((h7.trans f2).trans hstk) (.inr rfl)
      (h8.trans (drop_ws _ hd))
    refine ⟨[i], ?_, (.cons _ _ _ _ _ h3 .nil), by simp [Item.depthL, Json.depthM, h4], { r' with stack := stk }, rfl, ?_⟩
    · simp only [Item.eventsL, List.length_append, List.length_nil, List.length_cons]; omega
    · simp only [Item.eventsL, List.append_nil, h1]
      exact .cons (f1.trans h5) (emits_append.mpr ⟨_, h6, .cons h9 (.nil _)⟩)
  | _, _, .more a k n b c t d u x ms ha hk hb hc ht hd hu, r, stk, hstk, rest, s, hs => by
    have hs' : s.dropWhile isBlank =
        (34 :: (k ++ 34 :: (b ++ 58 :: (c ++ (t ++ (d ++ 44 :: (u ++ 125 :: rest))))))).dropWhile isBlank := by
      rw [hs, List.append_assoc, drop_ws _ ha]
      simp
    obtain ⟨j, r0, f1, f2⟩ := read_key hm strtod r stk hstk k n b c _ s hk hb hc hs'
    obtain ⟨i, e, es, r1, R1, r', R', h1, h2, h3, h4, h5, h6, h7, h8, -⟩ := text_read ht r0 ⟨some n, true⟩
      (d ++ 44 :: (u ++ 125 :: rest)) j (.inr ⟨_, _, f2.trans hstk, .inl rfl, tail_comma _ hd⟩)
    obtain ⟨is, g1, g2, g3, r2, g4, g5⟩ := members_read hu r' stk ((h7.trans f2).trans hstk) rest R'
      ((h8.trans (drop_ws _ hd)).trans (drop_comma _))
    refine ⟨i :: is, ?_, (.cons _ _ _ _ _ h3 g2), by simp [Item.depthL, Json.depthM, h4, g3], r2, g4, ?_⟩
    · simp only [Item.eventsL, List.length_append, List.length_cons]; omega
    · simp only [Item.eventsL, h1, List.cons_append, List.append_assoc]
      exact .cons (f1.trans h5) (emits_append.mpr ⟨_, h6, g5⟩)
end

/-- The tokens of whole documents -/
theorem document_emits {t : Bytes} {x : Json} (h : DocumentOf false N t x) (hx : x.isScope = true)
    (old : Rd) (rest : Bytes) : ∃ ty kids r' ws, Ws ws ∧ ItemAs P [] x (.scope [] ty kids) ∧
      (Item.scope [] ty kids).depth = x.depth ∧ (Item.eventsL kids).length < (t ++ rest).length + 1 ∧
      Emits (PJson.read m strtod) (old.clear, t ++ rest) (Item.scope [] ty kids).events (r', ws ++ rest) := by
  obtain ⟨a, u, b, rfl, ha, hu, hb⟩ := h
  obtain ⟨i, e, es, r1, R1, r', R', h1, h2, h3, h4, h5, h6, h7, h8, h9⟩ := text_read hm strtod hN hu old.clear
    ⟨none, false⟩ (b ++ rest) (a ++ (u ++ b) ++ rest).length (.inl hx)
  obtain ⟨rfl, k, ty, kids, rfl⟩ := h9 hx
  obtain rfl : k = [] := by cases h3 <;> rfl
  refine ⟨ty, kids, r', b, hb, h3, h4, ?_, ?_⟩
  · simp only [Item.events, List.length_cons, List.length_append, List.length_nil] at h2 ⊢
    omega
  · rw [h1]
    refine .cons ?_ h6
    unfold PJson.read
    rw [loop_blank m strtod _ _ _ (a ++ (u ++ b) ++ rest) (u ++ (b ++ rest)) (by
      rw [List.append_assoc, drop_ws _ ha, List.append_assoc])]
    exact h5

omit hN

/-- Whole documents: what follows them is not read. -/
theorem document_read (hr : Rounds strtod) {t : Bytes} {x : Json} (h : DocumentOf false Props.Readable t x)
    (hx : x.isScope = true) (old : Rd) (rest : Bytes) : ∃ n r' ws, Ws ws ∧ Props.NodeRead x n ∧
      loadWith m strtod old (t ++ rest) = if x.depth ≤ maxDepth + 1 then .ok (⟨[], n⟩, r', ws ++ rest) else .err := by
  obtain ⟨ty, kids, r', ws, h1, h2, h3, h4, h5⟩ := document_emits hm strtod (N := Props.Readable)
    (P := Props.NumberRead) (fun t neg v hn => ⟨hn.1, (number_read strtod hr hn).imp fun _ h => ⟨h.1, h.2.1⟩⟩) h hx old rest
  refine ⟨.mk ty (Item.contentL kids).1 (Item.contentL kids).2, r', ws, h1, ?_, ?_⟩
  · cases h2 with
    | arr _ _ _ h => exact .arr _ _ _ (nodeRead_of h)
    | obj _ _ _ h => exact .obj _ _ _ (nodeRead_of h)
  · have hl := load_item (PJson.read m strtod) [] ty kids ((t ++ rest).length + 1) _ _ h5 h4
    unfold loadWith
    rw [hl, ← h3]
    simp only [Item.depth, Nat.add_le_add_iff_right]

end Srl.Rfc8259
