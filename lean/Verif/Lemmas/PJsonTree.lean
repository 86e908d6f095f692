import Verif.Lemmas.PJsonDoc
import Verif.Lemmas.Norm
import Verif.Lemmas.Base64
import Verif.Props.IntStr
import Verif.Props.Base64

/-! Lemmas about the JSON format: values and trees. -/

namespace Srl.PJson
open Doc

/-! ### Values -/

/-- What a floating point number is read as. -/
def nvFp (dtoa : UInt64 → Bytes) (strtod : Bytes → Option UInt64) (d : UInt64) : Val :=
  match fpToStr dtoa d with
  | .ok t => (IntStr.strToType strtod (t.contains 46) t).getD .null
  | _ => .null

/-- What a value is read as. -/
def nvJson (dtoa : UInt64 → Bytes) (strtod : Bytes → Option UInt64) : Val → Val
  | .int _ a => .int (if a < 0 then .i64 else .u64) a
  | .bin b => .str (Base64.encode b)
  | .fp32 f => nvFp dtoa strtod (Fp.widen f)
  | .fp64 d => nvFp dtoa strtod d
  | v => v

theorem decimal_chars {v : Int} {s : Bytes} (h : Props.IsDecimalOf v s) :
    s ≠ [] ∧ ∀ c ∈ s, (48 ≤ c.toNat ∧ c.toNat ≤ 57) ∨ c = 45 := by
  obtain ⟨ds, rfl, ⟨hne, hd⟩, -⟩ := h
  refine ⟨by simp [hne], fun c hc => ?_⟩
  rcases List.mem_append.mp hc with hc | hc
  · split at hc
    · exact Or.inr (by simpa using hc)
    · cases hc
  · exact Or.inl (hd c hc)

/-- Characters of numbers. -/
def NumChar (c : UInt8) : Prop := (48 ≤ c.toNat ∧ c.toNat ≤ 57) ∨ c = 45 ∨ c = 43 ∨ c = 46 ∨ c = 101

instance (c : UInt8) : Decidable (NumChar c) := inferInstanceAs (Decidable (_ ∨ _))

theorem numChar_lit : ∀ c : UInt8, NumChar c →
    (c ≠ 101 → isLit c = true) ∧ isLitEnd c = false ∧ IntStr.isSpace c = false := by decide +kernel

theorem litOk_num {t : Bytes} (hne : t ≠ []) (h : ∀ c ∈ t, NumChar c) (h0 : t.headD 0 ≠ 101) :
    LitOk t := by
  refine ⟨?_, fun x hx => (numChar_lit x (h x hx)).2⟩
  cases t with
  | nil => exact absurd rfl hne
  | cons b t => exact (numChar_lit b (h b (by simp))).1 h0

theorem no_dot {t : Bytes} (h : ∀ c ∈ t, (48 ≤ c.toNat ∧ c.toNat ≤ 57) ∨ c = 45) :
    t.contains 46 = false := by
  cases hh : t.contains 46 with
  | false => rfl
  | true =>
    rcases h 46 (by simpa using hh) with h | h
    · exact absurd h.1 (by decide)
    · cases h

/-- Integers are read back exactly. -/
theorem reads_text (strtod : Bytes → Option UInt64) (t : IntTy) (v : Int) (h1 : t.lo ≤ v)
    (h2 : v ≤ t.hi) (hmin : v ≠ -2 ^ 63) :
    ∃ s, IntStr.intToStr t v = .ok s ∧ LitOk s ∧
      IntStr.strToType strtod (s.contains 46) s = some (.int (if v < 0 then .i64 else .u64) v) := by
  obtain ⟨s, hs, hr⟩ := Props.int_text_roundtrip strtod t v h1 h2 hmin
  obtain ⟨s', hs', hd⟩ := Props.int_to_text t v h1 h2 hmin
  rw [hs] at hs'
  cases hs'
  obtain ⟨hne, hc⟩ := decimal_chars hd
  refine ⟨s, hs, litOk_num hne (fun c h => ?_) ?_, by rw [no_dot hc]; exact hr⟩
  · rcases hc c h with h | h
    · exact Or.inl h
    · exact Or.inr (Or.inl h)
  · cases s with
    | nil => exact absurd rfl hne
    | cons b s =>
      show b ≠ 101
      intro hb
      rcases hc b (by simp) with h | h
      · rw [hb] at h; exact absurd h.2 (by decide)
      · rw [hb] at h; cases h

/-- Integral numbers within the range of `int64_t` are written as integers. -/
theorem fpToStr_int (dtoa : UInt64 → Bytes) (d : UInt64) (k : Int) (h1 : -2 ^ 63 < k)
    (h2 : k < 2 ^ 63) (h : Fp.num64 d = .fin (k * Fp.one)) :
    fpToStr dtoa d = IntStr.intToStr .i64 k := by
  unfold fpToStr
  rw [h]
  have hpos : (0 : Int) < Fp.one := by
    exact Int.natCast_pos.mpr (Nat.two_pow_pos _)
  generalize hone : (Fp.one : Int) = u at *
  have ht : Fp.trunc (k * u) = k := by
    unfold Fp.trunc
    rw [hone]
    exact Int.mul_tdiv_cancel _ (by omega)
  simp only [ht]
  have a1 : k * u % u = 0 := Int.mul_emod_left ..
  have a2 : k * u ≤ 2 ^ 63 * u := Int.mul_le_mul_of_nonneg_right (by omega) (by omega)
  have a3 : k * u ≥ -2 ^ 63 * u := Int.mul_le_mul_of_nonneg_right (by omega) (by omega)
  rw [if_pos ⟨a1, a2, a3⟩, if_neg]
  intro he
  have := Int.eq_of_mul_eq_mul_right (by omega) he
  omega

/-- Other numbers are written as `dtoa` does. -/
theorem fpToStr_other (dtoa : UInt64 → Bytes) (d : UInt64)
    (h : ∀ k : Int, -2 ^ 63 ≤ k → k ≤ 2 ^ 63 → Fp.num64 d ≠ .fin (k * Fp.one)) :
    fpToStr dtoa d = .ok (dtoa d) := by
  unfold fpToStr
  split
  · next v hv =>
    rw [if_neg]
    rintro ⟨h1, h2, h3⟩
    have hpos : (0 : Int) < Fp.one := by
      exact Int.natCast_pos.mpr (Nat.two_pow_pos _)
    have hd : v / Fp.one * Fp.one = v := Int.ediv_mul_cancel (Int.dvd_of_emod_eq_zero h1)
    refine h (v / Fp.one) ?_ ?_ (by rw [hd]; exact hv)
    · exact (Int.le_ediv_iff_mul_le hpos).mpr h3
    · exact Int.ediv_le_of_le_mul hpos h2
  · rfl

/-- The text is not read as an integer. -/
def NotInt (t : Bytes) : Prop := ∃ c ∈ t, c = 46 ∨ c = 101

theorem strToType_fp (strtod : Bytes → Option UInt64) (t : Bytes) (d : UInt64) (hl : LitOk t)
    (hn : ∀ c ∈ t, NumChar c) (hi : NotInt t) (hs : strtod t = some d) :
    IntStr.strToType strtod (t.contains 46) t = some (Fp.ofDouble d) := by
  have htrim : IntStr.trimSpace t = t := IntStr.trimSpace_id t fun c hc => (hl.2 c hc).2
  cases t with
  | nil => simp [LitOk, isLit, str] at hl
  | cons b t =>
    have hb : ¬ (b ≥ 102) := by
      have : ∀ b : UInt8, NumChar b → ¬ (b ≥ 102) := by decide +kernel
      exact this b (hn b (by simp))
    have hint : (if (b :: t).contains 46 then none else IntStr.strToInt (b :: t)) = none := by
      split
      · rfl
      · next hc =>
        obtain ⟨c, hc1, hc2⟩ := hi
        cases h : IntStr.strToInt (b :: t) with
        | none => rfl
        | some p =>
          obtain ⟨v, neg⟩ := p
          obtain ⟨ds, hds, hd, -⟩ := Props.int_text_shape _ v neg h
          rw [hds] at hc1
          have hcc : ¬ (48 ≤ c.toNat ∧ c.toNat ≤ 57) ∧ c ≠ 45 := by
            rcases hc2 with rfl | rfl <;> decide
          rcases List.mem_append.mp hc1 with hm | hm
          · split at hm
            · exact absurd (by simpa using hm) hcc.2
            · cases hm
          · exact absurd (hd c hm) hcc.1
    unfold IntStr.strToType
    simp only [htrim]
    rw [if_neg (by simp), if_neg (by simp [hb]), if_neg (by simp [hb]), if_neg (by simp [hb])]
    rw [hint, hs]
    rfl

theorem b64_plain : ∀ c : UInt8, c < 64 → Base64.enc c ≠ 34 ∧ Base64.enc c ≠ 92 := by decide +kernel

theorem b64Char_plain (n : Nat) (h : n < 64) : Props.b64Char n ≠ 34 ∧ Props.b64Char n ≠ 92 := by
  have : ∀ n : Fin 64, Props.b64Char n.val ≠ 34 ∧ Props.b64Char n.val ≠ 92 := by decide +kernel
  exact this ⟨n, h⟩

theorem nameOk_b64 (b : Bytes) : NameOk (Base64.encode b) := by
  rw [Props.base64_encode_spec]
  have key : ∀ (k : Nat) (b : Bytes), b.length < k → NameOk (Props.b64Spec b) := by
    intro k
    induction k with
    | zero => intro b h; omega
    | succ k ih =>
      intro b h
      match b with
      | [] => intro c hc; simp [Props.b64Spec] at hc
      | [x] =>
        intro c hc
        have := x.toNat_lt
        simp only [Props.b64Spec, List.mem_cons, List.not_mem_nil, or_false] at hc
        rcases hc with rfl | rfl | rfl | rfl
        · exact b64Char_plain _ (by omega)
        · exact b64Char_plain _ (by omega)
        · decide
        · decide
      | [x, y] =>
        intro c hc
        have := x.toNat_lt
        have := y.toNat_lt
        simp only [Props.b64Spec, List.mem_cons, List.not_mem_nil, or_false] at hc
        rcases hc with rfl | rfl | rfl | rfl
        · exact b64Char_plain _ (by omega)
        · exact b64Char_plain _ (by omega)
        · exact b64Char_plain _ (by omega)
        · decide
      | x :: y :: z :: b =>
        intro c hc
        have := x.toNat_lt
        have := y.toNat_lt
        have := z.toNat_lt
        simp only [Props.b64Spec, List.mem_cons] at hc
        rcases hc with rfl | rfl | rfl | rfl | hc
        · exact b64Char_plain _ (by omega)
        · exact b64Char_plain _ (by omega)
        · exact b64Char_plain _ (by omega)
        · exact b64Char_plain _ (by omega)
        · exact ih b (by simp only [List.length_cons] at h; omega) c hc
  exact key _ b (Nat.lt_succ_self _)

/-- Floating point numbers that are read back: integral ones within the range of `int64_t`, and
others if `dtoa` gives a number with a point or an exponent, or a word such as `inf`, and `strtod`
inverts it. -/
def FpOk (dtoa : UInt64 → Bytes) (strtod : Bytes → Option UInt64) (d : UInt64) : Prop :=
  (∃ k : Int, -2 ^ 63 < k ∧ k < 2 ^ 63 ∧ Fp.num64 d = .fin (k * Fp.one)) ∨
  ((∀ k : Int, -2 ^ 63 ≤ k → k ≤ 2 ^ 63 → Fp.num64 d ≠ .fin (k * Fp.one)) ∧
    (dtoa d).headD 101 ≠ 101 ∧ (∀ c ∈ dtoa d, NumChar c) ∧ NotInt (dtoa d) ∧
    strtod (dtoa d) = some d) ∨
  ((∀ k : Int, Fp.num64 d ≠ .fin k) ∧
    (dtoa d = str "inf" ∨ dtoa d = str "-inf" ∨ dtoa d = str "nan" ∨ dtoa d = str "-nan") ∧
    strtod (dtoa d) = some d)

/-- The words for numbers that are not finite are literals, and left to `strtod`. -/
theorem words_read (strtod : Bytes → Option UInt64) (t : Bytes) (d : UInt64)
    (h : t = str "inf" ∨ t = str "-inf" ∨ t = str "nan" ∨ t = str "-nan") (hs : strtod t = some d) :
    LitOk t ∧ IntStr.strToType strtod (t.contains 46) t = some (Fp.ofDouble d) := by
  have key : ∀ t, (t = str "inf" ∨ t = str "-inf" ∨ t = str "nan" ∨ t = str "-nan") →
      (isLit (t.headD 0) = true ∧ ∀ x ∈ t, isLitEnd x = false ∧ IntStr.isSpace x = false) ∧
      IntStr.trimSpace t = t ∧ ¬ t.length < 1 ∧ ¬ (t.length ≥ 4 ∧ t.headD 0 ≥ 102) ∧
      IntStr.strToInt t = none := by
    rintro t (rfl | rfl | rfl | rfl) <;> decide +kernel
  obtain ⟨k1, k2, k3, k4, k5⟩ := key t h
  refine ⟨k1, ?_⟩
  unfold IntStr.strToType
  simp only [k2]
  rw [if_neg k3, if_neg (fun h => k4 ⟨h.1, h.2.1⟩), if_neg (fun h => k4 ⟨h.1, h.2.1⟩),
    if_neg (fun h => k4 ⟨h.1, h.2.1⟩), k5, hs]
  split
  · split at * <;> simp_all
  · split at * <;> simp_all
  · rfl

theorem reads_fp (dtoa : UInt64 → Bytes) (strtod : Bytes → Option UInt64) (d : UInt64)
    (h : FpOk dtoa strtod d) : ∃ t, fpToStr dtoa d = .ok t ∧ LitOk t ∧
      IntStr.strToType strtod (t.contains 46) t = some (nvFp dtoa strtod d) ∧
      ((∃ ty k, nvFp dtoa strtod d = .int ty k ∧ Fp.num64 d = .fin (k * Fp.one)) ∨
        nvFp dtoa strtod d = Fp.ofDouble d) := by
  rcases h with ⟨k, h1, h2, h3⟩ | ⟨h1, h2, h3, h4, h5⟩ | ⟨h1, h2, h3⟩
  · have e := fpToStr_int dtoa d k h1 h2 h3
    obtain ⟨s, hs, hl, hr⟩ := reads_text strtod .i64 k
      (by show -(2 ^ 63 : Int) ≤ k; omega) (by show k ≤ (2 ^ 63 : Int) - 1; omega) (by omega)
    rw [hs] at e
    have hn : nvFp dtoa strtod d = .int (if k < 0 then .i64 else .u64) k := by
      unfold nvFp; rw [e]; simp only [hr, Option.getD_some]
    exact ⟨s, e, hl, by rw [hn]; exact hr, Or.inl ⟨_, k, hn, h3⟩⟩
  · have e := fpToStr_other dtoa d h1
    have hne : dtoa d ≠ [] := by
      intro h; rw [h] at h2; exact h2 rfl
    have hl : LitOk (dtoa d) := litOk_num hne h3 (by
      cases ht : dtoa d with
      | nil => exact absurd ht hne
      | cons b t => rw [ht] at h2; exact h2)
    have hr := strToType_fp strtod (dtoa d) d hl h3 h4 h5
    have hn : nvFp dtoa strtod d = Fp.ofDouble d := by
      unfold nvFp; rw [e]; simp only [hr, Option.getD_some]
    exact ⟨dtoa d, e, hl, by rw [hn]; exact hr, Or.inr hn⟩
  · have e := fpToStr_other dtoa d fun k _ _ => h1 _
    obtain ⟨hl, hr⟩ := words_read strtod (dtoa d) d h2 h3
    have hn : nvFp dtoa strtod d = Fp.ofDouble d := by
      unfold nvFp; rw [e]; simp only [hr, Option.getD_some]
    exact ⟨dtoa d, e, hl, by rw [hn]; exact hr, Or.inr hn⟩

/-- Values that are read back. -/
def ValOk (dtoa : UInt64 → Bytes) (strtod : Bytes → Option UInt64) : Val → Prop
  | .int t v => t.lo ≤ v ∧ v ≤ t.hi ∧ v ≠ -2 ^ 63
  | .fp32 f => FpOk dtoa strtod (Fp.widen f)
  | .fp64 d => FpOk dtoa strtod d
  | _ => True

theorem reads_val (m : Mem) (dtoa : UInt64 → Bytes) (strtod : Bytes → Option UInt64) (v : Val)
    (h : ValOk dtoa strtod v) : Reads m dtoa strtod v (nvJson dtoa strtod v) := by
  cases v with
  | bool b =>
    refine ⟨if b then str "true" else str "false", rfl, Or.inr ?_⟩
    cases b
    · refine ⟨⟨by decide +kernel, by decide +kernel⟩, ?_⟩
      have ht : IntStr.trimSpace (str "false") = str "false" := by decide
      show IntStr.strToType strtod ((str "false").contains 46) (str "false") = some (.bool false)
      unfold IntStr.strToType
      rw [ht, if_neg (by decide), if_neg (by decide), if_pos (by decide)]
    · refine ⟨⟨by decide +kernel, by decide +kernel⟩, ?_⟩
      have ht : IntStr.trimSpace (str "true") = str "true" := by decide
      show IntStr.strToType strtod ((str "true").contains 46) (str "true") = some (.bool true)
      unfold IntStr.strToType
      rw [ht, if_neg (by decide), if_pos (by decide)]
  | null =>
    refine ⟨str "null", rfl, Or.inr ⟨⟨by decide +kernel, by decide +kernel⟩, ?_⟩⟩
    have ht : IntStr.trimSpace (str "null") = str "null" := by decide
    show IntStr.strToType strtod ((str "null").contains 46) (str "null") = some .null
    unfold IntStr.strToType
    rw [ht, if_neg (by decide), if_neg (by decide), if_neg (by decide), if_pos (by decide)]
  | int t v =>
    obtain ⟨s, hs, hl, hr⟩ := reads_text strtod t v h.1 h.2.1 h.2.2
    exact ⟨s, hs, Or.inr ⟨hl, hr⟩⟩
  | fp32 f =>
    obtain ⟨t, h1, h2, h3, -⟩ := reads_fp dtoa strtod _ h
    exact ⟨t, h1, Or.inr ⟨h2, h3⟩⟩
  | fp64 d =>
    obtain ⟨t, h1, h2, h3, -⟩ := reads_fp dtoa strtod _ h
    exact ⟨t, h1, Or.inr ⟨h2, h3⟩⟩
  | str s => exact ⟨_, rfl, Or.inl ⟨escape s, s, rfl, rfl, quoted_escape s⟩⟩
  | bin b =>
    exact ⟨_, rfl, Or.inl ⟨Base64.encode b, Base64.encode b, rfl, rfl,
      quoted_name _ (nameOk_b64 b)⟩⟩

/-! ### Trees -/

mutual
/-- All values satisfy `P`, and the names in objects satisfy `Q`. -/
def NodeAll (P : Val → Prop) (Q : Bytes → Prop) : Node → Prop
  | .mk t vs ns => (∀ p ∈ vs, P p.2) ∧ (t = .object → ∀ p ∈ vs, Q p.1) ∧
      NodesAll P Q (t == .object) ns
def NodesAll (P : Val → Prop) (Q : Bytes → Prop) (named : Bool) : List (Bytes × Node) → Prop
  | [] => True
  | (n, x) :: ns => (named = true → Q n) ∧ NodeAll P Q x ∧ NodesAll P Q named ns
end

/-- Trees that are read back. -/
def NodeOk (dtoa : UInt64 → Bytes) (strtod : Bytes → Option UInt64) (n : Node) : Prop :=
  NodeAll (ValOk dtoa strtod) NameOk n

theorem itemsOk_append {m : Mem} {dtoa : UInt64 → Bytes} {strtod : Bytes → Option UInt64}
    {nv : Val → Val} {named : Bool} (a b : List Item) (h1 : ItemsOk m dtoa strtod nv named a)
    (h2 : ItemsOk m dtoa strtod nv named b) : ItemsOk m dtoa strtod nv named (a ++ b) := by
  induction a with
  | nil => exact h2
  | cons i a ih =>
    simp only [ItemsOk, List.cons_append] at h1 ⊢
    exact ⟨h1.1, ih h1.2⟩

section
variable (m : Mem) (dtoa : UInt64 → Bytes) (strtod : Bytes → Option UInt64)

mutual
theorem itemOk_node : ∀ (named : Bool) (name : Bytes) (n : Node), (named = true → NameOk name) →
    NodeOk dtoa strtod n → ItemOk m dtoa strtod (nvJson dtoa strtod) named (n.toItem name)
  | named, name, .mk t vs ns, hname, h => by
    simp only [NodeOk, NodeAll] at h
    simp only [Node.toItem, ItemOk]
    refine ⟨hname, itemsOk_append _ _ ?_ (itemsOk_nodes _ ns h.2.2)⟩
    have hv : ∀ p ∈ vs, (t = .object → NameOk p.1) ∧ ValOk dtoa strtod p.2 :=
      fun p hp => ⟨fun ht => h.2.1 ht p hp, h.1 p hp⟩
    clear h
    induction vs with
    | nil => simp [ItemsOk]
    | cons p vs ih =>
      simp only [List.map_cons, ItemsOk, ItemOk]
      have hp := hv p (by simp)
      refine ⟨⟨fun ht => hp.1 (by cases t <;> simp_all), reads_val m dtoa strtod _ hp.2⟩, ?_⟩
      exact ih fun q hq => hv q (by simp [hq])
theorem itemsOk_nodes : ∀ (named : Bool) (ns : List (Bytes × Node)),
    NodesAll (ValOk dtoa strtod) NameOk named ns →
    ItemsOk m dtoa strtod (nvJson dtoa strtod) named (Node.toItems ns)
  | _, [], _ => by simp [Node.toItems, ItemsOk]
  | named, (name, n) :: ns, h => by
    simp only [NodesAll] at h
    simp only [Node.toItems, ItemsOk]
    exact ⟨itemOk_node named name n h.1 h.2.1, itemsOk_nodes named ns h.2.2⟩
end

end

theorem emits_nonempty {σ : Type} {read : σ → Res (Event × σ)} (μ : σ → Nat)
    (hμ : ∀ s e s', read s = .ok (e, s') → μ s' < μ s) : ∀ {s s' : σ} {es : List Event},
    Emits read s es s' → es.length + μ s' ≤ μ s := by
  intro s s' es h
  induction h with
  | nil => simp
  | cons h1 _ ih =>
    have := hμ _ _ _ h1
    simp only [List.length_cons]
    omega

end Srl.PJson
