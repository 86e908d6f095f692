import Verif.Lemmas.JsonIn
import Verif.Props.Fpconv

/-! # C78: what is saved as JSON is JSON; C79: JSON is read as what it stands for

The grammar of RFC 8259, its meaning and what trees are as JSON are in `Verif/Props/JsonSpec.lean`. -/

namespace Srl.Props
open Doc PJson Rfc8259

/-! ## C78 -/

/-- Specification: values that JSON texts can express and the library is able to write: no control characters but
those with a short escape, no infinities and NaN; neither the integer `-2^63` nor the doubles `2^63` and `-2^63`. -/
def JsonWritable : Val → Prop
  | .int t v => t.lo ≤ v ∧ v ≤ t.hi ∧ v ≠ -2 ^ 63
  | .fp32 f => ∃ v, Fp.num64 (Fp.widen f) = .fin v ∧ v ≠ 2 ^ 63 * (Fp.one : Int) ∧ v ≠ -2 ^ 63 * (Fp.one : Int)
  | .fp64 d => ∃ v, Fp.num64 d = .fin v ∧ v ≠ 2 ^ 63 * (Fp.one : Int) ∧ v ≠ -2 ^ 63 * (Fp.one : Int)
  | .str s => ∀ b ∈ s, 32 ≤ b ∨ b = 8 ∨ b = 9 ∨ b = 10 ∨ b = 12 ∨ b = 13
  | _ => True

/-- Specification: names without control characters, quotes and backslashes -/
def JsonName (n : Bytes) : Prop := ∀ b ∈ n, 32 ≤ b ∧ b ≠ 34 ∧ b ≠ 92

private theorem value_text (v : Val) (h : JsonWritable v) :
    ∃ t j, valText Fpconv.text v = .ok t ∧ Text true Number t j ∧ ValueAs b64Spec v j := by
  cases v with
  | null => exact ⟨_, _, rfl, .null, rfl⟩
  | bool b => cases b <;> exact ⟨_, _, rfl, by first | exact .true | exact .false, rfl⟩
  | str s => exact ⟨_, _, rfl, .str _ _ (chars_escape _ s h), rfl⟩
  | bin b =>
    refine ⟨_, _, rfl, .str _ _ (chars_bare _ (Base64.encode b) ?_), ?_⟩
    · rw [base64_encode_spec]; exact b64_bare b
    · rw [base64_encode_spec]; rfl
  | int t k =>
    obtain ⟨s, h1, h2⟩ := int_to_text t k h.1 h.2.1 h.2.2
    exact ⟨s, _, h1, .num _ _ _ (number_int k s h2), rfl⟩
  | fp32 f =>
    obtain ⟨v, h1, h2, h3⟩ := h
    obtain ⟨t, neg, q, e1, e2, e3⟩ := double_number _ v h1 h2 h3
    exact ⟨t, _, e1, .num _ _ _ e2, e3⟩
  | fp64 d =>
    obtain ⟨v, h1, h2, h3⟩ := h
    obtain ⟨t, neg, q, e1, e2, e3⟩ := double_number _ v h1 h2 h3
    exact ⟨t, _, e1, .num _ _ _ e2, e3⟩

private theorem ws_nil : Ws [] := by intro b hb; cases hb

/-- C78: what is saved as JSON, compact or indented, is a JSON text in the sense of RFC 8259, and it stands for the
tree saved. What is missing: control characters in texts (`json_output_control`), names that need escapes
(`json_output_name`), infinities and NaN (`json_output_inf`), and `±2^63` (`json_output_undefined`). -/
theorem json_output_partial (compact : Bool) (name : Bytes) (n : Node) (hn : NodeAll JsonWritable JsonName n) :
    ∃ bs x, save Fpconv.text compact name n = .ok bs ∧ Document bs x ∧ NodeAs b64Spec n x := by
  obtain ⟨t, x, h1, h2, h3⟩ := node_text (compact := compact) value_text n name Wr.new hn
  have hs : spacing compact Wr.new false ++ nameText compact Wr.new false name ++ t = t := by
    cases compact <;> simp [spacing, nameText, Wr.new]
  rw [hs] at h3
  refine ⟨t, x, ?_, ⟨[], t, [], by simp, ws_nil, h1, ws_nil⟩, h2⟩
  unfold save
  rw [h3]
  rfl

/-- Control characters other than tabs and line breaks are in no JSON text. -/
private def Printable (t : Bytes) : Prop := ∀ b ∈ t, 32 ≤ b ∨ b = 9 ∨ b = 10 ∨ b = 13

private theorem printable_append {a b : Bytes} (h1 : Printable a) (h2 : Printable b) : Printable (a ++ b) := by
  intro c hc
  rcases List.mem_append.mp hc with h | h
  · exact h1 c h
  · exact h2 c h

private theorem printable_cons {c : UInt8} {a : Bytes} (hc : 32 ≤ c) (h : Printable a) : Printable (c :: a) := by
  intro d hd
  rcases List.mem_cons.mp hd with rfl | hd
  · exact .inl hc
  · exact h d hd

private theorem printable_nil : Printable [] := by intro b hb; cases hb

private theorem printable_ws {w : Bytes} (h : Ws w) : Printable w := by
  intro b hb
  rcases h b hb with rfl | h
  · exact .inl (by decide)
  · exact .inr h

private theorem hexDigit_printable : ∀ c : UInt8, hexDigit c ≠ none → 32 ≤ c := by decide +kernel

private theorem printable_unit {h : Bytes} {u : Nat} (hu : Unit16 h u) : Printable h := by
  obtain ⟨a, b, c, d, x, y, z, w, rfl, h1, h2, h3, h4, -⟩ := hu
  exact printable_cons (hexDigit_printable a (by simp [h1])) (printable_cons (hexDigit_printable b (by simp [h2]))
    (printable_cons (hexDigit_printable c (by simp [h3])) (printable_cons (hexDigit_printable d (by simp [h4]))
      printable_nil)))

private theorem printable_chars {uni : Bool} {t s : Bytes} (h : Chars uni t s) : Printable t := by
  induction h with
  | nil => exact printable_nil
  | plain b t s h1 _ _ _ ih => exact printable_cons h1 ih
  | escape e r t s h1 _ ih =>
    have : ∀ p ∈ escapes, (32 : UInt8) ≤ p.1 := by decide
    exact printable_cons (by decide) (printable_cons (this _ h1) ih)
  | unit c h t s _ _ h1 _ ih =>
    exact printable_cons (by decide) (printable_cons (by decide) (printable_append (printable_unit h1) ih))
  | pair c h l t s _ _ h1 h2 _ ih =>
    exact printable_cons (by decide) (printable_cons (by decide) (printable_append (printable_unit h1)
      (printable_cons (by decide) (printable_cons (by decide) (printable_append (printable_unit h2) ih)))))

private theorem printable_number {t : Bytes} {neg : Bool} {v : ℚ} (h : Number t neg v) : Printable t := by
  have key : ∀ c : UInt8, NChar c → 32 ≤ c := by decide +kernel
  exact fun c hc => .inl (key c (number_chars h c hc))

private theorem printable_str (s : String) (h : ∀ b ∈ str s, (32 : UInt8) ≤ b) : Printable (str s) :=
  fun b hb => .inl (h b hb)

mutual
private theorem printable_text : ∀ {t : Bytes} {x : Json}, Text true Number t x → Printable t
  | _, _, .null => printable_str _ (by decide +kernel)
  | _, _, .true => printable_str _ (by decide +kernel)
  | _, _, .false => printable_str _ (by decide +kernel)
  | _, _, .num _ _ _ h => printable_number h
  | _, _, .str _ _ h => printable_cons (by decide) (printable_append (printable_chars h)
      (printable_cons (by decide) printable_nil))
  | _, _, .arr0 _ h => printable_cons (by decide) (printable_append (printable_ws h)
      (printable_cons (by decide) printable_nil))
  | _, _, .arr _ _ h => printable_cons (by decide) (printable_append (printable_elems h)
      (printable_cons (by decide) printable_nil))
  | _, _, .obj0 _ h => printable_cons (by decide) (printable_append (printable_ws h)
      (printable_cons (by decide) printable_nil))
  | _, _, .obj _ _ h => printable_cons (by decide) (printable_append (printable_members h)
      (printable_cons (by decide) printable_nil))
private theorem printable_elems : ∀ {t : Bytes} {xs : List Json}, Elems true Number t xs → Printable t
  | _, _, .one _ _ _ _ h1 h2 h3 => printable_append (printable_ws h1) (printable_append (printable_text h2)
      (printable_ws h3))
  | _, _, .more _ _ _ _ _ _ h1 h2 h3 h4 => printable_append (printable_ws h1) (printable_append (printable_text h2)
      (printable_append (printable_ws h3) (printable_cons (by decide) (printable_elems h4))))
private theorem printable_members : ∀ {t : Bytes} {ms : List (Bytes × Json)}, Members true Number t ms → Printable t
  | _, _, .one _ _ _ _ _ _ _ _ h1 h2 h3 h4 h5 h6 => printable_append (printable_ws h1) (printable_cons (by decide)
      (printable_append (printable_chars h2) (printable_cons (by decide) (printable_append (printable_ws h3)
        (printable_cons (by decide) (printable_append (printable_ws h4) (printable_append (printable_text h5)
          (printable_ws h6))))))))
  | _, _, .more _ _ _ _ _ _ _ _ _ _ h1 h2 h3 h4 h5 h6 h7 => printable_append (printable_ws h1)
      (printable_cons (by decide) (printable_append (printable_chars h2) (printable_cons (by decide)
        (printable_append (printable_ws h3) (printable_cons (by decide) (printable_append (printable_ws h4)
          (printable_append (printable_text h5) (printable_append (printable_ws h6) (printable_cons (by decide)
            (printable_members h7))))))))))
end

private theorem printable_document {t : Bytes} {x : Json} (h : Document t x) : Printable t := by
  obtain ⟨a, u, b, rfl, h1, h2, h3⟩ := h
  exact printable_append (printable_ws h1) (printable_append (printable_text h2) (printable_ws h3))

/-- Negation of C78: control characters are written as they are, which no JSON text may contain: in texts … -/
theorem json_output_control :
    ∃ bs, save Fpconv.text true [] (.mk .array [([], .str [1])] []) = .ok bs ∧ ∀ x, ¬ Document bs x := by
  refine ⟨[91, 34, 1, 34, 93], by decide +kernel, fun x h => ?_⟩
  rcases printable_document h 1 (by simp) with h | h | h | h <;> exact absurd h (by decide)

/-- … and in names, there also line breaks. -/
theorem json_output_control_name :
    ∃ bs, save Fpconv.text true [] (.mk .object [([1], .null)] []) = .ok bs ∧ ∀ x, ¬ Document bs x := by
  refine ⟨[123, 34, 1, 34, 58, 110, 117, 108, 108, 125], by decide +kernel, fun x h => ?_⟩
  rcases printable_document h 1 (by simp) with h | h | h | h <;> exact absurd h (by decide)

private theorem one_number : Number [49] false 1 :=
  ⟨[49], [], [], [], 0, ⟨⟨by simp, by decide +kernel⟩, by simp⟩, .inl ⟨rfl, rfl⟩, .inl ⟨rfl, rfl⟩, rfl, by simp [Dec.num]⟩

/-- Negation of C78: names are not escaped, so that one value can pose as two: the text stands for an object with the
members `a` and `b`, the tree has one value. -/
theorem json_output_name :
    ∃ bs x, save Fpconv.text true [] (.mk .object [(str "a\":1,\"b", .int .i32 1)] []) = .ok bs ∧ Document bs x ∧
      x = .obj [(str "a", .num false 1), (str "b", .num false 1)] ∧
      ¬ NodeAs b64Spec (.mk .object [(str "a\":1,\"b", .int .i32 1)] []) x := by
  refine ⟨str "{\"a\":1,\"b\":1}", _, by decide +kernel, ⟨[], _, [], by simp; rfl, ws_nil, ?_, ws_nil⟩, rfl, ?_⟩
  · have h1 : Text true Number [49] (.num false 1) := .num _ _ _ one_number
    have hb : Chars true (str "b") (str "b") := chars_bare _ _ (by unfold Bare; decide +kernel)
    have ha : Chars true (str "a") (str "a") := chars_bare _ _ (by unfold Bare; decide +kernel)
    have hm := Members.more [] (str "a") (str "a") [] [] [49] [] _ (.num false 1) _ ws_nil ha ws_nil ws_nil h1 ws_nil
      (.one [] (str "b") (str "b") [] [] [49] [] (.num false 1) ws_nil hb ws_nil ws_nil h1 ws_nil)
    exact Text.obj _ _ hm
  · intro h
    cases h with
    | object _ _ _ h =>
      cases h

/-- What texts of values start with -/
private theorem text_head {t : Bytes} {x : Json} (h : Text true Number t x) :
    ∃ c r, t = c :: r ∧ c ≠ 105 ∧ c ≠ 32 := by
  cases h with
  | null => exact ⟨_, _, rfl, by decide, by decide⟩
  | true => exact ⟨_, _, rfl, by decide, by decide⟩
  | false => exact ⟨_, _, rfl, by decide, by decide⟩
  | num _ _ _ h =>
    obtain ⟨c, r, rfl, -⟩ := number_head h
    have key : ∀ c : UInt8, NChar c → c ≠ 105 ∧ c ≠ 32 := by decide +kernel
    exact ⟨c, r, rfl, key c (number_chars h c List.mem_cons_self)⟩
  | str _ _ h => exact ⟨_, _, rfl, by decide, by decide⟩
  | arr0 _ h => exact ⟨_, _, rfl, by decide, by decide⟩
  | arr _ _ h => exact ⟨_, _, rfl, by decide, by decide⟩
  | obj0 _ h => exact ⟨_, _, rfl, by decide, by decide⟩
  | obj _ _ h => exact ⟨_, _, rfl, by decide, by decide⟩

private theorem ws_head {w : Bytes} (hw : Ws w) {r s : Bytes} {c : UInt8} (hc : ¬ (c = 32 ∨ c = 9 ∨ c = 10 ∨ c = 13))
    (h : w ++ r = c :: s) : w = [] ∧ r = c :: s := by
  cases w with
  | nil => exact ⟨rfl, h⟩
  | cons b w =>
    simp only [List.cons_append, List.cons.injEq] at h
    exact absurd (h.1 ▸ hw b List.mem_cons_self) hc

/-- Negation of C78: infinity is written by its name, which is no JSON. -/
theorem json_output_inf :
    ∃ bs, save Fpconv.text true [] (.mk .array [([], .fp64 0x7FF0000000000000)] []) = .ok bs ∧
      ∀ x, ¬ Document bs x := by
  refine ⟨str "[inf]", by decide +kernel, fun x h => ?_⟩
  obtain ⟨a, u, b, he', h1, h2, h3⟩ := h
  obtain ⟨rfl, he⟩ := ws_head h1 (c := 91) (s := [105, 110, 102, 93]) (by decide) he'.symm
  clear he'
  have inner : ∀ {w : Bytes} {r : Bytes}, Ws w → w ++ [93] ++ r ≠ [105, 110, 102, 93] := by
    intro w r hw h
    obtain ⟨-, h⟩ := ws_head (r := [93] ++ r) hw (c := 105) (s := [110, 102, 93]) (by decide) (by simpa using h)
    simp at h
  have elems : ∀ {t r : Bytes} {xs : List Json}, Elems true Number t xs → t ++ r ≠ [105, 110, 102, 93] := by
    intro t r xs ht h
    cases ht with
    | one a t b x h1 h2 h3 =>
      obtain ⟨-, h⟩ := ws_head (r := t ++ b ++ r) h1 (c := 105) (s := [110, 102, 93]) (by decide) (by simpa using h)
      obtain ⟨c, s, rfl, hc, -⟩ := text_head h2
      simp only [List.cons_append, List.cons.injEq] at h
      exact hc h.1
    | more a t b u x xs h1 h2 h3 h4 =>
      obtain ⟨-, h⟩ := ws_head (r := t ++ (b ++ 44 :: u) ++ r) h1 (c := 105) (s := [110, 102, 93]) (by decide)
        (by simpa using h)
      obtain ⟨c, s, rfl, hc, -⟩ := text_head h2
      simp only [List.cons_append, List.cons.injEq] at h
      exact hc h.1
  cases h2 with
  | null => simp [str] at he
  | true => simp [str] at he
  | false => simp [str] at he
  | num _ _ _ h =>
    have hc := number_chars h
    obtain ⟨c, r, rfl, -⟩ := number_head h
    simp only [List.cons_append, List.cons.injEq] at he
    have := hc c List.mem_cons_self
    rw [he.1] at this
    exact absurd this (by unfold NChar; decide)
  | str _ _ h => simp at he
  | arr0 w h => simp only [List.cons_append, List.cons.injEq, true_and] at he; exact inner h he
  | arr t xs h =>
    simp only [List.cons_append, List.cons.injEq, true_and, List.append_assoc] at he
    exact elems h he
  | obj0 _ h => simp at he
  | obj _ _ h => simp at he

/-- Negation of C78: for the smallest integer and for the double `2^63` saving is undefined. -/
theorem json_output_undefined (compact : Bool) :
    save Fpconv.text compact [] (.mk .array [([], .int .i64 (-2 ^ 63))] []) = .ub ∧
    save Fpconv.text compact [] (.mk .array [([], .fp64 0x43E0000000000000)] []) = .ub ∧
    save Fpconv.text compact [] (.mk .array [([], .fp64 0xC3E0000000000000)] []) = .ub := by
  cases compact <;> exact ⟨Res.eq_ub (by decide +kernel), Res.eq_ub (by decide +kernel), Res.eq_ub (by decide +kernel)⟩

/-- Not vacuous: a tree with texts to be escaped, fractions and binary data. -/
example : NodeAll JsonWritable JsonName (.mk .object [(str "t", .str (str "say \"hi\"\n")),
    (str "h", .fp64 0x3FE0000000000000), (str "b", .bin [0, 1]), (str "n", .int .i8 (-128))]
    [(str "a", .mk .array [([0, 34], .null)] [])]) := by
  have hv : ∃ v, Fp.num64 0x3FE0000000000000 = .fin v ∧ v ≠ 2 ^ 63 * (Fp.one : Int) ∧ v ≠ -2 ^ 63 * (Fp.one : Int) :=
    ⟨2 ^ 1073, by decide +kernel, by decide +kernel, by decide +kernel⟩
  have hn : ∀ n ∈ [str "t", str "h", str "b", str "n", str "a"], JsonName n := by unfold JsonName; decide +kernel
  simp only [NodeAll, NodesAll, List.forall_mem_cons, JsonWritable]
  simp only [List.forall_mem_cons] at hn
  have he : ∀ b ∈ str "say \"hi\"\n", 32 ≤ b ∨ b = 8 ∨ b = 9 ∨ b = 10 ∨ b = 12 ∨ b = 13 := by decide +kernel
  simp only [hn, hv, true_and, implies_true]
  exact ⟨⟨he, by decide, by simp⟩, by simp⟩

/-! ## C79 -/

private theorem chars_mono {t s : Bytes} (h : Chars false t s) : Chars true t s := by
  induction h with
  | nil => exact .nil
  | plain b t s h1 h2 h3 _ ih => exact .plain b t s h1 h2 h3 ih
  | escape e r t s h1 _ ih => exact .escape e r t s h1 ih
  | unit c h t s h1 => cases h1
  | pair c h l t s h1 => cases h1

mutual
private theorem text_mono : ∀ {t : Bytes} {x : Json}, Text false Readable t x → Text true Number t x
  | _, _, .null => .null
  | _, _, .true => .true
  | _, _, .false => .false
  | _, _, .num _ _ _ h => .num _ _ _ h.1
  | _, _, .str _ _ h => .str _ _ (chars_mono h)
  | _, _, .arr0 _ h => .arr0 _ h
  | _, _, .arr _ _ h => .arr _ _ (elems_mono h)
  | _, _, .obj0 _ h => .obj0 _ h
  | _, _, .obj _ _ h => .obj _ _ (members_mono h)
private theorem elems_mono : ∀ {t : Bytes} {xs : List Json}, Elems false Readable t xs → Elems true Number t xs
  | _, _, .one _ _ _ _ h1 h2 h3 => .one _ _ _ _ h1 (text_mono h2) h3
  | _, _, .more _ _ _ _ _ _ h1 h2 h3 h4 => .more _ _ _ _ _ _ h1 (text_mono h2) h3 (elems_mono h4)
private theorem members_mono : ∀ {t : Bytes} {ms : List (Bytes × Json)}, Members false Readable t ms →
    Members true Number t ms
  | _, _, .one _ _ _ _ _ _ _ _ h1 h2 h3 h4 h5 h6 => .one _ _ _ _ _ _ _ _ h1 (chars_mono h2) h3 h4 (text_mono h5) h6
  | _, _, .more _ _ _ _ _ _ _ _ _ _ h1 h2 h3 h4 h5 h6 h7 =>
    .more _ _ _ _ _ _ _ _ _ _ h1 (chars_mono h2) h3 h4 (text_mono h5) h6 (members_mono h7)
end

/-- What the library reads is a part of JSON: numbers that are not too large, texts in which no character is written
by its number. -/
theorem readable_is_json {t : Bytes} {x : Json} (h : DocumentOf false Readable t x) : Document t x := by
  obtain ⟨a, u, b, h1, h2, h3, h4⟩ := h
  exact ⟨a, u, b, h1, h2, text_mono h3, h4⟩

/-- C79: a JSON text whose root is an array or object is read as the tree it stands for: all members, in their order,
names and texts with escapes resolved, integers exact, other numbers rounded to the nearest double, whatever blanks
are between. Blanks behind it and what follows are left. What is missing: characters written by numbers
(`json_input_unit`), integers from `2^64` up (`json_input_large`), and texts whose root is no array or object
(`json_input_scalar`). `strtod` is assumed to round correctly (`Rounds`, see `Rfc8259.rounds_some`). -/
theorem json_input_partial (m : Mem) (hm : m.Sane) (strtod : Bytes → Option UInt64) (hr : Rfc8259.Rounds strtod)
    (t : Bytes) (x : Json) (h : DocumentOf false Readable t x) (hx : x.isScope = true) (hd : x.depth ≤ 129)
    (old : Rd) (rest : Bytes) : ∃ root r' ws, Ws ws ∧ loadWith m strtod old (t ++ rest) = .ok (root, r', ws ++ rest) ∧
      NodeRead x root.node := by
  obtain ⟨n, r', ws, h1, h2, h3⟩ := document_read hm strtod hr h hx old rest
  rw [if_pos (by unfold maxDepth; exact hd)] at h3
  exact ⟨_, r', ws, h1, h3, h2⟩

/-- C79: … and if it is nested deeper, it is rejected with an exception. -/
theorem json_input_deep (m : Mem) (hm : m.Sane) (strtod : Bytes → Option UInt64) (hr : Rfc8259.Rounds strtod)
    (t : Bytes) (x : Json) (h : DocumentOf false Readable t x) (hd : 129 < x.depth) (old : Rd) (rest : Bytes) :
    loadWith m strtod old (t ++ rest) = .err := by
  have hx : x.isScope = true := by
    cases x <;> first | rfl | (simp only [Json.depth] at hd; omega)
  obtain ⟨n, r', ws, h1, h2, h3⟩ := document_read hm strtod hr h hx old rest
  rw [if_neg (by unfold maxDepth; omega)] at h3
  exact h3

/-- Negation of C79: a JSON text that is a string is rejected. -/
theorem json_input_scalar : Document (str "\"a\"") (.str (str "a")) ∧
    ∀ (m : Mem) (strtod : Bytes → Option UInt64), load m strtod (str "\"a\"") = .err := by
  constructor
  · exact ⟨[], _, [], by simp; rfl, ws_nil, .str _ _ (chars_bare _ (str "a") (by unfold Bare; decide +kernel)), ws_nil⟩
  · intro m strtod
    rfl

/-- A check of what is read that can be computed -/
private def readAs (res : Res (Root × Rd × Bytes)) (v : Val) : Bool :=
  match res with
  | .ok (⟨[], .mk .array [([], w)] []⟩, _, []) => w == v
  | _ => false

private theorem readAs_ok {res : Res (Root × Rd × Bytes)} {v : Val} (h : readAs res v = true) :
    ∃ r', res = .ok (⟨[], .mk .array [([], v)] []⟩, r', []) := by
  unfold readAs at h
  split at h
  · exact ⟨_, by rw [beq_iff_eq.mp h]⟩
  · cases h

/-- Negation of C79: integers from `2^64` up are read as other integers. -/
theorem json_input_large : Document (str "[30000000000000000000]") (.arr [.num false 30000000000000000000]) ∧
    ∃ w r', load ⟨some 0, 2 ^ 20⟩ (fun _ => none) (str "[30000000000000000000]") = .ok (⟨[], w⟩, r', []) ∧
      ¬ NodeRead (.arr [.num false 30000000000000000000]) w := by
  constructor
  · have hn : Number (str "30000000000000000000") false 30000000000000000000 :=
      ⟨str "30000000000000000000", [], [], [], 0, ⟨⟨by decide +kernel, by decide +kernel⟩, by decide +kernel⟩,
        .inl ⟨rfl, rfl⟩, .inl ⟨rfl, rfl⟩, rfl, by
          have : Dec.num (str "30000000000000000000" ++ []) = 30000000000000000000 := by decide +kernel
          rw [this]; norm_num⟩
    exact ⟨[], _, [], by simp; rfl, ws_nil, .arr _ _ (.one [] _ [] _ ws_nil (.num _ _ _ hn) ws_nil), ws_nil⟩
  · obtain ⟨r', h⟩ := readAs_ok (res := load ⟨some 0, 2 ^ 20⟩ (fun _ => none) (str "[30000000000000000000]"))
      (v := .int .u64 11553255926290448384) (by decide +kernel)
    refine ⟨_, r', h, fun hr => ?_⟩
    cases hr with
    | arr _ _ _ hf =>
      cases hf with
      | val _ _ _ _ _ _ hv _ =>
        simp only [ValueRead, NumberRead] at hv
        norm_num at hv

/-- Negation of C79: characters written by their numbers are read as others: `A` as U+4100. -/
theorem json_input_unit : Document (str "[\"\\u0041\"]") (.arr [.str (str "A")]) ∧
    ∃ w r', load ⟨some 0, 2 ^ 20⟩ (fun _ => none) (str "[\"\\u0041\"]") = .ok (⟨[], w⟩, r', []) ∧
      ¬ NodeRead (.arr [.str (str "A")]) w := by
  constructor
  · have hc : Chars true (str "\\u0041") (str "A") :=
      .unit 'A' (str "0041") [] [] rfl (by decide) ⟨48, 48, 52, 49, 0, 0, 4, 1, by decide +kernel, by decide, by decide,
        by decide, by decide, by decide⟩ .nil
    exact ⟨[], _, [], by simp; rfl, ws_nil, .arr _ _ (.one [] _ [] _ ws_nil (.str _ _ hc) ws_nil), ws_nil⟩
  · obtain ⟨r', h⟩ := readAs_ok (res := load ⟨some 0, 2 ^ 20⟩ (fun _ => none) (str "[\"\\u0041\"]"))
      (v := .str [0xE4, 0x84, 0x80]) (by decide +kernel)
    refine ⟨_, r', h, fun hr => ?_⟩
    cases hr with
    | arr _ _ _ hf =>
      cases hf with
      | val _ _ _ _ _ _ hv _ => exact absurd hv (by simp only [ValueRead]; decide +kernel)

/-- Not vacuous: blanks, names and texts with escapes, a fraction with an exponent, nested objects. -/
example : DocumentOf false Readable (str " {\"a\\n\" : [-2.5E+3 ,\t7],\"b\":\"\\/\"} ")
    (.obj [(str "a\n", .arr [.num true 2500, .num false 7]), (str "b", .str (str "/"))]) ∧
    (∃ strtod, Rfc8259.Rounds strtod) ∧ (⟨some 0, 2 ^ 20⟩ : Mem).Sane := by
  have small : ∀ n k : Nat, Fp.mag 52 n = k * Fp.one → n < Fp.inf64 - 1 →
      (k : ℚ) < (Dec.dbl (Fp.inf64 - 1) + Dec.dbl Fp.inf64) / 2 := by
    intro n k h1 h2
    have h3 := Dec.dbl_lt h2
    have h4 : Dec.dbl (Fp.inf64 - 1) ≤ Dec.dbl Fp.inf64 := Dec.dbl_le (Nat.sub_le _ _)
    rw [dbl_integral h1] at h3
    linarith
  have n1 : Readable (str "-2.5E+3") true 2500 := by
    refine ⟨⟨[50], [46, 53], [53], [69, 43, 51], 3, ⟨⟨by simp, by decide +kernel⟩, by simp⟩,
      .inr ⟨rfl, by simp, by decide +kernel⟩, .inr ⟨69, [43], [51], .inr rfl, ⟨by simp, by decide +kernel⟩, rfl,
        .inr (.inl ⟨rfl, by decide +kernel⟩)⟩, by decide +kernel, ?_⟩, fun h => ?_, ?_⟩
    · have : Dec.num ([50] ++ [53]) = 25 := by decide +kernel
      rw [this]; norm_num
    · exact absurd (h 46 (by decide +kernel)) (by decide +kernel)
    · exact_mod_cast small 0x40A3880000000000 2500 (by decide +kernel) (by decide +kernel)
  have n2 : Readable (str "7") false 7 := by
    refine ⟨⟨[55], [], [], [], 0, ⟨⟨by simp, by decide +kernel⟩, by simp⟩, .inl ⟨rfl, rfl⟩, .inl ⟨rfl, rfl⟩,
      by decide +kernel, ?_⟩, fun _ => by norm_num, ?_⟩
    · have : Dec.num ([55] ++ []) = 7 := by decide +kernel
      rw [this]; norm_num
    · exact_mod_cast small 0x401C000000000000 7 (by decide +kernel) (by decide +kernel)
  have c1 : Chars false (str "a\\n") (str "a\n") :=
    .plain 97 _ _ (by decide) (by decide) (by decide) (.escape 110 10 _ _ (by decide) .nil)
  have c2 : Chars false (str "b") (str "b") := chars_bare _ _ (by unfold Bare; decide +kernel)
  have c3 : Chars false (str "\\/") (str "/") := .escape 47 47 _ _ (by decide) .nil
  have w1 : Ws [32] := by unfold Ws; decide +kernel
  have w2 : Ws [9] := by unfold Ws; decide +kernel
  have a := Text.arr (uni := false) _ _ (.more [] _ [32] _ _ _ ws_nil (.num _ _ _ n1) w1
    (.one [9] _ [] _ w2 (.num _ _ _ n2) ws_nil))
  have o := Text.obj _ _ (.more [] _ _ [32] [32] _ [] _ _ _ ws_nil c1 w1 w1 a ws_nil
    (.one [] _ _ [] [] _ [] _ ws_nil c2 ws_nil ws_nil (.str _ _ c3) ws_nil))
  exact ⟨⟨[32], _, [32], by decide +kernel, w1, o, w1⟩, rounds_some, by unfold Mem.Sane; decide⟩

end Srl.Props
