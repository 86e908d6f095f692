import Verif.Lemmas.JsonLaxDoc
import Verif.Props.IntStr
import Verif.Props.JsonText

/-! # C85: texts that are no JSON are rejected

The property is: what the library loads is JSON, with comments wherever blanks are allowed (`OnlyJson`). The code
violates it. What it takes for documents is given by the grammar of `Verif/Props/JsonLaxSpec.lean`, which is proved to be
exactly that. -/

namespace Srl.Props
open Rfc8259 Doc PJson Lax

/-- C85 in full: what is loaded of a text is JSON with comments. -/
def OnlyJson (strtod : Bytes → Option UInt64) : Prop :=
  ∀ (m : Mem) (t : Bytes) (root : Root) (r : Rd) (rest : Bytes), m.Sane →
    PJson.load m strtod t = .ok (root, r, rest) → ∃ u x, t = u ++ rest ∧ Commented u x

/-! ## What is accepted -/

/-- C85 (what holds): what is loaded is a document of the wider grammar, nested at most 128 deep, and the tree has its
elements and no others. -/
theorem json_accepts_only_partial (m : Mem) (hm : m.Sane) (strtod : Bytes → Option UInt64) (old r : Rd) (t rest : Bytes)
    (root : Root) (h : loadWith m strtod old t = .ok (root, r, rest)) :
    ∃ k is, Lax.Document (wordOf strtod) t k is rest ∧ nesting is ≤ 128 ∧
      root.node = .mk k (keptValues is) (keptNodes is) :=
  load_document strtod hm h

/-- C85: every such document is accepted, if no escape `\uXXYY` has a `YY` above 07 (C32: they may make the library
write outside of a buffer). So nothing can be left out of the grammar. -/
theorem json_accepts_all (m : Mem) (hm : m.Sane) (strtod : Bytes → Option UInt64) (old : Rd) (t rest : Bytes)
    (k : ScopeTy) (is : List Item) (h : Lax.Document (wordOf strtod) t k is rest) (hu : UOk t) (hd : nesting is ≤ 128) :
    ∃ n r, loadWith m strtod old t = .ok (⟨n, .mk k (keptValues is) (keptNodes is)⟩, r, rest) :=
  document_load strtod hm old h hu hd

/-- `{x, "a" [1 2], b: 'true}` is a document of the wider grammar: `"a"` is an array of two numbers, and what is behind
it has the empty name. -/
example : Lax.Document (wordOf fun _ => none) (str "{x, \"a\" [1 2], b: 'true}") .object
    [.scope (str "a") .array [.val [] (.int .u64 1), .val [] (.int .u64 2)], .val [] (.bool true)] [] := by
  refine ⟨[], str "x, \"a\" [1 2], b: 'true}", .opened none false .object _, ?_⟩
  refine .scope _ _ _ _ _ _ (str "1 2], b: 'true}") (str ", b: 'true}") _ ?_ ?_ ?_
  · refine .junk _ _ 120 _ _ _ (by decide) (.inl (by decide)) (.junk _ _ 44 _ _ _ (by decide) (.inl (by decide))
      (.junk _ _ 32 _ _ _ (by decide) (.inl (by decide)) ?_))
    exact .name [97] _ _ _ _ rfl (.plain _ _ _ (by decide) (by decide) .nil)
      (.junk _ _ 32 _ _ _ (by decide) (.inl (by decide)) (.opened _ _ .array _))
  · refine .val _ _ _ _ _ (str "2], b: 'true}") _
      (.word none false 49 [] 32 _ _ (.inr rfl) (by decide +kernel) (by simp) (by decide +kernel) (by decide +kernel)) ?_
    exact .val _ _ _ _ _ (str "], b: 'true}") _
      (.word none false 50 [] 93 _ _ (.inr rfl) (by decide +kernel) (by simp) (by decide +kernel) (by decide +kernel))
      (.nil _ _ _ _ (.closed none false 93 _ (by simp) (.inl rfl)))
  · refine .val _ _ _ _ _ (str "}") _ ?_ (.nil _ _ _ _ (.closed none false 125 _ (by simp) (.inr rfl)))
    refine .junk _ _ 44 _ _ _ (by decide) (.inl (by decide)) (.junk _ _ 32 _ _ _ (by decide) (.inl (by decide))
      (.junk _ _ 98 _ _ _ (by decide) (.inl (by decide)) (.colon _ _ _ _ ?_)))
    refine .junk _ _ 32 _ _ _ (by decide) (.inr (by decide)) (.junk _ _ 39 _ _ _ (by decide) (.inr (by decide)) ?_)
    exact .word none true 116 (str "rue") 125 _ _ (.inl rfl) (by decide +kernel) (by decide +kernel) (by decide +kernel)
      (by decide +kernel)

/-- C85: what words are taken for: apart from white space around them they are one of the three literals, digits with
or without a minus sign, or something `strtod` takes as a whole. -/
theorem json_words (strtod : Bytes → Option UInt64) (w : Bytes) (v : Val) (h : wordOf strtod w = some v) :
    ∃ a t b, w = a ++ (t ++ b) ∧ (∀ c ∈ a ++ b, c = 32 ∨ (9 ≤ c.toNat ∧ c.toNat ≤ 13)) ∧
      (t = str "true" ∧ v = .bool true ∨ t = str "false" ∧ v = .bool false ∨ t = str "null" ∧ v = .null ∨
      (∃ (neg : Bool) (ds : Bytes), t = (if neg then [45] else []) ++ ds ∧ ds ≠ [] ∧ ∀ c ∈ ds, 48 ≤ c.toNat ∧ c.toNat ≤ 57) ∨
      ∃ d, strtod t = some d ∧ v = Fp.ofDouble d) := by
  have hsp : ∀ c : UInt8, IntStr.isSpace c = true → c = 32 ∨ (9 ≤ c.toNat ∧ c.toNat ≤ 13) := by decide +kernel
  refine ⟨w.takeWhile IntStr.isSpace, IntStr.trimSpace w,
    ((w.dropWhile IntStr.isSpace).reverse.takeWhile IntStr.isSpace).reverse, ?_, ?_, ?_⟩
  · conv => lhs; rw [← List.takeWhile_append_dropWhile (p := IntStr.isSpace) (l := w)]
    congr 1
    unfold IntStr.trimSpace
    rw [← List.reverse_append, List.takeWhile_append_dropWhile, List.reverse_reverse]
  · have htw : ∀ (l : Bytes), ∀ c ∈ l.takeWhile IntStr.isSpace, IntStr.isSpace c = true := by
      intro l c hc
      induction l with
      | nil => cases hc
      | cons a l ih =>
        rw [List.takeWhile_cons] at hc
        split at hc
        · next ha =>
          rcases List.mem_cons.mp hc with rfl | hc
          · exact ha
          · exact ih hc
        · cases hc
    intro c hc
    rcases List.mem_append.mp hc with hc | hc
    · exact hsp c (htw _ c hc)
    · exact hsp c (htw _ c (List.mem_reverse.mp hc))
  · simp only [wordOf, IntStr.strToType] at h
    generalize IntStr.trimSpace w = t at h ⊢
    have hcons : ∀ {c : UInt8} {l : Bytes}, t.headD 0 = c → t.drop 1 = l → t ≠ [] → t = c :: l := by
      intro c l h1 h2 h3
      cases t with
      | nil => exact absurd rfl h3
      | cons a t => simp only [List.headD_cons, List.drop_succ_cons, List.drop_zero] at h1 h2; rw [h1, h2]
    split at h
    · cases h
    · next hl =>
      have hne : t ≠ [] := by rintro rfl; simp at hl
      split at h
      · next hc =>
        cases h
        obtain ⟨-, h1, h2, -, h3⟩ := hc
        left
        rcases h2 with h2 | h2
        · exact ⟨hcons h2 h3 hne, rfl⟩
        · rw [h2] at h1; exact absurd h1 (by decide)
      · split at h
        · next hc =>
          cases h
          obtain ⟨-, h1, h2, -, h3⟩ := hc
          right; left
          rcases h2 with h2 | h2
          · exact ⟨hcons h2 h3 hne, rfl⟩
          · rw [h2] at h1; exact absurd h1 (by decide)
        · split at h
          · next hc =>
            cases h
            obtain ⟨-, h1, h2, -, h3⟩ := hc
            right; right; left
            rcases h2 with h2 | h2
            · exact ⟨hcons h2 h3 hne, rfl⟩
            · rw [h2] at h1; exact absurd h1 (by decide)
          · right; right; right
            have hint : ∀ i neg, IntStr.strToInt t = some (i, neg) →
                ∃ (neg : Bool) (ds : Bytes), t = (if neg then [45] else []) ++ ds ∧ ds ≠ [] ∧
                  ∀ c ∈ ds, 48 ≤ c.toNat ∧ c.toNat ≤ 57 := by
              intro i neg hi
              obtain ⟨ds, h1, h2, _, _⟩ := int_text_shape t i neg hi
              refine ⟨neg, ds, h1, ?_, h2⟩
              rintro rfl
              cases neg with
              | false => exact hne (by simpa using h1)
              | true =>
                rw [h1] at hi
                exact absurd hi (by rw [show IntStr.strToInt ((if true = true then [45] else []) ++ []) = none by decide]; simp)
            split at h
            · next heq => split at heq
                          · cases heq
                          · exact .inl (hint _ _ heq)
            · next heq => split at heq
                          · cases heq
                          · exact .inl (hint _ _ heq)
            · cases hs : strtod t with
              | none => rw [hs] at h; cases h
              | some d => rw [hs] at h; cases h; exact .inr ⟨d, rfl, rfl⟩

/-- `truth` is taken for nothing, whatever `strtod` does with it but take it. -/
example : wordOf (fun _ => none) (str "truth") = none ∧ wordOf (fun _ => none) (str "12\n") = some (.int .u64 12) := by
  decide +kernel

/-- C85: arrays that begin with a word that is taken for nothing are rejected. -/
theorem json_word_rejected (m : Mem) (hm : m.Sane) (strtod : Bytes → Option UInt64) (old : Rd) (b : UInt8) (w : Bytes)
    (l : UInt8) (t : Bytes) (hb : b ∈ starts) (hw : ∀ c ∈ w, c ∉ ends) (hl : l ∈ ends)
    (hv : wordOf strtod (b :: w) = none) (root : Root) (r : Rd) (rest : Bytes) :
    loadWith m strtod old (91 :: b :: (w ++ l :: t)) ≠ .ok (root, r, rest) := by
  intro h
  obtain ⟨k, is, ⟨n, u, h1, h2⟩, -, -⟩ := json_accepts_only_partial m hm strtod old r _ rest root h
  -- the bracket
  have hu : u = b :: (w ++ l :: t) ∧ k = .array := by
    generalize hs : (91 : UInt8) :: b :: (w ++ l :: t) = s at h1
    generalize he : (⟨n, .scope k⟩ : Event) = e at h1
    cases h1 with
    | junk _ _ c _ _ _ hc => cases hs; exact absurd (by decide) hc
    | slash => cases hs
    | line => cases hs
    | block => cases hs
    | colon => cases hs
    | name => cases hs
    | str => cases he
    | word _ _ _ _ _ _ _ h3 => simp at h3
    | opened _ _ k' =>
      cases he
      cases k with
      | array => simp only [List.cons.injEq, true_and] at hs; exact ⟨hs.symm, rfl⟩
      | object => simp at hs
    | closed => cases he
  obtain ⟨rfl, rfl⟩ := hu
  -- the word
  have hsplit : ∀ (w' s' : Bytes) (l' : UInt8), (∀ c ∈ w', c ∉ ends) → l' ∈ ends → w ++ l :: t = w' ++ l' :: s' → w = w' := by
    clear h h1 h2 hv hb
    induction w with
    | nil =>
      intro w' s' l' h1 h2 h3
      cases w' with
      | nil => rfl
      | cons c w' =>
        simp only [List.nil_append, List.cons_append, List.cons.injEq] at h3
        exact absurd (h3.1 ▸ hl) (h1 c (by simp))
    | cons a w ih =>
      intro w' s' l' h1 h2 h3
      cases w' with
      | nil =>
        simp only [List.nil_append, List.cons_append, List.cons.injEq] at h3
        exact absurd (h3.1.symm ▸ h2) (hw a (by simp))
      | cons c w' =>
        simp only [List.cons_append, List.cons.injEq] at h3
        rw [h3.1, ih (fun c hc => hw c (by simp [hc])) w' s' l' (fun c hc => h1 c (by simp [hc])) h2 h3.2]
  have hnot : ∀ e u, ¬ Token (wordOf strtod) (some .array) none false (b :: (w ++ l :: t)) e u := by
    intro e u ht
    have hm : b ∉ marks := by
      intro hm
      have : ∀ b : UInt8, b ∈ starts → b ∉ marks := by decide +kernel
      exact this b hb hm
    have hmb : ∀ c ∈ marks, b ≠ c := fun c hc h => hm (h ▸ hc)
    generalize hs : b :: (w ++ l :: t) = s at ht
    cases ht with
    | junk _ _ c _ _ _ _ hc =>
      cases hs
      rcases hc with hc | hc
      · exact hc.2 rfl
      · exact hc hb
    | slash => simp only [List.cons.injEq] at hs; exact hmb 47 (by decide) hs.1
    | line => simp only [List.cons.injEq] at hs; exact hmb 47 (by decide) hs.1
    | block => simp only [List.cons.injEq] at hs; exact hmb 47 (by decide) hs.1
    | colon => simp only [List.cons.injEq] at hs; exact hmb 58 (by decide) hs.1
    | name => simp only [List.cons.injEq] at hs; exact hmb 34 (by decide) hs.1
    | str => simp only [List.cons.injEq] at hs; exact hmb 34 (by decide) hs.1
    | word _ _ _ w' l' s' v _ _ h3 h4 h5 =>
      simp only [List.cons.injEq] at hs
      obtain ⟨rfl, hs⟩ := hs
      rw [hsplit w' s' l' h3 h4 hs, h5] at hv
      cases hv
    | opened _ _ k =>
      simp only [List.cons.injEq] at hs
      cases k
      · exact hmb 123 (by decide) hs.1
      · exact hmb 91 (by decide) hs.1
    | closed _ _ c _ _ hc =>
      simp only [List.cons.injEq] at hs
      rcases hc with rfl | rfl
      · exact hmb 93 (by decide) hs.1
      · exact hmb 125 (by decide) hs.1
  cases h2 with
  | nil _ _ _ _ h => exact hnot _ _ h
  | val _ _ _ _ _ _ _ h => exact hnot _ _ h
  | scope _ _ _ _ _ _ _ _ _ h => exact hnot _ _ h

/-- `[nil]` -/
example : (110 : UInt8) ∈ starts ∧ (∀ c ∈ str "il", c ∉ ends) ∧ (93 : UInt8) ∈ ends ∧
    wordOf (fun _ => none) (str "nil") = none := by decide +kernel

/-! ## What should not be -/

/-- The bytes of JSON texts outside of strings and comments -/
def bareBytes : Bytes := str " \t\n\r[]{},:0123456789+-.eEnultrfas"

/-- All bytes are of this kind, or there are strings or comments. -/
private def Bare (t : Bytes) : Prop := 34 ∈ t ∨ 47 ∈ t ∨ ∀ b ∈ t, b ∈ bareBytes

private theorem Bare.append {s t : Bytes} (h : Bare s) (h' : Bare t) : Bare (s ++ t) := by
  unfold Bare at *
  simp only [List.mem_append]
  rcases h with h | h | h
  · exact .inl (.inl h)
  · exact .inr (.inl (.inl h))
  · rcases h' with h' | h' | h'
    · exact .inl (.inr h')
    · exact .inr (.inl (.inr h'))
    · exact .inr (.inr fun b hb => hb.elim (h b) (h' b))

private theorem Bare.cons {b : UInt8} {t : Bytes} (h : b ∈ bareBytes) (h' : Bare t) : Bare (b :: t) :=
  Bare.append (s := [b]) (.inr (.inr fun c hc => by rw [List.mem_singleton.mp hc]; exact h)) h'

private theorem bare_gap {t : Bytes} (h : Gap false t) : Bare t := by
  induction h with
  | nil => exact .inr (.inr (by simp))
  | blank b t hb _ ih => exact ih.cons (by rcases hb with rfl | rfl | rfl | rfl <;> decide)
  | line => exact .inr (.inl (by simp))
  | block => exact .inr (.inl (by simp))

private theorem bare_number {t : Bytes} {neg : Bool} {v : ℚ} (h : Number t neg v) : Bare t := by
  refine .inr (.inr fun b hb => ?_)
  have : ∀ b : UInt8, NChar b → b ∈ bareBytes := by decide +kernel
  exact this b (number_chars h b hb)

mutual
private theorem bare_text : ∀ {t : Bytes} {x : Json}, CText false true Number t x → Bare t
  | _, _, .null => .inr (.inr (by decide +kernel))
  | _, _, .true => .inr (.inr (by decide +kernel))
  | _, _, .false => .inr (.inr (by decide +kernel))
  | _, _, .num _ _ _ h => bare_number h
  | _, _, .str _ _ _ => .inl (by simp)
  | _, _, .arr0 _ h => ((bare_gap h).append (.inr (.inr (by decide +kernel)))).cons (by decide +kernel)
  | _, _, .arr _ _ h => ((bare_elems h).append (.inr (.inr (by decide +kernel)))).cons (by decide +kernel)
  | _, _, .obj0 _ h => ((bare_gap h).append (.inr (.inr (by decide +kernel)))).cons (by decide +kernel)
  | _, _, .obj _ _ h => ((bare_members h).append (.inr (.inr (by decide +kernel)))).cons (by decide +kernel)
private theorem bare_elems : ∀ {t : Bytes} {xs : List Json}, CElems false true Number t xs → Bare t
  | _, _, .one _ _ _ _ h1 h2 h3 => (bare_gap h1).append ((bare_text h2).append (bare_gap h3.1))
  | _, _, .more _ _ _ _ _ _ h1 h2 h3 h4 =>
    (bare_gap h1).append ((bare_text h2).append ((bare_gap h3.1).append ((bare_elems h4).cons (by decide +kernel))))
private theorem bare_members : ∀ {t : Bytes} {ms : List (Bytes × Json)}, CMembers false true Number t ms → Bare t
  | _, _, .one _ _ _ _ _ _ _ _ _ _ _ _ _ _ => .inl (by simp)
  | _, _, .more _ _ _ _ _ _ _ _ _ _ _ _ _ _ _ _ _ => .inl (by simp)
end

/-- Negation of C85: anything at all is accepted as an empty object if it is in braces and without quotes, colons,
brackets, slashes (and backslashes). -/
theorem json_garbage (m : Mem) (hm : m.Sane) (strtod : Bytes → Option UInt64) (old : Rd) (x : Bytes)
    (h : ∀ b ∈ x, b ∉ marks ∧ b ≠ 92) :
    (∃ n r, loadWith m strtod old (123 :: (x ++ [125])) = .ok (⟨n, .mk .object [] []⟩, r, [])) ∧
    ((∃ b ∈ x, b ∉ bareBytes) → ∀ y, ¬ Commented (123 :: (x ++ [125])) y) := by
  constructor
  · have hx : Token (wordOf strtod) (some .object) none false (x ++ [125]) ⟨[], .scopeEnd⟩ [] :=
      token_junk strtod x (fun b hb => ⟨(h b hb).1, .inl ⟨rfl, by decide⟩⟩)
        (.closed none false 125 [] (by simp) (.inr rfl))
    have hd : Lax.Document (wordOf strtod) (123 :: (x ++ [125])) .object [] [] :=
      ⟨[], _, .opened none false .object _, .nil _ _ _ _ hx⟩
    obtain ⟨n, r, hr⟩ := json_accepts_all m hm strtod old _ [] .object [] hd (by
      intro a d1 d2 d3 d4 b he
      have : (92 : UInt8) ∈ 123 :: (x ++ [125]) := by rw [he]; simp
      rcases List.mem_cons.mp this with h1 | h1
      · cases h1
      · rcases List.mem_append.mp h1 with h1 | h1
        · exact absurd rfl (h 92 h1).2
        · simp at h1) (by simp [nesting])
    exact ⟨n, r, by rw [hr]; simp [keptValues, keptNodes]⟩
  · rintro ⟨b, hb, hn⟩ y ⟨p, u, q, he, h1, h2, h3⟩
    have := (bare_gap h1).append ((bare_text h2).append (bare_gap h3))
    rw [← he] at this
    rcases this with h4 | h4 | h4
    · rcases List.mem_cons.mp h4 with h4 | h4
      · cases h4
      · rcases List.mem_append.mp h4 with h4 | h4
        · exact (h _ h4).1 (by decide)
        · simp at h4
    · rcases List.mem_cons.mp h4 with h4 | h4
      · cases h4
      · rcases List.mem_append.mp h4 with h4 | h4
        · exact (h _ h4).1 (by decide)
        · simp at h4
    · exact hn (h4 b (by simp [hb]))

/-- `{hello world}` -/
example : (∀ b ∈ str "hello world", b ∉ marks ∧ b ≠ 92) ∧ ∃ b ∈ str "hello world", b ∉ bareBytes :=
  ⟨by decide +kernel, 104, by decide, by decide⟩

private theorem gap_front {w : Bytes} (hw : Gap false w) {r s : Bytes} {c : UInt8}
    (hc : c ≠ 32 ∧ c ≠ 9 ∧ c ≠ 10 ∧ c ≠ 13 ∧ c ≠ 47) (h : w ++ r = c :: s) : w = [] ∧ r = c :: s := by
  cases hw with
  | nil => exact ⟨rfl, h⟩
  | blank b t hb =>
    simp only [List.cons_append, List.cons.injEq] at h
    obtain ⟨rfl, _⟩ := h
    rcases hb with rfl | rfl | rfl | rfl <;> simp at hc
  | line => simp only [List.cons_append, List.cons.injEq] at h; exact absurd h.1.symm hc.2.2.2.2
  | block => simp only [List.cons_append, List.cons.injEq] at h; exact absurd h.1.symm hc.2.2.2.2

private theorem gap_blanks {w : Bytes} (hw : Gap false w) (h : 47 ∉ w) : ∀ b ∈ w, b = 32 ∨ b = 9 ∨ b = 10 ∨ b = 13 := by
  induction hw with
  | nil => simp
  | blank b t hb _ ih =>
    intro c hc
    rcases List.mem_cons.mp hc with rfl | hc
    · exact hb
    · exact ih (fun h' => h (List.mem_cons_of_mem _ h')) c hc
  | line => simp at h
  | block => simp at h

private theorem number_no {t : Bytes} {neg : Bool} {v : ℚ} (h : Number t neg v) {c : UInt8} (hc : ¬ NChar c) : c ∉ t :=
  fun hm => hc (number_chars h c hm)

/-- Negation of C85: `{"a"}`, a name without a value, is accepted as an empty object. -/
theorem json_no_value (strtod : Bytes → Option UInt64) : ¬ OnlyJson strtod := by
  intro h
  have hl : ∃ root r, PJson.load ⟨some 0, 4096⟩ strtod (str "{\"a\"}") = .ok (root, r, []) := by
    obtain ⟨n, r, hr⟩ := json_accepts_all ⟨some 0, 4096⟩ (by unfold Mem.Sane; decide) strtod Rd.new (str "{\"a\"}") []
      .object [] ⟨[], str "\"a\"}", .opened none false .object _, .nil _ (str "a") _ _
        (.name [97] [97] [125] _ _ rfl (.plain _ _ _ (by decide) (by decide) .nil)
          (.closed (some [97]) false 125 [] (by simp) (.inr rfl)))⟩ (by
        intro a d1 d2 d3 d4 b he
        have : (92 : UInt8) ∈ str "{\"a\"}" := by rw [he]; simp
        exact absurd this (by decide)) (by simp [nesting])
    exact ⟨_, r, hr⟩
  obtain ⟨root, r, hl⟩ := hl
  obtain ⟨u, x, h1, h2⟩ := h _ _ root r [] (by unfold Mem.Sane; decide) hl
  rw [List.append_nil] at h1
  subst h1
  obtain ⟨a, t, b, he, h3, h4, h5⟩ := h2
  obtain ⟨-, he⟩ := gap_front h3 (c := 123) (s := [34, 97, 34, 125]) (by decide) he.symm
  have hmem : ∀ {t : Bytes} {ms : List (Bytes × Json)}, CMembers false true Number t ms → 58 ∈ t := by
    intro t ms h
    cases h <;> simp
  cases h4 with
  | null => simp [str] at he
  | true => simp [str] at he
  | false => simp [str] at he
  | num t neg v hn =>
    obtain ⟨c, s, rfl, -⟩ := number_head hn
    simp only [List.cons_append, List.cons.injEq] at he
    exact number_no hn (c := 123) (by decide) (by simp [he.1])
  | str => simp at he
  | arr0 => simp at he
  | arr => simp at he
  | obj0 w hw =>
    simp only [List.cons_append, List.append_assoc, List.cons.injEq, true_and] at he
    obtain ⟨-, he⟩ := gap_front hw (c := 34) (s := [97, 34, 125]) (by decide) he
    simp at he
  | obj t ms hm =>
    have : (58 : UInt8) ∈ 123 :: (t ++ [125]) ++ b := by simp [hmem hm]
    rw [he] at this
    exact absurd this (by decide)

/-- Negation of C85: `[1 2]`, without a comma, is accepted as two numbers. -/
theorem json_no_comma : (∃ root r, PJson.load ⟨some 0, 4096⟩ (fun _ => none) (str "[1 2]") = .ok (root, r, []) ∧
      root.node = .mk .array [([], .int .u64 1), ([], .int .u64 2)] []) ∧ ∀ x, ¬ Commented (str "[1 2]") x := by
  constructor
  · obtain ⟨n, r, hr⟩ := json_accepts_all ⟨some 0, 4096⟩ (by unfold Mem.Sane; decide) (fun _ => none) Rd.new (str "[1 2]")
      [] .array [.val [] (.int .u64 1), .val [] (.int .u64 2)] ⟨[], str "1 2]", .opened none false .array _,
        .val _ _ _ _ _ (str "2]") _ (.word none false 49 [] 32 _ _ (.inr rfl) (by decide +kernel) (by simp)
          (by decide +kernel) (by decide +kernel))
        (.val _ _ _ _ _ (str "]") _ (.word none false 50 [] 93 _ _ (.inr rfl) (by decide +kernel) (by simp)
          (by decide +kernel) (by decide +kernel))
        (.nil _ [] _ _ (.closed none false 93 _ (by simp) (.inl rfl))))⟩ (by
        intro a d1 d2 d3 d4 b he
        have : (92 : UInt8) ∈ str "[1 2]" := by rw [he]; simp
        exact absurd this (by decide)) (by simp [nesting])
    exact ⟨_, r, hr, by simp [keptValues, keptNodes]⟩
  · rintro x ⟨a, t, b, he, h3, h4, h5⟩
    obtain ⟨-, he⟩ := gap_front h3 (c := 91) (s := [49, 32, 50, 93]) (by decide) he.symm
    have no47 : ∀ {s : Bytes}, (∀ c ∈ s, c ∈ str "[1 2]") → 47 ∉ s := by
      intro s hs h
      exact absurd (hs 47 h) (by decide)
    -- blanks at the end, behind something that is none
    have back : ∀ {p w : Bytes} {s : Bytes} {c : UInt8}, Gap false w → (∀ d ∈ s ++ [c], d ∈ str "[1 2]") →
        ¬ (c = 32 ∨ c = 9 ∨ c = 10 ∨ c = 13) → p ++ w = s ++ [c] → p = s ++ [c] := by
      intro p w s c hw hs hc he
      rcases List.eq_nil_or_concat w with rfl | ⟨w', d, rfl⟩
      · simpa using he
      · rw [List.concat_eq_append, ← List.append_assoc] at he
        obtain ⟨h1, h2⟩ := List.append_inj' he rfl
        cases h2
        refine absurd (gap_blanks hw ?_ c (by simp)) hc
        apply no47
        intro e he'
        apply hs
        rw [← he]
        simp only [List.concat_eq_append, List.mem_append, List.mem_singleton] at he' ⊢
        tauto
    cases h4 with
    | null => simp [str] at he
    | true => simp [str] at he
    | false => simp [str] at he
    | num t neg v hn =>
      obtain ⟨c, s, rfl, -⟩ := number_head hn
      simp only [List.cons_append, List.cons.injEq] at he
      exact number_no hn (c := 91) (by decide) (by simp [he.1])
    | str => simp at he
    | arr0 w hw =>
      simp only [List.cons_append, List.append_assoc, List.cons.injEq, true_and] at he
      obtain ⟨-, he⟩ := gap_front hw (c := 49) (s := [32, 50, 93]) (by decide) he
      simp at he
    | arr t xs hm =>
      simp only [List.cons_append, List.cons.injEq, true_and] at he
      have ht := back (s := [49, 32, 50]) (c := 93) h5 (by decide +kernel) (by decide) he
      obtain ⟨rfl, -⟩ := List.append_inj' ht rfl
      generalize hg : ([49, 32, 50] : Bytes) = g at hm
      cases hm with
      | one a u b x k1 k2 k3 =>
        obtain ⟨-, hg⟩ := gap_front k1 (c := 49) (s := [32, 50]) (by decide) hg.symm
        have hu := back (s := [49, 32]) (c := 50) k3.1 (by decide +kernel) (by decide) hg
        cases k2 with
        | null => simp [str] at hu
        | true => simp [str] at hu
        | false => simp [str] at hu
        | num u neg v hn => subst hu; exact number_no hn (c := 32) (by decide) (by simp)
        | str => simp at hu
        | arr0 => simp at hu
        | arr => simp at hu
        | obj0 => simp at hu
        | obj => simp at hu
      | more a u b w x xs k1 k2 k3 k4 =>
        have : (44 : UInt8) ∈ ([49, 32, 50] : Bytes) := by rw [hg]; simp
        exact absurd this (by decide)
    | obj0 => simp at he
    | obj => simp at he

end Srl.Props
