import Verif.Lemmas.MsgPackLax

/-! # C86: bytes that are not MessagePack are rejected

The property is: what the library loads is MessagePack (with strings as keys, which is all it supports) (`OnlyMsgPack`).
The code violates it. What it takes for documents is given by the grammar of `Verif/Props/MsgPackLaxSpec.lean`, which is
proved to be exactly that. -/

namespace Srl.Props
open PMsgPack LaxMp

/-- C86 in full: what is loaded is MessagePack. -/
def OnlyMsgPack : Prop :=
  ∀ (m : Mem) (s : Bytes) (root : Root) (st : List RScope) (rest : Bytes), m.Sane →
    PMsgPack.load m s = .ok (root, (st, rest)) →
    ∃ u t kids, s = u ++ rest ∧ MsgPack.Format true false (.scope [] t kids) u

/-- C86 (what holds): what is loaded is a document of the wider grammar, nested at most 128 deep, and the tree has its
elements and no others. -/
theorem msgpack_accepts_only_partial (m : Mem) (hm : m.Sane) (s rest : Bytes) (root : Root) (st : List RScope)
    (h : PMsgPack.load m s = .ok (root, (st, rest))) :
    ∃ t is b, LaxMp.Document true t is b ∧ s = b ++ rest ∧ nesting is ≤ 128 ∧
      root = ⟨[], .mk t (keptValues is) (keptNodes is)⟩ := by
  obtain ⟨t, is, b, h1, h2, h3, h4, _⟩ := LaxMp.load_document hm h
  exact ⟨t, is, b, h1, h2, h3, h4⟩

/-- C86: every such document is accepted, so nothing can be left out of the grammar. -/
theorem msgpack_accepts_all (m : Mem) (hm : m.Sane) (t : ScopeTy) (is : List Item) (b rest : Bytes)
    (h : LaxMp.Document true t is b) (hd : nesting is ≤ 128) :
    PMsgPack.load m (b ++ rest) = .ok (⟨[], .mk t (keptValues is) (keptNodes is)⟩, ([], rest)) :=
  LaxMp.document_load hm h rest hd

/-- `{FF: [C1, "a" with a length of two bytes]}`: the key is no string -/
example : LaxMp.Document true .object
    [.scope [] .array [.val [] (.int .i32 (-31)), .val [] (.str [97])]] [0x81, 0xff, 0x92, 0xc1, 0xda, 1, 0, 97] :=
  ⟨[0x81], _, .inl ⟨by decide, rfl⟩,
    .scope _ _ _ _ _ [0xff] [0x92] [0xc1, 0xda, 1, 0, 97] []
      (.inr ⟨rfl, rfl, 0xff, by unfold startsText; decide, rfl⟩) (.inl ⟨by decide, rfl⟩)
      (.val _ _ _ _ [] [0xc1] _ ⟨rfl, rfl⟩ (.reserved rfl)
        (.val _ _ _ _ [] [0xda, 1, 0, 97] [] ⟨rfl, rfl⟩
          (.text _ _ (.inr (.inr (.inl ⟨rfl, by decide, by decide⟩)))) (.nil _)))
      (.nil _), rfl⟩

private theorem even_text {s b : Bytes} (h : Text false s b) : MsgPack.StrFormat false s b := by
  rcases h with ⟨h, rfl⟩ | ⟨h, rfl⟩ | ⟨h, _⟩ | ⟨h, _⟩
  · exact .inl ⟨h, rfl⟩
  · exact .inr (.inl ⟨h, by simp [MsgPack.big, Nat.mod_eq_of_lt (show s.length < 256 from h)]⟩)
  · cases h
  · cases h

private theorem even_value {v : Val} {b : Bytes} (h : Value false v b) :
    ∃ v', MsgPack.ValFormat false v' b ∧ MpVal v' v := by
  cases h with
  | null => exact ⟨.null, rfl, rfl⟩
  | bool v => exact ⟨.bool v, rfl, rfl⟩
  | pos v h1 h2 =>
    exact ⟨.int .i32 v, .inl ⟨h1, h2, rfl⟩, .i32, rfl, by simp [IntTy.lo, IntTy.signed, IntTy.bits]; omega,
      by simp [IntTy.hi, IntTy.signed, IntTy.bits]; omega⟩
  | neg v h1 h2 =>
    exact ⟨.int .i32 v, .inr (.inl ⟨h1, h2, rfl⟩), .i32, rfl, by simp [IntTy.lo, IntTy.signed, IntTy.bits]; omega,
      by simp [IntTy.hi, IntTy.signed, IntTy.bits]; omega⟩
  | int t v h1 h2 =>
    refine ⟨.int t v, ?_, t, rfl, h1, h2⟩
    unfold MsgPack.ValFormat MsgPack.IntFormat
    cases t <;> simp only [IntTy.lo, IntTy.hi, IntTy.signed, IntTy.bits] at h1 h2 <;>
      norm_num at h1 h2 <;> simp only [intMark, IntTy.bits]
    case i8 => right; right; right; right; right; right; left; exact ⟨by omega, by omega, trivial⟩
    case i16 => right; right; right; right; right; right; right; left; exact ⟨by omega, by omega, trivial⟩
    case i32 => right; right; right; right; right; right; right; right; left; exact ⟨by omega, by omega, trivial⟩
    case i64 => right; right; right; right; right; right; right; right; right; exact ⟨by omega, by omega, trivial⟩
    case u8 =>
      right; right; left
      exact ⟨by omega, by omega, by rw [Int.emod_eq_of_lt (by omega) (by norm_num; omega)]⟩
    case u16 =>
      right; right; right; left
      exact ⟨by omega, by omega, by rw [Int.emod_eq_of_lt (by omega) (by norm_num; omega)]⟩
    case u32 =>
      right; right; right; right; left
      exact ⟨by omega, by omega, by rw [Int.emod_eq_of_lt (by omega) (by norm_num; omega)]⟩
    case u64 =>
      right; right; right; right; right; left
      exact ⟨by omega, by omega, by rw [Int.emod_eq_of_lt (by omega) (by norm_num; omega)]⟩
  | float f => exact ⟨.fp32 f, rfl, rfl⟩
  | double d => exact ⟨.fp64 d, rfl, rfl⟩
  | text s b h => exact ⟨.str s, even_text h, rfl⟩
  | blob s b h =>
    refine ⟨.bin s, ?_, rfl⟩
    rcases h with ⟨h, rfl⟩ | ⟨h, _⟩ | ⟨h, _⟩
    · exact .inl ⟨h, by simp [MsgPack.big, Nat.mod_eq_of_lt (show s.length < 256 from h)]⟩
    · cases h
    · cases h
  | reserved h => cases h

private theorem even_key {ty : ScopeTy} {n k : Bytes} (h : Key false ty n k) :
    MsgPack.KeyFormat false (ty == .object) n k := by
  cases ty with
  | array => exact h.2
  | object =>
    rcases h with h | ⟨h, _⟩
    · exact even_text h
    · cases h

private theorem even_elems {ty : ScopeTy} {is : List Item} {b : Bytes} (h : Elems false ty is b) :
    ∃ is', MsgPack.FormatL false (ty == .object) is' b ∧ MpRelL (ty == .object) is' is ∧ is'.length = is.length := by
  induction h with
  | nil ty => exact ⟨[], rfl, trivial, rfl⟩
  | val ty n v is k w b h1 h2 _ ih =>
    obtain ⟨is', g1, g2, g3⟩ := ih
    obtain ⟨v', f1, f2⟩ := even_value h2
    refine ⟨.val n v' :: is', ?_, ?_, by simp [g3]⟩
    · simp only [MsgPack.FormatL, MsgPack.Format]
      exact ⟨k ++ w, b, ⟨k, w, even_key h1, f1, rfl⟩, g1, by simp⟩
    · simp only [MpRelL, MpRel]
      exact ⟨⟨fun _ => trivial, f2⟩, g2⟩
  | scope ty t n js is k h c b h1 h2 _ _ ih1 ih2 =>
    obtain ⟨js', g1, g2, g3⟩ := ih1
    obtain ⟨is', f1, f2, f3⟩ := ih2
    refine ⟨.scope n t js' :: is', ?_, ?_, by simp [f3]⟩
    · simp only [MsgPack.FormatL, MsgPack.Format]
      exact ⟨k ++ (h ++ c), b, ⟨k, h, c, even_key h1, by rw [g3]; exact h2, g1, rfl⟩, f1, by simp⟩
    · simp only [MpRelL, MpRel]
      exact ⟨⟨fun _ => trivial, trivial, g2⟩, f2⟩

/-- C86: documents without those oddities are MessagePack, and what is loaded of them is what they say. -/
theorem msgpack_even (t : ScopeTy) (is : List Item) (b : Bytes) (h : LaxMp.Document false t is b) :
    ∃ kids, MsgPack.Format false false (.scope [] t kids) b ∧ MpRelL (t == .object) kids is := by
  obtain ⟨hb, c, h1, h2, rfl⟩ := h
  obtain ⟨is', g1, g2, g3⟩ := even_elems h2
  refine ⟨is', ?_, g2⟩
  simp only [MsgPack.Format]
  exact ⟨[], hb, c, rfl, by rw [g3]; exact h1, g1, rfl⟩

/-- `{"a": 200}` as uint 16 -/
example : LaxMp.Document false .object [.val [97] (.int .u16 200)] [0x81, 0xa1, 97, 0xcd, 0, 200] :=
  ⟨[0x81], _, .inl ⟨by decide, rfl⟩, .val _ _ _ _ [0xa1, 97] [0xcd, 0, 200] [] (.inl (.inl ⟨by decide, rfl⟩))
    (.int .u16 200 (by decide) (by decide)) (.nil _), rfl⟩

/-- Negation of C86: whatever byte that begins no string is taken for a key. -/
theorem msgpack_any_key (m : Mem) (hm : m.Sane) (p : UInt8) (hp : ¬ startsText p) (v : Val) (w rest : Bytes)
    (h : Value true v w) :
    PMsgPack.load m (0x81 :: p :: (w ++ rest)) = .ok (⟨[], .mk .object [([], v)] []⟩, ([], rest)) ∧
    ∀ t kids, ¬ MsgPack.Format true false (.scope [] t kids) (0x81 :: p :: w) := by
  constructor
  · have := msgpack_accepts_all m hm .object [.val [] v] (0x81 :: p :: w) rest
      ⟨[0x81], _, .inl ⟨by simp, rfl⟩, .val _ _ _ _ [p] w [] (.inr ⟨rfl, rfl, p, hp, rfl⟩) h (.nil _), by simp⟩
      (by simp [nesting])
    simpa [keptValues, keptNodes] using this
  · intro t kids hf
    simp only [MsgPack.Format] at hf
    obtain ⟨k, hd, c, rfl, h1, h2, h3⟩ := hf
    rw [List.nil_append] at h3
    have hlow : ∀ n : Fin 16, UInt8.ofNat (0x90 + n.val) ≠ 0x81 ∧ (UInt8.ofNat (0x80 + n.val) = 0x81 → n.val = 1) := by
      decide +kernel
    cases t with
    | array =>
      rcases h1 with ⟨hn, rfl⟩ | ⟨_, rfl⟩ | ⟨_, rfl⟩
      · simp only [List.cons_append, List.cons.injEq] at h3
        exact (hlow ⟨kids.length, by omega⟩).1 h3.1.symm
      · simp at h3
      · simp at h3
    | object =>
      rcases h1 with ⟨hn, rfl⟩ | ⟨_, rfl⟩ | ⟨_, rfl⟩
      · simp only [List.cons_append, List.cons.injEq, List.nil_append] at h3
        have := (hlow ⟨kids.length, by omega⟩).2 h3.1.symm
        obtain ⟨i, rfl⟩ := List.length_eq_one_iff.mp this
        simp only [MsgPack.FormatL] at h2
        obtain ⟨b1, b2, g1, rfl, g3⟩ := h2
        rw [List.append_nil] at g3
        subst g3
        -- the key
        have hk : ∀ n k r, MsgPack.KeyFormat true (ScopeTy.object == ScopeTy.object) n k → p :: w = k ++ r → False := by
          intro n k r hk he
          have hs : ∀ n : Fin 32, startsText (UInt8.ofNat (0xa0 + n.val)) := by
            unfold startsText; decide +kernel
          rcases (show MsgPack.StrFormat true n k from hk) with ⟨hl, rfl⟩ | ⟨_, rfl⟩ | ⟨_, _, rfl⟩ | ⟨_, _, rfl⟩
          · simp only [List.cons_append, List.cons.injEq] at he
            exact hp (he.1 ▸ hs ⟨n.length, by omega⟩)
          all_goals
            simp only [List.cons_append, List.cons.injEq] at he
            exact hp (he.1 ▸ by unfold startsText; decide)
        cases i with
        | val n v =>
          simp only [MsgPack.Format] at g1
          obtain ⟨k, w', k1, _, k3⟩ := g1
          exact hk n k _ k1 (h3.2.trans k3)
        | scope n t kids =>
          simp only [MsgPack.Format] at g1
          obtain ⟨k, h, w', k1, _, _, k3⟩ := g1
          exact hk n k _ k1 (h3.2.trans k3)
      · simp at h3
      · simp at h3

/-- C86 is false. -/
theorem msgpack_not_only : ¬ OnlyMsgPack := by
  intro h
  have hm : (⟨none, 0⟩ : Mem).Sane := by unfold Mem.Sane; decide
  have hk := msgpack_any_key ⟨none, 0⟩ hm 0 (by unfold startsText; decide) .null [0xc0] [] .null
  obtain ⟨u, t, kids, h1, h2⟩ := h _ _ _ _ _ hm hk.1
  exact hk.2 t kids (by rw [List.append_nil u] at h1; rw [show [0x81, 0, 0xc0] = u from h1]; exact h2)

/-- C86: numbers as keys are not passed over as a whole: of the key 300 (uint 16) the first byte is, the others are taken
for a value and what follows. The map `{300: nil, …}` of MessagePack is read as `{"": 1, "": nil}`. -/
theorem msgpack_number_key (m : Mem) (hm : m.Sane) (rest : Bytes) :
    PMsgPack.load m ([0x82, 0xcd, 1, 44, 0xc0] ++ rest) =
      .ok (⟨[], .mk .object [([], .int .i32 1), ([], .null)] []⟩, ([], rest)) := by
  have := msgpack_accepts_all m hm .object [.val [] (.int .i32 1), .val [] .null] [0x82, 0xcd, 1, 44, 0xc0] rest
    ⟨[0x82], _, .inl ⟨by simp, rfl⟩, .val _ _ _ _ [0xcd] [1] [44, 0xc0]
      (.inr ⟨rfl, rfl, 0xcd, by unfold startsText; decide, rfl⟩) (.pos 1 (by decide) (by decide))
      (.val _ _ _ _ [44] [0xc0] [] (.inr ⟨rfl, rfl, 44, by unfold startsText; decide, rfl⟩) .null (.nil _)), rfl⟩
    (by simp [nesting])
  simpa [keptValues, keptNodes] using this

end Srl.Props
