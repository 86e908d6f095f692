import Verif.Lemmas.JsonComment
import Verif.Lemmas.PJsonSafe
import Verif.Props.JsonLaxSpec

/-! Lemmas about the texts the JSON reader takes. -/

namespace Srl.Lax
open Rfc8259 PJson Doc

/-! ### Strings -/

theorem unescape_some : ∀ e : UInt8, ∀ r, unescapeByte e = some r ↔ (e, r) ∈ (39, 39) :: escapes := by
  have h : ∀ e : UInt8, (unescapeByte e).toList = (((39, 39) :: escapes).filter (·.1 = e)).map (·.2) := by
    decide +kernel
  intro e r
  rw [← Option.mem_toList, h]
  simp only [List.mem_map, List.mem_filter, decide_eq_true_eq]
  constructor
  · rintro ⟨⟨a, b⟩, ⟨h1, rfl⟩, rfl⟩; exact h1
  · intro h1; exact ⟨(e, r), ⟨h1, rfl⟩, rfl⟩

theorem unescape_none (e : UInt8) : unescapeByte e = none ↔ e ∉ ((39, 39) :: escapes).map (·.1) := by
  constructor
  · intro h hm
    obtain ⟨⟨a, r⟩, h1, rfl⟩ := List.mem_map.mp hm
    rw [(unescape_some a r).mpr h1] at h
    cases h
  · intro h
    cases hu : unescapeByte e with
    | none => rfl
    | some r => exact absurd (List.mem_map.mpr ⟨_, (unescape_some e r).mp hu, rfl⟩) h

theorem conv_hex : ∀ c : UInt8, Hex.conv c = match hexDigit c with
    | some x => .ok (UInt8.ofNat x)
    | none => .err := by decide +kernel

theorem hex_lt (c : UInt8) (x : Nat) (h : hexDigit c = some x) : x < 16 := by
  have : ∀ c : UInt8, (hexDigit c).all (· < 16) = true := by decide +kernel
  have := this c
  rw [h] at this
  simpa using this

theorem nibbles (x y : Nat) (hx : x < 16) (hy : y < 16) :
    ((UInt8.ofNat x <<< 4) ||| UInt8.ofNat y).toNat = x * 16 + y := by
  have : ∀ x < 16, ∀ y < 16, ((UInt8.ofNat x <<< 4) ||| UInt8.ofNat y).toNat = x * 16 + y := by decide +kernel
  exact this x hx y hy

theorem utf8_unit (u : Nat) (hu : u < 0x10000) (t : Bytes) :
    utf8OfUnit u = .ok t ↔ ∃ c : Char, c.toNat = u ∧ t = String.utf8EncodeChar c := by
  have hc : ∀ c : Char, c.toNat = u → utf8OfUnit u = .ok (String.utf8EncodeChar c) := by
    intro c hc
    have hv : c.toNat < 0xD800 ∨ (0xDFFF < c.toNat ∧ c.toNat < 0x110000) := c.valid
    simp only [utf8OfUnit, String.utf8EncodeChar, Char.toNat_val, hc]
    rw [hc] at hv
    by_cases h1 : u < 0x80
    · rw [if_pos h1, if_pos (show u ≤ 127 by omega)]
    · rw [if_neg h1, if_neg (show ¬u ≤ 127 by omega)]
      by_cases h2 : u < 0x800
      · rw [if_pos h2, if_pos (show u ≤ 2047 by omega)]
        rw [show u / 64 % 32 + 192 = 0xC0 + u / 64 by omega, show u % 64 + 128 = 0x80 + u % 64 by omega]
      · rw [if_neg h2, if_neg (show ¬u ≤ 2047 by omega), if_neg (by omega), if_pos (show u ≤ 65535 by omega)]
        rw [show u / 4096 % 16 + 224 = 0xE0 + u / 4096 by omega,
          show u / 64 % 64 + 128 = 0x80 + u / 64 % 64 by omega, show u % 64 + 128 = 0x80 + u % 64 by omega]
  constructor
  · intro h
    by_cases hs : 0xD800 ≤ u ∧ u < 0xE000
    · rw [utf8OfUnit, if_neg (by omega), if_neg (by omega), if_pos hs] at h
      cases h
    · have hv : u.isValidChar := by unfold Nat.isValidChar; omega
      obtain ⟨c, hcu⟩ : ∃ c : Char, c.toNat = u := by
        refine ⟨⟨UInt32.ofNat u, ?_⟩, ?_⟩
        · have : (UInt32.ofNat u).toNat = u := by simp; omega
          unfold UInt32.isValidChar
          rw [this]; exact hv
        · show (UInt32.ofNat u).toNat = u
          simp; omega
      rw [hc c hcu] at h
      cases h
      exact ⟨c, hcu, rfl⟩
  · rintro ⟨c, h, rfl⟩
    exact hc c h

/-- What the four digits are read as -/
theorem decode_four (a b c d : UInt8) : (do
      let hex ← Hex.decodeTo 2 [a, b, c, d]
      Res.ok ((hex.getD 0 0).toNat + 256 * (hex.getD 1 0).toNat)) =
    match hexDigit a, hexDigit b, hexDigit c, hexDigit d with
    | some x, some y, some z, some w => .ok ((x * 16 + y) + 256 * (z * 16 + w))
    | _, _, _, _ => .err := by
  simp only [Hex.decodeTo, List.length_cons, List.length_nil, Nat.reduceAdd, Nat.reduceMod, ne_eq, not_true_eq_false,
    if_false, Nat.reduceDiv, Nat.lt_irrefl, Hex.loop, conv_hex]
  cases ha : hexDigit a with
  | none => rfl
  | some x =>
    cases hb : hexDigit b with
    | none => rfl
    | some y =>
      cases hc : hexDigit c with
      | none => rfl
      | some z =>
        cases hd : hexDigit d with
        | none => rfl
        | some w =>
          simp only [Res.ok_bind, Res.pure_eq, List.getD_cons_zero, List.getD_cons_succ]
          rw [nibbles x y (hex_lt a x ha) (hex_lt b y hb), nibbles z w (hex_lt c z hc) (hex_lt d w hd)]

theorem ucConv_four (k : Cap) (idx : Nat) (p q a b c d : UInt8) : ucConv k idx [p, q, a, b, c, d] =
    match hexDigit a, hexDigit b, hexDigit c, hexDigit d with
    | some x, some y, some z, some w => convUnit k idx ((x * 16 + y) + 256 * (z * 16 + w))
    | _, _, _, _ => .err := by
  have h := decode_four a b c d
  unfold ucConv
  simp only [List.drop_succ_cons, List.drop_zero]
  cases hh : Hex.decodeTo 2 [a, b, c, d] with
  | ok hex =>
    rw [hh] at h
    simp only [Res.ok_bind] at h ⊢
    revert h
    cases hexDigit a <;> cases hexDigit b <;> cases hexDigit c <;> cases hexDigit d <;> intro h <;>
      simp only [reduceCtorEq, Res.ok.injEq] at h
    rw [h]
  | err =>
    rw [hh] at h
    simp only [Res.err_bind] at h ⊢
    revert h
    cases hexDigit a <;> cases hexDigit b <;> cases hexDigit c <;> cases hexDigit d <;> intro h <;>
      simp only [reduceCtorEq] at h ⊢
  | ub =>
    rw [hh] at h
    simp only [Res.ub_bind] at h ⊢
    revert h
    cases hexDigit a <;> cases hexDigit b <;> cases hexDigit c <;> cases hexDigit d <;> intro h <;>
      simp only [reduceCtorEq] at h
  | fuel =>
    rw [hh] at h
    simp only [Res.fuel_bind] at h ⊢
    revert h
    cases hexDigit a <;> cases hexDigit b <;> cases hexDigit c <;> cases hexDigit d <;> intro h <;>
      simp only [reduceCtorEq] at h

theorem ucConv_ok {k k' : Cap} {idx : Nat} {p q a b c d : UInt8} {t : Bytes}
    (h : ucConv k idx [p, q, a, b, c, d] = .ok (t, k')) :
    ∃ u ch, Unit16 [a, b, c, d] u ∧ ch.toNat = u % 256 * 256 + u / 256 ∧ t = String.utf8EncodeChar ch := by
  rw [ucConv_four] at h
  cases ha : hexDigit a with
  | none => rw [ha] at h; cases h
  | some x =>
    cases hb : hexDigit b with
    | none => rw [ha, hb] at h; cases h
    | some y =>
      cases hc : hexDigit c with
      | none => rw [ha, hb, hc] at h; cases h
      | some z =>
        cases hd : hexDigit d with
        | none => rw [ha, hb, hc, hd] at h; cases h
        | some w =>
          rw [ha, hb, hc, hd] at h
          have lx := hex_lt a x ha
          have ly := hex_lt b y hb
          have lz := hex_lt c z hc
          have lw := hex_lt d w hd
          simp only [convUnit, Res.bind_eq_ok] at h
          obtain ⟨t', h1, h⟩ := h
          split at h
          · cases h
          · cases h
            obtain ⟨ch, h2, h3⟩ := (utf8_unit _ (by omega) _).mp h1
            exact ⟨((x * 16 + y) * 16 + z) * 16 + w, ch, ⟨a, b, c, d, x, y, z, w, rfl, ha, hb, hc, hd, rfl⟩,
              by omega, h3⟩

/-- Strings that are read are strings of the grammar. -/
theorem readString_chars {m : Mem} (hm : m.Sane) : ∀ (fuel : Nat) (c : Cap) (steps : Nat) (s v : Bytes) (c' : Cap)
    (t : Bytes), readString m fuel c steps s = .ok (v, c', t) → ∃ q y, Chars q v ∧ s = q ++ t ∧ t = 34 :: y := by
  intro fuel
  induction fuel with
  | zero => intro c steps s v c' t h; cases h
  | succ fuel ih =>
    intro c steps s v c' t h
    cases s with
    | nil => exact absurd h ((readString_nil m fuel c steps).not_ok _)
    | cons b s =>
      cases at_any b s with
      | close => simp only [readString, if_true] at h; cases h; exact ⟨[], s, .nil, rfl, rfl⟩
      | plain _ _ h1 h2 =>
        rw [readString_plain m fuel c steps b s h1 h2, Res.bind_eq_ok] at h
        obtain ⟨⟨bs2, c2, s2⟩, h3, h⟩ := h
        cases h
        obtain ⟨q, y, hq, hx, hy⟩ := ih _ _ _ _ _ _ h3
        exact ⟨b :: q, y, .plain _ _ _ h1 h2 hq, by rw [hx]; rfl, hy⟩
      | last =>
        rw [readString_last, Res.bind_eq_ok] at h
        obtain ⟨⟨bs2, c2, s2⟩, h3, h⟩ := h
        cases h
        obtain ⟨q, y, hq, hx, hy⟩ := ih _ _ _ _ _ _ h3
        subst hy
        simp at hx
      | escaped e r u he =>
        rw [readString_escaped m fuel c steps e r u he, Res.bind_eq_ok] at h
        obtain ⟨⟨bs2, c2, s2⟩, h3, h⟩ := h
        cases h
        obtain ⟨q, y, hq, hx, hy⟩ := ih _ _ _ _ _ _ h3
        exact ⟨92 :: e :: q, y, .escape _ _ _ _ ((unescape_some e r).mp he) hq, by rw [hx]; rfl, hy⟩
      | uc u =>
        rw [readString_uc, Res.bind_eq_ok] at h
        obtain ⟨⟨t1, c1, s1⟩, h1, h⟩ := h
        simp only [Res.bind_eq_ok] at h
        obtain ⟨⟨bs2, c2, s2⟩, h3, h⟩ := h
        cases h
        obtain ⟨q, y, hq, hx, hy⟩ := ih _ _ _ _ _ _ h3
        rcases readBlock_six hm (92 :: 117 :: u) with hr | ⟨z, v, hz1, hz2, hz3⟩
        · unfold ucLiteral at h1; rw [hr] at h1; cases h1
        · rw [ucLiteral_block hz3, Res.bind_eq_ok] at h1
          obtain ⟨⟨w1, w2⟩, h4, h1⟩ := h1
          cases h1
          match z, hz1 with
          | [z1, z2, z3, z4, z5, z6], _ =>
            simp only [List.cons_append, List.nil_append, List.cons.injEq] at hz2
            obtain ⟨rfl, rfl, rfl⟩ := hz2
            obtain ⟨n, ch, hn, hch, rfl⟩ := ucConv_ok h4
            exact ⟨92 :: 117 :: ([z3, z4, z5, z6] ++ q), y, .unit n ch _ _ _ hn hch hq, by rw [hx]; rfl, hy⟩
      | odd e u h1 h2 =>
        rw [readString_odd m fuel c steps e u h1 h2, Res.bind_eq_ok] at h
        obtain ⟨⟨bs2, c2, s2⟩, h3, h⟩ := h
        cases h
        obtain ⟨q, y, hq, hx, hy⟩ := ih _ _ _ _ _ _ h3
        cases q with
        | nil =>
          subst hy
          simp only [List.nil_append, List.cons.injEq] at hx
          rw [hx.1] at h1
          cases h1
        | cons e' q =>
          obtain ⟨rfl, hx⟩ : e = e' ∧ u = q ++ t := by simpa using hx
          exact ⟨92 :: e :: q, y, .odd _ _ _ ((unescape_none e).mp h1) h2 hq, by rw [hx]; rfl, hy⟩

/-- Strings of the grammar are read, unless characters written by number need three bytes. -/
theorem chars_read {m : Mem} (hm : m.Sane) {q v : Bytes} (h : Chars q v) : ∀ (rest : Bytes) (fuel : Nat) (c : Cap)
    (steps : Nat), UOk (q ++ 34 :: rest) → q.length < fuel →
    ∃ c', readString m fuel c steps (q ++ 34 :: rest) = .ok (v, c', 34 :: rest) := by
  induction h with
  | nil =>
    intro rest fuel c steps _ hf
    cases fuel with
    | zero => simp at hf
    | succ fuel => exact ⟨c, by simp [readString]⟩
  | plain b t s h2 h3 _ ih =>
    intro rest fuel c steps hu hf
    cases fuel with
    | zero => simp at hf
    | succ fuel =>
      obtain ⟨c', hc'⟩ := ih rest fuel (c.grow steps) (steps + 1) (UOk.suffix (x := [b]) hu) (by simpa using hf)
      exact ⟨c', by rw [List.cons_append, readString_plain m fuel c steps b _ h2 h3, hc']; rfl⟩
  | escape e r t s h1 _ ih =>
    intro rest fuel c steps hu hf
    cases fuel with
    | zero => simp at hf
    | succ fuel =>
      obtain ⟨c', hc'⟩ := ih rest fuel (c.grow steps) (steps + 1) (UOk.suffix (x := [92, e]) hu) (by
        simp only [List.length_cons] at hf; omega)
      refine ⟨c', ?_⟩
      rw [List.cons_append, List.cons_append, readString_escaped m fuel c steps e r _ ((unescape_some e r).mpr h1), hc']
      rfl
  | odd e t s h1 h2 _ ih =>
    intro rest fuel c steps hu hf
    cases fuel with
    | zero => simp at hf
    | succ fuel =>
      obtain ⟨c', hc'⟩ := ih rest fuel (c.grow steps) (steps + 1) (UOk.suffix (x := [92]) hu) (by
        simp only [List.length_cons] at hf ⊢; omega)
      refine ⟨c', ?_⟩
      rw [List.cons_append] at hc'
      rw [List.cons_append, List.cons_append, readString_odd m fuel c steps e _ ((unescape_none e).mpr h1) h2, hc']
      rfl
  | unit u ch h t s hh hch _ ih =>
    intro rest fuel c steps hu hf
    obtain ⟨d1, d2, d3, d4, x, y, z, w, rfl, g1, g2, g3, g4, rfl⟩ := hh
    cases fuel with
    | zero => simp at hf
    | succ fuel =>
      have lx := hex_lt _ x g1
      have ly := hex_lt _ y g2
      have lz := hex_lt _ z g3
      have lw := hex_lt _ w g4
      obtain ⟨rfl, h6⟩ := hu [] d1 d2 d3 d4 (t ++ 34 :: rest) (by simp)
      have hsafe := ucConv_safe (c.grow steps) steps d1 d2 d4 h6
      have hconv := ucConv_four (c.grow steps) steps 92 117 d1 d2 48 d4
      have h8 : utf8OfUnit ((x * 16 + y) + 256 * (z * 16 + w)) = .ok (String.utf8EncodeChar ch) :=
        (utf8_unit _ (by omega) _).mpr ⟨ch, by omega, rfl⟩
      rw [g1, g2, g3, g4] at hconv
      simp only [convUnit, h8, Res.ok_bind] at hconv
      split at hconv
      · exact absurd hconv hsafe
      · obtain ⟨c', hc'⟩ := ih rest fuel ⟨(c.grow steps).bufsz, max (c.grow steps).size (steps + 2)⟩
          (steps + (String.utf8EncodeChar ch).length) (UOk.suffix (x := [92, 117, d1, d2, 48, d4]) (by simpa using hu))
          (by simp only [List.length_cons, List.length_append, List.length_nil] at hf; omega)
        refine ⟨c', ?_⟩
        show readString m (fuel + 1) c steps (92 :: 117 :: ([d1, d2, 48, d4] ++ t ++ 34 :: rest)) = _
        have hb : In.readBlock m 6 (92 :: 117 :: ([d1, d2, 48, d4] ++ t ++ 34 :: rest)) =
            .ok ([92, 117, d1, d2, 48, d4], t ++ 34 :: rest) := by
          have := readBlock_append hm [92, 117, d1, d2, 48, d4] (t ++ 34 :: rest) rfl
          simpa using this
        rw [readString_uc, ucLiteral_block hb, hconv]
        simp only [Res.ok_bind, hc']

end Srl.Lax
