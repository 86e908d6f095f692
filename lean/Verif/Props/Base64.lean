import Verif.Lemmas.Base64

/-! # C18, C19 – base64 -/

namespace Srl.Props

/-- Specification alphabet of RFC 4648, section 4: sextet to character. -/
def b64Char (n : Nat) : UInt8 :=
  UInt8.ofNat (
    if n < 26 then 'A'.toNat + n
    else if n < 52 then 'a'.toNat + (n - 26)
    else if n < 62 then '0'.toNat + (n - 52)
    else if n = 62 then '+'.toNat else '/'.toNat)

/-- Specification of RFC 4648 base64: 24-bit groups cut into sextets, padded with `=`. -/
def b64Spec : Bytes → Bytes
  | [] => []
  | [x] =>
    let n := x.toNat * 65536
    [b64Char (n / 262144), b64Char (n / 4096 % 64), UInt8.ofNat '='.toNat, UInt8.ofNat '='.toNat]
  | [x, y] =>
    let n := x.toNat * 65536 + y.toNat * 256
    [b64Char (n / 262144), b64Char (n / 4096 % 64), b64Char (n / 64 % 64), UInt8.ofNat '='.toNat]
  | x :: y :: z :: rest =>
    let n := x.toNat * 65536 + y.toNat * 256 + z.toNat
    b64Char (n / 262144) :: b64Char (n / 4096 % 64) :: b64Char (n / 64 % 64) :: b64Char (n % 64) ::
      b64Spec rest

private theorem enc_char (i : UInt8) : i < 64 → Base64.enc i = b64Char i.toNat := by
  revert i; decide +kernel

private theorem or_disj (a b k : Nat) (h : b < 2 ^ k) : (a * 2 ^ k) ||| b = a * 2 ^ k + b := by
  rw [← Nat.shiftLeft_eq]; exact (Nat.shiftLeft_add_eq_or_of_lt h a).symm

private theorem s0 (x : UInt8) : (x >>> 2).toNat = x.toNat / 4 := by
  revert x; decide +kernel

private theorem s3 (z : UInt8) : (z &&& 0x3F).toNat = z.toNat % 64 := by
  revert z; decide +kernel

private theorem mask_or (x y : UInt8) : (x ||| y) &&& 0x3F = (x &&& 0x3F) ||| (y &&& 0x3F) := by
  byte_bits

private theorem s1 (x y : UInt8) :
    (((x <<< 4) ||| (y >>> 4)) &&& 0x3F).toNat = x.toNat % 4 * 16 + y.toNat / 16 := by
  rw [mask_or]
  have hx : ∀ x : UInt8, ((x <<< 4) &&& 0x3F).toNat = x.toNat % 4 * 2 ^ 4 := by decide +kernel
  have hy : ∀ y : UInt8, ((y >>> 4) &&& 0x3F).toNat = y.toNat / 16 := by decide +kernel
  have := y.toNat_lt
  rw [UInt8.toNat_or, hx, hy, or_disj _ _ _ (by omega)]

private theorem s2 (y z : UInt8) :
    (((y <<< 2) ||| (z >>> 6)) &&& 0x3F).toNat = y.toNat % 16 * 4 + z.toNat / 64 := by
  rw [mask_or]
  have hy : ∀ x : UInt8, ((x <<< 2) &&& 0x3F).toNat = x.toNat % 16 * 2 ^ 2 := by decide +kernel
  have hz : ∀ y : UInt8, ((y >>> 6) &&& 0x3F).toNat = y.toNat / 64 := by decide +kernel
  have := z.toNat_lt
  rw [UInt8.toNat_or, hy, hz, or_disj _ _ _ (by omega)]

/-- C18: the produced text is the RFC 4648 base64 text of the bytes. -/
theorem base64_encode_spec (bytes : Bytes) : Base64.encode bytes = b64Spec bytes := by
  rw [Base64.encode_eq_encRec]
  induction bytes using Base64.encRec.induct with
  | case1 => rfl
  | case2 x =>
    have hx := x.toNat_lt
    have z : (0 : UInt8).toNat = 0 := rfl
    simp only [Base64.encRec, b64Spec]
    rw [enc_char _ (Base64.lt64_shift _), enc_char _ (Base64.lt64_mask _), s0, s1, z]
    simp only [List.cons.injEq]
    exact ⟨congrArg b64Char (by omega), congrArg b64Char (by omega), rfl, rfl, trivial⟩
  | case3 x y =>
    have hx := x.toNat_lt
    have hy := y.toNat_lt
    have z : (0 : UInt8).toNat = 0 := rfl
    simp only [Base64.encRec, b64Spec]
    rw [enc_char _ (Base64.lt64_shift _), enc_char _ (Base64.lt64_mask _),
      enc_char _ (Base64.lt64_mask _), s0, s1, s2, z]
    simp only [List.cons.injEq]
    exact ⟨congrArg b64Char (by omega), congrArg b64Char (by omega), congrArg b64Char (by omega),
      rfl, trivial⟩
  | case4 x y z rest ih =>
    have hx := x.toNat_lt
    have hy := y.toNat_lt
    have hz := z.toNat_lt
    simp only [Base64.encRec, b64Spec, Base64.group, ih, List.cons_append, List.nil_append]
    rw [enc_char _ (Base64.lt64_shift _), enc_char _ (Base64.lt64_mask _),
      enc_char _ (Base64.lt64_mask _), enc_char _ (Base64.lt64_mask _), s0, s1, s2, s3]
    simp only [List.cons.injEq]
    exact ⟨congrArg b64Char (by omega), congrArg b64Char (by omega), congrArg b64Char (by omega),
      congrArg b64Char (by omega), trivial⟩

/-- C18: decoding the base64 text of any bytes gives these bytes. -/
theorem base64_roundtrip (bytes : Bytes) : Base64.decode (Base64.encode bytes) = .ok bytes := by
  rw [Base64.encode_eq_encRec]
  unfold Base64.decode Base64.decodeTo
  rw [Base64.decodedSize_encRec, Base64.decLoop_encRec]
  simp [Base64.encRec_length_mod]

/-- C18: the size announced before decoding is the number of bytes. -/
theorem base64_decoded_size (bytes : Bytes) :
    Base64.decodedSize (Base64.encode bytes) = bytes.length := by
  rw [Base64.encode_eq_encRec, Base64.decodedSize_encRec]

/-- C18: a binary field restored from its base64 text has its original bytes. -/
theorem base64_restore_binary (bytes : Bytes) :
    Base64.restoreBinary (Base64.encode bytes) = .ok bytes := by
  unfold Base64.restoreBinary
  rw [base64_decoded_size]
  split
  · rename_i h
    rw [List.length_eq_zero_iff.mp h]
  · exact base64_roundtrip bytes

example : Base64.encode (str "any carnal pleas") = str "YW55IGNhcm5hbCBwbGVhcw==" := by decide
example : Base64.decode (str "TWFu") = .ok (str "Man") := by decide

/-- C19, violated: padding characters are accepted in any place. -/
theorem base64_accepts_misplaced_padding :
    Base64.decode (str "=AAA") = .ok [248, 0, 0] ∧ Base64.decode (str "A===") = .ok [15] := by decide

/-- C19, violated: a character outside ASCII indexes outside the decoding table. -/
theorem base64_non_ascii_undefined : Base64.decode [195, 164, 65, 65] = .ub := by decide

/-- C19, violated: restoring a binary field accepts any text of one to three characters. -/
theorem base64_restore_accepts_short : Base64.restoreBinary (str "?!") = .ok [] := by decide

private theorem lookup_ascii {c : UInt8} (h : c < 128) : Base64.lookup c = .ok (Base64.table c) := by
  unfold Base64.lookup
  rw [if_neg]; exact UInt8.not_le.mpr h

/-- Specification: characters that may occur in base64 text, padding included. -/
def IsB64 (c : UInt8) : Prop :=
  ('A'.toNat ≤ c.toNat ∧ c.toNat ≤ 'Z'.toNat) ∨ ('a'.toNat ≤ c.toNat ∧ c.toNat ≤ 'z'.toNat) ∨
  ('0'.toNat ≤ c.toNat ∧ c.toNat ≤ '9'.toNat) ∨
  c.toNat = '+'.toNat ∨ c.toNat = '/'.toNat ∨ c.toNat = '='.toNat

instance : DecidablePred IsB64 := fun _ => inferInstanceAs (Decidable (_ ∨ _))

private theorem table_invalid (c : UInt8) : Base64.table c = Base64.valInvalid ↔ ¬ IsB64 c := by
  revert c; decide +kernel

private theorem ind4 {P : Bytes → Prop} (h0 : ∀ s, (∀ a b c d r, s ≠ a :: b :: c :: d :: r) → P s)
    (h4 : ∀ a b c d r, P r → P (a :: b :: c :: d :: r)) : ∀ s, P s
  | a :: b :: c :: d :: r => h4 a b c d r (ind4 h0 h4 r)
  | [] => h0 [] (by simp)
  | [_] => h0 _ (by simp)
  | [_, _] => h0 _ (by simp)
  | [_, _, _] => h0 _ (by simp)

private theorem decLoop_ascii (left : Nat) (s : Bytes) (ha : ∀ c ∈ s, c < 128)
    (h4 : s.length % 4 = 0) (hl1 : left ≤ s.length / 4 * 3) (hl2 : s.length / 4 * 3 ≤ left + 2) :
    ((∃ out, Base64.decLoop left s = .ok out ∧ out.length = left) ∧ ∀ c ∈ s, IsB64 c) ∨
    (Base64.decLoop left s = .err ∧ ∃ c ∈ s, ¬ IsB64 c) := by
  induction s using ind4 generalizing left with
  | h0 s hs =>
    have : s = [] := by
      match s, h4, hs with
      | [], _, _ => rfl
      | [_], h4, _ => simp at h4
      | [_, _], h4, _ => simp at h4
      | [_, _, _], h4, _ => simp at h4
      | a :: b :: c :: d :: r, _, hs => exact absurd rfl (hs a b c d r)
    subst this
    have : left = 0 := by simpa using hl1
    subst this
    exact Or.inl ⟨⟨[], by simp [Base64.decLoop], rfl⟩, by simp⟩
  | h4 c0 c1 c2 c3 rest ih =>
    have hlen : (c0 :: c1 :: c2 :: c3 :: rest).length / 4 = rest.length / 4 + 1 := by simp; omega
    rw [hlen] at hl1 hl2
    have h0 : left ≠ 0 := by omega
    unfold Base64.decLoop
    rw [if_neg h0, lookup_ascii (ha c0 (by simp)), lookup_ascii (ha c1 (by simp)),
      lookup_ascii (ha c2 (by simp)), lookup_ascii (ha c3 (by simp))]
    simp only [Res.ok_bind, table_invalid]
    by_cases hb : ¬ IsB64 c0 ∨ ¬ IsB64 c1 ∨ ¬ IsB64 c2 ∨ ¬ IsB64 c3
    · right
      simp only [hb, if_true, true_and]
      rcases hb with h | h | h | h
      · exact ⟨c0, by simp, h⟩
      · exact ⟨c1, by simp, h⟩
      · exact ⟨c2, by simp, h⟩
      · exact ⟨c3, by simp, h⟩
    · simp only [hb, if_false]
      have hb0 : IsB64 c0 := Classical.byContradiction fun h => hb (Or.inl h)
      have hb1 : IsB64 c1 := Classical.byContradiction fun h => hb (Or.inr (Or.inl h))
      have hb2 : IsB64 c2 := Classical.byContradiction fun h => hb (Or.inr (Or.inr (Or.inl h)))
      have hb3 : IsB64 c3 := Classical.byContradiction fun h => hb (Or.inr (Or.inr (Or.inr h)))
      rcases ih (left - 3) (fun c hc => ha c (by simp [hc])) (by simp at h4; omega) (by omega)
          (by omega) with ⟨⟨out, ho, hol⟩, hall⟩ | ⟨he, c, hc, hn⟩
      · left
        refine ⟨⟨_, by rw [ho]; rfl, ?_⟩, ?_⟩
        · simp only [List.length_append, List.length_cons, hol]
          by_cases h1 : 1 < left <;> by_cases h2 : 2 < left <;> simp [h1, h2] <;> omega
        · intro c hc
          simp only [List.mem_cons] at hc
          rcases hc with h | h | h | h | h
          · exact h ▸ hb0
          · exact h ▸ hb1
          · exact h ▸ hb2
          · exact h ▸ hb3
          · exact hall c h
      · right
        refine ⟨by rw [he]; rfl, c, by simp [hc], hn⟩

/-- Specification: text that makes the decoder leave its table. The characters of the groups of four up to
some group are acceptable, and that group has a byte above 127. -/
def B64Undefined (s : Bytes) : Prop :=
  s.length % 4 = 0 ∧ ∃ pre q rest, s = pre ++ q ++ rest ∧ pre.length % 4 = 0 ∧ q.length = 4 ∧
    (∀ c ∈ pre, IsB64 c) ∧ ∃ c ∈ q, 128 ≤ c

private theorem lookup_high {c : UInt8} (h : 128 ≤ c) : Base64.lookup c = .ub := by
  unfold Base64.lookup
  rw [if_pos h]

private theorem b64_ascii {c : UInt8} (h : IsB64 c) : ¬ 128 ≤ c := by
  revert c; decide +kernel

/-- The decoding loop never asks for more text than there is, and ends up outside the table exactly for the
texts above. -/
private theorem decLoop_high (left : Nat) (s : Bytes)
    (h4 : s.length % 4 = 0) (hl1 : left ≤ s.length / 4 * 3) (hl2 : s.length / 4 * 3 ≤ left + 2) :
    Base64.decLoop left s ≠ .fuel ∧ (Base64.decLoop left s = .ub ↔ B64Undefined s) := by
  induction s using ind4 generalizing left with
  | h0 s hs =>
    have : s = [] := by
      match s, h4, hs with
      | [], _, _ => rfl
      | [_], h4, _ => simp at h4
      | [_, _], h4, _ => simp at h4
      | [_, _, _], h4, _ => simp at h4
      | a :: b :: c :: d :: r, _, hs => exact absurd rfl (hs a b c d r)
    subst this
    have : left = 0 := by simpa using hl1
    subst this
    refine ⟨by simp [Base64.decLoop], by simp [Base64.decLoop], ?_⟩
    rintro ⟨-, pre, q, rest, h1, -, h2, -⟩
    have := congrArg List.length h1
    simp only [List.length_append, List.length_nil] at this
    omega
  | h4 c0 c1 c2 c3 rest ih =>
    have hlen : (c0 :: c1 :: c2 :: c3 :: rest).length / 4 = rest.length / 4 + 1 := by simp; omega
    rw [hlen] at hl1 hl2
    have h0 : left ≠ 0 := by omega
    by_cases hh : ∃ c ∈ [c0, c1, c2, c3], 128 ≤ c
    · have hub : Base64.decLoop left (c0 :: c1 :: c2 :: c3 :: rest) = .ub := by
        unfold Base64.decLoop
        rw [if_neg h0]
        by_cases k0 : 128 ≤ c0
        · rw [lookup_high k0]; rfl
        rw [lookup_ascii (UInt8.not_le.mp k0), Res.ok_bind]
        by_cases k1 : 128 ≤ c1
        · rw [lookup_high k1]; rfl
        rw [lookup_ascii (UInt8.not_le.mp k1), Res.ok_bind]
        by_cases k2 : 128 ≤ c2
        · rw [lookup_high k2]; rfl
        rw [lookup_ascii (UInt8.not_le.mp k2), Res.ok_bind]
        by_cases k3 : 128 ≤ c3
        · rw [lookup_high k3]; rfl
        obtain ⟨c, hc, hc'⟩ := hh
        simp only [List.mem_cons, List.not_mem_nil, or_false] at hc
        rcases hc with rfl | rfl | rfl | rfl <;> contradiction
      rw [hub]
      exact ⟨by simp, fun _ => ⟨h4, [], [c0, c1, c2, c3], rest, rfl, rfl, rfl, by simp, hh⟩, fun _ => rfl⟩
    · have hlow : ∀ c ∈ [c0, c1, c2, c3], c < 128 := fun c hc =>
        UInt8.not_le.mp fun h => hh ⟨c, hc, h⟩
      have e : Base64.decLoop left (c0 :: c1 :: c2 :: c3 :: rest) =
          (if ¬ IsB64 c0 ∨ ¬ IsB64 c1 ∨ ¬ IsB64 c2 ∨ ¬ IsB64 c3 then Res.err
          else (Base64.decLoop (left - 3) rest).bind fun t => .ok
            (((Base64.table c0 <<< 2) ||| (Base64.table c1 >>> 4)) ::
            ((if 1 < left then [(Base64.table c1 <<< 4) ||| (Base64.table c2 >>> 2)] else []) ++
             (if 2 < left then [(Base64.table c2 <<< 6) ||| Base64.table c3] else [])) ++ t)) := by
        rw [Base64.decLoop.eq_def]
        simp only [h0, if_false, lookup_ascii (hlow c0 (by simp)), lookup_ascii (hlow c1 (by simp)),
          lookup_ascii (hlow c2 (by simp)), lookup_ascii (hlow c3 (by simp)), Res.ok_bind, table_invalid]
        rfl
      rw [e]
      have hpre : ∀ pre q r, c0 :: c1 :: c2 :: c3 :: rest = pre ++ q ++ r → pre.length % 4 = 0 → q.length = 4 →
          (∃ c ∈ q, 128 ≤ c) → ∃ pre', pre = c0 :: c1 :: c2 :: c3 :: pre' ∧ rest = pre' ++ q ++ r := by
        intro pre q r h1 h2 h3 h5
        match pre, h2 with
        | [], _ =>
          exfalso
          match q, h3 with
          | [a, b, c, d], _ =>
            simp only [List.nil_append, List.cons_append, List.cons.injEq] at h1
            obtain ⟨rfl, rfl, rfl, rfl, -⟩ := h1
            exact hh h5
        | a :: b :: c :: d :: pre', _ =>
          simp only [List.cons_append, List.cons.injEq] at h1
          obtain ⟨rfl, rfl, rfl, rfl, h1⟩ := h1
          exact ⟨pre', rfl, h1⟩
      have h4' : rest.length % 4 = 0 := by simp at h4; omega
      by_cases hb : ¬ IsB64 c0 ∨ ¬ IsB64 c1 ∨ ¬ IsB64 c2 ∨ ¬ IsB64 c3
      · simp only [hb, if_true]
        refine ⟨by simp, by simp, ?_⟩
        rintro ⟨-, pre, q, r, h1, h2, h3, h5, h6⟩
        obtain ⟨pre', rfl, -⟩ := hpre pre q r h1 h2 h3 h6
        exfalso
        rcases hb with h | h | h | h <;> exact h (h5 _ (by simp))
      · simp only [hb, if_false]
        have hb0 : IsB64 c0 := Classical.byContradiction fun h => hb (Or.inl h)
        have hb1 : IsB64 c1 := Classical.byContradiction fun h => hb (Or.inr (Or.inl h))
        have hb2 : IsB64 c2 := Classical.byContradiction fun h => hb (Or.inr (Or.inr (Or.inl h)))
        have hb3 : IsB64 c3 := Classical.byContradiction fun h => hb (Or.inr (Or.inr (Or.inr h)))
        obtain ⟨i1, i2⟩ := ih (left - 3) h4' (by omega) (by omega)
        have hu : B64Undefined rest ↔ B64Undefined (c0 :: c1 :: c2 :: c3 :: rest) := by
          constructor
          · rintro ⟨-, pre, q, r, h1, h2, h3, h5, h6⟩
            refine ⟨h4, c0 :: c1 :: c2 :: c3 :: pre, q, r, by rw [h1]; rfl, by simp; omega, h3, ?_, h6⟩
            intro c hc
            simp only [List.mem_cons] at hc
            rcases hc with rfl | rfl | rfl | rfl | hc
            · exact hb0
            · exact hb1
            · exact hb2
            · exact hb3
            · exact h5 c hc
          · rintro ⟨-, pre, q, r, h1, h2, h3, h5, h6⟩
            obtain ⟨pre', rfl, h7⟩ := hpre pre q r h1 h2 h3 h6
            exact ⟨h4', pre', q, r, h7, by simp at h2; omega, h3, fun c hc => h5 c (by simp [hc]), h6⟩
        rw [← hu, ← i2]
        cases hr : Base64.decLoop (left - 3) rest with
        | ok t => exact ⟨(by intro h; cases h), (by intro h; cases h), (by intro h; cases h)⟩
        | err => exact ⟨(by intro h; cases h), (by intro h; cases h), (by intro h; cases h)⟩
        | ub => exact ⟨(by intro h; cases h), fun _ => rfl, fun _ => rfl⟩
        | fuel => exact absurd hr i1

private theorem size_bounds (s : Bytes) : Base64.decodedSize s ≤ s.length / 4 * 3 ∧
    s.length / 4 * 3 ≤ Base64.decodedSize s + 2 := by
  unfold Base64.decodedSize
  by_cases hl : s.length < 4
  · simp only [hl, if_true]; omega
  · simp only [hl, if_false]
    split <;> split <;> omega

/-- C19, exactly: for which texts restoring a binary is undefined. For all others it ends with bytes or an
exception. -/
theorem base64_undefined_iff (s : Bytes) :
    Base64.restoreBinary s ≠ .fuel ∧ (Base64.restoreBinary s = .ub ↔ B64Undefined s) := by
  have hne : ∀ {q : Bytes}, B64Undefined q → 4 ≤ q.length := by
    rintro _ ⟨-, pre, q, r, rfl, -, h, -⟩
    simp only [List.length_append]
    omega
  obtain ⟨b1, b2⟩ := size_bounds s
  unfold Base64.restoreBinary
  split
  · rename_i hz
    refine ⟨by simp, by simp, fun h => ?_⟩
    have := hne h
    omega
  · unfold Base64.decode Base64.decodeTo
    by_cases h4 : s.length % 4 = 0
    · rw [if_neg (by omega)]
      exact decLoop_high _ s h4 b1 b2
    · rw [if_pos (by omega)]
      exact ⟨by simp, by simp, fun h => absurd h.1 h4⟩

/-- The first bad character decides. -/
example : Base64.restoreBinary (str "QUJ?" ++ [195, 164, 65, 65]) = .err ∧
    Base64.restoreBinary (str "QUJD" ++ [195, 164, 63, 65]) = .ub := by decide +kernel

/-- C19, the part that holds: decoding text of ASCII characters throws exactly when its length is
not a multiple of four or it contains a character that is neither in the alphabet nor `=`.
Missing: rejection of misplaced `=` and of bytes above 127, and short texts in `restoreBinary`
(see the three theorems above). -/
theorem base64_rejects_partial (s : Bytes) (ascii : ∀ c ∈ s, c < 128) :
    Base64.decode s = .err ↔ (s.length % 4 ≠ 0 ∨ ∃ c ∈ s, ¬ IsB64 c) := by
  unfold Base64.decode Base64.decodeTo
  by_cases h4 : s.length % 4 = 0
  · have hsz : Base64.decodedSize s ≤ s.length / 4 * 3 ∧
        s.length / 4 * 3 ≤ Base64.decodedSize s + 2 := by
      unfold Base64.decodedSize
      by_cases hl : s.length < 4
      · simp only [hl, if_true]; omega
      · simp only [hl, if_false]
        split <;> split <;> omega
    simp only [h4, ne_eq, not_true, and_false, if_false, false_or]
    rcases decLoop_ascii _ s ascii h4 hsz.1 hsz.2 with ⟨⟨out, ho, _⟩, hall⟩ | ⟨he, hex⟩
    · rw [ho]
      constructor
      · intro h; cases h
      · rintro ⟨c, hc, hn⟩; exact absurd (hall c hc) hn
    · exact ⟨fun _ => hex, fun _ => he⟩
  · have : s.length > 0 := by omega
    simp [h4, this]

/-- Both outcomes occur under the hypothesis. -/
example : (∀ c ∈ str "TW?u", c < 128) ∧ Base64.decode (str "TW?u") = .err := by decide +kernel
example : (∀ c ∈ str "TWFu", c < 128) ∧ Base64.decode (str "TWFu") = .ok (str "Man") := by decide +kernel
example : Base64.decode (str "TWFuT") = .err := by decide

end Srl.Props
