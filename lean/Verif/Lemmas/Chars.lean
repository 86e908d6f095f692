import Verif.Model.Chars

/-! # Lemmas on character sets -/

namespace Srl.Chars

/-- Numbers of characters -/
def Scalar (c : Nat) : Prop := c < 0xD800 ∨ (0xE000 ≤ c ∧ c < 0x110000)

theorem ofNat_eq {a : UInt8} {n : Nat} (h : n = a.toNat) : UInt8.ofNat n = a := by
  subst h
  exact UInt8.ofNat_toNat

theorem decode_encode (e : Enc) (he : e ≠ .unknown) (c : Nat) (hc : Scalar c) (r : Bytes) :
    decode e (encode e c ++ r) = some (c, (encode e c).length) := by
  unfold Scalar at hc
  cases e with
  | unknown => exact absurd rfl he
  | utf8 =>
    simp only [decode, encode]
    by_cases h1 : c < 0x80
    · have e1 : (UInt8.ofNat c).toNat = c := by simp; omega
      simp [h1, decode8, e1]
    · by_cases h2 : c < 0x800
      · have e1 : (UInt8.ofNat (0xC0 + c / 64)).toNat = 0xC0 + c / 64 := by simp; omega
        have e2 : (UInt8.ofNat (0x80 + c % 64)).toNat = 0x80 + c % 64 := by simp; omega
        rw [if_neg h1, if_pos h2, List.cons_append, List.cons_append, List.nil_append, decode8, e1]
        rw [if_neg (by omega), if_neg (by omega), if_pos (by omega)]
        simp only [isCont, e2]
        rw [if_pos (by simp; omega)]
        simp only [List.length_cons, List.length_nil, Option.some.injEq, Prod.mk.injEq, and_true]
        omega
      · by_cases h3 : c < 0x10000
        · have e1 : (UInt8.ofNat (0xE0 + c / 4096)).toNat = 0xE0 + c / 4096 := by simp; omega
          have e2 : (UInt8.ofNat (0x80 + c / 64 % 64)).toNat = 0x80 + c / 64 % 64 := by simp; omega
          have e3 : (UInt8.ofNat (0x80 + c % 64)).toNat = 0x80 + c % 64 := by simp; omega
          rw [if_neg h1, if_neg h2, if_pos h3, List.cons_append, List.cons_append, List.cons_append,
            List.nil_append, decode8, e1]
          rw [if_neg (by omega), if_neg (by omega), if_neg (by omega), if_pos (by omega)]
          simp only [isCont, e2, e3]
          rw [if_pos (by simp; omega)]
          have hu : (0xE0 + c / 4096 - 0xE0) * 4096 + (0x80 + c / 64 % 64 - 0x80) * 64
              + (0x80 + c % 64 - 0x80) = c := by omega
          rw [hu, if_neg (by simp; omega)]
          rfl
        · have e1 : (UInt8.ofNat (0xF0 + c / 262144)).toNat = 0xF0 + c / 262144 := by simp; omega
          have e2 : (UInt8.ofNat (0x80 + c / 4096 % 64)).toNat = 0x80 + c / 4096 % 64 := by
            simp; omega
          have e3 : (UInt8.ofNat (0x80 + c / 64 % 64)).toNat = 0x80 + c / 64 % 64 := by simp; omega
          have e4 : (UInt8.ofNat (0x80 + c % 64)).toNat = 0x80 + c % 64 := by simp; omega
          rw [if_neg h1, if_neg h2, if_neg h3, List.cons_append, List.cons_append, List.cons_append,
            List.cons_append, List.nil_append, decode8, e1]
          rw [if_neg (by omega), if_neg (by omega), if_neg (by omega), if_neg (by omega),
            if_pos (by omega)]
          simp only [isCont, e2, e3, e4]
          rw [if_pos (by simp; omega)]
          have hu : (0xF0 + c / 262144 - 0xF0) * 262144 + (0x80 + c / 4096 % 64 - 0x80) * 4096
              + (0x80 + c / 64 % 64 - 0x80) * 64 + (0x80 + c % 64 - 0x80) = c := by omega
          rw [hu, if_neg (by simp; omega)]
          rfl
  | utf16 =>
    simp only [decode, encode]
    have hb : ∀ v, (UInt8.ofNat (v % 256)).toNat = v % 256 := by intro v; simp
    by_cases h1 : c < 0x10000
    · rw [if_pos h1]
      simp only [leBytes, List.cons_append, List.nil_append, decode16, hb]
      have hu : c % 256 + 256 * (c / 256 % 256) = c := by omega
      rw [hu, if_pos (by simp; omega)]
      rfl
    · rw [if_neg h1]
      simp only [leBytes, List.cons_append, List.nil_append, decode16, hb]
      generalize hx : 0xD800 + (c - 0x10000) / 1024 = x
      generalize hy : 0xDC00 + (c - 0x10000) % 1024 = y
      have hu : x % 256 + 256 * (x / 256 % 256) = x := by omega
      have hv : y % 256 + 256 * (y / 256 % 256) = y := by omega
      rw [hu, hv, if_neg (by simp; omega), if_neg (by omega), if_pos (by simp; omega)]
      simp only [List.length_cons, List.length_nil, Option.some.injEq, Prod.mk.injEq, and_true]
      omega
  | utf32 =>
    simp only [decode, encode]
    have hb : ∀ v, (UInt8.ofNat (v % 256)).toNat = v % 256 := by intro v; simp
    simp only [leBytes, List.cons_append, List.nil_append, decode32, hb]
    have hu : c % 256 + 256 * (c / 256 % 256 + 256 * (c / 256 / 256 % 256
        + 256 * (c / 256 / 256 / 256 % 256))) = c := by omega
    rw [hu, if_neg (by simp; omega)]
    rfl

private theorem cont_iff {b : UInt8} : isCont b = true ↔ 0x80 ≤ b.toNat ∧ b.toNat < 0xC0 := by
  simp [isCont]

theorem decode_sound (e : Enc) (bs : Bytes) (c n : Nat) (h : decode e bs = some (c, n)) :
    Scalar c ∧ n = (encode e c).length ∧ bs = encode e c ++ bs.drop n := by
  unfold Scalar
  cases e with
  | unknown => cases h
  | utf8 =>
    simp only [decode] at h
    cases bs with
    | nil => cases h
    | cons a bs =>
      have ha := a.toNat_lt
      unfold decode8 at h
      try simp only at h
      split at h
      · rename_i h1
        cases h
        refine ⟨by omega, by simp [encode, h1], ?_⟩
        simp only [encode, if_pos h1]
        simp
      · split at h
        · cases h
        · split at h
          · cases bs with
            | nil => cases h
            | cons b bs =>
              try simp only at h
              split at h
              · rename_i h1 h2 h3 h4
                rw [cont_iff] at h4
                generalize hu : (a.toNat - 0xC0) * 64 + (b.toNat - 0x80) = u at h
                cases h
                have k1 : ¬ c < 0x80 := by omega
                have k2 : c < 0x800 := by omega
                refine ⟨by omega, by simp only [encode, if_neg k1, if_pos k2]; rfl, ?_⟩
                simp only [encode, if_neg k1, if_pos k2]
                rw [ofNat_eq (a := a) (by omega), ofNat_eq (a := b) (by omega)]
                rfl
              · cases h
          · split at h
            · rcases bs with _ | ⟨b, _ | ⟨d, bs⟩⟩
              · cases h
              · cases h
              · try simp only at h
                split at h
                · rename_i h1 h2 h3 h4 h5
                  rw [Bool.and_eq_true, cont_iff, cont_iff] at h5
                  generalize hu : (a.toNat - 0xE0) * 4096 + (b.toNat - 0x80) * 64 + (d.toNat - 0x80) = u
                    at h
                  split at h
                  · cases h
                  · rename_i h6
                    simp at h6
                    cases h
                    have k1 : ¬ c < 0x80 := by omega
                    have k2 : ¬ c < 0x800 := by omega
                    have k3 : c < 0x10000 := by omega
                    refine ⟨by omega, by simp only [encode, if_neg k1, if_neg k2, if_pos k3]; rfl, ?_⟩
                    simp only [encode, if_neg k1, if_neg k2, if_pos k3]
                    rw [ofNat_eq (a := a) (by omega), ofNat_eq (a := b) (by omega),
                      ofNat_eq (a := d) (by omega)]
                    rfl
                · cases h
            · split at h
              · rcases bs with _ | ⟨b, _ | ⟨d, _ | ⟨f, bs⟩⟩⟩
                · cases h
                · cases h
                · cases h
                · try simp only at h
                  split at h
                  · rename_i h1 h2 h3 h4 h5 h6
                    rw [Bool.and_eq_true, Bool.and_eq_true, cont_iff, cont_iff, cont_iff] at h6
                    generalize hu : (a.toNat - 0xF0) * 262144 + (b.toNat - 0x80) * 4096
                      + (d.toNat - 0x80) * 64 + (f.toNat - 0x80) = u at h
                    split at h
                    · cases h
                    · rename_i h7
                      simp at h7
                      cases h
                      have k1 : ¬ c < 0x80 := by omega
                      have k2 : ¬ c < 0x800 := by omega
                      have k3 : ¬ c < 0x10000 := by omega
                      refine ⟨by omega, by simp only [encode, if_neg k1, if_neg k2, if_neg k3]; rfl, ?_⟩
                      simp only [encode, if_neg k1, if_neg k2, if_neg k3]
                      rw [ofNat_eq (a := a) (by omega), ofNat_eq (a := b) (by omega),
                        ofNat_eq (a := d) (by omega), ofNat_eq (a := f) (by omega)]
                      rfl
                  · cases h
              · cases h
  | utf16 =>
    simp only [decode] at h
    rcases bs with _ | ⟨a, _ | ⟨b, bs⟩⟩
    · cases h
    · cases h
    · have ha := a.toNat_lt
      have hb := b.toNat_lt
      unfold decode16 at h
      try simp only at h
      split at h
      · rename_i h1
        simp at h1
        cases h
        have k1 : a.toNat + 256 * b.toNat < 0x10000 := by omega
        refine ⟨by omega, by simp only [encode, if_pos k1]; rfl, ?_⟩
        simp only [encode, if_pos k1, leBytes]
        rw [ofNat_eq (a := a) (by omega), ofNat_eq (a := b) (by omega)]
        rfl
      · split at h
        · cases h
        · rename_i h1 h2
          simp at h1
          rcases bs with _ | ⟨d, _ | ⟨f, bs⟩⟩
          · cases h
          · cases h
          · have hd := d.toNat_lt
            have hf := f.toNat_lt
            try simp only at h
            split at h
            · rename_i h3
              simp at h3
              generalize hu : a.toNat + 256 * b.toNat = u at *
              generalize hv : d.toNat + 256 * f.toNat = v at *
              generalize hx : 0x10000 + (u - 0xD800) * 1024 + (v - 0xDC00) = x at h
              cases h
              have k1 : ¬ c < 0x10000 := by omega
              refine ⟨by omega, by simp only [encode, if_neg k1]; rfl, ?_⟩
              simp only [encode, if_neg k1]
              have q1 : 0xD800 + (c - 0x10000) / 1024 = u := by
                omega
              have q2 : 0xDC00 + (c - 0x10000) % 1024 = v := by
                omega
              rw [q1, q2]
              simp only [leBytes]
              rw [ofNat_eq (a := a) (by omega), ofNat_eq (a := b) (by omega),
                ofNat_eq (a := d) (by omega), ofNat_eq (a := f) (by omega)]
              rfl
            · cases h
  | utf32 =>
    simp only [decode] at h
    rcases bs with _ | ⟨a, _ | ⟨b, _ | ⟨d, _ | ⟨f, bs⟩⟩⟩⟩
    · cases h
    · cases h
    · cases h
    · cases h
    · have ha := a.toNat_lt
      have hb := b.toNat_lt
      have hd := d.toNat_lt
      have hf := f.toNat_lt
      rw [decode32] at h
      try simp only at h
      split at h
      · cases h
      · rename_i h1
        simp at h1
        cases h
        refine ⟨by omega, rfl, ?_⟩
        simp only [encode, leBytes]
        rw [ofNat_eq (a := a) (by omega), ofNat_eq (a := b) (by omega), ofNat_eq (a := d) (by omega),
          ofNat_eq (a := f) (by omega)]
        rfl

theorem encode_pos (e : Enc) (he : e ≠ .unknown) (c : Nat) :
    1 ≤ (encode e c).length ∧ (encode e c).length ≤ 4 := by
  cases e with
  | unknown => exact absurd rfl he
  | utf8 =>
    simp only [encode]
    repeat' split
    all_goals simp
  | utf16 =>
    simp only [encode]
    split <;> simp
  | utf32 => simp [encode]

/-- The bytes of a sequence of characters -/
def encodes (e : Enc) (cs : List Nat) : Bytes := cs.flatMap (encode e)

@[simp] theorem encodes_nil (e : Enc) : encodes e [] = [] := rfl
@[simp] theorem encodes_cons (e : Enc) (c : Nat) (cs : List Nat) :
    encodes e (c :: cs) = encode e c ++ encodes e cs := by simp [encodes]
theorem encodes_append (e : Enc) (a b : List Nat) : encodes e (a ++ b) = encodes e a ++ encodes e b := by
  simp [encodes]

theorem encodes_len (e d : Enc) (he : e ≠ .unknown) (hd : d ≠ .unknown) (cs : List Nat) :
    (encodes d cs).length ≤ 4 * (encodes e cs).length := by
  induction cs with
  | nil => simp
  | cons c cs ih =>
    have h1 := encode_pos e he c
    have h2 := encode_pos d hd c
    simp only [encodes_cons, List.length_append]
    omega

theorem encodes_unique (e : Enc) (he : e ≠ .unknown) (cs ds : List Nat) (r : Bytes)
    (hc : ∀ c ∈ cs, Scalar c) (hd : ∀ c ∈ ds, Scalar c) (hr : r = [] ∨ decode e r = none)
    (h : encodes e ds = encodes e cs ++ r) : ds = cs ∧ r = [] := by
  induction cs generalizing ds with
  | nil =>
    cases ds with
    | nil => exact ⟨rfl, by simpa using h.symm⟩
    | cons d ds =>
      have hp := encode_pos e he d
      have h1 := decode_encode e he d (hd d (by simp)) (encodes e ds)
      rw [← encodes_cons, h, encodes_nil, List.nil_append] at h1
      rcases hr with rfl | hr
      · rw [encodes_nil, List.nil_append, encodes_cons] at h
        have := congrArg List.length h
        simp only [List.length_append, List.length_nil] at this
        omega
      · rw [hr] at h1
        cases h1
  | cons c cs ih =>
    have h2 := decode_encode e he c (hc c (by simp)) (encodes e cs ++ r)
    rw [← List.append_assoc, ← encodes_cons, ← h] at h2
    cases ds with
    | nil => cases e <;> first | exact absurd rfl he | cases h2
    | cons d ds =>
      have h1 := decode_encode e he d (hd d (by simp)) (encodes e ds)
      rw [← encodes_cons, h2] at h1
      simp only [Option.some.injEq, Prod.mk.injEq] at h1
      obtain ⟨rfl, -⟩ := h1
      rw [encodes_cons, encodes_cons, List.append_assoc] at h
      obtain ⟨h3, h4⟩ := ih ds (fun x hx => hc x (by simp [hx])) (fun x hx => hd x (by simp [hx]))
        (List.append_cancel_left h)
      exact ⟨by rw [h3], h4⟩

/-- What `iconv` does -/
theorem iconvGo_spec (src dst : Enc) (hs : src ≠ .unknown) (fuel : Nat) (bs : Bytes) (left : Nat)
    (hf : bs.length < fuel) :
    ∃ cs rest st, iconvGo src dst fuel bs left = .ok (encodes dst cs, rest, st) ∧
      (∀ c ∈ cs, Scalar c) ∧ bs = encodes src cs ++ rest ∧ (encodes dst cs).length ≤ left ∧
      (st = .done → rest = []) ∧ (st = .bad → rest ≠ [] ∧ decode src rest = none) ∧
      (st = .tooBig → ∃ c n, decode src rest = some (c, n) ∧
        left < (encodes dst cs).length + (encode dst c).length) := by
  induction fuel generalizing bs left with
  | zero => omega
  | succ fuel ih =>
    cases bs with
    | nil => exact ⟨[], [], .done, rfl, by simp, rfl, by simp, by simp, by simp, by simp⟩
    | cons b bs =>
      rw [iconvGo]
      simp only
      cases hdec : decode src (b :: bs) with
      | none =>
        exact ⟨[], b :: bs, .bad, rfl, by simp, rfl, by simp, by simp, fun _ => ⟨by simp, hdec⟩, by simp⟩
      | some p =>
        obtain ⟨c, n⟩ := p
        obtain ⟨h1, h2, h3⟩ := decode_sound src _ c n hdec
        have hp := encode_pos src hs c
        simp only
        by_cases hfit : (encode dst c).length ≤ left
        · rw [if_pos hfit]
          obtain ⟨cs, rest, st, e, q1, q2, q3, q4, q5, q6⟩ :=
            ih ((b :: bs).drop n) (left - (encode dst c).length) (by simp at hf ⊢; omega)
          refine ⟨c :: cs, rest, st, ?_, ?_, ?_, ?_, q4, q5, ?_⟩
          · rw [e]
            simp
          · intro x hx
            rcases List.mem_cons.mp hx with rfl | hx
            · exact h1
            · exact q1 x hx
          · rw [encodes_cons, List.append_assoc, ← q2]
            exact h3
          · simp only [encodes_cons, List.length_append]
            omega
          · intro h
            obtain ⟨c', n', k1, k2⟩ := q6 h
            refine ⟨c', n', k1, ?_⟩
            simp only [encodes_cons, List.length_append]
            omega
        · rw [if_neg hfit]
          refine ⟨[], b :: bs, .tooBig, rfl, by simp, rfl, by simp, by simp, by simp, fun _ => ⟨c, n, hdec, ?_⟩⟩
          simp only [encodes_nil, List.length_nil]
          omega

@[simp] theorem resize_length (buf : Bytes) (n : Nat) : (resize buf n).length = n := by
  simp only [resize, List.length_append, List.length_take, List.length_replicate]
  omega

theorem resize_take (buf : Bytes) (n k : Nat) (hk : k ≤ buf.length) (hn : k ≤ n) :
    (resize buf n).take k = buf.take k := by
  rw [resize, List.take_append_of_le_length (by simp; omega), List.take_take, Nat.min_eq_left hn]

theorem put_ok (buf : Bytes) (i : Nat) (bs : Bytes) (h : i < buf.length) (h2 : i + bs.length ≤ buf.length) :
    ∃ buf', put buf i bs = .ok buf' ∧ buf'.length = buf.length ∧
      buf'.take (i + bs.length) = buf.take i ++ bs ∧ buf'.take i = buf.take i := by
  have hl : (buf.take i).length = i := by simp; omega
  refine ⟨_, if_pos ⟨h, h2⟩, ?_, ?_, ?_⟩
  · simp only [List.length_append, List.length_drop, hl]
    omega
  · rw [List.take_append_of_le_length (by simp only [List.length_append, hl]; omega)]
    rw [List.take_of_length_le (by simp only [List.length_append, hl]; omega)]
  · rw [List.append_assoc, List.take_append_of_le_length (by omega), List.take_of_length_le (by omega)]

/-- The loop of `conv_charset` when it starts at the beginning of the buffer: it ends after at most two
rounds. -/
theorem convLoop_spec (src dst : Enc) (hs : src ≠ .unknown) (hd : dst ≠ .unknown) (fuel : Nat) (bs : Bytes)
    (buf : Bytes) (hb : 0 < buf.length) (hf : 2 ≤ fuel) :
    (∃ cs buf', (∀ c ∈ cs, Scalar c) ∧ bs = encodes src cs ∧
      convLoop src dst 0 fuel bs buf buf.length 0 = .ok (buf', some (encodes dst cs).length) ∧
      buf'.take (encodes dst cs).length = encodes dst cs ∧ (encodes dst cs).length ≤ buf'.length) ∨
    (∃ cs rest buf', (∀ c ∈ cs, Scalar c) ∧ bs = encodes src cs ++ rest ∧ rest ≠ [] ∧
      decode src rest = none ∧ convLoop src dst 0 fuel bs buf buf.length 0 = .ok (buf', none)) := by
  obtain ⟨fuel, rfl⟩ : ∃ k, fuel = k + 2 := ⟨fuel - 2, by omega⟩
  obtain ⟨cs, rest, st, e, q1, q2, q3, q4, q5, q6⟩ :=
    iconvGo_spec src dst hs (bs.length + 1) bs buf.length (by omega)
  obtain ⟨buf1, p1, p2, p3, -⟩ := put_ok buf 0 (encodes dst cs) (by omega) (by omega)
  simp only [Nat.zero_add, List.take_zero, List.nil_append] at p3
  rw [convLoop]
  unfold iconv
  rw [e]
  simp only [Res.ok_bind, Nat.add_zero, p1]
  cases st with
  | done =>
    left
    refine ⟨cs, buf1, q1, by rw [q2, q4 rfl, List.append_nil], ?_, p3, by omega⟩
    simp only [Res.ok.injEq, Prod.mk.injEq, Option.some.injEq, true_and]
    omega
  | bad =>
    right
    exact ⟨cs, rest, buf1, q1, q2, (q5 rfl).1, (q5 rfl).2, rfl⟩
  | tooBig =>
    simp only
    obtain ⟨c0, n0, hdec0, -⟩ := q6 rfl
    have hrest : 0 < rest.length := by
      cases rest with
      | nil => cases src <;> cases hdec0
      | cons _ _ => simp
    have hconv : buf1.length - (buf.length - (encodes dst cs).length) = (encodes dst cs).length := by omega
    rw [hconv]
    obtain ⟨cs2, rest2, st2, e2, r1, r2, r3, r4, r5, r6⟩ :=
      iconvGo_spec src dst hs (rest.length + 1) rest
        (buf1.length + rest.length * 4 - (encodes dst cs).length) (by omega)
    obtain ⟨buf2, s1, s2, s3, -⟩ := put_ok (resize buf1 (buf1.length + rest.length * 4))
      (encodes dst cs).length (encodes dst cs2) (by simp; omega) (by simp; omega)
    rw [convLoop]
    unfold iconv
    rw [e2]
    simp only [Res.ok_bind, Nat.zero_add, s1]
    rw [resize_length] at s2
    rw [resize_take _ _ _ (by omega) (by omega), p3] at s3
    have hall : ∀ c ∈ cs ++ cs2, Scalar c := by
      intro c hc
      rcases List.mem_append.mp hc with hc | hc
      · exact q1 c hc
      · exact r1 c hc
    cases st2 with
    | done =>
      left
      refine ⟨cs ++ cs2, buf2, hall, ?_, ?_, ?_, ?_⟩
      · rw [encodes_append, q2, r2, r4 rfl, List.append_nil]
      · rw [encodes_append]
        simp only [Res.ok.injEq, Prod.mk.injEq, Option.some.injEq, true_and, List.length_append]
        omega
      · rw [encodes_append, List.length_append]
        exact s3
      · rw [encodes_append, List.length_append]
        omega
    | bad =>
      right
      refine ⟨cs ++ cs2, rest2, buf2, hall, ?_, (r5 rfl).1, (r5 rfl).2, rfl⟩
      rw [encodes_append, List.append_assoc, ← r2]
      exact q2
    | tooBig =>
      exfalso
      obtain ⟨c, n, hdec, hbig⟩ := r6 rfl
      obtain ⟨-, hn, hr⟩ := decode_sound src rest2 c n hdec
      have l1 := encodes_len src dst hs hd cs2
      have l2 := encode_pos dst hd c
      have l3 := encode_pos src hs c
      have l4 := congrArg List.length hr
      have l5 := congrArg List.length r2
      simp only [List.length_append] at l4 l5
      omega

/-- `conv_charset` at the beginning of a buffer -/
theorem convCharset_spec (src dst : Enc) (hs : src ≠ .unknown) (hd : dst ≠ .unknown) (hne : src ≠ dst)
    (bs : Bytes) (buf : Bytes) (throwError : Bool) :
    (∃ cs buf', (∀ c ∈ cs, Scalar c) ∧ bs = encodes src cs ∧
      convCharset dst bs src buf throwError 0 = .ok (buf', (encodes dst cs).length) ∧
      buf'.take (encodes dst cs).length = encodes dst cs ∧ (encodes dst cs).length ≤ buf'.length) ∨
    (∃ cs rest, (∀ c ∈ cs, Scalar c) ∧ bs = encodes src cs ++ rest ∧ rest ≠ [] ∧
      decode src rest = none ∧
      if throwError then convCharset dst bs src buf throwError 0 = .err
      else ∃ buf', convCharset dst bs src buf throwError 0 = .ok (buf', 0)) := by
  unfold convCharset
  by_cases h0 : bs.length < 1
  · left
    rw [if_pos h0]
    have : bs = [] := List.length_eq_zero_iff.mp (by omega)
    exact ⟨[], buf, by simp, by simp [this], rfl, by simp, by simp⟩
  · rw [if_neg h0, if_neg hne, if_neg (by simp [hs, hd])]
    simp only [Nat.zero_add, Nat.sub_zero]
    generalize hres : bs.length * (if dst.rank < src.rank then 1 else if src = .utf16 then 2 else 4) = reserve
    have hpos : 0 < reserve := by
      rw [← hres]
      refine Nat.mul_pos (by omega) ?_
      repeat' split
      all_goals omega
    generalize hbuf : (if reserve > buf.length then resize buf reserve else buf) = buf0
    have hb : 0 < buf0.length := by
      rw [← hbuf]
      split
      · simp; omega
      · omega
    rcases convLoop_spec src dst hs hd (bs.length + 1) bs buf0 hb (by omega) with
      ⟨cs, buf', k1, k2, k3, k4, k5⟩ | ⟨cs, rest, buf', k1, k2, k3, k4, k5⟩
    · left
      refine ⟨cs, buf', k1, k2, ?_, k4, k5⟩
      rw [k3]
      rfl
    · right
      refine ⟨cs, rest, k1, k2, k3, k4, ?_⟩
      rw [k5]
      cases throwError
      · exact ⟨buf', rfl⟩
      · rfl

end Srl.Chars
