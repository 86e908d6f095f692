import Verif.Props.MsgPackLaxSpec
import Verif.Props.JsonLaxSpec
import Verif.Props.PMsgPack

/-! Lemmas about the bytes that are read as MessagePack. -/

namespace Srl.LaxMp
open PMsgPack Doc

theorem small_eq (n v : Nat) : small n v = leBytes n v := by
  induction n generalizing v with
  | zero => rfl
  | succ n ih => rw [small, leBytes, ih]

theorem text_enc {odd : Bool} {s b : Bytes} (h : Text odd s b) : EncStr false s b := by
  rcases h with ⟨h, rfl⟩ | ⟨h, rfl⟩ | ⟨_, h, rfl⟩ | ⟨_, h, rfl⟩
  · exact .inl ⟨by omega, rfl⟩
  · exact .inr (.inl ⟨h, rfl⟩)
  · exact .inr (.inr (.inl ⟨h, by simp [small_eq, lenBytes]⟩))
  · exact .inr (.inr (.inr ⟨h, by simp [small_eq, lenBytes]⟩))

theorem enc_text {s b : Bytes} (h : EncStr false s b) : Text true s b := by
  rcases h with ⟨h, rfl⟩ | ⟨h, rfl⟩ | ⟨h, rfl⟩ | ⟨h, rfl⟩
  · exact .inl ⟨by omega, rfl⟩
  · exact .inr (.inl ⟨h, rfl⟩)
  · exact .inr (.inr (.inl ⟨rfl, h, by simp [small_eq, lenBytes]⟩))
  · exact .inr (.inr (.inr ⟨rfl, h, by simp [small_eq, lenBytes]⟩))

theorem blob_enc {odd : Bool} {s b : Bytes} (h : Blob odd s b) : EncBin false s b := by
  rcases h with ⟨h, rfl⟩ | ⟨_, h, rfl⟩ | ⟨_, h, rfl⟩
  · exact .inl ⟨h, rfl⟩
  · exact .inr (.inl ⟨h, by simp [small_eq, lenBytes]⟩)
  · exact .inr (.inr ⟨h, by simp [small_eq, lenBytes]⟩)

theorem head_enc {t : ScopeTy} {n : Nat} {b : Bytes} : Props.MsgPack.HeadFormat t n b ↔ EncHead t n b := by
  cases t <;> simp only [Props.MsgPack.HeadFormat, EncHead, Props.big_eq, Nat.lt_succ_iff]

theorem intMark_eq (t : IntTy) : intMark t = intPrefix t := by cases t <;> rfl

variable {m : Mem} (hm : m.Sane)
include hm

theorem value_read {odd : Bool} {v : Val} {b : Bytes} (h : Value odd v b) (stack : List RScope) (name rest : Bytes) :
    readItem m stack name (b ++ rest) = .ok (⟨name, .val v⟩, (stack, rest)) := by
  cases h with
  | null => apply readVal_eq hm; exact rfl
  | bool v => apply readVal_eq hm; exact rfl
  | pos v h1 h2 => apply readVal_eq hm; exact .inl ⟨rfl, h1, by omega, rfl⟩
  | neg v h1 h2 => apply readVal_eq hm; exact .inr (.inl ⟨rfl, h1, by omega, rfl⟩)
  | int t v h1 h2 =>
    apply readVal_eq hm
    exact .inr (.inr ⟨h1, h2, by rw [intMark_eq, Props.big_eq]; rfl⟩)
  | float f => apply readVal_eq hm; exact .inl (by rw [Props.big_eq])
  | double d =>
    apply readVal_eq hm
    rw [Props.big_eq]
    cases h : Fp.ofDouble d with
    | fp32 f => exact .inr ⟨d, h, rfl⟩
    | fp64 d' => exact ⟨d, h, rfl⟩
    | _ => unfold Fp.ofDouble at h; split at h <;> cases h
  | text s b h => apply readVal_eq hm; exact text_enc h
  | blob s b h => apply readVal_eq hm; exact blob_enc h
  | reserved h => rw [List.singleton_append, readItem_cons hm]; rfl

omit hm in
theorem block_split {n : Nat} {s x t : Bytes} (h : In.readBlock m n s = .ok (x, t)) : s = x ++ t ∧ x.length = n := by
  obtain ⟨h1, rfl, rfl⟩ := In.readBlock_eq_ok h
  exact ⟨(List.take_append_drop n s).symm, by rw [List.length_take]; omega⟩

omit hm in
theorem le_split {n k : Nat} {s t : Bytes} (h : readLe m n s = .ok (k, t)) :
    s = leBytes n k ++ t ∧ k < 256 ^ n := by
  simp only [readLe, Res.bind_eq_ok] at h
  obtain ⟨⟨b, u⟩, h1, h2⟩ := h
  cases h2
  obtain ⟨rfl, rfl⟩ := block_split h1
  exact ⟨by rw [leBytes_leNat], leNat_lt b⟩

omit hm in
theorem be_split {n k : Nat} {s t : Bytes} (h : readBe m n s = .ok (k, t)) :
    s = beBytes n k ++ t ∧ k < 256 ^ n := by
  simp only [readBe, Res.bind_eq_ok] at h
  obtain ⟨⟨b, u⟩, h1, h2⟩ := h
  cases h2
  obtain ⟨rfl, rfl⟩ := block_split h1
  refine ⟨?_, beNat_lt b⟩
  have := leBytes_leNat b.reverse
  rw [List.length_reverse] at this
  rw [beBytes, beNat, this, List.reverse_reverse]

omit hm in
theorem twos_ofTwos (t : IntTy) (n : Nat) (h : n < 256 ^ (t.bits / 8)) :
    t.lo ≤ ofTwos t n ∧ ofTwos t n ≤ t.hi ∧ (ofTwos t n % (2 ^ t.bits : Nat)).toNat = n := by
  cases t <;> simp only [IntTy.bits, IntTy.lo, IntTy.hi, ofTwos, IntTy.signed] at * <;> norm_num at h ⊢ <;>
    (try split) <;> omega

omit hm in
theorem int_split {t : IntTy} {s u : Bytes} {v : Val} (h : readInt m t s = .ok (v, u)) :
    ∃ w, Value true v (intMark t :: w) ∧ s = w ++ u := by
  simp only [readInt, Res.bind_eq_ok] at h
  obtain ⟨⟨n, u'⟩, h1, h2⟩ := h
  cases h2
  obtain ⟨rfl, h2⟩ := be_split h1
  obtain ⟨h3, h4, h5⟩ := twos_ofTwos t n h2
  refine ⟨_, .int t _ h3 h4, ?_⟩
  rw [h5, Props.big_eq]

omit hm in
theorem num_split {p : UInt8} {s u : Bytes} {v : Val} (h : readNum m p s = .ok (v, u)) :
    ∃ w, Value true v (p :: w) ∧ s = w ++ u := by
  unfold readNum at h
  split at h
  · next hp =>
    subst hp
    simp only [Res.bind_eq_ok] at h
    obtain ⟨⟨n, u'⟩, h1, h2⟩ := h
    cases h2
    obtain ⟨rfl, h2⟩ := be_split h1
    refine ⟨_, .float _, ?_⟩
    rw [Props.big_eq, UInt32.toNat_ofNat_of_lt' (by simpa [UInt32.size] using h2)]
  · split at h
    · next hp =>
      subst hp
      simp only [Res.bind_eq_ok] at h
      obtain ⟨⟨n, u'⟩, h1, h2⟩ := h
      cases h2
      obtain ⟨rfl, h2⟩ := be_split h1
      refine ⟨_, .double _, ?_⟩
      rw [Props.big_eq, UInt64.toNat_ofNat_of_lt' (by simpa [UInt64.size] using h2)]
    · iterate 8
        split at h
        · next hp =>
          subst hp
          exact int_split h
      · cases h

omit hm in
theorem str_split {p : UInt8} {s u v : Bytes} (hp : isStr p = true) (h : readStr m p s = .ok (v, u)) :
    ∃ w, Text true v (p :: w) ∧ s = w ++ u := by
  simp only [readStr, Res.bind_eq_ok] at h
  obtain ⟨⟨n, s1⟩, h1, h2⟩ := h
  obtain ⟨rfl, rfl⟩ := block_split h2
  split at h1
  · next hr =>
    obtain ⟨hl, rfl⟩ : (p &&& 0x1F).toNat = v.length ∧ s = v ++ u := by
      simp only [Res.ok.injEq, Prod.mk.injEq] at h1
      exact h1
    have key : ∀ p : UInt8, 0xA0 ≤ p → p ≤ 0xBF →
        (p &&& 0x1F).toNat ≤ 31 ∧ p = UInt8.ofNat (0xa0 + (p &&& 0x1F).toNat) := by decide +kernel
    obtain ⟨k1, k2⟩ := key p hr.1 hr.2
    exact ⟨v, .inl ⟨by omega, by rw [hl] at k2; rw [← k2]⟩, rfl⟩
  · next hr =>
    split at h1
    · next hd =>
      subst hd
      obtain ⟨rfl, h3⟩ := le_split h1
      exact ⟨UInt8.ofNat v.length :: v, .inr (.inl ⟨by simpa using h3, rfl⟩), by
        rw [← byte_len v.length (by simpa using h3)]; rfl⟩
    · split at h1
      · next hd =>
        subst hd
        obtain ⟨rfl, h3⟩ := le_split h1
        exact ⟨_, .inr (.inr (.inl ⟨rfl, by simpa using h3, rfl⟩)), by rw [small_eq, List.append_assoc]⟩
      · next hd9 hda =>
        have key : ∀ p : UInt8, isStr p = true → ¬(0xA0 ≤ p ∧ p ≤ 0xBF) → p ≠ 0xD9 → p ≠ 0xDA → p = 0xDB := by
          decide +kernel
        obtain rfl := key p hp hr hd9 hda
        obtain ⟨rfl, h3⟩ := le_split h1
        exact ⟨_, .inr (.inr (.inr ⟨rfl, by simpa using h3, rfl⟩)), by rw [small_eq, List.append_assoc]⟩

omit hm in
theorem bin_split {p : UInt8} {s u v : Bytes} (hp : isBin p = true) (h : readBin m p s = .ok (v, u)) :
    ∃ w, Blob true v (p :: w) ∧ s = w ++ u := by
  simp only [readBin, Res.bind_eq_ok] at h
  obtain ⟨⟨n, s1⟩, h1, h2⟩ := h
  obtain ⟨rfl, rfl⟩ := block_split h2
  split at h1
  · next hd =>
    subst hd
    obtain ⟨rfl, h3⟩ := le_split h1
    exact ⟨UInt8.ofNat v.length :: v, .inl ⟨by simpa using h3, rfl⟩, by
      rw [← byte_len v.length (by simpa using h3)]; rfl⟩
  · split at h1
    · next hd =>
      subst hd
      obtain ⟨rfl, h3⟩ := le_split h1
      exact ⟨_, .inr (.inl ⟨rfl, by simpa using h3, rfl⟩), by rw [small_eq, List.append_assoc]⟩
    · next hc4 hc5 =>
      have key : ∀ p : UInt8, isBin p = true → p ≠ 0xC4 → p ≠ 0xC5 → p = 0xC6 := by decide +kernel
      obtain rfl := key p hp hc4 hc5
      obtain ⟨rfl, h3⟩ := le_split h1
      exact ⟨_, .inr (.inr ⟨rfl, by simpa using h3, rfl⟩), by rw [small_eq, List.append_assoc]⟩

omit hm in
theorem scope_split {p : UInt8} {s u : Bytes} {t : ScopeTy} {n : Nat} (hp : isScope p = true)
    (h : readScopeInfo m p s = .ok ((t, n), u)) :
    ∃ w, Props.MsgPack.HeadFormat t n (p :: w) ∧ s = w ++ u := by
  unfold readScopeInfo at h
  split at h
  · next hq =>
    have key : ∀ p : UInt8, isScope p = true → p &&& 0x40 ≠ 0 → p = 0xDC ∨ p = 0xDD ∨ p = 0xDE ∨ p = 0xDF := by
      decide +kernel
    simp only [Res.bind_eq_ok] at h
    obtain ⟨⟨k, s1⟩, h1, h2⟩ := h
    obtain ⟨rfl, h3⟩ := be_split h1
    rcases key p hp hq with rfl | rfl | rfl | rfl
    · cases h2
      exact ⟨beBytes 2 k, .inr (.inl ⟨h3, by rw [Props.big_eq]⟩), rfl⟩
    · cases h2
      exact ⟨beBytes 4 k, .inr (.inr ⟨h3, by rw [Props.big_eq]⟩), rfl⟩
    · cases h2
      exact ⟨beBytes 2 k, .inr (.inl ⟨h3, by rw [Props.big_eq]⟩), rfl⟩
    · cases h2
      exact ⟨beBytes 4 k, .inr (.inr ⟨h3, by rw [Props.big_eq]⟩), rfl⟩
  · next hq =>
    have key : ∀ p : UInt8, isScope p = true → ¬ p &&& 0x40 ≠ 0 → (0x0F &&& p).toNat ≤ 15 ∧
        p = UInt8.ofNat ((if p &&& 0x10 ≠ 0 then 0x90 else 0x80) + (0x0F &&& p).toNat) := by decide +kernel
    obtain ⟨k1, k2⟩ := key p hp hq
    cases h
    refine ⟨[], ?_, rfl⟩
    by_cases hx : p &&& 0x10 ≠ 0
    · rw [if_pos hx] at k2 ⊢
      exact .inl ⟨k1, by rw [← k2]⟩
    · rw [if_neg hx] at k2 ⊢
      exact .inl ⟨k1, by rw [← k2]⟩

omit hm in
theorem scalar_split {p : UInt8} {s u : Bytes} {v : Val} (h1 : isScope p = false) (h2 : isStr p = false)
    (hp : isScalar p = true) (h : readScalar m p s = .ok (v, u)) :
    ∃ w, Value true v (p :: w) ∧ s = w ++ u := by
  unfold readScalar at h
  split at h
  · next hq =>
    cases h
    rcases hq with rfl | rfl
    · exact ⟨[], .bool false, rfl⟩
    · exact ⟨[], .bool true, rfl⟩
  · split at h
    · exact num_split h
    · split at h
      · next hq => subst hq; cases h; exact ⟨[], .null, rfl⟩
      · next n1 n2 n3 =>
        have key : ∀ p : UInt8, isScope p = false → isStr p = false → isScalar p = true → ¬(p = 0xC2 ∨ p = 0xC3) →
            ¬(0xCA ≤ p ∧ p ≤ 0xD3) → p ≠ 0xC0 → p = 0xC1 ∨
            (0 ≤ fixnum p ∧ fixnum p ≤ 127 ∧ p = UInt8.ofNat (fixnum p).toNat) ∨
            (-32 ≤ fixnum p ∧ fixnum p ≤ -1 ∧ p = UInt8.ofNat (256 + fixnum p).toNat) := by decide +kernel
        cases h
        refine ⟨[], ?_, rfl⟩
        rcases key p h1 h2 hp n1 n2 n3 with rfl | ⟨k1, k2, k3⟩ | ⟨k1, k2, k3⟩
        · exact .reserved rfl
        · have := Value.pos (odd := true) _ k1 k2
          rwa [← k3] at this
        · have := Value.neg (odd := true) _ k1 k2
          rwa [← k3] at this

/-- What is read of one element -/
theorem item_split {stack st : List RScope} {name s u : Bytes} {e : Event}
    (h : readItem m stack name s = .ok (e, (st, u))) :
    (∃ v w, Value true v w ∧ s = w ++ u ∧ e = ⟨name, .val v⟩ ∧ st = stack) ∨
    (∃ t n w, Props.MsgPack.HeadFormat t n w ∧ s = w ++ u ∧ e = ⟨name, .scope t⟩ ∧ st = ⟨t, n⟩ :: stack) := by
  cases s with
  | nil =>
    simp only [readItem, Res.bind_eq_ok] at h
    obtain ⟨⟨b, s1⟩, h1, _⟩ := h
    obtain ⟨h2, _⟩ := In.readBlock_eq_ok h1
    simp at h2
  | cons p s =>
    rw [readItem_cons hm] at h
    unfold readPrefixed at h
    split at h
    · next hp =>
      simp only [Res.bind_eq_ok] at h
      obtain ⟨⟨⟨t, n⟩, s1⟩, h1, h2⟩ := h
      cases h2
      obtain ⟨w, h3, rfl⟩ := scope_split hp h1
      exact .inr ⟨t, n, p :: w, h3, rfl, rfl, rfl⟩
    · next hp =>
      split at h
      · next hq =>
        simp only [Res.bind_eq_ok] at h
        obtain ⟨⟨b, s1⟩, h1, h2⟩ := h
        cases h2
        obtain ⟨w, h3, rfl⟩ := str_split hq h1
        exact .inl ⟨_, p :: w, .text _ _ h3, rfl, rfl, rfl⟩
      · next hq =>
        split at h
        · next hr =>
          simp only [Res.bind_eq_ok] at h
          obtain ⟨⟨b, s1⟩, h1, h2⟩ := h
          cases h2
          obtain ⟨w, h3, rfl⟩ := scalar_split (by simpa using hp) (by simpa using hq) hr h1
          exact .inl ⟨_, p :: w, h3, rfl, rfl, rfl⟩
        · split at h
          · next hr =>
            simp only [Res.bind_eq_ok] at h
            obtain ⟨⟨b, s1⟩, h1, h2⟩ := h
            cases h2
            obtain ⟨w, h3, rfl⟩ := bin_split hr h1
            exact .inl ⟨_, p :: w, .blob _ _ h3, rfl, rfl, rfl⟩
          · cases h

omit hm in
theorem startsText_iff (p : UInt8) : startsText p ↔ isStr p = true := by
  simp [startsText, isStr]

/-- What is read with keys -/
theorem read_split {sc : RScope} {stack st : List RScope} {s u : Bytes} {e : Event}
    (h : PMsgPack.read m (sc :: stack, s) = .ok (e, (st, u))) :
    (sc.elements = 0 ∧ e = ⟨[], .scopeEnd⟩ ∧ st = stack ∧ u = s) ∨
    (sc.elements ≠ 0 ∧ ∃ n k r, Key true sc.type n k ∧ s = k ++ r ∧
      readItem m ({ sc with elements := sc.elements - 1 } :: stack) n r = .ok (e, (st, u))) := by
  obtain ⟨t, k⟩ := sc
  simp only [PMsgPack.read] at h
  split at h
  · next hk => cases h; exact .inl ⟨by simpa using hk, rfl, rfl, rfl⟩
  · next hk =>
    refine .inr ⟨by simpa using hk, ?_⟩
    cases t with
    | array => exact ⟨[], [], s, ⟨rfl, rfl⟩, rfl, h⟩
    | object =>
      simp only [Res.bind_eq_ok] at h
      obtain ⟨⟨b, s1⟩, h1, ⟨name, s2⟩, h2, h3⟩ := h
      obtain ⟨rfl, hb⟩ := block_split h1
      obtain ⟨p, rfl⟩ := List.length_eq_one_iff.mp hb
      by_cases hp : isStr p = true
      · rw [List.headD_cons, if_pos hp] at h2
        obtain ⟨w, h4, rfl⟩ := str_split hp h2
        exact ⟨name, p :: w, s2, .inl h4, rfl, h3⟩
      · rw [List.headD_cons, if_neg hp] at h2
        cases h2
        exact ⟨[], [p], _, .inr ⟨rfl, rfl, p, by rwa [startsText_iff], rfl⟩, rfl, h3⟩

theorem key_read {odd : Bool} {ty : ScopeTy} {n k : Bytes} (h : Key odd ty n k) (e : Nat) (stack : List RScope)
    (s : Bytes) : PMsgPack.read m (⟨ty, e + 1⟩ :: stack, k ++ s) = readItem m (⟨ty, e⟩ :: stack) n s := by
  simp only [PMsgPack.read]
  rw [if_neg (by simp)]
  cases ty with
  | array => obtain ⟨rfl, rfl⟩ := h; rfl
  | object =>
    rcases h with h | ⟨_, rfl, p, hp, rfl⟩
    · obtain ⟨p, w, rfl, h1, h2, h3⟩ := readStr_eq hm n k (text_enc h) s
      rw [List.cons_append, readBlock_one hm]
      simp [h1, h3]
    · rw [startsText_iff] at hp
      rw [List.singleton_append, readBlock_one hm]
      simp [hp]

/-- Scopes that are read are those of the grammar. -/
theorem scope_elems : ∀ (fuel d : Nat) (t : ScopeTy) (k : Nat) (stack st : List RScope) (s u : Bytes)
    (vs : List (Bytes × Val)) (ns : List (Bytes × Node)),
    readScope (PMsgPack.read m) fuel d (⟨t, k⟩ :: stack, s) = .ok ((vs, ns), (st, u)) → d ≤ maxDepth →
    ∃ is b, Elems true t is b ∧ is.length = k ∧ s = b ++ u ∧ st = stack ∧ vs = Props.keptValues is ∧
      ns = Props.keptNodes is ∧ Props.nesting is + d ≤ maxDepth := by
  intro fuel
  induction fuel with
  | zero => intro d t k stack st s u vs ns h; cases h
  | succ fuel ih =>
    intro d t k stack st s u vs ns h hd
    simp only [readScope, Res.bind_eq_ok] at h
    obtain ⟨⟨e, st1, s1⟩, h1, h⟩ := h
    rcases read_split hm h1 with ⟨hk, rfl, rfl, rfl⟩ | ⟨hk, n, kb, r, hkey, rfl, hi⟩
    · cases h
      exact ⟨[], [], .nil t, by simpa using hk.symm, rfl, rfl, by rw [Props.keptValues], by rw [Props.keptNodes],
        by simpa [Props.nesting] using hd⟩
    · rcases item_split hm hi with ⟨v, w, hv, rfl, rfl, rfl⟩ | ⟨t', n', w, hh, rfl, rfl, rfl⟩
      · simp only [Res.bind_eq_ok] at h
        obtain ⟨⟨⟨vs1, ns1⟩, st2, s2⟩, h2, h⟩ := h
        cases h
        obtain ⟨is, b, g1, g2, rfl, g4, g5, g6, g7⟩ := ih d t _ _ _ _ _ _ _ h2 hd
        refine ⟨.val n v :: is, _, .val t n v is kb w b hkey hv g1, ?_, by simp, g4, by rw [Props.keptValues, g5],
          by rw [Props.keptNodes, g6], by rw [Props.nesting]; exact g7⟩
        simp only [List.length_cons, g2] at hk ⊢
        omega
      · dsimp only at h
        split at h
        · cases h
        · next hdd =>
          simp only [Res.bind_eq_ok] at h
          obtain ⟨⟨⟨vs1, ns1⟩, st2, s2⟩, h2, ⟨⟨vs2, ns2⟩, st3, s3⟩, h3, h⟩ := h
          cases h
          obtain ⟨js, c, g1, rfl, rfl, rfl, g5, g6, g7⟩ := ih (d + 1) t' _ _ _ _ _ _ _ h2 (by omega)
          obtain ⟨is, b, f1, f2, rfl, f4, f5, f6, f7⟩ := ih d t _ _ _ _ _ _ _ h3 hd
          refine ⟨.scope n t' js :: is, _, .scope t t' n js is kb w c b hkey hh g1 f1, ?_, by simp, f4,
            by rw [Props.keptValues, f5], by rw [Props.keptNodes, f6, g5, g6], by rw [Props.nesting]; omega⟩
          simp only [List.length_cons, f2] at hk ⊢
          omega

theorem load_document {s u : Bytes} {root : Root} {st : List RScope} (h : PMsgPack.load m s = .ok (root, (st, u))) :
    ∃ t is b, Document true t is b ∧ s = b ++ u ∧ Props.nesting is ≤ maxDepth ∧
      root = ⟨[], .mk t (Props.keptValues is) (Props.keptNodes is)⟩ ∧ st = [] := by
  simp only [PMsgPack.load, Doc.load, Res.bind_eq_ok] at h
  obtain ⟨⟨⟨n, tok⟩, st1, s1⟩, h1, h⟩ := h
  rcases item_split hm (show readItem m [] [] s = _ from h1) with ⟨v, w, hv, rfl, he, rfl⟩ | ⟨t, k, w, hh, rfl, he, rfl⟩
  · cases he; cases h
  · cases he
    simp only [Res.bind_eq_ok] at h
    obtain ⟨⟨⟨vs, ns⟩, st2, s2⟩, h2, h⟩ := h
    cases h
    obtain ⟨is, b, g1, rfl, rfl, rfl, rfl, rfl, g7⟩ := scope_elems hm _ 0 t k _ _ _ _ _ _ h2 (by decide)
    exact ⟨t, is, w ++ b, ⟨w, b, hh, g1, rfl⟩, by simp, g7, rfl, rfl⟩

omit hm in
theorem value_nonempty {odd : Bool} {v : Val} {b : Bytes} (h : Value odd v b) : 0 < b.length := by
  cases h with
  | text s b h => rcases h with ⟨_, rfl⟩ | ⟨_, rfl⟩ | ⟨_, _, rfl⟩ | ⟨_, _, rfl⟩ <;> simp
  | blob s b h => rcases h with ⟨_, rfl⟩ | ⟨_, _, rfl⟩ | ⟨_, _, rfl⟩ <;> simp
  | _ => simp

omit hm in
theorem head_nonempty {t : ScopeTy} {n : Nat} {b : Bytes} (h : Props.MsgPack.HeadFormat t n b) : 0 < b.length := by
  cases t <;> rcases h with ⟨_, rfl⟩ | ⟨_, rfl⟩ | ⟨_, rfl⟩ <;> simp

/-- Scopes of the grammar are read. -/
theorem elems_scope {odd : Bool} {t : ScopeTy} {is : List Item} {b : Bytes} (h : Elems odd t is b) :
    ∀ (fuel d : Nat) (stack : List RScope) (u : Bytes), 2 * b.length < fuel → Props.nesting is + d ≤ maxDepth →
    readScope (PMsgPack.read m) fuel d (⟨t, is.length⟩ :: stack, b ++ u) =
      .ok ((Props.keptValues is, Props.keptNodes is), (stack, u)) := by
  induction h with
  | nil ty =>
    intro fuel d stack u hf _
    cases fuel with
    | zero => simp at hf
    | succ fuel => rw [readScope]; simp [PMsgPack.read, Props.keptValues, Props.keptNodes]
  | val ty n v is k w b hk hv _ ih =>
    intro fuel d stack u hf hd
    rw [Props.nesting] at hd
    have := value_nonempty hv
    simp only [List.length_append] at hf
    cases fuel with
    | zero => simp at hf
    | succ fuel =>
      rw [readScope, List.length_cons, List.append_assoc, List.append_assoc, key_read hm hk, value_read hm hv]
      simp only [Res.ok_bind, ih fuel d stack u (by omega) hd, Props.keptValues, Props.keptNodes]
  | scope ty t n js is k h c b hk hh _ _ ih1 ih2 =>
    intro fuel d stack u hf hd
    rw [Props.nesting] at hd
    have := head_nonempty hh
    simp only [List.length_append] at hf
    cases fuel with
    | zero => simp at hf
    | succ fuel =>
      rw [readScope, List.length_cons, List.append_assoc, List.append_assoc, List.append_assoc, key_read hm hk,
        readHead_eq hm _ _ _ _ _ (head_enc.mp hh)]
      simp only [Res.ok_bind]
      rw [if_neg (by omega)]
      simp only [Res.ok_bind, ih1 fuel (d + 1) _ _ (by omega) (by omega), ih2 fuel d stack u (by omega) (by omega),
        Props.keptValues, Props.keptNodes]

theorem document_load {odd : Bool} {t : ScopeTy} {is : List Item} {b : Bytes} (h : Document odd t is b) (u : Bytes)
    (hd : Props.nesting is ≤ maxDepth) :
    PMsgPack.load m (b ++ u) = .ok (⟨[], .mk t (Props.keptValues is) (Props.keptNodes is)⟩, ([], u)) := by
  obtain ⟨hb, c, h1, h2, rfl⟩ := h
  unfold PMsgPack.load Doc.load
  rw [List.append_assoc, show PMsgPack.read m ([], hb ++ (c ++ u)) = readItem m [] [] (hb ++ (c ++ u)) from rfl,
    readHead_eq hm _ _ _ _ _ (head_enc.mp h1)]
  simp only [Res.ok_bind]
  rw [elems_scope hm h2 _ 0 [] u (by simp only [List.length_append]; omega) (by omega)]
  rfl

end Srl.LaxMp
