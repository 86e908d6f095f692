import Verif.Lemmas.SrlLax

/-! Lemmas about the bytes that are written in the Srl format. -/

namespace Srl.LaxSrl
open PSrl Doc Props

/-! ## Numbers -/

theorem bytes_num (n : Nat) : Base128 n (Vlq.bytes n) ∧
    ((Vlq.bytes n).length = 1 ∨ (Vlq.bytes n).getLast? ≠ some 0) ∧ (n ≠ 0 → (Vlq.bytes n).getLast? ≠ some 0) := by
  induction n using Nat.strongRecOn with
  | _ n ih =>
  rw [Vlq.bytes]
  split
  · next h =>
    obtain ⟨h1, _, h3⟩ := ih (n / 128) (by omega)
    have hb : (UInt8.ofNat (n % 128 + 128)).toNat = n % 128 + 128 := by
      simp only [UInt8.toNat_ofNat']; omega
    have hl : (UInt8.ofNat (n % 128 + 128) :: Vlq.bytes (n / 128)).getLast? ≠ some 0 := by
      rw [List.getLast?_cons_of_ne_nil (Vlq.bytes_ne_nil _)]
      exact h3 (by omega)
    refine ⟨?_, .inr hl, fun _ => hl⟩
    have := Base128.more (b := UInt8.ofNat (n % 128 + 128)) (by omega) h1
    rw [hb] at this
    rwa [show n % 128 + 128 - 128 + 128 * (n / 128) = n by omega] at this
  · next h =>
    have hb : (UInt8.ofNat n).toNat = n := by simp only [UInt8.toNat_ofNat']; omega
    have := Base128.last (b := UInt8.ofNat n) (by omega)
    rw [hb] at this
    refine ⟨this, .inl rfl, fun h0 => ?_⟩
    simp only [List.getLast?_singleton, ne_eq, Option.some.injEq]
    intro h1
    rw [h1] at hb
    exact h0 (by simpa using hb.symm)

theorem num_bytes {k : Nat} {b : Bytes} (h : Base128 k b) : b.length = 1 ∨ b.getLast? ≠ some 0 →
    b = Vlq.bytes k ∧ (b.getLast? ≠ some 0 → k ≠ 0) := by
  induction h with
  | @last c hc =>
    intro _
    refine ⟨?_, fun h0 hk => h0 ?_⟩
    · rw [Vlq.bytes, if_neg (by omega)]; simp
    · rw [List.getLast?_singleton]
      congr 1
      exact UInt8.toNat_inj.mp hk
  | @more c n bs hc hn ih =>
    intro h
    have hne : bs ≠ [] := by
      obtain ⟨_, _, rfl, _⟩ := base_cons hn
      simp
    rw [List.getLast?_cons_of_ne_nil hne] at h ⊢
    have hlast : bs.getLast? ≠ some 0 := by
      rcases h with h | h
      · rw [List.length_cons, Nat.succ.injEq, List.length_eq_zero_iff] at h
        exact absurd h hne
      · exact h
    obtain ⟨h1, h2⟩ := ih (.inr hlast)
    have := h2 hlast
    have hc' := c.toNat_lt
    refine ⟨?_, fun _ => by omega⟩
    rw [Vlq.bytes, if_pos (by omega), show (c.toNat - 128 + 128 * n) / 128 = n by omega, ← h1,
      show (c.toNat - 128 + 128 * n) % 128 + 128 = c.toNat by omega]
    simp

theorem encode_iff {n : Nat} {w : Bytes} (hn : n < 2 ^ 64) : Vlq.encode n = .ok w ↔ Num false n w := by
  rw [Vlq.encode_eq n hn]
  constructor
  · rintro ⟨⟩
    obtain ⟨h1, h2, _⟩ := bytes_num n
    refine ⟨Vlq.bytes_length_le 9 n ?_, n, h1, (Nat.mod_eq_of_lt hn).symm, .inr ⟨hn, h2⟩⟩
    have : (2 : Nat) ^ 64 ≤ 128 ^ (9 + 1) := by decide
    omega
  · rintro ⟨_, k, h1, h2, h3 | ⟨h3, h4⟩⟩
    · cases h3
    · rw [Nat.mod_eq_of_lt h3] at h2
      subst h2
      rw [(num_bytes h1 h4).1]

theorem num_lt {odd : Bool} {n : Nat} {w : Bytes} (h : Num odd n w) : n < 2 ^ 64 := by
  obtain ⟨_, k, _, rfl, _⟩ := h
  exact Nat.mod_lt _ (by decide)

theorem num_encode {n : Nat} {w : Bytes} (h : Num false n w) : Vlq.encode n = .ok w := (encode_iff (num_lt h)).mpr h

/-! ## What is of the format is written -/

theorem flag65 (f : UInt8) (h : plain f = 65) : has f 1 ∧ has f 192 ∧ has f 64 := by
  revert f; unfold plain has; decide +kernel
theorem flag129 (f : UInt8) (h : plain f = 129) : has f 1 ∧ has f 192 ∧ ¬ has f 64 := by
  revert f; unfold plain has; decide +kernel
theorem flag17 (f : UInt8) (h : plain f = 17) : has f 1 ∧ ¬ has f 192 ∧ has f 16 := by
  revert f; unfold plain has; decide +kernel
theorem flag33 (f : UInt8) (h : plain f = 33) : has f 1 ∧ ¬ has f 208 ∧ has f 32 := by
  revert f; unfold plain has; decide +kernel
theorem flag1 (f : UInt8) (h : plain f = 1) : has f 1 ∧ ¬ has f 248 := by
  revert f; unfold plain has; decide +kernel
theorem flag9 (f : UInt8) (h : plain f = 9) : has f 1 ∧ ¬ has f 240 ∧ has f 8 := by
  revert f; unfold plain has; decide +kernel
theorem flag32 (f : UInt8) (h : plain f = 32) : ¬ has f 209 ∧ has f 32 := by
  revert f; unfold plain has; decide +kernel
theorem flag16 (f : UInt8) (h : plain f = 16) : ¬ has f 193 ∧ has f 16 := by
  revert f; unfold plain has; decide +kernel
theorem flag8 (f : UInt8) (h : plain f = 8) : ¬ has f 241 ∧ has f 8 := by
  revert f; unfold plain has; decide +kernel
theorem flag64 (f : UInt8) (h : plain f = 64) : ¬ has f 1 ∧ has f 64 := by
  revert f; unfold plain has; decide +kernel
theorem flag128 (f : UInt8) (h : plain f = 128) : ¬ has f 65 ∧ has f 128 := by
  revert f; unfold plain has; decide +kernel

theorem plain_self (f : UInt8) (h : ¬ has f 6) : plain f = f := by
  revert f; unfold plain has; decide +kernel
theorem plain_again (f : UInt8) (h : has f 2) (h2 : has f 4) : plain f ||| fNamed ||| fIndexed = f := by
  revert f; unfold plain has fNamed fIndexed; decide +kernel
theorem plain_first (f : UInt8) (h : has f 2) (h2 : ¬ has f 4) : plain f ||| fNamed = f := by
  revert f; unfold plain has fNamed; decide +kernel
theorem plain_low (f : UInt8) (h : f &&& 6 = 0) : plain f = f ∧ ¬ has f 6 ∧ ¬ has f 2 ∧
    plain (f ||| fNamed) = f ∧ has (f ||| fNamed) 2 ∧ ¬ has (f ||| fNamed) 4 ∧
    plain (f ||| fNamed ||| fIndexed) = f ∧ has (f ||| fNamed ||| fIndexed) 2 ∧ has (f ||| fNamed ||| fIndexed) 4 := by
  revert f; unfold plain has fNamed fIndexed; decide +kernel

theorem body_write {f : UInt8} {v : Val} {w : Bytes} (h : Body false f v w) :
    plain f = flagOf (.val v) ∧ writeBody v = .ok w := by
  cases h with
  | bool h1 h2 h3 =>
    rcases h3 with h3 | h3 | h3
    · cases h3
    · rw [decide_eq_true (flag65 f h3).2.2, h3]; exact ⟨rfl, rfl⟩
    · rw [decide_eq_false (flag129 f h3).2.2, h3]; exact ⟨rfl, rfl⟩
  | float x h1 h2 h3 h4 =>
    rcases h4 with h4 | h4
    · cases h4
    · rw [h4, small_eq]; exact ⟨rfl, rfl⟩
  | double d h1 h2 h3 h4 =>
    rcases h4 with h4 | ⟨h4, h5⟩
    · cases h4
    · rw [h4, small_eq, h5]; exact ⟨rfl, rfl⟩
  | pos n w h1 h2 h3 h4 =>
    rcases h4 with h4 | h4
    · cases h4
    · rw [h4]
      refine ⟨by simp [flagOf, IntTy.signed, fNum], ?_⟩
      rw [writeBody, if_neg (by simp [IntTy.signed])]
      exact num_encode h3
  | neg n v w h1 h2 h3 h4 h5 h6 h7 h8 =>
    rcases h8 with h8 | ⟨h8, h9⟩
    · cases h8
    · rw [h8]
      have hn := num_lt h4
      constructor
      · simp only [flagOf, IntTy.signed, Bool.true_and, decide_eq_true h9, if_true]; rfl
      · rw [writeBody, if_pos (by simp [IntTy.signed, h9]), if_neg (by simp; omega),
          show (-v).toNat = n by omega]
        exact num_encode h4
  | str s w h1 h2 h3 h4 =>
    rcases h4 with h4 | ⟨h4, h5⟩
    · cases h4
    · rw [h4, Nat.mod_eq_of_lt h5, List.take_length]
      exact ⟨rfl, by simp only [writeBody, num_encode h3, Res.ok_bind]⟩
  | bin s w h1 h2 h3 h4 =>
    rcases h4 with h4 | ⟨h4, h5⟩
    · cases h4
    · rw [h4, Nat.mod_eq_of_lt h5, List.take_length]
      exact ⟨rfl, by simp only [writeBody, num_encode h3, Res.ok_bind]⟩
  | null h1 h2 h3 =>
    rcases h3 with h3 | h3
    · cases h3
    · rw [h3]; exact ⟨rfl, rfl⟩

theorem opens_flag {f : UInt8} {t : ScopeTy} (h : Opens false f t) : plain f = flagOf (.scope t) := by
  cases t <;> rcases h.2.2 with h | h <;> first | cases h; done | exact h

theorem indexOf_iff (n : Bytes) (a : List Bytes) (i : Nat) :
    indexOf n a = some i ↔ a[i]? = some n ∧ ∀ j < i, a[j]? ≠ some n := by
  induction a generalizing i with
  | nil => simp [indexOf]
  | cons x a ih =>
    unfold indexOf
    split
    · next h =>
      subst h
      cases i with
      | zero => simp
      | succ i =>
        simp only [Option.some.injEq, List.getElem?_cons_succ, ne_eq]
        constructor
        · intro h; cases h
        · rintro ⟨_, h⟩; exact absurd rfl (h 0 (by omega))
    · next h =>
      cases i with
      | zero => simp [h]
      | succ i =>
        rw [List.getElem?_cons_succ, Option.map_eq_some_iff]
        constructor
        · rintro ⟨k, h1, h2⟩
          cases h2
          obtain ⟨h3, h4⟩ := (ih i).mp h1
          refine ⟨h3, fun j hj => ?_⟩
          cases j with
          | zero => simpa using h
          | succ j => rw [List.getElem?_cons_succ]; exact h4 j (by omega)
        · rintro ⟨h1, h2⟩
          refine ⟨i, (ih i).mpr ⟨h1, fun j hj => ?_⟩, rfl⟩
          have := h2 (j + 1) (by omega)
          rwa [List.getElem?_cons_succ] at this

theorem indexOf_none (n : Bytes) (a : List Bytes) : indexOf n a = none ↔ n ∉ a := by
  induction a with
  | nil => simp [indexOf]
  | cons x a ih =>
    unfold indexOf
    split
    · next h => simp [h]
    · next h =>
      rw [Option.map_eq_none_iff, ih, List.mem_cons, not_or]
      exact ⟨fun k => ⟨fun e => h e.symm, k⟩, fun k => k.2⟩

theorem key_write {t : ScopeTy} {a b : List Bytes} {f : UInt8} {n k : Bytes} (h : Key false t a f n k b)
    (stack : List ScopeTy) : writeHead ⟨t :: stack, a⟩ (plain f) n = .ok (b, f :: k) := by
  unfold writeHead
  cases h with
  | none =>
    rename_i ho h
    rcases ho with ho | ho
    · cases ho
    · rw [if_pos (.inl (by simp)), plain_self f ho]
  | again =>
    rename_i i h1 h2 h4 ho h3
    rcases ho with ho | ⟨ho, hj⟩
    · cases ho
    · rw [if_neg (by simp [List.length_pos_iff.mpr ho, ho])]
      simp only [(indexOf_iff n a i).mpr ⟨h4, hj⟩, num_encode h3, Res.ok_bind, plain_again f h1 h2]
  | first =>
    rename_i w h1 h2 h3 ho
    rcases ho with ho | ⟨ho, hj⟩
    · cases ho
    · rw [if_neg (by simp [List.length_pos_iff.mpr ho, ho])]
      simp only [(indexOf_none n a).mpr hj, num_encode h3, Res.ok_bind, plain_first f h1 h2]

theorem elems_write {t : ScopeTy} {a c : List Bytes} {is : List Item} {b : Bytes} (h : Elems false t a is b c) :
    ∀ stack, writeAll ⟨t :: stack, a⟩ (Item.eventsL is ++ [⟨[], .scopeEnd⟩]) = .ok (⟨stack, c⟩, b) := by
  induction h with
  | nil ty names => intro stack; simp [Item.eventsL, writeAll, write]
  | val ty a b c f n v is k w r hk hv _ ih =>
    intro stack
    obtain ⟨h1, h2⟩ := body_write hv
    have h3 := key_write hk stack
    rw [h1] at h3
    simp only [Item.eventsL, Item.events, List.cons_append, List.nil_append, writeAll, write, h3, h2, Res.ok_bind, ih stack,
      List.append_assoc]
  | scope ty t a b c e f n js is k q r hk ho _ _ ih1 ih2 =>
    intro stack
    have h1 := opens_flag ho
    have h3 := key_write hk stack
    rw [h1] at h3
    have h4 := ih1 (ty :: stack)
    have h5 := ih2 stack
    simp only [Item.eventsL, Item.events, List.cons_append, writeAll, write, h3, Res.ok_bind, List.append_assoc]
    have e : Item.eventsL js ++ ⟨[], .scopeEnd⟩ :: ([] ++ (Item.eventsL is ++ [⟨[], .scopeEnd⟩])) =
        (Item.eventsL js ++ [⟨[], .scopeEnd⟩]) ++ (Item.eventsL is ++ [⟨[], .scopeEnd⟩]) := by simp
    rw [e, writeAll_append, h4]
    simp only [Res.ok_bind, h5]

/-! ## What is written is of the format -/

theorem write_body {v : Val} {w : Bytes} (hv : ValOk v) (h : writeBody v = .ok w) {f : UInt8}
    (hf : plain f = flagOf (.val v)) : Body false f (normVal v) w := by
  cases v with
  | null => cases h; obtain ⟨h1, h2⟩ := flag8 f hf; exact .null f h1 h2 (.inr hf)
  | bool b =>
    cases h
    cases b
    · obtain ⟨h1, h2, h3⟩ := flag129 f hf
      have := Body.bool (odd := false) f h1 h2 (.inr (.inr hf))
      rwa [decide_eq_false h3] at this
    · obtain ⟨h1, h2, h3⟩ := flag65 f hf
      have := Body.bool (odd := false) f h1 h2 (.inr (.inl hf))
      rwa [decide_eq_true h3] at this
  | fp32 x =>
    cases h
    obtain ⟨h1, h2, h3⟩ := flag17 f hf
    have := Body.float (odd := false) f x h1 h2 h3 (.inr hf)
    rwa [small_eq] at this
  | fp64 d =>
    cases h
    obtain ⟨h1, h2, h3⟩ := flag33 f hf
    have := Body.double (odd := false) f d h1 h2 h3 (.inr ⟨hf, hv⟩)
    rwa [small_eq, show Fp.ofDouble d = .fp64 d from hv] at this
  | str s =>
    simp only [writeBody, Res.bind_eq_ok] at h
    obtain ⟨n, h1, h2⟩ := h
    cases h2
    have hs : s.length < 2 ^ 32 := hv
    obtain ⟨k1, k2⟩ := flag32 f hf
    have := Body.str (odd := false) f s n k1 k2 ((encode_iff (by omega)).mp h1) (.inr ⟨hf, hs⟩)
    rwa [Nat.mod_eq_of_lt hs, List.take_length] at this
  | bin s =>
    simp only [writeBody, Res.bind_eq_ok] at h
    obtain ⟨n, h1, h2⟩ := h
    cases h2
    have hs : s.length < 2 ^ 32 := hv
    obtain ⟨k1, k2⟩ := flag16 f hf
    have := Body.bin (odd := false) f s n k1 k2 ((encode_iff (by omega)).mp h1) (.inr ⟨hf, hs⟩)
    rwa [Nat.mod_eq_of_lt hs, List.take_length] at this
  | int t v =>
    obtain ⟨h1, h2, h3⟩ := hv
    have ha := PSrl.IntTy.lo_ge t
    have hb := PSrl.IntTy.hi_lt t
    by_cases hneg : v < 0
    · have hs : t.signed = true := by
        cases ht : t.signed with
        | true => rfl
        | false => have := PSrl.IntTy.lo_unsigned t ht; omega
      rw [writeBody, if_pos ⟨hs, hneg⟩, if_neg h3, encode_iff (by omega)] at h
      have hf' : plain f = 9 := by rw [hf]; simp only [flagOf, hs, decide_eq_true hneg, Bool.true_and, if_true]; rfl
      obtain ⟨k1, k2, k3⟩ := flag9 f hf'
      simp only [normVal, if_pos hneg]
      exact .neg f (-v).toNat v w k1 k2 k3 h (by omega) (by omega) (by omega) (.inr ⟨hf', hneg⟩)
    · rw [writeBody, if_neg (fun x => hneg x.2), encode_iff (by omega)] at h
      have hf' : plain f = 1 := by
        rw [hf]; simp only [flagOf, decide_eq_false hneg, Bool.and_false, Bool.false_eq_true, if_false]; rfl
      obtain ⟨k1, k2⟩ := flag1 f hf'
      simp only [normVal, if_neg hneg]
      have := Body.pos (odd := false) f v.toNat w k1 k2 h (.inr hf')
      rwa [Int.toNat_of_nonneg (by omega)] at this

theorem flag_opens {f : UInt8} {t : ScopeTy} (h : plain f = flagOf (.scope t)) : Opens false f t := by
  cases t with
  | object => obtain ⟨a, b⟩ := flag64 f h; exact ⟨a, b, .inr h⟩
  | array => obtain ⟨a, b⟩ := flag128 f h; exact ⟨a, b, .inr h⟩

theorem write_key {t : ScopeTy} {stack : List ScopeTy} {a b : List Bytes} {flag : UInt8} {n x : Bytes}
    (hf : flag &&& 6 = 0) (hn : n.length < 2 ^ 32) (ha : a.length < 2 ^ 64)
    (h : writeHead ⟨t :: stack, a⟩ flag n = .ok (b, x)) :
    ∃ f k, x = f :: k ∧ plain f = flag ∧ Key false t a f (if t == .object then n else []) k b ∧
      b.length ≤ a.length + 1 := by
  obtain ⟨p1, p2, p3, p4, p5, p6, p7, p8, p9⟩ := plain_low flag hf
  unfold writeHead at h
  split at h
  · next h1 =>
    cases h
    refine ⟨flag, [], rfl, p1, ?_, by simp⟩
    have e : (if t == .object then n else []) = [] := by
      rcases h1 with h1 | h1
      · rw [List.eq_nil_of_length_eq_zero (by omega : n.length = 0)]; split <;> rfl
      · cases t
        · exact absurd rfl h1
        · rfl
    rw [e]
    exact .none _ _ _ (.inl p3) (.inr p2)
  · next h1 =>
    rw [not_or, Decidable.not_not] at h1
    obtain ⟨h1, h2⟩ := h1
    cases h2
    have hne : n ≠ [] := by rintro rfl; simp at h1
    simp only at h
    split at h
    · next i hi =>
      simp only [Res.bind_eq_ok] at h
      obtain ⟨w, h3, h⟩ := h
      cases h
      have hi' := indexOf_lt hi
      obtain ⟨k1, k2⟩ := (indexOf_iff n a i).mp hi
      exact ⟨_, w, rfl, p7, .again _ _ i n w p8 p9 ((encode_iff (by omega)).mp h3) k1 (.inr ⟨hne, k2⟩), by omega⟩
    · next hi =>
      simp only [Res.bind_eq_ok] at h
      obtain ⟨w, h3, h⟩ := h
      cases h
      exact ⟨_, w ++ n, rfl, p4, .first _ _ n w p5 p6 ((encode_iff (by omega)).mp h3)
        (.inr ⟨hne, (indexOf_none n a).mp hi⟩), by simp⟩

mutual
theorem item_elems : ∀ (i : Item) (t : ScopeTy) (stack : List ScopeTy) (a : List Bytes) (st : St) (b : Bytes), ItemOk i →
    a.length + i.events.length < 2 ^ 64 → writeAll ⟨t :: stack, a⟩ i.events = .ok (st, b) →
    st.stack = t :: stack ∧ st.names.length ≤ a.length + i.events.length ∧
      ∀ js r d, Elems false t st.names js r d → Elems false t a (normItem (t == .object) i :: js) (b ++ r) d
  | .val n v, t, stack, a, st, b, hi, hl, h => by
    obtain ⟨hn, hv⟩ := hi
    simp only [Item.events, writeAll, write, Res.bind_eq_ok] at h
    obtain ⟨⟨st1, x⟩, ⟨⟨names, y⟩, h1, z, h2, h3⟩, ⟨st2, q⟩, h4, h5⟩ := h
    cases h3; cases h4; cases h5
    obtain ⟨f, k, rfl, hf, hk, hlen⟩ := write_key (flagOf_low _) hn (by omega) h1
    refine ⟨rfl, by simpa [Item.events] using hlen, fun js r d he => ?_⟩
    have := Elems.val t a names d f _ _ js k z r hk (write_body hv h2 hf) he
    simpa [normItem] using this
  | .scope n ty kids, t, stack, a, st, b, hi, hl, h => by
    obtain ⟨hn, hk⟩ := hi
    simp only [Item.events, List.length_cons, List.length_append, List.length_nil] at hl ⊢
    simp only [Item.events, writeAll, Res.bind_eq_ok] at h
    obtain ⟨⟨st1, x⟩, h1, ⟨st2, q⟩, h4, h5⟩ := h
    cases h5
    simp only [write, Res.bind_eq_ok] at h1
    obtain ⟨⟨names, y⟩, h1, h3⟩ := h1
    cases h3
    obtain ⟨f, k, rfl, hf, hkey, hlen⟩ := write_key (flagOf_low _) hn (by omega) h1
    rw [writeAll_append, Res.bind_eq_ok] at h4
    obtain ⟨⟨st3, q1⟩, h6, h7⟩ := h4
    obtain ⟨g1, g2, g3⟩ := items_elems kids ty (t :: stack) names st3 q1 hk (by omega) h6
    obtain ⟨stk, nms⟩ := st3
    cases g1
    simp only [writeAll, write, Res.ok_bind] at h7
    cases h7
    refine ⟨rfl, by simp only at g2 ⊢; omega, fun js r d he => ?_⟩
    have g4 := g3 [] [0] nms (.nil _ _)
    have := Elems.scope t ty a names nms d f _ _ js k _ r hkey (flag_opens hf) g4 he
    simpa [normItem] using this
theorem items_elems : ∀ (is : List Item) (t : ScopeTy) (stack : List ScopeTy) (a : List Bytes) (st : St) (b : Bytes),
    ItemsOk is → a.length + (Item.eventsL is).length < 2 ^ 64 →
    writeAll ⟨t :: stack, a⟩ (Item.eventsL is) = .ok (st, b) →
    st.stack = t :: stack ∧ st.names.length ≤ a.length + (Item.eventsL is).length ∧
      ∀ js r d, Elems false t st.names js r d → Elems false t a (normItems (t == .object) is ++ js) (b ++ r) d
  | [], t, stack, a, st, b, _, _, h => by
    cases h
    exact ⟨rfl, by simp, fun js r d he => by simpa [normItems] using he⟩
  | i :: is, t, stack, a, st, b, hi, hl, h => by
    obtain ⟨hi, his⟩ := hi
    simp only [Item.eventsL, List.length_append] at hl ⊢
    rw [Item.eventsL, writeAll_append, Res.bind_eq_ok] at h
    obtain ⟨⟨st1, x⟩, h1, h⟩ := h
    obtain ⟨g1, g2, g3⟩ := item_elems i t stack a st1 x hi (by omega) h1
    obtain ⟨stk, nms⟩ := st1
    cases g1
    simp only [Res.bind_eq_ok] at h
    obtain ⟨⟨st2, y⟩, h2, h⟩ := h
    cases h
    obtain ⟨k1, k2, k3⟩ := items_elems is t stack nms _ _ his (by simp only at g2; omega) h2
    refine ⟨k1, by simp only at g2 k2 ⊢; omega, fun js r d he => ?_⟩
    have := g3 _ _ _ (k3 js r d he)
    simpa [normItems] using this
end

end Srl.LaxSrl
