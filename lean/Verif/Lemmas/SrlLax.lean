import Verif.Props.SrlLaxSpec
import Verif.Lemmas.PSrlCut
import Verif.Props.PSrl

/-! Lemmas about the bytes that are read as the Srl format. -/

namespace Srl.LaxSrl
open PSrl Doc Props

theorem small_eq (n v : Nat) : small n v = leBytes n v := by
  induction n generalizing v with
  | zero => rfl
  | succ n ih => rw [small, leBytes, ih]

/-! ## Numbers -/

theorem base_cons {k : Nat} {b : Bytes} (h : Base128 k b) :
    ∃ c r, b = c :: r ∧ k % 128 = c.toNat % 128 ∧
      ((c.toNat < 128 ∧ r = [] ∧ k = c.toNat) ∨ (128 ≤ c.toNat ∧ Base128 (k / 128) r)) := by
  cases h with
  | @last c h => exact ⟨c, [], rfl, rfl, .inl ⟨h, rfl, rfl⟩⟩
  | @more c n bs h1 h2 =>
    have := c.toNat_lt
    refine ⟨c, bs, rfl, by omega, .inr ⟨h1, ?_⟩⟩
    rwa [show (c.toNat - 128 + 128 * n) / 128 = n by omega]

theorem or_step (out x sh : Nat) (h1 : out < 2 ^ sh) (h2 : sh < 64) :
    out ||| ((x <<< sh) % 2 ^ 64) = (out + x * 2 ^ sh) % 2 ^ 64 := by
  have e : (x <<< sh) % 2 ^ 64 = (x % 2 ^ (64 - sh)) * 2 ^ sh := by
    rw [Nat.shiftLeft_eq, show (2 : Nat) ^ 64 = 2 ^ (64 - sh) * 2 ^ sh by rw [← Nat.pow_add]; congr 1; omega,
      Nat.mul_mod_mul_right]
  rw [e, Vlq.or_add _ _ _ h1]
  have hlt : out + x % 2 ^ (64 - sh) * 2 ^ sh < 2 ^ 64 := by
    have : x % 2 ^ (64 - sh) < 2 ^ (64 - sh) := Nat.mod_lt _ (Nat.two_pow_pos _)
    have h3 : (x % 2 ^ (64 - sh) + 1) * 2 ^ sh ≤ 2 ^ (64 - sh) * 2 ^ sh := Nat.mul_le_mul_right _ this
    rw [← Nat.pow_add, show 64 - sh + sh = 64 by omega, Nat.add_mul] at h3
    omega
  rw [← e] at hlt ⊢
  rw [Nat.shiftLeft_eq] at *
  rw [Nat.add_mod, Nat.mod_eq_of_lt (a := out) (by
    have : (2 : Nat) ^ sh ≤ 2 ^ 64 := Nat.pow_le_pow_right (by decide) (by omega)
    omega), Nat.mod_eq_of_lt hlt]

/-- The accumulated value before the byte that is read next -/
structure Acc (out sh : Nat) : Prop where
  lt : out < 2 ^ 64
  low : sh < 64 → out < 2 ^ sh

theorem acc_step {out sh : Nat} (x : Nat) (h : Acc out sh) (hs : sh < 64) (hx : x < 128) :
    Acc (out ||| ((x <<< sh) % 2 ^ 64)) (sh + 7) := by
  rw [or_step _ _ _ (h.low hs) hs]
  refine ⟨Nat.mod_lt _ (by decide), fun _ => Nat.lt_of_le_of_lt (Nat.mod_le _ _) ?_⟩
  have := h.low hs
  rw [Nat.pow_add]
  have : (x + 1) * 2 ^ sh ≤ 128 * 2 ^ sh := Nat.mul_le_mul_right _ hx
  rw [Nat.add_mul] at this
  omega

theorem loop_num (m : Mem) : ∀ (s : Bytes) (c : UInt8) (out sh v sh' : Nat) (t : Bytes), Acc out sh → sh ≤ 70 →
    Vlq.decLoop m c out sh (c :: s) = .ok (v, sh', t) → t ≠ [] →
    ∃ k w r l, c :: s = w ++ r ∧ Base128 k w ∧ t = l :: r ∧ sh + 7 * w.length ≤ 77 ∧
      v = (out + k / 128 * 2 ^ sh) % 2 ^ 64
  | [], c, out, sh, v, sh', t, ha, hsh, h, ht => by
    rw [Vlq.decLoop] at h
    split at h
    · next hc =>
      cases h
      rw [Vlq.and128] at hc
      refine ⟨c.toNat, [c], [], c, rfl, .last hc, rfl, by simp; omega, ?_⟩
      rw [Nat.div_eq_of_lt hc, Nat.zero_mul, Nat.add_zero, Nat.mod_eq_of_lt ha.lt]
    · simp only [Res.bind_eq_ok] at h
      obtain ⟨c', _, h⟩ := h
      split at h
      · cases h
      · rw [Vlq.decLoop] at h
        split at h
        · cases h; exact absurd rfl ht
        · simp only [Res.bind_eq_ok] at h
          obtain ⟨_, _, h⟩ := h
          cases h
  | d :: s, c, out, sh, v, sh', t, ha, hsh, h, ht => by
    rw [Vlq.decLoop] at h
    split at h
    · next hc =>
      cases h
      rw [Vlq.and128] at hc
      refine ⟨c.toNat, [c], d :: s, c, rfl, .last hc, rfl, by simp; omega, ?_⟩
      rw [Nat.div_eq_of_lt hc, Nat.zero_mul, Nat.add_zero, Nat.mod_eq_of_lt ha.lt]
    · next hc =>
      rw [Vlq.and128] at hc
      simp only [In.cur_cons, Res.ok_bind] at h
      split at h
      · cases h
      · next hs =>
        have hd : (127 &&& d).toNat < 128 := by rw [Vlq.and127]; omega
        obtain ⟨k, w, r, l, h1, h2, h3, h4, h5⟩ := loop_num m s d _ _ v sh' t (acc_step _ ha (by omega) hd)
          (by omega) h ht
        refine ⟨c.toNat - 128 + 128 * k, c :: w, r, l, by rw [h1]; rfl, .more (by omega) h2, h3, by simp; omega, ?_⟩
        have hc' := c.toNat_lt
        rw [show (c.toNat - 128 + 128 * k) / 128 = k by omega, h5, or_step _ _ _ (ha.low (by omega)) (by omega),
          Nat.mod_add_mod]
        obtain ⟨e, _, he, h6, _⟩ := base_cons h2
        rw [he, List.cons_append] at h1
        injection h1 with h1 _
        rw [Vlq.and127, h1, ← h6, Nat.pow_add, Nat.add_assoc]
        congr 2
        have : k = 128 * (k / 128) + k % 128 := (Nat.div_add_mod k 128).symm
        calc k % 128 * 2 ^ sh + k / 128 * (2 ^ sh * 2 ^ 7) = (128 * (k / 128) + k % 128) * 2 ^ sh := by
              rw [Nat.add_mul, Nat.add_comm]; congr 1
              rw [Nat.mul_comm (2 ^ sh), ← Nat.mul_assoc, Nat.mul_comm (k / 128)]; rfl
          _ = k * 2 ^ sh := by rw [← this]

theorem num_loop (m : Mem) {k : Nat} {w : Bytes} (h : Base128 k w) : ∀ (c : UInt8) (out sh : Nat) (r : Bytes),
    Acc out sh → sh + 7 * w.length ≤ 77 → w.head? = some c →
    ∃ l, Vlq.decLoop m c out sh (w ++ r) = .ok ((out + k / 128 * 2 ^ sh) % 2 ^ 64, sh + 7 * (w.length - 1), l :: r) := by
  induction h with
  | @last b hb =>
    intro c out sh r ha _ hc
    cases hc
    refine ⟨b, ?_⟩
    rw [List.singleton_append, Vlq.decLoop.eq_2, if_pos ((Vlq.and128 b).mpr hb), Nat.div_eq_of_lt hb, Nat.zero_mul,
      Nat.add_zero, Nat.mod_eq_of_lt ha.lt]
    rfl
  | @more b n bs hb hn ih =>
    intro c out sh r ha hl hc
    cases hc
    obtain ⟨d, bs', rfl, h6, _⟩ := base_cons hn
    simp only [List.length_cons] at hl
    have hd : (127 &&& d).toNat < 128 := by rw [Vlq.and127]; omega
    obtain ⟨l, hl2⟩ := ih d _ _ r (acc_step (127 &&& d).toNat ha (by omega) hd) (by simp; omega) rfl
    refine ⟨l, ?_⟩
    rw [List.cons_append, Vlq.decLoop.eq_2, if_neg (by rw [Vlq.and128]; omega), List.cons_append, In.cur_cons]
    simp only [Res.ok_bind]
    rw [if_neg (by omega), ← List.cons_append, hl2, or_step _ _ _ (ha.low (by omega)) (by omega)]
    have hc' := b.toNat_lt
    rw [show (b.toNat - 128 + 128 * n) / 128 = n by omega, Nat.mod_add_mod, Vlq.and127, ← h6, Nat.pow_add,
      Nat.add_assoc]
    have : n = 128 * (n / 128) + n % 128 := (Nat.div_add_mod n 128).symm
    have e : n % 128 * 2 ^ sh + n / 128 * (2 ^ sh * 2 ^ 7) = n * 2 ^ sh := by
      calc n % 128 * 2 ^ sh + n / 128 * (2 ^ sh * 2 ^ 7) = (128 * (n / 128) + n % 128) * 2 ^ sh := by
              rw [Nat.add_mul, Nat.add_comm]; congr 1
              rw [Nat.mul_comm (2 ^ sh), ← Nat.mul_assoc, Nat.mul_comm (n / 128)]; rfl
        _ = n * 2 ^ sh := by rw [← this]
    rw [e]
    simp only [List.length_cons]
    congr 3
    omega

theorem acc_first (c : UInt8) : Acc (127 &&& c).toNat 7 := by
  rw [Vlq.and127]
  exact ⟨by omega, fun _ => by omega⟩

theorem num_split {m : Mem} {s t : Bytes} {n : Nat} (h : Vlq.decode m s = .ok (n, t)) :
    ∃ w, Num true n w ∧ s = w ++ t := by
  simp only [Vlq.decode, Res.bind_eq_ok] at h
  obtain ⟨c, h1, ⟨v, sh, s1⟩, h2, h⟩ := h
  split at h
  · cases h
  · simp only [Res.bind_eq_ok] at h
    obtain ⟨s2, h3, h⟩ := h
    cases h
    obtain ⟨hl, rfl⟩ := In.move_eq_ok h3
    have hne : s1 ≠ [] := by rintro rfl; simp at hl
    cases s with
    | nil =>
      rw [Vlq.decLoop] at h2
      split at h2
      · cases h2; exact absurd rfl hne
      · simp only [Res.bind_eq_ok] at h2
        obtain ⟨_, _, h2⟩ := h2
        cases h2
    | cons d s =>
      cases h1
      obtain ⟨k, w, r, l, g1, g2, rfl, g4, g5⟩ := loop_num m s _ _ _ _ _ _ (acc_first _) (by decide) h2 hne
      refine ⟨w, ⟨by omega, k, g2, ?_, .inl rfl⟩, g1⟩
      obtain ⟨e, _, he, h6, _⟩ := base_cons g2
      rw [he, List.cons_append] at g1
      injection g1 with g1 _
      rw [g5, Vlq.and127, g1, ← h6]
      congr 1
      omega

theorem num_read {m : Mem} (hm : m.Sane) {odd : Bool} {n : Nat} {w : Bytes} (h : Num odd n w) (t : Bytes) :
    Vlq.decode m (w ++ t) = .ok (n, t) := by
  obtain ⟨hl, k, h1, rfl, _⟩ := h
  obtain ⟨c, r, rfl, h6, _⟩ := base_cons h1
  obtain ⟨l, h2⟩ := num_loop m h1 c _ _ t (acc_first c) (by omega) rfl
  rw [Vlq.decode, List.cons_append, In.cur_cons]
  simp only [Res.ok_bind]
  rw [← List.cons_append, h2]
  simp only [Res.ok_bind]
  rw [if_neg (by omega), In.move_one hm, Vlq.and127, ← h6, show k % 128 + k / 128 * 2 ^ 7 = k by omega]
  rfl

/-! ## Values and scopes -/

theorem flag_num (f : UInt8) (h : f &&& fNum ≠ 0) :
    f ≠ 0 ∧ has f 1 ∧ (f &&& (fTrue ||| fFalse) ≠ 0 ↔ has f 192) ∧ (f &&& fTrue ≠ 0 ↔ has f 64) ∧
    (f &&& fFP32 ≠ 0 ↔ has f 16) ∧ (f &&& fFP64 ≠ 0 ↔ has f 32) ∧ (f &&& fSigned ≠ 0 ↔ has f 8) ∧
    (¬ has f 192 → ¬ has f 16 → ¬ has f 208) ∧ (¬ has f 208 → ¬ has f 32 → ¬ has f 240) ∧
    (¬ has f 240 → ¬ has f 8 → ¬ has f 248) ∧ (¬ has f 208 → ¬ has f 192 ∧ ¬ has f 16) ∧
    (¬ has f 240 → ¬ has f 192 ∧ ¬ has f 16 ∧ ¬ has f 32) ∧
    (¬ has f 248 → ¬ has f 192 ∧ ¬ has f 16 ∧ ¬ has f 32 ∧ ¬ has f 8) := by
  have a : ∀ f : UInt8, f &&& 1 ≠ 0 →
      f ≠ 0 ∧ f &&& 1 ≠ 0 ∧ (f &&& (64 ||| 128) ≠ 0 ↔ f &&& 192 ≠ 0) := by decide +kernel
  have b : ∀ f : UInt8, (¬ has f 192 → ¬ has f 16 → ¬ has f 208) ∧ (¬ has f 208 → ¬ has f 32 → ¬ has f 240) ∧
      (¬ has f 240 → ¬ has f 8 → ¬ has f 248) := by unfold has; decide +kernel
  have c : ∀ f : UInt8, (¬ has f 208 → ¬ has f 192 ∧ ¬ has f 16) ∧
      (¬ has f 240 → ¬ has f 192 ∧ ¬ has f 16 ∧ ¬ has f 32) ∧
      (¬ has f 248 → ¬ has f 192 ∧ ¬ has f 16 ∧ ¬ has f 32 ∧ ¬ has f 8) := by unfold has; decide +kernel
  obtain ⟨a1, a2, a3⟩ := a f h
  obtain ⟨b1, b2, b3⟩ := b f
  obtain ⟨c1, c2, c3⟩ := c f
  exact ⟨a1, a2, a3, Iff.rfl, Iff.rfl, Iff.rfl, Iff.rfl, b1, b2, b3, c1, c2, c3⟩

theorem flag_scope (f : UInt8) : (f &&& fNum = 0 ∧ f &&& (fObject ||| fArray) ≠ 0) ↔ ¬ has f 1 ∧ has f 192 := by
  revert f; unfold fNum has fObject fArray; decide +kernel

theorem flag_scope2 (f : UInt8) (h : ¬ has f 1 ∧ has f 192) : f ≠ 0 ∧ (f &&& fObject ≠ 0 ↔ has f 64) ∧
    (¬ has f 64 → ¬ has f 65 ∧ has f 128) := by
  revert f; unfold has fObject; decide +kernel

theorem flag_object (f : UInt8) (h : ¬ has f 1) (h2 : has f 64) : has f 192 := by
  revert f; unfold has; decide +kernel

theorem flag_array (f : UInt8) (h : ¬ has f 65) (h2 : has f 128) : ¬ has f 1 ∧ has f 192 ∧ ¬ has f 64 := by
  revert f; unfold has; decide +kernel

theorem flag_block (f : UInt8) (h : f &&& fNum = 0) (h2 : ¬ has f 192) :
    (f &&& (fBinary ||| fString) ≠ 0 ↔ has f 48) ∧ (f &&& fBinary ≠ 0 ↔ has f 16) ∧ ¬ has f 193 ∧
    (has f 48 → ¬ has f 16 → ¬ has f 209 ∧ has f 32) ∧ (¬ has f 48 → ¬ has f 241) ∧ (f &&& fNull ≠ 0 ↔ has f 8) := by
  revert f; unfold fNum has fBinary fString fNull; decide +kernel

theorem flag_str (f : UInt8) (h : ¬ has f 209) (h2 : has f 32) :
    f ≠ 0 ∧ f &&& fNum = 0 ∧ ¬ has f 192 ∧ has f 48 ∧ ¬ has f 16 := by
  revert f; unfold fNum has; decide +kernel

theorem flag_bin (f : UInt8) (h : ¬ has f 193) (h2 : has f 16) :
    f ≠ 0 ∧ f &&& fNum = 0 ∧ ¬ has f 192 ∧ has f 48 := by
  revert f; unfold fNum has; decide +kernel

theorem flag_null (f : UInt8) (h : ¬ has f 241) (h2 : has f 8) :
    f ≠ 0 ∧ f &&& fNum = 0 ∧ ¬ has f 192 ∧ ¬ has f 48 := by
  revert f; unfold fNum has; decide +kernel

theorem has_one (f : UInt8) : has f 1 ↔ f &&& fNum ≠ 0 := Iff.rfl

theorem block_split {m : Mem} {n : Nat} {s x t : Bytes} (h : In.readBlock m n s = .ok (x, t)) :
    s = x ++ t ∧ x.length = n := by
  obtain ⟨h1, rfl, rfl⟩ := In.readBlock_eq_ok h
  exact ⟨(List.take_append_drop n s).symm, by rw [List.length_take]; omega⟩

theorem numval_split {m : Mem} {f : UInt8} {s u : Bytes} {v : Val} (hf : f &&& fNum ≠ 0)
    (h : readNum m f s = .ok (v, u)) : ∃ w, Body true f v w ∧ s = w ++ u := by
  obtain ⟨_, b1, b2, b3, b4, b5, b6, c1, c2, c3, _⟩ := flag_num f hf
  unfold readNum at h
  split at h
  · next h1 =>
    cases h
    refine ⟨[], ?_, rfl⟩
    have := Body.bool (odd := true) f b1 (b2.mp h1) (.inl rfl)
    rwa [show decide (has f 64) = decide (f &&& fTrue ≠ 0) from decide_eq_decide.mpr b3.symm] at this
  · next h1 =>
    rw [b2] at h1
    split at h
    · next h2 =>
      simp only [Res.bind_eq_ok] at h
      obtain ⟨⟨b, s1⟩, h3, h⟩ := h
      cases h
      obtain ⟨rfl, hl⟩ := block_split h3
      refine ⟨b, ?_, rfl⟩
      have := Body.float (odd := true) f (UInt32.ofNat (leNat b)) b1 h1 (b4.mp h2) (.inl rfl)
      have hlt := leNat_lt b
      rw [hl] at hlt
      rwa [small_eq, UInt32.toNat_ofNat', Nat.mod_eq_of_lt (by simpa using hlt), ← hl, leBytes_leNat] at this
    · next h2 =>
      rw [b4] at h2
      have h12 := c1 h1 h2
      split at h
      · next h3 =>
        simp only [Res.bind_eq_ok] at h
        obtain ⟨⟨b, s1⟩, h4, h⟩ := h
        cases h
        obtain ⟨rfl, hl⟩ := block_split h4
        refine ⟨b, ?_, rfl⟩
        have := Body.double (odd := true) f (UInt64.ofNat (leNat b)) b1 h12 (b5.mp h3) (.inl rfl)
        have hlt := leNat_lt b
        rw [hl] at hlt
        rwa [small_eq, UInt64.toNat_ofNat', Nat.mod_eq_of_lt (by simpa using hlt), ← hl, leBytes_leNat] at this
      · next h3 =>
        rw [b5] at h3
        have h13 := c2 h12 h3
        simp only [Res.bind_eq_ok] at h
        obtain ⟨⟨n, s1⟩, h4, h⟩ := h
        obtain ⟨w, h5, rfl⟩ := num_split h4
        have hn : n < 2 ^ 64 := by
          obtain ⟨_, k, _, rfl, _⟩ := h5
          exact Nat.mod_lt _ (by decide)
        refine ⟨w, ?_⟩
        split at h
        · next h6 =>
          split at h
          · cases h
          · next h7 =>
            cases h
            refine ⟨.neg f n _ w b1 h13 (b6.mp h6) h5 ?_ ?_ ?_ (.inl rfl), rfl⟩ <;>
              unfold toI64 at h7 ⊢ <;> split <;> simp_all <;> omega
        · next h6 =>
          rw [b6] at h6
          cases h
          exact ⟨.pos f n w b1 (c3 h13 h6) h5 (.inl rfl), rfl⟩

/-- What is read after the head -/
theorem rest_split {m : Mem} {stack : List ScopeTy} {f : UInt8} {name : Bytes} {names : List Bytes} {s u : Bytes}
    {e : Event} {st : St} (h : readRest m stack f name names s = .ok (e, (st, u))) :
    (∃ t, f = 0 ∧ stack = t :: st.stack ∧ st.names = names ∧ u = s ∧ e = ⟨[], .scopeEnd⟩) ∨
    (∃ v w, Body true f v w ∧ s = w ++ u ∧ e = ⟨name, .val v⟩ ∧ st = ⟨stack, names⟩) ∨
    (∃ t, Opens true f t ∧ s = u ∧ e = ⟨name, .scope t⟩ ∧ st = ⟨t :: stack, names⟩) := by
  unfold readRest at h
  split at h
  · next h0 =>
    cases stack with
    | nil => cases h
    | cons t stack => cases h; exact .inl ⟨t, h0, rfl, rfl, rfl, rfl⟩
  · split at h
    · next h1 =>
      rw [flag_scope] at h1
      obtain ⟨_, b1, b2⟩ := flag_scope2 f h1
      cases h
      refine .inr (.inr ⟨_, ?_, rfl, rfl, rfl⟩)
      by_cases h2 : has f 64
      · rw [if_pos (b1.mpr h2)]; exact ⟨h1.1, h2, .inl rfl⟩
      · rw [if_neg (fun x => h2 (b1.mp x))]; exact ⟨(b2 h2).1, (b2 h2).2, .inl rfl⟩
    · next h1 =>
      rw [flag_scope] at h1
      split at h
      · next h2 =>
        simp only [Res.bind_eq_ok] at h
        obtain ⟨⟨v, s1⟩, h3, h⟩ := h
        cases h
        obtain ⟨w, h4, rfl⟩ := numval_split h2 h3
        exact .inr (.inl ⟨v, w, h4, rfl, rfl, rfl⟩)
      · next h2 =>
        have h2' : f &&& fNum = 0 := Decidable.not_not.mp h2
        have h192 : ¬ has f 192 := fun x => h1 ⟨fun y => h2 y, x⟩
        obtain ⟨b1, b2, b3, b4, b5, b6⟩ := flag_block f h2' h192
        split at h
        · next h3 =>
          rw [b1] at h3
          simp only [Res.bind_eq_ok] at h
          obtain ⟨⟨n, s1⟩, h4, ⟨x, s2⟩, h5, h⟩ := h
          obtain ⟨w, h6, rfl⟩ := num_split h4
          obtain ⟨rfl, rfl⟩ := block_split h5
          cases h
          refine .inr (.inl ⟨_, w ++ x, ?_, by simp, rfl, rfl⟩)
          by_cases h7 : has f 16
          · rw [if_pos (b2.mpr h7)]; exact .bin f x w b3 h7 h6 (.inl rfl)
          · rw [if_neg (fun y => h7 (b2.mp y))]; exact .str f x w (b4 h3 h7).1 (b4 h3 h7).2 h6 (.inl rfl)
        · next h3 =>
          rw [b1] at h3
          split at h
          · next h4 => cases h; exact .inr (.inl ⟨.null, [], .null f (b5 h3) (b6.mp h4) (.inl rfl), rfl, rfl, rfl⟩)
          · cases h

/-- What is read of the head -/
theorem head_split {m : Mem} (hm : m.Sane) {st : St} {s u : Bytes} {f : UInt8} {n : Bytes} {names : List Bytes}
    (h : readHead m st s = .ok (f, n, names, u)) :
    ∃ k, s = f :: (k ++ u) ∧ ((st.stack = [] ∧ n = [] ∧ k = [] ∧ names = st.names) ∨
      ∃ t r, st.stack = t :: r ∧ Key true t st.names f n k names) := by
  cases s with
  | nil =>
    simp only [readHead, Res.bind_eq_ok] at h
    obtain ⟨⟨b, s1⟩, h1, _⟩ := h
    obtain ⟨h2, _⟩ := In.readBlock_eq_ok h1
    simp at h2
  | cons F s =>
    rw [readHead_cons hm] at h
    split at h
    · next h1 =>
      cases h
      refine ⟨[], rfl, ?_⟩
      cases hs : st.stack with
      | nil => exact .inl ⟨rfl, rfl, rfl, rfl⟩
      | cons t r =>
        refine .inr ⟨t, r, rfl, .none _ _ _ ?_ (.inl rfl)⟩
        rcases h1 with h1 | h1
        · exact .inl (fun x => x h1)
        · rw [hs] at h1
          cases t
          · exact absurd rfl h1
          · exact .inr rfl
    · next h1 =>
      rw [not_or, Decidable.not_not] at h1
      obtain ⟨h1, h2⟩ := h1
      obtain ⟨r, hs⟩ : ∃ r, st.stack = .object :: r := by
        cases hs : st.stack with
        | nil => rw [hs] at h2; cases h2
        | cons t r => rw [hs] at h2; cases h2; exact ⟨r, rfl⟩
      split at h
      · next h3 =>
        simp only [Res.bind_eq_ok] at h
        obtain ⟨⟨i, s1⟩, h4, h⟩ := h
        obtain ⟨w, h5, rfl⟩ := num_split h4
        simp only at h
        split at h
        · cases h
        · next h6 =>
          cases h
          exact ⟨w, rfl, .inr ⟨_, r, hs, .again _ _ i _ _ h1 h3 h5 h6 (.inl rfl)⟩⟩
      · next h3 =>
        simp only [Res.bind_eq_ok] at h
        obtain ⟨⟨i, s1⟩, h4, ⟨x, s2⟩, h6, h⟩ := h
        obtain ⟨w, h5, rfl⟩ := num_split h4
        obtain ⟨rfl, rfl⟩ := block_split h6
        cases h
        exact ⟨w ++ x, by simp, .inr ⟨_, r, hs, .first _ _ _ _ h1 h3 h5 (.inl rfl)⟩⟩

theorem read_split {m : Mem} (hm : m.Sane) {t : ScopeTy} {stack : List ScopeTy} {a : List Bytes} {s u : Bytes}
    {e : Event} {st : St} (h : PSrl.read m (⟨t :: stack, a⟩, s) = .ok (e, (st, u))) :
    (s = 0 :: u ∧ e = ⟨[], .scopeEnd⟩ ∧ st = ⟨stack, a⟩) ∨
    ∃ f n k b, Key true t a f n k b ∧
      ((∃ v w, Body true f v w ∧ s = f :: (k ++ (w ++ u)) ∧ e = ⟨n, .val v⟩ ∧ st = ⟨t :: stack, b⟩) ∨
       (∃ t', Opens true f t' ∧ s = f :: (k ++ u) ∧ e = ⟨n, .scope t'⟩ ∧ st = ⟨t' :: t :: stack, b⟩)) := by
  simp only [PSrl.read, Res.bind_eq_ok] at h
  obtain ⟨⟨f, n, b, s1⟩, h1, h2⟩ := h
  obtain ⟨k, rfl, ⟨h3, _⟩ | ⟨t1, r, h3, hk⟩⟩ := head_split hm h1
  · cases h3
  · cases h3
    rcases rest_split h2 with ⟨t2, rfl, h4, h5, rfl, rfl⟩ | ⟨v, w, h4, rfl, rfl, rfl⟩ | ⟨t', h4, rfl, rfl, rfl⟩
    · cases h4
      cases hk with
      | none => exact .inl ⟨rfl, rfl, by cases st; cases h5; rfl⟩
      | again => exact absurd ‹has 0 2› (by decide)
      | first => exact absurd ‹has 0 2› (by decide)
    · exact .inr ⟨f, n, k, b, hk, .inl ⟨v, w, h4, rfl, rfl, rfl⟩⟩
    · exact .inr ⟨f, n, k, b, hk, .inr ⟨t', h4, rfl, rfl, rfl⟩⟩

/-! ## The grammar is read -/

theorem body_read {m : Mem} (hm : m.Sane) {odd : Bool} {f : UInt8} {v : Val} {w : Bytes} (h : Body odd f v w)
    (stack : List ScopeTy) (name : Bytes) (names : List Bytes) (u : Bytes) :
    readRest m stack f name names (w ++ u) = .ok (⟨name, .val v⟩, (⟨stack, names⟩, u)) := by
  have num : ∀ {f : UInt8} {v : Val} {w : Bytes}, has f 1 → readNum m f (w ++ u) = .ok (v, u) →
      readRest m stack f name names (w ++ u) = .ok (⟨name, .val v⟩, (⟨stack, names⟩, u)) := by
    intro f v w h1 h2
    have h0 := (flag_num f h1).1
    unfold readRest
    rw [if_neg h0, if_neg (fun x => h1 x.1), if_pos (show f &&& fNum ≠ 0 from h1), h2]
    rfl
  have other : ∀ {f : UInt8}, f ≠ 0 → f &&& fNum = 0 → ¬ has f 192 → readRest m stack f name names (w ++ u) =
      (if f &&& (fBinary ||| fString) ≠ 0 then do
        let (size, s) ← Vlq.decode m (w ++ u)
        let (b, s) ← In.readBlock m size s
        let b := b.take (size % 2 ^ 32)
        .ok (⟨name, .val (if f &&& fBinary ≠ 0 then .bin b else .str b)⟩, (⟨stack, names⟩, s))
      else if f &&& fNull ≠ 0 then .ok (⟨name, .val .null⟩, (⟨stack, names⟩, w ++ u))
      else .err) := by
    intro f h1 h2 h3
    unfold readRest
    rw [if_neg h1, if_neg (by rw [flag_scope]; exact fun x => h3 x.2), if_neg (fun x => x h2)]
  cases h with
  | bool h1 h2 _ =>
    obtain ⟨_, _, b2, b3, _⟩ := flag_num f h1
    apply num h1
    unfold readNum
    rw [if_pos (b2.mpr h2), show decide (has f 64) = decide (f &&& fTrue ≠ 0) from decide_eq_decide.mpr b3.symm]
    rfl
  | float x h1 h2 h3 _ =>
    obtain ⟨_, _, b2, _, b4, _⟩ := flag_num f h1
    apply num h1
    unfold readNum
    rw [if_neg (fun y => h2 (b2.mp y)), if_pos (b4.mpr h3), small_eq, In.readBlock_append hm (by rw [leBytes_length])]
    simp only [Res.ok_bind]
    rw [leNat_leBytes _ _ (by simpa using x.toNat_lt)]
    simp
  | double d h1 h2 h3 _ =>
    obtain ⟨_, _, b2, _, b4, b5, _, _, _, _, c4, _⟩ := flag_num f h1
    apply num h1
    unfold readNum
    rw [if_neg (fun y => (c4 h2).1 (b2.mp y)), if_neg (fun y => (c4 h2).2 (b4.mp y)), if_pos (b5.mpr h3), small_eq,
      In.readBlock_append hm (by rw [leBytes_length])]
    simp only [Res.ok_bind]
    rw [leNat_leBytes _ _ (by simpa using d.toNat_lt)]
    simp
  | pos n w h1 h2 h3 _ =>
    obtain ⟨_, _, b2, _, b4, b5, b6, _, _, _, _, _, c6⟩ := flag_num f h1
    obtain ⟨k1, k2, k3, k4⟩ := c6 h2
    apply num h1
    unfold readNum
    rw [if_neg (fun y => k1 (b2.mp y)), if_neg (fun y => k2 (b4.mp y)), if_neg (fun y => k3 (b5.mp y)),
      num_read hm h3]
    simp only [Res.ok_bind]
    rw [if_neg (fun y => k4 (b6.mp y))]
  | neg n v w h1 h2 h3 h4 h5 h6 h7 _ =>
    obtain ⟨_, _, b2, _, b4, b5, b6, _, _, _, _, c5, _⟩ := flag_num f h1
    obtain ⟨k1, k2, k3⟩ := c5 h2
    have hn : n < 2 ^ 64 := by
      obtain ⟨_, k, _, rfl, _⟩ := h4
      exact Nat.mod_lt _ (by decide)
    have e : toI64 n = -v := by unfold toI64; split <;> (try simp) <;> omega
    apply num h1
    unfold readNum
    rw [if_neg (fun y => k1 (b2.mp y)), if_neg (fun y => k2 (b4.mp y)), if_neg (fun y => k3 (b5.mp y)),
      num_read hm h4]
    simp only [Res.ok_bind]
    rw [if_pos (b6.mpr h3), e, if_neg (by simp; omega), Int.neg_neg]
  | str s w h1 h2 h3 _ =>
    obtain ⟨k0, k1, k2, k3, k4⟩ := flag_str f h1 h2
    obtain ⟨b1, b2, _⟩ := flag_block f k1 k2
    rw [other k0 k1 k2, if_pos (b1.mpr k3), List.append_assoc, num_read hm h3]
    simp only [Res.ok_bind]
    rw [In.readBlock_append hm rfl]
    simp only [Res.ok_bind]
    rw [if_neg (fun y => k4 (b2.mp y))]
  | bin s w h1 h2 h3 _ =>
    obtain ⟨k0, k1, k2, k3⟩ := flag_bin f h1 h2
    obtain ⟨b1, b2, _⟩ := flag_block f k1 k2
    rw [other k0 k1 k2, if_pos (b1.mpr k3), List.append_assoc, num_read hm h3]
    simp only [Res.ok_bind]
    rw [In.readBlock_append hm rfl]
    simp only [Res.ok_bind]
    rw [if_pos (b2.mpr h2)]
  | null h1 h2 _ =>
    obtain ⟨k0, k1, k2, k3⟩ := flag_null f h1 h2
    obtain ⟨b1, _, _, _, _, b6⟩ := flag_block f k1 k2
    rw [other k0 k1 k2, if_neg (fun y => k3 (b1.mp y)), if_pos (b6.mpr h2)]
    rfl

theorem opens_read {m : Mem} {odd : Bool} {f : UInt8} {t : ScopeTy} (h : Opens odd f t) (stack : List ScopeTy)
    (name : Bytes) (names : List Bytes) (u : Bytes) :
    readRest m stack f name names u = .ok (⟨name, .scope t⟩, (⟨t :: stack, names⟩, u)) := by
  have key : ¬ has f 1 ∧ has f 192 ∧ (has f 64 ↔ t = .object) := by
    cases t with
    | object => exact ⟨h.1, flag_object f h.1 h.2.1, by simp [h.2.1]⟩
    | array => obtain ⟨a, b, c⟩ := flag_array f h.1 h.2.1; exact ⟨a, b, by simp [c]⟩
  obtain ⟨b0, b1, _⟩ := flag_scope2 f ⟨key.1, key.2.1⟩
  unfold readRest
  rw [if_neg b0, if_pos ((flag_scope f).mpr ⟨key.1, key.2.1⟩)]
  cases t with
  | object => rw [if_pos (b1.mpr (key.2.2.mpr rfl))]
  | array => rw [if_neg (fun y => by have := key.2.2.mp (b1.mp y); cases this)]

theorem key_read {m : Mem} (hm : m.Sane) {odd : Bool} {t : ScopeTy} {a b : List Bytes} {f : UInt8} {n k : Bytes}
    (h : Key odd t a f n k b) (stack : List ScopeTy) (u : Bytes) :
    readHead m ⟨t :: stack, a⟩ (f :: (k ++ u)) = .ok (f, n, b, u) := by
  rw [readHead_cons hm]
  cases h with
  | none =>
    rename_i ho h
    rw [if_pos]
    · rfl
    · rcases h with h | rfl
      · exact .inl (Decidable.not_not.mp h)
      · exact .inr (by simp)
  | again =>
    rename_i i h1 h2 h4 ho h3
    rw [if_neg (by simp only [List.head?_cons, ne_eq, not_true_eq_false, or_false]; exact h1), if_pos (show f &&& fIndexed ≠ 0 from h2),
      num_read hm h3]
    simp only [Res.ok_bind, h4]
  | first =>
    rename_i w h1 h2 h3 ho
    rw [if_neg (by simp only [List.head?_cons, ne_eq, not_true_eq_false, or_false]; exact h1), if_neg (show ¬ f &&& fIndexed ≠ 0 from h2),
      List.append_assoc, num_read hm h3]
    simp only [Res.ok_bind]
    rw [In.readBlock_append hm rfl]
    rfl

/-- Scopes that are read are those of the grammar. -/
theorem scope_elems {m : Mem} (hm : m.Sane) : ∀ (fuel d : Nat) (t : ScopeTy) (stack : List ScopeTy) (a : List Bytes)
    (st : St) (s u : Bytes) (vs : List (Bytes × Val)) (ns : List (Bytes × Node)),
    readScope (PSrl.read m) fuel d (⟨t :: stack, a⟩, s) = .ok ((vs, ns), (st, u)) → d ≤ maxDepth →
    ∃ is b c, Elems true t a is b c ∧ s = b ++ u ∧ st = ⟨stack, c⟩ ∧ vs = keptValues is ∧
      ns = keptNodes is ∧ nesting is + d ≤ maxDepth := by
  intro fuel
  induction fuel with
  | zero => intro d t stack a st s u vs ns h; cases h
  | succ fuel ih =>
    intro d t stack a st s u vs ns h hd
    simp only [readScope, Res.bind_eq_ok] at h
    obtain ⟨⟨e, st1, s1⟩, h1, h⟩ := h
    rcases read_split hm h1 with ⟨rfl, rfl, rfl⟩ | ⟨f, n, k, b, hk, ⟨v, w, hv, rfl, rfl, rfl⟩ | ⟨t', ho, rfl, rfl, rfl⟩⟩
    · cases h
      exact ⟨[], [0], a, .nil t a, rfl, rfl, by rw [keptValues], by rw [keptNodes], by simpa [nesting] using hd⟩
    · simp only [Res.bind_eq_ok] at h
      obtain ⟨⟨⟨vs1, ns1⟩, st2, s2⟩, h2, h⟩ := h
      cases h
      obtain ⟨is, r, c, g1, rfl, g4, g5, g6, g7⟩ := ih d t _ _ _ _ _ _ _ h2 hd
      exact ⟨.val n v :: is, _, c, .val t a b c f n v is k w r hk hv g1, by simp, g4, by rw [keptValues, g5],
        by rw [keptNodes, g6], by rw [nesting]; exact g7⟩
    · dsimp only at h
      split at h
      · cases h
      · next hdd =>
        simp only [Res.bind_eq_ok] at h
        obtain ⟨⟨⟨vs1, ns1⟩, st2, s2⟩, h2, ⟨⟨vs2, ns2⟩, st3, s3⟩, h3, h⟩ := h
        cases h
        obtain ⟨js, q, c, g1, rfl, rfl, g5, g6, g7⟩ := ih (d + 1) t' _ _ _ _ _ _ _ h2 (by omega)
        obtain ⟨is, r, e, f1, rfl, f4, f5, f6, f7⟩ := ih d t _ _ _ _ _ _ _ h3 hd
        exact ⟨.scope n t' js :: is, _, e, .scope t t' a b c e f n js is k q r hk ho g1 f1, by simp, f4,
          by rw [keptValues, f5], by rw [keptNodes, f6, g5, g6], by rw [nesting]; omega⟩

/-- Scopes of the grammar are read. -/
theorem elems_scope {m : Mem} (hm : m.Sane) {odd : Bool} {t : ScopeTy} {a c : List Bytes} {is : List Item} {b : Bytes}
    (h : Elems odd t a is b c) : ∀ (fuel d : Nat) (stack : List ScopeTy) (u : Bytes), b.length ≤ fuel →
    nesting is + d ≤ maxDepth → readScope (PSrl.read m) fuel d (⟨t :: stack, a⟩, b ++ u) =
      .ok ((keptValues is, keptNodes is), (⟨stack, c⟩, u)) := by
  induction h with
  | nil ty names =>
    intro fuel d stack u hf _
    cases fuel with
    | zero => simp at hf
    | succ fuel =>
      have : PSrl.read m (⟨ty :: stack, names⟩, [0] ++ u) = .ok (⟨[], .scopeEnd⟩, (⟨stack, names⟩, u)) := by
        simp only [PSrl.read, List.singleton_append]
        rw [readHead_cons hm, if_pos (.inl (by decide))]
        simp [readRest]
      rw [readScope, this]
      simp [keptValues, keptNodes]
  | val ty a b c f n v is k w r hk hv _ ih =>
    intro fuel d stack u hf hd
    rw [nesting] at hd
    simp only [List.length_append, List.length_cons] at hf
    cases fuel with
    | zero => omega
    | succ fuel =>
      have : PSrl.read m (⟨ty :: stack, a⟩, f :: (k ++ (w ++ r)) ++ u) = .ok (⟨n, .val v⟩, (⟨ty :: stack, b⟩, r ++ u)) := by
        simp only [PSrl.read, List.cons_append, List.append_assoc]
        rw [key_read hm hk]
        simp only [Res.ok_bind]
        rw [body_read hm hv]
      rw [readScope, this]
      simp only [Res.ok_bind, ih fuel d stack u (by omega) hd, keptValues, keptNodes]
  | scope ty t a b c e f n js is k q r hk ho _ _ ih1 ih2 =>
    intro fuel d stack u hf hd
    rw [nesting] at hd
    simp only [List.length_append, List.length_cons] at hf
    cases fuel with
    | zero => omega
    | succ fuel =>
      have : PSrl.read m (⟨ty :: stack, a⟩, f :: (k ++ (q ++ r)) ++ u) =
          .ok (⟨n, .scope t⟩, (⟨t :: ty :: stack, b⟩, q ++ (r ++ u))) := by
        simp only [PSrl.read, List.cons_append, List.append_assoc]
        rw [key_read hm hk]
        simp only [Res.ok_bind]
        rw [opens_read ho]
      rw [readScope, this]
      simp only [Res.ok_bind]
      rw [if_neg (by omega)]
      simp only [Res.ok_bind, ih1 fuel (d + 1) _ _ (by omega) (by omega), ih2 fuel d stack u (by omega) (by omega),
        keptValues, keptNodes]

theorem load_document {m : Mem} (hm : m.Sane) {s u : Bytes} {root : Root} {st : St}
    (h : PSrl.load m s = .ok (root, (st, u))) :
    ∃ t is b names, Document true t is names b ∧ s = b ++ u ∧ nesting is ≤ maxDepth ∧
      root = ⟨[], .mk t (keptValues is) (keptNodes is)⟩ ∧ st = ⟨[], names⟩ := by
  simp only [PSrl.load, Doc.load, Res.bind_eq_ok] at h
  obtain ⟨⟨⟨n, tok⟩, st1, s1⟩, h1, h⟩ := h
  simp only [PSrl.read, Res.bind_eq_ok] at h1
  obtain ⟨⟨f, n', b, s2⟩, h1, h2⟩ := h1
  obtain ⟨k, rfl, ⟨_, rfl, rfl, rfl⟩ | ⟨t1, r, h3, _⟩⟩ := head_split hm h1
  · rcases rest_split h2 with ⟨t2, rfl, h4, _, _, _⟩ | ⟨v, w, h4, rfl, he, rfl⟩ | ⟨t, h4, rfl, he, rfl⟩
    · cases h4
    · cases he; cases h
    · cases he
      simp only [Res.bind_eq_ok] at h
      obtain ⟨⟨⟨vs, ns⟩, st2, s2⟩, h2, h⟩ := h
      cases h
      obtain ⟨is, b, c, g1, rfl, rfl, rfl, rfl, g7⟩ := scope_elems hm _ 0 t _ _ _ _ _ _ _ h2 (by decide)
      exact ⟨t, is, f :: b, c, ⟨f, b, h4, .inl rfl, g1, rfl⟩, by simp, g7, rfl, rfl⟩
  · cases h3

theorem document_load {m : Mem} (hm : m.Sane) {odd : Bool} {t : ScopeTy} {is : List Item} {names : List Bytes}
    {b : Bytes} (h : Document odd t is names b) (u : Bytes) (hd : nesting is ≤ maxDepth) :
    PSrl.load m (b ++ u) = .ok (⟨[], .mk t (keptValues is) (keptNodes is)⟩, (⟨[], names⟩, u)) := by
  obtain ⟨f, c, h1, _, h2, rfl⟩ := h
  have : PSrl.read m (St.init, f :: c ++ u) = .ok (⟨[], .scope t⟩, (⟨[t], []⟩, c ++ u)) := by
    simp only [PSrl.read, List.cons_append]
    rw [readHead_cons hm, if_pos (.inr (by simp [St.init]))]
    simp only [Res.ok_bind]
    rw [opens_read h1]
    rfl
  unfold PSrl.load Doc.load
  rw [this]
  simp only [Res.ok_bind]
  rw [elems_scope hm h2 _ 0 [] u (by simp only [List.length_append, List.length_cons]; omega) (by omega)]
  rfl

end Srl.LaxSrl
