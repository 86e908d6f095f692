import Verif.Lemmas.PSrl
import Verif.Lemmas.Load

/-! Reading prefixes and extensions of a source; progress; freedom from undefined behaviour. -/

namespace Srl

open Doc

namespace In

theorem move_eq_ok {m : Mem} {n : Nat} {s t : Bytes} (h : move m n s = .ok t) :
    n ≤ s.length ∧ t = s.drop n := by
  unfold move at h
  split at h
  · cases h
  · split at h
    · cases h
    · cases h; exact ⟨by omega, rfl⟩

theorem readBlock_eq_ok {m : Mem} {n : Nat} {s x t : Bytes} (h : readBlock m n s = .ok (x, t)) :
    n ≤ s.length ∧ x = s.take n ∧ t = s.drop n := by
  unfold readBlock at h
  rw [Res.bind_eq_ok] at h
  obtain ⟨t', h1, h2⟩ := h
  have := move_eq_ok h1
  simp only [Res.pure_eq, Res.ok.injEq, Prod.mk.injEq] at h2
  exact ⟨this.1, h2.1.symm, h2.2 ▸ this.2⟩

theorem move_ne_fuel (m : Mem) (n : Nat) (s : Bytes) : move m n s ≠ .fuel := by
  unfold move; split <;> (try split) <;> simp

theorem readBlock_ne_fuel (m : Mem) (n : Nat) (s : Bytes) : readBlock m n s ≠ .fuel := by
  unfold readBlock
  cases h : move m n s <;> simp
  exact absurd h (move_ne_fuel m n s)

theorem cur_ne_fuel (m : Mem) (s : Bytes) : cur m s ≠ .fuel := by
  unfold cur; split <;> (try split) <;> simp

/-- With sane addresses `move` is defined for every size below `2^63`. -/
theorem move_ne_ub {m : Mem} (hm : m.Sane) {n : Nat} (hn : n ≤ 2 ^ 63) (s : Bytes) :
    move m n s ≠ .ub := by
  unfold move; unfold Mem.Sane at hm
  rw [if_neg (by omega)]
  split <;> simp

theorem readBlock_ne_ub {m : Mem} (hm : m.Sane) {n : Nat} (hn : n ≤ 2 ^ 63) (s : Bytes) :
    readBlock m n s ≠ .ub := by
  unfold readBlock
  cases h : move m n s <;> simp
  exact absurd h (move_ne_ub hm hn s)

end In

/-- `s'` is `s` with `q` cut off. -/
def CutR (q s s' : Bytes) : Prop := s = s' ++ q ∧ s.length < 2 ^ 63
/-- `s'` is `s` followed by `q`. -/
def ExtR (q s s' : Bytes) : Prop := s' = s ++ q

/-- What `f` reads `f'` reads as well, unless it fails. -/
def Sim {α : Type} (a b : Prop) (R : Bytes → Bytes → Prop) (f f' : Bytes → Res (α × Bytes)) : Prop :=
  ∀ s s' x t, R s s' → f s = .ok (x, t) →
    (∃ t', R t t' ∧ f' s' = .ok (x, t')) ∨ Fails a b (f' s')

theorem readBlock_cut {m m' : Mem} (hm' : m'.Sane) (b : Prop) (q : Bytes) (n : Nat) :
    Sim True b (CutR q) (In.readBlock m n) (In.readBlock m' n) := by
  rintro s s' x t ⟨rfl, hl⟩ h
  obtain ⟨h1, h2, h3⟩ := In.readBlock_eq_ok h
  by_cases hn : n ≤ s'.length
  · left
    refine ⟨s'.drop n, ⟨?_, ?_⟩, ?_⟩
    · rw [h3, List.drop_append_of_le_length hn]
    · rw [h3, List.length_drop]; omega
    · rw [In.readBlock_ok hm' hn, h2, List.take_append_of_le_length hn]
  · right; left
    exact ⟨trivial, In.readBlock_err hm' (by omega) (by omega)⟩

theorem readBlock_ext {m m' : Mem} (hm' : m'.Sane) (q : Bytes) (n : Nat) :
    Sim False False (ExtR q) (In.readBlock m n) (In.readBlock m' n) := by
  rintro s s' x t rfl h
  obtain ⟨h1, h2, h3⟩ := In.readBlock_eq_ok h
  left
  refine ⟨s.drop n ++ q, by rw [h3]; rfl, ?_⟩
  rw [In.readBlock_ok hm' (by simp; omega), h2, List.take_append_of_le_length h1,
    List.drop_append_of_le_length h1]

namespace Vlq

theorem decLoop_cut {m m' : Mem} (hm' : m'.Sane) (q : Bytes) (s' : Bytes) (hs : s' ≠ [])
    (blk : UInt8) (out sh v sh2 : Nat) (t : Bytes)
    (h : decLoop m blk out sh (s' ++ q) = .ok (v, sh2, t)) :
    (∃ t', t = t' ++ q ∧ decLoop m' blk out sh s' = .ok (v, sh2, t')) ∨
    (∃ v2 sh3, decLoop m' blk out sh s' = .ok (v2, sh3, [])) ∨
    decLoop m' blk out sh s' = .err ∨ (m'.past = none ∧ decLoop m' blk out sh s' = .ub) := by
  induction s' generalizing blk out sh with
  | nil => exact absurd rfl hs
  | cons c s' ih =>
    rw [List.cons_append] at h
    rw [decLoop] at h ⊢
    by_cases hb : blk &&& 128 = 0
    · rw [if_pos hb] at h ⊢
      simp only [Res.ok.injEq, Prod.mk.injEq] at h
      left; exact ⟨c :: s', by simp [← h.2.2], by simp [h.1, h.2.1]⟩
    · rw [if_neg hb] at h ⊢
      rw [Res.bind_eq_ok] at h
      obtain ⟨blk', hc, h⟩ := h
      by_cases hsh : sh ≥ 64
      · rw [if_pos hsh] at h; cases h
      rw [if_neg hsh] at h
      cases s' with
      | nil =>
        right
        cases hp : m'.past with
        | none => right; right; simp [In.cur, hp]
        | some p =>
          simp only [In.cur, hp, Res.ok_bind, if_neg hsh]
          rw [decLoop]
          split
          · left; exact ⟨_, _, rfl⟩
          · right; left
            rw [In.move_err hm' (by decide) (by simp)]; rfl
      | cons c' s'' =>
        have hcc : blk' = c' := by
          simp only [List.cons_append, In.cur_cons, Res.ok.injEq] at hc; exact hc.symm
        subst hcc
        simp only [In.cur_cons, Res.ok_bind, if_neg hsh]
        exact ih (by simp) _ _ _ h

theorem decode_cut {m m' : Mem} (hm' : m'.Sane) (q : Bytes) :
    Sim True (m'.past = none) (CutR q) (decode m) (decode m') := by
  rintro s s' n t ⟨rfl, hl⟩ h
  unfold decode at h ⊢
  cases s' with
  | nil =>
    right
    cases hp : m'.past with
    | none => right; exact ⟨rfl, by simp [In.cur, hp]⟩
    | some p =>
      left
      refine ⟨trivial, ?_⟩
      simp only [In.cur, hp, Res.ok_bind]
      rw [decLoop]
      split
      · simp only [Res.ok_bind, In.move_err hm' (n := 1) (by decide) (by simp : ([] : Bytes).length < 1)]
        rfl
      · simp only [In.move_err hm' (n := 1) (by decide) (by simp : ([] : Bytes).length < 1)]
        rfl
  | cons c s' =>
    simp only [List.cons_append, In.cur_cons, Res.ok_bind] at h ⊢
    rw [Res.bind_eq_ok] at h
    obtain ⟨⟨v, sh, t1⟩, hd, h⟩ := h
    rw [← List.cons_append] at hd
    simp only at h
    split at h
    · cases h
    rename_i hsh
    rw [Res.bind_eq_ok] at h
    obtain ⟨t2, hmv, h⟩ := h
    simp only [Res.pure_eq, Res.ok.injEq, Prod.mk.injEq] at h
    obtain ⟨hlen, ht2⟩ := In.move_eq_ok hmv
    have hend : ∀ v2 sh3, decLoop m' c (127 &&& c).toNat 7 (c :: s') = .ok (v2, sh3, []) →
        (do
          let __x ← decLoop m' c (127 &&& c).toNat 7 (c :: s')
          if __x.2.1 > 10 * 7 then Res.err
          else do
            let s ← In.move m' 1 __x.2.2
            pure (__x.1, s)) = .err := by
      intro v2 sh3 hh
      rw [hh]
      simp only [Res.ok_bind]
      split
      · rfl
      · rw [In.move_err hm' (by decide) (by simp)]; rfl
    rcases decLoop_cut hm' q (c :: s') (by simp) _ _ _ _ _ _ hd with ⟨t', ht', hd'⟩ | ⟨v2, sh3, hd'⟩ | hd' | ⟨hp, hd'⟩
    · cases t' with
      | nil => right; left; exact ⟨trivial, hend _ _ hd'⟩
      | cons c1 t' =>
        left
        refine ⟨t', ⟨?_, ?_⟩, ?_⟩
        · rw [← h.2, ht2, ht']; rfl
        · rw [← h.2, ht2, List.length_drop]
          have := decLoop_bound m _ _ _ _ _ _ _ hd (by rw [and127]; omega)
          obtain ⟨_, pre, hp, _⟩ := this
          have := congrArg List.length hp
          simp only [List.length_append, List.length_cons] at this hl
          omega
        · rw [hd']
          simp only [Res.ok_bind]
          rw [if_neg hsh, In.move_one hm']
          simp [h.1]
    · right; left; exact ⟨trivial, hend _ _ hd'⟩
    · right; left; rw [hd']; exact ⟨trivial, rfl⟩
    · right; right; rw [hd']; exact ⟨hp, rfl⟩

theorem decLoop_nil {m : Mem} {blk : UInt8} {out sh v sh2 : Nat} {t : Bytes}
    (h : decLoop m blk out sh [] = .ok (v, sh2, t)) : t = [] := by
  rw [decLoop] at h
  split at h
  · cases h; rfl
  · rw [Res.bind_eq_ok] at h; obtain ⟨_, _, h⟩ := h; cases h

theorem decLoop_ext {m m' : Mem} (q : Bytes) (s : Bytes)
    (blk : UInt8) (out sh v sh2 : Nat) (c : UInt8) (t : Bytes)
    (h : decLoop m blk out sh s = .ok (v, sh2, c :: t)) :
    decLoop m' blk out sh (s ++ q) = .ok (v, sh2, c :: (t ++ q)) := by
  induction s generalizing blk out sh with
  | nil => have := decLoop_nil h; cases this
  | cons d s ih =>
    rw [List.cons_append]
    rw [decLoop] at h ⊢
    by_cases hb : blk &&& 128 = 0
    · rw [if_pos hb] at h ⊢
      simp only [Res.ok.injEq, Prod.mk.injEq, List.cons.injEq] at h
      simp [h.1, h.2.1, h.2.2.1, h.2.2.2]
    · rw [if_neg hb] at h ⊢
      rw [Res.bind_eq_ok] at h
      obtain ⟨blk', hc, h⟩ := h
      split at h
      · cases h
      rename_i hsh
      cases s with
      | nil => have := decLoop_nil h; cases this
      | cons d' s =>
        simp only [In.cur_cons, Res.ok.injEq] at hc
        subst hc
        simp only [List.cons_append, In.cur_cons, Res.ok_bind, if_neg hsh]
        exact ih _ _ _ h

theorem decode_ext {m m' : Mem} (hm' : m'.Sane) (q : Bytes) :
    Sim False False (ExtR q) (decode m) (decode m') := by
  rintro s s' n t rfl h
  left
  refine ⟨t ++ q, rfl, ?_⟩
  unfold decode at h ⊢
  rw [Res.bind_eq_ok] at h
  obtain ⟨blk, hc, h⟩ := h
  rw [Res.bind_eq_ok] at h
  obtain ⟨⟨v, sh, t1⟩, hd, h⟩ := h
  simp only at h
  split at h
  · cases h
  rename_i hsh
  rw [Res.bind_eq_ok] at h
  obtain ⟨t2, hmv, h⟩ := h
  simp only [Res.pure_eq, Res.ok.injEq, Prod.mk.injEq] at h
  obtain ⟨hlen, ht2⟩ := In.move_eq_ok hmv
  cases t1 with
  | nil => simp at hlen
  | cons c1 t1 =>
    cases s with
    | nil => have := decLoop_nil hd; cases this
    | cons d s =>
      simp only [In.cur_cons, Res.ok.injEq] at hc
      subst hc
      simp only [List.cons_append, In.cur_cons, Res.ok_bind]
      have := decLoop_ext (m' := m') q _ _ _ _ _ _ _ _ hd
      rw [List.cons_append] at this
      rw [this]
      simp only [Res.ok_bind]
      rw [if_neg hsh, In.move_one hm', ← h.1, ← h.2, ht2]
      rfl

/-- Continuation bytes passed over. -/
theorem decLoop_run {m : Mem} (hp : m.past ≠ none) (hm : m.Sane) (s : Bytes) (b : UInt8) (out sh : Nat)
    (hs : ∀ c s', s = c :: s' → c = b) :
    (decLoop m b out sh s = .ub → ∃ w t, s = w ++ t ∧ (∀ c ∈ w, 128 ≤ c.toNat) ∧ 64 ≤ sh + 7 * (w.length - 1) ∧ w ≠ []) ∧
    (∀ v sh2 t, decLoop m b out sh s = .ok (v, sh2, t) →
      ∃ w, s = w ++ t ∧ (∀ c ∈ w, 128 ≤ c.toNat) ∧ sh2 = sh + 7 * w.length) := by
  induction s generalizing b out sh with
  | nil =>
    rw [decLoop]
    constructor
    · intro h
      split at h
      · cases h
      · rw [In.move_err hm (by decide) (by simp)] at h; cases h
    · intro v sh2 t h
      split at h
      · simp only [Res.ok.injEq, Prod.mk.injEq] at h
        exact ⟨[], by simp [h.2.2], by simp, by simp [h.2.1]⟩
      · rw [In.move_err hm (by decide) (by simp)] at h; cases h
  | cons c s ih =>
    have hcb := hs c s rfl
    subst hcb
    rw [decLoop]
    by_cases hb : c &&& 128 = 0
    · rw [if_pos hb]
      refine ⟨(by simp), fun v sh2 t h => ?_⟩
      simp only [Res.ok.injEq, Prod.mk.injEq] at h
      exact ⟨[], by simp [h.2.2], by simp, by simp [h.2.1]⟩
    · rw [if_neg hb]
      rw [and128] at hb
      obtain ⟨b', hc, hhead⟩ : ∃ b', In.cur m s = .ok b' ∧ ∀ c s', s = c :: s' → c = b' := by
        cases s with
        | nil =>
          cases hpp : m.past with
          | none => exact absurd hpp hp
          | some p => exact ⟨p, by simp [In.cur, hpp], by simp⟩
        | cons d s => exact ⟨d, rfl, by rintro _ _ ⟨⟩; rfl⟩
      rw [hc]
      simp only [Res.ok_bind]
      split
      · rename_i h64
        refine ⟨fun _ => ⟨[c], s, rfl, by simp; omega, by simpa using h64, by simp⟩, by simp⟩
      · obtain ⟨i1, i2⟩ := ih b' (out ||| (((127 &&& b').toNat <<< sh) % 2 ^ 64)) (sh + 7) hhead
        constructor
        · intro h
          obtain ⟨w, t, hw, hall, hlen, hne⟩ := i1 h
          refine ⟨c :: w, t, by simp [hw], ?_, ?_, by simp⟩
          · intro d hd
            rcases List.mem_cons.mp hd with rfl | hd
            · omega
            · exact hall d hd
          · have : 1 ≤ w.length := List.length_pos_iff.mpr hne
            simp only [List.length_cons]; omega
        · intro v sh2 t h
          obtain ⟨w, hw, hall, hlen⟩ := i2 _ _ _ h
          refine ⟨c :: w, by simp [hw], ?_, ?_⟩
          · intro d hd
            rcases List.mem_cons.mp hd with rfl | hd
            · omega
            · exact hall d hd
          · simp only [List.length_cons]; omega

end Vlq

/-- Nowhere nine bytes with the top bit set in a row. -/
def NoRun (s : Bytes) : Prop :=
  ∀ pre w post, s = pre ++ w ++ post → w.length = 9 → ∃ b ∈ w, b.toNat < 128

theorem NoRun.suffix {a s : Bytes} (h : NoRun (a ++ s)) : NoRun s := by
  intro pre w post hs hw
  exact h (a ++ pre) w post (by rw [hs]; simp) hw

theorem NoRun.drop {s : Bytes} (h : NoRun s) (n : Nat) : NoRun (s.drop n) :=
  NoRun.suffix (a := s.take n) (by rw [List.take_append_drop]; exact h)

theorem NoRun.short {s w t : Bytes} (h : NoRun s) (hs : s = w ++ t)
    (hw : ∀ c ∈ w, 128 ≤ c.toNat) : w.length ≤ 8 := by
  apply Decidable.byContradiction
  intro hlen
  obtain ⟨b, hb, hlt⟩ := h [] (w.take 9) (w.drop 9 ++ t) (by
    rw [hs]; simp [← List.append_assoc]) (by rw [List.length_take]; omega)
  have := hw b (List.mem_of_mem_take hb)
  omega

namespace Vlq

/-- Without long runs of continuation bytes decoding is defined and gives at most 63 bits. -/
theorem decode_noRun {m : Mem} (hp : m.past ≠ none) (hm : m.Sane) (s : Bytes) (h : NoRun s) :
    decode m s ≠ .ub ∧ ∀ n t, decode m s = .ok (n, t) → n < 2 ^ 63 ∧ ∃ k, t = s.drop k := by
  unfold decode
  obtain ⟨b, hc, hhead⟩ : ∃ b', In.cur m s = .ok b' ∧ ∀ c s', s = c :: s' → c = b' := by
    cases s with
    | nil =>
      cases hpp : m.past with
      | none => exact absurd hpp hp
      | some p => exact ⟨p, by simp [In.cur, hpp], by simp⟩
    | cons d s => exact ⟨d, rfl, by rintro _ _ ⟨⟩; rfl⟩
  rw [hc]
  simp only [Res.ok_bind]
  obtain ⟨i1, i2⟩ := decLoop_run hp hm s b (127 &&& b).toNat 7 hhead
  cases hd : decLoop m b (127 &&& b).toNat 7 s with
  | ub =>
    obtain ⟨w, t, hw, hall, hlen, hne⟩ := i1 hd
    have := h.short hw hall
    omega
  | err => simp
  | fuel => simp
  | ok x =>
    obtain ⟨v, sh, t⟩ := x
    obtain ⟨w, hw, hall, hsh⟩ := i2 _ _ _ hd
    have hlen := h.short hw hall
    have hv := (decLoop_bound m _ _ _ _ _ _ _ hd (by rw [and127]; omega)).1
    simp only [Res.ok_bind]
    rw [if_neg (by omega)]
    constructor
    · cases hmv : In.move m 1 t with
      | ub => exact absurd hmv (In.move_ne_ub hm (by decide) t)
      | _ => simp
    · intro n t' hh
      rw [Res.bind_eq_ok] at hh
      obtain ⟨t2, hmv, hh⟩ := hh
      simp only [Res.pure_eq, Res.ok.injEq, Prod.mk.injEq] at hh
      obtain ⟨_, ht2⟩ := In.move_eq_ok hmv
      refine ⟨?_, w.length + 1, ?_⟩
      · rw [← hh.1]
        exact Nat.lt_of_lt_of_le hv (Nat.pow_le_pow_right (by decide) (by omega))
      · rw [← hh.2, ht2, hw, ← List.drop_drop, List.drop_left]

theorem decLoop_ne_fuel (m : Mem) (s : Bytes) (b : UInt8) (out sh : Nat) :
    decLoop m b out sh s ≠ .fuel := by
  induction s generalizing b out sh with
  | nil =>
    rw [decLoop]
    split
    · simp
    · cases h : In.move m 1 [] <;> simp
      exact absurd h (In.move_ne_fuel _ _ _)
  | cons c s ih =>
    rw [decLoop]
    split
    · simp
    · cases h : In.cur m s with
      | fuel => exact absurd h (In.cur_ne_fuel m s)
      | ok b' =>
        simp only [Res.ok_bind]
        split
        · simp
        · exact ih _ _ _
      | _ => simp

theorem decode_ne_fuel (m : Mem) (s : Bytes) : decode m s ≠ .fuel := by
  unfold decode
  cases h : In.cur m s with
  | fuel => exact absurd h (In.cur_ne_fuel m s)
  | ok b =>
    simp only [Res.ok_bind]
    cases hd : decLoop m b (127 &&& b).toNat 7 s with
    | fuel => exact absurd hd (decLoop_ne_fuel _ _ _ _ _)
    | ok x =>
      simp only [Res.ok_bind]
      split
      · simp
      · cases hmv : In.move m 1 x.2.2 <;> simp
        exact absurd hmv (In.move_ne_fuel _ _ _)
    | _ => simp
  | _ => simp

/-- Decoding leaves a suffix of the source. -/
theorem decode_suffix (m : Mem) (s t : Bytes) (n : Nat) (h : decode m s = .ok (n, t)) :
    t.length ≤ s.length := by
  unfold decode at h
  rw [Res.bind_eq_ok] at h
  obtain ⟨blk, hc, h⟩ := h
  rw [Res.bind_eq_ok] at h
  obtain ⟨⟨v, sh, t1⟩, hd, h⟩ := h
  simp only at h
  split at h
  · cases h
  rw [Res.bind_eq_ok] at h
  obtain ⟨t2, hmv, h⟩ := h
  simp only [Res.pure_eq, Res.ok.injEq, Prod.mk.injEq] at h
  obtain ⟨hlen, ht2⟩ := In.move_eq_ok hmv
  obtain ⟨_, pre, hp, _⟩ := decLoop_bound m _ _ _ _ _ _ _ hd (by rw [and127]; omega)
  have := congrArg List.length hp
  rw [← h.2, ht2, List.length_drop]
  simp only [List.length_append] at this
  omega

end Vlq

namespace PSrl

/-- Relation on parser state and source. -/
def Lift (R : Bytes → Bytes → Prop) (x y : St × Bytes) : Prop := x.1 = y.1 ∧ R x.2 y.2

variable {m m' : Mem} {a b : Prop} {R : Bytes → Bytes → Prop}

theorem readHead_sim (hB : ∀ n, Sim a b R (In.readBlock m n) (In.readBlock m' n))
    (hD : Sim a b R (Vlq.decode m) (Vlq.decode m')) (st : St) (s s' : Bytes) (hR : R s s')
    (flag : UInt8) (name : Bytes) (names : List Bytes) (t : Bytes)
    (h : readHead m st s = .ok (flag, name, names, t)) :
    (∃ t', R t t' ∧ readHead m' st s' = .ok (flag, name, names, t')) ∨
      Fails a b (readHead m' st s') := by
  unfold readHead at h ⊢
  rw [Res.bind_eq_ok] at h
  obtain ⟨⟨blk, s1⟩, h1, h⟩ := h
  rcases hB 1 _ _ _ _ hR h1 with ⟨s1', hR1, h1'⟩ | hf
  · rw [h1']
    simp only [Res.ok_bind] at h ⊢
    split
    · rename_i hc
      rw [if_pos hc] at h
      simp only [Res.ok.injEq, Prod.mk.injEq] at h
      left; exact ⟨s1', h.2.2.2 ▸ hR1, by rw [h.1, h.2.1, h.2.2.1]⟩
    · rename_i hc
      rw [if_neg hc] at h
      split
      · rename_i hc2
        rw [if_pos hc2, Res.bind_eq_ok] at h
        obtain ⟨⟨i, s2⟩, h2, h⟩ := h
        rcases hD _ _ _ _ hR1 h2 with ⟨s2', hR2, h2'⟩ | hf
        · rw [h2']
          simp only [Res.ok_bind] at h ⊢
          cases hi : st.names[i]? with
          | none => rw [hi] at h; cases h
          | some nm =>
            rw [hi] at h
            simp only [Res.ok.injEq, Prod.mk.injEq] at h
            left; exact ⟨s2', h.2.2.2 ▸ hR2, by rw [h.1, h.2.1, h.2.2.1]⟩
        · right; exact hf.bind _
      · rename_i hc2
        rw [if_neg hc2, Res.bind_eq_ok] at h
        obtain ⟨⟨n, s2⟩, h2, h⟩ := h
        rcases hD _ _ _ _ hR1 h2 with ⟨s2', hR2, h2'⟩ | hf
        · rw [h2']
          simp only [Res.ok_bind] at h ⊢
          rw [Res.bind_eq_ok] at h
          obtain ⟨⟨nm, s3⟩, h3, h⟩ := h
          rcases hB n _ _ _ _ hR2 h3 with ⟨s3', hR3, h3'⟩ | hf
          · rw [h3']
            simp only [Res.ok_bind, Res.ok.injEq, Prod.mk.injEq] at h ⊢
            left; exact ⟨s3', h.2.2.2 ▸ hR3, h.1, h.2.1, h.2.2.1, rfl⟩
          · right; exact hf.bind _
        · right; exact hf.bind _
  · right; exact hf.bind _

theorem readNum_sim (hB : ∀ n, Sim a b R (In.readBlock m n) (In.readBlock m' n))
    (hD : Sim a b R (Vlq.decode m) (Vlq.decode m')) (flag : UInt8) :
    Sim a b R (readNum m flag) (readNum m' flag) := by
  intro s s' v t hR h
  unfold readNum at h ⊢
  split
  · rename_i hc
    rw [if_pos hc] at h
    simp only [Res.ok.injEq, Prod.mk.injEq] at h
    left; exact ⟨s', h.2 ▸ hR, by rw [h.1]⟩
  · rename_i hc
    rw [if_neg hc] at h
    split
    · rename_i hc
      rw [if_pos hc, Res.bind_eq_ok] at h
      obtain ⟨⟨x, s1⟩, h1, h⟩ := h
      rcases hB _ _ _ _ _ hR h1 with ⟨s1', hR1, h1'⟩ | hf
      · simp only [Res.ok.injEq, Prod.mk.injEq] at h
        rw [h1']
        left; exact ⟨s1', h.2 ▸ hR1, by simp [h.1]⟩
      · right; exact hf.bind _
    · rename_i hc
      rw [if_neg hc] at h
      split
      · rename_i hc
        rw [if_pos hc, Res.bind_eq_ok] at h
        obtain ⟨⟨x, s1⟩, h1, h⟩ := h
        rcases hB _ _ _ _ _ hR h1 with ⟨s1', hR1, h1'⟩ | hf
        · simp only [Res.ok.injEq, Prod.mk.injEq] at h
          rw [h1']
          left; exact ⟨s1', h.2 ▸ hR1, by simp [h.1]⟩
        · right; exact hf.bind _
      · rename_i hc
        rw [if_neg hc, Res.bind_eq_ok] at h
        obtain ⟨⟨n, s1⟩, h1, h⟩ := h
        rcases hD _ _ _ _ hR h1 with ⟨s1', hR1, h1'⟩ | hf
        · rw [h1']
          simp only [Res.ok_bind] at h ⊢
          split
          · rename_i hc
            rw [if_pos hc] at h
            split
            · rename_i hc; rw [if_pos hc] at h; cases h
            · rename_i hc
              rw [if_neg hc] at h
              simp only [Res.ok.injEq, Prod.mk.injEq] at h
              left; exact ⟨s1', h.2 ▸ hR1, by simp [h.1]⟩
          · rename_i hc
            rw [if_neg hc] at h
            simp only [Res.ok.injEq, Prod.mk.injEq] at h
            left; exact ⟨s1', h.2 ▸ hR1, by simp [h.1]⟩
        · right; exact hf.bind _

theorem readRest_sim (hB : ∀ n, Sim a b R (In.readBlock m n) (In.readBlock m' n))
    (hD : Sim a b R (Vlq.decode m) (Vlq.decode m')) (stack : List ScopeTy) (flag : UInt8)
    (name : Bytes) (names : List Bytes) (s s' : Bytes) (hR : R s s') (e : Event) (y : St × Bytes)
    (h : readRest m stack flag name names s = .ok (e, y)) :
    (∃ y', Lift R y y' ∧ readRest m' stack flag name names s' = .ok (e, y')) ∨
      Fails a b (readRest m' stack flag name names s') := by
  unfold readRest at h ⊢
  split
  · rename_i hc
    rw [if_pos hc] at h
    cases stack with
    | nil => cases h
    | cons t stack =>
      simp only [Res.ok.injEq, Prod.mk.injEq] at h
      left; exact ⟨⟨⟨stack, names⟩, s'⟩, h.2 ▸ ⟨rfl, hR⟩, by simp [h.1]⟩
  · rename_i hc
    rw [if_neg hc] at h
    split
    · rename_i hc
      rw [if_pos hc] at h
      simp only [Res.ok.injEq, Prod.mk.injEq] at h
      left; exact ⟨(y.1, s'), ⟨rfl, by rw [← h.2]; exact hR⟩, by simp [← h.1, ← h.2]⟩
    · rename_i hc
      rw [if_neg hc] at h
      split
      · rename_i hc
        rw [if_pos hc, Res.bind_eq_ok] at h
        obtain ⟨⟨v, s1⟩, h1, h⟩ := h
        rcases readNum_sim hB hD flag _ _ _ _ hR h1 with ⟨s1', hR1, h1'⟩ | hf
        · simp only [Res.ok.injEq, Prod.mk.injEq] at h
          rw [h1']
          left; exact ⟨(y.1, s1'), ⟨rfl, by rw [← h.2]; exact hR1⟩, by simp [← h.1, ← h.2]⟩
        · right; exact hf.bind _
      · rename_i hc
        rw [if_neg hc] at h
        split
        · rename_i hc
          rw [if_pos hc, Res.bind_eq_ok] at h
          obtain ⟨⟨n, s1⟩, h1, h⟩ := h
          rcases hD _ _ _ _ hR h1 with ⟨s1', hR1, h1'⟩ | hf
          · rw [h1']
            simp only [Res.ok_bind] at h ⊢
            rw [Res.bind_eq_ok] at h
            obtain ⟨⟨x, s2⟩, h2, h⟩ := h
            rcases hB n _ _ _ _ hR1 h2 with ⟨s2', hR2, h2'⟩ | hf
            · simp only [Res.ok.injEq, Prod.mk.injEq] at h
              rw [h2']
              left; exact ⟨(y.1, s2'), ⟨rfl, by rw [← h.2]; exact hR2⟩, by simp [← h.1, ← h.2]⟩
            · right; exact hf.bind _
          · right; exact hf.bind _
        · rename_i hc
          rw [if_neg hc] at h
          split
          · rename_i hc
            rw [if_pos hc] at h
            simp only [Res.ok.injEq, Prod.mk.injEq] at h
            left; exact ⟨(y.1, s'), ⟨rfl, by rw [← h.2]; exact hR⟩, by simp [← h.1, ← h.2]⟩
          · rename_i hc
            rw [if_neg hc] at h
            cases h

theorem read_sim (hB : ∀ n, Sim a b R (In.readBlock m n) (In.readBlock m' n))
    (hD : Sim a b R (Vlq.decode m) (Vlq.decode m')) :
    CutRel a b (Lift R) (read m) (read m') := by
  rintro ⟨st, s⟩ ⟨st', s'⟩ e t ⟨rfl, hR⟩ h
  unfold read at h ⊢
  rw [Res.bind_eq_ok] at h
  obtain ⟨⟨flag, name, names, s1⟩, h1, h⟩ := h
  rcases readHead_sim hB hD st s s' hR _ _ _ _ h1 with ⟨s1', hR1, h1'⟩ | hf
  · simp only at h1' ⊢
    rw [h1']
    exact readRest_sim hB hD _ _ _ _ _ _ hR1 _ _ h
  · right; exact hf.bind _

/-! ### Progress -/

theorem readHead_ne_fuel (m : Mem) (st : St) (s : Bytes) : readHead m st s ≠ .fuel := by
  unfold readHead
  intro h
  rw [Res.bind_eq_fuel] at h
  rcases h with h | ⟨x, hx, h⟩
  · exact In.readBlock_ne_fuel _ _ _ h
  · simp only at h
    split at h
    · cases h
    · split at h
      · rw [Res.bind_eq_fuel] at h
        rcases h with h | ⟨y, hy, h⟩
        · exact Vlq.decode_ne_fuel _ _ h
        · split at h <;> cases h
      · rw [Res.bind_eq_fuel] at h
        rcases h with h | ⟨y, hy, h⟩
        · exact Vlq.decode_ne_fuel _ _ h
        · rw [Res.bind_eq_fuel] at h
          rcases h with h | ⟨z, hz, h⟩
          · exact In.readBlock_ne_fuel _ _ _ h
          · cases h

theorem readNum_ne_fuel (m : Mem) (flag : UInt8) (s : Bytes) : readNum m flag s ≠ .fuel := by
  unfold readNum
  split
  · simp
  split
  · cases h : In.readBlock m 4 s <;> simp
    exact In.readBlock_ne_fuel _ _ _ h
  split
  · cases h : In.readBlock m 8 s <;> simp
    exact In.readBlock_ne_fuel _ _ _ h
  · cases h : Vlq.decode m s with
    | fuel => exact absurd h (Vlq.decode_ne_fuel _ _)
    | ok x => simp only [Res.ok_bind]; split <;> (try split) <;> simp
    | _ => simp

theorem readRest_ne_fuel (m : Mem) (stack : List ScopeTy) (flag : UInt8)
    (name : Bytes) (names : List Bytes) (s : Bytes) : readRest m stack flag name names s ≠ .fuel := by
  unfold readRest
  split
  · split <;> simp
  split
  · simp
  split
  · cases h : readNum m flag s <;> simp
    exact readNum_ne_fuel _ _ _ h
  split
  · cases h : Vlq.decode m s with
    | fuel => exact absurd h (Vlq.decode_ne_fuel _ _)
    | ok x =>
      simp only [Res.ok_bind]
      cases h2 : In.readBlock m x.1 x.2 <;> simp
      exact In.readBlock_ne_fuel _ _ _ h2
    | _ => simp
  split <;> simp

theorem read_ne_fuel (m : Mem) (x : St × Bytes) : read m x ≠ .fuel := by
  unfold read
  cases h : readHead m x.1 x.2 with
  | fuel => exact absurd h (readHead_ne_fuel _ _ _)
  | ok y => simp only [Res.ok_bind]; exact readRest_ne_fuel _ _ _ _ _ _
  | _ => simp

theorem readHead_progress {m : Mem} {st : St} {s t : Bytes} {flag : UInt8} {name : Bytes}
    {names : List Bytes} (h : readHead m st s = .ok (flag, name, names, t)) :
    t.length < s.length := by
  unfold readHead at h
  rw [Res.bind_eq_ok] at h
  obtain ⟨⟨blk, s1⟩, h1, h⟩ := h
  obtain ⟨hl, _, hs1⟩ := In.readBlock_eq_ok h1
  have hlt : s1.length < s.length := by rw [hs1, List.length_drop]; omega
  simp only at h
  split at h
  · simp only [Res.ok.injEq, Prod.mk.injEq] at h; rw [← h.2.2.2]; exact hlt
  · split at h
    · rw [Res.bind_eq_ok] at h
      obtain ⟨⟨n, s2⟩, h2, h⟩ := h
      have := Vlq.decode_suffix _ _ _ _ h2
      simp only at h
      split at h
      · cases h
      · simp only [Res.ok.injEq, Prod.mk.injEq] at h; rw [← h.2.2.2]; omega
    · rw [Res.bind_eq_ok] at h
      obtain ⟨⟨n, s2⟩, h2, h⟩ := h
      have := Vlq.decode_suffix _ _ _ _ h2
      rw [Res.bind_eq_ok] at h
      obtain ⟨⟨nm, s3⟩, h3, h⟩ := h
      obtain ⟨_, _, hs3⟩ := In.readBlock_eq_ok h3
      have : s3.length ≤ s2.length := by rw [hs3, List.length_drop]; exact Nat.sub_le _ _
      simp only [Res.ok.injEq, Prod.mk.injEq] at h; rw [← h.2.2.2]; omega

theorem readNum_progress {m : Mem} {flag : UInt8} {s t : Bytes} {v : Val}
    (h : readNum m flag s = .ok (v, t)) : t.length ≤ s.length := by
  unfold readNum at h
  split at h
  · simp only [Res.ok.injEq, Prod.mk.injEq] at h; rw [← h.2]; exact Nat.le_refl _
  split at h
  · rw [Res.bind_eq_ok] at h
    obtain ⟨⟨x, s1⟩, h1, h⟩ := h
    obtain ⟨_, _, hs⟩ := In.readBlock_eq_ok h1
    simp only [Res.ok.injEq, Prod.mk.injEq] at h; rw [← h.2, hs, List.length_drop]; omega
  split at h
  · rw [Res.bind_eq_ok] at h
    obtain ⟨⟨x, s1⟩, h1, h⟩ := h
    obtain ⟨_, _, hs⟩ := In.readBlock_eq_ok h1
    simp only [Res.ok.injEq, Prod.mk.injEq] at h; rw [← h.2, hs, List.length_drop]; omega
  · rw [Res.bind_eq_ok] at h
    obtain ⟨⟨x, s1⟩, h1, h⟩ := h
    have := Vlq.decode_suffix _ _ _ _ h1
    simp only at h
    split at h
    · split at h
      · cases h
      · simp only [Res.ok.injEq, Prod.mk.injEq] at h; rw [← h.2]; exact this
    · simp only [Res.ok.injEq, Prod.mk.injEq] at h; rw [← h.2]; exact this

theorem readRest_progress {m : Mem} {stack : List ScopeTy} {flag : UInt8}
    {name : Bytes} {names : List Bytes} {s : Bytes} {e : Event} {y : St × Bytes}
    (h : readRest m stack flag name names s = .ok (e, y)) : y.2.length ≤ s.length := by
  unfold readRest at h
  split at h
  · split at h
    · cases h
    · simp only [Res.ok.injEq, Prod.mk.injEq] at h; rw [← h.2]; exact Nat.le_refl _
  split at h
  · simp only [Res.ok.injEq, Prod.mk.injEq] at h; rw [← h.2]; exact Nat.le_refl _
  split at h
  · rw [Res.bind_eq_ok] at h
    obtain ⟨⟨x, s1⟩, h1, h⟩ := h
    simp only [Res.ok.injEq, Prod.mk.injEq] at h; rw [← h.2]; exact readNum_progress h1
  split at h
  · rw [Res.bind_eq_ok] at h
    obtain ⟨⟨n, s1⟩, h1, h⟩ := h
    have := Vlq.decode_suffix _ _ _ _ h1
    rw [Res.bind_eq_ok] at h
    obtain ⟨⟨x, s2⟩, h2, h⟩ := h
    obtain ⟨_, _, hs⟩ := In.readBlock_eq_ok h2
    simp only [Res.ok.injEq, Prod.mk.injEq] at h
    rw [← h.2]; simp only [hs, List.length_drop]; omega
  split at h
  · simp only [Res.ok.injEq, Prod.mk.injEq] at h; rw [← h.2]; exact Nat.le_refl _
  · cases h

theorem read_progress (m : Mem) (x : St × Bytes) (e : Event) (y : St × Bytes)
    (h : read m x = .ok (e, y)) : y.2.length < x.2.length := by
  unfold read at h
  rw [Res.bind_eq_ok] at h
  obtain ⟨⟨flag, name, names, s1⟩, h1, h⟩ := h
  exact Nat.lt_of_le_of_lt (readRest_progress h) (readHead_progress h1)

/-! ### Undefined behaviour needs a long run of bytes with the top bit set -/

theorem read_noRun {m : Mem} (hp : m.past ≠ none) (hm : m.Sane) (x : St × Bytes)
    (hx : NoRun x.2) :
    read m x ≠ .ub ∧ ∀ e y, read m x = .ok (e, y) → NoRun y.2 := by
  have hhead : readHead m x.1 x.2 ≠ .ub ∧
      ∀ f n ns t, readHead m x.1 x.2 = .ok (f, n, ns, t) → NoRun t := by
    unfold readHead
    cases h1 : In.readBlock m 1 x.2 with
    | ub => exact absurd h1 (In.readBlock_ne_ub hm (by decide) _)
    | err => simp
    | fuel => simp
    | ok y =>
      obtain ⟨blk, s1⟩ := y
      obtain ⟨_, _, hs1⟩ := In.readBlock_eq_ok h1
      have hn1 : NoRun s1 := by rw [hs1]; exact hx.drop 1
      obtain ⟨d1, d2⟩ := Vlq.decode_noRun hp hm s1 hn1
      simp only [Res.ok_bind]
      split
      · refine ⟨by simp, fun f n ns t h => ?_⟩
        simp only [Res.ok.injEq, Prod.mk.injEq] at h; rw [← h.2.2.2]; exact hn1
      · cases h2 : Vlq.decode m s1 with
        | ub => exact absurd h2 d1
        | err => split <;> simp
        | fuel => split <;> simp
        | ok z =>
          obtain ⟨n, s2⟩ := z
          obtain ⟨hn, k, hk⟩ := d2 _ _ h2
          have hn2 : NoRun s2 := by rw [hk]; exact hn1.drop k
          split
          · simp only [Res.ok_bind]
            refine ⟨by split <;> simp, fun f n' ns t h => ?_⟩
            split at h
            · cases h
            · simp only [Res.ok.injEq, Prod.mk.injEq] at h; rw [← h.2.2.2]; exact hn2
          · simp only [Res.ok_bind]
            cases h3 : In.readBlock m n s2 with
            | ub => exact absurd h3 (In.readBlock_ne_ub hm (by omega) _)
            | err => simp
            | fuel => simp
            | ok w =>
              obtain ⟨_, _, hs3⟩ := In.readBlock_eq_ok h3
              refine ⟨by simp, fun f n' ns t h => ?_⟩
              simp only [Res.ok_bind, Res.ok.injEq, Prod.mk.injEq] at h
              rw [← h.2.2.2, hs3]; exact hn2.drop n
  unfold read
  cases h : readHead m x.1 x.2 with
  | ub => exact absurd h hhead.1
  | err => simp
  | fuel => simp
  | ok y =>
    obtain ⟨flag, name, names, s⟩ := y
    have hs := hhead.2 _ _ _ _ h
    simp only [Res.ok_bind]
    obtain ⟨d1, d2⟩ := Vlq.decode_noRun hp hm s hs
    have hnum : readNum m flag s ≠ .ub ∧ ∀ v t, readNum m flag s = .ok (v, t) → NoRun t := by
      unfold readNum
      split
      · refine ⟨by simp, fun v t h => ?_⟩
        simp only [Res.ok.injEq, Prod.mk.injEq] at h; rw [← h.2]; exact hs
      split
      · cases h1 : In.readBlock m 4 s with
        | ub => exact absurd h1 (In.readBlock_ne_ub hm (by decide) _)
        | err => simp
        | fuel => simp
        | ok w =>
          obtain ⟨_, _, hs3⟩ := In.readBlock_eq_ok h1
          refine ⟨by simp, fun v t h => ?_⟩
          simp only [Res.ok_bind, Res.ok.injEq, Prod.mk.injEq] at h; rw [← h.2, hs3]; exact hs.drop _
      split
      · cases h1 : In.readBlock m 8 s with
        | ub => exact absurd h1 (In.readBlock_ne_ub hm (by decide) _)
        | err => simp
        | fuel => simp
        | ok w =>
          obtain ⟨_, _, hs3⟩ := In.readBlock_eq_ok h1
          refine ⟨by simp, fun v t h => ?_⟩
          simp only [Res.ok_bind, Res.ok.injEq, Prod.mk.injEq] at h; rw [← h.2, hs3]; exact hs.drop _
      · cases h1 : Vlq.decode m s with
        | ub => exact absurd h1 d1
        | err => simp
        | fuel => simp
        | ok w =>
          obtain ⟨n, t⟩ := w
          obtain ⟨hn, k, hk⟩ := d2 _ _ h1
          simp only [Res.ok_bind]
          split
          · rw [if_neg (by rw [toI64_of_lt n hn]; omega)]
            refine ⟨by simp, fun v t h => ?_⟩
            simp only [Res.ok.injEq, Prod.mk.injEq] at h; rw [← h.2, hk]; exact hs.drop k
          · refine ⟨by simp, fun v t h => ?_⟩
            simp only [Res.ok.injEq, Prod.mk.injEq] at h; rw [← h.2, hk]; exact hs.drop k
    unfold readRest
    split
    · refine ⟨by split <;> simp, fun e y h => ?_⟩
      split at h
      · cases h
      · simp only [Res.ok.injEq, Prod.mk.injEq] at h; rw [← h.2]; exact hs
    split
    · refine ⟨by simp, fun e y h => ?_⟩
      simp only [Res.ok.injEq, Prod.mk.injEq] at h; rw [← h.2]; exact hs
    split
    · cases h1 : readNum m flag s with
      | ub => exact absurd h1 hnum.1
      | err => simp
      | fuel => simp
      | ok w =>
        refine ⟨by simp, fun e y h => ?_⟩
        simp only [Res.ok_bind, Res.ok.injEq, Prod.mk.injEq] at h; rw [← h.2]; exact hnum.2 _ _ h1
    split
    · cases h1 : Vlq.decode m s with
      | ub => exact absurd h1 d1
      | err => simp
      | fuel => simp
      | ok w =>
        obtain ⟨n, t⟩ := w
        obtain ⟨hn, k, hk⟩ := d2 _ _ h1
        simp only [Res.ok_bind]
        cases h3 : In.readBlock m n t with
        | ub => exact absurd h3 (In.readBlock_ne_ub hm (by omega) _)
        | err => simp
        | fuel => simp
        | ok w =>
          obtain ⟨_, _, hs3⟩ := In.readBlock_eq_ok h3
          refine ⟨by simp, fun e y h => ?_⟩
          simp only [Res.ok_bind, Res.ok.injEq, Prod.mk.injEq] at h
          rw [← h.2]
          simp only [hs3, hk]
          exact (hs.drop k).drop n
    split
    · refine ⟨by simp, fun e y h => ?_⟩
      simp only [Res.ok.injEq, Prod.mk.injEq] at h; rw [← h.2]; exact hs
    · exact ⟨by simp, by simp⟩

end PSrl
end Srl
