import Verif.Lemmas.PJsonDoc

/-! Lemmas about the JSON format: arbitrary input. Reading makes progress, does not depend on what
follows the part it consumes, and never succeeds by looking at the byte past the end. -/

namespace Srl.PJson
open Doc

/-- An exception, or undefined behaviour because the byte past the end cannot be read. -/
def Bad {α : Type} (m : Mem) (x : Res α) : Prop := x = .err ∨ (m.past = none ∧ x = .ub)

theorem Bad.bind {α β : Type} {m : Mem} {x : Res α} (h : Bad m x) (f : α → Res β) :
    Bad m (x >>= f) := by
  rcases h with h | ⟨h1, h⟩ <;> rw [h]
  · exact Or.inl rfl
  · exact Or.inr ⟨h1, rfl⟩

theorem Bad.not_ok {α : Type} {m : Mem} {x : Res α} (h : Bad m x) (a : α) : x ≠ .ok a := by
  rcases h with h | ⟨-, h⟩ <;> rw [h] <;> intro h <;> cases h

theorem Bad.not_fuel {α : Type} {m : Mem} {x : Res α} (h : Bad m x) : x ≠ .fuel := by
  rcases h with h | ⟨-, h⟩ <;> rw [h] <;> intro h <;> cases h

theorem Bad.past {α : Type} {m : Mem} {x : Res α} (h : Bad m x) (hx : x = .ub) : m.past = none := by
  rcases h with h | ⟨h, -⟩
  · rw [h] at hx; cases hx
  · exact h

theorem move_suffix {m : Mem} {s t : Bytes} (h : In.move m 1 s = .ok t) : ∃ b, s = b :: t := by
  unfold In.move at h
  split at h
  · cases h
  · split at h
    · cases h
    · cases s with
      | nil => next h2 => simp at h2
      | cons b s => cases h; exact ⟨b, rfl⟩

theorem move_nil {m : Mem} (hm : m.Sane) : In.move m 1 [] = .err := by
  have h : m.lim < 2 ^ 63 := hm
  unfold In.move
  rw [if_neg (by simp only [List.length_nil]; omega), if_pos (by simp)]

theorem cur_nil_cases (m : Mem) :
    (m.past = none ∧ In.cur m [] = .ub) ∨ ∃ b, m.past = some b ∧ In.cur m [] = .ok b := by
  unfold In.cur
  cases h : m.past with
  | none => exact Or.inl ⟨rfl, rfl⟩
  | some b => exact Or.inr ⟨b, rfl, rfl⟩

/-! ### `moveUntil` -/

theorem moveUntil_suffix {m : Mem} {p : UInt8 → Bool} {s t : Bytes}
    (h : moveUntil m p s = .ok t) : ∃ x, s = x ++ t := by
  induction s with
  | nil =>
    rw [moveUntil, Res.bind_eq_ok] at h
    obtain ⟨b, _, h⟩ := h
    split at h
    · cases h; exact ⟨[], rfl⟩
    · cases h
  | cons b s ih =>
    rw [moveUntil] at h
    split at h
    · cases h; exact ⟨[], rfl⟩
    · obtain ⟨x, hx⟩ := ih h
      exact ⟨b :: x, by rw [hx]; rfl⟩

theorem moveUntil_at {m : Mem} {p : UInt8 → Bool} {s t : Bytes} {b : UInt8}
    (h : moveUntil m p s = .ok (b :: t)) : p b = true := by
  induction s with
  | nil =>
    rw [moveUntil, Res.bind_eq_ok] at h
    obtain ⟨b, _, h⟩ := h
    split at h <;> cases h
  | cons c s ih =>
    rw [moveUntil] at h
    split at h
    · next hc => cases h; exact hc
    · exact ih h

theorem moveUntil_ext {m : Mem} (m' : Mem) {p : UInt8 → Bool} {s t : Bytes} {b : UInt8}
    (h : moveUntil m p s = .ok (b :: t)) (q : Bytes) :
    moveUntil m' p (s ++ q) = .ok (b :: t ++ q) := by
  obtain ⟨x, hx⟩ := moveUntil_suffix h
  have hb := moveUntil_at h
  have hno : ∀ c ∈ x, p c = false := by
    clear hb
    induction x generalizing s with
    | nil => intro c hc; cases hc
    | cons a x ih =>
      subst hx
      rw [List.cons_append, moveUntil] at h
      have ha : p a = false := by
        cases hpa : p a with
        | false => rfl
        | true =>
          rw [if_pos hpa] at h
          have := congrArg (fun r => match r with | .ok (l : Bytes) => l.length | _ => 0) h
          simp at this
          omega
      rw [ha, if_neg (by decide)] at h
      intro c hc
      rcases List.mem_cons.mp hc with rfl | hc
      · exact ha
      · exact ih h rfl c hc
  rw [hx, List.append_assoc, moveUntil_skip m' p x _ hno]
  exact moveUntil_hit m' p b _ hb

theorem moveUntil_bad {m : Mem} {p : UInt8 → Bool} (s : Bytes) :
    (∃ t, moveUntil m p s = .ok t) ∨ Bad m (moveUntil m p s) := by
  induction s with
  | nil =>
    rw [moveUntil]
    rcases cur_nil_cases m with ⟨h1, h2⟩ | ⟨b, h1, h2⟩
    · right; rw [h2]; exact Or.inr ⟨h1, rfl⟩
    · rw [h2]
      simp only [Res.ok_bind]
      split
      · exact Or.inl ⟨_, rfl⟩
      · exact Or.inr (Or.inl rfl)
  | cons b s ih =>
    rw [moveUntil]
    split
    · exact Or.inl ⟨_, rfl⟩
    · exact ih

/-- What was skipped did not match. -/
theorem moveUntil_shorter {m : Mem} {p : UInt8 → Bool} {b : UInt8} {s t : Bytes}
    (h : moveUntil m p (b :: s) = .ok t) (hb : p b = false) : ∃ x, s = x ++ t := by
  rw [moveUntil, if_neg (by simp [hb])] at h
  exact moveUntil_suffix h

/-! ### `moveUntilClose` -/

theorem moveUntilClose_suffix (m : Mem) (s : Bytes) :
    moveUntilClose m s = .err ∨ ∃ x t, s = x ++ 42 :: 47 :: t ∧
      moveUntilClose m s = .ok (42 :: 47 :: t) ∧
      ∀ m' q, moveUntilClose m' (s ++ q) = .ok (42 :: 47 :: t ++ q) := by
  induction s with
  | nil => left; rfl
  | cons b s ih =>
    by_cases hb : b = 42 ∧ ∃ t, s = 47 :: t
    · obtain ⟨rfl, t, rfl⟩ := hb
      exact Or.inr ⟨[], t, rfl, rfl, fun m' q => rfl⟩
    · have hstep : ∀ (m' : Mem) (q : Bytes), (q = [] ∨ s ≠ []) →
          moveUntilClose m' (b :: (s ++ q)) = moveUntilClose m' (s ++ q) := by
        intro m' q hq
        rw [moveUntilClose]
        intro t h1 h2
        apply hb
        refine ⟨h1, ?_⟩
        cases s with
        | nil =>
          rcases hq with rfl | hq
          · cases h2
          · exact absurd rfl hq
        | cons a s => simp only [List.cons_append, List.cons.injEq] at h2; exact ⟨s, by rw [h2.1]⟩
      have h0 := hstep m [] (Or.inl rfl)
      simp only [List.append_nil] at h0
      rcases ih with h | ⟨x, t, h1, h2, h3⟩
      · left; rw [h0, h]
      · right
        refine ⟨b :: x, t, by rw [h1]; rfl, by rw [h0, h2], fun m' q => ?_⟩
        rw [List.cons_append, hstep m' q (Or.inr (by rw [h1]; simp)), h3 m' q]

/-! ### Strings -/

theorem readString_nil (m : Mem) (fuel : Nat) (c : Cap) (steps : Nat) :
    Bad m (readString m (fuel + 1) c steps []) := by
  rw [readString]
  cases h : m.past with
  | none => exact Or.inr ⟨h, rfl⟩
  | some b => exact Or.inl rfl

theorem readString_last (m : Mem) (fuel : Nat) (c : Cap) (steps : Nat) :
    readString m (fuel + 1) c steps [92] = (do
      let (bs, c, s) ← readString m fuel (c.grow steps) (steps + 1) []
      .ok (92 :: bs, c, s)) := by
  rw [readString, if_neg (by decide)]
  rfl

theorem readString_odd (m : Mem) (fuel : Nat) (c : Cap) (steps : Nat) (e : UInt8) (s : Bytes)
    (h1 : unescapeByte e = none) (h2 : e ≠ 117) :
    readString m (fuel + 1) c steps (92 :: e :: s) = (do
      let (bs, c, s) ← readString m fuel (c.grow steps) (steps + 1) (e :: s)
      .ok (92 :: bs, c, s)) := by
  rw [readString, if_neg (by decide)]
  simp only [h1, if_neg h2]

theorem readString_uc (m : Mem) (fuel : Nat) (c : Cap) (steps : Nat) (s : Bytes) :
    readString m (fuel + 1) c steps (92 :: 117 :: s) = (do
      let (t, c, s) ← ucLiteral m (c.grow steps) steps (92 :: 117 :: s)
      let (bs, c, s) ← readString m fuel c (steps + t.length) s
      .ok (t ++ bs, c, s)) := by
  rw [readString, if_neg (by decide)]
  rfl

/-- The alternatives at a byte of a string. -/
inductive At : UInt8 → Bytes → Prop
  | close (t : Bytes) : At 34 t
  | plain (b : UInt8) (t : Bytes) (h1 : b ≠ 34) (h2 : b ≠ 92) : At b t
  | last : At 92 []
  | escaped (e r : UInt8) (t : Bytes) (h : unescapeByte e = some r) : At 92 (e :: t)
  | uc (t : Bytes) : At 92 (117 :: t)
  | odd (e : UInt8) (t : Bytes) (h1 : unescapeByte e = none) (h2 : e ≠ 117) : At 92 (e :: t)

theorem at_any (b : UInt8) (s : Bytes) : At b s := by
  by_cases h1 : b = 34
  · rw [h1]; exact .close s
  by_cases h2 : b = 92
  · rw [h2]
    cases s with
    | nil => exact .last
    | cons e t =>
      cases he : unescapeByte e with
      | some r => exact .escaped e r t he
      | none =>
        by_cases h3 : e = 117
        · rw [h3]; exact .uc t
        · exact .odd e t he h3
  · exact .plain b s h1 h2

theorem readBlock_six {m : Mem} (hm : m.Sane) (s : Bytes) :
    In.readBlock m 6 s = .err ∨ ∃ x t, x.length = 6 ∧ s = x ++ t ∧ In.readBlock m 6 s = .ok (x, t) := by
  have h : m.lim < 2 ^ 63 := hm
  unfold In.readBlock In.move
  rw [if_neg (by omega)]
  by_cases hl : 6 > s.length
  · rw [if_pos hl]; exact Or.inl rfl
  · rw [if_neg hl]
    refine Or.inr ⟨s.take 6, s.drop 6, by rw [List.length_take]; omega,
      (List.take_append_drop 6 s).symm, rfl⟩

theorem readBlock_append {m : Mem} (hm : m.Sane) (x t : Bytes) (hx : x.length = 6) :
    In.readBlock m 6 (x ++ t) = .ok (x, t) := by
  rcases readBlock_six hm (x ++ t) with h | ⟨y, u, h1, h2, h3⟩
  · unfold In.readBlock In.move at h
    have hl : m.lim < 2 ^ 63 := hm
    rw [if_neg (by omega), if_neg (by rw [List.length_append]; omega)] at h
    cases h
  · have := List.append_inj h2 (by omega)
    rw [h3, ← this.1, ← this.2]

/-- The part of `ucLiteral` that does not depend on the source. -/
def ucConv (c : Cap) (idx : Nat) (block : Bytes) : Res (Bytes × Cap) := do
  let hex ← Hex.decodeTo 2 (block.drop 2)
  convUnit c idx ((hex.getD 0 0).toNat + 256 * (hex.getD 1 0).toNat)

theorem ucLiteral_block {m : Mem} {s x t : Bytes} (h : In.readBlock m 6 s = .ok (x, t)) (c : Cap)
    (idx : Nat) : ucLiteral m c idx s = (do let (u, c) ← ucConv c idx x; .ok (u, c, t)) := by
  unfold ucLiteral ucConv
  rw [h]
  simp only [Res.ok_bind]
  cases Hex.decodeTo 2 (x.drop 2) <;> rfl

theorem hexLoop_nofuel : ∀ s : Bytes, Hex.loop s ≠ .fuel
  | [] => by simp [Hex.loop]
  | [_] => by simp [Hex.loop]
  | a :: b :: s => by
    have hc : ∀ c, Hex.conv c ≠ .fuel := by
      intro c; unfold Hex.conv; repeat' split
      all_goals simp
    rw [Hex.loop]
    cases ha : Hex.conv a with
    | fuel => exact absurd ha (hc a)
    | ok x =>
      cases hb : Hex.conv b with
      | fuel => exact absurd hb (hc b)
      | ok y =>
        cases hl : Hex.loop s with
        | fuel => exact absurd hl (hexLoop_nofuel s)
        | ok z => simp
        | err => simp
        | ub => simp
      | err => simp
      | ub => simp
    | err => simp
    | ub => simp

theorem ucConv_nofuel (c : Cap) (idx : Nat) (block : Bytes) : ucConv c idx block ≠ .fuel := by
  unfold ucConv
  cases h : Hex.decodeTo 2 (block.drop 2) with
  | fuel =>
    unfold Hex.decodeTo at h
    split at h
    · cases h
    · split at h
      · cases h
      · exact absurd h (hexLoop_nofuel _)
  | ok hex =>
    simp only [Res.ok_bind]
    unfold convUnit utf8OfUnit
    repeat' split
    all_goals simp only [Res.ok_bind, Res.err_bind, ne_eq, reduceCtorEq, not_false_eq_true]
    all_goals (split <;> simp)
  | err => simp
  | ub => simp

theorem readString_suffix {m : Mem} (hm : m.Sane) : ∀ (fuel : Nat) (c : Cap) (steps : Nat) (s : Bytes)
    (bs : Bytes) (c' : Cap) (t : Bytes), readString m fuel c steps s = .ok (bs, c', t) →
    ∃ x y, s = x ++ t ∧ t = 34 :: y := by
  intro fuel
  induction fuel with
  | zero => intro c steps s bs c' t h; cases h
  | succ fuel ih =>
    intro c steps s bs c' t h
    cases s with
    | nil => exact absurd h ((readString_nil m fuel c steps).not_ok _)
    | cons b s =>
      cases at_any b s with
      | close => simp only [readString, if_true] at h; cases h; exact ⟨[], s, rfl, rfl⟩
      | plain _ _ h1 h2 =>
        rw [readString_plain m fuel c steps b s h1 h2, Res.bind_eq_ok] at h
        obtain ⟨⟨bs2, c2, s2⟩, h3, h⟩ := h
        cases h
        obtain ⟨x, y, hx, hy⟩ := ih _ _ _ _ _ _ h3
        exact ⟨b :: x, y, by rw [hx]; rfl, hy⟩
      | last =>
        rw [readString_last, Res.bind_eq_ok] at h
        obtain ⟨⟨bs2, c2, s2⟩, h3, h⟩ := h
        cases h
        obtain ⟨x, y, hx, hy⟩ := ih _ _ _ _ _ _ h3
        exact ⟨92 :: x, y, by rw [List.cons_append, ← hx], hy⟩
      | escaped e r u he =>
        rw [readString_escaped m fuel c steps e r u he, Res.bind_eq_ok] at h
        obtain ⟨⟨bs2, c2, s2⟩, h3, h⟩ := h
        cases h
        obtain ⟨x, y, hx, hy⟩ := ih _ _ _ _ _ _ h3
        exact ⟨92 :: e :: x, y, by rw [hx]; rfl, hy⟩
      | uc u =>
        rw [readString_uc, Res.bind_eq_ok] at h
        obtain ⟨⟨t1, c1, s1⟩, h1, h⟩ := h
        simp only [Res.bind_eq_ok] at h
        obtain ⟨⟨bs2, c2, s2⟩, h3, h⟩ := h
        cases h
        obtain ⟨x, y, hx, hy⟩ := ih _ _ _ _ _ _ h3
        rcases readBlock_six hm (92 :: 117 :: u) with hr | ⟨z, v, hz1, hz2, hz3⟩
        · unfold ucLiteral at h1; rw [hr] at h1; cases h1
        · rw [ucLiteral_block hz3, Res.bind_eq_ok] at h1
          obtain ⟨⟨w1, w2⟩, _, h1⟩ := h1
          cases h1
          exact ⟨z ++ x, y, by rw [hz2, hx, List.append_assoc], hy⟩
      | odd e u h1 h2 =>
        rw [readString_odd m fuel c steps e u h1 h2, Res.bind_eq_ok] at h
        obtain ⟨⟨bs2, c2, s2⟩, h3, h⟩ := h
        cases h
        obtain ⟨x, y, hx, hy⟩ := ih _ _ _ _ _ _ h3
        exact ⟨92 :: x, y, by rw [hx]; rfl, hy⟩

/-- Enough fuel for a string. -/
theorem readString_fuel {m : Mem} (hm : m.Sane) : ∀ (fuel : Nat) (c : Cap) (steps : Nat) (s : Bytes),
    s.length < fuel → readString m fuel c steps s ≠ .fuel := by
  intro fuel
  induction fuel with
  | zero => intro c steps s h; omega
  | succ fuel ih =>
    intro c steps s hl
    have hb : ∀ {α β : Type} (x : Res α) (f : α → β), x ≠ .fuel →
        (do let a ← x; Res.ok (f a)) ≠ .fuel := by
      intro α β x f hx
      cases x with
      | fuel => exact absurd rfl hx
      | ok a => simp
      | err => simp
      | ub => simp
    cases s with
    | nil => exact (readString_nil m fuel c steps).not_fuel
    | cons b s =>
      simp only [List.length_cons] at hl
      cases at_any b s with
      | close => simp [readString]
      | plain _ _ h1 h2 =>
        rw [readString_plain m fuel c steps b s h1 h2]
        exact hb _ (fun p => (b :: p.1, p.2.1, p.2.2)) (ih _ _ s (by omega))
      | last =>
        rw [readString_last]
        exact hb _ (fun p => (92 :: p.1, p.2.1, p.2.2)) (ih _ _ [] (by simpa using hl))
      | escaped e r u he =>
        rw [readString_escaped m fuel c steps e r u he]
        exact hb _ (fun p => (r :: p.1, p.2.1, p.2.2))
          (ih _ _ u (by simp only [List.length_cons] at hl; omega))
      | uc u =>
        rw [readString_uc]
        rcases readBlock_six hm (92 :: 117 :: u) with hr | ⟨z, v, hz1, hz2, hz3⟩
        · have : ucLiteral m (c.grow steps) steps (92 :: 117 :: u) = .err := by
            unfold ucLiteral; rw [hr]; rfl
          rw [this]; simp
        · rw [ucLiteral_block hz3]
          cases hu : ucConv (c.grow steps) steps z with
          | fuel => exact absurd hu (ucConv_nofuel _ _ _)
          | ok p =>
            obtain ⟨t, c2⟩ := p
            simp only [Res.ok_bind]
            refine hb _ (fun p => (t ++ p.1, p.2.1, p.2.2)) (ih _ _ v ?_)
            have := congrArg List.length hz2
            simp only [List.length_cons, List.length_append] at this hl
            omega
          | err => simp
          | ub => simp
      | odd e u h1 h2 =>
        rw [readString_odd m fuel c steps e u h1 h2]
        exact hb _ (fun p => (92 :: p.1, p.2.1, p.2.2)) (ih _ _ (e :: u) (by omega))

/-- Reading a string does not depend on what follows, and undefined behaviour neither, as long as
the byte past the end can be read. -/
theorem readString_ext {m m' : Mem} (hm : m.Sane) (hm' : m'.Sane) (q : Bytes) :
    ∀ (fuel fuel' : Nat) (c : Cap) (steps : Nat) (s : Bytes), fuel ≤ fuel' →
    (∀ bs c' t, readString m fuel c steps s = .ok (bs, c', t) →
      readString m' fuel' c steps (s ++ q) = .ok (bs, c', t ++ q)) ∧
    (m.past ≠ none → readString m fuel c steps s = .ub →
      readString m' fuel' c steps (s ++ q) = .ub) := by
  intro fuel
  induction fuel with
  | zero =>
    intro fuel' c steps s _
    exact ⟨fun _ _ _ h => (by cases h), fun _ h => (by cases h)⟩
  | succ fuel ih =>
    intro fuel' c steps s hf
    obtain ⟨fuel', rfl⟩ : ∃ k, fuel' = k + 1 := ⟨fuel' - 1, by omega⟩
    have hf : fuel ≤ fuel' := by omega
    have step : ∀ (c2 : Cap) (k : Nat) (u pre : Bytes),
        (∀ bs c' t, (do
            let (bs, c, s) ← readString m fuel c2 k u
            Res.ok (pre ++ bs, c, s)) = .ok (bs, c', t) →
          (do
            let (bs, c, s) ← readString m' fuel' c2 k (u ++ q)
            Res.ok (pre ++ bs, c, s)) = .ok (bs, c', t ++ q)) ∧
        (m.past ≠ none → (do
            let (bs, c, s) ← readString m fuel c2 k u
            Res.ok (pre ++ bs, c, s)) = .ub →
          (do
            let (bs, c, s) ← readString m' fuel' c2 k (u ++ q)
            Res.ok (pre ++ bs, c, s)) = .ub) := by
      intro c2 k u pre
      obtain ⟨h1, h2⟩ := ih fuel' c2 k u hf
      constructor
      · intro bs c' t h
        rw [Res.bind_eq_ok] at h
        obtain ⟨⟨b1, c1, s1⟩, h3, h⟩ := h
        cases h
        rw [h1 _ _ _ h3]; rfl
      · intro hp h
        cases hr : readString m fuel c2 k u with
        | ok x => rw [hr] at h; cases h
        | err => rw [hr] at h; cases h
        | fuel => rw [hr] at h; cases h
        | ub => rw [h2 hp hr]; rfl
    cases s with
    | nil =>
      have hb := readString_nil m fuel c steps
      exact ⟨fun _ _ _ h => absurd h (hb.not_ok _), fun hp h => absurd (hb.past h) hp⟩
    | cons b s =>
      cases at_any b s with
      | close =>
        constructor
        · intro bs c' t h
          simp only [readString, if_true] at h
          cases h
          simp [readString]
        · intro _ h
          simp [readString] at h
      | plain _ _ h1 h2 =>
        rw [List.cons_append, readString_plain m fuel c steps b s h1 h2,
          readString_plain m' fuel' c steps b (s ++ q) h1 h2]
        exact step _ _ s [b]
      | last =>
        rw [readString_last]
        cases fuel with
        | zero => exact ⟨fun _ _ _ h => (by cases h), fun _ h => (by cases h)⟩
        | succ fuel =>
          have hb := (readString_nil m fuel (c.grow steps) (steps + 1)).bind
            (fun p => Res.ok (92 :: p.1, p.2.1, p.2.2))
          exact ⟨fun _ _ _ h => absurd h (hb.not_ok _), fun hp h => absurd (hb.past h) hp⟩
      | escaped e r u he =>
        rw [List.cons_append, List.cons_append, readString_escaped m fuel c steps e r u he,
          readString_escaped m' fuel' c steps e r (u ++ q) he]
        exact step _ _ u [r]
      | uc u =>
        rw [List.cons_append, List.cons_append, readString_uc, readString_uc]
        rcases readBlock_six hm (92 :: 117 :: u) with hr | ⟨z, v, hz1, hz2, hz3⟩
        · have : ucLiteral m (c.grow steps) steps (92 :: 117 :: u) = .err := by
            unfold ucLiteral; rw [hr]; rfl
          rw [this]
          exact ⟨fun _ _ _ h => (by cases h), fun _ h => (by cases h)⟩
        · have hz4 : In.readBlock m' 6 (92 :: 117 :: (u ++ q)) = .ok (z, v ++ q) := by
            have : 92 :: 117 :: (u ++ q) = (92 :: 117 :: u) ++ q := rfl
            rw [this, hz2, List.append_assoc]
            exact readBlock_append hm' z (v ++ q) hz1
          rw [ucLiteral_block hz3, ucLiteral_block hz4]
          cases hu : ucConv (c.grow steps) steps z with
          | ok p =>
            obtain ⟨t, c2⟩ := p
            simp only [Res.ok_bind]
            exact step _ _ v t
          | ub => exact ⟨fun _ _ _ h => (by cases h), fun _ _ => rfl⟩
          | err => exact ⟨fun _ _ _ h => (by cases h), fun _ h => (by cases h)⟩
          | fuel => exact ⟨fun _ _ _ h => (by cases h), fun _ h => (by cases h)⟩
      | odd e u h1 h2 =>
        rw [List.cons_append, List.cons_append, readString_odd m fuel c steps e u h1 h2,
          readString_odd m' fuel' c steps e (u ++ q) h1 h2]
        exact step _ _ (e :: u) [92]

/-! ### One round -/

section
variable (strtod : Bytes → Option UInt64)

theorem lit_no_end : ∀ b : UInt8, isLit b = true → isLitEnd b = false := by decide +kernel

/-- Behind the end of the source nothing can be read. -/
theorem dispatch_nil {m : Mem} (hm : m.Sane) (r : Rd) (st : State) :
    Bad m (dispatch m strtod r st []) := by
  unfold dispatch
  rcases cur_nil_cases m with ⟨h1, h2⟩ | ⟨c, h1, h2⟩
  · rw [h2]; exact Or.inr ⟨h1, rfl⟩
  · rw [h2]
    simp only [Res.ok_bind, move_nil hm, Res.err_bind]
    left
    by_cases c1 : c = 34
    · rw [if_pos c1]
      unfold processQuote
      cases r.stack with
      | nil => rfl
      | cons a l => simp only [move_nil hm, Res.err_bind]
    rw [if_neg c1]
    by_cases c2 : c = 58
    · rw [if_pos c2]; split <;> rfl
    rw [if_neg c2]
    by_cases c3 : c = 123 ∨ c = 125 ∨ c = 91 ∨ c = 93
    · rw [if_pos c3]
      unfold processBracket
      repeat' split
      all_goals simp [Res.ok_bind, Res.err_bind]
    rw [if_neg c3]
    by_cases c4 : c = 47
    · rw [if_pos c4]
      simp [skipComment, In.tryPeek, Res.ok_bind, move_nil hm]
    rw [if_neg c4]
    unfold processChar
    by_cases hl : isLit c = true
    · rw [if_pos hl, moveUntil, h2]
      simp [Res.ok_bind, Res.err_bind, lit_no_end c hl]
    · rw [if_neg hl]
      simp [Res.ok_bind, move_nil hm]

theorem skip_suffix {m : Mem} {r : Rd} {st : State} {s t : Bytes} (h : skip m r st s = .ok t) :
    ∃ x, s = x ++ t := by
  unfold skip at h
  split at h <;> exact moveUntil_suffix h

theorem skip_ext {m : Mem} (m' : Mem) {r : Rd} {st : State} {s t : Bytes} {b : UInt8}
    (h : skip m r st s = .ok (b :: t)) (q : Bytes) : skip m' r st (s ++ q) = .ok (b :: t ++ q) := by
  unfold skip at h ⊢
  split at h
  · next hc => rw [if_pos hc]; exact moveUntil_ext m' h q
  · next hc => rw [if_neg hc]; exact moveUntil_ext m' h q

theorem skip_bad (m : Mem) (r : Rd) (st : State) (s : Bytes) :
    (∃ t, skip m r st s = .ok t) ∨ Bad m (skip m r st s) := by
  unfold skip
  split <;> exact moveUntil_bad s

theorem round_nil {m : Mem} (hm : m.Sane) (r : Rd) (st : State) :
    Bad m (round m strtod r st []) := by
  unfold round
  rcases skip_bad m r st [] with ⟨t, h⟩ | h
  · obtain ⟨x, hx⟩ := skip_suffix h
    obtain ⟨-, rfl⟩ := List.append_eq_nil_iff.mp hx.symm
    rw [h]
    exact dispatch_nil strtod hm r st
  · exact h.bind _

/-- Outcome on a source compared with the outcome on a longer one: the same, except that after a
success at the very end of the source (`D` says for which results) nothing is claimed. -/
def Ext {α : Type} (m : Mem) (q : Bytes) (D : α → Prop) (x y : Res (α × Rd × Bytes)) : Prop :=
  (∀ a r t, x = .ok (a, r, t) → y = .ok (a, r, t ++ q) ∨ (t = [] ∧ D a)) ∧
  (m.past ≠ none → x = .ub → y = .ub)

theorem Ext.of_bad {α : Type} {m : Mem} {q : Bytes} {D : α → Prop} {x y : Res (α × Rd × Bytes)}
    (h : Bad m x) : Ext m q D x y :=
  ⟨fun _ _ _ hx => absurd hx (h.not_ok _), fun hp hx => absurd (h.past hx) hp⟩

theorem Ext.of_err {α : Type} {m : Mem} {q : Bytes} {D : α → Prop} {y : Res (α × Rd × Bytes)} :
    Ext m q D .err y := Ext.of_bad (Or.inl rfl)

theorem Ext.of_ok {α : Type} {m : Mem} {q : Bytes} {D : α → Prop} (a : α) (r : Rd) (t : Bytes) :
    Ext m q D (.ok (a, r, t)) (.ok (a, r, t ++ q)) :=
  ⟨fun _ _ _ h => by cases h; exact Or.inl rfl, fun _ h => (by cases h)⟩

/-- The token may be followed by something that would have changed it. -/
def Open : Step → Prop
  | .more _ => True
  | .done (.val _) => True
  | .done _ => False

theorem processQuote_ext {m m' : Mem} (hm : m.Sane) (hm' : m'.Sane) (r : Rd) (st : State)
    (s q : Bytes) : (∃ x r' y, processQuote m r st (34 :: s) = .ok (x, r', 34 :: y) ∧
        processQuote m' r st (34 :: s ++ q) = .ok (x, r', 34 :: y ++ q) ∧ ∃ z, s = z ++ 34 :: y) ∨
      Bad m (processQuote m r st (34 :: s)) ∨
      (processQuote m r st (34 :: s) = .ub ∧ (m.past ≠ none →
        processQuote m' r st (34 :: s ++ q) = .ub)) := by
  unfold processQuote
  cases hs : r.stack with
  | nil => right; left; exact Or.inl rfl
  | cons top stk =>
    simp only [List.cons_append, move_one hm, move_one hm', Res.ok_bind]
    obtain ⟨h1, h2⟩ := readString_ext hm hm' q (s.length + 1) ((s ++ q).length + 1)
      ⟨if st.name.isSome then r.valCap else r.nameCap, if st.name.isSome then r.valCap else r.nameCap⟩
      0 s (by rw [List.length_append]; omega)
    cases hr : readString m (s.length + 1) ⟨if st.name.isSome then r.valCap else r.nameCap,
        if st.name.isSome then r.valCap else r.nameCap⟩ 0 s with
    | ok p =>
      obtain ⟨b, c, t⟩ := p
      obtain ⟨z, y, hz, rfl⟩ := readString_suffix hm _ _ _ _ _ _ _ hr
      rw [h1 _ _ _ hr]
      simp only [Res.ok_bind]
      by_cases h3 : st.readingValue = true ∨ top = .array
      · rw [if_pos h3, if_pos h3]
        exact Or.inl ⟨_, _, y, rfl, rfl, z, hz⟩
      · rw [if_neg h3, if_neg h3]
        by_cases h4 : st.name.isSome = true
        · rw [if_pos h4]; right; left; exact Or.inl rfl
        · simp only [if_neg h4]
          exact Or.inl ⟨_, _, y, rfl, rfl, z, hz⟩
    | err => right; left; exact Or.inl rfl
    | ub =>
      right; right
      refine ⟨rfl, fun hp => ?_⟩
      rw [h2 hp hr]; rfl
    | fuel => exact absurd hr (readString_fuel hm _ _ _ _ (by omega))

/-- The outcome of a round at a byte of the source. -/
theorem dispatch_ext {m m' : Mem} (hm : m.Sane) (hm' : m'.Sane) (r : Rd) (st : State) (c : UInt8)
    (s q : Bytes) :
    Ext m q Open (dispatch m strtod r st (c :: s)) (dispatch m' strtod r st (c :: s ++ q)) ∧
    (∀ x r' t, dispatch m strtod r st (c :: s) = .ok (x, r', t) → ∃ y, s = y ++ t) ∧
    dispatch m strtod r st (c :: s) ≠ .fuel := by
  unfold dispatch
  simp only [List.cons_append, In.cur, Res.ok_bind]
  by_cases c1 : c = 34
  · subst c1
    simp only [if_true]
    rcases processQuote_ext hm hm' r st s q with ⟨x, r', y, h1, h2, z, hz⟩ | h | ⟨h1, h2⟩
    · rw [h1]
      rw [List.cons_append] at h2
      rw [h2]
      simp only [Res.ok_bind, List.cons_append, move_one hm, move_one hm']
      refine ⟨Ext.of_ok _ _ _, fun x' r'' t h => ?_, by simp⟩
      cases h
      exact ⟨z ++ [34], by rw [hz]; simp⟩
    · have hb := h.bind (fun p => do let s ← In.move m 1 p.2.2; Res.ok (p.1, p.2.1, s))
      exact ⟨Ext.of_bad hb, fun _ _ _ h => absurd h (hb.not_ok _), hb.not_fuel⟩
    · rw [h1]
      simp only [Res.ub_bind]
      refine ⟨⟨fun _ _ _ h => (by cases h), fun hp _ => ?_⟩, fun _ _ _ h => (by cases h), by simp⟩
      have := h2 hp
      rw [List.cons_append] at this
      rw [this]; rfl
  simp only [if_neg c1]
  by_cases c2 : c = 58
  · simp only [if_pos c2]
    by_cases hv : st.readingValue = true
    · simp only [if_pos hv]
      exact ⟨Ext.of_err, fun _ _ _ h => (by cases h), by simp⟩
    · simp only [if_neg hv, move_one hm, move_one hm', Res.ok_bind]
      refine ⟨Ext.of_ok _ _ _, fun _ _ t h => ?_, by simp⟩
      cases h; exact ⟨[], rfl⟩
  simp only [if_neg c2]
  by_cases c3 : c = 123 ∨ c = 125 ∨ c = 91 ∨ c = 93
  · simp only [if_pos c3, move_one hm, move_one hm']
    cases hb : processBracket r c with
    | ok p =>
      obtain ⟨x, r'⟩ := p
      simp only [Res.ok_bind]
      refine ⟨Ext.of_ok _ _ _, fun _ _ t h => ?_, by simp⟩
      cases h; exact ⟨[], rfl⟩
    | err =>
      simp only [Res.err_bind]
      exact ⟨Ext.of_err, fun _ _ _ h => (by cases h), by simp⟩
    | ub =>
      unfold processBracket at hb
      repeat' split at hb
      all_goals cases hb
    | fuel =>
      unfold processBracket at hb
      repeat' split at hb
      all_goals cases hb
  simp only [if_neg c3]
  by_cases c4 : c = 47
  · simp only [if_pos c4]
    unfold skipComment
    have hp1 : In.tryPeek 1 (c :: s) = true := by simp [In.tryPeek]
    have hp2 : In.tryPeek 1 (c :: (s ++ q)) = true := by simp [In.tryPeek]
    simp only [hp1, hp2, if_true, List.drop_succ_cons, List.drop_zero]
    cases s with
    | nil =>
      rcases cur_nil_cases m with ⟨h1, h2⟩ | ⟨b, h1, h2⟩
      · rw [h2]
        simp only [Res.ub_bind]
        exact ⟨Ext.of_bad (Or.inr ⟨h1, rfl⟩), fun _ _ _ h => (by cases h), by simp⟩
      · rw [h2]
        simp only [Res.ok_bind]
        by_cases b1 : b = 42
        · simp only [if_pos b1]
          rcases moveUntilClose_suffix m [c] with h | ⟨x, t, h, _⟩
          · rw [h]
            exact ⟨Ext.of_err, fun _ _ _ h => (by cases h), by simp⟩
          · have := congrArg List.length h
            simp only [List.length_cons, List.length_nil, List.length_append] at this
            omega
        · simp only [if_neg b1]
          by_cases b2 : b = 47
          · simp only [if_pos b2]
            have : moveUntil m (fun b => b == 10 || b == 13) [c] = .err := by
              rw [moveUntil, if_neg (by rw [c4]; decide), moveUntil, h2, Res.ok_bind, b2]
              rfl
            rw [this]
            exact ⟨Ext.of_err, fun _ _ _ h => (by cases h), by simp⟩
          · simp only [if_neg b2, Res.ok_bind, move_one hm]
            refine ⟨⟨fun a r' t h => ?_, fun _ h => (by cases h)⟩, fun _ _ t h => ?_, by simp⟩
            · cases h; exact Or.inr ⟨rfl, trivial⟩
            · cases h; exact ⟨[], rfl⟩
    | cons n s =>
      simp only [List.cons_append, In.cur, Res.ok_bind]
      by_cases b1 : n = 42
      · simp only [if_pos b1]
        rcases moveUntilClose_suffix m (c :: n :: s) with h | ⟨x, t, h1, h2, h3⟩
        · rw [h]
          exact ⟨Ext.of_err, fun _ _ _ h => (by cases h), by simp⟩
        · have h4 := h3 m' q
          simp only [List.cons_append] at h4
          rw [h2, h4]
          simp only [Res.ok_bind, move_one hm, move_one hm']
          refine ⟨Ext.of_ok _ _ (47 :: t), fun _ _ t' h => ?_, by simp⟩
          cases h
          cases x with
          | nil =>
            simp only [List.nil_append, List.cons.injEq] at h1
            rw [c4] at h1
            exact absurd h1.1 (by decide)
          | cons a x =>
            simp only [List.cons_append, List.cons.injEq] at h1
            exact ⟨x ++ [42], by rw [h1.2]; simp⟩
      · simp only [if_neg b1]
        by_cases b2 : n = 47
        · simp only [if_pos b2]
          have hc0 : (fun b : UInt8 => b == 10 || b == 13) c = false := by rw [c4]; rfl
          rcases moveUntil_bad (m := m) (p := fun b => b == 10 || b == 13) (c :: n :: s) with ⟨t, h⟩ | h
          · cases t with
            | nil =>
              rw [h]
              simp only [Res.ok_bind, move_nil hm, Res.err_bind]
              exact ⟨Ext.of_err, fun _ _ _ h => (by cases h), by simp⟩
            | cons b t =>
              have h2 := moveUntil_ext m' h q
              simp only [List.cons_append] at h2
              rw [h, h2]
              simp only [Res.ok_bind, move_one hm, move_one hm']
              refine ⟨Ext.of_ok _ _ t, fun _ _ t' h3 => ?_, by simp⟩
              cases h3
              obtain ⟨x, hx⟩ := moveUntil_shorter h hc0
              exact ⟨x ++ [b], by rw [hx]; simp⟩
          · have hb := h.bind (fun s => do let s ← In.move m 1 s; Res.ok (Step.more st, r, s))
            exact ⟨Ext.of_bad hb, fun _ _ _ h => absurd h (hb.not_ok _), hb.not_fuel⟩
        · simp only [if_neg b2, Res.ok_bind, move_one hm, move_one hm']
          refine ⟨Ext.of_ok _ _ (n :: s), fun _ _ t h => ?_, by simp⟩
          cases h; exact ⟨[], rfl⟩
  simp only [if_neg c4]
  unfold processChar
  by_cases hl : isLit c = true
  · simp only [if_pos hl]
    rcases moveUntil_bad (m := m) (p := isLitEnd) (c :: s) with ⟨t, h⟩ | h
    · obtain ⟨x, hx⟩ := moveUntil_shorter h (lit_no_end c hl)
      cases t with
      | nil =>
        rw [h]
        simp only [Res.ok_bind, List.length_nil, Nat.sub_zero, List.take_length]
        cases IntStr.strToType strtod ((c :: s).contains 46) (c :: s) with
        | none => exact ⟨Ext.of_err, fun _ _ _ h => (by cases h), by simp⟩
        | some v =>
          simp only
          rcases cur_nil_cases m with ⟨h1, h2⟩ | ⟨b, h1, h2⟩
          · rw [h2]
            simp only [Res.ub_bind]
            exact ⟨Ext.of_bad (Or.inr ⟨h1, rfl⟩), fun _ _ _ h => (by cases h), by simp⟩
          · rw [h2]
            simp only [Res.ok_bind]
            by_cases hb : (!(b == 125 || b == 93)) = true
            · simp only [if_pos hb, move_nil hm, Res.err_bind]
              exact ⟨Ext.of_err, fun _ _ _ h => (by cases h), by simp⟩
            · simp only [if_neg hb]
              refine ⟨⟨fun a r' t h => ?_, fun _ h => (by cases h)⟩, fun _ _ t h => ?_, by simp⟩
              · cases h; exact Or.inr ⟨rfl, trivial⟩
              · cases h; exact ⟨x, hx⟩
      | cons b t =>
        have h2 := moveUntil_ext m' h q
        simp only [List.cons_append] at h2
        rw [h, h2]
        simp only [Res.ok_bind]
        have e1 : (c :: s).take ((c :: s).length - (b :: t).length) = c :: x := by
          rw [hx]
          simp only [List.length_cons, List.length_append]
          rw [show x.length + (t.length + 1) + 1 - (t.length + 1) = x.length + 1 by omega,
            List.take_succ_cons, List.take_left]
        have e2 : (c :: (s ++ q)).take ((c :: (s ++ q)).length - (b :: (t ++ q)).length) =
            c :: x := by
          rw [hx]
          simp only [List.length_cons, List.length_append]
          rw [show x.length + (t.length + 1) + q.length + 1 - (t.length + q.length + 1) =
              x.length + 1 by omega,
            List.take_succ_cons, List.append_assoc, List.take_left]
        rw [e1, e2]
        cases IntStr.strToType strtod ((c :: x).contains 46) (c :: x) with
        | none => exact ⟨Ext.of_err, fun _ _ _ h => (by cases h), by simp⟩
        | some v =>
          simp only [In.cur, Res.ok_bind]
          by_cases hb : (!(b == 125 || b == 93)) = true
          · simp only [if_pos hb, move_one hm, move_one hm', Res.ok_bind]
            refine ⟨Ext.of_ok _ _ _, fun _ _ t h => ?_, by simp⟩
            cases h; exact ⟨x ++ [b], by rw [hx]; simp⟩
          · simp only [if_neg hb]
            refine ⟨Ext.of_ok _ _ (b :: t), fun _ _ t h => ?_, by simp⟩
            cases h; exact ⟨x, hx⟩
    · have hb := (h.bind (fun s' => match IntStr.strToType strtod
          (((c :: s).take ((c :: s).length - s'.length)).contains 46)
          ((c :: s).take ((c :: s).length - s'.length)) with
        | none => Res.err
        | some v => do
          let e ← In.cur m s'
          Res.ok (Step.done (Tok.val v), s', !(e == 125 || e == 93)))).bind
        (fun p => if p.2.2 = true then (do let s ← In.move m 1 p.2.1; Res.ok (p.1, r, s))
          else Res.ok (p.1, r, p.2.1))
      exact ⟨Ext.of_bad hb, fun _ _ _ h => absurd h (hb.not_ok _), hb.not_fuel⟩
  · simp only [if_neg hl, Res.ok_bind, if_true, move_one hm, move_one hm']
    refine ⟨Ext.of_ok _ _ _, fun _ _ t h => ?_, by simp⟩
    cases h; exact ⟨[], rfl⟩

theorem round_ext {m m' : Mem} (hm : m.Sane) (hm' : m'.Sane) (r : Rd) (st : State) (s q : Bytes) :
    Ext m q Open (round m strtod r st s) (round m' strtod r st (s ++ q)) ∧
    (∀ x r' t, round m strtod r st s = .ok (x, r', t) → ∃ y, y ≠ [] ∧ s = y ++ t) ∧
    round m strtod r st s ≠ .fuel := by
  unfold round
  rcases skip_bad m r st s with ⟨t, h⟩ | h
  · obtain ⟨x, hx⟩ := skip_suffix h
    cases t with
    | nil =>
      rw [h]
      have hb := dispatch_nil strtod hm r st
      exact ⟨Ext.of_bad hb, fun _ _ _ h => absurd h (hb.not_ok _), hb.not_fuel⟩
    | cons c t =>
      rw [h, skip_ext m' h q]
      simp only [Res.ok_bind]
      obtain ⟨h1, h2, h3⟩ := dispatch_ext strtod hm hm' r st c t q
      refine ⟨h1, fun a r' u h4 => ?_, h3⟩
      obtain ⟨y, hy⟩ := h2 _ _ _ h4
      exact ⟨x ++ c :: y, by simp, by rw [hx, hy]; simp⟩
  · have hb := h.bind (dispatch m strtod r st)
    exact ⟨Ext.of_bad hb, fun _ _ _ h => absurd h (hb.not_ok _), hb.not_fuel⟩

/-! ### Tokens and documents -/

/-- Reading a token makes progress and does not run out of fuel. -/
theorem loop_progress {m : Mem} (hm : m.Sane) : ∀ (fuel : Nat) (st : State) (r : Rd) (s : Bytes),
    (∀ e r' t, loop m strtod fuel st (r, s) = .ok (e, r', t) → ∃ y, y ≠ [] ∧ s = y ++ t) ∧
    (s.length < fuel → loop m strtod fuel st (r, s) ≠ .fuel) := by
  intro fuel
  induction fuel with
  | zero => intro st r s; exact ⟨fun _ _ _ h => (by cases h), fun h => (by omega)⟩
  | succ fuel ih =>
    intro st r s
    obtain ⟨-, h2, h3⟩ := round_ext strtod hm hm r st s []
    constructor
    · intro e r' t h
      rw [loop, Res.bind_eq_ok] at h
      obtain ⟨⟨x, r1, s1⟩, h4, h⟩ := h
      obtain ⟨y, hy, hs⟩ := h2 _ _ _ h4
      cases x with
      | more st' =>
        obtain ⟨y2, -, hs2⟩ := (ih st' r1 s1).1 _ _ _ h
        exact ⟨y ++ y2, by simp [hy], by rw [hs, hs2, List.append_assoc]⟩
      | done tok => cases h; exact ⟨y, hy, hs⟩
    · intro hl
      rw [loop]
      cases h4 : round m strtod r st s with
      | fuel => exact absurd h4 h3
      | err => simp
      | ub => simp
      | ok p =>
        obtain ⟨x, r1, s1⟩ := p
        simp only [Res.ok_bind]
        cases x with
        | done tok => simp
        | more st' =>
          obtain ⟨y, hy, hs⟩ := h2 _ _ _ h4
          have : 0 < y.length := List.length_pos_iff.mpr hy
          rw [hs, List.length_append] at hl
          exact (ih st' r1 s1).2 (by omega)

theorem read_progress {m : Mem} (hm : m.Sane) (x : Rd × Bytes) :
    (∀ e r' t, read m strtod x = .ok (e, r', t) → ∃ y, y ≠ [] ∧ x.2 = y ++ t) ∧
    read m strtod x ≠ .fuel := by
  obtain ⟨r, s⟩ := x
  obtain ⟨h1, h2⟩ := loop_progress strtod hm (s.length + 1) ⟨none, false⟩ r s
  exact ⟨h1, h2 (by omega)⟩

/-- Neither a result nor undefined behaviour that the longer source would share. -/
def NoGood {α : Type} (m : Mem) (x : Res α) : Prop := Bad m x ∨ x = .fuel

theorem NoGood.bind {α β : Type} {m : Mem} {x : Res α} (h : NoGood m x) (f : α → Res β) :
    NoGood m (x >>= f) := by
  rcases h with h | h
  · exact Or.inl (h.bind f)
  · rw [h]; exact Or.inr rfl

theorem Ext.of_noGood {α : Type} {m : Mem} {q : Bytes} {D : α → Prop} {x y : Res (α × Rd × Bytes)}
    (h : NoGood m x) : Ext m q D x y := by
  rcases h with h | h
  · exact Ext.of_bad h
  · rw [h]; exact ⟨fun _ _ _ h => (by cases h), fun _ h => (by cases h)⟩

theorem Ext.bind {α β : Type} {m : Mem} {q : Bytes} {D : α → Prop} {D' : β → Prop}
    {x y : Res (α × Rd × Bytes)} {f g : α × Rd × Bytes → Res (β × Rd × Bytes)}
    (h : Ext m q D x y) (hf : ∀ a r t, Ext m q D' (f (a, r, t)) (g (a, r, t ++ q)))
    (hd : ∀ a r, D a → NoGood m (f (a, r, [])) ∨ ∃ b r', f (a, r, []) = .ok (b, r', []) ∧ D' b) :
    Ext m q D' (x >>= f) (y >>= g) := by
  cases x with
  | err => exact Ext.of_err
  | fuel => exact Ext.of_noGood (Or.inr rfl)
  | ub =>
    refine ⟨fun _ _ _ h => (by cases h), fun hp _ => ?_⟩
    rw [h.2 hp rfl]; rfl
  | ok p =>
    obtain ⟨a, r, t⟩ := p
    rcases h.1 _ _ _ rfl with h1 | ⟨rfl, h1⟩
    · rw [h1]; exact hf a r t
    · rcases hd a r h1 with h2 | ⟨b, r', h2, h3⟩
      · exact Ext.of_noGood h2
      · rw [Res.ok_bind, h2]
        exact ⟨fun _ _ _ h => (by cases h; exact Or.inr ⟨rfl, h3⟩), fun _ h => (by cases h)⟩

theorem loop_nil {m : Mem} (hm : m.Sane) (fuel : Nat) (st : State) (r : Rd) :
    NoGood m (loop m strtod fuel st (r, [])) := by
  cases fuel with
  | zero => exact Or.inr rfl
  | succ fuel =>
    rw [loop]
    exact Or.inl ((round_nil strtod hm r st).bind _)

/-- A value, the end of which may depend on what follows. -/
def OpenEvent (e : Event) : Prop := ∃ v, e.tok = .val v

theorem loop_ext {m m' : Mem} (hm : m.Sane) (hm' : m'.Sane) (q : Bytes) : ∀ (fuel fuel' : Nat)
    (st : State) (r : Rd) (s : Bytes), fuel ≤ fuel' →
    Ext m q OpenEvent (loop m strtod fuel st (r, s)) (loop m' strtod fuel' st (r, s ++ q)) := by
  intro fuel
  induction fuel with
  | zero => intro fuel' st r s _; exact Ext.of_noGood (Or.inr rfl)
  | succ fuel ih =>
    intro fuel' st r s hf
    obtain ⟨fuel', rfl⟩ : ∃ k, fuel' = k + 1 := ⟨fuel' - 1, by omega⟩
    rw [loop, loop]
    refine (round_ext strtod hm hm' r st s q).1.bind ?_ ?_
    · intro x r1 t
      cases x with
      | more st' => exact ih fuel' st' r1 t (by omega)
      | done tok => exact Ext.of_ok _ _ _
    · intro x r1 hx
      cases x with
      | more st' => exact Or.inl (loop_nil strtod hm fuel st' r1)
      | done tok =>
        cases tok with
        | val v => exact Or.inr ⟨_, _, rfl, v, rfl⟩
        | scope t => cases hx
        | scopeEnd => cases hx

theorem read_ext {m m' : Mem} (hm : m.Sane) (hm' : m'.Sane) (q : Bytes) (r : Rd) (s : Bytes) :
    Ext m q OpenEvent (read m strtod (r, s)) (read m' strtod (r, s ++ q)) :=
  loop_ext strtod hm hm' q _ _ _ r s (by simp only [List.length_append]; omega)

theorem readScope_nil {m : Mem} (hm : m.Sane) (fuel d : Nat) (r : Rd) :
    NoGood m (readScope (read m strtod) fuel d (r, [])) := by
  cases fuel with
  | zero => exact Or.inr rfl
  | succ fuel =>
    rw [readScope]
    exact (loop_nil strtod hm _ _ r).bind _

theorem readScope_ext {m m' : Mem} (hm : m.Sane) (hm' : m'.Sane) (q : Bytes) :
    ∀ (fuel fuel' d : Nat) (r : Rd) (s : Bytes), fuel ≤ fuel' →
    Ext m q (fun _ => False) (readScope (read m strtod) fuel d (r, s))
      (readScope (read m' strtod) fuel' d (r, s ++ q)) := by
  intro fuel
  induction fuel with
  | zero => intro fuel' d r s _; exact Ext.of_noGood (Or.inr rfl)
  | succ fuel ih =>
    intro fuel' d r s hf
    obtain ⟨fuel', rfl⟩ : ∃ k, fuel' = k + 1 := ⟨fuel' - 1, by omega⟩
    have hf : fuel ≤ fuel' := by omega
    rw [readScope, readScope]
    refine (read_ext strtod hm hm' q r s).bind ?_ ?_
    · intro e r1 t
      obtain ⟨n, tok⟩ := e
      cases tok with
      | scopeEnd => exact Ext.of_ok _ _ _
      | val v =>
        refine (ih fuel' d r1 t hf).bind ?_ ?_
        · intro c r2 t2; exact Ext.of_ok _ _ _
        · intro c r2 h; cases h
      | scope ty =>
        simp only
        by_cases hd : d + 1 > maxDepth
        · rw [if_pos hd]; exact Ext.of_err
        · rw [if_neg hd, if_neg hd]
          refine (ih fuel' (d + 1) r1 t hf).bind ?_ ?_
          · intro c r2 t2
            refine (ih fuel' d r2 t2 hf).bind ?_ ?_
            · intro c3 r3 t3; exact Ext.of_ok _ _ _
            · intro c r2 h; cases h
          · intro c r2 h; cases h
    · intro e r1 he
      obtain ⟨n, tok⟩ := e
      obtain ⟨v, hv⟩ := he
      simp only at hv
      subst hv
      exact Or.inl ((readScope_nil strtod hm fuel d r1).bind _)

theorem load_ext {m m' : Mem} (hm : m.Sane) (hm' : m'.Sane) (q : Bytes) (r : Rd) (s : Bytes) :
    Ext m q (fun _ => False) (loadWith m strtod r s) (loadWith m' strtod r (s ++ q)) := by
  unfold loadWith Doc.load
  refine (read_ext strtod hm hm' q r.clear s).bind ?_ ?_
  · intro e r1 t
    obtain ⟨n, tok⟩ := e
    cases tok with
    | scopeEnd => exact Ext.of_err
    | val v => exact Ext.of_err
    | scope ty =>
      refine (readScope_ext strtod hm hm' q _ _ 0 r1 t (by rw [List.length_append]; omega)).bind ?_ ?_
      · intro c r2 t2; exact Ext.of_ok _ _ _
      · intro c r2 h; cases h
  · intro e r1 he
    obtain ⟨n, tok⟩ := e
    obtain ⟨v, hv⟩ := he
    simp only at hv
    subst hv
    exact Or.inl (Or.inl (Or.inl rfl))

theorem loadWith_nofuel {m : Mem} (hm : m.Sane) (r : Rd) (s : Bytes) :
    loadWith m strtod r s ≠ .fuel := by
  unfold loadWith
  refine load_fuel (read m strtod) (fun x => x.2.length) ?_ ?_ _ _ (by simp)
  · intro x e x' h
    obtain ⟨r', t⟩ := x'
    obtain ⟨y, hy, hs⟩ := (read_progress strtod hm x).1 _ _ _ h
    have : 0 < y.length := List.length_pos_iff.mpr hy
    rw [hs]
    simp only [List.length_append]
    omega
  · intro x
    exact (read_progress strtod hm x).2

end

end Srl.PJson
