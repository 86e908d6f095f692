import Verif.Model.Stream

/-! Reading from a stream refines reading from memory. -/

namespace Srl.Stream

variable {α β : Type}

@[simp] theorem SRes.ok_bind (a : α) (f : α → SRes β) : (SRes.ok a).bind f = f a := rfl
@[simp] theorem SRes.err_bind (f : α → SRes β) : (SRes.err : SRes α).bind f = .err := rfl
@[simp] theorem SRes.ub_bind (f : α → SRes β) : (SRes.ub : SRes α).bind f = .ub := rfl
@[simp] theorem SRes.alloc_bind (f : α → SRes β) : (SRes.alloc : SRes α).bind f = .alloc := rfl

/-- `c` has been read, `r` is left. -/
structure Inv (s : SIn) (c r : Bytes) : Prop where
  pos_le : s.pos ≤ s.stop
  stop_le : s.stop ≤ s.buf.length
  anchor : ∀ a, s.anchor = some a → a ≤ s.pos
  eof : s.eof = false
  before : ∃ z, c = z ++ s.buf.take s.pos
  after : r = (s.buf.take s.stop).drop s.pos ++ s.src

/-- The next byte, if there is one, is in the buffer; and the buffer goes on. -/
def Ahead (s : SIn) : Prop := s.pos < s.buf.length ∧ (s.pos < s.stop ∨ s.src = [])

theorem Inv.left (h : Inv s c r) : s.stop - s.pos + s.src.length = r.length := by
  rw [h.after, List.length_append, List.length_drop, List.length_take, Nat.min_eq_left h.stop_le]

theorem Inv.pos_le_read (h : Inv s c r) : s.pos ≤ c.length := by
  obtain ⟨z, hz⟩ := h.before
  have h1 := h.pos_le
  have h2 := h.stop_le
  rw [hz, List.length_append, List.length_take]
  omega

/-- `try_fetch_data` loses nothing, and says whether the bytes asked for are there. -/
theorem fetch_inv {cap n len : Nat} (h : Inv s c r) (hl : s.stop - s.pos ≤ max n len) :
    (tryFetch cap n len s = .alloc ∧ cap < c.length + max n len) ∨
    ∃ s', (tryFetch cap n len s = .ok (true, s') ∧ n ≤ r.length ∨
        tryFetch cap n len s = .ok (false, { s' with eof := true }) ∧ r.length < n) ∧
      Inv s' c r ∧ s'.stop - s'.pos = min r.length (max n len) ∧
      s'.pos + max n len ≤ s'.buf.length ∧
      (s.anchor.isSome = true → s'.anchor = none) ∧ (s.anchor = some s.pos → s'.pos ≤ 32) := by
  obtain ⟨h1, h2, h3, h4, ⟨z, h5⟩, h6⟩ := h
  have hkeep : s.anchor.getD s.pos ≤ s.pos := by
    cases ha : s.anchor with
    | none => exact Nat.le_refl _
    | some a => exact h3 a ha
  have hr : r.length = s.stop - s.pos + s.src.length := by
    rw [h6, List.length_append, List.length_drop, List.length_take, Nat.min_eq_left h2]
  have hc : c.length = z.length + s.pos := by
    rw [h5, List.length_append, List.length_take, Nat.min_eq_left (by omega)]
  unfold tryFetch
  rw [h4]
  simp only [Bool.false_eq_true, if_false]
  rw [if_neg (by omega)]
  generalize hk : s.anchor.getD s.pos = keep at hkeep
  split
  · rename_i hcap
    exact .inl ⟨rfl, by omega⟩
  · refine .inr ⟨⟨(s.buf.drop (keep - min 32 keep)).take (s.stop - (keep - min 32 keep)) ++
      s.src.take (max n len - (s.stop - s.pos)) ++
      (resize (s.stop - (keep - min 32 keep) + (max n len - (s.stop - s.pos))) s.buf).drop
        (s.stop - (keep - min 32 keep) + (s.src.take (max n len - (s.stop - s.pos))).length),
      s.stop - (keep - min 32 keep) - (s.stop - s.pos),
      s.stop - (keep - min 32 keep) + (s.src.take (max n len - (s.stop - s.pos))).length,
      if s.anchor.isSome then none else some (min 32 keep), false,
      s.src.drop (max n len - (s.stop - s.pos))⟩, ?_, ?_, ?_, ?_, ?_, ?_⟩
    · split
      · rename_i hlt
        rw [List.length_take] at hlt
        exact .inr ⟨rfl, by omega⟩
      · rename_i hlt
        rw [List.length_take] at hlt
        exact .inl ⟨rfl, by omega⟩
    · generalize hoff : keep - min 32 keep = off
      have hoff' : off ≤ s.pos := by omega
      generalize hd : s.src.take (max n len - (s.stop - s.pos)) = data
      have hw : ((s.buf.drop off).take (s.stop - off)).length = s.stop - off := by
        rw [List.length_take, List.length_drop]; omega
      have hp : s.stop - off - (s.stop - s.pos) = s.pos - off := by omega
      refine ⟨by simp only; omega, ?_, ?_, rfl, ⟨z ++ s.buf.take off, ?_⟩, ?_⟩
      · simp only [List.length_append, hw]; omega
      · intro a ha
        simp only at ha ⊢
        split at ha
        · cases ha
        · rename_i hn
          cases ha
          cases hs : s.anchor with
          | some a => rw [hs] at hn; exact absurd rfl hn
          | none =>
            rw [hs] at hk
            simp only [Option.getD_none] at hk
            omega
      · simp only [hp]
        rw [List.append_assoc, List.append_assoc,
          List.take_append_of_le_length (by rw [hw]; omega), List.take_take, Nat.min_eq_left (by omega), h5,
          List.append_cancel_left_eq]
        conv => lhs; rw [show s.pos = off + (s.pos - off) by omega, List.take_add]
      · simp only [hp]
        have e1 : ((s.buf.drop off).take (s.stop - off) ++ data ++
            (resize (s.stop - off + (max n len - (s.stop - s.pos))) s.buf).drop (s.stop - off + data.length)).take
              (s.stop - off + data.length) = (s.buf.drop off).take (s.stop - off) ++ data := by
          rw [List.take_append_of_le_length (by rw [List.length_append, hw]; omega)]
          exact List.take_of_length_le (by rw [List.length_append, hw]; omega)
        rw [e1, List.drop_append_of_le_length (by rw [hw]; omega), h6, List.append_assoc, ← hd,
          List.take_append_drop, List.append_cancel_right_eq, List.drop_take, List.drop_take, List.drop_drop]
        congr 1
        · omega
        · congr 1; omega
    · simp only [List.length_take]
      omega
    · simp only [resize, List.length_append, List.length_take, List.length_drop, List.length_replicate]
      omega
    · intro ha
      simp only [ha, if_true]
    · intro ha
      rw [ha] at hk
      simp only [Option.getD_some] at hk
      subst hk
      simp only
      omega

theorem peek_inv {cap n : Nat} (hn : n < 2 ^ 63) (h : Inv s c r) :
    (peek cap n s = .alloc ∧ cap < c.length + max n 1024) ∨
    (peek cap n s = .err ∧ r.length < n) ∨
    ∃ s', peek cap n s = .ok s' ∧ n ≤ r.length ∧ Inv s' c r ∧ s'.pos + n ≤ s'.stop ∧
      (n < 1024 → s'.pos + n < s'.buf.length ∧ (s'.pos + n < s'.stop ∨ s'.src = [])) := by
  unfold peek
  rw [if_neg (by omega)]
  have hl := h.left
  have hp := h.pos_le
  split
  · rename_i hs
    rcases fetch_inv (cap := cap) (n := n) (len := 1024) h (by omega) with ⟨h1, h2⟩ | ⟨s', h1, h2, h3, h4, -, -⟩
    · rw [h1]
      exact .inl ⟨rfl, h2⟩
    · rcases h1 with ⟨h1, h5⟩ | ⟨h1, h5⟩
      · rw [h1]
        refine .inr (.inr ⟨s', rfl, h5, h2, by have := h2.pos_le; omega, fun hn => ⟨by omega, ?_⟩⟩)
        by_cases hx : n < r.length
        · exact .inl (by omega)
        · refine .inr (List.length_eq_zero_iff.mp ?_)
          have := h2.left
          omega
      · rw [h1]
        exact .inr (.inl ⟨rfl, h5⟩)
  · rename_i hs
    have := h.stop_le
    exact .inr (.inr ⟨s, rfl, by omega, h, by omega, fun _ => ⟨by omega, .inl (by omega)⟩⟩)

theorem inv_bump {n : Nat} (h : Inv s c r) (hn : s.pos + n ≤ s.stop) :
    Inv { s with pos := s.pos + n } (c ++ r.take n) (r.drop n) := by
  obtain ⟨h1, h2, h3, h4, ⟨z, h5⟩, h6⟩ := h
  have hw : n ≤ ((s.buf.take s.stop).drop s.pos).length := by
    rw [List.length_drop, List.length_take]; omega
  refine ⟨hn, h2, fun a ha => Nat.le_trans (h3 a ha) (Nat.le_add_right _ _), h4, ⟨z, ?_⟩, ?_⟩
  · simp only
    rw [h5, h6, List.take_append_of_le_length hw, List.append_assoc, List.append_cancel_left_eq,
      List.take_add, List.append_cancel_left_eq, List.drop_take, List.take_take, Nat.min_eq_left (by omega)]
  · simp only
    rw [h6, List.drop_append_of_le_length hw, List.drop_drop]

theorem move_inv {cap n : Nat} (hn : n < 2 ^ 63) (h : Inv s c r) :
    (move cap n s = .alloc ∧ cap < c.length + max n 1024) ∨
    (move cap n s = .err ∧ r.length < n) ∨
    ∃ s', move cap n s = .ok s' ∧ n ≤ r.length ∧ Inv s' (c ++ r.take n) (r.drop n) ∧ (n < 1024 → Ahead s') := by
  unfold move
  rcases peek_inv (cap := cap) hn h with ⟨h1, h2⟩ | ⟨h1, h2⟩ | ⟨s', h1, h2, h3, h4, h5⟩
  · rw [h1]; exact .inl ⟨rfl, h2⟩
  · rw [h1]; exact .inr (.inl ⟨rfl, h2⟩)
  · rw [h1]
    exact .inr (.inr ⟨_, rfl, h2, inv_bump h3 h4, h5⟩)

theorem block_inv {cap n : Nat} (hn : n < 2 ^ 63) (h : Inv s c r) :
    (readBlock cap n s = .alloc ∧ cap < c.length + max n 1024) ∨
    (readBlock cap n s = .err ∧ r.length < n) ∨
    ∃ s', readBlock cap n s = .ok (r.take n, s') ∧ n ≤ r.length ∧ Inv s' (c ++ r.take n) (r.drop n) ∧
      (n < 1024 → Ahead s') := by
  unfold readBlock
  have h' : Inv { s with anchor := some s.pos } c r :=
    ⟨h.pos_le, h.stop_le, fun a ha => by cases ha; exact Nat.le_refl _, h.eof, h.before, h.after⟩
  unfold move
  rcases peek_inv (cap := cap) hn h' with ⟨h1, h2⟩ | ⟨h1, h2⟩ | ⟨s', h1, h2, h3, h4, h5⟩
  · rw [h1]; exact .inl ⟨rfl, h2⟩
  · rw [h1]; exact .inr (.inl ⟨rfl, h2⟩)
  · rw [h1]
    have hs := h3.stop_le
    have hb : back n { s' with pos := s'.pos + n } = .ok (r.take n) := by
      unfold back
      rw [if_neg (by simp only; omega)]
      simp only
      rw [Nat.add_sub_cancel, h3.after, List.drop_take, List.take_append_of_le_length
        (by rw [List.length_take, List.length_drop]; omega), List.take_take, Nat.min_eq_left (by omega)]
    simp only [SRes.ok_bind, hb]
    refine .inr (.inr ⟨_, rfl, h2, ?_, h5⟩)
    obtain ⟨a1, a2, a3, a4, a5, a6⟩ := inv_bump h3 h4
    exact ⟨a1, a2, fun a ha => (nomatch ha), a4, a5, a6⟩

theorem cur_inv (h : Inv s c r) (ha : Ahead s) :
    match r with
    | b :: _ => cur s = .ok b
    | [] => ∃ b, cur s = .ok b := by
  obtain ⟨h1, h2⟩ := ha
  have hl := h.left
  unfold cur
  rw [List.getElem?_eq_getElem h1]
  cases r with
  | nil => exact ⟨_, rfl⟩
  | cons b r =>
    have hp : s.pos < s.stop := by
      rcases h2 with h2 | h2
      · exact h2
      · rw [h2] at hl
        simp only [List.length_nil, List.length_cons] at hl
        omega
    have h6 := h.after
    have hs := h.stop_le
    have : (b :: r)[0]? = ((s.buf.take s.stop).drop s.pos ++ s.src)[0]? := by rw [h6]
    rw [List.getElem?_append_left (by rw [List.length_drop, List.length_take]; omega), List.getElem?_drop,
      Nat.add_zero, List.getElem?_take_of_lt hp, List.getElem?_eq_getElem h1] at this
    simp only [List.getElem?_cons_zero, Option.some.injEq] at this
    simp only [this]

theorem set_inv (cap : Nat) (s0 : SIn) (src : Bytes) (hc : 0 < cap) :
    ∃ s, SIn.set cap s0 src = .ok s ∧ Inv s [] src ∧ Ahead s := by
  unfold SIn.set
  have h : Inv ⟨s0.buf, 0, 0, none, false, src⟩ [] src :=
    ⟨Nat.le_refl _, Nat.zero_le _, fun a ha => (nomatch ha), rfl, ⟨[], by simp⟩, by simp⟩
  rcases fetch_inv (cap := cap) (n := 0) (len := 1) h (by simp) with ⟨-, h1⟩ | ⟨s, h1, h2, h3, h4, -, -⟩
  · simp at h1; omega
  · rcases h1 with ⟨h1, -⟩ | ⟨-, h1⟩
    · refine ⟨s, by rw [h1]; rfl, h2, by omega, ?_⟩
      by_cases hx : 0 < src.length
      · exact .inl (by omega)
      · refine .inr (List.length_eq_zero_iff.mp ?_)
        have := h2.left
        omega
    · omega

/-! ## Programs -/

/-- At the end of the source the program gives `x` whatever it sees there. -/
def AtEnd (N : Nat) : Prog α → Res α → Prop
  | .done r, x => r = x
  | .block n _, x => 1 ≤ n ∧ n < N ∧ x = .err
  | .move n _, x => 1 ≤ n ∧ n < N ∧ x = .err
  | .cur _, _ => False

/-- What a program must keep to on the source `r`: it asks for less than `N` bytes at a time; it looks at
the next byte only after something shorter than 1024 bytes has been read; and if there is no next byte,
what it does does not depend on what it sees. `a`: whether it may look at the next byte; `Q`: what holds
afterwards. -/
def Fair (N : Nat) (Q : α → Bytes → Bool → Prop) : Prog α → Bytes → Bool → Prop
  | .done x, r, a => ∀ y, x = .ok y → Q y r a
  | .block n k, r, _ => n < N ∧ (n ≤ r.length → Fair N Q (k (r.take n)) (r.drop n) (decide (n < 1024)))
  | .move n k, r, _ => n < N ∧ (n ≤ r.length → Fair N Q k (r.drop n) (decide (n < 1024)))
  | .cur k, [], a => a = true ∧ ∃ x, (∀ y, x ≠ .ok y) ∧ ∀ b, AtEnd N (k b) x
  | .cur k, b :: r, a => a = true ∧ Fair N Q (k b) (b :: r) true

theorem Fair.mono {N : Nat} {Q Q' : α → Bytes → Bool → Prop} (hq : ∀ y r a, Q y r a → Q' y r a) :
    ∀ (p : Prog α) (r : Bytes) (a : Bool), Fair N Q p r a → Fair N Q' p r a := by
  intro p
  induction p with
  | done x => exact fun r a h y e => hq _ _ _ (h y e)
  | block n k ih => exact fun r a h => ⟨h.1, fun hn => ih _ _ _ (h.2 hn)⟩
  | move n k ih => exact fun r a h => ⟨h.1, fun hn => ih _ _ (h.2 hn)⟩
  | cur k ih =>
    intro r a h
    cases r with
    | nil => exact h
    | cons b r => exact ⟨h.1, ih _ _ _ h.2⟩

theorem AtEnd.bind {N : Nat} {p : Prog α} {x : Res α} (f : α → Prog β) (hx : ∀ y, x ≠ .ok y) (h : AtEnd N p x) :
    AtEnd N (p.bind f) (x.bind fun _ => .err) := by
  cases p with
  | done r =>
    cases h
    cases x with
    | ok y => exact absurd rfl (hx y)
    | _ => rfl
  | block n k => obtain ⟨h1, h2, rfl⟩ := h; exact ⟨h1, h2, rfl⟩
  | move n k => obtain ⟨h1, h2, rfl⟩ := h; exact ⟨h1, h2, rfl⟩
  | cur k => exact h.elim

theorem Fair.bind {N : Nat} {Q : β → Bytes → Bool → Prop} {f : α → Prog β} :
    ∀ (p : Prog α) (r : Bytes) (a : Bool), Fair N (fun y r a => Fair N Q (f y) r a) p r a →
      Fair N Q (p.bind f) r a := by
  intro p
  induction p with
  | done x =>
    intro r a h
    cases x with
    | ok x => exact h x rfl
    | err => exact fun y e => (nomatch e)
    | ub => exact fun y e => (nomatch e)
    | fuel => exact fun y e => (nomatch e)
  | block n k ih => exact fun r a h => ⟨h.1, fun hn => ih _ _ _ (h.2 hn)⟩
  | move n k ih => exact fun r a h => ⟨h.1, fun hn => ih _ _ (h.2 hn)⟩
  | cur k ih =>
    intro r a h
    cases r with
    | nil =>
      obtain ⟨h1, x, hx, h2⟩ := h
      refine ⟨h1, x.bind fun _ => .err, ?_, fun b => (h2 b).bind f hx⟩
      intro y
      cases x with
      | ok x => exact absurd rfl (hx x)
      | _ => exact fun e => (nomatch e)
    | cons b r => exact ⟨h.1, ih _ _ _ h.2⟩

theorem mem_bind (m : Mem) {f : α → Prog β} : ∀ (p : Prog α) (r : Bytes),
    (p.bind f).mem m r = (p.mem m r).bind fun x => (f x.1).mem m x.2 := by
  intro p
  induction p with
  | done x => intro r; cases x <;> rfl
  | block n k ih =>
    intro r
    simp only [Prog.bind, Prog.mem]
    cases In.readBlock m n r with
    | ok x => exact ih _ _
    | _ => rfl
  | move n k ih =>
    intro r
    simp only [Prog.bind, Prog.mem]
    cases In.move m n r with
    | ok x => exact ih _
    | _ => rfl
  | cur k ih =>
    intro r
    simp only [Prog.bind, Prog.mem]
    cases In.cur m r with
    | ok x => exact ih _ _
    | _ => rfl

/-- The same outcome; then the stream has left what the memory source has left. -/
def Agree (total : Nat) : Res (α × Bytes) → SRes (α × SIn) → Prop
  | .ok (a, r), .ok (a', s) => a = a' ∧ ∃ c, Inv s c r ∧ c.length + r.length = total
  | .err, .err => True
  | .ub, .ub => True
  | .fuel, .fuel => True
  | _, _ => False

/-- Memory may run out on a stream: if there is not enough for the whole source, or if the source ends
before what it announces. -/
def Exhausted (cap N total : Nat) (r : Res (α × Bytes)) (r' : SRes (α × SIn)) : Prop :=
  r' = .alloc ∧ (cap < total + 1024 ∨ r = .err ∧ cap < total + N)

theorem mem_move {m : Mem} (hm : m.Sane) {n : Nat} (hn : n < 2 ^ 63) (r : Bytes) :
    In.move m n r = if r.length < n then .err else .ok (r.drop n) := by
  unfold In.move
  have : m.lim < 2 ^ 63 := hm
  rw [if_neg (by omega)]

theorem Fair.with_mem {m : Mem} (hm : m.Sane) {N : Nat} (hN : N ≤ 2 ^ 63) {Q : α → Bytes → Bool → Prop} :
    ∀ (p : Prog α) (r : Bytes) (a : Bool), Fair N Q p r a →
      Fair N (fun y t a => Q y t a ∧ p.mem m r = .ok (y, t)) p r a := by
  intro p
  induction p with
  | done x =>
    intro r a h y e
    cases e
    exact ⟨h y rfl, rfl⟩
  | block n k ih =>
    intro r a h
    refine ⟨h.1, fun hn => ?_⟩
    have := ih _ _ _ (h.2 hn)
    have h1 := h.1
    simp only [Prog.mem, In.readBlock, mem_move hm (by omega : n < 2 ^ 63)]
    rw [if_neg (by omega)]
    exact this
  | move n k ih =>
    intro r a h
    refine ⟨h.1, fun hn => ?_⟩
    have := ih _ _ (h.2 hn)
    have h1 := h.1
    simp only [Prog.mem, mem_move hm (by omega : n < 2 ^ 63)]
    rw [if_neg (by omega)]
    exact this
  | cur k ih =>
    intro r a h
    cases r with
    | nil => exact h
    | cons b r => exact ⟨h.1, ih _ _ _ h.2⟩

theorem atEnd_mem {m : Mem} (hm : m.Sane) {N : Nat} (hN : N ≤ 2 ^ 63) {p : Prog α} {x : Res α}
    (hx : ∀ y, x ≠ .ok y) (h : AtEnd N p x) : p.mem m [] = x.bind fun a => .ok (a, []) := by
  cases p with
  | done r => cases h; rfl
  | block n k =>
    obtain ⟨h1, h2, rfl⟩ := h
    simp only [Prog.mem, In.readBlock, mem_move hm (by omega : n < 2 ^ 63)]
    rw [if_pos (by simp only [List.length_nil]; omega)]
    rfl
  | move n k =>
    obtain ⟨h1, h2, rfl⟩ := h
    simp only [Prog.mem, mem_move hm (by omega : n < 2 ^ 63)]
    rw [if_pos (by simp only [List.length_nil]; omega)]
    rfl
  | cur k => exact h.elim

theorem atEnd_stream {cap N : Nat} (hN : N ≤ 2 ^ 63) {p : Prog α} {x : Res α} {s : SIn} {c : Bytes}
    (hx : ∀ y, x ≠ .ok y) (h : AtEnd N p x) (hi : Inv s c []) :
    Exhausted cap N c.length (x.bind fun a => .ok (a, [])) (p.stream cap s) ∨
      Agree c.length (x.bind fun a => .ok (a, [])) (p.stream cap s) := by
  cases p with
  | done r =>
    cases h
    cases x with
    | ok y => exact absurd rfl (hx y)
    | _ => exact .inr trivial
  | block n k =>
    obtain ⟨h1, h2, rfl⟩ := h
    rcases block_inv (cap := cap) (by omega : n < 2 ^ 63) hi with ⟨h3, h4⟩ | ⟨h3, h4⟩ | ⟨s', h3, h4, -, -⟩
    · refine .inl ⟨by simp only [Prog.stream, h3]; rfl, ?_⟩
      by_cases hc : cap < c.length + 1024
      · exact .inl hc
      · exact .inr ⟨rfl, by omega⟩
    · refine .inr ?_
      simp only [Prog.stream, h3]
      trivial
    · simp at h4; omega
  | move n k =>
    obtain ⟨h1, h2, rfl⟩ := h
    rcases move_inv (cap := cap) (by omega : n < 2 ^ 63) hi with ⟨h3, h4⟩ | ⟨h3, h4⟩ | ⟨s', h3, h4, -, -⟩
    · refine .inl ⟨by simp only [Prog.stream, h3]; rfl, ?_⟩
      by_cases hc : cap < c.length + 1024
      · exact .inl hc
      · exact .inr ⟨rfl, by omega⟩
    · refine .inr ?_
      simp only [Prog.stream, h3]
      trivial
    · simp at h4; omega
  | cur k => exact h.elim

theorem agrees {m : Mem} (hm : m.Sane) (hp : m.past ≠ none) {cap N : Nat} (hN : N ≤ 2 ^ 63)
    {Q : α → Bytes → Bool → Prop} :
    ∀ (p : Prog α) (s : SIn) (c r : Bytes) (a : Bool), Fair N Q p r a → Inv s c r →
      (a = true → Ahead s) →
      Exhausted cap N (c.length + r.length) (p.mem m r) (p.stream cap s) ∨
        Agree (c.length + r.length) (p.mem m r) (p.stream cap s) := by
  intro p
  induction p with
  | done x =>
    intro s c r a hf hi ha
    cases x with
    | ok x => exact .inr ⟨rfl, c, hi, rfl⟩
    | err => exact .inr trivial
    | ub => exact .inr trivial
    | fuel => exact .inr trivial
  | block n k ih =>
    intro s c r a hf hi ha
    obtain ⟨hn, hf⟩ := hf
    simp only [Prog.mem, Prog.stream, In.readBlock, mem_move hm (by omega : n < 2 ^ 63)]
    rcases block_inv (cap := cap) (by omega : n < 2 ^ 63) hi with ⟨h3, h4⟩ | ⟨h3, h4⟩ | ⟨s', h3, h4, h5, h6⟩
    · refine .inl ⟨by rw [h3]; rfl, ?_⟩
      by_cases hl : r.length < n
      · by_cases hc : cap < c.length + r.length + 1024
        · exact .inl hc
        · rw [if_pos hl]
          exact .inr ⟨rfl, by omega⟩
      · exact .inl (by omega)
    · rw [h3, if_pos h4]
      exact .inr trivial
    · rw [h3, if_neg (by omega)]
      have := ih (r.take n) s' (c ++ r.take n) (r.drop n) _ (hf h4) h5 (fun h => h6 (of_decide_eq_true h))
      rw [show (c ++ r.take n).length + (r.drop n).length = c.length + r.length by
        rw [List.length_append, List.length_take, List.length_drop]; omega] at this
      exact this
  | move n k ih =>
    intro s c r a hf hi ha
    obtain ⟨hn, hf⟩ := hf
    simp only [Prog.mem, Prog.stream, mem_move hm (by omega : n < 2 ^ 63)]
    rcases move_inv (cap := cap) (by omega : n < 2 ^ 63) hi with ⟨h3, h4⟩ | ⟨h3, h4⟩ | ⟨s', h3, h4, h5, h6⟩
    · refine .inl ⟨by rw [h3]; rfl, ?_⟩
      by_cases hl : r.length < n
      · by_cases hc : cap < c.length + r.length + 1024
        · exact .inl hc
        · rw [if_pos hl]
          exact .inr ⟨rfl, by omega⟩
      · exact .inl (by omega)
    · rw [h3, if_pos h4]
      exact .inr trivial
    · rw [h3, if_neg (by omega)]
      have := ih s' (c ++ r.take n) (r.drop n) _ (hf h4) h5 (fun h => h6 (of_decide_eq_true h))
      rw [show (c ++ r.take n).length + (r.drop n).length = c.length + r.length by
        rw [List.length_append, List.length_take, List.length_drop]; omega] at this
      exact this
  | cur k ih =>
    intro s c r a hf hi ha
    cases r with
    | nil =>
      obtain ⟨h1, x, hx, h2⟩ := hf
      obtain ⟨b, hb⟩ := cur_inv hi (ha h1)
      obtain ⟨b', hb'⟩ : ∃ b', m.past = some b' := by
        cases h : m.past with
        | none => exact absurd h hp
        | some b => exact ⟨b, rfl⟩
      simp only [Prog.mem, Prog.stream, hb, In.cur, hb']
      have e := atEnd_mem hm hN hx (h2 b')
      have := atEnd_stream (cap := cap) hN hx (h2 b) hi
      simp only [SRes.ok_bind, List.length_nil, Nat.add_zero]
      change Exhausted cap N c.length ((k b').mem m []) _ ∨ Agree c.length ((k b').mem m []) _
      rw [e]
      exact this
    | cons b r =>
      obtain ⟨h1, h2⟩ := hf
      have hb := cur_inv hi (ha h1)
      simp only [Prog.mem, Prog.stream, hb, In.cur]
      exact ih b s c (b :: r) true h2 hi (fun _ => ha h1)

end Srl.Stream
