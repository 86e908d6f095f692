import Verif.Model.StreamJson
import Verif.Lemmas.Stream
import Verif.Lemmas.PJsonCut
import Verif.Lemmas.Relate

/-! Reading JSON from a stream and from memory. -/

namespace Srl.Stream

variable {α : Type} {s : SIn} {c r : Bytes} {cap : Nat}

@[simp] theorem SRes.res_ok (a : α) : (SRes.ok a).res = .ok a := rfl
@[simp] theorem SRes.res_err : (SRes.err : SRes α).res = .err := rfl
@[simp] theorem SRes.res_ub : (SRes.ub : SRes α).res = .ub := rfl

/-- Where the data are moved to -/
theorem fetch_pos {n len : Nat} {b : Bool} {s' : SIn} (h : Inv s c r) (hf : tryFetch cap n len s = .ok (b, s')) :
    s'.pos = s.pos - (s.anchor.getD s.pos - min 32 (s.anchor.getD s.pos)) := by
  unfold tryFetch at hf
  rw [h.eof] at hf
  simp only [Bool.false_eq_true, if_false] at hf
  have h1 := h.pos_le
  split at hf
  · cases hf
  · split at hf
    · cases hf
    · have hk : s.anchor.getD s.pos ≤ s.pos := by
        cases ha : s.anchor with
        | none => exact Nat.le_refl _
        | some a => exact h.anchor a ha
      split at hf
      · cases hf
        simp only
        omega
      · cases hf
        simp only
        omega

theorem peek_pos {n : Nat} {s' : SIn} (hp : peek cap n s = .ok s') :
    (s.pos + n < s.stop ∧ s' = s) ∨ (s.stop ≤ s.pos + n ∧ tryFetch cap n 1024 s = .ok (true, s')) := by
  unfold peek at hp
  split at hp
  · cases hp
  · split at hp
    · rename_i hs
      right
      refine ⟨hs, ?_⟩
      cases hf : tryFetch cap n 1024 s with
      | ok x =>
        obtain ⟨b, s1⟩ := x
        rw [hf] at hp
        cases b with
        | true => cases hp; rfl
        | false => cases hp
      | _ => rw [hf] at hp; cases hp
    · cases hp
      exact .inl ⟨by omega, rfl⟩

/-- One step with memory to spare -/
theorem move_one (h : Inv s c r) (hc : c.length + r.length + 1024 ≤ cap) :
    (r = [] ∧ move cap 1 s = .err) ∨
    ∃ b r' s', r = b :: r' ∧ move cap 1 s = .ok s' ∧ Inv s' (c ++ [b]) r' ∧ Ahead s' := by
  rcases move_inv (cap := cap) (n := 1) (by decide) h with ⟨-, h2⟩ | ⟨h1, h2⟩ | ⟨s', h1, h2, h3, h4⟩
  · omega
  · cases r with
    | nil => exact .inl ⟨rfl, h1⟩
    | cons b r => simp only [List.length_cons] at h2; omega
  · cases r with
    | nil => simp at h2
    | cons b r => exact .inr ⟨b, r, s', rfl, h1, h3, h4 (by decide)⟩

theorem cur_cons {b : UInt8} (h : Inv s c (b :: r)) (ha : Ahead s) : cur s = .ok b := cur_inv h ha

theorem cur_nil (h : Inv s c []) (ha : Ahead s) : ∃ b, cur s = .ok b := cur_inv h ha

/-- The source is used up -/
theorem move_nil (h : Inv s c []) (hc : c.length + 1024 ≤ cap) : move cap 1 s = .err := by
  rcases move_one h (by simpa using hc) with ⟨-, h⟩ | ⟨b, r', s', h1, -⟩
  · exact h
  · cases h1

/-- After a failed attempt to look ahead -/
theorem peek_eof {n : Nat} (he : s.eof = true) (hn : n < 2 ^ 63) (hs : s.stop ≤ s.pos + n) : peek cap n s = .err := by
  unfold peek
  rw [if_neg (by omega), if_pos hs]
  unfold tryFetch
  rw [if_pos he]
  rfl

theorem move_eof {n : Nat} (he : s.eof = true) (hn : n < 2 ^ 63) (hs : s.stop ≤ s.pos + n) : move cap n s = .err := by
  unfold move
  rw [peek_eof he hn hs]
  rfl

theorem block_eof {n : Nat} (he : s.eof = true) (hn : n < 2 ^ 63) (hs : s.stop ≤ s.pos + n) :
    readBlock cap n s = .err := by
  unfold readBlock
  rw [move_eof (by exact he) hn (by exact hs)]
  rfl

theorem curAt_inv {i : Nat} {b : UInt8} (h : Inv s c r) (hi : s.pos + i < s.stop) (hb : r[i]? = some b) :
    curAt i s = .ok b := by
  have h2 := h.stop_le
  unfold curAt
  rw [h.after, List.getElem?_append_left (by rw [List.length_drop, List.length_take]; omega),
    List.getElem?_drop, List.getElem?_take_of_lt hi] at hb
  rw [hb]

theorem curAt_some {i : Nat} (hi : s.pos + i < s.buf.length) : ∃ b, curAt i s = .ok b := by
  unfold curAt
  rw [List.getElem?_eq_getElem hi]
  exact ⟨_, rfl⟩

/-- `try_peek`: the bytes are there, or there are not that many left. -/
theorem tryPeek_inv {n : Nat} (hn : n ≤ 1024) (h : Inv s c r) (hc : c.length + r.length + 1024 ≤ cap) :
    (∃ s', tryPeek cap n s = .ok (true, s') ∧ n ≤ r.length ∧ Inv s' c r ∧ s'.pos + n ≤ s'.stop ∧
      s'.pos + n ≤ s'.buf.length ∧
      (n < 1024 → s'.pos + n < s'.buf.length ∧ (s'.pos + n < s'.stop ∨ s'.src = []))) ∨
    (∃ s', tryPeek cap n s = .ok (false, { s' with eof := true }) ∧ r.length < n ∧ Inv s' c r ∧
      s'.stop - s'.pos = r.length ∧ s'.pos + 1024 ≤ s'.buf.length) := by
  unfold tryPeek
  have hl := h.left
  have hp := h.pos_le
  have hb := h.stop_le
  split
  · rename_i hs
    exact .inl ⟨s, rfl, by omega, h, by omega, by omega, fun _ => ⟨by omega, .inl hs⟩⟩
  · rename_i hs
    rcases fetch_inv (cap := cap) (n := n) (len := 1024) h (by omega) with ⟨-, h2⟩ | ⟨s', h1, h2, h3, h4, -, -⟩
    · omega
    · have := h2.pos_le
      rcases h1 with ⟨h1, h5⟩ | ⟨h1, h5⟩
      · refine .inl ⟨s', h1, h5, h2, by omega, by omega, fun hn => ⟨by omega, ?_⟩⟩
        have hl' := h2.left
        by_cases hx : r.length ≤ 1024
        · exact .inr (List.length_eq_zero_iff.mp (by omega))
        · exact .inl (by omega)
      · exact .inr ⟨s', h1, h5, h2, by omega, by omega⟩

end Srl.Stream

namespace Srl.PJson

open Srl.Stream

variable {s : SIn} {c r : Bytes} {cap : Nat}

/-! ### Skipping -/

/-- The source has been read to its end. -/
def Over (total : Nat) (s : SIn) : Prop := ∃ c, Inv s c [] ∧ Ahead s ∧ c.length = total

theorem moveUntilS_inv (m : Mem) (p : UInt8 → Bool) : ∀ (r c : Bytes) (s : SIn) (fuel : Nat), Inv s c r → Ahead s →
    c.length + r.length + 1024 ≤ cap → r.length < fuel →
    (∃ x t s', r = x ++ t ∧ t ≠ [] ∧ moveUntil m p r = .ok t ∧ moveUntilS cap p fuel s = .ok (x.length, s') ∧
      Inv s' (c ++ x) t ∧ Ahead s') ∨
    ((moveUntil m p r = .ok [] ∨ moveUntil m p r = .err ∨ m.past = none) ∧ (moveUntilS cap p fuel s = .err ∨
      ∃ s', moveUntilS cap p fuel s = .ok (r.length, s') ∧ Inv s' (c ++ r) [] ∧ Ahead s')) := by
  intro r
  induction r with
  | nil =>
    intro c s fuel h ha hc hf
    obtain ⟨fuel, rfl⟩ : ∃ k, fuel = k + 1 := ⟨fuel - 1, by simp only [List.length_nil] at hf; omega⟩
    right
    constructor
    · rw [moveUntil]
      rcases cur_nil_cases m with ⟨h1, -⟩ | ⟨b, -, h2⟩
      · exact .inr (.inr h1)
      · rw [h2]
        simp only [Res.ok_bind]
        split
        · exact .inl rfl
        · exact .inr (.inl rfl)
    · obtain ⟨b, hb⟩ := cur_nil h ha
      rw [moveUntilS, hb]
      simp only [SRes.res_ok, Res.ok_bind]
      split
      · exact .inr ⟨s, rfl, by simpa using h, ha⟩
      · rw [Stream.move_nil h (by simpa using hc)]
        exact .inl rfl
  | cons b r ih =>
    intro c s fuel h ha hc hf
    simp only [List.length_cons] at hc hf
    obtain ⟨fuel, rfl⟩ : ∃ k, fuel = k + 1 := ⟨fuel - 1, by omega⟩
    rw [moveUntil, moveUntilS, cur_cons h ha]
    simp only [SRes.res_ok, Res.ok_bind]
    split
    · exact .inl ⟨[], b :: r, s, rfl, by simp, rfl, rfl, by simpa using h, ha⟩
    · rcases Stream.move_one h (by simp only [List.length_cons]; omega) with ⟨h1, -⟩ | ⟨b', r', s1, h1, h2, h3, h4⟩
      · cases h1
      · cases h1
        rw [h2]
        simp only [SRes.res_ok, Res.ok_bind]
        rcases ih (c ++ [b]) s1 fuel h3 h4 (by simp only [List.length_append, List.length_singleton]; omega)
          (by omega) with ⟨x, t, s2, k1, k2, k3, k4, k5, k6⟩ | ⟨k1, k2⟩
        · refine .inl ⟨b :: x, t, s2, by rw [k1]; rfl, k2, k3, ?_, by simpa using k5, k6⟩
          rw [k4]
          rfl
        · refine .inr ⟨k1, ?_⟩
          rcases k2 with k2 | ⟨s2, k2, k3⟩
          · rw [k2]; exact .inl rfl
          · rw [k2]
            exact .inr ⟨s2, rfl, by simpa using k3.1, k3.2⟩

/-- The last `j` bytes read are still in the buffer, and will be until 1024 bytes are read. -/
def Kept (j : Nat) (s : SIn) : Prop :=
  j ≤ s.pos ∧ (s.anchor = some (s.pos - j) ∨ s.src = [] ∨ 1024 ≤ s.stop - s.pos + j)

theorem move_kept {b : UInt8} {r' : Bytes} {j : Nat} (h : Inv s c (b :: r')) (hk : Kept j s)
    (hj : j < 1023) (hr : r' ≠ [] ∨ j ≤ 32) (hc : c.length + r'.length + 1025 ≤ cap) :
    ∃ s', move cap 1 s = .ok s' ∧ Inv s' (c ++ [b]) r' ∧ Ahead s' ∧ Kept (j + 1) s' := by
  rcases move_inv (cap := cap) (n := 1) (by decide) h with ⟨-, h2⟩ | ⟨h1, h2⟩ | ⟨s', h1, h2, h3, h4⟩
  · omega
  · simp only [List.length_cons] at h2; omega
  · refine ⟨s', h1, h3, h4 (by decide), ?_⟩
    unfold move at h1
    obtain ⟨s1, h5, h6⟩ : ∃ s1, peek cap 1 s = .ok s1 ∧ s' = { s1 with pos := s1.pos + 1 } := by
      cases hp : peek cap 1 s with
      | ok s1 => rw [hp] at h1; cases h1; exact ⟨s1, rfl, rfl⟩
      | _ => rw [hp] at h1; cases h1
    have hl := h.left
    have hpl := h.pos_le
    simp only [List.length_cons] at hl
    obtain ⟨k1, k2⟩ := hk
    rcases peek_pos h5 with ⟨a1, rfl⟩ | ⟨a1, a2⟩
    · subst h6
      refine ⟨by simp only; omega, ?_⟩
      rcases k2 with k2 | k2 | k2
      · left
        simp only
        rw [k2]
        congr 1
        omega
      · exact .inr (.inl k2)
      · right; right
        simp only
        omega
    · have hpos := fetch_pos h a2
      rcases fetch_inv (cap := cap) (n := 1) (len := 1024) h (by omega) with ⟨b1, -⟩ | ⟨s2, b1, b2, b3, b4, -, -⟩
      · rw [a2] at b1; cases b1
      · rcases b1 with ⟨b1, b5⟩ | ⟨b1, b5⟩
        · rw [a2] at b1
          cases b1
          have hl1 := b2.left
          simp only [List.length_cons] at hl1 b3
          have hp1 := b2.pos_le
          have hsrc : s1.src = [] ∨ 1024 ≤ s1.stop - s1.pos := by
            by_cases hx : r'.length + 1 ≤ 1024
            · left
              exact List.length_eq_zero_iff.mp (by omega)
            · right; omega
          subst h6
          refine ⟨?_, ?_⟩
          · simp only
            rw [hpos]
            rcases k2 with k2 | k2 | k2
            · rw [k2]
              simp only [Option.getD_some]
              omega
            · rw [k2] at hl
              simp only [List.length_nil] at hl
              have hr' : r' = [] := List.length_eq_zero_iff.mp (by omega)
              have hj' : j ≤ 32 := hr.resolve_left (fun h => h hr')
              cases ha : s.anchor with
              | none =>
                simp only [Option.getD_none]
                omega
              | some a =>
                have := h.anchor a ha
                simp only [Option.getD_some]
                omega
            · omega
          · rcases hsrc with e | e
            · exact .inr (.inl e)
            · right; right
              simp only
              omega
        · rw [a2] at b1; cases b1

/-- `move_until` between setting and clearing the anchor -/
theorem moveUntilS_kept (p : UInt8 → Bool) : ∀ (r c : Bytes) (s : SIn) (j fuel : Nat), Inv s c r → Ahead s →
    Kept j s → c.length + r.length + 1024 ≤ cap → r.length < fuel →
    (j + (r.takeWhile (fun b => !p b)).length ≤ 33 ∨
      j + (r.takeWhile (fun b => !p b)).length < 1024 ∧ (r.takeWhile (fun b => !p b)).length < r.length) →
    moveUntilS cap p fuel s = .err ∨
    ∃ n s', moveUntilS cap p fuel s = .ok (n, s') ∧ n + j ≤ s'.pos := by
  intro r
  induction r with
  | nil =>
    intro c s j fuel h ha hk hc hf hj
    obtain ⟨fuel, rfl⟩ : ∃ k, fuel = k + 1 := ⟨fuel - 1, by simp only [List.length_nil] at hf; omega⟩
    obtain ⟨b, hb⟩ := cur_nil h ha
    rw [moveUntilS, hb]
    simp only [SRes.res_ok, Res.ok_bind]
    split
    · exact .inr ⟨0, s, rfl, by have := hk.1; omega⟩
    · rw [Stream.move_nil h (by simpa using hc)]
      exact .inl rfl
  | cons b r ih =>
    intro c s j fuel h ha hk hc hf hj
    simp only [List.length_cons] at hc hf
    obtain ⟨fuel, rfl⟩ : ∃ k, fuel = k + 1 := ⟨fuel - 1, by omega⟩
    rw [moveUntilS, cur_cons h ha]
    simp only [SRes.res_ok, Res.ok_bind]
    split
    · exact .inr ⟨0, s, rfl, by have := hk.1; omega⟩
    · rename_i hb
      have hw : (b :: r).takeWhile (fun b => !p b) = b :: r.takeWhile (fun b => !p b) := by
        rw [List.takeWhile_cons, if_pos (by simp [hb])]
      rw [hw] at hj
      simp only [List.length_cons] at hj
      obtain ⟨s1, h1, h2, h3, h4⟩ := move_kept h hk (by omega)
        (by
          rcases hj with hj | hj
          · exact .inr (by omega)
          · left; intro e; rw [e] at hj; simp at hj)
        (by omega)
      rw [h1]
      simp only [SRes.res_ok, Res.ok_bind]
      rcases ih (c ++ [b]) s1 (j + 1) fuel h2 h3 h4 (by simp only [List.length_append, List.length_singleton]; omega)
        (by omega) (by omega) with k | ⟨n, s2, k1, k2⟩
      · rw [k]; exact .inl rfl
      · rw [k1]
        exact .inr ⟨n + 1, s2, rfl, by omega⟩

/-- A literal that is not too long -/
def ShortLit (r : Bytes) : Prop :=
  let n := (r.takeWhile (fun b => !isLitEnd b)).length
  n ≤ 33 ∨ n < 1024 ∧ n < r.length

theorem back_inv {n : Nat} {x z : Bytes} (h : Inv s (z ++ x) r) (hx : x.length = n) (hn : n ≤ s.pos) :
    back n s = .ok x := by
  have h1 := h.pos_le
  have h2 := h.stop_le
  unfold back
  rw [if_neg (by omega)]
  obtain ⟨y, hy⟩ := h.before
  congr 1
  have e : s.buf.take s.pos = s.buf.take (s.pos - n) ++ (s.buf.drop (s.pos - n)).take n := by
    rw [← List.take_add, Nat.sub_add_cancel hn]
  rw [e, ← List.append_assoc] at hy
  have hl : ((s.buf.drop (s.pos - n)).take n).length = n := by
    rw [List.length_take, List.length_drop]; omega
  exact ((List.append_inj' hy (by omega)).2).symm

/-- `read_block_until` for literals -/
theorem readUntilS_inv (m : Mem) (h : Inv s c r) (ha : Ahead s) (hc : c.length + r.length + 1024 ≤ cap)
    (hl : ShortLit r) :
    (∃ x t s', r = x ++ t ∧ t ≠ [] ∧ moveUntil m isLitEnd r = .ok t ∧ readUntilS cap isLitEnd s = .ok (x, s') ∧
      Inv s' (c ++ x) t ∧ Ahead s') ∨
    ((moveUntil m isLitEnd r = .ok [] ∨ moveUntil m isLitEnd r = .err ∨ m.past = none) ∧
      (readUntilS cap isLitEnd s = .err ∨
      ∃ s', readUntilS cap isLitEnd s = .ok (r, s') ∧ Over (c.length + r.length) s')) := by
  have h' : Inv { s with anchor := some s.pos } c r :=
    ⟨h.pos_le, h.stop_le, fun a ha => by cases ha; exact Nat.le_refl _, h.eof, h.before, h.after⟩
  have hleft : s.left = r.length := h.left
  have hk : Kept 0 { s with anchor := some s.pos } := ⟨Nat.zero_le _, .inl (by simp)⟩
  have h1 := moveUntilS_inv (cap := cap) m isLitEnd r c _ (s.left + 2) h' ha hc (by omega)
  have h2 := moveUntilS_kept (cap := cap) isLitEnd r c _ 0 (s.left + 2) h' ha hk hc (by omega)
    (by simp only [Nat.zero_add]; exact hl)
  have hcl : ∀ {s' : SIn} {c r : Bytes}, Inv s' c r → Inv { s' with anchor := none } c r := fun h =>
    ⟨h.pos_le, h.stop_le, fun a ha => (nomatch ha), h.eof, h.before, h.after⟩
  unfold readUntilS
  rcases h1 with ⟨x, t, s', k1, k2, k3, k4, k5, k6⟩ | ⟨k1, k2⟩
  · rw [k4] at h2 ⊢
    rcases h2 with h2 | ⟨n, s2, e, h2⟩
    · cases h2
    · cases e
      refine .inl ⟨x, t, { s' with anchor := none }, k1, k2, k3, ?_, hcl k5, k6⟩
      simp only [Res.ok_bind]
      rw [back_inv k5 rfl (by omega)]
      rfl
  · refine .inr ⟨k1, ?_⟩
    rcases k2 with k2 | ⟨s', k2, k3, k4⟩
    · rw [k2]
      exact .inl rfl
    · rw [k2] at h2 ⊢
      rcases h2 with h2 | ⟨n, s2, e, h2⟩
      · cases h2
      · cases e
        refine .inr ⟨{ s' with anchor := none }, ?_, c ++ r, hcl k3, k4, List.length_append⟩
        simp only [Res.ok_bind]
        rw [back_inv k3 rfl (by omega)]
        rfl

/-! ### Comments -/

theorem atTwoS_inv {b e : UInt8} {x y : UInt8} (h : Inv s c (b :: e :: r)) (hs : s.pos + 2 ≤ s.stop) :
    atTwoS x y s = .ok (b == x && e == y) := by
  have hb := h.stop_le
  unfold atTwoS
  rw [cur_cons h ⟨by omega, .inl (by omega)⟩]
  simp only [SRes.res_ok, Res.ok_bind]
  split
  · rename_i he
    rw [curAt_inv h (by omega) rfl]
    simp only [SRes.res_ok, Res.ok_bind, he, beq_self_eq_true, Bool.true_and]
  · rename_i he
    rw [show (b == x) = false from by simpa using he]
    rfl

theorem moveUntilCloseS_inv (m : Mem) : ∀ (r c : Bytes) (s : SIn) (fuel : Nat), Inv s c r →
    c.length + r.length + 1024 ≤ cap → r.length < fuel →
    (∃ x t s', r = x ++ t ∧ t ≠ [] ∧ moveUntilClose m r = .ok t ∧ moveUntilCloseS cap fuel s = .ok s' ∧
      Inv s' (c ++ x) t ∧ Ahead s') ∨
    (moveUntilClose m r = .err ∧ moveUntilCloseS cap fuel s = .err) := by
  intro r
  induction r with
  | nil =>
    intro c s fuel h hc hf
    obtain ⟨fuel, rfl⟩ : ∃ k, fuel = k + 1 := ⟨fuel - 1, by simp only [List.length_nil] at hf; omega⟩
    refine .inr ⟨rfl, ?_⟩
    rw [moveUntilCloseS]
    rcases tryPeek_inv (n := 2) (by decide) h hc with ⟨s', -, h2, -⟩ | ⟨s', h1, -, h3, h4, -⟩
    · simp at h2
    · rw [h1]
      simp only [List.length_nil] at h4
      have := h3.pos_le
      simp only [SRes.res_ok, Res.ok_bind, Bool.false_eq_true, if_false]
      rw [move_eof rfl (by decide) (by simp only; omega)]
      rfl
  | cons b r ih =>
    intro c s fuel h hc hf
    simp only [List.length_cons] at hc hf
    obtain ⟨fuel, rfl⟩ : ∃ k, fuel = k + 1 := ⟨fuel - 1, by omega⟩
    rw [moveUntilCloseS]
    cases r with
    | nil =>
      refine .inr ⟨?_, ?_⟩
      · rw [moveUntilClose]
        · rfl
        · intro s' _ h; cases h
      · rcases tryPeek_inv (n := 2) (by decide) h (by simpa using hc) with ⟨s', -, h2, -⟩ | ⟨s', h1, -, h3, h4, -⟩
        · simp at h2
        · rw [h1]
          simp only [List.length_singleton] at h4
          have := h3.pos_le
          simp only [SRes.res_ok, Res.ok_bind, Bool.false_eq_true, if_false]
          rw [move_eof rfl (by decide) (by simp only; omega)]
          rfl
    | cons e r =>
      rcases tryPeek_inv (n := 2) (by decide) h (by simpa using hc) with ⟨s', h1, -, h3, h4, h5, -⟩ | ⟨s', -, h2, -⟩
      · rw [h1]
        simp only [SRes.res_ok, Res.ok_bind, if_true, atTwoS_inv h3 h4]
        split
        · rename_i hb
          simp only [Bool.and_eq_true, beq_iff_eq] at hb
          obtain ⟨rfl, rfl⟩ := hb
          exact .inl ⟨[], 42 :: 47 :: r, s', rfl, by simp, rfl, rfl, by simpa using h3, by omega, .inl (by omega)⟩
        · rename_i hb
          have hstep : moveUntilClose m (b :: e :: r) = moveUntilClose m (e :: r) := by
            rw [moveUntilClose]
            intro t k1 k2
            cases k2
            exact hb (by simp [k1])
          rw [hstep]
          rcases Stream.move_one h3 (by simpa using hc) with ⟨k, -⟩ | ⟨b', r', s2, k1, k2, k3, k4⟩
          · cases k
          · cases k1
            rw [k2]
            simp only [SRes.res_ok, Res.ok_bind]
            rcases ih (c ++ [b]) s2 fuel k3 (by simp only [List.length_append, List.length_cons, List.length_nil] at hc ⊢; omega)
              (by simp only [List.length_cons] at hf ⊢; omega) with ⟨x, t, s3, i1, i2, i3, i4, i5, i6⟩ | i
            · exact .inl ⟨b :: x, t, s3, by rw [i1]; rfl, i2, i3, i4, by simpa using i5, i6⟩
            · exact .inr i
      · simp only [List.length_cons] at h2; omega

/-! ### Strings -/

/-- Outcomes of reading a string that correspond; `c` was read, `r` was left. -/
def StrRel (c r : Bytes) (x : Res (Bytes × Cap × Bytes)) (y : Res (Bytes × Cap × SIn)) : Prop :=
  (∃ w t bs cp s', r = w ++ t ∧ t ≠ [] ∧ x = .ok (bs, cp, t) ∧ y = .ok (bs, cp, s') ∧ Inv s' (c ++ w) t ∧ Ahead s') ∨
  (x = .ub ∧ y = .ub) ∨
  (x = .err ∧ (y = .err ∨ ∃ bs cp s', y = .ok (bs, cp, s') ∧ Over (c.length + r.length) s'))

theorem StrRel.map {w r2 : Bytes} {x : Res (Bytes × Cap × Bytes)} {y : Res (Bytes × Cap × SIn)}
    (h : StrRel (c ++ w) r2 x y) (g : Bytes → Bytes) :
    StrRel c (w ++ r2) (x >>= fun z => .ok (g z.1, z.2.1, z.2.2)) (y >>= fun z => .ok (g z.1, z.2.1, z.2.2)) := by
  rcases h with ⟨w', t, bs, cp, s', rfl, h2, rfl, rfl, h5, h6⟩ | ⟨rfl, rfl⟩ | ⟨rfl, rfl | ⟨bs, cp, s', rfl, h⟩⟩
  · exact .inl ⟨w ++ w', t, g bs, cp, s', by simp, h2, rfl, rfl, by simpa using h5, h6⟩
  · exact .inr (.inl ⟨rfl, rfl⟩)
  · exact .inr (.inr ⟨rfl, .inl rfl⟩)
  · refine .inr (.inr ⟨rfl, .inr ⟨g bs, cp, s', rfl, ?_⟩⟩)
    rw [List.length_append, Nat.add_assoc] at h
    rw [List.length_append]
    exact h

theorem readStringS_eof {fuel : Nat} {cp : Cap} {steps : Nat} (he : s.eof = true) (hs : s.stop ≤ s.pos) :
    readStringS cap (fuel + 1) cp steps s = .err := by
  rw [readStringS, peek_eof he (by decide) hs]
  rfl

theorem readStringS_nil {fuel : Nat} {cp : Cap} {steps : Nat} (h : Inv s c []) (hc : c.length + 1024 ≤ cap) :
    readStringS cap (fuel + 2) cp steps s = .err ∨
    ∃ bs cp' s', readStringS cap (fuel + 2) cp steps s = .ok (bs, cp', s') ∧ Over c.length s' := by
  rw [readStringS]
  rcases peek_inv (cap := cap) (n := 0) (by decide) h with ⟨-, h2⟩ | ⟨-, h2⟩ | ⟨s1, h1, -, h3, h4, h5⟩
  · omega
  · simp at h2
  · have ha : Ahead s1 := h5 (by decide)
    obtain ⟨b, hb⟩ := cur_nil h3 ha
    rw [h1]
    simp only [SRes.res_ok, Res.ok_bind, hb]
    split
    · exact .inr ⟨[], cp, s1, rfl, c, h3, ha, rfl⟩
    · rcases tryPeek_inv (n := 2) (by decide) h3 (by simpa using hc) with ⟨s', -, k2, -⟩ | ⟨s2, k1, -, k3, k4, k5⟩
      · simp at k2
      · left
        rw [k1]
        simp only [List.length_nil] at k4
        have kp := k3.pos_le
        simp only [SRes.res_ok, Res.ok_bind, Bool.false_eq_true, if_false]
        obtain ⟨b', hb'⟩ : ∃ b', Stream.cur { s2 with eof := true } = .ok b' := by
          obtain ⟨b', h⟩ := curAt_some (s := s2) (i := 0) (by omega)
          exact ⟨b', h⟩
        rw [hb']
        simp only [SRes.res_ok, Res.ok_bind]
        have fin : ∀ (i n : Nat) (cp : Cap),
            readStringS cap (fuel + 1) cp n { s2 with pos := s2.pos + i, eof := true } = .err := fun i n cp =>
          readStringS_eof rfl (by simp only; omega)
        have hdef : ∀ (cp : Cap) (n : Nat) (g : Bytes → Bytes),
            (readStringS cap (fuel + 1) cp n { s2 with pos := s2.pos + 1, eof := true } >>= fun z =>
              (.ok (g z.1, z.2.1, z.2.2) : Res (Bytes × Cap × SIn))) = .err := fun cp n g => by rw [fin 1]; rfl
        split
        · obtain ⟨e, he⟩ : ∃ e, curAt 1 { s2 with eof := true } = .ok e :=
            curAt_some (s := { s2 with eof := true }) (i := 1) (by simp only; omega)
          rw [he]
          simp only [SRes.res_ok, Res.ok_bind, Option.bind_some]
          split
          · rw [fin 2]; rfl
          · unfold ucLiteralS
            rw [block_eof rfl (by decide) (by simp only; omega)]
            rfl
          · rw [fin 1]; rfl
        · simp only [Res.ok_bind, Option.bind_none]
          rw [fin 1]
          rfl

theorem ucLiteralS_inv {m : Mem} (hm : m.Sane) (cp : Cap) (idx : Nat) (h : Inv s c r)
    (hc : c.length + r.length + 1024 ≤ cap) :
    (∃ x t u cp' s', r = x ++ t ∧ x.length = 6 ∧ ucLiteral m cp idx r = .ok (u, cp', t) ∧
      ucLiteralS cap cp idx s = .ok (u, cp', s') ∧ Inv s' (c ++ x) t) ∨
    (ucLiteral m cp idx r = .ub ∧ ucLiteralS cap cp idx s = .ub) ∨
    (ucLiteral m cp idx r = .err ∧ ucLiteralS cap cp idx s = .err) := by
  rcases readBlock_six hm r with h1 | ⟨x, t, h1, h2, h3⟩
  · have hl : r.length < 6 := by
      apply Decidable.byContradiction
      intro hl
      have := In.readBlock_ok hm (n := 6) (s := r) (by omega)
      rw [h1] at this
      cases this
    refine .inr (.inr ⟨by unfold ucLiteral; rw [h1]; rfl, ?_⟩)
    unfold ucLiteralS
    rcases block_inv (cap := cap) (n := 6) (by decide) h with ⟨-, k⟩ | ⟨k, -⟩ | ⟨s', -, k, -⟩
    · omega
    · rw [k]; rfl
    · omega
  · subst h2
    rcases block_inv (cap := cap) (n := 6) (by decide) h with ⟨-, k⟩ | ⟨-, k⟩ | ⟨s', k1, k2, k3, -⟩
    · omega
    · rw [List.length_append] at k; omega
    · rw [List.take_left' h1] at k1 k3
      rw [List.drop_left' h1] at k3
      rw [ucLiteral_block h3]
      unfold ucLiteralS
      rw [k1]
      have e : (do
          let hex ← Hex.decodeTo 2 (x.drop 2)
          let (t, c) ← convUnit cp idx ((hex.getD 0 0).toNat + 256 * (hex.getD 1 0).toNat)
          Res.ok (t, c, s')) = (do let (u, c) ← ucConv cp idx x; .ok (u, c, s')) := by
        unfold ucConv
        cases Hex.decodeTo 2 (x.drop 2) <;> rfl
      simp only [SRes.res_ok, Res.ok_bind]
      rw [e]
      cases hu : ucConv cp idx x with
      | ok y => exact .inl ⟨x, t, y.1, y.2, s', rfl, h1, rfl, rfl, k3⟩
      | err => exact .inr (.inr ⟨rfl, rfl⟩)
      | ub => exact .inr (.inl ⟨rfl, rfl⟩)
      | fuel => exact absurd hu (ucConv_nofuel _ _ _)

/-- One byte is left and it is not a quotation mark. -/
theorem readStringS_last {b : UInt8} {fuel : Nat} {cp : Cap} {steps : Nat} (h : Inv s c [b]) (hb : b ≠ 34)
    (hc : c.length + 1025 ≤ cap) : readStringS cap (fuel + 2) cp steps s = .err := by
  rw [readStringS]
  rcases peek_inv (cap := cap) (n := 0) (by decide) h with ⟨-, h2⟩ | ⟨-, h2⟩ | ⟨s1, h1, -, h3, h4, h5⟩
  · omega
  · simp at h2
  · have ha : Ahead s1 := h5 (by decide)
    rw [h1]
    simp only [SRes.res_ok, Res.ok_bind, cur_cons h3 ha, if_neg hb]
    rcases tryPeek_inv (n := 2) (by decide) h3 (by simpa using hc) with ⟨s', -, k2, -⟩ | ⟨s2, k1, -, k3, k4, k5⟩
    · simp at k2
    · rw [k1]
      simp only [List.length_singleton] at k4
      have kp := k3.pos_le
      have hleft : (2 ^ 64 + s2.stop - s2.pos - 1) % 2 ^ 64 = 0 := by
        rw [show 2 ^ 64 + s2.stop - s2.pos - 1 = 2 ^ 64 by omega]
      have hcur : Stream.cur { s2 with eof := true } = .ok b := cur_cons (s := s2) k3 ⟨by omega, .inl (by omega)⟩
      simp only [SRes.res_ok, Res.ok_bind, Bool.false_eq_true, if_false, hleft, hcur]
      rw [if_neg (by omega)]
      simp only [Res.ok_bind, Option.bind_none]
      rw [readStringS_eof rfl (by simp only; omega)]
      rfl

/-- Two bytes are left; what is done next -/
theorem readStringS_two {b e : UInt8} {r : Bytes} {fuel : Nat} {cp : Cap} {steps : Nat} (h : Inv s c (b :: e :: r))
    (hb : b ≠ 34) (hc : c.length + r.length + 1026 ≤ cap) :
    ∃ s2, Inv s2 c (b :: e :: r) ∧ s2.pos + 2 ≤ s2.stop ∧
      readStringS cap (fuel + 1) cp steps s =
        (match (if b = 92 then some e else none : Option UInt8).bind unescapeByte,
          (if b = 92 then some e else none : Option UInt8) with
        | some r, _ => do
          let (bs, c, s) ← readStringS cap fuel (cp.grow steps) (steps + 1) { s2 with pos := s2.pos + 2 }
          .ok (r :: bs, c, s)
        | none, some 117 => do
          let (t, c, s) ← ucLiteralS cap (cp.grow steps) steps s2
          let (bs, c, s) ← readStringS cap fuel c (steps + t.length) s
          .ok (t ++ bs, c, s)
        | none, _ => do
          let (bs, c, s) ← readStringS cap fuel (cp.grow steps) (steps + 1) { s2 with pos := s2.pos + 1 }
          .ok (b :: bs, c, s)) := by
  rcases peek_inv (cap := cap) (n := 0) (by decide) h with ⟨-, h2⟩ | ⟨-, h2⟩ | ⟨s1, h1, -, h3, h4, h5⟩
  · omega
  · simp at h2
  · have ha : Ahead s1 := h5 (by decide)
    rcases tryPeek_inv (n := 2) (cap := cap) (by decide) h3 (by simp only [List.length_cons]; omega) with
      ⟨s2, k1, -, k3, k4, k5, -⟩ | ⟨s2, -, k2, -⟩
    · refine ⟨s2, k3, k4, ?_⟩
      rw [readStringS, h1]
      simp only [SRes.res_ok, Res.ok_bind, cur_cons h3 ha, if_neg hb, k1, if_true,
        cur_cons k3 ⟨by omega, .inl (by omega)⟩, Nat.le_refl, true_and, curAt_inv k3 (i := 1) (by omega) rfl]
      by_cases h92 : b = 92
      · simp only [if_pos h92, Res.ok_bind]
        rfl
      · simp only [if_neg h92, Res.ok_bind]
        rfl
    · simp only [List.length_cons] at k2; omega

theorem readStringS_inv {m : Mem} (hm : m.Sane) {past : UInt8} (hp : m.past = some past) :
    ∀ (k : Nat) (r c : Bytes) (s : SIn) (cp : Cap) (steps fuel fuelS : Nat), r.length ≤ k → Inv s c r →
    c.length + r.length + 1024 ≤ cap → r.length < fuel → r.length + 1 < fuelS →
    StrRel c r (readString m fuel cp steps r) (readStringS cap fuelS cp steps s) := by
  have hnil : ∀ (c : Bytes) (s : SIn) (cp : Cap) (steps fuel fuelS : Nat), Inv s c [] →
      c.length + 1024 ≤ cap → 0 < fuel → 1 < fuelS →
      StrRel c [] (readString m fuel cp steps []) (readStringS cap fuelS cp steps s) := by
    intro c s cp steps fuel fuelS h hc hf hfs
    obtain ⟨fuel, rfl⟩ : ∃ k, fuel = k + 1 := ⟨fuel - 1, by omega⟩
    obtain ⟨fuelS, rfl⟩ : ∃ k, fuelS = k + 2 := ⟨fuelS - 2, by omega⟩
    exact .inr (.inr ⟨by rw [readString, hp], readStringS_nil h hc⟩)
  intro k
  induction k with
  | zero =>
    intro r c s cp steps fuel fuelS hk h hc hf hfs
    obtain rfl : r = [] := List.length_eq_zero_iff.mp (by omega)
    exact hnil c s cp steps fuel fuelS h (by simpa using hc) (by simpa using hf) (by simpa using hfs)
  | succ k ih =>
    intro r c s cp steps fuel fuelS hk h hc hf hfs
    cases r with
    | nil => exact hnil c s cp steps fuel fuelS h (by simpa using hc) (by simpa using hf) (by simpa using hfs)
    | cons b r =>
      simp only [List.length_cons] at hk hc hf hfs
      obtain ⟨fuel, rfl⟩ : ∃ k, fuel = k + 1 := ⟨fuel - 1, by omega⟩
      obtain ⟨fuelS, rfl⟩ : ∃ k, fuelS = k + 1 := ⟨fuelS - 1, by omega⟩
      by_cases hb : b = 34
      · subst hb
        rcases peek_inv (cap := cap) (n := 0) (by decide) h with ⟨-, h2⟩ | ⟨-, h2⟩ | ⟨s1, h1, -, h3, h4, h5⟩
        · omega
        · simp at h2
        · have ha : Ahead s1 := h5 (by decide)
          refine .inl ⟨[], 34 :: r, [], cp, s1, rfl, by simp, ?_, ?_, by simpa using h3, ha⟩
          · rw [readString, if_pos rfl]
          · rw [readStringS, h1]
            simp only [SRes.res_ok, Res.ok_bind, cur_cons h3 ha, if_true]
      · cases r with
        | nil =>
          obtain ⟨fuelS, rfl⟩ : ∃ k, fuelS = k + 1 := ⟨fuelS - 1, by omega⟩
          refine .inr (.inr ⟨?_, .inl (readStringS_last h hb (by simpa using hc))⟩)
          obtain ⟨fuel, rfl⟩ : ∃ k, fuel = k + 1 := ⟨fuel - 1, by simp at hf; omega⟩
          have e : ∀ cp n, readString m (fuel + 1) cp n [] = .err := fun cp n => by rw [readString, hp]
          cases at_any b [] with
          | close => exact absurd rfl hb
          | plain _ _ h1 h2 => rw [readString_plain _ _ _ _ _ _ hb h2, e]; rfl
          | last => rw [readString_last, e]; rfl
        | cons e r =>
          simp only [List.length_cons] at hk hc hf hfs
          obtain ⟨s2, k1, k2, k3⟩ := readStringS_two (fuel := fuelS) (cp := cp) (steps := steps) h hb (by omega)
          rw [k3]
          have hone : Inv { s2 with pos := s2.pos + 1 } (c ++ [b]) (e :: r) := inv_bump k1 (by omega)
          have htwo : Inv { s2 with pos := s2.pos + 2 } (c ++ [b, e]) r := inv_bump k1 (by omega)
          have i1 : ∀ cp steps, StrRel (c ++ [b]) (e :: r) (readString m fuel cp steps (e :: r))
              (readStringS cap fuelS cp steps { s2 with pos := s2.pos + 1 }) := fun cp steps =>
            ih _ _ _ _ _ _ _ (by simp only [List.length_cons]; omega) hone
              (by simp only [List.length_append, List.length_cons, List.length_nil]; omega)
              (by simp only [List.length_cons]; omega) (by simp only [List.length_cons]; omega)
          have i2 : ∀ cp steps, StrRel (c ++ [b, e]) r (readString m fuel cp steps r)
              (readStringS cap fuelS cp steps { s2 with pos := s2.pos + 2 }) := fun cp steps =>
            ih _ _ _ _ _ _ _ (by omega) htwo
              (by simp only [List.length_append, List.length_cons, List.length_nil]; omega) (by omega) (by omega)
          have hat := at_any b (e :: r)
          generalize ht : e :: r = tail at hat
          cases hat with
          | close => exact absurd rfl hb
          | plain _ _ h1 h2 =>
            subst ht
            rw [readString_plain _ _ _ _ _ _ hb h2]
            simp only [if_neg h2, Option.bind_none]
            exact (i1 _ _).map (w := [b]) (fun bs => b :: bs)
          | last => cases ht
          | escaped e' x t hu =>
            cases ht
            rw [readString_escaped _ _ _ _ _ _ _ hu]
            simp only [if_true, Option.bind_some, hu]
            exact (i2 _ _).map (w := [92, e]) (fun bs => x :: bs)
          | uc t =>
            cases ht
            rw [readString_uc]
            have hu : unescapeByte 117 = none := by decide
            simp only [if_true, Option.bind_some, hu]
            rcases ucLiteralS_inv (cap := cap) hm (cp.grow steps) steps k1
              (by simp only [List.length_cons]; omega) with ⟨x, t', u, cp', s', e1, e2, e3, e4, e5⟩ | ⟨e1, e2⟩ | ⟨e1, e2⟩
            · rw [e3, e4, e1]
              simp only [Res.ok_bind]
              have hl := congrArg List.length e1
              simp only [List.length_append, List.length_cons] at hl
              exact (ih t' (c ++ x) s' cp' (steps + u.length) fuel fuelS (by omega) e5
                (by simp only [List.length_append]; omega) (by omega) (by omega)).map (fun bs => u ++ bs)
            · rw [e1, e2]
              exact .inr (.inl ⟨rfl, rfl⟩)
            · rw [e1, e2]
              exact .inr (.inr ⟨rfl, .inl rfl⟩)
          | odd e' t hu h117 =>
            cases ht
            rw [readString_odd _ _ _ _ _ _ hu h117]
            simp only [if_true, Option.bind_some, hu]
            have := (i1 (cp.grow steps) (steps + 1)).map (w := [92]) (fun bs => 92 :: bs)
            split
            · rename_i h; cases h
            · rename_i h; simp only [Option.some.injEq] at h; exact absurd h h117
            · exact this

/-! ### One round -/

/-- The byte behind the source does not close a scope. -/
def Harmless (m : Mem) : Prop := ∃ p, m.past = some p ∧ p ≠ 125 ∧ p ≠ 93

theorem Harmless.past {m : Mem} (h : Harmless m) : m.past ≠ none := by
  obtain ⟨p, h, -⟩ := h
  rw [h]
  exact fun h => nomatch h

/-- Skipping a comment and the byte behind it -/
theorem skipCommentS_inv {m : Mem} (hm : m.Sane) (hp : m.past ≠ none) {b : UInt8} (hb : b = 47) (h : Inv s c (b :: r))
    (hc : c.length + r.length + 1025 ≤ cap) :
    (∃ t s' c', (skipComment m (b :: r) >>= In.move m 1) = .ok t ∧
      (skipCommentS cap s >>= fun s => (Stream.move cap 1 s).res) = .ok s' ∧ Inv s' c' t ∧ Ahead s' ∧
      c'.length + t.length = c.length + r.length + 1) ∨
    (((skipComment m (b :: r) >>= In.move m 1) = .err ∨ (skipComment m (b :: r) >>= In.move m 1) = .ok []) ∧
      ((skipCommentS cap s >>= fun s => (Stream.move cap 1 s).res) = .err ∨
      ∃ s', (skipCommentS cap s >>= fun s => (Stream.move cap 1 s).res) = .ok s' ∧
        Over (c.length + r.length + 1) s')) := by
  have mv : ∀ {s : SIn} {c' : Bytes} {b : UInt8} {t : Bytes}, Inv s c' (b :: t) → c'.length + t.length + 1025 ≤ cap →
      ∃ s', (Stream.move cap 1 s).res = .ok s' ∧ Inv s' (c' ++ [b]) t ∧ Ahead s' := by
    intro s c' b t h hc
    rcases Stream.move_one h (by simp only [List.length_cons]; omega) with ⟨h1, -⟩ | ⟨b', r', s1, h1, h2, h3, h4⟩
    · cases h1
    · cases h1
      exact ⟨s1, by rw [h2]; rfl, h3, h4⟩
  have hp1 : In.tryPeek 1 (b :: r) = true := by simp [In.tryPeek]
  unfold skipComment skipCommentS
  simp only [hp1, if_true, List.drop_succ_cons, List.drop_zero]
  rcases tryPeek_inv (n := 1) (by decide) h (by simp only [List.length_cons]; omega) with
    ⟨s1, h1, -, h3, h4, h5, h6⟩ | ⟨s1, -, h2, -⟩
  case inr => simp only [List.length_cons] at h2; omega
  have ha1 : Ahead s1 := ⟨by omega, .inl (by omega)⟩
  rw [h1]
  simp only [SRes.res_ok, Res.ok_bind, if_true]
  have hleft : s1.left = r.length + 1 := h3.left
  have hmove := mv h3 hc
  cases r with
  | nil =>
    right
    simp only [List.length_nil, Nat.add_zero] at hc hleft
    constructor
    · rcases cur_nil_cases m with ⟨k1, -⟩ | ⟨p, k1, k2⟩
      · exact absurd k1 hp
      · rw [k2]
        simp only [Res.ok_bind]
        split
        · left
          rw [moveUntilClose]
          · rfl
          · intro s' _ h; cases h
        · split
          · left
            rename_i k3
            rw [moveUntil, if_neg (by rw [hb]; decide), moveUntil, k2, Res.ok_bind, k3]
            rfl
          · right
            simp only [Res.ok_bind]
            exact move_one hm _ _
    · obtain ⟨n, hn⟩ := curAt_some (s := s1) (i := 1) (h6 (by decide)).1
      rw [hn]
      simp only [SRes.res_ok, Res.ok_bind]
      split
      · rcases moveUntilCloseS_inv (cap := cap) m [b] c s1 (s1.left + 2) h3
          (by simp only [List.length_singleton]; omega) (by simp only [List.length_singleton]; omega) with
          ⟨x, t, s', k1, k2, k3, -⟩ | ⟨-, k⟩
        · exfalso
          rw [moveUntilClose] at k3
          · cases k3
          · intro s' _ h; cases h
        · rw [k]; exact .inl rfl
      · split
        · rcases moveUntilS_inv (cap := cap) m (fun b => b == 10 || b == 13) [b] c s1 (s1.left + 2) h3 ha1
            (by simp only [List.length_singleton]; omega) (by simp only [List.length_singleton]; omega) with
            ⟨x, t, s', k1, k2, k3, -⟩ | ⟨-, k | ⟨s', k, k2, k3⟩⟩
          · exfalso
            have := moveUntil_shorter k3 (by rw [hb]; rfl)
            obtain ⟨y, hy⟩ := this
            exact k2 (List.append_eq_nil_iff.mp hy.symm).2
          · rw [k]; exact .inl rfl
          · rw [k]
            left
            simp only [Res.ok_bind]
            rw [Stream.move_nil k2 (by simp only [List.length_append, List.length_singleton]; omega)]
            rfl
        · obtain ⟨s', e1, e2, e3⟩ := hmove
          exact .inr ⟨s', e1, c ++ [b], e2, e3, by simp⟩
  | cons n r =>
    simp only [List.length_cons] at hc hleft
    have hcn : In.cur m (n :: r) = .ok n := rfl
    have hsn : s1.pos + 1 < s1.stop := by
      rcases (h6 (by decide)).2 with k | k
      · exact k
      · have := h3.left
        rw [k] at this
        simp only [List.length_cons, List.length_nil] at this
        omega
    rw [hcn, curAt_inv h3 hsn rfl]
    simp only [SRes.res_ok, Res.ok_bind]
    have fin : ∀ {t : Bytes} {s' : SIn} {x : Bytes}, b :: n :: r = x ++ t → t ≠ [] → Inv s' (c ++ x) t →
        ∃ t' s2 c', In.move m 1 t = .ok t' ∧ (Stream.move cap 1 s').res = .ok s2 ∧ Inv s2 c' t' ∧ Ahead s2 ∧
          c'.length + t'.length = c.length + (r.length + 1) + 1 := by
      intro t s' x e1 e2 e3
      have hl := congrArg List.length e1
      simp only [List.length_cons, List.length_append] at hl
      cases t with
      | nil => exact absurd rfl e2
      | cons a t =>
        simp only [List.length_cons] at hl
        obtain ⟨s2, k1, k2, k3⟩ := mv e3 (by simp only [List.length_append]; omega)
        exact ⟨t, s2, _, move_one hm _ _, k1, k2, k3, by
          simp only [List.length_append, List.length_singleton]; omega⟩
    simp only [List.length_cons]
    split
    · rcases moveUntilCloseS_inv (cap := cap) m (b :: n :: r) c s1 (s1.left + 2) h3
        (by simp only [List.length_cons]; omega) (by simp only [List.length_cons]; omega) with
        ⟨x, t, s', k1, k2, k3, k4, k5, k6⟩ | ⟨k1, k2⟩
      · rw [k3, k4]
        exact .inl (fin k1 k2 k5)
      · rw [k1, k2]
        exact .inr ⟨.inl rfl, .inl rfl⟩
    · split
      · rcases moveUntilS_inv (cap := cap) m (fun b => b == 10 || b == 13) (b :: n :: r) c s1 (s1.left + 2) h3 ha1
          (by simp only [List.length_cons]; omega) (by simp only [List.length_cons]; omega) with
          ⟨x, t, s', k1, k2, k3, k4, k5, k6⟩ | ⟨k1, k2⟩
        · rw [k3, k4]
          exact .inl (fin k1 k2 k5)
        · right
          constructor
          · left
            rcases k1 with k1 | k1 | k1
            · rw [k1]; exact PJson.move_nil hm
            · rw [k1]; rfl
            · exact absurd k1 hp
          · left
            rcases k2 with k2 | ⟨s', k2, k3, -⟩
            · rw [k2]; rfl
            · rw [k2]
              simp only [Res.ok_bind]
              rw [Stream.move_nil k3 (by simp only [List.length_append, List.length_cons]; omega)]
              rfl
      · exact .inl (fin (x := []) rfl (by simp) (by simpa using h3))

/-- Outcomes of a round that correspond -/
def RoundRel (total : Nat) (x : Res (Step × Rd × Bytes)) (y : Res (Step × Rd × SIn)) : Prop :=
  (∃ a rd t s' c', x = .ok (a, rd, t) ∧ y = .ok (a, rd, s') ∧ Inv s' c' t ∧ Ahead s' ∧
    c'.length + t.length = total) ∨
  (x = .ub ∧ y = .ub) ∨
  ((x = .err ∨ ∃ st rd, x = .ok (.more st, rd, [])) ∧
    (y = .err ∨ ∃ a rd s', y = .ok (a, rd, s') ∧ Over total s' ∧ Open a))

section
variable (strtod : Bytes → Option UInt64)

/-- Behind the end of the source nothing can be read. -/
theorem dispatchS_over {rd : Rd} {st : State} (h : Inv s c []) (ha : Ahead s) (hc : c.length + 1024 ≤ cap) :
    dispatchS cap strtod rd st s = .err := by
  unfold dispatchS
  obtain ⟨b, hb⟩ := Stream.cur_nil h ha
  have hmv : (Stream.move cap 1 s).res = .err := by rw [Stream.move_nil h hc]; rfl
  rw [hb]
  simp only [SRes.res_ok, Res.ok_bind, hmv, Res.err_bind]
  by_cases c1 : b = 34
  · rw [if_pos c1]
    unfold processQuoteS
    cases rd.stack with
    | nil => rfl
    | cons a l => simp only [hmv, Res.err_bind]
  rw [if_neg c1]
  by_cases c2 : b = 58
  · rw [if_pos c2]; split <;> rfl
  rw [if_neg c2]
  by_cases c3 : b = 123 ∨ b = 125 ∨ b = 91 ∨ b = 93
  · rw [if_pos c3]
    unfold processBracket
    repeat' split
    all_goals simp [Res.ok_bind, Res.err_bind]
  rw [if_neg c3]
  by_cases c4 : b = 47
  · rw [if_pos c4]
    unfold skipCommentS
    rcases tryPeek_inv (n := 1) (by decide) h (by simpa using hc) with ⟨s1, -, k, -⟩ | ⟨s1, k1, -, k3, k4, -⟩
    · simp at k
    · rw [k1]
      simp only [List.length_nil] at k4
      have := k3.pos_le
      simp only [SRes.res_ok, Res.ok_bind, Bool.false_eq_true, if_false]
      rw [move_eof rfl (by decide) (by simp only; omega)]
      rfl
  rw [if_neg c4]
  unfold processCharS
  by_cases hl : isLit b = true
  · rw [if_pos hl]
    unfold readUntilS
    have h' : Inv { s with anchor := some s.pos } c [] :=
      ⟨h.pos_le, h.stop_le, fun a ha => by cases ha; exact Nat.le_refl _, h.eof, h.before, h.after⟩
    have hb' : Stream.cur { s with anchor := some s.pos } = .ok b := hb
    rw [show s.left + 2 = (s.left + 1) + 1 from rfl, moveUntilS, hb']
    simp only [SRes.res_ok, Res.ok_bind, lit_no_end b hl, Bool.false_eq_true, if_false]
    rw [Stream.move_nil h' hc]
    rfl
  · rw [if_neg hl]
    simp only [Res.ok_bind, if_true, hmv, Res.err_bind]

theorem roundS_over {rd : Rd} {st : State} (h : Inv s c []) (ha : Ahead s) (hc : c.length + 1024 ≤ cap) :
    roundS cap strtod rd st s = .err := by
  unfold roundS skipS
  have hl : s.left = 0 := h.left
  rcases moveUntilS_inv (cap := cap) ⟨some 0, 0⟩ (if !st.readingValue && rd.stack.head? != some .array then isDelim
      else fun b => !isBlank b) [] c s (s.left + 2) h ha (by simpa using hc) (by simp) with
    ⟨x, t, s', k1, k2, -⟩ | ⟨-, k | ⟨s', k1, k2, k3⟩⟩
  · exact absurd (List.append_eq_nil_iff.mp k1.symm).2 k2
  · rw [k]; rfl
  · rw [k1]
    simp only [Res.ok_bind]
    rw [List.append_nil] at k2
    exact dispatchS_over strtod k2 k3 hc

theorem over_of {t : Bytes} {s' : SIn} {c' : Bytes} {total : Nat} (h : Inv s' c' t) (ha : Ahead s')
    (hl : c'.length + t.length = total) (ht : t = []) : Over total s' := by
  subst ht
  exact ⟨c', h, ha, by simpa using hl⟩

/-- A byte of the source -/
theorem dispatchS_inv {m : Mem} (hm : m.Sane) (hp : Harmless m) {rd : Rd} {st : State} {b : UInt8}
    (h : Inv s c (b :: r)) (ha : Ahead s) (hc : c.length + r.length + 1025 ≤ cap)
    (hl : isLit b = true → ShortLit (b :: r)) :
    RoundRel (c.length + r.length + 1) (dispatch m strtod rd st (b :: r)) (dispatchS cap strtod rd st s) := by
  have hpn := hp.past
  obtain ⟨past, hp1, hp2, hp3⟩ := hp
  have mv : ∀ {s : SIn} {c' : Bytes} {b : UInt8} {t : Bytes}, Inv s c' (b :: t) →
      c'.length + t.length = c.length + r.length →
      ∃ s', (Stream.move cap 1 s).res = .ok s' ∧ Inv s' (c' ++ [b]) t ∧ Ahead s' := by
    intro s c' b t h hc
    rcases Stream.move_one (cap := cap) h (by simp only [List.length_cons]; omega) with ⟨h1, -⟩ | ⟨b', r', s1, h1, h2, h3, h4⟩
    · cases h1
    · cases h1
      exact ⟨s1, by rw [h2]; rfl, h3, h4⟩
  obtain ⟨s1, hmv, h1, ha1⟩ := mv h rfl
  have hl1 : (c ++ [b]).length + r.length = c.length + r.length + 1 := by
    simp only [List.length_append, List.length_singleton]; omega
  have bad : ∀ {x : Res (Step × Rd × Bytes)} {y : Res (Step × Rd × SIn)}, x = .err → y = .err →
      RoundRel (c.length + r.length + 1) x y := fun hx hy => .inr (.inr ⟨.inl hx, .inl hy⟩)
  unfold dispatch dispatchS
  rw [Stream.cur_cons h ha]
  simp only [In.cur, SRes.res_ok, Res.ok_bind, hmv]
  by_cases c1 : b = 34
  · simp only [if_pos c1]
    unfold processQuote processQuoteS
    cases hst : rd.stack with
    | nil => exact bad rfl rfl
    | cons top stk =>
      simp only [move_one hm, hmv, Res.ok_bind]
      have hleft : s1.left = r.length := h1.left
      generalize hcap : (if st.name.isSome = true then rd.valCap else rd.nameCap) = sz
      have hs := readStringS_inv (cap := cap) hm hp1 r.length r (c ++ [b]) s1 ⟨sz, sz⟩ 0 (r.length + 1)
        (s1.left + 2) (Nat.le_refl _) h1 (by omega) (by omega) (by omega)
      rcases hs with ⟨w, t, bs, cp, s', e1, e2, e3, e4, e5, e6⟩ | ⟨e1, e2⟩ | ⟨e1, e2⟩
      · rw [e3, e4]
        simp only [Res.ok_bind]
        cases t with
        | nil => exact absurd rfl e2
        | cons q t =>
          have hlen := congrArg List.length e1
          simp only [List.length_append, List.length_cons] at hlen
          obtain ⟨s2, k1, k2, k3⟩ := mv e5 (by simp only [List.length_append, List.length_singleton]; omega)
          have hlen2 : (c ++ [b] ++ w ++ [q]).length + t.length = c.length + r.length + 1 := by
            simp only [List.length_append, List.length_singleton]; omega
          by_cases h3 : st.readingValue = true ∨ top = .array
          · simp only [if_pos h3, Res.ok_bind, move_one hm, k1]
            exact .inl ⟨_, _, t, s2, _, rfl, rfl, k2, k3, hlen2⟩
          · simp only [if_neg h3]
            by_cases h4 : st.name.isSome = true
            · simp only [if_pos h4]; exact bad rfl rfl
            · simp only [if_neg h4, Res.ok_bind, move_one hm, k1]
              exact .inl ⟨_, _, t, s2, _, rfl, rfl, k2, k3, hlen2⟩
      · rw [e1, e2]; exact .inr (.inl ⟨rfl, rfl⟩)
      · rw [e1]
        rcases e2 with e2 | ⟨bs, cp, s', e2, c', i1, i2, i3⟩
        · rw [e2]; exact bad rfl rfl
        · rw [e2]
          refine bad rfl ?_
          simp only [Res.ok_bind]
          have : (Stream.move cap 1 s').res = .err := by
            rw [Stream.move_nil i1 (by omega)]; rfl
          by_cases h3 : st.readingValue = true ∨ top = .array
          · simp only [if_pos h3, Res.ok_bind, this, Res.err_bind]
          · simp only [if_neg h3]
            by_cases h4 : st.name.isSome = true
            · simp only [if_pos h4]; rfl
            · simp only [if_neg h4, Res.ok_bind, this, Res.err_bind]
  simp only [if_neg c1]
  by_cases c2 : b = 58
  · simp only [if_pos c2]
    by_cases hv : st.readingValue = true
    · simp only [if_pos hv]; exact bad rfl rfl
    · simp only [if_neg hv, move_one hm, Res.ok_bind]
      exact .inl ⟨_, _, r, s1, _, rfl, rfl, h1, ha1, hl1⟩
  simp only [if_neg c2]
  by_cases c3 : b = 123 ∨ b = 125 ∨ b = 91 ∨ b = 93
  · simp only [if_pos c3, move_one hm]
    cases hb : processBracket rd b with
    | ok p => exact .inl ⟨_, _, r, s1, _, rfl, rfl, h1, ha1, hl1⟩
    | err => exact bad rfl rfl
    | ub => exact .inr (.inl ⟨rfl, rfl⟩)
    | fuel =>
      unfold processBracket at hb
      repeat' split at hb
      all_goals cases hb
  simp only [if_neg c3]
  by_cases c4 : b = 47
  · simp only [if_pos c4]
    have e1 : (do
        let s ← skipComment m (b :: r)
        let s ← In.move m 1 s
        Res.ok (Step.more st, rd, s)) = ((skipComment m (b :: r) >>= In.move m 1) >>= fun s => .ok (.more st, rd, s)) := by
      cases skipComment m (b :: r) <;> rfl
    have e2 : (do
        let s ← skipCommentS cap s
        let s ← (Stream.move cap 1 s).res
        Res.ok (Step.more st, rd, s)) =
        ((skipCommentS cap s >>= fun s => (Stream.move cap 1 s).res) >>= fun s => .ok (.more st, rd, s)) := by
      cases skipCommentS cap s <;> rfl
    rw [e1, e2]
    rcases skipCommentS_inv (cap := cap) hm hpn c4 h hc with ⟨t, s', c', k1, k2, k3, k4, k5⟩ | ⟨k1, k2⟩
    · rw [k1, k2]
      exact .inl ⟨_, _, t, s', c', rfl, rfl, k3, k4, k5⟩
    · refine .inr (.inr ⟨?_, ?_⟩)
      · rcases k1 with k1 | k1
        · rw [k1]; exact .inl rfl
        · rw [k1]; exact .inr ⟨_, _, rfl⟩
      · rcases k2 with k2 | ⟨s', k2, k3⟩
        · rw [k2]; exact .inl rfl
        · rw [k2]; exact .inr ⟨_, _, s', rfl, k3, trivial⟩
  simp only [if_neg c4]
  unfold processChar processCharS
  by_cases hlit : isLit b = true
  · simp only [if_pos hlit]
    rcases readUntilS_inv m h ha (by simp only [List.length_cons]; omega) (hl hlit) with
      ⟨x, t, s', k1, k2, k3, k4, k5, k6⟩ | ⟨k1, k2⟩
    · rw [k3, k4]
      simp only [Res.ok_bind]
      have hx : (b :: r).take ((b :: r).length - t.length) = x := by
        rw [k1, List.length_append, Nat.add_sub_cancel, List.take_left]
      rw [hx]
      have hlen := congrArg List.length k1
      simp only [List.length_append, List.length_cons] at hlen
      cases IntStr.strToType strtod (x.contains 46) x with
      | none => exact bad rfl rfl
      | some v =>
        cases t with
        | nil => exact absurd rfl k2
        | cons e t =>
          rw [Stream.cur_cons k5 k6]
          simp only [List.length_cons] at hlen
          simp only [In.cur, SRes.res_ok, Res.ok_bind]
          by_cases hb : (!(e == 125 || e == 93)) = true
          · obtain ⟨s2, j1, j2, j3⟩ := mv k5 (by simp only [List.length_append]; omega)
            simp only [if_pos hb, move_one hm, j1, Res.ok_bind]
            exact .inl ⟨_, _, t, s2, _, rfl, rfl, j2, j3, by
              simp only [List.length_append, List.length_singleton]; omega⟩
          · simp only [if_neg hb]
            exact .inl ⟨_, _, e :: t, s', _, rfl, rfl, k5, k6, by
              simp only [List.length_append, List.length_cons]; omega⟩
    · refine .inr (.inr ⟨.inl ?_, ?_⟩)
      · rcases k1 with k1 | k1 | k1
        · rw [k1]
          simp only [Res.ok_bind, List.length_nil, Nat.sub_zero, List.take_length]
          cases IntStr.strToType strtod ((b :: r).contains 46) (b :: r) with
          | none => rfl
          | some v =>
            have : (!(past == 125 || past == 93)) = true := by simp [hp2, hp3]
            have hcur : In.cur m [] = .ok past := by unfold In.cur; rw [hp1]
            simp only [hcur, Res.ok_bind, this, if_true, PJson.move_nil hm, Res.err_bind]
        · rw [k1]; rfl
        · exact absurd k1 hpn
      · rcases k2 with k2 | ⟨s', k2, c', i1, i2, i3⟩
        · rw [k2]; exact .inl rfl
        · rw [k2]
          simp only [Res.ok_bind]
          cases IntStr.strToType strtod ((b :: r).contains 46) (b :: r) with
          | none => exact .inl rfl
          | some v =>
            obtain ⟨e, he⟩ := Stream.cur_nil i1 i2
            rw [he]
            simp only [SRes.res_ok, Res.ok_bind]
            split
            · rw [Stream.move_nil i1 (by simp only [List.length_cons] at i3; omega)]
              exact .inl rfl
            · refine .inr ⟨_, _, s', rfl, ⟨c', i1, i2, ?_⟩, trivial⟩
              simp only [List.length_cons] at i3; omega
  · simp only [if_neg hlit, Res.ok_bind, if_true, move_one hm, hmv]
    exact .inl ⟨_, _, r, s1, _, rfl, rfl, h1, ha1, hl1⟩

theorem roundS_inv {m : Mem} (hm : m.Sane) (hp : Harmless m) {rd : Rd} {st : State}
    (h : Inv s c r) (ha : Ahead s) (hc : c.length + r.length + 1024 ≤ cap)
    (hl : ∀ b t, skip m rd st r = .ok (b :: t) → isLit b = true → ShortLit (b :: t)) :
    RoundRel (c.length + r.length) (round m strtod rd st r) (roundS cap strtod rd st s) := by
  have e : skip m rd st r = moveUntil m (if !st.readingValue && rd.stack.head? != some .array then isDelim
      else fun b => !isBlank b) r := by
    unfold skip
    split <;> rfl
  unfold round roundS skipS
  have hleft : s.left = r.length := h.left
  rcases moveUntilS_inv (cap := cap) m (if !st.readingValue && rd.stack.head? != some .array then isDelim
      else fun b => !isBlank b) r c s (s.left + 2) h ha hc (by omega) with
    ⟨x, t, s', k1, k2, k3, k4, k5, k6⟩ | ⟨k1, k2⟩
  · rw [e] at hl ⊢
    rw [k3, k4]
    simp only [Res.ok_bind]
    cases t with
    | nil => exact absurd rfl k2
    | cons b t =>
      have hlen := congrArg List.length k1
      simp only [List.length_append, List.length_cons] at hlen
      have := dispatchS_inv (cap := cap) strtod hm hp (rd := rd) (st := st) k5 k6
        (by simp only [List.length_append]; omega) (hl b t k3)
      rw [show (c ++ x).length + t.length + 1 = c.length + r.length by simp only [List.length_append]; omega] at this
      exact this
  · refine .inr (.inr ⟨.inl ?_, .inl ?_⟩)
    · rw [e]
      rcases k1 with k1 | k1 | k1
      · rw [k1]
        simp only [Res.ok_bind]
        rcases dispatch_nil strtod hm rd st with k | ⟨k, -⟩
        · exact k
        · exact absurd k hp.past
      · rw [k1]; rfl
      · exact absurd k1 hp.past
    · rcases k2 with k2 | ⟨s', k2, k3, k4⟩
      · rw [k2]; rfl
      · rw [k2]
        simp only [Res.ok_bind]
        exact dispatchS_over strtod k3 k4 (by simp only [List.length_append]; omega)

/-! ### Tokens -/

/-- States of the parser between rounds, reading from memory: one can be reached from the other. -/
inductive Reach (m : Mem) : State → Rd → Bytes → State → Rd → Bytes → Prop
  | refl (st : State) (rd : Rd) (r : Bytes) : Reach m st rd r st rd r
  | more {st st' st2 : State} {rd rd' rd2 : Rd} {r r' r2 : Bytes} :
    round m strtod rd st r = .ok (.more st', rd', r') → Reach m st' rd' r' st2 rd2 r2 → Reach m st rd r st2 rd2 r2
  | done {st st2 : State} {tok : Tok} {rd rd' rd2 : Rd} {r r' r2 : Bytes} :
    round m strtod rd st r = .ok (.done tok, rd', r') → Reach m ⟨none, false⟩ rd' r' st2 rd2 r2 →
    Reach m st rd r st2 rd2 r2

/-- All literals to come are short. -/
def ShortLits (m : Mem) (st : State) (rd : Rd) (r : Bytes) : Prop :=
  ∀ st' rd' r', Reach strtod m st rd r st' rd' r' → ∀ b t, skip m rd' st' r' = .ok (b :: t) → isLit b = true →
    ShortLit (b :: t)

/-- Outcomes of reading a token that correspond -/
def TokRel (total : Nat) (P : Rd → Bytes → Prop) (x : Res (Event × Rd × Bytes)) (y : Res (Event × Rd × SIn)) : Prop :=
  (∃ e rd t s' c', x = .ok (e, rd, t) ∧ y = .ok (e, rd, s') ∧ Inv s' c' t ∧ Ahead s' ∧
    c'.length + t.length = total ∧ P rd t) ∨
  (x = .ub ∧ y = .ub) ∨
  (x = .err ∧ (y = .err ∨ ∃ n v rd s', y = .ok (⟨n, .val v⟩, rd, s') ∧ Over total s'))

theorem loopS_over {rd : Rd} {st : State} {fuel : Nat} (h : Inv s c []) (ha : Ahead s) (hc : c.length + 1024 ≤ cap) :
    loopS cap strtod (fuel + 1) st (rd, s) = .err := by
  rw [loopS, roundS_over strtod h ha hc]
  rfl

theorem loopS_inv {m : Mem} (hm : m.Sane) (hp : Harmless m) : ∀ (fuel : Nat) (st : State) (rd : Rd) (s : SIn)
    (c r : Bytes), Inv s c r → Ahead s → c.length + r.length + 1024 ≤ cap → r.length < fuel →
    ShortLits strtod m st rd r →
    TokRel (c.length + r.length) (ShortLits strtod m ⟨none, false⟩) (loop m strtod fuel st (rd, r))
      (loopS cap strtod (fuel + 1) st (rd, s)) := by
  intro fuel
  induction fuel with
  | zero => intro st rd s c r _ _ _ h; omega
  | succ fuel ih =>
    intro st rd s c r h ha hc hf hl
    rw [loop, loopS]
    obtain ⟨-, hprog, -⟩ := round_ext strtod hm hm rd st r []
    rcases roundS_inv (cap := cap) strtod hm hp h ha hc (fun b t => hl st rd r (.refl _ _ _) b t) with
      ⟨a, rd', t, s', c', k1, k2, k3, k4, k5⟩ | ⟨k1, k2⟩ | ⟨k1, k2⟩
    · obtain ⟨y, hy, hr⟩ := hprog _ _ _ k1
      have : 0 < y.length := List.length_pos_iff.mpr hy
      have hlen := congrArg List.length hr
      rw [List.length_append] at hlen
      rw [k2]
      cases a with
      | more st' =>
        have := ih st' rd' s' c' t k3 k4 (by omega) (by omega)
          (fun st2 rd2 r2 h2 => hl st2 rd2 r2 (.more k1 h2))
        rw [k5] at this
        rw [k1]
        exact this
      | done tok =>
        refine .inl ⟨⟨st.name.getD [], tok⟩, rd', t, s', c', ?_, rfl, k3, k4, k5,
          fun st2 rd2 r2 h2 => hl st2 rd2 r2 (.done k1 h2)⟩
        rw [k1]
        rfl
    · rw [k1, k2]
      exact .inr (.inl ⟨rfl, rfl⟩)
    · refine .inr (.inr ⟨?_, ?_⟩)
      · rcases k1 with k1 | ⟨st', rd', k1⟩
        · rw [k1]; rfl
        · obtain ⟨y, hy, hr⟩ := hprog _ _ _ k1
          have : 0 < y.length := List.length_pos_iff.mpr hy
          have hlen := congrArg List.length hr
          rw [List.length_append] at hlen
          obtain ⟨fuel, rfl⟩ : ∃ k, fuel = k + 1 := ⟨fuel - 1, by omega⟩
          rw [k1]
          simp only [Res.ok_bind]
          rw [loop]
          rcases round_nil strtod hm rd' st' with k | ⟨k, -⟩
          · rw [k]; rfl
          · exact absurd k hp.past
      · rcases k2 with k2 | ⟨a, rd', s', k2, k3, k4⟩
        · rw [k2]; exact .inl rfl
        · rw [k2]
          simp only [Res.ok_bind]
          cases a with
          | more st' =>
            obtain ⟨c', i1, i2, i3⟩ := k3
            exact .inl (loopS_over strtod i1 i2 (by omega))
          | done tok =>
            cases tok with
            | val v => exact .inr ⟨_, v, rd', s', rfl, k3⟩
            | scope _ => exact k4.elim
            | scopeEnd => exact k4.elim

/-- Sources that correspond -/
def JSide (cap : Nat) (m : Mem) (x : Rd × Bytes) (y : Rd × SIn) : Prop :=
  x.1 = y.1 ∧ (∃ c, Inv y.2 c x.2 ∧ Ahead y.2 ∧ c.length + x.2.length + 1024 ≤ cap) ∧
  ShortLits strtod m ⟨none, false⟩ x.1 x.2

/-- A stream at its end -/
def JOver (cap : Nat) (y : Rd × SIn) : Prop := ∃ c, Inv y.2 c [] ∧ Ahead y.2 ∧ c.length + 1024 ≤ cap

theorem readS_over {y : Rd × SIn} (h : JOver cap y) : readS cap strtod y = .err := by
  obtain ⟨c, h1, h2, h3⟩ := h
  exact loopS_over strtod h1 h2 h3

theorem readS_inv {m : Mem} (hm : m.Sane) (hp : Harmless m) (x : Rd × Bytes) (y : Rd × SIn)
    (h : JSide strtod cap m x y) :
    (∃ e x' y', read m strtod x = .ok (e, x') ∧ readS cap strtod y = .ok (e, y') ∧ JSide strtod cap m x' y') ∨
    (read m strtod x = .ub ∧ readS cap strtod y = .ub) ∨
    (read m strtod x = .err ∧ (readS cap strtod y = .err ∨
      ∃ n v y', readS cap strtod y = .ok (⟨n, .val v⟩, y') ∧ JOver cap y')) := by
  obtain ⟨rd, r⟩ := x
  obtain ⟨rd', s⟩ := y
  obtain ⟨h1, ⟨c, h2, h3, h4⟩, h5⟩ := h
  simp only at h1 h2 h3 h4 h5
  subst h1
  unfold read readS
  have hl : s.left = r.length := h2.left
  simp only [hl]
  rcases loopS_inv strtod hm hp (r.length + 1) ⟨none, false⟩ rd s c r h2 h3 h4 (by omega) h5 with
    ⟨e, rd', t, s', c', k1, k2, k3, k4, k5, k6⟩ | k | ⟨k1, k2⟩
  · exact .inl ⟨e, (rd', t), (rd', s'), k1, k2, rfl, ⟨c', k3, k4, by simp only; omega⟩, k6⟩
  · exact .inr (.inl k)
  · refine .inr (.inr ⟨k1, ?_⟩)
    rcases k2 with k2 | ⟨n, v, rd', s', k2, c', i1, i2, i3⟩
    · exact .inl k2
    · exact .inr ⟨n, v, (rd', s'), k2, c', i1, i2, by omega⟩

theorem reading_stream_json {m : Mem} (hm : m.Sane) (hp : Harmless m) {E : Lax} (hE : E.any) :
    Reading E (JSide strtod cap m) (read m strtod) (readS cap strtod) := by
  intro x y h
  rcases readS_inv strtod hm hp x y h with ⟨e, x', y', k1, k2, k3⟩ | ⟨k1, k2⟩ | ⟨k1, -⟩
  · rw [k1, k2]; exact ⟨rfl, k3⟩
  · rw [k1, k2]; trivial
  · rw [k1]; exact Rel.of_any _ (fun a e => nomatch e) hE

end

end Srl.PJson

namespace Srl.Doc

/-- Readers of which the second may give one more value when the first fails, but then nothing else -/
def Alike {σ τ : Type} (R : σ → τ → Prop) (Over : τ → Prop) (read : σ → Res (Event × σ))
    (read' : τ → Res (Event × τ)) : Prop :=
  (∀ t, Over t → read' t = .err) ∧
  ∀ s t, R s t →
    (∃ e s' t', read s = .ok (e, s') ∧ read' t = .ok (e, t') ∧ R s' t') ∨ (read s = .ub ∧ read' t = .ub) ∨
    (read s = .err ∧ (read' t = .err ∨ ∃ n v t', read' t = .ok (⟨n, .val v⟩, t') ∧ Over t'))

variable {σ τ : Type} {R : σ → τ → Prop} {Over : τ → Prop} {read : σ → Res (Event × σ)} {read' : τ → Res (Event × τ)}

/-- The same outcome -/
def Equal {α : Type} (R : σ → τ → Prop) (x : Res (α × σ)) (y : Res (α × τ)) : Prop :=
  (∃ a s t, x = .ok (a, s) ∧ y = .ok (a, t) ∧ R s t) ∨ (x = .ub ∧ y = .ub) ∨ (x = .err ∧ y = .err)

theorem readScope_alike (h : Alike R Over read read') : ∀ (fuel d : Nat) (s : σ) (t : τ), R s t →
    readScope read fuel d s ≠ .fuel →
    Equal R (readScope read fuel d s) (readScope read' (fuel + 1) d t)
  | 0, _, _, _, _, hf => absurd rfl hf
  | fuel + 1, d, s, t, hr, hf => by
    rw [readScope] at hf ⊢
    rw [readScope]
    rcases h.2 s t hr with ⟨e, s', t', k1, k2, k3⟩ | ⟨k1, k2⟩ | ⟨k1, k2⟩
    · rw [k1] at hf ⊢
      rw [k2]
      simp only [Res.ok_bind] at hf ⊢
      cases he : e.tok with
      | scopeEnd => exact .inl ⟨_, s', t', rfl, rfl, k3⟩
      | val v =>
        simp only [he] at hf ⊢
        have hf' : readScope read fuel d s' ≠ .fuel := fun e => hf (by rw [e]; rfl)
        rcases readScope_alike h fuel d s' t' k3 hf' with ⟨a, s2, t2, j1, j2, j3⟩ | ⟨j1, j2⟩ | ⟨j1, j2⟩
        · rw [j1, j2]; exact .inl ⟨_, s2, t2, rfl, rfl, j3⟩
        · rw [j1, j2]; exact .inr (.inl ⟨rfl, rfl⟩)
        · rw [j1, j2]; exact .inr (.inr ⟨rfl, rfl⟩)
      | scope ty =>
        simp only [he] at hf ⊢
        by_cases hd : d + 1 > maxDepth
        · rw [if_pos hd, if_pos hd]; exact .inr (.inr ⟨rfl, rfl⟩)
        · rw [if_neg hd] at hf ⊢
          rw [if_neg hd]
          have hf' : readScope read fuel (d + 1) s' ≠ .fuel := fun e => hf (by rw [e]; rfl)
          rcases readScope_alike h fuel (d + 1) s' t' k3 hf' with ⟨⟨vs, ns⟩, s2, t2, j1, j2, j3⟩ | ⟨j1, j2⟩ | ⟨j1, j2⟩
          · rw [j1] at hf ⊢
            rw [j2]
            simp only [Res.ok_bind] at hf ⊢
            have hf' : readScope read fuel d s2 ≠ .fuel := fun e => hf (by rw [e]; rfl)
            rcases readScope_alike h fuel d s2 t2 j3 hf' with ⟨a, s3, t3, i1, i2, i3⟩ | ⟨i1, i2⟩ | ⟨i1, i2⟩
            · rw [i1, i2]; exact .inl ⟨_, s3, t3, rfl, rfl, i3⟩
            · rw [i1, i2]; exact .inr (.inl ⟨rfl, rfl⟩)
            · rw [i1, i2]; exact .inr (.inr ⟨rfl, rfl⟩)
          · rw [j1, j2]; exact .inr (.inl ⟨rfl, rfl⟩)
          · rw [j1, j2]; exact .inr (.inr ⟨rfl, rfl⟩)
    · rw [k1, k2]; exact .inr (.inl ⟨rfl, rfl⟩)
    · rw [k1]
      refine .inr (.inr ⟨rfl, ?_⟩)
      rcases k2 with k2 | ⟨n, v, t', k2, k3⟩
      · rw [k2]; rfl
      · rw [k2]
        simp only [Res.ok_bind]
        rw [readScope, h.1 t' k3]
        rfl

theorem load_alike (h : Alike R Over read read') (fuel : Nat) (s : σ) (t : τ) (hr : R s t)
    (hf : load read fuel s ≠ .fuel) : Equal R (load read fuel s) (load read' (fuel + 1) t) := by
  unfold load at hf ⊢
  rcases h.2 s t hr with ⟨e, s', t', k1, k2, k3⟩ | ⟨k1, k2⟩ | ⟨k1, k2⟩
  · rw [k1] at hf ⊢
    rw [k2]
    simp only [Res.ok_bind] at hf ⊢
    cases he : e.tok with
    | scopeEnd => exact .inr (.inr ⟨rfl, rfl⟩)
    | val v => exact .inr (.inr ⟨rfl, rfl⟩)
    | scope ty =>
      simp only [he] at hf ⊢
      have hf' : readScope read fuel 0 s' ≠ .fuel := fun e => hf (by rw [e]; rfl)
      rcases readScope_alike h fuel 0 s' t' k3 hf' with ⟨⟨vs, ns⟩, s2, t2, j1, j2, j3⟩ | ⟨j1, j2⟩ | ⟨j1, j2⟩
      · rw [j1, j2]; exact .inl ⟨_, s2, t2, rfl, rfl, j3⟩
      · rw [j1, j2]; exact .inr (.inl ⟨rfl, rfl⟩)
      · rw [j1, j2]; exact .inr (.inr ⟨rfl, rfl⟩)
  · rw [k1, k2]; exact .inr (.inl ⟨rfl, rfl⟩)
  · rw [k1]
    refine .inr (.inr ⟨rfl, ?_⟩)
    rcases k2 with k2 | ⟨n, v, t', k2, k3⟩
    · rw [k2]; rfl
    · rw [k2]; rfl

end Srl.Doc
