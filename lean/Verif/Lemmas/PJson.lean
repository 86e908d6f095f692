import Verif.Model.PJson
import Verif.Lemmas.In
import Verif.Lemmas.Byte
import Verif.Lemmas.Norm

/-! Lemmas about the JSON format: reading single tokens. -/

namespace Srl.PJson

theorem move_one {m : Mem} (hm : m.Sane) (b : UInt8) (s : Bytes) :
    In.move m 1 (b :: s) = .ok s := by
  have h : m.lim < 2 ^ 63 := hm
  unfold In.move
  rw [if_neg (by simp only [List.length_cons]; omega),
    if_neg (by simp only [List.length_cons]; omega)]
  rfl

/-! ### Skipping -/

theorem moveUntil_skip (m : Mem) (p : UInt8 → Bool) (x s : Bytes) (h : ∀ b ∈ x, p b = false) :
    moveUntil m p (x ++ s) = moveUntil m p s := by
  induction x with
  | nil => rfl
  | cons b x ih =>
    rw [List.cons_append, moveUntil, if_neg (by simp [h b (List.mem_cons_self ..)])]
    exact ih fun c hc => h c (List.mem_cons_of_mem _ hc)

theorem moveUntil_hit (m : Mem) (p : UInt8 → Bool) (b : UInt8) (s : Bytes) (h : p b = true) :
    moveUntil m p (b :: s) = .ok (b :: s) := by
  rw [moveUntil, if_pos h]

theorem blank_not_delim : ∀ b : UInt8, isBlank b = true → isDelim b = false := by decide +kernel

theorem dropWhile_skip (p : UInt8 → Bool) (x s : Bytes) (h : ∀ b ∈ x, p b = true) :
    (x ++ s).dropWhile p = s.dropWhile p := by
  induction x with
  | nil => rfl
  | cons b x ih =>
    rw [List.cons_append, List.dropWhile_cons, if_pos (h b (List.mem_cons_self ..))]
    exact ih fun c hc => h c (List.mem_cons_of_mem _ hc)

theorem dropWhile_split (p : UInt8 → Bool) (s : Bytes) :
    ∃ x, s = x ++ s.dropWhile p ∧ ∀ b ∈ x, p b = true := by
  refine ⟨s.takeWhile p, (List.takeWhile_append_dropWhile).symm, fun b hb => ?_⟩
  induction s with
  | nil => cases hb
  | cons a s ih =>
    rw [List.takeWhile_cons] at hb
    by_cases ha : p a = true
    · rw [if_pos ha] at hb
      rcases List.mem_cons.mp hb with rfl | hb
      · exact ha
      · exact ih hb
    · rw [if_neg ha] at hb
      cases hb

/-- Blanks before a token do not matter. -/
theorem round_blank (m : Mem) (strtod : Bytes → Option UInt64) (r : Rd) (st : State) (s : Bytes) :
    round m strtod r st s = round m strtod r st (s.dropWhile isBlank) := by
  obtain ⟨x, hx, hb⟩ := dropWhile_split isBlank s
  have h1 : moveUntil m isDelim s = moveUntil m isDelim (s.dropWhile isBlank) := by
    conv => lhs; rw [hx]
    exact moveUntil_skip _ _ _ _ fun b h => blank_not_delim b (hb b h)
  have h2 : moveUntil m (fun b => !isBlank b) s =
      moveUntil m (fun b => !isBlank b) (s.dropWhile isBlank) := by
    conv => lhs; rw [hx]
    exact moveUntil_skip _ _ _ _ fun b h => by simp [hb b h]
  unfold round skip
  rw [h1, h2]

theorem loop_blank (m : Mem) (strtod : Bytes → Option UInt64) (fuel : Nat) (st : State) (r : Rd)
    (s s' : Bytes) (h : s.dropWhile isBlank = s'.dropWhile isBlank) :
    loop m strtod fuel st (r, s) = loop m strtod fuel st (r, s') := by
  cases fuel with
  | zero => rfl
  | succ fuel =>
    rw [loop, loop, round_blank m strtod r st s, round_blank m strtod r st s', h]

/-- The first step of a round, on a byte at which both ways of skipping stop. -/
theorem skip_delim (m : Mem) (r : Rd) (st : State) (c : UInt8) (s : Bytes)
    (hc : isDelim c = true) : skip m r st (c :: s) = .ok (c :: s) := by
  have hb : isBlank c = false := by
    cases h : isBlank c with
    | false => rfl
    | true => rw [blank_not_delim c h] at hc; cases hc
  unfold skip
  split
  · exact moveUntil_hit _ _ _ _ hc
  · exact moveUntil_hit _ _ _ _ (by simp [hb])

/-! ### Strings -/

theorem readString_plain (m : Mem) (fuel : Nat) (c : Cap) (steps : Nat) (b : UInt8) (s : Bytes)
    (h1 : b ≠ 34) (h2 : b ≠ 92) :
    readString m (fuel + 1) c steps (b :: s) = (do
      let (bs, c, s) ← readString m fuel (c.grow steps) (steps + 1) s
      .ok (b :: bs, c, s)) := by
  rw [readString, if_neg h1]
  simp only
  split
  · exact absurd rfl h2
  · rfl

theorem readString_escaped (m : Mem) (fuel : Nat) (c : Cap) (steps : Nat) (e r : UInt8) (s : Bytes)
    (h : unescapeByte e = some r) :
    readString m (fuel + 1) c steps (92 :: e :: s) = (do
      let (bs, c, s) ← readString m fuel (c.grow steps) (steps + 1) s
      .ok (r :: bs, c, s)) := by
  rw [readString, if_neg (by decide)]
  simp only [h]

theorem escapeByte_length_pos (b : UInt8) : 0 < (escapeByte b).length := by
  unfold escapeByte
  repeat' split
  all_goals simp

/-- The alternatives for an escaped byte. -/
theorem escapeByte_cases : ∀ b : UInt8,
    (b ≠ 34 ∧ b ≠ 92 ∧ escapeByte b = [b]) ∨
    (∃ e : UInt8, escapeByte b = [92, e] ∧ unescapeByte e = some b) := by
  intro b
  unfold escapeByte
  by_cases h1 : b = 34
  · right; exact ⟨34, by simp [h1], by simp [h1, unescapeByte]⟩
  by_cases h2 : b = 92
  · right; exact ⟨92, by simp [h2], by simp [h2, unescapeByte]⟩
  by_cases h3 : b = 47
  · right; exact ⟨47, by simp [h3], by simp [h3, unescapeByte]⟩
  by_cases h4 : b = 10
  · right; exact ⟨110, by simp [h4], by simp [h4, unescapeByte]⟩
  by_cases h5 : b = 9
  · right; exact ⟨116, by simp [h5], by simp [h5, unescapeByte]⟩
  by_cases h6 : b = 13
  · right; exact ⟨114, by simp [h6], by simp [h6, unescapeByte]⟩
  by_cases h7 : b = 8
  · right; exact ⟨98, by simp [h7], by simp [h7, unescapeByte]⟩
  by_cases h8 : b = 12
  · right; exact ⟨102, by simp [h8], by simp [h8, unescapeByte]⟩
  left
  exact ⟨h1, h2, by simp [h1, h2, h3, h4, h5, h6, h7, h8]⟩

/-- Escaped text is read back, up to the closing quote. -/
theorem readString_escape (m : Mem) (t rest : Bytes) : ∀ (fuel : Nat) (c : Cap) (steps : Nat),
    (escape t).length < fuel →
    ∃ c', readString m fuel c steps (escape t ++ 34 :: rest) = .ok (t, c', 34 :: rest) := by
  induction t with
  | nil =>
    intro fuel c steps hf
    cases fuel with
    | zero => simp at hf
    | succ fuel => exact ⟨c, by simp [escape, readString]⟩
  | cons b t ih =>
    intro fuel c steps hf
    have he : escape (b :: t) = escapeByte b ++ escape t := by simp [escape]
    have hp := escapeByte_length_pos b
    rw [he, List.length_append] at hf
    rw [he]
    cases fuel with
    | zero => omega
    | succ fuel =>
      obtain ⟨c', hc'⟩ := ih fuel (c.grow steps) (steps + 1) (by omega)
      refine ⟨c', ?_⟩
      rcases escapeByte_cases b with ⟨h1, h2, h3⟩ | ⟨e, h1, h2⟩
      · rw [h3, List.append_assoc, List.singleton_append, readString_plain m fuel c steps b _ h1 h2,
          hc']
        rfl
      · rw [h1]
        show readString m (fuel + 1) c steps (92 :: e :: (escape t ++ 34 :: rest)) = _
        rw [readString_escaped m fuel c steps e b _ h2, hc']
        rfl

/-- Text without quotes and backslashes is read as it is. -/
theorem readString_raw (m : Mem) (t rest : Bytes) (ht : ∀ b ∈ t, b ≠ 34 ∧ b ≠ 92) :
    ∀ (fuel : Nat) (c : Cap) (steps : Nat), t.length < fuel →
    ∃ c', readString m fuel c steps (t ++ 34 :: rest) = .ok (t, c', 34 :: rest) := by
  induction t with
  | nil =>
    intro fuel c steps hf
    cases fuel with
    | zero => simp at hf
    | succ fuel => exact ⟨c, by simp [readString]⟩
  | cons b t ih =>
    intro fuel c steps hf
    have hb := ht b (List.mem_cons_self ..)
    cases fuel with
    | zero => simp at hf
    | succ fuel =>
      obtain ⟨c', hc'⟩ := ih (fun x hx => ht x (List.mem_cons_of_mem _ hx)) fuel (c.grow steps)
        (steps + 1) (by simpa using hf)
      refine ⟨c', ?_⟩
      rw [List.cons_append, readString_plain m fuel c steps b _ hb.1 hb.2, hc']
      rfl

/-- What can be read as a string. -/
def Quoted (m : Mem) (text content : Bytes) : Prop :=
  ∀ (rest : Bytes) (fuel : Nat) (c : Cap) (steps : Nat), text.length < fuel →
    ∃ c', readString m fuel c steps (text ++ 34 :: rest) = .ok (content, c', 34 :: rest)

/-! ### Rounds of the loop -/

variable {m : Mem} (hm : m.Sane) (strtod : Bytes → Option UInt64)
include hm

/-- A string where a value is expected. -/
theorem round_string (r : Rd) (st : State) (text content rest : Bytes) (top : ScopeTy)
    (stk : List ScopeTy) (hs : r.stack = top :: stk) (hq : Quoted m text content)
    (hv : st.readingValue = true ∨ top = .array) :
    ∃ r', r'.stack = r.stack ∧ round m strtod r st (34 :: (text ++ 34 :: rest)) =
      .ok (.done (.val (.str content)), r', rest) := by
  have hlen : text.length < (text ++ 34 :: rest).length + 1 := by
    simp only [List.length_append, List.length_cons]; omega
  obtain ⟨c', hc'⟩ := hq rest ((text ++ 34 :: rest).length + 1)
    ⟨if st.name.isSome then r.valCap else r.nameCap, if st.name.isSome then r.valCap else r.nameCap⟩
    0 hlen
  refine ⟨if st.name.isSome then { r with valCap := c'.size } else { r with nameCap := c'.size },
    by split <;> rfl, ?_⟩
  unfold round
  rw [skip_delim m r st 34 _ (by decide)]
  simp only [Res.ok_bind, dispatch, In.cur, if_pos]
  unfold processQuote
  rw [hs]
  simp only [move_one hm, Res.ok_bind, hc', if_pos hv]

/-- A string where a name is expected. -/
theorem round_name (r : Rd) (text content rest : Bytes) (stk : List ScopeTy)
    (hs : r.stack = .object :: stk) (hq : Quoted m text content) :
    ∃ r', r'.stack = r.stack ∧ round m strtod r ⟨none, false⟩ (34 :: (text ++ 34 :: rest)) =
      .ok (.more ⟨some content, false⟩, r', rest) := by
  have hlen : text.length < (text ++ 34 :: rest).length + 1 := by
    simp only [List.length_append, List.length_cons]; omega
  obtain ⟨c', hc'⟩ := hq rest ((text ++ 34 :: rest).length + 1) ⟨r.nameCap, r.nameCap⟩ 0 hlen
  refine ⟨{ r with nameCap := c'.size }, rfl, ?_⟩
  unfold round
  rw [skip_delim m r _ 34 _ (by decide)]
  simp only [Res.ok_bind, dispatch, In.cur, if_pos]
  unfold processQuote
  rw [hs]
  simp only [Option.isSome_none, Bool.false_eq_true, if_false, move_one hm, Res.ok_bind, hc',
    reduceCtorEq, or_self]

theorem round_colon (r : Rd) (nm : Option Bytes) (s : Bytes) :
    round m strtod r ⟨nm, false⟩ (58 :: s) = .ok (.more ⟨nm, true⟩, r, s) := by
  unfold round
  rw [skip_delim m r _ 58 _ (by decide)]
  simp only [Res.ok_bind, dispatch, In.cur, if_neg (show ¬((58 : UInt8) = 34) by decide), if_pos,
    Bool.false_eq_true, if_false, move_one hm]

/-- An opening bracket. -/
theorem round_open (r : Rd) (st : State) (t : ScopeTy) (s : Bytes) :
    round m strtod r st ((if t = .array then 91 else 123) :: s) =
      .ok (.done (.scope t), { r with stack := t :: r.stack }, s) := by
  unfold round
  rw [skip_delim m r _ _ _ (by cases t <;> decide)]
  cases t
  · simp only [Res.ok_bind, dispatch, In.cur, reduceCtorEq, if_false, (by decide : ¬((123 : UInt8) = 34)),
      (by decide : ¬((123 : UInt8) = 58)), true_or, if_true, processBracket, move_one hm]
  · simp only [Res.ok_bind, dispatch, In.cur, if_true, (by decide : ¬((91 : UInt8) = 34)), if_false,
      (by decide : ¬((91 : UInt8) = 58)), true_or, or_true, processBracket,
      (by decide : ¬((91 : UInt8) = 123)), move_one hm]

/-- A closing bracket, of either kind. -/
theorem round_close (r : Rd) (st : State) (t : ScopeTy) (stk : List ScopeTy) (c : UInt8) (s : Bytes)
    (hs : r.stack = t :: stk) (hc : c = 93 ∨ c = 125) :
    round m strtod r st (c :: s) = .ok (.done .scopeEnd, { r with stack := stk }, s) := by
  unfold round
  rw [skip_delim m r _ _ _ (by rcases hc with rfl | rfl <;> decide)]
  rcases hc with rfl | rfl
  · simp only [Res.ok_bind, dispatch, In.cur, if_true, (by decide : ¬((93 : UInt8) = 34)), if_false,
      (by decide : ¬((93 : UInt8) = 58)), or_true, processBracket,
      (by decide : ¬((93 : UInt8) = 123)), (by decide : ¬((93 : UInt8) = 91)), hs, move_one hm]
  · simp only [Res.ok_bind, dispatch, In.cur, if_true, (by decide : ¬((125 : UInt8) = 34)), if_false,
      (by decide : ¬((125 : UInt8) = 58)), true_or, or_true, processBracket,
      (by decide : ¬((125 : UInt8) = 123)), (by decide : ¬((125 : UInt8) = 91)), hs, move_one hm]

omit hm in
theorem lit_not_delim : ∀ b : UInt8, isLit b = true → b ≠ 34 ∧ b ≠ 58 ∧ b ≠ 123 ∧ b ≠ 125 ∧
    b ≠ 91 ∧ b ≠ 93 ∧ b ≠ 47 ∧ isBlank b = false := by decide +kernel

/-- A literal `t` followed by line breaks and tabs and then by a comma or a closing bracket. -/
theorem round_literal (r : Rd) (st : State) (top : ScopeTy) (stk : List ScopeTy)
    (hs : r.stack = top :: stk) (hv : st.readingValue = true ∨ top = .array)
    (b : UInt8) (t ws : Bytes) (c : UInt8) (rest : Bytes) (v : Val)
    (hb : isLit b = true) (ht : ∀ x ∈ b :: t, isLitEnd x = false)
    (hw : ∀ x ∈ ws, x = 10 ∨ x = 9) (hc : c = 44 ∨ c = 93 ∨ c = 125)
    (hval : IntStr.strToType strtod ((b :: t ++ ws).contains 46) (b :: t ++ ws) = some v) :
    round m strtod r st (b :: t ++ (ws ++ c :: rest)) =
      .ok (.done (.val v), r, if c = 44 then rest else c :: rest) := by
  obtain ⟨h1, h2, h3, h4, h5, h6, h7, h8⟩ := lit_not_delim b hb
  have hskip : skip m r st (b :: (t ++ (ws ++ c :: rest))) =
      .ok (b :: (t ++ (ws ++ c :: rest))) := by
    unfold skip
    rw [if_neg (by rcases hv with hv | hv <;> simp [hv, hs])]
    exact moveUntil_hit _ _ _ _ (by simp [h8])
  have hend : isLitEnd c = true := by rcases hc with rfl | rfl | rfl <;> decide
  have hmv : moveUntil m isLitEnd (b :: (t ++ (ws ++ c :: rest))) = .ok (c :: rest) := by
    have : b :: (t ++ (ws ++ c :: rest)) = (b :: t ++ ws) ++ c :: rest := by simp
    rw [this, moveUntil_skip, moveUntil_hit _ _ _ _ hend]
    intro x hx
    rcases List.mem_append.mp hx with hx | hx
    · exact ht x hx
    · rcases hw x hx with rfl | rfl <;> decide
  have hblock : (b :: (t ++ (ws ++ c :: rest))).take
      ((b :: (t ++ (ws ++ c :: rest))).length - (c :: rest).length) = b :: t ++ ws := by
    have : b :: (t ++ (ws ++ c :: rest)) = (b :: t ++ ws) ++ c :: rest := by simp
    rw [this, List.length_append, Nat.add_sub_cancel, List.take_left]
  rw [List.cons_append]
  unfold round
  rw [hskip]
  simp only [Res.ok_bind, dispatch, In.cur, if_neg h1, if_neg h2, h3, h4, h5, h6, or_self, if_false,
    if_neg h7, processChar, if_pos hb, hmv, hblock, hval]
  rcases hc with rfl | rfl | rfl
  · simp [move_one hm]
  · simp
  · simp

end Srl.PJson
