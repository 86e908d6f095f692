import Verif.Lemmas.JsonIn
import Verif.Lemmas.PJsonCut
import Verif.Props.JsonCommentSpec

/-! Lemmas about reading JSON texts with comments in them. -/

namespace Srl.Rfc8259
open Dec PJson Doc

/-- `PJson::read` ends with `y`: its rounds from the state `st` on -/
inductive Reads (m : Mem) (strtod : Bytes → Option UInt64) : State → Rd → Bytes → Event × Rd × Bytes → Prop
  | done (st : State) (r r' : Rd) (s s' : Bytes) (t : Tok) : round m strtod r st s = .ok (.done t, r', s') →
      Reads m strtod st r s (⟨st.name.getD [], t⟩, r', s')
  | more (st st' : State) (r r' : Rd) (s s' : Bytes) (y : Event × Rd × Bytes) :
      round m strtod r st s = .ok (.more st', r', s') → Reads m strtod st' r' s' y → Reads m strtod st r s y

variable {m : Mem} (hm : m.Sane) (strtod : Bytes → Option UInt64)

theorem reads_loop {st : State} {r : Rd} {s : Bytes} {y : Event × Rd × Bytes} (h : Reads m strtod st r s y) :
    ∀ fuel, loop m strtod fuel st (r, s) = .ok y ∨ loop m strtod fuel st (r, s) = .fuel := by
  induction h with
  | done st r r' s s' t h =>
    intro fuel
    cases fuel with
    | zero => exact .inr rfl
    | succ fuel => exact .inl (loop_done strtod h)
  | more st st' r r' s s' y h _ ih =>
    intro fuel
    cases fuel with
    | zero => exact .inr rfl
    | succ fuel => rw [loop_more strtod h]; exact ih fuel

/-- From `s` everything is read as from `s'`. -/
def Like (m : Mem) (strtod : Bytes → Option UInt64) (s s' : Bytes) : Prop :=
  ∀ st r y, Reads m strtod st r s' y → Reads m strtod st r s y

theorem like_refl (s : Bytes) : Like m strtod s s := fun _ _ _ h => h

theorem like_trans {s t u : Bytes} (h : Like m strtod s t) (h' : Like m strtod t u) : Like m strtod s u :=
  fun st r y k => h st r y (h' st r y k)

theorem like_blank {s s' : Bytes} (h : s.dropWhile isBlank = s'.dropWhile isBlank) : Like m strtod s s' := by
  intro st r y k
  have hr : ∀ st r, round m strtod r st s = round m strtod r st s' := fun st r => by
    rw [round_blank m strtod r st s, round_blank m strtod r st s', h]
  cases k with
  | done _ _ _ _ _ _ k => exact .done _ _ _ _ _ _ ((hr st r).trans k)
  | more _ _ _ _ _ _ _ k k' => exact .more _ _ _ _ _ _ _ ((hr st r).trans k) k'

include hm

theorem reads_read {r : Rd} {s : Bytes} {y : Event × Rd × Bytes} (h : Reads m strtod ⟨none, false⟩ r s y) :
    PJson.read m strtod (r, s) = .ok y := by
  unfold PJson.read
  exact (reads_loop strtod h (s.length + 1)).resolve_right ((loop_progress strtod hm _ _ _ _).2 (Nat.lt_succ_self _))

/-! ### Comments -/

/-- A round that begins at a slash -/
theorem round_slash (r : Rd) (st : State) (s u : Bytes) (b : UInt8)
    (h : skipComment m (47 :: s) = .ok (b :: u)) : round m strtod r st (47 :: s) = .ok (.more st, r, u) := by
  unfold round
  rw [skip_delim m r _ 47 _ (by decide)]
  simp only [Res.ok_bind, dispatch, In.cur, (by decide : ¬((47 : UInt8) = 34)), (by decide : ¬((47 : UInt8) = 58)),
    (by decide : ¬((47 : UInt8) = 123)), (by decide : ¬((47 : UInt8) = 125)), (by decide : ¬((47 : UInt8) = 91)),
    (by decide : ¬((47 : UInt8) = 93)), or_self, if_false, if_true, h, move_one hm]

omit hm

theorem skip_line (c : Bytes) (e : UInt8) (t : Bytes) (hc : ∀ b ∈ c, b ≠ 10 ∧ b ≠ 13) (he : e = 10 ∨ e = 13) :
    skipComment m (47 :: 47 :: (c ++ e :: t)) = .ok (e :: t) := by
  have h : moveUntil m (fun b => b == 10 || b == 13) ((47 :: 47 :: c) ++ e :: t) = .ok (e :: t) := by
    rw [moveUntil_skip, moveUntil_hit _ _ _ _ (by rcases he with rfl | rfl <;> decide)]
    intro b hb
    rcases List.mem_cons.mp hb with rfl | hb
    · decide
    rcases List.mem_cons.mp hb with rfl | hb
    · decide
    have := hc b hb
    simp [this.1, this.2]
  unfold skipComment
  rw [if_pos (by simp [In.tryPeek])]
  simp only [List.drop_succ_cons, List.drop_zero, In.cur, Res.ok_bind, (by decide : ¬((47 : UInt8) = 42)), if_false,
    if_true]
  exact h

theorem until_close (c t : Bytes) (hc : ∀ x y, c ≠ x ++ 42 :: 47 :: y) :
    moveUntilClose m (c ++ 42 :: 47 :: t) = .ok (42 :: 47 :: t) := by
  induction c with
  | nil => rw [List.nil_append, moveUntilClose]
  | cons b c ih =>
    have ih := ih fun x y h => hc (b :: x) y (by rw [h]; rfl)
    rw [List.cons_append, moveUntilClose, ih]
    · intro s hb hs
      subst hb
      cases c with
      | nil => simp at hs
      | cons d c =>
        simp only [List.cons_append, List.cons.injEq] at hs
        exact hc [] c (by rw [hs.1]; rfl)

theorem skip_block (c t : Bytes) (hc : ∀ x y, c ≠ x ++ 42 :: 47 :: y) (h : c.head? ≠ some 47) :
    skipComment m (47 :: 42 :: (c ++ 42 :: 47 :: t)) = .ok (42 :: 47 :: t) := by
  have h1 : moveUntilClose m ((47 :: 42 :: c) ++ 42 :: 47 :: t) = .ok (42 :: 47 :: t) := by
    apply until_close
    intro x y hx
    match x, hx with
    | [], hx => simp at hx
    | [a], hx =>
      simp only [List.cons_append, List.nil_append, List.cons.injEq, true_and] at hx
      exact h (by rw [hx.2]; rfl)
    | a :: b :: x, hx =>
      simp only [List.cons_append, List.cons.injEq] at hx
      exact hc x y hx.2.2
  unfold skipComment
  rw [if_pos (by simp [In.tryPeek])]
  simp only [List.drop_succ_cons, List.drop_zero, In.cur, Res.ok_bind, if_true]
  exact h1

theorem skip_no_comment (b : UInt8) (t : Bytes) (h1 : b ≠ 42) (h2 : b ≠ 47) :
    skipComment m (47 :: b :: t) = .ok (47 :: b :: t) := by
  unfold skipComment
  rw [if_pos (by simp [In.tryPeek])]
  simp only [List.drop_succ_cons, List.drop_zero, In.cur, Res.ok_bind, if_neg h1, if_neg h2]

/-- What begins with something else than a slash or an asterisk -/
def Plainly (v : Bytes) : Prop := ∃ c r, v = c :: r ∧ c ≠ 47 ∧ c ≠ 42

include hm

/-- Blanks and comments are skipped. -/
theorem like_gap {a : Bytes} (ha : Gap true a) (v : Bytes) (hv : Plainly v) : Like m strtod (a ++ v) v := by
  induction ha with
  | nil => exact like_refl strtod v
  | blank b t hb _ ih =>
    refine like_trans strtod (like_blank strtod ?_) ih
    rw [List.cons_append, List.dropWhile_cons, if_pos (by rcases hb with rfl | rfl | rfl | rfl <;> decide)]
  | line c e t hc he _ ih =>
    refine like_trans strtod (fun st r y h => ?_) ih
    have : 47 :: 47 :: (c ++ e :: t) ++ v = 47 :: 47 :: (c ++ e :: (t ++ v)) := by simp
    rw [this]
    exact .more _ _ _ _ _ _ _ (round_slash hm strtod r st _ _ _ (skip_line c e _ hc he)) h
  | block c t hc hs ht ih =>
    refine like_trans strtod (fun st r y h => ?_) ih
    have : 47 :: 42 :: (c ++ 42 :: 47 :: t) ++ v = 47 :: 42 :: (c ++ 42 :: 47 :: (t ++ v)) := by simp
    rw [this]
    have hnext : Plainly (t ++ v) := by
      obtain ⟨-, h2⟩ := hs rfl
      cases ht with
      | nil => exact hv
      | blank b t hb _ => exact ⟨b, t ++ v, rfl, by rcases hb with rfl | rfl | rfl | rfl <;> decide⟩
      | line => exact absurd rfl h2
      | block => exact absurd rfl h2
    obtain ⟨b, u, h1, h2, h3⟩ := hnext
    refine .more _ _ _ _ _ _ _ (round_slash hm strtod r st _ _ _ (skip_block c _ hc (hs rfl).1)) ?_
    rw [h1] at h ⊢
    exact .more _ _ _ _ _ _ _ (round_slash hm strtod r st _ _ _ (skip_no_comment b u h3 h2)) h

/-- A closing bracket -/
theorem read_end (r : Rd) (t : ScopeTy) (stk : List ScopeTy) (c : UInt8) (rest s : Bytes)
    (hs : r.stack = t :: stk) (hc : c = 93 ∨ c = 125) (h : Like m strtod s (c :: rest)) :
    PJson.read m strtod (r, s) = .ok (⟨[], .scopeEnd⟩, { r with stack := stk }, rest) :=
  reads_read hm strtod (h _ _ _ (.done _ _ _ _ _ _ (round_close hm strtod r ⟨none, false⟩ t stk c rest hs hc)))

/-- Up to the value of a member -/
theorem reads_key (r : Rd) (stk : List ScopeTy) (hs : r.stack = .object :: stk) (k n b c body s : Bytes)
    (hk : Chars false k n) (hb : Gap true b) (hc : Gap true c) (hbody : Plainly body)
    (h : Like m strtod s (34 :: (k ++ 34 :: (b ++ 58 :: (c ++ body))))) :
    ∃ r1, r1.stack = r.stack ∧
      ∀ y, Reads m strtod ⟨some n, true⟩ r1 body y → Reads m strtod ⟨none, false⟩ r s y := by
  obtain ⟨r1, h1, h2⟩ := round_name hm strtod r k n (b ++ 58 :: (c ++ body)) stk hs (chars_read m hk)
  refine ⟨r1, h1, fun y hy => h _ _ _ (.more _ _ _ _ _ _ _ h2 ?_)⟩
  refine like_gap hm strtod hb _ ⟨58, _, rfl, by decide, by decide⟩ _ _ _ ?_
  exact .more _ _ _ _ _ _ _ (round_colon hm strtod r1 (some n) _) (like_gap hm strtod hc _ hbody _ _ _ hy)

omit hm

theorem wordEnd_of {x : Json} {b : Bytes} (h : Behind true x b) (c : UInt8) (rest : Bytes)
    (hc : c = 44 ∨ c = 93 ∨ c = 125) : x.isWord = true → WordEnd (b ++ c :: rest) := by
  intro hx
  obtain ⟨w, r, rfl, h1, h2⟩ := h.2 rfl hx
  cases r with
  | nil =>
    refine ⟨w, c, rest, by simp, h1, ?_⟩
    rcases hc with h | h | h
    · exact .inl h
    · exact .inr (.inl h)
    · exact .inr (.inr (.inl h))
  | cons d r =>
    have hd : d = 32 := by simpa using h2
    subst hd
    exact ⟨w, 32, r ++ c :: rest, by simp, h1, .inr (.inr (.inr rfl))⟩

theorem number_first {t : Bytes} {neg : Bool} {v : ℚ} (h : Number t neg v) : Plainly t := by
  have hc := number_chars h
  obtain ⟨c, r, rfl, -⟩ := number_head h
  have : ∀ c : UInt8, NChar c → c ≠ 47 ∧ c ≠ 42 := by decide +kernel
  exact ⟨c, r, rfl, this c (hc c List.mem_cons_self)⟩

theorem plainly_append {v : Bytes} (h : Plainly v) (w : Bytes) : Plainly (v ++ w) := by
  obtain ⟨c, r, rfl, h⟩ := h
  exact ⟨c, r ++ w, rfl, h⟩

theorem like_comma (u : Bytes) : Like m strtod (44 :: u) u := like_blank strtod (drop_comma u)

include hm

variable {N : Bytes → Bool → ℚ → Prop} {P : Bool → ℚ → Val → Prop}
  (hN : ∀ t neg v, N t neg v → Number t neg v ∧ ∃ w, IntStr.strToType strtod (t.contains 46) t = some w ∧ P neg v w)
include hN

omit hm in
theorem text_first {apart uni : Bool} {t : Bytes} {x : Json} (h : CText apart uni N t x) : Plainly t := by
  cases h with
  | null => exact ⟨110, str "ull", by decide +kernel, by decide, by decide⟩
  | true => exact ⟨116, str "rue", by decide +kernel, by decide, by decide⟩
  | false => exact ⟨102, str "alse", by decide +kernel, by decide, by decide⟩
  | num t neg v h => exact number_first (hN _ _ _ h).1
  | str => exact ⟨34, _, rfl, by decide, by decide⟩
  | arr0 => exact ⟨91, _, rfl, by decide, by decide⟩
  | arr => exact ⟨91, _, rfl, by decide, by decide⟩
  | obj0 => exact ⟨123, _, rfl, by decide, by decide⟩
  | obj => exact ⟨123, _, rfl, by decide, by decide⟩

mutual
theorem ctext_read : ∀ {t : Bytes} {x : Json}, CText true false N t x → ∀ (r : Rd) (st : State) (tail : Bytes),
    (x.isScope = true ∨ ∃ top stk, r.stack = top :: stk ∧ (st.readingValue = true ∨ top = .array) ∧
      (x.isWord = true → WordEnd tail)) →
    ∃ i e es r1 R1 r' R', i.events = e :: es ∧ i.events.length ≤ t.length ∧ ItemAs P (st.name.getD []) x i ∧
      i.depth = x.depth ∧ Reads m strtod st r (t ++ tail) (e, r1, R1) ∧
      Emits (PJson.read m strtod) (r1, R1) es (r', R') ∧ r'.stack = r.stack ∧
      Like m strtod R' tail ∧
      (x.isScope = true → R' = tail ∧ ∃ k ty kids, i = .scope k ty kids)
  | _, _, .null, r, st, tail, h => by
    obtain ⟨top, stk, h1, h2, h3⟩ := h.resolve_left (by simp [Json.isScope])
    obtain ⟨R, h4, h5⟩ := word_round hm strtod r st top stk h1 h2 (str "null") tail .null
      ⟨by decide +kernel, by decide +kernel⟩ (h3 rfl) rfl
    exact ⟨.val (st.name.getD []) .null, _, _, _, _, _, _, rfl, by simp [Item.events, Srl.str], (.val _ _ _ rfl), rfl, (.done _ _ _ _ _ _ h4),
      .nil _, rfl, like_blank strtod h5, by simp [Json.isScope]⟩
  | _, _, .true, r, st, tail, h => by
    obtain ⟨top, stk, h1, h2, h3⟩ := h.resolve_left (by simp [Json.isScope])
    obtain ⟨R, h4, h5⟩ := word_round hm strtod r st top stk h1 h2 (str "true") tail (.bool true)
      ⟨by decide +kernel, by decide +kernel⟩ (h3 rfl) rfl
    exact ⟨.val (st.name.getD []) (.bool true), _, _, _, _, _, _, rfl, by simp [Item.events, Srl.str], (.val _ _ _ rfl), rfl, (.done _ _ _ _ _ _ h4),
      .nil _, rfl, like_blank strtod h5, by simp [Json.isScope]⟩
  | _, _, .false, r, st, tail, h => by
    obtain ⟨top, stk, h1, h2, h3⟩ := h.resolve_left (by simp [Json.isScope])
    obtain ⟨R, h4, h5⟩ := word_round hm strtod r st top stk h1 h2 (str "false") tail (.bool false)
      ⟨by decide +kernel, by decide +kernel⟩ (h3 rfl) rfl
    exact ⟨.val (st.name.getD []) (.bool false), _, _, _, _, _, _, rfl, by simp [Item.events, Srl.str], (.val _ _ _ rfl), rfl, (.done _ _ _ _ _ _ h4),
      .nil _, rfl, like_blank strtod h5, by simp [Json.isScope]⟩
  | _, _, .num t neg v hn, r, st, tail, h => by
    obtain ⟨top, stk, h1, h2, h3⟩ := h.resolve_left (by simp [Json.isScope])
    obtain ⟨hn, w, hw, hw'⟩ := hN t neg v hn
    obtain ⟨R, h4, h5⟩ := word_round hm strtod r st top stk h1 h2 t tail w (number_litOk hn) (h3 rfl) hw
    have hlen : 1 ≤ t.length := by obtain ⟨c, r, rfl, -⟩ := number_head hn; simp
    exact ⟨.val (st.name.getD []) w, _, _, _, _, _, _, rfl, hlen, (.val _ _ _ hw'), rfl, (.done _ _ _ _ _ _ h4),
      .nil _, rfl, like_blank strtod h5, by simp [Json.isScope]⟩
  | _, _, .str t s hc, r, st, tail, h => by
    obtain ⟨top, stk, h1, h2, h3⟩ := h.resolve_left (by simp [Json.isScope])
    obtain ⟨r', h4, h5⟩ := round_string hm strtod r st t s tail top stk h1 (chars_read m hc) h2
    refine ⟨.val (st.name.getD []) (.str s), _, _, _, _, _, _, rfl, by simp [Item.events], (.val _ _ _ rfl), rfl, ?_,
      .nil _, h4, like_refl strtod _, by simp [Json.isScope]⟩
    have : 34 :: (t ++ [34]) ++ tail = 34 :: (t ++ 34 :: tail) := by simp
    rw [this]
    exact .done _ _ _ _ _ _ h5
  | _, _, .arr0 w hw, r, st, tail, h => by
    have h1 := Reads.done _ _ _ _ _ _ (round_open hm strtod r st .array (w ++ 93 :: tail))
    have h2 := read_end hm strtod { r with stack := .array :: r.stack } .array r.stack 93 tail (w ++ 93 :: tail) rfl
      (.inl rfl) (like_gap hm strtod hw _ ⟨93, _, rfl, by decide, by decide⟩)
    refine ⟨.scope (st.name.getD []) .array [], _, _, _, _, _, _, rfl, by simp [Item.events, Item.eventsL],
      (.arr _ _ _ .nil), rfl, ?_, .cons h2 (.nil _), rfl, like_refl strtod _, fun _ => ⟨rfl, _, _, _, rfl⟩⟩
    have : 91 :: (w ++ [93]) ++ tail = 91 :: (w ++ 93 :: tail) := by simp
    rw [this]
    exact h1
  | _, _, .arr t xs he, r, st, tail, h => by
    have h1 := Reads.done _ _ _ _ _ _ (round_open hm strtod r st .array (t ++ 93 :: tail))
    obtain ⟨is, e1, e2, e3, r', e4, e5⟩ := celems_read he { r with stack := .array :: r.stack } r.stack rfl tail
      (t ++ 93 :: tail) (like_refl strtod _)
    refine ⟨.scope (st.name.getD []) .array is, _, _, _, _, _, _, rfl, ?_, (.arr _ _ _ e2),
      by simp [Item.depth, Json.depth, e3], ?_, e5, e4, like_refl strtod _, fun _ => ⟨rfl, _, _, _, rfl⟩⟩
    · simp only [Item.events, List.length_cons, List.length_append, List.length_nil]; omega
    have : 91 :: (t ++ [93]) ++ tail = 91 :: (t ++ 93 :: tail) := by simp
    rw [this]
    exact h1
  | _, _, .obj0 w hw, r, st, tail, h => by
    have h1 := Reads.done _ _ _ _ _ _ (round_open hm strtod r st .object (w ++ 125 :: tail))
    have h2 := read_end hm strtod { r with stack := .object :: r.stack } .object r.stack 125 tail (w ++ 125 :: tail)
      rfl (.inr rfl) (like_gap hm strtod hw _ ⟨125, _, rfl, by decide, by decide⟩)
    refine ⟨.scope (st.name.getD []) .object [], _, _, _, _, _, _, rfl, by simp [Item.events, Item.eventsL],
      (.obj _ _ _ .nil), rfl, ?_, .cons h2 (.nil _), rfl, like_refl strtod _, fun _ => ⟨rfl, _, _, _, rfl⟩⟩
    have : 123 :: (w ++ [125]) ++ tail = 123 :: (w ++ 125 :: tail) := by simp
    rw [this]
    exact h1
  | _, _, .obj t ms he, r, st, tail, h => by
    have h1 := Reads.done _ _ _ _ _ _ (round_open hm strtod r st .object (t ++ 125 :: tail))
    obtain ⟨is, e1, e2, e3, r', e4, e5⟩ := cmembers_read he { r with stack := .object :: r.stack } r.stack rfl tail
      (t ++ 125 :: tail) (like_refl strtod _)
    refine ⟨.scope (st.name.getD []) .object is, _, _, _, _, _, _, rfl, ?_, (.obj _ _ _ e2),
      by simp [Item.depth, Json.depth, e3], ?_, e5, e4, like_refl strtod _, fun _ => ⟨rfl, _, _, _, rfl⟩⟩
    · simp only [Item.events, List.length_cons, List.length_append, List.length_nil]; omega
    have : 123 :: (t ++ [125]) ++ tail = 123 :: (t ++ 125 :: tail) := by simp
    rw [this]
    exact h1
theorem celems_read : ∀ {u : Bytes} {xs : List Json}, CElems true false N u xs → ∀ (r : Rd)
    (stk : List ScopeTy), r.stack = .array :: stk → ∀ rest s : Bytes,
    Like m strtod s (u ++ 93 :: rest) →
    ∃ is, (Item.eventsL is).length ≤ u.length ∧
      ItemsAs P (xs.map fun x => ([], x)) is ∧
      Item.depthL is = Json.depthL xs ∧ ∃ r' : Rd, r'.stack = stk ∧
      Emits (PJson.read m strtod) (r, s) (Item.eventsL is ++ [⟨[], .scopeEnd⟩]) (r', rest)
  | _, _, .one a t b x ha ht hb, r, stk, hstk, rest, s, hs => by
    have hs' : Like m strtod s (t ++ (b ++ 93 :: rest)) := by
      rw [List.append_assoc, List.append_assoc] at hs
      exact like_trans strtod hs (like_gap hm strtod ha _ (plainly_append (text_first strtod hN ht) _))
    obtain ⟨i, e, es, r1, R1, r', R', h1, h2, h3, h4, h5, h6, h7, h8, -⟩ := ctext_read ht r ⟨none, false⟩
      (b ++ 93 :: rest) (.inr ⟨_, _, hstk, .inr rfl, wordEnd_of hb 93 rest (.inr (.inl rfl))⟩)
    have h9 := read_end hm strtod r' .array stk 93 rest R' (h7.trans hstk) (.inl rfl)
      (like_trans strtod h8 (like_gap hm strtod hb.1 _ ⟨93, _, rfl, by decide, by decide⟩))
    refine ⟨[i], ?_, (.cons _ _ _ _ _ h3 .nil), by simp [Item.depthL, Json.depthL, h4], { r' with stack := stk }, rfl, ?_⟩
    · simp only [Item.eventsL, List.length_append, List.length_nil]; omega
    · simp only [Item.eventsL, List.append_nil, h1]
      refine .cons ?_ (emits_append.mpr ⟨_, h6, .cons h9 (.nil _)⟩)
      exact reads_read hm strtod (hs' _ _ _ h5)
  | _, _, .more a t b u x xs ha ht hb hu, r, stk, hstk, rest, s, hs => by
    have hs' : Like m strtod s (t ++ (b ++ 44 :: (u ++ 93 :: rest))) := by
      have e : a ++ (t ++ (b ++ 44 :: u)) ++ 93 :: rest = a ++ (t ++ (b ++ 44 :: (u ++ 93 :: rest))) := by simp
      rw [e] at hs
      exact like_trans strtod hs (like_gap hm strtod ha _ (plainly_append (text_first strtod hN ht) _))
    obtain ⟨i, e, es, r1, R1, r', R', h1, h2, h3, h4, h5, h6, h7, h8, -⟩ := ctext_read ht r ⟨none, false⟩
      (b ++ 44 :: (u ++ 93 :: rest)) (.inr ⟨_, _, hstk, .inr rfl, wordEnd_of hb 44 _ (.inl rfl)⟩)
    obtain ⟨is, g1, g2, g3, r2, g4, g5⟩ := celems_read hu r' stk (h7.trans hstk) rest R'
      (like_trans strtod (like_trans strtod h8 (like_gap hm strtod hb.1 _ ⟨44, _, rfl, by decide, by decide⟩))
        (like_comma strtod _))
    refine ⟨i :: is, ?_, (.cons _ _ _ _ _ h3 g2), by simp [Item.depthL, Json.depthL, h4, g3], r2, g4, ?_⟩
    · simp only [Item.eventsL, List.length_append, List.length_cons]; omega
    · simp only [Item.eventsL, h1, List.cons_append, List.append_assoc]
      refine .cons ?_ (emits_append.mpr ⟨_, h6, g5⟩)
      exact reads_read hm strtod (hs' _ _ _ h5)
theorem cmembers_read : ∀ {u : Bytes} {ms : List (Bytes × Json)}, CMembers true false N u ms → ∀ (r : Rd)
    (stk : List ScopeTy), r.stack = .object :: stk → ∀ rest s : Bytes,
    Like m strtod s (u ++ 125 :: rest) →
    ∃ is, (Item.eventsL is).length ≤ u.length ∧
      ItemsAs P ms is ∧
      Item.depthL is = Json.depthM ms ∧ ∃ r' : Rd, r'.stack = stk ∧
      Emits (PJson.read m strtod) (r, s) (Item.eventsL is ++ [⟨[], .scopeEnd⟩]) (r', rest)
  | _, _, .one a k n b c t d x ha hk hb hc ht hd, r, stk, hstk, rest, s, hs => by
    have hs' : Like m strtod s (34 :: (k ++ 34 :: (b ++ 58 :: (c ++ (t ++ (d ++ 125 :: rest)))))) := by
      have e : a ++ 34 :: (k ++ 34 :: (b ++ 58 :: (c ++ (t ++ d)))) ++ 125 :: rest =
          a ++ 34 :: (k ++ 34 :: (b ++ 58 :: (c ++ (t ++ (d ++ 125 :: rest))))) := by simp
      rw [e] at hs
      exact like_trans strtod hs (like_gap hm strtod ha _ ⟨34, _, rfl, by decide, by decide⟩)
    obtain ⟨r0, f2, f1⟩ := reads_key hm strtod r stk hstk k n b c _ s hk hb hc
      (plainly_append (text_first strtod hN ht) _) hs'
    obtain ⟨i, e, es, r1, R1, r', R', h1, h2, h3, h4, h5, h6, h7, h8, -⟩ := ctext_read ht r0 ⟨some n, true⟩
      (d ++ 125 :: rest) (.inr ⟨_, _, f2.trans hstk, .inl rfl, wordEnd_of hd 125 rest (.inr (.inr rfl))⟩)
    have h9 := read_end hm strtod r' .object stk 125 rest R' ((h7.trans f2).trans hstk) (.inr rfl)
      (like_trans strtod h8 (like_gap hm strtod hd.1 _ ⟨125, _, rfl, by decide, by decide⟩))
    refine ⟨[i], ?_, (.cons _ _ _ _ _ h3 .nil), by simp [Item.depthL, Json.depthM, h4], { r' with stack := stk }, rfl, ?_⟩
    · simp only [Item.eventsL, List.length_append, List.length_nil, List.length_cons]; omega
    · simp only [Item.eventsL, List.append_nil, h1]
      exact .cons (reads_read hm strtod (f1 _ h5)) (emits_append.mpr ⟨_, h6, .cons h9 (.nil _)⟩)
  | _, _, .more a k n b c t d u x ms ha hk hb hc ht hd hu, r, stk, hstk, rest, s, hs => by
    have hs' : Like m strtod s (34 :: (k ++ 34 :: (b ++ 58 :: (c ++ (t ++ (d ++ 44 :: (u ++ 125 :: rest))))))) := by
      have e : a ++ 34 :: (k ++ 34 :: (b ++ 58 :: (c ++ (t ++ (d ++ 44 :: u))))) ++ 125 :: rest =
          a ++ 34 :: (k ++ 34 :: (b ++ 58 :: (c ++ (t ++ (d ++ 44 :: (u ++ 125 :: rest)))))) := by simp
      rw [e] at hs
      exact like_trans strtod hs (like_gap hm strtod ha _ ⟨34, _, rfl, by decide, by decide⟩)
    obtain ⟨r0, f2, f1⟩ := reads_key hm strtod r stk hstk k n b c _ s hk hb hc
      (plainly_append (text_first strtod hN ht) _) hs'
    obtain ⟨i, e, es, r1, R1, r', R', h1, h2, h3, h4, h5, h6, h7, h8, -⟩ := ctext_read ht r0 ⟨some n, true⟩
      (d ++ 44 :: (u ++ 125 :: rest)) (.inr ⟨_, _, f2.trans hstk, .inl rfl, wordEnd_of hd 44 _ (.inl rfl)⟩)
    obtain ⟨is, g1, g2, g3, r2, g4, g5⟩ := cmembers_read hu r' stk ((h7.trans f2).trans hstk) rest R'
      (like_trans strtod (like_trans strtod h8 (like_gap hm strtod hd.1 _ ⟨44, _, rfl, by decide, by decide⟩))
        (like_comma strtod _))
    refine ⟨i :: is, ?_, (.cons _ _ _ _ _ h3 g2), by simp [Item.depthL, Json.depthM, h4, g3], r2, g4, ?_⟩
    · simp only [Item.eventsL, List.length_append, List.length_cons]; omega
    · simp only [Item.eventsL, h1, List.cons_append, List.append_assoc]
      exact .cons (reads_read hm strtod (f1 _ h5)) (emits_append.mpr ⟨_, h6, g5⟩)
end

/-- The tokens of whole documents -/
theorem cdocument_emits {t : Bytes} {x : Json} (h : CDocumentOf true false N t x) (hx : x.isScope = true)
    (old : Rd) (rest : Bytes) : ∃ ty kids r' gap, Gap true gap ∧ ItemAs P [] x (.scope [] ty kids) ∧
      (Item.scope [] ty kids).depth = x.depth ∧ (Item.eventsL kids).length < (t ++ rest).length + 1 ∧
      Emits (PJson.read m strtod) (old.clear, t ++ rest) (Item.scope [] ty kids).events (r', gap ++ rest) := by
  obtain ⟨a, u, b, rfl, ha, hu, hb⟩ := h
  obtain ⟨i, e, es, r1, R1, r', R', h1, h2, h3, h4, h5, h6, h7, h8, h9⟩ := ctext_read hm strtod hN hu old.clear
    ⟨none, false⟩ (b ++ rest) (.inl hx)
  obtain ⟨rfl, k, ty, kids, rfl⟩ := h9 hx
  obtain rfl : k = [] := by cases h3 <;> rfl
  refine ⟨ty, kids, r', b, hb, h3, h4, ?_, ?_⟩
  · simp only [Item.events, List.length_cons, List.length_append, List.length_nil] at h2 ⊢
    omega
  · rw [h1]
    refine .cons ?_ h6
    rw [List.append_assoc, List.append_assoc]
    exact reads_read hm strtod (like_gap hm strtod ha _ (plainly_append (text_first strtod hN hu) _) _ _ _ h5)

omit hN

/-- Whole documents: what follows them is not read. -/
theorem cdocument_read (hr : Rounds strtod) {t : Bytes} {x : Json} (h : CDocumentOf true false Props.Readable t x)
    (hx : x.isScope = true) (old : Rd) (rest : Bytes) : ∃ n r' gap, Gap true gap ∧ Props.NodeRead x n ∧
      loadWith m strtod old (t ++ rest) = if x.depth ≤ maxDepth + 1 then .ok (⟨[], n⟩, r', gap ++ rest) else .err := by
  obtain ⟨ty, kids, r', ws, h1, h2, h3, h4, h5⟩ := cdocument_emits hm strtod (N := Props.Readable)
    (P := Props.NumberRead) (fun t neg v hn => ⟨hn.1, (number_read strtod hr hn).imp fun _ h => ⟨h.1, h.2.1⟩⟩) h hx old rest
  refine ⟨.mk ty (Item.contentL kids).1 (Item.contentL kids).2, r', ws, h1, ?_, ?_⟩
  · cases h2 with
    | arr _ _ _ h => exact .arr _ _ _ (nodeRead_of h)
    | obj _ _ _ h => exact .obj _ _ _ (nodeRead_of h)
  · have hl := load_item (PJson.read m strtod) [] ty kids ((t ++ rest).length + 1) _ _ h5 h4
    unfold loadWith
    rw [hl, ← h3]
    simp only [Item.depth, Nat.add_le_add_iff_right]

end Srl.Rfc8259
