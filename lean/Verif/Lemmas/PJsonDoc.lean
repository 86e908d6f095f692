import Verif.Lemmas.PJson

/-! Lemmas about the JSON format: whole documents. -/

namespace Srl.PJson
open Doc

/-- Text of a literal: starts with a character of the table, contains no blank and nothing that
would end it. -/
def LitOk (t : Bytes) : Prop :=
  isLit (t.headD 0) = true ∧ ∀ x ∈ t, isLitEnd x = false ∧ IntStr.isSpace x = false

/-- Names that need no escaping. -/
def NameOk (n : Bytes) : Prop := ∀ b ∈ n, b ≠ 34 ∧ b ≠ 92

/-- `v` is written, and its text read as `v'`. -/
def Reads (m : Mem) (dtoa : UInt64 → Bytes) (strtod : Bytes → Option UInt64) (v v' : Val) : Prop :=
  ∃ t, valText dtoa v = .ok t ∧
    ((∃ text content, t = 34 :: (text ++ [34]) ∧ v' = .str content ∧ Quoted m text content) ∨
     (LitOk t ∧ IntStr.strToType strtod (t.contains 46) t = some v'))

/-- Line breaks and tabs followed by a comma or a closing bracket. -/
def TailOk (tail : Bytes) : Prop :=
  ∃ ws c rest, tail = ws ++ c :: rest ∧ (∀ x ∈ ws, x = 10 ∨ x = 9) ∧ (c = 44 ∨ c = 93 ∨ c = 125)

theorem space_lit_end : ∀ b : UInt8, isLit b = true → IntStr.isSpace b = false := by decide +kernel

theorem strToType_ws (strtod : Bytes → Option UInt64) (h : Bool) (t ws : Bytes) (ht : LitOk t)
    (hw : ∀ x ∈ ws, x = 10 ∨ x = 9) :
    IntStr.strToType strtod h (t ++ ws) = IntStr.strToType strtod h t := by
  have htrim : IntStr.trimSpace (t ++ ws) = IntStr.trimSpace t := by
    unfold IntStr.trimSpace
    cases t with
    | nil => simp [LitOk, isLit, str] at ht
    | cons b t =>
      have hb : IntStr.isSpace b = false := (ht.2 b (List.mem_cons_self ..)).2
      rw [List.cons_append, List.dropWhile_cons, List.dropWhile_cons, if_neg (by simp [hb]),
        if_neg (by simp [hb]), ← List.cons_append, List.reverse_append, dropWhile_skip]
      intro x hx
      rcases hw x (List.mem_reverse.mp hx) with rfl | rfl <;> decide
  unfold IntStr.strToType
  rw [htrim]

theorem contains_ws (t ws : Bytes) (hw : ∀ x ∈ ws, x = 10 ∨ x = 9) :
    (t ++ ws).contains 46 = t.contains 46 := by
  have : ws.contains (46 : UInt8) = false := by
    cases h : ws.contains (46 : UInt8) with
    | false => rfl
    | true =>
      rcases hw 46 (by simpa using h) with h | h <;> cases h
  rw [List.contains_append, this, Bool.or_false]

/-! ### Layout -/

theorem spacing_blank (compact : Bool) (w : Wr) (isEnd : Bool) :
    ∀ b ∈ spacing compact w isEnd, isBlank b = true := by
  intro b hb
  unfold spacing at hb
  rcases List.mem_append.mp hb with hb | hb
  · split at hb
    · simp only [List.mem_singleton] at hb; rw [hb]; rfl
    · cases hb
  · split at hb
    · cases hb
    · rcases List.mem_append.mp hb with hb | hb
      · split at hb
        · simp only [List.mem_singleton] at hb; rw [hb]; rfl
        · cases hb
      · rw [(List.mem_replicate.mp hb).2]; rfl

/-- After a value or a scope end, the next token starts with a comma or a closing bracket,
possibly on a new line. -/
theorem write_tail {dtoa : UInt64 → Bytes} {compact : Bool} {w w' : Wr} {e : Event} {bs : Bytes}
    (h : write dtoa compact w e = .ok (bs, w')) (hc : w.closed = false)
    (x : Bytes) : TailOk (bs ++ x) := by
  have hcomma : ∀ y, TailOk (spacing compact w false ++ y) := by
    intro y
    refine ⟨[], 44, (if compact then [] else (if w.stack.length > 0 then [10] else []) ++
      List.replicate w.stack.length 9) ++ y, ?_, by simp, Or.inl rfl⟩
    simp [spacing, hc]
  unfold write at h
  split at h
  · cases h
    simp only [List.append_assoc]
    exact hcomma _
  · split at h
    · cases h
    · next t rest hw =>
      cases h
      refine ⟨spacing compact w true, if t = .array then 93 else 125, x, by simp, ?_, ?_⟩
      · intro b hb
        simp only [spacing, Bool.not_true, Bool.and_false, Bool.false_eq_true, if_false,
          List.nil_append] at hb
        split at hb
        · cases hb
        · rcases List.mem_append.mp hb with hb | hb
          · split at hb
            · exact Or.inl (by simpa using hb)
            · cases hb
          · exact Or.inr (List.mem_replicate.mp hb).2
      · cases t <;> simp
  · rw [Res.bind_eq_ok] at h
    obtain ⟨t, _, h⟩ := h
    cases h
    simp only [List.append_assoc]
    exact hcomma _

/-! ### One token -/

/-- The token as it will be read: names only in objects, values as read. -/
def readTok (nv : Val → Val) : Tok → Tok
  | .val v => .val (nv v)
  | t => t

def readEvent (nv : Val → Val) (w : Wr) (e : Event) : Event :=
  ⟨if w.stack.head? = some .object ∧ e.tok ≠ .scopeEnd then e.name else [], readTok nv e.tok⟩

/-- What can be written in state `w` such that it is read back. -/
def EventOk (m : Mem) (dtoa : UInt64 → Bytes) (strtod : Bytes → Option UInt64) (nv : Val → Val)
    (w : Wr) (e : Event) : Prop :=
  (w.stack.head? = some .object → e.tok ≠ .scopeEnd → NameOk e.name) ∧
  match e.tok with
  | .val v => w.stack ≠ [] ∧ Reads m dtoa strtod v (nv v)
  | _ => True

section
variable {m : Mem} (hm : m.Sane) (strtod : Bytes → Option UInt64)

theorem loop_more {fuel : Nat} {st st' : State} {r r' : Rd} {s s' : Bytes}
    (h : round m strtod r st s = .ok (.more st', r', s')) :
    loop m strtod (fuel + 1) st (r, s) = loop m strtod fuel st' (r', s') := by
  rw [loop, h]; rfl

theorem loop_done {fuel : Nat} {st : State} {t : Tok} {r r' : Rd} {s s' : Bytes}
    (h : round m strtod r st s = .ok (.done t, r', s')) :
    loop m strtod (fuel + 1) st (r, s) = .ok (⟨st.name.getD [], t⟩, r', s') := by
  rw [loop, h]; rfl

theorem quoted_name (n : Bytes) (h : NameOk n) : Quoted m n n :=
  fun rest fuel c steps hf => readString_raw m n rest h fuel c steps hf

theorem quoted_escape (t : Bytes) : Quoted m (escape t) t :=
  fun rest fuel c steps hf => readString_escape m t rest fuel c steps hf

theorem dropWhile_head (b : UInt8) (s : Bytes) (h : isBlank b = false) :
    (b :: s).dropWhile isBlank = b :: s := by
  rw [List.dropWhile_cons, if_neg (by simp [h])]

theorem length_of_dropWhile {s t : Bytes} (h : s.dropWhile isBlank = t) : t.length ≤ s.length := by
  obtain ⟨x, hx, _⟩ := dropWhile_split isBlank s
  rw [h] at hx
  rw [hx, List.length_append]
  omega

include hm

/-- Reading up to the point where the value of a token starts. -/
theorem read_name (w : Wr) (r : Rd) (hr : r.stack = w.stack) (compact : Bool) (name body s : Bytes)
    (hname : w.stack.head? = some .object → NameOk name) (b : UInt8)
    (hs : s.dropWhile isBlank =
      (spacing compact w false ++ (nameText compact w false name ++ b :: body)).dropWhile isBlank) :
    ∃ j st r1, read m strtod (r, s) = loop m strtod (j + 1) st (r1, b :: body) ∧
      r1.stack = r.stack ∧
      st.name.getD [] = (if w.stack.head? = some .object then name else []) ∧
      (st.readingValue = true ∨ w.stack.head? ≠ some .object) := by
  rw [dropWhile_skip _ _ _ (spacing_blank compact w false)] at hs
  by_cases ho : w.stack.head? = some .object
  · have hn : nameText compact w false name ++ b :: body =
        34 :: (name ++ 34 :: 58 :: ((if compact then [] else [32]) ++ b :: body)) := by
      simp [nameText, ho]
    rw [hn, dropWhile_head _ _ (by decide)] at hs
    have hlen := length_of_dropWhile hs
    obtain ⟨j, hj⟩ : ∃ j, s.length + 1 = j + 1 + 1 + 1 := by
      simp only [List.length_cons, List.length_append] at hlen
      exact ⟨s.length - 2, by omega⟩
    have hs2 : r.stack = .object :: w.stack.tail := by
      rw [hr]
      cases hw : w.stack with
      | nil => rw [hw] at ho; cases ho
      | cons a l => rw [hw] at ho; simp only [List.head?_cons, Option.some.injEq] at ho; rw [ho]; rfl
    obtain ⟨r1, h1, h2⟩ := round_name hm strtod r name name
      (58 :: ((if compact then [] else [32]) ++ b :: body)) w.stack.tail hs2
      (quoted_name name (hname ho))
    refine ⟨j, ⟨some name, true⟩, r1, ?_, h1, by simp [ho], Or.inl rfl⟩
    have hsp : ((if compact then [] else [(32 : UInt8)]) ++ b :: body).dropWhile isBlank =
        (b :: body).dropWhile isBlank := by
      apply dropWhile_skip
      intro x hx
      split at hx
      · cases hx
      · simp only [List.mem_singleton] at hx; rw [hx]; rfl
    unfold read
    rw [hj, loop_blank m strtod _ _ r s _ (hs.trans (dropWhile_head _ _ (by decide)).symm),
      loop_more strtod h2, loop_more strtod (round_colon hm strtod r1 (some name) _),
      loop_blank m strtod _ _ r1 _ _ hsp]
  · have hn : nameText compact w false name = [] := by simp [nameText, ho]
    rw [hn, List.nil_append] at hs
    refine ⟨s.length, ⟨none, false⟩, r, ?_, rfl, by simp [ho], Or.inr ho⟩
    unfold read
    exact loop_blank m strtod _ _ r s _ hs

omit hm in
theorem tail_drop {ws rest : Bytes} {c : UInt8} (hw : ∀ x ∈ ws, x = 10 ∨ x = 9) :
    (if c = 44 then rest else c :: rest).dropWhile isBlank =
      (ws ++ c :: rest).dropWhile isBlank := by
  rw [dropWhile_skip _ _ _ (by intro x hx; rcases hw x hx with rfl | rfl <;> rfl)]
  split
  · next h => rw [h, List.dropWhile_cons, if_pos (by decide)]
  · rfl

/-- One token is read back. Strings and brackets are read exactly; after a literal the comma or
the blanks following it may have been consumed as well. -/
theorem read_event {dtoa : UInt64 → Bytes} {compact : Bool} {nv : Val → Val} {w w' : Wr} {e : Event}
    {bs : Bytes} (h : write dtoa compact w e = .ok (bs, w'))
    (hok : EventOk m dtoa strtod nv w e) (tail : Bytes)
    (htail : w'.stack ≠ [] → w'.closed = false → TailOk tail) (r : Rd) (hr : r.stack = w.stack)
    (s : Bytes) (hs : s.dropWhile isBlank = (bs ++ tail).dropWhile isBlank) :
    ∃ r' R, read m strtod (r, s) = .ok (readEvent nv w e, r', R) ∧ r'.stack = w'.stack ∧
      R.dropWhile isBlank = tail.dropWhile isBlank ∧ (e.tok = .scopeEnd → R = tail) := by
  obtain ⟨name, tok⟩ := e
  cases tok with
  | scope t =>
    simp only [write] at h
    cases h
    have hb : isBlank (if t = .array then 91 else 123) = false := by cases t <;> rfl
    obtain ⟨j, st, r1, h1, h2, h3, -⟩ := read_name hm strtod w r hr compact name tail s
      (fun ho => hok.1 ho (by simp)) (if t = .array then 91 else 123)
      (by rw [hs]; simp [List.append_assoc])
    refine ⟨{ r1 with stack := t :: r1.stack }, tail, ?_, ?_, rfl, by simp⟩
    · rw [h1, loop_done strtod (round_open hm strtod r1 st t tail), h3]
      simp only [readEvent, readTok]
      simp
    · simp [h2, hr]
  | scopeEnd =>
    simp only [write] at h
    split at h
    · cases h
    · next t rest hw =>
      cases h
      have hb : isBlank (if t = .array then 93 else 125) = false := by cases t <;> rfl
      rw [List.append_assoc, dropWhile_skip _ _ _ (spacing_blank compact w true)] at hs
      refine ⟨{ r with stack := rest }, tail, ?_, rfl, rfl, fun _ => rfl⟩
      unfold read
      rw [loop_blank m strtod _ _ r s _ hs]
      have := loop_done (fuel := s.length) strtod (round_close hm strtod r ⟨none, false⟩ t rest
        (if t = .array then 93 else 125) tail (by rw [hr, hw]) (by cases t <;> simp))
      have he : readEvent nv w ⟨name, .scopeEnd⟩ = ⟨[], .scopeEnd⟩ := by simp [readEvent, readTok]
      rw [he]
      exact this
  | val v =>
    simp only [write] at h
    rw [Res.bind_eq_ok] at h
    obtain ⟨t, ht, h⟩ := h
    cases h
    obtain ⟨hne, t', ht', hcase⟩ := hok.2
    rw [ht] at ht'
    cases ht'
    obtain ⟨top, stk, hw⟩ : ∃ top stk, w.stack = top :: stk := by
      cases hw : w.stack with
      | nil => exact absurd hw hne
      | cons a l => exact ⟨a, l, rfl⟩
    have hval : ∀ st : State, st.readingValue = true ∨ w.stack.head? ≠ some .object →
        st.readingValue = true ∨ top = .array := by
      intro st hst
      rcases hst with hst | hst
      · exact Or.inl hst
      · right
        cases top with
        | array => rfl
        | object => rw [hw] at hst; exact absurd rfl hst
    rcases hcase with ⟨text, content, rfl, hv, hq⟩ | ⟨hl, hv⟩
    · obtain ⟨j, st, r1, h1, h2, h3, h4⟩ := read_name hm strtod w r hr compact name
        (text ++ 34 :: tail) s (fun ho => hok.1 ho (by simp)) 34
        (by rw [hs]; simp [List.append_assoc])
      obtain ⟨r2, h5, h6⟩ := round_string hm strtod r1 st text content tail top stk
        (by rw [h2, hr, hw]) hq (hval st h4)
      refine ⟨r2, tail, ?_, by rw [h5, h2, hr], rfl, by simp⟩
      rw [h1, loop_done strtod h6, h3]
      simp [readEvent, readTok, hv]
    · cases t with
      | nil => simp [LitOk, isLit, str] at hl
      | cons b t =>
        have hbl := (lit_not_delim b hl.1).2.2.2.2.2.2.2
        obtain ⟨ws, c, rest, rfl, hws, hc⟩ := htail hne rfl
        obtain ⟨j, st, r1, h1, h2, h3, h4⟩ := read_name hm strtod w r hr compact name
          (t ++ (ws ++ c :: rest)) s (fun ho => hok.1 ho (by simp)) b
          (by rw [hs]; simp [List.append_assoc])
        refine ⟨r1, if c = 44 then rest else c :: rest, ?_, by rw [h2, hr], tail_drop hws, by simp⟩
        have h5 := round_literal hm strtod r1 st top stk (by rw [h2, hr, hw]) (hval st h4) b t ws c
          rest (nv v) hl.1 (fun x hx => (hl.2 x hx).1) hws hc
          (by
            show IntStr.strToType strtod (((b :: t) ++ ws).contains 46) ((b :: t) ++ ws) = _
            rw [contains_ws _ _ hws, strToType_ws strtod _ _ _ hl hws, hv])
        rw [h1]
        rw [List.cons_append] at h5
        rw [loop_done strtod h5, h3]
        simp [readEvent, readTok]

/-! ### Sequences of tokens -/

/-- Effect of writing a token on the state. -/
def next (w : Wr) (e : Event) : Wr :=
  match e.tok with
  | .scope t => ⟨t :: w.stack, true⟩
  | .scopeEnd => ⟨w.stack.tail, false⟩
  | .val _ => ⟨w.stack, false⟩

omit hm in
theorem write_next {dtoa : UInt64 → Bytes} {compact : Bool} {w w' : Wr} {e : Event} {bs : Bytes}
    (h : write dtoa compact w e = .ok (bs, w')) : w' = next w e := by
  obtain ⟨n, tok⟩ := e
  cases tok with
  | scope t => simp only [write] at h; cases h; rfl
  | scopeEnd =>
    simp only [write] at h
    split at h
    · cases h
    · next hw => cases h; simp [next, hw]
  | val v =>
    simp only [write, Res.bind_eq_ok] at h
    obtain ⟨t, _, h⟩ := h
    cases h; rfl

/-- All tokens are fine, in the states in which they are written. -/
def EventsOk (m : Mem) (dtoa : UInt64 → Bytes) (strtod : Bytes → Option UInt64) (nv : Val → Val) :
    Wr → List Event → Prop
  | _, [] => True
  | w, e :: es => EventOk m dtoa strtod nv w e ∧ EventsOk m dtoa strtod nv (next w e) es

def readEvents (nv : Val → Val) : Wr → List Event → List Event
  | _, [] => []
  | w, e :: es => readEvent nv w e :: readEvents nv (next w e) es

def nexts : Wr → List Event → Wr
  | w, [] => w
  | w, e :: es => nexts (next w e) es

theorem emits_events {dtoa : UInt64 → Bytes} {compact : Bool} {nv : Val → Val} (es : List Event) :
    ∀ (w w' : Wr) (bs : Bytes), writeAll dtoa compact w es = .ok (bs, w') →
      EventsOk m dtoa strtod nv w es → ∀ (tail : Bytes),
      (w'.stack ≠ [] → w'.closed = false → TailOk tail) → ∀ (r : Rd), r.stack = w.stack →
      ∀ (s : Bytes), s.dropWhile isBlank = (bs ++ tail).dropWhile isBlank →
      ∃ r' R, Emits (read m strtod) (r, s) (readEvents nv w es) (r', R) ∧ r'.stack = w'.stack ∧
        R.dropWhile isBlank = tail.dropWhile isBlank := by
  induction es with
  | nil =>
    intro w w' bs h _ tail _ r hr s hs
    simp only [writeAll] at h
    cases h
    exact ⟨r, s, .nil _, hr, hs⟩
  | cons e es ih =>
    intro w w' bs h hok tail htail r hr s hs
    simp only [writeAll, Res.bind_eq_ok] at h
    obtain ⟨⟨b1, w1⟩, h1, ⟨b2, w2⟩, h2, h⟩ := h
    cases h
    have hn := write_next h1
    have htl : w1.stack ≠ [] → w1.closed = false → TailOk (b2 ++ tail) := by
      intro hne hcl
      cases es with
      | nil =>
        simp only [writeAll] at h2
        cases h2
        exact htail hne hcl
      | cons e2 es2 =>
        simp only [writeAll, Res.bind_eq_ok] at h2
        obtain ⟨⟨b3, w3⟩, h3, ⟨b4, w4⟩, h4, h⟩ := h2
        cases h
        rw [List.append_assoc]
        exact write_tail h3 hcl _
    obtain ⟨r1, R1, h3, h4, h5, -⟩ := read_event hm strtod h1 hok.1 (b2 ++ tail) htl r hr s
      (by rw [hs, List.append_assoc])
    have hok2 := hok.2
    rw [← hn] at hok2
    obtain ⟨r2, R2, h6, h7, h8⟩ := ih w1 _ b2 h2 hok2 tail htail r1 h4 R1 h5
    rw [hn] at h6
    exact ⟨r2, R2, .cons h3 h6, h7, h8⟩

end

theorem writeAll_append (dtoa : UInt64 → Bytes) (compact : Bool) (a b : List Event) : ∀ (w : Wr),
    writeAll dtoa compact w (a ++ b) = (do
      let (x, w) ← writeAll dtoa compact w a
      let (y, w) ← writeAll dtoa compact w b
      .ok (x ++ y, w)) := by
  induction a with
  | nil =>
    intro w
    simp only [List.nil_append, writeAll, Res.ok_bind]
    cases writeAll dtoa compact w b <;> rfl
  | cons e a ih =>
    intro w
    simp only [List.cons_append, writeAll]
    cases h : write dtoa compact w e with
    | ok p =>
      obtain ⟨x, w1⟩ := p
      simp only [Res.ok_bind, ih]
      cases h2 : writeAll dtoa compact w1 a with
      | ok p =>
        obtain ⟨y, w2⟩ := p
        simp only [Res.ok_bind]
        cases h3 : writeAll dtoa compact w2 b with
        | ok p => obtain ⟨z, w3⟩ := p; simp
        | _ => rfl
      | _ => rfl
    | _ => rfl

/-! ### Documents -/

mutual
/-- Admissible items in a scope that shows names or not. -/
def ItemOk (m : Mem) (dtoa : UInt64 → Bytes) (strtod : Bytes → Option UInt64) (nv : Val → Val) :
    Bool → Item → Prop
  | named, .val n v => (named = true → NameOk n) ∧ Reads m dtoa strtod v (nv v)
  | named, .scope n t kids => (named = true → NameOk n) ∧ ItemsOk m dtoa strtod nv (t == .object) kids
def ItemsOk (m : Mem) (dtoa : UInt64 → Bytes) (strtod : Bytes → Option UInt64) (nv : Val → Val) :
    Bool → List Item → Prop
  | _, [] => True
  | named, i :: is => ItemOk m dtoa strtod nv named i ∧ ItemsOk m dtoa strtod nv named is
end

theorem readEvents_append (nv : Val → Val) (a b : List Event) : ∀ w,
    readEvents nv w (a ++ b) = readEvents nv w a ++ readEvents nv (nexts w a) b := by
  induction a with
  | nil => intro w; rfl
  | cons e a ih => intro w; simp [readEvents, nexts, ih]

theorem nexts_append (a b : List Event) : ∀ w, nexts w (a ++ b) = nexts (nexts w a) b := by
  induction a with
  | nil => intro w; rfl
  | cons e a ih => intro w; simp [nexts, ih]

theorem eventsOk_append {m : Mem} {dtoa : UInt64 → Bytes} {strtod : Bytes → Option UInt64}
    {nv : Val → Val} (a b : List Event) : ∀ w,
    EventsOk m dtoa strtod nv w (a ++ b) ↔
      EventsOk m dtoa strtod nv w a ∧ EventsOk m dtoa strtod nv (nexts w a) b := by
  induction a with
  | nil => intro w; simp [EventsOk, nexts]
  | cons e a ih => intro w; simp [EventsOk, nexts, ih, and_assoc]

mutual
theorem nexts_item : ∀ (i : Item) (w : Wr), nexts w i.events = ⟨w.stack, false⟩
  | .val n v, w => rfl
  | .scope n t kids, w => by
    simp only [Item.events, nexts, nexts_append, next]
    rw [(nexts_items kids ⟨t :: w.stack, true⟩)]
    rfl
theorem nexts_items : ∀ (is : List Item) (w : Wr),
    (nexts w (Item.eventsL is)).stack = w.stack
  | [], w => rfl
  | i :: is, w => by
    simp only [Item.eventsL, nexts_append]
    rw [nexts_items is, nexts_item i]
end

mutual
theorem readEvents_item (nv : Val → Val) : ∀ (i : Item) (w : Wr),
    readEvents nv w i.events = (Norm.item nv (w.stack.head? == some .object) i).events
  | .val n v, w => by
    by_cases h : w.stack.head? = some .object <;>
      simp [Item.events, readEvents, readEvent, readTok, Norm.item, h]
  | .scope n t kids, w => by
    have h1 := readEvents_items nv kids ⟨t :: w.stack, true⟩
    simp only [Item.events, readEvents, Norm.item, readEvents_append]
    have h2 : next w ⟨n, .scope t⟩ = ⟨t :: w.stack, true⟩ := rfl
    rw [h2, h1]
    have h3 : (List.head? (t :: w.stack) == some ScopeTy.object) = (t == .object) := by
      cases t <;> rfl
    rw [h3]
    by_cases h : w.stack.head? = some .object <;>
      simp [readEvent, readTok, h]
theorem readEvents_items (nv : Val → Val) : ∀ (is : List Item) (w : Wr),
    readEvents nv w (Item.eventsL is) =
      Item.eventsL (Norm.items nv (w.stack.head? == some .object) is)
  | [], w => rfl
  | i :: is, w => by
    simp only [Item.eventsL, Norm.items, readEvents_append, readEvents_item nv i w,
      readEvents_items nv is, nexts_item]
end

mutual
theorem eventsOk_item {m : Mem} {dtoa : UInt64 → Bytes} {strtod : Bytes → Option UInt64}
    {nv : Val → Val} : ∀ (i : Item) (w : Wr), w.stack ≠ [] →
    ItemOk m dtoa strtod nv (w.stack.head? == some .object) i →
    EventsOk m dtoa strtod nv w i.events
  | .val n v, w, hw, h => by
    simp only [ItemOk, beq_iff_eq] at h
    simp only [Item.events, EventsOk, EventOk, and_true]
    exact ⟨fun ho _ => h.1 ho, hw, h.2⟩
  | .scope n t kids, w, hw, h => by
    simp only [ItemOk, beq_iff_eq] at h
    simp only [Item.events, EventsOk, eventsOk_append]
    refine ⟨⟨fun ho _ => h.1 ho, trivial⟩, ?_, ?_⟩
    · apply eventsOk_items kids
      · simp [next]
      · cases t <;> exact h.2
    · exact ⟨⟨fun _ h => absurd rfl h, trivial⟩, trivial⟩
theorem eventsOk_items {m : Mem} {dtoa : UInt64 → Bytes} {strtod : Bytes → Option UInt64}
    {nv : Val → Val} : ∀ (is : List Item) (w : Wr), w.stack ≠ [] →
    ItemsOk m dtoa strtod nv (w.stack.head? == some .object) is →
    EventsOk m dtoa strtod nv w (Item.eventsL is)
  | [], w, _, _ => trivial
  | i :: is, w, hw, h => by
    simp only [ItemsOk] at h
    simp only [Item.eventsL, eventsOk_append]
    refine ⟨eventsOk_item i w hw h.1, eventsOk_items is _ ?_ ?_⟩
    · rw [nexts_item]; exact hw
    · rw [nexts_item]; exact h.2
end

mutual
/-- Writing succeeds when every value has a text. -/
theorem writeAll_item {m : Mem} {dtoa : UInt64 → Bytes} {strtod : Bytes → Option UInt64}
    {nv : Val → Val} (compact : Bool) : ∀ (i : Item) (named : Bool) (w : Wr),
    ItemOk m dtoa strtod nv named i →
    ∃ bs, writeAll dtoa compact w i.events = .ok (bs, ⟨w.stack, false⟩)
  | .val n v, named, w, h => by
    simp only [ItemOk] at h
    obtain ⟨-, t, ht, -⟩ := h
    exact ⟨spacing compact w false ++ nameText compact w false n ++ t ++ [],
      by simp only [Item.events, writeAll, write, ht, Res.ok_bind]⟩
  | .scope n t kids, named, w, h => by
    simp only [ItemOk] at h
    obtain ⟨bs, w', h1, h2⟩ := writeAll_items compact kids (t == .object) ⟨t :: w.stack, true⟩ h.2
    simp only at h2
    refine ⟨spacing compact w false ++ nameText compact w false n ++
      [if t = .array then 91 else 123] ++ (bs ++ (spacing compact w' true ++
        [if t = .array then 93 else 125] ++ [])), ?_⟩
    simp only [Item.events, writeAll, write, Res.ok_bind, writeAll_append, h1, h2]
theorem writeAll_items {m : Mem} {dtoa : UInt64 → Bytes} {strtod : Bytes → Option UInt64}
    {nv : Val → Val} (compact : Bool) : ∀ (is : List Item) (named : Bool) (w : Wr),
    ItemsOk m dtoa strtod nv named is →
    ∃ bs w', writeAll dtoa compact w (Item.eventsL is) = .ok (bs, w') ∧ w'.stack = w.stack
  | [], _, w, _ => ⟨[], w, rfl, rfl⟩
  | i :: is, named, w, h => by
    simp only [ItemsOk] at h
    obtain ⟨b1, h1⟩ := writeAll_item compact i named w h.1
    obtain ⟨b2, w2, h2, h3⟩ := writeAll_items compact is named ⟨w.stack, false⟩ h.2
    exact ⟨b1 ++ b2, w2, by simp only [Item.eventsL, writeAll_append, h1, h2, Res.ok_bind], h3⟩
end

/-- A whole document is read back, token by token; reading ends behind the last bracket. -/
theorem emits_doc {m : Mem} (hm : m.Sane) (strtod : Bytes → Option UInt64) (dtoa : UInt64 → Bytes)
    (compact : Bool) (nv : Val → Val) (n : Bytes) (t : ScopeTy) (kids : List Item)
    (hk : ItemsOk m dtoa strtod nv (t == .object) kids) :
    ∃ bs, writeAll dtoa compact Wr.new (Item.scope n t kids).events = .ok (bs, ⟨[], false⟩) ∧
      ∀ (rest : Bytes) (r : Rd), r.stack = [] → ∃ r', Emits (read m strtod) (r, bs ++ rest)
        (Norm.item nv false (Item.scope n t kids)).events (r', rest) := by
  obtain ⟨b1, w1, h1, h2⟩ := writeAll_items compact kids (t == .object) ⟨[t], true⟩ hk
  have h0 : writeAll dtoa compact Wr.new (⟨n, .scope t⟩ :: Item.eventsL kids) =
      .ok (spacing compact Wr.new false ++ nameText compact Wr.new false n ++
        [if t = .array then 91 else 123] ++ b1, w1) := by
    simp only [writeAll, write, Res.ok_bind, Wr.new, h1]
  have h3 : write dtoa compact w1 ⟨[], .scopeEnd⟩ =
      .ok (spacing compact w1 true ++ [if t = .array then 93 else 125], ⟨[], false⟩) := by
    simp only [write, h2]
  have hev : (Item.scope n t kids).events =
      (⟨n, .scope t⟩ :: Item.eventsL kids) ++ [⟨[], .scopeEnd⟩] := rfl
  refine ⟨spacing compact Wr.new false ++ nameText compact Wr.new false n ++
      [if t = .array then 91 else 123] ++ b1 ++
      (spacing compact w1 true ++ [if t = .array then 93 else 125]), ?_, ?_⟩
  · rw [hev, writeAll_append, h0]
    simp only [Res.ok_bind, writeAll, h3, List.append_nil]
  · intro rest r hr
    have hok : EventsOk m dtoa strtod nv Wr.new (⟨n, .scope t⟩ :: Item.eventsL kids) := by
      refine ⟨⟨fun h => (by cases h), trivial⟩, eventsOk_items kids _ (by simp [next]) ?_⟩
      cases t <;> exact hk
    obtain ⟨r1, R1, h4, h5, h6⟩ := emits_events hm strtod (⟨n, .scope t⟩ :: Item.eventsL kids)
      Wr.new w1 _ h0 hok (spacing compact w1 true ++ [if t = .array then 93 else 125] ++ rest)
      (fun _ hc => write_tail h3 hc rest) r hr _ (by rw [← List.append_assoc])
    obtain ⟨r2, R2, h7, h8, -, h9⟩ := read_event (nv := nv) hm strtod h3 ⟨fun _ h => absurd rfl h, trivial⟩
      rest (fun h => absurd rfl h) r1 h5 R1 h6
    have h10 := h9 rfl
    subst h10
    refine ⟨r2, ?_⟩
    have hn := readEvents_item nv (Item.scope n t kids) Wr.new
    have hno : (Wr.new.stack.head? == some ScopeTy.object) = false := rfl
    rw [hno, hev, readEvents_append] at hn
    rw [← hn, emits_append]
    refine ⟨(r1, R1), h4, .cons ?_ (.nil _)⟩
    rw [h7]
    have : readEvent nv w1 ⟨[], .scopeEnd⟩ =
        readEvent nv (nexts Wr.new (⟨n, .scope t⟩ :: Item.eventsL kids)) ⟨[], .scopeEnd⟩ := by
      simp [readEvent]
    rw [this]

end Srl.PJson
