import Verif.Model.StreamNext
import Verif.Lemmas.StreamNext
import Verif.Lemmas.JsonCommentStream
import Verif.Props.JsonStream

/-! # C87 – documents in a stream one after the other -/

namespace Srl.Props
open Srl.Stream Doc

/-! ## Specification -/

/-- Loading from streams, with what is left of them -/
abbrev Next := SIn → Bytes → Res (Root × Bytes)

/-- These roots are loaded from a stream one after the other, with new trees or the same (`old`). -/
def Sequence (next : Next) : Bytes → List Root → Prop
  | _, [] => True
  | src, r :: rs => ∀ old, ∃ left, next old src = .ok (r, left) ∧ Sequence next left rs

/-- C87 as it should hold: two documents, each of them loaded from memory to its last byte, are loaded from a stream
that has one after the other. -/
def OneByOne (memory : Bytes → Res (Root × Bytes)) (next : Next) : Prop :=
  ∀ d1 d2 r1 r2, memory d1 = .ok (r1, []) → memory d2 = .ok (r2, []) → Sequence next (d1 ++ d2) [r1, r2]

/-- Loading from memory, with what is left of the source -/
def MsgPackMemory (m : Mem) (src : Bytes) : Res (Root × Bytes) := do
  let (r, x) ← PMsgPack.load m src
  .ok (r, x.2)

def SrlMemory (m : Mem) (src : Bytes) : Res (Root × Bytes) := do
  let (r, x) ← PSrl.load m src
  .ok (r, x.2)

def JsonMemory (m : Mem) (strtod : Bytes → Option UInt64) (src : Bytes) : Res (Root × Bytes) := do
  let (r, x) ← PJson.load m strtod src
  .ok (r, x.2)

/-! ## What is left -/

private theorem opened_next {α : Type} {cap : Nat} {old : SIn} {src : Bytes} {f : SIn → Res α} {s : SIn}
    (h : SIn.set cap old src = .ok s) : opened cap old src f = f s := by
  unfold opened
  rw [h]

private theorem inv_drop {s : SIn} {c r : Bytes} (h : Inv s c r) :
    s.src = r.drop (s.stop - s.pos) ∧ r.length = (s.stop - s.pos) + s.src.length := by
  have hl : ((s.buf.take s.stop).drop s.pos).length = s.stop - s.pos := by
    rw [List.length_drop, List.length_take, Nat.min_eq_left h.stop_le]
  refine ⟨?_, by rw [h.after, List.length_append, hl]⟩
  conv => rhs; rw [h.after]
  rw [← hl, List.drop_left]

private theorem left_of {total : Nat} {s : SIn} {c rest : Bytes} (h : Inv s c rest) (hl : Look total s) :
    (∃ k, k ≤ 1024 ∧ s.src = rest.drop k) ∧ (total ≤ 1024 → rest.length + 2 ≤ total → s.src = []) := by
  obtain ⟨h1, h2⟩ := inv_drop h
  refine ⟨⟨_, by have := hl.1; omega, h1⟩, fun ht hr => ?_⟩
  rcases hl.2 ht with h | ⟨h3, h4⟩
  · exact h
  · omega

private theorem rel_with {α σ τ : Type} {E : Lax} {R : σ → τ → Prop} {a : α} {x : σ} {r : Res (α × σ)} {r' : Res (α × τ)}
    (h : Rel E (With R) r r') (hr : r = .ok (a, x)) : ∃ y, r' = .ok (a, y) ∧ R x y := by
  subst hr
  cases r' with
  | ok b => obtain ⟨b, y⟩ := b; obtain ⟨h1, h2⟩ := h; cases h1; exact ⟨y, rfl, h2⟩
  | _ => exact h.elim

private theorem memory_ok {α σ : Type} {x : Res (α × σ × Bytes)} {r : α} {rest : Bytes}
    (h : (do let (r, y) ← x; .ok (r, y.2) : Res (α × Bytes)) = .ok (r, rest)) : ∃ st, x = .ok (r, st, rest) := by
  cases x with
  | ok y =>
    obtain ⟨a, st, z⟩ := y
    simp only [Res.ok_bind, Res.ok.injEq, Prod.mk.injEq] at h
    obtain ⟨rfl, rfl⟩ := h
    exact ⟨st, rfl⟩
  | _ => cases h

/-- The tree is the one that `loadS` gives. -/
theorem msgpack_next_value (cap : Nat) (old : SIn) (src : Bytes) :
    value (PMsgPack.loadNext cap old src) = PMsgPack.loadS cap old src := by
  unfold PMsgPack.loadNext PMsgPack.loadS opened
  cases SIn.set cap old src with
  | ok s => cases h : Doc.load (PMsgPack.readS cap) (2 * src.length + 1) ([], s) <;> simp [value, h]
  | _ => rfl

theorem srl_next_value (cap : Nat) (old : SIn) (src : Bytes) :
    value (PSrl.loadNext cap old src) = PSrl.loadS cap old src := by
  unfold PSrl.loadNext PSrl.loadS opened
  cases SIn.set cap old src with
  | ok s => cases h : Doc.load (PSrl.readS cap) (src.length + 1) (PSrl.St.init, s) <;> simp [value, h]
  | _ => rfl

theorem json_next_value (cap : Nat) (strtod : Bytes → Option UInt64) (old : SIn) (src : Bytes) :
    value (PJson.loadNext cap strtod old src) = PJson.loadS cap strtod old src := by
  unfold PJson.loadNext PJson.loadS opened
  cases SIn.set cap old src with
  | ok s => cases h : Doc.load (PJson.readS cap strtod) (src.length + 2) (PJson.Rd.new, s) <;> simp [value, h]
  | _ => rfl

private theorem value_err {α σ : Type} {x : Res (α × σ)} (h : value x = .err) : x = .err := by
  cases x <;> first | rfl | cases h

private theorem msgpack_next (m : Mem) (hm : m.Sane) (hp : m.past ≠ none) (cap : Nat) (src rest : Bytes) (r : Root)
    (hc : src.length + 2 ^ 32 ≤ cap) (h : MsgPackMemory m src = .ok (r, rest)) (old : SIn) :
    ∃ left, PMsgPack.loadNext cap old src = .ok (r, left) ∧ (∃ k, k ≤ 1024 ∧ left = rest.drop k) ∧
      (src.length ≤ 1024 → rest.length + 2 ≤ src.length → left = []) := by
  obtain ⟨st, h0⟩ := memory_ok h
  obtain ⟨s, h1, h2⟩ := side_open cap old src ([] : List PMsgPack.RScope) (by omega)
  obtain ⟨y, h3, h4⟩ := rel_with (load_rel (E := ⟨False, False⟩) (PMsgPack.reading_stream (cap := cap) hm hp (by omega)
    (fun h => by omega)) _ _ _ h2) h0
  have h5 := (load_look (P := fun y : List PMsgPack.RScope × SIn => Look src.length y.2)
    (fun t ht => PMsgPack.readS_look (cap := cap) t ht) (2 * src.length + 1) ([], s) (set_look h1)).of_ok h3
  obtain ⟨-, c, h6, -⟩ := h4
  refine ⟨y.2.src, ?_, left_of h6 h5⟩
  unfold PMsgPack.loadNext
  rw [opened_next h1, h3]
  rfl

private theorem srl_next (m : Mem) (hm : m.Sane) (hp : m.past ≠ none) (cap : Nat) (src rest : Bytes) (r : Root)
    (hc : src.length + 1024 ≤ cap) (hl : src.length < 2 ^ 63) (hn : NamesShort m src)
    (h : SrlMemory m src = .ok (r, rest)) (old : SIn) :
    ∃ left, PSrl.loadNext cap old src = .ok (r, left) ∧ (∃ k, k ≤ 1024 ∧ left = rest.drop k) ∧
      (src.length ≤ 1024 → rest.length + 2 ≤ src.length → left = []) := by
  obtain ⟨st, h0⟩ := memory_ok h
  obtain ⟨s, h1, h2⟩ := side_open cap old src PSrl.St.init (by omega)
  obtain ⟨y, h3, h4⟩ := rel_with (load_rel (E := ⟨True, True⟩) (PSrl.reading_stream_ok hm hp hc hl trivial) _ _ _
    ⟨h2, hn⟩) h0
  have h5 := (load_look (P := fun y : PSrl.St × SIn => Look src.length y.2)
    (fun t ht => PSrl.readS_look (cap := cap) t ht) (src.length + 1) (PSrl.St.init, s) (set_look h1)).of_ok h3
  obtain ⟨⟨-, c, h6, -⟩, -⟩ := h4
  refine ⟨y.2.src, ?_, left_of h6 h5⟩
  unfold PSrl.loadNext
  rw [opened_next h1, h3]
  rfl

private theorem json_next (m : Mem) (hm : m.Sane) (hp : PJson.Harmless m) (strtod : Bytes → Option UInt64) (cap : Nat)
    (src rest : Bytes) (r : Root) (hc : src.length + 1024 ≤ cap) (hl : LiteralsShort strtod m src)
    (h : JsonMemory m strtod src = .ok (r, rest)) (old : SIn) :
    ∃ left, PJson.loadNext cap strtod old src = .ok (r, left) ∧ (∃ k, k ≤ 1024 ∧ left = rest.drop k) ∧
      (src.length ≤ 1024 → rest.length + 2 ≤ src.length → left = []) ∧ rest.length + 1024 ≤ cap := by
  obtain ⟨st, h0⟩ := memory_ok h
  obtain ⟨s, h1, h2, h2'⟩ := set_inv cap old src (by omega)
  have h0' : Doc.load (PJson.read m strtod) (src.length + 2) (PJson.Rd.new, src) = .ok (r, st, rest) := by
    rw [load_mono (PJson.read m strtod) (src.length + 1) (src.length + 2) (PJson.Rd.new, src)
      (PJson.loadWith_nofuel strtod hm PJson.Rd.new src) (by omega)]
    exact h0
  obtain ⟨y, h3, h4⟩ := rel_with (load_rel (E := ⟨True, True⟩)
    (PJson.reading_stream_accepts (cap := cap) strtod hm hp trivial) _ (PJson.Rd.new, src) (PJson.Rd.new, s)
    ⟨rfl, ⟨[], h2, h2', by simpa using hc⟩, hl⟩) h0'
  have h5 := (load_look (P := fun y : PJson.Rd × SIn => Look src.length y.2)
    (fun t ht => PJson.readS_look (cap := cap) strtod t ht) (src.length + 2) (PJson.Rd.new, s) (set_look h1)).of_ok h3
  obtain ⟨-, ⟨c, h6, -, h7⟩, -⟩ := h4
  refine ⟨y.2.src, ?_, (left_of h6 h5).1, (left_of h6 h5).2, by simp only at h7; omega⟩
  unfold PJson.loadNext
  rw [opened_next h1, h3]
  rfl

/-! ## How much is lost -/

/-- C87 for MessagePack: a document is loaded from a stream whatever follows it. Up to 1024 bytes of what follows are
lost. What is missing: `msgpack_stream_lost`. -/
theorem msgpack_stream_ahead_partial (m : Mem) (hm : m.Sane) (hp : m.past ≠ none) (cap : Nat) (src rest : Bytes) (r : Root)
    (hc : src.length + 2 ^ 32 ≤ cap) (h : MsgPackMemory m src = .ok (r, rest)) (old : SIn) :
    ∃ k, k ≤ 1024 ∧ PMsgPack.loadNext cap old src = .ok (r, rest.drop k) := by
  obtain ⟨left, h1, ⟨k, h2, rfl⟩, -⟩ := msgpack_next m hm hp cap src rest r hc h old
  exact ⟨k, h2, h1⟩

/-- C87 for the Srl format. What is missing: `srl_stream_lost`, and names of 1024 bytes and more (`stream_long_name`). -/
theorem srl_stream_ahead_partial (m : Mem) (hm : m.Sane) (hp : m.past ≠ none) (cap : Nat) (src rest : Bytes) (r : Root)
    (hc : src.length + 1024 ≤ cap) (hl : src.length < 2 ^ 63) (hn : NamesShort m src)
    (h : SrlMemory m src = .ok (r, rest)) (old : SIn) :
    ∃ k, k ≤ 1024 ∧ PSrl.loadNext cap old src = .ok (r, rest.drop k) := by
  obtain ⟨left, h1, ⟨k, h2, rfl⟩, -⟩ := srl_next m hm hp cap src rest r hc hl hn h old
  exact ⟨k, h2, h1⟩

/-- C87 for JSON. What is missing: `json_stream_lost`, and long literals (`json_stream_long_literal`). -/
theorem json_stream_ahead_partial (m : Mem) (hm : m.Sane) (hp : PJson.Harmless m) (strtod : Bytes → Option UInt64)
    (cap : Nat) (src rest : Bytes) (r : Root) (hc : src.length + 1024 ≤ cap) (hl : LiteralsShort strtod m src)
    (h : JsonMemory m strtod src = .ok (r, rest)) (old : SIn) :
    ∃ k, k ≤ 1024 ∧ PJson.loadNext cap strtod old src = .ok (r, rest.drop k) := by
  obtain ⟨left, h1, ⟨k, h2, rfl⟩, -⟩ := json_next m hm hp strtod cap src rest r hc hl h old
  exact ⟨k, h2, h1⟩

/-! ## What is lost -/

/-- C87 fails: if the stream has no more than 1024 bytes, all that follows the first document is lost – unless the
document has one byte only –, and the next load fails. So it is for all such documents. -/
theorem msgpack_stream_lost (m : Mem) (hm : m.Sane) (hp : m.past ≠ none) (cap : Nat) (src rest : Bytes) (r : Root)
    (hs : src.length ≤ 1024) (hc : 1024 + 2 ^ 32 ≤ cap) (h : MsgPackMemory m src = .ok (r, rest))
    (hr : rest.length + 2 ≤ src.length) (old : SIn) :
    PMsgPack.loadNext cap old src = .ok (r, []) ∧ ∀ old', PMsgPack.loadNext cap old' [] = .err := by
  obtain ⟨left, h1, -, h2⟩ := msgpack_next m hm hp cap src rest r (by omega) h old
  rw [h2 hs hr] at h1
  refine ⟨h1, fun old' => value_err ?_⟩
  rw [msgpack_next_value, msgpack_stream_load ⟨some 0, 0⟩ (by show 0 < 2 ^ 63; decide) (by decide) cap old' []
    (by simp only [List.length_nil]; omega)]
  exact Res.eq_err (by decide +kernel)

private theorem srl_nothing (cap : Nat) (hc : 1024 ≤ cap) (old : SIn) : PSrl.loadNext cap old [] = .err := by
  obtain ⟨s, h1, h2, -⟩ := set_inv cap old [] (by omega)
  have h3 : (s.buf.take s.stop).drop s.pos ++ s.src = [] := h2.after.symm
  rw [List.append_eq_nil_iff] at h3
  obtain ⟨h3, h4⟩ := h3
  have h5 : s.stop = s.pos := by
    have := congrArg List.length h3
    rw [List.length_drop, List.length_take, Nat.min_eq_left h2.stop_le, List.length_nil] at this
    have := h2.pos_le
    omega
  have h7 : s.pos = 0 := by
    obtain ⟨z, hz⟩ := h2.before
    have := congrArg List.length hz
    rw [List.length_append, List.length_take, List.length_nil] at this
    have := h2.stop_le
    omega
  unfold PSrl.loadNext
  rw [opened_next h1]
  have h6 : PSrl.readS cap (PSrl.St.init, s) = .err := by
    unfold PSrl.readS PSrl.readP PSrl.readHeadP
    simp only [Prog.bind, Prog.stream, Stream.readBlock, Stream.move, Stream.peek, tryFetch, h4, h5, h2.eof,
      Option.getD_some, h7]
    have h8 : ¬(s.buf.length < 1024 ∧ cap < 1024) := by omega
    simp [Stream.reading, SRes.bind, h8]
  unfold Doc.load
  rw [h6]
  rfl

private theorem rest_name {m : Mem} {stack : List ScopeTy} {flag : UInt8} {name : Bytes} {names : List Bytes} {s : Bytes}
    {e : Event} {x : PSrl.St × Bytes} (h : PSrl.readRest m stack flag name names s = .ok (e, x)) :
    e.name = name ∨ e.name = [] := by
  unfold PSrl.readRest at h
  split at h
  · split at h
    · cases h
    · cases h; exact .inr rfl
  split at h
  · cases h; exact .inl rfl
  split at h
  · rw [Res.bind_eq_ok] at h
    obtain ⟨y, -, h⟩ := h
    cases h; exact .inl rfl
  split at h
  · rw [Res.bind_eq_ok] at h
    obtain ⟨y, -, h⟩ := h
    rw [Res.bind_eq_ok] at h
    obtain ⟨z, -, h⟩ := h
    cases h; exact .inl rfl
  split at h <;> cases h
  exact .inl rfl

/-- Names in documents shorter than 1024 bytes are. -/
theorem namesShort_small (m : Mem) (src : Bytes) (h : src.length < 1024) : NamesShort m src := by
  have key : ∀ (x y : PSrl.St × Bytes) (es : List Event), Emits (PSrl.read m) x es y → PSrl.ShortNames m x →
      ∀ e ∈ es, e.name.length < 1024 := by
    intro x y es he
    induction he with
    | nil => exact fun _ e he => by cases he
    | @cons s s' s'' e es h1 h2 ih =>
      intro h3 e' he'
      rcases List.mem_cons.mp he' with rfl | he'
      · unfold PSrl.read at h1
        rw [Res.bind_eq_ok] at h1
        obtain ⟨⟨f, n, ns, t⟩, h6, h7⟩ := h1
        have := h3 [] s.1 s.2 _ _ _ _ (.nil _) h6
        rcases rest_name h7 with h8 | h8 <;> rw [h8]
        · exact this
        · decide
      · exact ih (fun es st s f n ns t h4 => h3 (e :: es) st s f n ns t (.cons h1 h4)) e' he'
  exact fun es x he => key _ _ _ he (PSrl.shortNames_small (by simp [PSrl.St.init]) h)

theorem srl_stream_lost (m : Mem) (hm : m.Sane) (hp : m.past ≠ none) (cap : Nat) (src rest : Bytes) (r : Root)
    (hs : src.length < 1024) (hc : 2048 ≤ cap) (h : SrlMemory m src = .ok (r, rest))
    (hr : rest.length + 2 ≤ src.length) (old : SIn) :
    PSrl.loadNext cap old src = .ok (r, []) ∧ ∀ old', PSrl.loadNext cap old' [] = .err := by
  obtain ⟨left, h1, -, h2⟩ := srl_next m hm hp cap src rest r (by omega) (by omega) (namesShort_small m src hs) h old
  rw [h2 (by omega) hr] at h1
  exact ⟨h1, fun old' => srl_nothing cap (by omega) old'⟩

theorem json_stream_lost (m : Mem) (hm : m.Sane) (hp : PJson.Harmless m) (strtod : Bytes → Option UInt64) (cap : Nat)
    (src rest : Bytes) (r : Root) (hs : src.length ≤ 1024) (hc : 2048 ≤ cap)
    (h : JsonMemory m strtod src = .ok (r, rest)) (hr : rest.length + 2 ≤ src.length) (old : SIn) :
    PJson.loadNext cap strtod old src = .ok (r, []) ∧ ∀ old', PJson.loadNext cap strtod old' [] = .err := by
  obtain ⟨left, h1, -, h2, -⟩ := json_next m hm hp strtod cap src rest r (by omega) (literalsShort_small strtod m hm src hs) h old
  rw [h2 hs hr] at h1
  refine ⟨h1, fun old' => value_err ?_⟩
  rw [json_next_value, json_stream_load_partial ⟨some 0, 0⟩ (by show 0 < 2 ^ 63; decide) ⟨0, rfl, by decide, by decide⟩
    strtod cap old' [] (by simp only [List.length_nil]; omega) ?_]
  · exact Res.eq_err (by rfl)
  · refine PJson.shortLits_dense strtod (by show 0 < 2 ^ 63; decide) fun x t h => .inl ?_
    have h1 := congrArg List.length h
    have h3 := PJson.takeWhile_length_le (p := fun b => !PJson.isLitEnd b) t
    rw [List.length_append] at h1
    simp only [List.length_nil] at h1
    omega

/-! ## JSON documents with blanks between them -/

/-- Specification: the source has one document after the other, as they are read from memory; 1024 blanks or more
follow each but the last. -/
inductive Spaced (m : Mem) (strtod : Bytes → Option UInt64) : Bytes → List Root → Prop
  | last (src rest : Bytes) (r : Root) : LiteralsShort strtod m src → JsonMemory m strtod src = .ok (r, rest) →
      Spaced m strtod src [r]
  | cons (src gap rest : Bytes) (r : Root) (rs : List Root) : LiteralsShort strtod m src →
      JsonMemory m strtod src = .ok (r, gap ++ rest) → (∀ b ∈ gap, PJson.isBlank b = true) → 1024 ≤ gap.length →
      Spaced m strtod rest rs → Spaced m strtod src (r :: rs)

private theorem loop_reads {m : Mem} {strtod : Bytes → Option UInt64} : ∀ (fuel : Nat) (st : PJson.State) (r : PJson.Rd) (s : Bytes)
    (y : Event × PJson.Rd × Bytes), PJson.loop m strtod fuel st (r, s) = .ok y → Rfc8259.Reads m strtod st r s y
  | 0, st, r, s, y, h => by cases h
  | fuel + 1, st, r, s, y, h => by
    rw [PJson.loop] at h
    cases hr : PJson.round m strtod r st s with
    | ok x =>
      obtain ⟨stp, r', s'⟩ := x
      rw [hr] at h
      cases stp with
      | done t =>
        simp only [Res.ok_bind, Res.ok.injEq] at h
        subst h
        exact .done _ _ _ _ _ _ hr
      | more st' =>
        simp only [Res.ok_bind] at h
        exact .more _ _ _ _ _ _ _ hr (loop_reads fuel _ _ _ _ h)
    | _ => rw [hr] at h; cases h

private theorem drop_blank {gap rest : Bytes} (h : ∀ b ∈ gap, PJson.isBlank b = true) :
    (gap ++ rest).dropWhile PJson.isBlank = rest.dropWhile PJson.isBlank := by
  induction gap with
  | nil => rfl
  | cons b gap ih =>
    rw [List.cons_append, List.dropWhile_cons, if_pos (h b List.mem_cons_self)]
    exact ih fun c hc => h c (List.mem_cons_of_mem _ hc)

private theorem memory_blank {m : Mem} (hm : m.Sane) {strtod : Bytes → Option UInt64} {gap src : Bytes} {x : Root × Bytes}
    (hg : ∀ b ∈ gap, PJson.isBlank b = true) (h : JsonMemory m strtod src = .ok x) :
    JsonMemory m strtod (gap ++ src) = .ok x := by
  unfold JsonMemory at h ⊢
  cases hl : PJson.load m strtod src with
  | ok y =>
    have h1 : PJson.load m strtod (gap ++ src) = .ok y := by
      unfold PJson.load PJson.loadWith at hl ⊢
      rw [← hl, ← load_mono (PJson.read m strtod) (src.length + 1) ((gap ++ src).length + 1) (PJson.Rd.new.clear, src)
        (by rw [hl]; exact fun h => by cases h) (by rw [List.length_append]; omega)]
      have h2 : ∃ e, PJson.read m strtod (PJson.Rd.new.clear, src) = .ok e := by
        unfold Doc.load at hl
        cases hr : PJson.read m strtod (PJson.Rd.new.clear, src) with
        | ok e => exact ⟨e, rfl⟩
        | _ => rw [hr] at hl; cases hl
      obtain ⟨e, h2⟩ := h2
      have h3 := Rfc8259.reads_read hm strtod (Rfc8259.like_blank (m := m) strtod (drop_blank (rest := src) hg) _ _ _
        (loop_reads _ _ _ _ _ h2))
      unfold Doc.load
      rw [h2, h3]
    rw [h1, ← h, hl]
  | _ => rw [hl] at h; cases h

private theorem drop_gap {gap rest : Bytes} {k : Nat} (hk : k ≤ 1024) (hg : 1024 ≤ gap.length) :
    (gap ++ rest).drop k = gap.drop k ++ rest := List.drop_append_of_le_length (by omega)

private theorem spaced_gap {m : Mem} (hm : m.Sane) {strtod : Bytes → Option UInt64} {gap src : Bytes} {rs : List Root}
    (hg : ∀ b ∈ gap, PJson.isBlank b = true) (h : Spaced m strtod src rs) : Spaced m strtod (gap ++ src) rs := by
  cases h with
  | last _ rest r h1 h2 =>
    exact .last _ rest r (Rfc8259.likeB_blank strtod (drop_blank hg) _ _ h1) (memory_blank hm hg h2)
  | cons _ gap' rest r rs h1 h2 h3 h4 h5 =>
    exact .cons _ gap' rest r rs (Rfc8259.likeB_blank strtod (drop_blank hg) _ _ h1) (memory_blank hm hg h2) h3 h4 h5

/-- C87 for JSON: any number of documents are loaded from a stream one after the other if there are 1024 blanks or
commas behind each. -/
theorem json_stream_spaced_partial (m : Mem) (hm : m.Sane) (hp : PJson.Harmless m) (strtod : Bytes → Option UInt64)
    (cap : Nat) (src : Bytes) (rs : List Root) (hc : src.length + 1024 ≤ cap) (h : Spaced m strtod src rs) :
    Sequence (PJson.loadNext cap strtod) src rs := by
  induction rs generalizing src with
  | nil => trivial
  | cons r rs ih =>
    intro old
    cases h with
    | last _ rest _ h1 h2 =>
      obtain ⟨left, h3, -⟩ := json_next m hm hp strtod cap src rest r hc h1 h2 old
      exact ⟨left, h3, trivial⟩
    | cons _ gap rest _ _ h1 h2 h3 h4 h5 =>
      obtain ⟨left, h6, ⟨k, hk, rfl⟩, -, h7⟩ := json_next m hm hp strtod cap src _ r hc h1 h2 old
      refine ⟨_, h6, ?_⟩
      rw [drop_gap hk h4]
      refine ih _ ?_ (spaced_gap hm (fun b hb => h3 b (List.mem_of_mem_drop hb)) h5)
      rw [List.length_append] at h7 ⊢
      rw [List.length_drop]
      omega

/-- Specification: a stream with these JSON texts, each with 1024 spaces behind it -/
def spacedOut (ts : List Bytes) : Bytes := ts.flatMap fun t => t ++ List.replicate 1024 32

/-- In every 1024 bytes there is a comma, space, bracket or brace. -/
def Dense (src : Bytes) : Prop := ∀ x w y, src = x ++ w ++ y → w.length = 1024 → ∃ b ∈ w, PJson.isLitEnd b = true

private theorem spaces_blank : ∀ b ∈ List.replicate 1024 (32 : UInt8), PJson.isBlank b = true := by
  intro b hb
  rw [List.eq_of_mem_replicate hb]
  rfl

private theorem ws_blank {w : Bytes} (h : Rfc8259.Ws w) : ∀ b ∈ w, PJson.isBlank b = true := by
  intro b hb
  rcases h b hb with rfl | rfl | rfl | rfl <;> rfl

private theorem dense_tail {a b : Bytes} (h : Dense (a ++ b)) : Dense b := by
  intro x w y e
  exact h (a ++ x) w y (by rw [e]; simp only [List.append_assoc])

/-- C87 for JSON texts as the grammar has them (C79): with 1024 spaces behind each, they are read from a stream one after
the other, as the trees they stand for. What is missing: what C79 says is missing; texts that are close together
(`json_stream_lost`). -/
theorem json_stream_texts_partial (strtod : Bytes → Option UInt64) (hr : Rfc8259.Rounds strtod)
    (docs : List (Bytes × Rfc8259.Json))
    (h : ∀ d ∈ docs, Rfc8259.DocumentOf false Readable d.1 d.2 ∧ d.2.isScope = true ∧ d.2.depth ≤ 129)
    (hd : Dense (spacedOut (docs.map Prod.fst))) (cap : Nat) (hc : (spacedOut (docs.map Prod.fst)).length + 1024 ≤ cap) :
    ∃ rs : List Root, List.Forall₂ (fun d r => NodeRead d.2 r.node) docs rs ∧
      Sequence (PJson.loadNext cap strtod) (spacedOut (docs.map Prod.fst)) rs := by
  have hm : (⟨some 0, 0⟩ : Mem).Sane := by show 0 < 2 ^ 63; decide
  suffices key : ∃ rs : List Root, List.Forall₂ (fun d r => NodeRead d.2 r.node) docs rs ∧
      (rs = [] ∨ Spaced ⟨some 0, 0⟩ strtod (spacedOut (docs.map Prod.fst)) rs) by
    obtain ⟨rs, h1, h2⟩ := key
    refine ⟨rs, h1, ?_⟩
    rcases h2 with rfl | h2
    · trivial
    · exact json_stream_spaced_partial ⟨some 0, 0⟩ hm ⟨0, rfl, by decide, by decide⟩ strtod cap _ rs hc h2
  clear hc cap
  induction docs with
  | nil => exact ⟨[], .nil, .inl rfl⟩
  | cons d docs ih =>
    obtain ⟨h1, h2, h3⟩ := h d List.mem_cons_self
    have hs : spacedOut ((d :: docs).map Prod.fst) =
        d.1 ++ (List.replicate 1024 32 ++ spacedOut (docs.map Prod.fst)) := by
      unfold spacedOut
      rw [List.map_cons, List.flatMap_cons, List.append_assoc]
    rw [hs] at hd ⊢
    obtain ⟨rs, h4, h5⟩ := ih (fun e he => h e (List.mem_cons_of_mem _ he)) (dense_tail (dense_tail hd))
    obtain ⟨r, rd, ws, h6, h7, h8⟩ := json_input_partial ⟨some 0, 0⟩ hm strtod hr d.1 d.2 h1 h2 h3 PJson.Rd.new
      (List.replicate 1024 32 ++ spacedOut (docs.map Prod.fst))
    have h9 : JsonMemory ⟨some 0, 0⟩ strtod (d.1 ++ (List.replicate 1024 32 ++ spacedOut (docs.map Prod.fst))) =
        .ok (r, (ws ++ List.replicate 1024 32) ++ spacedOut (docs.map Prod.fst)) := by
      unfold JsonMemory PJson.load
      rw [h7, List.append_assoc]
      rfl
    refine ⟨r :: rs, .cons h8 h4, .inr ?_⟩
    rcases h5 with rfl | h5
    · exact .last _ _ _ (literalsShort_dense strtod _ hm _ hd) h9
    · refine .cons _ _ _ _ _ (literalsShort_dense strtod _ hm _ hd) h9 (fun b hb => ?_) ?_ h5
      · rcases List.mem_append.mp hb with hb | hb
        · exact ws_blank h6 b hb
        · exact spaces_blank b hb
      · rw [List.length_append, List.length_replicate]; omega

/-! ## Violations and examples -/

private def noFp' : Bytes → Option UInt64 := fun _ => none

private def mem0 : Mem := ⟨some 0, 0⟩

private theorem mem0_sane : mem0.Sane := by show 0 < 2 ^ 63; decide

private def number : Bytes × Val → Option Int
  | ([], .int _ v) => some v
  | _ => none

/-- The integers of an array without a name, and what is left -/
private def numbers : Res (Root × Bytes) → Option (List Int × Bytes)
  | .ok (⟨[], .mk .array vs []⟩, rest) =>
    (vs.mapM number).map fun vs => (vs, rest)
  | _ => none

private theorem numbers_ok {x : Res (Root × Bytes)} {vs : List Int} {rest : Bytes} (h : numbers x = some (vs, rest)) :
    ∃ r, x = .ok (r, rest) := by
  unfold numbers at h
  split at h
  · rw [Option.map_eq_some_iff] at h
    obtain ⟨ws, -, h⟩ := h
    cases h
    exact ⟨_, rfl⟩
  · cases h

private theorem not_one {memory : Bytes → Res (Root × Bytes)} {next : Next} {d : Bytes} {r r' : Root} {rest : Bytes}
    (h1 : memory d = .ok (r, [])) (h2 : memory (d ++ d) = .ok (r', rest))
    (h3 : ∀ r rest, memory (d ++ d) = .ok (r, rest) → next SIn.new (d ++ d) = .ok (r, []))
    (h4 : next SIn.new [] = .err) : ¬ OneByOne memory next := by
  intro h
  obtain ⟨left, h5, h6⟩ := h d d r r h1 h1 SIn.new
  obtain ⟨left', h7, -⟩ := h6 SIn.new
  rw [h3 _ _ h2] at h5
  cases h5
  rw [h4] at h7
  cases h7

/-- C87 fails for MessagePack: `[1]` twice. -/
theorem msgpack_one_by_one : ¬ OneByOne (MsgPackMemory mem0) (PMsgPack.loadNext (2 ^ 33)) := by
  have h1 : numbers (MsgPackMemory mem0 [0x91, 1]) = some ([1], []) := by decide +kernel
  have h2 : numbers (MsgPackMemory mem0 ([0x91, 1] ++ [0x91, 1])) = some ([1], [0x91, 1]) := by decide +kernel
  obtain ⟨r, h1⟩ := numbers_ok h1
  obtain ⟨r', h2⟩ := numbers_ok h2
  have h3 := msgpack_stream_lost mem0 mem0_sane (by decide) (2 ^ 33) _ _ _ (by decide) (by decide) h2 (by decide) SIn.new
  refine not_one h1 h2 (fun r rest h => ?_) (h3.2 _)
  rw [h2] at h
  cases h
  exact h3.1

/-- C87 fails for the Srl format: `[1]` twice. -/
theorem srl_one_by_one : ¬ OneByOne (SrlMemory mem0) (PSrl.loadNext (2 ^ 33)) := by
  have h1 : numbers (SrlMemory mem0 [128, 1, 1, 0]) = some ([1], []) := by decide +kernel
  have h2 : numbers (SrlMemory mem0 ([128, 1, 1, 0] ++ [128, 1, 1, 0])) = some ([1], [128, 1, 1, 0]) := by decide +kernel
  obtain ⟨r, h1⟩ := numbers_ok h1
  obtain ⟨r', h2⟩ := numbers_ok h2
  have h3 := srl_stream_lost mem0 mem0_sane (by decide) (2 ^ 33) _ _ _ (by decide) (by decide) h2 (by decide) SIn.new
  refine not_one h1 h2 (fun r rest h => ?_) (h3.2 _)
  rw [h2] at h
  cases h
  exact h3.1

/-- C87 fails for JSON: `[1]` twice. -/
theorem json_one_by_one : ¬ OneByOne (JsonMemory mem0 noFp') (PJson.loadNext (2 ^ 33) noFp') := by
  have h1 : numbers (JsonMemory mem0 noFp' (str "[1]")) = some ([1], []) := by decide +kernel
  have h2 : numbers (JsonMemory mem0 noFp' (str "[1]" ++ str "[1]")) = some ([1], str "[1]") := by decide +kernel
  obtain ⟨r, h1⟩ := numbers_ok h1
  obtain ⟨r', h2⟩ := numbers_ok h2
  have h3 := json_stream_lost mem0 mem0_sane ⟨0, rfl, by decide, by decide⟩ noFp' (2 ^ 33) _ _ _ (by decide) (by decide) h2
    (by decide) SIn.new
  refine not_one h1 h2 (fun r rest h => ?_) (h3.2 _)
  rw [h2] at h
  cases h
  exact h3.1

/-- Not vacuous: an array of 1100 bytes is loaded, and what follows up to where the buffer ends is lost. -/
example : numbers (PMsgPack.loadNext (2 ^ 33) SIn.new ([0x92, 7, 8] ++ List.replicate 1100 3)) =
    some ([7, 8], List.replicate 79 3) := by decide +kernel

example : numbers (JsonMemory mem0 noFp' (str "[1] [2]")) = some ([1], str " [2]") := by decide +kernel

private def apart : Bytes := str "[1]" ++ (List.replicate 1024 32 ++ str "[2, 3]")

private theorem apart_dense : Dense apart := by
  intro x w y h hw
  have hl : apart.length = 1033 := by decide +kernel
  have h1 := congrArg List.length h
  have h2 : apart[15]? = some 32 := by decide +kernel
  rw [List.length_append, List.length_append] at h1
  rw [h, List.append_assoc, List.getElem?_append_right (by omega), List.getElem?_append_left (by omega)] at h2
  exact ⟨32, List.mem_of_getElem? h2, by decide⟩

/-- Not vacuous: two texts with 1024 spaces between them; after the first, three of the spaces are left. -/
example : (∃ r1 r2, Spaced mem0 noFp' apart [r1, r2]) ∧
    numbers (PJson.loadNext 4096 noFp' SIn.new apart) = some ([1], str "   [2, 3]") ∧
    numbers (PJson.loadNext 4096 noFp' SIn.new (str "   [2, 3]")) = some ([2, 3], []) := by
  have h1 : numbers (JsonMemory mem0 noFp' apart) = some ([1], List.replicate 1024 32 ++ str "[2, 3]") := by decide +kernel
  have h2 : numbers (JsonMemory mem0 noFp' (str "[2, 3]")) = some ([2, 3], []) := by decide +kernel
  obtain ⟨r1, h1⟩ := numbers_ok h1
  obtain ⟨r2, h2⟩ := numbers_ok h2
  exact ⟨⟨r1, r2, .cons _ _ _ _ _ (literalsShort_dense _ _ mem0_sane _ apart_dense) h1 spaces_blank (by decide +kernel)
      (.last _ _ _ (literalsShort_small _ _ mem0_sane _ (by decide)) h2)⟩, by decide +kernel, by decide +kernel⟩

/-- Not vacuous: a list of texts -/
example : ∃ x, Rfc8259.DocumentOf false Readable (str "[]") x ∧ x.isScope = true ∧ x.depth ≤ 129 :=
  ⟨.arr [], ⟨[], str "[]", [], rfl, by simp [Rfc8259.Ws], .arr0 [] (by simp [Rfc8259.Ws]), by simp [Rfc8259.Ws]⟩, rfl, by decide⟩

example : Dense (spacedOut [str "[]", str "[]"]) := by
  intro x w y h hw
  have hl : (spacedOut [str "[]", str "[]"]).length = 2052 := by decide +kernel
  have h1 := congrArg List.length h
  rw [List.length_append, List.length_append] at h1
  by_cases hx : x.length ≤ 15
  · have h2 : (spacedOut [str "[]", str "[]"])[15]? = some 32 := by decide +kernel
    rw [h, List.append_assoc, List.getElem?_append_right (by omega), List.getElem?_append_left (by omega)] at h2
    exact ⟨32, List.mem_of_getElem? h2, by decide⟩
  · have h2 : (spacedOut [str "[]", str "[]"])[1025]? = some 32 ∧ (spacedOut [str "[]", str "[]"])[1038]? = some 32 := by
      decide +kernel
    by_cases hy : x.length ≤ 1025
    · have h2 := h2.1
      rw [h, List.append_assoc, List.getElem?_append_right (by omega), List.getElem?_append_left (by omega)] at h2
      exact ⟨32, List.mem_of_getElem? h2, by decide⟩
    · have h2 := h2.2
      rw [h, List.append_assoc, List.getElem?_append_right (by omega), List.getElem?_append_left (by omega)] at h2
      exact ⟨32, List.mem_of_getElem? h2, by decide⟩

end Srl.Props
