import Verif.Model.Out
import Verif.Lemmas.Heap

/-! # Helper lemmas about output -/

namespace Srl.Out

open Heap (Hp Sys)

theorem map_range_poke (mem : Nat → UInt8) (a : Nat) (b : Bytes) :
    (List.range' a b.length).map (poke mem a b) = b := by
  apply List.ext_getElem (by simp)
  intro i h1 h2
  simp only [List.getElem_map, List.getElem_range', poke]
  rw [if_pos (by omega)]
  rw [show a + 1 * i - a = i by omega]
  simp [List.getD_eq_getElem?_getD, h2]

theorem range_add (a m n : Nat) :
    List.range' a (m + n) = List.range' a m ++ List.range' (a + m) n := by
  rw [← List.range'_append, Nat.one_mul]

/-- Replacing the middle of a list -/
theorem replace_mid {α β : Type} (f : α → β) (A R B : List α) (b : List β) (hb : R.length = b.length)
    {k : Nat} (hA : A.length = k) :
    A.map f ++ b ++ B.map f =
      ((A ++ R ++ B).map f).take k ++ b ++ ((A ++ R ++ B).map f).drop (k + b.length) := by
  rw [List.map_append, List.map_append, List.append_assoc (List.map f A) (List.map f R),
    List.take_left' (by rw [List.length_map, hA]), ← List.append_assoc (List.map f A) (List.map f R),
    List.drop_left' (by rw [List.length_append, List.length_map, List.length_map, hA, hb])]

theorem map_poke_out {mem : Nat → UInt8} {a : Nat} {b : Bytes} {l : List Nat}
    (h : ∀ x ∈ l, ¬ (a ≤ x ∧ x < a + b.length)) : l.map (poke mem a b) = l.map mem := by
  apply List.map_congr_left
  intro x hx
  unfold poke
  rw [if_neg (h x hx)]

theorem map_poke {mem : Nat → UInt8} {a : Nat} {b : Bytes} {A B : List Nat}
    (h : (A ++ List.range' a b.length ++ B).Nodup) :
    (A ++ List.range' a b.length ++ B).map (poke mem a b) = A.map mem ++ b ++ B.map mem := by
  rw [List.map_append, List.map_append, map_range_poke]
  obtain ⟨h1, h2, h3⟩ := List.nodup_append.mp h
  obtain ⟨h4, h5, h6⟩ := List.nodup_append.mp h1
  rw [map_poke_out, map_poke_out]
  · intro x hx hr
    exact h3 x (List.mem_append_right _ (List.mem_range'_1.mpr hr)) x hx rfl
  · intro x hx hr
    exact h6 x hx x (List.mem_range'_1.mpr hr) rfl

/-- All addresses of a block -/
def block (b : Nat × Nat) : List Nat := List.range' b.1 b.2

theorem mem_block {x : Nat} {b : Nat × Nat} : x ∈ block b ↔ Heap.In x b := by
  simp [block, Heap.In, List.mem_range'_1]

theorem blocks_nodup {l : List (Nat × Nat)} (h : l.Pairwise Heap.Apart) :
    (l.flatMap block).Nodup := by
  rw [List.Nodup, List.pairwise_flatMap]
  refine ⟨fun b _ => ?_, h.imp ?_⟩
  · exact List.nodup_range' ..
  · intro b c hbc x hx y hy e
    subst e
    exact hbc x (mem_block.mp hx) (mem_block.mp hy)

theorem live_apart {h : Hp} {live : List (Nat × Nat)} (hi : Heap.Inv h live) :
    live.Pairwise Heap.Apart :=
  (List.pairwise_append.mp (List.pairwise_append.mp hi.apart).2.1).2.1

theorem rest_apart {h : Hp} {live : List (Nat × Nat)} (hi : Heap.Inv h live) {r b : Nat × Nat}
    (hr : r ∈ h.rest) (hb : b ∈ live) : Heap.Apart r b :=
  (List.pairwise_append.mp hi.apart).2.2 r hr b (List.mem_append_right _ hb)

theorem inv_mem {h : Hp} {live : List (Nat × Nat)} (hi : Heap.Inv h live) (mem : Nat → UInt8) :
    Heap.Inv { h with mem := mem } live :=
  ⟨hi.cap, hi.left, hi.free, hi.apart, hi.inside, hi.owned, hi.small⟩

/-! ## Output to memory -/

/-- Addresses of the used parts of all segments, in order -/
def addrs (h : Hp) : List Nat :=
  h.used.reverse.flatMap fun s => List.range' s.data (s.size - s.left)

/-- Invariant: what has been written so far is `out`. -/
structure MInv (o : St) (ts : List Ticket) (out : Bytes) (live : List (Nat × Nat)) : Prop where
  streaming : o.streaming = false
  inv : Heap.Inv o.heap live
  inOrder : addrs o.heap = live.reverse.flatMap block
  written : (Out.addrs o.heap).map o.heap.mem = out
  total : o.total = out.length
  tick : ∀ t ∈ ts, t.pos + t.size ≤ out.length ∧
    ∃ A B, Out.addrs o.heap = A ++ List.range' t.mem t.size ++ B ∧ A.length = t.pos

theorem MInv.nodup {o : St} {ts : List Ticket} {out : Bytes} {live : List (Nat × Nat)}
    (h : MInv o ts out live) : (Out.addrs o.heap).Nodup := by
  rw [h.inOrder]
  refine blocks_nodup ?_
  exact Heap.pairwise_perm (List.reverse_perm _).symm (live_apart h.inv)

theorem MInv.length {o : St} {ts : List Ticket} {out : Bytes} {live : List (Nat × Nat)}
    (h : MInv o ts out live) : (Out.addrs o.heap).length = out.length := by
  rw [← h.written, List.length_map]

/-- Allocating and filling memory -/
theorem alloc_mem (sys : Sys) {o : St} {ts : List Ticket} {out : Bytes} {live : List (Nat × Nat)}
    (hi : MInv o ts out live) (b : Bytes) (hn : b.length + 16 < 2 ^ 32) :
    ∃ o' a, alloc sys o b.length = .ok (o', a) ∧
      MInv (copy o' a b) ts (out ++ b) ((a, b.length) :: live) ∧
      (∃ A, Out.addrs o'.heap = A ++ List.range' a b.length ++ [] ∧ A.length = out.length) := by
  obtain ⟨h', a, e, i, -, m, -, s, used, k, hu, hk, h1, h2, h3, h4⟩ :=
    Heap.get_spec sys hi.inv (n := b.length) (align := 1) ⟨hn, by simp⟩
  have hk : k = 0 := by omega
  subst hk
  have ha : Out.addrs h' = Out.addrs o.heap ++ List.range' a b.length := by
    unfold Out.addrs
    rw [h4]
    simp only [List.reverse_cons, List.flatMap_append, List.flatMap_cons, List.flatMap_nil,
      List.append_nil]
    have hsplit : List.range' s.data (s.size - (s.left - (b.length + 0))) =
        List.range' s.data (s.size - s.left) ++ List.range' a b.length := by
      rw [show s.size - (s.left - (b.length + 0)) = (s.size - s.left) + b.length by omega,
        range_add, h3]
      congr 2
      unfold Heap.Seg.ptr
      omega
    rw [hsplit]
    rcases hu with hu | ⟨hu, hs⟩
    · rw [hu]
      simp [List.flatMap_append]
    · rw [hu, hs]
      simp
  have hlen : (Out.addrs o.heap).length = out.length := hi.length
  have hadd : Out.addrs h' = ((a, b.length) :: live).reverse.flatMap block := by
    rw [ha, hi.inOrder]
    simp [List.flatMap_append, block]
  have hnd : (Out.addrs h').Nodup := by
    rw [hadd]
    exact blocks_nodup (Heap.pairwise_perm (List.reverse_perm _).symm (live_apart i))
  refine ⟨{ o with total := o.total + b.length, heap := h' }, a, ?_, ?_, Out.addrs o.heap,
    by rw [List.append_nil]; exact ha, hlen⟩
  · simp only [alloc, hi.streaming, Bool.not_false, ↓reduceIte, e, Res.ok_bind]
  · refine ⟨hi.streaming, inv_mem i _, hadd, ?_, ?_, ?_⟩
    · show (Out.addrs h').map (poke h'.mem a b) = out ++ b
      have := map_poke (mem := h'.mem) (a := a) (b := b) (A := Out.addrs o.heap) (B := [])
        (by rw [List.append_nil, ← ha]; exact hnd)
      rw [List.append_nil, List.map_nil, List.append_nil, ← ha] at this
      rw [this]
      congr 1
      rw [← hi.written]
      apply List.map_congr_left
      intro x hx
      apply m
      intro r hr hin
      rw [hi.inOrder, List.mem_flatMap] at hx
      obtain ⟨c, hc, hx⟩ := hx
      exact rest_apart hi.inv hr (List.mem_reverse.mp hc) x hin (mem_block.mp hx)
    · show o.total + b.length = (out ++ b).length
      rw [List.length_append, hi.total]
    · intro t ht
      obtain ⟨h5, A, B, h6, h7⟩ := hi.tick t ht
      refine ⟨by rw [List.length_append]; omega, A, B ++ List.range' a b.length, ?_, h7⟩
      show Out.addrs h' = _
      rw [ha, h6, List.append_assoc, List.append_assoc]

theorem write_mem (sys : Sys) {o : St} {ts : List Ticket} {out : Bytes} {live : List (Nat × Nat)}
    (hi : MInv o ts out live) (b : Bytes) (hn : b.length + 16 < 2 ^ 32) :
    ∃ o' live', write sys o b = .ok o' ∧ MInv o' ts (out ++ b) live' := by
  obtain ⟨o', a, e, i, -⟩ := alloc_mem sys hi b hn
  exact ⟨_, _, by rw [write, e]; rfl, i⟩

theorem reserve_mem (sys : Sys) {o : St} {ts : List Ticket} {out : Bytes}
    {live : List (Nat × Nat)} (hi : MInv o ts out live) (n : Nat) (hn : n + 16 < 2 ^ 32) :
    ∃ o' t live', reserve sys o n = .ok (o', t) ∧ t.pos = out.length ∧ t.size = n ∧
      MInv o' (ts ++ [t]) (out ++ List.replicate n 0) live' := by
  obtain ⟨o', a, e, i, A, h1, h2⟩ := alloc_mem sys hi (List.replicate n 0) (by simpa using hn)
  rw [List.length_replicate] at e h1
  refine ⟨copy o' a (List.replicate n 0), ⟨a, n, o.total, o'.flushed⟩, _, by rw [reserve, e]; rfl,
    hi.total, rfl, i.streaming, i.inv, i.inOrder, i.written, i.total, ?_⟩
  intro t ht
  rcases List.mem_append.mp ht with ht | ht
  · exact i.tick t ht
  · cases List.mem_singleton.mp ht
    refine ⟨?_, A, [], h1, ?_⟩
    · show o.total + n ≤ _
      rw [hi.total]; simp
    · show A.length = o.total
      rw [hi.total, h2]

theorem fill_mem {o : St} {ts : List Ticket} {out : Bytes} {live : List (Nat × Nat)}
    (hi : MInv o ts out live) {t : Ticket} (ht : t ∈ ts) {k : Nat} {b : Bytes}
    (hk : k + b.length ≤ t.size) :
    ∃ o', fill o t b k = .ok o' ∧
      MInv o' ts (out.take (t.pos + k) ++ b ++ out.drop (t.pos + k + b.length)) live := by
  refine ⟨copy o (t.mem + k) b, ?_, ?_⟩
  · unfold fill
    rw [if_neg (by omega), if_pos (by simp [hi.streaming])]
  · obtain ⟨h1, A, B, h2, h3⟩ := hi.tick t ht
    have hs : Out.addrs o.heap = (A ++ List.range' t.mem k) ++ List.range' (t.mem + k) b.length ++
        (List.range' (t.mem + k + b.length) (t.size - k - b.length) ++ B) := by
      rw [h2, show t.size = k + (b.length + (t.size - k - b.length)) by omega,
        range_add, range_add,
        show k + (b.length + (t.size - k - b.length)) - k - b.length = t.size - k - b.length by omega]
      simp only [List.append_assoc]
    have hl : (A ++ List.range' t.mem k).length = t.pos + k := by simp [h3]
    have hnd := hi.nodup
    rw [hs] at hnd
    have hp := map_poke (mem := o.heap.mem) hnd
    rw [← hs] at hp
    have hlen : (out.take (t.pos + k) ++ b ++ out.drop (t.pos + k + b.length)).length =
        out.length := by
      simp; omega
    refine ⟨hi.streaming, inv_mem hi.inv _, hi.inOrder, ?_, ?_, ?_⟩
    · show (Out.addrs o.heap).map (poke o.heap.mem (t.mem + k) b) = _
      rw [hp, ← hi.written, hs]
      exact replace_mid _ _ _ _ _ (by simp) hl
    · rw [hlen]; exact hi.total
    · rw [hlen]; exact hi.tick

theorem resize_length (buf : Bytes) (n : Nat) : (resize buf n).length = n := by
  simp [resize]; omega

theorem gather_ok (mem : Nat → UInt8) : ∀ (l : List Heap.Seg) (pre buf : Bytes),
    buf.length = pre.length + (l.flatMap fun s => List.range' s.data (s.size - s.left)).length →
    buf.take pre.length = pre → buf.length < 2 ^ 32 →
    gather mem l pre.length buf =
      .ok (pre ++ (l.flatMap fun s => List.range' s.data (s.size - s.left)).map mem)
  | [], pre, buf, hl, hp, _ => by
    simp only [List.flatMap_nil, List.length_nil, Nat.add_zero] at hl
    rw [← hl, List.take_length] at hp
    simp [gather, hp]
  | s :: l, pre, buf, hl, hp, hs => by
    have hb : (peek mem s.data (s.size - s.left)).length = s.size - s.left := by simp [peek]
    simp only [List.flatMap_cons, List.length_append, List.length_range'] at hl
    unfold gather paste
    simp only []
    rw [if_neg (by rw [hb]; omega), Res.ok_bind, hb, Nat.mod_eq_of_lt (by omega), hp]
    have h := gather_ok mem l (pre ++ peek mem s.data (s.size - s.left))
      (pre ++ peek mem s.data (s.size - s.left) ++ buf.drop (pre.length + (s.size - s.left)))
      (by simp only [List.length_append, hb, List.length_drop]; omega)
      (List.take_left' rfl)
      (by simp only [List.length_append, hb, List.length_drop]; omega)
    rw [List.length_append, hb] at h
    rw [h]
    simp [peek]

theorem deliver_mem {o : St} {ts : List Ticket} {out : Bytes} {live : List (Nat × Nat)}
    (hi : MInv o ts out live) (hs : out.length < 2 ^ 32) (buf : Bytes) :
    deliver o buf = .ok out := by
  have h := gather_ok o.heap.mem o.heap.used.reverse [] (resize buf o.total)
    (by rw [resize_length, hi.total, ← hi.length]; simp [Out.addrs]) (by simp)
    (by rw [resize_length, hi.total]; exact hs)
  unfold deliver
  rw [List.length_nil] at h
  rw [h, List.nil_append]
  exact congrArg _ hi.written

theorem set_mem {h : Hp} {live : List (Nat × Nat)} (hi : Heap.Inv h live) (s : Stream) :
    MInv (set h false s) [] [] [] :=
  ⟨rfl, Heap.clear_inv hi, rfl, rfl, rfl, fun _ h => nomatch h⟩

/-! ## Output to a stream -/

/-- Bytes not yet passed to the stream -/
def pending (o : St) : Bytes :=
  match o.start with
  | none => []
  | some a => peek o.heap.mem a (o.cap - o.left)

/-- Invariant: `fl` has been passed to a stream that contained `pre`, `out` has been written. -/
structure SInv (o : St) (ts : List Ticket) (out : Bytes) (live : List (Nat × Nat))
    (pre fl : Bytes) : Prop where
  streaming : o.streaming = true
  inv : Heap.Inv o.heap live
  room : o.left ≤ o.cap
  buf : (o.start = none ∧ o.cap = 0) ∨
    ∃ a, o.start = some a ∧ (a, o.cap) ∈ live ∧ o.crr = a + (o.cap - o.left)
  written : out = fl ++ pending o
  stream : o.stream = ⟨pre ++ fl, (pre ++ fl).length⟩
  tick : ∀ t ∈ ts, t.pos + t.size ≤ out.length ∧
    ((t.seg = o.flushed ∧ (t.size = 0 ∨ ∃ a q, o.start = some a ∧ t.mem = a + q ∧
        q + t.size ≤ o.cap - o.left ∧ t.pos = fl.length + q)) ∨
      (t.seg < o.flushed ∧ t.pos + t.size ≤ fl.length))

theorem writeToStream_ok {o : St} {ts : List Ticket} {out : Bytes} {live : List (Nat × Nat)}
    {pre fl : Bytes} (hi : SInv o ts out live pre fl) :
    ∃ o', writeToStream o = .ok o' ∧ SInv o' ts out live pre out ∧ o'.left = o'.cap ∧
      o'.total = o.total := by
  rcases hi.buf with ⟨h1, h2⟩ | ⟨a, h1, h2, h3⟩
  · have hp : pending o = [] := by simp [pending, h1]
    have ho : out = fl := by rw [hi.written, hp, List.append_nil]
    have hr := hi.room
    refine ⟨o, by simp [writeToStream, h1], ?_, by omega, rfl⟩
    have hi' := hi
    rw [← ho] at hi'
    exact hi'
  · have hp : pending o = peek o.heap.mem a (o.cap - o.left) := by simp [pending, h1]
    refine ⟨{ o with stream := ⟨pre ++ out, (pre ++ out).length⟩, left := o.cap, crr := a, flushed := o.flushed + 1 },
      ?_, ?_, rfl, rfl⟩
    · unfold writeToStream
      simp only [h1]
      rw [← hp, hi.stream, Stream.write, if_neg (Nat.lt_irrefl _)]
      rw [List.take_length, List.drop_eq_nil_of_le (by simp), List.append_nil]
      simp only [Res.ok_bind, hi.written, List.append_assoc, List.length_append, Nat.add_assoc]
    · refine ⟨hi.streaming, hi.inv, Nat.le_refl _, Or.inr ⟨a, h1, h2, by simp⟩, ?_, rfl, ?_⟩
      · simp [pending, h1, peek]
      · intro t ht
        obtain ⟨h4, h5⟩ := hi.tick t ht
        refine ⟨h4, Or.inr ⟨?_, h4⟩⟩
        rcases h5 with ⟨h5, -⟩ | ⟨h5, -⟩
        · show t.seg < o.flushed + 1; omega
        · show t.seg < o.flushed + 1; omega

theorem incCap_ok (sys : Sys) {o : St} {ts : List Ticket} {out : Bytes} {live : List (Nat × Nat)}
    {pre fl : Bytes} (hi : SInv o ts out live pre fl) (he : o.left = o.cap) {n : Nat}
    (hn : n + 16 < 2 ^ 32) :
    ∃ o' live', incCap sys o n = .ok o' ∧ SInv o' ts out live' pre fl ∧ n ≤ o'.left ∧
      o'.total = o.total := by
  have hcap : ∃ cap, (if 1024 < n then n else 1024) = cap ∧ n ≤ cap ∧ cap + 16 < 2 ^ 32 := by
    refine ⟨_, rfl, ?_, ?_⟩ <;> split <;> omega
  obtain ⟨cap, h1, h2, h3⟩ := hcap
  obtain ⟨h', a, e, i, -⟩ := Heap.get_spec sys hi.inv (n := cap) (align := 1) ⟨h3, by simp⟩
  refine ⟨{ o with heap := h', cap := cap, start := some a, left := cap, crr := a },
    (a, cap) :: live, ?_, ?_, h2, rfl⟩
  · unfold incCap
    simp only [h1, e, Res.ok_bind]
  · refine ⟨hi.streaming, i, Nat.le_refl _, Or.inr ⟨a, rfl, by simp, by simp⟩, ?_, hi.stream, ?_⟩
    · have hp : pending o = [] := by
        unfold pending
        cases o.start <;> simp [he, peek]
      rw [hi.written, hp]
      simp [pending, peek]
    · intro t ht
      obtain ⟨h4, h5⟩ := hi.tick t ht
      refine ⟨h4, ?_⟩
      rcases h5 with ⟨h5, h6⟩ | h5
      · refine Or.inl ⟨h5, Or.inl ?_⟩
        rcases h6 with h6 | ⟨_, q, -, -, h6, -⟩
        · exact h6
        · omega
      · exact Or.inr h5

theorem makeRoom_ok (sys : Sys) {o : St} {ts : List Ticket} {out : Bytes}
    {live : List (Nat × Nat)} {pre fl : Bytes} (hi : SInv o ts out live pre fl) {n : Nat}
    (hn : n + 16 < 2 ^ 32) :
    ∃ o' live' fl', makeRoom sys o n = .ok o' ∧ SInv o' ts out live' pre fl' ∧ n ≤ o'.left ∧
      o'.total = o.total := by
  unfold makeRoom
  have hr := hi.room
  by_cases h : o.left < n
  · rw [if_pos h]
    obtain ⟨o1, e1, i1, l1, t1⟩ := writeToStream_ok hi
    rw [e1, Res.ok_bind]
    by_cases h' : o1.cap < n
    · rw [if_pos h']
      obtain ⟨o2, live', e2, i2, l2, t2⟩ := incCap_ok sys i1 l1 hn
      exact ⟨o2, live', out, e2, i2, l2, by rw [t2, t1]⟩
    · rw [if_neg h']
      exact ⟨o1, live, out, rfl, i1, by omega, t1⟩
  · rw [if_neg h, Res.ok_bind, if_neg (by omega)]
    exact ⟨o, live, fl, rfl, hi, by omega, rfl⟩

theorem poke_nil (mem : Nat → UInt8) (a : Nat) : poke mem a [] = mem := by
  funext x
  unfold poke
  rw [if_neg (by simp)]

theorem SInv.setTotal {o : St} {ts : List Ticket} {out : Bytes} {live : List (Nat × Nat)}
    {pre fl : Bytes} (hi : SInv o ts out live pre fl) (n : Nat) :
    SInv { o with total := n } ts out live pre fl :=
  ⟨hi.streaming, hi.inv, hi.room, hi.buf, hi.written, hi.stream, hi.tick⟩

/-- Allocating and filling memory; `t` is a ticket for the part allocated. -/
theorem alloc_stream (sys : Sys) {o : St} {ts : List Ticket} {out : Bytes}
    {live : List (Nat × Nat)} {pre fl : Bytes} (hi : SInv o ts out live pre fl)
    (ht : o.total = out.length) (b : Bytes) (hn : b.length + 16 < 2 ^ 32) :
    ∃ o' a live' fl', alloc sys o b.length = .ok (o', a) ∧ o'.total = (out ++ b).length ∧
      SInv (copy o' a b) (ts ++ [⟨a, b.length, out.length, o'.flushed⟩]) (out ++ b) live' pre fl' := by
  obtain ⟨o1, live', fl', e, i, l, t⟩ := makeRoom_ok sys (hi.setTotal (o.total + b.length)) hn
  refine ⟨{ o1 with left := o1.left - b.length, crr := o1.crr + b.length }, o1.crr, live', fl', ?_,
    ?_, ?_⟩
  · unfold alloc
    simp only []
    rw [if_neg (by simp [hi.streaming]), e]
    rfl
  · show o1.total = _
    rw [t, List.length_append, ← ht]
  · have hr := i.room
    have holdtick : ∀ t ∈ ts, t.pos + t.size ≤ (out ++ b).length ∧
        ((t.seg = o1.flushed ∧ (t.size = 0 ∨ ∃ a q, o1.start = some a ∧ t.mem = a + q ∧
          q + t.size ≤ o1.cap - (o1.left - b.length) ∧ t.pos = fl'.length + q)) ∨
        (t.seg < o1.flushed ∧ t.pos + t.size ≤ fl'.length)) := by
      intro t ht
      obtain ⟨h4, h5⟩ := i.tick t ht
      refine ⟨by rw [List.length_append]; omega, ?_⟩
      rcases h5 with ⟨h5, h6⟩ | h5
      · refine Or.inl ⟨h5, ?_⟩
        rcases h6 with h6 | ⟨a, q, h6, h7, h8, h9⟩
        · exact Or.inl h6
        · exact Or.inr ⟨a, q, h6, h7, by omega, h9⟩
      · exact Or.inr h5
    rcases i.buf with ⟨h1, h2⟩ | ⟨a, h1, h2, h3⟩
    · have hb : b = [] := List.eq_nil_of_length_eq_zero (by omega)
      subst hb
      have hp : copy { o1 with left := o1.left - ([] : Bytes).length, crr := o1.crr + ([] : Bytes).length }
          o1.crr [] = o1 := by
        simp [copy, poke_nil]
      rw [hp, List.append_nil]
      refine ⟨i.streaming, i.inv, i.room, i.buf, i.written, i.stream, ?_⟩
      intro t ht
      rcases List.mem_append.mp ht with ht | ht
      · exact i.tick t ht
      · cases List.mem_singleton.mp ht
        exact ⟨by simp, Or.inl ⟨rfl, Or.inl rfl⟩⟩
    · have hpend : pending o1 = peek o1.heap.mem a (o1.cap - o1.left) := by simp [pending, h1]
      have hw : out.length = fl'.length + (o1.cap - o1.left) := by
        rw [i.written, List.length_append, hpend]; simp [peek]
      have hnew : peek (poke o1.heap.mem o1.crr b) a (o1.cap - (o1.left - b.length)) =
          pending o1 ++ b := by
        have h6 := map_poke (mem := o1.heap.mem) (a := o1.crr) (b := b)
          (A := List.range' a (o1.cap - o1.left)) (B := [])
          (by rw [List.append_nil, h3, ← range_add]; exact List.nodup_range' ..)
        rw [List.append_nil, List.map_nil, List.append_nil] at h6
        rw [hpend]
        unfold peek
        rw [← h6, h3, ← range_add, show o1.cap - o1.left + b.length = o1.cap - (o1.left - b.length) by omega]
      refine ⟨i.streaming, inv_mem i.inv _, ?_, Or.inr ⟨a, h1, h2, ?_⟩, ?_, i.stream, ?_⟩
      · show o1.left - b.length ≤ o1.cap; omega
      · show o1.crr + b.length = a + (o1.cap - (o1.left - b.length)); omega
      · have : pending (copy { o1 with left := o1.left - b.length, crr := o1.crr + b.length } o1.crr b)
            = peek (poke o1.heap.mem o1.crr b) a (o1.cap - (o1.left - b.length)) := by
          simp [pending, copy, h1]
        rw [this, hnew, i.written, List.append_assoc]
      · intro t ht
        rcases List.mem_append.mp ht with ht | ht
        · exact holdtick t ht
        · cases List.mem_singleton.mp ht
          refine ⟨by simp, Or.inl ⟨rfl, Or.inr ⟨a, o1.cap - o1.left, h1, h3, ?_, hw⟩⟩⟩
          show o1.cap - o1.left + b.length ≤ o1.cap - (o1.left - b.length)
          omega

theorem SInv.fewer {o : St} {ts ts' : List Ticket} {out : Bytes} {live : List (Nat × Nat)}
    {pre fl : Bytes} (hi : SInv o ts out live pre fl) (h : ∀ t ∈ ts', t ∈ ts) :
    SInv o ts' out live pre fl :=
  ⟨hi.streaming, hi.inv, hi.room, hi.buf, hi.written, hi.stream, fun t ht => hi.tick t (h t ht)⟩

theorem write_stream (sys : Sys) {o : St} {ts : List Ticket} {out : Bytes}
    {live : List (Nat × Nat)} {pre fl : Bytes} (hi : SInv o ts out live pre fl)
    (ht : o.total = out.length) (b : Bytes) (hn : b.length + 16 < 2 ^ 32) :
    ∃ o' live' fl', write sys o b = .ok o' ∧ o'.total = (out ++ b).length ∧
      SInv o' ts (out ++ b) live' pre fl' := by
  obtain ⟨o', a, live', fl', e, t, i⟩ := alloc_stream sys hi ht b hn
  exact ⟨copy o' a b, live', fl', by rw [write, e]; rfl, t, i.fewer fun t ht => by simp [ht]⟩

theorem reserve_stream (sys : Sys) {o : St} {ts : List Ticket} {out : Bytes}
    {live : List (Nat × Nat)} {pre fl : Bytes} (hi : SInv o ts out live pre fl)
    (ht : o.total = out.length) (n : Nat) (hn : n + 16 < 2 ^ 32) :
    ∃ o' t live' fl', reserve sys o n = .ok (o', t) ∧ t.pos = out.length ∧ t.size = n ∧
      o'.total = (out ++ List.replicate n 0).length ∧
      SInv o' (ts ++ [t]) (out ++ List.replicate n 0) live' pre fl' := by
  obtain ⟨o', a, live', fl', e, t, i⟩ := alloc_stream sys hi ht (List.replicate n 0) (by simpa using hn)
  rw [List.length_replicate] at e i
  refine ⟨copy o' a (List.replicate n 0), ⟨a, n, out.length, o'.flushed⟩, live', fl', ?_, rfl, rfl,
    t, i⟩
  rw [reserve, e, ht]
  rfl

theorem take_add {α : Type} (l1 l2 : List α) (k : Nat) :
    (l1 ++ l2).take (l1.length + k) = l1 ++ l2.take k := by
  rw [List.take_append, List.take_of_length_le (by omega), show l1.length + k - l1.length = k by omega]

theorem drop_add {α : Type} (l1 l2 : List α) (k : Nat) :
    (l1 ++ l2).drop (l1.length + k) = l2.drop k := by
  rw [List.drop_append, List.drop_eq_nil_of_le (by omega), List.nil_append,
    show l1.length + k - l1.length = k by omega]

/-- Changing bytes in the middle -/
def patched (out : Bytes) (p : Nat) (b : Bytes) : Bytes :=
  out.take p ++ b ++ out.drop (p + b.length)

theorem patched_length {out b : Bytes} {p : Nat} (h : p + b.length ≤ out.length) :
    (patched out p b).length = out.length := by
  simp [patched]; omega

theorem patched_nil (out : Bytes) (p : Nat) : patched out p [] = out := by
  simp [patched]

theorem patched_right (l1 l2 : Bytes) (k : Nat) (b : Bytes) :
    patched (l1 ++ l2) (l1.length + k) b = l1 ++ patched l2 k b := by
  unfold patched
  rw [take_add, Nat.add_assoc, drop_add]
  simp

theorem patched_left {l1 l2 b : Bytes} {k : Nat} (h : k + b.length ≤ l1.length) :
    patched (l1 ++ l2) k b = patched l1 k b ++ l2 := by
  unfold patched
  rw [List.take_append_of_le_length (by omega), List.drop_append_of_le_length h]
  simp

theorem peek_poke (mem : Nat → UInt8) (a m k : Nat) (b : Bytes) (h : k + b.length ≤ m) :
    peek (poke mem (a + k) b) a m = patched (peek mem a m) k b := by
  have hs : List.range' a m = List.range' a k ++ List.range' (a + k) b.length ++
      List.range' (a + k + b.length) (m - k - b.length) := by
    rw [← range_add, Nat.add_assoc, ← range_add]
    congr 1
    omega
  have hnd : (List.range' a m).Nodup := List.nodup_range' ..
  rw [hs] at hnd
  have hp := map_poke (mem := mem) hnd
  unfold peek
  rw [hs, hp]
  exact replace_mid _ _ _ _ _ (by simp) (by simp)

theorem fill_stream {o : St} {ts : List Ticket} {out : Bytes} {live : List (Nat × Nat)}
    {fl : Bytes} (hi : SInv o ts out live [] fl) {t : Ticket} (ht : t ∈ ts) {k : Nat}
    {b : Bytes} (hk : k + b.length ≤ t.size) :
    ∃ o' fl', fill o t b k = .ok o' ∧ o'.total = o.total ∧
      SInv o' ts (patched out (t.pos + k) b) live [] fl' := by
  obtain ⟨h1, h2⟩ := hi.tick t ht
  have hlen := patched_length (out := out) (b := b) (p := t.pos + k) (by omega)
  unfold fill
  rw [if_neg (by omega)]
  rcases h2 with ⟨h2, h3⟩ | ⟨h2, h3⟩
  · rw [if_pos (by simp [h2])]
    refine ⟨_, fl, rfl, rfl, ?_⟩
    rcases h3 with h3 | ⟨a, q, h3, h4, h5, h6⟩
    · have hb : b = [] := List.eq_nil_of_length_eq_zero (by omega)
      subst hb
      have : copy o (t.mem + k) [] = o := by simp [copy, poke_nil]
      rw [this, patched_nil]
      exact hi
    · refine ⟨hi.streaming, inv_mem hi.inv _, hi.room, hi.buf, ?_, hi.stream, ?_⟩
      · have e : pending (copy o (t.mem + k) b) =
            peek (poke o.heap.mem (a + (q + k)) b) a (o.cap - o.left) := by
          simp [pending, copy, h3, h4, Nat.add_assoc]
        rw [e, peek_poke _ _ _ _ _ (by omega), hi.written, h6, Nat.add_assoc, patched_right]
        simp [pending, h3]
      · rw [hlen]; exact hi.tick
  · rw [if_neg (by simp [hi.streaming]; omega)]
    have hst := hi.stream
    simp only [List.nil_append] at hst
    have hpl := patched_length (out := fl) (b := b) (p := t.pos + k) (by omega)
    refine ⟨{ o with stream := ⟨patched fl (t.pos + k) b, fl.length⟩ }, patched fl (t.pos + k) b, ?_,
      rfl, ?_⟩
    · rw [hst]
      simp only [Stream.write]
      rw [if_neg (by omega)]
      rfl
    · refine ⟨hi.streaming, hi.inv, hi.room, hi.buf, ?_, ?_, ?_⟩
      · rw [hi.written, patched_left (by omega)]
        rfl
      · show Stream.mk _ _ = _
        rw [List.nil_append, hpl]
      · rw [hlen]
        intro t ht
        obtain ⟨h4, h5⟩ := hi.tick t ht
        rw [hpl]
        exact ⟨h4, h5⟩

theorem set_stream {h : Hp} {live : List (Nat × Nat)} (hi : Heap.Inv h live) (pre : Bytes) :
    SInv (set h true ⟨pre, pre.length⟩) [] [] [] pre [] :=
  ⟨rfl, Heap.clear_inv hi, Nat.le_refl _, Or.inl ⟨rfl, rfl⟩, rfl, by simp [set],
    fun _ h => nomatch h⟩

end Srl.Out
