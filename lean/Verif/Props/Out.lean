import Verif.Lemmas.Out
import Verif.Props.Heap

/-! # C26, C27 – output -/

namespace Srl.Props

open Heap (Hp Sys)
open Out (Op)

/-- Specification of a sequence of output operations on what has been written so far and the
reservations (position, size): a write appends, a reservation appends zeros, a fill replaces bytes
of a reservation. `none`: the sequence fills a reservation that does not exist or is too small. -/
def expected (out : Bytes) (slots : List (Nat × Nat)) : List Op → Option Bytes
  | [] => some out
  | .write b :: ops => expected (out ++ b) slots ops
  | .reserve n :: ops => expected (out ++ List.replicate n 0) (slots ++ [(out.length, n)]) ops
  | .fill i k b :: ops =>
    match slots[i]? with
    | none => none
    | some (p, n) =>
      if k + b.length ≤ n then
        expected (out.take (p + k) ++ b ++ out.drop (p + k + b.length)) slots ops
      else none

/-- Sizes a single request may have. -/
def OpSmall : Op → Prop
  | .write b => b.length < 2 ^ 32 - 16
  | .reserve n => n < 2 ^ 32 - 16
  | .fill .. => True

def IsFill : Op → Prop
  | .fill .. => True
  | _ => False

private abbrev slotsOf (ts : List Out.Ticket) : List (Nat × Nat) := ts.map fun t => (t.pos, t.size)

private theorem slot {ts : List Out.Ticket} {i p n : Nat} (h : (slotsOf ts)[i]? = some (p, n)) :
    ∃ t ∈ ts, ts[i]? = some t ∧ t.pos = p ∧ t.size = n := by
  rw [List.getElem?_map] at h
  cases ht : ts[i]? with
  | none => rw [ht] at h; cases h
  | some t =>
    rw [ht] at h
    cases h
    exact ⟨t, List.mem_of_getElem? ht, rfl, rfl, rfl⟩

private theorem run_mem (sys : Sys) : ∀ (ops : List Op) {o : Out.St} {ts : List Out.Ticket}
    {out res : Bytes} {live : List (Nat × Nat)}, Out.MInv o ts out live →
    (∀ op ∈ ops, OpSmall op) → expected out (slotsOf ts) ops = some res →
    ∃ o' ts' live', Out.run sys o ts ops = .ok (o', ts') ∧ Out.MInv o' ts' res live'
  | [], o, ts, out, res, live, hi, _, he => by cases he; exact ⟨o, ts, live, rfl, hi⟩
  | .write b :: ops, o, ts, out, res, live, hi, hs, he => by
    have hb : b.length < 2 ^ 32 - 16 := hs (.write b) (by simp)
    obtain ⟨o', live', e, i⟩ := Out.write_mem sys hi b (by omega)
    simp only [Out.run, e, Res.ok_bind]
    exact run_mem sys ops i (fun op h => hs op (List.mem_cons_of_mem _ h)) he
  | .reserve n :: ops, o, ts, out, res, live, hi, hs, he => by
    have hb : n < 2 ^ 32 - 16 := hs (.reserve n) (by simp)
    obtain ⟨o', t, live', e, h1, h2, i⟩ := Out.reserve_mem sys hi n (by omega)
    simp only [Out.run, e, Res.ok_bind]
    refine run_mem sys ops i (fun op h => hs op (List.mem_cons_of_mem _ h)) ?_
    simp only [expected] at he
    simpa [slotsOf, h1, h2] using he
  | .fill i k b :: ops, o, ts, out, res, live, hi, hs, he => by
    simp only [expected] at he
    split at he
    · cases he
    · rename_i p n hp
      split at he
      · rename_i hk
        obtain ⟨t, ht, h1, h2, h3⟩ := slot hp
        subst h2 h3
        obtain ⟨o', e, i⟩ := Out.fill_mem hi ht hk
        simp only [Out.run, h1, e, Res.ok_bind]
        exact run_mem sys ops i (fun op h => hs op (List.mem_cons_of_mem _ h)) he
      · cases he

private theorem patch_length {out b : Bytes} {p : Nat} :
    out.length ≤ (out.take p ++ b ++ out.drop (p + b.length)).length := by
  simp; omega

private theorem small_of_total : ∀ (ops : List Op) {out res : Bytes} {sl : List (Nat × Nat)},
    expected out sl ops = some res →
    out.length ≤ res.length ∧ (res.length < 2 ^ 32 - 16 → ∀ op ∈ ops, OpSmall op)
  | [], out, res, sl, he => by cases he; simp
  | .write b :: ops, out, res, sl, he => by
    obtain ⟨h1, h2⟩ := small_of_total ops (out := out ++ b) he
    rw [List.length_append] at h1
    refine ⟨by omega, fun h => List.forall_mem_cons.mpr ⟨?_, h2 h⟩⟩
    show b.length < 2 ^ 32 - 16
    omega
  | .reserve n :: ops, out, res, sl, he => by
    obtain ⟨h1, h2⟩ := small_of_total ops (out := out ++ List.replicate n 0) he
    rw [List.length_append, List.length_replicate] at h1
    refine ⟨by omega, fun h => List.forall_mem_cons.mpr ⟨?_, h2 h⟩⟩
    show n < 2 ^ 32 - 16
    omega
  | .fill i k b :: ops, out, res, sl, he => by
    simp only [expected] at he
    split at he
    · cases he
    · split at he
      · obtain ⟨h1, h2⟩ := small_of_total ops he
        exact ⟨Nat.le_trans patch_length h1, fun h => List.forall_mem_cons.mpr ⟨trivial, h2 h⟩⟩
      · cases he

/-- C26: for every sequence of operations that respects its reservations, whatever the output was
used for before and whatever the vector contained, the vector delivered is as specified, if that
is shorter than 4 GiB (less 16 bytes). -/
theorem out_memory_partial {sys : Sys} {h : Hp} {live : List (Nat × Nat)} (u : Use sys h live)
    (ops : List Op) {res : Bytes} (he : expected [] [] ops = some res)
    (hs : res.length < 2 ^ 32 - 16) (buf : Bytes) : Out.toMemory sys h ops buf = .ok res := by
  obtain ⟨o, ts, live', e, i⟩ := run_mem sys ops (Out.set_mem u.inv ⟨[], 0⟩)
    ((small_of_total ops he).2 hs) he
  unfold Out.toMemory
  rw [e, Res.ok_bind]
  exact Out.deliver_mem i (by omega) buf

private theorem big_first (mem : Nat → UInt8) :
    Heap.get bump ⟨256, [], [], [], mem⟩ 2147483648 1 =
      .ok (⟨512, [⟨16, 0, 2147483648⟩], [], [(16, 2147483648)], mem⟩, 16) := by
  simp [Heap.get, Heap.alloc, Heap.putRest, Heap.findRm, Heap.nextCap, Heap.maxCap, Heap.take, bump,
    Heap.Seg.ptr]

private theorem big_second (mem : Nat → UInt8) :
    Heap.get bump ⟨512, [⟨16, 0, 2147483648⟩], [], [(16, 2147483648)], mem⟩ 2147483648 1 =
      .ok (⟨1024, [⟨34359738640, 0, 2147483648⟩, ⟨16, 0, 2147483648⟩], [],
        [(16, 2147483648), (34359738640, 2147483648)], mem⟩, 34359738640) := by
  simp [Heap.get, Heap.alloc, Heap.putRest, Heap.findRm, Heap.nextCap, Heap.maxCap, Heap.take, bump,
    Heap.Seg.ptr]

private theorem big_third (mem : Nat → UInt8) :
    Heap.get bump ⟨1024, [⟨34359738640, 0, 2147483648⟩, ⟨16, 0, 2147483648⟩], [],
        [(16, 2147483648), (34359738640, 2147483648)], mem⟩ 1 1 =
      .ok (⟨2048, [⟨584115556624, 2047, 2048⟩, ⟨34359738640, 0, 2147483648⟩,
        ⟨16, 0, 2147483648⟩], [],
        [(16, 2147483648), (34359738640, 2147483648), (584115556624, 2048)], mem⟩, 584115556624) := by
  simp [Heap.get, Heap.alloc, Heap.putRest, Heap.findRm, Heap.nextCap, Heap.maxCap, Heap.take, bump,
    Heap.Seg.ptr]

private theorem gather_wrap {mem : Nat → UInt8} {s1 s2 s3 : Heap.Seg} {buf r : Bytes}
    (h12 : ((s1.size - s1.left) % 2 ^ 32 + (s2.size - s2.left)) % 2 ^ 32 = 0)
    (h3 : s3.size - s3.left = 1) (h : Out.gather mem [s1, s2, s3] 0 buf = .ok r) :
    r.head? = some (mem s3.data) := by
  simp only [Out.gather, Res.bind_eq_ok] at h
  obtain ⟨r1, -, r2, -, r3, h4, h5⟩ := h
  cases h5
  simp only [Out.peek, List.length_map, List.length_range', Nat.zero_add, h12, h3] at h4
  unfold Out.paste at h4
  split at h4
  · cases h4
  · cases h4
    rfl

private theorem write_step {sys : Sys} {o : Out.St} {b : Bytes} {n : Nat} {h : Hp} {a : Nat}
    (hs : o.streaming = false) (hb : b.length = n) (hg : Heap.get sys o.heap n 1 = .ok (h, a)) :
    ∃ o', Out.write sys o b = .ok o' ∧ o'.streaming = false ∧
      o'.heap = { h with mem := Out.poke h.mem a b } := by
  subst hb
  refine ⟨Out.copy { o with total := o.total + b.length, heap := h } a b, ?_, hs, rfl⟩
  simp only [Out.write, Out.alloc, hs, Bool.not_false, ↓reduceIte, hg, Res.ok_bind]

private theorem big_result {b1 b2 r : Bytes} (h1 : b1.length = 2147483648)
    (h2 : b2.length = 2147483648)
    (h : Out.toMemory bump (Heap.new fun _ => 0) [.write b1, .write b2, .write [3]] [] = .ok r) :
    r.head? = some 3 := by
  have e0 : (Out.set (Heap.new fun _ => 0) false ⟨[], 0⟩).heap = ⟨256, [], [], [], fun _ => 0⟩ := rfl
  obtain ⟨o1, e1, s1, g1⟩ := write_step (o := Out.set (Heap.new fun _ => 0) false ⟨[], 0⟩) rfl h1
    (by rw [e0]; exact big_first _)
  obtain ⟨o2, e2, s2, g2⟩ := write_step s1 h2 (by rw [g1]; exact big_second _)
  obtain ⟨o3, e3, s3, g3⟩ := write_step (b := [3]) s2 rfl (by rw [g2]; exact big_third _)
  simp only [Out.toMemory, Out.run, e1, e2, e3, Res.ok_bind, Out.deliver] at h
  rw [g3] at h
  have := gather_wrap (by simp) (by simp) h
  simpa [Out.poke] using this

private theorem long (n : Nat) (h : 0 < n) : ∃ b : Bytes, b.length = n ∧ b.head? = some 1 :=
  ⟨List.replicate n 1, List.length_replicate, by
    cases n with
    | zero => cases h
    | succ n => rfl⟩

/-- C26 is violated for more than 4 GiB: the position in the result is counted in 32 bits, so the
last segment overwrites the beginning. -/
theorem out_memory_wraps : ∃ ops res, expected [] [] ops = some res ∧ (∀ op ∈ ops, OpSmall op) ∧
    Out.toMemory bump (Heap.new fun _ => 0) ops [] ≠ .ok res := by
  obtain ⟨b, h1, h2⟩ := long 2147483648 (by decide)
  refine ⟨[.write b, .write b, .write [3]], [] ++ b ++ b ++ [3], rfl, ?_, ?_⟩
  · simp [OpSmall, h1]
  · intro h
    have := big_result h1 h1 h
    simp [List.head?_append, h2] at this

private theorem run_stream (sys : Sys) (pre : Bytes) : ∀ (ops : List Op) {o : Out.St}
    {ts : List Out.Ticket} {out res : Bytes} {live : List (Nat × Nat)} {fl : Bytes},
    Out.SInv o ts out live pre fl → o.total = out.length →
    (∀ op ∈ ops, OpSmall op) → (pre = [] ∨ ∀ op ∈ ops, ¬ IsFill op) →
    expected out (slotsOf ts) ops = some res →
    ∃ o' ts' live' fl', Out.run sys o ts ops = .ok (o', ts') ∧ Out.SInv o' ts' res live' pre fl'
  | [], o, ts, out, res, live, fl, hi, _, _, _, he => by cases he; exact ⟨o, ts, live, fl, rfl, hi⟩
  | .write b :: ops, o, ts, out, res, live, fl, hi, ht, hs, hf, he => by
    have hb : b.length < 2 ^ 32 - 16 := hs (.write b) (by simp)
    obtain ⟨o', live', fl', e, t, i⟩ := Out.write_stream sys hi ht b (by omega)
    simp only [Out.run, e, Res.ok_bind]
    exact run_stream sys pre ops i t (fun op h => hs op (List.mem_cons_of_mem _ h))
      (hf.imp_right fun h op ho => h op (List.mem_cons_of_mem _ ho)) he
  | .reserve n :: ops, o, ts, out, res, live, fl, hi, ht, hs, hf, he => by
    have hb : n < 2 ^ 32 - 16 := hs (.reserve n) (by simp)
    obtain ⟨o', t, live', fl', e, h1, h2, h3, i⟩ := Out.reserve_stream sys hi ht n (by omega)
    simp only [Out.run, e, Res.ok_bind]
    refine run_stream sys pre ops i h3 (fun op h => hs op (List.mem_cons_of_mem _ h))
      (hf.imp_right fun h op ho => h op (List.mem_cons_of_mem _ ho)) ?_
    simp only [expected] at he
    simpa [slotsOf, h1, h2] using he
  | .fill i k b :: ops, o, ts, out, res, live, fl, hi, ht, hs, hf, he => by
    rcases hf with hf | hf
    · subst hf
      simp only [expected] at he
      split at he
      · cases he
      · rename_i p n hp
        split at he
        · rename_i hk
          obtain ⟨t, htm, h1, h2, h3⟩ := slot hp
          subst h2 h3
          have hl := Out.patched_length (out := out) (b := b) (p := t.pos + k)
            (by have := (hi.tick t htm).1; omega)
          obtain ⟨o', fl', e, h4, i⟩ := Out.fill_stream hi htm hk
          simp only [Out.run, h1, e, Res.ok_bind]
          exact run_stream sys [] ops i (by rw [h4, ht, hl])
            (fun op h => hs op (List.mem_cons_of_mem _ h)) (Or.inl rfl) he
        · cases he
    · exact absurd trivial (hf (.fill i k b) (by simp))

/-- C27: for every sequence of operations, without limit on the total size, writing to a stream
that is empty, or writing without filling reservations to any stream, appends to it the specified
bytes. -/
theorem out_stream_partial {sys : Sys} {h : Hp} {live : List (Nat × Nat)} (u : Use sys h live)
    (ops : List Op) {res : Bytes} (he : expected [] [] ops = some res)
    (hs : ∀ op ∈ ops, OpSmall op) (pre : Bytes) (hf : pre = [] ∨ ∀ op ∈ ops, ¬ IsFill op) :
    Out.toStream sys h ops ⟨pre, pre.length⟩ = .ok ⟨pre ++ res, (pre ++ res).length⟩ := by
  obtain ⟨o, ts, live', fl, e, i⟩ := run_stream sys pre ops (Out.set_stream u.inv pre) rfl hs
    hf he
  unfold Out.toStream
  rw [e, Res.ok_bind]
  obtain ⟨o', e', i', -⟩ := Out.writeToStream_ok i
  show (do let o ← Out.writeToStream o; Res.ok o.stream) = _
  rw [e', Res.ok_bind, i'.stream]

/-- C27, both: where both theorems apply, stream and memory receive the same. -/
theorem out_stream_memory {sys : Sys} {h h' : Hp} {live live' : List (Nat × Nat)}
    (u : Use sys h live) (u' : Use sys h' live') (ops : List Op) {res : Bytes}
    (he : expected [] [] ops = some res) (hs : res.length < 2 ^ 32 - 16) (pre buf : Bytes)
    (hf : pre = [] ∨ ∀ op ∈ ops, ¬ IsFill op) :
    ∃ b, Out.toMemory sys h ops buf = .ok b ∧
      Out.toStream sys h' ops ⟨pre, pre.length⟩ = .ok ⟨pre ++ b, (pre ++ b).length⟩ :=
  ⟨res, out_memory_partial u ops he hs buf,
    out_stream_partial u' ops he ((small_of_total ops he).2 hs) pre hf⟩

/-- C27 is violated otherwise: a reservation that was already passed on is filled at its position
relative to the beginning of the stream. Here a stream that contains one byte receives a
reservation of one byte and 1024 more bytes; then the reservation is filled. -/
theorem out_stream_wrong : ∃ ops res, expected [] [] ops = some res ∧ (∀ op ∈ ops, OpSmall op) ∧
    Out.toStream bump (Heap.new fun _ => 0) ops ⟨[9], 1⟩ ≠ .ok ⟨[9] ++ res, ([9] ++ res).length⟩ := by
  refine ⟨[.reserve 1, .write (List.replicate 1024 1), .fill 0 0 [7]], _, rfl, ?_, ?_⟩
  · have h1 : (List.replicate 1024 (1 : UInt8)).length < 2 ^ 32 - 16 := by
      rw [List.length_replicate]; decide
    intro op hop
    rcases List.mem_cons.mp hop with rfl | hop
    · exact (by decide : 1 < 2 ^ 32 - 16)
    rcases List.mem_cons.mp hop with rfl | hop
    · exact h1
    cases List.mem_singleton.mp hop
    trivial
  · intro h
    have h1 : (match Out.toStream bump (Heap.new fun _ => 0)
        [.reserve 1, .write (List.replicate 1024 1), .fill 0 0 [7]] ⟨[9], 1⟩ with
      | .ok s => s.contents.head?
      | _ => none) = some 7 := by decide +kernel
    rw [h] at h1
    exact absurd h1 (by decide +kernel)

/-- Two nested reservations, filled in reverse order. -/
example : expected [] [] [.reserve 4, .write [1, 2], .reserve 2, .write (List.replicate 3 5),
    .fill 1 0 [8, 9], .fill 0 2 [6, 7]] = some [0, 0, 6, 7, 1, 2, 8, 9, 5, 5, 5] := by decide

example : Out.toStream bump (Heap.new fun _ => 0)
    [.reserve 4, .write [1, 2], .reserve 2, .write [5, 5, 5], .fill 1 0 [8, 9], .fill 0 2 [6, 7]]
    ⟨[], 0⟩ = .ok ⟨[0, 0, 6, 7, 1, 2, 8, 9, 5, 5, 5], 11⟩ := by decide +kernel

end Srl.Props
