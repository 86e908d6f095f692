import Verif.Lemmas.Heap

/-! # C25 – heap blocks never overlap -/

namespace Srl.Props

open Heap (Hp Sys)

/-- Specification: a byte of a block given by address and size. -/
def ByteOf (x : Nat) (b : Nat × Nat) : Prop := b.1 ≤ x ∧ x < b.1 + b.2

/-- Specification: sizes below 4 GiB and alignments of ordinary types. -/
def Request (n align : Nat) : Prop := n < 2 ^ 32 - 16 ∧ align ∈ [1, 2, 4, 8, 16]

/-- Specification: correct use of a heap. `live` are the blocks obtained and not returned. Only
live blocks may be returned and written to. -/
inductive Use (sys : Sys) : Hp → List (Nat × Nat) → Prop
  | new (mem) : Use sys (Heap.new mem) []
  | get {h h' live n align a} : Use sys h live → Request n align →
      Heap.get sys h n align = .ok (h', a) → Use sys h' ((a, n) :: live)
  | put {h live b} : Use sys h live → b ∈ live → Use sys (Heap.put h b.1 b.2) (live.erase b)
  | clear {h live} : Use sys h live → Use sys (Heap.clear h) []
  | write {h live mem} : Use sys h live →
      (∀ x, (∀ b ∈ live, ¬ ByteOf x b) → mem x = h.mem x) → Use sys { h with mem := mem } live

private theorem req {n align : Nat} (h : Request n align) : Heap.Req n align :=
  ⟨by have := h.1; omega, h.2⟩

/-- The invariant of the model holds in every state reached by correct use. -/
theorem Use.inv {sys : Sys} {h : Hp} {live : List (Nat × Nat)} (u : Use sys h live) :
    Heap.Inv h live := by
  induction u with
  | new mem => exact Heap.new_inv mem
  | get _ hq he ih =>
    obtain ⟨h', a, e, i, -⟩ := Heap.get_spec sys ih (req hq)
    rw [he] at e
    cases e
    exact i
  | put _ hb ih => exact Heap.put_inv ih hb
  | clear _ ih => exact Heap.clear_inv ih
  | write _ _ ih => exact ⟨ih.cap, ih.left, ih.free, ih.apart, ih.inside, ih.owned, ih.small⟩

/-- C25: no byte belongs to two live blocks, and each live block lies in one block the heap
obtained from the system. -/
theorem heap_disjoint {sys : Sys} {h : Hp} {live : List (Nat × Nat)} (u : Use sys h live) :
    live.Pairwise (fun b c => ∀ x, ¬ (ByteOf x b ∧ ByteOf x c)) ∧
    ∀ b ∈ live, ∃ o ∈ h.owned, o.1 ≤ b.1 ∧ b.1 + b.2 ≤ o.1 + o.2 := by
  have hi := u.inv
  refine ⟨?_, ?_⟩
  · have := (List.pairwise_append.mp (List.pairwise_append.mp hi.apart).2.1).2.1
    exact this.imp fun h x hx => h x hx.1 hx.2
  · intro b hb
    exact hi.inside b (by simp [Heap.Hp.regions, hb])

/-- C25: an allocation always succeeds, is aligned as requested, and neither it nor returning a
block nor clearing touches the contents of the (other) live blocks; memory already owned stays
owned. -/
theorem heap_get {sys : Sys} {h : Hp} {live : List (Nat × Nat)} (u : Use sys h live)
    {n align : Nat} (hq : Request n align) :
    ∃ h' a, Heap.get sys h n align = .ok (h', a) ∧ a % align = 0 ∧
      (∀ b ∈ live, ∀ x, ByteOf x b → h'.mem x = h.mem x) ∧ (∀ o ∈ h.owned, o ∈ h'.owned) := by
  have hi := u.inv
  obtain ⟨h', a, e, -, al, m, o, -⟩ := Heap.get_spec sys hi (req hq)
  refine ⟨h', a, e, al, ?_, o⟩
  intro b hb x hx
  refine m x ?_
  intro r hr hin
  have := (List.pairwise_append.mp hi.apart).2.2 r hr b (by simp [hb])
  exact this x hin hx

theorem heap_put {sys : Sys} {h : Hp} {live : List (Nat × Nat)} (u : Use sys h live)
    {b c : Nat × Nat} (hb : b ∈ live) (hc : c ∈ live.erase b) :
    ∀ x, ByteOf x c → (Heap.put h b.1 b.2).mem x = h.mem x := by
  have hd := (heap_disjoint u).1
  have hp : live.Perm (b :: live.erase b) := List.perm_cons_erase hb
  have hd' := (hp.pairwise_iff (fun {x y} h z hz => h z ⟨hz.2, hz.1⟩)).mp hd
  intro x hx
  show Heap.zero h.mem b.1 b.2 x = h.mem x
  unfold Heap.zero
  rw [if_neg]
  intro h'
  exact (List.pairwise_cons.mp hd').1 c hc x ⟨h', hx⟩

/-- After `clear` everything the heap owns is filled with zeros (the hash table relies on it). -/
theorem heap_clear_zero {sys : Sys} {h : Hp} {live : List (Nat × Nat)} (u : Use sys h live) :
    (Heap.clear h).owned = h.owned ∧
    ∀ o ∈ h.owned, ∀ x, ByteOf x o → (Heap.clear h).mem x = 0 := by
  refine ⟨rfl, ?_⟩
  intro o ho x hx
  exact Heap.zeroed h.owned x h.mem (Or.inr ⟨o, ho, hx⟩) u.inv.small

/-- A system allocator: each block behind all others. -/
def bump : Sys where
  alloc bs _ := 16 * (1 + bs.foldr (fun b m => max (b.1 + b.2) m) 0)
  apart := by
    intro bs n b hb
    right
    have key : ∀ bs : List (Nat × Nat), b ∈ bs →
        b.1 + b.2 ≤ bs.foldr (fun b m => max (b.1 + b.2) m) 0 := by
      intro bs
      induction bs with
      | nil => intro h; cases h
      | cons c bs ih =>
        intro h
        simp only [List.foldr_cons]
        rcases List.mem_cons.mp h with rfl | h
        · exact Nat.le_max_left _ _
        · exact Nat.le_trans (ih h) (Nat.le_max_right _ _)
    have := key bs hb
    omega
  aligned := by intro bs n; omega

/-- Outside the requests considered, the heap fails: a large block of an over-aligned type
(`alignas(64)`) does not fit the segment allocated for it. -/
theorem heap_overaligned :
    ∃ sys, Heap.get sys (Heap.new fun _ => 0) 1000000 64 = .ub :=
  ⟨bump, Res.eq_ub (by decide +kernel)⟩

/-- Three blocks, the first of which is returned and used again, then a large one. -/
example : (do
    let (h, a) ← Heap.get bump (Heap.new fun _ => 0) 100 4
    let (h, b) ← Heap.get bump h 401 1
    let (h, c) ← Heap.get bump (Heap.put h a 100) 90 8
    let (h, d) ← Heap.get bump h 24 8
    let (_, e) ← Heap.get bump h 70000 16
    pure [a, b, c, d, e] : Res (List Nat)) = .ok [16, 116, 16, 8464, 151824] := by decide +kernel

end Srl.Props
