import Verif.Lemmas.HeapAlloc

/-! `get_mem`, `clear` and the destructor on the objects of a heap -/

namespace Srl.HeapLinks

open Heap (Sys Hp Seg)

theorem take_spec {w : World} {h : HeapObj} {g : Ghost} (i : WInv w) (r : Rep w h g) {c : Nat}
    (hc : h.crr = some c) {n align : Nat} (hr : RoomIn w c n align) :
    ∃ w' a, take w h n align = .ok (w', h, some a) ∧ WInv w' ∧ Rep w' h g ∧ Step w g w' g ∧
      Heap.take (abs w h g) n align = .ok (abs w' h g, a) := by
  rcases r.current with ⟨e, -⟩ | ⟨us, c', l, hu, hc', hl, ha⟩
  · rw [hc] at e; cases e
  rw [hc] at hc'
  cases hc'
  obtain ⟨l', hl', hroom⟩ := hr
  rw [hl] at hl'
  cases hl'
  have hlk : w.look c = .ok l := by unfold World.look; rw [hl]
  generalize hoff : (if l.ptr % align ≠ 0 then align - l.ptr % align else 0) = off at hroom
  obtain ⟨w', e, x, l1, lp, cn, bl, me⟩ := upd_cell (w := w) (p := c) (l := l)
    (f := fun l => { l with left := l.left - (n + off) }) hl (fun k => by cases k <;> rfl)
  have hcu : c ∈ g.us := by rw [hu]; simp
  have hcul : c ∈ g.ul := r.sub c (by simp [hcu])
  have hcell : cell w c = some l.cell := by unfold cell; rw [hl]; rfl
  have hcell' : cell w' c = some ⟨l.data, l.left - (n + off), l.size, l.sub⟩ := by
    unfold cell; rw [lp]; rfl
  have hleft : l.left ≤ l.size := r.left c hcu l.cell hcell
  have hsn := List.nodup_append.mp r.segs
  have hch := List.nodup_append.mp r.chain
  have hce : ∀ q, q ≠ c → cell w' q = cell w q := fun q hq => cell_links (l1 q hq)
  have harr : arrOf w' c = arrOf w c := by
    unfold arrOf; rw [hcell, hcell']; rfl
  refine ⟨w', l.ptr + off, ?_, ?_, ?_, ?_, ?_⟩
  · unfold take
    rw [hc]
    simp only [hlk, Res.ok_bind]
    rw [hoff, if_neg (by omega), e]
    rfl
  · refine i.one hce (by rw [hcell]; intro e; cases e) harr ?_ bl cn
    intro d hd hn
    rw [hcell'] at hd
    cases hd
    exact i.null c l.cell hcell hn
  · refine ⟨r.us.frame fun q _ => x _ q, r.fs.frame fun q _ => x _ q, r.ul.frame fun q _ => x _ q,
      r.fl.frame fun q _ => x _ q, r.segs, r.chain, r.sub, by rw [cn]; exact r.bound, r.crr,
      ?_, ?_, ?_, r.cap⟩
    · intro q hq d hd
      rw [hce q fun e => hch.2.2 c hcul q hq e.symm] at hd
      exact r.idle q hq d hd
    · intro q hq d hd
      by_cases e : q = c
      · subst e
        rw [hcell'] at hd
        cases hd
        show l.left - (n + off) ≤ l.size
        omega
      · rw [hce q e] at hd
        exact r.left q hq d hd
    · intro q hq d hd
      rw [hce q fun e => hsn.2.2 c hcu q hq e.symm] at hd
      exact r.free q hq d hd
  · refine ⟨fun q hq => l1 q fun e => hq ?_, fun _ h => h, fun _ h => .inl h, Nat.le_of_eq cn.symm,
      fun b hb => by rw [bl]; exact hb⟩
    rw [e]
    exact List.mem_append_left _ hcul
  · unfold Heap.take
    rw [ha]
    dsimp only
    have hptr : Seg.ptr ⟨l.addr, l.left, l.size⟩ = l.ptr := rfl
    rw [hptr, hoff, if_neg (by omega)]
    have hus : ∀ q ∈ us, cell w' q = cell w q := by
      intro q hq
      refine hce q ?_
      rintro rfl
      have := hsn.1
      rw [hu] at this
      exact (List.nodup_append.mp this).2.2 q hq q (by simp) rfl
    have hfs : ∀ q ∈ g.fs, cell w' q = cell w q := fun q hq =>
      hce q fun e => hsn.2.2 c hcu q hq e.symm
    have hau : ∀ q ∈ g.ul, arrOf w' q = arrOf w q := by
      intro q _
      by_cases e : q = c
      · subst e; exact harr
      · exact arrOf_cell (hce q e)
    have hseg : segOf w' c = ⟨l.addr, l.left - (n + off), l.size⟩ := by
      unfold segOf; rw [hcell']; rfl
    congr 2
    unfold abs
    dsimp only
    rw [filterMap_same hau, List.filter_congr fun q hq => real_cell (hfs q hq), me]
    rw [List.map_congr_left fun q hq => segOf_cell (hfs q (List.mem_filter.mp hq).1)]
    rw [hu, List.map_append, List.map_congr_left fun q hq => segOf_cell (hus q hq)]
    simp [hseg]

/-- `get_mem`: either the array was refused, or it does what the heap with lists does. -/
theorem get_spec {sys : Sys} {w : World} {h : HeapObj} {g : Ghost} (i : WInv w) (r : Rep w h g)
    {n align : Nat} (hq : Heap.Req n align) (refused : Bool) :
    ∃ w' h' g' x, get sys w h n align refused = .ok (w', h', x) ∧ WInv w' ∧ Rep w' h' g' ∧
      Step w g w' g' ∧
      match x with
      | none => refused = true ∧ (∃ c, (∃ k, k ≤ 18 ∧ c = 2 ^ k) ∧
          abs w' h' g' = { Heap.putRest (abs w h g) with cap := c }) ∧ w'.blocks = w.blocks
      | some a => 0 < n → ∃ sys' : Sys,
          Heap.get sys' (abs w h g) n align = .ok (abs w' h' g', a) := by
  -- with a new current segment
  have halloc : (∃ b, enough w h n align = .ok b ∧ b = false) →
      (∀ sys' : Sys, Heap.get sys' (abs w h g) n align =
        (Heap.alloc sys' (abs w h g) n align >>= fun h => Heap.take h n align)) →
      ∃ w' h' g' x, get sys w h n align refused = .ok (w', h', x) ∧ WInv w' ∧ Rep w' h' g' ∧
      Step w g w' g' ∧
      match x with
      | none => refused = true ∧ (∃ c, (∃ k, k ≤ 18 ∧ c = 2 ^ k) ∧
          abs w' h' g' = { Heap.putRest (abs w h g) with cap := c }) ∧ w'.blocks = w.blocks
      | some a => 0 < n → ∃ sys' : Sys,
          Heap.get sys' (abs w h g) n align = .ok (abs w' h' g', a) := by
    rintro ⟨b, he, rfl⟩ hget
    obtain ⟨w1, h1, g1, x, e1, i1, s1, hx⟩ := alloc_spec (sys := sys) i r hq refused
    unfold get
    rw [he]
    simp only [Res.ok_bind, Bool.false_eq_true, if_false]
    rw [e1]
    simp only [Res.ok_bind]
    cases x with
    | none =>
      obtain ⟨h2, h3, h4, h5⟩ := hx
      exact ⟨w1, h1, g1, none, rfl, i1, h3, s1, h2, h4, h5⟩
    | some p =>
      obtain ⟨r1, hroom, ha⟩ := hx
      obtain ⟨w2, a, e2, i2, r2, s2, t2⟩ := take_spec i1 r1 rfl hroom
      refine ⟨w2, { h1 with crr := some p }, g1, some a, e2, i2, r2, s1.trans s2, ?_⟩
      intro hn
      obtain ⟨sys', ha⟩ := ha hn
      refine ⟨sys', ?_⟩
      rw [hget, ha]
      simp only [Res.ok_bind]
      exact t2
  rcases r.current with ⟨e, hu⟩ | ⟨us, c, l, hu, hc, hl, ha⟩
  · refine halloc ⟨false, by unfold enough; rw [e], rfl⟩ ?_
    intro sys'
    have : (abs w h g).used = [] := by unfold abs; dsimp only; rw [hu]; rfl
    unfold Heap.get
    rw [this]
  · have hlk : w.look c = .ok l := by unfold World.look; rw [hl]
    have hen : enough w h n align = .ok (decide (¬ l.left < n + align - 1)) := by
      unfold enough
      rw [hc]
      simp only [hlk, Res.ok_bind]
    by_cases hlt : l.left < n + align - 1
    · refine halloc ⟨_, hen, by simp [hlt]⟩ ?_
      intro sys'
      unfold Heap.get
      rw [ha]
      dsimp only
      rw [if_pos hlt]
    · have hroom : RoomIn w c n align := by
        refine ⟨l, hl, ?_⟩
        have := Heap.pad_lt l.ptr hq.pos
        have := hq.pos
        omega
      obtain ⟨w2, a, e2, i2, r2, s2, t2⟩ := take_spec i r hc hroom
      refine ⟨w2, h, g, some a, ?_, i2, r2, s2, ?_⟩
      · unfold get
        rw [hen]
        simp only [Res.ok_bind, hlt, not_false_eq_true, decide_true, if_true]
        exact e2
      · intro _
        refine ⟨sys, ?_⟩
        unfold Heap.get
        rw [ha]
        dsimp only
        rw [if_neg hlt]
        exact t2

end Srl.HeapLinks
