import Verif.Lemmas.HeapRep

/-! What `put_mem` and `get_mem` do with the objects of a heap -/

namespace Srl.HeapLinks

open Heap (Sys Hp Seg)

theorem upd_cell {w : World} {p : Nat} {l : Link} {f : Link → Link} (hl : w.links p = some l)
    (hf : ∀ k, (f l).next k = l.next k) :
    ∃ w', w.upd p f = .ok w' ∧ (∀ k q, nx k w' q = nx k w q) ∧
      (∀ q, q ≠ p → w'.links q = w.links q) ∧ w'.links p = some (f l) ∧
      w'.count = w.count ∧ w'.blocks = w.blocks ∧ w'.mem = w.mem := by
  refine ⟨{ w with links := fun q => if q = p then some (f l) else w.links q },
    by unfold World.upd; rw [hl], ?_, fun q hq => if_neg hq, if_pos rfl, rfl, rfl, rfl⟩
  intro k q
  unfold nx
  dsimp only
  by_cases hq : q = p
  · subst hq
    rw [if_pos rfl, hl]
    exact congrArg some (hf k)
  · rw [if_neg hq]

/-- One object that is responsible for no array has been changed. -/
theorem WInv.one {w w' : World} {p : Nat} (i : WInv w) (hc : ∀ q, q ≠ p → cell w' q = cell w q)
    (h0 : cell w p ≠ none) (h1 : arrOf w' p = arrOf w p)
    (hn : ∀ c, cell w' p = some c → c.data = none → c.size = 0)
    (hb : w'.blocks = w.blocks) (hcount : w'.count = w.count) : WInv w' := by
  have ha : ∀ q, arrOf w' q = arrOf w q := by
    intro q
    by_cases e : q = p
    · subst e; exact h1
    · exact arrOf_cell (hc q e)
  refine ⟨?_, ?_, ?_, ?_, ?_, ?_, ?_⟩
  · intro q hq
    rw [hcount]
    by_cases e : q = p
    · subst e; exact i.bound q h0
    · exact i.bound q (by rw [← hc q e]; exact hq)
  · intro q c h hd
    by_cases e : q = p
    · subst e; exact hn c h hd
    · exact i.null q c (by rw [← hc q e]; exact h) hd
  · intro p q x y hx hy; exact i.inj p q x y (by rw [← ha]; exact hx) (by rw [← ha]; exact hy)
  · intro p x hx; rw [hb]; exact i.has p x (by rw [← ha]; exact hx)
  · intro b h; rw [hb] at h; obtain ⟨p, hp⟩ := i.owner b h; exact ⟨p, by rw [ha]; exact hp⟩
  · rw [hb]; exact i.apart
  · rw [hb]; exact i.sized

/-- Changing an object that is in neither list of segments -/
theorem Rep.one {w w' : World} {h : HeapObj} {g : Ghost} {p : Nat} (r : Rep w h g)
    (hp : p ∈ g.ul) (hs : p ∉ g.us ++ g.fs) (hx : ∀ k q, nx k w' q = nx k w q)
    (hc : ∀ q, q ≠ p → w'.links q = w.links q) (hcount : w'.count = w.count) : Rep w' h g := by
  have hch := List.nodup_append.mp r.chain
  have h1 : ∀ q ∈ g.us ++ g.fs, cell w' q = cell w q := fun q hq =>
    cell_links (hc q fun e => hs (e ▸ hq))
  refine ⟨r.us.frame fun q _ => hx _ q, r.fs.frame fun q _ => hx _ q, r.ul.frame fun q _ => hx _ q,
    r.fl.frame fun q _ => hx _ q, r.segs, r.chain, r.sub, by rw [hcount]; exact r.bound, r.crr,
    ?_, ?_, ?_, r.cap⟩
  · intro q hq c e
    rw [cell_links (hc q fun e => hch.2.2 p hp q hq e.symm)] at e
    exact r.idle q hq c e
  · intro q hq c e
    rw [h1 q (by simp [hq])] at e
    exact r.left q hq c e
  · intro q hq c e
    rw [h1 q (by simp [hq])] at e
    exact r.free q hq c e

/-- Appending to the list of free segments -/
theorem Rep.free_append {w : World} {h : HeapObj} {g : Ghost} {p : Nat} (r : Rep w h g)
    (hp : p ∈ g.ul) (hs : p ∉ g.us ++ g.fs)
    (hf : ∀ c, cell w p = some c → c.left = c.size) :
    ∃ w' s', append .seg w h.freeSegs p = .ok (w', s') ∧
      Rep w' { h with freeSegs := s' } { g with fs := g.fs ++ [p] } ∧
      Touch .seg w w' (p :: g.fs) := by
  have hsn := List.nodup_append.mp r.segs
  have hpu : p ∉ g.us := fun e => hs (by simp [e])
  have hpf : p ∉ g.fs := fun e => hs (by simp [e])
  obtain ⟨w', s', e, l, t⟩ := append_spec r.fs hsn.2.1 hpf (r.ul.path.live hp)
  refine ⟨w', s', e, ⟨?_, l, r.ul.frame fun q _ => t.other .chain (by decide) q,
    r.fl.frame fun q _ => t.other .chain (by decide) q, ?_, r.chain, ?_, by rw [t.count]; exact r.bound,
    r.crr, ?_, ?_, ?_, r.cap⟩, t⟩
  · refine r.us.frame fun q hq => t.out q ?_
    intro hm
    rcases List.mem_cons.mp hm with rfl | hm
    · exact hpu hq
    · exact hsn.2.2 q hq q hm rfl
  · show (g.us ++ (g.fs ++ [p])).Nodup
    rw [← List.append_assoc]
    refine List.nodup_append.mpr ⟨r.segs, by simp, ?_⟩
    intro a ha b hb e
    simp only [List.mem_singleton] at hb
    exact hs (by rw [← hb, ← e]; exact ha)
  · intro q hq
    have hq : q ∈ g.us ++ (g.fs ++ [p]) := hq
    rw [← List.append_assoc] at hq
    rcases List.mem_append.mp hq with hq | hq
    · exact r.sub q hq
    · simp only [List.mem_singleton] at hq; rw [hq]; exact hp
  · intro q hq c e; rw [t.cell] at e; exact r.idle q hq c e
  · intro q hq c e; rw [t.cell] at e; exact r.left q hq c e
  · intro q hq c e
    rw [t.cell] at e
    have hq : q ∈ g.fs ++ [p] := hq
    rcases List.mem_append.mp hq with hq | hq
    · exact r.free q hq c e
    · simp only [List.mem_singleton] at hq; rw [hq] at e; exact hf c e

/-- Appending to the list of used segments; the new one becomes the current one. -/
theorem Rep.used_append {w : World} {h : HeapObj} {g : Ghost} {p : Nat} (r : Rep w h g)
    (hp : p ∈ g.ul) (hs : p ∉ g.us ++ g.fs)
    (hf : ∀ c, cell w p = some c → c.left ≤ c.size) :
    ∃ w' s', append .seg w h.usedSegs p = .ok (w', s') ∧
      Rep w' { h with usedSegs := s', crr := some p } { g with us := g.us ++ [p] } ∧
      Touch .seg w w' (p :: g.us) := by
  have hsn := List.nodup_append.mp r.segs
  have hpu : p ∉ g.us := fun e => hs (by simp [e])
  have hpf : p ∉ g.fs := fun e => hs (by simp [e])
  obtain ⟨w', s', e, l, t⟩ := append_spec r.us hsn.1 hpu (r.ul.path.live hp)
  refine ⟨w', s', e, ⟨l, ?_, r.ul.frame fun q _ => t.other .chain (by decide) q,
    r.fl.frame fun q _ => t.other .chain (by decide) q, ?_, r.chain, ?_, by rw [t.count]; exact r.bound,
    ?_, ?_, ?_, ?_, r.cap⟩, t⟩
  · refine r.fs.frame fun q hq => t.out q ?_
    intro hm
    rcases List.mem_cons.mp hm with rfl | hm
    · exact hpf hq
    · exact hsn.2.2 q hm q hq rfl
  · show (g.us ++ [p] ++ g.fs).Nodup
    refine List.nodup_append.mpr ⟨List.nodup_append.mpr ⟨hsn.1, by simp, ?_⟩, hsn.2.1, ?_⟩
    · intro a ha b hb e
      simp only [List.mem_singleton] at hb
      exact hpu (by rw [← hb, ← e]; exact ha)
    · intro a ha b hb e
      rcases List.mem_append.mp ha with ha | ha
      · exact hsn.2.2 a ha b hb e
      · simp only [List.mem_singleton] at ha; exact hpf (by rw [← ha, e]; exact hb)
  · intro q hq
    have hq : q ∈ g.us ++ [p] ++ g.fs := hq
    simp only [List.mem_append, List.mem_singleton] at hq
    rcases hq with (hq | hq) | hq
    · exact r.sub q (by simp [hq])
    · rw [hq]; exact hp
    · exact r.sub q (by simp [hq])
  · simp
  · intro q hq c e; rw [t.cell] at e; exact r.idle q hq c e
  · intro q hq c e
    rw [t.cell] at e
    have hq : q ∈ g.us ++ [p] := hq
    rcases List.mem_append.mp hq with hq | hq
    · exact r.left q hq c e
    · simp only [List.mem_singleton] at hq; rw [hq] at e; exact hf c e
  · intro q hq c e; rw [t.cell] at e; exact r.free q hq c e

theorem Touch.links {k : Kind} {w w' : World} {S : List Nat} (t : Touch k w w' S) {q : Nat}
    (hq : q ∉ S) : w'.links q = w.links q := by
  refine links_ext ?_ (t.cell q)
  intro k'
  by_cases e : k' = k
  · subst e; exact t.out q hq
  · exact t.other k' e q

/-! ## Returning memory -/

theorem put_spec {w : World} {h : HeapObj} {g : Ghost} (i : WInv w) (r : Rep w h g) (a n : Nat) :
    ∃ w' h' g', put w h a n = .ok (w', h') ∧ WInv w' ∧ Rep w' h' g' ∧ Step w g w' g' ∧
      abs w' h' g' = Heap.put (abs w h g) a n ∧ w'.blocks = w.blocks ∧ g'.us = g.us ∧
      (∀ q ∈ g.ul, cell w' q = cell w q) := by
  obtain ⟨w1, h1, p, fl, e1, got⟩ := getLink_spec i r
  have r1 := got.rep
  have hpu : p ∈ g.ul ++ [p] := by simp
  have hps : p ∉ g.us ++ g.fs := fun hm => got.notin (r.sub p hm)
  -- the segment
  let w2 : World := { w1 with mem := Heap.zero w1.mem a n }
  have hlw : ∀ q, w2.links q = w1.links q := fun _ => rfl
  obtain ⟨l, hl⟩ := exists_link (r1.ul.path.live hpu)
  obtain ⟨w3, e3, x3, l3, lp3, c3, b3, m3⟩ :=
    upd_cell (w := w2) (p := p) (l := l) (f := (·.setSub a n)) hl (fun k => by cases k <;> rfl)
  have r3 : Rep w3 h1 { g with ul := g.ul ++ [p], fl := fl } :=
    r1.one hpu hps (fun k q => x3 k q) (fun q hq => l3 q hq) c3
  have hcp : cell w3 p = some ⟨some a, n % 2 ^ 32, n % 2 ^ 32, true⟩ := by
    unfold cell; rw [lp3]; rfl
  obtain ⟨w4, s4, e4, r4, t4⟩ := r3.free_append hpu hps (by
    intro c hc; rw [hcp] at hc; cases hc; rfl)
  have hc4 : ∀ q, q ≠ p → cell w4 q = cell w q := fun q hq => by
    rw [t4.cell, cell_links (l3 q hq), cell_links (hlw q), got.cells q hq]
  have hcp4 : cell w4 p = some ⟨some a, n % 2 ^ 32, n % 2 ^ 32, true⟩ := (t4.cell p).trans hcp
  have ha4 : arrOf w4 p = none := by unfold arrOf; rw [hcp4]; rfl
  have hnp : ∀ q ∈ g.ul, q ≠ p := fun q hq e => got.notin (e ▸ hq)
  refine ⟨w4, { h1 with freeSegs := s4 }, _, ?_, ?_, r4, ?_, ?_, ?_, rfl, ?_⟩
  · unfold put
    rw [e1]
    simp only [Res.ok_bind]
    show (w2.upd p _ >>= _) = _
    rw [e3]
    simp only [Res.ok_bind]
    rw [e4]
    rfl
  · refine got.inv.one (p := p) (fun q hq => ?_) (r1.ul.path.live hpu) ?_ ?_
      (t4.blocks.trans b3) (t4.count.trans c3)
    · rw [t4.cell, cell_links (l3 q hq), cell_links (hlw q)]
    · rw [ha4, got.none]
    · intro c hc hd; rw [hcp4] at hc; cases hc; cases hd
  · refine ⟨?_, ?_, ?_, ?_, ?_⟩
    · intro q hq
      have hqp : q ≠ p := fun e => hq (by subst e; exact List.mem_append_left _ (by simp))
      rw [t4.links (q := q), l3 q hqp, hlw, got.step.frame q hq]
      intro hm
      rcases List.mem_cons.mp hm with e | hm
      · exact hqp e
      · exact hq (List.mem_append_left _ (r3.sub q (by simp [hm])))
    · exact got.step.keep
    · exact got.step.fresh
    · have : w4.count = w1.count := t4.count.trans c3
      rw [this]; exact got.step.count
    · intro b hb
      rw [t4.blocks, b3]
      exact got.step.blocks b hb
  · have hu : ∀ q ∈ g.ul, cell w4 q = cell w q := fun q hq => hc4 q (hnp q hq)
    have hus : ∀ q ∈ g.us, cell w4 q = cell w q := fun q hq => hu q (r.sub q (by simp [hq]))
    have hfs : ∀ q ∈ g.fs, cell w4 q = cell w q := fun q hq => hu q (r.sub q (by simp [hq]))
    have hreal : real w4 p = true := by unfold real; rw [hcp4]; rfl
    have hsp : segOf w4 p = ⟨a, n % 2 ^ 32, n % 2 ^ 32⟩ := by unfold segOf; rw [hcp4]; rfl
    have hm : w4.mem = Heap.zero w.mem a n := by
      rw [t4.mem, m3]
      show Heap.zero w1.mem a n = _
      have := congrArg Hp.mem got.abs
      have hmm : w1.mem = w.mem := this
      rw [hmm]
    unfold abs Heap.put
    dsimp only
    rw [List.filter_append, List.map_append, List.filterMap_append,
      List.map_congr_left fun q hq => segOf_cell (hus q hq),
      List.filter_congr fun q hq => real_cell (hfs q hq),
      filterMap_same fun q hq => arrOf_cell (hu q hq), hm, got.cap]
    rw [List.map_congr_left fun q hq => segOf_cell (hfs q (List.mem_filter.mp hq).1)]
    simp [ha4, hreal, hsp]
  · rw [t4.blocks, b3]; exact got.blocks
  · intro q hq; exact hc4 q (hnp q hq)

/-- The current segment -/
theorem Rep.current {w : World} {h : HeapObj} {g : Ghost} (r : Rep w h g) :
    (h.crr = none ∧ g.us = []) ∨ ∃ us c l, g.us = us ++ [c] ∧ h.crr = some c ∧
      w.links c = some l ∧ (abs w h g).used = ⟨l.addr, l.left, l.size⟩ :: (us.map (segOf w)).reverse := by
  rcases List.eq_nil_or_concat g.us with e | ⟨us, c, e⟩
  · exact .inl ⟨by rw [r.crr, e]; rfl, e⟩
  · rw [List.concat_eq_append] at e
    obtain ⟨l, hl⟩ := exists_link (r.us.path.live (p := c) (by rw [e]; simp))
    refine .inr ⟨us, c, l, e, by rw [r.crr, e]; simp, hl, ?_⟩
    unfold abs
    dsimp only
    rw [e, List.map_append, List.reverse_append]
    simp only [List.map_cons, List.map_nil, List.reverse_cons, List.reverse_nil, List.nil_append,
      List.singleton_append, List.cons.injEq, and_true]
    unfold segOf cell
    rw [hl]
    rfl

theorem putRest_spec {w : World} {h : HeapObj} {g : Ghost} (i : WInv w) (r : Rep w h g) :
    ∃ w' h' g', putRest w h = .ok (w', h') ∧ WInv w' ∧ Rep w' h' g' ∧ Step w g w' g' ∧
      abs w' h' g' = Heap.putRest (abs w h g) ∧ w'.blocks = w.blocks ∧ g'.us = g.us ∧
      (∀ q ∈ g.ul, cell w' q = cell w q) := by
  unfold putRest Heap.putRest
  rcases r.current with ⟨hc, hu⟩ | ⟨us, c, l, hu, hc, hl, ha⟩
  · refine ⟨w, h, g, by rw [hc], i, r, Step.refl w g, ?_, rfl, rfl, fun _ _ => rfl⟩
    have : (abs w h g).used = [] := by unfold abs; dsimp only; rw [hu]; rfl
    rw [this]
  · rw [hc, ha]
    have hlk : w.look c = .ok l := by unfold World.look; rw [hl]
    simp only [hlk, Res.ok_bind]
    by_cases h0 : l.left > 0
    · rw [if_pos h0, if_pos h0]
      obtain ⟨w', h', g', e, hi, hr, hs, hab, hb, hus, hcells⟩ := put_spec i r l.ptr l.left
      exact ⟨w', h', g', e, hi, hr, hs, hab, hb, hus, hcells⟩
    · rw [if_neg h0, if_neg h0]
      exact ⟨w, h, g, rfl, i, r, Step.refl w g, rfl, rfl, rfl, fun _ _ => rfl⟩

end Srl.HeapLinks
