import Verif.Lemmas.HeapSteps

/-! What `get_mem` does with the objects of a heap -/

namespace Srl.HeapLinks

open Heap (Sys Hp Seg)

/-- Room for the request in the segment of the object `p` -/
def RoomIn (w : World) (p n align : Nat) : Prop :=
  ∃ l, w.links p = some l ∧
    n + (if l.ptr % align ≠ 0 then align - l.ptr % align else 0) ≤ l.left

theorem grow_spec {sys : Sys} {w : World} {h : HeapObj} {g : Ghost} (i : WInv w) (r : Rep w h g)
    {n align : Nat} (hq : Heap.Req n align) (refused : Bool) :
    ∃ w' h' g' x c, grow sys w h n refused = .ok (w', h', x) ∧ Heap.nextCap h.cap n = .ok c ∧
      WInv w' ∧ Step w g w' g' ∧
      match x with
      | none => refused = true ∧ Rep w' h' g' ∧ abs w' h' g' = { abs w h g with cap := c } ∧
          w'.blocks = w.blocks
      | some p => refused = false ∧ Rep w' { h' with crr := some p } g' ∧ RoomIn w' p n align ∧
          let size := if c > n then c else n
          let a := sys.alloc w.blocks size
          abs w' { h' with crr := some p } g' =
            { abs w h g with
              cap := c, used := ⟨a, size % 2 ^ 32, size % 2 ^ 32⟩ :: (abs w h g).used,
              owned := (abs w h g).owned ++ [(a, size)] } := by
  obtain ⟨c, ec, kc⟩ := Heap.nextCap_ok n r.cap
  have rc : Rep w { h with cap := c } g :=
    ⟨r.us, r.fs, r.ul, r.fl, r.segs, r.chain, r.sub, r.bound, r.crr, r.idle, r.left, r.free, kc⟩
  have habs0 : abs w { h with cap := c } g = { abs w h g with cap := c } := rfl
  obtain ⟨w1, h1, p, fl, e1, got⟩ := getLink_spec i rc
  unfold grow
  rw [ec]
  simp only [Res.ok_bind]
  rw [e1]
  simp only [Res.ok_bind]
  cases refused with
  | true =>
    exact ⟨w1, h1, _, none, c, rfl, rfl, got.inv, got.step, rfl, got.rep,
      got.abs.trans habs0, got.blocks⟩
  | false =>
    simp only [Bool.false_eq_true, if_false]
    have r1 := got.rep
    have hpu : p ∈ g.ul ++ [p] := by simp
    have hps : p ∉ g.us ++ g.fs := fun hm => got.notin (r.sub p hm)
    generalize hsize : (if c > n then c else n) = size
    have hc18 : 0 < c ∧ c ≤ 2 ^ 18 := by
      obtain ⟨k, hk, e⟩ := kc
      rw [show c = 2 ^ k from e]
      exact ⟨Nat.two_pow_pos k, Nat.pow_le_pow_right (by omega) hk⟩
    have hs0 : 0 < size ∧ n ≤ size ∧ size < 2 ^ 32 := by
      have h1 := hq.1
      have h2 := hc18.1
      have h3 : c ≤ 262144 := hc18.2
      rw [← hsize]
      split <;> omega
    have hmod : size % 2 ^ 32 = size := Nat.mod_eq_of_lt hs0.2.2
    rw [got.blocks]
    generalize ha : sys.alloc w.blocks size = a
    let w2 : World := { w1 with blocks := w.blocks ++ [(a, size)] }
    have hlw : ∀ q, w2.links q = w1.links q := fun _ => rfl
    obtain ⟨l, hl⟩ := exists_link (r1.ul.path.live hpu)
    obtain ⟨w3, e3, x3, l3, lp3, c3, b3, m3⟩ :=
      upd_cell (w := w2) (p := p) (l := l) (f := (·.setSeg a size)) hl (fun k => by cases k <;> rfl)
    have r3 : Rep w3 h1 { g with ul := g.ul ++ [p], fl := fl } :=
      r1.one hpu hps (fun k q => x3 k q) (fun q hq => l3 q hq) c3
    have hcp : cell w3 p = some ⟨some a, size, size, false⟩ := by
      unfold cell; rw [lp3]
      show some (Cell.mk (some a) (size % 2 ^ 32) (size % 2 ^ 32) false) = _
      rw [hmod]
    obtain ⟨w4, s4, e4, r4, t4⟩ := r3.used_append hpu hps (by
      intro c hc; rw [hcp] at hc; cases hc; exact Nat.le_refl _)
    have hc4' : ∀ q, q ≠ p → cell w4 q = cell w1 q := fun q hq => by
      rw [t4.cell, cell_links (l3 q hq), cell_links (hlw q)]
    have hc4 : ∀ q, q ≠ p → cell w4 q = cell w q := fun q hq => by
      rw [hc4' q hq, got.cells q hq]
    have hcp4 : cell w4 p = some ⟨some a, size, size, false⟩ := (t4.cell p).trans hcp
    have ha4 : arrOf w4 p = some (a, size) := by unfold arrOf; rw [hcp4]; rfl
    have ha4q : ∀ q, q ≠ p → arrOf w4 q = arrOf w1 q := fun q hq => arrOf_cell (hc4' q hq)
    have hb4 : w4.blocks = w.blocks ++ [(a, size)] := t4.blocks.trans b3
    have hn4 : w4.count = w1.count := t4.count.trans c3
    have hnew : ∀ b ∈ w.blocks, a + size ≤ b.1 ∨ b.1 + b.2 ≤ a := by
      rw [← ha]; exact sys.apart w.blocks size
    have hne : ∀ b ∈ w.blocks, b.1 ≠ a := by
      intro b hb e
      have := hnew b hb
      have := i.sized b hb
      omega
    have i1 := got.inv
    refine ⟨w4, { h1 with usedSegs := s4 }, _, some p, c, ?_, rfl, ?_, ?_, trivial, r4, ?_, ?_⟩
    · show (w2.upd p _ >>= _) = _
      rw [e3]
      simp only [Res.ok_bind]
      rw [e4]
      rfl
    · refine ⟨?_, ?_, ?_, ?_, ?_, ?_, ?_⟩
      · intro q hq
        rw [hn4]
        by_cases e : q = p
        · rw [e]; exact r1.bound p (List.mem_append_left _ hpu)
        · exact i1.bound q (by rw [← hc4' q e]; exact hq)
      · intro q d h hd
        by_cases e : q = p
        · subst e; rw [hcp4] at h; cases h; cases hd
        · exact i1.null q d (by rw [← hc4' q e]; exact h) hd
      · intro q q' x y hx hy hxy
        by_cases e : q = p
        · by_cases e' : q' = p
          · rw [e, e']
          · rw [e, ha4] at hx
            cases hx
            rw [ha4q q' e'] at hy
            have := i1.has q' y hy
            rw [got.blocks] at this
            exact absurd hxy.symm (hne y this)
        · by_cases e' : q' = p
          · rw [e', ha4] at hy
            cases hy
            rw [ha4q q e] at hx
            have := i1.has q x hx
            rw [got.blocks] at this
            exact absurd hxy (hne x this)
          · rw [ha4q q e] at hx
            rw [ha4q q' e'] at hy
            exact i1.inj q q' x y hx hy hxy
      · intro q x hx
        rw [hb4]
        by_cases e : q = p
        · rw [e, ha4] at hx; cases hx; simp
        · rw [ha4q q e] at hx
          have := i1.has q x hx
          rw [got.blocks] at this
          exact List.mem_append_left _ this
      · intro b hb
        rw [hb4] at hb
        rcases List.mem_append.mp hb with hb | hb
        · obtain ⟨q, hq⟩ := i1.owner b (by rw [got.blocks]; exact hb)
          refine ⟨q, ?_⟩
          rw [ha4q q ?_]
          · exact hq
          · intro e; rw [e, got.none] at hq; cases hq
        · simp only [List.mem_singleton] at hb
          exact ⟨p, by rw [hb]; exact ha4⟩
      · rw [hb4]
        refine List.pairwise_append.mpr ⟨i.apart, List.pairwise_singleton _ _, ?_⟩
        intro b hb d hd x hx hx'
        simp only [List.mem_singleton] at hd
        subst hd
        have := hnew b hb
        unfold Heap.In at hx hx'
        simp only at hx'
        omega
      · intro b hb
        rw [hb4] at hb
        rcases List.mem_append.mp hb with hb | hb
        · exact i.sized b hb
        · simp only [List.mem_singleton] at hb
          rw [hb]
          exact ⟨hs0.1, hs0.2.2⟩
    · refine ⟨?_, got.step.keep, got.step.fresh, by rw [hn4]; exact got.step.count, ?_⟩
      · intro q hq
        have hqp : q ≠ p := fun e => hq (by subst e; exact List.mem_append_left _ (by simp))
        rw [t4.links (q := q), l3 q hqp, hlw, got.step.frame q hq]
        intro hm
        rcases List.mem_cons.mp hm with e | hm
        · exact hqp e
        · exact hq (List.mem_append_left _ (r3.sub q (List.mem_append_left _ hm)))
      · intro b hb
        rw [hb4]
        exact List.mem_append_left _ hb
    · obtain ⟨l4, hl4⟩ := exists_link (w := w4) (p := p) (by rw [hcp4]; intro e; cases e)
      refine ⟨l4, hl4, ?_⟩
      have hc : l4.cell = ⟨some a, size, size, false⟩ := by
        have := hcp4
        unfold cell at this
        rw [hl4] at this
        exact Option.some.inj this
      have h1 : l4.data = some a := congrArg Cell.data hc
      have h2 : l4.left = size := congrArg Cell.left hc
      have h3 : l4.size = size := congrArg Cell.size hc
      have hptr : l4.ptr = a := by
        unfold Link.ptr Link.addr
        rw [h1, h2, h3]
        simp
      have hal : a % align = 0 := hq.dvd (by rw [← ha]; exact sys.aligned _ _)
      rw [hptr, hal, h2]
      simp only [ne_eq, not_true_eq_false, if_false]
      omega
    · have hu : ∀ q ∈ g.ul, cell w4 q = cell w q := fun q hq => hc4 q fun e => got.notin (e ▸ hq)
      have hus : ∀ q ∈ g.us, cell w4 q = cell w q := fun q hq => hu q (r.sub q (by simp [hq]))
      have hfs : ∀ q ∈ g.fs, cell w4 q = cell w q := fun q hq => hu q (r.sub q (by simp [hq]))
      have hsp : segOf w4 p = ⟨a, size, size⟩ := by unfold segOf; rw [hcp4]; rfl
      have hm : w4.mem = w.mem := by
        rw [t4.mem, m3]
        exact congrArg Hp.mem got.abs
      dsimp only
      rw [hsize, ha, hmod]
      unfold abs
      dsimp only
      rw [List.map_append, List.filterMap_append,
        List.map_congr_left fun q hq => segOf_cell (hus q hq),
        List.filter_congr fun q hq => real_cell (hfs q hq),
        filterMap_same fun q hq => arrOf_cell (hu q hq), hm, got.cap]
      rw [List.map_congr_left fun q hq => segOf_cell (hfs q (List.mem_filter.mp hq).1)]
      simp [ha4, hsp]

/-! ## Searching for a free segment -/

theorem holds_fits {w : World} {p n align : Nat} (h : cell w p ≠ none) :
    holds (fits n align) w p = Heap.fits n align (segOf w p) := by
  obtain ⟨l, hl⟩ := exists_link h
  unfold holds segOf cell
  rw [hl]
  rfl

theorem findRm_abs {w : World} (i : WInv w) {n align : Nat} (hn : 0 < n) (ha : 0 < align) (fs : List Nat)
    (h : ∀ p ∈ fs, cell w p ≠ none) :
    Heap.findRm (Heap.fits n align) ((fs.filter (real w)).map (segOf w)) =
      (rmFirst (holds (fits n align) w) fs).map fun (p, l) =>
        (segOf w p, (l.filter (real w)).map (segOf w)) := by
  induction fs with
  | nil => rfl
  | cons p fs ih =>
    have ih := ih fun q hq => h q (by simp [hq])
    have hf := holds_fits (n := n) (align := align) (h p (by simp))
    rw [rmFirst, hf]
    by_cases hr : real w p = true
    · rw [List.filter_cons_of_pos hr, List.map_cons, Heap.findRm]
      by_cases hfit : Heap.fits n align (segOf w p) = true
      · rw [if_pos hfit, if_pos hfit]; rfl
      · rw [if_neg hfit, if_neg hfit, ih]
        cases rmFirst (holds (fits n align) w) fs with
        | none => rfl
        | some x =>
          obtain ⟨q, l⟩ := x
          simp only [Option.map_some, List.filter_cons_of_pos hr, List.map_cons]
    · rw [List.filter_cons_of_neg hr, ih]
      have hfit : ¬ Heap.fits n align (segOf w p) = true := by
        have hsz : (segOf w p).size = 0 := by
          have hp := h p (by simp)
          unfold real at hr
          unfold segOf
          cases hc : cell w p with
          | none => exact absurd hc hp
          | some c =>
            rw [hc] at hr
            simp only [Option.isSome_iff_ne_none, ne_eq, Decidable.not_not] at hr
            exact i.null p c hc hr
        unfold Heap.fits
        rw [hsz]
        simp
        omega
      rw [if_neg hfit]
      cases rmFirst (holds (fits n align) w) fs with
      | none => rfl
      | some x =>
        obtain ⟨q, l⟩ := x
        simp only [Option.map_some, List.filter_cons_of_neg hr]

/-- A system that behaves as `sys` does when there are other blocks -/
def within (sys : Sys) (owned blocks : List (Nat × Nat)) (h : ∀ b ∈ owned, b ∈ blocks) : Sys where
  alloc bs n := if bs = owned then sys.alloc blocks n else sys.alloc bs n
  apart bs n b hb := by
    split
    · rename_i e
      exact sys.apart blocks n b (h b (e ▸ hb))
    · exact sys.apart bs n b hb
  aligned bs n := by
    split
    · exact sys.aligned _ _
    · exact sys.aligned _ _

theorem owned_blocks {w : World} {h : HeapObj} {g : Ghost} (i : WInv w) :
    ∀ b ∈ (abs w h g).owned, b ∈ w.blocks := by
  intro b hb
  obtain ⟨p, -, hp⟩ := List.mem_filterMap.mp hb
  exact i.has p b hp

theorem alloc_spec {sys : Sys} {w : World} {h : HeapObj} {g : Ghost} (i : WInv w) (r : Rep w h g)
    {n align : Nat} (hq : Heap.Req n align) (refused : Bool) :
    ∃ w' h' g' x, alloc sys w h n align refused = .ok (w', h', x) ∧ WInv w' ∧ Step w g w' g' ∧
      match x with
      | none => refused = true ∧ Rep w' h' g' ∧
          (∃ c, (∃ k, k ≤ 18 ∧ c = 2 ^ k) ∧
            abs w' h' g' = { Heap.putRest (abs w h g) with cap := c }) ∧ w'.blocks = w.blocks
      | some p => Rep w' { h' with crr := some p } g' ∧ RoomIn w' p n align ∧
          (0 < n → ∃ sys' : Sys,
            Heap.alloc sys' (abs w h g) n align = .ok (abs w' { h' with crr := some p } g')) := by
  obtain ⟨w1, h1, g1, e1, i1, r1, s1, a1, b1, u1, c1⟩ := putRest_spec i r
  unfold alloc
  rw [e1]
  simp only [Res.ok_bind]
  have hsn := List.nodup_append.mp r1.segs
  have hfl : ∀ p ∈ g1.fs, cell w1 p ≠ none := fun p hp => r1.fs.path.live hp
  have hfree : (abs w1 h1 g1).free = (g1.fs.filter (real w1)).map (segOf w1) := rfl
  -- a new array
  have hgrow : ∀ (h2 : HeapObj), h2 = h1 → rmFirst (holds (fits n align) w1) g1.fs = none →
      ∃ w' h' g' x, grow sys w1 h2 n refused = .ok (w', h', x) ∧ WInv w' ∧ Step w g w' g' ∧
      match x with
      | none => refused = true ∧ Rep w' h' g' ∧
          (∃ c, (∃ k, k ≤ 18 ∧ c = 2 ^ k) ∧
            abs w' h' g' = { Heap.putRest (abs w h g) with cap := c }) ∧ w'.blocks = w.blocks
      | some p => Rep w' { h' with crr := some p } g' ∧ RoomIn w' p n align ∧
          (0 < n → ∃ sys' : Sys,
            Heap.alloc sys' (abs w h g) n align = .ok (abs w' { h' with crr := some p } g')) := by
    rintro h2 rfl hno
    obtain ⟨w2, h3, g2, x, c, e2, ec, i2, s2, hx⟩ := grow_spec (sys := sys) i1 r1 hq refused
    refine ⟨w2, h3, g2, x, e2, i2, s1.trans s2, ?_⟩
    cases x with
    | none =>
      obtain ⟨hr, r2, a2, b2⟩ := hx
      obtain ⟨c', ec', kc⟩ := Heap.nextCap_ok n r1.cap
      rw [ec] at ec'
      cases ec'
      exact ⟨hr, r2, ⟨c, kc, by rw [a2, a1]⟩, b2.trans b1⟩
    | some p =>
      obtain ⟨hr, r2, hroom, a2⟩ := hx
      refine ⟨r2, hroom, ?_⟩
      intro hn
      refine ⟨within sys (abs w1 h2 g1).owned w1.blocks (owned_blocks i1), ?_⟩
      have hnf : Heap.findRm (Heap.fits n align) (Heap.putRest (abs w h g)).free = none := by
        rw [← a1, hfree, findRm_abs i1 hn hq.pos g1.fs hfl, hno]
        rfl
      unfold Heap.alloc
      dsimp only
      rw [hnf]
      dsimp only
      rw [← a1]
      show (Heap.nextCap h2.cap n >>= _) = _
      rw [ec]
      simp only [Res.ok_bind]
      dsimp only at a2
      rw [a2]
      unfold within
      dsimp only
      rw [if_pos rfl]
  by_cases hfront : h1.freeSegs.front.isNone = true
  · rw [if_pos hfront]
    refine hgrow h1 rfl ?_
    have : g1.fs = [] := by
      rw [r1.fs.front] at hfront
      cases hg : g1.fs with
      | nil => rfl
      | cons p l => rw [hg] at hfront; cases hfront
    rw [this]
    rfl
  · rw [if_neg hfront]
    have hs := findRm_spec (f := fits n align) r1.fs hsn.2.1
      (fun p hp => r1.bound p (List.mem_append_left _ (r1.sub p (by simp [hp]))))
    cases hrm : rmFirst (holds (fits n align) w1) g1.fs with
    | none =>
      rw [hrm] at hs
      simp only at hs
      rw [hs]
      simp only [Res.ok_bind]
      exact hgrow { h1 with freeSegs := h1.freeSegs } rfl hrm
    | some y =>
      obtain ⟨p, fs'⟩ := y
      rw [hrm] at hs
      simp only at hs
      obtain ⟨w2, s2, e2, l2, t2⟩ := hs
      rw [e2]
      simp only [Res.ok_bind]
      obtain ⟨hfit, hperm⟩ := rmFirst_perm hrm
      have hpfs : p ∈ g1.fs := hperm.mem_iff.mpr (by simp)
      have hnd' : (g1.us ++ p :: fs').Nodup := by
        refine (List.Perm.nodup_iff ?_).mp r1.segs
        exact List.Perm.append_left _ hperm
      have hsub' : ∀ q ∈ fs', q ∈ g1.fs := fun q hq => hperm.mem_iff.mpr (by simp [hq])
      have hnd2 := List.nodup_append.mp hnd'
      have hnd3 := List.nodup_cons.mp hnd2.2.1
      have hus2 : ∀ q ∈ g1.us, nx .seg w2 q = nx .seg w1 q := fun q hq =>
        t2.out q fun hm => hsn.2.2 q hq q hm rfl
      have r2 : Rep w2 { h1 with freeSegs := s2 } { g1 with fs := fs' } := by
        refine ⟨r1.us.frame hus2, l2, r1.ul.frame fun q _ => t2.other .chain (by decide) q,
          r1.fl.frame fun q _ => t2.other .chain (by decide) q, ?_, r1.chain, ?_,
          by rw [t2.count]; exact r1.bound, r1.crr, ?_, ?_, ?_, r1.cap⟩
        · show (g1.us ++ fs').Nodup
          refine List.nodup_append.mpr ⟨hnd2.1, hnd3.2, ?_⟩
          intro a ha b hb
          exact hnd2.2.2 a ha b (by simp [hb])
        · intro q hq
          rcases List.mem_append.mp hq with hq | hq
          · exact r1.sub q (by simp [hq])
          · exact r1.sub q (by simp [hsub' q hq])
        · intro q hq c e; rw [t2.cell] at e; exact r1.idle q hq c e
        · intro q hq c e; rw [t2.cell] at e; exact r1.left q hq c e
        · intro q hq c e; rw [t2.cell] at e; exact r1.free q (hsub' q hq) c e
      have hpul : p ∈ g1.ul := r1.sub p (by simp [hpfs])
      have hpn : p ∉ g1.us ++ fs' := by
        intro hm
        rcases List.mem_append.mp hm with hm | hm
        · exact hsn.2.2 p hm p hpfs rfl
        · exact hnd3.1 hm
      have hlc : ∀ c, cell w1 p = some c → c.left = c.size := r1.free p hpfs
      obtain ⟨w3, s3, e3, r3, t3⟩ := r2.used_append hpul hpn (by
        intro c hc; rw [t2.cell] at hc; exact Nat.le_of_eq (hlc c hc))
      have hcells : ∀ q, cell w3 q = cell w1 q := fun q => (t3.cell q).trans (t2.cell q)
      have hb3 : w3.blocks = w1.blocks := t3.blocks.trans t2.blocks
      have hn3 : w3.count = w1.count := t3.count.trans t2.count
      have hm3 : w3.mem = w1.mem := t3.mem.trans t2.mem
      refine ⟨w3, { h1 with freeSegs := s2, usedSegs := s3 }, { g1 with fs := fs', us := g1.us ++ [p] },
        some p, ?_, i1.same hcells hb3 hn3, ?_, r3, ?_, ?_⟩
      · rw [e3]
        rfl
      · refine s1.trans ⟨?_, fun _ h => h, fun _ h => .inl h, Nat.le_of_eq hn3.symm,
          fun b hb => by rw [hb3]; exact hb⟩
        intro q hq
        rw [t3.links (q := q), t2.links (q := q)]
        · intro hm
          exact hq (List.mem_append_left _ (r1.sub q (by simp [hm])))
        · intro hm
          rcases List.mem_cons.mp hm with e | hm
          · exact hq (List.mem_append_left _ (e ▸ hpul))
          · exact hq (List.mem_append_left _ (r1.sub q (List.mem_append_left _ hm)))
      · obtain ⟨l, hl⟩ := exists_link (w := w3) (p := p) (by rw [hcells]; exact hfl p hpfs)
        refine ⟨l, hl, ?_⟩
        have hcl : cell w1 p = some l.cell := by
          rw [← hcells]; unfold cell; rw [hl]; rfl
        have hls : l.left = l.size := hlc l.cell hcl
        rw [holds_fits (hfl p hpfs)] at hfit
        have hseg : segOf w1 p = ⟨l.addr, l.left, l.size⟩ := by
          unfold segOf; rw [hcl]; rfl
        rw [hseg] at hfit
        have hptr : l.ptr = l.addr := by unfold Link.ptr; omega
        unfold Heap.fits at hfit
        simp only [Bool.or_eq_true, decide_eq_true_eq, Bool.and_eq_true, beq_iff_eq] at hfit
        have hpad := Heap.pad_lt l.ptr hq.pos
        have := hq.pos
        rw [hptr] at hpad ⊢
        rcases hfit with hfit | ⟨h1, h2⟩
        · omega
        · rw [h2]
          simp only [ne_eq, not_true_eq_false, if_false]
          omega
      · intro hn
        refine ⟨sys, ?_⟩
        have hff : Heap.findRm (Heap.fits n align) (Heap.putRest (abs w h g)).free =
            some (segOf w1 p, (fs'.filter (real w1)).map (segOf w1)) := by
          rw [← a1, hfree, findRm_abs i1 hn hq.pos g1.fs hfl, hrm]
          rfl
        unfold Heap.alloc
        dsimp only
        rw [hff]
        dsimp only
        rw [← a1]
        congr 1
        unfold abs
        dsimp only
        rw [show segOf w3 = segOf w1 from funext fun q => segOf_cell (hcells q),
          show real w3 = real w1 from funext fun q => real_cell (hcells q),
          show arrOf w3 = arrOf w1 from funext fun q => arrOf_cell (hcells q), hm3]
        simp

end Srl.HeapLinks
