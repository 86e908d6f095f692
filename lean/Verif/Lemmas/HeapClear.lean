import Verif.Lemmas.HeapGet

/-! `clear` and the destructor on the objects of a heap -/

namespace Srl.HeapLinks

open Heap (Sys Hp Seg)

/-! ## Clearing -/

theorem upd_reset {w : World} {p : Nat} {l : Link} (hl : w.links p = some l) :
    ∃ w', w.upd p Link.reset = .ok w' ∧ (∀ q, nx .chain w' q = nx .chain w q) ∧
      (∀ q, q ≠ p → w'.links q = w.links q) ∧ nx .seg w' p = some none ∧
      cell w' p = some ⟨l.data, l.size, l.size, l.sub⟩ ∧
      w'.count = w.count ∧ w'.blocks = w.blocks ∧ w'.mem = w.mem := by
  refine ⟨{ w with links := fun q => if q = p then some l.reset else w.links q },
    by unfold World.upd; rw [hl], ?_, fun q hq => if_neg hq, ?_, ?_, rfl, rfl, rfl⟩
  · intro q
    unfold nx
    dsimp only
    by_cases hq : q = p
    · subst hq
      rw [if_pos rfl, hl]
      rfl
    · rw [if_neg hq]
  · unfold nx
    dsimp only
    rw [if_pos rfl]
    rfl
  · unfold cell
    dsimp only
    rw [if_pos rfl]
    rfl

/-- What `clear` does with one array -/
def insBlock (l : List Seg) (b : Nat × Nat) : List Seg :=
  Heap.insertSized ⟨b.1, b.2 % 2 ^ 32, b.2 % 2 ^ 32⟩ l

def zeroBlock (m : Nat → UInt8) (b : Nat × Nat) : Nat → UInt8 := Heap.zero m b.1 (b.2 % 2 ^ 32)

theorem zero_none (m : Nat → UInt8) (a : Nat) : Heap.zero m a 0 = m := by
  funext x
  unfold Heap.zero
  rw [if_neg (by omega)]

theorem insFirst_abs {w : World} (i : WInv w) {p n : Nat} (fs : List Nat) (hn : 0 < n)
    (hr : real w p = true) (hs : (segOf w p).size = n) (h : ∀ q ∈ fs, cell w q ≠ none)
    {f : Nat → Bool} (hf : ∀ q ∈ fs, f q = holds (fits n 1) w q) :
    ((insFirst f p fs).filter (real w)).map (segOf w) =
      Heap.insertSized (segOf w p) ((fs.filter (real w)).map (segOf w)) := by
  induction fs with
  | nil => simp [insFirst, hr, Heap.insertSized]
  | cons q fs ih =>
    have ih := ih (fun x hx => h x (by simp [hx])) (fun x hx => hf x (by simp [hx]))
    rw [insFirst, hf q (by simp), holds_fits (h q (by simp))]
    by_cases hq : real w q = true
    · rw [List.filter_cons_of_pos hq, List.map_cons, Heap.insertSized]
      have hfit : Heap.fits n 1 (segOf w q) = decide ((segOf w q).size ≥ (segOf w p).size) := by
        unfold Heap.fits
        rw [hs]
        simp [Nat.mod_one]
      rw [hfit]
      by_cases hge : (segOf w q).size ≥ (segOf w p).size
      · rw [if_pos (by simpa using hge), if_pos hge]
        simp [hr, hq]
      · rw [if_neg (by simpa using hge), if_neg hge, List.filter_cons_of_pos hq, List.map_cons, ih]
    · rw [List.filter_cons_of_neg hq]
      have hfit : ¬ Heap.fits n 1 (segOf w q) = true := by
        have hsz : (segOf w q).size = 0 := by
          have hp := h q (by simp)
          unfold real at hq
          unfold segOf
          cases hc : cell w q with
          | none => exact absurd hc hp
          | some c =>
            rw [hc] at hq
            simp only [Option.isSome_iff_ne_none, ne_eq, Decidable.not_not] at hq
            exact i.null q c hc hq
        unfold Heap.fits
        rw [hsz]
        simp
        omega
      rw [if_neg hfit, List.filter_cons_of_neg hq]
      exact ih

theorem insFirst_null {w : World} {p : Nat} (fs : List Nat) (hr : real w p = false)
    (f : Nat → Bool) :
    (insFirst f p fs).filter (real w) = fs.filter (real w) := by
  induction fs with
  | nil => simp [insFirst, hr]
  | cons q fs ih =>
    rw [insFirst]
    split
    · rw [List.filter_cons_of_neg (by simp [hr])]
    · by_cases hq : real w q = true
      · rw [List.filter_cons_of_pos hq, List.filter_cons_of_pos hq, ih]
      · rw [List.filter_cons_of_neg hq, List.filter_cons_of_neg hq, ih]

theorem clearLoop_spec : ∀ (rest pre acc fl : List Nat) (fuel : Nat) (w : World) (h : HeapObj),
    rest.length < fuel → WInv w →
    Rep w { h with crr := none } { us := [], fs := acc, ul := pre ++ rest, fl := fl } →
    (∀ q ∈ acc, q ∈ pre) →
    ∃ w' h' g', clearLoop fuel w h pre.getLast? (first rest none) = .ok (w', h') ∧ WInv w' ∧
      Rep w' { h' with crr := none } g' ∧
      Step w { us := [], fs := acc, ul := pre ++ rest, fl := fl } w' g' ∧ g'.us = [] ∧
      w'.blocks = w.blocks ∧
      abs w' { h' with crr := none } g' =
        let a := abs w { h with crr := none } { us := [], fs := acc, ul := pre ++ rest, fl := fl }
        { a with
          free := (rest.filterMap (arrOf w)).foldl insBlock a.free,
          mem := (rest.filterMap (arrOf w)).foldl zeroBlock w.mem } := by
  intro rest
  induction rest with
  | nil =>
    intro pre acc fl fuel w h hf i r hacc
    obtain ⟨fuel, rfl⟩ : ∃ m, fuel = m + 1 := ⟨fuel - 1, by simp at hf; omega⟩
    exact ⟨w, h, _, rfl, i, r, Step.refl _ _, rfl, rfl, rfl⟩
  | cons p rest ih =>
    intro pre acc fl fuel w h hf i r hacc
    obtain ⟨fuel, rfl⟩ : ∃ m, fuel = m + 1 := ⟨fuel - 1, by simp at hf; omega⟩
    have hpa := r.ul.path
    rw [path_append] at hpa
    obtain ⟨l, e0, hl, hx⟩ := look_ok hpa.2.1
    have hx : l.cnext = first rest none := hx
    have hch := List.nodup_append.mp r.chain
    have hch' : (pre ++ p :: rest).Nodup := hch.1
    have hnd := List.nodup_append.mp hch'
    have hpp := List.nodup_cons.mp hnd.2.1
    have hppre : p ∉ pre := fun hm => hnd.2.2 p hm p (by simp) rfl
    have hpacc : p ∉ acc := fun hm => hppre (hacc p hm)
    have hpfl : p ∉ fl := fun hm => hch.2.2 p (by simp) p hm rfl
    have hcell : cell w p = some l.cell := by unfold cell; rw [hl]; rfl
    by_cases hsub : l.sub = true
    · -- a part: the object goes to the free ones
      obtain ⟨w1, s1, e1, l1, t1⟩ := remove_spec r.ul hch'
      have hfl1 : IsList .chain w1 h.freeLinks fl := r.fl.frame fun q hq =>
        t1.out q fun hm => hch.2.2 q hm q hq rfl
      obtain ⟨w2, s2, e2, l2, t2⟩ := append_spec hfl1 hch.2.1 hpfl (by rw [t1.cell, hcell]; intro e; cases e)
      have hcells : ∀ q, cell w2 q = cell w q := fun q => (t2.cell q).trans (t1.cell q)
      have hb2 : w2.blocks = w.blocks := t2.blocks.trans t1.blocks
      have hn2 : w2.count = w.count := t2.count.trans t1.count
      have hm2 : w2.mem = w.mem := t2.mem.trans t1.mem
      have hseg : ∀ q, nx .seg w2 q = nx .seg w q := fun q =>
        (t2.other .seg (by decide) q).trans (t1.other .seg (by decide) q)
      have i2 : WInv w2 := i.same hcells hb2 hn2
      have hperm : (pre ++ rest ++ (fl ++ [p])).Perm (pre ++ p :: rest ++ fl) := by
        rw [← List.append_assoc]
        refine (List.perm_append_comm (l₁ := pre ++ rest ++ fl) (l₂ := [p])).trans ?_
        rw [List.append_assoc, List.append_assoc]
        rw [List.cons_append, List.cons_append, List.nil_append]
        exact List.perm_middle.symm
      have r2 : Rep w2 { { h with usedLinks := s1, freeLinks := s2 } with crr := none }
          { us := [], fs := acc, ul := pre ++ rest, fl := fl ++ [p] } := by
        refine ⟨r.us.frame fun q _ => hseg q, r.fs.frame fun q _ => hseg q, ?_, l2, r.segs,
          hperm.nodup_iff.mpr r.chain, ?_, ?_, rfl, ?_, ?_, ?_, r.cap⟩
        · refine l1.frame fun q hq => t2.out q ?_
          intro hm
          rcases List.mem_cons.mp hm with e | hm
          · subst e
            rcases List.mem_append.mp hq with hq | hq
            · exact hppre hq
            · exact hpp.1 hq
          · refine hch.2.2 q ?_ q hm rfl
            rcases List.mem_append.mp hq with hq | hq <;> simp [hq]
        · intro q hq
          have hq : q ∈ [] ++ acc := hq
          rw [List.nil_append] at hq
          exact List.mem_append_left _ (hacc q hq)
        · intro q hq
          rw [hn2]
          exact r.bound q (hperm.mem_iff.mp hq)
        · intro q hq c hc
          rw [hcells] at hc
          have hq : q ∈ fl ++ [p] := hq
          rcases List.mem_append.mp hq with hq | hq
          · exact r.idle q hq c hc
          · simp only [List.mem_singleton] at hq
            rw [hq, hcell] at hc
            cases hc
            exact hsub
        · intro q hq c hc; rw [hcells] at hc; exact r.left q hq c hc
        · intro q hq c hc; rw [hcells] at hc; exact r.free q hq c hc
      obtain ⟨w3, h3, g3, e3, i3, r3, s3, u3, b3, a3⟩ := ih pre acc (fl ++ [p]) fuel w2
        { h with usedLinks := s1, freeLinks := s2 } (by simp at hf; omega) i2 r2 hacc
      have harr : arrOf w p = none := by
        unfold arrOf; rw [hcell]
        show (if l.sub = true then _ else _) = _
        rw [if_pos hsub]
      refine ⟨w3, h3, g3, ?_, i3, r3, ?_, u3, b3.trans hb2, ?_⟩
      · simp only [first]
        rw [clearLoop, e0]
        simp only [Res.ok_bind, hsub, if_true]
        have e1' : remove .chain w h.usedLinks pre.getLast? p = .ok (w1, s1) := e1
        rw [e1']
        simp only [Res.ok_bind]
        rw [e2]
        simp only [Res.ok_bind, hx]
        exact e3
      · refine Step.trans (g' := { us := [], fs := acc, ul := pre ++ rest, fl := fl ++ [p] })
          (w' := w2) ⟨?_, fun q hq => hperm.mem_iff.mpr hq, fun q hq => .inl (hperm.mem_iff.mp hq),
            Nat.le_of_eq hn2.symm, fun b hb => by rw [hb2]; exact hb⟩ s3
        intro q hq
        have hq' : q ∉ pre ++ p :: rest ++ fl := fun hm => hq (hperm.mem_iff.mpr hm)
        rw [t2.links (q := q), t1.links (q := q)]
        · intro hm; exact hq' (List.mem_append_left _ hm)
        · intro hm
          rcases List.mem_cons.mp hm with e | hm
          · exact hq' (by simp [e])
          · exact hq' (List.mem_append_right _ hm)
      · rw [a3]
        dsimp only
        have hfa : arrOf w2 = arrOf w := funext fun q => arrOf_cell (hcells q)
        unfold abs
        dsimp only
        rw [hfa, show segOf w2 = segOf w from funext fun q => segOf_cell (hcells q),
          show real w2 = real w from funext fun q => real_cell (hcells q), hm2,
          List.filterMap_cons_none harr, List.filterMap_append, List.filterMap_append,
          List.filterMap_cons_none harr]
    · -- an array: back to the free segments
      have hsub : l.sub = false := by simpa using hsub
      let w0 : World := { w with mem := Heap.zero w.mem l.addr l.size }
      obtain ⟨w1, e1, x1, l1, xp1, cp1, cn1, bl1, me1⟩ := upd_reset (w := w0) (p := p) (l := l) hl
      have hc1 : ∀ q, q ≠ p → cell w1 q = cell w q := fun q hq =>
        cell_links (w := w) (l1 q hq)
      have harr1 : arrOf w1 p = arrOf w p := by
        unfold arrOf; rw [cp1, hcell]; rfl
      have i1 : WInv w1 := i.one hc1 (by rw [hcell]; intro e; cases e) harr1 (by
        intro c hc hd
        rw [cp1] at hc
        cases hc
        exact i.null p l.cell hcell hd) bl1 cn1
      have hfs1 : IsList .seg w1 h.freeSegs acc := r.fs.frame fun q hq =>
        nx_links (w := w) (l1 q fun e => hpacc (e ▸ hq))
      have hasn : acc.Nodup := (List.nodup_append.mp r.segs).2.1
      have hab : ∀ q ∈ acc, q < w1.count := by
        intro q hq
        rw [cn1]
        exact r.bound q (List.mem_append_left _ (List.mem_append_left _ (hacc q hq)))
      obtain ⟨w2, s2, e2, l2, t2⟩ := insert_spec (f := fits l.size 1) hfs1 hasn hab hpacc xp1
      have hperm := insFirst_perm (holds (fits l.size 1) w1) p acc
      generalize hacc' : insFirst (holds (fits l.size 1) w1) p acc = acc' at l2 hperm
      have hc2 : ∀ q, q ≠ p → cell w2 q = cell w q := fun q hq => (t2.cell q).trans (hc1 q hq)
      have hcp2 : cell w2 p = some ⟨l.data, l.size, l.size, l.sub⟩ := (t2.cell p).trans cp1
      have hb2 : w2.blocks = w.blocks := t2.blocks.trans bl1
      have hn2 : w2.count = w.count := t2.count.trans cn1
      have hm2 : w2.mem = Heap.zero w.mem l.addr l.size := t2.mem.trans me1
      have hchain : ∀ q, nx .chain w2 q = nx .chain w q := fun q =>
        (t2.other .chain (by decide) q).trans (x1 q)
      have i2 : WInv w2 := i1.same t2.cell t2.blocks t2.count
      have hul : pre ++ [p] ++ rest = pre ++ p :: rest := by simp
      have hinacc : ∀ q ∈ acc', q = p ∨ q ∈ acc := fun q hq => by
        have := hperm.mem_iff.mp hq
        simpa using this
      have r2 : Rep w2 { { h with freeSegs := s2 } with crr := none }
          { us := [], fs := acc', ul := pre ++ [p] ++ rest, fl := fl } := by
        rw [hul]
        refine ⟨⟨r.us.front, r.us.back, trivial⟩, l2, r.ul.frame fun q _ => hchain q,
          r.fl.frame fun q _ => hchain q, ?_, r.chain, ?_, by rw [hn2]; exact r.bound, rfl, ?_, ?_, ?_,
          r.cap⟩
        · show ([] ++ acc').Nodup
          rw [List.nil_append]
          exact hperm.nodup_iff.mpr (List.nodup_cons.mpr ⟨hpacc, hasn⟩)
        · intro q hq
          have hq : q ∈ [] ++ acc' := hq
          rw [List.nil_append] at hq
          rcases hinacc q hq with e | hq
          · rw [e]; simp
          · exact List.mem_append_left _ (hacc q hq)
        · intro q hq c hc
          rw [hc2 q fun e => hpfl (e ▸ hq)] at hc
          exact r.idle q hq c hc
        · intro q hq; cases hq
        · intro q hq c hc
          by_cases e : q = p
          · rw [e, hcp2] at hc; cases hc; rfl
          · rw [hc2 q e] at hc
            exact r.free q ((hinacc q hq).resolve_left e) c hc
      obtain ⟨w3, h3, g3, e3, i3, r3, s3, u3, b3, a3⟩ := ih (pre ++ [p]) acc' fl fuel w2
        { h with freeSegs := s2 } (by simp at hf; omega) i2 r2 (by
          intro q hq
          rcases hinacc q hq with e | hq
          · simp [e]
          · exact List.mem_append_left _ (hacc q hq))
      rw [hul] at s3 a3
      refine ⟨w3, h3, g3, ?_, i3, r3, ?_, u3, b3.trans hb2, ?_⟩
      · simp only [first]
        rw [clearLoop, e0]
        simp only [Res.ok_bind, hsub, Bool.false_eq_true, if_false]
        show (w0.upd p Link.reset >>= _) = _
        rw [e1]
        simp only [Res.ok_bind]
        have e2' : insert (fits l.size 1) w1 h.freeSegs p = .ok (w2, s2) := e2
        rw [e2']
        simp only [Res.ok_bind, hx]
        rw [List.getLast?_concat] at e3
        exact e3
      · refine Step.trans (g' := { us := [], fs := acc', ul := pre ++ p :: rest, fl := fl })
          (w' := w2) ⟨?_, fun q hq => hq, fun q hq => .inl hq,
            Nat.le_of_eq hn2.symm, fun b hb => by rw [hb2]; exact hb⟩ s3
        intro q hq
        have hqp : q ≠ p := fun e => hq (by rw [e]; exact List.mem_append_left _ (by simp))
        rw [t2.links (q := q), l1 q hqp]
        intro hm
        rcases List.mem_cons.mp hm with e | hm
        · exact hqp e
        · exact hq (List.mem_append_left _ (List.mem_append_left _ (hacc q hm)))
      · rw [a3]
        dsimp only
        have hfa : arrOf w2 = arrOf w := funext fun q => by
          by_cases e : q = p
          · rw [e, arrOf_cell (t2.cell p), harr1]
          · exact arrOf_cell (hc2 q e)
        have hac : ∀ q ∈ acc, cell w2 q = cell w q := fun q hq => hc2 q fun e => hpacc (e ▸ hq)
        have hfree0 : (acc.filter (real w2)).map (segOf w2) = (acc.filter (real w)).map (segOf w) := by
          rw [List.filter_congr fun q hq => real_cell (hac q hq)]
          exact List.map_congr_left fun q hq => segOf_cell (hac q (List.mem_filter.mp hq).1)
        have hholds : ∀ q ∈ acc, holds (fits l.size 1) w1 q = holds (fits l.size 1) w2 q := by
          intro q hq
          have h1 : cell w1 q ≠ none := hfs1.path.live hq
          rw [holds_fits h1, holds_fits (by rw [t2.cell]; exact h1), segOf_cell (t2.cell q)]
        unfold abs
        dsimp only
        rw [hfa, hm2]
        cases hd : l.data with
        | none =>
          have hsz : l.size = 0 := i.null p l.cell hcell hd
          have harr : arrOf w p = none := by
            unfold arrOf; rw [hcell]
            show (if l.sub = true then _ else l.data.map _) = _
            rw [hd, hsub]; rfl
          have hreal : real w2 p = false := by unfold real; rw [hcp2, hd]; rfl
          rw [← hacc', insFirst_null acc hreal, hfree0, List.filterMap_cons_none harr, hsz, zero_none]
          rfl
        | some a =>
          have harr : arrOf w p = some (a, l.size) := by
            unfold arrOf; rw [hcell]
            show (if l.sub = true then _ else l.data.map fun a => (a, l.size)) = _
            rw [hd, hsub]; rfl
          have hsized := i.sized _ (i.has p _ harr)
          have hmod : l.size % 2 ^ 32 = l.size := Nat.mod_eq_of_lt hsized.2
          have hreal : real w2 p = true := by unfold real; rw [hcp2, hd]; rfl
          have hseg : segOf w2 p = ⟨a, l.size, l.size⟩ := by unfold segOf; rw [hcp2, hd]; rfl
          have haddr : l.addr = a := by unfold Link.addr; rw [hd]; rfl
          rw [← hacc', insFirst_abs i2 acc hsized.1 hreal (by rw [hseg])
            (fun q hq => by rw [t2.cell]; exact hfs1.path.live hq) hholds, hfree0, hseg,
            List.filterMap_cons_some harr, haddr]
          simp only [List.foldl_cons, insBlock, zeroBlock, hmod, List.map_nil]

/-- `clear` does what it does with lists. -/
theorem clear_spec {w : World} {h : HeapObj} {g : Ghost} (i : WInv w) (r : Rep w h g) :
    ∃ w' h' g', clear w h = .ok (w', h') ∧ WInv w' ∧ Rep w' h' g' ∧ Step w g w' g' ∧
      abs w' h' g' = Heap.clear (abs w h g) ∧ w'.blocks = w.blocks := by
  have hch := List.nodup_append.mp r.chain
  have r0 : Rep w { { h with usedSegs := {}, freeSegs := {} } with crr := none }
      { us := [], fs := [], ul := [] ++ g.ul, fl := g.fl } := by
    rw [List.nil_append]
    exact ⟨IsList.empty _ _, IsList.empty _ _, r.ul, r.fl, List.nodup_nil, r.chain,
      fun q hq => (by cases hq), r.bound, rfl, r.idle, fun q hq => (by cases hq),
      fun q hq => (by cases hq), r.cap⟩
  have hlen := length_le hch.1 fun p hp => r.bound p (List.mem_append_left _ hp)
  obtain ⟨w', h', g', e, i', r', s', -, b', a'⟩ := clearLoop_spec g.ul [] [] g.fl (w.count + 1) w
    { h with usedSegs := {}, freeSegs := {} } (by omega) i r0 (fun q hq => (by cases hq))
  refine ⟨w', { h' with crr := none }, g', ?_, i', r', ?_, ?_, b'⟩
  · unfold clear
    rw [r.ul.front]
    rw [show first g.ul none = first g.ul none from rfl]
    have e' : clearLoop (w.count + 1) w { h with usedSegs := {}, freeSegs := {} } none
        (first g.ul none) = .ok (w', h') := e
    rw [e']
    rfl
  · exact ⟨s'.frame, s'.keep, s'.fresh, s'.count, s'.blocks⟩
  · rw [a']
    rfl

/-! ## The destructor -/

/-- Some objects, and the arrays they are responsible for, are gone. -/
structure Freed (w w' : World) (S : List Nat) : Prop where
  gone : ∀ q ∈ S, w'.links q = none
  frame : ∀ q, q ∉ S → w'.links q = w.links q
  count : w'.count = w.count
  mem : w'.mem = w.mem
  blocks : ∀ b ∈ w'.blocks, b ∈ w.blocks

theorem delete_spec {w : World} (i : WInv w) {p : Nat} (h : cell w p ≠ none) :
    ∃ w', w.delete p = .ok w' ∧ WInv w' ∧ Freed w w' [p] := by
  obtain ⟨l, hl⟩ := exists_link h
  have hcell : cell w p = some l.cell := by unfold cell; rw [hl]; rfl
  let w1 : World := { w with links := fun q => if q = p then none else w.links q }
  have h1p : w1.links p = none := if_pos rfl
  have h1 : ∀ q, q ≠ p → w1.links q = w.links q := fun q hq => if_neg hq
  have ha1 : arrOf w1 p = none := by unfold arrOf cell; rw [h1p]; rfl
  have ha1q : ∀ q, q ≠ p → arrOf w1 q = arrOf w q := fun q hq => arrOf_cell (cell_links (h1 q hq))
  have hb : ∀ q, cell w1 q ≠ none → q < w.count ∧ cell w q ≠ none ∧ q ≠ p := by
    intro q hq
    by_cases e : q = p
    · exact absurd (by rw [e]; unfold cell; rw [h1p]; rfl) hq
    · have : cell w q ≠ none := by rw [← cell_links (h1 q e)]; exact hq
      exact ⟨i.bound q this, this, e⟩
  have harrs : ∀ q x, arrOf w1 q = some x → q ≠ p ∧ arrOf w q = some x := by
    intro q x hx
    by_cases e : q = p
    · rw [e, ha1] at hx; cases hx
    · exact ⟨e, by rw [← ha1q q e]; exact hx⟩
  -- without an array of its own
  have hsame : arrOf w p = none → ∃ w', (.ok w1 : Res World) = .ok w' ∧ WInv w' ∧ Freed w w' [p] := by
    intro hn
    refine ⟨w1, rfl, ⟨fun q hq => (hb q hq).1, ?_, ?_, ?_, ?_, i.apart, i.sized⟩, ?_⟩
    · intro q c hc hd
      have := hb q (by rw [hc]; intro e; cases e)
      exact i.null q c (by rw [← cell_links (h1 q this.2.2)]; exact hc) hd
    · intro q q' x y hx hy; exact i.inj q q' x y (harrs q x hx).2 (harrs q' y hy).2
    · intro q x hx; exact i.has q x (harrs q x hx).2
    · intro b hb'
      obtain ⟨q, hq⟩ := i.owner b hb'
      refine ⟨q, ?_⟩
      rw [ha1q q ?_]
      · exact hq
      · intro e; rw [e, hn] at hq; cases hq
    · exact ⟨fun q hq => by simp only [List.mem_singleton] at hq; rw [hq]; exact h1p,
        fun q hq => h1 q (by simpa using hq), rfl, rfl, fun _ h => h⟩
  unfold World.delete
  rw [hl]
  dsimp only
  cases hd : l.data with
  | none =>
    refine hsame ?_
    unfold arrOf; rw [hcell]
    show (if l.sub = true then _ else l.data.map _) = _
    rw [hd]; split <;> rfl
  | some a =>
    dsimp only
    cases hsub : l.sub with
    | true =>
      refine hsame ?_
      unfold arrOf; rw [hcell]
      show (if l.sub = true then _ else _) = _
      rw [if_pos hsub]
    | false =>
      have harr : arrOf w p = some (a, l.size) := by
        unfold arrOf; rw [hcell]
        show (if l.sub = true then _ else l.data.map fun a => (a, l.size)) = _
        rw [hd, hsub]; rfl
      have hin := i.has p _ harr
      have hany : w.blocks.any (·.1 == a) = true := by
        rw [List.any_eq_true]
        exact ⟨_, hin, by simp⟩
      simp only [Bool.false_eq_true, if_false, hany, if_true]
      let w2 : World := { w1 with blocks := w.blocks.filter (·.1 != a) }
      have h2a : ∀ q, arrOf w2 q = arrOf w1 q := fun _ => rfl
      refine ⟨w2, rfl, ⟨fun q hq => (hb q hq).1, ?_, ?_, ?_, ?_, ?_, ?_⟩, ?_⟩
      · intro q c hc hd
        have := hb q (show cell w1 q ≠ none by rw [show cell w1 q = some c from hc]; intro e; cases e)
        exact i.null q c (by rw [← cell_links (h1 q this.2.2)]; exact hc) hd
      · intro q q' x y hx hy; exact i.inj q q' x y (harrs q x hx).2 (harrs q' y hy).2
      · intro q x hx
        obtain ⟨hne, hx⟩ := harrs q x hx
        refine List.mem_filter.mpr ⟨i.has q x hx, ?_⟩
        simp only [bne_iff_ne, ne_eq]
        intro e
        exact hne (i.inj q p x (a, l.size) hx harr e)
      · intro b hb'
        obtain ⟨hb1, hb2⟩ := List.mem_filter.mp hb'
        simp only [bne_iff_ne, ne_eq] at hb2
        obtain ⟨q, hq⟩ := i.owner b hb1
        refine ⟨q, ?_⟩
        rw [h2a, ha1q q ?_]
        · exact hq
        · intro e
          rw [e, harr] at hq
          cases hq
          exact hb2 rfl
      · exact i.apart.filter _
      · intro b hb'
        exact i.sized b (List.mem_filter.mp hb').1
      · exact ⟨fun q hq => by simp only [List.mem_singleton] at hq; rw [hq]; exact h1p,
          fun q hq => h1 q (by simpa using hq), rfl, rfl, fun b hb => (List.mem_filter.mp hb).1⟩

theorem freeLoop_spec : ∀ (ids : List Nat) (fuel : Nat) (w : World), ids.length < fuel → WInv w →
    Path .chain w ids none → ids.Nodup →
    ∃ w', freeLoop fuel w (first ids none) = .ok w' ∧ WInv w' ∧ Freed w w' ids := by
  intro ids
  induction ids with
  | nil =>
    intro fuel w hf i _ _
    obtain ⟨fuel, rfl⟩ : ∃ m, fuel = m + 1 := ⟨fuel - 1, by simp at hf; omega⟩
    exact ⟨w, rfl, i, fun q hq => (by cases hq), fun _ _ => rfl, rfl, rfl, fun _ h => h⟩
  | cons p ids ih =>
    intro fuel w hf i hp hn
    obtain ⟨fuel, rfl⟩ : ∃ m, fuel = m + 1 := ⟨fuel - 1, by simp at hf; omega⟩
    obtain ⟨l, e0, hl, hx⟩ := look_ok hp.1
    have hx : l.cnext = first ids none := hx
    have hn := List.nodup_cons.mp hn
    obtain ⟨w1, e1, i1, f1⟩ := delete_spec i (hp.live (p := p) (by simp))
    have hne : ∀ q ∈ ids, q ∉ [p] := fun q hq hm => by
      simp only [List.mem_singleton] at hm
      exact hn.1 (hm ▸ hq)
    obtain ⟨w2, e2, i2, f2⟩ := ih fuel w1 (by simp at hf; omega) i1
      (hp.2.frame fun q hq => nx_links (f1.frame q (hne q hq))) hn.2
    refine ⟨w2, ?_, i2, ?_, ?_, f2.count.trans f1.count, f2.mem.trans f1.mem,
      fun b hb => f1.blocks b (f2.blocks b hb)⟩
    · simp only [first]
      rw [freeLoop, e0]
      simp only [Res.ok_bind]
      rw [e1]
      simp only [Res.ok_bind, hx]
      exact e2
    · intro q hq
      rcases List.mem_cons.mp hq with e | hq
      · rw [e, f2.frame p hn.1]
        exact f1.gone p (by simp)
      · exact f2.gone q hq
    · intro q hq
      rw [f2.frame q fun hm => hq (by simp [hm]), f1.frame q fun hm => hq (by
        simp only [List.mem_singleton] at hm; simp [hm])]

/-- The destructor deletes the objects of the heap and nothing else. -/
theorem destroy_spec {w : World} {h : HeapObj} {g : Ghost} (i : WInv w) (r : Rep w h g) :
    ∃ w', destroy w h = .ok (w', { cap := h.cap }) ∧ WInv w' ∧ Freed w w' g.all := by
  have hch := List.nodup_append.mp r.chain
  have hlen := length_le hch.1 fun p hp => r.bound p (List.mem_append_left _ hp)
  have hlen2 := length_le hch.2.1 fun p hp => r.bound p (List.mem_append_right _ hp)
  obtain ⟨w1, e1, i1, f1⟩ := freeLoop_spec g.ul (w.count + 1) w (by omega) i r.ul.path hch.1
  have hne : ∀ q ∈ g.fl, q ∉ g.ul := fun q hq hm => hch.2.2 q hm q hq rfl
  obtain ⟨w2, e2, i2, f2⟩ := freeLoop_spec g.fl (w1.count + 1) w1 (by rw [f1.count]; omega) i1
    (r.fl.path.frame fun q hq => nx_links (f1.frame q (hne q hq))) hch.2.1
  refine ⟨w2, ?_, i2, ?_, ?_, f2.count.trans f1.count, f2.mem.trans f1.mem,
    fun b hb => f1.blocks b (f2.blocks b hb)⟩
  · unfold destroy
    rw [r.ul.front, e1]
    simp only [Res.ok_bind]
    rw [r.fl.front, e2]
    rfl
  · intro q hq
    rcases List.mem_append.mp hq with hq | hq
    · by_cases hm : q ∈ g.fl
      · exact f2.gone q hm
      · rw [f2.frame q hm]; exact f1.gone q hq
    · exact f2.gone q hq
  · intro q hq
    rw [f2.frame q fun hm => hq (List.mem_append_right _ hm),
      f1.frame q fun hm => hq (List.mem_append_left _ hm)]

end Srl.HeapLinks
