import Verif.Lemmas.HeapLinks

/-! What a heap's objects represent, and what the operations on a heap do with them -/

namespace Srl.HeapLinks

open Heap (Sys Hp Seg)

/-- The objects in the four lists of a heap -/
structure Ghost where
  us : List Nat := []
  fs : List Nat := []
  ul : List Nat := []
  fl : List Nat := []

def Ghost.all (g : Ghost) : List Nat := g.ul ++ g.fl

/-- The array an object is responsible for -/
def arrOf (w : World) (p : Nat) : Option (Nat × Nat) :=
  match cell w p with
  | none => none
  | some c => if c.sub then none else c.data.map fun a => (a, c.size)

/-- Each array belongs to one object. -/
structure WInv (w : World) : Prop where
  bound : ∀ p, cell w p ≠ none → p < w.count
  null : ∀ p c, cell w p = some c → c.data = none → c.size = 0
  inj : ∀ p q x y, arrOf w p = some x → arrOf w q = some y → x.1 = y.1 → p = q
  has : ∀ p x, arrOf w p = some x → x ∈ w.blocks
  owner : ∀ b ∈ w.blocks, ∃ p, arrOf w p = some b
  apart : w.blocks.Pairwise Heap.Apart
  sized : ∀ b ∈ w.blocks, 0 < b.2 ∧ b.2 < 2 ^ 32

/-- The heap object `h` represents the lists `g`. -/
structure Rep (w : World) (h : HeapObj) (g : Ghost) : Prop where
  us : IsList .seg w h.usedSegs g.us
  fs : IsList .seg w h.freeSegs g.fs
  ul : IsList .chain w h.usedLinks g.ul
  fl : IsList .chain w h.freeLinks g.fl
  segs : (g.us ++ g.fs).Nodup
  chain : g.all.Nodup
  sub : ∀ p ∈ g.us ++ g.fs, p ∈ g.ul
  bound : ∀ p ∈ g.all, p < w.count
  crr : h.crr = g.us.getLast?
  idle : ∀ p ∈ g.fl, ∀ c, cell w p = some c → c.sub = true
  left : ∀ p ∈ g.us, ∀ c, cell w p = some c → c.left ≤ c.size
  free : ∀ p ∈ g.fs, ∀ c, cell w p = some c → c.left = c.size
  cap : ∃ k, k ≤ 18 ∧ h.cap = 2 ^ k

/-- An operation on the heap with the objects `g`: others are not touched. -/
structure Step (w : World) (g : Ghost) (w' : World) (g' : Ghost) : Prop where
  frame : ∀ q, q ∉ g'.all → w'.links q = w.links q
  keep : ∀ q ∈ g.all, q ∈ g'.all
  fresh : ∀ q ∈ g'.all, q ∈ g.all ∨ w.count ≤ q
  count : w.count ≤ w'.count
  blocks : ∀ b ∈ w.blocks, b ∈ w'.blocks

theorem Step.refl (w : World) (g : Ghost) : Step w g w g :=
  ⟨fun _ _ => rfl, fun _ h => h, fun _ h => .inl h, Nat.le_refl _, fun _ h => h⟩

theorem Step.trans {w w' w'' : World} {g g' g'' : Ghost} (a : Step w g w' g')
    (b : Step w' g' w'' g'') : Step w g w'' g'' where
  frame q hq := (b.frame q hq).trans (a.frame q fun h => hq (b.keep q h))
  keep q h := b.keep q (a.keep q h)
  fresh q h := by
    rcases b.fresh q h with h | h
    · exact a.fresh q h
    · exact .inr (Nat.le_trans a.count h)
  count := Nat.le_trans a.count b.count
  blocks q h := b.blocks q (a.blocks q h)

def segOf (w : World) (p : Nat) : Seg :=
  match cell w p with
  | none => ⟨0, 0, 0⟩
  | some c => ⟨c.data.getD 0, c.left, c.size⟩

/-- Has the segment memory? One whose array was refused has none. -/
def real (w : World) (p : Nat) : Bool :=
  match cell w p with
  | none => false
  | some c => c.data.isSome

/-- The heap with lists as lists (`Verif.Model.Heap`) -/
def abs (w : World) (h : HeapObj) (g : Ghost) : Hp where
  cap := h.cap
  used := (g.us.map (segOf w)).reverse
  free := (g.fs.filter (real w)).map (segOf w)
  owned := g.ul.filterMap (arrOf w)
  mem := w.mem

theorem filterMap_same {α β : Type} {f g : α → Option β} {l : List α} (h : ∀ a ∈ l, f a = g a) :
    l.filterMap f = l.filterMap g := by
  induction l with
  | nil => rfl
  | cons a l ih =>
    rw [List.filterMap_cons, List.filterMap_cons, h a (by simp), ih fun b hb => h b (by simp [hb])]

theorem arrOf_cell {w w' : World} {p : Nat} (h : cell w' p = cell w p) : arrOf w' p = arrOf w p := by
  unfold arrOf; rw [h]

theorem segOf_cell {w w' : World} {p : Nat} (h : cell w' p = cell w p) : segOf w' p = segOf w p := by
  unfold segOf; rw [h]

theorem real_cell {w w' : World} {p : Nat} (h : cell w' p = cell w p) : real w' p = real w p := by
  unfold real; rw [h]

theorem nx_links {k : Kind} {w w' : World} {p : Nat} (h : w'.links p = w.links p) :
    nx k w' p = nx k w p := by unfold nx; rw [h]

theorem cell_links {w w' : World} {p : Nat} (h : w'.links p = w.links p) :
    cell w' p = cell w p := by unfold cell; rw [h]

/-- Heaps whose objects are not touched stay what they are. -/
theorem Rep.other {w w' : World} {h : HeapObj} {g : Ghost} (r : Rep w h g)
    (hf : ∀ p ∈ g.all, w'.links p = w.links p) (hc : w.count ≤ w'.count) : Rep w' h g := by
  have hu : ∀ p ∈ g.ul, w'.links p = w.links p := fun p hp => hf p (List.mem_append_left _ hp)
  have hl : ∀ p ∈ g.fl, w'.links p = w.links p := fun p hp => hf p (List.mem_append_right _ hp)
  have h1 : ∀ p ∈ g.us, w'.links p = w.links p := fun p hp => hu p (r.sub p (by simp [hp]))
  have h2 : ∀ p ∈ g.fs, w'.links p = w.links p := fun p hp => hu p (r.sub p (by simp [hp]))
  exact ⟨r.us.frame fun p hp => nx_links (h1 p hp), r.fs.frame fun p hp => nx_links (h2 p hp),
    r.ul.frame fun p hp => nx_links (hu p hp), r.fl.frame fun p hp => nx_links (hl p hp),
    r.segs, r.chain, r.sub, fun p hp => Nat.lt_of_lt_of_le (r.bound p hp) hc, r.crr,
    fun p hp c hc => r.idle p hp c (by rw [← cell_links (hl p hp)]; exact hc),
    fun p hp c hc => r.left p hp c (by rw [← cell_links (h1 p hp)]; exact hc),
    fun p hp c hc => r.free p hp c (by rw [← cell_links (h2 p hp)]; exact hc), r.cap⟩

theorem abs_other {w w' : World} {h : HeapObj} {g : Ghost} (r : Rep w h g)
    (hf : ∀ p ∈ g.all, w'.links p = w.links p) :
    abs w' h g = { abs w h g with mem := w'.mem } := by
  have hu : ∀ p ∈ g.ul, cell w' p = cell w p := fun p hp =>
    cell_links (hf p (List.mem_append_left _ hp))
  have h1 : ∀ p ∈ g.us, cell w' p = cell w p := fun p hp => hu p (r.sub p (by simp [hp]))
  have h2 : ∀ p ∈ g.fs, cell w' p = cell w p := fun p hp => hu p (r.sub p (by simp [hp]))
  unfold abs
  rw [List.map_congr_left fun p hp => segOf_cell (h1 p hp),
    List.filter_congr fun p hp => real_cell (h2 p hp),
    filterMap_same fun p hp => arrOf_cell (hu p hp)]
  rw [List.map_congr_left fun p hp => segOf_cell (h2 p (List.mem_filter.mp hp).1)]

/-! ## Taking a link object -/

theorem rmFirst_any (w : World) (ids : List Nat) (h : ∀ p ∈ ids, cell w p ≠ none) :
    rmFirst (holds (fun _ => true) w) ids = ids.head?.map fun p => (p, ids.tail) := by
  cases ids with
  | nil => rfl
  | cons p l =>
    obtain ⟨x, hx⟩ := exists_link (h p (by simp))
    rw [rmFirst, if_pos]
    · rfl
    · unfold holds
      rw [hx]

/-- The object `p` is new in the list of used ones; nothing else has changed. -/
structure Got (w : World) (h : HeapObj) (g : Ghost) (w' : World) (h' : HeapObj) (p : Nat)
    (fl : List Nat) : Prop where
  rep : Rep w' h' { g with ul := g.ul ++ [p], fl := fl }
  inv : WInv w'
  step : Step w g w' { g with ul := g.ul ++ [p], fl := fl }
  abs : abs w' h' { g with ul := g.ul ++ [p], fl := fl } = abs w h g
  notin : p ∉ g.ul
  none : arrOf w' p = none
  cells : ∀ q, q ≠ p → cell w' q = cell w q
  cap : h'.cap = h.cap
  crr : h'.crr = h.crr
  blocks : w'.blocks = w.blocks

theorem abs_got {w w' : World} {h h' : HeapObj} {g : Ghost} {p : Nat} {fl : List Nat}
    (r : Rep w h g) (hp : p ∉ g.ul) (hc : ∀ q, q ≠ p → cell w' q = cell w q)
    (hn : arrOf w' p = none) (hm : w'.mem = w.mem) (hcap : h'.cap = h.cap) :
    abs w' h' { g with ul := g.ul ++ [p], fl := fl } = abs w h g := by
  have hu : ∀ q ∈ g.ul, cell w' q = cell w q := fun q hq => hc q fun e => hp (e ▸ hq)
  have h1 : ∀ q ∈ g.us, cell w' q = cell w q := fun q hq => hu q (r.sub q (by simp [hq]))
  have h2 : ∀ q ∈ g.fs, cell w' q = cell w q := fun q hq => hu q (r.sub q (by simp [hq]))
  unfold abs
  dsimp only
  rw [List.map_congr_left fun q hq => segOf_cell (h1 q hq),
    List.filter_congr fun q hq => real_cell (h2 q hq), List.filterMap_append,
    filterMap_same fun q hq => arrOf_cell (hu q hq), hm, hcap]
  rw [List.map_congr_left fun q hq => segOf_cell (h2 q (List.mem_filter.mp hq).1)]
  simp [hn]

theorem WInv.same {w w' : World} (i : WInv w) (hc : ∀ p, cell w' p = cell w p)
    (hb : w'.blocks = w.blocks) (hn : w'.count = w.count) : WInv w' := by
  have ha : ∀ p, arrOf w' p = arrOf w p := fun p => arrOf_cell (hc p)
  refine ⟨?_, ?_, ?_, ?_, ?_, ?_, ?_⟩
  · intro p hp; rw [hn]; exact i.bound p (by rw [← hc]; exact hp)
  · intro p c h; exact i.null p c (by rw [← hc]; exact h)
  · intro p q x y hx hy; exact i.inj p q x y (by rw [← ha]; exact hx) (by rw [← ha]; exact hy)
  · intro p x hx; rw [hb]; exact i.has p x (by rw [← ha]; exact hx)
  · intro b h; rw [hb] at h; obtain ⟨p, hp⟩ := i.owner b h; exact ⟨p, by rw [ha]; exact hp⟩
  · rw [hb]; exact i.apart
  · rw [hb]; exact i.sized

theorem Rep.cell_some {w : World} {h : HeapObj} {g : Ghost} (r : Rep w h g) {p : Nat}
    (hp : p ∈ g.all) : cell w p ≠ none := by
  rcases List.mem_append.mp hp with hp | hp
  · exact r.ul.path.live hp
  · exact r.fl.path.live hp

theorem getLink_spec {w : World} {h : HeapObj} {g : Ghost} (i : WInv w) (r : Rep w h g) :
    ∃ w' h' p fl, getLink w h = .ok (w', h', p) ∧ Got w h g w' h' p fl := by
  have hch := List.nodup_append.mp r.chain
  have hs := findRm_spec (f := fun _ => true) r.fl hch.2.1
    (fun p hp => r.bound p (List.mem_append_right _ hp))
  rw [rmFirst_any w g.fl fun p hp => r.fl.path.live hp] at hs
  unfold getLink
  cases hfl : g.fl with
  | nil =>
    rw [hfl] at hs
    simp only [List.head?_nil, List.head?_cons, List.tail_cons, Option.map_none, Option.map_some] at hs
    rw [hs]
    simp only [Res.ok_bind]
    -- the new object
    have hnone : w.links w.count = none := by
      cases hx : w.links w.count with
      | none => rfl
      | some l =>
        have := i.bound w.count (by unfold cell; rw [hx]; intro e; cases e)
        omega
    let w1 : World := { w with links := fun q => if q = w.count then some {} else w.links q,
                               count := w.count + 1 }
    have hl1 : ∀ q, q ≠ w.count → w1.links q = w.links q := fun q hq => if_neg hq
    have hlp : w1.links w.count = some {} := if_pos rfl
    have hall : ∀ q ∈ g.all, q ≠ w.count := fun q hq e => by have := r.bound q hq; omega
    have r1 : Rep w1 h g := r.other (fun q hq => hl1 q (hall q hq)) (Nat.le_succ _)
    have hc1 : cell w1 w.count = some ⟨none, 0, 0, false⟩ := by unfold cell; rw [hlp]; rfl
    have hnu : w.count ∉ g.ul := fun hm => hall _ (List.mem_append_left _ hm) rfl
    obtain ⟨w2, s2, e2, l2, t2⟩ := append_spec r1.ul hch.1 hnu (by rw [hc1]; intro e; cases e)
    have hcells : ∀ q, q ≠ w.count → cell w2 q = cell w q := fun q hq =>
      (t2.cell q).trans (cell_links (hl1 q hq))
    have hc2 : cell w2 w.count = some ⟨none, 0, 0, false⟩ := (t2.cell _).trans hc1
    have ha2 : arrOf w2 w.count = none := by unfold arrOf; rw [hc2]; rfl
    have harr : ∀ q, arrOf w2 q = arrOf w q := by
      intro q
      by_cases hq : q = w.count
      · subst hq
        rw [ha2]
        unfold arrOf cell
        rw [hnone]
        rfl
      · exact arrOf_cell (hcells q hq)
    have hb2 : w2.blocks = w.blocks := t2.blocks
    have hcount : w2.count = w.count + 1 := t2.count
    have hne : ∀ q ∈ g.us ++ g.fs, q ≠ w.count := fun q hq => hall q (List.mem_append_left _ (r.sub q hq))
    refine ⟨w2, { h with usedLinks := s2, freeLinks := h.freeLinks }, w.count, [], ?_, ?_, ?_, ?_,
      ?_, hnu, ha2, hcells, rfl, rfl, hb2⟩
    · show (append .chain w1 h.usedLinks w.count >>= _) = _
      rw [e2]
      rfl
    · refine ⟨r1.us.frame fun q _ => t2.other .seg (by decide) q,
        r1.fs.frame fun q _ => t2.other .seg (by decide) q, l2, ?_, r.segs, ?_, ?_, ?_, r.crr,
        ?_, ?_, ?_, r.cap⟩
      · have := r1.fl
        rw [hfl] at this
        exact ⟨this.front, this.back, trivial⟩
      · show (g.ul ++ [w.count] ++ []).Nodup
        rw [List.append_nil]
        refine List.nodup_append.mpr ⟨hch.1, by simp, ?_⟩
        intro a ha b hb e
        simp only [List.mem_singleton] at hb
        exact hnu (by rw [← hb, ← e]; exact ha)
      · intro q hq
        exact List.mem_append_left _ (r.sub q hq)
      · intro q hq
        have hq : q ∈ g.ul ++ [w.count] ++ [] := hq
        rw [List.append_nil] at hq
        rw [hcount]
        rcases List.mem_append.mp hq with hq | hq
        · have := r.bound q (List.mem_append_left _ hq); omega
        · simp only [List.mem_singleton] at hq; omega
      · intro q hq; cases hq
      · intro q hq c hc
        rw [hcells q (hne q (by simp only [List.mem_append]; exact .inl hq))] at hc
        exact r.left q hq c hc
      · intro q hq c hc
        rw [hcells q (hne q (by simp only [List.mem_append]; exact .inr hq))] at hc
        exact r.free q hq c hc
    · refine ⟨?_, ?_, ?_, ?_, ?_, ?_, ?_⟩
      · intro q hq
        rw [hcount]
        by_cases e : q = w.count
        · omega
        · have := i.bound q (by rw [← hcells q e]; exact hq); omega
      · intro q c hq hd
        by_cases e : q = w.count
        · subst e
          rw [hc2] at hq
          cases hq
          rfl
        · exact i.null q c (by rw [← hcells q e]; exact hq) hd
      · intro p q x y hx hy; exact i.inj p q x y (by rw [← harr]; exact hx) (by rw [← harr]; exact hy)
      · intro p x hx; rw [hb2]; exact i.has p x (by rw [← harr]; exact hx)
      · intro b hb
        rw [hb2] at hb
        obtain ⟨p, hp⟩ := i.owner b hb
        exact ⟨p, by rw [harr]; exact hp⟩
      · rw [hb2]; exact i.apart
      · rw [hb2]; exact i.sized
    · refine ⟨?_, ?_, ?_, by omega, fun b hb => by rw [hb2]; exact hb⟩
      · intro q hq
        have hq : q ∉ g.ul ++ [w.count] ++ [] := hq
        rw [List.append_nil] at hq
        have h1 : q ≠ w.count := fun e => hq (by simp [e])
        have h2 : q ∉ g.ul := fun e => hq (by simp [e])
        have : w2.links q = w1.links q := by
          refine links_ext ?_ (t2.cell q)
          intro k
          cases k with
          | chain => exact t2.out q (by simp [h1, h2])
          | seg => exact t2.other .seg (by decide) q
        rw [this]
        exact hl1 q h1
      · intro q hq
        have hq : q ∈ g.ul ++ g.fl := hq
        rw [hfl, List.append_nil] at hq
        show q ∈ g.ul ++ [w.count] ++ []
        simp [hq]
      · intro q hq
        have hq : q ∈ g.ul ++ [w.count] ++ [] := hq
        rw [List.append_nil] at hq
        rcases List.mem_append.mp hq with hq | hq
        · exact .inl (List.mem_append_left _ hq)
        · simp only [List.mem_singleton] at hq; exact .inr (by omega)
    · exact abs_got r hnu hcells ha2 t2.mem rfl
  | cons p fl =>
    rw [hfl] at hs
    simp only [List.head?_nil, List.head?_cons, List.tail_cons, Option.map_none, Option.map_some] at hs
    obtain ⟨w1, s1, e1, l1, t1⟩ := hs
    rw [e1]
    simp only [Res.ok_bind]
    have hpf : p ∈ g.fl := by rw [hfl]; simp
    have hnf := List.nodup_cons.mp (by rw [← hfl]; exact hch.2.1)
    have hnu : p ∉ g.ul := fun hm => hch.2.2 p hm p hpf rfl
    have hul1 : IsList .chain w1 h.usedLinks g.ul := r.ul.frame fun q hq =>
      t1.out q fun hm => hch.2.2 q hq q (by rw [hfl]; exact hm) rfl
    have hc1 : cell w1 p ≠ none := by rw [t1.cell]; exact r.fl.path.live hpf
    obtain ⟨w2, s2, e2, l2, t2⟩ := append_spec hul1 hch.1 hnu hc1
    have hcells : ∀ q, cell w2 q = cell w q := fun q => (t2.cell q).trans (t1.cell q)
    have hb2 : w2.blocks = w.blocks := t2.blocks.trans t1.blocks
    have hcount : w2.count = w.count := t2.count.trans t1.count
    have hseg : ∀ q, nx .seg w2 q = nx .seg w q := fun q =>
      (t2.other .seg (by decide) q).trans (t1.other .seg (by decide) q)
    have ha : arrOf w2 p = none := by
      unfold arrOf
      rw [hcells]
      cases hc : cell w p with
      | none => rfl
      | some c =>
        show (if c.sub = true then _ else _) = _
        rw [if_pos (r.idle p hpf c hc)]
    have hall : ∀ q, q ∈ g.ul ++ [p] ++ fl ↔ q ∈ g.all := by
      intro q
      show q ∈ g.ul ++ [p] ++ fl ↔ q ∈ g.ul ++ g.fl
      rw [hfl]
      simp
    refine ⟨w2, { h with usedLinks := s2, freeLinks := s1 }, p, fl, ?_, ?_, i.same hcells hb2 hcount,
      ?_, ?_, hnu, ha, fun q _ => hcells q, rfl, rfl, hb2⟩
    · rw [e2]
      rfl
    · refine ⟨r.us.frame fun q _ => hseg q, r.fs.frame fun q _ => hseg q, l2, ?_, r.segs, ?_, ?_, ?_,
        r.crr, ?_, ?_, ?_, r.cap⟩
      · refine l1.frame ?_
        intro q hq
        refine t2.out q ?_
        intro hm
        rcases List.mem_cons.mp hm with e | hm
        · exact hnf.1 (e ▸ hq)
        · exact hch.2.2 q hm q (by rw [hfl]; simp [hq]) rfl
      · show (g.ul ++ [p] ++ fl).Nodup
        have := r.chain
        unfold Ghost.all at this
        rw [hfl] at this
        simpa using this
      · intro q hq
        exact List.mem_append_left _ (r.sub q hq)
      · intro q hq
        rw [hcount]
        exact r.bound q ((hall q).mp hq)
      · intro q hq c hc
        rw [hcells] at hc
        exact r.idle q (by rw [hfl]; exact List.mem_cons_of_mem _ hq) c hc
      · intro q hq c hc
        rw [hcells] at hc
        exact r.left q hq c hc
      · intro q hq c hc
        rw [hcells] at hc
        exact r.free q hq c hc
    · refine ⟨?_, fun q hq => (hall q).mpr hq, fun q hq => .inl ((hall q).mp hq), by omega,
        fun b hb => by rw [hb2]; exact hb⟩
      intro q hq
      have hq : q ∉ g.ul ++ [p] ++ fl := hq
      refine links_ext ?_ (hcells q)
      intro k
      cases k with
      | chain =>
        rw [t2.out q (by intro hm; apply hq; simp only [List.mem_append, List.mem_singleton]; rcases List.mem_cons.mp hm with h | h <;> simp [h]),
          t1.out q (by intro hm; apply hq; simp only [List.mem_append, List.mem_singleton]; rcases List.mem_cons.mp hm with h | h <;> simp [h])]
      | seg => exact hseg q
    · exact abs_got r hnu (fun q _ => hcells q) ha (t2.mem.trans t1.mem) rfl

end Srl.HeapLinks
