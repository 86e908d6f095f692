import Verif.Model.HeapLinks
import Verif.Lemmas.Heap

/-! Lists of link objects: what the operations on them do -/

namespace Srl.HeapLinks

/-- What a link object holds besides its two pointers. -/
structure Cell where
  data : Option Nat
  left : Nat
  size : Nat
  sub : Bool

def Link.cell (l : Link) : Cell := ⟨l.data, l.left, l.size, l.sub⟩

def nx (k : Kind) (w : World) (p : Nat) : Option (Option Nat) := (w.links p).map (·.next k)

def cell (w : World) (p : Nat) : Option Cell := (w.links p).map Link.cell

theorem links_ext {w w' : World} {p : Nat} (hc : ∀ k, nx k w p = nx k w' p)
    (h : cell w p = cell w' p) : w.links p = w'.links p := by
  have h1 := hc .chain
  have h2 := hc .seg
  unfold nx at h1 h2
  unfold cell at h
  cases ha : w.links p with
  | none => cases hb : w'.links p with
    | none => rfl
    | some l => rw [ha, hb] at h; cases h
  | some l => cases hb : w'.links p with
    | none => rw [ha, hb] at h; cases h
    | some l' =>
      rw [ha, hb] at h h1 h2
      simp only [Option.map_some, Option.some.injEq] at h h1 h2
      simp only [Link.next] at h1 h2
      unfold Link.cell at h
      cases l; cases l'
      simp only [Cell.mk.injEq] at h
      simp only at h1 h2
      obtain ⟨a, b, c, d⟩ := h
      subst a b c d h1 h2
      rfl

theorem exists_link {w : World} {p : Nat} (h : cell w p ≠ none) : ∃ l, w.links p = some l := by
  unfold cell at h
  cases hl : w.links p with
  | none => rw [hl] at h; exact absurd rfl h
  | some l => exact ⟨l, rfl⟩

/-- Only the pointers of kind `k` in the objects of `S` have been changed. -/
structure Touch (k : Kind) (w w' : World) (S : List Nat) : Prop where
  count : w'.count = w.count
  blocks : w'.blocks = w.blocks
  mem : w'.mem = w.mem
  cell : ∀ p, cell w' p = cell w p
  other : ∀ k', k' ≠ k → ∀ p, nx k' w' p = nx k' w p
  out : ∀ p, p ∉ S → nx k w' p = nx k w p

theorem Touch.refl (k : Kind) (w : World) (S : List Nat) : Touch k w w S :=
  ⟨rfl, rfl, rfl, fun _ => rfl, fun _ _ _ => rfl, fun _ _ => rfl⟩

theorem Touch.trans {k : Kind} {w w' w'' : World} {S : List Nat} (a : Touch k w w' S)
    (b : Touch k w' w'' S) : Touch k w w'' S :=
  ⟨b.count.trans a.count, b.blocks.trans a.blocks, b.mem.trans a.mem,
    fun p => (b.cell p).trans (a.cell p), fun k' h p => (b.other k' h p).trans (a.other k' h p),
    fun p h => (b.out p h).trans (a.out p h)⟩

theorem Touch.mono {k : Kind} {w w' : World} {S S' : List Nat} (a : Touch k w w' S)
    (h : ∀ p ∈ S, p ∈ S') : Touch k w w' S' :=
  ⟨a.count, a.blocks, a.mem, a.cell, a.other, fun p hp => a.out p fun hs => hp (h p hs)⟩

theorem upd_next (k : Kind) {w : World} {p : Nat} (x : Option Nat) (h : cell w p ≠ none) :
    ∃ w', w.upd p (·.setNext k x) = .ok w' ∧ Touch k w w' [p] ∧ nx k w' p = some x := by
  obtain ⟨l, hl⟩ := exists_link h
  refine ⟨{ w with links := fun q => if q = p then some (l.setNext k x) else w.links q },
    by unfold World.upd; rw [hl], ⟨rfl, rfl, rfl, ?_, ?_, ?_⟩, ?_⟩
  · intro q
    unfold HeapLinks.cell
    dsimp only
    by_cases hq : q = p
    · subst hq
      rw [if_pos rfl, hl]
      cases k <;> rfl
    · rw [if_neg hq]
  · intro k' hk q
    unfold nx
    dsimp only
    by_cases hq : q = p
    · subst hq
      rw [if_pos rfl, hl]
      cases k <;> cases k' <;> first | exact absurd rfl hk | rfl
    · rw [if_neg hq]
  · intro q hq
    unfold nx
    dsimp only
    rw [if_neg fun e => hq (by simp [e])]
  · unfold nx
    dsimp only
    rw [if_pos rfl]
    cases k <;> rfl

/-! ## Paths -/

def first (ids : List Nat) (e : Option Nat) : Option Nat :=
  match ids with
  | [] => e
  | q :: _ => some q

/-- The objects `ids` point to each other in this order, the last one to `e`. -/
def Path (k : Kind) (w : World) : List Nat → Option Nat → Prop
  | [], _ => True
  | p :: r, e => nx k w p = some (first r e) ∧ Path k w r e

theorem first_append (a b : List Nat) (e : Option Nat) : first (a ++ b) e = first a (first b e) := by
  cases a <;> rfl

theorem path_append {k : Kind} {w : World} (a b : List Nat) (e : Option Nat) :
    Path k w (a ++ b) e ↔ Path k w a (first b e) ∧ Path k w b e := by
  induction a with
  | nil => simp [Path]
  | cons p a ih =>
    simp only [List.cons_append, Path, first_append, ih, and_assoc]

theorem Path.frame {k : Kind} {w w' : World} {ids : List Nat} {e : Option Nat}
    (h : Path k w ids e) (hf : ∀ p ∈ ids, nx k w' p = nx k w p) : Path k w' ids e := by
  induction ids with
  | nil => trivial
  | cons p r ih =>
    exact ⟨(hf p (by simp)).trans h.1, ih h.2 fun q hq => hf q (by simp [hq])⟩

theorem Path.live {k : Kind} {w : World} {ids : List Nat} {e : Option Nat} (h : Path k w ids e)
    {p : Nat} (hp : p ∈ ids) : cell w p ≠ none := by
  induction ids with
  | nil => cases hp
  | cons q r ih =>
    rcases List.mem_cons.mp hp with rfl | hp
    · have h1 := h.1
      unfold nx at h1
      unfold cell
      cases hl : w.links p with
      | none => rw [hl] at h1; cases h1
      | some l => intro hc; cases hc
    · exact ih h.2 hp

/-- The list object `s` represents the objects `ids`. -/
structure IsList (k : Kind) (w : World) (s : SList) (ids : List Nat) : Prop where
  front : s.front = first ids none
  back : s.back = ids.getLast?
  path : Path k w ids none

theorem IsList.frame {k : Kind} {w w' : World} {s : SList} {ids : List Nat} (h : IsList k w s ids)
    (hf : ∀ p ∈ ids, nx k w' p = nx k w p) : IsList k w' s ids :=
  ⟨h.front, h.back, h.path.frame hf⟩

theorem IsList.empty (k : Kind) (w : World) : IsList k w {} [] := ⟨rfl, rfl, trivial⟩

theorem append_spec {k : Kind} {w : World} {s : SList} {ids : List Nat} {p : Nat}
    (h : IsList k w s ids) (hn : ids.Nodup) (hp : p ∉ ids) (hc : cell w p ≠ none) :
    ∃ w' s', append k w s p = .ok (w', s') ∧ IsList k w' s' (ids ++ [p]) ∧
      Touch k w w' (p :: ids) := by
  unfold append
  rcases List.eq_nil_or_concat ids with rfl | ⟨a, b, rfl⟩
  · rw [h.back]
    obtain ⟨w', e, ht, hx⟩ := upd_next k none hc
    refine ⟨w', ⟨some p, some p⟩, ?_, ⟨rfl, rfl, hx, trivial⟩, ht⟩
    simp only [List.getLast?_nil]
    rw [e]
    rfl
  · rw [List.concat_eq_append] at *
    rw [h.back, List.getLast?_concat]
    have hpa := h.path
    rw [path_append] at hpa
    obtain ⟨w1, e1, t1, x1⟩ := upd_next (p := b) k (some p) (h.path.live (by simp))
    obtain ⟨w2, e2, t2, x2⟩ := upd_next (p := p) (w := w1) k none (by rw [t1.cell]; exact hc)
    have hbp : b ≠ p := fun e => hp (by simp [e])
    have hnd := List.nodup_append.mp hn
    refine ⟨w2, ⟨s.front, some p⟩, ?_, ⟨?_, ?_, ?_⟩, ?_⟩
    · simp only [e1, e2, Res.ok_bind]
    · show s.front = _
      rw [h.front]
      cases a <;> rfl
    · simp
    · rw [List.append_assoc, path_append]
      refine ⟨hpa.1.frame ?_, ?_, x2, trivial⟩
      · intro q hq
        rw [t2.out q (by intro e; simp only [List.mem_singleton] at e; exact hp (by simp [← e, hq])),
          t1.out q (by
            intro e
            simp only [List.mem_singleton] at e
            exact hnd.2.2 q hq b (by simp) e)]
      · rw [t2.out b (by simpa using hbp), x1]
        rfl
    · refine (t1.mono ?_).trans (t2.mono ?_)
      · intro q hq; simp at hq; simp [hq]
      · intro q hq; simp at hq; simp [hq]

theorem look_ok {w : World} {p : Nat} {k : Kind} {x : Option Nat} (h : nx k w p = some x) :
    ∃ l, w.look p = .ok l ∧ w.links p = some l ∧ l.next k = x := by
  unfold nx at h
  unfold World.look
  cases hl : w.links p with
  | none => rw [hl] at h; cases h
  | some l => rw [hl] at h; exact ⟨l, rfl, rfl, Option.some.inj h⟩

theorem remove_spec {k : Kind} {w : World} {s : SList} {pre post : List Nat} {p : Nat}
    (h : IsList k w s (pre ++ p :: post)) (hn : (pre ++ p :: post).Nodup) :
    ∃ w' s', remove k w s pre.getLast? p = .ok (w', s') ∧ IsList k w' s' (pre ++ post) ∧
      Touch k w w' (pre ++ p :: post) := by
  unfold remove
  have hpa := h.path
  rw [path_append] at hpa
  obtain ⟨l, e0, hl, hx⟩ := look_ok hpa.2.1
  have hnd := List.nodup_append.mp hn
  have hpp := List.nodup_cons.mp hnd.2.1
  have hpre : p ∉ pre := fun hm => hnd.2.2 p hm p (by simp) rfl
  have hc : cell w p ≠ none := h.path.live (by simp)
  have hfront : (if s.front = some p then l.next k else s.front) = first (pre ++ post) none := by
    rw [h.front, hx]
    cases pre with
    | nil => exact if_pos rfl
    | cons q r =>
      have : ¬ first (q :: r ++ p :: post) none = some p := by
        intro e
        simp only [List.cons_append, first, Option.some.injEq] at e
        exact hpre (by simp [e])
      rw [if_neg this]
      rfl
  have hback : (if s.back = some p then pre.getLast? else s.back) = (pre ++ post).getLast? := by
    rw [h.back]
    rcases List.eq_nil_or_concat post with rfl | ⟨a, b, rfl⟩
    · rw [if_pos (by simp)]; simp
    · rw [List.concat_eq_append] at *
      have hb : (pre ++ p :: (a ++ [b])).getLast? = some b := by
        rw [← List.cons_append, ← List.append_assoc, List.getLast?_concat]
      rw [hb, if_neg]
      · rw [← List.append_assoc, List.getLast?_concat]
      · intro e
        simp only [Option.some.injEq] at e
        exact hpp.1 (by simp [e])
  rw [e0]
  simp only [Res.ok_bind]
  rcases List.eq_nil_or_concat pre with rfl | ⟨a, b, rfl⟩
  · obtain ⟨w', e, ht, x⟩ := upd_next (p := p) k none hc
    refine ⟨w', ⟨if s.front = some p then l.next k else s.front, if s.back = some p then none else s.back⟩,
      ?_, ⟨hfront, hback, ?_⟩, ht.mono ?_⟩
    · simp only [List.getLast?_nil, relink, Res.ok_bind, e]
    · refine hpa.2.2.frame ?_
      intro q hq
      refine ht.out q ?_
      simp only [List.mem_singleton]
      rintro rfl
      exact hpp.1 hq
    · simp
  · rw [List.concat_eq_append] at *
    obtain ⟨w1, e1, t1, x1⟩ := upd_next (p := b) k (l.next k) (h.path.live (by simp))
    obtain ⟨w2, e2, t2, x2⟩ := upd_next (p := p) (w := w1) k none (by rw [t1.cell]; exact hc)
    have hbp : b ≠ p := fun e => hpre (by simp [e])
    refine ⟨w2, ⟨if s.front = some p then l.next k else s.front,
      if s.back = some p then (a ++ [b]).getLast? else s.back⟩, ?_, ⟨hfront, hback, ?_⟩, ?_⟩
    · simp only [List.getLast?_concat, relink, e1, Res.ok_bind, e2]
    · have ha := hpa.1
      rw [path_append] at ha
      rw [List.append_assoc, path_append]
      have hna := List.nodup_append.mp hnd.1
      refine ⟨ha.1.frame ?_, ?_, hpa.2.2.frame ?_⟩
      · intro q hq
        rw [t2.out q (by
            intro e
            simp only [List.mem_singleton] at e
            exact hpre (by simp [← e, hq])),
          t1.out q (by
            intro e
            simp only [List.mem_singleton] at e
            exact hna.2.2 q hq b (by simp) e)]
      · rw [t2.out b (by simpa using hbp), x1, hx]
        rfl
      · intro q hq
        rw [t2.out q (by
            intro e
            simp only [List.mem_singleton] at e
            exact hpp.1 (e ▸ hq)),
          t1.out q (by
            intro e
            simp only [List.mem_singleton] at e
            exact hnd.2.2 b (by simp) q (by simp [hq]) e.symm)]
    · refine (t1.mono ?_).trans (t2.mono ?_)
      · intro q hq; simp at hq; simp [hq]
      · intro q hq; simp at hq; simp [hq]

/-! ## Searching -/

/-- The first object of a list with a property, and the others. -/
def rmFirst (f : Nat → Bool) : List Nat → Option (Nat × List Nat)
  | [] => none
  | p :: l => if f p then some (p, l) else (rmFirst f l).map fun (x, l) => (x, p :: l)

theorem rmFirst_perm {f : Nat → Bool} {l l' : List Nat} {p : Nat}
    (h : rmFirst f l = some (p, l')) : f p = true ∧ l.Perm (p :: l') := by
  induction l generalizing l' with
  | nil => cases h
  | cons x l ih =>
    rw [rmFirst] at h
    by_cases hp : f x = true
    · rw [if_pos hp] at h
      cases h
      exact ⟨hp, List.Perm.refl _⟩
    · rw [if_neg hp] at h
      cases hf : rmFirst f l with
      | none => rw [hf] at h; cases h
      | some r =>
        obtain ⟨q, m⟩ := r
        rw [hf] at h
        cases h
        obtain ⟨a, b⟩ := ih hf
        exact ⟨a, (b.cons x).trans (List.Perm.swap p x m)⟩

/-- Does the object `p` satisfy the predicate? -/
def holds (f : Link → Bool) (w : World) (p : Nat) : Bool :=
  match w.links p with
  | none => false
  | some l => f l

theorem findLoop_spec {k : Kind} {f : Link → Bool} {w : World} {s : SList} :
    ∀ (rest pre : List Nat) (fuel : Nat), IsList k w s (pre ++ rest) → (pre ++ rest).Nodup →
      rest.length < fuel →
      match rmFirst (holds f w) rest with
      | none => findLoop k f w s fuel pre.getLast? (first rest none) = .ok (w, s, none)
      | some (p, rest') => ∃ w' s',
          findLoop k f w s fuel pre.getLast? (first rest none) = .ok (w', s', some p) ∧
          IsList k w' s' (pre ++ rest') ∧ Touch k w w' (pre ++ rest) := by
  intro rest
  induction rest with
  | nil =>
    intro pre fuel h hn hf
    obtain ⟨fuel, rfl⟩ : ∃ m, fuel = m + 1 := ⟨fuel - 1, by simp at hf; omega⟩
    rfl
  | cons p rest ih =>
    intro pre fuel h hn hf
    obtain ⟨fuel, rfl⟩ : ∃ m, fuel = m + 1 := ⟨fuel - 1, by simp at hf; omega⟩
    have hpa := h.path
    rw [path_append] at hpa
    obtain ⟨l, e0, hl, hx⟩ := look_ok hpa.2.1
    have hh : holds f w p = f l := by unfold holds; rw [hl]
    rw [rmFirst, hh]
    show match (if f l then _ else _ : Option (Nat × List Nat)) with
      | none => _
      | some (p, rest') => _
    by_cases hfl : f l = true
    · rw [if_pos hfl]
      obtain ⟨w', s', e, hi, ht⟩ := remove_spec h hn
      refine ⟨w', s', ?_, hi, ht⟩
      simp only [first]
      rw [findLoop, e0]
      simp only [Res.ok_bind, hfl, if_true, e]
    · rw [if_neg hfl]
      have hstep : findLoop k f w s (fuel + 1) pre.getLast? (first (p :: rest) none) =
          findLoop k f w s fuel (pre ++ [p]).getLast? (first rest none) := by
        simp only [first]
        rw [findLoop, e0]
        simp only [Res.ok_bind, hfl, List.getLast?_concat, hx]
        rfl
      rw [hstep]
      have hi := ih (pre ++ [p]) fuel (by simpa using h) (by simpa using hn)
        (by simp at hf; omega)
      cases hr : rmFirst (holds f w) rest with
      | none => rw [hr] at hi; exact hi
      | some r =>
        obtain ⟨q, m⟩ := r
        rw [hr] at hi
        obtain ⟨w', s', e, hi, ht⟩ := hi
        exact ⟨w', s', e, by simpa using hi, by simpa using ht⟩

theorem length_le {ids : List Nat} {n : Nat} (hn : ids.Nodup) (hb : ∀ p ∈ ids, p < n) :
    ids.length ≤ n := by
  induction n generalizing ids with
  | zero =>
    cases ids with
    | nil => simp
    | cons p r => exact absurd (hb p (by simp)) (by omega)
  | succ n ih =>
    by_cases hm : n ∈ ids
    · have h1 := ih (ids := ids.erase n) (hn.erase n) (by
        intro p hp
        have := (hn.mem_erase_iff.mp hp)
        have := hb p this.2
        omega)
      rw [List.length_erase_of_mem hm] at h1
      omega
    · have := ih hn (by
        intro p hp
        have h1 := hb p hp
        have : p ≠ n := fun e => hm (e ▸ hp)
        omega)
      omega

theorem findRm_spec {k : Kind} {f : Link → Bool} {w : World} {s : SList} {ids : List Nat}
    (h : IsList k w s ids) (hn : ids.Nodup) (hb : ∀ p ∈ ids, p < w.count) :
    match rmFirst (holds f w) ids with
    | none => findRm k f w s = .ok (w, s, none)
    | some (p, ids') => ∃ w' s', findRm k f w s = .ok (w', s', some p) ∧
        IsList k w' s' ids' ∧ Touch k w w' ids := by
  have := length_le hn hb
  have hs := findLoop_spec (f := f) ids [] (w.count + 1) h hn (by omega)
  unfold findRm
  rw [h.front]
  exact hs

/-- Inserting before the first object with a property, or at the end. -/
def insFirst (f : Nat → Bool) (p : Nat) : List Nat → List Nat
  | [] => [p]
  | c :: l => if f c then p :: c :: l else c :: insFirst f p l

theorem insFirst_perm (f : Nat → Bool) (p : Nat) (l : List Nat) : (insFirst f p l).Perm (p :: l) := by
  induction l with
  | nil => exact List.Perm.refl _
  | cons c l ih =>
    rw [insFirst]
    split
    · exact List.Perm.refl _
    · exact (ih.cons c).trans (List.Perm.swap p c l)

theorem insertLoop_spec {f : Link → Bool} {w : World} {s : SList} {p : Nat} (hc : cell w p ≠ none) :
    ∀ (rest pre : List Nat) (fuel : Nat), IsList .seg w s (pre ++ rest) → (pre ++ rest).Nodup →
      p ∉ pre ++ rest → rest.length < fuel → pre ++ rest ≠ [] →
      ∃ w' s', insertLoop f w s p fuel pre.getLast? (first rest none) = .ok (w', s') ∧
        IsList .seg w' s' (pre ++ insFirst (holds f w) p rest) ∧
        Touch .seg w w' (p :: (pre ++ rest)) := by
  intro rest
  induction rest with
  | nil =>
    intro pre fuel h hn hp hf hne
    obtain ⟨fuel, rfl⟩ : ∃ m, fuel = m + 1 := ⟨fuel - 1, by simp at hf; omega⟩
    rw [List.append_nil] at h hn hp hne
    rcases List.eq_nil_or_concat pre with rfl | ⟨a, b, rfl⟩
    · exact absurd rfl hne
    · rw [List.concat_eq_append] at *
      have hpa := h.path
      rw [path_append] at hpa
      obtain ⟨w1, e1, t1, x1⟩ := upd_next (p := p) .seg none hc
      obtain ⟨w2, e2, t2, x2⟩ := upd_next (p := b) (w := w1) .seg (some p)
        (by rw [t1.cell]; exact h.path.live (by simp))
      have hbp : b ≠ p := fun e => hp (by simp [e])
      have hna := List.nodup_append.mp hn
      refine ⟨w2, ⟨s.front, some p⟩, ?_, ⟨?_, ?_, ?_⟩, ?_⟩
      · simp only [first]
        rw [insertLoop, e1]
        simp only [Res.ok_bind, relink, h.back, List.getLast?_concat, e2]
      · show s.front = _
        rw [h.front]
        cases a <;> rfl
      · simp [insFirst]
      · rw [insFirst, List.append_assoc, path_append]
        refine ⟨hpa.1.frame ?_, ?_, ?_, trivial⟩
        · intro q hq
          rw [t2.out q (by
              intro e
              simp only [List.mem_singleton] at e
              exact hna.2.2 q hq b (by simp) e),
            t1.out q (by
              intro e
              simp only [List.mem_singleton] at e
              exact hp (by simp [← e, hq]))]
        · exact x2
        · rw [t2.out p (by simpa using hbp.symm)]
          exact x1
      · refine (t1.mono ?_).trans (t2.mono ?_)
        · intro q hq; simp at hq; simp [hq]
        · intro q hq; simp at hq; simp [hq]
  | cons c rest ih =>
    intro pre fuel h hn hp hf hne
    obtain ⟨fuel, rfl⟩ : ∃ m, fuel = m + 1 := ⟨fuel - 1, by simp at hf; omega⟩
    have hpa := h.path
    rw [path_append] at hpa
    obtain ⟨l, e0, hl, hx⟩ := look_ok hpa.2.1
    have hh : holds f w c = f l := by unfold holds; rw [hl]
    rw [insFirst, hh]
    have hnd := List.nodup_append.mp hn
    by_cases hfl : f l = true
    · rw [if_pos hfl]
      have hpc : ∀ q, q ∈ c :: rest → q ≠ p := fun q hq e => hp (by rw [← e]; exact List.mem_append_right _ hq)
      have hppre : p ∉ pre := fun hm => hp (List.mem_append_left _ hm)
      obtain ⟨w1, e1, t1, x1⟩ := upd_next (p := p) .seg (some c) hc
      rcases List.eq_nil_or_concat pre with rfl | ⟨a, b, rfl⟩
      · refine ⟨w1, ⟨some p, s.back⟩, ?_, ⟨rfl, ?_, ?_⟩, t1.mono (by simp)⟩
        · simp only [first]
          rw [insertLoop, e0]
          simp only [Res.ok_bind, hfl, if_true, e1, List.getLast?_nil, relink, Option.isNone_none]
        · show s.back = _
          rw [h.back]
          simp [List.getLast?_cons_cons]
        · refine ⟨x1, hpa.2.frame ?_⟩
          intro q hq
          exact t1.out q (by simpa using hpc q hq)
      · rw [List.concat_eq_append] at *
        obtain ⟨w2, e2, t2, x2⟩ := upd_next (p := b) (w := w1) .seg (some p)
          (by rw [t1.cell]; exact h.path.live (by simp))
        have hbp : b ≠ p := fun e => hppre (by simp [e])
        have hna := List.nodup_append.mp hnd.1
        have ha := hpa.1
        rw [path_append] at ha
        refine ⟨w2, ⟨s.front, s.back⟩, ?_, ⟨?_, ?_, ?_⟩, ?_⟩
        · simp only [first]
          rw [insertLoop, e0]
          simp only [Res.ok_bind, hfl, if_true, e1, List.getLast?_concat, relink, e2,
            Option.isNone_some, Bool.false_eq_true, if_false]
        · show s.front = _
          rw [h.front]
          cases a <;> rfl
        · show s.back = _
          rw [h.back]
          simp [List.getLast?_append, List.getLast?_cons_cons]
        · rw [List.append_assoc, path_append]
          refine ⟨ha.1.frame ?_, x2, ?_, hpa.2.frame ?_⟩
          · intro q hq
            rw [t2.out q (by
                intro e
                simp only [List.mem_singleton] at e
                exact hna.2.2 q hq b (by simp) e),
              t1.out q (by
                intro e
                simp only [List.mem_singleton] at e
                exact hppre (by simp [← e, hq]))]
          · rw [t2.out p (by simpa using hbp.symm), x1]
            rfl
          · intro q hq
            rw [t2.out q (by
                intro e
                simp only [List.mem_singleton] at e
                exact hnd.2.2 b (by simp) q hq e.symm),
              t1.out q (by simpa using hpc q hq)]
        · refine (t1.mono ?_).trans (t2.mono ?_)
          · intro q hq; simp at hq; simp [hq]
          · intro q hq; simp at hq; simp [hq]
    · rw [if_neg hfl]
      have hstep : insertLoop f w s p (fuel + 1) pre.getLast? (first (c :: rest) none) =
          insertLoop f w s p fuel (pre ++ [c]).getLast? (first rest none) := by
        simp only [first]
        rw [insertLoop, e0]
        simp only [Res.ok_bind, hfl, List.getLast?_concat, hx]
        rfl
      rw [hstep]
      obtain ⟨w', s', e, hi, ht⟩ := ih (pre ++ [c]) fuel (by simpa using h) (by simpa using hn)
        (by simpa using hp) (by simp at hf; omega) (by simp)
      exact ⟨w', s', e, by simpa using hi, by simpa using ht⟩

theorem insert_spec {f : Link → Bool} {w : World} {s : SList} {ids : List Nat} {p : Nat}
    (h : IsList .seg w s ids) (hn : ids.Nodup) (hb : ∀ q ∈ ids, q < w.count) (hp : p ∉ ids)
    (hx : nx .seg w p = some none) :
    ∃ w' s', insert f w s p = .ok (w', s') ∧ IsList .seg w' s' (insFirst (holds f w) p ids) ∧
      Touch .seg w w' (p :: ids) := by
  have hc : cell w p ≠ none := by
    obtain ⟨l, -, hl, -⟩ := look_ok hx
    unfold cell
    rw [hl]
    intro e; cases e
  unfold insert
  rw [h.back]
  cases hl : ids.getLast? with
  | none =>
    have : ids = [] := List.getLast?_eq_none_iff.mp hl
    subst this
    exact ⟨w, ⟨some p, some p⟩, rfl, ⟨rfl, rfl, hx, trivial⟩, Touch.refl _ _ _⟩
  | some b =>
    have hne : ids ≠ [] := by rintro rfl; cases hl
    have hlen := length_le hn hb
    obtain ⟨w', s', e, hi, ht⟩ := insertLoop_spec (f := f) hc ids [] (w.count + 1) h hn hp (by omega) hne
    refine ⟨w', s', ?_, hi, ht⟩
    dsimp only
    rw [h.front]
    exact e

end Srl.HeapLinks
