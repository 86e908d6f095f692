import Verif.Lemmas.HeapState

/-! Correct use of several heaps -/

namespace Srl.HeapLinks

open Heap (Sys Hp Seg)
open Props (Track Request Run ByteOf existing Sized Ends Allowed Answer)

theorem req {n align : Nat} (h : Request n align) : Heap.Req n align :=
  ⟨by have := h.1; omega, h.2⟩

theorem isSome_iff {α : Type} {o : Option α} (h : o.isSome = true) : ∃ x, o = some x := by
  cases o with
  | none => cases h
  | some x => exact ⟨x, rfl⟩

/-- Correct operations succeed. -/
theorem exec_ok {sys : Sys} {s : State} {G : Nat → Ghost} (v : SInv s G) {o : Op} {a : Nat → Bool}
    (ha : existing (fun i => (s.heaps i).isSome) o = some a) (hs : Sized o) :
    ∃ s' r G', exec sys s o = .ok (s', r) ∧ SInv s' G' ∧ ∀ k, (s'.heaps k).isSome = a k := by
  have keep : ∀ (w : World) (i : Nat) (h : HeapObj), (s.heaps i).isSome = true →
      ∀ k, ((s.set w i (some h)).heaps k).isSome = (s.heaps k).isSome := by
    intro w i h hi k
    by_cases e : k = i
    · subst e; rw [set_self, hi]; rfl
    · rw [set_other _ _ _ e]
  cases o with
  | create i =>
    simp only [existing] at ha
    cases hi : s.heaps i with
    | some h => simp [hi] at ha
    | none =>
      simp only [hi, Option.isSome_none, Bool.false_eq_true, if_false, Option.some.injEq] at ha
      refine ⟨s.set s.w i (some {}), none, G, by simp only [exec, hi], v.created hi, ?_⟩
      intro k
      rw [← ha]
      by_cases e : k = i
      · subst e; rw [set_self]; simp
      · rw [set_other _ _ _ e]; simp [e]
  | get i n align refused =>
    simp only [existing] at ha
    by_cases hi : (s.heaps i).isSome = true
    · rw [if_pos hi] at ha
      cases ha
      obtain ⟨h, hh⟩ := isSome_iff hi
      obtain ⟨w', h', g', x, e, hw, hr, st, -⟩ := get_spec (sys := sys) v.w (v.rep i h hh) (req hs) refused
      refine ⟨s.set w' i (some h'), x, upd G i g', ?_, v.step hw hr st, keep w' i h' hi⟩
      simp only [exec, hh, e, Res.ok_bind]
    · rw [if_neg hi] at ha; cases ha
  | put i b n =>
    simp only [existing] at ha
    by_cases hi : (s.heaps i).isSome = true
    · rw [if_pos hi] at ha
      cases ha
      obtain ⟨h, hh⟩ := isSome_iff hi
      obtain ⟨w', h', g', e, hw, hr, st, -⟩ := put_spec v.w (v.rep i h hh) b n
      refine ⟨s.set w' i (some h'), none, upd G i g', ?_, v.step hw hr st, keep w' i h' hi⟩
      simp only [exec, hh, e, Res.ok_bind]
    · rw [if_neg hi] at ha; cases ha
  | clear i =>
    simp only [existing] at ha
    by_cases hi : (s.heaps i).isSome = true
    · rw [if_pos hi] at ha
      cases ha
      obtain ⟨h, hh⟩ := isSome_iff hi
      obtain ⟨w', h', g', e, hw, hr, st, -⟩ := clear_spec v.w (v.rep i h hh)
      refine ⟨s.set w' i (some h'), none, upd G i g', ?_, v.step hw hr st, keep w' i h' hi⟩
      simp only [exec, hh, e, Res.ok_bind]
    · rw [if_neg hi] at ha; cases ha
  | construct i j =>
    simp only [existing] at ha
    by_cases hc : ¬ (s.heaps i).isSome = true ∧ (s.heaps j).isSome = true
    · rw [if_pos hc] at ha
      cases ha
      cases hi : s.heaps i with
      | some h => rw [hi] at hc; exact absurd rfl hc.1
      | none =>
        obtain ⟨m, hm⟩ := isSome_iff hc.2
        have hij : i ≠ j := fun e => by rw [e, hm] at hi; cases hi
        have v1 := v.created hi
        have hm1 : (s.set s.w i (some {})).heaps j = some m := by
          rw [set_other _ _ _ (Ne.symm hij)]; exact hm
        obtain ⟨w', -, -, hcase⟩ := assign_spec v1 (set_self s s.w i (some {})) hm1
        rcases hcase with ⟨e, -⟩ | ⟨-, e, v2⟩
        · exact absurd e hij
        · refine ⟨_, none, _, ?_, v2, ?_⟩
          · simp only [exec, hi, e, Res.ok_bind]
          · intro k
            by_cases ek : k = j
            · subst ek; rw [set_self]; simp [hm]
            · rw [set_other _ _ _ ek]
              by_cases ei : k = i
              · subst ei; rw [set_self]; simp
              · rw [set_other _ _ _ ei, set_other _ _ _ ei, set_other _ _ _ ei]; simp [ei]
    · rw [if_neg hc] at ha; cases ha
  | assign i j =>
    simp only [existing] at ha
    by_cases hc : (s.heaps i).isSome = true ∧ (s.heaps j).isSome = true
    · rw [if_pos hc] at ha
      cases ha
      obtain ⟨t, ht⟩ := isSome_iff hc.1
      obtain ⟨m, hm⟩ := isSome_iff hc.2
      obtain ⟨w', -, -, hcase⟩ := assign_spec v ht hm
      rcases hcase with ⟨-, e, v2⟩ | ⟨hij, e, v2⟩
      · refine ⟨_, none, _, ?_, v2, keep w' i _ hc.1⟩
        simp only [exec, e, Res.ok_bind]
      · refine ⟨_, none, _, ?_, v2, ?_⟩
        · simp only [exec, e, Res.ok_bind]
        · intro k
          by_cases ek : k = j
          · subst ek; rw [set_self]; exact hc.2.symm
          · rw [set_other _ _ _ ek]
            by_cases ei : k = i
            · subst ei; rw [set_self]; exact hc.1.symm
            · rw [set_other _ _ _ ei, set_other _ _ _ ei]
    · rw [if_neg hc] at ha; cases ha
  | copy i j => cases ha
  | destroy i =>
    simp only [existing] at ha
    by_cases hi : (s.heaps i).isSome = true
    · rw [if_pos hi] at ha
      cases ha
      obtain ⟨h, hh⟩ := isSome_iff hi
      obtain ⟨w', e, hw, hf⟩ := destroy_spec v.w (v.rep i h hh)
      refine ⟨s.set w' i none, none, upd G i {}, ?_, v.freed hw hf (fun h hh => by cases hh), ?_⟩
      · simp only [exec, hh, e, Res.ok_bind]
      · intro k
        by_cases ek : k = i
        · subst ek; rw [set_self]; simp
        · rw [set_other _ _ _ ek]; simp [ek]
    · rw [if_neg hi] at ha; cases ha

/-! ## The blocks handed out -/

theorem inv_mem {h : Hp} {live : List (Nat × Nat)} (i : Heap.Inv h live) (m : Nat → UInt8) :
    Heap.Inv { h with mem := m } live :=
  ⟨i.cap, i.left, i.free, i.apart, i.inside, i.owned, i.small⟩

theorem inv'_mem {h : Hp} {live : List (Nat × Nat)} (i : Heap.Inv' h live) (m : Nat → UInt8) :
    Heap.Inv' { h with mem := m } live :=
  ⟨i.cap, i.left, i.free, i.apart, i.inside, i.owned, i.small⟩

theorem inv_weak {h : Hp} {live : List (Nat × Nat)} (i : Heap.Inv h live) : Heap.Inv' h live :=
  ⟨i.cap, i.left, i.free, (List.pairwise_append.mp i.apart).2.1,
    fun r hr => i.inside r (List.mem_append_right _ hr), i.owned, i.small⟩

theorem put_weak {h : Hp} {live : List (Nat × Nat)} {r : Nat × Nat} (hi : Heap.Inv' h live)
    (hr : r ∈ live) : Heap.Inv' (Heap.put h r.1 r.2) (live.erase r) := by
  have hmem : r ∈ h.free.map Seg.region ++ live := List.mem_append_right _ hr
  have hn : r.2 < 2 ^ 32 := (hi.inside r hmem).small hi.small
  have hp : ((Heap.put h r.1 r.2).free.map Seg.region ++ live.erase r).Perm
      (h.free.map Seg.region ++ live) := by
    rw [Heap.put_spec hn, List.append_assoc]
    exact List.Perm.append_left _ (List.perm_cons_erase hr).symm
  refine ⟨hi.cap, hi.left, ?_, Heap.pairwise_perm hp.symm hi.apart,
    fun x hx => hi.inside x (hp.mem_iff.mp hx), hi.owned, hi.small⟩
  intro s hs
  have hs : s ∈ h.free ++ [⟨r.1, r.2 % 2 ^ 32, r.2 % 2 ^ 32⟩] := hs
  rcases List.mem_append.mp hs with hs | hs
  · exact hi.free s hs
  · simp only [List.mem_singleton] at hs; rw [hs]

/-- Clearing needs nothing but the arrays. -/
theorem clear_weak {h : Hp} {live : List (Nat × Nat)} (hi : Heap.Inv' h live) :
    Heap.Inv (Heap.clear h) [] := by
  have h0 : Heap.Inv { h with used := [], free := [] } [] :=
    ⟨hi.cap, fun s hs => (by cases hs), fun s hs => (by cases hs), List.Pairwise.nil,
      fun r hr => (by cases hr), hi.owned, hi.small⟩
  have := Heap.clear_inv h0
  exact this

theorem empty_inv {cap : Nat} (h : ∃ k, k ≤ 18 ∧ cap = 2 ^ k) (mem : Nat → UInt8) :
    Heap.Inv ⟨cap, [], [], [], mem⟩ [] :=
  ⟨h, fun s hs => (by cases hs), fun s hs => (by cases hs), List.Pairwise.nil,
    fun r hr => (by cases hr), List.Pairwise.nil, fun r hr => (by cases hr)⟩

/-- The blocks are in order with every heap. -/
structure RInv (s : State) (t : Track) (G : Nat → Ghost) : Prop where
  inv : SInv s G
  good : ∀ i h, s.heaps i = some h → t.bad i = false → Heap.Inv (abs s.w h (G i)) (t.live i)
  weak : ∀ i h, s.heaps i = some h → Heap.Inv' (abs s.w h (G i)) (t.live i)
  gone : ∀ i, s.heaps i = none → t.live i = []

theorem tset_live_self (t : Track) (i : Nat) (l : List (Nat × Nat)) (b : Bool) :
    (t.set i l b).live i = l := if_pos rfl

theorem tset_live_other (t : Track) {i j : Nat} (l : List (Nat × Nat)) (b : Bool) (h : j ≠ i) :
    (t.set i l b).live j = t.live j := if_neg h

theorem tset_bad_self (t : Track) (i : Nat) (l : List (Nat × Nat)) (b : Bool) :
    (t.set i l b).bad i = b := if_pos rfl

theorem tset_bad_other (t : Track) {i j : Nat} (l : List (Nat × Nat)) (b : Bool) (h : j ≠ i) :
    (t.set i l b).bad j = t.bad j := if_neg h

/-- One heap has changed. -/
theorem RInv.set {s : State} {t : Track} {G : Nat → Ghost} (v : RInv s t G) {i : Nat} {w' : World}
    {x : Option HeapObj} {g' : Ghost} {live : List (Nat × Nat)} {bad : Bool}
    (hs : SInv (s.set w' i x) (upd G i g'))
    (hl : ∀ j, j ≠ i → ∀ p ∈ (G j).all, w'.links p = s.w.links p)
    (hx : ∀ h, x = some h → (bad = false → Heap.Inv (abs w' h g') live) ∧
      Heap.Inv' (abs w' h g') live)
    (hn : x = none → live = []) : RInv (s.set w' i x) (t.set i live bad) (upd G i g') := by
  refine ⟨hs, ?_, ?_, ?_⟩
  · intro j h hh hb
    by_cases e : j = i
    · subst e
      rw [set_self] at hh
      rw [tset_bad_self] at hb
      rw [tset_live_self, upd_self]
      exact (hx h hh).1 hb
    · rw [set_other _ _ _ e] at hh
      rw [tset_bad_other _ _ _ e] at hb
      rw [tset_live_other _ _ _ e, upd_other _ _ e]
      show Heap.Inv (abs w' h (G j)) _
      rw [abs_other (v.inv.rep j h hh) (hl j e)]
      exact inv_mem (v.good j h hh hb) _
  · intro j h hh
    by_cases e : j = i
    · subst e
      rw [set_self] at hh
      rw [tset_live_self, upd_self]
      exact (hx h hh).2
    · rw [set_other _ _ _ e] at hh
      rw [tset_live_other _ _ _ e, upd_other _ _ e]
      show Heap.Inv' (abs w' h (G j)) _
      rw [abs_other (v.inv.rep j h hh) (hl j e)]
      exact inv'_mem (v.weak j h hh) _
  · intro j hh
    by_cases e : j = i
    · subst e
      rw [set_self] at hh
      rw [tset_live_self]
      exact hn hh
    · rw [set_other _ _ _ e] at hh
      rw [tset_live_other _ _ _ e]
      exact v.gone j hh

/-- The blocks of `j` now are those of `i`. -/
theorem RInv.moved {s : State} {t : Track} {G : Nat → Ghost} (v : RInv s t G) {i j : Nat} {m : HeapObj}
    (hij : i ≠ j) (hj : s.heaps j = some m) (hi : G i = {}) :
    RInv ((s.set s.w i (some m)).set s.w j (some m.left))
      ((t.set i (t.live j) (t.bad j)).set j [] false) (upd (upd G i (G j)) j {}) := by
  have hempty : Heap.Inv (abs s.w m.left {}) [] := empty_inv (v.inv.rep j m hj).cap _
  refine ⟨v.inv.moved hij hj (by rw [hi]; rfl), ?_, ?_, ?_⟩
  · intro k h hh hb
    by_cases ek : k = j
    · subst ek
      rw [set_self] at hh
      cases hh
      rw [tset_live_self, upd_self]
      exact hempty
    · rw [set_other _ _ _ ek] at hh
      rw [tset_bad_other _ _ _ ek] at hb
      rw [tset_live_other _ _ _ ek, upd_other _ _ ek]
      by_cases ei : k = i
      · subst ei
        rw [set_self] at hh
        cases hh
        rw [tset_bad_self] at hb
        rw [tset_live_self, upd_self]
        exact v.good j m hj hb
      · rw [set_other _ _ _ ei] at hh
        rw [tset_bad_other _ _ _ ei] at hb
        rw [tset_live_other _ _ _ ei, upd_other _ _ ei]
        exact v.good k h hh hb
  · intro k h hh
    by_cases ek : k = j
    · subst ek
      rw [set_self] at hh
      cases hh
      rw [tset_live_self, upd_self]
      exact inv_weak hempty
    · rw [set_other _ _ _ ek] at hh
      rw [tset_live_other _ _ _ ek, upd_other _ _ ek]
      by_cases ei : k = i
      · subst ei
        rw [set_self] at hh
        cases hh
        rw [tset_live_self, upd_self]
        exact v.weak j m hj
      · rw [set_other _ _ _ ei] at hh
        rw [tset_live_other _ _ _ ei, upd_other _ _ ei]
        exact v.weak k h hh
  · intro k hh
    by_cases ek : k = j
    · subst ek; rw [set_self] at hh; cases hh
    · rw [set_other _ _ _ ek] at hh
      rw [tset_live_other _ _ _ ek]
      by_cases ei : k = i
      · subst ei; rw [set_self] at hh; cases hh
      · rw [set_other _ _ _ ei] at hh
        rw [tset_live_other _ _ _ ei]
        exact v.gone k hh

theorem freed_links {s : State} {G : Nat → Ghost} (v : SInv s G) {i : Nat} {w' : World}
    (hf : Freed s.w w' (G i).all) : ∀ j, j ≠ i → ∀ p ∈ (G j).all, w'.links p = s.w.links p :=
  fun _ e p hp => hf.frame p (v.apart e hp)

/-- Move assignment, also to itself -/
theorem RInv.assign {s s' : State} {t : Track} {G : Nat → Ghost} (v : RInv s t G) {i j : Nat}
    (e : assign s i j = .ok s') :
    (∃ G', RInv s' ((t.set i (t.live j) (t.bad j)).set j [] false) G') ∧ s'.w.mem = s.w.mem := by
  cases hi : s.heaps i with
  | none => unfold HeapLinks.assign at e; rw [hi] at e; cases e
  | some ti =>
    cases hj : s.heaps j with
    | none =>
      obtain ⟨w', hw, hf, -⟩ := destroy_spec v.inv.w (v.inv.rep i ti hi)
      have hij : j ≠ i := fun e => by rw [e, hi] at hj; cases hj
      unfold HeapLinks.assign at e
      rw [hi] at e
      simp only [hw, Res.ok_bind, set_other _ _ _ hij, hj] at e
      cases e
    | some m =>
      have r := v.inv.rep i ti hi
      obtain ⟨w', hw, hf, hcase⟩ := assign_spec v.inv hi hj
      have hempty : Heap.Inv (abs w' { cap := ti.cap } {}) [] := empty_inv r.cap _
      rcases hcase with ⟨hij, e', v2⟩ | ⟨hij, e', v2⟩
      · rw [e'] at e
        cases e
        subst hij
        refine ⟨⟨upd G i {}, ?_⟩, hf.mem⟩
        have := v.set (live := []) (bad := false) v2 (freed_links v.inv hf)
          (by intro h hh; cases hh; exact ⟨fun _ => hempty, inv_weak hempty⟩) (fun h => by cases h)
        have ht : (t.set i (t.live i) (t.bad i)).set i [] false = t.set i [] false := by
          unfold Track.set
          congr 1
          · funext k
            dsimp only
            by_cases ek : k = i <;> simp [ek]
          · funext k
            dsimp only
            by_cases ek : k = i <;> simp [ek]
        rw [ht]
        exact this
      · rw [e'] at e
        cases e
        refine ⟨?_, hf.mem⟩
        have v1 : SInv (s.set w' i (some { cap := ti.cap })) (upd G i {}) :=
          v.inv.freed hw hf fun h hh => by cases hh; exact empty_rep _ r.cap
        have v3 := v.set (live := []) (bad := false) v1 (freed_links v.inv hf)
          (by intro h hh; cases hh; exact ⟨fun _ => hempty, inv_weak hempty⟩) (fun h => by cases h)
        have hj1 : (s.set w' i (some { cap := ti.cap })).heaps j = some m := by
          rw [set_other _ _ _ (Ne.symm hij)]; exact hj
        have v4 := v3.moved hij hj1 (upd_self _ _ _)
        rw [tset_live_other _ _ _ (Ne.symm hij), tset_bad_other _ _ _ (Ne.symm hij)] at v4
        have ht : (t.set i [] false).set i (t.live j) (t.bad j) = t.set i (t.live j) (t.bad j) := by
          unfold Track.set
          congr 1
          · funext k
            dsimp only
            by_cases ek : k = i <;> simp [ek]
          · funext k
            dsimp only
            by_cases ek : k = i <;> simp [ek]
        rw [ht] at v4
        exact ⟨_, v4⟩

theorem RInv.created {s : State} {t : Track} {G : Nat → Ghost} (v : RInv s t G) {i : Nat}
    (hi : s.heaps i = none) : RInv (s.set s.w i (some {})) (t.set i [] false) (upd G i {}) := by
  have hG : upd G i {} = G := by
    funext k
    by_cases e : k = i
    · rw [e, upd_self, v.inv.gone i hi]
    · exact upd_other _ _ e
  have hempty : Heap.Inv (abs s.w {} {}) [] := empty_inv ⟨8, by omega, rfl⟩ _
  exact v.set (by rw [hG]; exact v.inv.created hi) (fun _ _ _ _ => rfl)
    (by intro h hh; cases hh; exact ⟨fun _ => hempty, inv_weak hempty⟩) (fun h => by cases h)

/-- Distinct arrays are apart. -/
theorem apart_of {l : List (Nat × Nat)} (h : l.Pairwise Heap.Apart) {b c : Nat × Nat} (hb : b ∈ l)
    (hc : c ∈ l) (hne : b ≠ c) : Heap.Apart b c := by
  induction l with
  | nil => cases hb
  | cons x l ih =>
    obtain ⟨h1, h2⟩ := List.pairwise_cons.mp h
    rcases List.mem_cons.mp hb with e | hb
    · rcases List.mem_cons.mp hc with e' | hc
      · exact absurd (e.trans e'.symm) hne
      · rw [e]; exact h1 c hc
    · rcases List.mem_cons.mp hc with e' | hc
      · rw [e']; exact (h1 b hb).symm
      · exact ih h2 hb hc

/-- The arrays of two heaps are apart. -/
theorem SInv.arrays {s : State} {G : Nat → Ghost} (v : SInv s G) {i j : Nat} (hij : i ≠ j)
    {h h' : HeapObj} {b c : Nat × Nat} (hb : b ∈ (abs s.w h (G i)).owned)
    (hc : c ∈ (abs s.w h' (G j)).owned) : Heap.Apart b c := by
  obtain ⟨p, hp, hp'⟩ := List.mem_filterMap.mp hb
  obtain ⟨q, hq, hq'⟩ := List.mem_filterMap.mp hc
  refine apart_of v.w.apart (v.w.has p b hp') (v.w.has q c hq') ?_
  intro e
  have := v.w.inj p q b c hp' hq' (by rw [e])
  subst this
  exact hij (v.disj i j p (List.mem_append_left _ hp) (List.mem_append_left _ hq))

theorem inside_in {bs : List (Nat × Nat)} {r : Nat × Nat} (h : Heap.Inside bs r) {x : Nat}
    (hx : Heap.In x r) : ∃ b ∈ bs, Heap.In x b := by
  obtain ⟨b, hb, h1, h2⟩ := h
  exact ⟨b, hb, by unfold Heap.In at *; omega, by unfold Heap.In at *; omega⟩

/-- Memory inside the arrays of heap `i` holds no block of another heap. -/
theorem RInv.foreign {s : State} {t : Track} {G : Nat → Ghost} (v : RInv s t G) {i k : Nat}
    (hik : k ≠ i) {h : HeapObj} {b : Nat × Nat} (hb : b ∈ t.live k) {x : Nat} (hx : Heap.In x b) :
    ∀ o ∈ (abs s.w h (G i)).owned, ¬ Heap.In x o := by
  intro o ho hxo
  cases hk : s.heaps k with
  | none => rw [v.gone k hk] at hb; cases hb
  | some hk' =>
    obtain ⟨c, hc, hxc⟩ := inside_in ((v.weak k hk' hk).inside b (List.mem_append_right _ hb)) hx
    exact v.inv.arrays hik hc ho x hxc hxo

theorem zeros_out (bs : List (Nat × Nat)) (hs : ∀ b ∈ bs, b.2 < 2 ^ 32) (x : Nat) :
    ∀ m : Nat → UInt8, (∀ b ∈ bs, ¬ Heap.In x b) →
      bs.foldl (fun m b => Heap.zero m b.1 (b.2 % 2 ^ 32)) m x = m x := by
  induction bs with
  | nil => intro m _; rfl
  | cons b bs ih =>
    intro m h
    rw [List.foldl_cons, ih (fun c hc => hs c (by simp [hc])) _ fun c hc => h c (by simp [hc])]
    unfold Heap.zero
    rw [if_neg]
    have := h b (by simp)
    rw [Nat.mod_eq_of_lt (hs b (by simp))]
    exact this

/-- One operation on a correct state: the state after it is correct, blocks that are not ended
keep their contents. -/
theorem RInv.exec {sys : Sys} {s s' : State} {t : Track} {G : Nat → Ghost} (v : RInv s t G) {o : Op}
    {r : Option Nat} (ho : Allowed t o) (e : exec sys s o = .ok (s', r)) :
    (∃ G', RInv s' (match o with
      | .create i => t.set i [] false
      | .get i n _ _ => match r with
        | some a => t.set i ((a, n) :: t.live i) false
        | none => t.set i (t.live i) true
      | .put i a n => t.set i ((t.live i).erase (a, n)) (t.bad i)
      | .clear i => t.set i [] false
      | .construct i j => (t.set i (t.live j) (t.bad j)).set j [] false
      | .assign i j => (t.set i (t.live j) (t.bad j)).set j [] false
      | .copy _ _ => t
      | .destroy i => t.set i [] false) G') ∧
    (∀ k b, b ∈ t.live k → ¬ Ends o k b → ∀ x, Heap.In x b → s'.w.mem x = s.w.mem x) ∧
    Answer r o := by
  cases o with
  | create i =>
    cases hi : s.heaps i with
    | some h => simp only [HeapLinks.exec, hi] at e; cases e
    | none =>
      simp only [HeapLinks.exec, hi, Res.ok.injEq, Prod.mk.injEq] at e
      obtain ⟨rfl, rfl⟩ := e
      exact ⟨⟨_, v.created hi⟩, fun _ _ _ _ _ _ => rfl, rfl⟩
  | get i n align refused =>
    obtain ⟨hb, hn, hq⟩ := ho
    cases hi : s.heaps i with
    | none => simp only [HeapLinks.exec, hi] at e; cases e
    | some h =>
      obtain ⟨w', h', g', x, e1, hw, hr, st, hx⟩ :=
        get_spec (sys := sys) v.inv.w (v.inv.rep i h hi) (req hq) refused
      simp only [HeapLinks.exec, hi, e1, Res.ok_bind, Res.ok.injEq, Prod.mk.injEq] at e
      obtain ⟨rfl, rfl⟩ := e
      have hinv := v.good i h hi hb
      have hsinv := v.inv.step hw hr st
      have hl : ∀ j, j ≠ i → ∀ p ∈ (G j).all, w'.links p = s.w.links p := fun j e => v.inv.links st e
      -- memory outside the rest of the current segment
      have hcont : (∀ y, (∀ r ∈ (abs s.w h (G i)).rest, ¬ Heap.In y r) → w'.mem y = s.w.mem y) →
          ∀ k b, b ∈ t.live k → ¬ Ends (.get i n align refused) k b → ∀ y, Heap.In y b →
            w'.mem y = s.w.mem y := by
        intro hm k b hbk _ y hy
        refine hm y ?_
        intro r hr hyr
        by_cases ek : k = i
        · subst ek
          have := (List.pairwise_append.mp hinv.apart).2.2 r hr b (by simp [hbk])
          exact this y hyr hy
        · obtain ⟨c, hc, hyc⟩ := inside_in (hinv.inside r (List.mem_append_left _ hr)) hyr
          exact v.foreign ek hbk hy c hc hyc
      cases x with
      | none =>
        obtain ⟨hrf, ⟨c, kc, habs⟩, -⟩ := hx
        obtain ⟨hj, -, -, hm⟩ := Heap.putRest_inv hinv
        have hweak : Heap.Inv' (abs w' h' g') (t.live i) := by
          rw [habs]
          exact ⟨kc, hj.left, hj.free, hj.apart, hj.inside, hj.owned, hj.small⟩
        refine ⟨⟨_, v.set (live := t.live i) (bad := true) hsinv hl
          (by intro y hy; cases hy; exact ⟨fun h => (by cases h), hweak⟩) (fun h => by cases h)⟩, ?_,
          fun _ => hrf, fun a h => by cases h⟩
        refine hcont ?_
        intro y hy
        have := hm y hy
        have h2 : w'.mem = (Heap.putRest (abs s.w h (G i))).mem := congrArg Hp.mem habs
        rw [h2]
        exact this
      | some a =>
        obtain ⟨sys', hget⟩ := hx hn
        obtain ⟨h2, a2, e2, inv2, al2, m2, -⟩ := Heap.get_spec sys' hinv (req hq)
        rw [hget] at e2
        simp only [Res.ok.injEq, Prod.mk.injEq] at e2
        obtain ⟨rfl, rfl⟩ := e2
        exact ⟨⟨_, v.set (live := (a, n) :: t.live i) (bad := false) hsinv hl
          (by intro y hy; cases hy; exact ⟨fun _ => inv2, inv_weak inv2⟩) (fun h => by cases h)⟩,
          hcont m2, fun h => (by cases h), fun b hb => by cases hb; exact al2⟩
  | put i a n =>
    have ho : (a, n) ∈ t.live i := ho
    cases hi : s.heaps i with
    | none => simp only [HeapLinks.exec, hi] at e; cases e
    | some h =>
      obtain ⟨w', h', g', e1, hw, hr, st, habs, -⟩ := put_spec v.inv.w (v.inv.rep i h hi) a n
      simp only [HeapLinks.exec, hi, e1, Res.ok_bind, Res.ok.injEq, Prod.mk.injEq] at e
      obtain ⟨rfl, rfl⟩ := e
      refine ⟨⟨_, v.set (live := (t.live i).erase (a, n)) (bad := t.bad i) (v.inv.step hw hr st)
        (fun j e => v.inv.links st e) ?_ (fun h => by cases h)⟩, ?_, rfl⟩
      · intro y hy
        cases hy
        rw [habs]
        exact ⟨fun hb => Heap.put_inv (v.good i h hi hb) ho, put_weak (v.weak i h hi) ho⟩
      · intro k b hb hne x hx
        have hm : w'.mem = Heap.zero s.w.mem a n := congrArg Hp.mem habs
        show w'.mem x = _
        rw [hm]
        unfold Heap.zero
        rw [if_neg]
        intro hxa
        by_cases ek : k = i
        · subst ek
          have hne' : b ≠ (a, n) := fun e => hne ⟨rfl, e⟩
          have hap := (List.pairwise_append.mp (v.weak k h hi).apart).2.1
          exact apart_of hap hb ho hne' x hx hxa
        · obtain ⟨c, hc, hxc⟩ := inside_in ((v.weak i h hi).inside (a, n)
            (List.mem_append_right _ ho)) hxa
          exact v.foreign ek hb hx c hc hxc
  | clear i =>
    cases hi : s.heaps i with
    | none => simp only [HeapLinks.exec, hi] at e; cases e
    | some h =>
      obtain ⟨w', h', g', e1, hw, hr, st, habs, -⟩ := clear_spec v.inv.w (v.inv.rep i h hi)
      simp only [HeapLinks.exec, hi, e1, Res.ok_bind, Res.ok.injEq, Prod.mk.injEq] at e
      obtain ⟨rfl, rfl⟩ := e
      have hc := clear_weak (v.weak i h hi)
      refine ⟨⟨_, v.set (live := []) (bad := false) (v.inv.step hw hr st)
        (fun j e => v.inv.links st e) ?_ (fun h => by cases h)⟩, ?_, rfl⟩
      · intro y hy
        cases hy
        rw [habs]
        exact ⟨fun _ => hc, inv_weak hc⟩
      · intro k b hb hne x hx
        have hm : w'.mem = (Heap.clear (abs s.w h (G i))).mem := congrArg Hp.mem habs
        show w'.mem x = _
        rw [hm]
        exact zeros_out _ (v.weak i h hi).small x _ (v.foreign (fun e => hne e) hb hx)
  | construct i j =>
    cases hi : s.heaps i with
    | some h => simp only [HeapLinks.exec, hi] at e; cases e
    | none =>
      simp only [HeapLinks.exec, hi] at e
      obtain ⟨s1, e1, e⟩ := Res.bind_eq_ok.mp e
      cases e
      obtain ⟨⟨G', v'⟩, hm⟩ := (v.created hi).assign e1
      refine ⟨⟨G', ?_⟩, ?_, rfl⟩
      · by_cases hij : j = i
        · subst hij
          rw [tset_live_self, tset_bad_self] at v'
          have ht : ((t.set j [] false).set j [] false).set j [] false =
              (t.set j (t.live j) (t.bad j)).set j [] false := by
            unfold Track.set
            congr 1
            · funext k
              dsimp only
              by_cases ek : k = j <;> simp [ek]
            · funext k
              dsimp only
              by_cases ek : k = j <;> simp [ek]
          rw [ht] at v'
          exact v'
        · rw [tset_live_other _ _ _ hij, tset_bad_other _ _ _ hij] at v'
          have ht : (t.set i [] false).set i (t.live j) (t.bad j) = t.set i (t.live j) (t.bad j) := by
            unfold Track.set
            congr 1
            · funext k
              dsimp only
              by_cases ek : k = i <;> simp [ek]
            · funext k
              dsimp only
              by_cases ek : k = i <;> simp [ek]
          rw [ht] at v'
          exact v'
      · intro k b _ _ x _
        rw [hm]
        rfl
  | assign i j =>
    simp only [HeapLinks.exec] at e
    obtain ⟨s1, e1, e⟩ := Res.bind_eq_ok.mp e
    cases e
    obtain ⟨h1, hm⟩ := v.assign e1
    exact ⟨h1, fun _ _ _ _ _ _ => by rw [hm], rfl⟩
  | copy i j => cases ho
  | destroy i =>
    cases hi : s.heaps i with
    | none => simp only [HeapLinks.exec, hi] at e; cases e
    | some h =>
      obtain ⟨w', e1, hw, hf⟩ := destroy_spec v.inv.w (v.inv.rep i h hi)
      simp only [HeapLinks.exec, hi, e1, Res.ok_bind, Res.ok.injEq, Prod.mk.injEq] at e
      obtain ⟨rfl, rfl⟩ := e
      exact ⟨⟨_, v.set (live := []) (bad := false)
        (v.inv.freed hw hf (fun h hh => by cases hh)) (freed_links v.inv hf)
        (fun h hh => by cases hh) (fun _ => rfl)⟩,
        fun _ _ _ _ x _ => by show w'.mem x = _; rw [hf.mem], rfl⟩

theorem run_inv {sys : Sys} {s : State} {t : Track} (u : Run sys s t) : ∃ G, RInv s t G := by
  induction u with
  | start mem =>
    exact ⟨_, start_inv mem, fun i h hh => (by cases hh), fun i h hh => (by cases hh), fun _ _ => rfl⟩
  | create _ e ih => obtain ⟨G, v⟩ := ih; exact (v.exec (o := .create _) trivial e).1
  | get _ hb hn hq e ih =>
    obtain ⟨G, v⟩ := ih; exact (v.exec (o := .get _ _ _ _) ⟨hb, hn, hq⟩ e).1
  | refused _ hb hn hq e ih =>
    obtain ⟨G, v⟩ := ih; exact (v.exec (o := .get _ _ _ _) ⟨hb, hn, hq⟩ e).1
  | put _ hb e ih => obtain ⟨G, v⟩ := ih; exact (v.exec (o := .put _ _ _) hb e).1
  | clear _ e ih => obtain ⟨G, v⟩ := ih; exact (v.exec (o := .clear _) trivial e).1
  | construct _ e ih => obtain ⟨G, v⟩ := ih; exact (v.exec (o := .construct _ _) trivial e).1
  | assign _ e ih => obtain ⟨G, v⟩ := ih; exact (v.exec (o := .assign _ _) trivial e).1
  | destroy _ e ih => obtain ⟨G, v⟩ := ih; exact (v.exec (o := .destroy _) trivial e).1
  | write _ _ ih =>
    obtain ⟨G, v⟩ := ih
    refine ⟨G, ⟨?_, ?_, ?_, ?_, ?_⟩, ?_, ?_, v.gone⟩
    · exact v.inv.w.same (fun _ => rfl) rfl rfl
    · exact fun i h hh => (v.inv.rep i h hh).other (fun _ _ => rfl) (Nat.le_refl _)
    · exact v.inv.gone
    · exact v.inv.disj
    · exact v.inv.cover
    · intro i h hh hb
      exact inv_mem (v.good i h hh hb) _
    · intro i h hh
      exact inv'_mem (v.weak i h hh) _

end Srl.HeapLinks
