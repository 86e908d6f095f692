import Verif.Lemmas.HeapClear
import Verif.Props.HeapLinksSpec

/-! Several heaps in one memory -/

namespace Srl.HeapLinks

open Heap (Sys Hp Seg)
open Props (Track)

/-- Every object belongs to one heap. -/
structure SInv (s : State) (G : Nat → Ghost) : Prop where
  w : WInv s.w
  rep : ∀ i h, s.heaps i = some h → Rep s.w h (G i)
  gone : ∀ i, s.heaps i = none → G i = {}
  disj : ∀ i j p, p ∈ (G i).all → p ∈ (G j).all → i = j
  cover : ∀ p, s.w.links p ≠ none → ∃ i, p ∈ (G i).all

def upd {α : Type} (f : Nat → α) (i : Nat) (x : α) : Nat → α := fun j => if j = i then x else f j

theorem upd_self {α : Type} (f : Nat → α) (i : Nat) (x : α) : upd f i x i = x := if_pos rfl

theorem upd_other {α : Type} (f : Nat → α) {i j : Nat} (x : α) (h : j ≠ i) : upd f i x j = f j :=
  if_neg h

theorem set_self (s : State) (w : World) (i : Nat) (h : Option HeapObj) :
    (s.set w i h).heaps i = h := if_pos rfl

theorem set_other (s : State) (w : World) {i j : Nat} (h : Option HeapObj) (hj : j ≠ i) :
    (s.set w i h).heaps j = s.heaps j := if_neg hj

theorem start_inv (mem : Nat → UInt8) : SInv (start mem) fun _ => {} := by
  have hc : ∀ p, cell (start mem).w p = none := fun _ => rfl
  have ha : ∀ p, arrOf (start mem).w p = none := fun _ => rfl
  refine ⟨⟨?_, ?_, ?_, ?_, ?_, List.Pairwise.nil, ?_⟩, ?_, ?_, ?_, ?_⟩
  · intro p hp; exact absurd (hc p) hp
  · intro p c hp; rw [hc] at hp; cases hp
  · intro p q x y hx; rw [ha] at hx; cases hx
  · intro p x hx; rw [ha] at hx; cases hx
  · intro b hb; cases hb
  · intro b hb; cases hb
  · intro i h hh; cases hh
  · intro i _; rfl
  · intro i j p hp; cases hp
  · intro p hp; exact absurd rfl hp

theorem SInv.apart {s : State} {G : Nat → Ghost} (v : SInv s G) {i j p : Nat} (hij : j ≠ i)
    (hp : p ∈ (G j).all) : p ∉ (G i).all := fun h => hij (v.disj j i p hp h)

theorem SInv.old {s : State} {G : Nat → Ghost} (v : SInv s G) {j p : Nat}
    (hp : p ∈ (G j).all) : p < s.w.count := by
  cases h : s.heaps j with
  | none => rw [v.gone j h] at hp; cases hp
  | some hj => exact (v.rep j hj h).bound p hp

/-- The objects of the other heaps are not touched. -/
theorem SInv.links {s : State} {G : Nat → Ghost} (v : SInv s G) {i : Nat} {w' : World} {g' : Ghost}
    (st : Step s.w (G i) w' g') {j : Nat} (hij : j ≠ i) :
    ∀ p ∈ (G j).all, w'.links p = s.w.links p := by
  intro p hp
  refine st.frame p ?_
  intro hm
  rcases st.fresh p hm with hm | hm
  · exact v.apart hij hp hm
  · have := v.old hp; omega

/-- An operation on one heap -/
theorem SInv.step {s : State} {G : Nat → Ghost} (v : SInv s G) {i : Nat} {w' : World}
    {h' : HeapObj} {g' : Ghost} (hw : WInv w') (hr : Rep w' h' g')
    (st : Step s.w (G i) w' g') : SInv (s.set w' i (some h')) (upd G i g') := by
  refine ⟨hw, ?_, ?_, ?_, ?_⟩
  · intro j h hh
    by_cases e : j = i
    · subst e
      rw [set_self] at hh
      cases hh
      rw [upd_self]
      exact hr
    · rw [set_other _ _ _ e] at hh
      rw [upd_other _ _ e]
      exact (v.rep j h hh).other (v.links st e) st.count
  · intro j hh
    by_cases e : j = i
    · subst e; rw [set_self] at hh; cases hh
    · rw [set_other _ _ _ e] at hh
      rw [upd_other _ _ e]
      exact v.gone j hh
  · have key : ∀ k p, k ≠ i → p ∈ (G k).all → p ∉ g'.all := by
      intro k p e hp hm
      rcases st.fresh p hm with hm | hm
      · exact v.apart e hp hm
      · have := v.old hp; omega
    intro j k p hj hk
    by_cases ej : j = i
    · by_cases ek : k = i
      · rw [ej, ek]
      · subst ej
        rw [upd_self] at hj
        rw [upd_other _ _ ek] at hk
        exact absurd hj (key k p ek hk)
    · by_cases ek : k = i
      · subst ek
        rw [upd_self] at hk
        rw [upd_other _ _ ej] at hj
        exact absurd hk (key j p ej hj)
      · rw [upd_other _ _ ej] at hj
        rw [upd_other _ _ ek] at hk
        exact v.disj j k p hj hk
  · intro p hp
    by_cases hm : p ∈ g'.all
    · exact ⟨i, by rw [upd_self]; exact hm⟩
    · have hp : w'.links p ≠ none := hp
      rw [st.frame p hm] at hp
      obtain ⟨j, hj⟩ := v.cover p hp
      by_cases e : j = i
      · subst e; exact absurd (st.keep p hj) hm
      · exact ⟨j, by rw [upd_other _ _ e]; exact hj⟩

theorem empty_rep (w : World) {cap : Nat} (h : ∃ k, k ≤ 18 ∧ cap = 2 ^ k) :
    Rep w { cap := cap } {} :=
  ⟨IsList.empty _ _, IsList.empty _ _, IsList.empty _ _, IsList.empty _ _, List.nodup_nil,
    List.nodup_nil, fun p hp => (by cases hp), fun p hp => (by cases hp), rfl,
    fun p hp => (by cases hp), fun p hp => (by cases hp), fun p hp => (by cases hp), h⟩

/-- The objects of a heap are deleted; the heap is gone or empty. -/
theorem SInv.freed {s : State} {G : Nat → Ghost} (v : SInv s G) {i : Nat} {w' : World}
    {x : Option HeapObj} (hw : WInv w') (hf : Freed s.w w' (G i).all)
    (hx : ∀ h, x = some h → Rep w' h {}) : SInv (s.set w' i x) (upd G i {}) := by
  have hlinks : ∀ j, j ≠ i → ∀ p ∈ (G j).all, w'.links p = s.w.links p := fun j e p hp =>
    hf.frame p (v.apart e hp)
  refine ⟨hw, ?_, ?_, ?_, ?_⟩
  · intro j h hh
    by_cases e : j = i
    · subst e
      rw [set_self] at hh
      rw [upd_self]
      exact hx h hh
    · rw [set_other _ _ _ e] at hh
      rw [upd_other _ _ e]
      exact (v.rep j h hh).other (hlinks j e) (Nat.le_of_eq hf.count.symm)
  · intro j hh
    by_cases e : j = i
    · subst e; rw [upd_self]
    · rw [set_other _ _ _ e] at hh
      rw [upd_other _ _ e]
      exact v.gone j hh
  · intro j k p hj hk
    by_cases ej : j = i
    · subst ej; rw [upd_self] at hj; cases hj
    · by_cases ek : k = i
      · subst ek; rw [upd_self] at hk; cases hk
      · rw [upd_other _ _ ej] at hj
        rw [upd_other _ _ ek] at hk
        exact v.disj j k p hj hk
  · intro p hp
    have hp : w'.links p ≠ none := hp
    by_cases hm : p ∈ (G i).all
    · exact absurd (hf.gone p hm) hp
    · rw [hf.frame p hm] at hp
      obtain ⟨j, hj⟩ := v.cover p hp
      by_cases e : j = i
      · subst e; exact absurd hj hm
      · exact ⟨j, by rw [upd_other _ _ e]; exact hj⟩

/-- The objects of `j` now are those of `i`, which had none. -/
theorem SInv.moved {s : State} {G : Nat → Ghost} (v : SInv s G) {i j : Nat} {m : HeapObj}
    (hij : i ≠ j) (hj : s.heaps j = some m) (hi : (G i).all = []) :
    SInv ((s.set s.w i (some m)).set s.w j (some m.left)) (upd (upd G i (G j)) j {}) := by
  have r := v.rep j m hj
  refine ⟨v.w, ?_, ?_, ?_, ?_⟩
  · intro k h hh
    by_cases ek : k = j
    · subst ek
      rw [set_self] at hh
      cases hh
      rw [upd_self]
      exact empty_rep _ r.cap
    · rw [set_other _ _ _ ek] at hh
      rw [upd_other _ _ ek]
      by_cases ei : k = i
      · subst ei
        rw [set_self] at hh
        cases hh
        rw [upd_self]
        exact r
      · rw [set_other _ _ _ ei] at hh
        rw [upd_other _ _ ei]
        exact v.rep k h hh
  · intro k hh
    by_cases ek : k = j
    · subst ek; rw [upd_self]
    · rw [set_other _ _ _ ek] at hh
      rw [upd_other _ _ ek]
      by_cases ei : k = i
      · subst ei; rw [set_self] at hh; cases hh
      · rw [set_other _ _ _ ei] at hh
        rw [upd_other _ _ ei]
        exact v.gone k hh
  · intro k l p hk hl
    by_cases ek : k = j
    · subst ek; rw [upd_self] at hk; cases hk
    by_cases el : l = j
    · subst el; rw [upd_self] at hl; cases hl
    rw [upd_other _ _ ek] at hk
    rw [upd_other _ _ el] at hl
    by_cases ei : k = i
    · by_cases fi : l = i
      · rw [ei, fi]
      · subst ei
        rw [upd_self] at hk
        rw [upd_other _ _ fi] at hl
        exact absurd (v.disj j l p hk hl).symm el
    · by_cases fi : l = i
      · subst fi
        rw [upd_self] at hl
        rw [upd_other _ _ ei] at hk
        exact absurd (v.disj k j p hk hl) ek
      · rw [upd_other _ _ ei] at hk
        rw [upd_other _ _ fi] at hl
        exact v.disj k l p hk hl
  · intro p hp
    obtain ⟨k, hk⟩ := v.cover p hp
    by_cases ek : k = j
    · subst ek
      exact ⟨i, by rw [upd_other _ _ hij, upd_self]; exact hk⟩
    · by_cases ei : k = i
      · subst ei; rw [hi] at hk; cases hk
      · exact ⟨k, by rw [upd_other _ _ ek, upd_other _ _ ei]; exact hk⟩

/-- Move assignment -/
theorem assign_spec {s : State} {G : Nat → Ghost} (v : SInv s G) {i j : Nat} {t m : HeapObj}
    (hi : s.heaps i = some t) (hj : s.heaps j = some m) :
    ∃ w', WInv w' ∧ Freed s.w w' (G i).all ∧
      ((i = j ∧ assign s i j = .ok (s.set w' i (some { cap := t.cap })) ∧
        SInv (s.set w' i (some { cap := t.cap })) (upd G i {})) ∨
      (i ≠ j ∧
        assign s i j = .ok (((s.set w' i (some { cap := t.cap })).set w' i (some m)).set w' j (some m.left)) ∧
        SInv (((s.set w' i (some { cap := t.cap })).set w' i (some m)).set w' j (some m.left))
          (upd (upd (upd G i {}) i (G j)) j {}))) := by
  have r := v.rep i t hi
  obtain ⟨w', e, hw, hf⟩ := destroy_spec v.w r
  have v1 : SInv (s.set w' i (some { cap := t.cap })) (upd G i {}) :=
    v.freed hw hf fun h hh => by cases hh; exact empty_rep _ r.cap
  refine ⟨w', hw, hf, ?_⟩
  by_cases hij : i = j
  · refine .inl ⟨hij, ?_, v1⟩
    subst hij
    unfold assign
    rw [hi]
    simp only [e, Res.ok_bind, set_self]
    congr 1
    unfold State.set
    congr 1
    funext k
    dsimp only
    by_cases ek : k = i
    · rw [if_pos ek, if_pos ek]; rfl
    · simp only [if_neg ek]
  · refine .inr ⟨hij, ?_, ?_⟩
    · unfold assign
      rw [hi]
      have hj1 : (s.set w' i (some { cap := t.cap })).heaps j = some m := by
        rw [set_other _ _ _ (Ne.symm hij)]; exact hj
      simp only [e, Res.ok_bind, hj1]
    · have hj1 : (s.set w' i (some { cap := t.cap })).heaps j = some m := by
        rw [set_other _ _ _ (Ne.symm hij)]; exact hj
      have := v1.moved hij hj1 (by rw [upd_self]; rfl)
      rw [upd_other _ _ (Ne.symm hij)] at this
      exact this

/-- A heap has nothing yet. -/
theorem SInv.created {s : State} {G : Nat → Ghost} (v : SInv s G) {i : Nat}
    (hi : s.heaps i = none) : SInv (s.set s.w i (some {})) G := by
  refine ⟨v.w, ?_, ?_, v.disj, v.cover⟩
  · intro j h hh
    by_cases e : j = i
    · subst e
      rw [set_self] at hh
      cases hh
      rw [v.gone j hi]
      exact empty_rep _ ⟨8, by omega, rfl⟩
    · rw [set_other _ _ _ e] at hh
      exact v.rep j h hh
  · intro j hh
    by_cases e : j = i
    · subst e; rw [set_self] at hh; cases hh
    · rw [set_other _ _ _ e] at hh
      exact v.gone j hh

end Srl.HeapLinks
