import Verif.Props.TypedSpec
import Verif.Lemmas.Doc

namespace Srl

/-- The nodes made of the scopes among items. -/
def nodesOf (items : List Item) : List (Bytes × Node) :=
  (scopesOf items).map (fun x => (x.1, .mk x.2.1 (Item.contentL x.2.2).1 (Item.contentL x.2.2).2))

theorem scopesOf_append (a b : List Item) : scopesOf (a ++ b) = scopesOf a ++ scopesOf b := by
  induction a with
  | nil => rfl
  | cons i a ih => cases i <;> simp [scopesOf, ih]

theorem valuesOf_append (a b : List Item) : valuesOf (a ++ b) = valuesOf a ++ valuesOf b := by
  induction a with
  | nil => rfl
  | cons i a ih => cases i <;> simp [valuesOf, ih]

theorem nodesOf_append (a b : List Item) : nodesOf (a ++ b) = nodesOf a ++ nodesOf b := by
  simp [nodesOf, scopesOf_append]

theorem contentL_eq (items : List Item) : Item.contentL items = (valuesOf items, nodesOf items) := by
  induction items with
  | nil => rfl
  | cons i is ih =>
    cases i with
    | val n v => simp [Item.contentL, Item.addTo, ih, valuesOf, nodesOf, scopesOf]
    | scope n t kids =>
      simp only [Item.contentL, Item.addTo, ih, valuesOf, nodesOf, scopesOf, List.map_cons]

theorem depthL_append (a b : List Item) :
    Item.depthL (a ++ b) = max (Item.depthL a) (Item.depthL b) := by
  induction a with
  | nil => simp [Item.depthL]
  | cons i a ih => simp only [List.cons_append, Item.depthL, ih]; omega

namespace Typed

variable {σ : Type}

/-- `n` with the items stored. -/
def LNode.add (n : LNode) (a : List Item) : LNode :=
  { n with values := n.values ++ valuesOf a, nodes := n.nodes ++ nodesOf a }

@[simp] theorem LNode.add_nil (n : LNode) : n.add [] = n := by
  simp [LNode.add, valuesOf, nodesOf, scopesOf]

@[simp] theorem LNode.add_parsed (n : LNode) (a : List Item) : (n.add a).parsed = n.parsed := rfl
@[simp] theorem LNode.add_type (n : LNode) (a : List Item) : (n.add a).type = n.type := rfl

theorem LNode.addValue_add (n : LNode) (nm : Bytes) (v : Val) (a : List Item) :
    (n.addValue nm v).add a = n.add (.val nm v :: a) := by
  simp [LNode.add, LNode.addValue, valuesOf, nodesOf, scopesOf]

theorem LNode.addNode_add (n : LNode) (nm : Bytes) (t : ScopeTy) (kids a : List Item) :
    (n.addNode nm (.mk t (Item.contentL kids).1 (Item.contentL kids).2)).add a
      = n.add (.scope nm t kids :: a) := by
  simp [LNode.add, LNode.addNode, valuesOf, nodesOf, scopesOf]

open Doc in
/-- The tokens of a scope item that comes first. -/
theorem emits_scope {read : σ → Res (Event × σ)} {s s' : σ} {nm : Bytes} {t : ScopeTy}
    {kids post : List Item}
    (he : Emits read s (Item.eventsL (.scope nm t kids :: post) ++ [⟨[], .scopeEnd⟩]) s') :
    ∃ s1 s2, read s = .ok (⟨nm, .scope t⟩, s1) ∧
      Emits read s1 (Item.eventsL kids ++ [⟨[], .scopeEnd⟩]) s2 ∧
      Emits read s2 (Item.eventsL post ++ [⟨[], .scopeEnd⟩]) s' := by
  simp only [Item.eventsL, Item.events, List.cons_append, List.append_assoc] at he
  obtain ⟨s1, h1, h2⟩ := Emits.cons_inv he
  rw [← List.singleton_append, ← List.append_assoc] at h2
  obtain ⟨s2, h2, h3⟩ := emits_append.mp h2
  exact ⟨s1, s2, h1, h2, h3⟩

open Doc in
theorem emits_val {read : σ → Res (Event × σ)} {s s' : σ} {nm : Bytes} {v : Val}
    {post : List Item}
    (he : Emits read s (Item.eventsL (.val nm v :: post) ++ [⟨[], .scopeEnd⟩]) s') :
    ∃ s1, read s = .ok (⟨nm, .val v⟩, s1) ∧
      Emits read s1 (Item.eventsL post ++ [⟨[], .scopeEnd⟩]) s' := by
  simp only [Item.eventsL, Item.events, List.cons_append, List.nil_append] at he
  exact Emits.cons_inv he

theorem eventsL_scope_length (nm : Bytes) (t : ScopeTy) (kids post : List Item) :
    (Item.eventsL (.scope nm t kids :: post)).length
      = (Item.eventsL kids).length + (Item.eventsL post).length + 2 := by
  simp [Item.eventsL, Item.events]; omega

theorem eventsL_val_length (nm : Bytes) (v : Val) (post : List Item) :
    (Item.eventsL (.val nm v :: post)).length = (Item.eventsL post).length + 1 := by
  simp [Item.eventsL, Item.events]

open Doc

/-- The tokens left of a scope with the items `post` left. -/
abbrev Left (read : σ → Res (Event × σ)) (post : List Item) (s s' : σ) : Prop :=
  Emits read s (Item.eventsL post ++ [⟨[], .scopeEnd⟩]) s'

theorem seekNode_spec (read : σ → Res (Event × σ)) (sel : Sel) (post : List Item) :
    ∀ (fuel : Nat) (n : LNode) (s s' : σ), n.parsed = false → Left read post s s' →
      (Item.eventsL post).length < fuel → Item.depthL post ≤ maxDepth →
      (∃ a nm t kids b s1 s2, post = a ++ .scope nm t kids :: b ∧ sel.hits nm = true ∧
        (∀ x ∈ scopesOf a, sel.hits x.1 = false) ∧
        seekNode read fuel sel n s = .ok (some (nm, t), n.add a, s1) ∧ Left read kids s1 s2 ∧
        Left read b s2 s') ∨
      ((∀ x ∈ scopesOf post, sel.hits x.1 = false) ∧
        seekNode read fuel sel n s = .ok (none, { n.add post with parsed := true }, s')) := by
  induction post with
  | nil =>
    intro fuel n s s' hp he hf _
    obtain ⟨fuel, rfl⟩ : ∃ k, fuel = k + 1 := ⟨fuel - 1, by omega⟩
    obtain ⟨s1, h1, h2⟩ := Emits.cons_inv he
    cases h2
    right
    refine ⟨by simp [scopesOf], ?_⟩
    simp [seekNode, hp, h1]
  | cons i post ih =>
    intro fuel n s s' hp he hf hd
    obtain ⟨fuel, rfl⟩ : ∃ k, fuel = k + 1 := ⟨fuel - 1, by omega⟩
    cases i with
    | val nm v =>
      obtain ⟨s1, h1, h2⟩ := emits_val he
      rw [eventsL_val_length] at hf
      simp only [Item.depthL, Item.depth] at hd
      have e : seekNode read (fuel + 1) sel n s = seekNode read fuel sel (n.addValue nm v) s1 := by
        simp [seekNode, hp, h1]
      rw [e]
      rcases ih fuel (n.addValue nm v) s1 s' hp h2 (by omega) (by omega) with
        ⟨a, nm', t, kids, b, s2, s3, hpost, hh, hno, hs, hk, hb⟩ | ⟨hno, hs⟩
      · left
        refine ⟨.val nm v :: a, nm', t, kids, b, s2, s3, by rw [hpost]; rfl, hh, hno, ?_, hk, hb⟩
        rw [hs, LNode.addValue_add]
      · right
        exact ⟨hno, by rw [hs, LNode.addValue_add]⟩
    | scope nm t kids =>
      obtain ⟨s1, s2, h1, h2, h3⟩ := emits_scope he
      rw [eventsL_scope_length] at hf
      simp only [Item.depthL, Item.depth] at hd
      by_cases hh : sel.hits nm = true
      · left
        refine ⟨[], nm, t, kids, post, s1, s2, rfl, hh, by simp [scopesOf], ?_, h2, h3⟩
        simp [seekNode, hp, h1, hh]
      · have hh : sel.hits nm = false := by simpa using hh
        have e1 := readScope_items read kids fuel 0 s1 s2 h2 (by omega) (by omega)
        have e : seekNode read (fuel + 1) sel n s = seekNode read fuel sel
            (n.addNode nm (.mk t (Item.contentL kids).1 (Item.contentL kids).2)) s2 := by
          simp [seekNode, hp, h1, hh, e1]
        rw [e]
        rcases ih fuel (n.addNode nm (.mk t (Item.contentL kids).1 (Item.contentL kids).2)) s2 s' hp h3
            (by omega) (by omega) with
          ⟨a, nm', t', kids', b, s3, s4, hpost, hh', hno, hs, hk, hb⟩ | ⟨hno, hs⟩
        · left
          refine ⟨.scope nm t kids :: a, nm', t', kids', b, s3, s4, by rw [hpost]; rfl, hh', ?_, ?_,
            hk, hb⟩
          · intro x hx
            simp only [scopesOf, List.mem_cons] at hx
            rcases hx with rfl | hx
            · exact hh
            · exact hno x hx
          · rw [hs, LNode.addNode_add]
        · right
          refine ⟨?_, by rw [hs, LNode.addNode_add]⟩
          intro x hx
          simp only [scopesOf, List.mem_cons] at hx
          rcases hx with rfl | hx
          · exact hh
          · exact hno x hx

theorem seekValue_spec (read : σ → Res (Event × σ)) (sel : Sel) (post : List Item) :
    ∀ (fuel : Nat) (n : LNode) (s s' : σ), n.parsed = false → Left read post s s' →
      (Item.eventsL post).length < fuel → Item.depthL post ≤ maxDepth →
      (∃ a nm v b s1, post = a ++ .val nm v :: b ∧ sel.hits nm = true ∧
        (∀ x ∈ valuesOf a, sel.hits x.1 = false) ∧
        seekValue read fuel sel n s = .ok (some (nm, v), n.add a, s1) ∧ Left read b s1 s') ∨
      ((∀ x ∈ valuesOf post, sel.hits x.1 = false) ∧
        seekValue read fuel sel n s = .ok (none, { n.add post with parsed := true }, s')) := by
  induction post with
  | nil =>
    intro fuel n s s' hp he hf _
    obtain ⟨fuel, rfl⟩ : ∃ k, fuel = k + 1 := ⟨fuel - 1, by omega⟩
    obtain ⟨s1, h1, h2⟩ := Emits.cons_inv he
    cases h2
    right
    refine ⟨by simp [valuesOf], ?_⟩
    simp [seekValue, hp, h1]
  | cons i post ih =>
    intro fuel n s s' hp he hf hd
    obtain ⟨fuel, rfl⟩ : ∃ k, fuel = k + 1 := ⟨fuel - 1, by omega⟩
    cases i with
    | val nm v =>
      obtain ⟨s1, h1, h2⟩ := emits_val he
      rw [eventsL_val_length] at hf
      simp only [Item.depthL, Item.depth] at hd
      by_cases hh : sel.hits nm = true
      · left
        refine ⟨[], nm, v, post, s1, rfl, hh, by simp [valuesOf], ?_, h2⟩
        simp [seekValue, hp, h1, hh]
      · have hh : sel.hits nm = false := by simpa using hh
        have e : seekValue read (fuel + 1) sel n s = seekValue read fuel sel (n.addValue nm v) s1 := by
          simp [seekValue, hp, h1, hh]
        rw [e]
        rcases ih fuel (n.addValue nm v) s1 s' hp h2 (by omega) (by omega) with
          ⟨a, nm', v', b, s2, hpost, hh', hno, hs, hb⟩ | ⟨hno, hs⟩
        · left
          refine ⟨.val nm v :: a, nm', v', b, s2, by rw [hpost]; rfl, hh', ?_, ?_, hb⟩
          · intro x hx
            simp only [valuesOf, List.mem_cons] at hx
            rcases hx with rfl | hx
            · exact hh
            · exact hno x hx
          · rw [hs, LNode.addValue_add]
        · right
          refine ⟨?_, by rw [hs, LNode.addValue_add]⟩
          intro x hx
          simp only [valuesOf, List.mem_cons] at hx
          rcases hx with rfl | hx
          · exact hh
          · exact hno x hx
    | scope nm t kids =>
      obtain ⟨s1, s2, h1, h2, h3⟩ := emits_scope he
      rw [eventsL_scope_length] at hf
      simp only [Item.depthL, Item.depth] at hd
      have e1 := readScope_items read kids fuel 0 s1 s2 h2 (by omega) (by omega)
      have e : seekValue read (fuel + 1) sel n s = seekValue read fuel sel
          (n.addNode nm (.mk t (Item.contentL kids).1 (Item.contentL kids).2)) s2 := by
        simp [seekValue, hp, h1, e1]
      rw [e]
      rcases ih fuel (n.addNode nm (.mk t (Item.contentL kids).1 (Item.contentL kids).2)) s2 s' hp h3
          (by omega) (by omega) with
        ⟨a, nm', v', b, s3, hpost, hh', hno, hs, hb⟩ | ⟨hno, hs⟩
      · left
        refine ⟨.scope nm t kids :: a, nm', v', b, s3, by rw [hpost]; rfl, hh', hno, ?_, hb⟩
        rw [hs, LNode.addNode_add]
      · right
        exact ⟨hno, by rw [hs, LNode.addNode_add]⟩

theorem seekItem_spec (read : σ → Res (Event × σ)) (name : Bytes) (post : List Item) :
    ∀ (fuel : Nat) (n : LNode) (s s' : σ), n.parsed = false → Left read post s s' →
      (Item.eventsL post).length < fuel → Item.depthL post ≤ maxDepth →
      (∃ a x b s1, post = a ++ x :: b ∧ itemName x = name ∧
        seekItem read fuel name n s = .ok (some (itemScope x), n.add (a ++ [x]), s1) ∧
        Left read b s1 s') ∨
      ((∀ x ∈ post, itemName x ≠ name) ∧
        seekItem read fuel name n s = .ok (none, { n.add post with parsed := true }, s')) := by
  induction post with
  | nil =>
    intro fuel n s s' hp he hf _
    obtain ⟨fuel, rfl⟩ : ∃ k, fuel = k + 1 := ⟨fuel - 1, by omega⟩
    obtain ⟨s1, h1, h2⟩ := Emits.cons_inv he
    cases h2
    right
    refine ⟨by simp, ?_⟩
    simp [seekItem, hp, h1]
  | cons i post ih =>
    intro fuel n s s' hp he hf hd
    obtain ⟨fuel, rfl⟩ : ∃ k, fuel = k + 1 := ⟨fuel - 1, by omega⟩
    cases i with
    | val nm v =>
      obtain ⟨s1, h1, h2⟩ := emits_val he
      rw [eventsL_val_length] at hf
      simp only [Item.depthL, Item.depth] at hd
      by_cases hh : nm = name
      · left
        refine ⟨[], .val nm v, post, s1, rfl, hh, ?_, h2⟩
        have ha : n.add ([] ++ [.val nm v]) = n.addValue nm v := by
          rw [List.nil_append, ← LNode.addValue_add, LNode.add_nil]
        simp [seekItem, hp, h1, hh, itemScope]
        rw [List.nil_append, hh] at ha
        exact ha.symm
      · have e : seekItem read (fuel + 1) name n s = seekItem read fuel name (n.addValue nm v) s1 := by
          simp [seekItem, hp, h1, hh]
        rw [e]
        rcases ih fuel (n.addValue nm v) s1 s' hp h2 (by omega) (by omega) with
          ⟨a, x, b, s2, hpost, hh', hs, hb⟩ | ⟨hno, hs⟩
        · left
          refine ⟨.val nm v :: a, x, b, s2, by rw [hpost]; rfl, hh', ?_, hb⟩
          rw [hs, LNode.addValue_add, List.cons_append]
        · right
          refine ⟨?_, by rw [hs, LNode.addValue_add]⟩
          intro x hx
          rcases List.mem_cons.mp hx with rfl | hx
          · exact hh
          · exact hno x hx
    | scope nm t kids =>
      obtain ⟨s1, s2, h1, h2, h3⟩ := emits_scope he
      rw [eventsL_scope_length] at hf
      simp only [Item.depthL, Item.depth] at hd
      have e1 := readScope_items read kids fuel 0 s1 s2 h2 (by omega) (by omega)
      by_cases hh : nm = name
      · left
        refine ⟨[], .scope nm t kids, post, s2, rfl, hh, ?_, h3⟩
        have ha : n.add ([] ++ [.scope nm t kids])
            = n.addNode nm (.mk t (Item.contentL kids).1 (Item.contentL kids).2) := by
          rw [List.nil_append, ← LNode.addNode_add, LNode.add_nil]
        simp [seekItem, hp, h1, hh, itemScope, e1]
        rw [List.nil_append, hh] at ha
        exact ha.symm
      · have e : seekItem read (fuel + 1) name n s = seekItem read fuel name
            (n.addNode nm (.mk t (Item.contentL kids).1 (Item.contentL kids).2)) s2 := by
          simp [seekItem, hp, h1, e1, hh]
        rw [e]
        rcases ih fuel (n.addNode nm (.mk t (Item.contentL kids).1 (Item.contentL kids).2)) s2 s' hp h3
            (by omega) (by omega) with
          ⟨a, x, b, s3, hpost, hh', hs, hb⟩ | ⟨hno, hs⟩
        · left
          refine ⟨.scope nm t kids :: a, x, b, s3, by rw [hpost]; rfl, hh', ?_, hb⟩
          rw [hs, LNode.addNode_add, List.cons_append]
        · right
          refine ⟨?_, by rw [hs, LNode.addNode_add]⟩
          intro x hx
          rcases List.mem_cons.mp hx with rfl | hx
          · exact hh
          · exact hno x hx

/-- Skipping a rest without scopes. -/
theorem skipScope_flat (read : σ → Res (Event × σ)) (post : List Item) :
    ∀ (fuel : Nat) (s s' : σ), scopesOf post = [] → Left read post s s' →
      (Item.eventsL post).length < fuel → skipScope read fuel 0 s = .ok s' := by
  induction post with
  | nil =>
    intro fuel s s' _ he hf
    obtain ⟨fuel, rfl⟩ : ∃ k, fuel = k + 1 := ⟨fuel - 1, by omega⟩
    obtain ⟨s1, h1, h2⟩ := Emits.cons_inv he
    cases h2
    simp [skipScope, h1]
  | cons i post ih =>
    intro fuel s s' hs he hf
    obtain ⟨fuel, rfl⟩ : ∃ k, fuel = k + 1 := ⟨fuel - 1, by omega⟩
    cases i with
    | val nm v =>
      obtain ⟨s1, h1, h2⟩ := emits_val he
      rw [eventsL_val_length] at hf
      simp only [skipScope, h1, Res.ok_bind]
      exact ih fuel s1 s' hs h2 (by omega)
    | scope nm t kids => cases hs

mutual
/-- Skipping passes whole items as long as a scope is open. -/
theorem skipScope_item (read : σ → Res (Event × σ)) : ∀ (i : Item) (fuel : Nat) (d : Int) (s s1 : σ), 1 ≤ d →
    Emits read s i.events s1 →
    skipScope read (fuel + i.events.length) d s = skipScope read fuel d s1
  | .val nm v, fuel, d, s, s1, hd, he => by
    obtain ⟨s2, h1, h2⟩ := Emits.cons_inv he
    cases h2
    simp [Item.events, skipScope, h1]
  | .scope nm t kids, fuel, d, s, s1, hd, he => by
    simp only [Item.events] at he ⊢
    obtain ⟨s2, h1, h2⟩ := Emits.cons_inv he
    obtain ⟨s3, h3, h4⟩ := emits_append.mp h2
    obtain ⟨s4, h5, h6⟩ := Emits.cons_inv h4
    cases h6
    have e1 : fuel + (⟨nm, .scope t⟩ :: (Item.eventsL kids ++ [⟨[], .scopeEnd⟩]) : List Event).length
        = (fuel + 1 + (Item.eventsL kids).length) + 1 := by simp; omega
    rw [e1, skipScope, h1]
    simp only [Res.ok_bind]
    rw [skipScope_items read kids (fuel + 1) (d + 1) s2 s3 (by omega) h3, skipScope, h5]
    simp only [Res.ok_bind]
    rw [if_neg (by omega)]
    congr 1
    omega
theorem skipScope_items (read : σ → Res (Event × σ)) : ∀ (is : List Item) (fuel : Nat) (d : Int) (s s1 : σ),
    1 ≤ d → Emits read s (Item.eventsL is) s1 →
    skipScope read (fuel + (Item.eventsL is).length) d s = skipScope read fuel d s1
  | [], fuel, d, s, s1, hd, he => by
    cases he
    rfl
  | i :: is, fuel, d, s, s1, hd, he => by
    simp only [Item.eventsL] at he ⊢
    obtain ⟨s2, h1, h2⟩ := emits_append.mp he
    rw [List.length_append, Nat.add_comm i.events.length, ← Nat.add_assoc,
      skipScope_item read i _ d s s2 hd h1, skipScope_items read is fuel d s2 s1 hd h2]
end

/-- Skipping a rest with a scope ends behind the first scope. -/
theorem skipScope_first (read : σ → Res (Event × σ)) (nm : Bytes) (t : ScopeTy) (kids b a : List Item) :
    ∀ (fuel : Nat) (s s' : σ), scopesOf a = [] → Left read (a ++ .scope nm t kids :: b) s s' →
      (Item.eventsL (a ++ .scope nm t kids :: b)).length < fuel →
      ∃ s2, skipScope read fuel 0 s = .ok s2 ∧ Left read b s2 s' := by
  induction a with
  | nil =>
    intro fuel s s' _ he hf
    obtain ⟨s1, s2, h1, h2, h3⟩ := emits_scope he
    obtain ⟨s3, h4, h5⟩ := emits_append.mp h2
    obtain ⟨s4, h6, h7⟩ := Emits.cons_inv h5
    cases h7
    rw [List.nil_append, eventsL_scope_length] at hf
    obtain ⟨f, rfl⟩ : ∃ f, fuel = (f + 1 + (Item.eventsL kids).length) + 1 :=
      ⟨fuel - (Item.eventsL kids).length - 2, by omega⟩
    refine ⟨s2, ?_, h3⟩
    rw [skipScope, h1]
    simp only [Res.ok_bind]
    rw [skipScope_items read kids (f + 1) (0 + 1) s1 s3 (by omega) h4, skipScope, h6]
    simp
  | cons i a ih =>
    intro fuel s s' hs he hf
    cases i with
    | scope => cases hs
    | val nm' v =>
      obtain ⟨s1, h1, h2⟩ := emits_val he
      obtain ⟨fuel, rfl⟩ : ∃ k, fuel = k + 1 := ⟨fuel - 1, by omega⟩
      rw [List.cons_append, eventsL_val_length] at hf
      simp only [skipScope, h1, Res.ok_bind]
      exact ih fuel s1 s' hs h2 (by omega)

end Typed
end Srl
