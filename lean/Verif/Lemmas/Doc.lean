import Verif.Model.Doc

namespace Srl

mutual
/-- Adding an item in front of the content of a scope. -/
def Item.addTo : Item → Doc.Content → Doc.Content
  | .val n v, (vs, ns) => ((n, v) :: vs, ns)
  | .scope n t kids, (vs, ns) => (vs, (n, .mk t (Item.contentL kids).1 (Item.contentL kids).2) :: ns)
/-- What a sequence of items is as content of a `Node`: values and nodes are kept apart. -/
def Item.contentL : List Item → Doc.Content
  | [] => ([], [])
  | i :: is => i.addTo (Item.contentL is)
end

mutual
/-- Number of nested scopes. -/
def Item.depth : Item → Nat
  | .val _ _ => 0
  | .scope _ _ kids => Item.depthL kids + 1
def Item.depthL : List Item → Nat
  | [] => 0
  | i :: is => max i.depth (Item.depthL is)
end

namespace Doc
variable {σ : Type}

/-- Reading from `s` gives the tokens `es` and leads to `s'`. -/
inductive Emits (read : σ → Res (Event × σ)) : σ → List Event → σ → Prop
  | nil (s) : Emits read s [] s
  | cons {s s1 s2 e es} : read s = .ok (e, s1) → Emits read s1 es s2 → Emits read s (e :: es) s2

theorem Emits.cons_inv {read : σ → Res (Event × σ)} {s s2 : σ} {e : Event} {es : List Event}
    (h : Emits read s (e :: es) s2) : ∃ s1, read s = .ok (e, s1) ∧ Emits read s1 es s2 := by
  cases h with
  | cons h1 h2 => exact ⟨_, h1, h2⟩

theorem Emits.nil_inv {read : σ → Res (Event × σ)} {s s2 : σ}
    (h : Emits read s [] s2) : s = s2 := by
  cases h; rfl

theorem emits_append {read : σ → Res (Event × σ)} {s s2 : σ} {a b : List Event} :
    Emits read s (a ++ b) s2 ↔ ∃ s1, Emits read s a s1 ∧ Emits read s1 b s2 := by
  induction a generalizing s with
  | nil =>
    constructor
    · intro h; exact ⟨s, .nil s, h⟩
    · rintro ⟨s1, h1, h2⟩; rw [h1.nil_inv]; exact h2
  | cons e a ih =>
    constructor
    · intro h
      obtain ⟨s1, h1, h2⟩ := Emits.cons_inv h
      obtain ⟨s3, h3, h4⟩ := ih.mp h2
      exact ⟨s3, .cons h1 h3, h4⟩
    · rintro ⟨s1, h1, h2⟩
      obtain ⟨s3, h3, h4⟩ := h1.cons_inv
      exact .cons h3 (ih.mpr ⟨s1, h4, h2⟩)

/-- Reading a scope whose tokens are those of `kids`. -/
theorem readScope_items (read : σ → Res (Event × σ)) (kids : List Item) :
    ∀ (fuel d : Nat) (s s' : σ), Emits read s (Item.eventsL kids ++ [⟨[], .scopeEnd⟩]) s' →
      (Item.eventsL kids).length < fuel → Item.depthL kids + d ≤ maxDepth →
      readScope read fuel d s = .ok (Item.contentL kids, s') := by
  intro fuel d s s' he hf hd
  match fuel, kids with
  | 0, _ => omega
  | fuel + 1, [] =>
    obtain ⟨s1, h1, h2⟩ := Emits.cons_inv he
    cases h2
    simp [readScope, h1, Item.contentL]
  | fuel + 1, .val n v :: is =>
    simp only [Item.eventsL, Item.events, List.cons_append, List.nil_append] at he
    obtain ⟨s1, h1, h2⟩ := Emits.cons_inv he
    simp only [Item.eventsL, Item.events, List.singleton_append, List.length_cons] at hf
    simp only [Item.depthL, Item.depth] at hd
    have := readScope_items read is fuel d s1 s' h2 (by omega) (by omega)
    simp [readScope, h1, this, Item.contentL, Item.addTo]
  | fuel + 1, .scope n t ks :: is =>
    simp only [Item.eventsL, Item.events, List.cons_append, List.append_assoc] at he
    obtain ⟨s1, h1, h2⟩ := Emits.cons_inv he
    rw [← List.singleton_append, ← List.append_assoc] at h2
    obtain ⟨s2, h2, h3⟩ := emits_append.mp h2
    simp only [Item.eventsL, Item.events, List.cons_append, List.length_cons, List.length_append,
      List.length_nil] at hf
    simp only [Item.depthL, Item.depth] at hd
    have e1 := readScope_items read ks fuel (d + 1) s1 s2 h2 (by omega) (by omega)
    have e2 := readScope_items read is fuel d s2 s' h3 (by omega) (by omega)
    have hnd : ¬ (d + 1 > maxDepth) := by omega
    simp [readScope, h1, hnd, e1, e2, Item.contentL, Item.addTo]
termination_by sizeOf kids

/-- A document nested too deeply is rejected. -/
theorem readScope_too_deep (read : σ → Res (Event × σ)) (kids : List Item) :
    ∀ (fuel d : Nat) (s s' : σ), Emits read s (Item.eventsL kids ++ [⟨[], .scopeEnd⟩]) s' →
      (Item.eventsL kids).length < fuel → Item.depthL kids + d > maxDepth → d ≤ maxDepth →
      readScope read fuel d s = .err := by
  intro fuel d s s' he hf hd hd0
  match fuel, kids with
  | 0, _ => omega
  | fuel + 1, [] => simp [Item.depthL] at hd; omega
  | fuel + 1, .val n v :: is =>
    simp only [Item.eventsL, Item.events, List.cons_append, List.nil_append] at he
    obtain ⟨s1, h1, h2⟩ := Emits.cons_inv he
    simp only [Item.eventsL, Item.events, List.singleton_append, List.length_cons] at hf
    simp only [Item.depthL, Item.depth] at hd
    have := readScope_too_deep read is fuel d s1 s' h2 (by omega) (by omega) hd0
    simp [readScope, h1, this]
  | fuel + 1, .scope n t ks :: is =>
    simp only [Item.eventsL, Item.events, List.cons_append, List.append_assoc] at he
    obtain ⟨s1, h1, h2⟩ := Emits.cons_inv he
    rw [← List.singleton_append, ← List.append_assoc] at h2
    obtain ⟨s2, h2, h3⟩ := emits_append.mp h2
    simp only [Item.eventsL, Item.events, List.cons_append, List.length_cons, List.length_append,
      List.length_nil] at hf
    simp only [Item.depthL, Item.depth] at hd
    by_cases hnd : d + 1 > maxDepth
    · simp [readScope, h1, hnd]
    · by_cases hk : Item.depthL ks + (d + 1) > maxDepth
      · have e1 := readScope_too_deep read ks fuel (d + 1) s1 s2 h2 (by omega) hk (by omega)
        simp [readScope, h1, hnd, e1]
      · have e1 := readScope_items read ks fuel (d + 1) s1 s2 h2 (by omega) (by omega)
        have e2 := readScope_too_deep read is fuel d s2 s' h3 (by omega) (by omega) hd0
        simp [readScope, h1, hnd, e1, e2]
termination_by sizeOf kids

/-- Loading what reads as the tokens of a scope item. -/
theorem load_item (read : σ → Res (Event × σ)) (n : Bytes) (t : ScopeTy) (kids : List Item)
    (fuel : Nat) (s s' : σ) (he : Emits read s (Item.scope n t kids).events s')
    (hf : (Item.eventsL kids).length < fuel) :
    load read fuel s = if Item.depthL kids ≤ maxDepth then
        .ok (⟨n, .mk t (Item.contentL kids).1 (Item.contentL kids).2⟩, s')
      else .err := by
  simp only [Item.events] at he
  obtain ⟨s1, h1, h2⟩ := Emits.cons_inv he
  split
  · rename_i hd
    have := readScope_items read kids fuel 0 s1 s' h2 hf (by omega)
    simp [load, h1, this]
  · rename_i hd
    have := readScope_too_deep read kids fuel 0 s1 s' h2 hf (by omega) (by omega)
    simp [load, h1, this]

end Doc

namespace Node

mutual
/-- A node as document: values first, then nodes. -/
def toItem : Bytes → Node → Item
  | name, .mk t vs ns => .scope name t (vs.map (fun p => .val p.1 p.2) ++ toItems ns)
def toItems : List (Bytes × Node) → List Item
  | [] => []
  | (name, n) :: ns => toItem name n :: toItems ns
end

end Node

theorem Item.eventsL_append (a b : List Item) :
    Item.eventsL (a ++ b) = Item.eventsL a ++ Item.eventsL b := by
  induction a with
  | nil => simp [Item.eventsL]
  | cons i a ih => simp [Item.eventsL, ih]

theorem Item.eventsL_vals (vs : List (Bytes × Val)) :
    Item.eventsL (vs.map (fun p => Item.val p.1 p.2)) = vs.map (fun p => ⟨p.1, .val p.2⟩) := by
  induction vs with
  | nil => rfl
  | cons p vs ih => simp [Item.eventsL, Item.events, ih]

mutual
theorem Node.events_eq : ∀ (name : Bytes) (n : Node), n.events name = (n.toItem name).events
  | name, .mk t vs ns => by
    simp only [Node.events, Node.toItem, Item.events, Item.eventsL_append, Item.eventsL_vals,
      Node.eventsL_eq ns]
theorem Node.eventsL_eq : ∀ (ns : List (Bytes × Node)),
    Node.eventsL ns = Item.eventsL (Node.toItems ns)
  | [] => rfl
  | (name, n) :: ns => by
    simp only [Node.eventsL, Node.toItems, Item.eventsL, Node.events_eq name n, Node.eventsL_eq ns]
end

theorem Item.contentL_vals (vs : List (Bytes × Val)) (is : List Item) :
    Item.contentL (vs.map (fun p => Item.val p.1 p.2) ++ is) =
      (vs ++ (Item.contentL is).1, (Item.contentL is).2) := by
  induction vs with
  | nil => rfl
  | cons p vs ih => simp [Item.contentL, Item.addTo, ih]

mutual
theorem Node.contentL_toItems : ∀ (ns : List (Bytes × Node)),
    Item.contentL (Node.toItems ns) = ([], ns)
  | [] => rfl
  | (name, n) :: ns => by
    simp only [Node.toItems, Item.contentL, Node.addTo_toItem name n, Node.contentL_toItems ns]
theorem Node.addTo_toItem : ∀ (name : Bytes) (n : Node) (c : Doc.Content),
    (n.toItem name).addTo c = (c.1, (name, n) :: c.2)
  | name, .mk t vs ns, (a, b) => by
    simp only [Node.toItem, Item.addTo, Item.contentL_vals, Node.contentL_toItems ns,
      List.append_nil]
end

end Srl
