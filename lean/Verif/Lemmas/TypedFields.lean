import Verif.Lemmas.TypedLazy

namespace Srl.Typed

open Doc

variable {σ : Type}

/-! ## Fields with names -/

/-- Links of a name. -/
abbrev ofName {α : Type} (nm : Bytes) (xs : List (Bytes × α)) : List (Bytes × α) :=
  xs.filter (fun p => p.1 == nm)

theorem findName_ofName {α : Type} (nm : Bytes) (xs : List (Bytes × α)) :
    findName nm xs = (ofName nm xs).head?.map (·.2) := by
  induction xs with
  | nil => rfl
  | cons x xs ih =>
    obtain ⟨m, y⟩ := x
    by_cases h : m = nm
    · simp [findName, ofName, h]
    · simp [findName, ofName, h] at ih ⊢; exact ih

theorem findName_append {α : Type} (nm : Bytes) (xs ys : List (Bytes × α)) :
    findName nm (xs ++ ys) = (findName nm xs).or (findName nm ys) := by
  induction xs with
  | nil => simp [findName]
  | cons x xs ih =>
    by_cases h : x.1 = nm
    · simp [findName, h]
    · simp [findName, h, ih]

theorem findName_none {α : Type} {nm : Bytes} {xs : List (Bytes × α)} (h : ∀ x ∈ xs, x.1 ≠ nm) :
    findName nm xs = none := by
  induction xs with
  | nil => rfl
  | cons x xs ih =>
    have := h x (List.mem_cons_self ..)
    simp [findName, this]
    exact ih fun y hy => h y (List.mem_cons_of_mem _ hy)

theorem findName_mem {α : Type} {nm : Bytes} {xs : List (Bytes × α)} {y : α}
    (h : findName nm xs = some y) : (nm, y) ∈ xs := by
  induction xs with
  | nil => cases h
  | cons x xs ih =>
    by_cases hx : x.1 = nm
    · simp [findName, hx] at h
      subst h; subst hx; exact List.mem_cons_self ..
    · simp [findName, hx] at h
      exact List.mem_cons_of_mem _ (ih h)

theorem findName_isSome {α : Type} {nm : Bytes} {xs : List (Bytes × α)} :
    (findName nm xs).isSome = true ↔ nm ∈ xs.map (·.1) := by
  constructor
  · intro h
    obtain ⟨y, hy⟩ := Option.isSome_iff_exists.mp h
    exact List.mem_map.mpr ⟨_, findName_mem hy, rfl⟩
  · intro h
    cases hf : findName nm xs with
    | some y => rfl
    | none =>
      exfalso
      obtain ⟨x, hx, rfl⟩ := List.mem_map.mp h
      clear h
      induction xs with
      | nil => cases hx
      | cons y ys ih =>
        by_cases h1 : y.1 = x.1
        · simp [findName, h1] at hf
        · simp [findName, h1] at hf
          rcases List.mem_cons.mp hx with rfl | hx
          · exact h1 rfl
          · exact ih hx hf

theorem takeOut_name {α : Type} (nm : Bytes) (xs : List (Bytes × α)) :
    (takeOut (.name nm) xs = none ∧ findName nm xs = none) ∨
    (∃ y ys, takeOut (.name nm) xs = some ((nm, y), ys) ∧ findName nm xs = some y ∧
      ∀ m, m ≠ nm → ofName m ys = ofName m xs) := by
  induction xs with
  | nil => left; exact ⟨rfl, rfl⟩
  | cons x xs ih =>
    by_cases h : x.1 = nm
    · right
      refine ⟨x.2, xs, by simp [takeOut, ← h], by simp [findName, h], ?_⟩
      intro m hm
      have : x.1 ≠ m := fun e => hm (e ▸ h)
      simp [ofName, this]
    · rcases ih with ⟨h1, h2⟩ | ⟨y, ys, h1, h2, h3⟩
      · left; exact ⟨by simp [takeOut, h, h1], by simp [findName, h, h2]⟩
      · right
        refine ⟨y, x :: ys, by simp [takeOut, h, h1], by simp [findName, h, h2], ?_⟩
        intro m hm
        have := h3 m hm
        simp only [ofName] at this
        simp only [ofName, List.filter_cons, this]

/-- Of the names not used yet, everything read is still stored. -/
def Inv (used : List Bytes) (n : LNode) (pre : List Item) : Prop :=
  ∀ nm, nm ∉ used → ofName nm n.values = ofName nm (valuesOf pre) ∧
    ofName nm n.nodes = ofName nm (nodesOf pre)

theorem Inv.findV {used : List Bytes} {n : LNode} {pre : List Item} (h : Inv used n pre) {nm : Bytes}
    (hn : nm ∉ used) : findName nm n.values = findName nm (valuesOf pre) := by
  rw [findName_ofName, findName_ofName, (h nm hn).1]

theorem Inv.findN {used : List Bytes} {n : LNode} {pre : List Item} (h : Inv used n pre) {nm : Bytes}
    (hn : nm ∉ used) : findName nm n.nodes = findName nm (nodesOf pre) := by
  rw [findName_ofName, findName_ofName, (h nm hn).2]

theorem Inv.add {used : List Bytes} {n : LNode} {pre : List Item} (h : Inv used n pre)
    (a : List Item) : Inv used (n.add a) (pre ++ a) := by
  intro nm hn
  obtain ⟨h1, h2⟩ := h nm hn
  simp only [ofName] at h1 h2
  simp only [LNode.add, valuesOf_append, nodesOf_append, ofName, List.filter_append, h1, h2]
  exact ⟨trivial, trivial⟩

theorem Inv.used {used : List Bytes} {n : LNode} {pre : List Item} (h : Inv used n pre)
    (nm : Bytes) : Inv (nm :: used) n pre := fun m hm => h m fun h' => hm (List.mem_cons_of_mem _ h')

theorem Inv.parsed {used : List Bytes} {n : LNode} {pre : List Item} (h : Inv used n pre)
    (b : Bool) : Inv used { n with parsed := b } pre := h

theorem findName_nodesOf {nm : Bytes} {items : List Item} :
    findName nm (nodesOf items)
      = ((scopesOf items).find? (·.1 == nm)).map (fun x => nodeOf x.2.1 x.2.2) := by
  unfold nodesOf
  induction scopesOf items with
  | nil => rfl
  | cons x xs ih =>
    by_cases h : x.1 = nm
    · simp [findName, h]
    · simp [findName, h, ih]

theorem kindNames_true (items : List Item) : kindNames true items = (nodesOf items).map (·.1) := by
  simp [kindNames, nodesOf]

theorem kindNames_false (items : List Item) : kindNames false items = (valuesOf items).map (·.1) := by
  simp [kindNames]

theorem kindNames_append (k : Bool) (a b : List Item) :
    kindNames k (a ++ b) = kindNames k a ++ kindNames k b := by
  cases k <;> simp [kindNames, scopesOf_append, valuesOf_append]

section named
variable {read : σ → Res (Event × σ)} {total : Nat} {used : List Bytes} {n : LNode}
  {pre post : List Item} {s s' : σ} {nm : Bytes}

theorem consumeNode_named (hi : Inv used n pre) (hu : nm ∉ used) (hp : n.parsed = false)
    (he : Left read post s s') (hf : (Item.eventsL post).length < total)
    (hd : Item.depthL post ≤ maxDepth) :
    (∃ t vs ns n', findName nm (nodesOf (pre ++ post)) = some (.mk t vs ns) ∧
      consumeNode read total (.name nm) n s = .ok (some (nm, ⟨t, vs, ns, true⟩), n', s) ∧
      n'.parsed = false ∧ Inv (nm :: used) n' pre ∧ nm ∈ kindNames true pre) ∨
    (∃ a t kids b s1 s2 n', post = a ++ .scope nm t kids :: b ∧
      (scopesOf (pre ++ post)).find? (·.1 == nm) = some (nm, t, kids) ∧
      consumeNode read total (.name nm) n s = .ok (some (nm, .fresh t), n', s1) ∧
      n'.parsed = false ∧ Inv (nm :: used) n' (pre ++ a ++ [.scope nm t kids]) ∧
      Left read kids s1 s2 ∧ Left read b s2 s') ∨
    (findName nm (nodesOf (pre ++ post)) = none ∧
      ∃ n' s1, consumeNode read total (.name nm) n s = .ok (none, n', s1)) := by
  rcases takeOut_name nm n.nodes with ⟨h1, h2⟩ | ⟨y, ys, h1, h2, h3⟩
  · rw [hi.findN hu] at h2
    have e : consumeNode read total (.name nm) n s
        = (do let (r, n, s) ← seekNode read total (.name nm) n s; .ok (r.map (fun x => (x.1, LNode.fresh x.2)), n, s)) := by
      simp [consumeNode, h1]
    have hnone : (scopesOf pre).find? (·.1 == nm) = none := by
      rw [findName_nodesOf] at h2
      cases hx : (scopesOf pre).find? (·.1 == nm) with
      | none => rfl
      | some x => rw [hx] at h2; cases h2
    rcases seekNode_spec read (.name nm) post total n s s' hp he hf hd with
      ⟨a, nm', t, kids, b, s1, s2, rfl, hh, hno, hs, hk, hb⟩ | ⟨hno, hs⟩
    · right; left
      have : nm = nm' := by simpa [Sel.hits] using hh
      subst this
      have hna : (scopesOf a).find? (·.1 == nm) = none := by
        rw [List.find?_eq_none]
        intro x hx
        have := hno x hx
        simp only [Sel.hits] at this
        intro h
        rw [beq_iff_eq] at h
        rw [h] at this
        simp at this
      refine ⟨a, t, kids, b, s1, s2, n.add a, rfl, ?_, ?_, hp, ?_, hk, hb⟩
      · simp [scopesOf_append, List.find?_append, hnone, hna, scopesOf]
      · rw [e, hs]; rfl
      · intro m hm
        have hmn : nm ≠ m := fun h => hm (h ▸ List.mem_cons_self ..)
        have := ((hi.add a).used nm) m hm
        refine ⟨this.1.trans ?_, this.2.trans ?_⟩
        · rw [valuesOf_append _ [Item.scope nm t kids]]
          simp [valuesOf]
        · rw [nodesOf_append _ [Item.scope nm t kids], nodesOf_scope, nodesOf_nil]
          simp [ofName, hmn]
    · right; right
      refine ⟨?_, _, _, by rw [e, hs]; rfl⟩
      rw [nodesOf_append, findName_append, h2, Option.none_or, findName_nodesOf]
      have : (scopesOf post).find? (·.1 == nm) = none := by
        rw [List.find?_eq_none]
        intro x hx
        have := hno x hx
        simp only [Sel.hits] at this
        intro h
        rw [beq_iff_eq] at h
        rw [h] at this
        simp at this
      rw [this]; rfl
  · left
    obtain ⟨t, vs, ns⟩ := y
    rw [hi.findN hu] at h2
    refine ⟨t, vs, ns, { n with nodes := ys }, ?_, ?_, hp, ?_, ?_⟩
    · rw [nodesOf_append, findName_append, h2]; rfl
    · simp [consumeNode, h1]
    · intro m hm
      have hmn : m ≠ nm := fun h => hm (h ▸ List.mem_cons_self ..)
      have := (hi.used nm) m hm
      exact ⟨this.1, (h3 m hmn).trans this.2⟩
    · rw [kindNames_true, ← findName_isSome, h2]; rfl

theorem consumeValue_named (hi : Inv used n pre) (hu : nm ∉ used) (hp : n.parsed = false)
    (he : Left read post s s') (hf : (Item.eventsL post).length < total)
    (hd : Item.depthL post ≤ maxDepth) :
    (∃ v n', findName nm (valuesOf (pre ++ post)) = some v ∧
      consumeValue read total (.name nm) n s = .ok (some (nm, v), n', s) ∧
      n'.parsed = false ∧ Inv (nm :: used) n' pre ∧ nm ∈ kindNames false pre) ∨
    (∃ a v b s1 n', post = a ++ .val nm v :: b ∧
      findName nm (valuesOf (pre ++ post)) = some v ∧
      consumeValue read total (.name nm) n s = .ok (some (nm, v), n', s1) ∧
      n'.parsed = false ∧ Inv (nm :: used) n' (pre ++ a ++ [.val nm v]) ∧ Left read b s1 s') ∨
    (findName nm (valuesOf (pre ++ post)) = none ∧
      ∃ n' s1, consumeValue read total (.name nm) n s = .ok (none, n', s1)) := by
  rcases takeOut_name nm n.values with ⟨h1, h2⟩ | ⟨y, ys, h1, h2, h3⟩
  · rw [hi.findV hu] at h2
    have e : consumeValue read total (.name nm) n s = seekValue read total (.name nm) n s := by
      simp [consumeValue, h1]
    rcases seekValue_spec read (.name nm) post total n s s' hp he hf hd with
      ⟨a, nm', v, b, s1, rfl, hh, hno, hs, hb⟩ | ⟨hno, hs⟩
    · right; left
      have : nm = nm' := by simpa [Sel.hits] using hh
      subst this
      have hna : findName nm (valuesOf a) = none := findName_none fun x hx h => by
        have := hno x hx
        simp [Sel.hits, h] at this
      refine ⟨a, v, b, s1, n.add a, rfl, ?_, ?_, hp, ?_, hb⟩
      · simp [valuesOf_append, findName_append, h2, hna, valuesOf, findName]
      · rw [e, hs]
      · intro m hm
        have hmn : nm ≠ m := fun h => hm (h ▸ List.mem_cons_self ..)
        have := ((hi.add a).used nm) m hm
        refine ⟨this.1.trans ?_, this.2.trans ?_⟩
        · rw [valuesOf_append _ [Item.val nm v]]
          simp [valuesOf, ofName, hmn]
        · rw [nodesOf_append _ [Item.val nm v], nodesOf_val, nodesOf_nil]
          simp
    · right; right
      refine ⟨?_, _, _, by rw [e, hs]⟩
      rw [valuesOf_append, findName_append, h2, Option.none_or]
      exact findName_none fun x hx h => by
        have := hno x hx
        simp [Sel.hits, h] at this
  · left
    rw [hi.findV hu] at h2
    refine ⟨y, { n with values := ys }, ?_, ?_, hp, ?_, ?_⟩
    · rw [valuesOf_append, findName_append, h2]; rfl
    · simp [consumeValue, h1]
    · intro m hm
      have hmn : m ≠ nm := fun h => hm (h ▸ List.mem_cons_self ..)
      have := (hi.used nm) m hm
      exact ⟨(h3 m hmn).trans this.1, this.2⟩
    · rw [kindNames_false, ← findName_isSome, h2]; rfl

theorem mem_kindNames {x : Item} {items : List Item} (h : x ∈ items) :
    itemName x ∈ kindNames (itemScope x) items := by
  obtain ⟨a, b, rfl⟩ := List.append_of_mem h
  rw [kindNames_append]
  refine List.mem_append_right _ ?_
  cases x <;> simp [itemScope, itemName, kindNames, scopesOf, valuesOf]

theorem kindNames_mem {k : Bool} {nm : Bytes} {items : List Item} (h : nm ∈ kindNames k items) :
    ∃ x ∈ items, itemName x = nm ∧ itemScope x = k := by
  induction items with
  | nil => cases k <;> simp [kindNames, scopesOf, valuesOf] at h
  | cons i is ih =>
    cases i with
    | val m v =>
      cases k with
      | true =>
        obtain ⟨x, hx, h2⟩ := ih (by simpa [kindNames, scopesOf] using h)
        exact ⟨x, List.mem_cons_of_mem _ hx, h2⟩
      | false =>
        simp only [kindNames, valuesOf, List.map_cons, Bool.false_eq_true, if_false, List.mem_cons] at h
        rcases h with rfl | h
        · exact ⟨_, List.mem_cons_self .., rfl, rfl⟩
        · obtain ⟨x, hx, h2⟩ := ih (by simpa [kindNames] using h)
          exact ⟨x, List.mem_cons_of_mem _ hx, h2⟩
    | scope m t kids =>
      cases k with
      | false =>
        obtain ⟨x, hx, h2⟩ := ih (by simpa [kindNames, valuesOf] using h)
        exact ⟨x, List.mem_cons_of_mem _ hx, h2⟩
      | true =>
        simp only [kindNames, scopesOf, List.map_cons, if_true, List.mem_cons] at h
        rcases h with rfl | h
        · exact ⟨_, List.mem_cons_self .., rfl, rfl⟩
        · obtain ⟨x, hx, h2⟩ := ih (by simpa [kindNames] using h)
          exact ⟨x, List.mem_cons_of_mem _ hx, h2⟩

/-- `has_node`, `has_value` of a name not used yet: the answer is right, and either everything is
read or something of this name has been read. -/
theorem has_named (k : Bool) (hi : Inv used n pre) (hu : nm ∉ used) (hp : Pos read n post s s')
    (hf : (Item.eventsL post).length < total) (hd : Item.depthL post ≤ maxDepth)
    (hb : ¬ (nm ∈ kindNames true (pre ++ post) ∧ nm ∈ kindNames false (pre ++ post))) :
    ∃ n' c post' s1 here, has read total k nm n s = .ok (here, n', s1) ∧
      (here = true ↔ nm ∈ kindNames k (pre ++ post)) ∧ post = c ++ post' ∧
      Pos read n' post' s1 s' ∧ Inv used n' (pre ++ c) ∧
      (post' = [] ∨ nm ∈ kindNames true (pre ++ c) ∨ nm ∈ kindNames false (pre ++ c)) := by
  have hN : (findName nm n.nodes).isSome = true ↔ nm ∈ kindNames true pre := by
    rw [hi.findN hu, findName_isSome, kindNames_true]
  have hV : (findName nm n.values).isSome = true ↔ nm ∈ kindNames false pre := by
    rw [hi.findV hu, findName_isSome, kindNames_false]
  rcases hp with ⟨hp, rfl, rfl⟩ | ⟨hp, he⟩
  · rw [List.append_nil] at hb ⊢
    refine ⟨n, [], [], s, (if k then (findName nm n.nodes).isSome else (findName nm n.values).isSome),
      ?_, ?_, rfl, .inl ⟨hp, rfl, rfl⟩, by rw [List.append_nil]; exact hi, .inl rfl⟩
    · simp [has, hp]
    · cases k with
      | true => simp only [if_true]; exact hN
      | false => simp only [Bool.false_eq_true, if_false]; exact hV
  · by_cases h1 : (findName nm n.nodes).isSome = true
    · refine ⟨n, [], post, s, k, ?_, ?_, rfl, .inr ⟨hp, he⟩, by rw [List.append_nil]; exact hi, ?_⟩
      · simp [has, hp, h1]
      · have hin := hN.mp h1
        have hin' : nm ∈ kindNames true (pre ++ post) := by
          rw [kindNames_append]; exact List.mem_append_left _ hin
        cases k with
        | true => simp [hin']
        | false =>
          constructor
          · intro h; cases h
          · intro h; exact absurd ⟨hin', h⟩ hb
      · rw [List.append_nil]; exact .inr (.inl (hN.mp h1))
    · by_cases h2 : (findName nm n.values).isSome = true
      · refine ⟨n, [], post, s, !k, ?_, ?_, rfl, .inr ⟨hp, he⟩, by rw [List.append_nil]; exact hi, ?_⟩
        · simp [has, hp, h1, h2]
        · have hin := hV.mp h2
          have hin' : nm ∈ kindNames false (pre ++ post) := by
            rw [kindNames_append]; exact List.mem_append_left _ hin
          cases k with
          | false => simp [hin']
          | true =>
            constructor
            · intro h; cases h
            · intro h; exact absurd ⟨h, hin'⟩ hb
        · rw [List.append_nil]; exact .inr (.inr (hV.mp h2))
      · have e : has read total k nm n s
            = (do let (r, n, s) ← seekItem read total nm n s; .ok (r == some k, n, s)) := by
          simp [has, hp, h1, h2]
        rcases seekItem_spec read nm post total n s s' hp he hf hd with
          ⟨a, x, b, s1, rfl, hx, hs, hl⟩ | ⟨hno, hs⟩
        · have hin : nm ∈ kindNames (itemScope x) (pre ++ (a ++ [x])) := by
            rw [← hx]; exact mem_kindNames (by simp)
          refine ⟨n.add (a ++ [x]), a ++ [x], b, s1, itemScope x == k, ?_, ?_, by simp,
            .inr ⟨hp, hl⟩, hi.add _, ?_⟩
          · rw [e, hs]; simp
          · have hin' : nm ∈ kindNames (itemScope x) (pre ++ (a ++ x :: b)) := by
              have : pre ++ (a ++ x :: b) = (pre ++ (a ++ [x])) ++ b := by simp
              rw [this, kindNames_append]; exact List.mem_append_left _ hin
            rw [beq_iff_eq]
            constructor
            · rintro rfl; exact hin'
            · intro h
              cases k with
              | true =>
                cases hk : itemScope x with
                | true => rfl
                | false => rw [hk] at hin'; exact absurd ⟨h, hin'⟩ hb
              | false =>
                cases hk : itemScope x with
                | true => rw [hk] at hin'; exact absurd ⟨hin', h⟩ hb
                | false => rfl
          · right
            cases hk : itemScope x <;> rw [hk] at hin
            · exact .inr hin
            · exact .inl hin
        · refine ⟨{ n.add post with parsed := true }, post, [], s', false, ?_, ?_, by simp,
            .inl ⟨rfl, rfl, rfl⟩, (hi.add _).parsed true, .inl rfl⟩
          · rw [e, hs]; rfl
          · constructor
            · intro h; cases h
            · intro h
              exfalso
              rw [kindNames_append] at h
              rcases List.mem_append.mp h with h | h
              · cases k with
                | true => exact h1 (hN.mpr h)
                | false => exact h2 (hV.mpr h)
              · obtain ⟨x, hx, h3, _⟩ := kindNames_mem h
                exact hno x hx h3

end named

end Srl.Typed
