import Verif.Lemmas.Pack
import Verif.Props.UnionSpec

/-! Unions of what was stored. -/

namespace Srl.Typed
open Doc

variable {σ : Type} {nv : Val → Val}

/-- The union of an item. -/
def uniOf : Item → Uni
  | .val _ v => .value v
  | .scope _ t kids => .node (nodeOf t kids)

/-- The item with its name is the only one of this name. -/
theorem item_find : ∀ {items : List Item} {i : Item}, (items.map itemName).Nodup → i ∈ items →
    findName (itemName i) (valuesOf items) = (match i with | .val _ v => some v | .scope _ _ _ => none) ∧
    findName (itemName i) (nodesOf items) = (match i with | .val _ _ => none | .scope _ t kids => some (nodeOf t kids))
  | [], i, _, h => by cases h
  | j :: items, i, hn, h => by
    simp only [List.map_cons, List.nodup_cons] at hn
    have none_v : ∀ nm, nm ∉ items.map itemName → findName nm (valuesOf items) = none := fun nm hnm => by
      cases hf : findName nm (valuesOf items) with
      | none => rfl
      | some v =>
        have : nm ∈ kindNames false items := by rw [kindNames_false, ← findName_isSome, hf]; rfl
        obtain ⟨x, hx, h1, -⟩ := kindNames_mem this
        exact absurd (List.mem_map.mpr ⟨x, hx, h1⟩) hnm
    have none_n : ∀ nm, nm ∉ items.map itemName → findName nm (nodesOf items) = none := fun nm hnm => by
      cases hf : findName nm (nodesOf items) with
      | none => rfl
      | some v =>
        have : nm ∈ kindNames true items := by rw [kindNames_true, ← findName_isSome, hf]; rfl
        obtain ⟨x, hx, h1, -⟩ := kindNames_mem this
        exact absurd (List.mem_map.mpr ⟨x, hx, h1⟩) hnm
    rcases List.mem_cons.mp h with rfl | h
    · cases i with
      | val nm v =>
        simp only [itemName, valuesOf, nodesOf_val] at hn ⊢
        exact ⟨by simp [findName], none_n nm hn.1⟩
      | scope nm t kids =>
        simp only [itemName, valuesOf, nodesOf_scope] at hn ⊢
        exact ⟨none_v nm hn.1, by simp [findName]⟩
    · obtain ⟨h1, h2⟩ := item_find hn.2 h
      have hne : itemName j ≠ itemName i := fun e => hn.1 (List.mem_map.mpr ⟨i, h, e.symm⟩)
      cases j with
      | val nm v =>
        simp only [valuesOf, nodesOf_val]
        refine ⟨?_, h2⟩
        rw [← h1]
        have : nm ≠ itemName i := hne
        simp [findName, this]
      | scope nm t kids =>
        simp only [valuesOf, nodesOf_scope]
        refine ⟨h1, ?_⟩
        rw [← h2]
        have : nm ≠ itemName i := hne
        simp [findName, this]

theorem getFrom_item {items : List Item} {i : Item} (hn : (items.map itemName).Nodup) (h : i ∈ items) :
    getFrom (itemName i) (valuesOf items) (nodesOf items) = .ok (uniOf i) := by
  obtain ⟨h1, h2⟩ := item_find hn h
  unfold getFrom
  rw [h1, h2]
  cases i <;> rfl

theorem getFrom_none {items : List Item} {nm : Bytes} (h : ∀ i ∈ items, itemName i ≠ nm) :
    getFrom nm (valuesOf items) (nodesOf items) = .err := by
  have hv : findName nm (valuesOf items) = none := by
    cases hf : findName nm (valuesOf items) with
    | none => rfl
    | some v =>
      have : nm ∈ kindNames false items := by rw [kindNames_false, ← findName_isSome, hf]; rfl
      obtain ⟨x, hx, h1, -⟩ := kindNames_mem this
      exact absurd h1 (h x hx)
  have hv' : findName nm (nodesOf items) = none := by
    cases hf : findName nm (nodesOf items) with
    | none => rfl
    | some v =>
      have : nm ∈ kindNames true items := by rw [kindNames_true, ← findName_isSome, hf]; rfl
      obtain ⟨x, hx, h1, -⟩ := kindNames_mem this
      exact absurd h1 (h x hx)
  simp [getFrom, hv, hv']

theorem get_nodeOf (nm : Bytes) (t : ScopeTy) (kids : List Item) :
    Uni.get nm (.node (nodeOf t kids)) = getFrom nm (valuesOf kids) (nodesOf kids) := by
  simp only [Uni.get, contentL_eq]

/-- The item of a stored member is among the stored items. -/
theorem packed_mem {nm : Bytes} {ty : Ty} {o : Obj} {fs : Fields} {xs : List Obj} (h : Packed nm ty o fs xs)
    (hs : StorableL fs xs) (hn : fs.names.Nodup) :
    Norm.item nv true (toItem nm ty o) ∈ Norm.items nv true (fieldItems fs xs) :=
  List.mem_of_find?_eq_some (itemFor_stored (nv := nv) h hs hn)

theorem packed_ok {nm : Bytes} {ty : Ty} {o : Obj} : ∀ {fs : Fields} {xs : List Obj}, Packed nm ty o fs xs → fs.Ok →
    StorableL fs xs → ty.Ok ∧ Storable ty o
  | .nil, _, h, _, _ => by simp [Packed] at h
  | .cons _ _ _ _, [], h, _, _ => by simp [Packed] at h
  | .cons nm' opt ty' rest, x :: xs, h, hok, hs => by
    simp only [Packed] at h
    simp only [StorableL] at hs
    rcases h with ⟨rfl, rfl, rfl⟩ | h
    · exact ⟨hok.1, hs.1⟩
    · exact packed_ok h hok.2 hs.2.2

theorem packed_name {nm : Bytes} {ty : Ty} {o : Obj} : ∀ {fs : Fields} {xs : List Obj}, Packed nm ty o fs xs → nm ∈ fs.names
  | .nil, _, h => by simp [Packed] at h
  | .cons _ _ _ _, [], h => by simp [Packed] at h
  | .cons nm' opt ty' rest, x :: xs, h => by
    simp only [Packed] at h
    rcases h with ⟨rfl, -, -⟩ | h
    · simp [Fields.names]
    · simp [Fields.names, packed_name h]

theorem packed_unique {nm : Bytes} {ty ty' : Ty} {o o' : Obj} : ∀ {fs : Fields} {xs : List Obj}, fs.names.Nodup →
    Packed nm ty o fs xs → Packed nm ty' o' fs xs → ty = ty' ∧ o = o'
  | .nil, _, _, h, _ => by simp [Packed] at h
  | .cons _ _ _ _, [], _, h, _ => by simp [Packed] at h
  | .cons nm' opt t rest, x :: xs, hn, h, h' => by
    simp only [Fields.names, List.nodup_cons] at hn
    simp only [Packed] at h h'
    rcases h with ⟨rfl, rfl, rfl⟩ | h <;> rcases h' with ⟨e, rfl, rfl⟩ | h'
    · exact ⟨rfl, rfl⟩
    · exact absurd (packed_name h') hn.1
    · subst e; exact absurd (packed_name h) hn.1
    · exact packed_unique hn.2 h h'

theorem packed_of_name {nm : Bytes} : ∀ {fs : Fields} {xs : List Obj}, StorableL fs xs → nm ∈ fs.names →
    ∃ ty o, Packed nm ty o fs xs
  | .nil, _, _, h => by simp [Fields.names] at h
  | .cons _ _ _ _, [], h, _ => by simp [StorableL] at h
  | .cons nm' opt ty rest, x :: xs, hs, h => by
    simp only [StorableL] at hs
    simp only [Fields.names, List.mem_cons] at h
    by_cases e : nm = nm'
    · exact ⟨ty, x, .inl ⟨e, rfl, rfl⟩⟩
    · obtain ⟨ty', o, hp⟩ := packed_of_name hs.2.2 (h.resolve_left e)
      exact ⟨ty', o, .inr hp⟩

/-- A union of a stored object gives it. -/
theorem copy_stored (hk : Keeps nv) (env : Env) {ty : Ty} {o old : Obj} (nm : Bytes) (b : Bool) (hok : ty.Ok)
    (hs : Storable ty o) (hw : WT ty old) : (uniOf (Norm.item nv b (toItem nm ty o))).copyTo env ty old = .ok o := by
  by_cases hsc : ty.isScope = true
  · rw [norm_scope nv hs hsc]
    simp only [uniOf, Uni.copyTo, hsc, if_true]
    exact eager hk env ty o old hok hsc hs hw
  · rw [Bool.not_eq_true] at hsc
    obtain ⟨v, h1, h2⟩ := stored_value ty o hs hsc
    rw [h1]
    simp only [Norm.item, uniOf, Uni.copyTo, hsc, Bool.false_eq_true, if_false]
    exact (h2 nv hk).2 env old

theorem norm_names_nil : ∀ (is : List Item), ∀ i ∈ Norm.items nv false is, itemName i = []
  | [], i, h => by cases h
  | j :: is, i, h => by
    simp only [Norm.items, List.mem_cons] at h
    rcases h with rfl | h
    · cases j <;> simp [Norm.item, itemName]
    · exact norm_names_nil is i h

theorem entry_pair (k : Bytes) (y : Obj) : entry (.many [.str k, y]) = (k, y) := rfl

/-- The first entry of a name. -/
theorem entries_get {e : Ty} {nm : Bytes} {o : Obj} : ∀ {pre post : List Obj},
    (∀ x ∈ pre ++ .many [.str nm, o] :: post, Entry (Storable e) x) → (∀ x ∈ pre, ∀ y, x ≠ .many [.str nm, y]) →
    getFrom nm (valuesOf (Norm.items nv true ((pre ++ .many [.str nm, o] :: post).map
        fun x => toItem (entry x).1 e (entry x).2)))
      (nodesOf (Norm.items nv true ((pre ++ .many [.str nm, o] :: post).map
        fun x => toItem (entry x).1 e (entry x).2))) = .ok (uniOf (Norm.item nv true (toItem nm e o)))
  | [], post, hs, _ => by
    obtain ⟨k, y, e1, h1⟩ := hs (.many [.str nm, o]) (by simp)
    simp only [Obj.many.injEq, List.cons.injEq, Obj.str.injEq, and_true] at e1
    obtain ⟨rfl, rfl⟩ := e1
    simp only [List.nil_append, List.map_cons, Norm.items, entry_pair]
    by_cases hsc : e.isScope = true
    · have hv : ∀ xs : List Obj, (∀ x ∈ xs, Entry (Storable e) x) → valuesOf (Norm.items nv true (xs.map
          fun x => toItem (entry x).1 e (entry x).2)) = [] := by
        intro xs
        induction xs with
        | nil => intro _; rfl
        | cons x xs ih =>
          intro hx
          obtain ⟨k', y, rfl, h2⟩ := hx x (by simp)
          simp only [List.map_cons, Norm.items, entry_pair, norm_scope nv h2 hsc, valuesOf]
          exact ih fun z hz => hx z (List.mem_cons_of_mem _ hz)
      simp only [norm_scope nv h1 hsc, valuesOf, nodesOf_scope, hv post fun z hz => hs z (by simp [hz]), if_true,
        getFrom, findName, uniOf, beq_self_eq_true]
    · rw [Bool.not_eq_true] at hsc
      obtain ⟨v, h3, -⟩ := stored_value e o h1 hsc
      simp only [h3, Norm.item, valuesOf, nodesOf_val, if_true]
      simp [getFrom, findName, uniOf]
  | x :: pre, post, hs, hp => by
    have ih := entries_get (pre := pre) (post := post) (fun z hz => hs z (List.mem_cons_of_mem _ hz))
      (fun z hz => hp z (List.mem_cons_of_mem _ hz))
    obtain ⟨k, y, rfl, h1⟩ := hs x (List.mem_cons_self ..)
    have hne : k ≠ nm := fun e => hp (.many [.str k, y]) (List.mem_cons_self ..) y (by rw [e])
    simp only [List.cons_append, List.map_cons, Norm.items, entry_pair]
    rw [← ih]
    by_cases hsc : e.isScope = true
    · simp only [norm_scope nv h1 hsc, valuesOf, nodesOf_scope, if_true, getFrom, findName, beq_eq_false_iff_ne.mpr hne,
        Bool.false_eq_true, if_false]
    · rw [Bool.not_eq_true] at hsc
      obtain ⟨v, h3, -⟩ := stored_value e y h1 hsc
      simp only [h3, Norm.item, valuesOf, nodesOf_val, if_true, getFrom, findName, beq_eq_false_iff_ne.mpr hne,
        Bool.false_eq_true, if_false]

/-- A part of a stored object is found by its name. -/
theorem part_get {nm : Bytes} {ty : Ty} {o : Obj} : ∀ {tx : Ty} {x : Obj}, tx.Ok → Storable tx x → Part nm ty o tx x →
    tx.isScope = true ∧ ty.Ok ∧ Storable ty o ∧
      getFrom nm (valuesOf (kidsN nv tx x)) (nodesOf (kidsN nv tx x)) = .ok (uniOf (Norm.item nv true (toItem nm ty o)))
  | .bool, _, _, _, h => by simp [Part] at h
  | .int _, _, _, _, h => by simp [Part] at h
  | .float, _, _, _, h => by simp [Part] at h
  | .double, _, _, _, h => by simp [Part] at h
  | .str, _, _, _, h => by simp [Part] at h
  | .bytes, _, _, _, h => by simp [Part] at h
  | .vec _, _, _, _, h => by simp [Part] at h
  | .arr _ _, _, _, _, h => by simp [Part] at h
  | .named e, x, hok, hs, h => by
    cases x <;> simp only [Part] at h
    rename_i xs
    obtain ⟨rfl, pre, post, rfl, hp⟩ := h
    simp only [Storable] at hs
    refine ⟨rfl, hok, ?_, ?_⟩
    · obtain ⟨k, y, e1, h1⟩ := hs (.many [.str nm, o]) (by simp)
      simp only [Obj.many.injEq, List.cons.injEq, Obj.str.injEq, and_true] at e1
      obtain ⟨rfl, rfl⟩ := e1
      exact h1
    · have : kidsN nv (.named ty) (.many (pre ++ .many [.str nm, o] :: post)) =
          Norm.items nv true ((pre ++ .many [.str nm, o] :: post).map fun x => toItem (entry x).1 ty (entry x).2) := by
        simp only [kidsN, kidsOf, toItem, Ty.scopeTy]
        rfl
      rw [this]
      exact entries_get hs hp
  | .record t st fs, x, hok, hs, h => by
    cases t with
    | array => cases x <;> simp [Part] at h
    | object =>
      cases x <;> simp only [Part] at h
      rename_i xs
      simp only [Storable] at hs
      have hnm := hok.2.resolve_right (by simp)
      have hk : kidsN nv (.record .object st fs) (.many xs) = Norm.items nv true (fieldItems fs xs) := by
        simp only [kidsN, kidsOf, toItem, Ty.scopeTy]
        rfl
      have hst : ty.Ok ∧ Storable ty o := packed_ok h hok.1 hs
      refine ⟨rfl, hst.1, hst.2, ?_⟩
      rw [hk]
      have hm := packed_mem (nv := nv) h hs hnm.2.2
      have := getFrom_item (by rw [stored_names fs xs hs]; exact hnm.2.2) hm
      rw [(norm_name (nv := nv) hst.2 nm).1] at this
      exact this
  | .ptr k e, x, hok, hs, h => by
    cases x <;> simp only [Part] at h
    rename_i x
    simp only [Storable] at hs
    obtain ⟨h1, h2⟩ := part_get (tx := e) hok hs.1 h
    have e1 : kidsN nv (.ptr k e) (.ref x) = kidsN nv e x := by
      simp only [kidsN, kidsOf, toItem, Ty.scopeTy]
    rw [e1]
    exact ⟨h1, h2⟩
  | .sorted b c, x, hok, hs, h => by
    simp only [Part] at h
    simp only [Storable] at hs
    obtain ⟨h1, h2⟩ := part_get (tx := c) hok.1 hs.2.1 h
    have e1 : kidsN nv (.sorted b c) x = kidsN nv c x := by
      simp only [kidsN, kidsOf, toItem, Ty.scopeTy]
    rw [e1]
    exact ⟨h1, h2⟩

/-- Items of a stored object with a name are parts. -/
theorem part_of_item {nm : Bytes} (hne : nm ≠ []) : ∀ {tx : Ty} {x : Obj}, tx.Ok → Storable tx x →
    (∃ i ∈ kidsN nv tx x, itemName i = nm) → tx.isScope = true → ∃ ty o, Part nm ty o tx x
  | .bool, _, _, _, _, h => by cases h
  | .int _, _, _, _, _, h => by cases h
  | .float, _, _, _, _, h => by cases h
  | .double, _, _, _, _, h => by cases h
  | .str, _, _, _, _, h => by cases h
  | .bytes, _, _, _, _, h => by cases h
  | .vec _, _, _, _, h, _ => by
    obtain ⟨i, hi, rfl⟩ := h
    exact absurd (norm_names_nil _ i hi) hne
  | .arr _ _, _, _, _, h, _ => by
    obtain ⟨i, hi, rfl⟩ := h
    exact absurd (norm_names_nil _ i hi) hne
  | .named e, x, hok, hs, h, _ => by
    cases x <;> simp only [Storable] at hs
    rename_i xs
    obtain ⟨i, hi, hin⟩ := h
    have hk : kidsN nv (.named e) (.many xs) = Norm.items nv true (xs.map fun x => toItem (entry x).1 e (entry x).2) := by
      simp only [kidsN, kidsOf, toItem, Ty.scopeTy]
      rfl
    rw [hk] at hi
    clear hk hok
    have gen : ∃ o pre post, xs = pre ++ .many [.str nm, o] :: post ∧ ∀ x ∈ pre, ∀ y, x ≠ .many [.str nm, y] := by
      induction xs with
      | nil => cases hi
      | cons x xs ih =>
        obtain ⟨k, y, rfl, h1⟩ := hs x (List.mem_cons_self ..)
        by_cases e1 : k = nm
        · exact ⟨y, [], xs, by rw [e1]; rfl, by simp⟩
        · simp only [List.map_cons, Norm.items, entry_pair, List.mem_cons] at hi
          rcases hi with rfl | hi
          · rw [(norm_name (nv := nv) h1 k).1] at hin
            exact absurd hin e1
          · obtain ⟨o, pre, post, rfl, hp⟩ := ih (fun z hz => hs z (List.mem_cons_of_mem _ hz)) hi
            refine ⟨o, .many [.str k, y] :: pre, post, rfl, fun z hz y' => ?_⟩
            rcases List.mem_cons.mp hz with rfl | hz
            · simp [e1]
            · exact hp z hz y'
    obtain ⟨o, h⟩ := gen
    exact ⟨e, o, rfl, h⟩
  | .record t st fs, x, hok, hs, h, _ => by
    cases x <;> simp only [Storable] at hs
    rename_i xs
    obtain ⟨i, hi, hin⟩ := h
    cases t with
    | array => subst hin; exact absurd (norm_names_nil _ i hi) hne
    | object =>
      have hk : kidsN nv (.record .object st fs) (.many xs) = Norm.items nv true (fieldItems fs xs) := by
        simp only [kidsN, kidsOf, toItem, Ty.scopeTy]
        rfl
      rw [hk] at hi
      have : nm ∈ fs.names := by
        rw [← stored_names (nv := nv) fs xs hs, ← hin]
        exact List.mem_map_of_mem hi
      obtain ⟨ty, o, hp⟩ := packed_of_name hs this
      exact ⟨ty, o, hp⟩
  | .ptr k e, x, hok, hs, h, hsc => by
    cases x <;> simp only [Storable] at hs
    · simp only [Ty.isScope, hs.2] at hsc
      cases hsc
    · rename_i x
      have e1 : kidsN nv (.ptr k e) (.ref x) = kidsN nv e x := by
        simp only [kidsN, kidsOf, toItem, Ty.scopeTy]
      rw [e1] at h
      obtain ⟨ty, o, hp⟩ := part_of_item (tx := e) hne hok hs.1 h hsc
      exact ⟨ty, o, hp⟩
  | .sorted b c, x, hok, hs, h, hsc => by
    simp only [Storable] at hs
    have e1 : kidsN nv (.sorted b c) x = kidsN nv c x := by
      simp only [kidsN, kidsOf, toItem, Ty.scopeTy]
    rw [e1] at h
    obtain ⟨ty, o, hp⟩ := part_of_item (tx := c) hne hok.1 hs.2.1 h hsc
    exact ⟨ty, o, by simpa only [Part] using hp⟩

/-- The union of a stored object stands for it. -/
theorem holds_stored (hk : Keeps nv) : ∀ (names : List Bytes) (nm : Bytes) (b : Bool) (tx : Ty) (x : Obj), tx.Ok →
    Storable tx x → ∀ ty o, Path names tx x ty o → ∃ u', (uniOf (Norm.item nv b (toItem nm tx x))).follow names = .ok u' ∧
    (∀ env old, WT ty old → u'.copyTo env ty old = .ok o) ∧
    ∀ name, name ≠ [] → (∀ tz z, ¬ Part name tz z ty o) → u'.get name = .err
  | [], nm, b, tx, x, hok, hs, ty, o, h => by
    obtain ⟨rfl, rfl⟩ := h
    refine ⟨_, rfl, fun env old hw => copy_stored hk env nm b hok hs hw, fun name hne hno => ?_⟩
    by_cases hsc : ty.isScope = true
    · rw [norm_scope nv hs hsc, uniOf, get_nodeOf]
      refine getFrom_none fun i hi he => ?_
      obtain ⟨tz, z, hp⟩ := part_of_item (nv := nv) hne hok hs ⟨i, hi, he⟩ hsc
      exact hno tz z hp
    · rw [Bool.not_eq_true] at hsc
      obtain ⟨v, h1, -⟩ := stored_value ty o hs hsc
      rw [h1]
      rfl
  | name :: names, nm, b, tx, x, hok, hs, ty, o, h => by
    obtain ⟨tz, z, hp, h⟩ := h
    obtain ⟨h1, h2, h3, h4⟩ := part_get (nv := nv) hok hs hp
    rw [norm_scope nv hs h1, uniOf]
    simp only [Uni.follow, get_nodeOf, h4, Res.ok_bind]
    exact holds_stored hk names name true tz z h2 h3 ty o h

/-! ## Unpacking -/

theorem prefix_of {x a : Bytes} : ∀ {cn pn l1 l2 : List Bytes}, cn ++ pn = l1 ++ a :: l2 → (cn ++ pn).Nodup → a ∈ cn →
    x ∈ l1 → x ∈ cn
  | [], _, _, _, _, _, ha, _ => by cases ha
  | _ :: _, _, [], _, _, _, _, hx => by cases hx
  | c :: cn, pn, y :: l1, l2, h, hn, ha, hx => by
    simp only [List.cons_append, List.cons.injEq] at h
    obtain ⟨rfl, h⟩ := h
    simp only [List.cons_append, List.nodup_cons] at hn
    rcases List.mem_cons.mp hx with rfl | hx
    · exact List.mem_cons_self ..
    · refine List.mem_cons_of_mem _ (prefix_of h hn.2 ?_ hx)
      rcases List.mem_cons.mp ha with rfl | ha
      · exact absurd (by rw [h]; simp) hn.1
      · exact ha

theorem before_prefix {order cn pn : List Bytes} {x a : Bytes} (ho : order = cn ++ pn) (hn : order.Nodup) (ha : a ∈ cn)
    (h : Ahead order x a) : x ∈ cn := by
  obtain ⟨l1, l2, h1, h2⟩ := h
  subst ho
  exact prefix_of h1 hn ha h2

theorem finish_any {read : σ → Res (Event × σ)} {n : LNode} {post : List Item} {s s' : σ} {fuel : Nat}
    (he : Left read post s s') (hf : (Item.eventsL post).length < fuel) : ∃ s2, finish read fuel n s = .ok s2 := by
  unfold finish
  split
  · exact ⟨s, rfl⟩
  · have split : ∀ l : List Item, scopesOf l = [] ∨
        ∃ a nm t kids b, l = a ++ .scope nm t kids :: b ∧ scopesOf a = [] := by
      intro l
      induction l with
      | nil => exact .inl rfl
      | cons i l ih =>
        cases i with
        | scope nm t kids => exact .inr ⟨[], nm, t, kids, l, rfl, rfl⟩
        | val nm v =>
          rcases ih with h | ⟨a, nm', t, kids, b, rfl, h⟩
          · exact .inl (by simpa [scopesOf] using h)
          · exact .inr ⟨.val nm v :: a, nm', t, kids, b, rfl, by simpa [scopesOf] using h⟩
    rcases split post with h | ⟨a, nm, t, kids, b, rfl, h⟩
    · exact ⟨s', skipScope_flat read post fuel s s' h he hf⟩
    · obtain ⟨s2, h1, -⟩ := skipScope_first read nm t kids b a fuel s s' h he hf
      exact ⟨s2, h1⟩

theorem newest_item (n : LNode) (a : List Item) (x : Item) : newest (n.add (a ++ [x])) (some (itemScope x)) = .ok (uniOf x) := by
  cases x with
  | val nm v => simp [newest, itemScope, LNode.add, valuesOf_append, valuesOf, uniOf]
  | scope nm t kids => simp [newest, itemScope, LNode.add, nodesOf_append, nodesOf_scope, nodesOf_nil, uniOf]

/-- Where `pasteAll` is: `pre` has been read and kept but for the names in `used`, `post` follows unless a union was asked for. -/
structure At (read : σ → Res (Event × σ)) (items : List Item) (closed : Bool) (asked : List Bytes) (n : LNode)
    (s s' : σ) (pre post : List Item) (used : List Bytes) : Prop where
  whole : items = pre ++ post
  inv : Inv used n pre
  usedIn : ∀ nm ∈ used, nm ∈ asked
  askedIn : ∀ nm ∈ asked, nm ∈ pre.map itemName
  reached : ∀ nm ∈ pre.map itemName, Passed (items.map itemName) asked nm
  parsed : n.parsed = closed
  left : closed = false → Left read post s s'

section
variable {read : σ → Res (Event × σ)} {items pre post : List Item} {closed : Bool} {asked used : List Bytes} {n n' : LNode}
  {s s1 s' : σ} {nm : Bytes}

theorem Passed.mono {order : List Bytes} {x : Bytes} (h : Passed order asked x) : Passed order (nm :: asked) x := by
  obtain ⟨a, h1, h2⟩ := h
  exact ⟨a, List.mem_cons_of_mem _ h1, h2⟩

theorem At.mem (h : At read items closed asked n s s' pre post used) (hn : (items.map itemName).Nodup) :
    Passed (items.map itemName) asked nm ↔ nm ∈ pre.map itemName := by
  refine ⟨?_, h.reached nm⟩
  rintro ⟨a, ha, rfl | hb⟩
  · exact h.askedIn _ ha
  · exact before_prefix (by rw [h.whole, List.map_append]) hn (h.askedIn _ ha) hb

/-- Something stored is asked for. -/
theorem At.again (h : At read items closed asked n s s' pre post used) (hm : nm ∈ pre.map itemName)
    (hi : Inv (nm :: used) n' pre) (hp : n'.parsed = closed) :
    At read items closed (nm :: asked) n' s s' pre post (nm :: used) where
  whole := h.whole
  inv := hi
  usedIn := fun x hx => by
    rcases List.mem_cons.mp hx with rfl | hx
    · exact List.mem_cons_self ..
    · exact List.mem_cons_of_mem _ (h.usedIn x hx)
  askedIn := fun x hx => by
    rcases List.mem_cons.mp hx with rfl | hx
    · exact hm
    · exact h.askedIn x hx
  reached := fun x hx => (h.reached x hx).mono
  parsed := hp
  left := h.left

/-- Something is read. -/
theorem At.next (h : At read items false asked n s s' pre post used) {a b : List Item} {i : Item} (hpost : post = a ++ i :: b)
    (hi : Inv (itemName i :: used) n' (pre ++ a ++ [i])) (hp : n'.parsed = false) (hl : Left read b s1 s') :
    At read items false (itemName i :: asked) n' s1 s' (pre ++ a ++ [i]) b (itemName i :: used) where
  whole := by rw [h.whole, hpost]; simp
  inv := hi
  usedIn := fun x hx => by
    rcases List.mem_cons.mp hx with rfl | hx
    · exact List.mem_cons_self ..
    · exact List.mem_cons_of_mem _ (h.usedIn x hx)
  askedIn := fun x hx => by
    rcases List.mem_cons.mp hx with rfl | hx
    · simp
    · have := h.askedIn x hx
      simp only [List.map_append, List.mem_append]
      exact .inl (.inl this)
  reached := fun x hx => by
    simp only [List.map_append, List.mem_append, List.map_cons, List.map_nil, List.mem_singleton] at hx
    rcases hx with (hx | hx) | rfl
    · exact (h.reached x hx).mono
    · refine ⟨itemName i, List.mem_cons_self .., .inr ⟨(pre ++ a).map itemName, b.map itemName, ?_, ?_⟩⟩
      · rw [h.whole, hpost]; simp
      · rw [List.map_append]; exact List.mem_append_right _ hx
    · exact ⟨itemName i, List.mem_cons_self .., .inl rfl⟩
  parsed := hp
  left := fun _ => hl

theorem At.close (h : At read items closed asked n s s' pre post used) (t : σ) :
    At read items true asked { n with parsed := true } t s' pre post used where
  whole := h.whole
  inv := h.inv.parsed true
  usedIn := h.usedIn
  askedIn := h.askedIn
  reached := h.reached
  parsed := rfl
  left := by simp

theorem At.weak {used' : List Bytes} (h : At read items closed asked n s s' pre post used') (hu : ∀ x ∈ used', x ∈ used)
    (hua : ∀ x ∈ used, x ∈ asked) : At read items closed asked n s s' pre post used where
  whole := h.whole
  inv := fun x hx => h.inv x fun hx' => hx (hu x hx')
  usedIn := hua
  askedIn := h.askedIn
  reached := h.reached
  parsed := h.parsed
  left := h.left

end

theorem name_mem {items pre post : List Item} {i : Item} (hn : (items.map itemName).Nodup) (ho : items = pre ++ post)
    (hi : i ∈ items) (hm : itemName i ∈ pre.map itemName) : i ∈ pre := by
  obtain ⟨j, hj, he⟩ := List.mem_map.mp hm
  have : j ∈ items := by rw [ho]; exact List.mem_append_left _ hj
  exact inj_of_nodup hn this hi he ▸ hj

theorem name_mem_nodup {items pre post : List Item} (hn : (items.map itemName).Nodup) (ho : items = pre ++ post) :
    (pre.map itemName).Nodup := by
  rw [ho, List.map_append] at hn
  exact (List.nodup_append.mp hn).1

/-- Unions while reading. -/
theorem pasteUnion_at {read : σ → Res (Event × σ)} {items pre post : List Item} {closed : Bool} {asked used : List Bytes}
    {n : LNode} {s s' : σ} {i : Item} {fuel : Nat} (h : At read items closed asked n s s' pre post used)
    (hn : (items.map itemName).Nodup) (hu : itemName i ∉ used) (hi : i ∈ items)
    (hf : (Item.eventsL items).length < fuel) (hd : Item.depthL items ≤ maxDepth) :
    (closed = true ∧ itemName i ∉ pre.map itemName ∧ pasteUnion read fuel (itemName i) n s = .err) ∨
    ∃ n' s1 pre' post', pasteUnion read fuel (itemName i) n s = .ok (uniOf i, n', s1) ∧
      (closed = true → itemName i ∈ pre.map itemName) ∧
      At read items true (itemName i :: asked) n' s1 s' pre' post' (itemName i :: used) := by
  have hnp := name_mem_nodup hn h.whole
  by_cases hm : itemName i ∈ pre.map itemName
  · have hip := name_mem hn h.whole hi hm
    obtain ⟨f1, f2⟩ := item_find hnp hip
    right
    cases closed with
    | true =>
      refine ⟨n, s, pre, post, ?_, fun _ => hm, h.again hm (h.inv.used _) h.parsed⟩
      simp only [pasteUnion, h.parsed, if_true, getFrom, h.inv.findV hu, h.inv.findN hu, f1, f2]
      cases i <;> rfl
    | false =>
      have hfp : (Item.eventsL post).length < fuel := by
        rw [h.whole, Item.eventsL_append, List.length_append] at hf; omega
      obtain ⟨s2, hs2⟩ := finish_any (n := n) (h.left rfl) hfp
      refine ⟨{ n with parsed := true }, s2, pre, post, ?_, fun e => (by cases e), (h.again hm (h.inv.used _) h.parsed).close s2⟩
      simp only [pasteUnion, h.parsed, Bool.false_eq_true, if_false, consumeItem, h.inv.findV hu, h.inv.findN hu, f1, f2]
      cases i <;> simp only [Res.ok_bind, hs2, uniOf]
  · have f1 : findName (itemName i) (valuesOf pre) = none := by
      cases hf1 : findName (itemName i) (valuesOf pre) with
      | none => rfl
      | some v =>
        have : itemName i ∈ kindNames false pre := by rw [kindNames_false, ← findName_isSome, hf1]; rfl
        obtain ⟨x, hx, h1, -⟩ := kindNames_mem this
        exact absurd (List.mem_map.mpr ⟨x, hx, h1⟩) hm
    have f2 : findName (itemName i) (nodesOf pre) = none := by
      cases hf1 : findName (itemName i) (nodesOf pre) with
      | none => rfl
      | some v =>
        have : itemName i ∈ kindNames true pre := by rw [kindNames_true, ← findName_isSome, hf1]; rfl
        obtain ⟨x, hx, h1, -⟩ := kindNames_mem this
        exact absurd (List.mem_map.mpr ⟨x, hx, h1⟩) hm
    cases closed with
    | true =>
      left
      refine ⟨rfl, hm, ?_⟩
      simp only [pasteUnion, h.parsed, if_true, getFrom, h.inv.findV hu, h.inv.findN hu, f1, f2]
      rfl
    | false =>
      right
      have hfp : (Item.eventsL post).length < fuel := by
        rw [h.whole, Item.eventsL_append, List.length_append] at hf; omega
      have hdp : Item.depthL post ≤ maxDepth := by
        rw [h.whole, depthL_append] at hd; omega
      rcases seekItem_spec read (itemName i) post fuel n s s' h.parsed (h.left rfl) hfp hdp with
        ⟨a, x, b, s1, hpost, hx, hs, hl⟩ | ⟨hno, -⟩
      · have hxi : x = i := inj_of_nodup hn (by rw [h.whole, hpost]; simp) hi hx
        subst hxi
        have hfb : (Item.eventsL b).length < fuel := by
          rw [hpost, Item.eventsL_append, List.length_append] at hfp
          simp only [Item.eventsL, List.length_append] at hfp
          omega
        obtain ⟨s2, hs2⟩ := finish_any (n := n.add (a ++ [x])) hl hfb
        have hat := h.next (n' := n.add (a ++ [x])) hpost
          (by rw [List.append_assoc]; exact (h.inv.add _).used _) h.parsed hl
        refine ⟨{ n.add (a ++ [x]) with parsed := true }, s2, _, _, ?_, fun e => (by cases e), hat.close s2⟩
        simp only [pasteUnion, h.parsed, Bool.false_eq_true, if_false, consumeItem, h.inv.findV hu, h.inv.findN hu, f1, f2, hs,
          Res.ok_bind, newest_item, hs2]
      · rw [h.whole] at hi
        rcases List.mem_append.mp hi with hi | hi
        · exact absurd (List.mem_map_of_mem hi) hm
        · exact absurd rfl (hno i hi)

end Srl.Typed
