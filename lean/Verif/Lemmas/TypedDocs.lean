import Verif.Lemmas.TypedStore
import Verif.Props.TypedDocsSpec

/-! # Lemmas on documents that carry the same object -/

namespace Srl.Typed

open Doc

/-! ## Related lists -/

def OptRel {α : Type} (R : α → α → Prop) : Option α → Option α → Prop
  | none, none => True
  | some a, some b => R a b
  | _, _ => False

def All2 {α : Type} (R : α → α → Prop) : List α → List α → Prop
  | [], [] => True
  | a :: as, b :: bs => R a b ∧ All2 R as bs
  | _, _ => False

variable {α : Type} {R : α → α → Prop}

theorem OptRel.imp {S : α → α → Prop} {a b : Option α} (h : OptRel R a b)
    (hi : ∀ x y, a = some x → b = some y → R x y → S x y) : OptRel S a b := by
  cases a <;> cases b <;> simp only [OptRel] at h ⊢
  exact hi _ _ rfl rfl h

theorem OptRel.isNone {a b : Option α} (h : OptRel R a b) : a.isNone = b.isNone := by
  cases a <;> cases b <;> simp only [OptRel] at h <;> rfl

theorem OptRel.refl {a : Option α} (h : ∀ x, a = some x → R x x) : OptRel R a a := by
  cases a
  · trivial
  · exact h _ rfl

theorem All2.length : ∀ {as bs : List α}, All2 R as bs → as.length = bs.length
  | [], [], _ => rfl
  | _ :: _, _ :: _, h => by simp [All2.length h.2]
  | [], _ :: _, h => h.elim
  | _ :: _, [], h => h.elim

theorem All2.get : ∀ {as bs : List α}, All2 R as bs → ∀ i : Nat, OptRel R as[i]? bs[i]?
  | [], [], _, _ => by simp [OptRel]
  | _ :: _, _ :: _, h, 0 => by simpa [OptRel] using h.1
  | _ :: _, _ :: _, h, i + 1 => by simpa using All2.get h.2 i
  | [], _ :: _, h, _ => h.elim
  | _ :: _, [], h, _ => h.elim

theorem All2.imp {S : α → α → Prop} : ∀ {as bs : List α}, All2 R as bs →
    (∀ x y, x ∈ as → R x y → S x y) → All2 S as bs
  | [], [], _, _ => trivial
  | _ :: _, _ :: _, h, hi => ⟨hi _ _ (by simp) h.1, All2.imp h.2 fun x y hx => hi x y (by simp [hx])⟩
  | [], _ :: _, h, _ => h.elim
  | _ :: _, [], h, _ => h.elim

theorem All2.mem_right : ∀ {as bs : List α}, All2 R as bs → ∀ b ∈ bs, ∃ a ∈ as, R a b
  | [], [], _, b, hb => by cases hb
  | a :: as, b' :: bs, h, b, hb => by
    rcases List.mem_cons.mp hb with rfl | hb
    · exact ⟨a, by simp, h.1⟩
    · obtain ⟨c, hc, hr⟩ := All2.mem_right h.2 b hb
      exact ⟨c, by simp [hc], hr⟩
  | [], _ :: _, h, _, _ => h.elim
  | _ :: _, [], h, _, _ => h.elim

theorem All2.refl (h : ∀ x, R x x) : ∀ as : List α, All2 R as as
  | [] => trivial
  | _ :: as => ⟨h _, All2.refl h as⟩

theorem All2.append : ∀ {a b c d : List α}, All2 R a b → All2 R c d → All2 R (a ++ c) (b ++ d)
  | [], [], _, _, _, h2 => h2
  | _ :: _, _ :: _, _, _, h, h2 => ⟨h.1, All2.append h.2 h2⟩
  | [], _ :: _, _, _, h, _ => h.elim
  | _ :: _, [], _, _, h, _ => h.elim

/-- A scope and its content. -/
abbrev Sc := Bytes × ScopeTy × List Item

/-- The same results; with `w` only if there is one. -/
def Alike {α : Type} (w : Prop) (r r' : Res α) : Prop := (∀ o, r = .ok o ↔ r' = .ok o) ∧ (w ∨ r = r')

theorem Alike.rfl {w : Prop} {r : Res α} : Alike w r r := ⟨fun _ => Iff.rfl, .inr (Eq.refl r)⟩

theorem Alike.of_eq {w : Prop} {r r' : Res α} (h : r = r') : Alike w r r' := h ▸ Alike.rfl

theorem Alike.eq {r r' : Res α} (h : Alike False r r') : r = r' := h.2.resolve_left id

theorem Alike.trans {w : Prop} {r r' r'' : Res α} (h1 : Alike w r r') (h2 : Alike w r' r'') : Alike w r r'' :=
  ⟨fun o => (h1.1 o).trans (h2.1 o), by
    rcases h1.2 with h | h
    · exact .inl h
    · rcases h2.2 with h' | h'
      · exact .inl h'
      · exact .inr (h.trans h')⟩

theorem Alike.bind {β : Type} {w : Prop} {r r' : Res α} {f f' : α → Res β} (h : Alike w r r')
    (hf : ∀ x, Alike w (f x) (f' x)) : Alike w (r >>= f) (r' >>= f') := by
  refine ⟨fun o => ?_, ?_⟩
  · simp only [Res.bind_eq_ok]
    constructor
    · rintro ⟨x, h1, h2⟩
      exact ⟨x, (h.1 x).mp h1, ((hf x).1 o).mp h2⟩
    · rintro ⟨x, h1, h2⟩
      exact ⟨x, (h.1 x).mpr h1, ((hf x).1 o).mpr h2⟩
  · rcases h.2 with hw | rfl
    · exact .inl hw
    · cases r with
      | ok x => exact (hf x).2
      | err => exact .inr (Eq.refl _)
      | ub => exact .inr (Eq.refl _)
      | fuel => exact .inr (Eq.refl _)

/-- Restoring gives the same. -/
def Same (w : Prop) (env : Env) (e : Ty) (x y : Sc) : Prop :=
  ∀ old, Alike w (pasteNode env e old (nodeOf x.2.1 x.2.2)) (pasteNode env e old (nodeOf y.2.1 y.2.2))

theorem mapRes_alike {β : Type} {w : Prop} {f g : α → Res β} : ∀ {as bs : List α},
    All2 (fun x y => Alike w (f x) (g y)) as bs → Alike w (mapRes f as) (mapRes g bs)
  | [], [], _ => Alike.rfl
  | a :: as, b :: bs, h => by
    simp only [mapRes]
    exact h.1.bind fun y => (mapRes_alike h.2).bind fun ys => Alike.rfl
  | [], _ :: _, h => h.elim
  | _ :: _, [], h => h.elim

theorem All2.map {β : Type} {S : β → β → Prop} {f : α → β} : ∀ {as bs : List α},
    All2 (fun x y => S (f x) (f y)) as bs → All2 S (as.map f) (bs.map f)
  | [], [], _ => trivial
  | _ :: _, _ :: _, h => ⟨h.1, All2.map h.2⟩
  | [], _ :: _, h => h.elim
  | _ :: _, [], h => h.elim

theorem mapRes_same {w : Prop} {env : Env} {e : Ty} {d : Obj} {as bs : List Sc} (h : All2 (Same w env e) as bs) :
    Alike w (mapRes (fun p : Bytes × Node => pasteNode env e d p.2) (as.map fun x => (x.1, nodeOf x.2.1 x.2.2)))
      (mapRes (fun p => pasteNode env e d p.2) (bs.map fun x => (x.1, nodeOf x.2.1 x.2.2))) :=
  mapRes_alike (All2.map (h.imp fun _ _ _ h => h d))

/-- The same for the entries of tables -/
theorem mapRes_entries {w : Prop} {env : Env} {e : Ty} {d : Obj} {as bs : List Sc}
    (h : All2 (fun x y => x.1 = y.1 ∧ Same w env e x y) as bs) :
    Alike w (mapRes (fun p : Bytes × Node => do
          let y ← pasteNode env e d p.2
          .ok (Obj.many [.str p.1, y])) (as.map fun x => (x.1, nodeOf x.2.1 x.2.2)))
      (mapRes (fun p => do
          let y ← pasteNode env e d p.2
          .ok (Obj.many [.str p.1, y])) (bs.map fun x => (x.1, nodeOf x.2.1 x.2.2))) :=
  mapRes_alike (All2.map (h.imp fun x y _ h => by
    simp only [h.1]
    exact (h.2 d).bind fun _ => Alike.rfl))

theorem zipRes_same {w : Prop} {env : Env} {e : Ty} : ∀ {as bs : List Sc} {os : List Obj},
    All2 (Same w env e) as bs →
    Alike w (zipRes (fun o (p : Bytes × Node) => pasteNode env e o p.2) os
        (as.map fun x => (x.1, nodeOf x.2.1 x.2.2)))
      (zipRes (fun o p => pasteNode env e o p.2) os (bs.map fun x => (x.1, nodeOf x.2.1 x.2.2)))
  | [], [], _, _ => Alike.rfl
  | a :: as, b :: bs, [], _ => Alike.rfl
  | a :: as, b :: bs, o :: os, h => by
    simp only [List.map_cons, zipRes]
    exact (h.1 o).bind fun y => (zipRes_same h.2).bind fun ys => Alike.rfl
  | [], _ :: _, _, h => h.elim
  | _ :: _, [], _, h => h.elim

theorem mapRes_perm {β γ : Type} {f : β → Res γ} {as bs : List β} (h : as.Perm bs) :
    ∀ {xs : List γ}, mapRes f as = .ok xs → ∃ ys, mapRes f bs = .ok ys ∧ xs.Perm ys := by
  induction h with
  | nil => intro xs h; exact ⟨xs, h, .refl _⟩
  | cons x _ ih =>
    intro xs h
    simp only [mapRes, Res.bind_eq_ok, Res.ok.injEq] at h ⊢
    obtain ⟨y, h1, ys, h2, rfl⟩ := h
    obtain ⟨zs, h3, h4⟩ := ih h2
    exact ⟨_, ⟨y, h1, zs, h3, rfl⟩, h4.cons _⟩
  | swap x y l =>
    intro xs h
    simp only [mapRes, Res.bind_eq_ok, Res.ok.injEq] at h ⊢
    obtain ⟨a, h1, _, ⟨c, h2, ys, h3, rfl⟩, rfl⟩ := h
    exact ⟨_, ⟨c, h2, _, ⟨a, h1, ys, h3, rfl⟩, rfl⟩, .swap ..⟩
  | trans _ _ ih1 ih2 =>
    intro xs h
    obtain ⟨ys, h1, h2⟩ := ih1 h
    obtain ⟨zs, h3, h4⟩ := ih2 h1
    exact ⟨zs, h3, h2.trans h4⟩

/-- The entries read have the names of the document. -/
theorem mapRes_entry {β : Type} {g : Bytes × β → Res Obj} : ∀ {as : List (Bytes × β)} {xs : List Obj},
    mapRes (fun p => do
      let y ← g p
      .ok (Obj.many [.str p.1, y])) as = .ok xs →
    (∀ x ∈ xs, Entry (fun _ => True) x) ∧ xs.map (keyOf true) = as.map (fun p => .str p.1)
  | [], xs, h => by
    simp only [mapRes, Res.ok.injEq] at h
    subst h
    simp
  | a :: as, xs, h => by
    simp only [mapRes, Res.bind_eq_ok, Res.ok.injEq] at h
    obtain ⟨_, ⟨y, h1, rfl⟩, ys, h2, rfl⟩ := h
    obtain ⟨h3, h4⟩ := mapRes_entry h2
    refine ⟨fun x hx => ?_, by simp [h4, keyOf]⟩
    rcases List.mem_cons.mp hx with rfl | hx
    · exact ⟨_, _, rfl, trivial⟩
    · exact h3 x hx

theorem bind_collect {b : Order} {r : Res (List Obj)} : ((r >>= fun ys => .ok (Obj.many ys)) >>= fun o =>
    .ok (collect b o)) = r >>= fun ys => .ok (collect b (.many ys)) := by
  cases r <;> rfl

/-- The order of the entries of a table does not matter. -/
theorem collect_entries {β : Type} {g : Bytes × β → Res Obj} {b : Order} (hb : b.byKey = true)
    {as bs : List (Bytes × β)} (hp : as.Perm bs) (hn : (as.map (·.1)).Nodup) (o : Obj)
    (h : (do
      let ys ← mapRes (fun p => do
        let y ← g p
        .ok (Obj.many [.str p.1, y])) as
      .ok (collect b (.many ys))) = .ok o) :
    (do
      let ys ← mapRes (fun p => do
        let y ← g p
        .ok (Obj.many [.str p.1, y])) bs
      .ok (collect b (.many ys))) = .ok o := by
  simp only [Res.bind_eq_ok, Res.ok.injEq] at h
  obtain ⟨xs, h1, rfl⟩ := h
  obtain ⟨ys, h2, h3⟩ := mapRes_perm hp h1
  obtain ⟨h4, h5⟩ := mapRes_entry h1
  simp only [Res.bind_eq_ok, Res.ok.injEq]
  refine ⟨ys, h2, ?_⟩
  have hk : Keyed b.byKey (Entry fun _ => True) := hb ▸ keyed_entry
  rw [collect, collect, foldl_perm hk h4 ?_ h3]
  rw [hb, h5]
  have : as.map (fun p => Obj.str p.1) = (as.map (·.1)).map Obj.str := by simp
  rw [this]
  exact List.Pairwise.map _ (fun a b h h' => h (by simpa using h')) hn

/-! ## Fields -/

/-- The scope of a name. -/
abbrev scopeAt (nm : Bytes) (items : List Item) : Option Sc := (scopesOf items).find? (·.1 == nm)

theorem lookup_named {nm : Bytes} (h : nm ≠ []) (i : Nat) (items : List Item) :
    lookup (.of nm i) (nodesOf items) = match scopeAt nm items with
      | some x => .ok (nodeOf x.2.1 x.2.2)
      | none => .err := by
  simp only [Sel.of, if_neg h, lookup, findName_nodesOf, scopeAt]
  cases (scopesOf items).find? (·.1 == nm) <;> rfl

/-- Fields with names: the same scope or related ones. -/
def SameN (w : Prop) (env : Env) (a b : List Item) : Fields → Prop
  | .nil => True
  | .cons nm _ ty rest => (ty.isScope = true → OptRel (Same w env ty) (scopeAt nm a) (scopeAt nm b)) ∧
      SameN w env a b rest

def SameP (w : Prop) (env : Env) (a b : List Item) : Fields → Nat → Prop
  | .nil, _ => True
  | .cons _ _ ty rest, ni =>
    (ty.isScope = true → OptRel (Same w env ty) (scopesOf a)[ni]? (scopesOf b)[ni]?) ∧
      SameP w env a b rest (if ty.isScope then ni + 1 else ni)

theorem lookup_values {nm : Bytes} (h : nm ≠ []) (i : Nat) (vs : List (Bytes × Val)) :
    lookup (.of nm i) vs = match findName nm vs with
      | some x => .ok x
      | none => .err := by
  simp only [Sel.of, if_neg h, lookup]
  cases findName nm vs <;> rfl

theorem pasteFields_named {w : Prop} (env : Env) {a b : List Item} : ∀ (fs : Fields) (os : List Obj)
    (ni vi ni' vi' : Nat), [] ∉ fs.names →
    (∀ nm ∈ fs.names, findName nm (valuesOf a) = findName nm (valuesOf b)) → SameN w env a b fs →
    Alike w (pasteFields env fs os ni vi (valuesOf a) (nodesOf a))
      (pasteFields env fs os ni' vi' (valuesOf b) (nodesOf b))
  | .nil, _, _, _, _, _ => fun _ _ _ => Alike.rfl
  | .cons nm opt ty rest, [], _, _, _, _ => fun _ _ _ => Alike.rfl
  | .cons nm opt ty rest, o :: os, ni, vi, ni', vi' => by
    intro h0 hv hs
    simp only [Fields.names, List.mem_cons, not_or] at h0
    have hr : ∀ ni vi ni' vi', Alike w (pasteFields env rest os ni vi (valuesOf a) (nodesOf a))
        (pasteFields env rest os ni' vi' (valuesOf b) (nodesOf b)) := fun ni vi ni' vi' =>
      pasteFields_named env rest os ni vi ni' vi' h0.2 (fun m hm => hv m (by simp [Fields.names, hm])) hs.2
    have hn : nm ≠ [] := Ne.symm h0.1
    by_cases ht : ty.isScope = true
    · simp only [pasteFields, ht, if_true]
      have hr1 := hs.1 ht
      have e1 : (findName nm (nodesOf a)).isNone = (findName nm (nodesOf b)).isNone := by
        rw [findName_nodesOf, findName_nodesOf, Option.isNone_map, Option.isNone_map]
        exact hr1.isNone
      rw [e1]
      split
      · exact (hr ni vi ni' vi').bind fun _ => Alike.rfl
      · rw [lookup_named hn, lookup_named hn]
        revert hr1
        cases scopeAt nm a <;> cases scopeAt nm b <;> intro hr1
        · exact Alike.rfl
        · exact hr1.elim
        · exact hr1.elim
        · simp only [Res.ok_bind]
          exact (hr1 o).bind fun y => (hr (ni + 1) vi (ni' + 1) vi').bind fun _ => Alike.rfl
    · simp only [pasteFields, ht, Bool.false_eq_true, if_false]
      rw [hv nm (by simp [Fields.names])]
      split
      · exact (hr ni vi ni' vi').bind fun _ => Alike.rfl
      · rw [lookup_values hn, lookup_values hn, hv nm (by simp [Fields.names])]
        exact Alike.rfl.bind fun v => Alike.rfl.bind fun y => (hr ni (vi + 1) ni' (vi' + 1)).bind fun _ => Alike.rfl

theorem pasteFields_pos {w : Prop} (env : Env) {a b : List Item} (hv : valuesOf a = valuesOf b) :
    ∀ (fs : Fields) (os : List Obj) (ni vi : Nat), fs.Positional → SameP w env a b fs ni →
    Alike w (pasteFields env fs os ni vi (valuesOf a) (nodesOf a))
      (pasteFields env fs os ni vi (valuesOf b) (nodesOf b))
  | .nil, _, _, _ => fun _ _ => Alike.rfl
  | .cons nm opt ty rest, [], _, _ => fun _ _ => Alike.rfl
  | .cons nm opt ty rest, o :: os, ni, vi => by
    intro h0 hs
    obtain ⟨rfl, rfl, hp⟩ := h0
    by_cases ht : ty.isScope = true
    · have hr := pasteFields_pos env hv rest os (ni + 1) vi hp (by simpa [SameP, ht] using hs.2)
      simp only [pasteFields, ht, if_true, Bool.false_eq_true, false_and, if_false]
      have hr1 := hs.1 ht
      simp only [Sel.of, if_true, lookup, nodesOf, List.getElem?_map]
      simp only [nodesOf] at hr
      revert hr1
      cases (scopesOf a)[ni]? <;> cases (scopesOf b)[ni]? <;> intro hr1
      · exact Alike.rfl
      · exact hr1.elim
      · exact hr1.elim
      · simp only [Option.map_some, Res.ok_bind]
        exact (hr1 o).bind fun y => hr.bind fun _ => Alike.rfl
    · have hr := pasteFields_pos env hv rest os ni (vi + 1) hp (by simpa [SameP, ht] using hs.2)
      simp only [pasteFields, ht, Bool.false_eq_true, false_and, if_false]
      rw [hv] at hr ⊢
      exact Alike.rfl.bind fun v => Alike.rfl.bind fun y => hr.bind fun _ => Alike.rfl

/-! ## C05 -/

/-- Scopes of which the second is the first in another order. -/
def ReordS (x y : Sc) : Prop := x.1 = y.1 ∧ x.2.1 = y.2.1 ∧ ReordC x.2.1 x.2.2 y.2.2

theorem reordL_parts : ∀ (a m : List Item), ReordL a m →
    valuesOf a = valuesOf m ∧ All2 ReordS (scopesOf a) (scopesOf m) ∧ a.map itemName = m.map itemName
  | [], m, h => by
    simp only [ReordL] at h
    subst h
    exact ⟨rfl, trivial, rfl⟩
  | .val n v :: is, m, h => by
    simp only [ReordL, Reord] at h
    obtain ⟨j, js, rfl, rfl, h⟩ := h
    obtain ⟨h1, h2, h3⟩ := reordL_parts is js h
    exact ⟨by rw [valuesOf, valuesOf, h1], h2, by rw [List.map_cons, List.map_cons, h3]⟩
  | .scope n t kids :: is, m, h => by
    simp only [ReordL, Reord] at h
    obtain ⟨j, js, rfl, ⟨mid, kids', rfl, hm, hk⟩, h⟩ := h
    obtain ⟨h1, h2, h3⟩ := reordL_parts is js h
    exact ⟨by rw [valuesOf, valuesOf, h1], ⟨⟨rfl, rfl, mid, hm, hk⟩, h2⟩,
      by rw [List.map_cons, List.map_cons, h3]; rfl⟩

theorem scopesOf_perm {a b : List Item} (h : a.Perm b) : (scopesOf a).Perm (scopesOf b) := by
  have e : ∀ l : List Item, scopesOf l = l.filterMap (fun i => match i with
      | .val _ _ => none
      | .scope n t k => some (n, t, k)) := by
    intro l
    induction l with
    | nil => rfl
    | cons i l ih => cases i <;> simp [scopesOf, ih]
  rw [e, e]
  exact h.filterMap _

theorem valuesOf_perm {a b : List Item} (h : a.Perm b) : (valuesOf a).Perm (valuesOf b) := by
  have e : ∀ l : List Item, valuesOf l = l.filterMap (fun i => match i with
      | .val n v => some (n, v)
      | .scope _ _ _ => none) := by
    intro l
    induction l with
    | nil => rfl
    | cons i l ih => cases i <;> simp [valuesOf, ih]
  rw [e, e]
  exact h.filterMap _

theorem scopes_sublist (a : List Item) : ((scopesOf a).map (·.1)).Sublist (a.map itemName) := by
  induction a with
  | nil => exact .slnil
  | cons i a ih =>
    cases i with
    | val n v => exact ih.cons _
    | scope n t k => exact ih.cons_cons _

theorem values_sublist (a : List Item) : ((valuesOf a).map (·.1)).Sublist (a.map itemName) := by
  induction a with
  | nil => exact .slnil
  | cons i a ih =>
    cases i with
    | val n v => exact ih.cons_cons _
    | scope n t k => exact ih.cons _

/-- With different names the one of a name is the same in any order. -/
theorem find_perm {β : Type} {nm : Bytes} {xs ys : List (Bytes × β)} (h : xs.Perm ys)
    (hn : (xs.map (·.1)).Nodup) : xs.find? (·.1 == nm) = ys.find? (·.1 == nm) := by
  have key : ∀ {xs : List (Bytes × β)}, (xs.map (·.1)).Nodup → ∀ y, xs.find? (·.1 == nm) = some y ↔
      y ∈ xs ∧ y.1 = nm := by
    intro xs hn y
    induction xs with
    | nil => simp
    | cons x xs ih =>
      simp only [List.map_cons, List.nodup_cons] at hn
      by_cases hx : x.1 = nm
      · rw [List.find?_cons_of_pos (by simp [hx])]
        constructor
        · intro he
          cases he
          exact ⟨by simp, hx⟩
        · rintro ⟨hy, h2⟩
          rcases List.mem_cons.mp hy with rfl | hy
          · rfl
          · exact absurd (List.mem_map.mpr ⟨y, hy, by rw [h2, hx]⟩) hn.1
      · rw [List.find?_cons_of_neg (by simp [hx]), ih hn.2]
        constructor
        · rintro ⟨h1, h2⟩; exact ⟨by simp [h1], h2⟩
        · rintro ⟨h1, h2⟩
          rcases List.mem_cons.mp h1 with rfl | h1
          · exact absurd h2 hx
          · exact ⟨h1, h2⟩
  apply Option.ext
  intro y
  rw [key hn, key ((h.map _).nodup_iff.mp hn), h.mem_iff]

theorem find_all2 {nm : Bytes} {R : Sc → Sc → Prop} (hR : ∀ x y, R x y → x.1 = y.1) :
    ∀ {as bs : List Sc}, All2 R as bs →
      OptRel R (as.find? (·.1 == nm)) (bs.find? (·.1 == nm))
  | [], [], _ => trivial
  | a :: as, b :: bs, h => by
    have he := hR _ _ h.1
    by_cases hx : a.1 = nm
    · rw [List.find?_cons_of_pos (by simp [hx]), List.find?_cons_of_pos (by simp [← he, hx])]
      exact h.1
    · rw [List.find?_cons_of_neg (by simp [hx]), List.find?_cons_of_neg (by simp [← he, hx])]
      exact find_all2 hR h.2
  | [], _ :: _, h => h.elim
  | _ :: _, [], h => h.elim

theorem findName_find {β : Type} (nm : Bytes) (xs : List (Bytes × β)) :
    findName nm xs = (xs.find? (·.1 == nm)).map (·.2) := by
  induction xs with
  | nil => rfl
  | cons x xs ih =>
    by_cases h : x.1 = nm
    · simp [findName, h]
    · simp [findName, h, ih]

/-- What is shown of reordered content: the same results, also in a container with an order. -/
def SameC (w : Prop) (env : Env) (ty : Ty) (inside : Bool) (x y : Node) : Prop :=
  ∀ old, (inside = false → Alike w (pasteNode env ty old x) (pasteNode env ty old y)) ∧
    ∀ b, ty.Elems b → Alike w (pasteNode env ty old x >>= fun o => .ok (collect b o))
      (pasteNode env ty old y >>= fun o => .ok (collect b o))

theorem SameC.of {w : Prop} {env : Env} {ty : Ty} {inside : Bool} {x y : Node}
    (h : ∀ old, Alike w (pasteNode env ty old x) (pasteNode env ty old y)) : SameC w env ty inside x y :=
  fun old => ⟨fun _ => h old, fun _ _ => (h old).bind fun _ => Alike.rfl⟩

mutual
theorem reord_same {w : Prop} (env : Env) : ∀ (ty : Ty) (inside : Bool) (t : ScopeTy) (a b : List Item), ty.Ok →
    ty.Tables w inside → Plain ty t a → ReordC t a b → Plain ty t b ∧ SameC w env ty inside (nodeOf t a) (nodeOf t b)
  | .bool, _, _, _, _ => fun _ _ h => h.elim
  | .int _, _, _, _, _ => fun _ _ h => h.elim
  | .float, _, _, _, _ => fun _ _ h => h.elim
  | .double, _, _, _, _ => fun _ _ h => h.elim
  | .str, _, _, _, _ => fun _ _ h => h.elim
  | .bytes, _, _, _, _ => fun _ _ h => h.elim
  | .sorted b' c, _, t, a, b => by
    intro hok hw hp hr
    obtain ⟨h1, h2⟩ := reord_same env c true t a b hok.1 hw hp hr
    refine ⟨h1, .of fun old => ?_⟩
    simp only [pasteNode]
    exact (h2 (dflt c)).2 b' hok.2
  | .ptr _ e, _, t, a, b => by
    intro hok hw hp hr
    obtain ⟨h1, h2⟩ := reord_same env e false t a b hok hw hp hr
    refine ⟨h1, .of fun old => ?_⟩
    simp only [pasteNode]
    exact ((h2 (dflt e)).1 rfl).bind fun _ => Alike.rfl
  | .vec e, _, t, a, b => by
    intro hok hw hp hr
    obtain ⟨rfl, hp⟩ := hp
    obtain ⟨mid, hm, hb⟩ := hr
    rw [if_neg (by simp)] at hb
    subst hb
    obtain ⟨h1, h2, -⟩ := reordL_parts a mid hm
    refine ⟨⟨rfl, fun hs y hy => ?_⟩, .of fun old => ?_⟩
    · obtain ⟨x, hx, h3, h4, h5⟩ := h2.mem_right y hy
      rw [← h4]
      exact (reord_same env e false x.2.1 x.2.2 y.2.2 hok hw (hp hs x hx) h5).1
    · simp only [pasteNode, contentL_eq, h1]
      by_cases hs : e.isScope = true
      · simp only [hs, if_true]
        have : All2 (Same w env e) (scopesOf a) (scopesOf mid) := h2.imp fun x y hx hxy old => by
          rw [← hxy.2.1]
          exact ((reord_same env e false x.2.1 x.2.2 y.2.2 hok hw (hp hs x hx) hxy.2.2).2 old).1 rfl
        have := mapRes_same (d := dflt e) this
        simp only [nodesOf]
        exact this.bind fun _ => Alike.rfl
      · simp only [hs, Bool.false_eq_true, if_false]
        exact Alike.rfl
  | .named e, inside, t, a, b => by
    intro hok hw hp hr
    obtain ⟨rfl, hn, hp⟩ := hp
    obtain ⟨hw0, hin, hw⟩ := hw
    obtain ⟨mid, hm, hb⟩ := hr
    rw [if_pos rfl] at hb
    obtain ⟨h1, h2, h3⟩ := reordL_parts a mid hm
    have hnm : (mid.map itemName).Nodup := h3 ▸ hn
    refine ⟨⟨rfl, (hb.map _).nodup_iff.mp hnm, fun hs y hy => ?_⟩, fun old => ⟨fun h => ?_, fun bo hel => ?_⟩⟩
    · obtain ⟨x, hx, h3, h4, h5⟩ := h2.mem_right y ((scopesOf_perm hb).mem_iff.mpr hy)
      rw [← h4]
      exact (reord_same env e false x.2.1 x.2.2 y.2.2 hok hw (hp hs x hx) h5).1
    · rw [hin] at h
      cases h
    · have hbk : bo.byKey = true := by
        unfold Ty.Elems at hel
        split at hel
        · assumption
        · obtain ⟨k, -, h⟩ := hel
          cases h
      simp only [pasteNode, contentL_eq]
      by_cases hs : e.isScope = true
      · simp only [hs, if_true, ne_eq, not_true, if_false, bind_collect]
        have : All2 (fun x y => x.1 = y.1 ∧ Same w env e x y) (scopesOf a) (scopesOf mid) :=
          h2.imp fun x y hx hxy => ⟨hxy.1, fun old => by
            rw [← hxy.2.1]
            exact ((reord_same env e false x.2.1 x.2.2 y.2.2 hok hw (hp hs x hx) hxy.2.2).2 old).1 rfl⟩
        refine (((mapRes_entries (d := dflt e) this).bind fun _ => Alike.rfl).trans
          ⟨fun o => ⟨fun h => ?_, fun h => ?_⟩, .inl hw0⟩)
        · refine collect_entries hbk ((scopesOf_perm hb).map _) ?_ o h
          rw [List.map_map]
          exact (scopes_sublist mid).nodup hnm
        · refine collect_entries hbk ((scopesOf_perm hb.symm).map _) ?_ o h
          rw [List.map_map]
          exact (scopes_sublist b).nodup ((hb.map _).nodup_iff.mp hnm)
      · simp only [hs, Bool.false_eq_true, if_false, ne_eq, not_true, bind_collect]
        rw [h1]
        refine ⟨fun o => ⟨fun h => ?_, fun h => ?_⟩, .inl hw0⟩
        · exact collect_entries hbk (valuesOf_perm hb) ((values_sublist mid).nodup hnm) o h
        · exact collect_entries hbk (valuesOf_perm hb.symm)
            ((values_sublist b).nodup ((hb.map _).nodup_iff.mp hnm)) o h
  | .arr k e, _, t, a, b => by
    intro hok hw hp hr
    obtain ⟨rfl, hk, hn, hp⟩ := hp
    obtain ⟨mid, hm, hb⟩ := hr
    rw [if_neg (by simp)] at hb
    subst hb
    obtain ⟨h1, h2, -⟩ := reordL_parts a mid hm
    refine ⟨⟨rfl, ?_, fun hs => ?_, fun hs y hy => ?_⟩, .of fun old => ?_⟩
    · rw [← hk]
      cases e.isScope
      · simp [kindNames, h1]
      · simp [kindNames, h2.length]
    · have := hn hs
      rw [this] at h2
      cases hsm : scopesOf mid with
      | nil => rfl
      | cons _ _ => rw [hsm] at h2; exact h2.elim
    · obtain ⟨x, hx, h3, h4, h5⟩ := h2.mem_right y hy
      rw [← h4]
      exact (reord_same env e false x.2.1 x.2.2 y.2.2 hok hw (hp hs x hx) h5).1
    · cases old with
      | many os =>
        simp only [pasteNode, contentL_eq, h1]
        by_cases hs : e.isScope = true
        · simp only [hs, if_true]
          have : All2 (Same w env e) (scopesOf a) (scopesOf mid) := h2.imp fun x y hx hxy old => by
            rw [← hxy.2.1]
            exact ((reord_same env e false x.2.1 x.2.2 y.2.2 hok hw (hp hs x hx) hxy.2.2).2 old).1 rfl
          have h3 := zipRes_same (os := os) this
          have h4 : (nodesOf a).length = (nodesOf mid).length := by
            simp [nodesOf, h2.length]
          rw [h4]
          by_cases hl : (nodesOf mid).length ≠ k
          · rw [if_pos hl, if_pos hl]
            exact Alike.rfl
          · rw [if_neg hl, if_neg hl]
            exact h3.bind fun _ => Alike.rfl
        · simp only [hs, Bool.false_eq_true, if_false]
          exact Alike.rfl
      | _ => exact Alike.rfl
  | .record t' st fs, _, t, a, b => by
    intro hok hw hp hr
    obtain ⟨hfs, hkind⟩ := hok
    obtain ⟨rfl, hshape, hp⟩ := hp
    obtain ⟨mid, hm, hb⟩ := hr
    obtain ⟨h1, h2, h3⟩ := reordL_parts a mid hm
    rcases hkind with ⟨rfl, h0, hnd⟩ | ⟨rfl, rfl, hpos⟩
    · simp only [if_true] at hb hshape
      have hnm : (mid.map itemName).Nodup := h3 ▸ hshape.1
      have hrel : ∀ nm, OptRel ReordS (scopeAt nm a) (scopeAt nm b) := by
        intro nm
        have := find_all2 (nm := nm) (fun x y h => h.1) h2
        rw [find_perm (scopesOf_perm hb) ((scopes_sublist mid).nodup hnm)] at this
        exact this
      obtain ⟨h4, h5⟩ := reord_named env fs 0 a b hfs hw h0 hp hrel
      refine ⟨⟨rfl, ?_, h4⟩, .of fun old => ?_⟩
      · rw [if_pos rfl]
        refine ⟨(hb.map _).nodup_iff.mp hnm, fun y hy => ?_⟩
        obtain ⟨x, hx, hxy⟩ := h2.mem_right y ((scopesOf_perm hb).mem_iff.mpr hy)
        rw [← hxy.1]
        exact hshape.2 x hx
      · cases old with
        | many os =>
          simp only [pasteNode, contentL_eq]
          split
          · exact Alike.rfl
          refine (pasteFields_named env fs os 0 0 0 0 h0 (fun nm _ => ?_) h5).bind fun _ => Alike.rfl
          rw [h1, findName_find, findName_find,
            find_perm (valuesOf_perm hb) ((values_sublist mid).nodup hnm)]
        | _ => exact Alike.rfl
    · rw [if_neg (by simp)] at hb hshape
      subst hb
      obtain ⟨h4, h5⟩ := reord_pos env fs 0 a mid hfs hw hpos hp h2
      refine ⟨⟨rfl, ?_, h4⟩, .of fun old => ?_⟩
      · rw [if_neg (by simp), ← h2.length]; exact hshape
      · cases old with
        | many os =>
          simp only [pasteNode, contentL_eq]
          split
          · exact Alike.rfl
          exact (pasteFields_pos env h1 fs os 0 0 hpos h5).bind fun _ => Alike.rfl
        | _ => exact Alike.rfl
theorem reord_named {w : Prop} (env : Env) : ∀ (fs : Fields) (ni : Nat) (a b : List Item), fs.Ok → fs.Tables w →
    [] ∉ fs.names → PlainL fs ni a → (∀ nm, OptRel ReordS (scopeAt nm a) (scopeAt nm b)) →
    PlainL fs ni b ∧ SameN w env a b fs
  | .nil, _, _, _ => fun _ _ _ _ _ => ⟨trivial, trivial⟩
  | .cons nm opt ty rest, ni, a, b => by
    intro hok hw h0 hp hrel
    simp only [Fields.names, List.mem_cons, not_or] at h0
    have hn : nm ≠ [] := Ne.symm h0.1
    obtain ⟨h4, h5⟩ := reord_named env rest _ a b hok.2 hw.2 h0.2 hp.2 hrel
    have hone := hp.1
    simp only [pick, if_neg hn] at hone
    have hr := hrel nm
    refine ⟨⟨fun hs y hy => ?_, h4⟩, fun hs => ?_, h5⟩
    · simp only [pick, if_neg hn] at hy
      simp only [scopeAt] at hr
      rw [hy] at hr
      cases hx : (scopesOf a).find? (·.1 == nm) with
      | none => rw [hx] at hr; exact hr.elim
      | some x =>
        rw [hx] at hr
        rw [← hr.2.1]
        exact (reord_same env ty false x.2.1 x.2.2 y.2.2 hok.1 hw.1 (hone hs x hx) hr.2.2).1
    · refine hr.imp fun x y hx hy hxy old => ?_
      rw [← hxy.2.1]
      exact ((reord_same env ty false x.2.1 x.2.2 y.2.2 hok.1 hw.1 (hone hs x hx) hxy.2.2).2 old).1 rfl
theorem reord_pos {w : Prop} (env : Env) : ∀ (fs : Fields) (ni : Nat) (a b : List Item), fs.Ok → fs.Tables w →
    fs.Positional → PlainL fs ni a → All2 ReordS (scopesOf a) (scopesOf b) →
    PlainL fs ni b ∧ SameP w env a b fs ni
  | .nil, _, _, _ => fun _ _ _ _ _ => ⟨trivial, trivial⟩
  | .cons nm opt ty rest, ni, a, b => by
    intro hok hw h0 hp hrel
    obtain ⟨rfl, rfl, hpos⟩ := h0
    obtain ⟨h4, h5⟩ := reord_pos env rest _ a b hok.2 hw.2 hpos hp.2 hrel
    have hone := hp.1
    simp only [pick, if_true] at hone
    have hr := hrel.get ni
    refine ⟨⟨fun hs y hy => ?_, h4⟩, fun hs => ?_, h5⟩
    · simp only [pick, if_true] at hy
      rw [hy] at hr
      cases hx : (scopesOf a)[ni]? with
      | none => rw [hx] at hr; exact hr.elim
      | some x =>
        rw [hx] at hr
        rw [← hr.2.1]
        exact (reord_same env ty false x.2.1 x.2.2 y.2.2 hok.1 hw.1 (hone hs x hx) hr.2.2).1
    · refine hr.imp fun x y hx hy hxy old => ?_
      rw [← hxy.2.1]
      exact ((reord_same env ty false x.2.1 x.2.2 y.2.2 hok.1 hw.1 (hone hs x hx) hxy.2.2).2 old).1 rfl
end

/-! ## Documents in the form of the type -/

theorem scope_mem_scopesOf {n : Bytes} {t : ScopeTy} {kids items : List Item}
    (h : Item.scope n t kids ∈ items) : (n, t, kids) ∈ scopesOf items := by
  obtain ⟨a, b, rfl⟩ := List.append_of_mem h
  rw [scopesOf_append]
  simp [scopesOf]

theorem wants_scopeName {n : Bytes} {pre : List Item} (hn : n ∉ pre.map itemName) :
    ∀ (fs : Fields) (ni vi : Nat), [] ∉ fs.names → n ∈ fs.scopeNames → Wants fs ni vi pre
  | .nil, _, _ => by intro _ h; simp [Fields.scopeNames] at h
  | .cons nm opt ty rest, ni, vi => by
    intro h0 h
    simp only [Fields.names, List.mem_cons, not_or] at h0
    simp only [Fields.scopeNames] at h
    have hk : ∀ k, n ∉ kindNames k pre := by
      intro k hk
      obtain ⟨x, hx, h1, -⟩ := kindNames_mem hk
      exact hn (List.mem_map.mpr ⟨x, hx, h1⟩)
    by_cases hs : ty.isScope = true
    · rw [if_pos hs] at h
      rcases List.mem_cons.mp h with rfl | h
      · left
        unfold Found
        rw [if_neg (Ne.symm h0.1)]
        rintro (h | ⟨-, h⟩)
        · exact hk _ h
        · exact hk _ h
      · exact .inr (wants_scopeName hn rest _ _ h0.2 h)
    · rw [if_neg hs] at h
      exact .inr (wants_scopeName hn rest _ _ h0.2 h)

theorem wants_positional {pre : List Item} : ∀ (fs : Fields) (ni vi : Nat), fs.Positional →
    (kindNames true pre).length < ni + fs.scopeNames.length → ni ≤ (kindNames true pre).length →
    Wants fs ni vi pre
  | .nil, _, _ => by intro _ h h2; simp only [Fields.scopeNames, List.length_nil] at h; omega
  | .cons nm opt ty rest, ni, vi => by
    intro h0 h h2
    obtain ⟨rfl, rfl, hp⟩ := h0
    by_cases hs : ty.isScope = true
    · simp only [Fields.scopeNames, hs, if_true, List.length_cons] at h
      by_cases hf : ni < (kindNames true pre).length
      · right
        simp only [hs, if_true]
        exact wants_positional rest _ _ hp (by omega) hf
      · left
        simp only [hs, if_true, Found]
        exact hf
    · simp only [Fields.scopeNames, hs, Bool.false_eq_true, if_false] at h
      right
      simp only [hs, Bool.false_eq_true, if_false]
      exact wants_positional rest _ _ hp h h2

mutual
theorem plain_fits : ∀ (ty : Ty) (t : ScopeTy) (items : List Item), ty.Ok → Plain ty t items →
    Fits ty items ∧ Covered ty items
  | .bool, _, _ => fun _ h => h.elim
  | .int _, _, _ => fun _ h => h.elim
  | .float, _, _ => fun _ h => h.elim
  | .double, _, _ => fun _ h => h.elim
  | .str, _, _ => fun _ h => h.elim
  | .bytes, _, _ => fun _ h => h.elim
  | .sorted _ c, t, items => fun hok h => plain_fits c t items hok.1 h
  | .ptr _ e, t, items => fun hok h => plain_fits e t items hok h
  | .vec e, t, items => fun hok h =>
    ⟨fun hs x hx => plain_fits e x.2.1 x.2.2 hok (h.2 hs x hx), trivial⟩
  | .named e, t, items => fun hok h =>
    ⟨fun hs x hx => plain_fits e x.2.1 x.2.2 hok (h.2.2 hs x hx), trivial⟩
  | .arr k e, t, items => by
    intro hok h
    obtain ⟨-, hk, hn, hp⟩ := h
    refine ⟨⟨hk, fun hs x hx => plain_fits e x.2.1 x.2.2 hok (hp hs x hx)⟩, ?_⟩
    rintro pre n t kids post rfl
    by_cases hs : e.isScope = true
    · rw [hs] at hk ⊢
      rw [kindNames_append, List.length_append] at hk
      have : (kindNames true (Item.scope n t kids :: post)).length = (kindNames true post).length + 1 := by
        simp [kindNames, scopesOf]
      omega
    · have := hn (by simpa using hs)
      rw [scopesOf_append] at this
      simp [scopesOf] at this
  | .record t' st fs, t, items => by
    intro hok h
    obtain ⟨hfs, hkind⟩ := hok
    obtain ⟨rfl, hshape, hp⟩ := h
    rcases hkind with ⟨rfl, h0, hnd⟩ | ⟨rfl, rfl, hpos⟩
    · rw [if_pos rfl] at hshape
      refine ⟨plain_fitsL fs 0 items hfs hp fun nm h1 h2 => ?_, ?_⟩
      · obtain ⟨x, hx, hx1, hx2⟩ := kindNames_mem h1
        obtain ⟨y, hy, hy1, hy2⟩ := kindNames_mem h2
        have hxy : x = y := by
          have hnd' := hshape.1
          clear hshape hp h1 h2
          induction items with
          | nil => cases hx
          | cons z zs ih =>
            simp only [List.map_cons, List.nodup_cons] at hnd'
            rcases List.mem_cons.mp hx with rfl | hx' <;> rcases List.mem_cons.mp hy with rfl | hy'
            · rfl
            · exact absurd (List.mem_map.mpr ⟨y, hy', hy1.trans hx1.symm⟩) hnd'.1
            · exact absurd (List.mem_map.mpr ⟨x, hx', hx1.trans hy1.symm⟩) hnd'.1
            · exact ih hx' hy' hnd'.2
        subst hxy
        rw [hx2] at hy2
        cases hy2
      · rintro pre n t kids post rfl
        refine wants_scopeName ?_ fs 0 0 h0 (hshape.2 (n, t, kids) ?_)
        · have := hshape.1
          rw [List.map_append, List.nodup_append] at this
          intro hm
          exact this.2.2 n hm n (by simp [itemName]) rfl
        · rw [scopesOf_append]; simp [scopesOf]
    · rw [if_neg (by simp)] at hshape
      refine ⟨plain_fitsP fs 0 items hfs hpos hp, ?_⟩
      rintro pre n t kids post rfl
      refine wants_positional fs 0 0 hpos ?_ (Nat.zero_le _)
      rw [scopesOf_append, List.length_append] at hshape
      simp only [scopesOf, List.length_cons] at hshape
      simp only [kindNames, if_true, List.length_map]
      omega
theorem plain_fitsL : ∀ (fs : Fields) (ni : Nat) (items : List Item), fs.Ok → PlainL fs ni items →
    (∀ nm, nm ∈ kindNames true items → nm ∈ kindNames false items → False) → FitsL fs ni items
  | .nil, _, _ => fun _ _ _ => trivial
  | .cons nm opt ty rest, ni, items => fun hok hp h =>
    ⟨fun hs x hx => plain_fits ty x.2.1 x.2.2 hok.1 (hp.1 hs x hx), fun _ hn => h nm hn.1 hn.2,
      plain_fitsL rest _ items hok.2 hp.2 h⟩
theorem plain_fitsP : ∀ (fs : Fields) (ni : Nat) (items : List Item), fs.Ok → fs.Positional →
    PlainL fs ni items → FitsL fs ni items
  | .nil, _, _ => fun _ _ _ => trivial
  | .cons nm opt ty rest, ni, items => fun hok h0 hp =>
    ⟨fun hs x hx => plain_fits ty x.2.1 x.2.2 hok.1 (hp.1 hs x hx),
      fun ho => absurd ho (by rw [h0.2.1]; simp),
      plain_fitsP rest _ items hok.2 h0.2.2 hp.2⟩
end

/-! ## What was stored has the form of the type -/

theorem seq_scopes {nv : Val → Val} {e : Ty} (hs : e.isScope = true) (named : Bool) (nm : Obj → Bytes)
    (ob : Obj → Obj) : ∀ (xs : List Obj), (∀ x ∈ xs, Storable e (ob x)) →
    scopesOf (Norm.items nv named (seqItems e nm ob xs))
      = xs.map (fun x => (if named then nm x else [], e.scopeTy, kidsN nv e (ob x)))
  | [], _ => rfl
  | x :: xs, h1 => by
    simp only [List.map_cons, Norm.items, norm_scope nv (h1 x (by simp)) hs, scopesOf]
    rw [← seq_scopes hs named nm ob xs (fun y hy => h1 y (by simp [hy]))]

theorem items_scopes {nv : Val → Val} {e : Ty} (hs : e.isScope = true) (xs : List Obj)
    (h : ∀ x ∈ xs, Storable e x) : scopesOf (Norm.items nv false (xs.map (fun x => toItem [] e x)))
      = xs.map (fun x => ([], e.scopeTy, kidsN nv e x)) :=
  seq_scopes hs false (fun _ => []) (fun x => x) xs h

theorem seq_names {nv : Val → Val} {e : Ty} (nm : Obj → Bytes) (ob : Obj → Obj) : ∀ (xs : List Obj),
    (∀ x ∈ xs, Storable e (ob x)) → (Norm.items nv true (seqItems e nm ob xs)).map itemName = xs.map nm
  | [], _ => rfl
  | x :: xs, h1 => by
    have ih := seq_names (nv := nv) nm ob xs (fun y hy => h1 y (by simp [hy]))
    simp only [List.map_cons, Norm.items]
    rw [← ih]
    by_cases hs : e.isScope = true
    · simp only [norm_scope nv (h1 x (by simp)) hs, itemName, if_true]
    · obtain ⟨v, h2, h3⟩ := stored_value e (ob x) (h1 x (by simp)) (by simpa using hs)
      simp only [h2, Norm.item, itemName, if_true]

theorem items_no_scopes {nv : Val → Val} {e : Ty} (hs : e.isScope = false) : ∀ (xs : List Obj),
    (∀ x ∈ xs, Storable e x) → scopesOf (Norm.items nv false (xs.map (fun x => toItem [] e x))) = []
  | [], _ => rfl
  | x :: xs, h1 => by
    obtain ⟨v, h2, h3⟩ := stored_value e x (h1 x (by simp)) hs
    simp only [List.map_cons, Norm.items, h2, Norm.item, scopesOf]
    exact items_no_scopes hs xs (fun y hy => h1 y (by simp [hy]))

/-- The items of fields: one for each, with its name, a scope if the type is. -/
theorem fieldItems_scopes {nv : Val → Val} {named : Bool} : ∀ (fs : Fields) (xs : List Obj),
    StorableL fs xs → (scopesOf (Norm.items nv named (fieldItems fs xs))).map (·.1)
      = fs.scopeNames.map (fun n => if named then n else [])
  | .nil, xs, _ => by simp [fieldItems, Norm.items, scopesOf, Fields.scopeNames]
  | .cons nm opt ty rest, [], h => by simp [StorableL] at h
  | .cons nm opt ty rest, x :: xs, h => by
    simp only [StorableL] at h
    have ih := fieldItems_scopes (nv := nv) (named := named) rest xs h.2.2
    by_cases hs : ty.isScope = true
    · simp only [fieldItems, Norm.items, norm_scope nv h.1 hs, scopesOf, Fields.scopeNames, hs, if_true,
        List.map_cons, ih]
    · obtain ⟨v, h2, h3⟩ := stored_value ty x h.1 (by simpa using hs)
      simp only [fieldItems, Norm.items, h2, Norm.item, scopesOf, Fields.scopeNames, hs,
        Bool.false_eq_true, if_false, ih]

theorem fieldItems_names {nv : Val → Val} : ∀ (fs : Fields) (xs : List Obj),
    StorableL fs xs → (Norm.items nv true (fieldItems fs xs)).map itemName = fs.names
  | .nil, xs, _ => by simp [fieldItems, Norm.items, Fields.names]
  | .cons nm opt ty rest, [], h => by simp [StorableL] at h
  | .cons nm opt ty rest, x :: xs, h => by
    simp only [StorableL] at h
    have ih := fieldItems_names (nv := nv) rest xs h.2.2
    by_cases hs : ty.isScope = true
    · simp only [fieldItems, Norm.items, norm_scope nv h.1 hs, Fields.names, List.map_cons, ih, itemName,
        if_true]
    · obtain ⟨v, h2, h3⟩ := stored_value ty x h.1 (by simpa using hs)
      simp only [fieldItems, Norm.items, h2, Norm.item, Fields.names, List.map_cons, ih, itemName,
        if_true]

theorem pick_append_named {nm : Bytes} (h : nm ≠ []) (i : Nat) {pre : List Item}
    (hp : ∀ x ∈ pre, itemName x ≠ nm) (post : List Item) :
    pick nm i (pre ++ post) = pick nm i post := by
  simp only [pick, if_neg h, scopesOf_append, List.find?_append]
  have : (scopesOf pre).find? (·.1 == nm) = none := by
    rw [List.find?_eq_none]
    intro x hx hh
    have h2 : x.1 ∈ kindNames true pre := List.mem_map.mpr ⟨x, hx, rfl⟩
    obtain ⟨y, hy, h3, -⟩ := kindNames_mem h2
    exact hp y hy (h3.trans (by simpa using hh))
  rw [this]; rfl

mutual
theorem plain_stored (nv : Val → Val) : ∀ (ty : Ty) (o : Obj) (inside : Bool), ty.Ok → ty.Tables True inside →
    ty.isScope = true → Storable ty o →
    (∀ e, ty = .named e → ∀ xs, o = .many xs → (xs.map fun x => (entry x).1).Nodup) →
    Plain ty ty.scopeTy (kidsN nv ty o)
  | .bool, _, _ => by intro _ _ h; cases h
  | .int _, _, _ => by intro _ _ h; cases h
  | .float, _, _ => by intro _ _ h; cases h
  | .double, _, _ => by intro _ _ h; cases h
  | .str, _, _ => by intro _ _ h; cases h
  | .bytes, _, _ => by intro _ _ h; cases h
  | .sorted b c, o, _ => by
    intro hok hw hs h _
    simp only [Storable] at h
    have e1 : kidsN nv (.sorted b c) o = kidsN nv c o := by
      simp only [kidsN, Ty.scopeTy]
      rw [show kidsOf (.sorted b c) o = kidsOf c o by unfold kidsOf; rw [toItem]]
    rw [e1]
    refine plain_stored nv c o true hok.1 hw h.1 h.2.1 ?_
    rintro e rfl xs rfl
    have hel := hok.2
    unfold Ty.Elems at hel
    split at hel
    · rename_i hbk
      rcases hel with ⟨k, v, -, he⟩ | ⟨hm, -⟩
      · cases he
      · have ha := h.2.2 xs rfl
        simp only [Storable] at h
        refine List.Pairwise.map _ (fun a b h => h) (ha.imp_of_mem fun {x y} hx hy hxy => ?_)
        obtain ⟨k, x', rfl, -⟩ := h.2.1 x hx
        obtain ⟨l, y', rfl, -⟩ := h.2.1 y hy
        intro hkl
        have hkl : k = l := hkl
        subst hkl
        rcases hxy (.str k) (.str k) (by simp [Key, hbk]) (by simp [Key, hbk]) with h | ⟨h, -⟩
        · exact Less.irrefl _ h
        · rw [hm] at h
          cases h
    · obtain ⟨k, -, he⟩ := hel
      cases he
  | .ptr k e, o, _ => by
    intro hok hw hs h _
    cases o with
    | ref o =>
      simp only [Storable] at h
      have e1 : kidsN nv (.ptr k e) (.ref o) = kidsN nv e o := by
        simp only [kidsN, Ty.scopeTy]
        rw [show kidsOf (.ptr k e) (.ref o) = kidsOf e o by unfold kidsOf; rw [toItem]]
      rw [e1]
      exact plain_stored nv e o false hok hw hs h.1 (fun e' he => by subst he; cases hw.2.1)
    | null =>
      simp only [Storable] at h
      rw [Ty.isScope, h.2] at hs
      cases hs
    | _ => simp [Storable] at h
  | .vec e, o, _ => by
    intro hok hw _ h _
    cases o with
    | many xs =>
      simp only [Storable] at h
      have e1 : kidsN nv (.vec e) (.many xs) = Norm.items nv false (xs.map (fun x => toItem [] e x)) := by
        simp only [kidsN, kidsOf, toItem, Ty.scopeTy]; rfl
      rw [e1]
      refine ⟨rfl, fun hs x hx => ?_⟩
      rw [items_scopes hs xs h] at hx
      obtain ⟨y, hy, rfl⟩ := List.mem_map.mp hx
      exact plain_stored nv e y false hok hw hs (h y hy) (fun e' he => by subst he; cases hw.2.1)
    | _ => simp [Storable] at h
  | .named e, o, _ => by
    intro hok hw _ h hn
    cases o with
    | many xs =>
      simp only [Storable] at h
      have h' : ∀ x ∈ xs, Storable e (entry x).2 := fun x hx => by
        obtain ⟨k, y, rfl, h⟩ := h x hx
        exact h
      have e1 : kidsN nv (.named e) (.many xs)
          = Norm.items nv true (seqItems e (fun x => (entry x).1) (fun x => (entry x).2) xs) := by
        simp only [kidsN, kidsOf, toItem, Ty.scopeTy]; rfl
      rw [e1]
      refine ⟨rfl, ?_, fun hs x hx => ?_⟩
      · rw [seq_names _ _ xs h']
        exact hn e rfl xs rfl
      · rw [seq_scopes hs true _ _ xs h'] at hx
        obtain ⟨y, hy, rfl⟩ := List.mem_map.mp hx
        exact plain_stored nv e (entry y).2 false hok hw.2.2 hs (h' y hy) (fun e' he => by
          subst he; cases hw.2.2.2.1)
    | _ => simp [Storable] at h
  | .arr k e, o, _ => by
    intro hok hw _ h _
    cases o with
    | many xs =>
      simp only [Storable] at h
      have e1 : kidsN nv (.arr k e) (.many xs)
          = Norm.items nv false (xs.map (fun x => toItem [] e x)) := by
        simp only [kidsN, kidsOf, toItem, Ty.scopeTy]; rfl
      rw [e1]
      refine ⟨rfl, ?_, fun hs => items_no_scopes hs xs h.2, fun hs x hx => ?_⟩
      · cases hs : e.isScope
        · simp only [kindNames, Bool.false_eq_true, if_false, List.length_map]
          rw [length_values hs xs h.2, h.1]
        · simp only [kindNames, if_true, List.length_map]
          rw [items_scopes hs xs h.2, List.length_map, h.1]
      · rw [items_scopes hs xs h.2] at hx
        obtain ⟨y, hy, rfl⟩ := List.mem_map.mp hx
        exact plain_stored nv e y false hok hw hs (h.2 y hy) (fun e' he => by subst he; cases hw.2.1)
    | _ => simp [Storable] at h
  | .record t st fs, o, _ => by
    intro hok hw _ h _
    obtain ⟨hfs, hkind⟩ := hok
    cases o with
    | many xs =>
      simp only [Storable] at h
      have e1 : kidsN nv (.record t st fs) (.many xs) = Norm.items nv (t == .object) (fieldItems fs xs) := by
        simp only [kidsN, kidsOf, toItem, Ty.scopeTy]
      rw [e1]
      rcases hkind with ⟨rfl, h0, hnd⟩ | ⟨rfl, rfl, hpos⟩
      · refine ⟨rfl, ?_, ?_⟩
        · rw [if_pos rfl]
          refine ⟨?_, fun x hx => ?_⟩
          · rw [show (ScopeTy.object == ScopeTy.object) = true from rfl, fieldItems_names fs xs h]
            exact hnd
          · have h2 := List.mem_map_of_mem (f := (·.1)) hx
            rw [fieldItems_scopes fs xs h] at h2
            simpa using h2
        · have := plain_storedL nv fs xs [] true 0 hfs hw h (.inl ⟨rfl, h0⟩) (fun _ => ⟨hnd, by simp⟩) rfl
          simpa using this
      · refine ⟨rfl, ?_, ?_⟩
        · rw [if_neg (by simp), show (ScopeTy.array == ScopeTy.object) = false from rfl]
          have := congrArg List.length (fieldItems_scopes (nv := nv) (named := false) fs xs h)
          simp only [List.length_map] at this
          omega
        · have := plain_storedL nv fs xs [] false 0 hfs hw h (.inr ⟨rfl, hpos⟩) (fun h => by cases h) rfl
          rw [show (ScopeTy.array == ScopeTy.object) = false from rfl]
          simpa using this
    | _ => simp [Storable] at h
theorem plain_storedL (nv : Val → Val) : ∀ (fs : Fields) (xs : List Obj) (pre : List Item)
    (named : Bool) (ni : Nat), fs.Ok → fs.Tables True → StorableL fs xs → Mode named fs →
    (named = true → fs.names.Nodup ∧ ∀ i ∈ pre, itemName i ∉ fs.names) → ni = (scopesOf pre).length →
    PlainL fs ni (pre ++ Norm.items nv named (fieldItems fs xs))
  | .nil, _, _, _, _ => fun _ _ _ _ _ _ => trivial
  | .cons nm opt ty rest, [], _, _, _ => fun _ _ h => by simp [StorableL] at h
  | .cons nm opt ty rest, x :: xs, pre, named, ni => by
    intro hok hw h hm hn hni
    simp only [StorableL] at h
    have hit : itemName (Norm.item nv named (toItem nm ty x)) = if named then nm else [] := by
      by_cases hs : ty.isScope = true
      · rw [norm_scope nv h.1 hs, itemName]
      · obtain ⟨v, h2, h3⟩ := stored_value ty x h.1 (by simpa using hs)
        rw [h2, Norm.item, itemName]
    have htail : named = true → rest.names.Nodup ∧
        ∀ i ∈ pre ++ [Norm.item nv named (toItem nm ty x)], itemName i ∉ rest.names := by
      intro hnam
      obtain ⟨h1, h2⟩ := hn hnam
      simp only [Fields.names, List.nodup_cons] at h1
      refine ⟨h1.2, fun i hi => ?_⟩
      rcases List.mem_append.mp hi with hi | hi
      · exact fun hc => h2 i hi (by simp [Fields.names, hc])
      · rw [List.mem_singleton] at hi
        subst hi
        rw [hit, if_pos hnam]
        exact h1.1
    have hrest := plain_storedL nv rest xs (pre ++ [Norm.item nv named (toItem nm ty x)]) named
      (if ty.isScope then ni + 1 else ni) hok.2 hw.2 h.2.2 hm.tail htail (by
        rw [scopesOf_append, List.length_append, ← hni]
        by_cases hs : ty.isScope = true
        · rw [norm_scope nv h.1 hs, if_pos hs]; rfl
        · obtain ⟨v, h2, h3⟩ := stored_value ty x h.1 (by simpa using hs)
          rw [h2, if_neg hs]; rfl)
    simp only [fieldItems, Norm.items]
    rw [List.append_assoc, List.singleton_append] at hrest
    refine ⟨fun hs y hy => ?_, hrest⟩
    have hx : pick nm ni (pre ++ Norm.item nv named (toItem nm ty x)
        :: Norm.items nv named (fieldItems rest xs))
        = some (if named then nm else [], ty.scopeTy, kidsN nv ty x) := by
      rcases hm with ⟨h1, h2⟩ | ⟨h1, h2⟩
      · have hne : nm ≠ [] := fun h => h2 (by simp [Fields.names, h])
        rw [pick_append_named hne ni fun i hi hc => (hn h1).2 i hi (by simp [Fields.names, hc])]
        rw [norm_scope nv h.1 hs, pick, if_neg hne, scopesOf, List.find?_cons_of_pos (by simp [h1])]
      · rw [h2.1, pick, if_pos rfl, norm_scope nv h.1 hs, scopesOf_append, scopesOf, hni]
        simp [h1]
    rw [hx] at hy
    cases hy
    exact plain_stored nv ty x false hok.1 hw.1 hs h.1 (fun e' he => by subst he; cases hw.1.2.1)
end

/-! ## C06 -/

theorem Fields.Has.name {nm : Bytes} {ty : Ty} : ∀ {fs : Fields}, fs.Has nm ty → nm ∈ fs.names
  | .nil, h => h.elim
  | .cons _ _ _ rest, h => by
    rcases h with ⟨rfl, -⟩ | h
    · simp [Fields.names]
    · simp [Fields.names, Fields.Has.name (fs := rest) h]

theorem Fields.Has.unique {nm : Bytes} {t1 t2 : Ty} : ∀ {fs : Fields}, fs.names.Nodup → fs.Has nm t1 →
    fs.Has nm t2 → t1 = t2
  | .nil, _, h, _ => h.elim
  | .cons _ _ _ rest, hn, h1, h2 => by
    simp only [Fields.names, List.nodup_cons] at hn
    rcases h1 with ⟨rfl, rfl⟩ | h1 <;> rcases h2 with ⟨h3, rfl⟩ | h2
    · rfl
    · exact absurd h2.name hn.1
    · subst h3; exact absurd h1.name hn.1
    · exact Fields.Has.unique (fs := rest) hn.2 h1 h2

theorem Fields.Has.ok {nm : Bytes} {ty : Ty} : ∀ {fs : Fields}, fs.Ok → fs.Has nm ty → ty.Ok
  | .nil, _, h => h.elim
  | .cons _ _ _ rest, ho, h => by
    rcases h with ⟨-, rfl⟩ | h
    · exact ho.1
    · exact Fields.Has.ok (fs := rest) ho.2 h

theorem scopeTys_ok {ty : Ty} : ∀ {fs : Fields}, fs.Ok → ty ∈ fs.scopeTys → ty.Ok ∧ ty.isScope = true
  | .nil, _, h => by simp [Fields.scopeTys] at h
  | .cons _ _ t rest, ho, h => by
    simp only [Fields.scopeTys] at h
    split at h
    · rename_i hs
      rcases List.mem_cons.mp h with rfl | h
      · exact ⟨ho.1, hs⟩
      · exact scopeTys_ok (fs := rest) ho.2 h
    · exact scopeTys_ok (fs := rest) ho.2 h

theorem sameN_of {w : Prop} {env : Env} {a b : List Item} : ∀ {fs : Fields},
    (∀ nm ty, fs.Has nm ty → ty.isScope = true → OptRel (Same w env ty) (scopeAt nm a) (scopeAt nm b)) →
    SameN w env a b fs
  | .nil, _ => trivial
  | .cons nm _ ty rest, h =>
    ⟨h nm ty (.inl ⟨rfl, rfl⟩), sameN_of (fs := rest) fun m t hm => h m t (.inr hm)⟩

theorem sameP_of {w : Prop} {env : Env} {a b : List Item} : ∀ {fs : Fields} {ni : Nat},
    (∀ i ty, fs.scopeTys[i]? = some ty →
      OptRel (Same w env ty) (scopesOf a)[ni + i]? (scopesOf b)[ni + i]?) → SameP w env a b fs ni
  | .nil, _, _ => trivial
  | .cons nm _ ty rest, ni, h => by
    by_cases hs : ty.isScope = true
    · simp only [Fields.scopeTys, hs, if_true] at h
      refine ⟨fun _ => by simpa using h 0 ty (by simp), ?_⟩
      rw [if_pos hs]
      refine sameP_of (fs := rest) fun i t hi => ?_
      have := h (i + 1) t (by simpa using hi)
      rw [show ni + 1 + i = ni + (i + 1) by omega]
      exact this
    · simp only [Fields.scopeTys, hs, Bool.false_eq_true, if_false] at h
      refine ⟨fun h' => absurd h' hs, ?_⟩
      rw [if_neg hs]
      exact sameP_of (fs := rest) h

theorem same_refl {w : Prop} (env : Env) (ty : Ty) (x : Sc) : Same w env ty x x := fun _ => Alike.rfl

theorem scopeAt_replace {nm name : Bytes} {t : ScopeTy} {a b k1 k2 : List Item} {R : Sc → Sc → Prop}
    (hR : ∀ x, R x x) (h : nm = name → R (name, t, k1) (name, t, k2)) :
    OptRel R (scopeAt nm (a ++ .scope name t k1 :: b)) (scopeAt nm (a ++ .scope name t k2 :: b)) := by
  simp only [scopeAt, scopesOf_append, scopesOf, List.find?_append]
  cases (scopesOf a).find? (·.1 == nm) with
  | some x => exact hR x
  | none =>
    by_cases hn : name = nm
    · rw [List.find?_cons_of_pos (by simp [hn]), List.find?_cons_of_pos (by simp [hn])]
      exact h hn.symm
    · rw [List.find?_cons_of_neg (by simp [hn]), List.find?_cons_of_neg (by simp [hn])]
      exact .refl fun x _ => hR x

theorem all2_replace {name : Bytes} {t : ScopeTy} {a b k1 k2 : List Item} {R : Sc → Sc → Prop}
    (hR : ∀ x, R x x) (h : R (name, t, k1) (name, t, k2)) :
    All2 R (scopesOf (a ++ .scope name t k1 :: b)) (scopesOf (a ++ .scope name t k2 :: b)) := by
  rw [scopesOf_append, scopesOf_append]
  exact (All2.refl hR _).append ⟨h, All2.refl hR _⟩

theorem values_replace {name : Bytes} {t : ScopeTy} {a b k1 k2 : List Item} :
    valuesOf (a ++ .scope name t k1 :: b) = valuesOf (a ++ .scope name t k2 :: b) := by
  rw [valuesOf_append, valuesOf_append]; rfl

theorem find_insert {β : Type} {nm : Bytes} {a b : List (Bytes × β)} {x : Bytes × β} (h : nm ≠ x.1) :
    (a ++ x :: b).find? (·.1 == nm) = (a ++ b).find? (·.1 == nm) := by
  rw [List.find?_append, List.find?_append, List.find?_cons_of_neg (by simpa using Ne.symm h)]

theorem scopeAt_insert {nm : Bytes} {x : Item} {a b : List Item} (h : nm ≠ itemName x) :
    scopeAt nm (a ++ x :: b) = scopeAt nm (a ++ b) := by
  cases x with
  | val n v => simp only [scopeAt, scopesOf_append, scopesOf]
  | scope n t k =>
    simp only [scopeAt, scopesOf_append, scopesOf]
    exact find_insert h

theorem valueAt_insert {nm : Bytes} {x : Item} {a b : List Item} (h : nm ≠ itemName x) :
    findName nm (valuesOf (a ++ x :: b)) = findName nm (valuesOf (a ++ b)) := by
  rw [findName_find, findName_find]
  cases x with
  | val n v =>
    simp only [valuesOf_append, valuesOf]
    rw [find_insert h]
  | scope n t k => simp only [valuesOf_append, valuesOf]

theorem extra_same (env : Env) {P : Item → Prop} {ty : Ty} {a b : List Item} (h : Extra P ty a b) :
    ty.Ok → ∀ t old, pasteNode env ty old (nodeOf t a) = pasteNode env ty old (nodeOf t b) := by
  induction h with
  | here hx hp =>
    intro hok t old
    obtain ⟨hfs, hkind⟩ := hok
    have hnm : _ := hkind.resolve_right (by simp)
    cases old with
    | many os =>
      simp only [pasteNode, contentL_eq]
      rw [(pasteFields_named env _ os 0 0 0 0 hnm.2.1 (fun nm hm => ?_) (sameN_of fun nm ty hh hs => ?_)).eq]
      · rw [valueAt_insert fun he => hx (he ▸ hm)]
      · rw [scopeAt_insert fun he => hx (he ▸ hh.name)]
        exact .refl fun x _ => same_refl env ty x
    | _ => rfl
  | @field st fs name ty t0 a b k1 k2 hty hs h ih =>
    intro hok t old
    obtain ⟨hfs, hkind⟩ := hok
    have hnm : _ := hkind.resolve_right (by simp)
    cases old with
    | many os =>
      simp only [pasteNode, contentL_eq]
      have hv : valuesOf (a ++ .scope name t0 k1 :: b) = valuesOf (a ++ .scope name t0 k2 :: b) :=
        values_replace
      have hsame : SameN False env (a ++ .scope name t0 k1 :: b) (a ++ .scope name t0 k2 :: b) fs := by
        refine sameN_of fun nm ty' hh hs' => ?_
        refine scopeAt_replace (same_refl env ty') fun he old => ?_
        subst he
        rw [← Fields.Has.unique hnm.2.2 hty hh]
        exact .of_eq (ih (hty.ok hfs) _ old)
      rw [(pasteFields_named env _ os 0 0 0 0 hnm.2.1 (fun nm hm => by rw [hv]) hsame).eq]
    | _ => rfl
  | @tuple st fs name ty t0 aa bb k1 k2 hty h ih =>
    intro hok t old
    obtain ⟨hfs, hkind⟩ := hok
    have hnm : _ := hkind.resolve_left (by simp)
    cases old with
    | many os =>
      simp only [pasteNode, contentL_eq]
      rw [(pasteFields_pos env values_replace _ os 0 0 hnm.2.2 (sameP_of fun i ty' hi => ?_)).eq]
      simp only [Nat.zero_add]
      by_cases he : i = (scopesOf aa).length
      · subst he
        rw [hty] at hi
        cases hi
        simp only [scopesOf_append, scopesOf, List.getElem?_append_right (Nat.le_refl _), Nat.sub_self,
          List.getElem?_cons_zero]
        exact fun old => .of_eq (ih (scopeTys_ok hfs (List.mem_of_getElem? hty)).1 _ old)
      · simp only [scopesOf_append, scopesOf]
        rcases Nat.lt_or_ge i (scopesOf aa).length with hl | hl
        · rw [List.getElem?_append_left hl, List.getElem?_append_left hl]
          exact .refl fun x _ => same_refl env _ x
        · rw [List.getElem?_append_right hl, List.getElem?_append_right hl]
          obtain ⟨j, hj⟩ : ∃ j, i - (scopesOf aa).length = j + 1 :=
            ⟨i - (scopesOf aa).length - 1, by omega⟩
          rw [hj, List.getElem?_cons_succ, List.getElem?_cons_succ]
          exact .refl fun x _ => same_refl env _ x
    | _ => rfl
  | @vec e name t a b k1 k2 hs h ih =>
    intro hok t' old
    have h2 : All2 (Same False env e) _ _ := all2_replace (name := name) (t := t) (a := a) (b := b) (k1 := k1)
      (k2 := k2) (same_refl env e) (fun old => .of_eq (ih hok _ old))
    have := mapRes_same (d := dflt e) h2
    simp only [pasteNode, contentL_eq, hs, if_true]
    simp only [nodesOf]
    rw [this.eq]
  | @named e name t a b k1 k2 hs h ih =>
    intro hok t' old
    have h2 : All2 (fun x y => x.1 = y.1 ∧ Same False env e x y) _ _ := all2_replace (name := name) (t := t) (a := a)
      (b := b) (k1 := k1) (k2 := k2) (fun x => ⟨rfl, same_refl env e x⟩) ⟨rfl, fun old => .of_eq (ih hok _ old)⟩
    have := mapRes_entries (d := dflt e) h2
    simp only [pasteNode, contentL_eq, hs, if_true]
    simp only [nodesOf]
    rw [this.eq]
  | @arr k e name t a b k1 k2 hs h ih =>
    intro hok t' old
    have h2 : All2 (Same False env e) _ _ := all2_replace (name := name) (t := t) (a := a) (b := b) (k1 := k1)
      (k2 := k2) (same_refl env e) (fun old => .of_eq (ih hok _ old))
    cases old with
    | many os =>
      have := zipRes_same (os := os) h2
      simp only [pasteNode, contentL_eq, hs, if_true]
      simp only [nodesOf, List.length_map, h2.length]
      rw [this.eq]
    | _ => rfl
  | ptr h ih =>
    intro hok t old
    simp only [pasteNode]
    rw [ih hok t]
  | sorted h ih =>
    intro hok t old
    simp only [pasteNode]
    rw [ih hok.1 t]

theorem extras_same (env : Env) {P : Item → Prop} {ty : Ty} {a b : List Item} (h : Extras P ty a b)
    (hok : ty.Ok) (t : ScopeTy) (old : Obj) :
    pasteNode env ty old (nodeOf t a) = pasteNode env ty old (nodeOf t b) := by
  induction h with
  | refl => rfl
  | step _ h1 ih => rw [ih, extra_same env h1 hok]

/-! ### Further values keep the form -/

/-- Names and kinds. -/
abbrev skel (items : List Item) : List (Bytes × Bool) := items.map fun i => (itemName i, itemScope i)

theorem kindNames_skel (k : Bool) (items : List Item) :
    kindNames k items = ((skel items).filter (fun p => p.2 == k)).map (·.1) := by
  induction items with
  | nil => cases k <;> rfl
  | cons i is ih =>
    cases i <;> cases k <;> simp [kindNames, scopesOf, valuesOf, itemName, itemScope] at ih ⊢ <;>
      exact ih

theorem wants_kinds : ∀ {fs : Fields} {ni vi : Nat} {a b : List Item},
    (∀ k, kindNames k a = kindNames k b) → Wants fs ni vi a → Wants fs ni vi b
  | .nil, _, _, _, _ => fun _ h => h
  | .cons _ _ _ rest, _, _, _, _ => by
    intro he h
    rcases h with h | h
    · left
      unfold Found at *
      simp only [he] at h
      exact h
    · exact .inr (wants_kinds (fs := rest) he h)

theorem skel_split {a pre post : List Item} {p : Bytes × Bool} (h : skel a = skel pre ++ p :: skel post) :
    ∃ pre' x post', a = pre' ++ x :: post' ∧ skel pre' = skel pre ∧ (itemName x, itemScope x) = p ∧
      skel post' = skel post := by
  obtain ⟨l1, l2, rfl, h1, h2⟩ := List.map_eq_append_iff.mp h
  cases l2 with
  | nil => simp at h2
  | cons x l2 =>
    simp only [List.map_cons, List.cons.injEq] at h2
    exact ⟨l1, x, l2, rfl, h1, h2.1, h2.2⟩

theorem covered_skel : ∀ {ty : Ty} {a b : List Item}, skel a = skel b → Covered ty a → Covered ty b
  | .ptr _ e, _, _, he, h => covered_skel (ty := e) he h
  | .sorted _ c, _, _, he, h => covered_skel (ty := c) he h
  | .bytes, _, _, _, _ => trivial
  | .vec _, _, _, _, _ => trivial
  | .named _, _, _, _, _ => trivial
  | .bool, _, _, _, _ => trivial
  | .int _, _, _, _, _ => trivial
  | .float, _, _, _, _ => trivial
  | .double, _, _, _, _ => trivial
  | .str, _, _, _, _ => trivial
  | .arr k e, a, b, he, h => by
    rintro pre n t kids post rfl
    have he' : skel a = skel pre ++ (n, true) :: skel post := by rw [he, skel, List.map_append]; rfl
    obtain ⟨pre', x, post', rfl, h1, h2, h3⟩ := skel_split he'
    cases x with
    | val m v => simp [itemScope] at h2
    | scope m t' kids' =>
      have := h pre' m t' kids' post' rfl
      rw [kindNames_skel, h1, ← kindNames_skel] at this
      exact this
  | .record _ _ fs, a, b, he, h => by
    rintro pre n t kids post rfl
    have he' : skel a = skel pre ++ (n, true) :: skel post := by rw [he, skel, List.map_append]; rfl
    obtain ⟨pre', x, post', rfl, h1, h2, h3⟩ := skel_split he'
    cases x with
    | val m v => simp [itemScope] at h2
    | scope m t' kids' =>
      have := h pre' m t' kids' post' rfl
      exact wants_kinds (fun k => by rw [kindNames_skel, h1, ← kindNames_skel]) this

theorem wants_insert {x : Item} : ∀ {fs : Fields} {ni vi : Nat} {a b : List Item}, [] ∉ fs.names →
    itemName x ∉ fs.names → Wants fs ni vi (a ++ b) → Wants fs ni vi (a ++ x :: b)
  | .nil, _, _, _, _ => fun _ _ h => h
  | .cons nm opt ty rest, _, _, a, b => by
    intro h0 hx h
    simp only [Fields.names, List.mem_cons, not_or] at h0 hx
    have hk : ∀ k, nm ∈ kindNames k (a ++ x :: b) → nm ∈ kindNames k (a ++ b) := by
      intro k hk
      obtain ⟨y, hy, h1, h2⟩ := kindNames_mem hk
      have : y ∈ a ++ b := by
        simp only [List.mem_append, List.mem_cons] at hy ⊢
        rcases hy with hy | rfl | hy
        · exact .inl hy
        · exact absurd h1 hx.1
        · exact .inr hy
      rw [← h1, ← h2]
      exact mem_kindNames this
    rcases h with h | h
    · left
      unfold Found at *
      rw [if_neg (Ne.symm h0.1)] at h ⊢
      rintro (hf | ⟨ho, hf⟩)
      · exact h (.inl (hk _ hf))
      · exact h (.inr ⟨ho, hk _ hf⟩)
    · exact .inr (wants_insert (fs := rest) h0.2 hx.2 h)

theorem fitsL_has {a : List Item} {nm : Bytes} {ty : Ty} : ∀ {fs : Fields} {ni : Nat}, [] ∉ fs.names →
    FitsL fs ni a → fs.Has nm ty → ty.isScope = true → ∀ x, scopeAt nm a = some x →
    Fits ty x.2.2 ∧ Covered ty x.2.2
  | .nil, _, _, _, h => h.elim
  | .cons m _ _ rest, _, h0, hf, h => by
    simp only [Fields.names, List.mem_cons, not_or] at h0
    rcases h with ⟨rfl, rfl⟩ | h
    · intro hs x hx
      exact hf.1 hs x (by rw [pick, if_neg (Ne.symm h0.1)]; exact hx)
    · exact fitsL_has (fs := rest) h0.2 hf.2.2 h

theorem fitsL_of {a b : List Item} : ∀ {fs : Fields} {ni : Nat},
    (∀ nm ∈ fs.names, ∀ k, nm ∈ kindNames k b → nm ∈ kindNames k a) → [] ∉ fs.names → FitsL fs ni a →
    (∀ nm ty, fs.Has nm ty → ty.isScope = true → ∀ x, scopeAt nm b = some x →
      Fits ty x.2.2 ∧ Covered ty x.2.2) → FitsL fs ni b
  | .nil, _, _, _, _, _ => trivial
  | .cons m _ t rest, _, hk, h0, hf, h => by
    simp only [Fields.names, List.mem_cons, not_or] at h0
    refine ⟨fun hs x hx => h m t (.inl ⟨rfl, rfl⟩) hs x ?_, fun ho hb => hf.2.1 ho ?_,
      fitsL_of (fs := rest) (fun nm hm => hk nm (by simp [Fields.names, hm])) h0.2 hf.2.2
        fun nm ty hh => h nm ty (.inr hh)⟩
    · rw [pick, if_neg (Ne.symm h0.1)] at hx; exact hx
    · exact ⟨hk m (by simp [Fields.names]) _ hb.1, hk m (by simp [Fields.names]) _ hb.2⟩

theorem fitsL_scopeTys {a : List Item} : ∀ {fs : Fields} {ni i : Nat} {ty : Ty}, fs.Positional →
    FitsL fs ni a → fs.scopeTys[i]? = some ty → ∀ x, (scopesOf a)[ni + i]? = some x →
    Fits ty x.2.2 ∧ Covered ty x.2.2
  | .nil, _, _, _, _, _, h => by simp [Fields.scopeTys] at h
  | .cons m _ t rest, ni, i, ty, h0, hf, h => by
    obtain ⟨rfl, rfl, hp⟩ := h0
    by_cases hs : t.isScope = true
    · simp only [Fields.scopeTys, hs, if_true] at h
      cases i with
      | zero =>
        simp only [List.getElem?_cons_zero, Option.some.injEq] at h
        subst h
        intro x hx
        exact hf.1 hs x (by rw [pick, if_pos rfl]; exact hx)
      | succ i =>
        have h2 := hf.2.2
        rw [if_pos hs] at h2
        intro x hx
        exact fitsL_scopeTys (fs := rest) hp h2 (by simpa using h) x (by rw [← hx]; congr 1; omega)
    · simp only [Fields.scopeTys, hs, Bool.false_eq_true, if_false] at h
      have h2 := hf.2.2
      rw [if_neg hs] at h2
      exact fitsL_scopeTys (fs := rest) hp h2 h

theorem fitsL_of_pos {b : List Item} : ∀ {fs : Fields} {ni : Nat}, fs.Positional →
    (∀ i ty, fs.scopeTys[i]? = some ty → ∀ x, (scopesOf b)[ni + i]? = some x →
      Fits ty x.2.2 ∧ Covered ty x.2.2) → FitsL fs ni b
  | .nil, _, _, _ => trivial
  | .cons m _ t rest, ni, h0, h => by
    obtain ⟨rfl, rfl, hp⟩ := h0
    by_cases hs : t.isScope = true
    · simp only [Fields.scopeTys, hs, if_true] at h
      refine ⟨fun _ x hx => h 0 t (by simp) x (by rw [pick, if_pos rfl] at hx; exact hx), by simp, ?_⟩
      rw [if_pos hs]
      refine fitsL_of_pos (fs := rest) hp fun i ty hi x hx => h (i + 1) ty (by simpa using hi) x ?_
      rw [← hx]; congr 1; omega
    · simp only [Fields.scopeTys, hs, Bool.false_eq_true, if_false] at h
      refine ⟨fun h' => absurd h' hs, by simp, ?_⟩
      rw [if_neg hs]
      exact fitsL_of_pos (fs := rest) hp h

theorem skel_replace {name : Bytes} {t : ScopeTy} {a b k1 k2 : List Item} :
    skel (a ++ .scope name t k1 :: b) = skel (a ++ .scope name t k2 :: b) := by
  simp only [skel, List.map_append]; rfl

theorem OptRel.some_right {α : Type} {R : α → α → Prop} {a b : Option α} {y : α} (h : OptRel R a b)
    (hb : b = some y) : ∃ x, a = some x ∧ R x y := by
  subst hb
  cases a with
  | none => exact h.elim
  | some x => exact ⟨x, rfl, h⟩

theorem get_replace {name : Bytes} {t : ScopeTy} {a b k1 k2 : List Item} {R : Sc → Sc → Prop}
    (hR : ∀ x, R x x) (i : Nat) (h : i = (scopesOf a).length → R (name, t, k1) (name, t, k2)) :
    OptRel R (scopesOf (a ++ .scope name t k1 :: b))[i]? (scopesOf (a ++ .scope name t k2 :: b))[i]? := by
  simp only [scopesOf_append, scopesOf]
  rcases Nat.lt_or_ge i (scopesOf a).length with hl | hl
  · rw [List.getElem?_append_left hl, List.getElem?_append_left hl]
    exact .refl fun x _ => hR x
  · rw [List.getElem?_append_right hl, List.getElem?_append_right hl]
    cases hj : i - (scopesOf a).length with
    | zero =>
      simp only [List.getElem?_cons_zero]
      exact h (by omega)
    | succ j =>
      rw [List.getElem?_cons_succ, List.getElem?_cons_succ]
      exact .refl fun x _ => hR x

/-- Fitting and covered content stays so. -/
def Keep (e : Ty) (x y : Sc) : Prop :=
  Fits e x.2.2 ∧ Covered e x.2.2 → Fits e y.2.2 ∧ Covered e y.2.2

theorem extra_fits {ty : Ty} {a b : List Item} (h : Extra (fun i => itemScope i = false) ty a b) :
    ty.Ok → (Fits ty a → Fits ty b) ∧ (Covered ty a → Covered ty b) := by
  induction h with
  | @here st fs a b x hx hp =>
    intro hok
    obtain ⟨hfs, hkind⟩ := hok
    have hnm : _ := hkind.resolve_right (by simp)
    cases x with
    | scope => simp [itemScope] at hp
    | val n v =>
      refine ⟨fun hf => ?_, fun hc => ?_⟩
      · refine fitsL_of (fun nm hm k hk => ?_) hnm.2.1 hf fun nm ty hh hs y hy => ?_
        · obtain ⟨y, hy, h1, h2⟩ := kindNames_mem hk
          have : y ∈ a ++ b := by
            simp only [List.mem_append, List.mem_cons] at hy ⊢
            rcases hy with hy | rfl | hy
            · exact .inl hy
            · exact absurd (h1 ▸ hm) hx
            · exact .inr hy
          rw [← h1, ← h2]
          exact mem_kindNames this
        · rw [scopeAt_insert fun he => hx (he ▸ hh.name)] at hy
          exact fitsL_has hnm.2.1 hf hh hs y hy
      · intro pre m t kids post he
        rcases List.append_eq_append_iff.mp he with ⟨c, h1, h2⟩ | ⟨c, h1, h2⟩
        · cases c with
          | nil => simp at h2
          | cons y c =>
            simp only [List.cons_append, List.cons.injEq] at h2
            obtain ⟨rfl, h2⟩ := h2
            rw [h1]
            refine wants_insert hnm.2.1 hx (hc (a ++ c) m t kids post ?_)
            rw [h2]; simp
        · cases c with
          | nil => simp at h2
          | cons y c =>
            simp only [List.cons_append, List.cons.injEq] at h2
            obtain ⟨rfl, h2⟩ := h2
            refine hc pre m t kids (c ++ b) ?_
            rw [h1]; simp
  | @field st fs name ty t0 a b k1 k2 hty hs h ih =>
    intro hok
    obtain ⟨hfs, hkind⟩ := hok
    have hnm : _ := hkind.resolve_right (by simp)
    refine ⟨fun hf => ?_, covered_skel skel_replace⟩
    refine fitsL_of (fun nm hm k hk => ?_) hnm.2.1 hf fun nm ty' hh hs' y hy => ?_
    · rw [kindNames_skel, skel_replace (k2 := k1), ← kindNames_skel] at hk
      exact hk
    · have hr : OptRel (Keep ty') (scopeAt nm (a ++ .scope name t0 k1 :: b))
          (scopeAt nm (a ++ .scope name t0 k2 :: b)) := by
        refine scopeAt_replace (fun _ h => h) ?_
        rintro rfl h2
        obtain rfl := Fields.Has.unique hnm.2.2 hty hh
        have := ih (hty.ok hfs)
        exact ⟨this.1 h2.1, this.2 h2.2⟩
      obtain ⟨x, hx, hxy⟩ := hr.some_right hy
      exact hxy (fitsL_has hnm.2.1 hf hh hs' x hx)
  | @tuple st fs name ty t0 a b k1 k2 hty h ih =>
    intro hok
    obtain ⟨hfs, hkind⟩ := hok
    have hnm : _ := hkind.resolve_left (by simp)
    refine ⟨fun hf => ?_, covered_skel skel_replace⟩
    refine fitsL_of_pos hnm.2.2 fun i ty' hi y hy => ?_
    have hr : OptRel (Keep ty') (scopesOf (a ++ .scope name t0 k1 :: b))[0 + i]?
        (scopesOf (a ++ .scope name t0 k2 :: b))[0 + i]? := by
      refine get_replace (fun _ h => h) _ fun he h2 => ?_
      rw [Nat.zero_add] at he
      rw [he, hty] at hi
      cases hi
      have := ih (scopeTys_ok hfs (List.mem_of_getElem? hty)).1
      exact ⟨this.1 h2.1, this.2 h2.2⟩
    obtain ⟨x, hx, hxy⟩ := hr.some_right hy
    exact hxy (fitsL_scopeTys hnm.2.2 hf hi x hx)
  | @vec e name t a b k1 k2 hs h ih =>
    intro hok
    refine ⟨fun hf _ y hy => ?_, fun _ => trivial⟩
    have h2 : All2 (Keep e) _ _ := all2_replace (name := name) (t := t) (a := a) (b := b) (k1 := k1)
      (k2 := k2) (fun _ h => h) (fun h2 => ⟨(ih hok).1 h2.1, (ih hok).2 h2.2⟩)
    obtain ⟨x, hx, hxy⟩ := h2.mem_right y hy
    exact hxy (hf hs x hx)
  | @named e name t a b k1 k2 hs h ih =>
    intro hok
    refine ⟨fun hf _ y hy => ?_, fun _ => trivial⟩
    have h2 : All2 (Keep e) _ _ := all2_replace (name := name) (t := t) (a := a) (b := b) (k1 := k1)
      (k2 := k2) (fun _ h => h) (fun h2 => ⟨(ih hok).1 h2.1, (ih hok).2 h2.2⟩)
    obtain ⟨x, hx, hxy⟩ := h2.mem_right y hy
    exact hxy (hf hs x hx)
  | @arr k e name t a b k1 k2 hs h ih =>
    intro hok
    refine ⟨fun hf => ⟨?_, fun _ y hy => ?_⟩, covered_skel skel_replace⟩
    · rw [kindNames_skel, skel_replace (k2 := k1), ← kindNames_skel]
      exact hf.1
    · have h2 : All2 (Keep e) _ _ := all2_replace (name := name) (t := t) (a := a) (b := b) (k1 := k1)
        (k2 := k2) (fun _ h => h) (fun h2 => ⟨(ih hok).1 h2.1, (ih hok).2 h2.2⟩)
      obtain ⟨x, hx, hxy⟩ := h2.mem_right y hy
      exact hxy (hf.2 hs x hx)
  | ptr h ih => exact ih
  | sorted h ih => exact fun hok => ih hok.1

theorem extras_fits {ty : Ty} {a b : List Item} (h : Extras (fun i => itemScope i = false) ty a b)
    (hok : ty.Ok) (hf : Fits ty a) : Fits ty b := by
  induction h with
  | refl => exact hf
  | step _ h1 ih => exact (extra_fits h1 hok).1 ih

/-! ## C42 -/

theorem mapRes_all {β γ : Type} {f : β → Res γ} : ∀ {xs : List β} {ys : List γ}, mapRes f xs = .ok ys →
    ∀ x ∈ xs, ∃ y, f x = .ok y
  | [], _, _, _, hx => by cases hx
  | x :: xs, ys, h, z, hz => by
    simp only [mapRes, Res.bind_eq_ok] at h
    obtain ⟨y, h1, ys', h2, -⟩ := h
    rcases List.mem_cons.mp hz with rfl | hz
    · exact ⟨y, h1⟩
    · exact mapRes_all h2 z hz

theorem zipRes_all {β : Type} {f : Obj → β → Res Obj} : ∀ {os : List Obj} {xs : List β} {ys : List Obj},
    zipRes f os xs = .ok ys → ∀ x ∈ xs, ∃ o y, f o x = .ok y
  | _, [], _, _, _, hx => by cases hx
  | [], _ :: _, _, h, _, _ => by simp [zipRes] at h
  | o :: os, x :: xs, ys, h, z, hz => by
    simp only [zipRes, Res.bind_eq_ok] at h
    obtain ⟨y, h1, ys', h2, -⟩ := h
    rcases List.mem_cons.mp hz with rfl | hz
    · exact ⟨o, y, h1⟩
    · exact zipRes_all h2 z hz

theorem countedL_named {items : List Item} : ∀ {fs : Fields} {ni ni' : Nat}, [] ∉ fs.names →
    CountedL fs ni items → CountedL fs ni' items
  | .nil, _, _, _, _ => trivial
  | .cons nm _ ty rest, ni, ni', h0, hc => by
    simp only [Fields.names, List.mem_cons, not_or] at h0
    simp only [CountedL, pick, if_neg (Ne.symm h0.1)] at hc ⊢
    exact ⟨hc.1, countedL_named (fs := rest) h0.2 hc.2⟩

mutual
theorem counted_ok (env : Env) : ∀ (ty : Ty) (t : ScopeTy) (items : List Item) (old o : Obj), ty.Ok →
    pasteNode env ty old (nodeOf t items) = .ok o → Counted ty items
  | .bool, _, _, _, _ => fun _ _ => trivial
  | .int _, _, _, _, _ => fun _ _ => trivial
  | .float, _, _, _, _ => fun _ _ => trivial
  | .double, _, _, _, _ => fun _ _ => trivial
  | .str, _, _, _, _ => fun _ _ => trivial
  | .bytes, _, _, _, _ => fun _ _ => trivial
  | .sorted _ c, t, items, old, o => by
    intro hok h
    simp only [pasteNode, Res.bind_eq_ok] at h
    obtain ⟨y, h1, -⟩ := h
    exact counted_ok env c t items _ y hok.1 h1
  | .ptr _ e, t, items, old, o => by
    intro hok h
    simp only [pasteNode, Res.bind_eq_ok] at h
    obtain ⟨y, h1, -⟩ := h
    exact counted_ok env e t items _ y hok h1
  | .vec e, t, items, old, o => by
    intro hok h hs x hx
    simp only [pasteNode, contentL_eq, hs, if_true, Res.bind_eq_ok] at h
    obtain ⟨ys, h1, -⟩ := h
    obtain ⟨y, hy⟩ := mapRes_all h1 (x.1, nodeOf x.2.1 x.2.2) (List.mem_map.mpr ⟨x, hx, rfl⟩)
    exact counted_ok env e x.2.1 x.2.2 _ y hok hy
  | .named e, t, items, old, o => by
    intro hok h hs x hx
    simp only [pasteNode, contentL_eq, hs, if_true] at h
    split at h
    · cases h
    simp only [Res.bind_eq_ok] at h
    obtain ⟨ys, h1, -⟩ := h
    obtain ⟨z, hz⟩ := mapRes_all h1 (x.1, nodeOf x.2.1 x.2.2) (List.mem_map.mpr ⟨x, hx, rfl⟩)
    simp only [Res.bind_eq_ok] at hz
    obtain ⟨y, hy, -⟩ := hz
    exact counted_ok env e x.2.1 x.2.2 _ y hok hy
  | .arr k e, t, items, old, o => by
    intro hok h
    cases old with
    | many os =>
      simp only [pasteNode, contentL_eq] at h
      by_cases hs : e.isScope = true
      · simp only [hs, if_true] at h
        split at h
        · cases h
        · rename_i hl
          simp only [Res.bind_eq_ok] at h
          obtain ⟨ys, h1, -⟩ := h
          refine ⟨?_, fun _ x hx => ?_⟩
          · rw [hs, kindNames_true, List.length_map]
            omega
          · obtain ⟨o', y, hy⟩ := zipRes_all h1 (x.1, nodeOf x.2.1 x.2.2) (List.mem_map.mpr ⟨x, hx, rfl⟩)
            exact counted_ok env e x.2.1 x.2.2 _ y hok hy
      · simp only [hs, Bool.false_eq_true, if_false] at h
        split at h
        · cases h
        · rename_i hl
          refine ⟨?_, fun h' => absurd h' hs⟩
          rw [Bool.not_eq_true] at hs
          rw [hs, kindNames_false, List.length_map]
          omega
    | _ => cases h
  | .record t' st fs, t, items, old, o => by
    intro hok h
    obtain ⟨hfs, hkind⟩ := hok
    cases old with
    | many os =>
      simp only [pasteNode, contentL_eq] at h
      split at h
      · cases h
      · simp only [Res.bind_eq_ok] at h
        obtain ⟨ys, h1, -⟩ := h
        refine counted_okL env fs os 0 0 items ys hfs ?_ h1
        rcases hkind with ⟨_, h0⟩ | ⟨_, _, h0⟩
        · exact .inl h0.1
        · exact .inr h0
    | _ => cases h
theorem counted_okL (env : Env) : ∀ (fs : Fields) (os : List Obj) (ni vi : Nat) (items : List Item)
    (ys : List Obj), fs.Ok → ([] ∉ fs.names ∨ fs.Positional) →
    pasteFields env fs os ni vi (valuesOf items) (nodesOf items) = .ok ys → CountedL fs ni items
  | .nil, _, _, _, _, _ => fun _ _ _ => trivial
  | .cons nm opt ty rest, [], _, _, _, _ => fun _ _ h => by simp [pasteFields] at h
  | .cons nm opt ty rest, o :: os, ni, vi, items, ys => by
    intro hok hm h
    have hm' : [] ∉ rest.names ∨ rest.Positional := by
      rcases hm with h0 | h0
      · simp only [Fields.names, List.mem_cons, not_or] at h0; exact .inl h0.2
      · exact .inr h0.2.2
    by_cases hs : ty.isScope = true
    · simp only [pasteFields, hs, if_true] at h
      split at h
      · rename_i ho
        simp only [Res.bind_eq_ok] at h
        obtain ⟨ys', h1, -⟩ := h
        have h0 : nm ≠ [] ∧ [] ∉ rest.names := by
          rcases hm with h0 | h0
          · simp only [Fields.names, List.mem_cons, not_or] at h0
            exact ⟨Ne.symm h0.1, h0.2⟩
          · rw [h0.2.1] at ho; simp at ho
        refine ⟨fun _ x hx => ?_, countedL_named h0.2 (counted_okL env rest os _ _ items ys' hok.2 hm' h1)⟩
        have h2 := ho.2
        rw [findName_nodesOf, Option.isNone_map] at h2
        rw [pick, if_neg h0.1] at hx
        rw [hx] at h2
        cases h2
      · simp only [Res.bind_eq_ok] at h
        obtain ⟨n, h1, y, h2, ys', h3, -⟩ := h
        refine ⟨fun _ x hx => ?_, by rw [if_pos hs]; exact counted_okL env rest os _ _ items ys' hok.2 hm' h3⟩
        have : n = nodeOf x.2.1 x.2.2 := by
          by_cases hn : nm = []
          · subst hn
            rw [pick, if_pos rfl] at hx
            simp only [Sel.of, if_true, lookup, nodesOf, List.getElem?_map, hx, Option.map_some] at h1
            cases h1; rfl
          · rw [pick, if_neg hn] at hx
            rw [lookup_named hn, scopeAt, hx] at h1
            cases h1; rfl
        subst this
        exact counted_ok env ty x.2.1 x.2.2 o y hok.1 h2
    · simp only [pasteFields, hs, Bool.false_eq_true, if_false] at h
      refine ⟨fun h' => absurd h' hs, ?_⟩
      rw [if_neg hs]
      split at h
      · simp only [Res.bind_eq_ok] at h
        obtain ⟨ys', h1, -⟩ := h
        exact counted_okL env rest os _ _ items ys' hok.2 hm' h1
      · simp only [Res.bind_eq_ok] at h
        obtain ⟨v, h1, y, h2, ys', h3, -⟩ := h
        exact counted_okL env rest os _ _ items ys' hok.2 hm' h3
end

/-! ## C46 -/

theorem itemFor_true {nm : Bytes} {items : List Item} :
    itemFor nm true items = (scopeAt nm items).map (fun x => .scope x.1 x.2.1 x.2.2) := by
  unfold itemFor scopeAt
  induction items with
  | nil => rfl
  | cons i is ih =>
    cases i with
    | val n v => rw [List.find?_cons_of_neg (by simp [itemScope]), ih]; rfl
    | scope n t k =>
      by_cases h : n = nm
      · rw [List.find?_cons_of_pos (by simp [itemScope, itemName, h]), scopesOf,
          List.find?_cons_of_pos (by simp [h])]
        rfl
      · rw [List.find?_cons_of_neg (by simp [itemScope, itemName, h]), scopesOf,
          List.find?_cons_of_neg (by simp [h]), ih]

theorem itemFor_false {nm : Bytes} {items : List Item} :
    itemFor nm false items = (findName nm (valuesOf items)).map (fun v => .val nm v) := by
  unfold itemFor
  induction items with
  | nil => rfl
  | cons i is ih =>
    cases i with
    | scope n t k => rw [List.find?_cons_of_neg (by simp [itemScope]), ih]; rfl
    | val n v =>
      by_cases h : n = nm
      · rw [List.find?_cons_of_pos (by simp [itemScope, itemName, h]), valuesOf]
        simp [findName, h]
      · rw [List.find?_cons_of_neg (by simp [itemScope, itemName, h]), valuesOf, ih]
        simp [findName, h]

theorem pasteFields_members (env : Env) {items : List Item} : ∀ (fs : Fields) (os : List Obj)
    (ni vi : Nat), [] ∉ fs.names →
    pasteFields env fs os ni vi (valuesOf items) (nodesOf items) = members env items fs os
  | .nil, _, _, _ => fun _ => rfl
  | .cons nm opt ty rest, [], _, _ => fun _ => rfl
  | .cons nm opt ty rest, o :: os, ni, vi => by
    intro h0
    simp only [Fields.names, List.mem_cons, not_or] at h0
    have hr : ∀ ni vi, _ := fun ni vi => pasteFields_members env (items := items) rest os ni vi h0.2
    have hn : nm ≠ [] := Ne.symm h0.1
    by_cases ht : ty.isScope = true
    · simp only [pasteFields, ht, if_true, members, member, itemFor_true, hr]
      rw [lookup_named hn, findName_nodesOf, Option.isNone_map]
      simp only [scopeAt]
      cases (scopesOf items).find? (·.1 == nm) with
      | none => cases opt <;> simp
      | some x => cases opt <;> simp
    · rw [Bool.not_eq_true] at ht
      simp only [pasteFields, ht, Bool.false_eq_true, if_false, members, member, itemFor_false, hr]
      rw [lookup_values hn]
      cases findName nm (valuesOf items) with
      | none => cases opt <;> simp
      | some x => cases opt <;> simp

end Srl.Typed
