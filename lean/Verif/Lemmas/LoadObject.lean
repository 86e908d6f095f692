import Verif.Model.LoadObject
import Verif.Props.LoadObjectSpec
import Verif.Props.TypedDocs
import Verif.Lemmas.Insert

/-! Loaded objects. -/

namespace Srl.LoadObject
open TreeApi Typed Doc Props

/-! ## Inserting items -/

mutual
theorem perform_actOf {P : Type} (cfg : HTable.Cfg Nat) (fmt : Fmt P) : ∀ (i : Item) (w : Work P),
    perform cfg fmt false (actOf i) w = (.ok (), { w with values := w.values ++ (Item.contentL [i]).1,
                                                          nodes := w.nodes ++ (Item.contentL [i]).2 })
  | .val n v, w => by simp [actOf, perform, insertValue, Item.contentL, Item.addTo]
  | .scope n t kids, w => by
    simp [actOf, perform, openScope, performL_actsOf cfg fmt kids, Item.contentL, Item.addTo]
theorem performL_actsOf {P : Type} (cfg : HTable.Cfg Nat) (fmt : Fmt P) : ∀ (is : List Item) (w : Work P),
    performL cfg fmt false (actsOf is) w = (.ok (), { w with values := w.values ++ (Item.contentL is).1,
                                                             nodes := w.nodes ++ (Item.contentL is).2 })
  | [], w => by simp [actsOf, performL, Item.contentL]
  | i :: is, w => by
    simp only [actsOf, performL, perform_actOf cfg fmt i w, andThen, performL_actsOf cfg fmt is]
    cases i <;> simp [Item.contentL, Item.addTo]
end

theorem loadObject_eq {P : Type} (cfg : HTable.Cfg Nat) (fmt : Fmt P) (ty : Ty) (o : Obj) (t : Tree P)
    (ht : t.parsing = false) : loadObject cfg fmt ty o t = (.ok [],
      { t.clear with values := (Item.contentL (inserted ty o)).1, nodes := (Item.contentL (inserted ty o)).2 }) := by
  have h : t.clear.parsing = false := ht
  simp only [loadObject, step, h, performL_actsOf, noBytes]
  simp [Tree.take, Tree.work, Tree.clear, ht]

/-! ## Values first -/

/-- The order in which a tree with these items is saved. -/
def valsFirst (kids : List Item) : List Item :=
  (Item.contentL kids).1.map (fun p => Item.val p.1 p.2) ++ Node.toItems (Item.contentL kids).2

theorem scopesOf_vals (vs : List (Bytes × Val)) : scopesOf (vs.map (fun p => Item.val p.1 p.2)) = [] := by
  induction vs with
  | nil => rfl
  | cons p vs ih => simpa [scopesOf] using ih

theorem valuesOf_vals (vs : List (Bytes × Val)) : valuesOf (vs.map (fun p => Item.val p.1 p.2)) = vs := by
  induction vs with
  | nil => rfl
  | cons p vs ih => simp [valuesOf, ih]

theorem valuesOf_toItems : ∀ ns : List (Bytes × Node), valuesOf (Node.toItems ns) = []
  | [] => rfl
  | (n, .mk t vs ns) :: xs => by simp [Node.toItems, Node.toItem, valuesOf, valuesOf_toItems xs]

theorem scopesOf_toItems : ∀ xs : List (Bytes × ScopeTy × List Item), scopesOf (Node.toItems (xs.map fun x =>
      (x.1, Node.mk x.2.1 (Item.contentL x.2.2).1 (Item.contentL x.2.2).2))) =
    xs.map (fun x => (x.1, x.2.1, valsFirst x.2.2))
  | [] => rfl
  | x :: xs => by simp [Node.toItems, Node.toItem, scopesOf, scopesOf_toItems xs, valsFirst]

theorem scopesOf_first (kids : List Item) : scopesOf (valsFirst kids) =
    (scopesOf kids).map (fun x => (x.1, x.2.1, valsFirst x.2.2)) := by
  conv => lhs; unfold valsFirst
  rw [scopesOf_append, scopesOf_vals, contentL_eq, List.nil_append]
  simp only [nodesOf]
  exact scopesOf_toItems _

theorem valuesOf_first (kids : List Item) : valuesOf (valsFirst kids) = valuesOf kids := by
  rw [valsFirst, valuesOf_append, valuesOf_vals, valuesOf_toItems, contentL_eq, List.append_nil]

theorem kindNames_first (b : Bool) (kids : List Item) : kindNames b (valsFirst kids) = kindNames b kids := by
  cases b <;> simp [kindNames, valuesOf_first, scopesOf_first]

theorem names_perm : ∀ kids : List Item,
    (kids.map itemName).Perm (kindNames false kids ++ kindNames true kids)
  | [] => by simp [kindNames, valuesOf, scopesOf]
  | .val n v :: kids => by
    have := names_perm kids
    simp only [kindNames, valuesOf, scopesOf, List.map_cons, itemName, Bool.false_eq_true, if_false, if_true,
      List.cons_append] at this ⊢
    exact this.cons n
  | .scope n t ks :: kids => by
    have := names_perm kids
    simp only [kindNames, valuesOf, scopesOf, List.map_cons, itemName, Bool.false_eq_true, if_false, if_true]
      at this ⊢
    exact (this.cons n).trans List.perm_middle.symm

theorem names_first (kids : List Item) : ((valsFirst kids).map itemName).Perm (kids.map itemName) := by
  have h := names_perm (valsFirst kids)
  rw [kindNames_first, kindNames_first] at h
  exact h.trans (names_perm kids).symm

theorem pick_first (name : Bytes) (i : Nat) (kids : List Item) : pick name i (valsFirst kids) =
    (pick name i kids).map (fun x => (x.1, x.2.1, valsFirst x.2.2)) := by
  unfold pick
  rw [scopesOf_first]
  split
  · simp
  · rw [List.find?_map]
    rfl

mutual
/-- The order of values among scopes does not matter for the form. -/
theorem plain_first : ∀ (ty : Ty) (t : ScopeTy) (items : List Item), Plain ty t items →
    Plain ty t (valsFirst items)
  | .bool, _, _ => fun h => h.elim
  | .int _, _, _ => fun h => h.elim
  | .float, _, _ => fun h => h.elim
  | .double, _, _ => fun h => h.elim
  | .str, _, _ => fun h => h.elim
  | .bytes, _, _ => fun h => h.elim
  | .ptr _ e, t, items => fun h => plain_first e t items h
  | .sorted _ c, t, items => fun h => plain_first c t items h
  | .vec e, t, items => fun h => ⟨h.1, fun hs x hx => by
      rw [scopesOf_first, List.mem_map] at hx
      obtain ⟨y, hy, rfl⟩ := hx
      exact plain_first e _ _ (h.2 hs y hy)⟩
  | .named e, t, items => fun h => ⟨h.1, (names_first items).nodup_iff.mpr h.2.1, fun hs x hx => by
      rw [scopesOf_first, List.mem_map] at hx
      obtain ⟨y, hy, rfl⟩ := hx
      exact plain_first e _ _ (h.2.2 hs y hy)⟩
  | .arr k e, t, items => fun h => ⟨h.1, by rw [kindNames_first]; exact h.2.1, fun hs => by
      rw [scopesOf_first, h.2.2.1 hs]; rfl, fun hs x hx => by
      rw [scopesOf_first, List.mem_map] at hx
      obtain ⟨y, hy, rfl⟩ := hx
      exact plain_first e _ _ (h.2.2.2 hs y hy)⟩
  | .record t' _ fs, t, items => fun h => ⟨h.1, by
      have h2 := h.2.1
      split
      · rename_i ht
        rw [if_pos ht] at h2
        refine ⟨(names_first items).nodup_iff.mpr h2.1, fun x hx => ?_⟩
        rw [scopesOf_first, List.mem_map] at hx
        obtain ⟨y, hy, rfl⟩ := hx
        exact h2.2 y hy
      · rename_i ht
        rw [if_neg ht] at h2
        rw [scopesOf_first, List.length_map]
        exact h2, plain_firstL fs 0 items h.2.2⟩
theorem plain_firstL : ∀ (fs : Fields) (ni : Nat) (items : List Item), PlainL fs ni items →
    PlainL fs ni (valsFirst items)
  | .nil, _, _ => fun _ => trivial
  | .cons name opt ty rest, ni, items => fun h => ⟨fun hs x hx => by
      rw [pick_first] at hx
      cases hp : pick name ni items with
      | none => rw [hp] at hx; cases hx
      | some y =>
        rw [hp] at hx
        cases hx
        exact plain_first ty _ _ (h.1 hs y hp), plain_firstL rest _ items h.2⟩
end

theorem norm_first (nv : Val → Val) (b : Bool) (kids : List Item) :
    Norm.items nv b (valsFirst kids) = valsFirst (Norm.items nv b kids) := by
  have h := Norm.content_items nv b kids
  rw [valsFirst, Norm.items_append, Norm.items_vals, Norm.items_toItems]
  unfold valsFirst
  rw [h]

theorem content_first (kids : List Item) : Item.contentL (valsFirst kids) = Item.contentL kids := by
  rw [valsFirst, Item.contentL_vals, Node.contentL_toItems, List.append_nil]

/-! ## The type of the root -/

theorem pasteNode_type (env : Env) : ∀ (ty : Ty) (old o : Obj) (t t' : ScopeTy) (vs : List (Bytes × Val))
    (ns : List (Bytes × Node)), (Strict ty = true → t' = .object) →
    pasteNode env ty old (.mk t vs ns) = .ok o → pasteNode env ty old (.mk t' vs ns) = .ok o
  | .bool, _, _, _, _, _, _ => fun _ h => by simp [pasteNode] at h
  | .int _, _, _, _, _, _, _ => fun _ h => by simp [pasteNode] at h
  | .float, _, _, _, _, _, _ => fun _ h => by simp [pasteNode] at h
  | .double, _, _, _, _, _, _ => fun _ h => by simp [pasteNode] at h
  | .str, _, _, _, _, _, _ => fun _ h => by simp [pasteNode] at h
  | .bytes, _, _, _, _, _, _ => fun _ h => by simp [pasteNode] at h
  | .vec e, old, o, t, t', vs, ns => fun _ h => by simpa only [pasteNode] using h
  | .named e, old, o, t, t', vs, ns => fun hs h => by
    have := hs rfl
    subst this
    simp only [pasteNode] at h ⊢
    by_cases ht : t = .object
    · subst ht; exact h
    · rw [if_pos ht] at h; cases h
  | .arr k e, old, o, t, t', vs, ns => fun _ h => by
    cases old with
    | many os => simpa only [pasteNode] using h
    | _ => simp [pasteNode] at h
  | .record t0 strict fs, old, o, t, t', vs, ns => fun hs h => by
    cases old with
    | many os =>
      simp only [pasteNode] at h ⊢
      by_cases ht : strict = true ∧ t ≠ .object
      · rw [if_pos ht] at h; cases h
      · rw [if_neg ht] at h
        rw [if_neg (fun hc => hc.2 (hs hc.1))]
        exact h
    | _ => simp [pasteNode] at h
  | .ptr k e, old, o, t, t', vs, ns => fun hs h => by
    simp only [pasteNode] at h ⊢
    obtain ⟨x, h1, h2⟩ := Res.bind_eq_ok.mp h
    rw [pasteNode_type env e _ x t t' vs ns hs h1]
    exact h2
  | .sorted b c, old, o, t, t', vs, ns => fun hs h => by
    simp only [pasteNode] at h ⊢
    obtain ⟨x, h1, h2⟩ := Res.bind_eq_ok.mp h
    rw [pasteNode_type env c _ x t t' vs ns hs h1]
    exact h2

/-! ## What was inserted -/

theorem keeps_id : Keeps id where
  bool _ := rfl
  null := rfl
  str _ := rfl
  int t v h1 h2 := ⟨t, rfl, h1, h2⟩
  float f h := keeps_srl.float f h
  widen _ _ := rfl
  double d := by
    have h : PSrl.normVal (Fp.ofDouble d) = Fp.ofDouble d := by
      unfold Fp.ofDouble
      split <;> rfl
    have := keeps_srl.double d
    rwa [h] at this
  bin _ := ⟨by simp, fun _ _ => rfl⟩

theorem items_names (nv : Val → Val) : ∀ (kids : List Item), (∀ i ∈ kids, itemName i = []) →
    Norm.items nv true kids = Norm.items nv false kids
  | [], _ => rfl
  | i :: is, h => by
    have h1 := h i (by simp)
    simp only [Norm.items, items_names nv is (fun j hj => h j (by simp [hj]))]
    cases i <;> simp_all [Norm.item, itemName]

theorem toItem_name (nm : Bytes) : ∀ (ty : Ty) (o : Obj), itemName (toItem nm ty o) = nm
  | .bool, o => by cases o <;> simp [toItem, itemName]
  | .int _, o => by cases o <;> simp [toItem, itemName]
  | .float, o => by cases o <;> simp [toItem, itemName]
  | .double, o => by cases o <;> simp [toItem, itemName]
  | .str, o => by cases o <;> simp [toItem, itemName]
  | .bytes, o => by cases o <;> simp [toItem, itemName]
  | .vec _, o => by cases o <;> simp [toItem, itemName]
  | .named _, o => by cases o <;> simp [toItem, itemName]
  | .arr _ _, o => by cases o <;> simp [toItem, itemName]
  | .record _ _ _, o => by cases o <;> simp [toItem, itemName]
  | .ptr _ e, o => by
    cases o with
    | ref o => simp [toItem, toItem_name nm e o]
    | _ => simp [toItem, itemName]
  | .sorted _ c, o => by simp [toItem, toItem_name nm c o]

theorem fields_names : ∀ (fs : Fields) (xs : List Obj), fs.Positional → ∀ i ∈ fieldItems fs xs, itemName i = []
  | .nil, _, _, _, h => by simp [fieldItems] at h
  | .cons _ _ _ _, [], _, _, h => by simp [fieldItems] at h
  | .cons name opt ty rest, x :: xs, hp, i, h => by
    simp only [fieldItems, List.mem_cons] at h
    rcases h with rfl | h
    · rw [toItem_name]; exact hp.1
    · exact fields_names rest xs hp.2.2 i h

/-- What is stored as an array has no names. -/
theorem array_names : ∀ (ty : Ty) (o : Obj), ty.Ok → ty.scopeTy = .array → ∀ i ∈ kidsOf ty o, itemName i = []
  | .vec e, o => fun hok ht i hi => by
    cases o <;> simp only [kidsOf, toItem, List.not_mem_nil] at hi
    obtain ⟨x, -, rfl⟩ := List.mem_map.mp hi
    exact toItem_name _ _ _
  | .named e, o => fun hok ht => by cases ht
  | .arr k e, o => fun hok ht i hi => by
    cases o <;> simp only [kidsOf, toItem, List.not_mem_nil] at hi
    obtain ⟨x, -, rfl⟩ := List.mem_map.mp hi
    exact toItem_name _ _ _
  | .record t st fs, o => fun hok ht i hi => by
    cases o <;> simp only [kidsOf, toItem, List.not_mem_nil] at hi
    simp only [Ty.scopeTy] at ht
    rcases hok.2 with ⟨h, -⟩ | ⟨-, -, h⟩
    · rw [ht] at h; cases h
    · exact fields_names fs _ h i hi
  | .ptr k e, o => fun hok ht i hi => by
    cases o with
    | ref o => exact array_names e o hok ht i (by simpa only [kidsOf, toItem] using hi)
    | _ => simp [kidsOf, toItem] at hi
  | .sorted b c, o => fun hok ht i hi => array_names c o hok.1 ht i (by simpa only [kidsOf, toItem] using hi)
  | .bool, o => fun _ ht i hi => by cases o <;> simp [kidsOf, toItem] at hi
  | .int _, o => fun _ ht i hi => by cases o <;> simp [kidsOf, toItem] at hi
  | .float, o => fun _ ht i hi => by cases o <;> simp [kidsOf, toItem] at hi
  | .double, o => fun _ ht i hi => by cases o <;> simp [kidsOf, toItem] at hi
  | .str, o => fun _ ht i hi => by cases o <;> simp [kidsOf, toItem] at hi
  | .bytes, o => fun _ ht i hi => by cases o <;> simp [kidsOf, toItem] at hi

theorem norm_root (nv : Val → Val) {ty : Ty} (o : Obj) (hok : ty.Ok) {rt : ScopeTy}
    (h : rt = .object ∨ ty.scopeTy = .array) : Norm.items nv (rt == .object) (kidsOf ty o) = kidsN nv ty o := by
  cases h1 : ty.scopeTy with
  | array =>
    have := items_names nv _ (array_names ty o hok h1)
    cases rt <;> simp only [kidsN, h1]
    · exact this
  | object =>
    rw [h1] at h
    have : rt = .object := by simpa using h
    simp only [kidsN, h1, this]

theorem items_map_id {α : Type} (b : Bool) (f : α → Item) : ∀ xs : List α,
    (∀ x ∈ xs, Norm.item id b (f x) = f x) → Norm.items id b (xs.map f) = xs.map f
  | [], _ => rfl
  | x :: xs, h => by
    simp only [List.map_cons, Norm.items, h x (by simp), items_map_id b f xs (fun y hy => h y (by simp [hy]))]

mutual
/-- Inserted items have the form of a document already. -/
theorem norm_id (b : Bool) : ∀ (nm : Bytes) (ty : Ty) (o : Obj), ty.Ok → (b = false → nm = []) →
    Norm.item id b (toItem nm ty o) = toItem nm ty o
  | nm, .bool, o => fun _ h => by cases o <;> cases b <;> simp_all [toItem, Norm.item]
  | nm, .int _, o => fun _ h => by cases o <;> cases b <;> simp_all [toItem, Norm.item]
  | nm, .float, o => fun _ h => by cases o <;> cases b <;> simp_all [toItem, Norm.item]
  | nm, .double, o => fun _ h => by cases o <;> cases b <;> simp_all [toItem, Norm.item]
  | nm, .str, o => fun _ h => by cases o <;> cases b <;> simp_all [toItem, Norm.item]
  | nm, .bytes, o => fun _ h => by cases o <;> cases b <;> simp_all [toItem, Norm.item]
  | nm, .vec e, o => fun hok h => by
    have hb : (if b = true then nm else []) = nm := by cases b <;> simp_all
    cases o with
    | many xs =>
      simp only [toItem, Norm.item, hb]
      rw [items_map_id _ _ xs (fun x _ => norm_id _ [] e x hok (fun _ => rfl))]
    | _ => simp only [toItem, Norm.item, hb, id]
  | nm, .named e, o => fun hok h => by
    have hb : (if b = true then nm else []) = nm := by cases b <;> simp_all
    cases o with
    | many xs =>
      simp only [toItem, Norm.item, hb]
      rw [items_map_id _ _ xs (fun x _ => norm_id _ _ e _ hok (fun h => by cases h))]
    | _ => simp only [toItem, Norm.item, hb, id]
  | nm, .arr k e, o => fun hok h => by
    have hb : (if b = true then nm else []) = nm := by cases b <;> simp_all
    cases o with
    | many xs =>
      simp only [toItem, Norm.item, hb]
      rw [items_map_id _ _ xs (fun x _ => norm_id _ [] e x hok (fun _ => rfl))]
    | _ => simp only [toItem, Norm.item, hb, id]
  | nm, .record t st fs, o => fun hok h => by
    have hb : (if b = true then nm else []) = nm := by cases b <;> simp_all
    cases o with
    | many xs =>
      simp only [toItem, Norm.item, hb]
      rw [norm_idL _ fs xs hok.1 (fun ht => by
        rcases hok.2 with ⟨h, -⟩ | ⟨-, -, h⟩
        · subst h; cases ht
        · exact h)]
    | _ => simp only [toItem, Norm.item, hb, id]
  | nm, .ptr k e, o => fun hok h => by
    have hb : (if b = true then nm else []) = nm := by cases b <;> simp_all
    cases o with
    | ref o => simp only [toItem, norm_id b nm e o hok h]
    | _ => simp only [toItem, Norm.item, hb, id]
  | nm, .sorted _ c, o => fun hok h => by simp only [toItem, norm_id b nm c o hok.1 h]
theorem norm_idL (b : Bool) : ∀ (fs : Fields) (xs : List Obj), fs.Ok → (b = false → fs.Positional) →
    Norm.items id b (fieldItems fs xs) = fieldItems fs xs
  | .nil, _ => fun _ _ => by simp [fieldItems, Norm.items]
  | .cons _ _ _ _, [] => fun _ _ => by simp [fieldItems, Norm.items]
  | .cons name opt ty rest, x :: xs => fun hok h => by
    simp only [fieldItems, Norm.items]
    rw [norm_id b name ty x hok.1 (fun hb => (h hb).1), norm_idL b rest xs hok.2 (fun hb => (h hb).2.2)]
end

theorem kidsN_id {ty : Ty} {o : Obj} (hok : ty.Ok) (hs : ty.isScope = true) (ho : Storable ty o) :
    kidsN id ty o = kidsOf ty o := by
  have h := norm_id true [] ty o hok (fun h => by cases h)
  rw [stored_scope ty o ho hs, Norm.item] at h
  injection h

/-! ## Taking the object out of the tree -/

theorem inserted_scope {ty : Ty} {o : Obj} (hs : ty.isScope = true) (ho : Storable ty o) :
    inserted ty o = kidsOf ty o := by
  unfold inserted
  rw [stored_scope ty o ho hs]

theorem unwrap_inserted (env : Env) {ty : Ty} {o old : Obj} (hok : ty.Ok) (ho : Storable ty o) (hold : WT ty old)
    {rt : ScopeTy} (hr : Strict ty = true → rt = .object) (name : Bytes) :
    unwrap env ty old ⟨name, .mk rt (Item.contentL (inserted ty o)).1 (Item.contentL (inserted ty o)).2⟩ = .ok o := by
  by_cases hs : ty.isScope = true
  · simp only [unwrap, hs, if_true, inserted_scope hs ho]
    have := eager keeps_id env ty o old hok hs ho hold
    rw [kidsN_id hok hs ho] at this
    exact pasteNode_type env ty old o _ rt _ _ hr this
  · rw [Bool.not_eq_true] at hs
    obtain ⟨v, h1, h2⟩ := stored_value ty o ho hs
    simp only [unwrap, hs, Bool.false_eq_true, if_false, inserted, h1, Item.contentL, Item.addTo, lookup,
      List.getElem?_cons_zero, Res.ok_bind]
    exact (h2 id keeps_id).2 env old

/-! ## Restoring what was saved -/

theorem fits_value : ∀ (ty : Ty) (items : List Item), ty.isScope = false → Fits ty items
  | .bool, _, _ => trivial
  | .int _, _, _ => trivial
  | .float, _, _ => trivial
  | .double, _, _ => trivial
  | .str, _, _ => trivial
  | .bytes, _, _ => trivial
  | .vec _, _, h => by cases h
  | .named _, _, h => by cases h
  | .arr _ _, _, h => by cases h
  | .record _ _ _, _, h => by cases h
  | .ptr _ e, items, h => fits_value e items h
  | .sorted _ c, items, h => by first | cases h | exact fits_value c items h

theorem strict_object : ∀ (ty : Ty), ty.Ok → Strict ty = true → ty.scopeTy = .array → False
  | .named _, _, _, h => by cases h
  | .record t st fs, hok, h1, h2 => by
    simp only [Strict] at h1
    simp only [Ty.scopeTy] at h2
    rcases hok.2 with ⟨h, -⟩ | ⟨-, h, -⟩
    · rw [h] at h2; cases h2
    · rw [h] at h1; cases h1
  | .ptr _ e, hok, h1, h2 => strict_object e hok h1 h2
  | .sorted _ c, hok, h1, h2 => strict_object c hok.1 h1 h2
  | .vec _, _, h, _ => by cases h
  | .arr _ _, _, h, _ => by cases h
  | .bool, _, h, _ => by cases h
  | .int _, _, h, _ => by cases h
  | .float, _, h, _ => by cases h
  | .double, _, h, _ => by cases h
  | .str, _, h, _ => by cases h
  | .bytes, _, h, _ => by cases h

theorem restore_saved {σ : Type} {nv : Val → Val} (hk : Keeps nv) (env : Env) (read : σ → Res (Event × σ))
    (fuel : Nat) {ty : Ty} {o old : Obj} (hok : ty.Ok) (htab : ty.Tables True false) (ho : Storable ty o)
    (hold : WT ty old) {rt : ScopeTy} (hr : Suits rt ty) (s s' : σ)
    (he : Emits read s (Norm.item nv false (.scope [] rt (valsFirst (inserted ty o)))).events s')
    (hd : Item.depthL (inserted ty o) ≤ maxDepth)
    (hf : (Item.eventsL (inserted ty o)).length < fuel) : direct env read fuel ty old s = .ok o := by
  simp only [Norm.item, norm_first, Bool.false_eq_true, if_false] at he
  have hdep : ∀ kids, Item.depthL (valsFirst kids) = Item.depthL kids := fun kids => by
    rw [valsFirst, Node.depthL_vals, Node.depthL_toItems, Item.depthL_content]
  have hlen : ∀ kids, (Item.eventsL (valsFirst kids)).length = (Item.eventsL kids).length := fun kids => by
    rw [valsFirst, Item.eventsL_append, Item.eventsL_vals, ← Node.eventsL_eq]
    have := Item.eventsL_content kids
    simp only [List.length_append, List.length_map]
    omega
  have hd' : Item.depthL (valsFirst (Norm.items nv (rt == .object) (inserted ty o))) ≤ maxDepth := by
    rw [hdep, Norm.depth_items]; exact hd
  have hf' : (Item.eventsL (valsFirst (Norm.items nv (rt == .object) (inserted ty o)))).length < fuel := by
    rw [hlen, Norm.eventsL_length]; exact hf
  have hl := load_item read [] rt _ fuel s s' he hf'
  rw [if_pos hd', content_first] at hl
  by_cases hs : ty.isScope = true
  · have hr' : rt = .object ∨ ty.scopeTy = .array := by
      rcases hr with h | h | h
      · exact .inl h
      · rw [hs] at h; cases h
      · exact .inr h
    rw [inserted_scope hs ho, norm_root nv o hok hr'] at he hd' hf' hl
    have hp := plain_stored nv ty o false hok htab hs ho (fun e he => by subst he; cases htab.2.1)
    rw [restore_is_load_partial env read fuel ty old [] rt _ s s' he hok hold
      (plain_fits ty _ _ hok (plain_first ty _ _ hp)).1 hd' hf']
    simp only [loadUnwrap, hl, Res.ok_bind, unwrap, hs, if_true]
    refine pasteNode_type env ty old o _ rt _ _ (fun h => ?_) (eager hk env ty o old hok hs ho hold)
    rcases hr' with h1 | h1
    · exact h1
    · exact (strict_object ty hok h h1).elim
  · rw [Bool.not_eq_true] at hs
    rw [restore_is_load_partial env read fuel ty old [] rt _ s s' he hok hold (fits_value ty _ hs) hd' hf']
    obtain ⟨v, h1, h2⟩ := stored_value ty o ho hs
    simp only [loadUnwrap, hl, Res.ok_bind, unwrap, hs, Bool.false_eq_true, if_false, inserted, h1, Norm.items,
      Norm.item, Item.contentL, Item.addTo, lookup, List.getElem?_cons_zero]
    exact (h2 nv hk).2 env old

end Srl.LoadObject
