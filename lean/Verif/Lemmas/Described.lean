import Verif.Lemmas.JsonObject
import Verif.Props.MsgPackObjectSpec

/-! Items that say what an object is, in any format: what is restored from them. -/

namespace Srl.Typed
open Doc

/-- The item is a value that is restored as the object. -/
def DescVal (env : Env) (ty : Ty) (old o : Obj) (i : Item) : Prop := ∃ n w, i = .val n w ∧ pasteVal env ty old w = .ok o

mutual
/-- What an item says about an object of a type that was `old` before -/
def Desc (env : Env) : Ty → Obj → Obj → Item → Prop
  | .bool, old, o, i => DescVal env .bool old o i
  | .int t, old, o, i => DescVal env (.int t) old o i
  | .float, old, o, i => DescVal env .float old o i
  | .double, old, o, i => DescVal env .double old o i
  | .str, old, o, i => DescVal env .str old o i
  | .bytes, old, o, i => DescVal env .bytes old o i
  | .vec e, _, o, i => ∃ xs n t kids, o = .many xs ∧ i = .scope n t kids ∧
      Pairwise2 (fun x y => Desc env e (dflt e) x y) xs kids
  | .arr k e, old, o, i => ∃ os xs n t kids, old = .many os ∧ o = .many xs ∧ i = .scope n t kids ∧ kids.length = k ∧
      xs.length = k ∧ os.length = k ∧ Pairwise2 (fun p y => Desc env e p.1 p.2 y) (os.zip xs) kids
  | .named e, _, o, i => ∃ xs n kids, o = .many xs ∧ i = .scope n .object kids ∧
      Pairwise2 (fun x y => ∃ z, x = .many [.str (itemName y), z] ∧ Desc env e (dflt e) z y) xs kids
  | .record .object _ fs, old, o, i => ∃ os xs n kids, old = .many os ∧ o = .many xs ∧ i = .scope n .object kids ∧
      (kids.map itemName).Nodup ∧ DescMembers env fs os xs kids
  | .record .array _ fs, old, o, i => ∃ os xs n t kids, old = .many os ∧ o = .many xs ∧ i = .scope n t kids ∧
      DescTuple env fs os xs kids
  | .ptr k e, old, o, i => (e.isScope = false ∧ DescVal env (.ptr k e) old o i) ∨
      (e.isScope = true ∧ ∃ x, o = .ref x ∧ Desc env e (dflt e) x i)
  | .sorted b c, _, o, i => ∃ x, Desc env c (dflt c) x i ∧ o = collect b x
def DescMembers (env : Env) : Fields → List Obj → List Obj → List Item → Prop
  | .nil, os, xs, _ => os = [] ∧ xs = []
  | .cons name opt ty rest, os, xs, kids => ∃ o os' x xs', os = o :: os' ∧ xs = x :: xs' ∧
      ((∃ i ∈ kids, itemName i = name ∧ Desc env ty o x i) ∨ (opt = true ∧ name ∉ kids.map itemName ∧ x = o)) ∧
      DescMembers env rest os' xs' kids
def DescTuple (env : Env) : Fields → List Obj → List Obj → List Item → Prop
  | .nil, os, xs, kids => os = [] ∧ xs = [] ∧ kids = []
  | .cons _ _ ty rest, os, xs, kids => ∃ o os' x xs' i kids', os = o :: os' ∧ xs = x :: xs' ∧ kids = i :: kids' ∧
      Desc env ty o x i ∧ DescTuple env rest os' xs' kids'
end

variable {env : Env}

theorem descVal_kind {ty : Ty} {old o : Obj} {i : Item} (h : DescVal env ty old o i) : itemScope i = false := by
  obtain ⟨n, w, rfl, -⟩ := h
  rfl

theorem desc_kind : ∀ (ty : Ty) (old o : Obj) (i : Item), Desc env ty old o i → itemScope i = ty.isScope
  | .bool, _, _, _, h => descVal_kind h
  | .int _, _, _, _, h => descVal_kind h
  | .float, _, _, _, h => descVal_kind h
  | .double, _, _, _, h => descVal_kind h
  | .str, _, _, _, h => descVal_kind h
  | .bytes, _, _, _, h => descVal_kind h
  | .vec _, _, _, _, h => by obtain ⟨_, _, _, _, -, rfl, -⟩ := h; rfl
  | .arr _ _, _, _, _, h => by obtain ⟨_, _, _, _, _, -, -, rfl, -⟩ := h; rfl
  | .named _, _, _, _, h => by obtain ⟨_, _, _, -, rfl, -⟩ := h; rfl
  | .record .object _ _, _, _, _, h => by obtain ⟨_, _, _, _, -, -, rfl, -⟩ := h; rfl
  | .record .array _ _, _, _, _, h => by obtain ⟨_, _, _, _, _, -, -, rfl, -⟩ := h; rfl
  | .ptr _ e, _, _, _, h => by
    rcases h with ⟨hs, h⟩ | ⟨hs, x, -, h⟩
    · exact (descVal_kind h).trans hs.symm
    · exact desc_kind e _ _ _ h
  | .sorted _ c, _, _, _, h => by
    obtain ⟨_, h, -⟩ := h
    exact desc_kind c _ _ _ h

theorem desc_val : ∀ (ty : Ty) (old o : Obj) (i : Item), ty.isScope = false → ty.Ok → Desc env ty old o i →
    DescVal env ty old o i
  | .bool, _, _, _, _, _, h => h
  | .int _, _, _, _, _, _, h => h
  | .float, _, _, _, _, _, h => h
  | .double, _, _, _, _, _, h => h
  | .str, _, _, _, _, _, h => h
  | .bytes, _, _, _, _, _, h => h
  | .ptr _ e, _, _, _, hs, _, h => by
    rcases h with ⟨-, h⟩ | ⟨hs', -⟩
    · exact h
    · rw [Ty.isScope, hs'] at hs; cases hs
  | .sorted b c, _, _, _, hs, hok, _ => by
    rw [Ty.isScope, (elems_dflt hok.2).2] at hs
    cases hs

/-! ### Lists -/

theorem Pairwise2.values {R : Obj → Item → Prop} {F : Bytes × Val → Res Obj}
    (hf : ∀ x i, R x i → ∃ n w, i = .val n w ∧ F (n, w) = .ok x) :
    ∀ {xs : List Obj} {is : List Item}, Pairwise2 R xs is → mapRes F (valuesOf is) = .ok xs
  | _, _, .nil => rfl
  | _, _, .cons x i xs is hr hrs => by
    obtain ⟨n, w, rfl, h⟩ := hf x i hr
    simp only [valuesOf, mapRes, h, hrs.values hf, Res.ok_bind]

theorem Pairwise2.nodes {R : Obj → Item → Prop} {F : Bytes × Node → Res Obj}
    (hf : ∀ x i, R x i → ∃ n t kids, i = .scope n t kids ∧ F (n, nodeOf t kids) = .ok x) :
    ∀ {xs : List Obj} {is : List Item}, Pairwise2 R xs is → mapRes F (nodesOf is) = .ok xs
  | _, _, .nil => rfl
  | _, _, .cons x i xs is hr hrs => by
    obtain ⟨n, t, kids, rfl, h⟩ := hf x i hr
    show mapRes F ((n, nodeOf t kids) :: nodesOf is) = _
    simp only [mapRes, h, hrs.nodes hf, Res.ok_bind]

theorem Pairwise2.values_zip {R : Obj × Obj → Item → Prop} {F : Obj → Bytes × Val → Res Obj}
    (hf : ∀ o x i, R (o, x) i → ∃ n w, i = .val n w ∧ F o (n, w) = .ok x) :
    ∀ {is : List Item} {os xs : List Obj}, os.length = is.length → xs.length = is.length →
    Pairwise2 R (os.zip xs) is → (valuesOf is).length = is.length ∧ zipRes F os (valuesOf is) = .ok xs
  | [], [], [], _, _, _ => ⟨rfl, rfl⟩
  | i :: is, o :: os, x :: xs, ho, hx, .cons _ _ _ _ hr hrs => by
    obtain ⟨h1, h2⟩ := hrs.values_zip hf (by simpa using ho) (by simpa using hx)
    obtain ⟨n, w, rfl, h⟩ := hf o x i hr
    exact ⟨by simp [valuesOf, h1], by simp only [valuesOf, zipRes, h, h2, Res.ok_bind]⟩

theorem Pairwise2.nodes_zip {R : Obj × Obj → Item → Prop} {F : Obj → Bytes × Node → Res Obj}
    (hf : ∀ o x i, R (o, x) i → ∃ n t kids, i = .scope n t kids ∧ F o (n, nodeOf t kids) = .ok x) :
    ∀ {is : List Item} {os xs : List Obj}, os.length = is.length → xs.length = is.length →
    Pairwise2 R (os.zip xs) is → (nodesOf is).length = is.length ∧ zipRes F os (nodesOf is) = .ok xs
  | [], [], [], _, _, _ => ⟨rfl, rfl⟩
  | i :: is, o :: os, x :: xs, ho, hx, .cons _ _ _ _ hr hrs => by
    obtain ⟨h1, h2⟩ := hrs.nodes_zip hf (by simpa using ho) (by simpa using hx)
    obtain ⟨n, t, kids, rfl, h⟩ := hf o x i hr
    refine ⟨by simp only [nodesOf, scopesOf, List.map_cons, List.length_cons] at h1 ⊢; rw [h1], ?_⟩
    show zipRes F (o :: os) ((n, nodeOf t kids) :: nodesOf is) = _
    simp only [zipRes, h, h2, Res.ok_bind]

theorem scope_of_kind : ∀ {i : Item}, itemScope i = true → ∃ n t kids, i = .scope n t kids
  | .val _ _, h => by cases h
  | .scope n t kids, _ => ⟨n, t, kids, rfl⟩

theorem absent_item {nm : Bytes} : ∀ {is : List Item}, nm ∉ is.map itemName →
    findName nm (valuesOf is) = none ∧ findName nm (nodesOf is) = none
  | [], _ => ⟨rfl, rfl⟩
  | .val n w :: is, h => by
    simp only [List.map_cons, List.mem_cons, not_or, itemName] at h
    have hne : (n == nm) = false := by simpa using Ne.symm h.1
    have ih := absent_item h.2
    exact ⟨by simp only [valuesOf, findName, hne, Bool.false_eq_true, if_false]; exact ih.1, ih.2⟩
  | .scope n t kids :: is, h => by
    simp only [List.map_cons, List.mem_cons, not_or, itemName] at h
    have hne : (n == nm) = false := by simpa using Ne.symm h.1
    have ih := absent_item h.2
    exact ⟨ih.1, by
      show findName nm ((n, _) :: nodesOf is) = none
      simp only [findName, hne, Bool.false_eq_true, if_false]; exact ih.2⟩

theorem found_value {nm : Bytes} {w : Val} : ∀ {is : List Item}, (is.map itemName).Nodup → Item.val nm w ∈ is →
    findName nm (valuesOf is) = some w
  | i :: is, hn, h => by
    simp only [List.map_cons, List.nodup_cons] at hn
    rcases List.mem_cons.mp h with rfl | h'
    · simp only [valuesOf, findName, beq_self_eq_true, if_true]
    · have ih := found_value hn.2 h'
      cases i with
      | val n v =>
        have hne : (n == nm) = false := by
          simp only [beq_eq_false_iff_ne]
          rintro rfl
          exact hn.1 (List.mem_map.mpr ⟨_, h', rfl⟩)
        simp only [valuesOf, findName, hne, Bool.false_eq_true, if_false]; exact ih
      | scope => exact ih

theorem found_node {nm : Bytes} {t : ScopeTy} {kids : List Item} : ∀ {is : List Item}, (is.map itemName).Nodup →
    Item.scope nm t kids ∈ is → findName nm (nodesOf is) = some (nodeOf t kids)
  | i :: is, hn, h => by
    simp only [List.map_cons, List.nodup_cons] at hn
    rcases List.mem_cons.mp h with rfl | h'
    · show findName nm ((nm, _) :: nodesOf is) = _
      simp only [findName, beq_self_eq_true, if_true]
    · have ih := found_node hn.2 h'
      cases i with
      | scope n v =>
        have hne : (n == nm) = false := by
          simp only [beq_eq_false_iff_ne]
          rintro rfl
          exact hn.1 (List.mem_map.mpr ⟨_, h', rfl⟩)
        show findName nm ((n, _) :: nodesOf is) = _
        simp only [findName, hne, Bool.false_eq_true, if_false]; exact ih
      | val => exact ih

theorem item_unique {i j : Item} : ∀ {is : List Item}, (is.map itemName).Nodup → i ∈ is → j ∈ is →
    itemName i = itemName j → i = j
  | z :: zs, hnd, hx, hy, h => by
    simp only [List.map_cons, List.nodup_cons] at hnd
    rcases List.mem_cons.mp hx with rfl | hx' <;> rcases List.mem_cons.mp hy with rfl | hy'
    · rfl
    · exact absurd (List.mem_map.mpr ⟨j, hy', h.symm⟩) hnd.1
    · exact absurd (List.mem_map.mpr ⟨i, hx', h⟩) hnd.1
    · exact item_unique hnd.2 hx' hy' h

/-! ### Objects restored from nodes -/

mutual
theorem node_desc : ∀ (ty : Ty) (old o : Obj) (n : Bytes) (t : ScopeTy) (kids : List Item), ty.Ok →
    Desc env ty old o (.scope n t kids) → pasteNode env ty old (nodeOf t kids) = .ok o
  | .bool, _, _, _, _, _, _, h => by cases descVal_kind h
  | .int _, _, _, _, _, _, _, h => by cases descVal_kind h
  | .float, _, _, _, _, _, _, h => by cases descVal_kind h
  | .double, _, _, _, _, _, _, h => by cases descVal_kind h
  | .str, _, _, _, _, _, _, h => by cases descVal_kind h
  | .bytes, _, _, _, _, _, _, h => by cases descVal_kind h
  | .vec e, old, o, n, t, kids, hok, h => by
    obtain ⟨xs, n', t', kids', rfl, hi, h⟩ := h
    cases hi
    rw [nodeOf, contentL_eq]
    simp only [pasteNode]
    cases hs : e.isScope with
    | true =>
      simp only [if_true]
      rw [h.nodes (F := fun p => pasteNode env e (dflt e) p.2) fun x i hr => by
        obtain ⟨n, t, kids, rfl⟩ := scope_of_kind ((desc_kind e _ _ _ hr).trans hs)
        exact ⟨n, t, kids, rfl, node_desc e _ _ n t kids hok hr⟩]
      rfl
    | false =>
      simp only [Bool.false_eq_true, if_false]
      rw [h.values (F := fun p => pasteVal env e (dflt e) p.2) fun x i hr => desc_val e _ _ _ hs hok hr]
      rfl
  | .named e, old, o, n, t, kids, hok, h => by
    obtain ⟨xs, n', kids', rfl, hi, h⟩ := h
    cases hi
    rw [nodeOf, contentL_eq]
    simp only [pasteNode]
    cases hs : e.isScope with
    | true =>
      simp only [if_true, ne_eq, not_true_eq_false, if_false]
      rw [h.nodes (F := fun p => do
          let y ← pasteNode env e (dflt e) p.2
          .ok (.many [.str p.1, y])) fun x i hr => by
        obtain ⟨z, rfl, hr⟩ := hr
        obtain ⟨n, t, kids, rfl⟩ := scope_of_kind ((desc_kind e _ _ _ hr).trans hs)
        exact ⟨n, t, kids, rfl, by simp only [node_desc e _ _ n t kids hok hr, Res.ok_bind]; rfl⟩]
      rfl
    | false =>
      simp only [ne_eq, not_true_eq_false, Bool.false_eq_true, if_false]
      rw [h.values (F := fun p => do
          let y ← pasteVal env e (dflt e) p.2
          .ok (.many [.str p.1, y])) fun x i hr => by
        obtain ⟨z, rfl, hr⟩ := hr
        obtain ⟨n, w, rfl, hw⟩ := desc_val e _ _ _ hs hok hr
        exact ⟨n, w, rfl, by simp only [hw, Res.ok_bind]; rfl⟩]
      rfl
  | .arr k e, old, o, n, t, kids, hok, h => by
    obtain ⟨os, xs, n', t', kids', rfl, rfl, hi, hk, hx, ho, h⟩ := h
    cases hi
    rw [nodeOf, contentL_eq]
    simp only [pasteNode]
    cases hs : e.isScope with
    | true =>
      simp only [if_true]
      obtain ⟨h0, h1⟩ := h.nodes_zip (F := fun o p => pasteNode env e o p.2) (fun o x i hr => by
        obtain ⟨n, t, kids, rfl⟩ := scope_of_kind ((desc_kind e _ _ _ hr).trans hs)
        exact ⟨n, t, kids, rfl, node_desc e _ _ n t kids hok hr⟩) (ho.trans hk.symm) (hx.trans hk.symm)
      rw [if_neg (by rw [h0, hk]; simp), h1]
      rfl
    | false =>
      simp only [Bool.false_eq_true, if_false]
      obtain ⟨h0, h1⟩ := h.values_zip (F := fun o p => pasteVal env e o p.2)
        (fun o x i hr => desc_val e _ _ _ hs hok hr) (ho.trans hk.symm) (hx.trans hk.symm)
      rw [if_neg (by rw [h0, hk]; simp), h1]
      rfl
  | .record .object st fs, old, o, n, t, kids, hok, h => by
    obtain ⟨os, xs, n', kids', rfl, rfl, hi, hnd, h⟩ := h
    cases hi
    have h0 : [] ∉ fs.names := by
      rcases hok.2 with ⟨-, h, -⟩ | ⟨h, -⟩
      · exact h
      · cases h
    rw [nodeOf, contentL_eq]
    simp only [pasteNode, ne_eq, not_true_eq_false, and_false, if_false]
    rw [members_desc fs os xs kids 0 0 hok.1 h0 h hnd]
    rfl
  | .record .array st fs, old, o, n, t, kids, hok, h => by
    obtain ⟨os, xs, n', t', kids', rfl, rfl, hi, h⟩ := h
    cases hi
    obtain ⟨hst, hp⟩ : st = false ∧ fs.Positional := by
      rcases hok.2 with ⟨h, -⟩ | ⟨-, h1, h2⟩
      · cases h
      · exact ⟨h1, h2⟩
    rw [nodeOf, contentL_eq]
    simp only [pasteNode, hst, Bool.false_eq_true, false_and, if_false]
    have h1 := tuple_desc fs os xs [] kids hok.1 hp h
    simp only [nodesOf, valuesOf, scopesOf, List.map_nil, List.length_nil, List.nil_append] at h1
    simp only [nodesOf]
    rw [h1]
    rfl
  | .ptr k e, old, o, n, t, kids, hok, h => by
    rcases h with ⟨-, h⟩ | ⟨-, x, rfl, h⟩
    · cases descVal_kind h
    · simp only [pasteNode, node_desc e _ _ n t kids hok h, Res.ok_bind]
  | .sorted b c, old, o, n, t, kids, hok, h => by
    obtain ⟨x, h, rfl⟩ := h
    simp only [pasteNode, node_desc c _ _ n t kids hok.1 h, Res.ok_bind]
theorem members_desc : ∀ (fs : Fields) (os xs : List Obj) (kids : List Item)
    (ni vi : Nat), fs.Ok → [] ∉ fs.names → DescMembers env fs os xs kids → (kids.map itemName).Nodup →
    pasteFields env fs os ni vi (valuesOf kids) (nodesOf kids) = .ok xs
  | .nil, os, xs, kids, ni, vi, _, _, h, _ => by
    obtain ⟨rfl, rfl⟩ := h
    rfl
  | .cons nm opt ty rest, os, xs, kids, ni, vi, hok, hn, h, hnd => by
    obtain ⟨o, os', x, xs', rfl, rfl, h, hr⟩ := h
    simp only [Fields.names, List.mem_cons, not_or] at hn
    have hsel : ∀ i, Sel.of nm i = .name nm := fun i => by simp only [Sel.of, if_neg (Ne.symm hn.1)]
    have ih := fun ni vi => members_desc rest os' xs' kids ni vi hok.2 hn.2 hr hnd
    simp only [pasteFields]
    rcases h with ⟨i, hm, rfl, h⟩ | ⟨rfl, hm, rfl⟩
    · cases hs : ty.isScope with
      | true =>
        obtain ⟨n, t, k, rfl⟩ := scope_of_kind ((desc_kind ty _ _ _ h).trans hs)
        have h3 := node_desc ty _ _ n t k hok.1 h
        have h1 := found_node hnd hm
        simp only [itemName] at hsel ⊢
        simp only [if_true, h1, hsel, lookup, Option.isNone_some, Bool.false_eq_true, and_false, if_false, Res.ok_bind,
            h3, ih]
      | false =>
        obtain ⟨n, w, rfl, h3⟩ := desc_val ty _ _ _ hs hok.1 h
        have h1 := found_value hnd hm
        simp only [itemName] at hsel ⊢
        simp only [h1, hsel, lookup, Option.isNone_some, Bool.false_eq_true, and_false, if_false, Res.ok_bind,
            h3, ih]
    · obtain ⟨h1, h2⟩ := absent_item hm
      cases ty.isScope <;>
        simp only [h1, h2, Option.isNone_none, and_self, if_true, Bool.false_eq_true, if_false, ih, Res.ok_bind]
theorem tuple_desc : ∀ (fs : Fields) (os xs : List Obj) (pre kids : List Item), fs.Ok →
    fs.Positional → DescTuple env fs os xs kids →
    pasteFields env fs os (nodesOf pre).length (valuesOf pre).length (valuesOf (pre ++ kids))
      (nodesOf (pre ++ kids)) = .ok xs
  | .nil, os, xs, pre, kids, _, _, h => by
    obtain ⟨rfl, rfl, rfl⟩ := h
    rfl
  | .cons nm opt ty rest, os, xs, pre, kids, hok, hp, h => by
    obtain ⟨o, os', x, xs', i, is, rfl, rfl, rfl, h, hr⟩ := h
    obtain ⟨rfl, rfl, hp⟩ := hp
    have h5 := tuple_desc rest os' xs' (pre ++ [i]) is hok.2 hp hr
    rw [List.append_assoc, List.singleton_append, nodesOf_append, valuesOf_append, List.length_append,
      List.length_append] at h5
    simp only [pasteFields, Bool.false_eq_true, false_and, if_false]
    cases hs : ty.isScope with
    | true =>
      obtain ⟨n, t, k, rfl⟩ := scope_of_kind ((desc_kind ty _ _ _ h).trans hs)
      have h3 := node_desc ty _ _ n t k hok.1 h
      have h1 : lookup (Sel.of [] (nodesOf pre).length) (nodesOf (pre ++ .scope n t k :: is)) = .ok (nodeOf t k) := by
        rw [nodesOf_append]
        simp [Sel.of, lookup, nodesOf, scopesOf]
      have h7 : (nodesOf [Item.scope n t k]).length = 1 := rfl
      have h8 : (valuesOf [Item.scope n t k]).length = 0 := rfl
      rw [h7, h8] at h5
      simp only [if_true]
      rw [h1, Res.ok_bind, h3, Res.ok_bind,
        show (valuesOf pre).length = (valuesOf pre).length + 0 from rfl, h5, Res.ok_bind]
    | false =>
      obtain ⟨n, w, rfl, h3⟩ := desc_val ty _ _ _ hs hok.1 h
      have h1 : lookup (Sel.of [] (valuesOf pre).length) (valuesOf (pre ++ .val n w :: is)) = .ok w := by
        rw [valuesOf_append]
        simp [Sel.of, lookup, valuesOf]
      have h7 : (nodesOf [Item.val n w]).length = 0 := rfl
      have h8 : (valuesOf [Item.val n w]).length = 1 := rfl
      rw [h7, h8] at h5
      simp only [Bool.false_eq_true, if_false]
      rw [h1, Res.ok_bind, h3, Res.ok_bind,
        show (nodesOf pre).length = (nodesOf pre).length + 0 from rfl, h5, Res.ok_bind]
end

/-! ### Documents for restoring while reading -/

theorem mem_scopesOf {x : Bytes × ScopeTy × List Item} : ∀ {is : List Item}, x ∈ scopesOf is →
    Item.scope x.1 x.2.1 x.2.2 ∈ is
  | [], h => by cases h
  | .val _ _ :: is, h => List.mem_cons_of_mem _ (mem_scopesOf (is := is) h)
  | .scope n t k :: is, h => by
    rcases List.mem_cons.mp h with rfl | h
    · exact List.mem_cons_self
    · exact List.mem_cons_of_mem _ (mem_scopesOf h)

theorem kinds_all {b : Bool} : ∀ {is : List Item}, (∀ i ∈ is, itemScope i = b) →
    (kindNames b is).length = is.length ∧ (b = false → scopesOf is = [])
  | [], _ => ⟨by cases b <;> rfl, fun _ => rfl⟩
  | i :: is, h => by
    obtain ⟨h1, h2⟩ := kinds_all (is := is) fun m hm => h m (List.mem_cons_of_mem _ hm)
    have hk := h _ List.mem_cons_self
    cases i with
    | val =>
      have hk : b = false := hk.symm
      subst hk
      exact ⟨by simpa [kindNames, valuesOf] using h1, h2⟩
    | scope =>
      have hk : b = true := hk.symm
      subst hk
      exact ⟨by simpa [kindNames, scopesOf] using h1, by simp⟩

theorem knownMember_name : ∀ {fs : Fields} {i : Item}, KnownMember fs i → itemName i ∈ fs.scopeNames
  | .nil, _, h => h.elim
  | .cons nm opt ty rest, i, h => by
    rcases h with ⟨h, hs, -⟩ | h
    · simp [Fields.scopeNames, hs, h]
    · have := knownMember_name h
      unfold Fields.scopeNames
      split
      · exact List.mem_cons_of_mem _ this
      · exact this

theorem descTuple_scopes : ∀ {fs : Fields} {os xs : List Obj} {kids : List Item}, DescTuple env fs os xs kids →
    (scopesOf kids).length = fs.scopeNames.length
  | .nil, os, xs, kids, h => by
    obtain ⟨rfl, rfl, rfl⟩ := h
    rfl
  | .cons nm opt ty rest, os, xs, kids, h => by
    obtain ⟨o, os', x, xs', i, is, rfl, rfl, rfl, h, hr⟩ := h
    have ih := descTuple_scopes hr
    have hk := desc_kind ty _ _ _ h
    unfold Fields.scopeNames
    rw [← hk]
    cases i with
    | val => exact ih
    | scope => simp [scopesOf, ih, itemScope]

mutual
theorem fits_desc : ∀ (ty : Ty) (old o : Obj) (n : Bytes) (t : ScopeTy) (kids : List Item), ty.Ok →
    Desc env ty old o (.scope n t kids) → KnownItem ty (.scope n t kids) → Fits ty kids ∧ Covered ty kids
  | .bool, _, _, _, _, _, _, _, _ => ⟨trivial, trivial⟩
  | .int _, _, _, _, _, _, _, _, _ => ⟨trivial, trivial⟩
  | .float, _, _, _, _, _, _, _, _ => ⟨trivial, trivial⟩
  | .double, _, _, _, _, _, _, _, _ => ⟨trivial, trivial⟩
  | .str, _, _, _, _, _, _, _, _ => ⟨trivial, trivial⟩
  | .bytes, _, _, _, _, _, _, _, _ => ⟨trivial, trivial⟩
  | .vec e, old, o, n, t, kids, hok, h, hk => by
    obtain ⟨xs, n', t', kids', rfl, hi, h⟩ := h
    cases hi
    refine ⟨fun _ x hx => ?_, trivial⟩
    have h1 := mem_scopesOf hx
    obtain ⟨z, -, hz⟩ := h.mem _ h1
    exact fits_desc e _ z _ _ _ hok hz (hk _ h1)
  | .named e, old, o, n, t, kids, hok, h, hk => by
    obtain ⟨xs, n', kids', rfl, hi, h⟩ := h
    cases hi
    refine ⟨fun _ x hx => ?_, trivial⟩
    have h1 := mem_scopesOf hx
    obtain ⟨z, -, y, -, hz⟩ := h.mem _ h1
    exact fits_desc e _ y _ _ _ hok hz (hk _ h1)
  | .arr k e, old, o, n, t, kids, hok, h, hk => by
    obtain ⟨os, xs, n', t', kids', rfl, rfl, hi, hl, hx, ho, h⟩ := h
    cases hi
    obtain ⟨hc, hn⟩ := kinds_all (is := kids) (b := e.isScope) fun m hm => by
      obtain ⟨z, -, hz⟩ := h.mem m hm
      exact desc_kind e _ _ _ hz
    rw [hl] at hc
    refine ⟨⟨hc, fun _ x hx => ?_⟩, ?_⟩
    · have h1 := mem_scopesOf hx
      obtain ⟨z, -, hz⟩ := h.mem _ h1
      exact fits_desc e _ _ _ _ _ hok hz (hk _ h1)
    · rintro pre n t kids post rfl
      cases hs : e.isScope with
      | true =>
        rw [hs, kindNames_append, List.length_append] at hc
        have : (kindNames true (Item.scope n t kids :: post)).length = (kindNames true post).length + 1 := by
          simp [kindNames, scopesOf]
        omega
      | false =>
        have := hn hs
        rw [scopesOf_append] at this
        simp [scopesOf] at this
  | .record .object st fs, old, o, n, t, kids, hok, h, hk => by
    obtain ⟨os, xs, n', kids', rfl, rfl, hi, hnd, h⟩ := h
    cases hi
    have hn : fs.Named := by
      rcases hok.2 with ⟨-, h⟩ | ⟨h, -⟩
      · exact h
      · cases h
    refine ⟨descMembers_fits fs 0 os xs kids hok.1 hn h hnd (fun i hm hs _ => hk i hm hs), ?_⟩
    rintro pre n t k post rfl
    refine wants_scopeName ?_ fs 0 0 hn.1 (knownMember_name (hk (.scope n t k) (by simp [kidsIn]) rfl))
    rw [List.map_append, List.nodup_append] at hnd
    intro hm
    exact hnd.2.2 n hm n (by simp [itemName]) rfl
  | .record .array st fs, old, o, n, t, kids, hok, h, hk => by
    obtain ⟨os, xs, n', t', kids', rfl, rfl, hi, h⟩ := h
    cases hi
    have hp : fs.Positional := by
      rcases hok.2 with ⟨h, -⟩ | ⟨-, -, h2⟩
      · cases h
      · exact h2
    have hl := descTuple_scopes h
    refine ⟨descTuple_fits fs os xs [] kids hok.1 hp h hk, ?_⟩
    rintro pre n t k post rfl
    refine wants_positional fs 0 0 hp ?_ (Nat.zero_le _)
    rw [scopesOf_append, List.length_append] at hl
    simp only [scopesOf, List.length_cons] at hl
    simp only [kindNames, if_true, List.length_map]
    omega
  | .ptr k e, old, o, n, t, kids, hok, h, hk => by
    rcases h with ⟨-, h⟩ | ⟨-, x, rfl, h⟩
    · cases descVal_kind h
    · exact fits_desc e _ _ _ _ _ hok h hk
  | .sorted b c, old, o, n, t, kids, hok, h, hk => by
    obtain ⟨x, h, -⟩ := h
    exact fits_desc c _ _ _ _ _ hok.1 h hk
theorem descMembers_fits : ∀ (fs : Fields) (ni : Nat) (os xs : List Obj) (kids : List Item),
    fs.Ok → fs.Named → DescMembers env fs os xs kids → (kids.map itemName).Nodup →
    (∀ i ∈ kids, itemScope i = true → itemName i ∈ fs.names → KnownMember fs i) → FitsL fs ni kids
  | .nil, _, _, _, _, _, _, _, _, _ => trivial
  | .cons nm opt ty rest, ni, os, xs, kids, hok, hn, h, hnd, hk => by
    obtain ⟨o, os', x, xs', rfl, rfl, h, hr⟩ := h
    obtain ⟨hn0, hn1⟩ := hn
    simp only [Fields.names, List.mem_cons, not_or] at hn0
    simp only [Fields.names, List.nodup_cons] at hn1
    refine ⟨fun hs z hz => ?_, fun _ hb => ?_, descMembers_fits rest _ os' xs' kids hok.2 ⟨hn0.2, hn1.2⟩ hr hnd
      (fun i hm hs hnm => ?_)⟩
    · obtain ⟨h1, h2⟩ := find_scope (Ne.symm hn0.1) hz
      have h3 := mem_scopesOf h1
      have hkn : KnownItem ty (.scope z.1 z.2.1 z.2.2) := by
        rcases hk _ h3 rfl (by rw [itemName, h2]; exact List.mem_cons_self) with ⟨-, -, h⟩ | h
        · exact h
        · have := scopeNames_names (knownMember_name h)
          rw [itemName, h2] at this
          exact absurd this hn1.1
      rcases h with ⟨i, hm, hi, h⟩ | ⟨-, hm, -⟩
      · rw [item_unique hnd hm h3 (hi.trans h2.symm)] at h
        exact fits_desc ty _ _ _ _ _ hok.1 h hkn
      · exact absurd (List.mem_map.mpr ⟨_, h3, h2⟩) hm
    · obtain ⟨x, hx, hx1, hx2⟩ := kindNames_mem hb.1
      obtain ⟨y, hy, hy1, hy2⟩ := kindNames_mem hb.2
      obtain rfl := item_unique hnd hx hy (hx1.trans hy1.symm)
      rw [hx2] at hy2
      cases hy2
    · rcases hk i hm hs (List.mem_cons_of_mem _ hnm) with ⟨rfl, -⟩ | h
      · exact absurd hnm hn1.1
      · exact h
theorem descTuple_fits : ∀ (fs : Fields) (os xs : List Obj) (pre kids : List Item), fs.Ok →
    fs.Positional → DescTuple env fs os xs kids → KnownItems fs kids →
    FitsL fs (scopesOf pre).length (pre ++ kids)
  | .nil, _, _, _, _, _, _, _, _ => trivial
  | .cons nm opt ty rest, os, xs, pre, kids, hok, hp, h, hk => by
    obtain ⟨o, os', x, xs', i, is, rfl, rfl, rfl, h, hr⟩ := h
    obtain ⟨rfl, rfl, hp⟩ := hp
    obtain ⟨hk1, hk2⟩ := hk i is rfl
    have hkind := desc_kind ty _ _ _ h
    have ih := descTuple_fits rest os' xs' (pre ++ [i]) is hok.2 hp hr hk2
    rw [List.append_assoc, List.singleton_append, scopesOf_append, List.length_append] at ih
    refine ⟨fun hs z hz => ?_, (fun hf => by cases hf), ?_⟩
    · unfold pick at hz
      rw [if_pos rfl, scopesOf_append] at hz
      obtain ⟨n, t, k, rfl⟩ := scope_of_kind (hkind.trans hs)
      simp [scopesOf] at hz
      subst hz
      exact fits_desc ty _ _ _ _ _ hok.1 h hk1
    · rw [← hkind]
      cases i with
      | val => exact ih
      | scope => exact ih
end

/-! ### Whole documents -/

variable {σ : Type}

/-- What a document says about an object is what is restored from it. -/
theorem desc_restored (env : Env) (read : σ → Res (Event × σ)) (fuel : Nat) (ty : Ty) (old o : Obj) (n : Bytes)
    (t : ScopeTy) (kids : List Item) (s s' : σ) (he : Emits read s (Item.scope n t kids).events s') (hok : ty.Ok)
    (hd : Item.depthL kids ≤ maxDepth) (hf : (Item.eventsL kids).length < fuel)
    (h : Desc env ty old o (.scope n t kids)) :
    loadUnwrap env read fuel ty old s = .ok o ∧
      (WT ty old → KnownItem ty (.scope n t kids) → Props.direct env read fuel ty old s = .ok o) := by
  have hs : ty.isScope = true := (desc_kind ty _ _ _ h).symm
  have hload := load_item read n t kids fuel _ _ he hf
  rw [if_pos hd] at hload
  have hun : loadUnwrap env read fuel ty old s = .ok o := by
    simp only [loadUnwrap, hload, Res.ok_bind, unwrap, hs, if_true, node_desc ty old o n t kids hok h]
  refine ⟨hun, fun hw hk => ?_⟩
  rw [Props.restore_is_load_partial env _ fuel ty old n t kids _ _ he hok hw
    (fits_desc ty old o n t kids hok h hk).1 hd hf, hun]

end Srl.Typed
