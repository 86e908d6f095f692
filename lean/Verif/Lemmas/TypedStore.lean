import Verif.Lemmas.TypedMain
import Verif.Lemmas.TypedOrder
import Verif.Lemmas.Norm
import Verif.Lemmas.FpUnwrap
import Verif.Props.Apply

/-! Restoring what has been stored. -/

namespace Srl.Typed
open Doc
variable {σ : Type}

/-- What a format may do to a value: integers may change their type, floating point numbers and binaries may become
anything that is restored as the same. -/
structure Keeps (nv : Val → Val) : Prop where
  bool : ∀ b, nv (.bool b) = .bool b
  null : nv .null = .null
  str : ∀ s, nv (.str s) = .str s
  int : ∀ (t : IntTy) (v : Int), t.lo ≤ v → v ≤ t.hi →
    ∃ t' : IntTy, nv (.int t v) = .int t' v ∧ t'.lo ≤ v ∧ v ≤ t'.hi
  float : ∀ f, Quiet f → nv (.fp32 f) ≠ .null ∧
    ∀ strtod, Apply.pasteFp strtod Apply.toFloat (nv (.fp32 f)) = .ok f
  widen : ∀ f, ∀ strtod, Apply.pasteFp strtod Apply.toDouble (nv (.fp32 f)) = .ok (Fp.widen f)
  double : ∀ d, nv (Fp.ofDouble d) ≠ .null ∧
    ∀ strtod, Apply.pasteFp strtod Apply.toDouble (nv (Fp.ofDouble d)) = .ok d
  bin : ∀ s, nv (.bin s) ≠ .null ∧ ∀ env old, pasteVal env .bytes old (nv (.bin s)) = .ok (.str s)

theorem int_paste (strtod : Bytes → Option UInt64) (t t' : IntTy) (v : Int) (h1 : t.lo ≤ v)
    (h2 : v ≤ t.hi) (h3 : t'.lo ≤ v) (h4 : v ≤ t'.hi) :
    Apply.paste strtod (.int t) (.int t' v) = .ok v := by
  have r : ∀ u : IntTy, Props.targetRange (.int u) = (u.lo, u.hi) := by
    intro u; cases u <;> decide +kernel
  rw [Props.int_unwrap_exact strtod (.int t) t' v (by rw [r]; exact h3) (by rw [r]; exact h4), r,
    if_pos ⟨h1, h2⟩]

/-- What a value is stored as, and that it is restored. -/
theorem stored_value : ∀ (ty : Ty) (o : Obj), Storable ty o → ty.isScope = false →
    ∃ v, (∀ nm, toItem nm ty o = .val nm v) ∧ ∀ nv, Keeps nv →
      (o.isNull = false → nv v ≠ .null) ∧ ∀ env old, pasteVal env ty old (nv v) = .ok o
  | .bool, o => by
    intro h _
    cases o with
    | bool b =>
      refine ⟨.bool b, fun _ => by simp only [toItem], fun nv k => ?_⟩
      rw [k.bool]
      refine ⟨by simp, fun env old => ?_⟩
      simp only [pasteVal, Props.bool_unwrap_exact, Res.ok_bind]
      cases b <;> rfl
    | _ => simp [Storable] at h
  | .int t, o => by
    intro h _
    cases o with
    | int v =>
      simp only [Storable] at h
      refine ⟨.int t v, fun _ => by simp only [toItem], fun nv k => ?_⟩
      obtain ⟨t', e, h3, h4⟩ := k.int t v h.1 h.2
      rw [e]
      refine ⟨by simp, fun env old => ?_⟩
      simp only [pasteVal, int_paste env.strtod t t' v h.1 h.2 h3 h4, Res.ok_bind]
    | _ => simp [Storable] at h
  | .float, o => by
    intro h _
    cases o with
    | float f =>
      simp only [Storable] at h
      refine ⟨.fp32 f, fun _ => by simp only [toItem], fun nv k => ⟨fun _ => (k.float f h).1, fun env old => ?_⟩⟩
      simp only [pasteVal, (k.float f h).2, Res.ok_bind]
    | _ => simp [Storable] at h
  | .double, o => by
    intro h _
    cases o with
    | double d =>
      refine ⟨Fp.ofDouble d, fun _ => by simp only [toItem],
        fun nv k => ⟨fun _ => (k.double d).1, fun env old => ?_⟩⟩
      simp only [pasteVal, (k.double d).2, Res.ok_bind]
    | _ => simp [Storable] at h
  | .str, o => by
    intro h _
    cases o with
    | str s =>
      refine ⟨.str s, fun _ => by simp only [toItem], fun nv k => ?_⟩
      rw [k.str]
      exact ⟨by simp, fun env old => by simp [pasteVal]⟩
    | _ => simp [Storable] at h
  | .bytes, o => by
    intro h _
    cases o with
    | str s =>
      exact ⟨.bin s, fun _ => by simp only [toItem], fun nv k => ⟨fun _ => (k.bin s).1, (k.bin s).2⟩⟩
    | _ => simp [Storable] at h
  | .vec e, _ => by intro _ h; cases h
  | .named e, _ => by intro _ h; cases h
  | .arr k e, _ => by intro _ h; cases h
  | .record _ _ _, _ => by intro _ h; cases h
  | .sorted b c, o => by
    intro h hs
    simp only [Storable] at h
    rw [Ty.isScope, h.1] at hs
    cases hs
  | .ptr k e, o => by
    intro h hs
    cases o with
    | null =>
      simp only [Storable] at h
      refine ⟨.null, fun _ => by simp only [toItem], fun nv kp => ?_⟩
      rw [kp.null]
      exact ⟨by simp [Obj.isNull], fun env old => by simp [pasteVal, h.1]⟩
    | ref o =>
      simp only [Storable] at h
      obtain ⟨v, h1, h2⟩ := stored_value e o h.1 hs
      refine ⟨v, fun nm => by simp only [toItem, h1], fun nv kp => ⟨fun hn => ?_, fun env old => ?_⟩⟩
      · exact (h2 nv kp).1 hn
      · simp only [pasteVal]
        rw [if_neg, (h2 nv kp).2]
        · rfl
        · rintro ⟨hk, hv⟩
          exact (h2 nv kp).1 (h.2 hk) hv
    | _ => simp [Storable] at h

/-- The content of the scope an object is stored as. -/
def kidsOf (ty : Ty) (o : Obj) : List Item :=
  match toItem [] ty o with
  | .scope _ _ kids => kids
  | .val _ _ => []

theorem stored_scope : ∀ (ty : Ty) (o : Obj), Storable ty o → ty.isScope = true →
    ∀ nm, toItem nm ty o = .scope nm ty.scopeTy (kidsOf ty o)
  | .bool, _ => by intro _ h; cases h
  | .int _, _ => by intro _ h; cases h
  | .float, _ => by intro _ h; cases h
  | .double, _ => by intro _ h; cases h
  | .str, _ => by intro _ h; cases h
  | .bytes, _ => by intro _ h; cases h
  | .sorted b c, o => by
    intro h hs nm
    simp only [Storable] at h
    have e1 : kidsOf (.sorted b c) o = kidsOf c o := by unfold kidsOf; rw [toItem]
    rw [toItem, stored_scope c o h.2.1 h.1 nm, e1, Ty.scopeTy]
  | .vec e, o => by
    intro h _ nm
    cases o with
    | many xs => simp only [kidsOf, toItem, Ty.scopeTy]
    | _ => simp [Storable] at h
  | .named e, o => by
    intro h _ nm
    cases o with
    | many xs => simp only [kidsOf, toItem, Ty.scopeTy]
    | _ => simp [Storable] at h
  | .arr k e, o => by
    intro h _ nm
    cases o with
    | many xs => simp only [kidsOf, toItem, Ty.scopeTy]
    | _ => simp [Storable] at h
  | .record t st fs, o => by
    intro h _ nm
    cases o with
    | many xs => simp only [kidsOf, toItem, Ty.scopeTy]
    | _ => simp [Storable] at h
  | .ptr k e, o => by
    intro h hs nm
    cases o with
    | null =>
      simp only [Storable] at h
      simp only [Ty.isScope, h.2] at hs
      cases hs
    | ref o =>
      simp only [Storable] at h
      have e1 : kidsOf (.ptr k e) (.ref o) = kidsOf e o := by unfold kidsOf; rw [toItem]
      rw [toItem, stored_scope e o h.1 hs nm, e1, Ty.scopeTy]
    | _ => simp [Storable] at h

/-- The content of the scope after a pass through a format. -/
abbrev kidsN (nv : Val → Val) (ty : Ty) (o : Obj) : List Item :=
  Norm.items nv (ty.scopeTy == .object) (kidsOf ty o)

theorem norm_scope (nv : Val → Val) {ty : Ty} {o : Obj} (h : Storable ty o) (hs : ty.isScope = true)
    (named : Bool) (nm : Bytes) : Norm.item nv named (toItem nm ty o)
      = .scope (if named then nm else []) ty.scopeTy (kidsN nv ty o) := by
  rw [stored_scope ty o h hs]; simp only [Norm.item]

theorem storable_wt : ∀ (ty : Ty) (o : Obj), Storable ty o → WT ty o := by
  intro ty
  refine Ty.rec (motive_1 := fun ty => ∀ o, Storable ty o → WT ty o)
    (motive_2 := fun fs => ∀ xs, StorableL fs xs → WTL fs xs) ?_ ?_ ?_ ?_ ?_ ?_ ?_ ?_ ?_ ?_ ?_ ?_ ?_ ?_ ty
  · intro o h; cases o <;> simp [Storable, WT] at *
  · intro t o h; cases o <;> simp [Storable, WT] at *; exact h
  · intro o h; cases o <;> simp [Storable, WT] at *
  · intro o h; cases o <;> simp [Storable, WT] at *
  · intro o h; cases o <;> simp [Storable, WT] at *
  · intro o h; cases o <;> simp [Storable, WT] at *
  · intro e ih o h
    cases o <;> simp only [Storable, WT] at *
    exact fun x hx => ih x (h x hx)
  · intro e ih o h
    cases o <;> simp only [Storable, WT] at *
    intro x hx
    obtain ⟨k, y, rfl, h⟩ := h x hx
    exact ⟨k, y, rfl, ih y h⟩
  · intro k e ih o h
    cases o <;> simp only [Storable, WT] at *
    exact ⟨h.1, fun x hx => ih x (h.2 x hx)⟩
  · intro t st fs ih o h
    cases o <;> simp only [Storable, WT] at *
    exact ih _ h
  · intro k e ih o h
    cases o <;> simp only [Storable, WT] at *
    exact ih _ h.1
  · intro b c ih o h
    simp only [Storable, WT] at *
    exact ih _ h.2.1
  · intro xs h
    cases xs <;> simp only [StorableL, WTL] at *
  · intro nm opt ty rest ih1 ih2 xs h
    cases xs <;> simp only [StorableL, WTL] at *
    exact ⟨ih1 _ h.1, ih2 _ h.2.2⟩

/-! ## From a node -/

/-- The items of the elements of a sequence or table, given their names and the objects stored under them -/
abbrev seqItems (e : Ty) (nm : Obj → Bytes) (ob : Obj → Obj) (xs : List Obj) : List Item :=
  xs.map fun x => toItem (nm x) e (ob x)

theorem mapRes_nodes {nv : Val → Val} {e : Ty} (hs : e.isScope = true) (named : Bool) (nm : Obj → Bytes)
    (ob : Obj → Obj) (g : Bytes × Node → Res Obj) :
    ∀ (xs : List Obj), (∀ x ∈ xs, Storable e (ob x)) →
      (∀ x ∈ xs, g (if named then nm x else [], nodeOf e.scopeTy (kidsN nv e (ob x))) = .ok x) →
      mapRes g (nodesOf (Norm.items nv named (seqItems e nm ob xs))) = .ok xs
  | [], _, _ => rfl
  | x :: xs, h1, h2 => by
    simp only [List.map_cons, Norm.items, norm_scope nv (h1 x (by simp)) hs, nodesOf_scope, mapRes]
    rw [h2 x (by simp), mapRes_nodes hs named nm ob g xs (fun y hy => h1 y (by simp [hy]))
      (fun y hy => h2 y (by simp [hy]))]
    rfl

theorem mapRes_values {nv : Val → Val} (hk : Keeps nv) {e : Ty} (hs : e.isScope = false) (env : Env)
    (old : Obj) (named : Bool) (nm : Obj → Bytes) (ob : Obj → Obj) (g : Bytes × Val → Res Obj) :
    ∀ (xs : List Obj), (∀ x ∈ xs, Storable e (ob x)) →
      (∀ x ∈ xs, ∀ v, pasteVal env e old v = .ok (ob x) → g (if named then nm x else [], v) = .ok x) →
      mapRes g (valuesOf (Norm.items nv named (seqItems e nm ob xs))) = .ok xs
  | [], _, _ => rfl
  | x :: xs, h1, h => by
    obtain ⟨v, h2, h3⟩ := stored_value e (ob x) (h1 x (by simp)) hs
    simp only [List.map_cons, Norm.items, h2, Norm.item, valuesOf, mapRes,
      h x (by simp) _ ((h3 nv hk).2 env old)]
    rw [mapRes_values hk hs env old named nm ob g xs (fun y hy => h1 y (by simp [hy]))
      (fun y hy => h y (by simp [hy]))]
    rfl

theorem zipRes_nodes {nv : Val → Val} {e : Ty} (hs : e.isScope = true) (g : Obj → Node → Res Obj) :
    ∀ (os xs : List Obj), os.length = xs.length → (∀ x ∈ xs, Storable e x) →
      (∀ o ∈ os, ∀ x ∈ xs, g o (nodeOf e.scopeTy (kidsN nv e x)) = .ok x) →
      zipRes (fun o p => g o p.2) os
        (nodesOf (Norm.items nv false (xs.map (fun x => toItem [] e x)))) = .ok xs
  | [], [], _, _, _ => rfl
  | [], _ :: _, h, _, _ => by simp at h
  | _ :: _, [], h, _, _ => by simp at h
  | o :: os, x :: xs, h, h1, h2 => by
    simp only [List.map_cons, Norm.items, norm_scope nv (h1 x (by simp)) hs, nodesOf_scope, zipRes]
    rw [h2 o (by simp) x (by simp), zipRes_nodes hs g os xs (by simpa using h)
      (fun y hy => h1 y (by simp [hy])) (fun o' ho y hy => h2 o' (by simp [ho]) y (by simp [hy]))]
    rfl

theorem zipRes_values {nv : Val → Val} (hk : Keeps nv) {e : Ty} (hs : e.isScope = false) (env : Env) :
    ∀ (os xs : List Obj), os.length = xs.length → (∀ x ∈ xs, Storable e x) →
      zipRes (fun o p => pasteVal env e o p.2) os
        (valuesOf (Norm.items nv false (xs.map (fun x => toItem [] e x)))) = .ok xs
  | [], [], _, _ => rfl
  | [], _ :: _, h, _ => by simp at h
  | _ :: _, [], h, _ => by simp at h
  | o :: os, x :: xs, h, h1 => by
    obtain ⟨v, h2, h3⟩ := stored_value e x (h1 x (by simp)) hs
    simp only [List.map_cons, Norm.items, h2, Norm.item, valuesOf, zipRes, (h3 nv hk).2]
    rw [zipRes_values hk hs env os xs (by simpa using h) (fun y hy => h1 y (by simp [hy]))]
    rfl

theorem length_values {nv : Val → Val} {e : Ty} (hs : e.isScope = false) :
    ∀ (xs : List Obj), (∀ x ∈ xs, Storable e x) →
      (valuesOf (Norm.items nv false (xs.map (fun x => toItem [] e x)))).length = xs.length
  | [], _ => rfl
  | x :: xs, h1 => by
    obtain ⟨v, h2, h3⟩ := stored_value e x (h1 x (by simp)) hs
    simp only [List.map_cons, Norm.items, h2, Norm.item, valuesOf, List.length_cons]
    rw [length_values hs xs (fun y hy => h1 y (by simp [hy]))]

theorem length_nodes {nv : Val → Val} {e : Ty} (hs : e.isScope = true) :
    ∀ (xs : List Obj), (∀ x ∈ xs, Storable e x) →
      (nodesOf (Norm.items nv false (xs.map (fun x => toItem [] e x)))).length = xs.length
  | [], _ => rfl
  | x :: xs, h1 => by
    simp only [List.map_cons, Norm.items, norm_scope nv (h1 x (by simp)) hs, nodesOf_scope,
      List.length_cons]
    rw [length_nodes hs xs (fun y hy => h1 y (by simp [hy]))]

/-- How fields are named in a scope: by their names, or not at all. -/
def Mode (named : Bool) (fs : Fields) : Prop :=
  (named = true ∧ [] ∉ fs.names) ∨ (named = false ∧ fs.Positional)

theorem Mode.tail {named : Bool} {nm : Bytes} {opt : Bool} {ty : Ty} {fs : Fields}
    (h : Mode named (.cons nm opt ty fs)) : Mode named fs := by
  rcases h with ⟨h1, h2⟩ | ⟨h1, h2⟩
  · exact .inl ⟨h1, fun hm => h2 (by simp [Fields.names, hm])⟩
  · exact .inr ⟨h1, h2.2.2⟩

theorem lookup_field {α : Type} {named : Bool} {nm : Bytes} (pre post : List (Bytes × α)) (x : α)
    (h : (named = true ∧ nm ≠ [] ∧ ∀ p ∈ pre, p.1 ≠ nm) ∨ (named = false ∧ nm = [])) :
    lookup (.of nm pre.length) (pre ++ (if named then nm else [], x) :: post) = .ok x := by
  rcases h with ⟨h1, h2, h3⟩ | ⟨h1, h2⟩
  · rw [sel_name h2, lookup_name, findName_append, findName_none h3]
    simp [findName, h1]
  · subst h2
    simp [Sel.of, lookup]

theorem findName_field {α : Type} {nm : Bytes} (pre post : List (Bytes × α)) (x : α) :
    (findName nm (pre ++ (nm, x) :: post)).isNone = false := by
  rw [← Option.not_isSome, Bool.not_eq_false', findName_isSome]
  simp

theorem mem_valuesOf {p : Bytes × Val} {items : List Item} (h : p ∈ valuesOf items) :
    Item.val p.1 p.2 ∈ items := by
  induction items with
  | nil => cases h
  | cons i is ih =>
    cases i with
    | val n v =>
      simp only [valuesOf, List.mem_cons] at h ⊢
      rcases h with rfl | h
      · exact .inl rfl
      · exact .inr (ih h)
    | scope n t kids => exact List.mem_cons_of_mem _ (ih h)

theorem mem_nodesOf {p : Bytes × Node} {items : List Item} (h : p ∈ nodesOf items) :
    ∃ t kids, Item.scope p.1 t kids ∈ items := by
  induction items with
  | nil => cases h
  | cons i is ih =>
    cases i with
    | val n v =>
      obtain ⟨t, kids, h⟩ := ih h
      exact ⟨t, kids, List.mem_cons_of_mem _ h⟩
    | scope n t kids =>
      rw [nodesOf_scope, List.mem_cons] at h
      rcases h with rfl | h
      · exact ⟨t, kids, List.mem_cons_self⟩
      · obtain ⟨t, kids, h⟩ := ih h
        exact ⟨t, kids, List.mem_cons_of_mem _ h⟩

theorem valuesOf_val (n : Bytes) (v : Val) (is : List Item) :
    valuesOf (.val n v :: is) = (n, v) :: valuesOf is := rfl

mutual
/-- A node that holds what was stored gives the object. -/
theorem eager {nv : Val → Val} (hk : Keeps nv) (env : Env) : ∀ (ty : Ty) (o old : Obj), ty.Ok →
    ty.isScope = true → Storable ty o → WT ty old →
    pasteNode env ty old (nodeOf ty.scopeTy (kidsN nv ty o)) = .ok o
  | .bool, _, _ => by intro _ h; cases h
  | .int _, _, _ => by intro _ h; cases h
  | .float, _, _ => by intro _ h; cases h
  | .double, _, _ => by intro _ h; cases h
  | .str, _, _ => by intro _ h; cases h
  | .bytes, _, _ => by intro _ h; cases h
  | .sorted b c, o, old => by
    intro hok hs hst _
    simp only [Storable] at hst
    have := eager hk env c o (dflt c) hok.1 hst.1 hst.2.1 (dflt_wt c)
    simp only [pasteNode, Ty.scopeTy, kidsN, kidsOf, toItem] at this ⊢
    rw [this]
    simp only [Res.ok_bind, collect_same hok.2 (storable_wt c o hst.2.1) hst.2.2]
  | .vec e, o, old => by
    intro hok _ hst _
    cases o with
    | many xs =>
      simp only [Storable] at hst
      simp only [pasteNode, contentL_eq, kidsN, kidsOf, toItem, Ty.scopeTy]
      rw [show (ScopeTy.array == ScopeTy.object) = false from rfl]
      by_cases hs : e.isScope = true
      · rw [if_pos hs, mapRes_nodes hs false (fun _ => []) (fun x => x) (fun p => pasteNode env e (dflt e) p.2)
          xs hst (fun x hx => eager hk env e x (dflt e) hok hs (hst x hx) (dflt_wt e))]
        rfl
      · rw [if_neg hs, mapRes_values hk (by simpa using hs) env (dflt e) false (fun _ => []) (fun x => x)
          (fun p => pasteVal env e (dflt e) p.2) xs hst (fun x _ v h => h)]
        rfl
    | _ => simp [Storable] at hst
  | .named e, o, old => by
    intro hok _ hst _
    cases o with
    | many xs =>
      simp only [Storable] at hst
      simp only [pasteNode, contentL_eq, kidsN, kidsOf, toItem, Ty.scopeTy]
      rw [show (ScopeTy.object == ScopeTy.object) = true from rfl, if_neg (by simp)]
      have hst' : ∀ x ∈ xs, Storable e (entry x).2 := fun x hx => by
        obtain ⟨k, y, rfl, h⟩ := hst x hx
        exact h
      by_cases hs : e.isScope = true
      · rw [if_pos hs, mapRes_nodes hs true (fun x => (entry x).1) (fun x => (entry x).2) _ xs hst'
          (fun x hx => by
            simp only [eager hk env e (entry x).2 (dflt e) hok hs (hst' x hx) (dflt_wt e), Res.ok_bind]
            obtain ⟨k, y, rfl, h⟩ := hst x hx
            rfl)]
        rfl
      · rw [if_neg hs, mapRes_values hk (by simpa using hs) env (dflt e) true (fun x => (entry x).1)
          (fun x => (entry x).2) _ xs hst' (fun x hx v h => by
            simp only [h, Res.ok_bind]
            obtain ⟨k, y, rfl, h⟩ := hst x hx
            rfl)]
        rfl
    | _ => simp [Storable] at hst
  | .arr k e, o, old => by
    intro hok _ hst hwt
    cases o with
    | many xs =>
      cases old with
      | many os =>
        simp only [Storable] at hst
        simp only [WT] at hwt
        simp only [pasteNode, contentL_eq, kidsN, kidsOf, toItem, Ty.scopeTy]
        rw [show (ScopeTy.array == ScopeTy.object) = false from rfl]
        by_cases hs : e.isScope = true
        · rw [if_pos hs, length_nodes hs xs hst.2, if_neg (by simp [hst.1]),
            zipRes_nodes hs (pasteNode env e) os xs (by rw [hwt.1, hst.1]) hst.2
            (fun o ho x hx => eager hk env e x o hok hs (hst.2 x hx) (hwt.2 o ho))]
          rfl
        · have hs' : e.isScope = false := by simpa using hs
          rw [if_neg hs, length_values hs' xs hst.2, if_neg (by simp [hst.1]),
            zipRes_values hk hs' env os xs (by rw [hwt.1, hst.1]) hst.2]
          rfl
      | _ => simp [WT] at hwt
    | _ => simp [Storable] at hst
  | .record t st fs, o, old => by
    intro hok _ hst hwt
    cases o with
    | many xs =>
      cases old with
      | many os =>
        simp only [Storable] at hst
        simp only [WT] at hwt
        simp only [Ty.Ok] at hok
        simp only [pasteNode, contentL_eq, kidsN, kidsOf, toItem, Ty.scopeTy]
        obtain ⟨hfo, hm⟩ := hok
        rw [if_neg (by
          rcases hm with ⟨h, -⟩ | ⟨-, h, -⟩
          · simp [h]
          · simp [h])]
        have := eager_fields hk env fs xs os [] (t == .object) hfo hst hwt (by
          rcases hm with ⟨rfl, h, -⟩ | ⟨rfl, -, h⟩
          · exact .inl ⟨rfl, h⟩
          · exact .inr ⟨rfl, h⟩) (by
          intro hn
          rcases hm with ⟨rfl, -, h⟩ | ⟨rfl, -, h⟩
          · exact ⟨h, by simp⟩
          · cases hn)
        simp only [List.nil_append, valuesOf, scopesOf, List.length_nil] at this
        rw [this]
        rfl
      | _ => simp [WT] at hwt
    | _ => simp [Storable] at hst
  | .ptr k e, o, old => by
    intro hok hs hst _
    cases o with
    | null =>
      simp only [Storable] at hst
      simp only [Ty.isScope, hst.2] at hs
      cases hs
    | ref o =>
      simp only [Storable] at hst
      have := eager hk env e o (dflt e) hok hs hst.1 (dflt_wt e)
      simp only [pasteNode, Ty.scopeTy, kidsN, kidsOf, toItem] at this ⊢
      rw [this]
      rfl
    | _ => simp [Storable] at hst
theorem eager_fields {nv : Val → Val} (hk : Keeps nv) (env : Env) : ∀ (fs : Fields)
    (xs os : List Obj) (pre : List Item) (named : Bool), fs.Ok → StorableL fs xs → WTL fs os →
    Mode named fs → (named = true → fs.names.Nodup ∧ ∀ i ∈ pre, itemName i ∉ fs.names) →
    pasteFields env fs os (scopesOf pre).length (valuesOf pre).length
      (valuesOf (pre ++ Norm.items nv named (fieldItems fs xs)))
      (nodesOf (pre ++ Norm.items nv named (fieldItems fs xs))) = .ok xs
  | .nil, xs, os, pre, named => by
    intro _ hst _ _ _
    cases xs with
    | nil => simp only [pasteFields]
    | cons x xs => simp [StorableL] at hst
  | .cons nm opt ty rest, xs, os, pre, named => by
    intro hok hst hwt hmode hn
    cases xs with
    | nil => simp [StorableL] at hst
    | cons x xs =>
    cases os with
    | nil => simp [WTL] at hwt
    | cons o os =>
    simp only [StorableL] at hst
    simp only [WTL] at hwt
    simp only [Fields.Ok] at hok
    have hopt : opt = true → named = true := by
      intro ho
      rcases hmode with ⟨h, -⟩ | ⟨-, -, h, -⟩
      · exact h
      · rw [ho] at h; cases h
    have hrest : ∀ i : Item, itemName i = (if named then nm else []) → named = true →
        rest.names.Nodup ∧ ∀ j ∈ pre ++ [i], itemName j ∉ rest.names := by
      intro i hi hn'
      obtain ⟨h1, h2⟩ := hn hn'
      simp only [Fields.names, List.nodup_cons] at h1
      refine ⟨h1.2, fun j hj => ?_⟩
      rcases List.mem_append.mp hj with hj | hj
      · exact fun hm => h2 j hj (by simp [Fields.names, hm])
      · simp only [List.mem_singleton] at hj
        rw [hj, hi, if_pos hn']
        exact h1.1
    have hlook : ∀ {α : Type} (p : List (Bytes × α)), (∀ q ∈ p, ∃ i ∈ pre, itemName i = q.1) →
        (named = true ∧ nm ≠ [] ∧ ∀ q ∈ p, q.1 ≠ nm) ∨ (named = false ∧ nm = []) := by
      intro α p hp
      rcases hmode with ⟨h1, h2⟩ | ⟨h1, h2⟩
      · refine .inl ⟨h1, fun h => h2 (by simp [Fields.names, h]), fun q hq hqn => ?_⟩
        obtain ⟨i, hi, he⟩ := hp q hq
        exact (hn h1).2 i hi (by simp [Fields.names, he, hqn])
      · exact .inr ⟨h1, h2.1⟩
    simp only [pasteFields, fieldItems, Norm.items]
    by_cases hs : ty.isScope = true
    · rw [if_pos hs, norm_scope nv hst.1 hs]
      have hl := hlook (nodesOf pre) (fun q hq => by
        obtain ⟨t, kids, h⟩ := mem_nodesOf hq
        exact ⟨_, h, rfl⟩)
      have ih := eager_fields hk env rest xs os
        (pre ++ [.scope (if named then nm else []) ty.scopeTy (kidsN nv ty x)]) named hok.2 hst.2.2
        hwt.2 hmode.tail (hrest _ rfl)
      rw [scopesOf_append, valuesOf_append] at ih
      simp only [scopesOf, valuesOf, List.length_append, List.length_singleton, List.append_nil,
        List.append_assoc, List.singleton_append] at ih
      rw [nodesOf_append, nodesOf_scope]
      rw [if_neg (c := opt = true ∧ _) (by
        rintro ⟨g1, g2⟩
        rw [hopt g1, if_pos rfl, findName_field] at g2
        cases g2)]
      rw [← nodesOf_length, lookup_field _ _ _ hl, Res.ok_bind,
        eager hk env ty x o hok.1 hs hst.1 hwt.1, Res.ok_bind]
      rw [nodesOf_append, nodesOf_scope, ← nodesOf_length] at ih
      rw [ih]
      rfl
    · have hs' : ty.isScope = false := by simpa using hs
      obtain ⟨v, h2, h3⟩ := stored_value ty x hst.1 hs'
      rw [if_neg hs, h2, Norm.item]
      have hl := hlook (valuesOf pre) (fun q hq => ⟨_, mem_valuesOf hq, rfl⟩)
      have ih := eager_fields hk env rest xs os
        (pre ++ [.val (if named then nm else []) (nv v)]) named hok.2 hst.2.2
        hwt.2 hmode.tail (hrest _ rfl)
      rw [scopesOf_append, valuesOf_append] at ih
      simp only [scopesOf, valuesOf, List.length_append, List.length_singleton, List.append_nil,
        List.append_assoc, List.singleton_append] at ih
      rw [valuesOf_append, valuesOf_val]
      have hc : ¬ (opt = true ∧ (findName nm (valuesOf pre ++ (if named = true then nm else [], nv v) ::
          valuesOf (Norm.items nv named (fieldItems rest xs)))).isNone = true) := by
        rintro ⟨g1, g2⟩
        rw [hopt g1, if_pos rfl, findName_field] at g2
        cases g2
      rw [if_neg hc]
      rw [lookup_field _ _ _ hl, Res.ok_bind, (h3 nv hk).2, Res.ok_bind]
      rw [valuesOf_append] at ih
      simp only [valuesOf] at ih
      rw [ih]
      rfl
end

/-! ## While reading -/

theorem takeOut_nil {α : Type} (sel : Sel) : takeOut sel ([] : List (Bytes × α)) = none := by
  cases sel <;> rfl

theorem consumeNode_first {read : σ → Res (Event × σ)} {fuel : Nat} {sel : Sel} {t t' : ScopeTy}
    {nm : Bytes} {kids post : List Item} {s s' : σ} (hf : 0 < fuel) (hh : sel.hits nm = true)
    (he : Left read (.scope nm t' kids :: post) s s') :
    ∃ s1 s2, consumeNode read fuel sel (.fresh t) s = .ok (some (nm, .fresh t'), .fresh t, s1) ∧
      Left read kids s1 s2 ∧ Left read post s2 s' := by
  obtain ⟨s1, s2, h1, h2, h3⟩ := emits_scope he
  obtain ⟨k, rfl⟩ : ∃ k, fuel = k + 1 := ⟨fuel - 1, by omega⟩
  refine ⟨s1, s2, ?_, h2, h3⟩
  simp [consumeNode, LNode.fresh, takeOut_nil, seekNode, h1, hh]

theorem consumeValue_first {read : σ → Res (Event × σ)} {fuel : Nat} {sel : Sel} {t : ScopeTy}
    {nm : Bytes} {v : Val} {post : List Item} {s s' : σ} (hf : 0 < fuel) (hh : sel.hits nm = true)
    (he : Left read (.val nm v :: post) s s') :
    ∃ s1, consumeValue read fuel sel (.fresh t) s = .ok (some (nm, v), .fresh t, s1) ∧
      Left read post s1 s' := by
  obtain ⟨s1, h1, h2⟩ := emits_val he
  obtain ⟨k, rfl⟩ : ∃ k, fuel = k + 1 := ⟨fuel - 1, by omega⟩
  refine ⟨s1, ?_, h2⟩
  simp [consumeValue, LNode.fresh, takeOut_nil, seekValue, h1, hh]

theorem consumeNode_end {read : σ → Res (Event × σ)} {fuel : Nat} {sel : Sel} {t : ScopeTy}
    {s s' : σ} (hf : 0 < fuel) (he : Left read [] s s') :
    consumeNode read fuel sel (.fresh t) s = .ok (none, ⟨t, [], [], true⟩, s') := by
  obtain ⟨s1, h1, h2⟩ := Emits.cons_inv he
  cases h2
  obtain ⟨k, rfl⟩ : ∃ k, fuel = k + 1 := ⟨fuel - 1, by omega⟩
  simp [consumeNode, LNode.fresh, takeOut_nil, seekNode, h1]

theorem consumeValue_end {read : σ → Res (Event × σ)} {fuel : Nat} {sel : Sel} {t : ScopeTy}
    {s s' : σ} (hf : 0 < fuel) (he : Left read [] s s') :
    consumeValue read fuel sel (.fresh t) s = .ok (none, ⟨t, [], [], true⟩, s') := by
  obtain ⟨s1, h1, h2⟩ := Emits.cons_inv he
  cases h2
  obtain ⟨k, rfl⟩ : ∃ k, fuel = k + 1 := ⟨fuel - 1, by omega⟩
  simp [consumeValue, LNode.fresh, takeOut_nil, seekValue, h1]

theorem finish_end {read : σ → Res (Event × σ)} {fuel : Nat} {t : ScopeTy} {s s' : σ}
    (hf : 0 < fuel) (he : Left read [] s s') : finish read fuel (.fresh t) s = .ok s' :=
  finish_flat (.inr ⟨rfl, he⟩) rfl (by simpa [Item.eventsL] using hf)

theorem fresh_parsed (t : ScopeTy) : ¬ (LNode.fresh t).parsed = true := by simp [LNode.fresh]

/-- Restoring `o` from the tokens in front of it, and closing its scope. -/
def Gives (env : Env) (read : σ → Res (Event × σ)) (fuel : Nat) (ty : Ty) (old o : Obj) (c : LNode)
    (s s' : σ) : Prop :=
  ∃ n s1, paste env read fuel ty old c s = .ok (o, n, s1) ∧ finish read fuel n s1 = .ok s'

theorem vecNodes_stored {nv : Val → Val} {e : Ty} (hs : e.isScope = true)
    (read : σ → Res (Event × σ)) (total : Nat) (ht : 0 < total) (t : ScopeTy) (named : Bool) (nm : Obj → Bytes)
    (ob : Obj → Obj) (f : Bytes × LNode → σ → Res (Obj × σ)) :
    ∀ (xs : List Obj) (fuel : Nat) (s s' : σ), (∀ x ∈ xs, Storable e (ob x)) →
      Left read (Norm.items nv named (seqItems e nm ob xs)) s s' →
      (Item.eventsL (Norm.items nv named (seqItems e nm ob xs))).length < fuel → fuel ≤ total →
      (∀ x ∈ xs, ∀ s s', (Item.eventsL (kidsN nv e (ob x))).length < total →
        Left read (kidsN nv e (ob x)) s s' → f (if named then nm x else [], .fresh e.scopeTy) s = .ok (x, s')) →
      vecNodes read total f fuel (.fresh t) s = .ok (xs, ⟨t, [], [], true⟩, s')
  | [], fuel, s, s' => by
    intro _ he hf _ _
    obtain ⟨k, rfl⟩ : ∃ k, fuel = k + 1 := ⟨fuel - 1, by omega⟩
    simp only [vecNodes, consumeNode_end ht he, Res.ok_bind, if_true]
  | x :: xs, fuel, s, s' => by
    intro hst he hf hle hg
    obtain ⟨k, rfl⟩ : ∃ k, fuel = k + 1 := ⟨fuel - 1, by omega⟩
    simp only [List.map_cons, Norm.items, norm_scope nv (hst x (by simp)) hs] at he hf
    rw [eventsL_scope_length] at hf
    obtain ⟨s1, s2, h1, h2, h3⟩ := consumeNode_first (sel := .index 0) (t := t) ht rfl he
    have h4 := hg x (by simp) s1 s2 (by omega) h2
    have ih := vecNodes_stored (nv := nv) hs read total ht t named nm ob f xs k s2 s'
      (fun y hy => hst y (by simp [hy])) h3 (by unfold seqItems; omega) (by omega)
      (fun y hy => hg y (by simp [hy]))
    simp only [vecNodes, h1, Res.ok_bind]
    rw [if_neg (fresh_parsed _)]
    simp only [h4, Res.ok_bind, ih]

theorem vecValues_stored {nv : Val → Val} (hk : Keeps nv) {e : Ty} (hs : e.isScope = false) (env : Env)
    (read : σ → Res (Event × σ)) (total : Nat) (ht : 0 < total) (t : ScopeTy) (named : Bool) (nm : Obj → Bytes)
    (ob : Obj → Obj) (f : Bytes × Val → Res Obj) :
    ∀ (xs : List Obj) (fuel : Nat) (s s' : σ), (∀ x ∈ xs, Storable e (ob x)) →
      Left read (Norm.items nv named (seqItems e nm ob xs)) s s' →
      (Item.eventsL (Norm.items nv named (seqItems e nm ob xs))).length < fuel →
      (∀ x ∈ xs, ∀ v, pasteVal env e (dflt e) v = .ok (ob x) → f (if named then nm x else [], v) = .ok x) →
      vecValues read total f fuel (.fresh t) s = .ok (xs, ⟨t, [], [], true⟩, s')
  | [], fuel, s, s' => by
    intro _ he hf _
    obtain ⟨k, rfl⟩ : ∃ k, fuel = k + 1 := ⟨fuel - 1, by omega⟩
    simp only [vecValues, consumeValue_end ht he, Res.ok_bind, if_true]
  | x :: xs, fuel, s, s' => by
    intro hst he hf hg
    obtain ⟨k, rfl⟩ : ∃ k, fuel = k + 1 := ⟨fuel - 1, by omega⟩
    obtain ⟨v, h2, h3⟩ := stored_value e (ob x) (hst x (by simp)) hs
    simp only [List.map_cons, Norm.items, h2, Norm.item] at he hf
    rw [eventsL_val_length] at hf
    obtain ⟨s1, h4, h5⟩ := consumeValue_first (sel := .index 0) (t := t) ht rfl he
    have ih := vecValues_stored hk hs env read total ht t named nm ob f xs k s1 s'
      (fun y hy => hst y (by simp [hy])) h5 (by unfold seqItems; omega) (fun y hy => hg y (by simp [hy]))
    simp only [vecValues, h4, Res.ok_bind]
    rw [if_neg (fresh_parsed _)]
    simp only [hg x (by simp) _ ((h3 nv hk).2 env (dflt e)), Res.ok_bind, ih]

theorem arrNodes_stored {nv : Val → Val} {e : Ty} (hs : e.isScope = true) (env : Env)
    (read : σ → Res (Event × σ)) (total : Nat) (ht : 0 < total) (t : ScopeTy) :
    ∀ (os xs : List Obj) (s s' : σ), os.length = xs.length → (∀ x ∈ xs, Storable e x) →
      Left read (Norm.items nv false (xs.map (fun x => toItem [] e x))) s s' →
      (Item.eventsL (Norm.items nv false (xs.map (fun x => toItem [] e x)))).length < total →
      (∀ o ∈ os, ∀ x ∈ xs, ∀ s s', (Item.eventsL (kidsN nv e x)).length < total →
        Left read (kidsN nv e x) s s' → Gives env read total e o x (.fresh e.scopeTy) s s') →
      ∃ s1, arrNodes read total (fun o c s => do
        let (y, c, s) ← paste env read total e o c s
        let s ← finish read total c s
        .ok (y, s)) os (.fresh t) s = .ok (xs, .fresh t, s1) ∧ Left read [] s1 s'
  | [], [], s, s' => by
    intro _ _ he _ _
    exact ⟨s, by simp only [arrNodes], he⟩
  | [], _ :: _, _, _ => by intro h; simp at h
  | _ :: _, [], _, _ => by intro h; simp at h
  | o :: os, x :: xs, s, s' => by
    intro hl hst he hf hg
    simp only [List.map_cons, Norm.items, norm_scope nv (hst x (by simp)) hs] at he hf
    rw [eventsL_scope_length] at hf
    obtain ⟨s1, s2, h1, h2, h3⟩ := consumeNode_first (sel := .index 0) (t := t) ht rfl he
    obtain ⟨n, s3, h4, h5⟩ := hg o (by simp) x (by simp) s1 s2 (by omega) h2
    obtain ⟨s4, h6, h7⟩ := arrNodes_stored (nv := nv) hs env read total ht t os xs s2 s'
      (by simpa using hl) (fun y hy => hst y (by simp [hy])) h3 (by omega)
      (fun o' ho y hy => hg o' (by simp [ho]) y (by simp [hy]))
    refine ⟨s4, ?_, h7⟩
    simp only [arrNodes, h1, Res.ok_bind]
    rw [if_neg (fresh_parsed _)]
    simp only [h4, Res.ok_bind, h5, h6]

theorem arrValues_stored {nv : Val → Val} (hk : Keeps nv) {e : Ty} (hs : e.isScope = false) (env : Env)
    (read : σ → Res (Event × σ)) (total : Nat) (ht : 0 < total) (t : ScopeTy) :
    ∀ (os xs : List Obj) (s s' : σ), os.length = xs.length → (∀ x ∈ xs, Storable e x) →
      Left read (Norm.items nv false (xs.map (fun x => toItem [] e x))) s s' →
      ∃ s1, arrValues read total (fun o v => pasteVal env e o v) os (.fresh t) s
        = .ok (xs, .fresh t, s1) ∧ Left read [] s1 s'
  | [], [], s, s' => by
    intro _ _ he
    exact ⟨s, by simp only [arrValues], he⟩
  | [], _ :: _, _, _ => by intro h; simp at h
  | _ :: _, [], _, _ => by intro h; simp at h
  | o :: os, x :: xs, s, s' => by
    intro hl hst he
    obtain ⟨v, h2, h3⟩ := stored_value e x (hst x (by simp)) hs
    simp only [List.map_cons, Norm.items, h2, Norm.item] at he
    obtain ⟨s1, h4, h5⟩ := consumeValue_first (sel := .index 0) (t := t) ht rfl he
    obtain ⟨s2, h6, h7⟩ := arrValues_stored hk hs env read total ht t os xs s1 s'
      (by simpa using hl) (fun y hy => hst y (by simp [hy])) h5
    refine ⟨s2, ?_, h7⟩
    simp only [arrValues, h4, Res.ok_bind]
    rw [if_neg (fresh_parsed _)]
    simp only [(h3 nv hk).2, Res.ok_bind, h6]

theorem Mode.hits {named : Bool} {nm : Bytes} {opt : Bool} {ty : Ty} {fs : Fields}
    (h : Mode named (.cons nm opt ty fs)) (i : Nat) :
    (Sel.of nm i).hits (if named then nm else []) = true := by
  rcases h with ⟨h1, h2⟩ | ⟨h1, h2⟩
  · rw [sel_name (fun h => h2 (by simp [Fields.names, h])), h1]
    simp [Sel.hits]
  · rw [h2.1]; simp [Sel.of, Sel.hits]

theorem Mode.opt {named : Bool} {nm : Bytes} {ty : Ty} {fs : Fields}
    (h : Mode named (.cons nm true ty fs)) : named = true ∧ nm ≠ [] := by
  rcases h with ⟨h1, h2⟩ | ⟨h1, h2⟩
  · exact ⟨h1, fun h => h2 (by simp [Fields.names, h])⟩
  · cases h2.2.1

theorem has_node {read : σ → Res (Event × σ)} {fuel : Nat} {t t' : ScopeTy} {nm : Bytes}
    {kids post : List Item} {s s' : σ} (he : Left read (.scope nm t' kids :: post) s s')
    (hf : (Item.eventsL kids).length + 1 < fuel) (hd : Item.depthL kids ≤ maxDepth) :
    ∃ s1, has read fuel true nm (.fresh t) s
        = .ok (true, ⟨t, [], [(nm, nodeOf t' kids)], false⟩, s1) ∧ Left read post s1 s' := by
  obtain ⟨s1, s2, h1, h2, h3⟩ := emits_scope he
  obtain ⟨k, rfl⟩ : ∃ k, fuel = k + 1 := ⟨fuel - 1, by omega⟩
  refine ⟨s2, ?_, h3⟩
  have h4 := readScope_items read kids k 0 s1 s2 h2 (by omega) (by omega)
  simp [has, LNode.fresh, findName, seekItem, h1, h4, LNode.addNode, nodeOf]

theorem has_value {read : σ → Res (Event × σ)} {fuel : Nat} {t : ScopeTy} {nm : Bytes} {v : Val}
    {post : List Item} {s s' : σ} (he : Left read (.val nm v :: post) s s') (hf : 0 < fuel) :
    ∃ s1, has read fuel false nm (.fresh t) s
        = .ok (true, ⟨t, [(nm, v)], [], false⟩, s1) ∧ Left read post s1 s' := by
  obtain ⟨s1, h1, h2⟩ := emits_val he
  obtain ⟨k, rfl⟩ : ∃ k, fuel = k + 1 := ⟨fuel - 1, by omega⟩
  refine ⟨s1, ?_, h2⟩
  simp [has, LNode.fresh, findName, seekItem, h1, LNode.addValue]

mutual
/-- Reading what was stored gives the object. -/
theorem lazy {nv : Val → Val} (hk : Keeps nv) (env : Env) (read : σ → Res (Event × σ)) (fuel : Nat) :
    ∀ (ty : Ty) (o old : Obj) (s s' : σ), ty.Ok → ty.isScope = true → Storable ty o → WT ty old →
    (Item.eventsL (kidsN nv ty o)).length < fuel → Left read (kidsN nv ty o) s s' →
    Gives env read fuel ty old o (.fresh ty.scopeTy) s s'
  | .bool, _, _, _, _ => by intro _ h; cases h
  | .int _, _, _, _, _ => by intro _ h; cases h
  | .float, _, _, _, _ => by intro _ h; cases h
  | .double, _, _, _, _ => by intro _ h; cases h
  | .str, _, _, _, _ => by intro _ h; cases h
  | .bytes, _, _, _, _ => by intro _ h; cases h
  | .sorted b c, o, old, s, s' => by
    intro hok hs hst _ hf he
    simp only [Storable] at hst
    simp only [kidsN, kidsOf, toItem, Ty.scopeTy] at hf he
    obtain ⟨n, s1, h1, h2⟩ := lazy hk env read fuel c o (dflt c) s s' hok.1 hst.1 hst.2.1 (dflt_wt c) hf he
    refine ⟨n, s1, ?_, h2⟩
    simp only [paste, Ty.scopeTy, h1, Res.ok_bind, collect_same hok.2 (storable_wt c o hst.2.1) hst.2.2]
  | .vec e, o, old, s, s' => by
    intro hok _ hst _ hf he
    cases o with
    | many xs =>
      simp only [Storable] at hst
      simp only [kidsN, kidsOf, toItem, Ty.scopeTy] at hf he
      refine ⟨⟨.array, [], [], true⟩, s', ?_, by simp [finish]⟩
      rw [paste, if_neg (fresh_parsed _)]
      by_cases hs : e.isScope = true
      · rw [if_pos hs]
        simp only [Ty.scopeTy]
        rw [vecNodes_stored hs read fuel (by omega) .array false (fun _ => []) (fun x => x) _ xs fuel s s' hst he hf
          (Nat.le_refl _) (fun x hx s s' hf' he' => by
            obtain ⟨n, s1, h1, h2⟩ := lazy hk env read fuel e x (dflt e) s s' hok hs (hst x hx) (dflt_wt e) hf' he'
            simp only [h1, Res.ok_bind, h2])]
        rfl
      · rw [if_neg hs]
        simp only [Ty.scopeTy]
        rw [vecValues_stored hk (e := e) (by simpa using hs) env read fuel (by omega)
          .array false (fun _ => []) (fun x => x) _ xs fuel s s' hst he hf (fun x _ v h => h)]
        rfl
    | _ => simp [Storable] at hst
  | .named e, o, old, s, s' => by
    intro hok _ hst _ hf he
    cases o with
    | many xs =>
      simp only [Storable] at hst
      simp only [kidsN, kidsOf, toItem, Ty.scopeTy] at hf he
      refine ⟨⟨.object, [], [], true⟩, s', ?_, by simp [finish]⟩
      rw [paste, if_neg (by simp [LNode.fresh, Ty.scopeTy]), if_neg (fresh_parsed _)]
      have hst' : ∀ x ∈ xs, Storable e (entry x).2 := fun x hx => by
        obtain ⟨k, y, rfl, h⟩ := hst x hx
        exact h
      by_cases hs : e.isScope = true
      · rw [if_pos hs]
        simp only [Ty.scopeTy]
        rw [vecNodes_stored hs read fuel (by omega) .object true (fun x => (entry x).1) (fun x => (entry x).2) _
          xs fuel s s' hst' he hf (Nat.le_refl _) (fun x hx s s' hf' he' => by
            obtain ⟨n, s1, h1, h2⟩ := lazy hk env read fuel e (entry x).2 (dflt e) s s' hok hs (hst' x hx)
              (dflt_wt e) hf' he'
            simp only [h1, Res.ok_bind, h2]
            obtain ⟨k, y, rfl, h⟩ := hst x hx
            rfl)]
        rfl
      · rw [if_neg hs]
        simp only [Ty.scopeTy]
        rw [vecValues_stored hk (e := e) (by simpa using hs) env read fuel (by omega)
          .object true (fun x => (entry x).1) (fun x => (entry x).2) _ xs fuel s s' hst' he hf (fun x hx v h => by
            simp only [h, Res.ok_bind]
            obtain ⟨k, y, rfl, h⟩ := hst x hx
            rfl)]
        rfl
    | _ => simp [Storable] at hst
  | .arr k e, o, old, s, s' => by
    intro hok _ hst hwt hf he
    cases o with
    | many xs =>
      cases old with
      | many os =>
        simp only [Storable] at hst
        simp only [WT] at hwt
        simp only [kidsN, kidsOf, toItem, Ty.scopeTy] at hf he
        by_cases hs : e.isScope = true
        · obtain ⟨s1, h1, h2⟩ := arrNodes_stored hs env read fuel (by omega) .array os xs s s'
            (by rw [hwt.1, hst.1]) hst.2 he hf
            (fun o' ho x hx s s' hf' he' => lazy hk env read fuel e x o' s s' hok hs
              (hst.2 x hx) (hwt.2 o' ho) hf' he')
          refine ⟨_, s1, ?_, finish_end (t := .array) (by omega) h2⟩
          rw [paste, if_neg (fresh_parsed _), if_pos hs]
          simp only [Ty.scopeTy, h1, Res.ok_bind]
        · obtain ⟨s1, h1, h2⟩ := arrValues_stored hk (by simpa using hs) env read fuel (by omega)
            .array os xs s s' (by rw [hwt.1, hst.1]) hst.2 he
          refine ⟨_, s1, ?_, finish_end (t := .array) (by omega) h2⟩
          rw [paste, if_neg (fresh_parsed _), if_neg hs]
          simp only [Ty.scopeTy, h1, Res.ok_bind]
      | _ => simp [WT] at hwt
    | _ => simp [Storable] at hst
  | .record t st fs, o, old, s, s' => by
    intro hok _ hst hwt hf he
    cases o with
    | many xs =>
      cases old with
      | many os =>
        simp only [Storable] at hst
        simp only [WT] at hwt
        simp only [Ty.Ok] at hok
        simp only [kidsN, kidsOf, toItem, Ty.scopeTy] at hf he
        obtain ⟨hfo, hm⟩ := hok
        obtain ⟨s1, h1, h2⟩ := lazy_fields hk env read fuel fs xs os 0 0 t (t == .object) s s' hfo hst
          hwt (by
            rcases hm with ⟨rfl, h, -⟩ | ⟨rfl, -, h⟩
            · exact .inl ⟨rfl, h⟩
            · exact .inr ⟨rfl, h⟩) (by
            intro hn
            rcases hm with ⟨rfl, -, h⟩ | ⟨rfl, -, h⟩
            · exact h
            · cases hn) hf he
        refine ⟨_, s1, ?_, finish_end (t := t) (by omega) h2⟩
        rw [paste, if_neg (by
          rcases hm with ⟨h, -⟩ | ⟨-, h, -⟩
          · simp [h, LNode.fresh, Ty.scopeTy]
          · simp [h])]
        simp only [Ty.scopeTy, h1, Res.ok_bind]
      | _ => simp [WT] at hwt
    | _ => simp [Storable] at hst
  | .ptr k e, o, old, s, s' => by
    intro hok hs hst _ hf he
    cases o with
    | null =>
      simp only [Storable] at hst
      simp only [Ty.isScope, hst.2] at hs
      cases hs
    | ref o =>
      simp only [Storable] at hst
      simp only [kidsN, kidsOf, toItem, Ty.scopeTy] at hf he
      obtain ⟨n, s1, h1, h2⟩ := lazy hk env read fuel e o (dflt e) s s' hok hs hst.1 (dflt_wt e) hf he
      refine ⟨n, s1, ?_, h2⟩
      simp only [paste, Ty.scopeTy, h1, Res.ok_bind]
    | _ => simp [Storable] at hst
theorem lazy_fields {nv : Val → Val} (hk : Keeps nv) (env : Env) (read : σ → Res (Event × σ))
    (fuel : Nat) : ∀ (fs : Fields) (xs os : List Obj) (ni vi : Nat) (t : ScopeTy) (named : Bool)
    (s s' : σ), fs.Ok → StorableL fs xs → WTL fs os → Mode named fs →
    (named = true → fs.names.Nodup) →
    (Item.eventsL (Norm.items nv named (fieldItems fs xs))).length < fuel →
    Left read (Norm.items nv named (fieldItems fs xs)) s s' →
    ∃ s1, pasteMembers env read fuel fs os ni vi (.fresh t) s = .ok (xs, .fresh t, s1) ∧
      Left read [] s1 s'
  | .nil, xs, os, ni, vi, t, named, s, s' => by
    intro _ hst _ _ _ _ he
    cases xs with
    | nil => exact ⟨s, by simp only [pasteMembers], he⟩
    | cons x xs => simp [StorableL] at hst
  | .cons nm opt ty rest, xs, os, ni, vi, t, named, s, s' => by
    intro hok hst hwt hmode hn hf he
    cases xs with
    | nil => simp [StorableL] at hst
    | cons x xs =>
    cases os with
    | nil => simp [WTL] at hwt
    | cons o os =>
    simp only [StorableL] at hst
    simp only [WTL] at hwt
    simp only [Fields.Ok] at hok
    have hn' : named = true → rest.names.Nodup := by
      intro h
      have := hn h
      simp only [Fields.names, List.nodup_cons] at this
      exact this.2
    simp only [fieldItems, Norm.items] at hf he
    by_cases hs : ty.isScope = true
    · rw [norm_scope nv hst.1 hs] at hf he
      rw [eventsL_scope_length] at hf
      cases opt with
      | false =>
        obtain ⟨s1, s2, h1, h2, h3⟩ := consumeNode_first (fuel := fuel) (t := t) (by omega) (hmode.hits ni) he
        obtain ⟨n, s3, h4, h5⟩ := lazy hk env read fuel ty x o s1 s2 hok.1 hs hst.1 hwt.1 (by omega) h2
        obtain ⟨s4, h6, h7⟩ := lazy_fields hk env read fuel rest xs os (ni + 1) vi t named s2 s' hok.2
          hst.2.2 hwt.2 hmode.tail hn' (by omega) h3
        refine ⟨s4, ?_, h7⟩
        simp only [pasteMembers, Bool.false_eq_true, if_false, Res.ok_bind, Bool.true_eq_false]
        rw [if_pos hs, if_neg (fresh_parsed _)]
        simp only [h1, Res.ok_bind, h4, h5, h6]
      | true =>
        obtain ⟨hnamed, hne⟩ := hmode.opt
        rw [hnamed, if_pos rfl, ← hnamed] at he
        have hd : Item.depthL (kidsN nv ty x) ≤ maxDepth := by
          have := hst.2.1 rfl hs
          rw [stored_scope ty x hst.1 hs, Item.depth] at this
          rw [Norm.depth_items]
          omega
        obtain ⟨s2, h1, h3⟩ := has_node (fuel := fuel) (t := t) he (by omega) hd
        obtain ⟨s4, h6, h7⟩ := lazy_fields hk env read fuel rest xs os (ni + 1) vi t named s2 s' hok.2
          hst.2.2 hwt.2 hmode.tail hn' (by omega) h3
        refine ⟨s4, ?_, h7⟩
        simp only [pasteMembers, hs, if_true, h1, Res.ok_bind, Bool.true_eq_false, if_false,
          Bool.false_eq_true, consumeNode, sel_name hne, takeOut, beq_self_eq_true,
          paste_parsed env read fuel ty o ⟨ty.scopeTy, _, _, true⟩ _ rfl]
        have := eager hk env ty x o hok.1 hs hst.1 hwt.1
        simp only [nodeOf] at this
        simp only [this, Res.ok_bind, finish, if_true]
        rw [show (⟨t, [], [], false⟩ : LNode) = .fresh t from rfl, h6]
        rfl
    · have hs' : ty.isScope = false := by simpa using hs
      obtain ⟨v, h2, h3⟩ := stored_value ty x hst.1 hs'
      rw [h2, Norm.item] at hf he
      rw [eventsL_val_length] at hf
      cases opt with
      | false =>
        obtain ⟨s2, h1, h4⟩ := consumeValue_first (fuel := fuel) (t := t) (by omega) (hmode.hits vi) he
        obtain ⟨s4, h6, h7⟩ := lazy_fields hk env read fuel rest xs os ni (vi + 1) t named s2 s' hok.2
          hst.2.2 hwt.2 hmode.tail hn' (by omega) h4
        refine ⟨s4, ?_, h7⟩
        simp only [pasteMembers, Bool.false_eq_true, if_false, Res.ok_bind, Bool.true_eq_false]
        rw [if_neg hs, if_neg (fresh_parsed _)]
        simp only [h1, Res.ok_bind, (h3 nv hk).2, h6]
      | true =>
        obtain ⟨hnamed, hne⟩ := hmode.opt
        rw [hnamed, if_pos rfl, ← hnamed] at he
        obtain ⟨s2, h1, h4⟩ := has_value (fuel := fuel) (t := t) he (by omega)
        obtain ⟨s4, h6, h7⟩ := lazy_fields hk env read fuel rest xs os ni (vi + 1) t named s2 s' hok.2
          hst.2.2 hwt.2 hmode.tail hn' (by omega) h4
        refine ⟨s4, ?_, h7⟩
        simp only [pasteMembers, hs', if_true, h1, Res.ok_bind, Bool.true_eq_false, if_false,
          Bool.false_eq_true, consumeValue, sel_name hne, takeOut, beq_self_eq_true]
        simp only [(h3 nv hk).2, Res.ok_bind]
        rw [show (⟨t, [], [], false⟩ : LNode) = .fresh t from rfl, h6]
        rfl
end

/-- The whole of `Tree::restore`. -/
theorem restore_stored {nv : Val → Val} (hk : Keeps nv) (env : Env) (read : σ → Res (Event × σ))
    (fuel : Nat) (ty : Ty) (o old : Obj) (s s' : σ) (hok : ty.Ok) (hst : Storable ty o)
    (hwt : WT ty old) (he : Emits read s (Norm.item nv false (rootItem ty o)).events s')
    (hf : (rootItem ty o).events.length ≤ fuel) :
    ∃ s1, restore env read fuel ty old s = .ok (o, s1) := by
  rw [← Norm.events_length nv false] at hf
  unfold rootItem at he hf
  by_cases hs : ty.isScope = true
  · rw [if_pos hs, norm_scope nv hst hs] at he hf
    simp only [Item.events] at he hf
    obtain ⟨s1, h1, h2⟩ := Emits.cons_inv he
    obtain ⟨n, s2, h3, h4⟩ := lazy hk env read fuel ty o old s1 s' hok hs hst hwt
      (by simp at hf; omega) h2
    exact ⟨s2, by simp only [restore, h1, Res.ok_bind, hs, if_true, h3]⟩
  · obtain ⟨v, h2, h3⟩ := stored_value ty o hst (by simpa using hs)
    rw [if_neg hs, h2] at he hf
    simp only [Norm.item, Norm.items, Item.events] at he hf
    obtain ⟨s1, h1, h4⟩ := Emits.cons_inv he
    obtain ⟨s2, h5, h6⟩ := consumeValue_first (fuel := fuel) (sel := .index 0) (t := .object)
      (by simp at hf; omega) rfl h4
    refine ⟨s2, ?_⟩
    simp only [restore, h1, Res.ok_bind, hs, if_false, h5, (h3 nv hk).2, Bool.false_eq_true]

end Srl.Typed
