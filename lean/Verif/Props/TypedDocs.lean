import Verif.Lemmas.TypedDocs
import Verif.Props.Typed

/-! # Documents for typed objects: C05, C06, C42, C46 -/

namespace Srl.Props
open Doc Typed

/-- A source with the tokens of a root scope, of which everything that follows depends. `depth` is the
limit of nesting for scopes that are stored before they are asked for. -/
structure Source {σ : Type} (read : σ → Res (Event × σ)) (s : σ) (t : ScopeTy) (items : List Item)
    (fuel : Nat) : Prop where
  tokens : ∃ n s', Emits read s (Item.scope n t items).events s'
  depth : Item.depthL items ≤ maxDepth
  fuel : (Item.eventsL items).length < fuel

variable {σ τ : Type} {read : σ → Res (Event × σ)} {read' : τ → Res (Event × τ)}
  {s : σ} {s' : τ} {t : ScopeTy} {items items' : List Item} {fuel fuel' : Nat}

private theorem loaded (h : Source read s t items fuel) (env : Env) (ty : Ty) (old : Obj)
    (hs : ty.isScope = true) :
    loadUnwrap env read fuel ty old s = pasteNode env ty old (nodeOf t items) := by
  obtain ⟨n, s1, he⟩ := h.tokens
  have hl := load_item read n t items fuel s s1 he h.fuel
  rw [if_pos h.depth] at hl
  simp only [loadUnwrap, hl, Res.ok_bind, unwrap, hs, if_true]

private theorem directly (h : Source read s t items fuel) (env : Env) (ty : Ty) (old : Obj)
    (hok : ty.Ok) (hold : WT ty old) (hs : ty.isScope = true) (hfit : Fits ty items) :
    direct env read fuel ty old s = pasteNode env ty old (nodeOf t items) := by
  obtain ⟨n, s1, he⟩ := h.tokens
  rw [restore_is_load_partial env read fuel ty old n t items s s1 he hok hold hfit h.depth h.fuel,
    loaded h env ty old hs]

private theorem plain_scope : ∀ {ty : Ty} {t : ScopeTy} {items : List Item}, Plain ty t items →
    ty.isScope = true
  | .bool, _, _, h => h.elim
  | .int _, _, _, h => h.elim
  | .float, _, _, h => h.elim
  | .double, _, _, h => h.elim
  | .str, _, _, h => h.elim
  | .vec _, _, _, _ => rfl
  | .named _, _, _, _ => rfl
  | .arr _ _, _, _, _ => rfl
  | .record _ _ _, _, _, _ => rfl
  | .ptr _ e, _, _, h => plain_scope (ty := e) h
  | .sorted _ c, _, _, h => plain_scope (ty := c) h
  | .bytes, _, _, h => h.elim

/-! ## C05: the order of fields -/

/-- C05: two documents, in any formats, of which the second is the first with the fields of objects at
any level in another order, restore to the same object, or fail alike. `Plain` says that the document has
the form of the type: no name twice in an object, no scope the type does not have, arrays of the
right length. Fields may be missing, values may be of wrong types, further values may be there. The type has no tables;
see `field_order_tables`. -/
theorem field_order (h1 : Source read s t items fuel) (h2 : Source read' s' t items' fuel') (env : Env)
    (ty : Ty) (old : Obj) (hok : ty.Ok) (htab : ty.Tables False false) (hold : WT ty old) (hp : Plain ty t items)
    (hr : ReordC t items items') :
    direct env read fuel ty old s = direct env read' fuel' ty old s' := by
  obtain ⟨hp', he⟩ := reord_same env ty false t items items' hok htab hp hr
  rw [directly h1 env ty old hok hold (plain_scope hp) (plain_fits ty t items hok hp).1,
    directly h2 env ty old hok hold (plain_scope hp) (plain_fits ty t items' hok hp').1, ((he old).1 rfl).eq]

/-- C05 with tables, whose entries are fields too: both documents restore to the same object, or none does. If two
entries of a table are bad in different ways, which one is met first depends on the order. -/
theorem field_order_tables (h1 : Source read s t items fuel) (h2 : Source read' s' t items' fuel') (env : Env)
    (ty : Ty) (old : Obj) (hok : ty.Ok) (htab : ty.Tables True false) (hold : WT ty old) (hp : Plain ty t items)
    (hr : ReordC t items items') (o : Obj) :
    direct env read fuel ty old s = .ok o ↔ direct env read' fuel' ty old s' = .ok o := by
  obtain ⟨hp', he⟩ := reord_same env ty false t items items' hok htab hp hr
  rw [directly h1 env ty old hok hold (plain_scope hp) (plain_fits ty t items hok hp).1,
    directly h2 env ty old hok hold (plain_scope hp) (plain_fits ty t items' hok hp').1]
  exact ((he old).1 rfl).1 o

/-- C05 for what was stored: a document with the fields of a stored object in any order gives the
object. `nv` is what the format makes of values, `Keeps` holds of all three formats. -/
theorem stored_order (h : Source read s t items' fuel) (env : Env) (ty : Ty) (o old : Obj)
    (hok : ty.Ok) (htab : ty.Tables True false) (ho : Storable ty o) (hold : WT ty old) (hs : ty.isScope = true)
    {nv : Val → Val} (hk : Keeps nv) {n : Bytes} (hst : Norm.item nv false (rootItem ty o) = .scope n t items)
    (hr : ReordC t items items') : direct env read fuel ty old s = .ok o := by
  rw [rootItem, if_pos hs, norm_scope nv ho hs] at hst
  injection hst with _ ht hi
  subst ht
  subst hi
  have hp := plain_stored nv ty o false hok htab hs ho (fun e he => by subst he; cases htab.2.1)
  obtain ⟨hp', he⟩ := reord_same env ty false _ _ items' hok htab hp hr
  rw [directly h env ty old hok hold hs (plain_fits ty _ items' hok hp').1]
  exact (((he old).1 rfl).1 o).mp (eager hk env ty o old hok hs ho hold)

/-- A class with a class and a vector of pairs. -/
def nestTy : Ty := .record .object false
  (.cons (str "a") false xTy
  (.cons (str "v") false (.vec (.record .object true
    (.cons (str "first") false .bool (.cons (str "second") false (.int .i8) .nil))))
  (.cons (str "b") true (.int .i32) .nil)))

def nestItems : List Item :=
  [.scope (str "a") .object [.val (str "x") (.int .u64 1), .val (str "u") .null],
    .scope (str "v") .array [.scope [] .object [.val (str "first") (.bool true),
      .val (str "second") (.int .u64 2)]],
    .val (str "b") (.int .u64 3)]

def nestItems' : List Item :=
  [.val (str "b") (.int .u64 3),
    .scope (str "v") .array [.scope [] .object [.val (str "second") (.int .u64 2),
      .val (str "first") (.bool true)]],
    .scope (str "a") .object [.val (str "u") .null, .val (str "x") (.int .u64 1)]]

theorem nestTy_ok : nestTy.Ok := by
  simp only [nestTy, xTy, Ty.Ok, Fields.Ok, Fields.Named, Fields.names]
  repeat' apply And.intro
  all_goals first | trivial | (left; decide +kernel)

theorem nest_plain : Plain nestTy .object nestItems := by
  refine ⟨rfl, ?_, ⟨fun _ x hx => ?_, fun _ x hx => ?_, fun h => ?_, trivial⟩⟩
  · rw [if_pos rfl]
    refine ⟨by decide +kernel, ?_⟩
    intro x hx
    simp only [nestItems, scopesOf, List.mem_cons, List.not_mem_nil, or_false] at hx
    rcases hx with rfl | rfl <;> decide +kernel
  · have h2 : pick (str "a") 0 nestItems = some
        (str "a", .object, [.val (str "x") (.int .u64 1), .val (str "u") .null]) := rfl
    rw [h2] at hx
    cases hx
    refine ⟨rfl, ?_, fun h => by simp [Ty.isScope] at h, trivial⟩
    rw [if_pos rfl]
    refine ⟨by decide +kernel, fun x hx => by simp [scopesOf] at hx⟩
  · have h2 : pick (str "v") 1 nestItems = some (str "v", .array, [.scope [] .object
        [.val (str "first") (.bool true), .val (str "second") (.int .u64 2)]]) := rfl
    rw [show (if xTy.isScope = true then 0 + 1 else 0) = 1 from rfl, h2] at hx
    cases hx
    refine ⟨rfl, fun _ x hx => ?_⟩
    simp only [scopesOf, List.mem_cons, List.not_mem_nil, or_false] at hx
    subst hx
    refine ⟨rfl, ?_, fun h => by simp [Ty.isScope] at h, fun h => by simp [Ty.isScope] at h, trivial⟩
    rw [if_pos rfl]
    refine ⟨by decide +kernel, fun x hx => by simp [scopesOf] at hx⟩
  · simp [Ty.isScope] at h

theorem nest_reord : ReordC .object nestItems nestItems' := by
  refine ⟨nestItems'.reverse, ?_, ?_⟩
  · simp only [nestItems, nestItems', List.reverse_cons, List.reverse_nil, List.nil_append,
      List.cons_append, ReordL]
    refine ⟨_, _, rfl, ?_, _, _, rfl, ?_, _, _, rfl, rfl, rfl⟩
    · exact ⟨[.val (str "x") (.int .u64 1), .val (str "u") .null], _, rfl,
        ⟨_, _, rfl, rfl, _, _, rfl, rfl, rfl⟩, by rw [if_pos rfl]; exact List.Perm.swap ..⟩
    · refine ⟨_, _, rfl, ⟨_, _, rfl, ⟨[.val (str "first") (.bool true), .val (str "second") (.int .u64 2)],
        _, rfl, ⟨_, _, rfl, rfl, _, _, rfl, rfl, rfl⟩, ?_⟩, rfl⟩, by rw [if_neg (by simp)]⟩
      rw [if_pos rfl]; exact List.Perm.swap ..
  · rw [if_pos rfl]
    exact List.reverse_perm _

/-- The hypotheses of `field_order` are met: the type, the two documents, and what both of their texts
restore to. -/
example : nestTy.Ok ∧ nestTy.Tables False false ∧ Plain nestTy .object nestItems ∧ ReordC .object nestItems nestItems' ∧
    Item.depthL nestItems ≤ maxDepth ∧
    direct env0 jread 100 nestTy (dflt nestTy) (PJson.Rd.new,
      str "{\"a\":{\"x\":1,\"u\":null},\"v\":[{\"first\":true,\"second\":2}],\"b\":3}")
      = .ok (.many [.many [.int 1], .many [.many [.bool true, .int 2]], .int 3]) ∧
    direct env0 jread 100 nestTy (dflt nestTy) (PJson.Rd.new,
      str "{\"b\":3,\"v\":[{\"second\":2,\"first\":true}],\"a\":{\"u\":null,\"x\":1}}")
      = .ok (.many [.many [.int 1], .many [.many [.bool true, .int 2]], .int 3]) :=
  ⟨nestTy_ok, by simp [nestTy, xTy, Ty.Tables, Fields.Tables], nest_plain, nest_reord, by decide +kernel,
    isObj_eq (by decide +kernel), isObj_eq (by decide +kernel)⟩

/-- A class with an `HTable<std::string, T>` of classes. -/
def tabTy : Ty := .record .object false (.cons (str "t") false (.sorted ⟨true, false⟩ (.named xTy)) .nil)

def tabItems : List Item := [.scope (str "t") .object
  [.scope (str "p") .object [.val (str "x") (.int .u64 1)], .scope (str "q") .object [.val (str "x") (.int .u64 2)]]]

def tabItems' : List Item := [.scope (str "t") .object
  [.scope (str "q") .object [.val (str "x") (.int .u64 2)], .scope (str "p") .object [.val (str "x") (.int .u64 1)]]]

theorem tabTy_ok : tabTy.Ok := by
  refine ⟨⟨⟨?_, .inr ⟨rfl, xTy, rfl⟩⟩, trivial⟩, .inl ⟨rfl, by decide +kernel, by decide +kernel⟩⟩
  simp only [xTy, Ty.Ok, Fields.Ok, Fields.Named, Fields.names]
  repeat' apply And.intro
  all_goals first | trivial | (left; decide +kernel)

theorem tab_plain : Plain tabTy .object tabItems := by
  refine ⟨rfl, ?_, ⟨fun _ x hx => ?_, trivial⟩⟩
  · rw [if_pos rfl]
    refine ⟨by decide +kernel, ?_⟩
    intro x hx
    simp only [tabItems, scopesOf, List.mem_cons, List.not_mem_nil, or_false] at hx
    subst hx
    decide +kernel
  · have h2 : pick (str "t") 0 tabItems = some (str "t", .object, [.scope (str "p") .object
        [.val (str "x") (.int .u64 1)], .scope (str "q") .object [.val (str "x") (.int .u64 2)]]) := rfl
    rw [h2] at hx
    cases hx
    refine ⟨rfl, by decide +kernel, fun _ x hx => ?_⟩
    simp only [scopesOf, List.mem_cons, List.not_mem_nil, or_false] at hx
    rcases hx with rfl | rfl
    all_goals
      refine ⟨rfl, ?_, fun h => by simp [Ty.isScope] at h, trivial⟩
      rw [if_pos rfl]
      exact ⟨by decide +kernel, fun x hx => by simp [scopesOf] at hx⟩

theorem tab_reord : ReordC .object tabItems tabItems' := by
  refine ⟨tabItems', ?_, by rw [if_pos rfl]⟩
  refine ⟨_, _, rfl, ⟨[.scope (str "p") .object [.val (str "x") (.int .u64 1)],
    .scope (str "q") .object [.val (str "x") (.int .u64 2)]], _, rfl,
    ⟨_, _, rfl, ⟨_, _, rfl, ⟨_, _, rfl, rfl, rfl⟩, by rw [if_pos rfl]⟩,
      _, _, rfl, ⟨_, _, rfl, ⟨_, _, rfl, rfl, rfl⟩, by rw [if_pos rfl]⟩, rfl⟩,
    by rw [if_pos rfl]; exact List.Perm.swap ..⟩, rfl⟩

/-- The hypotheses of `field_order_tables` are met. -/
example : tabTy.Ok ∧ tabTy.Tables True false ∧ Plain tabTy .object tabItems ∧ ReordC .object tabItems tabItems' ∧
    direct env0 jread 100 tabTy (dflt tabTy) (PJson.Rd.new, str "{\"t\":{\"p\":{\"x\":1},\"q\":{\"x\":2}}}")
      = .ok (.many [.many [.many [.str (str "p"), .many [.int 1]], .many [.str (str "q"), .many [.int 2]]]]) ∧
    direct env0 jread 100 tabTy (dflt tabTy) (PJson.Rd.new, str "{\"t\":{\"q\":{\"x\":2},\"p\":{\"x\":1}}}")
      = .ok (.many [.many [.many [.str (str "p"), .many [.int 1]], .many [.str (str "q"), .many [.int 2]]]]) :=
  ⟨tabTy_ok, by simp [tabTy, xTy, Ty.Tables, Fields.Tables], tab_plain, tab_reord, isObj_eq (by decide +kernel),
    isObj_eq (by decide +kernel)⟩

/-! ## C06: further fields -/

/-- C06 for trees: fields the type does not have, values or scopes with any content, at any place and any
level, any number of them, make no difference for an object taken out of a loaded document. -/
theorem unknown_fields_loaded (h1 : Source read s t items fuel) (h2 : Source read' s' t items' fuel')
    (env : Env) (ty : Ty) (old : Obj) (hok : ty.Ok) (hs : ty.isScope = true)
    (hx : Extras (fun _ => True) ty items items') :
    loadUnwrap env read fuel ty old s = loadUnwrap env read' fuel' ty old s' := by
  rw [loaded h1 env ty old hs, loaded h2 env ty old hs, extras_same env hx hok]

/-- C06 for restoring while reading, further values: at any place and any level, any number. -/
theorem unknown_values_skipped (h1 : Source read s t items fuel) (h2 : Source read' s' t items' fuel')
    (env : Env) (ty : Ty) (old : Obj) (hok : ty.Ok) (hold : WT ty old) (hs : ty.isScope = true)
    (hfit : Fits ty items) (hx : Extras (fun i => itemScope i = false) ty items items') :
    direct env read fuel ty old s = direct env read' fuel' ty old s' := by
  rw [directly h1 env ty old hok hold hs hfit,
    directly h2 env ty old hok hold hs (extras_fits hx hok hfit), extras_same env hx hok]

/-- C06 for stored objects with further values: the object is restored. -/
theorem unknown_values_stored (h : Source read s t items' fuel) (env : Env) (ty : Ty) (o old : Obj)
    (hok : ty.Ok) (htab : ty.Tables True false) (ho : Storable ty o) (hold : WT ty old) (hs : ty.isScope = true)
    {nv : Val → Val} (hk : Keeps nv) {n : Bytes} (hst : Norm.item nv false (rootItem ty o) = .scope n t items)
    (hx : Extras (fun i => itemScope i = false) ty items items') :
    direct env read fuel ty old s = .ok o := by
  rw [rootItem, if_pos hs, norm_scope nv ho hs] at hst
  injection hst with _ ht hi
  subst ht
  subst hi
  have hf := (plain_fits ty _ _ hok (plain_stored nv ty o false hok htab hs ho
    (fun e he => by subst he; cases htab.2.1))).1
  rw [directly h env ty old hok hold hs (extras_fits hx hok hf), ← extras_same env hx hok,
    eager hk env ty o old hok hs ho hold]

/-- C06 for restoring while reading, further values and scopes. Missing: scopes behind the last field of a
part of the type, which `Fits` excludes; the claim is false for them (`restore_wrong_object`,
`restore_throws_unknown_scope`). -/
theorem unknown_fields_skipped_partial (h1 : Source read s t items fuel)
    (h2 : Source read' s' t items' fuel') (env : Env) (ty : Ty) (old : Obj) (hok : ty.Ok)
    (hold : WT ty old) (hs : ty.isScope = true) (hfit : Fits ty items) (hfit' : Fits ty items')
    (hx : Extras (fun _ => True) ty items items') :
    direct env read fuel ty old s = direct env read' fuel' ty old s' := by
  rw [directly h1 env ty old hok hold hs hfit, directly h2 env ty old hok hold hs hfit',
    extras_same env hx hok]

def richItems : List Item :=
  [.val (str "u") .null, .scope (str "a") .object [.val (str "w") (.str (str "no")), .val (str "x") (.int .u64 1), .val (str "u") .null],
    .scope (str "v") .array [.scope [] .object [.val (str "first") (.bool true),
      .val (str "second") (.int .u64 2)]],
    .val (str "b") (.int .u64 3)]

/-- The hypotheses of `unknown_values_skipped` are met: a further value in front and one within a member,
and what the text restores to. -/
example : Fits nestTy nestItems ∧ Extras (fun i => itemScope i = false) nestTy nestItems richItems ∧
    direct env0 jread 100 nestTy (dflt nestTy) (PJson.Rd.new,
      str "{\"u\":null,\"a\":{\"w\":\"no\",\"x\":1,\"u\":null},\"v\":[{\"first\":true,\"second\":2}],\"b\":3}")
      = .ok (.many [.many [.int 1], .many [.many [.bool true, .int 2]], .int 3]) := by
  refine ⟨(plain_fits _ _ _ nestTy_ok nest_plain).1, ?_, isObj_eq (by decide +kernel)⟩
  refine .step (.step (.refl _) (.here (a := []) (x := .val (str "u") .null) ?_ rfl))
    (.field (name := str "a") (ty := xTy) (t := .object) (a := [.val (str "u") .null])
      (k1 := [.val (str "x") (.int .u64 1), .val (str "u") .null])
      (.inl ⟨rfl, rfl⟩) rfl (.here (a := []) (x := .val (str "w") (.str (str "no"))) ?_ rfl))
  · decide +kernel
  · decide +kernel

/-! ## C42: lengths of arrays -/

/-- C42 for trees: an object is taken out of a loaded document only if every array that belongs to a part of
the type has exactly the length of the type, at any level. -/
theorem array_length_loaded (h : Source read s t items fuel) (env : Env) (ty : Ty) (old o : Obj)
    (hok : ty.Ok) (hs : ty.isScope = true) (hr : loadUnwrap env read fuel ty old s = .ok o) :
    Counted ty items := by
  rw [loaded h env ty old hs] at hr
  exact counted_ok env ty t items old o hok hr

/-- C42 for restoring while reading, arrays of values. Missing: arrays that are longer, for which it is
false (`restore_array_too_long`). -/
theorem array_too_short_partial (h : Source read s t items fuel) (env : Env) (k : Nat) (e : Ty)
    (old o : Obj) (hold : WT (.arr k e) old) (hs : e.isScope = false)
    (hr : direct env read fuel (.arr k e) old s = .ok o) : k ≤ (valuesOf items).length := by
  obtain ⟨n, s', he⟩ := h.tokens
  simp only [Item.events] at he
  obtain ⟨s1, h1, h2⟩ := Emits.cons_inv he
  cases old with
  | many os =>
    obtain ⟨hl, -⟩ := hold
    have key : ∀ (os : List Obj) (post : List Item) (n : LNode) (s : σ) ys, n.values = [] →
        n.parsed = false → Left read post s s' → (Item.eventsL post).length < fuel →
        Item.depthL post ≤ maxDepth →
        arrValues read fuel (fun o v => pasteVal env e o v) os n s = .ok ys →
        os.length ≤ (valuesOf post).length := by
      intro os
      induction os with
      | nil => intros; simp
      | cons o os ih =>
        intro post n s ys hv hp hl hf hd hr
        rcases seek_next_value hv hp hl hf hd with
          ⟨a, nm, v, b, s2, n', rfl, ha, hc, hp', hv', hl'⟩ | ⟨ha, n', hp', hc⟩
        · simp only [arrValues, hp, Bool.false_eq_true, if_false, hc, Res.ok_bind, Res.bind_eq_ok] at hr
          obtain ⟨y, -, ⟨ys', n2, s3⟩, h3, -⟩ := hr
          have := ih b n' s2 _ hv' hp' hl' (by
            rw [Item.eventsL_append, List.length_append] at hf
            simp only [Item.eventsL, List.length_append] at hf
            omega) (by
            rw [depthL_append] at hd
            simp only [Item.depthL] at hd
            omega) h3
          rw [valuesOf_append, ha, List.nil_append, valuesOf_val, List.length_cons, List.length_cons]
          omega
        · simp only [arrValues, hp, Bool.false_eq_true, if_false, hc, Res.ok_bind] at hr
          cases hr
    rw [← hl]
    simp only [direct, restore, h1, Res.ok_bind, Ty.isScope, if_true, paste, LNode.fresh,
      Bool.false_eq_true, if_false, hs] at hr
    simp only [Res.bind_eq_ok] at hr
    obtain ⟨-, ⟨-, ⟨ys, hr, -⟩, -⟩, -⟩ := hr
    exact key os items (.fresh t) s1 _ rfl rfl h2 h.fuel h.depth hr
  | _ => cases hold

/-- The same for arrays of scopes. Missing: arrays that are longer, and arrays with elements that do not fit
(`Fits`, `Covered`). -/
theorem array_scopes_too_short_partial (h : Source read s t items fuel) (env : Env) (k : Nat) (e : Ty)
    (old o : Obj) (hok : e.Ok) (hold : WT (.arr k e) old) (hs : e.isScope = true)
    (hfit : ∀ x ∈ scopesOf items, Fits e x.2.2 ∧ Covered e x.2.2)
    (hr : direct env read fuel (.arr k e) old s = .ok o) : k ≤ (scopesOf items).length := by
  obtain ⟨n, s', he⟩ := h.tokens
  simp only [Item.events] at he
  obtain ⟨s1, h1, h2⟩ := Emits.cons_inv he
  cases old with
  | many os =>
    obtain ⟨hl, hwt⟩ := hold
    have key : ∀ (os : List Obj) (post : List Item) (n : LNode) (s : σ) ys, n.nodes = [] →
        n.parsed = false → Left read post s s' → (Item.eventsL post).length < fuel →
        Item.depthL post ≤ maxDepth → (∀ o ∈ os, WT e o) →
        (∀ x ∈ scopesOf post, Fits e x.2.2 ∧ Covered e x.2.2) →
        arrNodes read fuel (fun o c s => do
          let (y, c, s) ← paste env read fuel e o c s
          let s ← finish read fuel c s
          .ok (y, s)) os n s = .ok ys →
        os.length ≤ (scopesOf post).length := by
      intro os
      induction os with
      | nil => intros; simp
      | cons o os ih =>
        intro post n s ys hn hp hl hf hd hw hx hr
        rcases seek_next_node hn hp hl hf hd with
          ⟨a, nm, t, kids, b, s1, s2, n', rfl, ha, hc, hp', hn', hkids, hb⟩ | ⟨ha, n', hp', hc⟩
        · rw [Item.eventsL_append, List.length_append, eventsL_scope_length] at hf
          rw [depthL_append] at hd
          simp only [Item.depthL, Item.depth] at hd
          simp only [arrNodes, hp, Bool.false_eq_true, if_false, hc, Res.ok_bind, Res.bind_eq_ok] at hr
          obtain ⟨⟨y, s3⟩, ⟨⟨y', c, s4⟩, h3, s5, h4, h5⟩, ⟨ys', n2, s6⟩, h6, -⟩ := hr
          cases h5
          have hm : (nm, t, kids) ∈ scopesOf (a ++ .scope nm t kids :: b) := by
            rw [scopesOf_append]; exact List.mem_append_right _ (List.mem_cons_self ..)
          obtain ⟨hfx, hcx⟩ := hx _ hm
          have ag := paste_agrees env read fuel e o t kids s1 s2 hok hs (hw o (by simp)) hfx hkids
            (by omega) (by omega)
          rw [h3] at ag
          have ht : Tail read e kids s2 (c, s4) := by
            revert ag
            cases pasteNode env e o (nodeOf t kids) with
            | ok z =>
              rintro ⟨p, hp, hq⟩
              cases hp
              exact hq
            | err => intro h; cases h
            | ub => intro h; cases h
            | fuel => intro h; cases h
          rw [finish_tail ht hcx (by omega)] at h4
          cases h4
          have := ih b n' s2 _ hn' hp' hb (by omega) (by omega) (fun o' ho' => hw o' (by simp [ho']))
            (fun x hx' => hx x (by
              rw [scopesOf_append]; exact List.mem_append_right _ (List.mem_cons_of_mem _ hx'))) h6
          rw [scopesOf_append, ha, List.nil_append, scopesOf, List.length_cons, List.length_cons]
          omega
        · simp only [arrNodes, hp, Bool.false_eq_true, if_false, hc, Res.ok_bind] at hr
          cases hr
    rw [← hl]
    simp only [direct, restore, h1, Res.ok_bind, Ty.isScope, if_true, paste, LNode.fresh,
      Bool.false_eq_true, if_false, hs] at hr
    simp only [Res.bind_eq_ok] at hr
    obtain ⟨-, ⟨-, ⟨ys, hr, -⟩, -⟩, -⟩ := hr
    exact key os items (.fresh t) s1 _ rfl rfl h2 h.fuel h.depth hwt hfit hr
  | _ => cases hold

/-- The theorems meet successful and failing cases. -/
example :
    direct env0 jread 100 (.arr 2 (.vec (.int .i32))) (.many [.many [], .many []])
      (PJson.Rd.new, str "[[1],[2,3]]") = .ok (.many [.many [.int 1], .many [.int 2, .int 3]]) ∧
    direct env0 jread 100 (.arr 3 (.vec (.int .i32))) (.many [.many [], .many [], .many []])
      (PJson.Rd.new, str "[[1],[2,3]]") = .err :=
  ⟨isObj_eq (by decide +kernel), Res.eq_err (by decide +kernel)⟩

example :
    loadUnwrap env0 jread 100 (.arr 2 (.int .i32)) (.many [.int 0, .int 0]) (PJson.Rd.new, str "[1,2]")
      = .ok (.many [.int 1, .int 2]) ∧
    direct env0 jread 100 (.arr 2 (.int .i32)) (.many [.int 0, .int 0]) (PJson.Rd.new, str "[1,2]")
      = .ok (.many [.int 1, .int 2]) ∧
    direct env0 jread 100 (.arr 3 (.int .i32)) (.many [.int 0, .int 0, .int 0])
      (PJson.Rd.new, str "[1,2]") = .err :=
  ⟨isObj_eq (by decide +kernel), isObj_eq (by decide +kernel), Res.eq_err (by decide +kernel)⟩

/-! ## C46: optional members -/

/-- C46: restoring a class gives for each member what `member` says, which looks only at the item of the
member: it is restored, or, if there is none, an optional member keeps its value and others are an error.
Missing: documents that do not fit (`Fits`), e.g. an optional field that occurs as value and as scope. -/
theorem optional_members_partial (h : Source read s t items fuel) (env : Env) (st : Bool) (fs : Fields)
    (os : List Obj) (hok : (Ty.record .object st fs).Ok) (hold : WTL fs os)
    (hfit : Fits (.record .object st fs) items) (ht : st = true → t = .object) :
    direct env read fuel (.record .object st fs) (.many os) s
      = (members env items fs os >>= fun ys => .ok (.many ys)) := by
  have hnm := hok.2.resolve_right (by simp)
  rw [directly h env _ _ hok (by exact hold) rfl hfit]
  simp only [pasteNode, contentL_eq]
  rw [if_neg (fun hc => hc.2 (ht hc.1)), pasteFields_members env fs os 0 0 hnm.2.1]

/-- The members, by number. -/
def fieldOf : Fields → Nat → Option (Bytes × Bool × Ty)
  | .nil, _ => none
  | .cons nm opt ty _, 0 => some (nm, opt, ty)
  | .cons _ _ _ rest, i + 1 => fieldOf rest i

private theorem members_get (env : Env) : ∀ {fs : Fields} {os ys : List Obj} {i : Nat} {nm : Bytes}
    {opt : Bool} {ty : Ty}, members env items fs os = .ok ys → fieldOf fs i = some (nm, opt, ty) →
    ∃ o y, os[i]? = some o ∧ ys[i]? = some y ∧ member env nm opt ty o items = .ok y
  | .nil, _, _, _, _, _, _, _, h => by cases h
  | .cons _ _ _ _, [], _, _, _, _, _, h, _ => by cases h
  | .cons m p u rest, o :: os, ys, i, nm, opt, ty, h, hi => by
    simp only [members, Res.bind_eq_ok] at h
    obtain ⟨y, h1, ys', h2, h3⟩ := h
    cases h3
    cases i with
    | zero =>
      simp only [fieldOf, Option.some.injEq, Prod.mk.injEq] at hi
      obtain ⟨rfl, rfl, rfl⟩ := hi
      exact ⟨o, y, by simp, by simp, h1⟩
    | succ i =>
      obtain ⟨o', y', h4, h5, h6⟩ := members_get env (fs := rest) h2 hi
      exact ⟨o', y', by simpa using h4, by simpa using h5, h6⟩

/-- C46: an absent optional member keeps its value. -/
theorem optional_absent_partial (h : Source read s t items fuel) (env : Env) (st : Bool) (fs : Fields)
    (os ys : List Obj) (hok : (Ty.record .object st fs).Ok) (hold : WTL fs os)
    (hfit : Fits (.record .object st fs) items) (ht : st = true → t = .object)
    (hr : direct env read fuel (.record .object st fs) (.many os) s = .ok (.many ys))
    (i : Nat) (nm : Bytes) (ty : Ty) (hi : fieldOf fs i = some (nm, true, ty))
    (habs : ∀ x ∈ items, itemName x ≠ nm) : ys[i]? = os[i]? := by
  rw [optional_members_partial h env st fs os hok hold hfit ht, Res.bind_eq_ok] at hr
  obtain ⟨ys', h1, h2⟩ := hr
  cases h2
  obtain ⟨o, y, h3, h4, h5⟩ := members_get env h1 hi
  have : itemFor nm ty.isScope items = none := by
    rw [itemFor, List.find?_eq_none]
    intro x hx
    simp [habs x hx]
  simp only [member, this, if_true] at h5
  cases h5
  rw [h3, h4]

/-- C46: whether an item is there makes no difference for the members of other names. -/
theorem optional_others_partial {a b : List Item} {x : Item} (h1 : Source read s t (a ++ b) fuel)
    (h2 : Source read' s' t (a ++ x :: b) fuel') (env : Env) (st : Bool) (fs : Fields)
    (os ys ys' : List Obj) (hok : (Ty.record .object st fs).Ok) (hold : WTL fs os)
    (hfit : Fits (.record .object st fs) (a ++ b)) (hfit' : Fits (.record .object st fs) (a ++ x :: b))
    (ht : st = true → t = .object)
    (hr : direct env read fuel (.record .object st fs) (.many os) s = .ok (.many ys))
    (hr' : direct env read' fuel' (.record .object st fs) (.many os) s' = .ok (.many ys'))
    (i : Nat) (nm : Bytes) (opt : Bool) (ty : Ty) (hi : fieldOf fs i = some (nm, opt, ty))
    (hne : nm ≠ itemName x) : ys[i]? = ys'[i]? := by
  rw [optional_members_partial h1 env st fs os hok hold hfit ht, Res.bind_eq_ok] at hr
  rw [optional_members_partial h2 env st fs os hok hold hfit' ht, Res.bind_eq_ok] at hr'
  obtain ⟨_, h3, h4⟩ := hr
  obtain ⟨_, h5, h6⟩ := hr'
  cases h4
  cases h6
  obtain ⟨o, y, g1, g2, g3⟩ := members_get env h3 hi
  obtain ⟨o', y', g4, g5, g6⟩ := members_get env h5 hi
  rw [g1] at g4
  cases g4
  have : itemFor nm ty.isScope (a ++ x :: b) = itemFor nm ty.isScope (a ++ b) := by
    simp only [itemFor, List.find?_append]
    rw [List.find?_cons_of_neg (by simp [Ne.symm hne])]
  simp only [member, this] at g6
  simp only [member] at g3
  rw [g3] at g6
  cases g6
  rw [g2, g5]

/-- With and without the optional member `b`. -/
example : direct env0 jread 100 nestTy (.many [.many [.int 0], .many [], .int 77]) (PJson.Rd.new,
      str "{\"v\":[],\"a\":{\"x\":1}}") = .ok (.many [.many [.int 1], .many [], .int 77]) ∧
    direct env0 jread 100 nestTy (.many [.many [.int 0], .many [], .int 77]) (PJson.Rd.new,
      str "{\"v\":[],\"b\":5,\"a\":{\"x\":1}}") = .ok (.many [.many [.int 1], .many [], .int 5]) :=
  ⟨isObj_eq (by decide +kernel), isObj_eq (by decide +kernel)⟩

/-- C46 violated otherwise: an optional scope of which the name occurs first with a value is not found,
though it is there. -/
theorem optional_twice : ∃ (ty : Ty) (doc : Bytes) (o1 o2 : Obj), ty.Ok ∧ o1 ≠ o2 ∧
    loadUnwrap env0 jread 100 ty (dflt ty) (PJson.Rd.new, doc) = .ok o1 ∧
    direct env0 jread 100 ty (dflt ty) (PJson.Rd.new, doc) = .ok o2 := by
  refine ⟨.record .object false (.cons (str "o") true xTy .nil), str "{\"o\":1,\"o\":{\"x\":1}}",
    .many [.many [.int 1]], .many [.many [.int 0]], ?_, by simp, isObj_eq (by decide +kernel),
    isObj_eq (by decide +kernel)⟩
  simp only [xTy, Ty.Ok, Fields.Ok, Fields.Named, Fields.names]
  repeat' apply And.intro
  all_goals first | trivial | (left; decide +kernel)

end Srl.Props
