import Verif.Lemmas.Described
import Verif.Lemmas.FpInts
import Verif.Props.VersionsSpec

/-! Objects stored by another version of a program: lemmas. -/

namespace Srl.Typed
open Doc

theorem Means.item {ty ty' : Ty} {o o' : Obj} (h : Means ty o ty' o') (nm : Bytes) : toItem nm ty o = toItem nm ty' o' := by
  induction h with
  | same => rfl
  | ptr k e o ty' o' _ ih => rw [toItem, ih]
  | sorted b c o ty' o' _ ih => rw [toItem, ih]

theorem Means.storable {ty ty' : Ty} {o o' : Obj} (h : Means ty o ty' o') (hs : Storable ty o) : Storable ty' o' := by
  induction h with
  | same => exact hs
  | ptr k e o ty' o' _ ih => simp only [Storable] at hs; exact ih hs.1
  | sorted b c o ty' o' _ ih => simp only [Storable] at hs; exact ih hs.2.1

theorem Means.ok {ty ty' : Ty} {o o' : Obj} (h : Means ty o ty' o') (hs : ty.Ok) : ty'.Ok := by
  induction h with
  | same => exact hs
  | ptr k e o ty' o' _ ih => exact ih hs
  | sorted b c o ty' o' _ ih => exact ih hs.1

/-- Sequences are stored as such. -/
theorem Sequence.stored {ty e : Ty} {o : Obj} {xs : List Obj} (h : Sequence ty o e xs) (hok : ty.Ok)
    (hs : Storable ty o) :
    e.Ok ∧ (∀ x ∈ xs, Storable e x) ∧ ∀ nm, toItem nm ty o = .scope nm .array (xs.map fun x => toItem [] e x) := by
  rcases h with h | ⟨k, h⟩
  · have h1 := h.ok hok
    have h2 := h.storable hs
    simp only [Storable] at h2
    exact ⟨h1, h2, fun nm => by rw [h.item, toItem]⟩
  · have h1 := h.ok hok
    have h2 := h.storable hs
    simp only [Storable] at h2
    exact ⟨h1, h2.2, fun nm => by rw [h.item, toItem]⟩

theorem null_or : ∀ (ty : Ty) (o : Obj), Storable ty o → o.isNull = true → Null ty o
  | .ptr k e, .null, _, _ => ⟨k, e, .same _ _⟩
  | .ptr k e, .ref o, h, hn => by
    simp only [Storable] at h
    obtain ⟨k', e', h'⟩ := null_or e o h.1 hn
    exact ⟨k', e', .ptr _ _ _ _ _ h'⟩
  | .sorted b c, o, h, hn => by
    simp only [Storable] at h
    obtain ⟨k', e', h'⟩ := null_or c o h.2.1 hn
    exact ⟨k', e', .sorted _ _ _ _ _ h'⟩
  | .bool, .null, h, _ => by simp [Storable] at h
  | .bool, .ref _, h, _ => by simp [Storable] at h
  | .int _, .null, h, _ => by simp [Storable] at h
  | .int _, .ref _, h, _ => by simp [Storable] at h
  | .float, .null, h, _ => by simp [Storable] at h
  | .float, .ref _, h, _ => by simp [Storable] at h
  | .double, .null, h, _ => by simp [Storable] at h
  | .double, .ref _, h, _ => by simp [Storable] at h
  | .str, .null, h, _ => by simp [Storable] at h
  | .str, .ref _, h, _ => by simp [Storable] at h
  | .bytes, .null, h, _ => by simp [Storable] at h
  | .bytes, .ref _, h, _ => by simp [Storable] at h
  | .vec _, .null, h, _ => by simp [Storable] at h
  | .vec _, .ref _, h, _ => by simp [Storable] at h
  | .named _, .null, h, _ => by simp [Storable] at h
  | .named _, .ref _, h, _ => by simp [Storable] at h
  | .arr _ _, .null, h, _ => by simp [Storable] at h
  | .arr _ _, .ref _, h, _ => by simp [Storable] at h
  | .record _ _ _, .null, h, _ => by simp [Storable] at h
  | .record _ _ _, .ref _, h, _ => by simp [Storable] at h

theorem Pairwise2.norm {nv : Val → Val} {R : Obj → Obj → Prop} {R' : Obj → Item → Prop} {b : Bool}
    {f : Obj → Item} : ∀ {ys xs : List Obj}, Pairwise2 R ys xs →
    (∀ y x, x ∈ xs → R y x → R' y (Norm.item nv b (f x))) → Pairwise2 R' ys (Norm.items nv b (xs.map f))
  | _, _, .nil, _ => .nil
  | _, _, .cons y x ys xs h hs, hr => .cons _ _ _ _ (hr y x List.mem_cons_self h)
    (hs.norm fun y x hx => hr y x (List.mem_cons_of_mem _ hx))

theorem Pairwise2.norm_zip {nv : Val → Val} {R : Obj × Obj → Obj → Prop} {R' : Obj × Obj → Item → Prop} {b : Bool}
    {f : Obj → Item} : ∀ {ys : List (Obj × Obj)} {xs : List Obj}, Pairwise2 R ys xs →
    (∀ y x, x ∈ xs → R y x → R' y (Norm.item nv b (f x))) → Pairwise2 R' ys (Norm.items nv b (xs.map f))
  | _, _, .nil, _ => .nil
  | _, _, .cons y x ys xs h hs, hr => .cons _ _ _ _ (hr y x List.mem_cons_self h)
    (hs.norm_zip fun y x hx => hr y x (List.mem_cons_of_mem _ hx))

theorem norm_length (nv : Val → Val) (b : Bool) (is : List Item) : (Norm.items nv b is).length = is.length := by
  induction is with
  | nil => rfl
  | cons i is ih => simp [Norm.items, ih]

theorem norm_mem {nv : Val → Val} {b : Bool} {i : Item} : ∀ {is : List Item}, i ∈ Norm.items nv b is ↔
    ∃ j ∈ is, i = Norm.item nv b j
  | [] => by simp [Norm.items]
  | j :: is => by
    simp only [Norm.items, List.mem_cons, norm_mem (is := is), exists_eq_or_imp]

theorem Member.item {fs : Fields} {xs : List Obj} {name : Bytes} {ty : Ty} {x : Obj} (h : Member fs xs name ty x) :
    toItem name ty x ∈ fieldItems fs xs := by
  induction h with
  | here => simp [fieldItems]
  | there _ _ _ _ _ _ _ _ _ _ ih => rw [fieldItems]; exact List.mem_cons_of_mem _ ih

theorem Member.stored {fs : Fields} {xs : List Obj} {name : Bytes} {ty : Ty} {x : Obj} (h : Member fs xs name ty x)
    (hok : fs.Ok) (hs : StorableL fs xs) : ty.Ok ∧ Storable ty x := by
  induction h with
  | here => simp only [StorableL] at hs; exact ⟨hok.1, hs.1⟩
  | there _ _ _ _ _ _ _ _ _ _ ih => simp only [StorableL] at hs; exact ih hok.2 hs.2.2

/-- Every member is one. -/
theorem member_found {i : Item} : ∀ {fs : Fields} {xs : List Obj}, i ∈ fieldItems fs xs →
    ∃ name ty x, Member fs xs name ty x ∧ i = toItem name ty x
  | .nil, _, h => by simp [fieldItems] at h
  | .cons _ _ _ _, [], h => by simp [fieldItems] at h
  | .cons nm opt ty rest, x :: xs, h => by
    rw [fieldItems] at h
    rcases List.mem_cons.mp h with rfl | h
    · exact ⟨nm, ty, x, .here _ _ _ _ _ _, rfl⟩
    · obtain ⟨n, t, y, h1, h2⟩ := member_found h
      exact ⟨n, t, y, .there _ _ _ _ _ _ _ _ _ h1, h2⟩

/-- Names and kinds of stored objects -/
theorem stored_kind {nv : Val → Val} {ty : Ty} {o : Obj} (hs : Storable ty o) (b : Bool) (nm : Bytes) :
    itemName (Norm.item nv b (toItem nm ty o)) = (if b then nm else []) ∧
      itemScope (Norm.item nv b (toItem nm ty o)) = ty.isScope := by
  by_cases h : ty.isScope = true
  · rw [norm_scope nv hs h]
    simp [itemName, itemScope, h]
  · rw [Bool.not_eq_true] at h
    obtain ⟨v, h1, -⟩ := stored_value ty o hs h
    rw [h1]
    simp [Norm.item, itemName, itemScope, h]

theorem member_names (nv : Val → Val) : ∀ (fs : Fields) (xs : List Obj), StorableL fs xs →
    (Norm.items nv true (fieldItems fs xs)).map itemName = fs.names
  | .nil, [], _ => rfl
  | .nil, _ :: _, h => by simp [StorableL] at h
  | .cons _ _ _ _, [], h => by simp [StorableL] at h
  | .cons nm opt ty rest, x :: xs, h => by
    simp only [StorableL] at h
    simp only [fieldItems, Norm.items, List.map_cons, Fields.names, member_names nv rest xs h.2.2, (stored_kind h.1 true nm).1,
      if_true]

variable {nv : Val → Val} {env : Env}

/-- Values that are restored as what they were -/
theorem same_val (hk : Keeps nv) {ty' ty : Ty} {o' o : Obj} (hs : Storable ty o) (h : Means ty o ty' o')
    (hty : ty'.isScope = false) (old : Obj) (b : Bool) (nm : Bytes) :
    DescVal env ty' old o' (Norm.item nv b (toItem nm ty o)) := by
  obtain ⟨v, h1, h2⟩ := stored_value ty' o' (h.storable hs) hty
  rw [h.item, h1]
  exact ⟨_, _, rfl, (h2 nv hk).2 env old⟩

mutual
/-- What has been stored says what it is for a program with other types. -/
theorem desc_as (hk : Keeps nv) : ∀ (ty' : Ty) (old o' : Obj) (ty : Ty) (o : Obj) (nm : Bytes) (b : Bool), ty'.Ok →
    ty.Ok → Storable ty o → ReadAs ty' old o' ty o → Desc env ty' old o' (Norm.item nv b (toItem nm ty o))
  | .bool, old, o', ty, o, nm, b, _, hok, hs, h => by
    obtain ⟨x, rfl, h⟩ := h
    exact same_val hk hs h rfl old b nm
  | .int t', old, o', ty, o, nm, b, _, hok, hs, h => by
    obtain ⟨k, t, rfl, h, h1, h2⟩ := h
    have h3 := h.storable hs
    simp only [Storable] at h3
    obtain ⟨t'', h4, h5, h6⟩ := hk.int t k h3.1 h3.2
    rw [h.item, toItem]
    refine ⟨_, _, rfl, ?_⟩
    rw [h4]
    simp only [pasteVal, int_paste env.strtod t' t'' k h1 h2 h5 h6, Res.ok_bind]
  | .float, old, o', ty, o, nm, b, _, hok, hs, h => by
    obtain ⟨x, rfl, h | ⟨k, t, h, h1, h2⟩⟩ := h
    · exact same_val hk hs h rfl old b nm
    · have h3 := h.storable hs
      simp only [Storable] at h3
      obtain ⟨t', h4, -, -⟩ := hk.int t k h3.1 h3.2
      rw [h.item, toItem]
      refine ⟨_, _, rfl, ?_⟩
      simp only [h4, pasteVal, Apply.pasteFp, Apply.toFloat, Fp.ofInt32_exact x k h1 h2, Res.ok_bind]
  | .double, old, o', ty, o, nm, b, _, hok, hs, h => by
    obtain ⟨x, rfl, h | ⟨f, h, rfl⟩ | ⟨k, t, h, h1, h2⟩⟩ := h
    · exact same_val hk hs h rfl old b nm
    · rw [h.item, toItem]
      refine ⟨_, _, rfl, ?_⟩
      simp only [pasteVal, hk.widen, Res.ok_bind]
    · have h3 := h.storable hs
      simp only [Storable] at h3
      obtain ⟨t', h4, -, -⟩ := hk.int t k h3.1 h3.2
      rw [h.item, toItem]
      refine ⟨_, _, rfl, ?_⟩
      simp only [h4, pasteVal, Apply.pasteFp, Apply.toDouble, Fp.ofInt64_exact x k h1 h2, Res.ok_bind]
  | .str, old, o', ty, o, nm, b, _, hok, hs, h => by
    obtain ⟨x, rfl, h⟩ := h
    exact same_val hk hs h rfl old b nm
  | .bytes, old, o', ty, o, nm, b, _, hok, hs, h => by
    obtain ⟨x, rfl, h⟩ := h
    exact same_val hk hs h rfl old b nm
  | .vec e', old, o', ty, o, nm, b, hok', hok, hs, h => by
    obtain ⟨e, xs, ys, h, rfl, hp⟩ := h
    obtain ⟨h1, h2, h3⟩ := h.stored hok hs
    rw [h3]
    exact ⟨ys, _, _, _, rfl, rfl, hp.norm fun y x hx hr => desc_as hk e' _ y e x [] _ hok' h1 (h2 x hx) hr⟩
  | .arr k e', old, o', ty, o, nm, b, hok', hok, hs, h => by
    obtain ⟨e, xs, os, ys, h, rfl, rfl, hx, hy, ho, hp⟩ := h
    obtain ⟨h1, h2, h3⟩ := h.stored hok hs
    rw [h3]
    exact ⟨os, ys, _, _, _, rfl, rfl, rfl, by rw [norm_length, List.length_map, hx], hy, ho,
      hp.norm_zip fun y x hx hr => desc_as hk e' _ y.2 e x [] _ hok' h1 (h2 x hx) hr⟩
  | .named e', old, o', ty, o, nm, b, hok', hok, hs, h => by
    obtain ⟨e, xs, ys, h, rfl, hp⟩ := h
    have h1 := h.ok hok
    have h2 := h.storable hs
    simp only [Storable] at h2
    rw [h.item, toItem]
    refine ⟨ys, _, _, rfl, rfl, hp.norm fun y x hx hr => ?_⟩
    obtain ⟨n, z, w, rfl, rfl, hr⟩ := hr
    obtain ⟨n', w', he, hst⟩ := h2 _ hx
    cases he
    exact ⟨z, by rw [show (entry (.many [.str n, w])) = (n, w) from rfl, (stored_kind hst _ _).1]; rfl,
      desc_as hk e' _ z e w n _ hok' h1 hst hr⟩
  | .record .object st' fs', old, o', ty, o, nm, b, hok', hok, hs, h => by
    obtain ⟨st, fs, xs, os, ys, h, rfl, rfl, hm⟩ := h
    have h1 := h.ok hok
    have h2 := h.storable hs
    simp only [Storable] at h2
    have hn : fs.Named := by
      rcases h1.2 with ⟨-, h⟩ | ⟨h, -⟩
      · exact h
      · cases h
    rw [h.item, toItem]
    refine ⟨os, ys, _, _, rfl, rfl, rfl, ?_, ?_⟩
    · rw [beq_self_eq_true, member_names nv fs xs h2]
      exact hn.2
    · exact members_as hk fs' os ys fs xs hok'.1 h1.1 h2 hm
  | .record .array st' fs', old, o', ty, o, nm, b, hok', hok, hs, h => by
    obtain ⟨st, fs, xs, os, ys, h, rfl, rfl, hm⟩ := h
    have h1 := h.ok hok
    have h2 := h.storable hs
    simp only [Storable] at h2
    rw [h.item, toItem]
    exact ⟨os, ys, _, _, _, rfl, rfl, rfl, tuple_as hk fs' os ys fs xs _ hok'.1 h1.1 h2 hm⟩
  | .ptr k e', old, o', ty, o, nm, b, hok', hok, hs, h => by
    rcases h with ⟨rfl, hs', rfl, k', e, h⟩ | ⟨y, rfl, hn, h⟩
    · refine .inl ⟨hs', ?_⟩
      rw [h.item, toItem]
      · refine ⟨_, _, rfl, ?_⟩
        rw [hk.null]
        rfl
      all_goals simp
    · have ih := desc_as hk e' _ y ty o nm b hok' hok hs h
      cases hs' : e'.isScope with
      | true => exact .inr ⟨hs', y, rfl, ih⟩
      | false =>
        refine .inl ⟨hs', ?_⟩
        have hty : ty.isScope = false := by
          rw [← (stored_kind (nv := nv) hs b nm).2, desc_kind e' _ _ _ ih, hs']
        obtain ⟨n, w, h1, h2⟩ := desc_val e' _ _ _ hs' hok' ih
        refine ⟨n, w, h1, ?_⟩
        have : ¬ (k = .raw ∧ w = .null) := by
          rintro ⟨rfl, rfl⟩
          obtain ⟨v, h3, h4⟩ := stored_value ty o hs hty
          rw [h3, Norm.item] at h1
          refine (h4 nv hk).1 ?_ (Item.val.inj h1).2
          by_contra hc
          exact hn rfl (null_or ty o hs (by simpa using hc))
        simp only [pasteVal, if_neg this, h2, Res.ok_bind]
  | .sorted b c', old, o', ty, o, nm, b', hok', hok, hs, h => by
    obtain ⟨xs, ys, h, rfl, h1, h2⟩ := h
    have ih := desc_as hk c' _ _ ty o nm b' hok'.1 hok hs h
    obtain ⟨hd, hsc⟩ := elems_dflt hok'.2
    obtain ⟨n, t, kids, he⟩ := scope_of_kind ((desc_kind c' _ _ _ ih).trans hsc)
    rw [he, ← hd] at ih
    rw [he]
    have hp := Proper.pasteNode_proper env c' (dflt c') (nodeOf t kids) hok'.1 (Proper.dflt_proper c' hok'.1) _
      (node_desc c' _ _ n t kids hok'.1 ih)
    exact ⟨.many xs, ih, (Props.collected hok'.2 (Proper.proper_wt _ _ hp) _).mpr ⟨ys, rfl, h1, h2⟩⟩
theorem members_as (hk : Keeps nv) : ∀ (fs' : Fields) (os ys : List Obj) (fs : Fields) (xs : List Obj), fs'.Ok →
    fs.Ok → StorableL fs xs → MembersAs fs' os ys fs xs →
    DescMembers env fs' os ys (Norm.items nv true (fieldItems fs xs))
  | .nil, _, _, _, _, _, _, _, h => h
  | .cons name opt ty' rest, os, ys, fs, xs, hok', hok, hs, h => by
    obtain ⟨o, os', y, ys', rfl, rfl, h, hr⟩ := h
    refine ⟨o, os', y, ys', rfl, rfl, ?_, members_as hk rest os' ys' fs xs hok'.2 hok hs hr⟩
    rcases h with ⟨ty, x, hm, h⟩ | ⟨h1, h2, h3⟩
    · obtain ⟨g1, g2⟩ := hm.stored hok hs
      exact .inl ⟨_, norm_mem.mpr ⟨_, hm.item, rfl⟩, (stored_kind g2 true name).1,
        desc_as hk ty' _ _ ty x name true hok'.1 g1 g2 h⟩
    · exact .inr ⟨h1, by rw [member_names nv fs xs hs]; exact h2, h3⟩
theorem tuple_as (hk : Keeps nv) : ∀ (fs' : Fields) (os ys : List Obj) (fs : Fields) (xs : List Obj) (b : Bool), fs'.Ok →
    fs.Ok → StorableL fs xs → TupleAs fs' os ys fs xs →
    DescTuple env fs' os ys (Norm.items nv b (fieldItems fs xs))
  | .nil, _, _, _, _, b, _, _, _, h => by
    obtain ⟨rfl, rfl, rfl, rfl⟩ := h
    exact ⟨rfl, rfl, rfl⟩
  | .cons name opt ty' rest, os, ys, fs, xs, b, hok', hok, hs, h => by
    obtain ⟨o, os', y, ys', n, opt', ty, fs1, x, xs', rfl, rfl, rfl, rfl, h, hr⟩ := h
    simp only [StorableL] at hs
    rw [fieldItems, Norm.items]
    exact ⟨o, os', y, ys', _, _, rfl, rfl, rfl, desc_as hk ty' _ _ ty x n b hok'.1 hok.1 hs.1 h,
      tuple_as hk rest os' ys' fs1 xs' b hok'.2 hok.2 hs.2.2 hr⟩
end

/-! ### Restoring while reading -/

theorem Member.name {fs : Fields} {xs : List Obj} {name : Bytes} {ty : Ty} {x : Obj} (h : Member fs xs name ty x) :
    name ∈ fs.names := by
  induction h with
  | here => simp [Fields.names]
  | there _ _ _ _ _ _ _ _ _ _ ih => simp [Fields.names, ih]

theorem Member.unique {fs : Fields} {xs : List Obj} {name : Bytes} {ty ty' : Ty} {x x' : Obj}
    (h : Member fs xs name ty x) (h' : Member fs xs name ty' x') (hn : fs.names.Nodup) : ty = ty' ∧ x = x' := by
  induction h with
  | here =>
    simp only [Fields.names, List.nodup_cons] at hn
    cases h' with
    | here => exact ⟨rfl, rfl⟩
    | there _ _ _ _ _ _ _ _ _ h' => exact absurd h'.name hn.1
  | there _ _ _ _ _ _ _ _ _ h ih =>
    simp only [Fields.names, List.nodup_cons] at hn
    cases h' with
    | here => exact absurd h.name hn.1
    | there _ _ _ _ _ _ _ _ _ h' => exact ih h' hn.2

theorem known_val (n : Bytes) (w : Val) : ∀ (ty : Ty), KnownItem ty (.val n w)
  | .bool => trivial
  | .int _ => trivial
  | .float => trivial
  | .double => trivial
  | .str => trivial
  | .bytes => trivial
  | .vec _ => fun _ h => by cases h
  | .arr _ _ => fun _ h => by cases h
  | .named _ => fun _ h => by cases h
  | .record .object _ _ => fun _ h => by cases h
  | .record .array _ .nil => trivial
  | .record .array _ (.cons _ _ _ _) => fun _ _ h => by cases h
  | .ptr _ e => known_val n w e
  | .sorted _ c => known_val n w c

mutual
theorem known_as (nv : Val → Val) : ∀ (ty' : Ty) (old o' : Obj) (ty : Ty) (o : Obj) (nm : Bytes) (b : Bool), ty.Ok →
    Storable ty o → ReadAs ty' old o' ty o → Placed ty' ty o → KnownItem ty' (Norm.item nv b (toItem nm ty o))
  | .bool, _, _, _, _, _, _, _, _, _, _ => trivial
  | .int _, _, _, _, _, _, _, _, _, _, _ => trivial
  | .float, _, _, _, _, _, _, _, _, _, _ => trivial
  | .double, _, _, _, _, _, _, _, _, _, _ => trivial
  | .str, _, _, _, _, _, _, _, _, _, _ => trivial
  | .bytes, _, _, _, _, _, _, _, _, _, _ => trivial
  | .vec e', old, o', ty, o, nm, b, hok, hs, h, hp => by
    obtain ⟨e, xs, ys, h, rfl, hr⟩ := h
    obtain ⟨h1, h2, h3⟩ := h.stored hok hs
    rw [h3]
    intro y hy
    obtain ⟨j, hj, rfl⟩ := norm_mem.mp hy
    obtain ⟨x, hx, rfl⟩ := List.mem_map.mp hj
    obtain ⟨z, -, hz⟩ := hr.mem x hx
    exact known_as nv e' _ z e x [] _ h1 (h2 x hx) hz (hp e xs h x hx)
  | .arr k e', old, o', ty, o, nm, b, hok, hs, h, hp => by
    obtain ⟨e, xs, os, ys, h, rfl, rfl, -, -, -, hr⟩ := h
    obtain ⟨h1, h2, h3⟩ := h.stored hok hs
    rw [h3]
    intro y hy
    obtain ⟨j, hj, rfl⟩ := norm_mem.mp hy
    obtain ⟨x, hx, rfl⟩ := List.mem_map.mp hj
    obtain ⟨z, -, hz⟩ := hr.mem x hx
    exact known_as nv e' _ z.2 e x [] _ h1 (h2 x hx) hz (hp e xs h x hx)
  | .named e', old, o', ty, o, nm, b, hok, hs, h, hp => by
    obtain ⟨e, xs, ys, h, rfl, hr⟩ := h
    have h1 := h.ok hok
    have h2 := h.storable hs
    simp only [Storable] at h2
    rw [h.item, toItem]
    intro y hy
    obtain ⟨j, hj, rfl⟩ := norm_mem.mp hy
    obtain ⟨x, hx, rfl⟩ := List.mem_map.mp hj
    obtain ⟨z, -, n, z', w, rfl, -, hz⟩ := hr.mem x hx
    obtain ⟨n', w', he, hst⟩ := h2 _ hx
    cases he
    exact known_as nv e' _ z' e w _ _ h1 hst hz (hp e xs h n w hx)
  | .record .object st' fs', old, o', ty, o, nm, b, hok, hs, h, hp => by
    obtain ⟨st, fs, xs, os, ys, h, rfl, rfl, hm⟩ := h
    have h1 := h.ok hok
    have h2 := h.storable hs
    simp only [Storable] at h2
    have hn : fs.Named := by
      rcases h1.2 with ⟨-, h⟩ | ⟨h, -⟩
      · exact h
      · cases h
    rw [h.item, toItem]
    intro y hy hsc
    obtain ⟨j, hj, rfl⟩ := norm_mem.mp hy
    obtain ⟨name, t, x, hmem, rfl⟩ := member_found hj
    have h3 := hmem.stored h1.1 h2
    rw [(stored_kind h3.2 _ _).2] at hsc
    exact known_member nv fs' os ys fs xs name t x h1.1 hn.2 h2 hm hmem (hp st fs xs h name t x hmem hsc)
  | .record .array st' fs', old, o', ty, o, nm, b, hok, hs, h, hp => by
    obtain ⟨st, fs, xs, os, ys, h, rfl, rfl, hm⟩ := h
    have h1 := h.ok hok
    have h2 := h.storable hs
    simp only [Storable] at h2
    rw [h.item, toItem]
    exact known_tuple nv fs' os ys fs xs _ h1.1 h2 hm (hp st fs xs h)
  | .ptr k e', old, o', ty, o, nm, b, hok, hs, h, hp => by
    rcases h with ⟨-, -, -, k', e, h⟩ | ⟨y, -, -, h⟩
    · rw [h.item, toItem]
      · exact known_val _ _ e'
      all_goals simp
    · exact known_as nv e' _ y ty o nm b hok hs h hp
  | .sorted b c', old, o', ty, o, nm, b', hok, hs, h, hp => by
    obtain ⟨xs, ys, h, -⟩ := h
    exact known_as nv c' _ _ ty o nm b' hok hs h hp
theorem known_member (nv : Val → Val) : ∀ (fs' : Fields) (os ys : List Obj) (fs : Fields) (xs : List Obj) (name : Bytes)
    (t : Ty) (x : Obj), fs.Ok → fs.names.Nodup → StorableL fs xs → MembersAs fs' os ys fs xs → Member fs xs name t x →
    PlacedIn fs' name t x → KnownMember fs' (Norm.item nv true (toItem name t x))
  | .nil, _, _, _, _, _, _, _, _, _, _, _, _, h => h.elim
  | .cons name' opt ty' rest, os, ys, fs, xs, name, t, x, hok, hn, hs, h, hm, hp => by
    obtain ⟨o, os', y, ys', rfl, rfl, h, hr⟩ := h
    rcases hp with ⟨rfl, hsc, hp⟩ | hp
    · obtain ⟨h1, h2⟩ := hm.stored hok hs
      rcases h with ⟨ty, x', hm', h⟩ | ⟨-, hc, -⟩
      · obtain ⟨rfl, rfl⟩ := hm.unique hm' hn
        exact .inl ⟨(stored_kind h2 true name).1, hsc, known_as nv ty' _ _ t x name true h1 h2 h hp⟩
      · exact absurd hm.name hc
    · exact .inr (known_member nv rest os' ys' fs xs name t x hok hn hs hr hm hp)
theorem known_tuple (nv : Val → Val) : ∀ (fs' : Fields) (os ys : List Obj) (fs : Fields) (xs : List Obj) (b : Bool),
    fs.Ok → StorableL fs xs → TupleAs fs' os ys fs xs → PlacedTuple fs' fs xs →
    KnownItems fs' (Norm.items nv b (fieldItems fs xs))
  | .nil, _, _, _, _, _, _, _, _, _ => trivial
  | .cons name opt ty' rest, os, ys, fs, xs, b, hok, hs, h, hp => by
    obtain ⟨o, os', y, ys', n, opt', ty, fs1, x, xs', rfl, rfl, rfl, rfl, h, hr⟩ := h
    simp only [StorableL] at hs
    rw [fieldItems, Norm.items]
    intro z zs he
    obtain ⟨rfl, rfl⟩ := List.cons.inj he
    obtain ⟨p1, p2⟩ := hp _ _ _ _ _ _ rfl rfl
    exact ⟨known_as nv ty' _ _ ty x n b hok.1 hs.1 h p1, known_tuple nv rest os' ys' fs1 xs' b hok.2 hs.2.2 hr p2⟩
end

/-! ### Whole documents -/

variable {σ : Type}

theorem readAs_kind {ty' ty : Ty} {old o' o : Obj} (hok' : ty'.Ok) (hok : ty.Ok) (hs : Storable ty o)
    (h : ReadAs ty' old o' ty o) : ty'.isScope = ty.isScope := by
  have := desc_as (env := ⟨fun _ => none, fun _ => []⟩) Props.keeps_srl ty' old o' ty o [] false hok' hok hs h
  rw [← desc_kind _ _ _ _ this, (stored_kind hs _ _).2]

theorem as_restored (hk : Keeps nv) (env : Env) (read : σ → Res (Event × σ)) (fuel : Nat) (ty' ty : Ty)
    (old o' o : Obj) (s s' : σ) (hok' : ty'.Ok) (hok : ty.Ok) (hs : Storable ty o) (h : ReadAs ty' old o' ty o)
    (he : Emits read s (Norm.item nv false (rootItem ty o)).events s') (hd : (rootItem ty o).depth ≤ maxDepth + 1)
    (hf : (rootItem ty o).events.length ≤ fuel) :
    loadUnwrap env read fuel ty' old s = .ok o' ∧
      (WT ty' old → Placed ty' ty o → Props.direct env read fuel ty' old s = .ok o') := by
  have hkind := readAs_kind hok' hok hs h
  have hde := desc_as (env := env) hk ty' old o' ty o
  have hkn := known_as nv ty' old o' ty o
  rw [← Norm.events_length nv false] at hf
  unfold rootItem at he hf hd
  by_cases hsc : ty.isScope = true
  · rw [if_pos hsc] at he hf hd
    replace hde := hde [] false hok' hok hs h
    replace hkn := hkn [] false hok hs h
    rw [stored_scope ty o hs hsc, Item.depth] at hd
    rw [norm_scope nv hs hsc] at he hf hde hkn
    simp only [Item.events, List.length_cons, List.length_append] at hf
    obtain ⟨h1, h2⟩ := desc_restored env read fuel ty' old o' _ _ _ s s' he hok' (by rw [Norm.depth_items]; omega)
      (by omega) hde
    exact ⟨h1, fun hw hp => h2 hw (hkn hp)⟩
  · rw [Bool.not_eq_true] at hsc
    obtain ⟨v, h2, h3⟩ := stored_value ty o hs hsc
    obtain ⟨n, w, h4, h5⟩ := desc_val ty' _ _ _ (hkind.trans hsc) hok' (hde [] false hok' hok hs h)
    rw [h2, Norm.item] at h4
    obtain ⟨-, rfl⟩ := Item.val.inj h4
    rw [hsc, if_neg (by simp), h2] at he hf
    simp only [Norm.item, Norm.items, Bool.false_eq_true, if_false, beq_self_eq_true, if_true] at he hf
    constructor
    · have hload := load_item read [] .object [.val (str "value") (nv v)] fuel _ _ he (by
        simp only [Item.events, List.length_cons, List.length_append] at hf
        omega)
      rw [if_pos (by simp [Item.depthL, Item.depth])] at hload
      simp only [loadUnwrap, hload, Res.ok_bind, unwrap, hkind.trans hsc, Bool.false_eq_true, if_false]
      exact h5
    · intro _ _
      simp only [Item.events] at he hf
      obtain ⟨s1, h1, h4⟩ := Emits.cons_inv he
      obtain ⟨s2, h6, h7⟩ := consumeValue_first (fuel := fuel) (sel := .index 0) (t := .object)
        (by simp at hf; omega) rfl h4
      simp only [Props.direct, restore, h1, Res.ok_bind, hkind.trans hsc, if_false, h6, h5, Bool.false_eq_true]

/-! ### Later versions -/

theorem Pairwise2.exists {R : Obj → Obj → Prop} : ∀ {xs : List Obj}, (∀ x ∈ xs, ∃ y, R y x) → ∃ ys, Pairwise2 R ys xs
  | [], _ => ⟨[], .nil⟩
  | x :: xs, h => by
    obtain ⟨y, hy⟩ := h x List.mem_cons_self
    obtain ⟨ys, hys⟩ := Pairwise2.exists fun x hx => h x (List.mem_cons_of_mem _ hx)
    exact ⟨y :: ys, .cons _ _ _ _ hy hys⟩

theorem Pairwise2.exists_zip {R : Obj × Obj → Obj → Prop} : ∀ {os xs : List Obj}, os.length = xs.length →
    (∀ o ∈ os, ∀ x ∈ xs, ∃ y, R (o, y) x) → ∃ ys, ys.length = xs.length ∧ Pairwise2 R (os.zip ys) xs
  | [], [], _, _ => ⟨[], rfl, .nil⟩
  | o :: os, x :: xs, hl, h => by
    obtain ⟨y, hy⟩ := h o List.mem_cons_self x List.mem_cons_self
    obtain ⟨ys, h1, h2⟩ := Pairwise2.exists_zip (R := R) (os := os) (xs := xs) (by simpa using hl)
      fun o ho x hx => h o (List.mem_cons_of_mem _ ho) x (List.mem_cons_of_mem _ hx)
    exact ⟨y :: ys, by simp [h1], .cons _ _ _ _ hy h2⟩

theorem null_isNull {ty : Ty} {o : Obj} (h : Null ty o) : o.isNull = true := by
  obtain ⟨k, e, h⟩ := h
  generalize hp : Ty.ptr k e = p at h
  generalize hn : Obj.null = n at h
  induction h with
  | same => rw [← hn]; rfl
  | ptr _ _ _ _ _ _ ih => exact ih hp hn
  | sorted _ _ _ _ _ _ ih => exact ih hp hn

/-- What is read from an object is read from pointers to it and from sets and maps that are stored as it. -/
theorem readAs_lift {ty1 ty2 : Ty} {o1 o2 : Obj} (hm : ∀ t x, Means ty1 o1 t x → Means ty2 o2 t x)
    (hn : Null ty2 o2 → Null ty1 o1) :
    ∀ (ty' : Ty) (old o' : Obj), ReadAs ty' old o' ty1 o1 → ReadAs ty' old o' ty2 o2
  | .bool, _, _, h => by obtain ⟨x, h1, h2⟩ := h; exact ⟨x, h1, hm _ _ h2⟩
  | .int _, _, _, h => by obtain ⟨k, t, h1, h2, h3⟩ := h; exact ⟨k, t, h1, hm _ _ h2, h3⟩
  | .float, _, _, h => by
    obtain ⟨x, h1, h2⟩ := h
    exact ⟨x, h1, h2.imp (hm _ _) fun ⟨k, t, h, h'⟩ => ⟨k, t, hm _ _ h, h'⟩⟩
  | .double, _, _, h => by
    obtain ⟨x, h1, h2⟩ := h
    exact ⟨x, h1, h2.imp (hm _ _) (Or.imp (fun ⟨f, h, h'⟩ => ⟨f, hm _ _ h, h'⟩) fun ⟨k, t, h, h'⟩ => ⟨k, t, hm _ _ h, h'⟩)⟩
  | .str, _, _, h => by obtain ⟨x, h1, h2⟩ := h; exact ⟨x, h1, hm _ _ h2⟩
  | .bytes, _, _, h => by obtain ⟨x, h1, h2⟩ := h; exact ⟨x, h1, hm _ _ h2⟩
  | .vec _, _, _, h => by
    obtain ⟨e, xs, ys, h1, h2⟩ := h
    exact ⟨e, xs, ys, h1.imp (hm _ _) fun ⟨k, h⟩ => ⟨k, hm _ _ h⟩, h2⟩
  | .arr _ _, _, _, h => by
    obtain ⟨e, xs, os, ys, h1, h2⟩ := h
    exact ⟨e, xs, os, ys, h1.imp (hm _ _) fun ⟨k, h⟩ => ⟨k, hm _ _ h⟩, h2⟩
  | .named _, _, _, h => by
    obtain ⟨e, xs, ys, h1, h2⟩ := h
    exact ⟨e, xs, ys, hm _ _ h1, h2⟩
  | .record .object _ _, _, _, h => by
    obtain ⟨st, fs, xs, os, ys, h1, h2⟩ := h
    exact ⟨st, fs, xs, os, ys, hm _ _ h1, h2⟩
  | .record .array _ _, _, _, h => by
    obtain ⟨st, fs, xs, os, ys, h1, h2⟩ := h
    exact ⟨st, fs, xs, os, ys, hm _ _ h1, h2⟩
  | .ptr k e', _, _, h => by
    rcases h with ⟨h1, h2, h3, k', e, h4⟩ | ⟨y, h1, h2, h3⟩
    · exact .inl ⟨h1, h2, h3, k', e, hm _ _ h4⟩
    · exact .inr ⟨y, h1, fun hk hc => h2 hk (hn hc), readAs_lift hm hn e' _ _ h3⟩
  | .sorted b c', _, _, h => by
    obtain ⟨xs, ys, h1, h2⟩ := h
    exact ⟨xs, ys, readAs_lift hm hn c' _ _ h1, h2⟩

theorem has_member {name : Bytes} {ty : Ty} : ∀ {fs : Fields} {xs : List Obj}, fs.Has name ty → StorableL fs xs →
    ∃ x, Member fs xs name ty x
  | .nil, _, h, _ => h.elim
  | .cons _ _ _ _, [], _, hs => by simp [StorableL] at hs
  | .cons _ _ _ _, x :: xs, h, hs => by
    simp only [StorableL] at hs
    rcases h with ⟨rfl, rfl⟩ | h
    · exact ⟨x, .here _ _ _ _ _ _⟩
    · obtain ⟨y, hy⟩ := has_member h hs.2.2
      exact ⟨y, .there _ _ _ _ _ _ _ _ _ hy⟩

theorem newer_kind : ∀ (ty' ty : Ty), Newer ty' ty → ty'.isScope = ty.isScope
  | .bool, _, h => by cases h; rfl
  | .int _, _, h => by obtain ⟨t, rfl, -⟩ := h; rfl
  | .float, _, h => by obtain rfl | ⟨t, rfl, -⟩ := h <;> rfl
  | .double, _, h => by obtain rfl | rfl | ⟨t, rfl, -⟩ := h <;> rfl
  | .str, _, h => by cases h; rfl
  | .bytes, _, h => by cases h; rfl
  | .vec _, _, h => by obtain ⟨e, rfl | ⟨k, rfl⟩, -⟩ := h <;> rfl
  | .arr _ _, _, h => by obtain ⟨e, rfl, -⟩ := h; rfl
  | .named _, _, h => by obtain ⟨e, rfl, -⟩ := h; rfl
  | .record .object _ _, _, h => by obtain ⟨st, fs, rfl, -⟩ := h; rfl
  | .record .array _ _, _, h => by obtain ⟨st, fs, rfl, -⟩ := h; rfl
  | .ptr k e', _, h => by
    rcases h with ⟨e, rfl, h⟩ | ⟨-, h⟩
    · exact newer_kind e' e h
    · exact newer_kind e' _ h
  | .sorted b c', _, h => by
    obtain ⟨c, rfl, h⟩ := h
    exact newer_kind c' c h

mutual
/-- Later versions read everything earlier ones have stored. -/
theorem newer_reads : ∀ (ty' ty : Ty) (old o : Obj), ty'.Ok → ty.Ok → Newer ty' ty → Storable ty o → WT ty' old →
    ∃ o', ReadAs ty' old o' ty o
  | .bool, _, old, o, _, _, h, hs, _ => by
    cases h
    cases o <;> simp only [Storable] at hs
    exact ⟨_, _, rfl, .same _ _⟩
  | .int t', _, old, o, _, _, h, hs, _ => by
    obtain ⟨t, rfl, h1, h2⟩ := h
    cases o <;> simp only [Storable] at hs
    exact ⟨_, _, t, rfl, .same _ _, by omega, by omega⟩
  | .float, _, old, o, _, _, h, hs, _ => by
    obtain rfl | ⟨t, rfl, ht⟩ := h
    · cases o <;> simp only [Storable] at hs
      exact ⟨_, _, rfl, .inl (.same _ _)⟩
    · cases o <;> simp only [Storable] at hs
      rename_i k
      obtain ⟨f, h1, h2⟩ := Fp.int_float k
        (by cases t <;> simp [IntTy.lo, IntTy.hi, IntTy.signed, IntTy.bits] at hs ht ⊢ <;> omega)
        (by cases t <;> simp [IntTy.lo, IntTy.hi, IntTy.signed, IntTy.bits] at hs ht ⊢ <;> omega)
      exact ⟨_, f, rfl, .inr ⟨k, t, .same _ _, h1, h2⟩⟩
  | .double, _, old, o, _, _, h, hs, _ => by
    obtain rfl | rfl | ⟨t, rfl, ht⟩ := h
    · cases o <;> simp only [Storable] at hs
      exact ⟨_, _, rfl, .inl (.same _ _)⟩
    · cases o <;> simp only [Storable] at hs
      exact ⟨_, _, rfl, .inr (.inl ⟨_, .same _ _, rfl⟩)⟩
    · cases o <;> simp only [Storable] at hs
      rename_i k
      obtain ⟨d, h1, h2⟩ := Fp.int_double k
        (by cases t <;> simp [IntTy.lo, IntTy.hi, IntTy.signed, IntTy.bits] at hs ht ⊢ <;> omega)
        (by cases t <;> simp [IntTy.lo, IntTy.hi, IntTy.signed, IntTy.bits] at hs ht ⊢ <;> omega)
      exact ⟨_, d, rfl, .inr (.inr ⟨k, t, .same _ _, h1, h2⟩)⟩
  | .str, _, old, o, _, _, h, hs, _ => by
    cases h
    cases o <;> simp only [Storable] at hs
    exact ⟨_, _, rfl, .same _ _⟩
  | .bytes, _, old, o, _, _, h, hs, _ => by
    cases h
    cases o <;> simp only [Storable] at hs
    exact ⟨_, _, rfl, .same _ _⟩
  | .vec e', ty, old, o, hok', hok, h, hs, hw => by
    obtain ⟨e, hty, h⟩ := h
    have key : ∃ xs, Sequence ty o e xs := by
      rcases hty with rfl | ⟨k, rfl⟩
      · cases o <;> simp only [Storable] at hs
        exact ⟨_, .inl (.same _ _)⟩
      · cases o <;> simp only [Storable] at hs
        exact ⟨_, .inr ⟨k, .same _ _⟩⟩
    obtain ⟨xs, hseq⟩ := key
    obtain ⟨h1, h2, -⟩ := hseq.stored hok hs
    obtain ⟨ys, hys⟩ := Pairwise2.exists (R := fun y x => ReadAs e' (dflt e') y e x) fun x hx =>
      newer_reads e' e (dflt e') x hok' h1 h (h2 x hx) (dflt_wt e')
    exact ⟨.many ys, e, xs, ys, hseq, rfl, hys⟩
  | .arr k e', _, old, o, hok', hok, h, hs, hw => by
    obtain ⟨e, rfl, h⟩ := h
    cases o <;> simp only [Storable] at hs
    rename_i xs
    cases old <;> simp only [WT] at hw
    rename_i os
    obtain ⟨ys, h1, h2⟩ := Pairwise2.exists_zip (R := fun p x => ReadAs e' p.1 p.2 e x) (os := os) (xs := xs)
      (hw.1.trans hs.1.symm) fun p hp x hx => newer_reads e' e p x hok' hok h (hs.2 x hx) (hw.2 p hp)
    exact ⟨.many ys, e, xs, os, ys, .inr ⟨k, .same _ _⟩, rfl, rfl, hs.1, h1.trans hs.1, hw.1, h2⟩
  | .named e', _, old, o, hok', hok, h, hs, hw => by
    obtain ⟨e, rfl, h⟩ := h
    cases o <;> simp only [Storable] at hs
    rename_i xs
    obtain ⟨ys, hys⟩ := Pairwise2.exists (R := fun y x => ∃ n z w, x = .many [.str n, w] ∧ y = .many [.str n, z] ∧
      ReadAs e' (dflt e') z e w) (xs := xs) fun x hx => by
        obtain ⟨n, w, rfl, hst⟩ := hs x hx
        obtain ⟨z, hz⟩ := newer_reads e' e (dflt e') w hok' hok h hst (dflt_wt e')
        exact ⟨_, n, z, w, rfl, rfl, hz⟩
    exact ⟨.many ys, e, xs, ys, .same _ _, rfl, hys⟩
  | .record .object st' fs', _, old, o, hok', hok, h, hs, hw => by
    obtain ⟨st, fs, rfl, h⟩ := h
    cases o <;> simp only [Storable] at hs
    rename_i xs
    cases old <;> simp only [WT] at hw
    rename_i os
    obtain ⟨ys, hys⟩ := newer_members fs' fs os xs hok'.1 hok.1 h hs hw
    exact ⟨.many ys, st, fs, xs, os, ys, .same _ _, rfl, rfl, hys⟩
  | .record .array st' fs', _, old, o, hok', hok, h, hs, hw => by
    obtain ⟨st, fs, rfl, h⟩ := h
    cases o <;> simp only [Storable] at hs
    rename_i xs
    cases old <;> simp only [WT] at hw
    rename_i os
    obtain ⟨ys, hys⟩ := newer_tuple fs' fs os xs hok'.1 hok.1 h hs hw
    exact ⟨.many ys, st, fs, xs, os, ys, .same _ _, rfl, rfl, hys⟩
  | .ptr k e', ty, old, o, hok', hok, h, hs, hw => by
    rcases h with ⟨e, rfl, h⟩ | ⟨hk, h⟩
    · cases o with
      | null =>
        simp only [Storable] at hs
        exact ⟨.null, .inl ⟨hs.1, (newer_kind e' e h).trans hs.2, rfl, k, e, .same _ _⟩⟩
      | ref x =>
        have hs0 := hs
        simp only [Storable] at hs
        obtain ⟨y, hy⟩ := newer_reads e' e (dflt e') x hok' hok h hs.1 (dflt_wt e')
        refine ⟨.ref y, .inr ⟨y, rfl, fun hk hn => ?_, readAs_lift (fun t z hm => .ptr _ _ _ _ _ hm) (fun hn => ?_) e' _ _ hy⟩⟩
        · have := null_isNull hn
          rw [Obj.isNull, hs.2 hk] at this
          cases this
        · have := null_isNull hn
          rw [Obj.isNull] at this
          exact null_or e x hs.1 this
      | _ => simp [Storable] at hs
    · obtain ⟨y, hy⟩ := newer_reads e' ty (dflt e') o hok' hok h hs (dflt_wt e')
      exact ⟨.ref y, .inr ⟨y, rfl, fun h => absurd h hk, hy⟩⟩
  | .sorted b c', _, old, o, hok', hok, h, hs, hw => by
    obtain ⟨c, rfl, h⟩ := h
    have hs0 := hs
    simp only [Storable] at hs
    obtain ⟨hd, hsc⟩ := elems_dflt hok'.2
    obtain ⟨z, hz⟩ := newer_reads c' c (dflt c') o hok'.1 hok.1 h hs.2.1 (dflt_wt c')
    have hde := desc_as (env := ⟨fun _ => none, fun _ => []⟩) Props.keeps_srl c' _ _ c o [] false hok'.1 hok.1 hs.2.1 hz
    obtain ⟨n, t, kids, he⟩ := scope_of_kind ((desc_kind c' _ _ _ hde).trans hsc)
    rw [he] at hde
    have hp := Proper.proper_wt _ _ (Proper.pasteNode_proper _ c' (dflt c') (nodeOf t kids) hok'.1
      (Proper.dflt_proper c' hok'.1) _ (node_desc c' _ _ n t kids hok'.1 hde))
    obtain ⟨Q, -, hQ⟩ := keyed_elems hok'.2
    obtain ⟨zs, rfl, -⟩ := (hQ _).mp hp
    obtain ⟨ys, hy⟩ := (Props.collected hok'.2 hp (collect b (.many zs))).mp rfl
    rw [hd] at hz
    exact ⟨_, zs, ys, readAs_lift (fun t z hm => .sorted _ _ _ _ _ hm) (fun hn => null_or c o hs.2.1 (null_isNull hn))
      c' _ _ hz, hy⟩
theorem newer_members : ∀ (fs' fs : Fields) (os xs : List Obj), fs'.Ok → fs.Ok → NewerMembers fs' fs → StorableL fs xs →
    WTL fs' os → ∃ ys, MembersAs fs' os ys fs xs
  | .nil, fs, os, xs, _, _, _, _, hw => by
    cases os <;> simp only [WTL] at hw
    exact ⟨[], rfl, rfl⟩
  | .cons name opt ty' rest, fs, os, xs, hok', hok, h, hs, hw => by
    cases os <;> simp only [WTL] at hw
    rename_i o os
    obtain ⟨ys, hys⟩ := newer_members rest fs os xs hok'.2 hok h.2 hs hw.2
    rcases h.1 with ⟨ty, h1, h2⟩ | ⟨h1, h2⟩
    · obtain ⟨x, hx⟩ := has_member h1 hs
      obtain ⟨g1, g2⟩ := hx.stored hok hs
      obtain ⟨y, hy⟩ := newer_reads ty' ty o x hok'.1 g1 h2 g2 hw.1
      exact ⟨y :: ys, o, os, y, ys, rfl, rfl, .inl ⟨ty, x, hx, hy⟩, hys⟩
    · exact ⟨o :: ys, o, os, o, ys, rfl, rfl, .inr ⟨h1, h2, rfl⟩, hys⟩
theorem newer_tuple : ∀ (fs' fs : Fields) (os xs : List Obj), fs'.Ok → fs.Ok → NewerTuple fs' fs → StorableL fs xs →
    WTL fs' os → ∃ ys, TupleAs fs' os ys fs xs
  | .nil, fs, os, xs, _, _, h, hs, hw => by
    cases h
    cases os <;> simp only [WTL] at hw
    cases xs <;> simp only [StorableL] at hs
    exact ⟨[], rfl, rfl, rfl, rfl⟩
  | .cons name opt ty' rest, fs, os, xs, hok', hok, h, hs, hw => by
    obtain ⟨n, opt', ty, fs1, rfl, h1, h2⟩ := h
    cases os <;> simp only [WTL] at hw
    rename_i o os
    cases xs <;> simp only [StorableL] at hs
    rename_i x xs
    obtain ⟨y, hy⟩ := newer_reads ty' ty o x hok'.1 hok.1 h1 hs.1 hw.1
    obtain ⟨ys, hys⟩ := newer_tuple rest fs1 os xs hok'.2 hok.2 h2 hs.2.2 hw.2
    exact ⟨y :: ys, o, os, y, ys, n, opt', ty, fs1, x, xs, rfl, rfl, rfl, rfl, hy, hys⟩
end

theorem placed_lift {ty1 ty2 : Ty} {o1 o2 : Obj} (hm : ∀ t x, (∀ k e, t ≠ .ptr k e) → (∀ b c, t ≠ .sorted b c) →
    Means ty2 o2 t x → Means ty1 o1 t x) : ∀ (ty' : Ty), Placed ty' ty1 o1 → Placed ty' ty2 o2
  | .bool, _ => trivial
  | .int _, _ => trivial
  | .float, _ => trivial
  | .double, _ => trivial
  | .str, _ => trivial
  | .bytes, _ => trivial
  | .vec e', h => fun e xs hs => h e xs (hs.imp (hm _ _ (by simp) (by simp)) fun ⟨k, h⟩ => ⟨k, hm _ _ (by simp) (by simp) h⟩)
  | .arr _ e', h => fun e xs hs => h e xs (hs.imp (hm _ _ (by simp) (by simp)) fun ⟨k, h⟩ => ⟨k, hm _ _ (by simp) (by simp) h⟩)
  | .named _, h => fun e xs hs => h e xs (hm _ _ (by simp) (by simp) hs)
  | .record .object _ _, h => fun st fs xs hs => h st fs xs (hm _ _ (by simp) (by simp) hs)
  | .record .array _ _, h => fun st fs xs hs => h st fs xs (hm _ _ (by simp) (by simp) hs)
  | .ptr _ e', h => placed_lift hm e' h
  | .sorted _ c', h => placed_lift hm c' h

theorem placed_null (k : PtrKind) (e : Ty) : ∀ (ty' : Ty), Placed ty' (.ptr k e) .null
  | .bool => trivial
  | .int _ => trivial
  | .float => trivial
  | .double => trivial
  | .str => trivial
  | .bytes => trivial
  | .vec e' => fun e xs hs => by rcases hs with h | ⟨k, h⟩ <;> cases h
  | .arr _ e' => fun e xs hs => by rcases hs with h | ⟨k, h⟩ <;> cases h
  | .named _ => fun e xs hs => by cases hs
  | .record .object _ _ => fun st fs xs hs => by cases hs
  | .record .array _ _ => fun st fs xs hs => by cases hs
  | .ptr _ e' => placed_null k e e'
  | .sorted _ c' => placed_null k e c'

theorem Member.has {fs : Fields} {xs : List Obj} {name : Bytes} {ty : Ty} {x : Obj} (h : Member fs xs name ty x) :
    fs.Has name ty := by
  induction h with
  | here => exact .inl ⟨rfl, rfl⟩
  | there _ _ _ _ _ _ _ _ _ _ ih => exact .inr ih

mutual
theorem newer_placed : ∀ (ty' ty : Ty) (o : Obj), ty.Ok → Newer ty' ty → LosesValues ty' ty → Storable ty o →
    Placed ty' ty o
  | .bool, _, _, _, _, _, _ => trivial
  | .int _, _, _, _, _, _, _ => trivial
  | .float, _, _, _, _, _, _ => trivial
  | .double, _, _, _, _, _, _ => trivial
  | .str, _, _, _, _, _, _ => trivial
  | .bytes, _, _, _, _, _, _ => trivial
  | .vec e', ty, o, hok, h, hl, hs => by
    obtain ⟨e, hty, h⟩ := h
    intro e1 xs hseq x hx
    obtain ⟨h1, h2, -⟩ := hseq.stored hok hs
    obtain rfl : e1 = e := by
      rcases hty with rfl | ⟨k, rfl⟩ <;> rcases hseq with h | ⟨k', h⟩ <;> cases h <;> rfl
    exact newer_placed e' e1 x h1 h (hl e1 hty) (h2 x hx)
  | .arr k e', _, o, hok, h, hl, hs => by
    obtain ⟨e, rfl, h⟩ := h
    intro e1 xs hseq x hx
    obtain ⟨h1, h2, -⟩ := hseq.stored hok hs
    obtain rfl : e1 = e := by
      rcases hseq with h | ⟨k', h⟩ <;> cases h
      rfl
    exact newer_placed e' e1 x h1 h (hl e1 (.inr ⟨k, rfl⟩)) (h2 x hx)
  | .named e', _, o, hok, h, hl, hs => by
    obtain ⟨e, rfl, h⟩ := h
    intro e1 xs hm n w hx
    cases hm
    simp only [Storable] at hs
    obtain ⟨n', w', he, hst⟩ := hs _ hx
    cases he
    exact newer_placed e' e w hok h (hl e rfl) hst
  | .record .object st' fs', _, o, hok, h, hl, hs => by
    obtain ⟨st, fs, rfl, h⟩ := h
    have hn : fs.Named := by
      rcases hok.2 with ⟨-, h⟩ | ⟨h, -⟩
      · exact h
      · cases h
    intro st1 fs1 xs hm name t x hmem hsc
    cases hm
    simp only [Storable] at hs
    obtain ⟨g1, g2⟩ := hmem.stored hok.1 hs
    exact newer_placedIn fs' fs name t x hn.2 h g1 g2 hmem.has (hl st fs rfl name t hmem.has hsc)
  | .record .array st' fs', _, o, hok, h, hl, hs => by
    obtain ⟨st, fs, rfl, h⟩ := h
    intro st1 fs1 xs hm
    cases hm
    simp only [Storable] at hs
    exact newer_placedTuple fs' fs xs hok.1 h (hl st fs rfl) hs
  | .ptr k e', ty, o, hok, h, hl, hs => by
    rcases h with ⟨e, rfl, h⟩ | ⟨-, h⟩
    · cases o with
      | null => exact placed_null k e e'
      | ref x =>
        simp only [Storable] at hs
        refine placed_lift (fun t z h1 _ hm => ?_) e' (newer_placed e' e x hok h (hl.1 k e rfl) hs.1)
        cases hm with
        | same => exact absurd rfl (h1 k e)
        | ptr _ _ _ _ _ hm => exact hm
      | _ => simp [Storable] at hs
    · exact newer_placed e' ty o hok h hl.2 hs
  | .sorted b c', _, o, hok, h, hl, hs => by
    obtain ⟨c, rfl, h⟩ := h
    simp only [Storable] at hs
    refine placed_lift (fun t z _ h1 hm => ?_) c' (newer_placed c' c o hok.1 h (hl b c rfl) hs.2.1)
    cases hm with
    | same => exact absurd rfl (h1 b c)
    | sorted _ _ _ _ _ hm => exact hm
theorem newer_placedIn : ∀ (fs' fs : Fields) (name : Bytes) (t : Ty) (x : Obj), fs.names.Nodup → NewerMembers fs' fs →
    t.Ok → Storable t x → fs.Has name t → LosesValuesIn fs' name t → PlacedIn fs' name t x
  | .nil, _, _, _, _, _, _, _, _, _, h => h.elim
  | .cons name' opt ty' rest, fs, name, t, x, hn, h, hok, hs, hm, hl => by
    rcases hl with ⟨rfl, hsc, hl⟩ | hl
    · refine .inl ⟨rfl, hsc, ?_⟩
      rcases h.1 with ⟨ty, h1, h2⟩ | ⟨-, h2⟩
      · rw [← Fields.Has.unique hn hm h1] at h2
        exact newer_placed ty' t x hok h2 hl hs
      · exact absurd hm.name h2
    · exact .inr (newer_placedIn rest fs name t x hn h.2 hok hs hm hl)
theorem newer_placedTuple : ∀ (fs' fs : Fields) (xs : List Obj), fs.Ok → NewerTuple fs' fs → LosesValuesTuple fs' fs →
    StorableL fs xs → PlacedTuple fs' fs xs
  | .nil, _, _, _, _, _, _ => trivial
  | .cons name opt ty' rest, fs, xs, hok, h, hl, hs => by
    obtain ⟨n, opt', ty, fs1, rfl, h1, h2⟩ := h
    intro n2 opt2 t fs2 x xs2 he hx
    cases he
    subst hx
    simp only [StorableL] at hs
    obtain ⟨l1, l2⟩ := hl _ _ _ _ rfl
    exact ⟨newer_placed ty' ty x hok.1 h1 l1 hs.1, newer_placedTuple rest fs1 xs2 hok.2 h2 l2 hs.2.2⟩
end

end Srl.Typed
