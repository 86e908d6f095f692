import Verif.Lemmas.UnionRun
import Verif.Props.TypedDocs
import Verif.Props.Pack

/-! # Unions: C70 -/

namespace Srl.Props
open Typed Doc

variable {σ : Type} {read : σ → Res (Event × σ)} {s s' : σ} {fuel : Nat}

/-! ## C70: unions give what was stored under their names -/

/-- For C70: the root of a loaded document stands for the stored object, in any format. `Holds` says what
`tree.get(a).get(b)….unwrap<T>()` and the other conversions give. -/
theorem loaded_unions {nv : Val → Val} (hk : Keeps nv) (ty : Ty) (o : Obj) (hok : ty.Ok) (hsc : ty.isScope = true)
    (ho : Storable ty o) (hd : (rootItem ty o).depth ≤ maxDepth + 1)
    (he : Emits read s (Norm.item nv false (rootItem ty o)).events s') (hf : (rootItem ty o).events.length ≤ fuel) :
    ∃ r, Doc.load read fuel s = .ok (r, s') ∧ Holds (.node r.node) ty o := by
  rw [← norm_depth nv false] at hd
  rw [← Norm.events_length nv false] at hf
  have hroot : Norm.item nv false (rootItem ty o) = .scope [] ty.scopeTy (kidsN nv ty o) := by
    rw [rootItem, if_pos hsc, norm_scope nv ho hsc]
    rfl
  have hh := fun names => holds_stored hk names [] false ty o hok ho
  rw [hroot] at he hf hd
  rw [norm_scope nv ho hsc] at hh
  simp only [Item.events, List.length_cons, List.length_append, List.length_nil] at hf
  simp only [Item.depth] at hd
  have hl := load_item read [] ty.scopeTy (kidsN nv ty o) fuel s s' he (by omega)
  rw [if_pos (by omega)] at hl
  exact ⟨_, hl, fun names ty' o' h => hh names ty' o' h⟩

/-- C70 with the format Srl: loading what was stored gives a tree in which every part of the object is found and unwrapped
as it was stored. -/
theorem loaded_unions_srl (m : Mem) (hm : m.Sane) (ty : Ty) (o : Obj) (hok : ty.Ok) (hsc : ty.isScope = true)
    (ho : Storable ty o) (hd : (rootItem ty o).depth ≤ maxDepth + 1) (hc : PSrl.ItemOk (rootItem ty o))
    (hsize : (rootItem ty o).events.length < 2 ^ 64) :
    ∃ st bs, PSrl.writeAll PSrl.St.init (rootItem ty o).events = .ok (st, bs) ∧
      ∀ rest fuel, (rootItem ty o).events.length ≤ fuel →
        ∃ r s, Doc.load (PSrl.read m) fuel (PSrl.St.init, bs ++ rest) = .ok (r, s) ∧ Holds (.node r.node) ty o := by
  obtain ⟨st, ⟨bs, h1, h2⟩, -, -⟩ := PSrl.codes_item hm (rootItem ty o) PSrl.St.init hc
    (by simpa [PSrl.St.init] using hsize)
  refine ⟨st, bs, h1, fun rest fuel hf => ?_⟩
  have he := h2 rest
  rw [show PSrl.inObject PSrl.St.init = false from rfl, normItem_eq] at he
  obtain ⟨r, h⟩ := loaded_unions keeps_srl ty o hok hsc ho hd he hf
  exact ⟨r, _, h⟩

/-- C70 with the format MessagePack -/
theorem loaded_unions_msgpack (m : Mem) (hm : m.Sane) (ty : Ty) (o : Obj) (hok : ty.Ok) (hsc : ty.isScope = true)
    (ho : Storable ty o) (hd : (rootItem ty o).depth ≤ maxDepth + 1) (hc : PMsgPack.ItemOk (rootItem ty o)) :
    ∃ x bs, PMsgPack.writeAll ([], []) (rootItem ty o).events = .ok (x, bs) ∧
      ∀ rest fuel, (rootItem ty o).events.length ≤ fuel →
        ∃ r s, Doc.load (PMsgPack.read m) fuel ([], bs ++ rest) = .ok (r, s) ∧ Holds (.node r.node) ty o := by
  have h1 := PMsgPack.writeAll_item (rootItem ty o) [] []
  refine ⟨_, _, h1, fun rest fuel hf => ?_⟩
  have he := PMsgPack.emits_item hm _ [] _ rest (by simp [PMsgPack.Open])
    (PMsgPack.writeItem_enc (rootItem ty o) false hc)
  obtain ⟨r, h⟩ := loaded_unions keeps_msgpack ty o hok hsc ho hd he hf
  exact ⟨r, _, h⟩

/-- C70 with JSON, in both layouts. Missing is what `restore_store_json_partial` lacks. -/
theorem loaded_unions_json_partial (m : Mem) (hm : m.Sane) (env : Env) (compact : Bool) (ty : Ty) (o : Obj) (hok : ty.Ok)
    (hsc : ty.isScope = true) (ho : Storable ty o) (hd : (rootItem ty o).depth ≤ maxDepth + 1)
    (hc : JsonItem env false (rootItem ty o)) :
    ∃ bs w, PJson.writeAll env.dtoa compact PJson.Wr.new (rootItem ty o).events = .ok (bs, w) ∧
      ∀ rest fuel, (rootItem ty o).events.length ≤ fuel →
        ∃ r s, Doc.load (PJson.read m env.strtod) fuel (PJson.Rd.new, bs ++ rest) = .ok (r, s) ∧ Holds (.node r.node) ty o := by
  have hr : rootItem ty o = .scope [] ty.scopeTy (kidsOf ty o) := by
    rw [rootItem, if_pos hsc, stored_scope ty o ho hsc]
  have hj := json_item m env ty o [] false ho (by simpa only [rootItem, hsc, if_true] using hc)
  rw [stored_scope ty o ho hsc] at hj
  simp only [PJson.ItemOk] at hj
  obtain ⟨bs, h3, h4⟩ := PJson.emits_doc hm env.strtod env.dtoa compact (nvKept env) [] ty.scopeTy (kidsOf ty o) hj.2
  rw [← hr] at h3 h4
  refine ⟨bs, _, h3, fun rest fuel hf => ?_⟩
  obtain ⟨r', h5⟩ := h4 rest PJson.Rd.new rfl
  obtain ⟨r, h⟩ := loaded_unions (keeps_json env) ty o hok hsc ho hd h5 hf
  exact ⟨r, _, h⟩

/-- For C70: unpacking objects and unions, in any format. Nothing is wrong as long as what is asked for after a union was
stored ahead of something asked for before, and everything is if not. -/
theorem unpack_unions_stored (env : Env) (fs : Fields) (xs : List Obj) (qs : List (Bytes × Target)) {nv : Val → Val}
    (hk : Keeps nv) (hok : (Ty.record .object false fs).Ok) (htab : fs.Tables True) (ho : StorableL fs xs)
    (hd : Item.depthL (fieldItems fs xs) ≤ maxDepth) (hq : ∀ q ∈ qs, Request fs xs q) (hnd : (qs.map (·.1)).Nodup)
    (he : Emits read s (Norm.item nv false (rootItem (.record .object false fs) (.many xs))).events s')
    (hf : (rootItem (.record .object false fs) (.many xs)).events.length ≤ fuel) :
    (Timely fs.names false [] qs → ∃ gs, unpack env read fuel qs s = .ok gs ∧ AllGiven fs xs qs gs) ∧
      (¬ Timely fs.names false [] qs → unpack env read fuel qs s = .err) := by
  have hnm := hok.2.resolve_right (by simp)
  rw [← Norm.events_length nv false] at hf
  have hroot : Norm.item nv false (rootItem (.record .object false fs) (.many xs)) =
      .scope [] .object (Norm.items nv true (fieldItems fs xs)) := by
    simp [rootItem, Ty.isScope, toItem, Norm.item]
  rw [hroot] at he hf
  simp only [Item.events, List.length_cons, List.length_append, List.length_nil] at hf
  simp only [Item.events] at he
  obtain ⟨s1, h1, h2⟩ := Emits.cons_inv he
  rw [← norm_depthL nv true] at hd
  have := pasteAll_at hk env (read := read) (s' := s') (fuel := fuel) hok.1 htab ho hnm.2.2 (by omega) hd qs false [] []
    (.fresh .object) s1 [] (Norm.items nv true (fieldItems fs xs))
    ⟨rfl, fun _ _ => ⟨rfl, rfl⟩, by simp, by simp, by simp, rfl, fun _ => h2⟩ hq hnd (by simp)
  simpa only [unpack, h1, Res.ok_bind] using this

/-- C70 with the format Srl: what is unpacked as objects and unions is given as it was stored. Missing: what is asked for
after a union although it was stored behind everything asked for up to then; this throws. -/
theorem unpack_unions_srl_partial (m : Mem) (hm : m.Sane) (env : Env) (fs : Fields) (xs : List Obj)
    (qs : List (Bytes × Target)) (hok : (Ty.record .object false fs).Ok) (htab : fs.Tables True) (ho : StorableL fs xs)
    (hd : Item.depthL (fieldItems fs xs) ≤ maxDepth) (hq : ∀ q ∈ qs, Request fs xs q) (hnd : (qs.map (·.1)).Nodup)
    (hc : PSrl.ItemOk (rootItem (.record .object false fs) (.many xs)))
    (hsize : (rootItem (.record .object false fs) (.many xs)).events.length < 2 ^ 64) :
    ∃ st bs, PSrl.writeAll PSrl.St.init (rootItem (.record .object false fs) (.many xs)).events = .ok (st, bs) ∧
      ∀ rest fuel, (rootItem (.record .object false fs) (.many xs)).events.length ≤ fuel →
        (Timely fs.names false [] qs → ∃ gs, unpack env (PSrl.read m) fuel qs (PSrl.St.init, bs ++ rest) = .ok gs ∧
          AllGiven fs xs qs gs) ∧
        (¬ Timely fs.names false [] qs → unpack env (PSrl.read m) fuel qs (PSrl.St.init, bs ++ rest) = .err) := by
  obtain ⟨st, ⟨bs, h1, h2⟩, -, -⟩ := PSrl.codes_item hm (rootItem (.record .object false fs) (.many xs)) PSrl.St.init hc
    (by simpa [PSrl.St.init] using hsize)
  refine ⟨st, bs, h1, fun rest fuel hf => ?_⟩
  have he := h2 rest
  rw [show PSrl.inObject PSrl.St.init = false from rfl, normItem_eq] at he
  exact unpack_unions_stored env fs xs qs keeps_srl hok htab ho hd hq hnd he hf

/-- C70 with the format MessagePack; missing is what `unpack_unions_srl_partial` lacks. -/
theorem unpack_unions_msgpack_partial (m : Mem) (hm : m.Sane) (env : Env) (fs : Fields) (xs : List Obj)
    (qs : List (Bytes × Target)) (hok : (Ty.record .object false fs).Ok) (htab : fs.Tables True) (ho : StorableL fs xs)
    (hd : Item.depthL (fieldItems fs xs) ≤ maxDepth) (hq : ∀ q ∈ qs, Request fs xs q) (hnd : (qs.map (·.1)).Nodup)
    (hc : PMsgPack.ItemOk (rootItem (.record .object false fs) (.many xs))) :
    ∃ x bs, PMsgPack.writeAll ([], []) (rootItem (.record .object false fs) (.many xs)).events = .ok (x, bs) ∧
      ∀ rest fuel, (rootItem (.record .object false fs) (.many xs)).events.length ≤ fuel →
        (Timely fs.names false [] qs → ∃ gs, unpack env (PMsgPack.read m) fuel qs ([], bs ++ rest) = .ok gs ∧
          AllGiven fs xs qs gs) ∧
        (¬ Timely fs.names false [] qs → unpack env (PMsgPack.read m) fuel qs ([], bs ++ rest) = .err) := by
  have h1 := PMsgPack.writeAll_item (rootItem (.record .object false fs) (.many xs)) [] []
  refine ⟨_, _, h1, fun rest fuel hf => ?_⟩
  have he := PMsgPack.emits_item hm _ [] _ rest (by simp [PMsgPack.Open])
    (PMsgPack.writeItem_enc (rootItem (.record .object false fs) (.many xs)) false hc)
  exact unpack_unions_stored env fs xs qs keeps_msgpack hok htab ho hd hq hnd he hf

/-- C70 with JSON, in both layouts; missing is what `unpack_unions_srl_partial` and `restore_store_json_partial` lack. -/
theorem unpack_unions_json_partial (m : Mem) (hm : m.Sane) (env : Env) (compact : Bool) (fs : Fields) (xs : List Obj)
    (qs : List (Bytes × Target)) (hok : (Ty.record .object false fs).Ok) (htab : fs.Tables True) (ho : StorableL fs xs)
    (hd : Item.depthL (fieldItems fs xs) ≤ maxDepth) (hq : ∀ q ∈ qs, Request fs xs q) (hnd : (qs.map (·.1)).Nodup)
    (hc : JsonItem env false (rootItem (.record .object false fs) (.many xs))) :
    ∃ bs w, PJson.writeAll env.dtoa compact PJson.Wr.new (rootItem (.record .object false fs) (.many xs)).events
        = .ok (bs, w) ∧
      ∀ rest fuel, (rootItem (.record .object false fs) (.many xs)).events.length ≤ fuel →
        (Timely fs.names false [] qs → ∃ gs, unpack env (PJson.read m env.strtod) fuel qs (PJson.Rd.new, bs ++ rest) = .ok gs ∧
          AllGiven fs xs qs gs) ∧
        (¬ Timely fs.names false [] qs → unpack env (PJson.read m env.strtod) fuel qs (PJson.Rd.new, bs ++ rest) = .err) := by
  have hj := json_item m env (.record .object false fs) (.many xs) [] false ho (by
    simpa only [rootItem, Ty.isScope, if_true] using hc)
  have hroot : rootItem (.record .object false fs) (.many xs) = .scope [] .object (fieldItems fs xs) := by
    simp [rootItem, Ty.isScope, toItem]
  simp only [toItem, PJson.ItemOk] at hj
  obtain ⟨bs, h3, h4⟩ := PJson.emits_doc hm env.strtod env.dtoa compact (nvKept env) [] .object (fieldItems fs xs) hj.2
  rw [← hroot] at h3 h4
  refine ⟨bs, _, h3, fun rest fuel hf => ?_⟩
  obtain ⟨r', h5⟩ := h4 rest PJson.Rd.new rfl
  exact unpack_unions_stored env fs xs qs (keeps_json env) hok htab ho hd hq hnd h5 hf

/-- C70: conversions that do not throw give nothing exactly where the others throw, and the same otherwise. -/
theorem union_attempts (env : Env) (u : Uni) (ty : Ty) (name : Bytes) :
    (∀ o, u.unwrapIf env ty = .ok (some o) ↔ u.unwrap env ty = .ok o) ∧
    (u.unwrapIf env ty = .ok none ↔ u.unwrap env ty = .err) ∧
    (∀ v, u.tryGet name = .ok (some v) ↔ u.get name = .ok v) ∧ (u.tryGet name = .ok none ↔ u.get name = .err) := by
  have key : ∀ {α : Type} (r : Res α), (∀ a, Uni.attempt r = .ok (some a) ↔ r = .ok a) ∧ (Uni.attempt r = .ok none ↔ r = .err) := by
    intro α r
    cases r <;> simp [Uni.attempt]
  cases u with
  | empty => simp [Uni.unwrapIf, Uni.unwrap, Uni.copyTo, Uni.tryGet, Uni.get]
  | value v =>
    simp only [Uni.unwrapIf, Uni.unwrap, Uni.copyTo, Uni.tryGet, Uni.get]
    by_cases hs : ty.isScope = true
    · simp [hs]
    · simp only [hs, if_false, Bool.false_eq_true]
      exact ⟨(key _).1, (key _).2, by simp, by simp⟩
  | node n =>
    obtain ⟨t, vs, ns⟩ := n
    simp only [Uni.unwrapIf, Uni.unwrap, Uni.copyTo, Uni.tryGet, Uni.get]
    by_cases hs : ty.isScope = true
    · simp only [hs, if_true]
      exact ⟨(key _).1, (key _).2, (key _).1, (key _).2⟩
    · simp only [hs, if_false, Bool.false_eq_true]
      exact ⟨by simp, by simp, (key _).1, (key _).2⟩

/-- C70: conversions of empty unions throw, and those of values to types stored as scopes and of scopes to types stored as
values. -/
theorem union_mismatch (env : Env) (ty : Ty) (old : Obj) (name : Bytes) :
    (Uni.empty.copyTo env ty old = .err ∧ Uni.empty.get name = .err) ∧
    (∀ v, (Uni.value v).get name = .err ∧ (ty.isScope = true → (Uni.value v).copyTo env ty old = .err)) ∧
    (∀ n, ty.isScope = false → (Uni.node n).copyTo env ty old = .err) := by
  refine ⟨⟨rfl, rfl⟩, fun v => ⟨rfl, fun h => ?_⟩, fun n h => ?_⟩
  · simp only [Uni.copyTo, h, if_true]
  · simp only [Uni.copyTo, h, Bool.false_eq_true, if_false]

/-! ## Examples -/

/-- A class with a class in it, `v` and `b` of the example for C65; `a.x` is found, `a.y` is not. -/
example : Path [str "a", str "x"] (.record .object false packFields) (.many packObjs) (.int .i32) (.int 1) ∧
    (∀ tz z, ¬ Part (str "y") tz z xTy (.many [.int 1])) ∧
    Path [str "t", str "k"] (.record .object false (.cons (str "t") false (.sorted ⟨true, false⟩ (.named .bool)) .nil))
      (.many [.many [.many [.str (str "j"), .bool false], .many [.str (str "k"), .bool true]]]) .bool (.bool true) := by
  refine ⟨⟨xTy, .many [.int 1], .inl ⟨rfl, rfl, rfl⟩, .int .i32, .int 1, .inl ⟨rfl, rfl, rfl⟩, rfl, rfl⟩, ?_, ?_⟩
  · intro tz z h
    simp only [Part, xTy, Packed, or_false] at h
    exact absurd h.1 (by decide +kernel)
  · refine ⟨_, _, .inl ⟨rfl, rfl, rfl⟩, .bool, .bool true, ⟨rfl, [.many [.str (str "j"), .bool false]], [], rfl, ?_⟩, rfl, rfl⟩
    intro x hx y h
    simp only [List.mem_singleton] at hx
    rw [hx] at h
    simp only [Obj.many.injEq, List.cons.injEq, Obj.str.injEq] at h
    exact absurd h.1 (by decide +kernel)

/-- The hypotheses of `loaded_unions_…`, but for those shown in `Props/Pack.lean` -/
example : (Ty.record .object false packFields).isScope = true ∧
    Storable (.record .object false packFields) (.many packObjs) ∧
    (rootItem (.record .object false packFields) (.many packObjs)).depth ≤ maxDepth + 1 := by
  refine ⟨rfl, ?_, by decide +kernel⟩
  simp [packFields, packObjs, xTy, Storable, StorableL, IntTy.lo, IntTy.hi, IntTy.signed, IntTy.bits]

/-- Asked for in this order, all is given: `v` as an object, then `b`, the last, and `a`, which comes first, as unions. -/
def unionQs : List (Bytes × Target) := [(str "v", .obj (.vec (.int .i8)) (.many [])), (str "b", .union), (str "a", .union)]

example : (∀ q ∈ unionQs, Request packFields packObjs q) ∧ (unionQs.map (·.1)).Nodup ∧
    Timely packFields.names false [] unionQs := by
  refine ⟨?_, by decide +kernel, ?_⟩
  · intro q hq
    simp only [unionQs, List.mem_cons, List.not_mem_nil, or_false] at hq
    rcases hq with rfl | rfl | rfl
    · exact ⟨by simp [WT], _, .inr (.inl ⟨rfl, rfl, rfl⟩)⟩
    · show str "b" ∈ packFields.names
      decide +kernel
    · show str "a" ∈ packFields.names
      decide +kernel
  · exact ⟨by simp, by simp, fun _ => ⟨str "b", by simp, .inr ⟨[str "a", str "v"], [], rfl, by simp⟩⟩, trivial⟩

private def lateDoc : Bytes := str "{\"a\":{\"x\":1},\"v\":[2,3],\"b\":true}"

/-- C70 does not hold: unions of two items in the order in which they were stored. The second is not found. -/
theorem unions_in_order_throw : unpack ⟨fun _ => none, fun _ => []⟩ (PJson.read ⟨some 0, 4096⟩ fun _ => none) 100
    [(str "a", .union), (str "b", .union)] (PJson.Rd.new, lateDoc) = .err :=
  Res.eq_err (by decide +kernel)

/-- C70 does not hold: an object that was stored behind a union asked for before it. -/
theorem object_behind_union_throws : unpack ⟨fun _ => none, fun _ => []⟩ (PJson.read ⟨some 0, 4096⟩ fun _ => none) 100
    [(str "a", .union), (str "b", .obj .bool (.bool false))] (PJson.Rd.new, lateDoc) = .err :=
  Res.eq_err (by decide +kernel)

/-- … while both are found if asked for in the other order. -/
example : (unpack ⟨fun _ => none, fun _ => []⟩ (PJson.read ⟨some 0, 4096⟩ fun _ => none) 100
    [(str "b", .union), (str "a", .union)] (PJson.Rd.new, lateDoc)).isErr = false := by decide +kernel

end Srl.Props
