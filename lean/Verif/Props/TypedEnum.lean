import Verif.Lemmas.TypedFree
import Verif.Props.TypedProper

/-! # Containers that are written in an order of their own: C64 -/

namespace Srl.Props
open Typed

private def env1 : Env := ⟨fun _ => none, fun _ => []⟩

/-! ## C64: tables and unordered sets and maps come back whatever the order in which they are written

`HTable`, `std::unordered_set` and `std::unordered_map` are written in the order of their buckets, which depends on
their history. Objects of the model list their elements ascending, `Enumerates false` gives all ways to write them.
`Enumerates true` allows that for containers with repeated keys as well; their elements are restored in the order in
which they are written as far as keys are equal, so that the object is the same up to this order only. -/

/-- For C64: a reader that restores what was written element by element restores the object, in whatever order
its containers were written. -/
theorem restore_enumerated {σ : Type} (env : Env) (read : σ → Res (Event × σ)) (fuel : Nat) (ty : Ty) (o o' old : Obj)
    (s s' : σ) (hok : ty.Ok) (ho : Proper ty o) (he : Enumerates false ty o o') (hold : Proper ty old)
    (h : restore env read fuel (strip ty) old s = .ok (o', s')) : restore env read fuel ty old s = .ok (o, s') := by
  have := restore_tidy env read fuel ty old s o' s' hok h
  rwa [tidy_proper ty old hok hold, tidy_enum ty o o' hok ho he] at this

/-- C64 with the format Srl: whatever the order in which containers are written, the object is restored. -/
theorem restore_any_order_srl (m : Mem) (hm : m.Sane) (env : Env) (ty : Ty) (o o' old : Obj) (hok : ty.Ok)
    (ho : Storable ty o) (he : Enumerates false ty o o') (hold : Proper ty old) (hc : PSrl.ItemOk (rootItem ty o'))
    (hsize : (rootItem ty o').events.length < 2 ^ 64) :
    ∃ st bs, PSrl.writeAll PSrl.St.init (rootItem ty o').events = .ok (st, bs) ∧
      ∀ rest fuel, (rootItem ty o').events.length ≤ fuel →
        ∃ s, restore env (PSrl.read m) fuel ty old (PSrl.St.init, bs ++ rest) = .ok (o, s) := by
  rw [← strip_root] at hc hsize ⊢
  obtain ⟨st, bs, h1, h2⟩ := restore_store_srl m hm env (strip ty) o' old (strip_ok ty hok)
    (storable_enum ty o o' hok ho he) (strip_wt ty old (Srl.Proper.proper_wt ty old hold)) hc hsize
  refine ⟨st, bs, h1, fun rest fuel hf => ?_⟩
  obtain ⟨s, h⟩ := h2 rest fuel hf
  exact ⟨s, restore_enumerated env _ fuel ty o o' old _ s hok (storable_proper ty o ho) he hold h⟩

/-- C64 with the format MessagePack -/
theorem restore_any_order_msgpack (m : Mem) (hm : m.Sane) (env : Env) (ty : Ty) (o o' old : Obj) (hok : ty.Ok)
    (ho : Storable ty o) (he : Enumerates false ty o o') (hold : Proper ty old) (hc : PMsgPack.ItemOk (rootItem ty o')) :
    ∃ x bs, PMsgPack.writeAll ([], []) (rootItem ty o').events = .ok (x, bs) ∧
      ∀ rest fuel, (rootItem ty o').events.length ≤ fuel →
        ∃ s, restore env (PMsgPack.read m) fuel ty old ([], bs ++ rest) = .ok (o, s) := by
  rw [← strip_root] at hc ⊢
  obtain ⟨x, bs, h1, h2⟩ := restore_store_msgpack m hm env (strip ty) o' old (strip_ok ty hok)
    (storable_enum ty o o' hok ho he) (strip_wt ty old (Srl.Proper.proper_wt ty old hold)) hc
  refine ⟨x, bs, h1, fun rest fuel hf => ?_⟩
  obtain ⟨s, h⟩ := h2 rest fuel hf
  exact ⟨s, restore_enumerated env _ fuel ty o o' old _ s hok (storable_proper ty o ho) he hold h⟩

/-- C64 with JSON, in both layouts. Missing is what `restore_store_json_partial` lacks. -/
theorem restore_any_order_json_partial (m : Mem) (hm : m.Sane) (env : Env) (compact : Bool) (ty : Ty)
    (o o' old : Obj) (hok : ty.Ok) (ho : Storable ty o) (he : Enumerates false ty o o') (hold : Proper ty old)
    (hc : JsonItem env false (rootItem ty o')) :
    ∃ bs w, PJson.writeAll env.dtoa compact PJson.Wr.new (rootItem ty o').events = .ok (bs, w) ∧
      ∀ rest fuel, (rootItem ty o').events.length ≤ fuel →
        ∃ s, restore env (PJson.read m env.strtod) fuel ty old (PJson.Rd.new, bs ++ rest) = .ok (o, s) := by
  rw [← strip_root] at hc ⊢
  obtain ⟨bs, w, h1, h2⟩ := restore_store_json_partial m hm env compact (strip ty) o' old (strip_ok ty hok)
    (storable_enum ty o o' hok ho he) (strip_wt ty old (Srl.Proper.proper_wt ty old hold)) hc
  refine ⟨bs, w, h1, fun rest fuel hf => ?_⟩
  obtain ⟨s, h⟩ := h2 rest fuel hf
  exact ⟨s, restore_enumerated env _ fuel ty o o' old _ s hok (storable_proper ty o ho) he hold h⟩

/-- For C64: a reader that restores what was written element by element restores an object with the same elements, in
whatever order its containers were written, those with repeated keys included. -/
theorem restore_rearranged {σ : Type} (env : Env) (read : σ → Res (Event × σ)) (fuel : Nat) (ty : Ty) (o o' old : Obj)
    (s s' : σ) (hok : ty.Ok) (ho : Proper ty o) (he : Enumerates true ty o o') (hold : Proper ty old)
    (h : restore env read fuel (strip ty) old s = .ok (o', s')) :
    ∃ x, restore env read fuel ty old s = .ok (x, s') ∧ Enumerates true ty o x ∧ Proper ty x := by
  have := restore_tidy env read fuel ty old s o' s' hok h
  rw [tidy_proper ty old hok hold] at this
  exact ⟨_, this, enum_tidy ty o o' hok ho he⟩

/-- C64 with the format Srl for all containers, `std::unordered_multiset` and `std::unordered_multimap` included: what
is restored has the same elements, each as often as before, at every level. -/
theorem restore_same_elements_srl (m : Mem) (hm : m.Sane) (env : Env) (ty : Ty) (o o' old : Obj) (hok : ty.Ok)
    (ho : Storable ty o) (he : Enumerates true ty o o') (hold : Proper ty old) (hc : PSrl.ItemOk (rootItem ty o'))
    (hsize : (rootItem ty o').events.length < 2 ^ 64) :
    ∃ st bs, PSrl.writeAll PSrl.St.init (rootItem ty o').events = .ok (st, bs) ∧
      ∀ rest fuel, (rootItem ty o').events.length ≤ fuel →
        ∃ x s, restore env (PSrl.read m) fuel ty old (PSrl.St.init, bs ++ rest) = .ok (x, s) ∧
          Enumerates true ty o x ∧ Proper ty x := by
  rw [← strip_root] at hc hsize ⊢
  obtain ⟨st, bs, h1, h2⟩ := restore_store_srl m hm env (strip ty) o' old (strip_ok ty hok)
    (storable_enum ty o o' hok ho he) (strip_wt ty old (Srl.Proper.proper_wt ty old hold)) hc hsize
  refine ⟨st, bs, h1, fun rest fuel hf => ?_⟩
  obtain ⟨s, h⟩ := h2 rest fuel hf
  obtain ⟨x, h⟩ := restore_rearranged env _ fuel ty o o' old _ s hok (storable_proper ty o ho) he hold h
  exact ⟨x, s, h⟩

/-- The same with the format MessagePack -/
theorem restore_same_elements_msgpack (m : Mem) (hm : m.Sane) (env : Env) (ty : Ty) (o o' old : Obj) (hok : ty.Ok)
    (ho : Storable ty o) (he : Enumerates true ty o o') (hold : Proper ty old)
    (hc : PMsgPack.ItemOk (rootItem ty o')) :
    ∃ x bs, PMsgPack.writeAll ([], []) (rootItem ty o').events = .ok (x, bs) ∧
      ∀ rest fuel, (rootItem ty o').events.length ≤ fuel →
        ∃ x s, restore env (PMsgPack.read m) fuel ty old ([], bs ++ rest) = .ok (x, s) ∧
          Enumerates true ty o x ∧ Proper ty x := by
  rw [← strip_root] at hc ⊢
  obtain ⟨x, bs, h1, h2⟩ := restore_store_msgpack m hm env (strip ty) o' old (strip_ok ty hok)
    (storable_enum ty o o' hok ho he) (strip_wt ty old (Srl.Proper.proper_wt ty old hold)) hc
  refine ⟨x, bs, h1, fun rest fuel hf => ?_⟩
  obtain ⟨s, h⟩ := h2 rest fuel hf
  obtain ⟨x, h⟩ := restore_rearranged env _ fuel ty o o' old _ s hok (storable_proper ty o ho) he hold h
  exact ⟨x, s, h⟩

/-- The same with JSON, in both layouts. Missing is what `restore_store_json_partial` lacks. -/
theorem restore_same_elements_json_partial (m : Mem) (hm : m.Sane) (env : Env) (compact : Bool) (ty : Ty)
    (o o' old : Obj) (hok : ty.Ok) (ho : Storable ty o) (he : Enumerates true ty o o') (hold : Proper ty old)
    (hc : JsonItem env false (rootItem ty o')) :
    ∃ bs w, PJson.writeAll env.dtoa compact PJson.Wr.new (rootItem ty o').events = .ok (bs, w) ∧
      ∀ rest fuel, (rootItem ty o').events.length ≤ fuel →
        ∃ x s, restore env (PJson.read m env.strtod) fuel ty old (PJson.Rd.new, bs ++ rest) = .ok (x, s) ∧
          Enumerates true ty o x ∧ Proper ty x := by
  rw [← strip_root] at hc ⊢
  obtain ⟨bs, w, h1, h2⟩ := restore_store_json_partial m hm env compact (strip ty) o' old (strip_ok ty hok)
    (storable_enum ty o o' hok ho he) (strip_wt ty old (Srl.Proper.proper_wt ty old hold)) hc
  refine ⟨bs, w, h1, fun rest fuel hf => ?_⟩
  obtain ⟨s, h⟩ := h2 rest fuel hf
  obtain ⟨x, h⟩ := restore_rearranged env _ fuel ty o o' old _ s hok (storable_proper ty o ho) he hold h
  exact ⟨x, s, h⟩

/-- C64: of one container, `Enumerates true` says that the elements are the same, each as often as before, if they hold
no containers themselves (`hsame`). -/
theorem enumerates_elements (b : Order) (e : Ty) (hsame : ∀ x y, Enumerates true e x y → x = y) (xs ys : List Obj)
    (h : Enumerates true (.sorted b (.vec e)) (.many xs) (.many ys)) : xs.Perm ys := by
  have same : ∀ zs, Enumerates true (.vec e) (.many xs) (.many zs) → xs = zs := by
    rintro zs ⟨_, _, h1, h2, hl, h⟩
    cases h1; cases h2
    exact zip_same hl fun p hp => hsame _ _ (h p hp)
  rcases h with h | ⟨-, zs, _, h, he, hp⟩
  · rw [same ys h]
  · cases he
    rwa [same zs h]

/-- C64: the elements of a container without repeated keys, and with `free` those of any, are written in any order. -/
theorem enumerates_perm (free : Bool) (b : Order) (c : Ty) (hm : b.multi = false ∨ free = true) (xs ys : List Obj)
    (hx : Enumerates free c (.many xs) (.many xs)) (h : xs.Perm ys) :
    Enumerates free (.sorted b c) (.many xs) (.many ys) :=
  .inr ⟨hm, xs, ys, hx, rfl, h⟩

/-! ## Examples -/

def tableObj : Obj := .many [.many [.str (str "a"), .many [.int 2]], .many [.str (str "b"), .many [.int 1]],
  .many [.str (str "c"), .many [.int 0]]]

def tableWritten : Obj := .many [.many [.str (str "c"), .many [.int 0]], .many [.str (str "a"), .many [.int 2]],
  .many [.str (str "b"), .many [.int 1]]]

/-- The hypotheses of the theorems above: a table that enumerates its entries in another order -/
example : tableTy.Ok ∧ Storable tableTy tableObj ∧ Enumerates false tableTy tableObj tableWritten ∧
    Proper tableTy (.many []) ∧ PSrl.ItemOk (rootItem tableTy tableWritten) ∧
    PMsgPack.ItemOk (rootItem tableTy tableWritten) ∧ JsonItem env1 false (rootItem tableTy tableWritten) ∧
    isObj (.ok tableObj) tableWritten = false := by
  refine ⟨tableTy_ok, ⟨rfl, ?_, ?_⟩, ?_, ⟨?_, ?_⟩, ?_, ?_, ?_, by decide +kernel⟩
  · intro x hx
    simp only [List.mem_cons, List.not_mem_nil, or_false] at hx
    rcases hx with rfl | rfl | rfl <;>
      exact ⟨_, _, rfl, by simp [xTy, Storable, StorableL, Ty.isScope, IntTy.lo, IntTy.hi, IntTy.signed, IntTy.bits]⟩
  · intro xs h
    cases h
    have lt : ∀ {a b : Bytes}, LessBytes a b → ∀ x y k l, Key true (.many [.str a, x]) k → Key true (.many [.str b, y]) l →
        Less k l ∨ (Order.mk true false).multi = true ∧ k = l := by
      rintro a b hab x y k l ⟨v, hv⟩ ⟨w, hw⟩
      simp only [Obj.many.injEq, List.cons.injEq] at hv hw
      rw [← hv.1, ← hw.1]
      exact .inl hab
    simp only [List.pairwise_cons, List.mem_cons, forall_eq, forall_eq_or_imp, List.not_mem_nil,
      false_implies, implies_true, List.Pairwise.nil, and_true]
    exact ⟨⟨lt (by simp [str, LessBytes]) _ _, lt (by simp [str, LessBytes]) _ _⟩, lt (by simp [str, LessBytes]) _ _⟩
  · refine enumerates_perm _ _ _ (.inl rfl) _ _ ⟨_, _, rfl, rfl, rfl, ?_⟩ ?_
    · intro p hp
      simp only [List.zip_cons_cons, List.zip_nil_right, List.mem_cons, List.not_mem_nil, or_false] at hp
      rcases hp with rfl | rfl | rfl <;> exact ⟨_, _, _, rfl, _, _, rfl, rfl, rfl, trivial⟩
    · exact (List.perm_append_comm (l₁ := [_, _]) (l₂ := [_]))
  · simp [Proper]
  · intro xs h
    cases h
    simp
  · simp only [tableTy, xTy, tableWritten, rootItem, Ty.isScope, if_true, toItem, fieldItems, List.map, entry,
      PSrl.ItemOk, PSrl.ItemsOk]
    decide +kernel
  · simp only [tableTy, xTy, tableWritten, rootItem, Ty.isScope, if_true, toItem, fieldItems, List.map, entry,
      PMsgPack.ItemOk, PMsgPack.ItemsOk]
    decide +kernel
  · simp only [tableTy, xTy, tableWritten, rootItem, Ty.isScope, if_true, toItem, fieldItems, List.map, entry,
      JsonItem, JsonItems, JsonVal]
    have hn : ∀ n ∈ [str "a", str "b", str "c", str "x"], PJson.NameOk n := by
      simp [str, PJson.NameOk]
    simp [hn]

/-- `std::unordered_multimap<int, bool>` that is written with the elements of the same key in another order -/
def bagObj : Obj := .many [.many [.int 1, .bool false], .many [.int 2, .bool true], .many [.int 2, .bool false]]
def bagWritten : Obj := .many [.many [.int 2, .bool false], .many [.int 2, .bool true], .many [.int 1, .bool false]]
def bagRestored : Obj := .many [.many [.int 1, .bool false], .many [.int 2, .bool false], .many [.int 2, .bool true]]

theorem bag_elements (x y : Obj) (h : Enumerates true (.record .object false
    (.cons (str "key") false (.int .i32) (.cons (str "value") false .bool .nil))) x y) : x = y := by
  obtain ⟨xs, ys, rfl, rfl, h⟩ := h
  exact congrArg Obj.many (enumL_key _ xs ys (by exact ⟨trivial, trivial, trivial⟩) h)

/-- The hypotheses of `restore_same_elements_srl` and the following theorems, and of `enumerates_elements` -/
example : multiTy.Ok ∧ Storable multiTy bagObj ∧ Enumerates true multiTy bagObj bagWritten ∧
    Proper multiTy (.many []) ∧ PSrl.ItemOk (rootItem multiTy bagWritten) ∧
    PMsgPack.ItemOk (rootItem multiTy bagWritten) ∧ JsonItem env1 false (rootItem multiTy bagWritten) := by
  refine ⟨multiTy_ok, ⟨rfl, ?_, ?_⟩, ?_, ⟨?_, ?_⟩, ?_, ?_, ?_⟩
  · intro x hx
    simp only [List.mem_cons, List.not_mem_nil, or_false] at hx
    rcases hx with rfl | rfl | rfl <;>
      simp [Storable, StorableL, Ty.isScope, IntTy.lo, IntTy.hi, IntTy.signed, IntTy.bits]
  · intro xs h
    cases h
    have le : ∀ {a b : Int}, a ≤ b → ∀ x y k l, Key true (.many [.int a, x]) k → Key true (.many [.int b, y]) l →
        Less k l ∨ True ∧ k = l := by
      rintro a b hab x y k l ⟨v, hv⟩ ⟨w, hw⟩
      simp only [Obj.many.injEq, List.cons.injEq] at hv hw
      rw [← hv.1, ← hw.1]
      rcases Int.lt_or_eq_of_le hab with h | h
      · exact .inl h
      · exact .inr ⟨trivial, by rw [h]⟩
    simp only [List.pairwise_cons, List.mem_cons, forall_eq, forall_eq_or_imp, List.not_mem_nil,
      false_implies, implies_true, List.Pairwise.nil, and_true]
    exact ⟨⟨le (a := 1) (b := 2) (by decide) _ _, le (a := 1) (b := 2) (by decide) _ _⟩,
      le (a := 2) (b := 2) (by decide) _ _⟩
  · refine enumerates_perm _ _ _ (.inr rfl) _ _ ⟨_, _, rfl, rfl, rfl, ?_⟩ ?_
    · intro p hp
      simp only [List.zip_cons_cons, List.zip_nil_right, List.mem_cons, List.not_mem_nil, or_false] at hp
      rcases hp with rfl | rfl | rfl <;> exact ⟨_, _, rfl, rfl, rfl, rfl, trivial⟩
    · exact (List.reverse_perm [_, _, _]).symm
  · simp [Proper]
  · intro xs h
    cases h
    simp
  · simp only [multiTy, bagWritten, rootItem, Ty.isScope, if_true, toItem, fieldItems, List.map,
      PSrl.ItemOk, PSrl.ItemsOk]
    decide +kernel
  · simp only [multiTy, bagWritten, rootItem, Ty.isScope, if_true, toItem, fieldItems, List.map,
      PMsgPack.ItemOk, PMsgPack.ItemsOk]
    decide +kernel
  · simp only [multiTy, bagWritten, rootItem, Ty.isScope, if_true, toItem, fieldItems, List.map,
      JsonItem, JsonItems, JsonVal]
    have hn : ∀ n ∈ [str "key", str "value"], PJson.NameOk n := by
      simp [str, PJson.NameOk]
    simp [hn]

/-- It is restored with the elements of the same key in the order in which they were written. -/
theorem bag_example :
    (do let (_, bs) ← PMsgPack.writeAll ([], []) (rootItem multiTy bagWritten).events
        let r ← restore env1 (PMsgPack.read ⟨some 0, 4096⟩) 100 multiTy (.many []) ([], bs)
        .ok r.1) = Res.ok bagRestored ∧ isObj (.ok bagObj) bagRestored = false :=
  ⟨isObj_eq (by decide +kernel), by decide +kernel⟩

end Srl.Props
