import Verif.Lemmas.Weak
import Verif.Props.Shared

/-! # C66: weak pointers -/

namespace Srl.Props
open Doc Shared
open Typed (Env Obj)

/-- What the copy of an object with weak pointers has to satisfy: `m` gives the new address of each object,
the weak pointers lead to the copies of the objects they led to, in the object itself and in the objects
behind its pointers, all of these exist, and a copy is owned by the restored object (and thus outlives the
tree it was restored with) just if the original is owned by the original object. -/
def WeakKept (C : Nat → GTy) (G : Graph) (ty : GTy) (o y : Obj) (heap : List (Nat × Obj)) : Prop :=
  ∃ m : Nat → Nat, CopyBy m C G ty o y heap ∧
    weak ty y = (weak ty o).map m ∧
    (∀ a, Reach C G ty o a → m a < heap.length ∧
      weak (C (G.cls a)) ((graphOf heap).obj (m a)) = (weak (C (G.cls a)) (G.obj a)).map m) ∧
    ∀ a, Reach C G ty o a → (Owns C (graphOf heap) ty y (m a) ↔ Owns C G ty o a)

/-- Copies keep weak pointers. -/
theorem weak_kept {C : Nat → GTy} {G : Graph} {ty : GTy} {o y : Obj} {heap : List (Nat × Obj)}
    (h : Copy C G ty o y heap) : WeakKept C G ty o y heap := by
  obtain ⟨m, h⟩ := h
  refine ⟨m, h, by rw [h.2.1, weak_relabel], fun a ha => ⟨?_, ?_⟩, fun a ha => ⟨fun h1 => ?_, copy_owns h⟩⟩
  · exact (List.getElem?_eq_some_iff.mp (h.2.2.1 a ha)).1
  · rw [(graphOf_copy h ha).2, weak_relabel]
  · obtain ⟨b, hb, hm⟩ := owns_of_copy h h1
    rw [← h.1 b a (owns_reach hb) ha hm]
    exact hb

/-- C66 with the format Srl, for objects without null and expired pointers and without cycles, weak
pointers included. Missing: expired pointers and weak pointers back to owners, see `weak_expired_throws`
and `weak_parent_throws`. -/
theorem weak_srl_partial (m : Mem) (hm : m.Sane) (env : Env) (cs cr : HTable.Cfg Nat)
    (C : Nat → GTy) (G : Graph) (dom : List Nat) (hG : G.Ok C dom) (ha : G.Acyclic C) (ty : GTy)
    (o old : Obj) (hok : ty.Ok) (hs : ty.isScope = true) (ho : Storable ty o)
    (hp : PtrsOk G dom (refs ty o)) (hold : WT ty old) :
    ∃ D it, (∀ f, D ≤ f → ∃ t, store cs C G f [] ty o Seen.new = .ok (it, t)) ∧
      (PSrl.ItemOk it → it.events.length < 2 ^ 64 →
        ∃ st bs, PSrl.writeAll PSrl.St.init it.events = .ok (st, bs) ∧
          ∀ rest fuel, it.events.length ≤ fuel → ∃ y heap,
            restore cr env C (PSrl.read m) fuel ty old (PSrl.St.init, bs ++ rest) = .ok (y, heap) ∧
            WeakKept C G ty o y heap) := by
  obtain ⟨D, it, h1, h2⟩ := shared_srl_partial m hm env cs cr C G dom hG ha ty o old hok hs ho hp hold
  refine ⟨D, it, h1, fun hi hl => ?_⟩
  obtain ⟨st, bs, h3, h4⟩ := h2 hi hl
  refine ⟨st, bs, h3, fun rest fuel hf => ?_⟩
  obtain ⟨y, heap, h5, h6⟩ := h4 rest fuel hf
  exact ⟨y, heap, h5, weak_kept h6⟩

/-- C66 with MessagePack. -/
theorem weak_msgpack_partial (m : Mem) (hm : m.Sane) (env : Env) (cs cr : HTable.Cfg Nat)
    (C : Nat → GTy) (G : Graph) (dom : List Nat) (hG : G.Ok C dom) (ha : G.Acyclic C) (ty : GTy)
    (o old : Obj) (hok : ty.Ok) (hs : ty.isScope = true) (ho : Storable ty o)
    (hp : PtrsOk G dom (refs ty o)) (hold : WT ty old) :
    ∃ D it, (∀ f, D ≤ f → ∃ t, store cs C G f [] ty o Seen.new = .ok (it, t)) ∧
      (PMsgPack.ItemOk it → ∃ x bs, PMsgPack.writeAll ([], []) it.events = .ok (x, bs) ∧
          ∀ rest fuel, it.events.length ≤ fuel → ∃ y heap,
            restore cr env C (PMsgPack.read m) fuel ty old ([], bs ++ rest) = .ok (y, heap) ∧
            WeakKept C G ty o y heap) := by
  obtain ⟨D, it, h1, h2⟩ := shared_msgpack_partial m hm env cs cr C G dom hG ha ty o old hok hs ho hp hold
  refine ⟨D, it, h1, fun hi => ?_⟩
  obtain ⟨st, bs, h3, h4⟩ := h2 hi
  refine ⟨st, bs, h3, fun rest fuel hf => ?_⟩
  obtain ⟨y, heap, h5, h6⟩ := h4 rest fuel hf
  exact ⟨y, heap, h5, weak_kept h6⟩

/-- C66 with JSON (names of members without `"` and `\`, no `INT64_MIN`). -/
theorem weak_json_partial (m : Mem) (hm : m.Sane) (env : Env) (compact : Bool) (cs cr : HTable.Cfg Nat)
    (C : Nat → GTy) (G : Graph) (dom : List Nat) (hG : G.Ok C dom) (ha : G.Acyclic C) (ty : GTy)
    (o old : Obj) (hok : ty.Ok) (hs : ty.isScope = true) (ho : Storable ty o)
    (hp : PtrsOk G dom (refs ty o)) (hold : WT ty old) :
    ∃ D it, (∀ f, D ≤ f → ∃ t, store cs C G f [] ty o Seen.new = .ok (it, t)) ∧
      (JsonItem env false it → ∃ bs w, PJson.writeAll env.dtoa compact PJson.Wr.new it.events = .ok (bs, w) ∧
          ∀ rest fuel, it.events.length ≤ fuel → ∃ y heap,
            restore cr env C (PJson.read m env.strtod) fuel ty old (PJson.Rd.new, bs ++ rest)
              = .ok (y, heap) ∧ WeakKept C G ty o y heap) := by
  obtain ⟨D, it, h1, h2⟩ := shared_json_partial m hm env compact cs cr C G dom hG ha ty o old hok hs ho hp hold
  refine ⟨D, it, h1, fun hi => ?_⟩
  obtain ⟨st, bs, h3, h4⟩ := h2 hi
  refine ⟨st, bs, h3, fun rest fuel hf => ?_⟩
  obtain ⟨y, heap, h5, h6⟩ := h4 rest fuel hf
  exact ⟨y, heap, h5, weak_kept h6⟩

/-! ### Examples -/

private def c0 : HTable.Cfg Nat := ⟨fun k => k.toUInt64, fun n => n⟩

/-- `struct Leaf { int x; }`, `struct Parent { shared_ptr<Child> c; }`, `struct Child { weak_ptr<Parent> p; }` -/
private def classes : Nat → GTy
  | 0 => .plain (.record .object false (.cons (str "x") false (.int .i32) .nil))
  | 1 => .record (.cons (str "c") (.shared false 2) .nil)
  | _ => .record (.cons (str "p") (.shared true 1) .nil)

private theorem classes_ok : ∀ c, (classes c).Ok := by
  intro c
  unfold classes
  split
  · simp only [GTy.Ok, Typed.Ty.Ok, Typed.Fields.Ok, Typed.Fields.Named, Typed.Fields.names]
    repeat' apply And.intro
    all_goals first | trivial | (left; decide +kernel)
  · refine ⟨by decide +kernel, by decide +kernel, ?_⟩
    simp [GFields.Ok, GTy.Ok]
  · refine ⟨by decide +kernel, by decide +kernel, ?_⟩
    simp [GFields.Ok, GTy.Ok]

/-- Leaves at all addresses, a parent at 20 and its child at 21. -/
private def memory' : Graph where
  cls a := if a = 20 then 1 else if a = 21 then 2 else 0
  obj a := if a = 20 then .many [addr 21] else if a = 21 then .many [addr 20] else .many [.int 7]

/-- `struct { vector<shared_ptr<Leaf>> all; weak_ptr<Leaf> first, other; }` -/
private def viewTy : GTy := .record (.cons (str "all") (.vec (.shared false 0))
  (.cons (str "first") (.shared true 0) (.cons (str "other") (.shared true 0) .nil)))

/-- `first` leads to a leaf of the vector, `other` to a leaf that something else owns. -/
private def viewObj : Obj := .many [.many [addr 11, addr 10], addr 10, addr 12]

/-- Only leaves -/
private def leaves : Graph := ⟨fun _ => 0, fun _ => .many [.int 7]⟩

/-- The hypotheses are met by a view. -/
example : leaves.Ok classes [10, 11, 12] ∧ leaves.Acyclic classes ∧ viewTy.Ok ∧
    viewTy.isScope = true ∧ Storable viewTy viewObj ∧ PtrsOk leaves [10, 11, 12] (refs viewTy viewObj) ∧
    WT viewTy (dfltG viewTy) ∧ weak viewTy viewObj = [10, 12] ∧ Owns classes leaves viewTy viewObj 10 ∧
    ¬ Owns classes leaves viewTy viewObj 12 := by
  refine ⟨⟨classes_ok, ?_, ?_, by decide⟩, ⟨fun _ => 0, ?_⟩, ?_, rfl, ?_, ?_, ?_, ?_, ?_, ?_⟩
  · intro a ha
    simp [leaves, classes, Storable, Typed.Storable, Typed.StorableL, IntTy.lo, IntTy.hi,
        IntTy.signed, IntTy.bits]
  · intro a ha r hr
    simp [leaves, classes, refs] at hr
  · intro a r hr
    simp [leaves, classes, refs] at hr
  · refine ⟨by decide +kernel, by decide +kernel, ?_⟩
    simp [GFields.Ok, GTy.Ok, GTy.isScope]
  · refine ⟨_, rfl, _, _, rfl, ⟨_, rfl, fun x hx => ?_⟩, _, _, rfl, ⟨10, rfl⟩, _, _, rfl, ⟨12, rfl⟩, rfl⟩
    simp only [List.mem_cons, List.not_mem_nil, or_false] at hx
    rcases hx with rfl | rfl
    · exact ⟨11, rfl⟩
    · exact ⟨10, rfl⟩
  · intro r hr
    simp [viewTy, viewObj, refs, refsL, addr] at hr
    rcases hr with rfl | rfl | rfl | rfl <;> simp [leaves]
  · exact ⟨_, rfl, _, _, rfl, trivial, _, _, rfl, trivial, _, _, rfl, trivial, trivial⟩
  · simp [viewTy, viewObj, weak, weakL, addr]
  · exact .root (by simp [viewTy, viewObj, strong, strongL, addr])
  · intro h
    have key : ∀ a, Owns classes leaves viewTy viewObj a → a = 11 ∨ a = 10 := by
      intro a h
      induction h with
      | root h => simpa [viewTy, viewObj, strong, strongL, addr] using h
      | step _ h _ => simp [leaves, classes, strong] at h
    have := key 12 h
    omega

/-- Bytes in JSON of an object with what its pointers lead to. -/
private def jsonOf (G : Graph) (ty : GTy) (o : Obj) : Res (Bytes × PJson.Wr) := do
  let (it, _) ← store c0 classes G 9 [] ty o Seen.new
  PJson.writeAll env0.dtoa true PJson.Wr.new it.events

private def jrestore (ty : GTy) (doc : Bytes) : Res (Obj × List (Nat × Obj)) :=
  restore c0 env0 classes jread 100 ty (dfltG ty) (PJson.Rd.new, doc)

private def jload (ty : GTy) (doc : Bytes) : Res (Obj × List (Nat × Obj)) :=
  loadUnwrap c0 env0 classes jread 100 ty (dfltG ty) (PJson.Rd.new, doc)

private def wrote : Res (Bytes × PJson.Wr) → Bytes → Bool
  | .ok (b, _), bs => b == bs
  | _, _ => false

private theorem wrote_eq {r bs} (h : wrote r bs = true) : ∃ w, r = .ok (bs, w) := by
  unfold wrote at h
  split at h
  · rw [beq_iff_eq] at h
    exact ⟨_, by rw [h]⟩
  · simp at h

/-- The view comes back with three leaves; `first` leads into the vector, `other` does not. -/
example : ∃ bs w, jsonOf leaves viewTy viewObj = .ok (bs, w) ∧
    jrestore viewTy bs = .ok (.many [.many [addr 0, addr 1], addr 1, addr 2],
      [(0, .many [.int 7]), (0, .many [.int 7]), (0, .many [.int 7])]) := by
  obtain ⟨w, h⟩ := wrote_eq (r := jsonOf leaves viewTy viewObj)
    (bs := str "{\"all\":[{\"srl_shared_key\":0,\"srl_shared_value\":{\"x\":7}},{\"srl_shared_key\":1,\"srl_shared_value\":{\"x\":7}}],\"first\":{\"srl_shared_key\":1},\"other\":{\"srl_shared_key\":2,\"srl_shared_value\":{\"x\":7}}}")
    (by decide +kernel)
  exact ⟨_, w, h, isGraph_eq (by decide +kernel)⟩

/-! ### Violations -/

/-- C66 violated: a parent that owns its child, the child with a weak pointer to its parent. No object owns
itself, all pointers are valid, and the object is stored, but restoring it throws, both ways. -/
theorem weak_parent_throws : ∃ (ty : GTy) (dom : List Nat) (o : Obj) (bs : Bytes) (w : PJson.Wr),
    memory'.Ok classes dom ∧ ty.Ok ∧ Storable ty o ∧ PtrsOk memory' dom (refs ty o) ∧
    (∃ rank : Nat → Nat, ∀ a, ∀ b ∈ strong (classes (memory'.cls a)) (memory'.obj a), rank b < rank a) ∧
    (∀ a ∈ dom, Owns classes memory' ty o a) ∧
    jsonOf memory' ty o = .ok (bs, w) ∧ jrestore ty bs = .err ∧ jload ty bs = .err := by
  obtain ⟨w, h⟩ := wrote_eq (r := jsonOf memory' (.vec (.shared false 1)) (.many [addr 20]))
    (bs := str "[{\"srl_shared_key\":0,\"srl_shared_value\":{\"c\":{\"srl_shared_key\":1,\"srl_shared_value\":{\"p\":{\"srl_shared_key\":0}}}}}]")
    (by decide +kernel)
  refine ⟨.vec (.shared false 1), [20, 21], .many [addr 20], _, w,
    ⟨classes_ok, ?_, ?_, by decide⟩, ⟨rfl, trivial⟩, ⟨_, rfl, ?_⟩, ?_, ⟨fun a => if a = 20 then 1 else 0, ?_⟩,
    ?_, h, Res.eq_err (by decide +kernel), Res.eq_err (by decide +kernel)⟩
  · intro a ha
    simp only [List.mem_cons, List.not_mem_nil, or_false] at ha
    rcases ha with rfl | rfl
    · exact ⟨_, rfl, _, _, rfl, ⟨21, rfl⟩, rfl⟩
    · exact ⟨_, rfl, _, _, rfl, ⟨20, rfl⟩, rfl⟩
  · intro a ha r hr
    simp only [List.mem_cons, List.not_mem_nil, or_false] at ha
    rcases ha with rfl | rfl
    · simp [memory', classes, refs, refsL, addr] at hr
      subst hr
      simp [memory']
    · simp [memory', classes, refs, refsL, addr] at hr
      subst hr
      simp [memory']
  · intro x hx
    simp only [List.mem_cons, List.not_mem_nil, or_false] at hx
    exact ⟨20, hx⟩
  · intro r hr
    simp [refs, addr] at hr
    subst hr
    simp [memory']
  · intro a b hb
    by_cases h : a = 20
    · subst h
      simp [memory', classes, strong, strongL, addr] at hb
      subst hb
      simp
    · by_cases h1 : a = 21
      · subst h1
        simp [memory', classes, strong, strongL, addr] at hb
      · simp [memory', h, h1, classes, strong] at hb
  · have h20 : Owns classes memory' (.vec (.shared false 1)) (.many [addr 20]) 20 :=
      .root (by simp [strong, addr])
    intro a ha
    simp only [List.mem_cons, List.not_mem_nil, or_false] at ha
    rcases ha with rfl | rfl
    · exact h20
    · exact .step h20 (by simp [memory', classes, strong, strongL, addr])

/-- C66 violated: an object with an expired weak pointer (stored as a null pointer) is stored, but restoring
it throws, both ways. -/
theorem weak_expired_throws : ∃ (bs : Bytes) (w : PJson.Wr),
    jsonOf leaves viewTy (.many [.many [], .null, addr 12]) = .ok (bs, w) ∧
    jrestore viewTy bs = .err ∧ jload viewTy bs = .err := by
  obtain ⟨w, h⟩ := wrote_eq (r := jsonOf leaves viewTy (.many [.many [], .null, addr 12]))
    (bs := str "{\"all\":[],\"first\":null,\"other\":{\"srl_shared_key\":0,\"srl_shared_value\":{\"x\":7}}}")
    (by decide +kernel)
  exact ⟨_, w, h, Res.eq_err (by decide +kernel), Res.eq_err (by decide +kernel)⟩

end Srl.Props
