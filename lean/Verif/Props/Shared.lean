import Verif.Lemmas.SharedRestore
import Verif.Props.Typed

/-! # Shared pointers: C36, C55 and what they mean for C47 -/

namespace Srl.Props
open Doc Shared
open Typed (Env Keeps Obj)

/-! ## C36 -/

section
variable {σ : Type}

/-- What is restored from the tokens of a stored object is a copy of it. -/
theorem copy_of {nv : Val → Val} (hk : Keeps nv) (cfg : HTable.Cfg Nat) (env : Env) {C : Nat → GTy}
    {G : Graph} {dom seen' : List Nat} (hG : G.Ok C dom) (ha : G.Acyclic C) {ty : GTy} {o old : Obj}
    {nm : Bytes} {kids : List Item} (hok : ty.Ok) (hs : ty.isScope = true) (hold : WT ty old)
    (hd : DocI C G [] ty nm o (.scope nm ty.scopeTy kids) seen') (read : σ → Res (Event × σ)) (fuel : Nat)
    (hf : (Item.eventsL (Norm.items nv (ty.scopeTy == .object) kids)).length < fuel)
    (n : Typed.LNode) (s s' : σ)
    (hst : Start read ty.scopeTy (Norm.items nv (ty.scopeTy == .object) kids) n s s') :
    ∃ y n' s1 st, paste cfg env C read fuel fuel ty old n (s, Objs.new) = .ok (y, n', s1, st) ∧
      Copy C G ty o y st.heap := by
  obtain ⟨rank, hr⟩ := ha
  obtain ⟨top, htop⟩ : ∃ top, ∀ x ∈ refs ty o, rank x.2 < top := by
    have key : ∀ l : List (Nat × Nat), ∃ top, ∀ x ∈ l, rank x.2 < top := by
      intro l
      induction l with
      | nil => exact ⟨0, by simp⟩
      | cons x l ih =>
        obtain ⟨top, h⟩ := ih
        refine ⟨max top (rank x.2 + 1), fun y hy => ?_⟩
        rcases List.mem_cons.mp hy with rfl | hy
        · omega
        · have := h y hy; omega
    exact key _
  obtain ⟨y, n', s1, st, m, h1, -, -, h4, -, h6⟩ := claim hk cfg env hG.types rank hr read fuel fuel
    ty nm o kids [] seen' hd hok hs old hold [] top _ Objs.new (rinv_new cfg C G) htop (by simp)
    hf (Nat.le_refl _) n s s' hst
  refine ⟨y, n', s1, st, h1, valm m, ?_, h6.1, ?_, ?_⟩
  all_goals
    have hreach : ∀ a, Reach C G ty o a → ∃ x, m a = some x := by
      intro a h
      induction h with
      | root h => exact Option.isSome_iff_exists.mp (h6.2 _ h)
      | step _ h ih =>
        obtain ⟨x, hx⟩ := ih
        obtain ⟨o', -, hdone⟩ := h4.heap _ x hx
        exact Option.isSome_iff_exists.mp (hdone.2 _ h)
  · intro a b h1 h2 h3
    obtain ⟨x, hx⟩ := hreach a h1
    obtain ⟨z, hz⟩ := hreach b h2
    simp only [valm, hx, hz, Option.getD_some] at h3
    subst h3
    exact h4.inj a b x hx hz
  · intro a h
    obtain ⟨x, hx⟩ := hreach a h
    obtain ⟨o', h7, h8⟩ := h4.heap a x hx
    simp only [valm, hx, Option.getD_some]
    rw [h7, h8.1]
  · intro x hx
    obtain ⟨a, h7⟩ := h4.onto x hx
    refine ⟨a, ?_, by simp [valm, h7]⟩
    rcases doc_only (P := Reach C G ty o) (fun b hb r hr => .step (c := r.1) hb hr) hd
      (fun r hr => .root (c := r.1) hr) a (h4.dom a x h7).1 with h | h
    · simp at h
    · exact h

/-- For every format: the object restored directly, and the one restored from the loaded tree. -/
theorem shared_restored {nv : Val → Val} (hk : Keeps nv) (cs cr : HTable.Cfg Nat) (env : Env)
    (C : Nat → GTy) (G : Graph) (dom : List Nat) (hG : G.Ok C dom) (ha : G.Acyclic C) (ty : GTy)
    (o old : Obj) (hok : ty.Ok) (hs : ty.isScope = true) (ho : Storable ty o)
    (hp : PtrsOk G dom (refs ty o)) (hold : WT ty old) :
    ∃ D kids seen, DocI C G [] ty [] o (.scope [] ty.scopeTy kids) seen ∧
      (∀ f, D ≤ f → ∃ t, store cs C G f [] ty o Seen.new = .ok (.scope [] ty.scopeTy kids, t)) ∧
      ∀ (read : σ → Res (Event × σ)) (s s' : σ) (fuel : Nat),
        Emits read s (Norm.item nv false (.scope [] ty.scopeTy kids)).events s' →
        (Item.scope [] ty.scopeTy kids).events.length ≤ fuel →
        (∃ y heap, restore cr env C read fuel ty old s = .ok (y, heap) ∧ Copy C G ty o y heap) ∧
        (Item.depthL kids ≤ maxDepth →
          ∃ y heap, loadUnwrap cr env C read fuel ty old s = .ok (y, heap) ∧ Copy C G ty o y heap) := by
  obtain ⟨D, it, t, seen, h1, h2, -, -, -⟩ := store_ok cs dom hG ty [] o ho hp
  obtain ⟨kids, rfl⟩ := doc_scope h2 hs
  refine ⟨D, kids, seen, h2, fun f hf => ⟨t, h1 f hf⟩, fun read s s' fuel he hf => ?_⟩
  rw [← Norm.events_length nv false] at hf
  simp only [Norm.item, Bool.false_eq_true, if_false] at he hf
  have hlen : (Item.eventsL (Norm.items nv (ty.scopeTy == .object) kids)).length < fuel := by
    simp [Item.events] at hf
    omega
  refine ⟨?_, fun hdep => ?_⟩
  · simp only [Item.events] at he
    obtain ⟨s1, g1, g2⟩ := Emits.cons_inv he
    obtain ⟨y, n', s2, st, g3, g4⟩ := copy_of hk cr env hG ha hok hs hold h2 read fuel hlen _ s1 s'
      (.inl ⟨rfl, g2⟩)
    exact ⟨y, st.heap, by simp only [restore, g1, Res.ok_bind, g3], g4⟩
  · have hl := load_item read [] ty.scopeTy _ fuel s s' he hlen
    rw [if_pos (by rw [Norm.depth_items]; exact hdep)] at hl
    obtain ⟨y, n', s2, st, g3, g4⟩ := copy_of hk cr env hG ha hok hs hold h2 read fuel hlen _ s' s'
      (.inr ⟨rfl, rfl⟩)
    exact ⟨y, st.heap, by simp only [loadUnwrap, hl, Res.ok_bind, g3], g4⟩

end

/-- C36 with the format Srl: every object and every acyclic graph behind its shared pointers. -/
theorem shared_srl_partial (m : Mem) (hm : m.Sane) (env : Env) (cs cr : HTable.Cfg Nat)
    (C : Nat → GTy) (G : Graph) (dom : List Nat) (hG : G.Ok C dom) (ha : G.Acyclic C) (ty : GTy)
    (o old : Obj) (hok : ty.Ok) (hs : ty.isScope = true) (ho : Storable ty o)
    (hp : PtrsOk G dom (refs ty o)) (hold : WT ty old) :
    ∃ D it, (∀ f, D ≤ f → ∃ t, store cs C G f [] ty o Seen.new = .ok (it, t)) ∧
      (PSrl.ItemOk it → it.events.length < 2 ^ 64 →
        ∃ st bs, PSrl.writeAll PSrl.St.init it.events = .ok (st, bs) ∧
          ∀ rest fuel, it.events.length ≤ fuel → ∃ y heap,
            restore cr env C (PSrl.read m) fuel ty old (PSrl.St.init, bs ++ rest) = .ok (y, heap) ∧
            Copy C G ty o y heap) := by
  obtain ⟨D, kids, seen, -, h1, h2⟩ := shared_restored (σ := PSrl.St × Bytes) keeps_srl cs cr env C G dom
    hG ha ty o old hok hs ho hp hold
  refine ⟨D, _, h1, fun hc hsize => ?_⟩
  obtain ⟨st, ⟨bs, h3, h4⟩, -, -⟩ := PSrl.codes_item hm _ PSrl.St.init hc
    (by simpa [PSrl.St.init] using hsize)
  refine ⟨st, bs, h3, fun rest fuel hf => ?_⟩
  have he := h4 rest
  rw [show PSrl.inObject PSrl.St.init = false from rfl, normItem_eq] at he
  exact (h2 _ _ _ fuel he hf).1

/-- C36 with MessagePack. -/
theorem shared_msgpack_partial (m : Mem) (hm : m.Sane) (env : Env) (cs cr : HTable.Cfg Nat)
    (C : Nat → GTy) (G : Graph) (dom : List Nat) (hG : G.Ok C dom) (ha : G.Acyclic C) (ty : GTy)
    (o old : Obj) (hok : ty.Ok) (hs : ty.isScope = true) (ho : Storable ty o)
    (hp : PtrsOk G dom (refs ty o)) (hold : WT ty old) :
    ∃ D it, (∀ f, D ≤ f → ∃ t, store cs C G f [] ty o Seen.new = .ok (it, t)) ∧
      (PMsgPack.ItemOk it → ∃ x bs, PMsgPack.writeAll ([], []) it.events = .ok (x, bs) ∧
          ∀ rest fuel, it.events.length ≤ fuel → ∃ y heap,
            restore cr env C (PMsgPack.read m) fuel ty old ([], bs ++ rest) = .ok (y, heap) ∧
            Copy C G ty o y heap) := by
  obtain ⟨D, kids, seen, -, h1, h2⟩ := shared_restored (nv := PMsgPack.normVal) keeps_msgpack cs cr env
    C G dom hG ha ty o old hok hs ho hp hold
  refine ⟨D, _, h1, fun hc => ?_⟩
  have h3 := PMsgPack.writeAll_item (.scope [] ty.scopeTy kids) [] []
  refine ⟨_, _, h3, fun rest fuel hf => ?_⟩
  have he := PMsgPack.emits_item hm _ [] _ rest (by simp [PMsgPack.Open])
    (PMsgPack.writeItem_enc _ false hc)
  exact (h2 _ _ _ fuel he hf).1

mutual
theorem doc_json (mem : Mem) (env : Env)
    {C : Nat → GTy} {G : Graph} : ∀ {seen ty nm o it seen'}, DocI C G seen ty nm o it seen' →
    ∀ named, JsonItem env named it →
      PJson.ItemOk mem env.dtoa env.strtod (nvKept env) named it
  | _, _, _, _, _, _, .plain h => fun named hj => json_item mem env _ _ _ named h hj
  | _, _, _, _, _, _, .vec h => fun named hj => by
    simp only [JsonItem, PJson.ItemOk] at hj ⊢
    exact ⟨hj.1, docL_json mem env h _ hj.2⟩
  | _, _, _, _, _, _, .record h => fun named hj => by
    simp only [JsonItem, PJson.ItemOk] at hj ⊢
    exact ⟨hj.1, docF_json mem env h _ hj.2⟩
  | _, _, _, _, _, _, .known (k := k) _ hk => fun named hj => by
    simp only [JsonItem, JsonItems, PJson.ItemOk, PJson.ItemsOk] at hj ⊢
    refine ⟨hj.1, ⟨hj.2.1.1, kept_reads mem env _ hj.2.1.2 ?_⟩, trivial⟩
    simp only [PJson.ValOk]
    simp [IntTy.lo, IntTy.hi, IntTy.signed, IntTy.bits]
    omega
  | _, _, _, _, _, _, .new (seen := seen) _ hk h => fun named hj => by
    simp only [JsonItem, JsonItems, PJson.ItemOk, PJson.ItemsOk] at hj ⊢
    refine ⟨hj.1, ⟨hj.2.1.1, kept_reads mem env _ hj.2.1.2 ?_⟩,
      doc_json mem env h _ hj.2.2.1, trivial⟩
    simp only [PJson.ValOk]
    simp [IntTy.lo, IntTy.hi, IntTy.signed, IntTy.bits]
    omega
private theorem docL_json (mem : Mem) (env : Env)
    {C : Nat → GTy} {G : Graph} : ∀ {seen e xs is seen'}, DocL C G seen e xs is seen' →
    ∀ named, JsonItems env named is →
      PJson.ItemsOk mem env.dtoa env.strtod (nvKept env) named is
  | _, _, _, _, _, .nil => fun _ _ => by simp only [PJson.ItemsOk]
  | _, _, _, _, _, .cons h1 h2 => fun named hj => by
    simp only [JsonItems, PJson.ItemsOk] at hj ⊢
    exact ⟨doc_json mem env h1 _ hj.1, docL_json mem env h2 _ hj.2⟩
private theorem docF_json (mem : Mem) (env : Env)
    {C : Nat → GTy} {G : Graph} : ∀ {seen fs xs is seen'}, DocF C G seen fs xs is seen' →
    ∀ named, JsonItems env named is →
      PJson.ItemsOk mem env.dtoa env.strtod (nvKept env) named is
  | _, _, _, _, _, .nil => fun _ _ => by simp only [PJson.ItemsOk]
  | _, _, _, _, _, .cons h1 h2 => fun named hj => by
    simp only [JsonItems, PJson.ItemsOk] at hj ⊢
    exact ⟨doc_json mem env h1 _ hj.1, docF_json mem env h2 _ hj.2⟩
end

/-- C36 with JSON, in both layouts (names of members without `"` and `\`, no `INT64_MIN`). -/
theorem shared_json_partial (m : Mem) (hm : m.Sane) (env : Env) (compact : Bool) (cs cr : HTable.Cfg Nat)
    (C : Nat → GTy) (G : Graph) (dom : List Nat) (hG : G.Ok C dom) (ha : G.Acyclic C) (ty : GTy)
    (o old : Obj) (hok : ty.Ok) (hs : ty.isScope = true) (ho : Storable ty o)
    (hp : PtrsOk G dom (refs ty o)) (hold : WT ty old) :
    ∃ D it, (∀ f, D ≤ f → ∃ t, store cs C G f [] ty o Seen.new = .ok (it, t)) ∧
      (JsonItem env false it → ∃ bs w, PJson.writeAll env.dtoa compact PJson.Wr.new it.events = .ok (bs, w) ∧
          ∀ rest fuel, it.events.length ≤ fuel → ∃ y heap,
            restore cr env C (PJson.read m env.strtod) fuel ty old (PJson.Rd.new, bs ++ rest)
              = .ok (y, heap) ∧ Copy C G ty o y heap) := by
  obtain ⟨D, kids, seen, h0, h1, h2⟩ := shared_restored (keeps_json env) cs cr env C G
    dom hG ha ty o old hok hs ho hp hold
  refine ⟨D, _, h1, fun hc => ?_⟩
  have hi := doc_json m env h0 false hc
  simp only [PJson.ItemOk] at hi
  obtain ⟨bs, h3, h4⟩ := PJson.emits_doc hm env.strtod env.dtoa compact
    (nvKept env) [] ty.scopeTy kids hi.2
  refine ⟨bs, _, h3, fun rest fuel hf => ?_⟩
  obtain ⟨r', h5⟩ := h4 rest PJson.Rd.new rfl
  exact (h2 _ _ _ fuel h5 hf).1

/-! ### Examples -/

private def c0 : HTable.Cfg Nat := ⟨fun k => k.toUInt64, fun n => n⟩

/-- Whether a result is the given object with the given objects behind its shared pointers. -/
def isGraph : Res (Obj × List (Nat × Obj)) → Obj → List (Nat × Obj) → Bool
  | .ok (y, h), o, heap => sameObj y o && h.length == heap.length &&
      (h.zip heap).all fun p => p.1.1 == p.2.1 && sameObj p.1.2 p.2.2
  | _, _, _ => false

private theorem heap_eq : ∀ (h heap : List (Nat × Obj)), h.length = heap.length →
    ((h.zip heap).all fun p => p.1.1 == p.2.1 && sameObj p.1.2 p.2.2) = true → h = heap
  | [], [], _, _ => rfl
  | [], _ :: _, hl, _ => by simp at hl
  | _ :: _, [], hl, _ => by simp at hl
  | (c, x) :: h, (d, y) :: heap, hl, ha => by
    simp only [List.zip_cons_cons, List.all_cons, Bool.and_eq_true, beq_iff_eq] at ha
    rw [ha.1.1, sameObj_eq _ _ ha.1.2, heap_eq h heap (by simpa using hl) ha.2]

theorem isGraph_eq {r o heap} (h : isGraph r o heap = true) : r = .ok (o, heap) := by
  unfold isGraph at h
  split at h
  · simp only [Bool.and_eq_true, beq_iff_eq] at h
    rw [sameObj_eq _ _ h.1.1, heap_eq _ _ h.1.2 h.2]
  · simp at h

/-- `struct Leaf { int x; }` -/
private def leafTy : GTy := .plain (.record .object false (.cons (str "x") false (.int .i32) .nil))

/-- `struct Pair { shared_ptr<Leaf> l, r; }` -/
private def linkTy : GTy := .record (.cons (str "l") (.shared false 0) (.cons (str "r") (.shared false 0) .nil))

/-- `struct Loop { shared_ptr<Loop> next; }` -/
private def loopTy : GTy := .record (.cons (str "next") (.shared false 2) .nil)

private def classes : Nat → GTy
  | 0 => leafTy
  | 1 => linkTy
  | _ => loopTy

/-- `struct { vector<shared_ptr<Leaf>> v; shared_ptr<Pair> p; }` -/
private def rootTy : GTy :=
  .record (.cons (str "v") (.vec (.shared false 0)) (.cons (str "p") (.shared false 1) .nil))

/-- At 10 and 11 two leaves, at 12 a pair of pointers to them. -/
private def memory' : Graph where
  cls a := if a = 12 then 1 else 0
  obj a := if a = 12 then .many [addr 11, addr 10] else .many [.int 7]

private def rootObj : Obj := .many [.many [addr 10, addr 11, addr 10], addr 12]

private theorem classes_ok : ∀ c, (classes c).Ok := by
  intro c
  unfold classes
  split
  · simp only [leafTy, GTy.Ok, Typed.Ty.Ok, Typed.Fields.Ok, Typed.Fields.Named, Typed.Fields.names]
    repeat' apply And.intro
    all_goals first | trivial | (left; decide +kernel)
  · refine ⟨by decide +kernel, by decide +kernel, ?_⟩
    simp [GFields.Ok, GTy.Ok]
  · refine ⟨by decide +kernel, by decide +kernel, ?_⟩
    simp [GFields.Ok, GTy.Ok]

/-- The hypotheses are met by an object with two equal leaves at different addresses, one of them
shared by three pointers, the other by two. -/
example : memory'.Ok classes [10, 11, 12] ∧ memory'.Acyclic classes ∧ rootTy.Ok ∧
    rootTy.isScope = true ∧ Storable rootTy rootObj ∧ PtrsOk memory' [10, 11, 12] (refs rootTy rootObj) ∧
    WT rootTy (dfltG rootTy) := by
  refine ⟨⟨classes_ok, ?_, ?_, by decide⟩, ⟨fun a => if a = 12 then 1 else 0, ?_⟩, ?_, rfl, ?_, ?_, ?_⟩
  · intro a ha
    simp only [List.mem_cons, List.not_mem_nil, or_false] at ha
    rcases ha with rfl | rfl | rfl
    · simp [memory', classes, leafTy, Storable, Typed.Storable, Typed.StorableL, IntTy.lo, IntTy.hi,
        IntTy.signed, IntTy.bits]
    · simp [memory', classes, leafTy, Storable, Typed.Storable, Typed.StorableL, IntTy.lo, IntTy.hi,
        IntTy.signed, IntTy.bits]
    · exact ⟨_, rfl, _, _, rfl, ⟨11, rfl⟩, _, _, rfl, ⟨10, rfl⟩, rfl⟩
  · intro a ha r hr
    simp only [List.mem_cons, List.not_mem_nil, or_false] at ha
    rcases ha with rfl | rfl | rfl
    · simp [memory', classes, leafTy, refs] at hr
    · simp [memory', classes, leafTy, refs] at hr
    · simp [memory', classes, linkTy, refs, refsL, addr] at hr
      rcases hr with rfl | rfl <;> simp [memory']
  · intro a r hr
    by_cases h : a = 12
    · subst h
      simp [memory', classes, linkTy, refs, refsL, addr] at hr
      rcases hr with rfl | rfl <;> simp
    · simp [memory', h, classes, leafTy, refs] at hr
  · refine ⟨by decide +kernel, by decide +kernel, ?_⟩
    simp [GFields.Ok, GTy.Ok, GTy.isScope]
  · refine ⟨_, rfl, _, _, rfl, ⟨_, rfl, fun x hx => ?_⟩, _, _, rfl, ⟨12, rfl⟩, rfl⟩
    simp only [List.mem_cons, List.not_mem_nil, or_false] at hx
    rcases hx with rfl | rfl | rfl
    · exact ⟨10, rfl⟩
    · exact ⟨11, rfl⟩
    · exact ⟨10, rfl⟩
  · intro r hr
    simp [rootTy, rootObj, refs, refsL, addr] at hr
    rcases hr with rfl | rfl | rfl | rfl <;> simp [memory']
  · exact ⟨_, rfl, _, _, rfl, trivial, _, _, rfl, trivial, trivial⟩

/-- Bytes in JSON of an object with what its shared pointers lead to. -/
private def jsonOf (G : Graph) (fuel : Nat) (ty : GTy) (o : Obj) : Res (Bytes × PJson.Wr) := do
  let (it, _) ← store c0 classes G fuel [] ty o Seen.new
  PJson.writeAll env0.dtoa true PJson.Wr.new it.events

private def jrestore (ty : GTy) (doc : Bytes) : Res (Obj × List (Nat × Obj)) :=
  restore c0 env0 classes jread 100 ty (dfltG ty) (PJson.Rd.new, doc)

private def jload (ty : GTy) (doc : Bytes) : Res (Obj × List (Nat × Obj)) :=
  loadUnwrap c0 env0 classes jread 100 ty (dfltG ty) (PJson.Rd.new, doc)

private def wrote : Res (Bytes × PJson.Wr) → Bytes → Bool
  | .ok (b, _), bs => b == bs
  | _, _ => false

private theorem wrote_eq {r bs} (h : wrote r bs = true) : ∃ w, r = .ok (bs, w) := by
  unfold wrote at h
  split at h
  · rw [beq_iff_eq] at h
    exact ⟨_, by rw [h]⟩
  · simp at h

/-- Two leaves are restored, not five and not one; pointers lead to them as in the original. -/
example : ∃ bs w, jsonOf memory' 9 rootTy rootObj = .ok (bs, w) ∧
    jrestore rootTy bs = .ok (.many [.many [addr 0, addr 1, addr 0], addr 2],
      [(0, .many [.int 7]), (0, .many [.int 7]), (1, .many [addr 1, addr 0])]) ∧
    jload rootTy bs = .ok (.many [.many [addr 0, addr 1, addr 0], addr 2],
      [(0, .many [.int 7]), (0, .many [.int 7]), (1, .many [addr 1, addr 0])]) := by
  obtain ⟨w, h⟩ := wrote_eq (r := jsonOf memory' 9 rootTy rootObj)
    (bs := str "{\"v\":[{\"srl_shared_key\":0,\"srl_shared_value\":{\"x\":7}},{\"srl_shared_key\":1,\"srl_shared_value\":{\"x\":7}},{\"srl_shared_key\":0}],\"p\":{\"srl_shared_key\":2,\"srl_shared_value\":{\"l\":{\"srl_shared_key\":1},\"r\":{\"srl_shared_key\":0}}}}")
    (by decide +kernel)
  exact ⟨_, w, h, isGraph_eq (by decide +kernel), isGraph_eq (by decide +kernel)⟩

/-! ### Cycles -/

/-- Storing ends for every finite graph, with or without cycles. -/
theorem shared_store_ends (cfg : HTable.Cfg Nat) (C : Nat → GTy) (G : Graph) (dom : List Nat)
    (hG : G.Ok C dom) (ty : GTy) (name : Bytes) (o : Obj) (ho : Storable ty o)
    (hp : PtrsOk G dom (refs ty o)) :
    ∃ D it t, ∀ f, D ≤ f → store cfg C G f name ty o Seen.new = .ok (it, t) := by
  obtain ⟨D, it, t, seen, h1, -⟩ := store_ok cfg dom hG ty name o ho hp
  exact ⟨D, it, t, h1⟩

/-- An object that points to itself is stored, but what was stored cannot be restored: the pointer back is
read before the object is known. -/
theorem shared_cycle_throws : ∃ (G : Graph) (dom : List Nat) (o : Obj) (bs : Bytes) (w : PJson.Wr),
    G.Ok classes dom ∧ Storable loopTy o ∧ PtrsOk G dom (refs loopTy o) ∧
    jsonOf G 9 loopTy o = .ok (bs, w) ∧ jrestore loopTy bs = .err ∧ jload loopTy bs = .err := by
  obtain ⟨w, h⟩ := wrote_eq (r := jsonOf ⟨fun _ => 2, fun _ => .many [addr 13]⟩ 9 loopTy (.many [addr 13]))
    (bs := str "{\"next\":{\"srl_shared_key\":0,\"srl_shared_value\":{\"next\":{\"srl_shared_key\":0}}}}")
    (by decide +kernel)
  refine ⟨⟨fun _ => 2, fun _ => .many [addr 13]⟩, [13], .many [addr 13], _, w,
    ⟨classes_ok, ?_, ?_, by decide⟩, ⟨_, rfl, _, _, rfl, ⟨13, rfl⟩, rfl⟩, ?_, h,
    Res.eq_err (by decide +kernel), Res.eq_err (by decide +kernel)⟩
  · intro a _
    exact ⟨_, rfl, _, _, rfl, ⟨13, rfl⟩, rfl⟩
  · intro a _ r hr
    simp [classes, loopTy, refs, refsL, addr] at hr
    subst hr
    simp
  · intro r hr
    simp [loopTy, refs, refsL, addr] at hr
    subst hr
    simp

/-! ### Classes with their members in another order -/

/-- What was stored is restored with its fields in any order, but not by a class that has the members in
another order: the object comes with the pointer that was stored first. -/
theorem shared_declaration_order : ∃ (bs bs' : Bytes) (w : PJson.Wr) (y : Obj) (heap : List (Nat × Obj)),
    jsonOf memory' 9 linkTy (.many [addr 10, addr 10]) = .ok (bs, w) ∧
    bs' = str "{\"r\":{\"srl_shared_key\":0},\"l\":{\"srl_shared_key\":0,\"srl_shared_value\":{\"x\":7}}}" ∧
    jrestore linkTy bs = .ok (y, heap) ∧ jload linkTy bs = .ok (y, heap) ∧
    jrestore linkTy bs' = .ok (y, heap) ∧ jload linkTy bs' = .ok (y, heap) ∧
    let other : GTy := .record (.cons (str "r") (.shared false 0) (.cons (str "l") (.shared false 0) .nil))
    jrestore other bs = .err ∧ jload other bs = .err := by
  obtain ⟨w, h⟩ := wrote_eq (r := jsonOf memory' 9 linkTy (.many [addr 10, addr 10]))
    (bs := str "{\"l\":{\"srl_shared_key\":0,\"srl_shared_value\":{\"x\":7}},\"r\":{\"srl_shared_key\":0}}")
    (by decide +kernel)
  exact ⟨_, _, w, .many [addr 0, addr 0], [(0, .many [.int 7])], h, rfl, isGraph_eq (by decide +kernel),
    isGraph_eq (by decide +kernel), isGraph_eq (by decide +kernel), isGraph_eq (by decide +kernel),
    Res.eq_err (by decide +kernel), Res.eq_err (by decide +kernel)⟩

/-! ## C47: null shared pointers -/

/-- C47 violated: an object with a null shared pointer is stored, but cannot be restored. -/
theorem null_shared_throws : ∃ (bs : Bytes) (w : PJson.Wr),
    jsonOf memory' 9 linkTy (.many [.null, addr 10]) = .ok (bs, w) ∧
    jrestore linkTy bs = .err ∧ jload linkTy bs = .err := by
  obtain ⟨w, h⟩ := wrote_eq (r := jsonOf memory' 9 linkTy (.many [.null, addr 10]))
    (bs := str "{\"l\":null,\"r\":{\"srl_shared_key\":0,\"srl_shared_value\":{\"x\":7}}}")
    (by decide +kernel)
  exact ⟨_, w, h, Res.eq_err (by decide +kernel), Res.eq_err (by decide +kernel)⟩

/-- C47 violated: null pointers in a vector of shared pointers are gone after restoring. -/
theorem null_shared_vector_shrinks : ∃ (bs : Bytes) (w : PJson.Wr),
    jsonOf memory' 9 (.vec (.shared false 0)) (.many [.null, addr 10, .null]) = .ok (bs, w) ∧
    jrestore (.vec (.shared false 0)) bs = .ok (.many [addr 0], [(0, .many [.int 7])]) ∧
    jload (.vec (.shared false 0)) bs = .ok (.many [addr 0], [(0, .many [.int 7])]) := by
  obtain ⟨w, h⟩ := wrote_eq (r := jsonOf memory' 9 (.vec (.shared false 0)) (.many [.null, addr 10, .null]))
    (bs := str "[null,{\"srl_shared_key\":0,\"srl_shared_value\":{\"x\":7}},null]") (by decide +kernel)
  exact ⟨_, w, h, isGraph_eq (by decide +kernel), isGraph_eq (by decide +kernel)⟩

/-! ## C55: documents and the types of shared objects -/

/-- C55 violated: a document with one key for pointers to two classes. The second pointer then leads to an
object of the first class; both ways of restoring. -/
theorem shared_type_confusion : ∃ doc : Bytes,
    let ty : GTy := .record (.cons (str "a") (.shared false 0) (.cons (str "b") (.shared false 1) .nil))
    ty.Ok ∧ jrestore ty doc = .ub ∧ jload ty doc = .ub := by
  refine ⟨str "{\"a\":{\"srl_shared_key\":0,\"srl_shared_value\":{\"x\":7}},\"b\":{\"srl_shared_key\":0}}", ?_,
    Res.eq_ub (by decide +kernel), Res.eq_ub (by decide +kernel)⟩
  refine ⟨by decide +kernel, by decide +kernel, ?_⟩
  simp [GFields.Ok, GTy.Ok]

end Srl.Props
