import Verif.Lemmas.LoadObject
import Verif.Props.Insert

/-! # C74: objects loaded into a tree -/

namespace Srl.Props
open TreeApi Typed Doc LoadObject

variable {P : Type}

/-- C74, without a document: whatever the tree was used for, the object can be taken out of it
again (`root().paste(o)`, `root().unwrap<T>()`; `root().paste_field(0, o)` for values). Missing: trees with an
array as root for pairs and tables (see `loaded_pair_is_rejected`), trees left by a call that threw while
storing (see `load_object_after_failure`). -/
theorem loaded_object_partial (cfg : HTable.Cfg Nat) (fmt : Fmt P) (t : Tree P) (env : Env) (ty : Ty) (o old : Obj)
    (hok : ty.Ok) (ho : Storable ty o) (hold : WT ty old) (ht : t.parsing = false)
    (hr : Strict ty = true → t.type = .object) :
    (loadObject cfg fmt ty o t).1 = .ok [] ∧
    unwrap env ty old ⟨[], rootOf (loadObject cfg fmt ty o t).2⟩ = .ok o := by
  rw [loadObject_eq cfg fmt ty o t ht]
  exact ⟨rfl, unwrap_inserted env hok ho hold hr []⟩

private theorem saved {cfg : HTable.Cfg Nat} {fmt : Fmt P} {p : P} {Ok : Node → Prop} {nv nv' : Val → Val}
    (hp : Faithful fmt p Ok nv) (hk : Keeps nv') (keep : Bool) (t : Tree P) (env : Env) (ty : Ty) (o old : Obj)
    (hok : ty.Ok) (htab : ty.Tables True false) (ho : Storable ty o) (hold : WT ty old) (ht : t.parsing = false)
    (hr : Suits t.type ty) (hn : Ok (rootOf (loadObject cfg fmt ty o t).2))
    (hd : (rootOf (loadObject cfg fmt ty o t).2).depth ≤ 128)
    (hv : Norm.item nv false ((rootOf (loadObject cfg fmt ty o t).2).toItem []) =
      Norm.item nv' false ((rootOf (loadObject cfg fmt ty o t).2).toItem [])) :
    ∃ b, (step cfg fmt (loadObject cfg fmt ty o t).2 (.save p keep)).1 = .ok b ∧
      ∀ q fuel, ((rootOf (loadObject cfg fmt ty o t).2).events []).length ≤ fuel →
        direct env fmt.read fuel ty old (fmt.clear q, b) = .ok o := by
  rw [loadObject_eq cfg fmt ty o t ht] at hn hd hv ⊢
  simp only [rootOf] at hn hd hv ⊢
  have e : (Node.mk t.type (Item.contentL (inserted ty o)).1 (Item.contentL (inserted ty o)).2).toItem [] =
      .scope [] t.type (valsFirst (inserted ty o)) := rfl
  obtain ⟨p', b, hw, he⟩ := hp t.type (valsFirst (inserted ty o)) (by rw [content_first]; exact hn)
  refine ⟨b, ?_, fun q fuel hf => ?_⟩
  · simp only [step, save]
    rw [Node.events_eq, show Node.toItem t.clear.name (Node.mk t.clear.type (Item.contentL (inserted ty o)).1
      (Item.contentL (inserted ty o)).2) = .scope [] t.type (valsFirst (inserted ty o)) from rfl, hw]
  · obtain ⟨x, hx⟩ := he q
    rw [← e, show t.type = t.clear.type from rfl, hv] at hx
    refine restore_saved hk env fmt.read fuel hok htab ho hold hr _ x hx ?_ ?_
    · have := Item.depthL_content (inserted ty o)
      simp only [Node.depth] at hd
      simp only [maxDepth]
      omega
    · have := Item.eventsL_content (inserted ty o)
      simp only [Node.events, List.length_cons, List.length_append, List.length_map, List.length_nil] at hf
      omega

/-- C74 with the Srl format: the bytes of `to_source` restore to the object. Missing: trees with an array as
root for types stored as objects (see `names_of_loaded_object_lost`), trees left by a call that threw while
storing. -/
theorem loaded_object_srl_partial (m : Mem) (hm : m.Sane) (cfg : HTable.Cfg Nat) (scale : Nat → Nat) (p : PSrl.Obj)
    (hp : SrlState (PSrl.nameCfg scale) p) (keep : Bool) (t : Tree PSrl.Obj) (env : Env) (ty : Ty) (o old : Obj)
    (hok : ty.Ok) (htab : ty.Tables True false) (ho : Storable ty o) (hold : WT ty old) (ht : t.parsing = false)
    (hr : Suits t.type ty) :
    let t' := (loadObject cfg (srl m scale) ty o t).2
    PSrl.NodeOk (rootOf t') → ((rootOf t').events []).length < 2 ^ 64 → (rootOf t').depth ≤ 128 →
    ∃ b, (step cfg (srl m scale) t' (.save p keep)).1 = .ok b ∧
      ∀ (q : PSrl.Obj) fuel, ((rootOf t').events []).length ≤ fuel →
        direct env (srl m scale).read fuel ty old (q.clear, b) = .ok o :=
  fun h1 h2 h3 => saved (faithful_srl hm scale p hp) keeps_srl keep t env ty o old hok htab ho hold ht hr ⟨h1, h2⟩ h3
    rfl

/-- C74 with the format MessagePack -/
theorem loaded_object_msgpack_partial (m : Mem) (hm : m.Sane) (cfg : HTable.Cfg Nat) (p : PMsgPack.Obj)
    (keep : Bool) (t : Tree PMsgPack.Obj) (env : Env) (ty : Ty) (o old : Obj)
    (hok : ty.Ok) (htab : ty.Tables True false) (ho : Storable ty o) (hold : WT ty old) (ht : t.parsing = false)
    (hr : Suits t.type ty) :
    let t' := (loadObject cfg (msgpack m) ty o t).2
    PMsgPack.NodeOk (rootOf t') → (rootOf t').depth ≤ 128 →
    ∃ b, (step cfg (msgpack m) t' (.save p keep)).1 = .ok b ∧
      ∀ (q : PMsgPack.Obj) fuel, ((rootOf t').events []).length ≤ fuel →
        direct env (msgpack m).read fuel ty old (q.clear, b) = .ok o :=
  fun h1 h3 => saved (faithful_msgpack hm p) keeps_msgpack keep t env ty o old hok htab ho hold ht hr h1 h3 rfl

private theorem vals_kept (env : Env) (b : Bool) : ∀ (vs : List (Bytes × Val)), (∀ p ∈ vs, JsonVal env p.2) →
    vs.map (fun p => (if b then p.1 else [], PJson.nvJson env.dtoa env.strtod p.2)) =
      vs.map (fun p => (if b then p.1 else [], nvKept env p.2))
  | [], _ => rfl
  | p :: vs, h => by
    simp only [List.map_cons]
    rw [vals_kept env b vs (fun q hq => h q (by simp [hq])), nvKept_eq (h p (by simp))]

mutual
private theorem node_kept (env : Env) {Q : Bytes → Prop} : ∀ n : Node, PJson.NodeAll (JsonVal env) Q n →
    Norm.node (PJson.nvJson env.dtoa env.strtod) n = Norm.node (nvKept env) n
  | .mk t vs ns => fun h => by
    simp only [PJson.NodeAll] at h
    simp only [Norm.node]
    rw [vals_kept env _ vs h.1, nodes_kept env _ ns h.2.2]
private theorem nodes_kept (env : Env) {Q : Bytes → Prop} (b : Bool) : ∀ ns : List (Bytes × Node),
    PJson.NodesAll (JsonVal env) Q b ns →
    Norm.nodes (PJson.nvJson env.dtoa env.strtod) b ns = Norm.nodes (nvKept env) b ns
  | [], _ => rfl
  | (name, n) :: ns, h => by
    simp only [PJson.NodesAll] at h
    simp only [Norm.nodes]
    rw [node_kept env n h.2.1, nodes_kept env b ns h.2.2]
end

/-- C74 with JSON. Missing besides: the values JSON does not carry (`JsonVal`, as for C04). -/
theorem loaded_object_json_partial (m : Mem) (hm : m.Sane) (cfg : HTable.Cfg Nat) (compact : Bool)
    (p : PJson.Rd × PJson.Wr) (keep : Bool) (t : Tree (PJson.Rd × PJson.Wr)) (env : Env) (ty : Ty) (o old : Obj)
    (hok : ty.Ok) (htab : ty.Tables True false) (ho : Storable ty o) (hold : WT ty old) (ht : t.parsing = false)
    (hr : Suits t.type ty) :
    let fmt := json m env.strtod env.dtoa compact
    let t' := (loadObject cfg fmt ty o t).2
    PJson.NodeOk env.dtoa env.strtod (rootOf t') → PJson.NodeAll (JsonVal env) (fun _ => True) (rootOf t') →
    (rootOf t').depth ≤ 128 →
    ∃ b, (step cfg fmt t' (.save p keep)).1 = .ok b ∧
      ∀ q fuel, ((rootOf t').events []).length ≤ fuel → direct env fmt.read fuel ty old (fmt.clear q, b) = .ok o :=
  fun h1 h2 h3 => saved (faithful_json hm env.strtod env.dtoa compact p) (keeps_json env) keep t env ty o old hok
    htab ho hold ht hr h1 h3 (by rw [Norm.item_toItem, Norm.item_toItem, node_kept env _ h2])

/-! ## The document is that of `store` -/

mutual
private theorem listless_actOf : ∀ i : Item, (actOf i).listless = true
  | .val _ _ => rfl
  | .scope _ _ kids => by simp only [actOf, Act.listless, listless_actsOf kids]
private theorem listless_actsOf : ∀ is : List Item, listlessL (actsOf is) = true
  | [] => rfl
  | i :: is => by simp only [actsOf, listlessL, listless_actOf i, listless_actsOf is, Bool.and_self]
end

private theorem inserted_new (cfg : HTable.Cfg Nat) (fmt : Fmt P) (is : List Item) :
    step cfg fmt Tree.new (.insert (actsOf is)) = (.ok [],
      { Tree.new with values := (Item.contentL is).1, nodes := (Item.contentL is).2 }) := by
  have h : (Tree.new (P := P)).parsing = false := rfl
  simp only [step, h, performL_actsOf, noBytes]
  simp [Tree.take, Tree.work, Tree.new]

/-- Saving does not depend on what the tree was used for before. -/
private theorem saved_new (cfg : HTable.Cfg Nat) (fmt : Fmt P) (ty : Ty) (o : Obj) (t : Tree P) (ht : t.parsing = false)
    (hr : t.type = .object) (p : P) (keep : Bool) :
    (step cfg fmt (loadObject cfg fmt ty o t).2 (.save p keep)).1 =
      (step cfg fmt (step cfg fmt Tree.new (.insert (actsOf (inserted ty o)))).2 (.save p keep)).1 := by
  rw [loadObject_eq cfg fmt ty o t ht, inserted_new]
  simp only [step, save, Tree.clear, Tree.new, hr]
  split <;> rfl

/-- C74 with the Srl format, for types stored as objects: saving the tree and storing the object give documents
that load as the same tree. For other types this fails, see `loaded_vector_is_object`. -/
theorem loaded_is_stored_srl_partial (m : Mem) (hm : m.Sane) (cfg : HTable.Cfg Nat) (scale : Nat → Nat)
    (p p' : PSrl.Obj) (hp : SrlState (PSrl.nameCfg scale) p) (hp' : SrlState (PSrl.nameCfg scale) p')
    (keep keep' : Bool) (t : Tree PSrl.Obj) (ty : Ty) (o : Obj) (ht : t.parsing = false) (hr : t.type = .object) :
    let t' := (loadObject cfg (srl m scale) ty o t).2
    PSrl.NodeOk (rootOf t') → ((rootOf t').events []).length < 2 ^ 64 → (rootOf t').depth ≤ 128 →
    ∃ b b', (step cfg (srl m scale) t' (.save p keep)).1 = .ok b ∧
      (step cfg (srl m scale) Tree.new (.store p' keep' .object (actsOf (inserted ty o)))).1 = .ok b' ∧
      ∃ root, ∀ fuel, ((rootOf t').events []).length ≤ fuel →
        Loads (srl m scale) fuel b root ∧ Loads (srl m scale) fuel b' root := by
  intro t' h1 h2 h3
  have hi := inserted_new cfg (srl m scale) (inserted ty o)
  have ht' : rootOf t' = rootOf (step cfg (srl m scale) Tree.new (.insert (actsOf (inserted ty o)))).2 := by
    rw [hi]
    simp only [t', loadObject_eq cfg _ ty o t ht, rootOf, Tree.clear, hr]
    rfl
  rw [ht'] at h1 h2 h3 ⊢
  rw [saved_new cfg _ ty o t ht hr p keep]
  exact srl_inserted_is_stored_partial m hm cfg scale p p' hp hp' keep keep' _ (listless_actsOf _)
    (by rw [hi]) h1 h2 h3

/-- The same with the format MessagePack -/
theorem loaded_is_stored_msgpack_partial (m : Mem) (hm : m.Sane) (cfg : HTable.Cfg Nat) (p p' : PMsgPack.Obj)
    (keep keep' : Bool) (t : Tree PMsgPack.Obj) (ty : Ty) (o : Obj) (ht : t.parsing = false) (hr : t.type = .object) :
    let t' := (loadObject cfg (msgpack m) ty o t).2
    PMsgPack.NodeOk (rootOf t') → (rootOf t').depth ≤ 128 →
    ∃ b b', (step cfg (msgpack m) t' (.save p keep)).1 = .ok b ∧
      (step cfg (msgpack m) Tree.new (.store p' keep' .object (actsOf (inserted ty o)))).1 = .ok b' ∧
      ∃ root, ∀ fuel, ((rootOf t').events []).length ≤ fuel →
        Loads (msgpack m) fuel b root ∧ Loads (msgpack m) fuel b' root := by
  intro t' h1 h3
  have hi := inserted_new cfg (msgpack m) (inserted ty o)
  have ht' : rootOf t' = rootOf (step cfg (msgpack m) Tree.new (.insert (actsOf (inserted ty o)))).2 := by
    rw [hi]
    simp only [t', loadObject_eq cfg _ ty o t ht, rootOf, Tree.clear, hr]
    rfl
  rw [ht'] at h1 h3 ⊢
  rw [saved_new cfg _ ty o t ht hr p keep]
  exact msgpack_inserted_is_stored_partial m hm cfg p p' keep keep' _ (listless_actsOf _) (by rw [hi]) h1 h3

/-- The same with JSON -/
theorem loaded_is_stored_json_partial (m : Mem) (hm : m.Sane) (cfg : HTable.Cfg Nat) (strtod : Bytes → Option UInt64)
    (dtoa : UInt64 → Bytes) (compact : Bool) (p p' : PJson.Rd × PJson.Wr) (keep keep' : Bool)
    (t : Tree (PJson.Rd × PJson.Wr)) (ty : Ty) (o : Obj) (ht : t.parsing = false) (hr : t.type = .object) :
    let fmt := json m strtod dtoa compact
    let t' := (loadObject cfg fmt ty o t).2
    PJson.NodeOk dtoa strtod (rootOf t') → (rootOf t').depth ≤ 128 →
    ∃ b b', (step cfg fmt t' (.save p keep)).1 = .ok b ∧
      (step cfg fmt Tree.new (.store p' keep' .object (actsOf (inserted ty o)))).1 = .ok b' ∧
      ∃ root, ∀ fuel, ((rootOf t').events []).length ≤ fuel → Loads fmt fuel b root ∧ Loads fmt fuel b' root := by
  intro fmt t' h1 h3
  have hi := inserted_new cfg fmt (inserted ty o)
  have ht' : rootOf t' = rootOf (step cfg fmt Tree.new (.insert (actsOf (inserted ty o)))).2 := by
    rw [hi]
    simp only [t', loadObject_eq cfg _ ty o t ht, rootOf, Tree.clear, hr]
    rfl
  rw [ht'] at h1 h3 ⊢
  rw [saved_new cfg _ ty o t ht hr p keep]
  exact json_inserted_is_stored_partial m hm cfg strtod dtoa compact p p' keep keep' _ (listless_actsOf _)
    (by rw [hi]) h1 h3

mutual
private theorem puts_actOf (cfg : HTable.Cfg Nat) (fmt : Fmt P) (s : Shared.Seen) : ∀ i : Item,
    Puts fmt s (perform cfg fmt false (actOf i)) (perform cfg fmt true (actOf i)) [i] s
  | .val n v => by
    have h : ∀ b, perform cfg fmt b (actOf (.val n v)) = insertValue fmt b n v := fun b => by
      funext w; simp only [actOf, perform]
    rw [h, h]
    exact Puts.value fmt s n v
  | .scope n t kids => by
    have h : ∀ b, perform cfg fmt b (actOf (.scope n t kids)) = openScope fmt b n t (performL cfg fmt b (actsOf kids)) :=
      fun b => by funext w; simp only [actOf, perform]
    rw [h, h]
    exact (puts_actsOf cfg fmt s kids).scope n t
private theorem puts_actsOf (cfg : HTable.Cfg Nat) (fmt : Fmt P) (s : Shared.Seen) : ∀ is : List Item,
    Puts fmt s (performL cfg fmt false (actsOf is)) (performL cfg fmt true (actsOf is)) is s
  | [] => by
    have h : ∀ b, performL cfg fmt b (actsOf []) = fun w => (.ok (), w) := fun b => by
      funext w; simp only [actsOf, performL]
    rw [h, h]
    exact Puts.nil fmt s
  | i :: is => by
    have h : ∀ b, performL cfg fmt b (actsOf (i :: is)) = fun w => andThen (perform cfg fmt b (actOf i) w)
        (performL cfg fmt b (actsOf is)) := fun b => by
      funext w; simp only [actsOf, performL]
    rw [h, h]
    exact (puts_actOf cfg fmt s i).andThen (puts_actsOf cfg fmt s is)
end

/-- The calls of `store` used here are those C04 is about: the bytes are those of the tokens of `rootItem`. -/
theorem stored_acts (cfg : HTable.Cfg Nat) (fmt : Fmt P) (p p' : P) (b : Bytes) (keep : Bool) (ty : Ty) (o : Obj)
    (hs : ty.isScope = true) (ho : Storable ty o)
    (hw : writeAll fmt (fmt.clear p, []) (rootItem ty o).events = .ok (p', b)) :
    (step cfg fmt Tree.new (.store p keep ty.scopeTy (actsOf (inserted ty o)))).1 = .ok b := by
  rw [rootItem, if_pos hs, stored_scope ty o ho hs, ← inserted_scope hs ho] at hw
  exact store_puts (puts_actsOf cfg fmt _ _) p keep p' b hw

/-! ## Examples and violations -/

private def c1 : HTable.Cfg Nat := ⟨fun k => k.toUInt64, fun n => n⟩

private def lenv : Env := ⟨fun _ => none, fun _ => []⟩

private def jfmt : Fmt (PJson.Rd × PJson.Wr) := json ⟨some 0, 4096⟩ (fun _ => none) (fun _ => []) true

private def jp : PJson.Rd × PJson.Wr := (PJson.Rd.new, PJson.Wr.new)

/-- A class with a vector between two numbers. -/
private def midTy : Ty := .record .object false
  (.cons (str "a") false (.int .i32)
  (.cons (str "v") false (.vec (.int .i32))
  (.cons (str "b") false .bool .nil)))

private def midObj : Obj := .many [.int 1, .many [.int 2, .int 3], .bool true]

private def midNode : Node := .mk .object [(str "a", .int .i32 1), (str "b", .bool true)]
  [(str "v", .mk .array [([], .int .i32 2), ([], .int .i32 3)] [])]

private theorem mid_root : rootOf (loadObject c1 jfmt midTy midObj Tree.new).2 = midNode := by
  rw [loadObject_eq _ _ _ _ _ rfl]
  rfl

/-- The hypotheses are met, by a new tree. -/
example : midTy.Ok ∧ midTy.Tables True false ∧ Storable midTy midObj ∧ WT midTy (dflt midTy) ∧
    (Tree.new (P := PJson.Rd × PJson.Wr)).parsing = false ∧
    Suits (Tree.new (P := PJson.Rd × PJson.Wr)).type midTy ∧
    PJson.NodeOk lenv.dtoa lenv.strtod (rootOf (loadObject c1 jfmt midTy midObj Tree.new).2) ∧
    PJson.NodeAll (JsonVal lenv) (fun _ => True) (rootOf (loadObject c1 jfmt midTy midObj Tree.new).2) ∧
    PSrl.NodeOk midNode ∧ PMsgPack.NodeOk midNode ∧
    (rootOf (loadObject c1 jfmt midTy midObj Tree.new).2).depth ≤ 128 := by
  rw [mid_root]
  refine ⟨?_, ?_, ?_, dflt_wt _, rfl, .inl rfl, ?_, ?_, ?_, ?_, by decide +kernel⟩
  · simp only [midTy, Ty.Ok, Fields.Ok, Fields.Named, Fields.names]
    refine ⟨⟨trivial, trivial, trivial, trivial⟩, .inl ⟨trivial, ?_⟩⟩
    decide +kernel
  · simp only [midTy, Ty.Tables, Fields.Tables]
    trivial
  · simp [midTy, midObj, Storable, StorableL, IntTy.lo, IntTy.hi, IntTy.signed, IntTy.bits]
  · simp [midNode, PJson.NodeOk, PJson.NodeAll, PJson.NodesAll, PJson.ValOk, PJson.NameOk, str, IntTy.lo, IntTy.hi,
      IntTy.signed, IntTy.bits]
  · simp [midNode, PJson.NodeAll, PJson.NodesAll, JsonVal]
  · simp [midNode, PSrl.NodeOk, PSrl.NodesOk, PSrl.ValOk, str, IntTy.lo, IntTy.hi, IntTy.signed, IntTy.bits]
  · simp [midNode, PMsgPack.NodeOk, PMsgPack.NodesOk, PMsgPack.ValOk, str, IntTy.lo, IntTy.hi, IntTy.signed,
      IntTy.bits]

/-- The document has the values first; storing keeps the order of the members. -/
example : (step c1 jfmt (loadObject c1 jfmt midTy midObj Tree.new).2 (.save jp true)).1 =
      .ok (str "{\"a\":1,\"b\":true,\"v\":[2,3]}") ∧
    (step c1 jfmt Tree.new (.store jp true .object (actsOf (inserted midTy midObj)))).1 =
      .ok (str "{\"a\":1,\"v\":[2,3],\"b\":true}") := by
  refine ⟨by decide +kernel, by decide +kernel⟩

/-- C74 violated: what is stored as an array becomes, in the tree that `load_object` fills, an object
whose members all have the empty name, and a number a member with the empty name instead of `value`. The
documents of `to_source` differ from those of `store` accordingly. -/
theorem loaded_vector_is_object :
    (step c1 jfmt (loadObject c1 jfmt (.vec (.int .i32)) (.many [.int 1, .int 2]) Tree.new).2 (.save jp true)).1 =
      .ok (str "{\"\":1,\"\":2}") ∧
    (step c1 jfmt Tree.new (.store jp true .array (actsOf (inserted (.vec (.int .i32)) (.many [.int 1, .int 2]))))).1 =
      .ok (str "[1,2]") ∧
    (step c1 jfmt (loadObject c1 jfmt (.int .i32) (.int 7) Tree.new).2 (.save jp true)).1 =
      .ok (str "{\"\":7}") ∧
    (step c1 jfmt Tree.new (.store jp true .object [actOf (toItem (str "value") (.int .i32) (.int 7))])).1 =
      .ok (str "{\"value\":7}") := by
  refine ⟨by decide +kernel, by decide +kernel, by decide +kernel, by decide +kernel⟩

/-- C74 violated: `clear` keeps the type of the root. An object loaded into a tree that was used for a
document with an array as root can be taken out, but is saved without the names of its members, and the
document does not restore. -/
theorem names_of_loaded_object_lost :
    let t := (step c1 jfmt Tree.new (.load jp true 9 (str "[1]"))).2
    let t' := (loadObject c1 jfmt midTy midObj t).2
    t.parsing = false ∧ unwrap lenv midTy (dflt midTy) ⟨[], rootOf t'⟩ = .ok midObj ∧
    (step c1 jfmt t' (.save jp true)).1 = .ok (str "[1,true,[2,3]]") ∧
    (direct lenv jfmt.read 99 midTy (dflt midTy) (jp, str "[1,true,[2,3]]")).isErr = true := by
  refine ⟨by decide +kernel, ?_, by decide +kernel, by decide +kernel⟩
  exact (loaded_object_partial c1 jfmt _ lenv midTy midObj (dflt midTy) (by
    simp only [midTy, Ty.Ok, Fields.Ok, Fields.Named, Fields.names]
    refine ⟨⟨trivial, trivial, trivial, trivial⟩, .inl ⟨trivial, ?_⟩⟩
    decide +kernel) (by
    simp [midTy, midObj, Storable, StorableL, IntTy.lo, IntTy.hi, IntTy.signed, IntTy.bits])
    (dflt_wt _) (by decide +kernel) (fun h => by cases h)).2

/-- C74 violated: a pair loaded into such a tree cannot be taken out again. -/
theorem loaded_pair_is_rejected :
    let ty : Ty := .record .object true
      (.cons (str "first") false (.int .i32) (.cons (str "second") false (.int .i32) .nil))
    let t := (step c1 jfmt Tree.new (.load jp true 9 (str "[1]"))).2
    let r := loadObject c1 jfmt ty (.many [.int 1, .int 2]) t
    r.1 = .ok [] ∧ (unwrap lenv ty (dflt ty) ⟨[], rootOf r.2⟩).isErr = true := by
  refine ⟨by decide +kernel, by decide +kernel⟩

/-- C74 violated: after a call that threw while storing, `load_object` writes with the parser of that
call, which may be gone (`keep = false`), instead of filling the tree. With a parser that is still there
nothing gets into the tree and no error is reported. -/
theorem load_object_after_failure :
    let t := fun keep => (step c1 jfmt Tree.new (.store jp keep .object [.fail])).2
    (loadObject c1 jfmt midTy midObj (t false)).1 = .ub ∧
    (loadObject c1 jfmt midTy midObj (t true)).1 = .ok [] ∧
    (unwrap lenv midTy (dflt midTy) ⟨[], rootOf (loadObject c1 jfmt midTy midObj (t true)).2⟩).isErr = true := by
  refine ⟨by decide +kernel, by decide +kernel, by decide +kernel⟩

end Srl.Props
