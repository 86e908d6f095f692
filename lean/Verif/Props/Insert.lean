import Verif.Lemmas.Insert
import Verif.Props.Reuse
import Verif.Props.Tree

/-! # C67: what storing writes is what inserting adds to a tree -/

namespace Srl.Props
open TreeApi Doc

section
variable {P : Type}

/-- Loading the bytes with a parser object, whatever it was used for, gives this document. -/
def Loads (fmt : Fmt P) (fuel : Nat) (b : Bytes) (root : Root) : Prop :=
  ∀ q, ∃ x, Doc.load fmt.read fuel (fmt.clear q, b) = .ok (root, x)

/-- What a format does with documents of items in any order. -/
def Faithful (fmt : Fmt P) (p : P) (Ok : Node → Prop) (nv : Val → Val) : Prop :=
  ∀ (t : ScopeTy) (kids : List Item), Ok (.mk t (Item.contentL kids).1 (Item.contentL kids).2) →
    ∃ p' b, writeAll fmt (fmt.clear p, []) (Item.scope [] t kids).events = .ok (p', b) ∧
      ∀ q, ∃ x, Emits fmt.read (fmt.clear q, b) (Norm.item nv false (.scope [] t kids)).events x

private theorem faithful_loads {fmt : Fmt P} {kids : List Item} {nv : Val → Val} {b : Bytes}
    (h : ∀ q, ∃ x, Emits fmt.read (fmt.clear q, b) (Norm.item nv false (.scope [] .object kids)).events x)
    (fuel : Nat) (hf : ((Node.mk .object (Item.contentL kids).1 (Item.contentL kids).2).events []).length ≤ fuel)
    (hd : (Node.mk .object (Item.contentL kids).1 (Item.contentL kids).2).depth ≤ 128) :
    Loads fmt fuel b ⟨[], Norm.node nv (.mk .object (Item.contentL kids).1 (Item.contentL kids).2)⟩ := by
  intro q
  obtain ⟨x, he⟩ := h q
  have hl := Item.eventsL_content kids
  simp only [Node.events, List.length_cons, List.length_append, List.length_map, List.length_nil] at hf
  have := load_item fmt.read [] .object (Norm.items nv true kids) fuel _ _ (by
    simpa [Norm.item] using he) (by rw [Norm.eventsL_length]; omega)
  rw [Norm.depth_items, ← Item.depthL_content, if_pos (by simpa [Node.depth, maxDepth] using hd),
    Norm.content_items] at this
  exact ⟨x, by rw [this]; simp [Norm.node]⟩

/-- Storing, in terms of the items inserted. -/
theorem store_puts {cfg : HTable.Cfg Nat} {fmt : Fmt P} {acts : List Act} {kids : List Item}
    {s' : Shared.Seen} {t : ScopeTy}
    (h : Puts fmt Shared.Seen.new (performL cfg fmt false acts) (performL cfg fmt true acts) kids s')
    (p : P) (keep : Bool) (p' : P) (b : Bytes)
    (hw : writeAll fmt (fmt.clear p, []) (Item.scope [] t kids).events = .ok (p', b)) :
    (step cfg fmt Tree.new (.store p keep t acts)).1 = .ok b := by
  have hs := (h.scope [] t).writes ⟨some (fmt.clear p), [], Shared.Seen.new, [], []⟩ _ rfl rfl
  obtain ⟨h1, h2⟩ := hs
  simp only [Item.eventsL, List.append_nil] at h1 h2
  simp only [openScope, if_true] at h1 h2
  simp only [step, storeWith, Tree.new, Tree.work]
  revert h1 h2
  generalize andThen (andThen (emit fmt _ _) _) _ = r
  obtain ⟨r, w⟩ := r
  rw [hw]
  intro h1 h2
  have h3 := h2 p' b rfl
  simp only [outcome] at h1 h3
  subst h1 h3
  rfl

private theorem inserted {cfg : HTable.Cfg Nat} {fmt : Fmt P} {p p' : P} {Ok : Node → Prop}
    {nv : Val → Val} (hp : Faithful fmt p Ok nv) (hp' : Faithful fmt p' Ok nv) (keep keep' : Bool)
    (acts : List Act) (hl : listlessL acts = true)
    (hi : (step cfg fmt Tree.new (.insert acts)).1 = .ok []) :
    let t := (step cfg fmt Tree.new (.insert acts)).2
    let n := Node.mk t.type t.values t.nodes
    Ok n → n.depth ≤ 128 → ∃ b b', (step cfg fmt t (.save p keep)).1 = .ok b ∧
      (step cfg fmt Tree.new (.store p' keep' .object acts)).1 = .ok b' ∧
      ∃ root, ∀ fuel, (n.events []).length ≤ fuel → Loads fmt fuel b root ∧ Loads fmt fuel b' root := by
  have hi' : (performL cfg fmt false acts (Tree.new (P := P)).work).1 = .ok () := by
    simp only [step, Tree.new] at hi
    simp only [Tree.new]
    revert hi
    generalize (performL cfg fmt false acts _).1 = r
    cases r <;> simp [noBytes]
  obtain ⟨kids, s', h⟩ := performL_puts cfg fmt acts Shared.Seen.new _ hl rfl hi'
  have ha := h.adds (Tree.new (P := P)).work rfl
  have ht : (step cfg fmt Tree.new (.insert acts)).2 = ⟨false, none, [], s', [], .object,
      (Item.contentL kids).1, (Item.contentL kids).2⟩ := by
    simp only [step]
    rw [show (Tree.new (P := P)).parsing = false from rfl, ha]
    simp [Tree.take, Tree.new, Tree.work]
  rw [ht]
  intro t n hok hd
  obtain ⟨q, b', hw, he⟩ := hp' .object kids hok
  have hc : Item.contentL ((Item.contentL kids).1.map (fun p => Item.val p.1 p.2) ++
      Node.toItems (Item.contentL kids).2) = Item.contentL kids := by
    rw [Item.contentL_vals, Node.contentL_toItems, List.append_nil]
  obtain ⟨q', b, hw2, he2⟩ := hp .object ((Item.contentL kids).1.map (fun p => Item.val p.1 p.2) ++
      Node.toItems (Item.contentL kids).2) (by rw [hc]; exact hok)
  refine ⟨b, b', ?_, store_puts h p' keep' q b' hw, _, fun fuel hf =>
    ⟨?_, faithful_loads he fuel hf hd⟩⟩
  · simp only [step, save, t]
    rw [Node.events_eq, Node.toItem, hw2]
  · have := faithful_loads he2 fuel (by rw [hc]; exact hf) (by rw [hc]; exact hd)
    rw [hc] at this
    exact this

end

/-! ## The formats -/

private theorem emits_through {σ τ : Type} {f : σ → τ} {read : σ → Res (Event × σ)}
    {read' : τ → Res (Event × τ)} (h : Through f read read') :
    ∀ (es : List Event) (x : σ) (y : τ), Emits read' (f x) es y → ∃ z, Emits read x es z := by
  intro es
  induction es with
  | nil => intro x y _; exact ⟨x, .nil x⟩
  | cons e es ih =>
    intro x y he
    obtain ⟨y1, h1, h2⟩ := Emits.cons_inv he
    rcases h.cases x with ⟨e', x1, h3, h4⟩ | ⟨h3, h4⟩ | ⟨h3, h4⟩ | ⟨h3, h4⟩ <;> rw [h1] at h4
    · cases h4
      obtain ⟨z, hz⟩ := ih x1 y h2
      exact ⟨z, .cons h3 hz⟩
    all_goals cases h4

private theorem srl_writeAll (m : Mem) (scale : Nat → Nat) : ∀ (es : List Event) (o o' : PSrl.Obj) (out b : Bytes),
    o.writeAll (PSrl.nameCfg scale) es = .ok (o', b) →
    writeAll (srl m scale) (o, out) es = .ok (o', out ++ b)
  | [], o, o', out, b, h => by cases h; simp [writeAll]
  | e :: es, o, o', out, b, h => by
    simp only [PSrl.Obj.writeAll] at h
    obtain ⟨⟨o1, b1⟩, h1, h2⟩ := Res.bind_eq_ok.mp h
    obtain ⟨⟨o2, b2⟩, h3, h4⟩ := Res.bind_eq_ok.mp h2
    cases h4
    simp only [writeAll, srl, h1, Res.ok_bind]
    have := srl_writeAll m scale es o1 _ (out ++ b1) b2 h3
    simpa [srl, List.append_assoc] using this

private theorem msgpack_writeAll (m : Mem) : ∀ (es : List Event) (o : PMsgPack.Obj) (out : Bytes)
    (x : List PMsgPack.WScope × Bytes), PMsgPack.writeAll (o.scopes, out) es = .ok x →
    writeAll (msgpack m) (o, out) es = .ok (⟨x.1, o.buffer⟩, x.2)
  | [], o, out, x, h => by cases h; simp [writeAll]
  | e :: es, o, out, x, h => by
    simp only [PMsgPack.writeAll] at h
    obtain ⟨⟨o1, b1⟩, h1, h2⟩ := Res.bind_eq_ok.mp h
    simp only [writeAll, msgpack, h1, Res.ok_bind]
    exact msgpack_writeAll m es ⟨o1, o.buffer⟩ b1 x h2

private theorem json_writeAll (m : Mem) (strtod : Bytes → Option UInt64) (dtoa : UInt64 → Bytes)
    (compact : Bool) : ∀ (es : List Event) (r : PJson.Rd) (w w' : PJson.Wr) (out b : Bytes),
    PJson.writeAll dtoa compact w es = .ok (b, w') →
    writeAll (json m strtod dtoa compact) ((r, w), out) es = .ok ((r, w'), out ++ b)
  | [], r, w, w', out, b, h => by cases h; simp [writeAll]
  | e :: es, r, w, w', out, b, h => by
    simp only [PJson.writeAll] at h
    obtain ⟨⟨b1, w1⟩, h1, h2⟩ := Res.bind_eq_ok.mp h
    obtain ⟨⟨b2, w2⟩, h3, h4⟩ := Res.bind_eq_ok.mp h2
    cases h4
    simp only [writeAll, json, h1, Res.ok_bind]
    have := json_writeAll m strtod dtoa compact es r w1 _ (out ++ b1) b2 h3
    simpa [json, List.append_assoc] using this

theorem faithful_srl {m : Mem} (hm : m.Sane) (scale : Nat → Nat) (o : PSrl.Obj)
    (ho : SrlState (PSrl.nameCfg scale) o) :
    Faithful (srl m scale) o (fun n => PSrl.NodeOk n ∧ (n.events []).length < 2 ^ 64) PSrl.normVal := by
  intro t kids ⟨hok, hsize⟩
  have hl := Item.eventsL_content kids
  simp only [Node.events, List.length_cons, List.length_append, List.length_map, List.length_nil] at hsize
  obtain ⟨st', ⟨b, h1, h2⟩, -⟩ := PSrl.codes_item hm (.scope [] t kids) PSrl.St.init
    ⟨by simp, PSrl.itemsOk_content kids hok.1 hok.2⟩ (by
      simp only [Item.events, List.length_cons, List.length_append, List.length_nil, PSrl.St.init]
      omega)
  obtain ⟨i1, mp, i2⟩ := srl_state_ok ho
  have hsim := PSrl.sim_writeAll (Item.scope [] t kids).events (o := o.clear) (st := PSrl.St.init)
    ⟨rfl, PSrl.rep_clear i1 i2⟩
  rw [h1] at hsim
  cases hx : o.clear.writeAll (PSrl.nameCfg scale) (Item.scope [] t kids).events with
  | ok y =>
    obtain ⟨o', b'⟩ := y
    rw [hx] at hsim
    obtain ⟨-, hb⟩ := hsim
    subst hb
    refine ⟨o', b', srl_writeAll m scale _ o.clear o' [] b' hx, fun q => ?_⟩
    have := h2 []
    rw [List.append_nil, show PSrl.inObject PSrl.St.init = false from rfl, normItem_eq] at this
    exact emits_through (PSrl.through m) _ (q.clear, b') _ this
  | err => rw [hx] at hsim; exact hsim.elim
  | ub => rw [hx] at hsim; exact hsim.elim
  | fuel => rw [hx] at hsim; exact hsim.elim

theorem faithful_msgpack {m : Mem} (hm : m.Sane) (o : PMsgPack.Obj) :
    Faithful (msgpack m) o PMsgPack.NodeOk PMsgPack.normVal := by
  intro t kids hok
  have hl := Item.length_content kids
  have hi : PMsgPack.ItemOk (.scope [] t kids) :=
    ⟨by simp, by have := hok.1; omega, PMsgPack.itemsOk_content kids hok.2.1 hok.2.2⟩
  have hw := PMsgPack.writeAll_item (.scope [] t kids) [] []
  refine ⟨_, _, msgpack_writeAll m _ o.clear [] _ hw, fun q => ?_⟩
  have he := PMsgPack.emits_item hm _ [] _ [] trivial (PMsgPack.writeItem_enc _ false hi)
  rw [List.append_nil] at he
  exact emits_through (PMsgPack.through m) _ (q.clear, _) _ he

private theorem json_through (m : Mem) (strtod : Bytes → Option UInt64) (dtoa : UInt64 → Bytes)
    (compact : Bool) : Through (fun x : (PJson.Rd × PJson.Wr) × Bytes => (x.1.1, x.2))
      (json m strtod dtoa compact).read (PJson.read m strtod) := by
  intro x
  simp only [json]
  cases PJson.read m strtod (x.1.1, x.2) <;> rfl

theorem faithful_json {m : Mem} (hm : m.Sane) (strtod : Bytes → Option UInt64)
    (dtoa : UInt64 → Bytes) (compact : Bool) (p : PJson.Rd × PJson.Wr) :
    Faithful (json m strtod dtoa compact) p (PJson.NodeOk dtoa strtod) (PJson.nvJson dtoa strtod) := by
  intro t kids hok
  simp only [PJson.NodeOk, PJson.NodeAll] at hok
  obtain ⟨b, h1, h2⟩ := PJson.emits_doc hm strtod dtoa compact (PJson.nvJson dtoa strtod) [] t kids
    (PJson.itemsOk_content m dtoa strtod _ kids hok.1 (fun h => hok.2.1 (by simpa using h)) hok.2.2)
  refine ⟨_, _, json_writeAll m strtod dtoa compact _ p.1.clear PJson.Wr.new _ [] b h1, fun q => ?_⟩
  obtain ⟨r', he⟩ := h2 [] q.1.clear rfl
  rw [List.append_nil] at he
  exact emits_through (json_through m strtod dtoa compact) _ ((q.1.clear, PJson.Wr.new), _) _ he

/-! ## C67 -/

/-- C67 for the Srl format: what can be inserted into a tree – values, scopes, shared pointers, copies of
nodes – and saved with it, nested at most 128 levels deep, can be stored directly, and both documents load as the same tree. Missing:
initializer lists, for which it does not hold (see `list_while_storing`). -/
theorem srl_inserted_is_stored_partial (m : Mem) (hm : m.Sane) (cfg : HTable.Cfg Nat) (scale : Nat → Nat)
    (p p' : PSrl.Obj) (hp : SrlState (PSrl.nameCfg scale) p) (hp' : SrlState (PSrl.nameCfg scale) p')
    (keep keep' : Bool) (acts : List Act) (hl : listlessL acts = true)
    (hi : (step cfg (srl m scale) Tree.new (.insert acts)).1 = .ok []) :
    let t := (step cfg (srl m scale) Tree.new (.insert acts)).2
    let n := Node.mk t.type t.values t.nodes
    PSrl.NodeOk n → (n.events []).length < 2 ^ 64 → n.depth ≤ 128 →
    ∃ b b', (step cfg (srl m scale) t (.save p keep)).1 = .ok b ∧
      (step cfg (srl m scale) Tree.new (.store p' keep' .object acts)).1 = .ok b' ∧
      ∃ root, ∀ fuel, (n.events []).length ≤ fuel →
        Loads (srl m scale) fuel b root ∧ Loads (srl m scale) fuel b' root :=
  fun h1 h2 => inserted (faithful_srl hm scale p hp) (faithful_srl hm scale p' hp') keep keep' acts hl hi
    ⟨h1, h2⟩

/-- C67 for MessagePack -/
theorem msgpack_inserted_is_stored_partial (m : Mem) (hm : m.Sane) (cfg : HTable.Cfg Nat)
    (p p' : PMsgPack.Obj) (keep keep' : Bool) (acts : List Act) (hl : listlessL acts = true)
    (hi : (step cfg (msgpack m) Tree.new (.insert acts)).1 = .ok []) :
    let t := (step cfg (msgpack m) Tree.new (.insert acts)).2
    let n := Node.mk t.type t.values t.nodes
    PMsgPack.NodeOk n → n.depth ≤ 128 →
    ∃ b b', (step cfg (msgpack m) t (.save p keep)).1 = .ok b ∧
      (step cfg (msgpack m) Tree.new (.store p' keep' .object acts)).1 = .ok b' ∧
      ∃ root, ∀ fuel, (n.events []).length ≤ fuel →
        Loads (msgpack m) fuel b root ∧ Loads (msgpack m) fuel b' root :=
  inserted (faithful_msgpack hm p) (faithful_msgpack hm p') keep keep' acts hl hi

/-- C67 for JSON -/
theorem json_inserted_is_stored_partial (m : Mem) (hm : m.Sane) (cfg : HTable.Cfg Nat)
    (strtod : Bytes → Option UInt64) (dtoa : UInt64 → Bytes) (compact : Bool)
    (p p' : PJson.Rd × PJson.Wr) (keep keep' : Bool) (acts : List Act) (hl : listlessL acts = true)
    (hi : (step cfg (json m strtod dtoa compact) Tree.new (.insert acts)).1 = .ok []) :
    let t := (step cfg (json m strtod dtoa compact) Tree.new (.insert acts)).2
    let n := Node.mk t.type t.values t.nodes
    PJson.NodeOk dtoa strtod n → n.depth ≤ 128 →
    ∃ b b', (step cfg (json m strtod dtoa compact) t (.save p keep)).1 = .ok b ∧
      (step cfg (json m strtod dtoa compact) Tree.new (.store p' keep' .object acts)).1 = .ok b' ∧
      ∃ root, ∀ fuel, (n.events []).length ≤ fuel →
        Loads (json m strtod dtoa compact) fuel b root ∧ Loads (json m strtod dtoa compact) fuel b' root :=
  inserted (faithful_json hm strtod dtoa compact p) (faithful_json hm strtod dtoa compact p') keep keep'
    acts hl hi

/-- C67, errors: what inserting rejects, storing rejects, in every format; lists included. -/
theorem rejected_is_rejected {P : Type} (cfg : HTable.Cfg Nat) (fmt : Fmt P) (p : P) (keep : Bool)
    (acts : List Act) (b : Bytes) (h : (step cfg fmt Tree.new (.store p keep .object acts)).1 = .ok b) :
    (step cfg fmt Tree.new (.insert acts)).1 = .ok [] := by
  simp only [step, storeWith] at h
  split at h
  · rename_i w hw
    have h1 := congrArg Prod.fst hw
    obtain ⟨h2, h3⟩ := andThen_ok (andThen_ok h1).1
    have := performL_ok cfg fmt acts _ (Tree.new (P := P)).work (by rw [seen_emit]; rfl) h3
    simp only [step, Tree.new] at this ⊢
    rw [this.1]
    rfl
  · cases h
  · cases h
  · cases h

private def c1 : HTable.Cfg Nat := ⟨fun k => k.toUInt64, fun n => n⟩

private def jfmt : Fmt (PJson.Rd × PJson.Wr) := json ⟨some 0, 4096⟩ (fun _ => none) (fun _ => []) true

private def sfmt : Fmt PSrl.Obj := srl ⟨some 0, 4096⟩ id

private def mfmt : Fmt PMsgPack.Obj := msgpack ⟨some 0, 4096⟩

private def jp : PJson.Rd × PJson.Wr := (PJson.Rd.new, PJson.Wr.new)

/-- A nested object with a copy of a node and a pointer stored twice, between values. -/
private def mixed : List Act :=
  [.scope (str "s") .object [.node (str "n") (.mk .array [([], .int .u64 1)] [([], .mk .object [] [])]),
     .shared (str "p") 10 [.value Shared.valueName (.str (str "x"))], .shared (str "q") 10 []],
   .value (str "a") (.bool true)]

/-- The hypotheses are met; the documents differ in the order of their parts. -/
example : listlessL mixed = true ∧
    (run c1 jfmt Tree.new [.store jp true .object mixed, .clear, .insert mixed, .save jp true]).1 =
    [.ok (str ("{\"s\":{\"n\":[1,{}],\"p\":{\"srl_shared_key\":0,\"srl_shared_value\":\"x\"}," ++
        "\"q\":{\"srl_shared_key\":0}},\"a\":true}")), .ok [], .ok [],
     .ok (str ("{\"a\":true,\"s\":{\"n\":[1,{}],\"p\":{\"srl_shared_key\":0,\"srl_shared_value\":\"x\"}," ++
        "\"q\":{\"srl_shared_key\":0}}}"))] := by
  refine ⟨by decide, by decide +kernel⟩

/-- The trees they add up to meet the conditions of the formats. -/
private def mixedTree : Node :=
  .mk .object [(str "a", .bool true)]
    [(str "s", .mk .object [] [(str "n", .mk .array [([], .int .u64 1)] [([], .mk .object [] [])]),
      (str "p", .mk .object [(Shared.keyName, .int .u64 0), (Shared.valueName, .str (str "x"))] []),
      (str "q", .mk .object [(Shared.keyName, .int .u64 0)] [])])]

example : (step c1 sfmt Tree.new (.insert mixed)).1 = .ok [] ∧
    ((Node.mk .object (step c1 sfmt Tree.new (.insert mixed)).2.values
      (step c1 sfmt Tree.new (.insert mixed)).2.nodes).events []) = mixedTree.events [] ∧
    PSrl.NodeOk mixedTree ∧ PMsgPack.NodeOk mixedTree ∧ PJson.NodeOk (fun _ => []) (fun _ => none) mixedTree ∧
    (mixedTree.events []).length < 2 ^ 64 ∧ mixedTree.depth ≤ 128 := by
  refine ⟨by decide +kernel, by decide +kernel, ?_, ?_, ?_, by decide +kernel, by decide +kernel⟩
  · simp [mixedTree, PSrl.NodeOk, PSrl.NodesOk, PSrl.ValOk, str, Shared.keyName, Shared.valueName, IntTy.lo, IntTy.hi]
    decide
  · simp [mixedTree, PMsgPack.NodeOk, PMsgPack.NodesOk, PMsgPack.ValOk, str, Shared.keyName, Shared.valueName, IntTy.lo, IntTy.hi]
    decide
  · simp [mixedTree, PJson.NodeOk, PJson.NodeAll, PJson.NodesAll, PJson.ValOk, PJson.NameOk, str, Shared.keyName, Shared.valueName, IntTy.lo, IntTy.hi]
    decide

/-- C67 violated: an initializer list inserted into an open scope while storing. Inserted into a tree it is
an array with its elements; stored, the array is empty and the elements are nameless members of the
enclosing object, in every format. -/
theorem list_while_storing : ∃ acts : List Act,
    (run c1 jfmt Tree.new [.insert acts, .save jp true]).1 =
      [.ok [], .ok (str "{\"s\":{\"l\":[1,2]}}")] ∧
    (run c1 jfmt Tree.new [.store jp true .object acts, .load jp true 99 (str "{\"s\":{\"l\":[],\"\":1,\"\":2}}"),
      .save jp true]).1 =
      [.ok (str "{\"s\":{\"l\":[],\"\":1,\"\":2}}"), .ok [], .ok (str "{\"s\":{\"\":1,\"\":2,\"l\":[]}}")] ∧
    (run c1 sfmt Tree.new [.insert acts, .save .new true, .store .new true .object acts,
      .load .new true 99 [64, 66, 1, 115, 130, 1, 108, 0, 1, 1, 1, 2, 0, 0], .save .new true]).1 =
      [.ok [], .ok [64, 66, 1, 115, 130, 1, 108, 1, 1, 1, 2, 0, 0, 0],
       .ok [64, 66, 1, 115, 130, 1, 108, 0, 1, 1, 1, 2, 0, 0], .ok [],
       .ok [64, 66, 1, 115, 1, 1, 1, 2, 130, 1, 108, 0, 0, 0]] ∧
    (run c1 mfmt Tree.new [.insert acts, .save .new true, .store .new true .object acts,
      .load .new true 99 [223, 0, 0, 0, 1, 161, 115, 223, 0, 0, 0, 3, 161, 108, 221, 0, 0, 0, 0, 160, 1, 160, 2],
      .save .new true]).1 =
      [.ok [], .ok [223, 0, 0, 0, 1, 161, 115, 223, 0, 0, 0, 1, 161, 108, 221, 0, 0, 0, 2, 1, 2],
       .ok [223, 0, 0, 0, 1, 161, 115, 223, 0, 0, 0, 3, 161, 108, 221, 0, 0, 0, 0, 160, 1, 160, 2], .ok [],
       .ok [223, 0, 0, 0, 1, 161, 115, 223, 0, 0, 0, 3, 160, 1, 160, 2, 161, 108, 221, 0, 0, 0, 0]] :=
  ⟨[.scope (str "s") .object [.list (str "l") [.value [] (.int .u64 1), .value [] (.int .u64 2)]]],
    by decide +kernel, by decide +kernel, by decide +kernel, by decide +kernel⟩

end Srl.Props
