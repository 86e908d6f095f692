import Verif.Lemmas.PSrlDoc
import Verif.Props.Same

/-! # Properties of the Srl format: C01, C08–C12, C43, C44 -/

namespace Srl.Props
open Doc PSrl

private theorem sameVal_norm (v : Val) : SameVal v (normVal v) := by
  cases v <;> simp [SameVal, normVal]

private theorem sameNode_norm' (n : Node) : SameNode n (normNode n) := by
  have := sameNode_norm SameVal normVal sameVal_norm n
  rwa [← normNode_eq] at this

/-! ## C01, C08, C12 -/

/-- C01 and C12: a tree of admissible values, nested at most 128 levels below the root, can be
saved, and whatever follows, loading gives the same document and leaves what follows unread.
(`NodeOk`: integers in the range of their type and not `INT64_MIN`, blocks and names below 4 GiB,
doubles as `Value` keeps them. Fewer than `2^64` tokens.) -/
theorem srl_roundtrip (m : Mem) (hm : m.Sane) (name : Bytes) (n : Node)
    (hname : name.length < 2 ^ 32) (hn : NodeOk n) (hsize : (n.events name).length < 2 ^ 64)
    (hdepth : n.depth ≤ 128) :
    ∃ bs, save name n = .ok bs ∧ ∀ rest, ∃ r st,
      load m (bs ++ rest) = .ok (r, (st, rest)) ∧ SameNode n r.node := by
  obtain ⟨bs, h1, h2⟩ := save_load hm name n hname hn hsize
  refine ⟨bs, h1, fun rest => ?_⟩
  obtain ⟨st, h3⟩ := h2 rest
  rw [if_pos (by exact hdepth)] at h3
  exact ⟨_, st, h3, sameNode_norm' n⟩

/-- C08 for the Srl format: a deeper tree is saved, but loading it throws. -/
theorem srl_nesting (m : Mem) (hm : m.Sane) (name : Bytes) (n : Node)
    (hname : name.length < 2 ^ 32) (hn : NodeOk n) (hsize : (n.events name).length < 2 ^ 64)
    (hdepth : 128 < n.depth) :
    ∃ bs, save name n = .ok bs ∧ ∀ rest, load m (bs ++ rest) = .err := by
  obtain ⟨bs, h1, h2⟩ := save_load hm name n hname hn hsize
  refine ⟨bs, h1, fun rest => ?_⟩
  obtain ⟨st, h3⟩ := h2 rest
  rwa [if_neg (by unfold maxDepth; omega)] at h3

/-- C08 for every format: whatever a parser delivers, a loaded tree is nested at most 128 levels
below its root … -/
theorem nesting_bounded {σ : Type} (read : σ → Res (Event × σ)) (fuel : Nat) (s s' : σ) (r : Root)
    (h : Doc.load read fuel s = .ok (r, s')) : r.node.depth ≤ 128 :=
  load_depth read fuel s s' r h

/-- … and if a parser delivers the tokens of a document, the document is accepted exactly if it
is not nested deeper than that. -/
theorem nesting_limit {σ : Type} (read : σ → Res (Event × σ)) (name : Bytes) (n : Node)
    (fuel : Nat) (s s' : σ) (he : Emits read s (n.events name) s')
    (hf : (n.events name).length ≤ fuel) :
    Doc.load read fuel s = if n.depth ≤ 128 then .ok (⟨name, n⟩, s') else .err := by
  rw [Node.events_eq] at he hf
  obtain ⟨t, vs, ns⟩ := n
  simp only [Node.toItem] at he hf
  have := load_item read _ _ _ fuel _ _ he (by
    simp only [Item.events, List.length_cons, List.length_append] at hf; omega)
  rw [this, Node.depthL_vals, Node.depthL_toItems, Item.contentL_vals, Node.contentL_toItems]
  simp [Node.depth, maxDepth]
  rfl

/-- An object holding an integer, a string, a double, a named array and an object using a name
twice. -/
def sampleNode : Node :=
  .mk .object [(str "id", .int .i32 (-5)), (str "s", .str (str "text")), (str "pi", .fp64 0x400921FB54442D18)]
    [(str "a", .mk .array [([], .int .u8 200), ([], .bool true), ([], .null)] []),
     (str "o", .mk .object [(str "id", .int .u64 (2 ^ 64 - 1)), ([], .bin [0, 255])] [])]

example : NodeOk sampleNode ∧ sampleNode.depth ≤ 128 ∧ (sampleNode.events (str "root")).length < 2 ^ 64 := by
  refine ⟨?_, by decide +kernel, by decide +kernel⟩
  simp only [sampleNode, NodeOk, NodesOk, List.forall_mem_cons]
  refine ⟨⟨?_, ?_, ?_, ?_⟩, ?_, ⟨⟨?_, ?_, ?_, ?_⟩, trivial⟩, ?_, ⟨⟨?_, ?_, ?_⟩, trivial⟩, trivial⟩ <;>
    first
      | decide +kernel
      | (intro p hp; cases hp)

/-- Its image: the integers come back as 64-bit integers, the name of the root is lost. -/
example : (do
    let bs ← save (str "root") sampleNode
    let (r, _, rest) ← load ⟨none, 0⟩ (bs ++ [7])
    .ok (r.name, r.node.events [], rest)) =
    .ok ([], (normNode sampleNode).events [], [7]) := by decide +kernel

/-! ## C43 -/

/-- C43: saving a loaded tree gives the bytes it was loaded from, if these came from saving. -/
theorem srl_stable (m : Mem) (hm : m.Sane) (name : Bytes) (n : Node)
    (hname : name.length < 2 ^ 32) (hn : NodeOk n) (hsize : (n.events name).length < 2 ^ 64)
    (bs : Bytes) (hs : save name n = .ok bs) (r : Root) (x : PSrl.St × Bytes)
    (hl : load m bs = .ok (r, x)) : save r.name r.node = .ok bs := by
  obtain ⟨bs', h1, h2⟩ := save_load hm name n hname hn hsize
  rw [hs] at h1; cases h1
  obtain ⟨st, h3⟩ := h2 []
  rw [List.append_nil, hl] at h3
  split at h3
  · simp only [Res.ok.injEq, Prod.mk.injEq] at h3
    rw [h3.1]
    exact save_norm name n hname hn bs hs
  · cases h3

/-! ## C09 -/

/-- C09 for the Srl format: every byte string is loaded or rejected within as many steps as it
has bytes (`load` never runs out of steps). -/
theorem srl_load_terminates (m : Mem) (s : Bytes) : load m s ≠ .fuel := load_ne_fuel m s

/-- The step budget is irrelevant: any larger one gives the same outcome. -/
theorem srl_load_budget (m : Mem) (s : Bytes) (f : Nat) (h : s.length < f) :
    Doc.load (PSrl.read m) f (St.init, s) = load m s := load_eq_fuel m s f h

example : load ⟨some 0, 0⟩ [64, 2, 1, 97, 2, 1, 98] = .err := Res.eq_err (by decide +kernel)

/-! ## C12 for arbitrary accepted sources -/

/-- C12: if a source is accepted, it is accepted with the same result when further bytes follow,
wherever the source lies in memory. -/
theorem srl_trailing (m m' : Mem) (hm' : m'.Sane) (s q : Bytes) (r : Root) (st : PSrl.St)
    (t : Bytes) (h : load m s = .ok (r, (st, t))) : load m' (s ++ q) = .ok (r, (st, t ++ q)) := by
  rw [← load_eq_fuel m s ((s ++ q).length + 1) (by simp; omega)] at h
  rcases load_cut (PSrl.read m) (PSrl.read m') False False (Lift (ExtR q))
    (read_sim (fun n => readBlock_ext hm' q n) (Vlq.decode_ext hm' q)) _ (St.init, s)
    (St.init, s ++ q) _ r ⟨rfl, rfl⟩ h with ⟨⟨st', t'⟩, ⟨h1, h2⟩, h3⟩ | hf
  · simp only at h1 h2
    have h2' : t' = t ++ q := h2
    subst h1 h2'
    exact h3
  · rcases hf with ⟨hf, _⟩ | ⟨hf, _⟩ <;> exact hf.elim

/-! ## C11 -/

/-- C11 (any accepted source): cutting off anything the loader has consumed makes it throw.
Condition: the byte behind the source can be read (`In::set` lets the code look at it); without
it the outcome may also be undefined behaviour, see `srl_overread`. -/
theorem srl_truncated_general (m m' : Mem) (hm' : m'.Sane) (s q : Bytes) (r : Root) (st : PSrl.St)
    (t : Bytes) (hlen : (s ++ q).length < 2 ^ 63) (h : load m (s ++ q) = .ok (r, (st, t)))
    (hq : t.length < q.length) :
    load m' s = .err ∨ (m'.past = none ∧ load m' s = .ub) := by
  have hfe := load_eq_fuel m' s ((s ++ q).length + 1) (by simp; omega)
  rcases load_cut (PSrl.read m) (PSrl.read m') True (m'.past = none) (Lift (CutR q))
    (read_sim (fun n => readBlock_cut hm' _ q n) (Vlq.decode_cut hm' q)) _ (St.init, s ++ q)
    (St.init, s) _ r ⟨rfl, rfl, hlen⟩ h with ⟨⟨st', t'⟩, ⟨h1, h2, _⟩, h3⟩ | hf
  · simp only at h2
    rw [h2, List.length_append] at hq
    omega
  · rw [hfe] at hf
    rcases hf with ⟨_, hf⟩ | hf
    · exact Or.inl hf
    · exact Or.inr hf

/-- C11: loading a proper prefix of a saved tree throws. -/
theorem srl_truncated (m : Mem) (hm : m.Sane) (hp : m.past ≠ none) (name : Bytes) (n : Node)
    (hname : name.length < 2 ^ 32) (hn : NodeOk n) (hsize : (n.events name).length < 2 ^ 64)
    (bs p q : Bytes) (hs : save name n = .ok bs) (hlen : bs.length < 2 ^ 63)
    (hbs : bs = p ++ q) (hq : q ≠ []) (hdepth : n.depth ≤ 128) : load m p = .err := by
  obtain ⟨bs', h1, h2⟩ := save_load hm name n hname hn hsize
  rw [hs] at h1; cases h1
  obtain ⟨st, h3⟩ := h2 []
  rw [List.append_nil, if_pos (by exact hdepth)] at h3
  subst hbs
  rcases srl_truncated_general m m hm p q _ _ _ hlen h3
    (by simpa using List.length_pos_iff.mpr hq) with h | ⟨h, _⟩
  · exact h
  · exact absurd h hp

example : load ⟨some 0, 0⟩ [64, 35, 1, 97, 1] = .err := Res.eq_err (by decide +kernel)

/-! ## C10 -/

/-- C10 fails: a source ending inside a variable length integer makes the loader look at the byte
behind it. -/
theorem srl_overread : ∃ s, load ⟨none, 4096⟩ s = .ub := ⟨[64, 2], Res.eq_ub (by decide +kernel)⟩

/-- C10 fails: eleven continuation bytes shift a 64-bit integer by 70 bits. -/
theorem srl_shift_undefined :
    ∃ s, load ⟨some 0, 4096⟩ s = .ub :=
  ⟨[64, 1, 255, 255, 255, 255, 255, 255, 255, 255, 255, 255, 255, 1, 0], Res.eq_ub (by decide +kernel)⟩

/-- C10 fails: an absurd block size overflows the source pointer. -/
theorem srl_pointer_overflow :
    ∃ s, load ⟨some 0, 4096⟩ s = .ub :=
  ⟨[64, 32, 255, 255, 255, 255, 255, 255, 255, 255, 255, 1], Res.eq_ub (by decide +kernel)⟩

/-- C10 fails: `-(int64_t)2^63`. -/
theorem srl_negate_undefined :
    ∃ s, load ⟨some 0, 4096⟩ s = .ub :=
  ⟨[64, 9, 128, 128, 128, 128, 128, 128, 128, 128, 128, 1], Res.eq_ub (by decide +kernel)⟩

/-- C10, what does hold: if the byte behind the source can be read (for instance the terminator of
a string), then loading a source without nine consecutive bytes above 127 has no undefined
behaviour, whatever its content. -/
theorem srl_memory_safe_partial (m : Mem) (hm : m.Sane) (hp : m.past ≠ none) (s : Bytes)
    (hs : ∀ pre w post, s = pre ++ w ++ post → w.length = 9 → ∃ b ∈ w, b.toNat < 128) :
    load m s ≠ .ub :=
  load_safe (PSrl.read m) (fun x => NoRun x.2) (fun x hx => (read_noRun hp hm x hx).1)
    (fun x e y hx h => (read_noRun hp hm x hx).2 e y h) _ _ hs

/-- C10, what does hold: an accepted source is read without looking behind it: the outcome is the
same when nothing behind it can be read. -/
theorem srl_accepted_inside_partial (m : Mem) (s : Bytes) (r : Root) (x : PSrl.St × Bytes)
    (h : load m s = .ok (r, x)) (lim : Nat) (hl : lim < 2 ^ 63) :
    load ⟨none, lim⟩ s = .ok (r, x) := by
  have := srl_trailing m ⟨none, lim⟩ hl s [] r x.1 x.2 h
  simpa using this

/-! ## C44 -/

/-- Specification: names of the fields of a token sequence, in order. A token is a field if it
stands in an object and has a name. -/
def fieldNames : List ScopeTy → List Event → List Bytes
  | _, [] => []
  | stk, e :: es =>
    match e.tok with
    | .scopeEnd => fieldNames stk.tail es
    | .scope t =>
      if stk.head? = some .object ∧ e.name ≠ [] then e.name :: fieldNames (t :: stk) es
      else fieldNames (t :: stk) es
    | .val _ =>
      if stk.head? = some .object ∧ e.name ≠ [] then e.name :: fieldNames stk es
      else fieldNames stk es

/-- Specification: list of distinct names, in order of first occurrence. -/
def distinct (seen : List Bytes) : List Bytes → List Bytes
  | [] => seen
  | n :: ns => if n ∈ seen then distinct seen ns else distinct (seen ++ [n]) ns

private theorem indexOf_none {name : Bytes} {ns : List Bytes} :
    indexOf name ns = none ↔ name ∉ ns := by
  induction ns with
  | nil => simp [indexOf]
  | cons n ns ih =>
    unfold indexOf
    split
    · rename_i h; simp [h]
    · rename_i h
      rw [Option.map_eq_none_iff, ih]
      simp [List.mem_cons, Ne.symm h]

private theorem writeHead_names {st : St} {flag : UInt8} {name : Bytes} {ns : List Bytes}
    {h : Bytes} (hw : writeHead st flag name = .ok (ns, h)) :
    ns = if st.stack.head? = some .object ∧ name ≠ [] then
        (if name ∈ st.names then st.names else st.names ++ [name]) else st.names := by
  unfold writeHead at hw
  split at hw
  · rename_i hc
    simp only [Res.ok.injEq, Prod.mk.injEq] at hw
    rw [if_neg, hw.1]
    rintro ⟨h1, h2⟩
    rcases hc with hc | hc
    · exact h2 (List.length_eq_zero_iff.mp (by omega))
    · exact hc h1
  · rename_i hc
    rw [if_pos]
    · cases hi : indexOf name st.names with
      | some i =>
        rw [hi] at hw
        simp only [Res.bind_eq_ok] at hw
        obtain ⟨x, _, hw⟩ := hw
        simp only [Res.ok.injEq, Prod.mk.injEq] at hw
        rw [if_pos, hw.1]
        exact List.mem_of_getElem? (indexOf_some hi)
      | none =>
        rw [hi] at hw
        simp only [Res.bind_eq_ok] at hw
        obtain ⟨x, _, hw⟩ := hw
        simp only [Res.ok.injEq, Prod.mk.injEq] at hw
        rw [if_neg (indexOf_none.mp hi), hw.1]
    · constructor
      · apply Decidable.byContradiction
        intro h; exact hc (Or.inr h)
      · rintro rfl; exact hc (Or.inl (by simp))

private theorem names_distinct (es : List Event) : ∀ (st st' : St) (b : Bytes),
    writeAll st es = .ok (st', b) → st'.names = distinct st.names (fieldNames st.stack es) := by
  induction es with
  | nil =>
    intro st st' b h
    simp only [writeAll, Res.ok.injEq, Prod.mk.injEq] at h
    simp [fieldNames, distinct, h.1]
  | cons e es ih =>
    intro st st' b h
    simp only [writeAll, Res.bind_eq_ok] at h
    obtain ⟨⟨st1, b1⟩, h1, ⟨st2, b2⟩, h2, h⟩ := h
    simp only [Res.ok.injEq, Prod.mk.injEq] at h
    have hi := ih _ _ _ h2
    rw [← h.1, hi]
    obtain ⟨name, tok⟩ := e
    cases tok with
    | scopeEnd =>
      simp only [write] at h1
      cases hs : st.stack with
      | nil => rw [hs] at h1; cases h1
      | cons t stack =>
        rw [hs] at h1
        simp only [Res.ok.injEq, Prod.mk.injEq] at h1
        rw [← h1.1]
        simp [fieldNames]
    | scope t =>
      simp only [write, Res.bind_eq_ok] at h1
      obtain ⟨⟨ns, hd⟩, h3, h1⟩ := h1
      simp only [Res.ok.injEq, Prod.mk.injEq] at h1
      rw [← h1.1]
      simp only [writeHead_names h3, fieldNames]
      split
      · simp only [distinct]; split <;> rfl
      · rfl
    | val v =>
      simp only [write, Res.bind_eq_ok] at h1
      obtain ⟨⟨ns, hd⟩, h3, bb, h4, h1⟩ := h1
      simp only [Res.ok.injEq, Prod.mk.injEq] at h1
      rw [← h1.1]
      simp only [writeHead_names h3, fieldNames]
      split
      · simp only [distinct]; split <;> rfl
      · rfl

private theorem mem_distinct (n : Bytes) (ns seen : List Bytes) :
    n ∈ distinct seen ns ↔ n ∈ seen ∨ n ∈ ns := by
  induction ns generalizing seen with
  | nil => simp [distinct]
  | cons x ns ih =>
    unfold distinct
    split
    · rename_i h
      rw [ih, List.mem_cons]
      constructor
      · rintro (h | h); exact Or.inl h; exact Or.inr (Or.inr h)
      · rintro (h | rfl | h'); exact Or.inl h; exact Or.inl h; exact Or.inr h'
    · rw [ih]; simp [or_assoc]

/-- C44: after any tokens `pre`, a field is written as a flag, then – if its name occurred
before – the position of the name among the distinct names so far and nothing else, otherwise the
length of the name and the name; then follows the content, which does not depend on the name. -/
theorem srl_names_once (pre : List Event) (st : St) (b : Bytes) (name : Bytes) (v : Val)
    (hpre : writeAll St.init pre = .ok (st, b)) (hobj : st.stack.head? = some .object)
    (hname : name ≠ []) (hlen : name.length < 2 ^ 64) (hcount : st.names.length < 2 ^ 64)
    (body : Bytes) (hbody : writeBody v = .ok body) :
    (name ∈ fieldNames [] pre → ∃ i flag st',
      (distinct [] (fieldNames [] pre))[i]? = some name ∧
      writeAll St.init (pre ++ [⟨name, .val v⟩]) = .ok (st', b ++ (flag :: Vlq.bytes i ++ body))) ∧
    (name ∉ fieldNames [] pre → ∃ flag st',
      writeAll St.init (pre ++ [⟨name, .val v⟩]) =
        .ok (st', b ++ (flag :: (Vlq.bytes name.length ++ name) ++ body))) := by
  have hnames := names_distinct pre _ _ _ hpre
  simp only [St.init] at hnames
  have hc : ¬ (name.length < 1 ∨ st.stack.head? ≠ some .object) := by
    rintro (h | h)
    · exact hname (List.length_eq_zero_iff.mp (by omega))
    · exact h hobj
  constructor
  · intro hm
    have hmem : name ∈ st.names := by rw [hnames, mem_distinct]; exact Or.inr hm
    cases hi : indexOf name st.names with
    | none => exact absurd hmem (indexOf_none.mp hi)
    | some i =>
      have hlt := indexOf_lt hi
      refine ⟨i, flagOf (.val v) ||| fNamed ||| fIndexed, ⟨st.stack, st.names⟩,
        hnames ▸ indexOf_some hi, ?_⟩
      rw [writeAll_append, hpre]
      simp [writeAll, write, writeHead, hname, hobj, hi, Vlq.encode_eq i (by omega), hbody]
  · intro hm
    have hmem : name ∉ st.names := by rw [hnames, mem_distinct]; simpa using hm
    refine ⟨flagOf (.val v) ||| fNamed, ⟨st.stack, st.names ++ [name]⟩, ?_⟩
    rw [writeAll_append, hpre]
    simp [writeAll, write, writeHead, hname, hobj, indexOf_none.mpr hmem, Vlq.encode_eq _ hlen, hbody]

example : save [] (.mk .object [(str "key", .null), (str "key", .null)] []) =
    .ok ([64] ++ [10, 3] ++ str "key" ++ [14, 0] ++ [0]) := by decide +kernel

end Srl.Props
