import Verif.Lemmas.PJsonTree
import Verif.Lemmas.PJsonReuse
import Verif.Props.Same
import Verif.Props.Fp
import Verif.Props.Hex

/-! # Properties of the JSON format: C03, C08–C12, C29–C32, C45 -/

namespace Srl.Props
open Doc PJson

/-! ## Specification -/

/-- The number `d`, or an integer denoting the same number. -/
def JsonNum (d : UInt64) (w : Val) : Prop :=
  (∃ t k, w = .int t k ∧ Fp.num64 d = .fin (k * Fp.one)) ∨ Fp.toDouble w = some d

/-- What a value may look like after a trip through JSON: integers numerically equal, binary data
as base64 text, floating point numbers with integral values possibly as integers. -/
def JsonSame : Val → Val → Prop
  | .bool a, w => w = .bool a
  | .null, w => w = .null
  | .str a, w => w = .str a
  | .bin a, w => ∃ b, w = .str b ∧ Base64.decode b = .ok a
  | .int _ a, w => ∃ t, w = .int t a
  | .fp32 f, w => JsonNum (Fp.widen f) w
  | .fp64 d, w => JsonNum d w

private theorem jsonNum_fp (dtoa : UInt64 → Bytes) (strtod : Bytes → Option UInt64) (d : UInt64)
    (h : FpOk dtoa strtod d) : JsonNum d (nvFp dtoa strtod d) := by
  obtain ⟨_, -, -, -, h⟩ := reads_fp dtoa strtod d h
  rcases h with h | h
  · exact Or.inl h
  · right; rw [h]; exact double_storage_exact d

private theorem jsonSame_val (dtoa : UInt64 → Bytes) (strtod : Bytes → Option UInt64) (v : Val)
    (h : ValOk dtoa strtod v) : JsonSame v (nvJson dtoa strtod v) := by
  cases v with
  | bool a => rfl
  | null => rfl
  | str a => rfl
  | bin a => exact ⟨_, rfl, base64_roundtrip a⟩
  | int t a => exact ⟨_, rfl⟩
  | fp32 f => exact jsonNum_fp dtoa strtod _ h
  | fp64 d => exact jsonNum_fp dtoa strtod _ h

private theorem sameVals_on {R : Val → Val → Prop} {nv : Val → Val} {P : Val → Prop}
    (hR : ∀ v, P v → R v (nv v)) (b : Bool) (vs : List (Bytes × Val)) (h : ∀ p ∈ vs, P p.2) :
    SameVals R b vs (vs.map (fun p => (if b then p.1 else [], nv p.2))) := by
  induction vs with
  | nil => simp [SameVals]
  | cons p vs ih =>
    obtain ⟨n, v⟩ := p
    simp only [List.map_cons, SameVals]
    exact ⟨fun h => by simp [h], hR v (h (n, v) (by simp)), ih fun q hq => h q (by simp [hq])⟩

mutual
private theorem sameNode_on {R : Val → Val → Prop} {nv : Val → Val} {P : Val → Prop}
    {Q : Bytes → Prop} (hR : ∀ v, P v → R v (nv v)) :
    ∀ n : Node, NodeAll P Q n → SameNodeBy R n (Norm.node nv n)
  | .mk t vs ns, h => by
    simp only [NodeAll] at h
    simp only [Norm.node, SameNodeBy]
    exact ⟨trivial, sameVals_on hR _ vs h.1, sameNodes_on hR _ ns h.2.2⟩
private theorem sameNodes_on {R : Val → Val → Prop} {nv : Val → Val} {P : Val → Prop}
    {Q : Bytes → Prop} (hR : ∀ v, P v → R v (nv v)) :
    ∀ (b : Bool) (ns : List (Bytes × Node)), NodesAll P Q b ns →
      SameNodesBy R b ns (Norm.nodes nv b ns)
  | _, [], _ => by simp [Norm.nodes, SameNodesBy]
  | b, (name, n) :: ns, h => by
    simp only [NodesAll] at h
    simp only [Norm.nodes, SameNodesBy]
    exact ⟨fun h => by simp [h], sameNode_on hR n h.2.1, sameNodes_on hR b ns h.2.2⟩
end

/-- Saving and loading a tree whose values are read as `nv` says. -/
private theorem save_load_nv {m : Mem} (hm : m.Sane) (dtoa : UInt64 → Bytes)
    (strtod : Bytes → Option UInt64) (nv : Val → Val) (compact : Bool) (name : Bytes) (n : Node)
    (hn : ItemOk m dtoa strtod nv false (n.toItem name)) :
    ∃ bs, save dtoa compact name n = .ok bs ∧ ∀ rest r, ∃ r', loadWith m strtod r (bs ++ rest) =
      if n.depth ≤ 128 then .ok (⟨[], Norm.node nv n⟩, r', rest) else .err := by
  obtain ⟨t, vs, ns⟩ := n
  have hk : ItemsOk m dtoa strtod nv (t == .object)
      (vs.map (fun p => Item.val p.1 p.2) ++ Node.toItems ns) := by
    simp only [Node.toItem, ItemOk] at hn
    exact hn.2
  obtain ⟨bs, h1, h2⟩ := emits_doc hm strtod dtoa compact nv name t _ hk
  refine ⟨bs, ?_, fun rest r => ?_⟩
  · unfold save
    rw [Node.events_eq, Node.toItem, h1]
    rfl
  obtain ⟨r', he⟩ := h2 rest r.clear rfl
  refine ⟨r', ?_⟩
  have hlen := emits_nonempty (fun x : Rd × Bytes => x.2.length) (by
    intro s e s' h
    obtain ⟨y, hy, hs⟩ := (read_progress strtod hm s).1 e s'.1 s'.2 h
    have : 0 < y.length := List.length_pos_iff.mpr hy
    show s'.2.length < s.2.length
    rw [hs, List.length_append]; omega) he
  have hitem : Norm.item nv false (Item.scope name t
      (vs.map (fun p => Item.val p.1 p.2) ++ Node.toItems ns)) =
      (Norm.node nv (.mk t vs ns)).toItem [] := Norm.item_toItem nv false name (.mk t vs ns)
  rw [hitem] at he hlen
  have hnode : Norm.node nv (.mk t vs ns) = .mk t
      (vs.map (fun p => (if t == .object then p.1 else [], nv p.2)))
      (Norm.nodes nv (t == .object) ns) := by simp only [Norm.node]
  rw [hnode] at he hlen ⊢
  simp only [Node.toItem, Item.events, List.length_cons, List.length_append, List.length_nil] at hlen
  have := load_item (read m strtod) [] t _ ((bs ++ rest).length + 1) _ _ he
    (by simp only [List.length_append] at hlen ⊢; omega)
  unfold loadWith
  rw [this, Node.depthL_vals, Node.depthL_toItems, Item.contentL_vals, Node.contentL_toItems,
    List.append_nil]
  have hd : Node.depthL (Norm.nodes nv (t == .object) ns) = (Node.mk t vs ns).depth := by
    rw [Norm.depthL_nodes, Node.depth]
  rw [hd]
  rfl

private theorem save_load {m : Mem} (hm : m.Sane) (dtoa : UInt64 → Bytes)
    (strtod : Bytes → Option UInt64) (compact : Bool) (name : Bytes) (n : Node)
    (hn : PJson.NodeOk dtoa strtod n) :
    ∃ bs, save dtoa compact name n = .ok bs ∧ ∀ rest r, ∃ r', loadWith m strtod r (bs ++ rest) =
      if n.depth ≤ 128 then .ok (⟨[], Norm.node (nvJson dtoa strtod) n⟩, r', rest) else .err :=
  save_load_nv hm dtoa strtod _ compact name n
    (itemOk_node m dtoa strtod false name n (by simp) hn)

/-! ## C03, C12 -/

/-- C03 and C12: a tree of admissible values, nested at most 128 levels below the root, can be
saved in either layout, and whatever follows, loading it with any parser object gives the same
document and leaves what follows unread. What is missing from C03 (see the witnesses below): names
containing quotes or backslashes (`NodeOk` excludes them), the integer `-2^63`, and floating point
numbers for which `dtoa` does not give a number with point or exponent inverted by `strtod`,
except integral ones between `-2^63` and `2^63` (`FpOk`). -/
theorem json_roundtrip_partial (m : Mem) (hm : m.Sane) (dtoa : UInt64 → Bytes)
    (strtod : Bytes → Option UInt64) (compact : Bool) (name : Bytes) (n : Node)
    (hn : PJson.NodeOk dtoa strtod n) (hdepth : n.depth ≤ 128) :
    ∃ bs, save dtoa compact name n = .ok bs ∧ ∀ rest r, ∃ root r',
      loadWith m strtod r (bs ++ rest) = .ok (root, r', rest) ∧
      SameNodeBy JsonSame n root.node := by
  obtain ⟨bs, h1, h2⟩ := save_load hm dtoa strtod compact name n hn
  refine ⟨bs, h1, fun rest r => ?_⟩
  obtain ⟨r', h3⟩ := h2 rest r
  rw [if_pos hdepth] at h3
  exact ⟨_, r', h3, sameNode_on (jsonSame_val dtoa strtod) n hn⟩

/-- An object with strings to be escaped, integers, an integral double, a fraction, binary data and
nested scopes. -/
def sampleJson : Node :=
  .mk .object [(str "id", .int .i32 (-31)), (str "a b", .str [34, 92, 10, 255, 0, 117]),
      (str "max", .int .u64 (2 ^ 64 - 1)), (str "two", .fp32 0x40000000),
      (str "bin", .bin [0, 255]), (str "tenth", .fp64 0x3FB999999999999A)]
    [(str "arr", .mk .array [([], .bool true), ([], .null)] [([], .mk .object [] [])])]

private def sampleDtoa : UInt64 → Bytes := fun _ => str "0.1"
private def sampleStrtod : Bytes → Option UInt64 := fun _ => some 0x3FB999999999999A

private theorem two_integral : Fp.num64 (Fp.widen 0x40000000) = .fin (2 * Fp.one) := by
  decide +kernel

private theorem tenth_fraction (k : Int) : Fp.num64 0x3FB999999999999A ≠ .fin (k * Fp.one) := by
  intro h
  have h1 : Fp.num64 0x3FB999999999999A = .fin (7205759403792794 * 2 ^ 1018) := by decide +kernel
  have h2 : ((7205759403792794 : Int) * 2 ^ 1018) % 2 ^ 1074 ≠ 0 := by decide +kernel
  rw [h1] at h
  have h3 : (7205759403792794 : Int) * 2 ^ 1018 = k * Fp.one := by injection h
  have h4 : ((Fp.one : Nat) : Int) = 2 ^ 1074 := by decide +kernel
  rw [h4] at h3
  exact h2 (by rw [h3]; exact Int.mul_emod_left ..)

example : PJson.NodeOk sampleDtoa sampleStrtod sampleJson ∧ sampleJson.depth ≤ 128 := by
  refine ⟨?_, by decide +kernel⟩
  simp only [sampleJson, PJson.NodeOk, NodeAll, NodesAll, List.forall_mem_cons, ValOk]
  refine ⟨⟨by decide, trivial, by decide, ?_, trivial, ?_, ?_⟩, ?_, ?_, ⟨⟨trivial, trivial, ?_⟩, ?_, ?_, ⟨?_, ?_, trivial⟩, trivial⟩, trivial⟩
  · exact Or.inl ⟨2, by decide, by decide, two_integral⟩
  · exact Or.inr (Or.inl ⟨fun k _ _ => tenth_fraction k, by decide +kernel, by decide +kernel,
      ⟨46, by decide +kernel, Or.inl rfl⟩, rfl⟩)
  · simp
  · intro _; refine ⟨?_, ?_, ?_, ?_, ?_, ?_, ?_⟩ <;> first | (unfold NameOk; decide +kernel) | (intro p hp; cases hp)
  · intro _; unfold NameOk; decide +kernel
  all_goals simp

/-! ## Violations of C03 -/

/-- C03 fails: a name containing a quote makes the saved text unreadable … -/
theorem json_name_quote : ∃ n : Node, ∃ bs, save (fun _ => []) true [] n = .ok bs ∧
    load ⟨some 0, 4096⟩ (fun _ => none) bs = .err :=
  ⟨.mk .object [(str "a\"b", .str [])] [], str "{\"a\"b\":\"\"}", by decide +kernel,
    Res.eq_err (by decide +kernel)⟩

/-- … and one containing a backslash is read as a different name. -/
theorem json_name_backslash : ∃ n : Node, ∃ bs, save (fun _ => []) true [] n = .ok bs ∧
    (do let (r, _, _) ← load ⟨some 0, 4096⟩ (fun _ => none) bs; .ok (r.node.events [])) =
      .ok ((Node.mk .object [([97, 10], .str [])] []).events []) ∧
    n = .mk .object [([97, 92, 110], .str [])] [] :=
  ⟨.mk .object [([97, 92, 110], .str [])] [], str "{\"a\\n\":\"\"}", by decide +kernel,
    by decide +kernel, rfl⟩

/-- C03 fails: the double 3.0000000000001e19, for which the library `fpconv` gives the digits
30000000000001000000, comes back as the integer 11553255926291448384. -/
theorem json_double_wrong (m : Mem) (hm : m.Sane) (dtoa : UInt64 → Bytes)
    (strtod : Bytes → Option UInt64) (compact : Bool)
    (h : dtoa 0x43FA055690D9DC74 = str "30000000000001000000") :
    ∃ bs r', save dtoa compact [] (.mk .array [([], .fp64 0x43FA055690D9DC74)] []) = .ok bs ∧
      load m strtod bs = .ok (⟨[], .mk .array [([], .int .u64 11553255926291448384)] []⟩, r', []) ∧
      ¬ JsonSame (.fp64 0x43FA055690D9DC74) (.int .u64 11553255926291448384) := by
  have hnum : Fp.num64 0x43FA055690D9DC74 = .fin (30000000000000999424 * Fp.one) := by decide +kernel
  have hpos : (0 : Int) < Fp.one := Int.natCast_pos.mpr (Nat.two_pow_pos _)
  have htext : fpToStr dtoa 0x43FA055690D9DC74 = .ok (str "30000000000001000000") := by
    rw [fpToStr_other, h]
    intro k _ hk he
    rw [hnum] at he
    have he : (30000000000000999424 : Int) * Fp.one = k * Fp.one := by injection he
    have := Int.eq_of_mul_eq_mul_right (by omega) he
    omega
  have hr : Reads m dtoa strtod (.fp64 0x43FA055690D9DC74) (.int .u64 11553255926291448384) := by
    refine ⟨str "30000000000001000000", htext, Or.inr ⟨⟨by decide +kernel, by decide +kernel⟩, ?_⟩⟩
    have h1 : IntStr.strToInt (str "30000000000001000000") = some (11553255926291448384, false) := by
      decide +kernel
    have h2 : str "30000000000001000000" = 51 :: str "0000000000001000000" := by decide
    have h3 : (str "30000000000001000000").contains 46 = false := by decide +kernel
    rw [h3]
    rw [h2] at h1 ⊢
    rw [IntStr.strToType_int strtod 51 _ (by decide +kernel), h1]
    rfl
  obtain ⟨bs, h1, h2⟩ := save_load_nv hm dtoa strtod (fun _ => .int .u64 11553255926291448384) compact
    [] (.mk .array [([], .fp64 0x43FA055690D9DC74)] [])
    (by simp only [Node.toItem, Node.toItems, List.map_cons, List.map_nil, List.append_nil, ItemOk,
          ItemsOk]; exact ⟨by simp, ⟨by simp, hr⟩, trivial⟩)
  obtain ⟨r', h3⟩ := h2 [] Rd.new
  rw [List.append_nil, if_pos (by decide)] at h3
  refine ⟨bs, r', h1, ?_, ?_⟩
  · simp only [Norm.node, Norm.nodes, List.map_cons, List.map_nil] at h3
    exact h3
  · rintro (⟨t, k, hk, he⟩ | h)
    · cases hk
      rw [hnum] at he
      have he : (30000000000000999424 : Int) * Fp.one = 11553255926291448384 * Fp.one := by injection he
      have := Int.eq_of_mul_eq_mul_right (by omega) he
      omega
    · cases h

/-- C03 fails: writing the double `2^63` or the integer `-2^63` is undefined. -/
theorem json_save_undefined :
    save (fun _ => []) true [] (.mk .array [([], .fp64 0x43E0000000000000)] []) = .ub ∧
    save (fun _ => []) true [] (.mk .array [([], .int .i64 (-2 ^ 63))] []) = .ub :=
  ⟨Res.eq_ub (by decide +kernel), Res.eq_ub (by decide +kernel)⟩

/-! ## C08 -/

/-- C08 for JSON: a deeper tree is saved, but loading it throws. -/
theorem json_nesting (m : Mem) (hm : m.Sane) (dtoa : UInt64 → Bytes)
    (strtod : Bytes → Option UInt64) (compact : Bool) (name : Bytes) (n : Node)
    (hn : PJson.NodeOk dtoa strtod n) (hdepth : 128 < n.depth) :
    ∃ bs, save dtoa compact name n = .ok bs ∧ ∀ rest r, loadWith m strtod r (bs ++ rest) = .err := by
  obtain ⟨bs, h1, h2⟩ := save_load hm dtoa strtod compact name n hn
  refine ⟨bs, h1, fun rest r => ?_⟩
  obtain ⟨r', h3⟩ := h2 rest r
  rw [h3, if_neg (by omega)]

/-! ## C45 -/

/-- C45: the compact and the indented layout of a tree load to the same tree. Missing: names
containing quotes or backslashes, see `json_layout_matters`. -/
theorem json_layout_partial (m : Mem) (hm : m.Sane) (dtoa : UInt64 → Bytes)
    (strtod : Bytes → Option UInt64) (name : Bytes) (n : Node)
    (hn : PJson.NodeOk dtoa strtod n) (hdepth : n.depth ≤ 128) :
    ∃ b1 b2 root r1 r2, save dtoa true name n = .ok b1 ∧ save dtoa false name n = .ok b2 ∧
      load m strtod b1 = .ok (root, r1, []) ∧ load m strtod b2 = .ok (root, r2, []) := by
  obtain ⟨b1, h1, h2⟩ := save_load hm dtoa strtod true name n hn
  obtain ⟨b2, h3, h4⟩ := save_load hm dtoa strtod false name n hn
  obtain ⟨r1, h5⟩ := h2 [] Rd.new
  obtain ⟨r2, h6⟩ := h4 [] Rd.new
  rw [List.append_nil, if_pos hdepth] at h5 h6
  exact ⟨b1, b2, _, r1, r2, h1, h3, h5, h6⟩

example : (do
    let bs ← save sampleDtoa false (str "root") sampleJson
    let (r, _, rest) ← load ⟨none, 0⟩ sampleStrtod (bs ++ [7])
    .ok (r.name, r.node.events [], rest)) =
    .ok ([], (Norm.node (nvJson sampleDtoa sampleStrtod) sampleJson).events [], [7]) := by
  decide +kernel

/-- C45 fails for names containing quotes: both layouts load, to different trees. -/
theorem json_layout_matters : ∃ n : Node, ∃ b1 b2 e1 e2,
    save (fun _ => []) true [] n = .ok b1 ∧ save (fun _ => []) false [] n = .ok b2 ∧
    (do let (r, _, _) ← load ⟨some 0, 4096⟩ (fun _ => none) b1; .ok (r.node.events [])) = .ok e1 ∧
    (do let (r, _, _) ← load ⟨some 0, 4096⟩ (fun _ => none) b2; .ok (r.node.events [])) = .ok e2 ∧
    e1 ≠ e2 :=
  ⟨.mk .object [(str "a\":", .int .u8 5), (str ",\"c", .int .u8 6)] [],
    str "{\"a\":\":5,\",\"c\":6}", str "{\n\t\"a\":\": 5,\n\t\",\"c\": 6\n}",
    (Node.mk .object [(str "a", .str (str ":5,")), (str "c", .int .u64 6)] []).events [],
    (Node.mk .object [(str "a", .str (str ": 5,\n\t")), (str "c", .int .u64 6)] []).events [],
    by decide +kernel, by decide +kernel, by decide +kernel, by decide +kernel, by decide +kernel⟩

/-! ## C09 -/

/-- C09 for JSON: every text is loaded or rejected within as many steps as it has bytes. -/
theorem json_load_terminates (m : Mem) (hm : m.Sane) (strtod : Bytes → Option UInt64) (r : Rd)
    (s : Bytes) : loadWith m strtod r s ≠ .fuel := loadWith_nofuel strtod hm r s

example : (load ⟨some 0, 4096⟩ (fun _ => none) (str "[[{\"a\":[")).isErr = true := by decide +kernel

/-! ## C11, C12 -/

/-- C12 for any accepted text: it is accepted with the same result when further bytes follow,
wherever it lies in memory. -/
theorem json_trailing (m m' : Mem) (hm : m.Sane) (hm' : m'.Sane) (strtod : Bytes → Option UInt64)
    (r : Rd) (s q : Bytes) (root : Root) (r' : Rd) (t : Bytes)
    (h : loadWith m strtod r s = .ok (root, r', t)) :
    loadWith m' strtod r (s ++ q) = .ok (root, r', t ++ q) := by
  rcases (load_ext strtod hm hm' q r s).1 _ _ _ h with h | ⟨-, h⟩
  · exact h
  · exact h.elim

/-- C11 (any accepted text): cutting off anything the loader has consumed makes it throw.
Condition: the byte behind the source can be read (`In::set` lets the code look at it); without
it the outcome may also be undefined behaviour, see `json_overread`. -/
theorem json_truncated_general (m m' : Mem) (hm : m.Sane) (hm' : m'.Sane)
    (strtod : Bytes → Option UInt64) (r : Rd) (s q : Bytes) (root : Root) (r' : Rd) (t : Bytes)
    (h : loadWith m strtod r (s ++ q) = .ok (root, r', t)) (hq : t.length < q.length) :
    loadWith m' strtod r s = .err ∨ (m'.past = none ∧ loadWith m' strtod r s = .ub) := by
  have he := load_ext strtod hm' hm q r s
  cases hx : loadWith m' strtod r s with
  | err => exact Or.inl rfl
  | fuel => exact absurd hx (loadWith_nofuel strtod hm' r s)
  | ok p =>
    obtain ⟨a, b, t'⟩ := p
    rcases he.1 _ _ _ hx with h2 | ⟨-, h2⟩
    · rw [h] at h2
      simp only [Res.ok.injEq, Prod.mk.injEq] at h2
      rw [h2.2.2, List.length_append] at hq
      omega
    · exact h2.elim
  | ub =>
    cases hp : m'.past with
    | none => exact Or.inr ⟨rfl, rfl⟩
    | some b =>
      have := he.2 (by rw [hp]; simp) hx
      rw [h] at this
      cases this

/-- C11, as far as it holds: loading a proper prefix of a saved tree throws. -/
theorem json_truncated_partial (m : Mem) (hm : m.Sane) (hp : m.past ≠ none) (dtoa : UInt64 → Bytes)
    (strtod : Bytes → Option UInt64) (compact : Bool) (name : Bytes) (n : Node)
    (hn : PJson.NodeOk dtoa strtod n) (bs p q : Bytes) (hs : save dtoa compact name n = .ok bs)
    (hbs : bs = p ++ q) (hq : q ≠ []) (hdepth : n.depth ≤ 128) (r : Rd) :
    loadWith m strtod r p = .err := by
  obtain ⟨bs', h1, h2⟩ := save_load hm dtoa strtod compact name n hn
  rw [hs] at h1; cases h1
  obtain ⟨r', h3⟩ := h2 [] r
  rw [List.append_nil, if_pos hdepth] at h3
  subst hbs
  rcases json_truncated_general m m hm hm strtod r p q _ _ _ h3
    (by simpa using List.length_pos_iff.mpr hq) with h | ⟨h, _⟩
  · exact h
  · exact absurd h hp

example : load ⟨some 93, 4096⟩ (fun _ => none) (str "[\"a\", true") = .err :=
  Res.eq_err (by decide +kernel)

/-- C11 fails for names with quotes, which are written as they are: a proper prefix of what was
saved loads. -/
theorem json_truncated_accepted : ∃ n : Node, ∃ p q, q ≠ [] ∧
    save (fun _ => []) true [] n = .ok (p ++ q) ∧
    (do let (r, _, _) ← load ⟨some 0, 4096⟩ (fun _ => none) p; .ok (r.node.events [])) =
      .ok ((Node.mk .object [([], .int .u64 1)] []).events []) :=
  ⟨.mk .object [(str "\":1}", .int .u8 5)] [], str "{\"\":1}", str "\":5}", by decide,
    by decide +kernel, by decide +kernel⟩

/-! ## C10 -/

/-- C10 fails: a text ending inside a scope makes the loader look at the byte behind it. -/
theorem json_overread (strtod : Bytes → Option UInt64) :
    load ⟨none, 4096⟩ strtod [91] = .ub := by
  simp [PJson.load, loadWith, Doc.load, PJson.read, loop, round, skip, dispatch, In.cur, moveUntil, isDelim,
    processBracket, In.move, readScope, Rd.new, Rd.clear, isBlank]

/-- C10 fails: a three-byte character right at the end of the name buffer is written outside of
it. -/
theorem json_escape_overflow :
    load ⟨some 0, 4096⟩ (fun _ => none) (str "[\"aaaaaaaa\\u2030\"]") = .ub :=
  Res.eq_ub (by decide +kernel)

/-- C10, as far as it holds: if the byte behind the text can be read, and no `\uXXYY` has `YY`
above 07, nothing undefined happens, whatever the text and the history of the parser. -/
theorem json_memory_safe_partial (m : Mem) (hm : m.Sane) (hp : m.past ≠ none)
    (strtod : Bytes → Option UInt64) (r : Rd) (s : Bytes)
    (hu : ∀ a d1 d2 d3 d4 b, s = a ++ 92 :: 117 :: d1 :: d2 :: d3 :: d4 :: b → d3 = 48 ∧ d4 < 56) :
    loadWith m strtod r s ≠ .ub := loadWith_safe hm hp strtod r s hu

/-- An accepted text is accepted with the same result wherever it lies and whatever is behind it. -/
theorem json_accepted_inside_partial (m m' : Mem) (hm : m.Sane) (hm' : m'.Sane)
    (strtod : Bytes → Option UInt64) (r : Rd) (s : Bytes) (root : Root) (r' : Rd) (t : Bytes)
    (h : loadWith m strtod r s = .ok (root, r', t)) :
    loadWith m' strtod r s = .ok (root, r', t) := by
  have := json_trailing m m' hm hm' strtod r s [] root r' t h
  simpa using this

/-! ## C29 -/

/-- C29: any string written as a JSON value and read back is unchanged, and reading stops exactly
behind the closing quote, whatever follows; inside an array, or (`valText`) behind a name. -/
theorem json_escape_invertible (m : Mem) (hm : m.Sane) (dtoa : UInt64 → Bytes)
    (strtod : Bytes → Option UInt64) (t : Bytes) :
    ∃ text, valText dtoa (.str t) = .ok text ∧
      (∀ rest r stk, r.stack = .array :: stk → ∃ r', r'.stack = r.stack ∧
        read m strtod (r, text ++ rest) = .ok (⟨[], .val (.str t)⟩, r', rest)) ∧
      (∀ rest r stk name, r.stack = .object :: stk → NameOk name → ∃ r', r'.stack = r.stack ∧
        read m strtod (r, 34 :: (name ++ 34 :: 58 :: (text ++ rest))) =
          .ok (⟨name, .val (.str t)⟩, r', rest)) := by
  refine ⟨34 :: (escape t ++ [34]), rfl, ?_, ?_⟩
  · intro rest r stk hr
    obtain ⟨r', h1, h2⟩ := round_string hm strtod r ⟨none, false⟩ (escape t) t rest .array stk hr
      (quoted_escape t) (Or.inr rfl)
    refine ⟨r', h1, ?_⟩
    have : 34 :: (escape t ++ [34]) ++ rest = 34 :: (escape t ++ 34 :: rest) := by simp
    rw [this]
    exact loop_done strtod h2
  · intro rest r stk name hr hname
    obtain ⟨r1, h1, h2⟩ := round_name hm strtod r name name
      (58 :: (34 :: (escape t ++ [34]) ++ rest)) stk hr (quoted_name name hname)
    obtain ⟨r', h3, h4⟩ := round_string hm strtod r1 ⟨some name, true⟩ (escape t) t rest .object stk
      (by rw [h1, hr]) (quoted_escape t) (Or.inl rfl)
    refine ⟨r', h3.trans h1, ?_⟩
    have e : 34 :: (escape t ++ [34]) ++ rest = 34 :: (escape t ++ 34 :: rest) := by simp
    rw [e] at h2 ⊢
    unfold PJson.read
    obtain ⟨k, hk⟩ : ∃ k, (34 :: (name ++ 34 :: 58 :: (34 :: (escape t ++ 34 :: rest)))).length + 1 =
        k + 1 + 1 + 1 := ⟨(name ++ 34 :: 58 :: (34 :: (escape t ++ 34 :: rest))).length - 1,
          by simp only [List.length_cons, List.length_append]; omega⟩
    show loop m strtod ((34 :: (name ++ 34 :: 58 :: (34 :: (escape t ++ 34 :: rest)))).length + 1) _ _ = _
    rw [hk, loop_more strtod h2, loop_more strtod (round_colon hm strtod r1 (some name) _),
      loop_done strtod h4]
    rfl

example : valText (fun _ => []) (.str [34, 92, 10, 200]) = .ok (34 :: [92, 34, 92, 92, 92, 110, 200] ++ [34]) := by
  decide +kernel

/-! ## C30 -/

/-- Specification: the UTF-8 encoding of a code unit. -/
def IsUtf8 (u : Nat) (bs : Bytes) : Prop :=
  (u < 0x80 ∧ bs.map UInt8.toNat = [u]) ∨
  (0x80 ≤ u ∧ u < 0x800 ∧ bs.map UInt8.toNat = [0xC0 + u / 64, 0x80 + u % 64]) ∨
  (0x800 ≤ u ∧ u < 0x10000 ∧
    bs.map UInt8.toNat = [0xE0 + u / 4096, 0x80 + u / 64 % 64, 0x80 + u % 64])

/-- C30 fails: `\u0041` is not read as `A` but as U+4100: the two bytes are swapped. -/
theorem json_unicode_wrong :
    (do let (r, _, _) ← load ⟨some 0, 4096⟩ (fun _ => none) (str "[\"\\u0041\"]");
        .ok (r.node.events [])) =
      .ok ((Node.mk .array [([], .str [0xE4, 0x84, 0x80])] []).events []) ∧
    ¬ IsUtf8 0x41 [0xE4, 0x84, 0x80] ∧ IsUtf8 0x4100 [0xE4, 0x84, 0x80] := by
  refine ⟨by decide +kernel, ?_, ?_⟩
  · unfold IsUtf8; decide
  · unfold IsUtf8; decide

private theorem utf8_spec (u : Nat) (h : u < 0x800) : ∃ t, utf8OfUnit u = .ok t ∧ IsUtf8 u t ∧
    t.length ≤ 2 := by
  unfold utf8OfUnit
  by_cases h1 : u < 0x80
  · refine ⟨_, if_pos h1, Or.inl ⟨h1, ?_⟩, by simp⟩
    simp; omega
  · rw [if_neg h1]
    refine ⟨_, if_pos h, Or.inr (Or.inl ⟨by omega, h, ?_⟩), by simp⟩
    simp; omega

/-- C30, as far as it holds: the four digits `hhll` denote, for the code, the code unit
`ll * 256 + hh`. If that is below 0x800 (so that it fits into the two bytes reserved), it is read
as its UTF-8 encoding, at every position, and reading goes on behind the escape; this is the unit
written if both bytes are the same. -/
theorem json_unicode_partial (m : Mem) (hm : m.Sane) (digits rest : Bytes) (hi lo : UInt8)
    (hd : HexText digits [hi, lo]) (hlo : lo.toNat < 8) (fuel : Nat) (c : Cap) (pos : Nat) :
    ∃ bs c', IsUtf8 (lo.toNat * 256 + hi.toNat) bs ∧
      readString m (fuel + 1) c pos (92 :: 117 :: (digits ++ rest)) = (do
        let (more, c, s) ← readString m fuel c' (pos + bs.length) rest
        .ok (bs ++ more, c, s)) := by
  have hdec := (hex_decode_ok_iff 2 digits [hi, lo]).mpr ⟨hd, by simp⟩
  have hl4 : digits.length = 4 := by
    cases hd with
    | cons _ _ _ h => cases h with
      | cons _ _ _ h => cases h; rfl
  have hb := readBlock_append hm (92 :: 117 :: digits) rest (by simp [hl4])
  have hi8 := hi.toNat_lt
  obtain ⟨t, ht, hu, hlen⟩ := utf8_spec (lo.toNat * 256 + hi.toNat) (by omega)
  have hc : ucConv (c.grow pos) pos (92 :: 117 :: digits) =
      .ok (t, ⟨(c.grow pos).bufsz, max (c.grow pos).size (pos + 2)⟩) := by
    unfold ucConv
    simp only [List.drop_succ_cons, List.drop_zero, hdec, Res.ok_bind, convUnit,
      List.getD_cons_zero, List.getD_cons_succ]
    have : hi.toNat + 256 * lo.toNat = lo.toNat * 256 + hi.toNat := by omega
    rw [this, ht]
    simp only [Res.ok_bind]
    rw [if_neg (by omega)]
  refine ⟨t, ⟨(c.grow pos).bufsz, max (c.grow pos).size (pos + 2)⟩, hu, ?_⟩
  rw [readString_uc]
  have e : 92 :: 117 :: (digits ++ rest) = 92 :: 117 :: digits ++ rest := rfl
  rw [e, ucLiteral_block hb, hc]
  rfl

example : HexText (str "0707") [7, 7] :=
  .cons (x := 0) (y := 7) (by decide) (by decide) (by decide)
    (.cons (x := 0) (y := 7) (by decide) (by decide) (by decide) .nil)

/-! ## C31 -/

/-- C31 fails: the kinds of brackets are not compared. -/
theorem json_brackets_unmatched :
    ((do let (r, _, _) ← load ⟨some 0, 4096⟩ (fun _ => none) (str "[}"); .ok (r.node.events [])) =
      .ok ((Node.mk .array [] []).events [])) ∧
    ((do let (r, _, _) ← load ⟨some 0, 4096⟩ (fun _ => none) (str "{\"a\":true]");
         .ok (r.node.events [])) =
      .ok ((Node.mk .object [(str "a", .bool true)] []).events [])) := by
  constructor <;> decide +kernel

/-- C31, as far as it holds: a closing bracket without an opening one is rejected, and so is (by
`json_truncated_general`) every text whose scopes are not all closed. -/
theorem json_brackets_partial (m : Mem) (strtod : Bytes → Option UInt64) (r : Rd)
    (p rest : Bytes) (c : UInt8) (hp : ∀ b ∈ p, b ∉ str "\":{[}]/") (hc : c = 93 ∨ c = 125) :
    loadWith m strtod r (p ++ c :: rest) = .err := by
  have hnd : ∀ b ∈ p, isDelim b = false := by
    intro b hb
    have key : ∀ b : UInt8, b ∉ str "\":{[}]/" → isDelim b = false := by decide +kernel
    exact key b (hp b hb)
  have hskip : skip m r.clear ⟨none, false⟩ (p ++ c :: rest) = .ok (c :: rest) := by
    unfold skip
    rw [if_pos (by simp [Rd.clear]), moveUntil_skip _ _ _ _ hnd,
      moveUntil_hit _ _ _ _ (by rcases hc with rfl | rfl <;> decide)]
  have hround : round m strtod r.clear ⟨none, false⟩ (p ++ c :: rest) = .err := by
    unfold round
    rw [hskip]
    rcases hc with rfl | rfl <;>
      simp [dispatch, In.cur, processBracket, Rd.clear]
  unfold loadWith Doc.load PJson.read
  rw [loop, hround]
  rfl

example : load ⟨some 0, 4096⟩ (fun _ => none) (str " ] []") = .err := Res.eq_err (by decide +kernel)

/-! ## C32 -/

/-- The part of an outcome that the user sees: the tree and what is left of the source. -/
def outcome (x : Res (Root × Rd × Bytes)) : Res (Root × Bytes) := do
  let (a, _, t) ← x
  .ok (a, t)

/-- C32 for JSON, as far as it holds: a parser with any history gives the same result as a new one,
unless one of them runs into undefined behaviour, which cannot happen if the byte behind the text
can be read, and no `\uXXYY` has `YY` above 07. -/
theorem json_reuse_partial (m : Mem) (hm : m.Sane) (hp : m.past ≠ none)
    (strtod : Bytes → Option UInt64) (r : Rd) (s : Bytes)
    (hu : ∀ a d1 d2 d3 d4 b, s = a ++ 92 :: 117 :: d1 :: d2 :: d3 :: d4 :: b → d3 = 48 ∧ d4 < 56) :
    outcome (loadWith m strtod r s) = outcome (load m strtod s) := by
  have h1 := loadWith_safe hm hp strtod r s hu
  have h2 := loadWith_safe hm hp strtod Rd.new s hu
  have h := loadWith_agree (m := m) strtod r Rd.new s
  unfold PJson.load
  generalize loadWith m strtod r s = x at *
  generalize loadWith m strtod Rd.new s = y at *
  cases h with
  | left => exact absurd rfl h1
  | right => exact absurd rfl h2
  | ok a b b' t _ => rfl
  | err => rfl
  | fuel => rfl

/-- C32 fails: after reading a longer string, a parser loads a text on which a new one runs into
undefined behaviour. -/
theorem json_reuse_differs : ∃ s1 s2 root1 r1 t1,
    load ⟨some 0, 4096⟩ (fun _ => none) s1 = .ok (root1, r1, t1) ∧
    load ⟨some 0, 4096⟩ (fun _ => none) s2 = .ub ∧
    (loadWith ⟨some 0, 4096⟩ (fun _ => none) r1 s2).isUb = false ∧
    (loadWith ⟨some 0, 4096⟩ (fun _ => none) r1 s2).isErr = false :=
  ⟨str "[\"aaaaaaaaaaaaaaaaaaaa\"]", str "[\"aaaaaaaa\\u2030\"]",
    ⟨[], .mk .array [([], .str (str "aaaaaaaaaaaaaaaaaaaa"))] []⟩, ⟨[], 30, 0⟩, [],
    by rfl, Res.eq_ub (by decide +kernel), by decide +kernel, by decide +kernel⟩

end Srl.Props
