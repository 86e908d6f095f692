import Verif.Lemmas.Loaded
import Verif.Props.Convert
import Verif.Props.Memory
import Verif.Props.Fpconv

/-! # C88 – what was loaded can be saved -/

namespace Srl.Props
open Doc Room Dec

/-! ## Specification -/

/-- JSON, with the formatting of doubles of the library and a function that reads them. -/
def jsonCodec (strtod : Bytes → Option UInt64) (compact : Bool) : Codec :=
  ⟨PJson.save Fpconv.text compact, fun m s => do let (r, _) ← PJson.load m strtod s; .ok r⟩

/-- One of the three formats -/
def IsFormat (strtod : Bytes → Option UInt64) (a : Codec) : Prop :=
  a = srlCodec ∨ a = msgpackCodec ∨ ∃ compact, a = jsonCodec strtod compact

/-- C88 as it should hold, for documents below 4 GiB: what was loaded in one format, whoever made the bytes, can be
saved in another and loaded again as the same document, which is saved as the same bytes. -/
def Saveable (same : Node → Node → Prop) (a b : Codec) : Prop :=
  ∀ (m m' : Mem), m.Sane → m'.Sane → ∀ (src : Bytes) (r : Root), src.length < 2 ^ 32 → a.load m src = .ok r →
    ∃ bs r', b.save r.name r.node = .ok bs ∧ b.load m' bs = .ok r' ∧ same r.node r'.node ∧
      b.save r'.name r'.node = .ok bs

/-! ## What is known of a loaded tree -/

/-- Names and strings below 4 GiB, fewer than `2^32` items, integers in the range of their types, doubles as they are
kept, nesting within the limit -/
private structure Loaded (r : Root) : Prop where
  name : r.name.length < 2 ^ 32
  names : ∀ nm ∈ names r.node, nm.length < 2 ^ 32
  size : Room.size false r.node < 2 ^ 32
  vals : AllVals ValAs r.node
  depth : r.node.depth ≤ 128

private theorem length_total {xs : List Bytes} {x : Bytes} (h : x ∈ xs) : x.length ≤ total xs := by
  induction xs with
  | nil => cases h
  | cons y xs ih =>
    have e : total (y :: xs) = y.length + total xs := by simp [total]
    rw [e]
    rcases List.mem_cons.mp h with rfl | h
    · omega
    · have := ih h; omega

private theorem loaded_own {r : Root} {n : Nat} (h1 : r.name.length + Room.size true r.node ≤ n) (hn : n < 2 ^ 32)
    (h2 : AllVals ValAs r.node) (h3 : r.node.depth ≤ 128) : Loaded r := by
  rw [memory_names] at h1
  exact ⟨by omega, fun nm hnm => by have := length_total hnm; omega, by omega, h2, h3⟩

private theorem value_of {α σ : Type} {x : Res (α × σ)} {a : α} (h : (do let (r, _) ← x; .ok r : Res α) = .ok a) :
    ∃ y, x = .ok (a, y) := by
  cases x with
  | ok z => obtain ⟨b, y⟩ := z; simp only [Res.ok_bind, Res.ok.injEq] at h; exact ⟨y, by rw [h]⟩
  | _ => cases h

private theorem loaded_of {strtod : Bytes → Option UInt64} {a : Codec} (ha : IsFormat strtod a) {m : Mem} (hm : m.Sane)
    {src : Bytes} {r : Root} (hs : src.length < 2 ^ 32) (h : a.load m src = .ok r) : Loaded r := by
  rcases ha with rfl | rfl | ⟨compact, rfl⟩
  · obtain ⟨x, h⟩ := value_of h
    obtain ⟨h1, h2⟩ := srl_tree_memory m src r x h
    have h3 : ∀ nm ∈ r.name :: names r.node, nm.length < 2 ^ 32 := by
      intro nm hnm
      rcases h2 nm hnm with rfl | h3
      · decide
      · have := length_total h3; omega
    exact ⟨h3 _ List.mem_cons_self, fun nm hnm => h3 _ (List.mem_cons_of_mem _ hnm), by omega,
      load_vals (fun s y e => PSrl.read_as m s y e) h, load_depth _ _ _ _ _ h⟩
  · obtain ⟨x, h⟩ := value_of h
    have h1 := msgpack_tree_memory m src r x h
    exact loaded_own (by omega) hs (load_vals (fun s y e => PMsgPack.read_as m s y e) h) (load_depth _ _ _ _ _ h)
  · obtain ⟨x, h⟩ := value_of h
    have h1 := (json_tree_memory m hm strtod PJson.Rd.new x.1 src x.2 r h).1
    exact loaded_own (by omega) hs (load_vals (fun s y e => PJson.read_as m strtod s y e) h) (load_depth _ _ _ _ _ h)

/-! ## What the writers need -/

private theorem valBytes_sum {own : Bool} {vs : List (Bytes × Val)} {p : Bytes × Val} (h : p ∈ vs) :
    valBytes p.2 ≤ (vs.map (fun p => 1 + valBytes p.2 + nameBytes own p.1)).sum := by
  induction vs with
  | nil => cases h
  | cons q vs ih =>
    simp only [List.map_cons, List.sum_cons]
    rcases List.mem_cons.mp h with rfl | h
    · omega
    · have := ih h; omega

private theorem length_sum {own : Bool} (vs : List (Bytes × Val)) :
    vs.length ≤ (vs.map (fun p => 1 + valBytes p.2 + nameBytes own p.1)).sum := by
  induction vs with
  | nil => simp
  | cons q vs ih => simp only [List.map_cons, List.sum_cons, List.length_cons]; omega

private theorem length_sizes : ∀ ns : List (Bytes × Node), ns.length ≤ Room.sizes false ns
  | [] => by simp
  | (_, .mk _ _ _) :: ns => by
    have := length_sizes ns
    simp only [Room.sizes, Room.size, List.length_cons]; omega

private theorem mpVal {v : Val} (h : ValAs v) (hb : valBytes v < 2 ^ 32) : PMsgPack.ValOk v := by
  cases v <;> first | trivial | exact h | exact hb

mutual
private theorem mpOk : ∀ n : Node, AllVals ValAs n → (∀ nm ∈ names n, nm.length < 2 ^ 32) →
    Room.size false n < 2 ^ 32 → PMsgPack.NodeOk n
  | .mk t vs ns, h1, h2, h3 => by
    simp only [AllVals] at h1
    simp only [Room.size] at h3
    simp only [names, List.mem_append, List.mem_map] at h2
    have a := length_sum (own := false) vs
    have b := length_sizes ns
    simp only [PMsgPack.NodeOk]
    refine ⟨by omega, fun p hp => ⟨h2 _ (.inl ⟨p, hp, rfl⟩), mpVal (h1.1 p hp) ?_⟩,
      mpOkL ns h1.2 (fun nm hn => h2 nm (.inr hn)) (by omega)⟩
    have := valBytes_sum (own := false) hp
    omega
private theorem mpOkL : ∀ ns : List (Bytes × Node), AllValsL ValAs ns → (∀ nm ∈ namesL ns, nm.length < 2 ^ 32) →
    Room.sizes false ns < 2 ^ 32 → PMsgPack.NodesOk ns
  | [], _, _, _ => by simp [PMsgPack.NodesOk]
  | (name, n) :: ns, h1, h2, h3 => by
    simp only [AllValsL] at h1
    simp only [Room.sizes] at h3
    simp only [namesL, List.cons_append, List.mem_cons, List.mem_append] at h2
    simp only [PMsgPack.NodesOk]
    exact ⟨h2 _ (.inl rfl), mpOk n h1.1 (fun nm hn => h2 nm (.inr (.inl hn))) (by omega),
      mpOkL ns h1.2 (fun nm hn => h2 nm (.inr (.inr hn))) (by omega)⟩
end

/-- Specification: all but the integer `-2^63`. -/
def NotMin : Val → Prop
  | .int _ v => v ≠ -(2 ^ 63 : Nat)
  | _ => True

private theorem srlVal {v : Val} (h : PMsgPack.ValOk v) (hm : NotMin v) : PSrl.ValOk v := by
  cases v <;> first | exact h | exact ⟨h.1, h.2, hm⟩

mutual
private theorem srlOk : ∀ n : Node, PMsgPack.NodeOk n → AllVals NotMin n → PSrl.NodeOk n
  | .mk t vs ns, h1, h2 => by
    simp only [PMsgPack.NodeOk] at h1
    simp only [AllVals] at h2
    simp only [PSrl.NodeOk]
    exact ⟨fun p hp => ⟨(h1.2.1 p hp).1, srlVal (h1.2.1 p hp).2 (h2.1 p hp)⟩, srlOkL ns h1.2.2 h2.2⟩
private theorem srlOkL : ∀ ns : List (Bytes × Node), PMsgPack.NodesOk ns → AllValsL NotMin ns → PSrl.NodesOk ns
  | [], _, _ => by simp [PSrl.NodesOk]
  | (name, n) :: ns, h1, h2 => by
    simp only [PMsgPack.NodesOk] at h1
    simp only [AllValsL] at h2
    simp only [PSrl.NodesOk]
    exact ⟨h1.1, srlOk n h1.2.1 h2.1, srlOkL ns h1.2.2 h2.2⟩
end

mutual
private theorem events_size : ∀ (name : Bytes) (n : Node), (n.events name).length ≤ 2 * Room.size false n
  | name, .mk t vs ns => by
    have := length_sum (own := false) vs
    have := eventsL_size ns
    simp only [Node.events, Room.size, List.length_cons, List.length_append, List.length_map, List.length_nil]
    omega
private theorem eventsL_size : ∀ ns : List (Bytes × Node), (Node.eventsL ns).length ≤ 2 * Room.sizes false ns
  | [] => by simp [Node.eventsL]
  | (name, n) :: ns => by
    have := events_size name n
    have := eventsL_size ns
    simp only [Node.eventsL, Room.sizes, List.length_append]; omega
end

/-! ## C88 -/

/-- C88 for MessagePack, without exceptions: whatever was loaded, in any format, can be saved as MessagePack, and is
the same document when it is loaded again. -/
theorem loaded_msgpack (strtod : Bytes → Option UInt64) (a : Codec) (ha : IsFormat strtod a) :
    Saveable SameNode a msgpackCodec := by
  intro m m' hm hm' src r hs h
  have k := loaded_of ha hm hs h
  obtain ⟨bs, h1, h2⟩ := msgpack_roundtrip m' hm' r.name r.node k.name (mpOk _ k.vals k.names k.size) k.depth
  obtain ⟨r', h3, h4⟩ := h2 []
  rw [List.append_nil] at h3
  exact ⟨bs, r', h1, by simp only [msgpackCodec, h3, Res.ok_bind], h4,
    msgpack_stable m' hm' r.name r.node k.name (mpOk _ k.vals k.names k.size) bs h1 r' _ h3⟩

private theorem all_mono {P Q : Val → Prop} (h : ∀ v, P v → Q v) : ∀ n : Node, AllVals P n → AllVals Q n
  | .mk _ vs ns, hn => by
    simp only [AllVals] at hn ⊢
    exact ⟨fun p hp => h _ (hn.1 p hp), go ns hn.2⟩
where go : ∀ ns : List (Bytes × Node), AllValsL P ns → AllValsL Q ns
  | [], _ => trivial
  | (_, n) :: ns, hn => by
    simp only [AllValsL] at hn ⊢
    exact ⟨all_mono h n hn.1, go ns hn.2⟩

private theorem keep_notMin (v : Val) (h : ValKeep v) : NotMin v := by
  cases v <;> first | trivial | exact h.2.2

private theorem loaded_srl_of {r : Root} (k : Loaded r) (m' : Mem) (hm' : m'.Sane) (hv : AllVals NotMin r.node) :
    ∃ bs r', srlCodec.save r.name r.node = .ok bs ∧ srlCodec.load m' bs = .ok r' ∧ SameNode r.node r'.node ∧
      srlCodec.save r'.name r'.node = .ok bs := by
  have e := events_size r.name r.node
  have := k.size
  have ok := srlOk _ (mpOk _ k.vals k.names k.size) hv
  obtain ⟨bs, h1, h2⟩ := srl_roundtrip m' hm' r.name r.node k.name ok (by omega) k.depth
  obtain ⟨r', st, h3, h4⟩ := h2 []
  rw [List.append_nil] at h3
  exact ⟨bs, r', h1, by simp only [srlCodec, h3, Res.ok_bind], h4,
    srl_stable m' hm' r.name r.node k.name ok (by omega) bs h1 r' _ h3⟩

/-- C88 for the Srl format, without exceptions for what was loaded from the Srl format or from JSON, which give no
`-2^63`. -/
theorem loaded_srl (strtod : Bytes → Option UInt64) (a : Codec) (ha : a = srlCodec ∨ ∃ compact, a = jsonCodec strtod compact) :
    Saveable SameNode a srlCodec := by
  intro m m' hm hm' src r hs h
  have k := loaded_of (strtod := strtod) (ha.imp id .inr) hm hs h
  refine loaded_srl_of k m' hm' (all_mono keep_notMin _ ?_)
  rcases ha with rfl | ⟨compact, rfl⟩
  · obtain ⟨x, h⟩ := value_of h
    exact load_vals (fun s y e => PSrl.read_keep m s y e) h
  · obtain ⟨x, h⟩ := value_of h
    exact load_vals (fun s y e => PJson.read_keep m strtod s y e) h

/-- C88 for the Srl format, from MessagePack. What is missing: documents with the integer `-2^63`, see
`loaded_srl_undefined`. -/
theorem loaded_srl_partial (m m' : Mem) (hm : m.Sane) (hm' : m'.Sane) (src : Bytes) (r : Root)
    (hs : src.length < 2 ^ 32) (h : msgpackCodec.load m src = .ok r) (hv : AllVals NotMin r.node) :
    ∃ bs r', srlCodec.save r.name r.node = .ok bs ∧ srlCodec.load m' bs = .ok r' ∧ SameNode r.node r'.node ∧
      srlCodec.save r'.name r'.node = .ok bs :=
  loaded_srl_of (loaded_of (strtod := fun _ => none) (.inr (.inl rfl)) hm hs h) m' hm' hv

/-- C88 for JSON. What is missing: names with quotes or backslashes, the integer `-2^63`, NaN, doubles with integral
values between `2^63` and `2^80`, see `loaded_json_name`; and that it is saved as the same bytes again. -/
theorem loaded_json_partial (strtod : Bytes → Option UInt64) (hr : Rounds strtod) (compact : Bool) (a : Codec)
    (ha : IsFormat strtod a) (m m' : Mem) (hm : m.Sane) (hm' : m'.Sane) (src : Bytes) (r : Root)
    (hs : src.length < 2 ^ 32) (h : a.load m src = .ok r) (hv : PJson.NodeAll JsonKept PJson.NameOk r.node) :
    ∃ bs r', (jsonCodec strtod compact).save r.name r.node = .ok bs ∧ (jsonCodec strtod compact).load m' bs = .ok r' ∧
      SameNodeBy JsonSame r.node r'.node := by
  have k := loaded_of ha hm hs h
  obtain ⟨bs, h1, h2⟩ := json_doubles_partial m' hm' strtod hr compact r.name r.node hv k.depth
  obtain ⟨r', x, h3, h4⟩ := h2 [] PJson.Rd.new
  rw [List.append_nil] at h3
  exact ⟨bs, r', h1, by simp only [jsonCodec, PJson.load, h3, Res.ok_bind], h4⟩

/-! ## Where it fails, and examples -/

/-- C88 fails for MessagePack documents with `-2^63`, here `[-9223372036854775808]`: saving them in the Srl format is
undefined. -/
theorem loaded_srl_undefined : ¬ Saveable SameNode msgpackCodec srlCodec := by
  intro h
  have hm : Mem.Sane ⟨some 0, 4096⟩ := by show 4096 < 2 ^ 63; decide
  obtain ⟨bs, r', h1, _⟩ := h ⟨some 0, 4096⟩ ⟨some 0, 4096⟩ hm hm [0x91, 0xD3, 0x80, 0, 0, 0, 0, 0, 0, 0]
    ⟨[], .mk .array [([], .int .i64 (-9223372036854775808))] []⟩ (by decide) (by rfl)
  have : srlCodec.save [] (.mk .array [([], .int .i64 (-9223372036854775808))] []) = .ub := by decide +kernel
  rw [this] at h1
  cases h1

/-- C88 fails for JSON texts with an escaped quote in a name, here `{"a\"b":1}`: such a text is loaded, but what is
saved is `{"a"b":1}`, which cannot be. -/
theorem loaded_json_name (strtod : Bytes → Option UInt64) :
    ¬ Saveable (SameNodeBy JsonSame) (jsonCodec strtod true) (jsonCodec strtod true) := by
  intro h
  have hm : Mem.Sane ⟨some 0, 4096⟩ := by show 4096 < 2 ^ 63; decide
  obtain ⟨bs, r', h1, h2, _⟩ := h ⟨some 0, 4096⟩ ⟨some 0, 4096⟩ hm hm (str "{\"a\\\"b\":1}")
    ⟨[], .mk .object [(str "a\"b", .int .u64 1)] []⟩ (by decide +kernel) (by rfl)
  have e : (jsonCodec strtod true).save [] (.mk .object [(str "a\"b", .int .u64 1)] []) = .ok (str "{\"a\"b\":1}") := by
    simp only [jsonCodec]; decide +kernel
  rw [e] at h1
  cases h1
  have : (jsonCodec strtod true).load ⟨some 0, 4096⟩ (str "{\"a\"b\":1}") = .err := by rfl
  rw [this] at h2
  cases h2

/-- Not vacuous: MessagePack that the library would not write, `[1, "a"]` with a count of two bytes, a number of eight
and a length of one, is loaded; it is saved as the library writes it. -/
example : IsFormat (fun _ => none) msgpackCodec ∧ Mem.Sane ⟨some 0, 4096⟩ ∧
    msgpackCodec.load ⟨some 0, 4096⟩ [0xDC, 0, 2, 0xCF, 0, 0, 0, 0, 0, 0, 0, 1, 0xD9, 1, 97] =
      .ok ⟨[], .mk .array [([], .int .u64 1), ([], .str [97])] []⟩ ∧
    AllVals NotMin (.mk .array [([], .int .u64 1), ([], .str [97])] []) ∧
    msgpackCodec.save [] (.mk .array [([], .int .u64 1), ([], .str [97])] []) = .ok [0xDD, 0, 0, 0, 2, 1, 0xA1, 97] :=
  ⟨.inr (.inl rfl), by show 4096 < 2 ^ 63; decide, by rfl,
    ⟨fun p hp => by
      simp only [List.mem_cons, List.not_mem_nil, or_false] at hp
      rcases hp with rfl | rfl
      · show (1 : Int) ≠ _; decide
      · trivial, trivial⟩, by decide +kernel⟩

/-- … and a JSON text with spaces, and a comma before a closing bracket. -/
example (strtod : Bytes → Option UInt64) :
    (jsonCodec strtod true).load ⟨some 0, 4096⟩ (str " { \"a\" : [ 1 , ] } ") =
      .ok ⟨[], .mk .object [] [(str "a", .mk .array [([], .int .u64 1)] [])]⟩ ∧
    PJson.NodeAll JsonKept PJson.NameOk (.mk .object [] [(str "a", .mk .array [([], .int .u64 1)] [])]) ∧
    (jsonCodec strtod true).save [] (.mk .object [] [(str "a", .mk .array [([], .int .u64 1)] [])]) =
      .ok (str "{\"a\":[1]}") := by
  refine ⟨by rfl, ?_, by simp only [jsonCodec]; decide +kernel⟩
  simp [PJson.NodeAll, PJson.NodesAll, PJson.NameOk, JsonKept, IntTy.lo, IntTy.hi, IntTy.signed, IntTy.bits]
  decide +kernel

end Srl.Props
