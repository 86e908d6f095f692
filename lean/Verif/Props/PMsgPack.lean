import Verif.Lemmas.PMsgPackCut
import Verif.Props.Same
import Verif.Props.MsgPackSpec
import Verif.Props.Fp

/-! # Properties of the MessagePack format: C02, C09–C12, C39, C40, C43 -/

namespace Srl.Props
open Doc PMsgPack

private theorem sameVal_norm (v : Val) : SameVal v (normVal v) := by
  cases v <;> simp [SameVal, normVal]

private theorem save_load {m : Mem} (hm : m.Sane) (name : Bytes) (n : Node)
    (hname : name.length < 2 ^ 32) (hn : NodeOk n) :
    ∃ bs, save name n = .ok bs ∧ ∀ rest, load m (bs ++ rest) =
      if n.depth ≤ 128 then .ok (⟨[], Norm.node normVal n⟩, ([], rest)) else .err := by
  obtain ⟨bs, h1, h2⟩ := save_enc name n hname hn
  refine ⟨bs, h1, fun rest => ?_⟩
  rw [load_enc hm _ _ rest h2, Norm.depth_node]
  rfl

/-! ## C02, C12 -/

/-- C02 and C12: a tree of admissible values, nested at most 128 levels below the root, can be
saved, and whatever follows, loading gives the same document and leaves what follows unread.
(`NodeOk`: integers in the range of their type, doubles as `Value` keeps them, blocks and names
below 4 GiB, fewer than `2^32` elements per scope.) -/
theorem msgpack_roundtrip (m : Mem) (hm : m.Sane) (name : Bytes) (n : Node)
    (hname : name.length < 2 ^ 32) (hn : NodeOk n) (hdepth : n.depth ≤ 128) :
    ∃ bs, save name n = .ok bs ∧ ∀ rest, ∃ r,
      load m (bs ++ rest) = .ok (r, ([], rest)) ∧ SameNode n r.node := by
  obtain ⟨bs, h1, h2⟩ := save_load hm name n hname hn
  refine ⟨bs, h1, fun rest => ⟨⟨[], Norm.node normVal n⟩, ?_, sameNode_norm SameVal normVal sameVal_norm n⟩⟩
  rw [h2 rest, if_pos hdepth]

/-- C08 for MessagePack: a deeper tree is saved, but loading it throws. -/
theorem msgpack_nesting (m : Mem) (hm : m.Sane) (name : Bytes) (n : Node)
    (hname : name.length < 2 ^ 32) (hn : NodeOk n) (hdepth : 128 < n.depth) :
    ∃ bs, save name n = .ok bs ∧ ∀ rest, load m (bs ++ rest) = .err := by
  obtain ⟨bs, h1, h2⟩ := save_load hm name n hname hn
  exact ⟨bs, h1, fun rest => by rw [h2 rest, if_neg (by omega)]⟩

/-- An object holding integers at the limits of the short forms, a string longer than 31 bytes, a
double, a named array and an empty object. -/
def sampleNodeMp : Node :=
  .mk .object [(str "id", .int .i32 (-31)), (str "x", .int .i16 (-32)), (str "y", .int .u8 128),
      (str "s", .str (List.replicate 40 97)), (str "pi", .fp64 0x400921FB54442D18),
      (str "m", .int .i64 (-(2 ^ 63 : Nat)))]
    [(str "a", .mk .array [([], .int .u8 200), ([], .bool true), ([], .null), ([], .bin [0, 255])]
      [([], .mk .object [] [])])]

example : NodeOk sampleNodeMp ∧ sampleNodeMp.depth ≤ 128 := by
  refine ⟨?_, by decide +kernel⟩
  simp only [sampleNodeMp, NodeOk, NodesOk, List.forall_mem_cons]
  refine ⟨?_, ⟨?_, ?_, ?_, ?_, ?_, ?_, ?_⟩, ?_, ⟨?_, ⟨?_, ?_, ?_, ?_, ?_⟩, ?_, ⟨?_, ?_, ?_⟩, ?_⟩, trivial⟩ <;>
    first
      | decide +kernel
      | trivial
      | (intro p hp; cases hp)

example : (do
    let bs ← save (str "root") sampleNodeMp
    let (r, _, rest) ← load ⟨none, 0⟩ (bs ++ [7])
    .ok (r.name, r.node.events [], rest)) =
    .ok ([], (Norm.node normVal sampleNodeMp).events [], [7]) := by decide +kernel

/-! ## C43 -/

/-- C43: saving a loaded tree gives the bytes it was loaded from, if these came from saving. -/
theorem msgpack_stable (m : Mem) (hm : m.Sane) (name : Bytes) (n : Node)
    (hname : name.length < 2 ^ 32) (hn : NodeOk n) (bs : Bytes) (hs : save name n = .ok bs) (r : Root)
    (x : List RScope × Bytes) (hl : load m bs = .ok (r, x)) : save r.name r.node = .ok bs := by
  obtain ⟨bs', h1, h2⟩ := save_load hm name n hname hn
  rw [hs] at h1; cases h1
  have h3 := h2 []
  rw [List.append_nil, hl] at h3
  split at h3
  · simp only [Res.ok.injEq, Prod.mk.injEq] at h3
    rw [h3.1, save_norm name n hname hn, hs]
  · cases h3

/-! ## C09 -/

/-- C09 for MessagePack: every byte string is loaded or rejected within as many steps as twice its
length (`load` never runs out of steps). -/
theorem msgpack_load_terminates (m : Mem) (s : Bytes) : load m s ≠ .fuel := load_ne_fuel m s

/-- The step budget is irrelevant: any larger one gives the same outcome. -/
theorem msgpack_load_budget (m : Mem) (s : Bytes) (f : Nat) (h : 2 * s.length < f) :
    Doc.load (PMsgPack.read m) f ([], s) = load m s := load_eq_fuel m s f h

/-! ## C10 -/

/-- C10 for MessagePack: loading has no undefined behaviour, whatever the source, even if nothing
behind it can be read. -/
theorem msgpack_memory_safe (m : Mem) (hm : m.Sane) (s : Bytes) : load m s ≠ .ub :=
  load_safe (PMsgPack.read m) (fun _ => True) (fun x _ => (read_fine m x).2.1 hm) (fun _ _ _ _ _ => trivial)
    _ _ trivial

/-- The outcome does not depend on the byte behind the source (nor on where the source lies). -/
theorem msgpack_inside (m m' : Mem) (hm : m.Sane) (hm' : m'.Sane) (s : Bytes) :
    load m s = load m' s := by
  have mono : ∀ m m' : Mem, m'.Sane → ∀ r x, load m s = .ok (r, x) → load m' s = .ok (r, x) := by
    intro m m' hm' r x h
    rcases load_cut (PMsgPack.read m) (PMsgPack.read m') False False (Lift (ExtR []))
      (read_sim (fun n => readBlock_ext hm' [] n)) _ ([], s) ([], s) _ r
      ⟨rfl, (List.append_nil s).symm⟩ h with ⟨⟨st', t'⟩, ⟨h1, h2⟩, h3⟩ | hf
    · simp only at h1
      have h2' : t' = x.2 ++ [] := h2
      rw [List.append_nil] at h2'
      rw [show x = (st', t') from Prod.ext h1 h2'.symm]; exact h3
    · rcases hf with ⟨hf, _⟩ | ⟨hf, _⟩ <;> exact hf.elim
  cases h : load m s with
  | ok y => obtain ⟨r, x⟩ := y; exact (mono m m' hm' r x h).symm
  | ub => exact absurd h (msgpack_memory_safe m hm s)
  | fuel => exact absurd h (load_ne_fuel m s)
  | err =>
    cases h' : load m' s with
    | ok y => obtain ⟨r, x⟩ := y; rw [mono m' m hm r x h'] at h; cases h
    | ub => exact absurd h' (msgpack_memory_safe m' hm' s)
    | fuel => exact absurd h' (load_ne_fuel m' s)
    | err => rfl

example : load ⟨none, 4096⟩ [0x92, 0xDB, 255, 255, 255, 255] = .err := Res.eq_err (by decide +kernel)

/-! ## C12 for arbitrary accepted sources, C11 -/

/-- C12: if a source is accepted, it is accepted with the same result when further bytes follow,
wherever the source lies in memory. -/
theorem msgpack_trailing (m m' : Mem) (hm' : m'.Sane) (s q : Bytes) (r : Root) (st : List RScope)
    (t : Bytes) (h : load m s = .ok (r, (st, t))) : load m' (s ++ q) = .ok (r, (st, t ++ q)) := by
  rw [← load_eq_fuel m s (2 * (s ++ q).length + 1) (by simp; omega)] at h
  rcases load_cut (PMsgPack.read m) (PMsgPack.read m') False False (Lift (ExtR q))
    (read_sim (fun n => readBlock_ext hm' q n)) _ ([], s) ([], s ++ q) _ r ⟨rfl, rfl⟩ h
    with ⟨⟨st', t'⟩, ⟨h1, h2⟩, h3⟩ | hf
  · simp only at h1 h2
    have h2' : t' = t ++ q := h2
    subst h1 h2'
    exact h3
  · rcases hf with ⟨hf, _⟩ | ⟨hf, _⟩ <;> exact hf.elim

/-- C11 (any accepted source): cutting off anything the loader has consumed makes it throw. -/
theorem msgpack_truncated_general (m m' : Mem) (hm' : m'.Sane) (s q : Bytes) (r : Root)
    (st : List RScope) (t : Bytes) (hlen : (s ++ q).length < 2 ^ 63)
    (h : load m (s ++ q) = .ok (r, (st, t))) (hq : t.length < q.length) : load m' s = .err := by
  have hfe := load_eq_fuel m' s (2 * (s ++ q).length + 1) (by simp; omega)
  rcases load_cut (PMsgPack.read m) (PMsgPack.read m') True False (Lift (CutR q))
    (read_sim (fun n => readBlock_cut hm' _ q n)) _ ([], s ++ q) ([], s) _ r ⟨rfl, rfl, hlen⟩ h
    with ⟨⟨st', t'⟩, ⟨h1, h2, _⟩, h3⟩ | hf
  · simp only at h2
    rw [h2, List.length_append] at hq
    omega
  · rw [hfe] at hf
    rcases hf with ⟨_, hf⟩ | ⟨hf, _⟩
    · exact hf
    · exact hf.elim

/-- C11: loading a proper prefix of a saved tree throws. -/
theorem msgpack_truncated (m : Mem) (hm : m.Sane) (name : Bytes) (n : Node)
    (hname : name.length < 2 ^ 32) (hn : NodeOk n) (hdepth : n.depth ≤ 128)
    (bs p q : Bytes) (hs : save name n = .ok bs) (hlen : bs.length < 2 ^ 63)
    (hbs : bs = p ++ q) (hq : q ≠ []) : load m p = .err := by
  obtain ⟨bs', h1, h2⟩ := save_load hm name n hname hn
  rw [hs] at h1; cases h1
  have h3 := h2 []
  rw [List.append_nil, if_pos hdepth] at h3
  subst hbs
  exact msgpack_truncated_general m m hm p q _ _ _ hlen h3 (by simpa using List.length_pos_iff.mpr hq)

example : load ⟨none, 0⟩ [0x81, 0xA1, 97, 0xCE, 0, 0, 1] = .err := Res.eq_err (by decide +kernel)

/-! ## C39 -/

theorem big_eq (n v : Nat) : MsgPack.big n v = beBytes n v := by
  unfold beBytes
  induction n generalizing v with
  | zero => rfl
  | succ n ih =>
    have key : ∀ (n v : Nat), (leBytes (n + 1) v) = leBytes n v ++ [UInt8.ofNat (v / 256 ^ n % 256)] := by
      intro n
      induction n with
      | zero => intro v; simp [leBytes]
      | succ n ih =>
        intro v
        rw [leBytes, ih (v / 256), leBytes]
        simp only [List.cons_append]
        rw [Nat.div_div_eq_div_mul, Nat.pow_succ, Nat.mul_comm]
    rw [MsgPack.big, ih, key]
    simp

/-- Values with short strings and binaries. -/
def ShortVal : Val → Prop
  | .str s => s.length ≤ 254
  | .bin s => s.length ≤ 255
  | _ => True

mutual
/-- All strings and names have at most 254 bytes, all binaries at most 255. -/
def ShortNode : Node → Prop
  | .mk _ vs ns => (∀ p ∈ vs, p.1.length ≤ 254 ∧ ShortVal p.2) ∧ ShortNodes ns
def ShortNodes : List (Bytes × Node) → Prop
  | [] => True
  | (name, n) :: ns => name.length ≤ 254 ∧ ShortNode n ∧ ShortNodes ns
end

private theorem big1 (n : Nat) (h : n < 2 ^ 8) : MsgPack.big 1 n = [UInt8.ofNat n] := by
  simp [MsgPack.big, Nat.mod_eq_of_lt (show n < 256 from h)]

private theorem writeStr_format (s : Bytes) (h : s.length ≤ 254) :
    MsgPack.StrFormat false s (writeStr s) := by
  unfold writeStr MsgPack.StrFormat
  split
  · left; exact ⟨by omega, by rw [← or_A0 ⟨s.length, by omega⟩]⟩
  · right; left; exact ⟨by omega, by rw [big1 _ (by omega)]; rfl⟩

private theorem writeVal_format (v : Val) (h : ValOk v) (hs : ShortVal v) :
    MsgPack.ValFormat false v (writeVal v) := by
  cases v with
  | null => rfl
  | bool b => cases b <;> rfl
  | fp32 f => simp [MsgPack.ValFormat, writeVal, big_eq]
  | fp64 f => simp [MsgPack.ValFormat, writeVal, big_eq]
  | str s => exact writeStr_format s hs
  | bin s =>
    simp only [ShortVal] at hs
    simp only [MsgPack.ValFormat, writeVal, writeBin, MsgPack.BinFormat]
    rw [if_pos hs]
    left; exact ⟨by omega, by rw [big1 _ (by omega)]; rfl⟩
  | int t v =>
    have he := writeVal_enc (.int t v) h
    simp only [MsgPack.ValFormat, normVal, EncVal] at he ⊢
    generalize writeVal (.int t v) = b at *
    unfold MsgPack.IntFormat
    obtain ⟨h1, h2⟩ := h
    rcases he with ⟨_, a, c, rfl⟩ | ⟨_, a, c, rfl⟩ | ⟨a, c, rfl⟩
    · left; exact ⟨a, by omega, rfl⟩
    · right; left; exact ⟨a, by omega, rfl⟩
    · right; right
      generalize (if -31 ≤ v ∧ v ≤ 127 then IntTy.i32 else t) = u at *
      unfold IntTy.lo at a
      unfold IntTy.hi at c
      simp only [big_eq]
      cases u <;> simp only [IntTy.signed, IntTy.bits, intPrefix, twos, if_true, Bool.false_eq_true, if_false] at a c ⊢
      · right; right; right; right; left; exact ⟨a, by omega, trivial⟩
      · left; exact ⟨a, by omega, by rw [Int.emod_eq_of_lt a (by omega)]⟩
      · right; right; right; right; right; left; exact ⟨a, by omega, trivial⟩
      · right; left; exact ⟨a, by omega, by rw [Int.emod_eq_of_lt a (by omega)]⟩
      · right; right; right; right; right; right; left; exact ⟨a, by omega, trivial⟩
      · right; right; left; exact ⟨a, by omega, by rw [Int.emod_eq_of_lt a (by omega)]⟩
      · right; right; right; right; right; right; right; exact ⟨a, by omega, trivial⟩
      · right; right; right; left; exact ⟨a, by omega, by rw [Int.emod_eq_of_lt a (by omega)]⟩

private theorem writeHead_format (t : ScopeTy) (n : Nat) (h : n < 2 ^ 32) :
    MsgPack.HeadFormat t n (writeHead t n) := by
  unfold writeHead
  rw [Nat.mod_eq_of_lt h]
  cases t <;> exact Or.inr (Or.inr ⟨h, by rw [big_eq]⟩)

private theorem writeKey_format (named : Bool) (n : Bytes) (h : n.length ≤ 254) :
    MsgPack.KeyFormat false named n (writeKey named n) := by
  unfold writeKey MsgPack.KeyFormat
  cases named
  · simp
  · simp [writeStr_format n h]

private theorem format_append (named : Bool) : ∀ (x y : List Item) (b c : Bytes),
    MsgPack.FormatL false named x b → MsgPack.FormatL false named y c →
      MsgPack.FormatL false named (x ++ y) (b ++ c)
  | [], y, b, c, h1, h2 => by
    simp only [MsgPack.FormatL] at h1; subst h1; simpa using h2
  | i :: x, y, b, c, ⟨b1, b2, h3, h4, hb⟩, h2 => by
    subst hb
    simp only [List.cons_append, MsgPack.FormatL]
    exact ⟨b1, b2 ++ c, h3, format_append named x y b2 c h4 h2, by simp⟩

private theorem writeItems_append (named : Bool) (x y : List Item) :
    writeItems named (x ++ y) = writeItems named x ++ writeItems named y := by
  induction x with
  | nil => rfl
  | cons i x ih => simp [writeItems, ih]

private theorem writeVals_format (named : Bool) (vs : List (Bytes × Val))
    (h1 : ∀ p ∈ vs, p.1.length < 2 ^ 32 ∧ ValOk p.2) (h2 : ∀ p ∈ vs, p.1.length ≤ 254 ∧ ShortVal p.2) :
    MsgPack.FormatL false named (vs.map (fun p => Item.val p.1 p.2))
      (writeItems named (vs.map (fun p => Item.val p.1 p.2))) := by
  induction vs with
  | nil => simp [MsgPack.FormatL, writeItems]
  | cons p vs ih =>
    simp only [List.map_cons, MsgPack.FormatL, writeItems, MsgPack.Format, writeItem]
    refine ⟨_, _, ⟨_, _, writeKey_format named p.1 (h2 p (by simp)).1,
      writeVal_format p.2 (h1 p (by simp)).2 (h2 p (by simp)).2, rfl⟩, ih ?_ ?_, rfl⟩
    · exact fun q hq => h1 q (by simp [hq])
    · exact fun q hq => h2 q (by simp [hq])

mutual
private theorem writeNode_format : ∀ (n : Node) (named : Bool) (name : Bytes),
    (named = true → name.length ≤ 254) → NodeOk n → ShortNode n →
      MsgPack.Format false named (n.toItem name) (writeItem named (n.toItem name))
  | .mk t vs ns, named, name, hl, ⟨h0, h1, h2⟩, ⟨s1, s2⟩ => by
    simp only [Node.toItem, MsgPack.Format, writeItem]
    refine ⟨_, _, _, ?_, writeHead_format t _ ?_, ?_, rfl⟩
    · cases named
      · simp [MsgPack.KeyFormat, writeKey]
      · exact writeKey_format true name (hl rfl)
    · simpa [Node.length_toItems] using h0
    · rw [writeItems_append]
      exact format_append _ _ _ _ _ (writeVals_format _ vs h1 s1) (writeNodes_format ns _ h2 s2)
private theorem writeNodes_format : ∀ (ns : List (Bytes × Node)) (named : Bool), NodesOk ns →
    ShortNodes ns →
      MsgPack.FormatL false named (Node.toItems ns) (writeItems named (Node.toItems ns))
  | [], _, _, _ => by simp [Node.toItems, MsgPack.FormatL, writeItems]
  | (name, n) :: ns, named, ⟨h1, h2, h3⟩, ⟨s1, s2, s3⟩ => by
    simp only [Node.toItems, MsgPack.FormatL, writeItems]
    exact ⟨_, _, writeNode_format n named name (fun _ => s1) h2 s2, writeNodes_format ns named h3 s3, rfl⟩
end

/-- C39, full statement: every tree is written in conformance with the MessagePack specification.
It fails for longer strings (`msgpack_output_wrong`); what holds: trees all of whose names and
strings have at most 254 bytes and whose binaries have at most 255 are written as the specification
demands. (The name of the root is not written.) -/
theorem msgpack_output_partial (name : Bytes) (n : Node) (hn : NodeOk n) (hs : ShortNode n) :
    ∃ bs, save name n = .ok bs ∧ MsgPack.Format false false (n.toItem name) bs :=
  ⟨_, save_eq name n, writeNode_format n false name (by simp) hn hs⟩

example : ShortNode sampleNodeMp := by
  simp only [sampleNodeMp, ShortNode, ShortNodes, List.forall_mem_cons, ShortVal]
  refine ⟨⟨?_, ?_, ?_, ?_, ?_, ?_, ?_⟩, ?_, ⟨⟨?_, ?_, ?_, ?_, ?_⟩, ?_, ⟨?_, ?_⟩, ?_⟩, trivial⟩ <;>
    first
      | decide +kernel
      | trivial
      | (intro p hp; cases hp)

/-- C39 fails: the two bytes giving the length of a string of 255 to 65534 bytes are written in the
wrong order; the output is not an encoding of the string in any format (unless the two bytes are
equal). -/
theorem msgpack_output_wrong (s : Bytes) (h1 : 255 ≤ s.length) (h2 : s.length ≤ 65534)
    (h3 : s.length % 256 ≠ s.length / 256) : ¬ MsgPack.ValFormat true (.str s) (writeVal (.str s)) := by
  simp only [MsgPack.ValFormat, MsgPack.StrFormat, writeVal, writeStr]
  rw [if_neg (by omega), if_neg (by omega), if_pos (by omega)]
  rintro (⟨h, _⟩ | ⟨h, he⟩ | ⟨_, h, he⟩ | ⟨_, h, he⟩)
  · omega
  · exact absurd (List.cons.inj he).1 (by decide)
  · simp only [MsgPack.big, leBytes, List.cons_append, List.nil_append, List.cons.injEq, true_and] at he
    have := congrArg UInt8.toNat he.1
    simp only [UInt8.toNat_ofNat'] at this
    omega
  · exact absurd (List.cons.inj he).1 (by decide)

example : ∃ s : Bytes, 255 ≤ s.length ∧ s.length ≤ 65534 ∧ s.length % 256 ≠ s.length / 256 :=
  ⟨List.replicate 300 97, by rw [List.length_replicate]; decide⟩

/-! ## C40 -/

/-- A loaded value stands for the specified one: integers are equal numerically, a double can be
unwrapped as the same double. -/
def Reads : Val → Val → Prop
  | .int _ a, .int _ b => a = b
  | .fp64 d, v => Fp.toDouble v = some d
  | a, b => a = b

/-- The value as it is read: integers with a type of the library, doubles as floats if these are the same. -/
def MpVal : Val → Val → Prop
  | .int _ a, v => ∃ t : IntTy, v = .int t a ∧ t.lo ≤ a ∧ a ≤ t.hi
  | .fp64 d, v => v = Fp.ofDouble d
  | a, b => a = b

theorem MpVal.reads : ∀ {v v' : Val}, MpVal v v' → Reads v v'
  | .int _ _, _, ⟨_, h, _⟩ => by rw [h]; exact rfl
  | .fp64 d, _, h => by rw [show _ = _ from h]; exact double_storage_exact d
  | .null, _, h => h
  | .bool _, _, h => h
  | .fp32 _, _, h => h
  | .str _, _, h => h
  | .bin _, _, h => h

mutual
/-- A document as it is read: names count in objects only. -/
def MpRel (named : Bool) : Item → Item → Prop
  | .val n v, .val n' v' => (named = true → n = n') ∧ MpVal v v'
  | .scope n t kids, .scope n' t' kids' =>
    (named = true → n = n') ∧ t = t' ∧ MpRelL (t == .object) kids kids'
  | _, _ => False
def MpRelL (named : Bool) : List Item → List Item → Prop
  | [], [] => True
  | i :: is, i' :: is' => MpRel named i i' ∧ MpRelL named is is'
  | _, _ => False
end

private theorem str_enc (s b : Bytes) (h : MsgPack.StrFormat false s b) : EncStr false s b := by
  rcases h with ⟨h, rfl⟩ | ⟨h, rfl⟩ | ⟨h, _⟩ | ⟨h, _⟩
  · left; exact ⟨by omega, rfl⟩
  · right; left; exact ⟨h, by rw [big1 _ h]; rfl⟩
  · cases h
  · cases h

private theorem key_enc (named : Bool) (n k : Bytes) (h : MsgPack.KeyFormat false named n k) :
    EncKey false named (if named then n else []) k := by
  unfold MsgPack.KeyFormat at h
  unfold EncKey
  cases named
  · simpa using h
  · simpa using str_enc n k h

private theorem head_enc (t : ScopeTy) (n : Nat) (b : Bytes) (h : MsgPack.HeadFormat t n b) :
    EncHead t n b := by
  cases t <;> rcases h with ⟨h, rfl⟩ | ⟨h, rfl⟩ | ⟨h, rfl⟩
  · left; exact ⟨by omega, rfl⟩
  · right; left; exact ⟨h, by rw [big_eq]⟩
  · right; right; exact ⟨h, by rw [big_eq]⟩
  · left; exact ⟨by omega, rfl⟩
  · right; left; exact ⟨h, by rw [big_eq]⟩
  · right; right; exact ⟨h, by rw [big_eq]⟩

private theorem val_enc (v : Val) (b : Bytes) (h : MsgPack.ValFormat false v b) :
    ∃ v', MpVal v v' ∧ EncVal false v' b := by
  cases v with
  | null => exact ⟨.null, rfl, h⟩
  | bool x => exact ⟨.bool x, rfl, h⟩
  | str s => exact ⟨.str s, rfl, str_enc s b h⟩
  | bin s =>
    refine ⟨.bin s, rfl, ?_⟩
    rcases h with ⟨h, rfl⟩ | ⟨h, _⟩ | ⟨h, _⟩
    · left; exact ⟨h, by rw [big1 _ h]; rfl⟩
    · cases h
    · cases h
  | fp32 f =>
    refine ⟨.fp32 f, rfl, Or.inl ?_⟩
    simp only [MsgPack.ValFormat, big_eq] at h
    exact h
  | fp64 d =>
    refine ⟨Fp.ofDouble d, rfl, ?_⟩
    simp only [MsgPack.ValFormat, big_eq] at h
    have : ∃ x, Fp.ofDouble d = .fp32 x ∨ Fp.ofDouble d = .fp64 d := by
      unfold Fp.ofDouble; split
      · exact ⟨_, Or.inl rfl⟩
      · exact ⟨0, Or.inr rfl⟩
    obtain ⟨x, hx | hx⟩ := this
    · rw [hx]; exact Or.inr ⟨d, hx, h⟩
    · rw [hx]; exact ⟨d, hx, h⟩
  | int t v =>
    simp only [MsgPack.ValFormat, MsgPack.IntFormat, big_eq] at h
    rcases h with ⟨a, c, rfl⟩ | ⟨a, c, rfl⟩ | ⟨a, c, rfl⟩ | ⟨a, c, rfl⟩ | ⟨a, c, rfl⟩ | ⟨a, c, rfl⟩ |
      ⟨a, c, rfl⟩ | ⟨a, c, rfl⟩ | ⟨a, c, rfl⟩ | ⟨a, c, rfl⟩
    · exact ⟨.int .i32 v, ⟨_, rfl, by simp only [IntTy.lo, IntTy.signed, IntTy.bits, if_true]; omega,
        by simp only [IntTy.hi, IntTy.signed, IntTy.bits, if_true]; omega⟩, Or.inl ⟨rfl, a, by omega, rfl⟩⟩
    · exact ⟨.int .i32 v, ⟨_, rfl, by simp only [IntTy.lo, IntTy.signed, IntTy.bits, if_true]; omega,
        by simp only [IntTy.hi, IntTy.signed, IntTy.bits, if_true]; omega⟩, Or.inr (Or.inl ⟨rfl, a, by omega, rfl⟩)⟩
    · have hc : v ≤ IntTy.u8.hi := by simp only [IntTy.hi, IntTy.signed, IntTy.bits, Bool.false_eq_true, if_false]; omega
      refine ⟨.int .u8 v, ⟨_, rfl, a, hc⟩, Or.inr (Or.inr ⟨a, hc, ?_⟩)⟩
      simp only [twos, IntTy.bits]; rw [Int.emod_eq_of_lt a c]; rfl
    · have hc : v ≤ IntTy.u16.hi := by simp only [IntTy.hi, IntTy.signed, IntTy.bits, Bool.false_eq_true, if_false]; omega
      refine ⟨.int .u16 v, ⟨_, rfl, a, hc⟩, Or.inr (Or.inr ⟨a, hc, ?_⟩)⟩
      simp only [twos, IntTy.bits]; rw [Int.emod_eq_of_lt a c]; rfl
    · have hc : v ≤ IntTy.u32.hi := by simp only [IntTy.hi, IntTy.signed, IntTy.bits, Bool.false_eq_true, if_false]; omega
      refine ⟨.int .u32 v, ⟨_, rfl, a, hc⟩, Or.inr (Or.inr ⟨a, hc, ?_⟩)⟩
      simp only [twos, IntTy.bits]; rw [Int.emod_eq_of_lt a c]; rfl
    · have hc : v ≤ IntTy.u64.hi := by simp only [IntTy.hi, IntTy.signed, IntTy.bits, Bool.false_eq_true, if_false]; omega
      refine ⟨.int .u64 v, ⟨_, rfl, a, hc⟩, Or.inr (Or.inr ⟨a, hc, ?_⟩)⟩
      simp only [twos, IntTy.bits]; rw [Int.emod_eq_of_lt a c]; rfl
    · have hc : v ≤ IntTy.i8.hi := by simp only [IntTy.hi, IntTy.signed, IntTy.bits, if_true]; omega
      exact ⟨.int .i8 v, ⟨_, rfl, a, hc⟩, Or.inr (Or.inr ⟨a, hc, rfl⟩)⟩
    · have hc : v ≤ IntTy.i16.hi := by simp only [IntTy.hi, IntTy.signed, IntTy.bits, if_true]; omega
      exact ⟨.int .i16 v, ⟨_, rfl, a, hc⟩, Or.inr (Or.inr ⟨a, hc, rfl⟩)⟩
    · have hc : v ≤ IntTy.i32.hi := by simp only [IntTy.hi, IntTy.signed, IntTy.bits, if_true]; omega
      exact ⟨.int .i32 v, ⟨_, rfl, a, hc⟩, Or.inr (Or.inr ⟨a, hc, rfl⟩)⟩
    · have hc : v ≤ IntTy.i64.hi := by simp only [IntTy.hi, IntTy.signed, IntTy.bits, if_true]; omega
      exact ⟨.int .i64 v, ⟨_, rfl, a, hc⟩, Or.inr (Or.inr ⟨a, hc, rfl⟩)⟩

theorem mpRelL_length {named : Bool} : ∀ {x y : List Item}, MpRelL named x y → x.length = y.length
  | [], [], _ => rfl
  | _ :: x, _ :: y, h => by
    simp only [MpRelL] at h
    simp [mpRelL_length h.2]
  | [], _ :: _, h => by simp [MpRelL] at h
  | _ :: _, [], h => by simp [MpRelL] at h

mutual
theorem mp_item_enc : ∀ (i : Item) (named : Bool) (b : Bytes), MsgPack.Format false named i b →
    ∃ i', MpRel named i i' ∧ Enc false named i' b
  | .val n v, named, b, ⟨k, w, hk, hw, hb⟩ => by
    obtain ⟨v', h1, h2⟩ := val_enc v w hw
    refine ⟨.val (if named then n else []) v', ?_, ?_⟩
    · simp only [MpRel]; exact ⟨fun h => by simp [h], h1⟩
    · simp only [Enc]; exact ⟨k, w, key_enc named n k hk, h2, hb⟩
  | .scope n t kids, named, b, ⟨k, h, w, hk, hh, hw, hb⟩ => by
    obtain ⟨kids', h1, h2⟩ := mp_items_enc kids _ w hw
    refine ⟨.scope (if named then n else []) t kids', ?_, ?_⟩
    · simp only [MpRel]; exact ⟨fun h => by simp [h], trivial, h1⟩
    · simp only [Enc]
      exact ⟨k, h, w, key_enc named n k hk, head_enc t _ h (mpRelL_length h1 ▸ hh), h2, hb⟩
theorem mp_items_enc : ∀ (is : List Item) (named : Bool) (b : Bytes),
    MsgPack.FormatL false named is b → ∃ is', MpRelL named is is' ∧ EncL false named is' b
  | [], named, b, h => ⟨[], by simp [MpRelL], h⟩
  | i :: is, named, b, ⟨b1, b2, h1, h2, hb⟩ => by
    obtain ⟨i', r1, e1⟩ := mp_item_enc i named b1 h1
    obtain ⟨is', r2, e2⟩ := mp_items_enc is named b2 h2
    refine ⟨i' :: is', ?_, ?_⟩
    · simp only [MpRelL]; exact ⟨r1, r2⟩
    · simp only [EncL]; exact ⟨b1, b2, e1, e2, hb⟩
end

mutual
theorem mpRel_depth : ∀ (i i' : Item) (named : Bool), MpRel named i i' → i'.depth = i.depth
  | .val _ _, .val _ _, _, _ => rfl
  | .scope _ t kids, .scope _ _ kids', _, h => by
    simp only [MpRel] at h
    simp only [Item.depth, mpRelL_depth kids kids' _ h.2.2]
  | .val _ _, .scope _ _ _, _, h => by simp [MpRel] at h
  | .scope _ _ _, .val _ _, _, h => by simp [MpRel] at h
theorem mpRelL_depth : ∀ (x y : List Item) (named : Bool), MpRelL named x y →
    Item.depthL y = Item.depthL x
  | [], [], _, _ => rfl
  | i :: x, j :: y, named, h => by
    simp only [MpRelL] at h
    simp only [Item.depthL, mpRel_depth i j named h.1, mpRelL_depth x y named h.2]
  | [], _ :: _, _, h => by simp [MpRelL] at h
  | _ :: _, [], _, h => by simp [MpRelL] at h
end

mutual
private theorem rel_content : ∀ (i i' : Item) (named : Bool) (c c' : Content), MpRel named i i' →
    SameVals Reads named c.1 c'.1 → SameNodesBy Reads named c.2 c'.2 →
      SameVals Reads named (i.addTo c).1 (i'.addTo c').1 ∧
      SameNodesBy Reads named (i.addTo c).2 (i'.addTo c').2
  | .val n v, .val n' v', named, (c1, c2), (d1, d2), h, h1, h2 => by
    simp only [MpRel] at h
    simp only [Item.addTo, SameVals]
    exact ⟨⟨h.1, h.2.reads, h1⟩, h2⟩
  | .scope n t kids, .scope n' t' kids', named, (c1, c2), (d1, d2), h, h1, h2 => by
    simp only [MpRel] at h
    obtain ⟨a, rfl, b⟩ := h
    have := relL_content kids kids' _ b
    simp only [Item.addTo, SameNodesBy, SameNodeBy]
    exact ⟨h1, a, ⟨trivial, this.1, this.2⟩, h2⟩
  | .val _ _, .scope _ _ _, _, _, _, h, _, _ => by simp [MpRel] at h
  | .scope _ _ _, .val _ _, _, _, _, h, _, _ => by simp [MpRel] at h
private theorem relL_content : ∀ (x y : List Item) (named : Bool), MpRelL named x y →
    SameVals Reads named (Item.contentL x).1 (Item.contentL y).1 ∧
    SameNodesBy Reads named (Item.contentL x).2 (Item.contentL y).2
  | [], [], _, _ => by simp [Item.contentL, SameVals, SameNodesBy]
  | i :: x, j :: y, named, h => by
    simp only [MpRelL] at h
    simp only [Item.contentL]
    exact rel_content i j named _ _ h.1 (relL_content x y named h.2).1 (relL_content x y named h.2).2
  | [], _ :: _, _, h => by simp [MpRelL] at h
  | _ :: _, [], _, h => by simp [MpRelL] at h
end

/-- A document as tree: a node keeps the values of a scope apart from the scopes in it. -/
def treeOf (t : ScopeTy) (kids : List Item) : Node :=
  .mk t (Item.contentL kids).1 (Item.contentL kids).2

/-- C40, full statement: every encoding of a document by the MessagePack specification is read as
that document. It fails for lengths of strings and binaries given in two or four bytes
(`msgpack_input_wrong`); what holds: every encoding using neither str 16, str 32, bin 16 nor bin 32,
of a document nested at most 128 levels below its root, is read as that document. -/
theorem msgpack_input_partial (m : Mem) (hm : m.Sane) (name : Bytes) (t : ScopeTy) (kids : List Item)
    (b rest : Bytes) (h : MsgPack.Format false false (.scope name t kids) b)
    (hdepth : Item.depthL kids ≤ 128) :
    ∃ r, load m (b ++ rest) = .ok (r, ([], rest)) ∧ SameNodeBy Reads (treeOf t kids) r.node := by
  obtain ⟨i', h1, h2⟩ := mp_item_enc _ _ _ h
  cases i' with
  | val _ _ => simp [MpRel] at h1
  | scope n' t' kids' =>
    simp only [MpRel] at h1
    obtain ⟨_, rfl, h1⟩ := h1
    have he := emits_item hm _ [] b rest trivial h2
    have hl := fun F hF => load_item (PMsgPack.read m) _ _ _ F _ _ he hF
    have hl := hl (max (_ + 1) (2 * (b ++ rest).length + 1))
      (Nat.lt_of_lt_of_le (Nat.lt_succ_self _) (Nat.le_max_left _ _))
    rw [load_eq_fuel m _ _ (Nat.lt_of_lt_of_le (Nat.lt_succ_self _) (Nat.le_max_right _ _)),
      mpRelL_depth _ _ _ h1, if_pos (by exact hdepth)] at hl
    refine ⟨_, hl, ?_⟩
    simp only [treeOf, SameNodeBy]
    exact ⟨trivial, relL_content _ _ _ h1⟩

/-- `{"a": 200 (uint 16), "b": [-32, 0.5 (double)]}` -/
example : MsgPack.Format false false
    (.scope [] .object [.val (str "a") (.int .u8 200),
      .scope (str "b") .array [.val [] (.int .i8 (-32)), .val [] (.fp64 0x3FE0000000000000)]])
    [0x82, 0xA1, 97, 0xCD, 0, 200, 0xD9, 1, 98, 0x92, 0xE0, 0xCB, 0x3F, 0xE0, 0, 0, 0, 0, 0, 0] := by
  simp only [MsgPack.Format, MsgPack.FormatL, MsgPack.KeyFormat, MsgPack.ValFormat]
  refine ⟨[], [0x82], _, rfl, Or.inl (by decide +kernel),
    ⟨_, _, ⟨[0xA1, 97], [0xCD, 0, 200], Or.inl (by decide +kernel), ?_, rfl⟩,
      ⟨_, _, ⟨[0xD9, 1, 98], [0x92], _, Or.inr (Or.inl (by decide +kernel)), Or.inl (by decide +kernel),
        ⟨_, _, ⟨[], [0xE0], rfl, ?_, rfl⟩, ⟨_, _, ⟨[], _, rfl, rfl, rfl⟩, rfl, rfl⟩, rfl⟩, rfl⟩, rfl, rfl⟩, rfl⟩, ?_⟩
  · right; right; right; left; decide +kernel
  · right; left; decide +kernel
  · decide +kernel

/-- C40 fails: a string of 256 bytes in the format str 16 is taken to have one byte; the document
`[s]` is read as an array holding a string of one byte. -/
theorem msgpack_input_wrong (m : Mem) (hm : m.Sane) (s : Bytes) (hs : s.length = 256) :
    MsgPack.Format true false (.scope [] .array [.val [] (.str s)]) (0x91 :: 0xDA :: 1 :: 0 :: s) ∧
    ∃ x, load m (0x91 :: 0xDA :: 1 :: 0 :: s) = .ok (⟨[], .mk .array [([], .str (s.take 1))] []⟩, x) := by
  constructor
  · simp only [MsgPack.Format, MsgPack.FormatL, MsgPack.KeyFormat, MsgPack.ValFormat]
    refine ⟨[], [0x91], _, rfl, Or.inl ⟨by simp, rfl⟩,
      ⟨_, _, ⟨[], 0xDA :: 1 :: 0 :: s, rfl, Or.inr (Or.inr (Or.inl ⟨rfl, by omega, ?_⟩)), rfl⟩, rfl, rfl⟩, ?_⟩
    · rw [hs]; rfl
    · simp
  · have he : Enc false false (.scope [] .array [.val [] (.str (s.take 1))])
        (0x91 :: 0xDA :: 1 :: 0 :: s.take 1) := by
      simp only [Enc, EncL, EncVal, EncKey]
      refine ⟨[], [0x91], _, ⟨trivial, rfl⟩, Or.inl ⟨by simp, rfl⟩,
        ⟨_, _, ⟨[], 0xDA :: 1 :: 0 :: s.take 1, ⟨trivial, rfl⟩, Or.inr (Or.inr (Or.inl ⟨?_, ?_⟩)), rfl⟩, rfl, rfl⟩, ?_⟩
      · simp [hs]
      · simp [hs, lenBytes, leBytes]
      · simp
    have := load_enc hm (.mk .array [([], .str (s.take 1))] []) _ (s.drop 1) he
    rw [if_pos (by simp [Node.depth, Node.depthL])] at this
    refine ⟨([], s.drop 1), ?_⟩
    simp only [List.cons_append, List.take_append_drop] at this
    exact this

/-- C40 fails: the reserved byte `C1` is read as −31. -/
theorem msgpack_reserved_accepted : ∃ x,
    load ⟨none, 0⟩ [0x91, 0xC1] = .ok (⟨[], .mk .array [([], .int .i32 (-31))] []⟩, x) :=
  ⟨([], []), rfl⟩

/-- C40: extension types are rejected, wherever a value may stand in an array. -/
theorem msgpack_ext_rejected (m : Mem) (hm : m.Sane) (k : Nat) (stack : List RScope) (p : UInt8)
    (s : Bytes) (hp : (0xC7 ≤ p ∧ p ≤ 0xC9) ∨ (0xD4 ≤ p ∧ p ≤ 0xD8)) :
    PMsgPack.read m (⟨.array, k + 1⟩ :: stack, p :: s) = .err := by
  have key : ∀ p : UInt8, ((0xC7 ≤ p ∧ p ≤ 0xC9) ∨ (0xD4 ≤ p ∧ p ≤ 0xD8)) →
      isScope p = false ∧ isStr p = false ∧ isScalar p = false ∧ isBin p = false := by decide +kernel
  obtain ⟨h1, h2, h3, h4⟩ := key p hp
  simp only [PMsgPack.read]
  rw [if_neg (by omega), readItem_cons hm]
  simp [readPrefixed, h1, h2, h3, h4]

end Srl.Props
