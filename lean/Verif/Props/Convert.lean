import Verif.Props.PSrl
import Verif.Props.PMsgPack

/-! # C48 – conversion between the binary formats -/

namespace Srl.Props

/-- A format: saving a tree under a name, and loading it from a memory source. -/
structure Codec where
  save : Bytes → Node → Res Bytes
  load : Mem → Bytes → Res Root

/-- The Srl format. -/
def srlCodec : Codec :=
  ⟨PSrl.save, fun m s => do let (r, _) ← PSrl.load m s; .ok r⟩

/-- MessagePack. -/
def msgpackCodec : Codec :=
  ⟨PMsgPack.save, fun m s => do let (r, _) ← PMsgPack.load m s; .ok r⟩

mutual
/-- Number of tokens of a node. -/
def size : Node → Nat
  | .mk _ vs ns => vs.length + sizeL ns + 2
def sizeL : List (Bytes × Node) → Nat
  | [] => 0
  | (_, n) :: ns => size n + sizeL ns
end

/-- Values every binary format can carry: integers in the range of their type (not `INT64_MIN`,
which the Srl format cannot write), doubles as `Value` keeps them, blocks below 4 GiB. -/
def ValFits : Val → Prop
  | .int t v => t.lo ≤ v ∧ v ≤ t.hi ∧ v ≠ -(2 ^ 63 : Nat)
  | .fp64 d => Fp.ofDouble d = .fp64 d
  | .str s => s.length < 2 ^ 32
  | .bin s => s.length < 2 ^ 32
  | _ => True

mutual
/-- Trees every binary format can carry. -/
def Fits : Node → Prop
  | .mk _ vs ns => vs.length + ns.length < 2 ^ 32 ∧
      (∀ p ∈ vs, p.1.length < 2 ^ 32 ∧ ValFits p.2) ∧ FitsL ns
def FitsL : List (Bytes × Node) → Prop
  | [] => True
  | (name, n) :: ns => name.length < 2 ^ 32 ∧ Fits n ∧ FitsL ns
end

private theorem valFits_srl {v : Val} (h : ValFits v) : PSrl.ValOk v := by
  cases v <;> exact h

private theorem valFits_mp {v : Val} (h : ValFits v) : PMsgPack.ValOk v := by
  cases v <;> first | exact h | exact ⟨h.1, h.2.1⟩

mutual
private theorem fits_srl : ∀ n : Node, Fits n → PSrl.NodeOk n
  | .mk t vs ns, ⟨_, h1, h2⟩ => by
    simp only [PSrl.NodeOk]
    exact ⟨fun p hp => ⟨(h1 p hp).1, valFits_srl (h1 p hp).2⟩, fitsL_srl ns h2⟩
private theorem fitsL_srl : ∀ ns : List (Bytes × Node), FitsL ns → PSrl.NodesOk ns
  | [], _ => by simp [PSrl.NodesOk]
  | (name, n) :: ns, ⟨h1, h2, h3⟩ => by
    simp only [PSrl.NodesOk]
    exact ⟨h1, fits_srl n h2, fitsL_srl ns h3⟩
end

mutual
private theorem fits_mp : ∀ n : Node, Fits n → PMsgPack.NodeOk n
  | .mk t vs ns, ⟨h0, h1, h2⟩ => by
    simp only [PMsgPack.NodeOk]
    exact ⟨h0, fun p hp => ⟨(h1 p hp).1, valFits_mp (h1 p hp).2⟩, fitsL_mp ns h2⟩
private theorem fitsL_mp : ∀ ns : List (Bytes × Node), FitsL ns → PMsgPack.NodesOk ns
  | [], _ => by simp [PMsgPack.NodesOk]
  | (name, n) :: ns, ⟨h1, h2, h3⟩ => by
    simp only [PMsgPack.NodesOk]
    exact ⟨h1, fits_mp n h2, fitsL_mp ns h3⟩
end

private theorem length_nodes (nv : Val → Val) (b : Bool) (ns : List (Bytes × Node)) :
    (Norm.nodes nv b ns).length = ns.length := by
  induction ns with
  | nil => rfl
  | cons p ns ih => obtain ⟨n, x⟩ := p; simp [Norm.nodes, ih]

mutual
private theorem fits_norm (nv : Val → Val) (hv : ∀ v, ValFits v → ValFits (nv v)) :
    ∀ n : Node, Fits n → Fits (Norm.node nv n)
  | .mk t vs ns, ⟨h0, h1, h2⟩ => by
    simp only [Norm.node, Fits, List.length_map, length_nodes]
    refine ⟨h0, ?_, fitsL_norm nv hv _ ns h2⟩
    intro p hp
    obtain ⟨q, hq, rfl⟩ := List.mem_map.mp hp
    have := h1 q hq
    refine ⟨?_, hv _ this.2⟩
    simp only
    split
    · exact this.1
    · simp
private theorem fitsL_norm (nv : Val → Val) (hv : ∀ v, ValFits v → ValFits (nv v)) :
    ∀ (b : Bool) (ns : List (Bytes × Node)), FitsL ns → FitsL (Norm.nodes nv b ns)
  | _, [], _ => by simp [Norm.nodes, FitsL]
  | b, (name, n) :: ns, ⟨h1, h2, h3⟩ => by
    simp only [Norm.nodes, FitsL]
    refine ⟨?_, fits_norm nv hv n h2, fitsL_norm nv hv b ns h3⟩
    split
    · exact h1
    · simp
end

mutual
private theorem size_norm (nv : Val → Val) : ∀ n : Node, size (Norm.node nv n) = size n
  | .mk t vs ns => by simp only [Norm.node, size, List.length_map, sizeL_norm nv _ ns]
private theorem sizeL_norm (nv : Val → Val) : ∀ (b : Bool) (ns : List (Bytes × Node)),
    sizeL (Norm.nodes nv b ns) = sizeL ns
  | _, [] => rfl
  | b, (_, n) :: ns => by simp only [Norm.nodes, sizeL, size_norm nv n, sizeL_norm nv b ns]
end

mutual
private theorem size_events : ∀ (name : Bytes) (n : Node), (n.events name).length = size n
  | name, .mk t vs ns => by
    simp only [Node.events, size, List.length_cons, List.length_append, List.length_map,
      sizeL_events ns, List.length_nil]
private theorem sizeL_events : ∀ (ns : List (Bytes × Node)), (Node.eventsL ns).length = sizeL ns
  | [] => rfl
  | (name, n) :: ns => by
    simp only [Node.eventsL, sizeL, List.length_append, size_events name n, sizeL_events ns]
end

private theorem srl_fits {v : Val} (h : ValFits v) : ValFits (PSrl.normVal v) := by
  cases v with
  | int t v =>
    obtain ⟨h1, h2, h3⟩ := h
    have ha := PSrl.IntTy.lo_ge t
    have hb := PSrl.IntTy.hi_lt t
    simp only [PSrl.normVal, ValFits]
    refine ⟨?_, ?_, h3⟩
    · split
      · simp only [IntTy.lo, IntTy.signed, IntTy.bits, if_true]; omega
      · simp only [IntTy.lo, IntTy.signed, Bool.false_eq_true, if_false]; omega
    · split
      · simp only [IntTy.hi, IntTy.signed, IntTy.bits, if_true]; omega
      · simp only [IntTy.hi, IntTy.signed, IntTy.bits, Bool.false_eq_true, if_false]; omega
  | _ => exact h

private theorem mp_fits {v : Val} (h : ValFits v) : ValFits (PMsgPack.normVal v) := by
  cases v with
  | int t v =>
    obtain ⟨h1, h2, h3⟩ := h
    simp only [PMsgPack.normVal, ValFits]
    split
    · refine ⟨?_, ?_, h3⟩
      · simp only [IntTy.lo, IntTy.signed, IntTy.bits, if_true]; omega
      · simp only [IntTy.hi, IntTy.signed, IntTy.bits, if_true]; omega
    · exact ⟨h1, h2, h3⟩
  | _ => exact h

/-- What is needed of a format: a fitting tree is saved and comes back as the same document, again
fitting. -/
private def Good (c : Codec) : Prop :=
  ∀ (m : Mem), m.Sane → ∀ (name : Bytes) (n : Node), name.length < 2 ^ 32 → Fits n →
    size n < 2 ^ 64 → n.depth ≤ 128 →
    ∃ bs r, c.save name n = .ok bs ∧ c.load m bs = .ok r ∧ SameNode n r.node ∧ Fits r.node ∧
      size r.node = size n ∧ r.node.depth = n.depth ∧ r.name = []

private theorem good_srl : Good srlCodec := by
  intro m hm name n hname hn hsize hd
  obtain ⟨bs, h1, h2⟩ := PSrl.save_load hm name n hname (fits_srl n hn) (by rw [size_events]; exact hsize)
  obtain ⟨st, h3⟩ := h2 []
  rw [List.append_nil, if_pos (by exact hd), PSrl.normNode_eq] at h3
  refine ⟨bs, ⟨[], Norm.node PSrl.normVal n⟩, h1, ?_, ?_, ?_, size_norm _ n, Norm.depth_node _ n, rfl⟩
  · simp [srlCodec, h3]
  · exact sameNode_norm SameVal _ (fun v => by cases v <;> simp [SameVal, PSrl.normVal]) n
  · exact fits_norm _ (fun _ h => srl_fits h) n hn

private theorem good_msgpack : Good msgpackCodec := by
  intro m hm name n hname hn hsize hd
  obtain ⟨bs, h1, h2⟩ := PMsgPack.save_enc name n hname (fits_mp n hn)
  have h3 := PMsgPack.load_enc hm _ _ [] h2
  rw [List.append_nil, Norm.depth_node, if_pos (by exact hd)] at h3
  refine ⟨bs, ⟨[], Norm.node PMsgPack.normVal n⟩, h1, ?_, ?_, ?_, size_norm _ n, Norm.depth_node _ n, rfl⟩
  · simp [msgpackCodec, h3]
  · exact sameNode_norm SameVal _ (fun v => by cases v <;> simp [SameVal, PMsgPack.normVal]) n
  · exact fits_norm _ (fun _ h => mp_fits h) n hn

/-- C48: a document saved in a binary format, loaded, saved in a binary format and loaded again is
the same document, for every choice of the two formats. -/
theorem convert_formats (a b : Codec) (ha : a = srlCodec ∨ a = msgpackCodec)
    (hb : b = srlCodec ∨ b = msgpackCodec) (m m' : Mem) (hm : m.Sane) (hm' : m'.Sane)
    (name : Bytes) (n : Node) (hname : name.length < 2 ^ 32) (hn : Fits n) (hsize : size n < 2 ^ 64)
    (hdepth : n.depth ≤ 128) :
    ∃ bs r bs' r', a.save name n = .ok bs ∧ a.load m bs = .ok r ∧
      b.save r.name r.node = .ok bs' ∧ b.load m' bs' = .ok r' ∧ SameNode n r'.node := by
  have ga : Good a := by rcases ha with rfl | rfl; exact good_srl; exact good_msgpack
  have gb : Good b := by rcases hb with rfl | rfl; exact good_srl; exact good_msgpack
  obtain ⟨bs, r, h1, h2, h3, h4, h5, h6, h7⟩ := ga m hm name n hname hn hsize hdepth
  obtain ⟨bs', r', k1, k2, k3, _⟩ := gb m' hm' r.name r.node (by rw [h7]; simp) h4 (by omega) (by omega)
  exact ⟨bs, r, bs', r', h1, h2, k1, k2, h3.trans k3⟩

example : Fits sampleNode ∧ size sampleNode < 2 ^ 64 ∧ sampleNode.depth ≤ 128 := by
  refine ⟨?_, by decide +kernel, by decide +kernel⟩
  simp only [sampleNode, Fits, FitsL, List.forall_mem_cons, ValFits]
  refine ⟨?_, ⟨?_, ?_, ?_, ?_⟩, ?_, ⟨?_, ⟨?_, ?_, ?_, ?_⟩, trivial⟩, ?_, ⟨?_, ⟨?_, ?_, ?_⟩, trivial⟩, trivial⟩ <;>
    first
      | decide +kernel
      | trivial
      | (intro p hp; cases hp)

end Srl.Props
