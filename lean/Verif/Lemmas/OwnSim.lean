import Verif.Lemmas.Own

/-! # Programs on trees do what they do on content -/

namespace Srl.Own
open Mem
open Spec (World empty slice)

/-! ## Nodes by position -/

theorem nodes_get {m : Mem} {e g : Nat} : ∀ {ns : List PNode} {xs : List ANode}, OwnNodes e g ns →
    m.viewNodes ns = .ok xs → ∀ i : Nat, (ns[i]? = none ∧ xs[i]? = none) ∨
      ∃ c y, ns[i]? = some c ∧ xs[i]? = some y ∧ Good m e g c y ∧ c.name ≠ .null
  | [], xs, _, h, i => by
    simp only [viewNodes] at h; cases h; simp
  | n :: ns, xs, o, h, i => by
    simp only [viewNodes, Res.bind_eq_ok] at h
    obtain ⟨a, ha, as, has, he⟩ := h
    cases he
    cases i with
    | zero => exact .inr ⟨n, a, rfl, rfl, ⟨o.1.1, ha⟩, o.1.2⟩
    | succ i => simpa using nodes_get o.2 has i

theorem nodes_set {m : Mem} {e g : Nat} : ∀ {ns : List PNode} {xs : List ANode}, OwnNodes e g ns →
    m.viewNodes ns = .ok xs → ∀ i {c y}, Good m e g c y → c.name ≠ .null →
    OwnNodes e g (ns.set i c) ∧ m.viewNodes (ns.set i c) = .ok (xs.set i y)
  | [], xs, _, h, i, c, y, _, _ => by
    simp only [viewNodes] at h; cases h; exact ⟨trivial, rfl⟩
  | n :: ns, xs, o, h, i, c, y, hc, hz => by
    simp only [viewNodes, Res.bind_eq_ok] at h
    obtain ⟨a, ha, as, has, he⟩ := h
    cases he
    cases i with
    | zero =>
      refine ⟨⟨⟨hc.1, hz⟩, o.2⟩, ?_⟩
      simp [viewNodes, hc.2, has]
    | succ i =>
      obtain ⟨h1, h2⟩ := nodes_set o.2 has i hc hz
      refine ⟨⟨o.1, h1⟩, ?_⟩
      simp [viewNodes, ha, h2]

theorem nodes_append {m : Mem} {e g : Nat} : ∀ {ns : List PNode} {xs : List ANode}, OwnNodes e g ns →
    m.viewNodes ns = .ok xs → ∀ {c y}, Good m e g c y → c.name ≠ .null →
    OwnNodes e g (ns ++ [c]) ∧ m.viewNodes (ns ++ [c]) = .ok (xs ++ [y])
  | [], xs, _, h, c, y, hc, hz => by
    simp only [viewNodes] at h; cases h
    exact ⟨⟨⟨hc.1, hz⟩, trivial⟩, by simp [viewNodes, hc.2]⟩
  | n :: ns, xs, o, h, c, y, hc, hz => by
    simp only [viewNodes, Res.bind_eq_ok] at h
    obtain ⟨a, ha, as, has, he⟩ := h
    cases he
    obtain ⟨h1, h2⟩ := nodes_append o.2 has hc hz
    exact ⟨⟨o.1, h1⟩, by simp [viewNodes, ha, h2]⟩

theorem nodes_erase {m : Mem} {e g : Nat} : ∀ {ns : List PNode} {xs : List ANode}, OwnNodes e g ns →
    m.viewNodes ns = .ok xs → ∀ i,
    OwnNodes e g (ns.eraseIdx i) ∧ m.viewNodes (ns.eraseIdx i) = .ok (xs.eraseIdx i)
  | [], xs, _, h, i => by
    simp only [viewNodes] at h; cases h; exact ⟨trivial, rfl⟩
  | n :: ns, xs, o, h, i => by
    simp only [viewNodes, Res.bind_eq_ok] at h
    obtain ⟨a, ha, as, has, he⟩ := h
    cases he
    cases i with
    | zero => exact ⟨o.2, has⟩
    | succ i =>
      obtain ⟨h1, h2⟩ := nodes_erase o.2 has i
      exact ⟨⟨o.1, h1⟩, by simp [viewNodes, ha, h2]⟩

theorem values_get {m : Mem} {e g : Nat} : ∀ {vs : List PVal} {xs}, (∀ v ∈ vs, OwnVal e g v) →
    m.viewValues vs = .ok xs → ∀ i : Nat, (vs[i]? = none ∧ xs[i]? = none) ∨
      ∃ v d x, vs[i]? = some v ∧ xs[i]? = some (d, v.kind, x) ∧ OwnVal e g v ∧ m.nameOf v.name = .ok d ∧
        m.read v.block = .ok x
  | [], xs, _, h, i => by
    simp only [viewValues] at h; cases h; simp
  | v :: vs, xs, o, h, i => by
    simp only [viewValues, Res.bind_eq_ok] at h
    obtain ⟨n, hn, d, hd, r, hr, he⟩ := h
    cases he
    cases i with
    | zero => exact .inr ⟨v, n, d, rfl, rfl, o v (by simp), hn, hd⟩
    | succ i => simpa using values_get (fun w hw => o w (by simp [hw])) hr i

theorem values_append {m : Mem} {e g : Nat} : ∀ {vs : List PVal} {xs}, (∀ v ∈ vs, OwnVal e g v) →
    m.viewValues vs = .ok xs → ∀ {w d x}, OwnVal e g w → m.nameOf w.name = .ok d → m.read w.block = .ok x →
    (∀ v ∈ vs ++ [w], OwnVal e g v) ∧ m.viewValues (vs ++ [w]) = .ok (xs ++ [(d, w.kind, x)])
  | [], xs, _, h, w, d, x, ow, hd, hx => by
    simp only [viewValues] at h; cases h
    exact ⟨by simpa using ow, by simp [viewValues, hd, hx]⟩
  | v :: vs, xs, o, h, w, d, x, ow, hd, hx => by
    simp only [viewValues, Res.bind_eq_ok] at h
    obtain ⟨n, hn, y, hy, r, hr, he⟩ := h
    cases he
    obtain ⟨h1, h2⟩ := values_append (fun w hw => o w (by simp [hw])) hr ow hd hx
    refine ⟨?_, by simp [viewValues, hn, hy, h2]⟩
    intro u hu
    rcases List.mem_cons.1 hu with rfl | hu
    · exact o u (by simp)
    · exact h1 u hu

theorem values_erase {m : Mem} : ∀ {vs : List PVal} {xs}, m.viewValues vs = .ok xs → ∀ i,
    m.viewValues (vs.eraseIdx i) = .ok (xs.eraseIdx i)
  | [], xs, h, i => by
    simp only [viewValues] at h; cases h; rfl
  | v :: vs, xs, h, i => by
    simp only [viewValues, Res.bind_eq_ok] at h
    obtain ⟨n, hn, y, hy, r, hr, he⟩ := h
    cases he
    cases i with
    | zero => exact hr
    | succ i => simp [viewValues, hn, hy, values_erase hr i]

theorem good_mk {m : Mem} {e g e' g' : Nat} {t : ScopeTy} {nm : NameRef} {vs : List PVal} {ns : List PNode}
    {x : ANode} : Good m e g (.mk e' g' t nm vs ns) x ↔ ∃ d ys zs, x = .mk t d ys zs ∧ e' = e ∧ g' = g ∧
      Live m e g ∧ OwnName e g nm ∧ m.nameOf nm = .ok d ∧ (∀ v ∈ vs, OwnVal e g v) ∧ m.viewValues vs = .ok ys ∧
      OwnNodes e g ns ∧ m.viewNodes ns = .ok zs := by
  constructor
  · intro h
    have hl := view_live h
    obtain ⟨⟨rfl, rfl, on, ov, os⟩, hx⟩ := h
    simp only [view, Res.bind_eq_ok] at hx
    obtain ⟨v, hv, n, hn, ys, hys, zs, hzs, he⟩ := hx
    cases he
    exact ⟨n, ys, zs, rfl, rfl, rfl, hl, on, hn, ov, hys, os, hzs⟩
  · rintro ⟨d, ys, zs, rfl, rfl, rfl, ⟨v, hv, hg⟩, on, hn, ov, hys, os, hzs⟩
    refine ⟨⟨rfl, rfl, on, ov, os⟩, ?_⟩
    simp [view, envAt_eq.2 ⟨hv, hg⟩, hn, hys, hzs]

theorem Good.at {m : Mem} {e g : Nat} : ∀ (p : List Nat) {n : PNode} {x : ANode}, Good m e g n x →
    (n.at? p = none ∧ x.at? p = none) ∨ ∃ c y, n.at? p = some c ∧ x.at? p = some y ∧ Good m e g c y
  | [], n, x, h => .inr ⟨n, x, rfl, rfl, h⟩
  | i :: p, .mk e' g' t nm vs ns, x, h => by
    obtain ⟨d, ys, zs, rfl, rfl, rfl, hl, on, hn, ov, hys, os, hzs⟩ := good_mk.1 h
    simp only [PNode.at?, ANode.at?, PNode.nodes, ANode.nodes]
    rcases nodes_get os hzs i with ⟨h1, h2⟩ | ⟨c, y, h1, h2, hc, _⟩
    · exact .inl ⟨by rw [h1], by rw [h2]⟩
    · rw [h1, h2]; exact Good.at p hc

theorem Good.at_name {m : Mem} {e g : Nat} : ∀ (p : List Nat) {n : PNode} {x : ANode} {c : PNode},
    Good m e g n x → n.at? p = some c → (p = [] → n.name ≠ .null) → c.name ≠ .null
  | [], n, x, c, h, hc, hz => by cases hc; exact hz rfl
  | i :: p, .mk e' g' t nm vs ns, x, c, h, hc, hz => by
    obtain ⟨d, ys, zs, rfl, rfl, rfl, hl, on, hn, ov, hys, os, hzs⟩ := good_mk.1 h
    simp only [PNode.at?, PNode.nodes] at hc
    rcases nodes_get os hzs i with ⟨h1, h2⟩ | ⟨c', y, h1, h2, h3, h4⟩
    · rw [h1] at hc; cases hc
    · rw [h1] at hc; exact Good.at_name p h3 hc (fun _ => h4)

theorem update_name {f : PNode → PNode} (hf : ∀ c, (f c).name = c.name) :
    ∀ (p : List Nat) (n : PNode), (n.update f p).name = n.name
  | [], n => hf n
  | i :: p, .mk e g t nm vs ns => by
    simp only [PNode.update]
    split <;> rfl

theorem Good.update {m : Mem} {e g : Nat} {f : PNode → PNode} {f' : ANode → ANode}
    (hf' : ∀ c, (f c).name = c.name) :
    ∀ (p : List Nat) {n : PNode} {x : ANode} {c : PNode} {y : ANode}, Good m e g n x → n.at? p = some c →
    x.at? p = some y → Good m e g (f c) (f' y) → Good m e g (n.update f p) (x.update f' p)
  | [], n, x, c, y, h, h1, h2, hf => by
    cases h1; cases h2; exact hf
  | i :: p, .mk e' g' t nm vs ns, x, c, y, h, h1, h2, hf => by
    obtain ⟨d, ys, zs, rfl, rfl, rfl, hl, on, hn, ov, hys, os, hzs⟩ := good_mk.1 h
    simp only [PNode.at?, ANode.at?, PNode.nodes, ANode.nodes] at h1 h2
    rcases nodes_get os hzs i with ⟨h3, h4⟩ | ⟨c', y', h3, h4, hc, hz⟩
    · rw [h3] at h1; cases h1
    · rw [h3] at h1; rw [h4] at h2
      have ih := Good.update hf' p hc h1 h2 hf
      simp only [PNode.update, ANode.update, h3, h4]
      obtain ⟨h5, h6⟩ := nodes_set os hzs i ih (by rw [update_name hf']; exact hz)
      exact (good_mk (t := t)).2 ⟨d, ys, _, rfl, rfl, rfl, hl, on, hn, ov, hys, h5, h6⟩

theorem Good.addValue {m : Mem} {e g : Nat} {n : PNode} {x : ANode} (h : Good m e g n x) {w : PVal} {d c : Bytes}
    (ow : OwnVal e g w) (hd : m.nameOf w.name = .ok d) (hc : m.read w.block = .ok c) :
    Good m e g (n.addValue w) (x.addValue (d, w.kind, c)) := by
  cases n with
  | mk e' g' t nm vs ns =>
    obtain ⟨nd, ys, zs, rfl, rfl, rfl, hl, on, hn, ov, hys, os, hzs⟩ := good_mk.1 h
    obtain ⟨h1, h2⟩ := values_append ov hys ow hd hc
    exact (good_mk (t := t)).2 ⟨nd, _, zs, rfl, rfl, rfl, hl, on, hn, h1, h2, os, hzs⟩

theorem Good.addNode {m : Mem} {e g : Nat} {n c : PNode} {x y : ANode} (h : Good m e g n x)
    (hc : Good m e g c y) (hz : c.name ≠ .null) : Good m e g (PNode.addNode c n) (ANode.addNode y x) := by
  cases n with
  | mk e' g' t nm vs ns =>
    obtain ⟨nd, ys, zs, rfl, rfl, rfl, hl, on, hn, ov, hys, os, hzs⟩ := good_mk.1 h
    obtain ⟨h1, h2⟩ := nodes_append os hzs hc hz
    simp only [PNode.addNode, ANode.addNode]
    exact (good_mk (t := t)).2 ⟨nd, ys, _, rfl, rfl, rfl, hl, on, hn, ov, hys, h1, h2⟩

theorem Good.dropNode {m : Mem} {e g : Nat} {n : PNode} {x : ANode} (h : Good m e g n x) (i : Nat) :
    Good m e g (dropNode i n) (x.dropNode i) := by
  cases n with
  | mk e' g' t nm vs ns =>
    obtain ⟨nd, ys, zs, rfl, rfl, rfl, hl, on, hn, ov, hys, os, hzs⟩ := good_mk.1 h
    obtain ⟨h1, h2⟩ := nodes_erase os hzs i
    exact (good_mk (t := t)).2 ⟨nd, ys, _, rfl, rfl, rfl, hl, on, hn, ov, hys, h1, h2⟩

theorem Good.dropValue {m : Mem} {e g : Nat} {n : PNode} {x : ANode} (h : Good m e g n x) (i : Nat) :
    Good m e g (dropValue i n) (x.dropValue i) := by
  cases n with
  | mk e' g' t nm vs ns =>
    obtain ⟨nd, ys, zs, rfl, rfl, rfl, hl, on, hn, ov, hys, os, hzs⟩ := good_mk.1 h
    exact (good_mk (t := t)).2 ⟨nd, _, zs, rfl, rfl, rfl, hl, on, hn,
      fun v hv => ov v (List.mem_of_mem_eraseIdx hv), values_erase hys i, os, hzs⟩

theorem Good.env {m : Mem} {e g : Nat} {n : PNode} {x : ANode} (h : Good m e g n x) :
    n.env = e ∧ n.gen = g ∧ n.type = x.type := by
  cases n with
  | mk e' g' t nm vs ns =>
    obtain ⟨nd, ys, zs, rfl, rfl, rfl, _⟩ := good_mk.1 h
    exact ⟨rfl, rfl, rfl⟩

theorem Good.name {m : Mem} {e g : Nat} {n : PNode} {x : ANode} (h : Good m e g n x) :
    m.nameOf n.name = .ok x.name := by
  cases n with
  | mk e' g' t nm vs ns =>
    obtain ⟨nd, ys, zs, rfl, rfl, rfl, _, _, hn, _⟩ := good_mk.1 h
    exact hn

theorem Good.value {m : Mem} {e g : Nat} {n : PNode} {x : ANode} (h : Good m e g n x) (i : Nat) :
    (n.values[i]? = none ∧ x.values[i]? = none) ∨ ∃ v d c, n.values[i]? = some v ∧
      x.values[i]? = some (d, v.kind, c) ∧ OwnVal e g v ∧ m.read v.block = .ok c := by
  cases n with
  | mk e' g' t nm vs ns =>
    obtain ⟨nd, ys, zs, rfl, rfl, rfl, hl, on, hn, ov, hys, os, hzs⟩ := good_mk.1 h
    rcases values_get ov hys i with h | ⟨v, d, x, h1, h2, h3, _, h4⟩
    · exact .inl h
    · exact .inr ⟨v, d, x, h1, h2, h3, h4⟩

theorem addValue_name (v : PVal) (n : PNode) : (n.addValue v).name = n.name := by cases n; rfl
theorem addNode_name (c n : PNode) : (PNode.addNode c n).name = n.name := by cases n; rfl
theorem dropNode_name (i : Nat) (n : PNode) : (Own.dropNode i n).name = n.name := by cases n; rfl
theorem dropValue_name (i : Nat) (n : PNode) : (Own.dropValue i n).name = n.name := by cases n; rfl

mutual
theorem save_ok {m : Mem} {e g : Nat} : ∀ {n : PNode} {x : ANode}, Good m e g n x → n.name ≠ .null →
    m.save n = .ok x
  | .mk e' g' t nm vs ns, x, h, hz => by
    obtain ⟨d, ys, zs, rfl, rfl, rfl, ⟨v, hv, hg⟩, on, hn, ov, hys, os, hzs⟩ := good_mk.1 h
    have hz : nm ≠ .null := hz
    simp [save, envAt_eq.2 ⟨hv, hg⟩, hn, hys, saveNodes_ok os hzs, hz]
theorem saveNodes_ok {m : Mem} {e g : Nat} : ∀ {ns : List PNode} {xs : List ANode}, OwnNodes e g ns →
    m.viewNodes ns = .ok xs → m.saveNodes ns = .ok xs
  | [], xs, _, h => h
  | n :: ns, xs, o, h => by
    simp only [viewNodes, Res.bind_eq_ok] at h
    obtain ⟨a, ha, as, has, he⟩ := h
    cases he
    simp [saveNodes, save_ok ⟨o.1.1, ha⟩ o.1.2, saveNodes_ok o.2 has]
end

/-! ## Loading -/

/-- Like `Ext`, the memory of the parser aside. -/
structure Grow (m m' : Mem) : Prop where
  bufs : m'.bufs = m.bufs
  keeps : ∀ e, Keeps m m' e

theorem Ext.grow {m m' : Mem} (x : Ext m m') : Grow m m' := ⟨x.bufs, x.keeps⟩
theorem Grow.refl (m : Mem) : Grow m m := ⟨rfl, Keeps.refl m⟩
theorem Grow.trans {m m' m'' : Mem} (a : Grow m m') (b : Grow m' m'') : Grow m m'' :=
  ⟨b.bufs.trans a.bufs, fun e => (a.keeps e).trans (b.keeps e)⟩

/-- The pointer does not lead to memory of the parser. -/
def NotParser : Block → Prop
  | .ext .parserName _ _ => False
  | .ext .parserValue _ _ => False
  | _ => True

theorem Grow.read {m m' : Mem} (x : Grow m m') {b : Block} (hb : NotParser b) {d : Bytes}
    (h : m.read b = .ok d) : m'.read b = .ok d := by
  cases b with
  | loc c => exact h
  | ext p off len =>
    refine read_mono (fun c hc => ?_) h
    cases p with
    | buf b => simpa [Mem.get, x.bufs] using hc
    | parserName => exact hb.elim
    | parserValue => exact hb.elim
    | heap e g i => exact (x.keeps e).heap hc
    | link e g c =>
      simp only [Mem.get, Res.bind_eq_ok] at hc ⊢
      obtain ⟨v, hv, hd⟩ := hc
      obtain ⟨v', hv', _⟩ := (x.keeps e).envAt hv
      exact ⟨v', hv', hd⟩

theorem slice_eq {d c : Bytes} {o l : Nat} : slice d o l = some c ↔ o + l ≤ d.length ∧ c = (d.drop o).take l := by
  unfold slice
  by_cases h : o + l ≤ d.length
  · rw [if_pos h]; simp [h, eq_comm]
  · rw [if_neg h]; simp [h]

theorem read_part {m : Mem} {b : Block} {d c : Bytes} {o l : Nat} (h : m.read b = .ok d)
    (hc : slice d o l = some c) : m.read (part b o l) = .ok c := by
  obtain ⟨hl, rfl⟩ := slice_eq.1 hc
  cases b with
  | loc x =>
    have : x = d := by simpa [Mem.read] using h
    subst this; rfl
  | ext p off len =>
    have hlen := read_length h
    simp only [part, Mem.read] at h ⊢
    by_cases h0 : l = 0
    · rw [if_pos h0]; simp [h0]
    · rw [if_neg h0]
      rw [if_neg (by omega), Res.bind_eq_ok] at h
      obtain ⟨D, hD, hd⟩ := h
      rw [hD, Res.ok_bind]
      by_cases hb : off + len ≤ D.length
      · rw [if_pos hb] at hd
        cases hd
        rw [if_pos (by omega), List.drop_take, List.take_take, List.drop_drop]
        congr 2
        omega
      · rw [if_neg hb] at hd; cases hd

theorem notParser_part {b : Block} (h : NotParser b) (o l : Nat) : NotParser (part b o l) := by
  cases b with
  | loc d => trivial
  | ext p off len => cases p <;> first | exact h.elim | trivial

theorem grow_pname (m : Mem) (x : Option Bytes) : Grow m { m with pname := x } :=
  ⟨rfl, fun e => Keeps.of_envs rfl e⟩
theorem grow_pval (m : Mem) (x : Option Bytes) : Grow m { m with pval := x } :=
  ⟨rfl, fun e => Keeps.of_envs rfl e⟩

theorem nameBlock_ok {m : Mem} {src : Block} {d c : Bytes} (hs : m.read src = .ok d)
    {p : Piece} (hp : Spec.piece d p = some c) :
    Grow m (m.nameBlock src p).2 ∧ (m.nameBlock src p).2.read (m.nameBlock src p).1 = .ok c := by
  cases p with
  | src o l => exact ⟨Grow.refl m, read_part hs hp⟩
  | scratch x =>
    cases hp
    refine ⟨grow_pname m _, ?_⟩
    by_cases h : c.length = 0
    · simp [nameBlock, Mem.read, List.eq_nil_of_length_eq_zero h]
    · have : c ≠ [] := fun hc => h (by simp [hc])
      simp [nameBlock, Mem.read, this, Mem.get, orUb]
  | num x => cases hp; exact ⟨Grow.refl m, rfl⟩

theorem valueBlock_ok {m : Mem} {src : Block} {d c : Bytes} (hs : m.read src = .ok d)
    {p : Piece} (hp : Spec.piece d p = some c) :
    Grow m (m.valueBlock src p).2 ∧ (m.valueBlock src p).2.read (m.valueBlock src p).1 = .ok c := by
  cases p with
  | src o l => exact ⟨Grow.refl m, read_part hs hp⟩
  | scratch x =>
    cases hp
    refine ⟨grow_pval m _, ?_⟩
    by_cases h : c.length = 0
    · simp [valueBlock, Mem.read, List.eq_nil_of_length_eq_zero h]
    · have : c ≠ [] := fun hc => h (by simp [hc])
      simp [valueBlock, Mem.read, this, Mem.get, orUb]
  | num x => cases hp; exact ⟨Grow.refl m, rfl⟩

/-- The name that was returned is not overwritten by the value returned with it. -/
theorem name_after_value {m : Mem} {src : Block} (hn : NotParser src) {p q : Piece} {c : Bytes}
    (h : (m.nameBlock src p).2.read (m.nameBlock src p).1 = .ok c) :
    ((m.nameBlock src p).2.valueBlock src q).2.read (m.nameBlock src p).1 = .ok c := by
  cases q with
  | src o l => exact h
  | num x => exact h
  | scratch x =>
    cases p with
    | src o l => exact (grow_pval _ _).read (notParser_part hn o l) h
    | num y => exact h
    | scratch y => exact read_mono (fun c hc => hc) h

mutual
theorem readField_ok {e g : Nat} {src : Block} {d : Bytes} (hn : NotParser src) :
    ∀ {f : Field} {m : Mem} {n : PNode} {x x' : ANode}, Live m e g → Good m e g n x → m.read src = .ok d →
      Spec.field d f x = some x' → ∃ n' m', m.readField e src f n = .ok (n', m') ∧ Grow m m' ∧
        Good m' e g n' x' ∧ n'.name = n.name
  | .val name kind data, m, n, x, x', hl, hg, hs, hf => by
    simp only [Spec.field, Option.bind_eq_bind, Option.bind_eq_some_iff] at hf
    obtain ⟨nd, hnd, vd, hvd, he⟩ := hf
    cases he
    obtain ⟨g1, r1⟩ := nameBlock_ok hs hnd
    obtain ⟨g2, r2⟩ := valueBlock_ok (g1.read hn hs) hvd
    have r1' := name_after_value (q := data) hn r1
    have g12 := g1.trans g2
    obtain ⟨w, m3, h3, x3, o3, k3, n3, r3⟩ := storeValue_ok (hl.keeps (g12.keeps e)) kind r2 nd
    refine ⟨n.addValue w, m3, ?_, g12.trans x3.grow, ?_, addValue_name _ _⟩
    · simp [readField, r1', h3]
    · have := (hg.keeps ((g12.trans x3.grow).keeps e)).addValue o3 n3 r3
      rwa [k3] at this
  | .scope name t fs, m, n, x, x', hl, hg, hs, hf => by
    simp only [Spec.field, Option.bind_eq_bind, Option.bind_eq_some_iff] at hf
    obtain ⟨nd, hnd, c, hc, he⟩ := hf
    cases he
    obtain ⟨g1, r1⟩ := nameBlock_ok hs hnd
    obtain ⟨nn, m2, h2, x2, gn, _, _, _, zn⟩ := newNode_ok (hl.keeps (g1.keeps e)) t nd
    have g12 := g1.trans x2.grow
    obtain ⟨n3, m3, h3, g3, gd3, z3⟩ := readFields_ok hn (hl.keeps (g12.keeps e)) gn (g12.read hn hs) hc
    refine ⟨PNode.addNode n3 n, m3, ?_, g12.trans g3, (hg.keeps ((g12.trans g3).keeps e)).addNode gd3 (by rw [z3]; exact zn),
      addNode_name _ _⟩
    simp [readField, r1, h2, h3]
theorem readFields_ok {e g : Nat} {src : Block} {d : Bytes} (hn : NotParser src) :
    ∀ {fs : List Field} {m : Mem} {n : PNode} {x x' : ANode}, Live m e g → Good m e g n x → m.read src = .ok d →
      Spec.fields d fs x = some x' → ∃ n' m', m.readFields e src fs n = .ok (n', m') ∧ Grow m m' ∧
        Good m' e g n' x' ∧ n'.name = n.name
  | [], m, n, x, x', hl, hg, hs, hf => by
    simp only [Spec.fields] at hf; cases hf
    exact ⟨n, m, rfl, Grow.refl m, hg, rfl⟩
  | f :: fs, m, n, x, x', hl, hg, hs, hf => by
    simp only [Spec.fields, Option.bind_eq_bind, Option.bind_eq_some_iff] at hf
    obtain ⟨y, hy, hf⟩ := hf
    obtain ⟨n1, m1, h1, g1, gd1, z1⟩ := readField_ok hn hl hg hs hy
    obtain ⟨n2, m2, h2, g2, gd2, z2⟩ := readFields_ok hn (hl.keeps (g1.keeps e)) gd1 (g1.read hn hs) hf
    exact ⟨n2, m2, by simp [readFields, h1, h2], g1.trans g2, gd2, z2.trans z1⟩
end

end Srl.Own
