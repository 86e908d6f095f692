import Verif.Lemmas.PSrlCut
import Verif.Lemmas.Norm

/-! Documents as trees. -/

namespace Srl

namespace PSrl
open Doc

mutual
/-- Nodes all of whose values the format can carry. -/
def NodeOk : Node → Prop
  | .mk _ vs ns => (∀ p ∈ vs, p.1.length < 2 ^ 32 ∧ ValOk p.2) ∧ NodesOk ns
def NodesOk : List (Bytes × Node) → Prop
  | [] => True
  | (name, n) :: ns => name.length < 2 ^ 32 ∧ NodeOk n ∧ NodesOk ns
end

mutual
/-- The node that comes back. -/
def normNode : Node → Node
  | .mk t vs ns => .mk t (vs.map (fun p => (if t == .object then p.1 else [], normVal p.2)))
      (normNodes (t == .object) ns)
def normNodes (named : Bool) : List (Bytes × Node) → List (Bytes × Node)
  | [] => []
  | (name, n) :: ns => (if named then name else [], normNode n) :: normNodes named ns
end

theorem itemsOk_append (a b : List Item) : ItemsOk (a ++ b) ↔ ItemsOk a ∧ ItemsOk b := by
  induction a with
  | nil => simp [ItemsOk]
  | cons i a ih => simp [ItemsOk, ih, and_assoc]

theorem itemsOk_vals (vs : List (Bytes × Val)) :
    ItemsOk (vs.map (fun p => Item.val p.1 p.2)) ↔ ∀ p ∈ vs, p.1.length < 2 ^ 32 ∧ ValOk p.2 := by
  induction vs with
  | nil => simp [ItemsOk]
  | cons p vs ih => simp [ItemsOk, ItemOk, ih]

mutual
theorem itemOk_toItem : ∀ (name : Bytes) (n : Node), name.length < 2 ^ 32 → NodeOk n →
    ItemOk (n.toItem name)
  | name, .mk t vs ns, hn, ⟨h1, h2⟩ => by
    simp only [Node.toItem, ItemOk]
    exact ⟨hn, (itemsOk_append _ _).mpr ⟨(itemsOk_vals vs).mpr h1, itemsOk_toItems ns h2⟩⟩
theorem itemsOk_toItems : ∀ (ns : List (Bytes × Node)), NodesOk ns → ItemsOk (Node.toItems ns)
  | [], _ => by simp [Node.toItems, ItemsOk]
  | (name, n) :: ns, ⟨h1, h2, h3⟩ => by
    simp only [Node.toItems, ItemsOk]
    exact ⟨itemOk_toItem name n h1 h2, itemsOk_toItems ns h3⟩
end

theorem normItems_append (b : Bool) (x y : List Item) :
    normItems b (x ++ y) = normItems b x ++ normItems b y := by
  induction x with
  | nil => rfl
  | cons i x ih => simp [normItems, ih]

theorem normItems_vals (b : Bool) (vs : List (Bytes × Val)) :
    normItems b (vs.map (fun p => Item.val p.1 p.2)) =
      (vs.map (fun p => (if b then p.1 else [], normVal p.2))).map (fun p => Item.val p.1 p.2) := by
  induction vs with
  | nil => rfl
  | cons p vs ih => simp [normItems, normItem, ih]

mutual
theorem normItem_toItem : ∀ (b : Bool) (name : Bytes) (n : Node),
    normItem b (n.toItem name) = (normNode n).toItem (if b then name else [])
  | b, name, .mk t vs ns => by
    simp only [Node.toItem, normItem, normNode, normItems_append, normItems_vals,
      normItems_toItems (t == .object) ns]
theorem normItems_toItems : ∀ (b : Bool) (ns : List (Bytes × Node)),
    normItems b (Node.toItems ns) = Node.toItems (normNodes b ns)
  | _, [] => rfl
  | b, (name, n) :: ns => by
    simp only [Node.toItems, normItems, normNodes, normItem_toItem b name n, normItems_toItems b ns]
end

mutual
theorem depth_normNode : ∀ (n : Node), (normNode n).depth = n.depth
  | .mk t vs ns => by simp only [normNode, Node.depth, depthL_normNodes (t == .object) ns]
theorem depthL_normNodes : ∀ (b : Bool) (ns : List (Bytes × Node)),
    Node.depthL (normNodes b ns) = Node.depthL ns
  | _, [] => rfl
  | b, (_, n) :: ns => by
    simp only [normNodes, Node.depthL, depth_normNode n, depthL_normNodes b ns]
end

mutual
theorem normNode_eq : ∀ n : Node, normNode n = Norm.node normVal n
  | .mk t vs ns => by simp only [normNode, Norm.node, normNodes_eq _ ns]
theorem normNodes_eq : ∀ (b : Bool) (ns : List (Bytes × Node)), normNodes b ns = Norm.nodes normVal b ns
  | _, [] => rfl
  | b, (_, n) :: ns => by simp only [normNodes, Norm.nodes, normNode_eq n, normNodes_eq b ns]
end

theorem load_ne_fuel (m : Mem) (s : Bytes) : load m s ≠ .fuel :=
  load_fuel (read m) (fun x => x.2.length) (fun s e s' h => read_progress m s e s' h)
    (read_ne_fuel m) _ _ (Nat.lt_succ_self _)

theorem load_eq_fuel (m : Mem) (s : Bytes) (f : Nat) (h : s.length < f) :
    Doc.load (read m) f (St.init, s) = load m s :=
  load_mono (read m) _ f _ (load_ne_fuel m s) h

/-- Saving and loading, with anything behind. -/
theorem save_load {m : Mem} (hm : m.Sane) (name : Bytes) (n : Node) (hname : name.length < 2 ^ 32)
    (hn : NodeOk n) (hsize : (n.events name).length < 2 ^ 64) :
    ∃ bs, save name n = .ok bs ∧ ∀ rest, ∃ st,
      load m (bs ++ rest) =
        if n.depth ≤ maxDepth then .ok (⟨[], normNode n⟩, (st, rest)) else .err := by
  rw [Node.events_eq] at hsize
  obtain ⟨st, ⟨bs, h1, h2⟩, h3, h4⟩ := codes_item hm (n.toItem name) St.init
    (itemOk_toItem name n hname hn) (by simpa [St.init] using hsize)
  refine ⟨bs, ?_, fun rest => ⟨st, ?_⟩⟩
  · unfold save; rw [Node.events_eq, h1]; rfl
  · have hb : inObject St.init = false := rfl
    have := h2 rest
    rw [hb, normItem_toItem] at this
    obtain ⟨t, vs, ns⟩ := n
    simp only [normNode, Node.toItem] at this
    have hl := fun F hF => load_item (read m) _ _ _ F _ _ this hF
    have hl := hl (max (_ + 1) ((bs ++ rest).length + 1))
      (Nat.lt_of_lt_of_le (Nat.lt_succ_self _) (Nat.le_max_left _ _))
    rw [load_eq_fuel m _ _ (Nat.lt_of_lt_of_le (Nat.lt_succ_self _) (Nat.le_max_right _ _))] at hl
    rw [hl, Node.depthL_vals, Node.depthL_toItems, depthL_normNodes, Item.contentL_vals,
      Node.contentL_toItems]
    simp only [Node.depth, normNode, List.append_nil]
    rfl

/-- The writer does not see what reading changes. -/
theorem writeBody_norm (v : Val) (hv : ValOk v) : writeBody (normVal v) = writeBody v := by
  cases v with
  | int t v =>
    obtain ⟨hlo, hhi, hmin⟩ := hv
    simp only [normVal, writeBody]
    by_cases hneg : v < 0
    · have hs : t.signed = true := by
        cases hs : t.signed with
        | true => rfl
        | false => have := IntTy.lo_unsigned t hs; omega
      simp [hneg, hs, show IntTy.i64.signed = true from rfl]
    · simp [hneg]
  | _ => rfl

theorem flagOf_norm (v : Val) (hv : ValOk v) : flagOf (.val (normVal v)) = flagOf (.val v) := by
  cases v with
  | int t v =>
    obtain ⟨hlo, hhi, hmin⟩ := hv
    simp only [normVal, flagOf]
    by_cases hneg : v < 0
    · have hs : t.signed = true := by
        cases hs : t.signed with
        | true => rfl
        | false => have := IntTy.lo_unsigned t hs; omega
      simp [hneg, hs, show IntTy.i64.signed = true from rfl]
    · simp [hneg]
  | _ => rfl

theorem writeHead_norm (st : St) (flag : UInt8) (name : Bytes) :
    writeHead st flag (normName st name) = writeHead st flag name := by
  unfold normName
  split
  · rfl
  · rename_i h
    unfold writeHead
    rw [if_pos (Or.inr h), if_pos (Or.inr h)]

theorem write_norm (st : St) (e : Event) (he : TokOk e.tok) :
    write st (normEvent st e) = write st e := by
  obtain ⟨name, tok⟩ := e
  cases tok with
  | scopeEnd => rfl
  | scope t => simp only [write, normEvent, normTok, writeHead_norm]
  | val v => simp only [write, normEvent, normTok, writeHead_norm, flagOf_norm v he, writeBody_norm v he]

mutual
theorem writeAll_normItem : ∀ (i : Item) (st st' : St) (b : Bytes), ItemOk i →
    writeAll st i.events = .ok (st', b) →
      writeAll st (normItem (inObject st) i).events = .ok (st', b) ∧ st'.stack = st.stack
  | .val n v, st, st', b, hi, h => by
    simp only [Item.events, normItem, writeAll, Res.bind_eq_ok] at h ⊢
    obtain ⟨⟨st1, b1⟩, h1, h⟩ := h
    have hw := write_norm st ⟨n, .val v⟩ hi.2
    simp only [normEvent, normTok, normName_eq] at hw
    refine ⟨⟨⟨st1, b1⟩, by rw [hw]; exact h1, h⟩, ?_⟩
    obtain ⟨x, h2, h⟩ := h
    cases h2
    simp only [Res.ok.injEq, Prod.mk.injEq] at h
    simp only [write, Res.bind_eq_ok] at h1
    obtain ⟨⟨ns, hh⟩, h3, bb, h4, h1⟩ := h1
    simp only [Res.ok.injEq, Prod.mk.injEq] at h1
    rw [← h.1, ← h1.1]
  | .scope n t kids, st, st', b, hi, h => by
    simp only [Item.events, normItem, writeAll, writeAll_append, Res.bind_eq_ok] at h ⊢
    obtain ⟨⟨st1, b1⟩, h1, ⟨st2, b2⟩, ⟨⟨st3, b3⟩, h3, ⟨st4, b4⟩, h4, h5⟩, h⟩ := h
    have hw := write_norm st ⟨n, .scope t⟩ trivial
    simp only [normEvent, normTok, normName_eq] at hw
    simp only [write, Res.bind_eq_ok] at h1
    obtain ⟨⟨ns, hh⟩, hw2, h1'⟩ := h1
    simp only [Res.ok.injEq, Prod.mk.injEq] at h1'
    have hst1 : st1.stack = t :: st.stack := by rw [← h1'.1]
    have hob : inObject st1 = (t == .object) := by
      unfold inObject; rw [hst1]; cases t <;> rfl
    obtain ⟨k1, k2⟩ := writeAll_normItems kids st1 st3 b3 hi.2 h3
    rw [hob] at k1
    have hst3 : st3.stack = t :: st.stack := by rw [k2, hst1]
    simp only [write, hst3] at h4
    obtain ⟨⟨st5, b5⟩, h6, ⟨st6, b6⟩, h7, h8⟩ := h4
    have hend : st4.stack = st.stack := by
      simp only [Res.ok.injEq, Prod.mk.injEq] at h6 h7 h8
      rw [← h8.1, ← h7.1, ← h6.1]
    refine ⟨⟨(st1, b1), ?_, (st2, b2), ⟨(st3, b3), k1, (st4, b4), ?_, h5⟩, h⟩, ?_⟩
    · rw [hw]
      simp only [write, Res.bind_eq_ok]
      exact ⟨(ns, hh), hw2, by simp [← h1'.1, ← h1'.2]⟩
    · exact ⟨(st5, b5), by simp only [write, hst3]; exact h6, (st6, b6), h7, h8⟩
    · simp only [Res.ok.injEq, Prod.mk.injEq] at h h5
      rw [← h.1, ← h5.1, hend]
theorem writeAll_normItems : ∀ (is : List Item) (st st' : St) (b : Bytes), ItemsOk is →
    writeAll st (Item.eventsL is) = .ok (st', b) →
      writeAll st (Item.eventsL (normItems (inObject st) is)) = .ok (st', b) ∧
        st'.stack = st.stack
  | [], st, st', b, _, h => by
    simp only [Item.eventsL, normItems, writeAll, Res.ok.injEq, Prod.mk.injEq] at h ⊢
    exact ⟨h, by rw [h.1]⟩
  | i :: is, st, st', b, hi, h => by
    simp only [Item.eventsL, normItems, writeAll_append, Res.bind_eq_ok] at h ⊢
    obtain ⟨⟨st1, b1⟩, h1, ⟨st2, b2⟩, h2, h⟩ := h
    obtain ⟨i1, i2⟩ := writeAll_normItem i st st1 b1 hi.1 h1
    obtain ⟨j1, j2⟩ := writeAll_normItems is st1 st2 b2 hi.2 h2
    rw [inObject_eq i2] at j1
    refine ⟨⟨(st1, b1), i1, (st2, b2), j1, h⟩, ?_⟩
    simp only [Res.ok.injEq, Prod.mk.injEq] at h
    rw [← h.1, j2, i2]
end

theorem save_norm (name : Bytes) (n : Node) (hname : name.length < 2 ^ 32) (hn : NodeOk n)
    (bs : Bytes) (h : save name n = .ok bs) : save [] (normNode n) = .ok bs := by
  unfold save at h ⊢
  rw [Node.events_eq, Res.bind_eq_ok] at h
  obtain ⟨⟨st, b⟩, h1, h⟩ := h
  have := (writeAll_normItem _ _ _ _ (itemOk_toItem name n hname hn) h1).1
  rw [show inObject St.init = false from rfl, normItem_toItem] at this
  rw [Node.events_eq]
  simp only [Bool.false_eq_true, if_false] at this
  rw [this]
  exact h

end PSrl
end Srl
