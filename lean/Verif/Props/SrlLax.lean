import Verif.Lemmas.SrlEven

/-! # C89: only what can have been saved is loaded in the Srl format

The format has no description but the library. The property is: what is loaded is what the library would save of it
(`OnlySaved`), so that damaged documents are noticed where they are no longer documents, and documents are equal if their
bytes are. The code violates it. What it takes for documents is given by the grammar of `Verif/Props/SrlLaxSpec.lean`,
which is proved to be exactly that; its part `odd = false` is proved to be exactly what the library writes. -/

namespace Srl.Props
open PSrl LaxSrl

/-- C89 in full: the bytes of what is loaded are those that it is saved as. -/
def OnlySaved : Prop :=
  ∀ (m : Mem) (s : Bytes) (root : Root) (st : St) (rest : Bytes), m.Sane →
    PSrl.load m s = .ok (root, (st, rest)) → ∃ u, s = u ++ rest ∧ PSrl.save root.name root.node = .ok u

/-- C89 (what holds): what is loaded is a document of the wider grammar, nested at most 128 deep, and the tree has its
elements and no others. -/
theorem srl_accepts_only_partial (m : Mem) (hm : m.Sane) (s rest : Bytes) (root : Root) (st : St)
    (h : PSrl.load m s = .ok (root, (st, rest))) :
    ∃ t is b names, LaxSrl.Document true t is names b ∧ s = b ++ rest ∧ nesting is ≤ 128 ∧
      root = ⟨[], .mk t (keptValues is) (keptNodes is)⟩ := by
  obtain ⟨t, is, b, names, h1, h2, h3, h4, _⟩ := LaxSrl.load_document hm h
  exact ⟨t, is, b, names, h1, h2, h3, h4⟩

/-- C89: every such document is accepted, so nothing can be left out of the grammar. -/
theorem srl_accepts_all (m : Mem) (hm : m.Sane) (t : ScopeTy) (is : List Item) (names : List Bytes) (b rest : Bytes)
    (h : LaxSrl.Document true t is names b) (hd : nesting is ≤ 128) :
    PSrl.load m (b ++ rest) = .ok (⟨[], .mk t (keptValues is) (keptNodes is)⟩, (⟨[], names⟩, rest)) :=
  LaxSrl.document_load hm h rest hd

private theorem one (b : UInt8) (h : b.toNat < 128) (odd : Bool) : Num odd b.toNat [b] :=
  ⟨by simp, b.toNat, .last h, by have := b.toNat_lt; omega, .inr ⟨by have := b.toNat_lt; omega, .inl rfl⟩⟩

/-- `{"a": 1, "a": null}`, with the name given twice, a number in two bytes, and bits without meaning -/
example : LaxSrl.Document true .object [.val [97] (.int .u64 1), .val [97] .null] [[97], [97]]
    [0x42, 3, 1, 97, 0x81, 0, 10, 1, 97, 0] :=
  ⟨0x42, _, ⟨by decide, by decide, .inl rfl⟩, .inl rfl,
    .val _ _ [[97]] _ 3 [97] _ _ [1, 97] [0x81, 0] _
      (.first _ _ _ [1] (by decide) (by decide) (one 1 (by decide) _) (.inl rfl))
      (.pos 3 1 _ (by decide) (by decide)
        ⟨by decide, 1, .more (b := 0x81) (n := 0) (by decide) (.last (b := 0) (by decide)), by decide, .inl rfl⟩ (.inl rfl))
      (.val _ _ [[97], [97]] _ 10 [97] _ _ [1, 97] [] _
        (.first _ _ _ [1] (by decide) (by decide) (one 1 (by decide) _) (.inl rfl))
        (.null 10 (by decide) (by decide) (.inl rfl)) (.nil _ _)), rfl⟩

private theorem map_kept : ∀ is : List Item, Sorted is →
    (keptValues is).map (fun p => Item.val p.1 p.2) ++ Node.toItems (keptNodes is) = is
  | [], _ => by simp [keptValues, keptNodes, Node.toItems]
  | .val n v :: is, h => by
    have := map_kept is (by simpa [Sorted] using h)
    simp [keptValues, keptNodes, this]
  | .scope n t js :: is, h => by
    simp only [Sorted] at h
    have h1 := map_kept js h.1
    have h2 := map_kept is h.2.1
    rw [h.2.2] at h2
    simp only [List.map_nil, List.nil_append] at h2
    simp only [keptValues, h.2.2, keptNodes, Node.toItems, Node.toItem, h1, h2, List.map_nil, List.nil_append]

/-- C89: documents without those oddities, with values before scopes, are what the library saves. -/
theorem srl_even (t : ScopeTy) (is : List Item) (names : List Bytes) (b : Bytes)
    (h : LaxSrl.Document false t is names b) (hs : Sorted is) :
    PSrl.save [] (.mk t (keptValues is) (keptNodes is)) = .ok b := by
  obtain ⟨f, c, h1, h2, h3, rfl⟩ := h
  rcases h2 with h2 | h2
  · cases h2
  have hf : f = flagOf (.scope t) := by rw [← opens_flag h1, plain_self f h2]
  unfold PSrl.save
  rw [Node.events_eq, Node.toItem, map_kept is hs]
  simp only [Item.events, writeAll, write, writeHead]
  rw [if_pos (.inl (by simp))]
  simp only [Res.ok_bind, St.init]
  rw [elems_write h3, ← hf]
  rfl

private theorem sorted_vals (b : Bool) : ∀ (vs : List (Bytes × Val)) (is : List Item), Sorted is →
    Sorted (normItems b (vs.map (fun p => Item.val p.1 p.2)) ++ is)
  | [], is, h => by simpa [normItems] using h
  | p :: vs, is, h => by simpa [normItems, normItem, Sorted] using sorted_vals b vs is h

private theorem normItems_append (b : Bool) (x y : List Item) : normItems b (x ++ y) = normItems b x ++ normItems b y := by
  induction x with
  | nil => simp [normItems]
  | cons i x ih => simp [normItems, ih]

mutual
private theorem sorted_node (b : Bool) (name : Bytes) : ∀ n : Node, ∃ nm t js, normItem b (n.toItem name) = .scope nm t js ∧ Sorted js
  | .mk t vs ns => by
    refine ⟨_, _, _, by rw [Node.toItem, normItem], ?_⟩
    rw [normItems_append]
    exact sorted_vals _ vs _ (sorted_nodes _ ns).1
private theorem sorted_nodes (b : Bool) : ∀ ns : List (Bytes × Node),
    Sorted (normItems b (Node.toItems ns)) ∧ keptValues (normItems b (Node.toItems ns)) = []
  | [] => by simp [Node.toItems, normItems, Sorted, keptValues]
  | (name, n) :: ns => by
    obtain ⟨nm, t, js, h1, h2⟩ := sorted_node b name n
    obtain ⟨h3, h4⟩ := sorted_nodes b ns
    simp only [Node.toItems, normItems, h1, Sorted, keptValues]
    exact ⟨⟨h2, h3, h4⟩, h4⟩
end

/-- C89: what the library saves are such documents, so nothing is missing in that part of the grammar either. (`NodeOk`:
the values the format can carry, see C01.) -/
theorem srl_saved_even (name : Bytes) (n : Node) (hname : name.length < 2 ^ 32) (hn : NodeOk n)
    (hsize : (n.events name).length < 2 ^ 64) (b : Bytes) (h : PSrl.save name n = .ok b) :
    ∃ t is names, LaxSrl.Document false t is names b ∧ Sorted is := by
  obtain ⟨t, vs, ns⟩ := n
  have hok : ItemOk ((Node.mk t vs ns).toItem name) := PSrl.itemOk_toItem name _ hname hn
  rw [Node.events_eq] at hsize
  simp only [PSrl.save, Node.events_eq, Res.bind_eq_ok] at h
  obtain ⟨⟨st, b'⟩, h1, h2⟩ := h
  cases h2
  rw [Node.toItem] at h1 hsize hok
  simp only [Item.events, List.length_cons, List.length_append, List.length_nil] at hsize
  simp only [Item.events, writeAll, write, writeHead, Res.bind_eq_ok] at h1
  obtain ⟨⟨st1, x⟩, ⟨⟨nm, y⟩, h2, h3⟩, ⟨st2, q⟩, h4, h5⟩ := h1
  rw [if_pos (.inr (by simp [St.init]))] at h2
  cases h2; cases h3; cases h5
  rw [writeAll_append, Res.bind_eq_ok] at h4
  obtain ⟨⟨st3, q1⟩, h6, h7⟩ := h4
  obtain ⟨g1, _, g3⟩ := items_elems _ t [] [] st3 q1 hok.2 (by simp; omega) h6
  obtain ⟨stk, nms⟩ := st3
  cases g1
  simp only [writeAll, write, Res.ok_bind] at h7
  cases h7
  have hf := plain_low (flagOf (.scope t)) (flagOf_low _)
  refine ⟨t, _, nms, ⟨flagOf (.scope t), q1 ++ [0], flag_opens hf.1, .inr hf.2.1, g3 [] [0] nms (.nil _ _), rfl⟩, ?_⟩
  rw [List.append_nil, normItems_append]
  exact sorted_vals _ vs _ (sorted_nodes _ ns).1

/-- Negation of C89: of the flag of an array one bit is looked at, besides those that say it is no object and no number:
32 flags are taken for it, though one is written. -/
theorem srl_stray_bits (m : Mem) (hm : m.Sane) (f : UInt8) (h1 : ¬ has f 65) (h2 : has f 128) (rest : Bytes) :
    PSrl.load m (f :: 0 :: rest) = .ok (⟨[], .mk .array [] []⟩, (⟨[], []⟩, rest)) ∧
    PSrl.save [] (.mk .array [] []) = .ok [128, 0] := by
  constructor
  · have := srl_accepts_all m hm .array [] [] [f, 0] rest ⟨f, [0], ⟨h1, h2, .inl rfl⟩, .inl rfl, .nil _ _, rfl⟩
      (by simp [nesting])
    simpa [keptValues, keptNodes] using this
  · decide +kernel

/-- C89 is false. -/
theorem srl_not_only : ¬ OnlySaved := by
  intro h
  have hm : (⟨none, 0⟩ : Mem).Sane := by unfold Mem.Sane; decide
  have hk := srl_stray_bits ⟨none, 0⟩ hm 130 (by decide) (by decide) []
  obtain ⟨u, h1, h2⟩ := h _ _ _ _ _ hm hk.1
  rw [hk.2] at h2
  cases h2
  cases h1

/-- C89: numbers of more than 64 bits are not rejected either, but cut: the ten bytes of `2^64 + n` are read as `n`. -/
theorem srl_number_wraps (m : Mem) (hm : m.Sane) (n : Nat) (hn : n < 2 ^ 64) (w rest : Bytes) (hl : w.length ≤ 10)
    (hw : Base128 (2 ^ 64 + n) w) :
    PSrl.load m (128 :: 1 :: (w ++ 0 :: rest)) = .ok (⟨[], .mk .array [([], .int .u64 n)] []⟩, (⟨[], []⟩, rest)) := by
  have := srl_accepts_all m hm .array [.val [] (.int .u64 n)] [] (128 :: 1 :: (w ++ [0])) rest
    ⟨128, _, ⟨by decide, by decide, .inl rfl⟩, .inl rfl,
      .val _ _ [] _ 1 [] _ _ [] w [0] (.none _ _ _ (.inl (by decide)) (.inl rfl))
        (.pos 1 n w (by decide) (by decide) ⟨hl, _, hw, by omega, .inl rfl⟩ (.inl rfl)) (.nil _ _), rfl⟩
    (by simp [nesting])
  simpa [keptValues, keptNodes] using this

/-- `2^64 + 1` -/
example : Base128 (2 ^ 64 + 1) [0x81, 0x80, 0x80, 0x80, 0x80, 0x80, 0x80, 0x80, 0x80, 2] := by
  have z : ∀ {n : Nat} {bs : Bytes}, Base128 n bs → Base128 (128 * n) (0x80 :: bs) := fun h => by
    have := Base128.more (b := 0x80) (by decide) h
    simpa using this
  have := Base128.more (b := 0x81) (by decide) (z (z (z (z (z (z (z (z (Base128.last (b := 2) (by decide))))))))))
  simpa using this

/-- `{"a": 1, "b": {"a": null}}` is saved with the name `a` given once. -/
example : PSrl.save [] (.mk .object [([97], .int .u64 1)] [([98], .mk .object [([97], .null)] [])]) =
    .ok [64, 3, 1, 97, 1, 66, 1, 98, 14, 0, 0, 0] := by decide +kernel

end Srl.Props
