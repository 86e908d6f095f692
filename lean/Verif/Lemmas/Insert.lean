import Verif.Lemmas.Tree
import Verif.Lemmas.Doc
import Verif.Lemmas.PSrlDoc
import Verif.Lemmas.PMsgPackCut
import Verif.Lemmas.PJsonTree

/-! Inserting into a tree and writing the same: the items in between. -/

namespace Srl.TreeApi
open Shared (Seen insertShared keyName)

variable {P : Type}

mutual
/-- No initializer lists. -/
def Act.listless : Act → Bool
  | .value _ _ => true
  | .scope _ _ body => listlessL body
  | .shared _ _ body => listlessL body
  | .node _ _ => true
  | .list _ _ => false
  | .fail => true
def listlessL : List Act → Bool
  | [] => true
  | a :: as => a.listless && listlessL as
end

/-- `f` adds items to the node, `g` writes them; both change the table of shared objects from `s` to `s'`. -/
structure Puts (fmt : Fmt P) (s : Seen) (f g : Work P → Res Unit × Work P) (kids : List Item) (s' : Seen) :
    Prop where
  adds : ∀ w : Work P, w.seen = s → f w = (.ok (),
    { w with seen := s', values := w.values ++ (Item.contentL kids).1,
             nodes := w.nodes ++ (Item.contentL kids).2 })
  writes : ∀ (w : Work P) (p : P), w.parser = some p → w.seen = s →
    (g w).1 = outcome (writeAll fmt (p, w.out) (Item.eventsL kids)) ∧
    ∀ p' out, writeAll fmt (p, w.out) (Item.eventsL kids) = .ok (p', out) →
      (g w).2 = { w with parser := some p', out := out, seen := s' }

/-- Writing tokens, with the table of shared objects. -/
def WritesS (fmt : Fmt P) (s : Seen) (g : Work P → Res Unit × Work P) (evs : List Event) (s' : Seen) : Prop :=
  ∀ (w : Work P) (p : P), w.parser = some p → w.seen = s →
    (g w).1 = outcome (writeAll fmt (p, w.out) evs) ∧
    ∀ p' out, writeAll fmt (p, w.out) evs = .ok (p', out) →
      (g w).2 = { w with parser := some p', out := out, seen := s' }

theorem WritesS.of {fmt : Fmt P} {g : Work P → Res Unit × Work P} {evs : List Event}
    (h : Writes fmt g evs) (s : Seen) : WritesS fmt s g evs s := by
  intro w p hp hs
  obtain ⟨h1, h2⟩ := h w p hp
  refine ⟨h1, fun p' out h => ?_⟩
  rw [h2 p' out h, ← hs]

theorem WritesS.andThen {fmt : Fmt P} {s s1 s2 : Seen} {f g : Work P → Res Unit × Work P}
    {es es' : List Event} (hf : WritesS fmt s f es s1) (hg : WritesS fmt s1 g es' s2) :
    WritesS fmt s (fun w => andThen (f w) g) (es ++ es') s2 := by
  intro w p hp hs
  obtain ⟨h1, h2⟩ := hf w p hp hs
  rw [writeAll_append]
  simp only
  revert h1 h2
  generalize f w = r
  obtain ⟨r, w'⟩ := r
  cases writeAll fmt (p, w.out) es with
  | ok y =>
    obtain ⟨p', out⟩ := y
    intro h1 h2
    have h3 := h2 p' out rfl
    simp only [outcome] at h1 h3
    subst h1 h3
    obtain ⟨h3, h4⟩ := hg { w with parser := some p', out := out, seen := s1 } p' rfl rfl
    exact ⟨h3, h4⟩
  | err => intro h1 h2; simp only [outcome] at h1; subst h1; exact ⟨rfl, fun _ _ h => by cases h⟩
  | ub => intro h1 h2; simp only [outcome] at h1; subst h1; exact ⟨rfl, fun _ _ h => by cases h⟩
  | fuel => intro h1 h2; simp only [outcome] at h1; subst h1; exact ⟨rfl, fun _ _ h => by cases h⟩

theorem contentL_append (a b : List Item) : Item.contentL (a ++ b) =
    ((Item.contentL a).1 ++ (Item.contentL b).1, (Item.contentL a).2 ++ (Item.contentL b).2) := by
  induction a with
  | nil => rfl
  | cons i a ih =>
    cases i <;> simp [Item.contentL, Item.addTo, ih]

theorem Puts.nil (fmt : Fmt P) (s : Seen) : Puts fmt s (fun w => (.ok (), w)) (fun w => (.ok (), w)) [] s where
  adds w h := by
    subst h
    simp [Item.contentL]
  writes w p hp h := by
    subst h
    refine ⟨rfl, fun p' out h => ?_⟩
    simp only [Item.eventsL, writeAll, Res.ok.injEq, Prod.mk.injEq] at h
    obtain ⟨rfl, rfl⟩ := h
    rw [← hp]

theorem Puts.andThen {fmt : Fmt P} {s s1 s2 : Seen} {f g f' g' : Work P → Res Unit × Work P}
    {k k' : List Item} (h : Puts fmt s f g k s1) (h' : Puts fmt s1 f' g' k' s2) :
    Puts fmt s (fun w => andThen (f w) f') (fun w => andThen (g w) g') (k ++ k') s2 where
  adds w hw := by
    simp only [h.adds w hw, TreeApi.andThen, contentL_append]
    rw [h'.adds _ rfl]
    simp only [List.append_assoc]
  writes := by
    rw [Item.eventsL_append]
    exact WritesS.andThen h.writes h'.writes

theorem Writes.emitL (fmt : Fmt P) : ∀ es : List Event, Writes fmt (emitL fmt es) es
  | [] => by
    intro w p hp
    refine ⟨rfl, fun p' out h => ?_⟩
    simp only [writeAll, Res.ok.injEq, Prod.mk.injEq] at h
    obtain ⟨rfl, rfl⟩ := h
    simp only [TreeApi.emitL, ← hp]
  | e :: es => (Writes.emit fmt e).andThen (Writes.emitL fmt es)

theorem Puts.value (fmt : Fmt P) (s : Seen) (n : Bytes) (v : Val) :
    Puts fmt s (insertValue fmt false n v) (insertValue fmt true n v) [.val n v] s where
  adds w h := by
    subst h
    simp [insertValue, Item.contentL, Item.addTo]
  writes := by
    have h : insertValue fmt true n v = emit fmt ⟨n, .val v⟩ := by funext w; simp [insertValue]
    rw [h]
    exact WritesS.of (Writes.emit fmt _) s

theorem Puts.node (fmt : Fmt P) (s : Seen) (n : Bytes) (nd : Node) :
    Puts fmt s (insertNode fmt false n nd) (insertNode fmt true n nd) [nd.toItem n] s where
  adds w h := by
    subst h
    simp [insertNode, Item.contentL, Node.addTo_toItem]
  writes := by
    have h : insertNode fmt true n nd = emitL fmt (nd.events n) := by funext w; simp [insertNode]
    rw [h]
    have e : Item.eventsL [nd.toItem n] = nd.events n := by simp [Item.eventsL, Node.events_eq]
    rw [e]
    exact WritesS.of (Writes.emitL fmt _) s

theorem Puts.scope {fmt : Fmt P} {s s' : Seen} {f g : Work P → Res Unit × Work P} {kids : List Item}
    (h : Puts fmt s f g kids s') (n : Bytes) (t : ScopeTy) :
    Puts fmt s (openScope fmt false n t f) (openScope fmt true n t g) [.scope n t kids] s' where
  adds w hw := by
    simp only [openScope, Bool.false_eq_true, if_false]
    rw [h.adds _ (by exact hw)]
    simp [Item.contentL, Item.addTo]
  writes := by
    have e : openScope fmt true n t g = fun w =>
        TreeApi.andThen (TreeApi.andThen (emit fmt ⟨n, .scope t⟩ w) g) (emit fmt ⟨[], .scopeEnd⟩) := by
      funext w
      simp [openScope]
    rw [e]
    have e2 : Item.eventsL [.scope n t kids] = ([⟨n, .scope t⟩] ++ Item.eventsL kids) ++ [⟨[], .scopeEnd⟩] := by
      simp [Item.eventsL, Item.events]
    rw [e2]
    exact ((WritesS.of (Writes.emit fmt _) s).andThen h.writes).andThen (WritesS.of (Writes.emit fmt _) s')

/-- The result of an act that inserts. -/
theorem andThen_ok {S : Type} {x : Res Unit × S} {f : S → Res Unit × S} (h : (andThen x f).1 = .ok ()) :
    x.1 = .ok () ∧ (f x.2).1 = .ok () := by
  obtain ⟨r, s⟩ := x
  cases r <;> simp only [andThen] at h
  · exact ⟨rfl, h⟩
  all_goals cases h

mutual
theorem perform_puts (cfg : HTable.Cfg Nat) (fmt : Fmt P) : ∀ (a : Act) (s : Seen) (w : Work P),
    a.listless = true → w.seen = s → (perform cfg fmt false a w).1 = .ok () →
    ∃ kids s', Puts fmt s (perform cfg fmt false a) (perform cfg fmt true a) kids s'
  | .value n v, s, w, _, _, _ => ⟨_, _, by simpa only [perform] using Puts.value fmt s n v⟩
  | .node n nd, s, w, _, _, _ => ⟨_, _, by simpa only [perform] using Puts.node fmt s n nd⟩
  | .scope n t body, s, w, hl, hw, h => by
    simp only [perform, openScope, Bool.false_eq_true, if_false] at h
    obtain ⟨kids, s', hp⟩ := performL_puts cfg fmt body s { w with values := [], nodes := [] } hl hw h
    exact ⟨_, _, by simpa only [perform] using hp.scope n t⟩
  | .shared n a body, s, w, hl, hw, h => by
    simp only [perform, withShared, hw] at h
    cases hi : insertShared cfg s a with
    | ok x =>
      obtain ⟨known, key, s1⟩ := x
      simp only [hi] at h
      simp only [openScope, Bool.false_eq_true, if_false] at h
      have inner : ∃ kids s', Puts fmt s1
          (fun w => andThen (insertValue fmt false keyName (.int .u64 key) w) fun w =>
            if known then (.ok (), w) else performL cfg fmt false body w)
          (fun w => andThen (insertValue fmt true keyName (.int .u64 key) w) fun w =>
            if known then (.ok (), w) else performL cfg fmt true body w) kids s' := by
        obtain ⟨h1, h2⟩ := andThen_ok h
        cases known with
        | true => exact ⟨_, _, (Puts.value fmt s1 _ _).andThen (Puts.nil fmt s1)⟩
        | false =>
          simp only [Bool.false_eq_true, if_false] at h2 ⊢
          obtain ⟨kids, s', hp⟩ := performL_puts cfg fmt body s1 _ hl (by simp [insertValue]) h2
          exact ⟨_, _, (Puts.value fmt s1 _ _).andThen hp⟩
      obtain ⟨kids, s', hp⟩ := inner
      have hp := hp.scope n .object
      refine ⟨[.scope n .object kids], s', ⟨fun w hw => ?_, fun w p hpp hw => ?_⟩⟩
      · simp only [perform, withShared, hw, hi]
        rw [hp.adds _ rfl]
      · simp only [perform, withShared, hw, hi]
        exact hp.writes { w with seen := s1 } p hpp rfl
    | err => simp [hi] at h
    | ub => simp [hi] at h
    | fuel => simp [hi] at h
  | .list _ _, _, _, hl, _, _ => by cases hl
  | .fail, _, _, _, _, h => by simp [perform] at h
theorem performL_puts (cfg : HTable.Cfg Nat) (fmt : Fmt P) : ∀ (as : List Act) (s : Seen) (w : Work P),
    listlessL as = true → w.seen = s → (performL cfg fmt false as w).1 = .ok () →
    ∃ kids s', Puts fmt s (performL cfg fmt false as) (performL cfg fmt true as) kids s'
  | [], s, _, _, _, _ => ⟨_, _, by
    have h1 : performL cfg fmt false [] = fun w => (.ok (), w) := by funext w; simp [performL]
    have h2 : performL cfg fmt true [] = fun w => (.ok (), w) := by funext w; simp [performL]
    rw [h1, h2]
    exact Puts.nil fmt s⟩
  | a :: as, s, w, hl, hw, h => by
    simp only [listlessL, Bool.and_eq_true] at hl
    simp only [performL] at h
    obtain ⟨h1, h2⟩ := andThen_ok h
    obtain ⟨k1, s1, hp1⟩ := perform_puts cfg fmt a s w hl.1 hw h1
    rw [hp1.adds w hw] at h2
    obtain ⟨k2, s2, hp2⟩ := performL_puts cfg fmt as s1 _ hl.2 rfl h2
    have e1 : performL cfg fmt false (a :: as) = fun w =>
        andThen (perform cfg fmt false a w) (performL cfg fmt false as) := by funext w; simp [performL]
    have e2 : performL cfg fmt true (a :: as) = fun w =>
        andThen (perform cfg fmt true a w) (performL cfg fmt true as) := by funext w; simp [performL]
    exact ⟨_, _, by rw [e1, e2]; exact hp1.andThen hp2⟩
end

mutual
/-- If storing succeeds, so does inserting. -/
theorem perform_ok (cfg : HTable.Cfg Nat) (fmt : Fmt P) : ∀ (a : Act) (w u : Work P), w.seen = u.seen →
    (perform cfg fmt true a w).1 = .ok () → (perform cfg fmt false a u).1 = .ok () ∧
      (perform cfg fmt true a w).2.seen = (perform cfg fmt false a u).2.seen
  | .value n v, w, u, hs, _ => by
    simp only [perform, insertValue, if_true, Bool.false_eq_true, if_false]
    exact ⟨trivial, (seen_emit fmt _ w).trans hs⟩
  | .node n nd, w, u, hs, _ => by
    refine ⟨by simp [perform, insertNode], ?_⟩
    simp only [perform]
    rw [seen_insertNode, seen_insertNode, hs]
  | .scope n t body, w, u, hs, h => by
    simp only [perform, openScope, if_true] at h
    simp only [perform, openScope, if_true, Bool.false_eq_true, if_false]
    obtain ⟨h1, h2⟩ := andThen_ok h
    obtain ⟨h3, h4⟩ := andThen_ok h1
    have := performL_ok cfg fmt body (emit fmt ⟨n, .scope t⟩ w).2 { u with values := [], nodes := [] }
      ((seen_emit fmt _ w).trans hs) h4
    refine ⟨this.1, ?_⟩
    rw [← this.2]
    revert h3 h4 h2
    generalize emit fmt ⟨n, .scope t⟩ w = x
    obtain ⟨r, x⟩ := x
    intro h2 h3 h4
    simp only at h3
    subst h3
    simp only [andThen] at h2 h4 ⊢
    revert h2 h4
    generalize performL cfg fmt true body x = y
    obtain ⟨r, y⟩ := y
    intro h2 h4
    simp only at h4
    subst h4
    exact seen_emit fmt _ y
  | .shared n a body, w, u, hs, h => by
    simp only [perform, withShared, ← hs] at h ⊢
    cases hi : insertShared cfg w.seen a with
    | ok x =>
      obtain ⟨known, key, s1⟩ := x
      simp only [hi] at h ⊢
      simp only [openScope, if_true, Bool.false_eq_true, if_false] at h ⊢
      obtain ⟨h1, h2⟩ := andThen_ok h
      obtain ⟨h3, h4⟩ := andThen_ok h1
      obtain ⟨h5, h6⟩ := andThen_ok h4
      clear h h1 h4
      have e0 := seen_emit fmt ⟨n, .scope .object⟩ { w with seen := s1 }
      revert h2 h3 h5 h6 e0
      generalize emit fmt ⟨n, .scope .object⟩ { w with seen := s1 } = x
      obtain ⟨r, x⟩ := x
      intro h2 h3 h5 h6 e0
      simp only at h3 e0
      subst h3
      simp only [andThen] at h2 h5 h6 ⊢
      have e1 : (insertValue fmt true keyName (.int .u64 key) x).2.seen = x.seen := by
        simp only [insertValue, if_true]; exact seen_emit fmt _ x
      revert h2 h5 h6 e1
      generalize insertValue fmt true keyName (.int .u64 key) x = y
      obtain ⟨r, y⟩ := y
      intro h2 h5 h6 e1
      simp only at h5 e1
      subst h5
      simp only at h2 h6 ⊢
      simp only [insertValue, Bool.false_eq_true, if_false]
      cases known with
      | true =>
        refine ⟨rfl, ?_⟩
        simp only [if_true]
        exact (seen_emit fmt _ y).trans (e1.trans e0)
      | false =>
        simp only [Bool.false_eq_true, if_false] at h2 h6 ⊢
        have := performL_ok cfg fmt body y
          { u with seen := s1, values := [] ++ [(keyName, .int .u64 key)], nodes := [] }
          (e1.trans e0) h6
        refine ⟨this.1, ?_⟩
        rw [← this.2]
        revert h2 h6
        generalize performL cfg fmt true body y = z
        obtain ⟨r, z⟩ := z
        intro h2 h6
        simp only at h6
        subst h6
        exact seen_emit fmt _ z
    | err => simp [hi] at h
    | ub => simp [hi] at h
    | fuel => simp [hi] at h
  | .list n body, w, u, hs, h => by
    simp only [perform, insertList, if_true, Bool.false_eq_true, if_false, openScope] at h ⊢
    obtain ⟨h1, h2⟩ := andThen_ok h
    have e1 := seen_insertNode fmt true n (.mk .array [] []) w
    revert h1 h2 e1
    generalize insertNode fmt true n (.mk .array [] []) w = x
    obtain ⟨r, x⟩ := x
    intro h1 h2 e1
    simp only at h1 e1
    subst h1
    simp only [andThen] at h2 ⊢
    have := performL_ok cfg fmt body x { u with values := [], nodes := [] } (e1.trans hs) h2
    exact ⟨this.1, this.2⟩
  | .fail, _, _, _, h => by simp [perform] at h
theorem performL_ok (cfg : HTable.Cfg Nat) (fmt : Fmt P) : ∀ (as : List Act) (w u : Work P), w.seen = u.seen →
    (performL cfg fmt true as w).1 = .ok () → (performL cfg fmt false as u).1 = .ok () ∧
      (performL cfg fmt true as w).2.seen = (performL cfg fmt false as u).2.seen
  | [], w, u, hs, _ => by
    simp only [performL]
    exact ⟨trivial, hs⟩
  | a :: as, w, u, hs, h => by
    simp only [performL] at h ⊢
    obtain ⟨h1, h2⟩ := andThen_ok h
    obtain ⟨h3, h4⟩ := perform_ok cfg fmt a w u hs h1
    revert h1 h2 h3 h4
    generalize perform cfg fmt true a w = x
    generalize perform cfg fmt false a u = y
    obtain ⟨r, x⟩ := x
    obtain ⟨r', y⟩ := y
    intro h1 h2 h3 h4
    simp only at h1 h3 h4
    subst h1 h3
    simp only [andThen] at h2 ⊢
    exact performL_ok cfg fmt as x y h4 h2
end

end Srl.TreeApi

namespace Srl

/-! ## Items put in the order in which a node keeps them -/

mutual
theorem Norm.content_items (nv : Val → Val) : ∀ (b : Bool) (is : List Item),
    Item.contentL (Norm.items nv b is) =
      ((Item.contentL is).1.map (fun p => (if b then p.1 else [], nv p.2)),
       Norm.nodes nv b (Item.contentL is).2)
  | _, [] => rfl
  | b, i :: is => by
    simp only [Norm.items, Item.contentL]
    rw [Norm.content_items nv b is, Norm.addTo_item nv b i]
theorem Norm.addTo_item (nv : Val → Val) : ∀ (b : Bool) (i : Item) (c : Doc.Content),
    (Norm.item nv b i).addTo (c.1.map (fun p => (if b then p.1 else [], nv p.2)), Norm.nodes nv b c.2) =
      ((i.addTo c).1.map (fun p => (if b then p.1 else [], nv p.2)), Norm.nodes nv b (i.addTo c).2)
  | b, .val n v, (vs, ns) => by simp [Norm.item, Item.addTo]
  | b, .scope n t kids, (vs, ns) => by
    simp only [Norm.item, Item.addTo, Norm.nodes, Norm.node]
    rw [Norm.content_items nv (t == .object) kids]
end

mutual
theorem Item.depthL_content : ∀ is : List Item, Node.depthL (Item.contentL is).2 = Item.depthL is
  | [] => rfl
  | i :: is => by
    simp only [Item.contentL, Item.depthL]
    rw [Item.depth_addTo i, Item.depthL_content is]
theorem Item.depth_addTo : ∀ (i : Item) (c : Doc.Content),
    Node.depthL (i.addTo c).2 = max i.depth (Node.depthL c.2)
  | .val n v, (vs, ns) => by simp [Item.addTo, Item.depth]
  | .scope n t kids, (vs, ns) => by
    simp only [Item.addTo, Node.depthL, Node.depth, Item.depth]
    rw [Item.depthL_content kids]
end

mutual
theorem Item.eventsL_content : ∀ is : List Item,
    (Item.contentL is).1.length + (Node.eventsL (Item.contentL is).2).length = (Item.eventsL is).length
  | [] => rfl
  | i :: is => by
    simp only [Item.contentL, Item.eventsL, List.length_append]
    rw [Item.events_addTo i, Item.eventsL_content is]
theorem Item.events_addTo : ∀ (i : Item) (c : Doc.Content),
    (i.addTo c).1.length + (Node.eventsL (i.addTo c).2).length =
      i.events.length + (c.1.length + (Node.eventsL c.2).length)
  | .val n v, (vs, ns) => by simp only [Item.addTo, Item.events, List.length_cons, List.length_nil]; omega
  | .scope n t kids, (vs, ns) => by
    have := Item.eventsL_content kids
    simp only [Item.addTo, Node.eventsL, Node.events, Item.events, List.length_cons, List.length_append,
      List.length_map, List.length_nil]
    omega
end

theorem Item.length_content : ∀ is : List Item,
    (Item.contentL is).1.length + (Item.contentL is).2.length = is.length
  | [] => rfl
  | .val _ _ :: is => by
    have := Item.length_content is
    simp only [Item.contentL, Item.addTo, List.length_cons]; omega
  | .scope _ _ _ :: is => by
    have := Item.length_content is
    simp only [Item.contentL, Item.addTo, List.length_cons]; omega

mutual
theorem PSrl.itemsOk_content : ∀ is : List Item, (∀ p ∈ (Item.contentL is).1, p.1.length < 2 ^ 32 ∧ PSrl.ValOk p.2) →
    PSrl.NodesOk (Item.contentL is).2 → PSrl.ItemsOk is
  | [], _, _ => trivial
  | i :: is, h1, h2 => by
    obtain ⟨a, b, c⟩ := PSrl.itemOk_addTo i _ h1 h2
    exact ⟨a, PSrl.itemsOk_content is b c⟩
theorem PSrl.itemOk_addTo : ∀ (i : Item) (c : Doc.Content),
    (∀ p ∈ (i.addTo c).1, p.1.length < 2 ^ 32 ∧ PSrl.ValOk p.2) → PSrl.NodesOk (i.addTo c).2 →
    PSrl.ItemOk i ∧ (∀ p ∈ c.1, p.1.length < 2 ^ 32 ∧ PSrl.ValOk p.2) ∧ PSrl.NodesOk c.2
  | .val n v, (vs, ns), h1, h2 => by
    simp only [Item.addTo, List.forall_mem_cons] at h1 h2
    exact ⟨h1.1, h1.2, h2⟩
  | .scope n t kids, (vs, ns), h1, h2 => by
    simp only [Item.addTo, PSrl.NodesOk, PSrl.NodeOk] at h1 h2
    exact ⟨⟨h2.1, PSrl.itemsOk_content kids h2.2.1.1 h2.2.1.2⟩, h1, h2.2.2⟩
end

mutual
theorem PMsgPack.itemsOk_content : ∀ is : List Item,
    (∀ p ∈ (Item.contentL is).1, p.1.length < 2 ^ 32 ∧ PMsgPack.ValOk p.2) →
    PMsgPack.NodesOk (Item.contentL is).2 → PMsgPack.ItemsOk is
  | [], _, _ => trivial
  | i :: is, h1, h2 => by
    obtain ⟨a, b, c⟩ := PMsgPack.itemOk_addTo i _ h1 h2
    exact ⟨a, PMsgPack.itemsOk_content is b c⟩
theorem PMsgPack.itemOk_addTo : ∀ (i : Item) (c : Doc.Content),
    (∀ p ∈ (i.addTo c).1, p.1.length < 2 ^ 32 ∧ PMsgPack.ValOk p.2) → PMsgPack.NodesOk (i.addTo c).2 →
    PMsgPack.ItemOk i ∧ (∀ p ∈ c.1, p.1.length < 2 ^ 32 ∧ PMsgPack.ValOk p.2) ∧ PMsgPack.NodesOk c.2
  | .val n v, (vs, ns), h1, h2 => by
    simp only [Item.addTo, List.forall_mem_cons] at h1 h2
    exact ⟨h1.1, h1.2, h2⟩
  | .scope n t kids, (vs, ns), h1, h2 => by
    simp only [Item.addTo, PMsgPack.NodesOk, PMsgPack.NodeOk] at h1 h2
    have := Item.length_content kids
    exact ⟨⟨h2.1, by omega, PMsgPack.itemsOk_content kids h2.2.1.2.1 h2.2.1.2.2⟩, h1, h2.2.2⟩
end

section
variable (m : Mem) (dtoa : UInt64 → Bytes) (strtod : Bytes → Option UInt64)

mutual
theorem PJson.itemsOk_content : ∀ (named : Bool) (is : List Item),
    (∀ p ∈ (Item.contentL is).1, PJson.ValOk dtoa strtod p.2) →
    (named = true → ∀ p ∈ (Item.contentL is).1, PJson.NameOk p.1) →
    PJson.NodesAll (PJson.ValOk dtoa strtod) PJson.NameOk named (Item.contentL is).2 →
    PJson.ItemsOk m dtoa strtod (PJson.nvJson dtoa strtod) named is
  | _, [], _, _, _ => by simp [PJson.ItemsOk]
  | named, i :: is, h1, h2, h3 => by
    obtain ⟨a, b, c, d⟩ := PJson.itemOk_addTo named i _ h1 h2 h3
    simp only [PJson.ItemsOk]
    exact ⟨a, PJson.itemsOk_content named is b c d⟩
theorem PJson.itemOk_addTo : ∀ (named : Bool) (i : Item) (c : Doc.Content),
    (∀ p ∈ (i.addTo c).1, PJson.ValOk dtoa strtod p.2) →
    (named = true → ∀ p ∈ (i.addTo c).1, PJson.NameOk p.1) →
    PJson.NodesAll (PJson.ValOk dtoa strtod) PJson.NameOk named (i.addTo c).2 →
    PJson.ItemOk m dtoa strtod (PJson.nvJson dtoa strtod) named i ∧
    (∀ p ∈ c.1, PJson.ValOk dtoa strtod p.2) ∧ (named = true → ∀ p ∈ c.1, PJson.NameOk p.1) ∧
    PJson.NodesAll (PJson.ValOk dtoa strtod) PJson.NameOk named c.2
  | named, .val n v, (vs, ns), h1, h2, h3 => by
    simp only [Item.addTo, List.forall_mem_cons] at h1 h2 h3
    simp only [PJson.ItemOk]
    exact ⟨⟨fun h => (h2 h).1, PJson.reads_val m dtoa strtod _ h1.1⟩, h1.2, fun h => (h2 h).2, h3⟩
  | named, .scope n t kids, (vs, ns), h1, h2, h3 => by
    simp only [Item.addTo, PJson.NodesAll, PJson.NodeAll] at h1 h2 h3
    simp only [PJson.ItemOk]
    exact ⟨⟨h3.1, PJson.itemsOk_content (t == .object) kids h3.2.1.1
      (fun h => h3.2.1.2.1 (by cases t <;> simp_all)) h3.2.1.2.2⟩, h1, h2, h3.2.2⟩
end
end

end Srl
