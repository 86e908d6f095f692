import Verif.Props.StoredKeys
import Verif.Props.LookTime
import Verif.Props.Shared

/-! # C95: objects that were stored are restored in proportion to their pointers -/

namespace Srl.Props
open Shared Typed Doc KeyCost LookCost

/-- Keys below `N` were added before; those that are looked up are given from `N` to `M`. -/
private def Looks (P : List Op → List Op → Prop) (N M : Nat) : Prop :=
  ∀ b d, P b d → (∀ x ∈ added b, x < N) → (∀ x ∈ added d, x < M) ∧ ∃ ls, lookedUp d = lookedUp b ++ ls ∧ Given N ls M

theorem Given.le {N M : Nat} {ks : List Nat} (h : Given N ks M) : N ≤ M := by
  induction h with
  | nil => exact Nat.le_refl _
  | again _ _ ih => exact ih
  | next _ ih => omega

private theorem looks_none {P : List Op → List Op → Prop} {N : Nat} (h : ∀ b d, P b d → d = b) : Looks P N N := by
  intro b d hp hb
  rw [h b d hp]
  exact ⟨hb, [], by simp, .nil⟩

private theorem looks_both {P Q R : List Op → List Op → Prop} {N M L : Nat} (h1 : Looks P N M) (h2 : Looks Q M L)
    (h : ∀ b d, R b d → ∃ c, P b c ∧ Q c d) : Looks R N L := by
  intro b d hr hb
  obtain ⟨c, hp, hq⟩ := h b d hr
  obtain ⟨a1, ks, a2, a3⟩ := h1 b c hp hb
  obtain ⟨b1, ls, b2, b3⟩ := h2 c d hq a1
  exact ⟨b1, ks ++ ls, by rw [b2, a2, List.append_assoc], a3.append b3⟩

private theorem doc_value {C : Nat → GTy} {G : Graph} {seen seen' : List Nat} {ty : GTy} {nm : Bytes} {o : Obj} {it : Item}
    (h : DocI C G seen ty nm o it seen') (hs : ty.isScope = false) : seen' = seen := by
  cases h with
  | plain _ => rfl
  | _ => simp [GTy.isScope] at hs

private theorem has_key {nv : Val → Val} (hk : Keeps nv) {env : Env} {k key : Nat} (h64 : k < 2 ^ 64) {t : ScopeTy}
    {vs : List (Bytes × Val)} {ns : List (Bytes × Node)} (h : HasKey env (.mk t ((keyName, nv (.int .u64 k)) :: vs) ns) key) :
    key = k := by
  obtain ⟨v, h1, h2⟩ := h
  simp only [findName, beq_self_eq_true, if_true] at h1
  cases h1
  obtain ⟨t', e1, e2, e3⟩ := hk.int .u64 k (by simp [IntTy.lo, IntTy.signed]) (by
    simp only [IntTy.hi, IntTy.signed, IntTy.bits]; simp; omega)
  rw [e1] at h2
  simp only [pasteVal] at h2
  rw [int_paste env.strtod .u64 t' k (by simp [IntTy.lo, IntTy.signed]) (by
    simp only [IntTy.hi, IntTy.signed, IntTy.bits]; simp; omega) e2 e3] at h2
  simp only [Res.ok_bind] at h2
  cases h2
  rfl

section
variable {nv : Val → Val} (hk : Keeps nv) {env : Env} {C : Nat → GTy} {G : Graph} (hC : ∀ c, (C c).Ok)
include hk hC

private theorem looks_item {seen seen' : List Nat} {ty : GTy} {nm : Bytes} {o : Obj} {it : Item}
    (h : DocI C G seen ty nm o it seen') : ty.Ok → ∀ (nm' : Bytes) (t : ScopeTy) (kids : List Item), it = .scope nm' t kids →
    Looks (Restores env C ty (nodeOf t (Norm.items nv (t == .object) kids))) seen.length seen'.length := by
  refine DocI.rec
    (motive_1 := fun seen ty _ _ it seen' _ => ty.Ok → ∀ (nm' : Bytes) (t : ScopeTy) (kids : List Item), it = .scope nm' t kids →
      Looks (Restores env C ty (nodeOf t (Norm.items nv (t == .object) kids))) seen.length seen'.length)
    (motive_2 := fun seen e _ is seen' _ => e.isScope = true → e.Ok → ∀ (t : ScopeTy) (vs : List (Bytes × Val)),
      Looks (Restores env C (.vec e) (.mk t vs (nodesOf (Norm.items nv false is)))) seen.length seen'.length)
    (motive_3 := fun seen fs _ is seen' _ => fs.Ok → fs.names.Nodup → ∀ (pre : List Item) (t : ScopeTy)
      (vs : List (Bytes × Val)), (∀ j ∈ pre, itemName j ∉ fs.names) →
      Looks (Restores env C (.record fs) (.mk t vs (nodesOf (pre ++ Norm.items nv true is)))) seen.length seen'.length)
    ?plain ?vec ?record ?known ?new ?lnil ?lcons ?fnil ?fcons h
  case plain =>
    intro seen ty nm o _ _ nm' t kids _
    exact looks_none fun b d h => by cases h; rfl
  case vec =>
    intro seen e nm xs is seen' _ ih hok nm' t kids hit
    cases hit
    rw [nodeOf, contentL_eq]
    exact ih hok.1 hok.2 _ _
  case record =>
    intro seen fs nm xs is seen' _ ih hok nm' t kids hit
    cases hit
    rw [nodeOf, contentL_eq]
    exact ih hok.2.2 hok.2.1 [] _ _ (by simp)
  case known =>
    intro seen w nm a k h1 h2 _ nm' t kids hit
    cases hit
    rw [nodeOf, contentL_eq]
    obtain ⟨hlt, -⟩ := List.getElem?_eq_some_iff.mp h1
    intro b d hr hb
    cases hr with
    | known g1 g2 =>
      cases has_key hk h2 g1
      exact ⟨by rw [added_append]; simpa [added] using hb, _, looked_append _ _, .again hlt .nil⟩
    | newValue g1 g2 g3 =>
      cases has_key hk h2 g1
      refine ⟨?_, [_], by simp [looked_append, lookedUp], .again hlt .nil⟩
      intro x hx
      simp only [added_append, added, List.append_nil, List.mem_append, List.mem_singleton] at hx
      rcases hx with hx | rfl
      · exact hb x hx
      · exact hlt
    | newScope g1 g2 g3 g4 => cases g4
  case new =>
    intro seen w nm a i seen' h1 h2 h3 ih _ nm' t kids hit
    cases hit
    rw [nodeOf, contentL_eq]
    intro b d hr hb
    cases hr with
    | known g1 g2 =>
      cases has_key hk h2 g1
      exact absurd (hb _ g2) (by omega)
    | newValue g1 g2 g3 =>
      cases has_key hk h2 g1
      cases doc_value h3 g3
      rw [List.length_append]
      refine ⟨?_, [_], by simp [looked_append, lookedUp], .next .nil⟩
      intro x hx
      simp only [added_append, added, List.append_nil, List.mem_append, List.mem_singleton] at hx
      rw [List.length_singleton]
      rcases hx with hx | rfl
      · have := hb x hx; omega
      · omega
    | newScope g1 g2 g3 g4 g5 =>
      cases has_key hk h2 g1
      obtain ⟨kids, rfl⟩ := doc_scope h3 g3
      simp only [Norm.items, Norm.item, nodesOf, scopesOf, List.map_cons, findName] at g4
      rw [if_pos (by simp)] at g4
      cases g4
      obtain ⟨a1, ls, a2, a3⟩ := ih (hC _) _ _ _ rfl _ _ g5 (by
        intro x hx
        rw [added_append] at hx
        have := hb x (by simpa [added] using hx)
        rw [List.length_append]
        omega)
      rw [List.length_append, List.length_singleton] at a3
      refine ⟨?_, _ :: ls, by rw [looked_append, a2, looked_append]; simp [lookedUp], .next a3⟩
      intro x hx
      rw [added_append] at hx
      rcases List.mem_append.mp hx with hx | hx
      · exact a1 x hx
      · simp only [added, List.mem_singleton] at hx
        have := a3.le
        omega
  case lnil =>
    intro seen e _ _ t vs
    exact looks_none fun b d h => by cases h; rfl
  case lcons =>
    intro seen e x xs i is seen1 seen' h1 h2 ih1 ih2 hs hok t vs
    obtain ⟨kids, rfl⟩ := doc_scope h1 hs
    refine looks_both (ih1 hok _ _ _ rfl) (ih2 hs hok t vs) ?_
    intro b d hr
    cases hr with
    | item g1 g2 => exact ⟨_, g1, g2⟩
  case fnil =>
    intro seen _ _ pre t vs _
    exact looks_none fun b d h => by cases h; rfl
  case fcons =>
    intro seen nm ty rest x xs i is seen1 seen' h1 h2 ih1 ih2 hok hn pre t vs hp
    have hname := doc_name h1
    rw [GFields.names, List.nodup_cons] at hn
    have ih := ih2 hok.2 hn.2 (pre ++ [Norm.item nv true i]) t vs (by
      intro j hj
      rcases List.mem_append.mp hj with hj | hj
      · intro hc
        exact hp j hj (by rw [GFields.names]; exact List.mem_cons_of_mem _ hc)
      · rw [List.mem_singleton.mp hj, norm_name, hname]
        exact hn.1)
    rw [List.append_assoc, List.singleton_append] at ih
    rw [Norm.items]
    by_cases hs : ty.isScope = true
    · obtain ⟨kids, rfl⟩ := doc_scope h1 hs
      refine looks_both (ih1 hok.1 _ _ _ rfl) ih ?_
      intro b d hr
      cases hr with
      | value g1 _ => rw [hs] at g1; cases g1
      | scope _ g1 g2 g3 =>
        rw [nodesOf_append, findName_append, findName_none (nm := nm) (xs := nodesOf pre) (by
          intro x hx he
          obtain ⟨t2, k2, hm⟩ := mem_nodesOf hx
          refine hp _ hm ?_
          rw [itemName, he, GFields.names]
          exact List.mem_cons_self ..), Option.none_or] at g1
        simp only [Norm.item, if_true, nodesOf, scopesOf, List.map_cons, findName, beq_self_eq_true] at g1
        cases g1
        exact ⟨_, g2, g3⟩
    · cases doc_value h1 (by simpa using hs)
      intro b d hr
      cases hr with
      | value _ g2 => exact ih b d g2
      | scope g1 => exact absurd g1 hs


end

/-- C95 (what holds): the keys of an object that was stored are looked up in the order in which they were given when it is
restored from the loaded tree, for all types and formats, so that what is done is in proportion to its pointers. What is
missing: documents that were not stored so. For objects that are restored while reading see `stored_read_partial`. -/
theorem stored_loaded_partial {σ : Type} {nv : Val → Val} (hk : Keeps nv) (env : Env) (cs : HTable.Cfg Nat) (C : Nat → GTy) (G : Graph)
    (dom : List Nat) (hG : G.Ok C dom) (ha : G.Acyclic C) (ty : GTy) (o old : Obj) (hok : ty.Ok) (hs : ty.isScope = true)
    (ho : Shared.Storable ty o) (hp : PtrsOk G dom (refs ty o)) (hold : Shared.WT ty old) :
    ∃ D kids seen, DocI C G [] ty [] o (.scope [] ty.scopeTy kids) seen ∧
      (∀ f, D ≤ f → ∃ t, Shared.store cs C G f [] ty o Seen.new = .ok (.scope [] ty.scopeTy kids, t)) ∧
      ∀ (read : σ → Res (Event × σ)) (s s' : σ) (fuel : Nat),
        Emits read s (Norm.item nv false (.scope [] ty.scopeTy kids)).events s' →
        (Item.scope [] ty.scopeTy kids).events.length ≤ fuel → Item.depthL kids ≤ maxDepth →
        RestoredInOrder env C G ty o old read fuel s := by
  obtain ⟨D, kids, seen, h1, h2, h3⟩ := shared_restored (σ := σ) hk cs keys env C G dom hG ha ty o old hok hs ho hp hold
  refine ⟨D, kids, seen, h1, h2, fun read s s' fuel he hf hd => ?_⟩
  obtain ⟨y, heap, h4, h5⟩ := (h3 read s s' fuel he hf).2 hd
  obtain ⟨r, s1, ops, t, k, g1, g2, g3, -⟩ := pointers_restored h4
  have hord : KeysInOrder 0 (lookedUp ops) := by
    rw [← Norm.events_length nv false] at hf
    simp only [Norm.item, Bool.false_eq_true, if_false] at he hf
    have hl := load_item read [] ty.scopeTy _ fuel s s' he (by simp [Item.events] at hf; omega)
    rw [if_pos (by rw [Norm.depth_items]; exact hd), g1] at hl
    cases hl
    obtain ⟨-, ls, e1, e2⟩ := looks_item hk hG.types h1 hok _ _ _ rfl _ _ g2 (by simp [added])
    rw [e1]
    exact e2.order
  refine ⟨y, heap, r, s1, ops, t, k, h4, h5, g1, g2, hord, g3, fun h32 => ?_⟩
  obtain ⟨t', k', c1, -, c2⟩ := pointers_loaded_partial h4 g1 g2 hord h32
  rw [g3] at c1
  cases c1
  exact c2

/-- C95 with the format Srl -/
theorem stored_srl_partial (m : Mem) (hm : m.Sane) (env : Env) (cs : HTable.Cfg Nat) (C : Nat → GTy) (G : Graph)
    (dom : List Nat) (hG : G.Ok C dom) (ha : G.Acyclic C) (ty : GTy) (o old : Obj) (hok : ty.Ok) (hs : ty.isScope = true)
    (ho : Shared.Storable ty o) (hp : PtrsOk G dom (refs ty o)) (hold : Shared.WT ty old) :
    ∃ D it, (∀ f, D ≤ f → ∃ t, Shared.store cs C G f [] ty o Seen.new = .ok (it, t)) ∧
      (PSrl.ItemOk it → it.events.length < 2 ^ 64 → it.depth ≤ maxDepth + 1 →
        ∃ st bs, PSrl.writeAll PSrl.St.init it.events = .ok (st, bs) ∧ ∀ rest fuel, it.events.length ≤ fuel →
          RestoredInOrder env C G ty o old (PSrl.read m) fuel (PSrl.St.init, bs ++ rest)) := by
  obtain ⟨D, kids, seen, -, h1, h2⟩ := stored_loaded_partial (σ := PSrl.St × Bytes) keeps_srl env cs C G dom hG ha ty o old hok hs ho hp hold
  refine ⟨D, _, h1, fun hc hsize hd => ?_⟩
  obtain ⟨st, ⟨bs, h3, h4⟩, -, -⟩ := PSrl.codes_item hm _ PSrl.St.init hc (by simpa [PSrl.St.init] using hsize)
  refine ⟨st, bs, h3, fun rest fuel hf => ?_⟩
  have he := h4 rest
  rw [show PSrl.inObject PSrl.St.init = false from rfl, normItem_eq] at he
  exact h2 _ _ _ fuel he hf (by rw [Item.depth] at hd; omega)

/-- C95 with MessagePack -/
theorem stored_msgpack_partial (m : Mem) (hm : m.Sane) (env : Env) (cs : HTable.Cfg Nat) (C : Nat → GTy) (G : Graph)
    (dom : List Nat) (hG : G.Ok C dom) (ha : G.Acyclic C) (ty : GTy) (o old : Obj) (hok : ty.Ok) (hs : ty.isScope = true)
    (ho : Shared.Storable ty o) (hp : PtrsOk G dom (refs ty o)) (hold : Shared.WT ty old) :
    ∃ D it, (∀ f, D ≤ f → ∃ t, Shared.store cs C G f [] ty o Seen.new = .ok (it, t)) ∧
      (PMsgPack.ItemOk it → it.depth ≤ maxDepth + 1 → ∃ x bs, PMsgPack.writeAll ([], []) it.events = .ok (x, bs) ∧
        ∀ rest fuel, it.events.length ≤ fuel →
          RestoredInOrder env C G ty o old (PMsgPack.read m) fuel ([], bs ++ rest)) := by
  obtain ⟨D, kids, seen, -, h1, h2⟩ := stored_loaded_partial (nv := PMsgPack.normVal) keeps_msgpack env cs C G dom hG ha ty o old hok hs
    ho hp hold
  refine ⟨D, _, h1, fun hc hd => ?_⟩
  refine ⟨_, _, PMsgPack.writeAll_item (.scope [] ty.scopeTy kids) [] [], fun rest fuel hf => ?_⟩
  have he := PMsgPack.emits_item hm _ [] _ rest (by simp [PMsgPack.Open]) (PMsgPack.writeItem_enc _ false hc)
  exact h2 _ _ _ fuel he hf (by rw [Item.depth] at hd; omega)

/-- C95 with JSON, in both layouts -/
theorem stored_json_partial (m : Mem) (hm : m.Sane) (env : Env) (compact : Bool) (cs : HTable.Cfg Nat) (C : Nat → GTy) (G : Graph)
    (dom : List Nat) (hG : G.Ok C dom) (ha : G.Acyclic C) (ty : GTy) (o old : Obj) (hok : ty.Ok) (hs : ty.isScope = true)
    (ho : Shared.Storable ty o) (hp : PtrsOk G dom (refs ty o)) (hold : Shared.WT ty old) :
    ∃ D it, (∀ f, D ≤ f → ∃ t, Shared.store cs C G f [] ty o Seen.new = .ok (it, t)) ∧
      (JsonItem env false it → it.depth ≤ maxDepth + 1 →
        ∃ bs w, PJson.writeAll env.dtoa compact PJson.Wr.new it.events = .ok (bs, w) ∧ ∀ rest fuel, it.events.length ≤ fuel →
          RestoredInOrder env C G ty o old (PJson.read m env.strtod) fuel (PJson.Rd.new, bs ++ rest)) := by
  obtain ⟨D, kids, seen, h0, h1, h2⟩ := stored_loaded_partial (keeps_json env) env cs C G dom hG ha ty o old hok hs ho hp hold
  refine ⟨D, _, h1, fun hc hd => ?_⟩
  have hi := doc_json m env h0 false hc
  simp only [PJson.ItemOk] at hi
  obtain ⟨bs, h3, h4⟩ := PJson.emits_doc hm env.strtod env.dtoa compact (nvKept env) [] ty.scopeTy kids hi.2
  refine ⟨bs, _, h3, fun rest fuel hf => ?_⟩
  obtain ⟨r', h5⟩ := h4 rest PJson.Rd.new rfl
  exact h2 _ _ _ fuel h5 hf (by rw [Item.depth] at hd; omega)

/-! ### Example -/

/-- A class with a pointer to a number, and numbers -/
def twoClasses : Nat → GTy
  | 0 => .record (.cons [97] (.shared false 1) .nil)
  | _ => .plain (.int .u64)

/-- An object with a pointer to a number -/
def twoObjects : Graph where
  cls a := if a = 0 then 0 else 1
  obj a := if a = 0 then .many [addr 1] else .int 7

/-- The hypotheses are met by two pointers to an object with a pointer to a number. -/
theorem two_objects : twoObjects.Ok twoClasses [0, 1] ∧ twoObjects.Acyclic twoClasses ∧ (GTy.vec (.shared false 0)).Ok ∧
    Shared.Storable (.vec (.shared false 0)) (.many [addr 0, addr 0]) ∧
    PtrsOk twoObjects [0, 1] (refs (.vec (.shared false 0)) (.many [addr 0, addr 0])) := by
  refine ⟨⟨?_, ?_, ?_, by decide⟩, ⟨fun a => if a = 0 then 1 else 0, ?_⟩, ⟨rfl, trivial⟩, ⟨_, rfl, ?_⟩, ?_⟩
  · intro c
    unfold twoClasses
    split
    · exact ⟨by decide, by decide, trivial, trivial⟩
    · simp [GTy.Ok, Typed.Ty.Ok]
  · intro a ha
    simp only [List.mem_cons, List.not_mem_nil, or_false] at ha
    rcases ha with rfl | rfl
    · exact ⟨_, rfl, _, _, rfl, ⟨1, rfl⟩, rfl⟩
    · simp [twoObjects, twoClasses, Shared.Storable, Typed.Storable, IntTy.lo, IntTy.hi, IntTy.signed, IntTy.bits]
  · intro a ha r hr
    simp only [List.mem_cons, List.not_mem_nil, or_false] at ha
    rcases ha with rfl | rfl
    · simp [twoObjects, twoClasses, refs, refsL, addr] at hr
      subst hr
      simp [twoObjects]
    · simp [twoObjects, twoClasses, refs] at hr
  · intro a r hr
    by_cases h : a = 0
    · subst h
      simp [twoObjects, twoClasses, refs, refsL, addr] at hr
      subst hr
      simp
    · simp [twoObjects, h, twoClasses, refs] at hr
  · intro x hx
    exact ⟨0, by simpa using hx⟩
  · intro r hr
    simp [refs, addr] at hr
    subst hr
    simp [twoObjects]

end Srl.Props
