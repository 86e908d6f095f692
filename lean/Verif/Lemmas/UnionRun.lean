import Verif.Lemmas.Union

/-! Unpacking objects and unions. -/

namespace Srl.Typed
open Doc

variable {σ : Type} {nv : Val → Val}

theorem none_of_name {pre : List Item} {nm : Bytes} (hm : nm ∉ pre.map itemName) :
    findName nm (valuesOf pre) = none ∧ findName nm (nodesOf pre) = none := by
  constructor
  · cases hf1 : findName nm (valuesOf pre) with
    | none => rfl
    | some v =>
      have : nm ∈ kindNames false pre := by rw [kindNames_false, ← findName_isSome, hf1]; rfl
      obtain ⟨x, hx, h1, -⟩ := kindNames_mem this
      exact absurd (List.mem_map.mpr ⟨x, hx, h1⟩) hm
  · cases hf1 : findName nm (nodesOf pre) with
    | none => rfl
    | some v =>
      have : nm ∈ kindNames true pre := by rw [kindNames_true, ← findName_isSome, hf1]; rfl
      obtain ⟨x, hx, h1, -⟩ := kindNames_mem this
      exact absurd (List.mem_map.mpr ⟨x, hx, h1⟩) hm

/-- An object of which the item is stored or follows. -/
theorem pasteObj_at (hk : Keeps nv) (env : Env) {read : σ → Res (Event × σ)} {items pre post : List Item} {closed : Bool}
    {asked used : List Bytes} {n : LNode} {s s' : σ} {fuel : Nat} {nm : Bytes} {ty : Ty} {o old : Obj}
    (h : At read items closed asked n s s' pre post used) (hn : (items.map itemName).Nodup) (hu : nm ∉ used)
    (hi : Norm.item nv true (toItem nm ty o) ∈ items) (hok : ty.Ok) (htab : ty.Tables True false) (hs : Storable ty o)
    (hw : WT ty old) (hf : (Item.eventsL items).length < fuel) (hd : Item.depthL items ≤ maxDepth)
    (rest : List (Bytes × Target)) :
    (closed = true ∧ nm ∉ pre.map itemName ∧ pasteAll env read fuel ((nm, .obj ty old) :: rest) n s = .err) ∨
    ∃ n' s1 pre' post', pasteAll env read fuel ((nm, .obj ty old) :: rest) n s =
        (do let ys ← pasteAll env read fuel rest n' s1; .ok (.obj o :: ys)) ∧
      (closed = true → nm ∈ pre.map itemName) ∧
      At read items closed (nm :: asked) n' s1 s' pre' post' (nm :: used) := by
  have hnp := name_mem_nodup hn h.whole
  have hname := (norm_name (nv := nv) hs nm).1
  have hfp : (Item.eventsL post).length < fuel := by
    have := h.whole
    rw [this, Item.eventsL_append, List.length_append] at hf; omega
  have hdp : Item.depthL post ≤ maxDepth := by
    have := h.whole
    rw [this, depthL_append] at hd; omega
  obtain ⟨w1, w2⟩ := item_find hn hi
  by_cases hsc : ty.isScope = true
  · rw [norm_scope nv hs hsc] at hi w1 w2 hname
    simp only [if_true, itemName] at w1 w2
    cases closed with
    | true =>
      by_cases hm : nm ∈ pre.map itemName
      · right
        obtain ⟨-, f2⟩ := item_find hnp (name_mem hn h.whole hi hm)
        simp only [if_true, itemName] at f2
        refine ⟨n, s, pre, post, ?_, fun _ => hm, h.again hm (h.inv.used _) h.parsed⟩
        simp only [pasteAll, hsc, if_true, h.parsed, lookup_name, h.inv.findN hu, f2, Res.ok_bind,
          eager hk env ty o old hok hsc hs hw]
      · left
        refine ⟨rfl, hm, ?_⟩
        simp only [pasteAll, hsc, if_true, h.parsed, lookup_name, h.inv.findN hu, (none_of_name hm).2]
        rfl
    | false =>
      right
      rcases consumeNode_named (total := fuel) h.inv hu h.parsed (h.left rfl) hfp hdp with
        ⟨t, vs, ns, n', e1, e2, e3, e4, e5⟩ | ⟨a, t, kids, b, s2, s3, n', e1, e2, e3, e4, e5, e6, e7⟩ | ⟨e1, -⟩
      · have hm : nm ∈ pre.map itemName := by
          obtain ⟨x, hx, rfl, -⟩ := kindNames_mem e5
          exact List.mem_map_of_mem hx
        rw [← h.whole, w2] at e1
        simp only [Option.some.injEq] at e1
        refine ⟨n', s, pre, post, ?_, fun e => (by cases e), h.again hm e4 e3⟩
        simp only [pasteAll, hsc, if_true, h.parsed, Bool.false_eq_true, if_false, e2, Res.ok_bind,
          paste_parsed env read fuel ty old ⟨t, vs, ns, true⟩ s rfl, ← e1, eager hk env ty o old hok hsc hs hw]
        simp only [finish, if_true, Res.ok_bind]
      · rw [← h.whole] at e2
        have hfn : findName nm (nodesOf items) = some (nodeOf t kids) := by
          rw [findName_nodesOf, e2]; rfl
        have hmem : Item.scope nm t kids ∈ items := by rw [h.whole, e1]; simp
        have heq := inj_of_nodup hn hmem hi (by simp [itemName])
        simp only [Item.scope.injEq, if_true, true_and] at heq
        obtain ⟨rfl, rfl⟩ := heq
        have hlk : (Item.eventsL (kidsN nv ty o)).length < fuel ∧ Item.depthL (kidsN nv ty o) ≤ maxDepth := by
          rw [e1] at hfp hdp
          rw [Item.eventsL_append, List.length_append, eventsL_scope_length] at hfp
          rw [depthL_append] at hdp
          simp only [Item.depthL, Item.depth] at hdp
          omega
        obtain ⟨hfk, hck⟩ := plain_fits ty ty.scopeTy (kidsN nv ty o) hok (plain_stored nv ty o false hok htab hsc hs fun e he => by
          subst he
          cases htab.2.1)
        have hag := paste_agrees env read fuel ty old ty.scopeTy (kidsN nv ty o) s2 s3 hok hsc hw hfk e6 hlk.1 hlk.2
        rw [eager hk env ty o old hok hsc hs hw] at hag
        obtain ⟨⟨c, s4⟩, hp1, ht⟩ := hag
        have hat := h.next (i := .scope nm ty.scopeTy (kidsN nv ty o)) e1 e5 e4 e7
        refine ⟨n', s3, _, _, ?_, fun e => (by cases e), hat⟩
        simp only [pasteAll, hsc, if_true, h.parsed, Bool.false_eq_true, if_false, e3, Res.ok_bind, hp1,
          finish_tail ht hck hlk.1]
      · rw [← h.whole, w2] at e1
        cases e1
  · rw [Bool.not_eq_true] at hsc
    obtain ⟨v, h1, h2⟩ := stored_value ty o hs hsc
    rw [h1] at hi w1 w2 hname
    simp only [Norm.item, if_true, itemName] at w1 w2 hi
    have hpv := (h2 nv hk).2 env old
    cases closed with
    | true =>
      by_cases hm : nm ∈ pre.map itemName
      · right
        obtain ⟨f1, -⟩ := item_find hnp (name_mem hn h.whole hi hm)
        simp only [itemName] at f1
        refine ⟨n, s, pre, post, ?_, fun _ => hm, h.again hm (h.inv.used _) h.parsed⟩
        simp only [pasteAll, hsc, Bool.false_eq_true, if_false, if_true, h.parsed, lookup_name, h.inv.findV hu, f1, Res.ok_bind,
          hpv]
      · left
        refine ⟨rfl, hm, ?_⟩
        simp only [pasteAll, hsc, Bool.false_eq_true, if_false, if_true, h.parsed, lookup_name, h.inv.findV hu,
          (none_of_name hm).1]
        rfl
    | false =>
      right
      rcases consumeValue_named (total := fuel) h.inv hu h.parsed (h.left rfl) hfp hdp with
        ⟨v', n', e1, e2, e3, e4, e5⟩ | ⟨a, v', b, s2, n', e1, e2, e3, e4, e5, e6⟩ | ⟨e1, -⟩
      · have hm : nm ∈ pre.map itemName := by
          obtain ⟨x, hx, rfl, -⟩ := kindNames_mem e5
          exact List.mem_map_of_mem hx
        rw [← h.whole, w1] at e1
        simp only [Option.some.injEq] at e1
        refine ⟨n', s, pre, post, ?_, fun e => (by cases e), h.again hm e4 e3⟩
        simp only [pasteAll, hsc, h.parsed, Bool.false_eq_true, if_false, e2, Res.ok_bind, ← e1, hpv]
      · rw [← h.whole, w1] at e2
        simp only [Option.some.injEq] at e2
        subst e2
        have hat := h.next (i := .val nm (nv v)) e1 e5 e4 e6
        refine ⟨n', s2, _, _, ?_, fun e => (by cases e), hat⟩
        simp only [pasteAll, hsc, h.parsed, Bool.false_eq_true, if_false, e3, Res.ok_bind, hpv]
      · rw [← h.whole, w1] at e1
        cases e1

/-- All that is asked for, one after the other. -/
theorem pasteAll_at (hk : Keeps nv) (env : Env) {read : σ → Res (Event × σ)} {fs : Fields} {xs : List Obj} {s' : σ}
    {fuel : Nat} (hok : fs.Ok) (htab : fs.Tables True) (hs : StorableL fs xs) (hn : fs.names.Nodup)
    (hf : (Item.eventsL (Norm.items nv true (fieldItems fs xs))).length < fuel)
    (hd : Item.depthL (Norm.items nv true (fieldItems fs xs)) ≤ maxDepth) :
    ∀ (qs : List (Bytes × Target)) (closed : Bool) (asked used : List Bytes) (n : LNode) (s : σ) (pre post : List Item),
      At read (Norm.items nv true (fieldItems fs xs)) closed asked n s s' pre post used →
      (∀ q ∈ qs, Request fs xs q) → (qs.map (·.1)).Nodup → (∀ q ∈ qs, q.1 ∉ asked) →
      (Timely fs.names closed asked qs → ∃ gs, pasteAll env read fuel qs n s = .ok gs ∧ AllGiven fs xs qs gs) ∧
      (¬ Timely fs.names closed asked qs → pasteAll env read fuel qs n s = .err)
  | [], closed, asked, used, n, s, pre, post, _, _, _, _ =>
    ⟨fun _ => ⟨[], rfl, trivial⟩, fun h => absurd trivial h⟩
  | (nm, .obj ty old) :: rest, closed, asked, used, n, s, pre, post, h, hr, hnd, ha => by
    have hni : ((Norm.items nv true (fieldItems fs xs)).map itemName).Nodup := by
      rw [stored_names fs xs hs]; exact hn
    simp only [List.map_cons, List.nodup_cons] at hnd
    obtain ⟨hw, o, hp⟩ := hr (nm, .obj ty old) (List.mem_cons_self ..)
    have hna := ha (nm, .obj ty old) (List.mem_cons_self ..)
    obtain ⟨h1, h2, h3, -⟩ := packed_spec hp hok htab hs
    have hmem := h.mem (nm := nm) hni
    rw [stored_names fs xs hs] at hmem
    rcases pasteObj_at hk env h hni (fun hu => hna (h.usedIn nm hu)) (packed_mem hp hs hn) h1 h2 h3 hw hf hd rest with
      ⟨e1, e2, e3⟩ | ⟨n', s1, pre', post', e1, e2, e3⟩
    · refine ⟨fun ht => ?_, fun _ => e3⟩
      simp only [Timely] at ht
      exact absurd (hmem.mp (ht.1 e1)) e2
    · have ih := pasteAll_at hk env hok htab hs hn hf hd rest closed (nm :: asked) (nm :: used) n' s1 pre' post' e3
        (fun q hq => hr q (List.mem_cons_of_mem _ hq)) hnd.2 (fun q hq hc => by
          rcases List.mem_cons.mp hc with hc | hc
          · exact hnd.1 (List.mem_map.mpr ⟨q, hq, hc⟩)
          · exact ha q (List.mem_cons_of_mem _ hq) hc)
      rw [e1]
      simp only [Timely, Bool.or_false]
      constructor
      · rintro ⟨-, ht⟩
        obtain ⟨gs, g1, g2⟩ := ih.1 ht
        exact ⟨.obj o :: gs, by rw [g1]; rfl, hp, g2⟩
      · intro hnt
        rw [ih.2 fun ht => hnt ⟨fun hc => hmem.mpr (e2 hc), ht⟩]
        rfl
  | (nm, .union) :: rest, closed, asked, used, n, s, pre, post, h, hr, hnd, ha => by
    have hni : ((Norm.items nv true (fieldItems fs xs)).map itemName).Nodup := by
      rw [stored_names fs xs hs]; exact hn
    simp only [List.map_cons, List.nodup_cons] at hnd
    have hin : nm ∈ fs.names := hr (nm, .union) (List.mem_cons_self ..)
    obtain ⟨ty, o, hp⟩ := packed_of_name hs hin
    have hna := ha (nm, .union) (List.mem_cons_self ..)
    obtain ⟨h1, h2, h3, -⟩ := packed_spec hp hok htab hs
    have hmem := h.mem (nm := nm) hni
    rw [stored_names fs xs hs] at hmem
    have hname := (norm_name (nv := nv) h3 nm).1
    have hun := pasteUnion_at (i := Norm.item nv true (toItem nm ty o)) h hni (by
      rw [hname]; exact fun hu => hna (h.usedIn nm hu)) (packed_mem hp hs hn) hf hd
    rw [hname] at hun
    rcases hun with ⟨e1, e2, e3⟩ | ⟨n', s1, pre', post', e1, e2, e3⟩
    · refine ⟨fun ht => ?_, fun _ => ?_⟩
      · simp only [Timely] at ht
        exact absurd (hmem.mp (ht.1 e1)) e2
      · simp only [pasteAll, e3]
        rfl
    · have ih := pasteAll_at hk env hok htab hs hn hf hd rest true (nm :: asked) (nm :: used) n' s1 pre' post' e3
        (fun q hq => hr q (List.mem_cons_of_mem _ hq)) hnd.2 (fun q hq hc => by
          rcases List.mem_cons.mp hc with hc | hc
          · exact hnd.1 (List.mem_map.mpr ⟨q, hq, hc⟩)
          · exact ha q (List.mem_cons_of_mem _ hq) hc)
      simp only [pasteAll, e1, Res.ok_bind, Timely, Bool.or_true]
      constructor
      · rintro ⟨-, ht⟩
        obtain ⟨gs, g1, g2⟩ := ih.1 ht
        refine ⟨.union (uniOf (Norm.item nv true (toItem nm ty o))) :: gs, by rw [g1]; rfl, ?_, g2⟩
        intro ty' o' hp'
        have heq : ty' = ty ∧ o' = o := packed_unique hn hp' hp
        obtain ⟨rfl, rfl⟩ := heq
        exact fun names ty o hpath => holds_stored hk names nm true _ _ h1 h3 ty o hpath
      · intro hnt
        rw [ih.2 fun ht => hnt ⟨fun hc => hmem.mpr (e2 hc), ht⟩]
        rfl

end Srl.Typed
