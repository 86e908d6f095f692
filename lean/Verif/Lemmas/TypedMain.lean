import Verif.Lemmas.TypedFields

namespace Srl.Typed

open Doc

variable {σ : Type}

/-! ## Fields by position -/

/-- Everything read but the first `ni` nodes and `vi` values is still stored, in order. -/
def InvP (ni vi : Nat) (n : LNode) (pre : List Item) : Prop :=
  n.parsed = false ∧ n.nodes = (nodesOf pre).drop ni ∧ n.values = (valuesOf pre).drop vi ∧
    ni ≤ (nodesOf pre).length ∧ vi ≤ (valuesOf pre).length

section positional
variable {read : σ → Res (Event × σ)} {total : Nat} {ni vi i : Nat} {n : LNode}
  {pre post : List Item} {s s' : σ}

theorem nodesOf_length (items : List Item) : (nodesOf items).length = (scopesOf items).length := by
  simp [nodesOf]

theorem consumeNode_pos (hi : InvP ni vi n pre)
    (he : Left read post s s') (hf : (Item.eventsL post).length < total)
    (hd : Item.depthL post ≤ maxDepth) :
    (∃ m t vs ns n', (nodesOf (pre ++ post))[ni]? = some (m, .mk t vs ns) ∧
      consumeNode read total (.index i) n s = .ok (some (m, ⟨t, vs, ns, true⟩), n', s) ∧
      InvP (ni + 1) vi n' pre) ∨
    (∃ a m t kids b s1 s2 n', post = a ++ .scope m t kids :: b ∧
      (scopesOf (pre ++ post))[ni]? = some (m, t, kids) ∧
      consumeNode read total (.index i) n s = .ok (some (m, .fresh t), n', s1) ∧
      InvP (ni + 1) vi n' (pre ++ a ++ [.scope m t kids]) ∧
      Left read kids s1 s2 ∧ Left read b s2 s') ∨
    ((nodesOf (pre ++ post))[ni]? = none ∧
      ∃ n' s1, consumeNode read total (.index i) n s = .ok (none, n', s1)) := by
  obtain ⟨hp, hN, hV, hni, hvi⟩ := hi
  cases hn : n.nodes with
  | cons x xs =>
    left
    obtain ⟨m, ⟨t, vs, ns⟩⟩ := x
    have hlt : ni < (nodesOf pre).length := by
      rcases Nat.lt_or_ge ni (nodesOf pre).length with h | h
      · exact h
      · rw [List.drop_eq_nil_of_le h] at hN; rw [hN] at hn; cases hn
    have hd2 := List.drop_eq_getElem_cons hlt
    rw [hN, hd2] at hn
    injection hn with hx hxs
    refine ⟨m, t, vs, ns, { n with nodes := xs }, ?_, ?_, hp, hxs.symm, hV, hlt, hvi⟩
    · rw [nodesOf_append, List.getElem?_append_left hlt, List.getElem?_eq_getElem hlt, hx]
    · rw [hd2, hx, hxs] at hN
      simp [consumeNode, hN, takeOut]
  | nil =>
    right
    have hge : (nodesOf pre).length ≤ ni := by
      rw [hN] at hn; exact List.drop_eq_nil_iff.mp hn
    have hni' : ni = (nodesOf pre).length := by omega
    have e : consumeNode read total (.index i) n s
        = (do let (r, n, s) ← seekNode read total (.index i) n s; .ok (r.map (fun x => (x.1, LNode.fresh x.2)), n, s)) := by
      simp [consumeNode, hn, takeOut]
    rcases seekNode_spec read (.index i) post total n s s' hp he hf hd with
      ⟨a, nm, t, kids, b, s1, s2, hpost, _, hno, hs, hk, hb⟩ | ⟨hno, hs⟩
    · left
      have ha : scopesOf a = [] := by
        cases h : scopesOf a with
        | nil => rfl
        | cons x xs => have := hno x (by rw [h]; exact List.mem_cons_self ..); simp [Sel.hits] at this
      refine ⟨a, nm, t, kids, b, s1, s2, n.add a, hpost, ?_, ?_, ?_, hk, hb⟩
      · rw [hpost, scopesOf_append, scopesOf_append, ha, hni', nodesOf_length,
          List.getElem?_append_right (Nat.le_refl _)]
        simp [scopesOf]
      · rw [e, hs]; rfl
      · refine ⟨hp, ?_, ?_, ?_, ?_⟩
        · simp [LNode.add, hn, nodesOf_append, nodesOf_eq_nil ha, nodesOf_scope, nodesOf_nil, hni']
        · simp only [LNode.add, hV, valuesOf_append, valuesOf, List.append_nil]
          rw [List.drop_append_of_le_length hvi]
        · simp [nodesOf_append, nodesOf_eq_nil ha, nodesOf_scope, nodesOf_nil, hni']
        · simp only [valuesOf_append, List.length_append]; omega
    · right
      have ha : scopesOf post = [] := by
        cases h : scopesOf post with
        | nil => rfl
        | cons x xs => have := hno x (by rw [h]; exact List.mem_cons_self ..); simp [Sel.hits] at this
      refine ⟨?_, _, _, by rw [e, hs]; rfl⟩
      rw [nodesOf_append, nodesOf_eq_nil ha, List.append_nil]
      exact List.getElem?_eq_none (by omega)

theorem consumeValue_pos (hi : InvP ni vi n pre)
    (he : Left read post s s') (hf : (Item.eventsL post).length < total)
    (hd : Item.depthL post ≤ maxDepth) :
    (∃ m v n', (valuesOf (pre ++ post))[vi]? = some (m, v) ∧
      consumeValue read total (.index i) n s = .ok (some (m, v), n', s) ∧
      InvP ni (vi + 1) n' pre) ∨
    (∃ a m v b s1 n', post = a ++ .val m v :: b ∧
      (valuesOf (pre ++ post))[vi]? = some (m, v) ∧
      consumeValue read total (.index i) n s = .ok (some (m, v), n', s1) ∧
      InvP ni (vi + 1) n' (pre ++ a ++ [.val m v]) ∧ Left read b s1 s') ∨
    ((valuesOf (pre ++ post))[vi]? = none ∧
      ∃ n' s1, consumeValue read total (.index i) n s = .ok (none, n', s1)) := by
  obtain ⟨hp, hN, hV, hni, hvi⟩ := hi
  cases hn : n.values with
  | cons x xs =>
    left
    obtain ⟨m, v⟩ := x
    have hlt : vi < (valuesOf pre).length := by
      rcases Nat.lt_or_ge vi (valuesOf pre).length with h | h
      · exact h
      · rw [List.drop_eq_nil_of_le h] at hV; rw [hV] at hn; cases hn
    have hd2 := List.drop_eq_getElem_cons hlt
    rw [hV, hd2] at hn
    injection hn with hx hxs
    refine ⟨m, v, { n with values := xs }, ?_, ?_, hp, hN, hxs.symm, hni, hlt⟩
    · rw [valuesOf_append, List.getElem?_append_left hlt, List.getElem?_eq_getElem hlt, hx]
    · rw [hd2, hx, hxs] at hV
      simp [consumeValue, hV, takeOut]
  | nil =>
    right
    have hge : (valuesOf pre).length ≤ vi := by
      rw [hV] at hn; exact List.drop_eq_nil_iff.mp hn
    have hvi' : vi = (valuesOf pre).length := by omega
    have e : consumeValue read total (.index i) n s = seekValue read total (.index i) n s := by
      simp [consumeValue, hn, takeOut]
    rcases seekValue_spec read (.index i) post total n s s' hp he hf hd with
      ⟨a, nm, v, b, s1, hpost, _, hno, hs, hb⟩ | ⟨hno, hs⟩
    · left
      have ha : valuesOf a = [] := by
        cases h : valuesOf a with
        | nil => rfl
        | cons x xs => have := hno x (by rw [h]; exact List.mem_cons_self ..); simp [Sel.hits] at this
      refine ⟨a, nm, v, b, s1, n.add a, hpost, ?_, ?_, ?_, hb⟩
      · rw [hpost, valuesOf_append, valuesOf_append, ha, hvi',
          List.getElem?_append_right (Nat.le_refl _)]
        simp [valuesOf]
      · rw [e, hs]
      · refine ⟨hp, ?_, ?_, ?_, ?_⟩
        · simp only [LNode.add, hN, nodesOf_append, nodesOf_val, nodesOf_nil, List.append_nil]
          rw [List.drop_append_of_le_length hni]
        · simp [LNode.add, hn, valuesOf_append, ha, valuesOf, hvi']
        · simp only [nodesOf_append, List.length_append]; omega
        · simp [valuesOf_append, ha, valuesOf, hvi']
    · right
      have ha : valuesOf post = [] := by
        cases h : valuesOf post with
        | nil => rfl
        | cons x xs => have := hno x (by rw [h]; exact List.mem_cons_self ..); simp [Sel.hits] at this
      refine ⟨?_, _, _, by rw [e, hs]⟩
      rw [valuesOf_append, ha, List.append_nil]
      exact List.getElem?_eq_none (by omega)

end positional

/-! ## Objects -/

mutual
theorem dflt_wt : ∀ ty, WT ty (dflt ty)
  | .bool => trivial
  | .int t => by cases t <;> simp [dflt, WT, IntTy.lo, IntTy.hi, IntTy.signed, IntTy.bits]
  | .float => by simp [dflt, WT]
  | .double => by simp [dflt, WT]
  | .str => trivial
  | .bytes => trivial
  | .vec e => by simp [dflt, WT]
  | .named e => by simp [dflt, WT]
  | .arr k e => by
    simp only [dflt, WT, List.length_replicate, true_and]
    intro x hx
    rw [List.eq_of_mem_replicate hx]
    exact dflt_wt e
  | .record _ _ fs => by simp only [dflt, WT]; exact dfltL_wt fs
  | .ptr _ _ => trivial
  | .sorted _ c => by simp only [dflt, WT]; exact dflt_wt c
theorem dfltL_wt : ∀ fs, WTL fs (dfltL fs)
  | .nil => trivial
  | .cons _ _ ty rest => ⟨dflt_wt ty, dfltL_wt rest⟩
end

theorem found_mono {k opt : Bool} {nm : Bytes} {i : Nat} {a : List Item} (b : List Item)
    (h : Found k opt nm i a) : Found k opt nm i (a ++ b) := by
  unfold Found at *
  split
  · rename_i h0
    rw [if_pos h0] at h
    rw [kindNames_append, List.length_append]; omega
  · rename_i h0
    rw [if_neg h0] at h
    rw [kindNames_append, kindNames_append]
    rcases h with h | ⟨h1, h2⟩
    · exact .inl (List.mem_append_left _ h)
    · exact .inr ⟨h1, List.mem_append_left _ h2⟩

theorem wants_mono {fs : Fields} : ∀ {ni vi : Nat} {a : List Item} (b : List Item),
    Wants fs ni vi (a ++ b) → Wants fs ni vi a := by
  match fs with
  | .nil => intro _ _ _ _ h; exact h
  | .cons _ _ _ rest =>
    intro ni vi a b h
    rcases h with h | h
    · exact .inl fun h' => h (found_mono b h')
    · exact .inr (wants_mono (fs := rest) b h)

/-- For fields with names the positions do not matter. -/
theorem wants_named {fs : Fields} : ∀ {ni vi ni' vi' : Nat} {a : List Item}, [] ∉ fs.names →
    Wants fs ni vi a → Wants fs ni' vi' a := by
  match fs with
  | .nil => intro _ _ _ _ _ _ h; exact h
  | .cons name _ _ rest =>
    intro ni vi ni' vi' a h0 h
    simp only [Fields.names, List.mem_cons, not_or] at h0
    rcases h with h | h
    · left
      intro h'
      apply h
      unfold Found at *
      rw [if_neg (Ne.symm h0.1)] at *
      exact h'
    · exact .inr (wants_named (fs := rest) h0.2 h)

theorem fitsL_named {fs : Fields} : ∀ {ni ni' : Nat} {a : List Item}, [] ∉ fs.names →
    FitsL fs ni a → FitsL fs ni' a := by
  match fs with
  | .nil => intro _ _ _ _ h; exact h
  | .cons name _ _ rest =>
    intro ni ni' a h0 h
    simp only [Fields.names, List.mem_cons, not_or] at h0
    simp only [FitsL, pick, if_neg (Ne.symm h0.1)] at h ⊢
    exact ⟨h.1, h.2.1, fitsL_named (fs := rest) h0.2 h.2.2⟩

/-- After the fields nothing is wanted, so no scope of a covered list is left. -/
theorem covered_rest {items pre post : List Item} {P : List Item → Prop} (hi : items = pre ++ post)
    (hmono : ∀ a b, P (a ++ b) → P a)
    (hc : ∀ p n t kids q, items = p ++ .scope n t kids :: q → P p) (hn : post = [] ∨ ¬ P pre) :
    scopesOf post = [] := by
  rcases hn with rfl | hn
  · rfl
  · cases h : scopesOf post with
    | nil => rfl
    | cons x xs =>
      exfalso
      obtain ⟨a, n, t, kids, b, rfl⟩ : ∃ a n t kids b, post = a ++ .scope n t kids :: b := by
        clear hi hn hc
        induction post with
        | nil => cases h
        | cons i is ih =>
          cases i with
          | scope n t kids => exact ⟨[], n, t, kids, is, rfl⟩
          | val n v =>
            obtain ⟨a, n', t, kids, b, rfl⟩ := ih h
            exact ⟨.val n v :: a, n', t, kids, b, rfl⟩
      exact hn (hmono pre a (hc (pre ++ a) n t kids b (by rw [hi]; simp)))

theorem bind_assoc_ok {α β γ : Type} (r : Res α) (f : α → Res β) (g : β → Res γ) :
    ((r >>= f) >>= g) = (r >>= fun x => f x >>= g) := by
  cases r <;> rfl

/-! ## Nodes read to their end -/

theorem pasteMembers_parsed (env : Env) (read : σ → Res (Event × σ)) (fuel : Nat) :
    ∀ (fs : Fields) (os : List Obj) (ni vi : Nat) (n : LNode) (s : σ), n.parsed = true →
      pasteMembers env read fuel fs os ni vi n s
        = (do let ys ← pasteFields env fs os ni vi n.values n.nodes; .ok (ys, n, s)) := by
  intro fs
  match fs with
  | .nil => intro os ni vi n s hp; simp [pasteMembers, pasteFields]
  | .cons name opt ty rest =>
    intro os ni vi n s hp
    have ih := pasteMembers_parsed env read fuel rest
    cases os with
    | nil => simp [pasteMembers, pasteFields]
    | cons o os =>
      simp only [pasteMembers, pasteFields]
      have hh : (if opt = true then has read fuel ty.isScope name n s else .ok (true, n, s))
          = .ok (!opt || (if ty.isScope then (findName name n.nodes).isSome
              else (findName name n.values).isSome), n, s) := by
        cases opt <;> simp [has, hp]
      rw [hh]
      simp only [Res.ok_bind, hp, if_true]
      by_cases hs : ty.isScope = true
      · simp only [hs, if_true]
        by_cases hc : opt = true ∧ (findName name n.nodes).isNone = true
        · rw [if_pos hc]
          have : (!opt || (findName name n.nodes).isSome) = false := by
            obtain ⟨h1, h2⟩ := hc
            cases hf : findName name n.nodes <;> simp_all
          rw [if_pos this, ih _ _ _ _ _ hp]
          cases pasteFields env rest os ni vi n.values n.nodes <;> rfl
        · rw [if_neg hc]
          have : ¬ (!opt || (findName name n.nodes).isSome) = false := by
            intro h
            apply hc
            cases opt <;> cases hf : findName name n.nodes <;> simp_all
          rw [if_neg this]
          cases lookup (.of name ni) n.nodes with
          | ok c =>
            simp only [Res.ok_bind]
            cases pasteNode env ty o c with
            | ok y =>
              simp only [Res.ok_bind, ih _ _ _ _ _ hp]
              cases pasteFields env rest os (ni + 1) vi n.values n.nodes <;> rfl
            | err => rfl
            | ub => rfl
            | fuel => rfl
          | err => rfl
          | ub => rfl
          | fuel => rfl
      · simp only [hs, Bool.false_eq_true, if_false]
        by_cases hc : opt = true ∧ (findName name n.values).isNone = true
        · rw [if_pos hc]
          have : (!opt || (findName name n.values).isSome) = false := by
            obtain ⟨h1, h2⟩ := hc
            cases hf : findName name n.values <;> simp_all
          rw [if_pos this, ih _ _ _ _ _ hp]
          cases pasteFields env rest os ni vi n.values n.nodes <;> rfl
        · rw [if_neg hc]
          have : ¬ (!opt || (findName name n.values).isSome) = false := by
            intro h
            apply hc
            cases opt <;> cases hf : findName name n.values <;> simp_all
          rw [if_neg this]
          cases lookup (.of name vi) n.values with
          | ok c =>
            simp only [Res.ok_bind]
            cases pasteVal env ty o c with
            | ok y =>
              simp only [Res.ok_bind, ih _ _ _ _ _ hp]
              cases pasteFields env rest os ni (vi + 1) n.values n.nodes <;> rfl
            | err => rfl
            | ub => rfl
            | fuel => rfl
          | err => rfl
          | ub => rfl
          | fuel => rfl

theorem paste_parsed (env : Env) (read : σ → Res (Event × σ)) (fuel : Nat) :
    ∀ (ty : Ty) (old : Obj) (n : LNode) (s : σ), n.parsed = true →
      paste env read fuel ty old n s
        = (do let o ← pasteNode env ty old (.mk n.type n.values n.nodes); .ok (o, n, s)) := by
  intro ty
  match ty with
  | .bool => intro old n s hp; simp [paste, pasteNode]
  | .int t => intro old n s hp; simp [paste, pasteNode]
  | .float => intro old n s hp; simp [paste, pasteNode]
  | .double => intro old n s hp; simp [paste, pasteNode]
  | .str => intro old n s hp; simp [paste, pasteNode]
  | .bytes => intro old n s hp; simp [paste, pasteNode]
  | .sorted b c =>
    intro old n s hp
    simp only [paste, pasteNode, paste_parsed env read fuel c (dflt c) n s hp]
    cases pasteNode env c (dflt c) (.mk n.type n.values n.nodes) <;> rfl
  | .vec e => intro old n s hp; simp only [paste, hp, if_true]
  | .named e =>
    intro old n s hp
    simp only [paste, hp, if_true, pasteNode]
    by_cases hc : n.type ≠ .object
    · rw [if_pos hc, if_pos hc]; rfl
    · rw [if_neg hc]
  | .arr k e =>
    intro old n s hp
    cases old <;> simp only [paste, hp, if_true, pasteNode, Res.ub_bind]
  | .record t st fs =>
    intro old n s hp
    cases old with
    | many os =>
      simp only [paste, pasteNode]
      by_cases hc : st = true ∧ n.type ≠ .object
      · rw [if_pos hc, if_pos hc]; rfl
      · rw [if_neg hc, if_neg hc, pasteMembers_parsed env read fuel fs os 0 0 n s hp]
        cases pasteFields env fs os 0 0 n.values n.nodes <;> rfl
    | _ => simp only [paste, pasteNode, Res.ub_bind]
  | .ptr k e =>
    intro old n s hp
    simp only [paste, pasteNode, paste_parsed env read fuel e (dflt e) n s hp]
    cases pasteNode env e (dflt e) (.mk n.type n.values n.nodes) <;> rfl

/-! ## Restoring while reading gives what restoring from the tree gives -/

theorem sel_name {nm : Bytes} (h : nm ≠ []) (i : Nat) : Sel.of nm i = .name nm := by
  simp [Sel.of, h]

theorem lookup_name {α : Type} (nm : Bytes) (xs : List (Bytes × α)) :
    lookup (.name nm) xs = match findName nm xs with | some x => .ok x | none => .err := rfl

mutual
theorem paste_agrees (env : Env) (read : σ → Res (Event × σ)) (fuel : Nat) :
    ∀ (ty : Ty) (old : Obj) (t : ScopeTy) (items : List Item) (s s' : σ), ty.Ok → ty.isScope = true →
      WT ty old → Fits ty items → Left read items s s' → (Item.eventsL items).length < fuel →
      Item.depthL items ≤ maxDepth →
      Agrees (pasteNode env ty old (nodeOf t items)) (paste env read fuel ty old (.fresh t) s)
        (Tail read ty items s')
  | .bool, _, _, _, _, _ => by intro _ h; cases h
  | .int _, _, _, _, _, _ => by intro _ h; cases h
  | .float, _, _, _, _, _ => by intro _ h; cases h
  | .double, _, _, _, _, _ => by intro _ h; cases h
  | .str, _, _, _, _, _ => by intro _ h; cases h
  | .bytes, _, _, _, _, _ => by intro _ h; cases h
  | .vec e, old, t, items, s, s' => by
    intro hok _ _ hfit he hf hd
    simp only [paste, LNode.fresh, Bool.false_eq_true, if_false, pasteNode, contentL_eq]
    by_cases hs : e.isScope = true
    · simp only [hs, if_true]
      refine (vecNodes_agrees (fun p => pasteNode env e (dflt e) p.2) _ fuel items _ s s' rfl rfl he hf hd hf
        ?_).bind ?_
      · intro x hx s1 s2 hl hf' hd'
        obtain ⟨hfx, hcx⟩ := hfit hs x hx
        have := (paste_agrees env read fuel e (dflt e) x.2.1 x.2.2 s1 s2 hok hs (dflt_wt e) hfx hl
          hf' hd').bind (f := fun y => .ok y)
          (g := fun p => do let s ← finish read fuel p.2.1 p.2.2; .ok (p.1, s))
          (Q := fun s => s = s2) (fun y p hp => by
            simp only [finish_tail hp hcx hf', Res.ok_bind]
            exact .ok rfl)
        have e1 : (pasteNode env e (dflt e) (nodeOf x.2.1 x.2.2) >>= fun y => Res.ok y)
            = pasteNode env e (dflt e) (nodeOf x.2.1 x.2.2) := by
          cases pasteNode env e (dflt e) (nodeOf x.2.1 x.2.2) <;> rfl
        rw [e1] at this
        exact this
      · rintro ys ⟨n', s1⟩ ⟨h1, h2⟩
        exact .ok ⟨items, [], by simp, .inl ⟨h1, rfl, h2⟩, fun _ => rfl⟩
    · simp only [hs, Bool.false_eq_true, if_false]
      refine (vecValues_agrees (fun p => pasteVal env e (dflt e) p.2) fuel items _ s s' rfl rfl he hf hd
        hf).bind ?_
      rintro ys ⟨n', s1⟩ ⟨h1, h2⟩
      exact .ok ⟨items, [], by simp, .inl ⟨h1, rfl, h2⟩, fun _ => rfl⟩
  | .named e, old, t, items, s, s' => by
    intro hok _ _ hfit he hf hd
    simp only [paste, LNode.fresh, Bool.false_eq_true, if_false, pasteNode, contentL_eq]
    by_cases ht : t ≠ .object
    · rw [if_pos ht, if_pos ht]; rfl
    · rw [if_neg ht, if_neg ht]
      by_cases hs : e.isScope = true
      · simp only [hs, if_true]
        refine (vecNodes_agrees (fun p => do
            let y ← pasteNode env e (dflt e) p.2
            .ok (.many [.str p.1, y])) _ fuel items _ s s' rfl rfl he hf hd hf ?_).bind ?_
        · intro x hx s1 s2 hl hf' hd'
          obtain ⟨hfx, hcx⟩ := hfit hs x hx
          exact (paste_agrees env read fuel e (dflt e) x.2.1 x.2.2 s1 s2 hok hs (dflt_wt e) hfx hl
            hf' hd').bind (f := fun y => .ok (Obj.many [.str x.1, y]))
            (g := fun p => do let s ← finish read fuel p.2.1 p.2.2; .ok (Obj.many [.str x.1, p.1], s))
            (Q := fun s => s = s2) (fun y p hp => by
              simp only [finish_tail hp hcx hf', Res.ok_bind]
              exact .ok rfl)
        · rintro ys ⟨n', s1⟩ ⟨h1, h2⟩
          exact .ok ⟨items, [], by simp, .inl ⟨h1, rfl, h2⟩, fun _ => rfl⟩
      · simp only [hs, Bool.false_eq_true, if_false]
        refine (vecValues_agrees (fun p => do
            let y ← pasteVal env e (dflt e) p.2
            .ok (.many [.str p.1, y])) fuel items _ s s' rfl rfl he hf hd hf).bind ?_
        rintro ys ⟨n', s1⟩ ⟨h1, h2⟩
        exact .ok ⟨items, [], by simp, .inl ⟨h1, rfl, h2⟩, fun _ => rfl⟩
  | .arr k e, old, t, items, s, s' => by
    intro hok _ hwt hfit he hf hd
    cases old with
    | many os =>
      simp only [WT] at hwt
      obtain ⟨hlen, hwt⟩ := hwt
      simp only [Fits] at hfit
      obtain ⟨hcount, hfit⟩ := hfit
      simp only [paste, LNode.fresh, Bool.false_eq_true, if_false, pasteNode, contentL_eq]
      by_cases hs : e.isScope = true
      · simp only [hs, if_true]
        simp only [hs, kindNames, if_true, List.length_map] at hcount
        rw [if_neg (by rw [nodesOf_length, hcount]; simp)]
        refine (arrNodes_agrees (pasteNode env e) _ os items _ s s' rfl rfl he hf hd
          (by rw [hcount, hlen]) ?_).bind ?_
        · intro o ho x hx s1 s2 hl hf' hd'
          obtain ⟨hfx, hcx⟩ := hfit hs x hx
          have := (paste_agrees env read fuel e o x.2.1 x.2.2 s1 s2 hok hs (hwt o ho) hfx hl
            hf' hd').bind (f := fun y => .ok y)
            (g := fun p => do let s ← finish read fuel p.2.1 p.2.2; .ok (p.1, s))
            (Q := fun s => s = s2) (fun y p hp => by
              simp only [finish_tail hp hcx hf', Res.ok_bind]
              exact .ok rfl)
          have e1 : (pasteNode env e o (nodeOf x.2.1 x.2.2) >>= fun y => Res.ok y)
              = pasteNode env e o (nodeOf x.2.1 x.2.2) := by
            cases pasteNode env e o (nodeOf x.2.1 x.2.2) <;> rfl
          rw [e1] at this
          exact this
        · rintro ys ⟨n', s1⟩ ⟨a, b, rfl, h1, h2, h3⟩
          exact .ok ⟨a, b, rfl, .inr ⟨h1, h2⟩, fun _ => h3⟩
      · simp only [hs, Bool.false_eq_true, if_false]
        simp only [hs, kindNames, Bool.false_eq_true, if_false, List.length_map] at hcount
        rw [if_neg (by rw [hcount]; simp)]
        refine (arrValues_agrees (pasteVal env e) os items _ s s' rfl rfl he hf hd
          (by rw [hcount, hlen])).bind ?_
        rintro ys ⟨n', s1⟩ ⟨a, b, rfl, h1, h2, h3⟩
        refine .ok ⟨a, b, rfl, .inr ⟨h1, h2⟩, fun hc => ?_⟩
        refine covered_rest (P := fun p => (kindNames e.isScope p).length < k) rfl ?_ hc ?_
        · intro x y h
          rw [kindNames_append, List.length_append] at h
          omega
        · right
          rw [valuesOf_append, h3, List.append_nil] at hcount
          simp only [hs, kindNames, Bool.false_eq_true, if_false, List.length_map, hcount]
          omega
    | _ => cases hwt
  | .record sc st fs, old, t, items, s, s' => by
    intro hok _ hwt hfit he hf hd
    cases old with
    | many os =>
      simp only [WT] at hwt
      simp only [Fits] at hfit
      simp only [paste, pasteNode, contentL_eq]
      have hft : (LNode.fresh t).type = t := rfl
      by_cases hc : st = true ∧ t ≠ .object
      · rw [if_pos hc, if_pos (by rw [hft]; exact hc)]; rfl
      · rw [if_neg hc, if_neg (by rw [hft]; exact hc)]
        obtain ⟨hokf, ⟨-, hnames⟩ | ⟨-, -, hpos⟩⟩ := hok
        · refine (members_named env read fuel fs os 0 0 (.fresh t) s s' [] items [] hokf hnames.1
            hnames.2 (by simp) hwt hfit (fun nm _ => ⟨rfl, rfl⟩) (.inr ⟨rfl, he⟩) hf hd).bind ?_
          rintro ys ⟨n', s1⟩ ⟨c, post', h1, h2, h3⟩
          refine .ok ⟨c, post', h1, h2, fun hcov => ?_⟩
          exact covered_rest (P := fun p => Wants fs 0 0 p) h1 (fun a b => wants_mono b) hcov h3
        · refine (members_pos env read fuel fs os 0 0 (.fresh t) s s' [] items hokf hpos hwt hfit
            ⟨rfl, rfl, rfl, by simp, by simp⟩ he hf hd).bind ?_
          rintro ys ⟨n', s1⟩ ⟨c, post', h1, h2, h3, h4⟩
          refine .ok ⟨c, post', h1, .inr ⟨h2, h3⟩, fun hcov => ?_⟩
          exact covered_rest (P := fun p => Wants fs 0 0 p) h1 (fun a b => wants_mono b) hcov (.inr h4)
    | _ => cases hwt
  | .ptr k e, old, t, items, s, s' => by
    intro hok hs _ hfit he hf hd
    simp only [paste, pasteNode]
    refine (paste_agrees env read fuel e (dflt e) t items s s' hok hs (dflt_wt e) hfit he hf hd).bind ?_
    rintro y ⟨n', s1⟩ h
    exact .ok h
  | .sorted b c, old, t, items, s, s' => by
    intro hok hs _ hfit he hf hd
    simp only [paste, pasteNode]
    refine (paste_agrees env read fuel c (dflt c) t items s s' hok.1 hs (dflt_wt c) hfit he hf hd).bind ?_
    rintro y ⟨n', s1⟩ h
    exact .ok h
theorem members_named (env : Env) (read : σ → Res (Event × σ)) (fuel : Nat) :
    ∀ (fs : Fields) (os : List Obj) (ni vi : Nat) (n : LNode) (s s' : σ) (pre post : List Item)
      (used : List Bytes), fs.Ok → [] ∉ fs.names → fs.names.Nodup → (∀ nm ∈ fs.names, nm ∉ used) →
      WTL fs os → FitsL fs 0 (pre ++ post) → Inv used n pre → Pos read n post s s' →
      (Item.eventsL (pre ++ post)).length < fuel → Item.depthL (pre ++ post) ≤ maxDepth →
      Agrees (pasteFields env fs os ni vi (valuesOf (pre ++ post)) (nodesOf (pre ++ post)))
        (pasteMembers env read fuel fs os ni vi n s)
        (fun p => ∃ c post', post = c ++ post' ∧ Pos read p.1 post' p.2 s' ∧
          (post' = [] ∨ ¬ Wants fs 0 0 (pre ++ c)))
  | .nil, os, ni, vi, n, s, s', pre, post, used => by
    intro _ _ _ _ _ _ _ hp _ _
    simp only [pasteFields, pasteMembers]
    exact .ok ⟨[], post, rfl, hp, .inr fun h => h⟩
  | .cons name opt ty rest, os, ni, vi, n, s, s', pre, post, used => by
    intro hok h0 hnd hu hwt hfit hi hp hf hd
    cases os with
    | nil => cases hwt
    | cons o os =>
      obtain ⟨hok1, hok2⟩ := hok
      obtain ⟨hwt1, hwt2⟩ := hwt
      obtain ⟨hfit1, hfit2, hfit3⟩ := hfit
      simp only [Fields.names, List.mem_cons, not_or] at h0
      obtain ⟨h0n, h0⟩ := h0
      have hne : name ≠ [] := Ne.symm h0n
      simp only [Fields.names, List.nodup_cons] at hnd
      obtain ⟨hnd1, hnd⟩ := hnd
      have hfit3 : FitsL rest 0 (pre ++ post) := fitsL_named h0 hfit3
      have hun : name ∉ used := hu name (List.mem_cons_self ..)
      have hur : ∀ nm ∈ rest.names, nm ∉ name :: used := by
        intro nm hnm hm
        rcases List.mem_cons.mp hm with rfl | hm
        · exact hnd1 hnm
        · exact hu nm (List.mem_cons_of_mem _ hnm) hm
      have hurs : ∀ nm ∈ rest.names, nm ∉ used := fun nm hnm => hu nm (List.mem_cons_of_mem _ hnm)
      have hfp : (Item.eventsL post).length < fuel := by
        rw [Item.eventsL_append, List.length_append] at hf; omega
      have hdp : Item.depthL post ≤ maxDepth := by rw [depthL_append] at hd; omega
      have wstep : ∀ (c : List Item), Found ty.isScope opt name 0 (pre ++ c) →
          ¬ Wants rest 0 0 (pre ++ c) → ¬ Wants (.cons name opt ty rest) 0 0 (pre ++ c) := by
        intro c h1 h2 h
        rcases h with h | h
        · apply h
          unfold Found at h1 ⊢
          rw [if_neg hne] at h1 ⊢
          exact h1
        · exact h2 (wants_named h0 h)
      -- whether the field is there
      obtain ⟨n1, c1, post1, s1, here, hhas, hhere, hpost1, hp1, hi1, hseen⟩ :
          ∃ n' c post' s1 here, (if opt = true then has read fuel ty.isScope name n s
              else .ok (true, n, s)) = .ok (here, n', s1) ∧
            (here = false ↔ opt = true ∧ name ∉ kindNames ty.isScope (pre ++ post)) ∧
            post = c ++ post' ∧ Pos read n' post' s1 s' ∧ Inv used n' (pre ++ c) ∧
            (here = false → post' = [] ∨ name ∈ kindNames (!ty.isScope) (pre ++ c)) := by
        cases opt with
        | false =>
          exact ⟨n, [], post, s, true, by simp, by simp, rfl, hp, by rw [List.append_nil]; exact hi,
            by simp⟩
        | true =>
          obtain ⟨n', c, post', s1, here, e1, e2, e3, e4, e5, e6⟩ :=
            has_named (total := fuel) ty.isScope hi hun hp hfp hdp (hfit2 rfl)
          refine ⟨n', c, post', s1, here, by rw [if_pos rfl]; exact e1, ?_, e3, e4, e5, ?_⟩
          · rw [← e2]; cases here <;> simp
          · intro hfalse
            subst hfalse
            have hn : name ∉ kindNames ty.isScope (pre ++ c) := by
              intro h
              have : name ∈ kindNames ty.isScope (pre ++ post) := by
                rw [e3, ← List.append_assoc, kindNames_append]
                exact List.mem_append_left _ h
              cases e2.mpr this
            rcases e6 with h | h | h
            · exact .inl h
            · cases hk : ty.isScope with
              | true => rw [hk] at hn; exact absurd h hn
              | false => exact .inr h
            · cases hk : ty.isScope with
              | true => exact .inr h
              | false => rw [hk] at hn; exact absurd h hn
      simp only [pasteFields, pasteMembers]
      rw [hhas]
      simp only [Res.ok_bind]
      have hitems : pre ++ post = (pre ++ c1) ++ post1 := by rw [hpost1, List.append_assoc]
      by_cases hh : here = false
      · -- an optional field that is missing
        obtain ⟨ho, hno⟩ := hhere.mp hh
        rw [if_pos hh]
        have hrec : Agrees (do
              let ys ← pasteFields env rest os ni vi (valuesOf (pre ++ post)) (nodesOf (pre ++ post))
              .ok (o :: ys))
            (do
              let (ys, n, s) ← pasteMembers env read fuel rest os ni vi n1 s1
              .ok (o :: ys, n, s))
            (fun p => ∃ c post', post = c ++ post' ∧ Pos read p.1 post' p.2 s' ∧
              (post' = [] ∨ ¬ Wants (.cons name opt ty rest) 0 0 (pre ++ c))) := by
          rw [hitems] at hfit3 hf hd ⊢
          refine (members_named env read fuel rest os ni vi n1 s1 s' (pre ++ c1) post1 used hok2 h0 hnd
            hurs hwt2 hfit3 hi1 hp1 hf hd).bind ?_
          rintro ys ⟨n2, s2⟩ ⟨c2, post2, e1, e2, e3⟩
          refine .ok ⟨c1 ++ c2, post2, by rw [hpost1, e1, List.append_assoc], e2, ?_⟩
          rw [List.append_assoc] at e3
          rcases e3 with e3 | e3
          · exact .inl e3
          · rcases hseen hh with h | h
            · rw [h] at e1
              exact .inl (List.append_eq_nil_iff.mp e1.symm).2
            · right
              refine wstep _ ?_ e3
              unfold Found
              rw [if_neg hne]
              right
              refine ⟨ho, ?_⟩
              rw [← List.append_assoc, kindNames_append]
              exact List.mem_append_left _ h
        by_cases hs : ty.isScope = true
        · simp only [hs, if_true]
          rw [if_pos]
          · exact hrec
          · refine ⟨ho, ?_⟩
            rw [hs, kindNames_true, ← findName_isSome] at hno
            cases hf : findName name (nodesOf (pre ++ post)) with
            | none => rfl
            | some x => rw [hf] at hno; exact absurd rfl hno
        · simp only [hs, Bool.false_eq_true, if_false]
          rw [if_pos]
          · exact hrec
          · refine ⟨ho, ?_⟩
            have hs' : ty.isScope = false := by simpa using hs
            rw [hs', kindNames_false, ← findName_isSome] at hno
            cases hf : findName name (valuesOf (pre ++ post)) with
            | none => rfl
            | some x => rw [hf] at hno; exact absurd rfl hno
      · rw [if_neg hh]
        have hthere : opt = true → name ∈ kindNames ty.isScope (pre ++ post) := fun ho =>
          Decidable.byContradiction fun h => hh (hhere.mpr ⟨ho, h⟩)
        rw [sel_name hne, sel_name hne]
        by_cases hs : ty.isScope = true
        · simp only [hs, if_true]
          rw [if_neg (by
            rintro ⟨ho, h⟩
            have := hthere ho
            rw [hs, kindNames_true, ← findName_isSome] at this
            rw [Option.isNone_iff_eq_none] at h
            rw [h] at this
            cases this)]
          rcases hp1 with ⟨hp1, hpn, hss⟩ | ⟨hp1, he1⟩
          · -- read to the end
            rw [if_pos hp1]
            subst hpn
            subst hss
            rw [List.append_nil] at hitems hpost1
            subst hpost1
            simp only [lookup_name, hi1.findN hun]
            cases hfn : findName name (nodesOf (pre ++ post)) with
            | none => rfl
            | some c =>
              simp only [Res.ok_bind]
              refine .same _ fun y => ?_
              have ih := members_named env read fuel rest os (ni + 1) vi n1 s1 s1 (pre ++ post) [] used hok2
                h0 hnd hurs hwt2 (by rw [List.append_nil]; exact hfit3) hi1 (.inl ⟨hp1, rfl, rfl⟩)
                (by rw [List.append_nil]; exact hf) (by rw [List.append_nil]; exact hd)
              rw [List.append_nil] at ih
              refine ih.bind ?_
              rintro ys ⟨n2, s2⟩ ⟨c2, post2, e1, e2, e3⟩
              obtain ⟨rfl, rfl⟩ := List.append_eq_nil_iff.mp e1.symm
              exact .ok ⟨post, [], by simp, e2, .inl rfl⟩
          · rw [if_neg (by rw [hp1]; simp)]
            have hf1 : (Item.eventsL post1).length < fuel := by
              rw [hpost1, Item.eventsL_append, List.length_append] at hfp; omega
            have hd1 : Item.depthL post1 ≤ maxDepth := by
              rw [hpost1, depthL_append] at hdp; omega
            rcases consumeNode_named (total := fuel) hi1 hun hp1 he1 hf1 hd1 with
              ⟨t, vs, ns, n2, e1, e2, e3, e4, e5⟩ | ⟨a, t, kids, b, s2, s3, n2, e1, e2, e3, e4, e5, e6, e7⟩
              | ⟨e1, n2, s2, e2⟩
            · -- stored
              rw [e2]
              rw [← hitems] at e1
              simp only [lookup_name, e1, Res.ok_bind]
              rw [paste_parsed env read fuel ty o ⟨t, vs, ns, true⟩ s1 rfl]
              simp only [bind_assoc_ok]
              refine .same _ fun y => ?_
              simp only [finish, if_true, Res.ok_bind]
              rw [hitems] at hfit3 hf hd ⊢
              refine (members_named env read fuel rest os (ni + 1) vi n2 s1 s' (pre ++ c1) post1
                (name :: used) hok2 h0 hnd hur hwt2 hfit3 e4 (.inr ⟨e3, he1⟩) hf hd).bind ?_
              rintro ys ⟨n3, s3⟩ ⟨c2, post2, g1, g2, g3⟩
              refine .ok ⟨c1 ++ c2, post2, by rw [hpost1, g1, List.append_assoc], g2, ?_⟩
              rw [List.append_assoc] at g3
              rcases g3 with g3 | g3
              · exact .inl g3
              · right
                refine wstep _ ?_ g3
                unfold Found
                rw [if_neg hne, hs]
                left
                rw [← List.append_assoc, kindNames_append]
                exact List.mem_append_left _ e5
            · -- read now
              rw [e3]
              rw [← hitems] at e2
              have hfn : findName name (nodesOf (pre ++ post)) = some (nodeOf t kids) := by
                rw [findName_nodesOf, e2]; rfl
              simp only [lookup_name, hfn, Res.ok_bind]
              obtain ⟨hfk, hck⟩ := hfit1 hs (name, t, kids) (by simp only [pick, if_neg hne]; exact e2)
              have hlk : (Item.eventsL kids).length < fuel ∧ Item.depthL kids ≤ maxDepth := by
                rw [e1] at hf1 hd1
                rw [Item.eventsL_append, List.length_append, eventsL_scope_length] at hf1
                rw [depthL_append] at hd1
                simp only [Item.depthL, Item.depth] at hd1
                omega
              refine (paste_agrees env read fuel ty o t kids s2 s3 hok1 hs hwt1 hfk e6 hlk.1 hlk.2).bind ?_
              rintro y ⟨n3, s4⟩ ht
              simp only [finish_tail ht hck hlk.1, Res.ok_bind]
              have hitems2 : pre ++ post = (pre ++ c1 ++ a ++ [.scope name t kids]) ++ b := by
                rw [hitems, e1]; simp
              rw [hitems2] at hfit3 hf hd ⊢
              refine (members_named env read fuel rest os (ni + 1) vi n2 s3 s' _ b
                (name :: used) hok2 h0 hnd hur hwt2 hfit3 e5 (.inr ⟨e4, e7⟩) hf hd).bind ?_
              rintro ys ⟨n5, s5⟩ ⟨c2, post2, g1, g2, g3⟩
              refine .ok ⟨c1 ++ a ++ [.scope name t kids] ++ c2, post2, by rw [hpost1, e1, g1]; simp, g2, ?_⟩
              have ea : pre ++ c1 ++ a ++ [.scope name t kids] ++ c2
                  = pre ++ (c1 ++ a ++ [.scope name t kids] ++ c2) := by simp
              rw [ea] at g3
              rcases g3 with g3 | g3
              · exact .inl g3
              · right
                refine wstep _ ?_ g3
                unfold Found
                rw [if_neg hne, hs]
                left
                exact mem_kindNames (x := .scope name t kids) (by simp)
            · rw [e2]
              rw [← hitems] at e1
              simp only [lookup_name, e1, Res.ok_bind]
              rfl
        · have hs' : ty.isScope = false := by simpa using hs
          simp only [hs, Bool.false_eq_true, if_false]
          rw [if_neg (by
            rintro ⟨ho, h⟩
            have := hthere ho
            rw [hs', kindNames_false, ← findName_isSome] at this
            rw [Option.isNone_iff_eq_none] at h
            rw [h] at this
            cases this)]
          rcases hp1 with ⟨hp1, hpn, hss⟩ | ⟨hp1, he1⟩
          · -- read to the end
            rw [if_pos hp1]
            subst hpn
            subst hss
            rw [List.append_nil] at hitems hpost1
            subst hpost1
            simp only [lookup_name, hi1.findV hun]
            cases hfn : findName name (valuesOf (pre ++ post)) with
            | none => rfl
            | some c =>
              simp only [Res.ok_bind]
              refine .same _ fun y => ?_
              have ih := members_named env read fuel rest os ni (vi + 1) n1 s1 s1 (pre ++ post) [] used hok2
                h0 hnd hurs hwt2 (by rw [List.append_nil]; exact hfit3) hi1 (.inl ⟨hp1, rfl, rfl⟩)
                (by rw [List.append_nil]; exact hf) (by rw [List.append_nil]; exact hd)
              rw [List.append_nil] at ih
              refine ih.bind ?_
              rintro ys ⟨n2, s2⟩ ⟨c2, post2, e1, e2, e3⟩
              obtain ⟨rfl, rfl⟩ := List.append_eq_nil_iff.mp e1.symm
              exact .ok ⟨post, [], by simp, e2, .inl rfl⟩
          · rw [if_neg (by rw [hp1]; simp)]
            have hf1 : (Item.eventsL post1).length < fuel := by
              rw [hpost1, Item.eventsL_append, List.length_append] at hfp; omega
            have hd1 : Item.depthL post1 ≤ maxDepth := by
              rw [hpost1, depthL_append] at hdp; omega
            rcases consumeValue_named (total := fuel) hi1 hun hp1 he1 hf1 hd1 with
              ⟨v, n2, e1, e2, e3, e4, e5⟩ | ⟨a, v, b, s2, n2, e1, e2, e3, e4, e5, e6⟩
              | ⟨e1, n2, s2, e2⟩
            · -- stored
              rw [e2]
              rw [← hitems] at e1
              simp only [lookup_name, e1, Res.ok_bind]
              refine .same _ fun y => ?_
              rw [hitems] at hfit3 hf hd ⊢
              refine (members_named env read fuel rest os ni (vi + 1) n2 s1 s' (pre ++ c1) post1
                (name :: used) hok2 h0 hnd hur hwt2 hfit3 e4 (.inr ⟨e3, he1⟩) hf hd).bind ?_
              rintro ys ⟨n3, s3⟩ ⟨c2, post2, g1, g2, g3⟩
              refine .ok ⟨c1 ++ c2, post2, by rw [hpost1, g1, List.append_assoc], g2, ?_⟩
              rw [List.append_assoc] at g3
              rcases g3 with g3 | g3
              · exact .inl g3
              · right
                refine wstep _ ?_ g3
                unfold Found
                rw [if_neg hne, hs']
                left
                rw [← List.append_assoc, kindNames_append]
                exact List.mem_append_left _ e5
            · -- read now
              rw [e3]
              rw [← hitems] at e2
              simp only [lookup_name, e2, Res.ok_bind]
              refine .same _ fun y => ?_
              have hitems2 : pre ++ post = (pre ++ c1 ++ a ++ [.val name v]) ++ b := by
                rw [hitems, e1]; simp
              rw [hitems2] at hfit3 hf hd ⊢
              refine (members_named env read fuel rest os ni (vi + 1) n2 s2 s' _ b
                (name :: used) hok2 h0 hnd hur hwt2 hfit3 e5 (.inr ⟨e4, e6⟩) hf hd).bind ?_
              rintro ys ⟨n5, s5⟩ ⟨c2, post2, g1, g2, g3⟩
              refine .ok ⟨c1 ++ a ++ [.val name v] ++ c2, post2, by rw [hpost1, e1, g1]; simp, g2, ?_⟩
              have ea : pre ++ c1 ++ a ++ [.val name v] ++ c2
                  = pre ++ (c1 ++ a ++ [.val name v] ++ c2) := by simp
              rw [ea] at g3
              rcases g3 with g3 | g3
              · exact .inl g3
              · right
                refine wstep _ ?_ g3
                unfold Found
                rw [if_neg hne, hs']
                left
                exact mem_kindNames (x := .val name v) (by simp)
            · rw [e2]
              rw [← hitems] at e1
              simp only [lookup_name, e1, Res.ok_bind]
              rfl
theorem members_pos (env : Env) (read : σ → Res (Event × σ)) (fuel : Nat) :
    ∀ (fs : Fields) (os : List Obj) (ni vi : Nat) (n : LNode) (s s' : σ) (pre post : List Item),
      fs.Ok → fs.Positional → WTL fs os → FitsL fs ni (pre ++ post) → InvP ni vi n pre →
      Left read post s s' → (Item.eventsL (pre ++ post)).length < fuel →
      Item.depthL (pre ++ post) ≤ maxDepth →
      Agrees (pasteFields env fs os ni vi (valuesOf (pre ++ post)) (nodesOf (pre ++ post)))
        (pasteMembers env read fuel fs os ni vi n s)
        (fun p => ∃ c post', post = c ++ post' ∧ p.1.parsed = false ∧ Left read post' p.2 s' ∧
          ¬ Wants fs ni vi (pre ++ c))
  | .nil, os, ni, vi, n, s, s', pre, post => by
    intro _ _ _ _ hi he _ _
    simp only [pasteFields, pasteMembers]
    exact .ok ⟨[], post, rfl, hi.1, he, fun h => h⟩
  | .cons name opt ty rest, os, ni, vi, n, s, s', pre, post => by
    intro hok hpos hwt hfit hi he hf hd
    cases os with
    | nil => cases hwt
    | cons o os =>
      obtain ⟨hok1, hok2⟩ := hok
      obtain ⟨hwt1, hwt2⟩ := hwt
      obtain ⟨hfit1, _, hfit3⟩ := hfit
      obtain ⟨rfl, rfl, hpos⟩ := hpos
      have hfp : (Item.eventsL post).length < fuel := by
        rw [Item.eventsL_append, List.length_append] at hf; omega
      have hdp : Item.depthL post ≤ maxDepth := by rw [depthL_append] at hd; omega
      have hsel : ∀ i, Sel.of [] i = .index i := fun i => rfl
      simp only [pasteFields, pasteMembers, Bool.false_eq_true, if_false, false_and, Res.ok_bind,
        Bool.true_eq_false, hsel, hi.1, lookup]
      by_cases hs : ty.isScope = true
      · simp only [hs, if_true] at hfit3 ⊢
        rcases consumeNode_pos (total := fuel) (i := ni) hi he hfp hdp with
          ⟨m, t, vs, ns, n2, e1, e2, e3⟩ | ⟨a, m, t, kids, b, s2, s3, n2, e1, e2, e3, e4, e5, e6⟩
          | ⟨e1, n2, s2, e2⟩
        · -- stored
          rw [e2]
          simp only [e1, Res.ok_bind]
          rw [paste_parsed env read fuel ty o ⟨t, vs, ns, true⟩ s rfl]
          simp only [bind_assoc_ok]
          refine .same _ fun y => ?_
          simp only [finish, if_true, Res.ok_bind]
          refine (members_pos env read fuel rest os (ni + 1) vi n2 s s' pre post hok2 hpos hwt2 hfit3
            e3 he hf hd).bind ?_
          rintro ys ⟨n3, s3⟩ ⟨c2, post2, g1, g2, g3, g4⟩
          refine .ok ⟨c2, post2, g1, g2, g3, ?_⟩
          rintro (h | h)
          · apply h
            unfold Found
            rw [if_pos rfl, hs, kindNames_append, List.length_append, kindNames_true, List.length_map]
            have := e3.2.2.2.1
            simp only [if_true]
            omega
          · rw [hs] at h
            exact g4 h
        · -- read now
          rw [e3]
          have hfn : (nodesOf (pre ++ post))[ni]? = some (m, nodeOf t kids) := by
            simp only [nodesOf, List.getElem?_map, e2]; rfl
          simp only [hfn, Res.ok_bind]
          obtain ⟨hfk, hck⟩ := hfit1 hs (m, t, kids) (by simp only [pick, if_true]; exact e2)
          have hlk : (Item.eventsL kids).length < fuel ∧ Item.depthL kids ≤ maxDepth := by
            rw [e1] at hfp hdp
            rw [Item.eventsL_append, List.length_append, eventsL_scope_length] at hfp
            rw [depthL_append] at hdp
            simp only [Item.depthL, Item.depth] at hdp
            omega
          refine (paste_agrees env read fuel ty o t kids s2 s3 hok1 hs hwt1 hfk e5 hlk.1 hlk.2).bind ?_
          rintro y ⟨n3, s4⟩ ht
          simp only [finish_tail ht hck hlk.1, Res.ok_bind]
          have hitems2 : pre ++ post = (pre ++ a ++ [.scope m t kids]) ++ b := by rw [e1]; simp
          rw [hitems2] at hfit3 hf hd ⊢
          refine (members_pos env read fuel rest os (ni + 1) vi n2 s3 s' _ b hok2 hpos hwt2 hfit3
            e4 e6 hf hd).bind ?_
          rintro ys ⟨n5, s5⟩ ⟨c2, post2, g1, g2, g3, g4⟩
          refine .ok ⟨a ++ [.scope m t kids] ++ c2, post2, by rw [e1, g1]; simp, g2, g3, ?_⟩
          have ea : pre ++ (a ++ [.scope m t kids] ++ c2) = pre ++ a ++ [.scope m t kids] ++ c2 := by simp
          rw [ea]
          rintro (h | h)
          · apply h
            unfold Found
            rw [if_pos rfl, hs, kindNames_append, List.length_append, kindNames_true, List.length_map]
            have := e4.2.2.2.1
            simp only [if_true]
            omega
          · rw [hs] at h
            exact g4 h
        · rw [e2]
          simp only [e1, Res.ok_bind]
          rfl
      · have hs' : ty.isScope = false := by simpa using hs
        simp only [hs', Bool.false_eq_true, if_false] at hfit3 ⊢
        rcases consumeValue_pos (total := fuel) (i := vi) hi he hfp hdp with
          ⟨m, v, n2, e1, e2, e3⟩ | ⟨a, m, v, b, s2, n2, e1, e2, e3, e4, e5⟩
          | ⟨e1, n2, s2, e2⟩
        · -- stored
          rw [e2]
          simp only [e1, Res.ok_bind]
          refine .same _ fun y => ?_
          refine (members_pos env read fuel rest os ni (vi + 1) n2 s s' pre post hok2 hpos hwt2 hfit3
            e3 he hf hd).bind ?_
          rintro ys ⟨n3, s3⟩ ⟨c2, post2, g1, g2, g3, g4⟩
          refine .ok ⟨c2, post2, g1, g2, g3, ?_⟩
          rintro (h | h)
          · apply h
            unfold Found
            rw [if_pos rfl, hs', kindNames_append, List.length_append, kindNames_false, List.length_map]
            have := e3.2.2.2.2
            simp only [Bool.false_eq_true, if_false]
            omega
          · rw [hs'] at h
            exact g4 h
        · -- read now
          rw [e3]
          simp only [e2, Res.ok_bind]
          refine .same _ fun y => ?_
          have hitems2 : pre ++ post = (pre ++ a ++ [.val m v]) ++ b := by rw [e1]; simp
          rw [hitems2] at hfit3 hf hd ⊢
          refine (members_pos env read fuel rest os ni (vi + 1) n2 s2 s' _ b hok2 hpos hwt2 hfit3
            e4 e5 hf hd).bind ?_
          rintro ys ⟨n5, s5⟩ ⟨c2, post2, g1, g2, g3, g4⟩
          refine .ok ⟨a ++ [.val m v] ++ c2, post2, by rw [e1, g1]; simp, g2, g3, ?_⟩
          have ea : pre ++ (a ++ [.val m v] ++ c2) = pre ++ a ++ [.val m v] ++ c2 := by simp
          rw [ea]
          rintro (h | h)
          · apply h
            unfold Found
            rw [if_pos rfl, hs', kindNames_append, List.length_append, kindNames_false, List.length_map]
            have := e4.2.2.2.2
            simp only [Bool.false_eq_true, if_false]
            omega
          · rw [hs'] at h
            exact g4 h
        · rw [e2]
          simp only [e1, Res.ok_bind]
          rfl
end

end Srl.Typed
