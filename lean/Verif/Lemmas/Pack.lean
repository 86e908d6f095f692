import Verif.Lemmas.TypedDocs
import Verif.Props.PackSpec

/-! Fields of a stored class, one by one. -/

namespace Srl.Typed

variable {nv : Val → Val}

theorem packed_spec {nm : Bytes} {ty : Ty} {o : Obj} : ∀ {fs : Fields} {xs : List Obj}, Packed nm ty o fs xs → fs.Ok →
    fs.Tables True → StorableL fs xs → ty.Ok ∧ ty.Tables True false ∧ Storable ty o ∧ nm ∈ fs.names
  | .nil, _, h, _, _, _ => by simp [Packed] at h
  | .cons _ _ _ _, [], h, _, _, _ => by simp [Packed] at h
  | .cons nm' opt ty' rest, x :: xs, h, hok, ht, hs => by
    simp only [Packed] at h
    simp only [StorableL] at hs
    rcases h with ⟨rfl, rfl, rfl⟩ | h
    · exact ⟨hok.1, ht.1, hs.1, by simp [Fields.names]⟩
    · obtain ⟨h1, h2, h3, h4⟩ := packed_spec h hok.2 ht.2 hs.2.2
      exact ⟨h1, h2, h3, by simp [Fields.names, h4]⟩

theorem norm_name {ty : Ty} {o : Obj} (hs : Storable ty o) (nm : Bytes) :
    itemName (Norm.item nv true (toItem nm ty o)) = nm ∧ itemScope (Norm.item nv true (toItem nm ty o)) = ty.isScope := by
  by_cases h : ty.isScope = true
  · rw [norm_scope nv hs h]
    simp [itemName, itemScope, h]
  · rw [Bool.not_eq_true] at h
    obtain ⟨v, h1, -⟩ := stored_value ty o hs h
    rw [h1]
    simp [Norm.item, itemName, itemScope, h]

theorem stored_names : ∀ (fs : Fields) (xs : List Obj), StorableL fs xs →
    (Norm.items nv true (fieldItems fs xs)).map itemName = fs.names
  | .nil, [], _ => rfl
  | .nil, _ :: _, h => by simp [StorableL] at h
  | .cons _ _ _ _, [], h => by simp [StorableL] at h
  | .cons nm opt ty rest, x :: xs, h => by
    simp only [StorableL] at h
    simp only [fieldItems, Norm.items, List.map_cons, Fields.names, stored_names rest xs h.2.2, (norm_name h.1 nm).1]

theorem itemFor_stored {nm : Bytes} {ty : Ty} {o : Obj} : ∀ {fs : Fields} {xs : List Obj}, Packed nm ty o fs xs →
    StorableL fs xs → fs.names.Nodup →
    itemFor nm ty.isScope (Norm.items nv true (fieldItems fs xs)) = some (Norm.item nv true (toItem nm ty o))
  | .nil, _, h, _, _ => by simp [Packed] at h
  | .cons _ _ _ _, [], h, _, _ => by simp [Packed] at h
  | .cons nm' opt ty' rest, x :: xs, h, hs, hn => by
    simp only [Packed] at h
    simp only [StorableL] at hs
    simp only [Fields.names, List.nodup_cons] at hn
    simp only [fieldItems, Norm.items, itemFor]
    rcases h with ⟨rfl, rfl, rfl⟩ | h
    · rw [List.find?_cons_of_pos]
      simp [(norm_name (nv := nv) hs.1 nm).1, (norm_name (nv := nv) hs.1 nm).2]
    · rw [List.find?_cons_of_neg]
      · exact itemFor_stored h hs.2.2 hn.2
      · rw [(norm_name (nv := nv) hs.1 nm').1]
        have : nm ∈ rest.names := by
          have := itemFor_stored h hs.2.2 hn.2
          have hm := List.mem_of_find?_eq_some this
          have hp := List.find?_some this
          simp only [Bool.and_eq_true, beq_iff_eq] at hp
          rw [← stored_names (nv := nv) rest xs hs.2.2, ← hp.1]
          exact List.mem_map_of_mem hm
        have : nm' ≠ nm := fun he => hn.1 (he ▸ this)
        simp [this]

theorem member_of (hk : Keeps nv) (env : Env) {nm : Bytes} {opt : Bool} {ty : Ty} {o old : Obj} {items : List Item}
    (hok : ty.Ok) (hs : Storable ty o) (hw : WT ty old)
    (h : itemFor nm ty.isScope items = some (Norm.item nv true (toItem nm ty o))) :
    member env nm opt ty old items = .ok o := by
  unfold member
  rw [h]
  by_cases hsc : ty.isScope = true
  · rw [norm_scope nv hs hsc]
    exact eager hk env ty o old hok hsc hs hw
  · rw [Bool.not_eq_true] at hsc
    obtain ⟨v, h1, h2⟩ := stored_value ty o hs hsc
    rw [h1]
    simp only [Norm.item]
    exact (h2 nv hk).2 env old

theorem inj_of_nodup {α β : Type} {f : α → β} : ∀ {l : List α}, (l.map f).Nodup → ∀ {x y : α}, x ∈ l → y ∈ l → f x = f y →
    x = y
  | [], _, _, _, hx, _, _ => by cases hx
  | z :: zs, h, x, y, hx, hy, he => by
    simp only [List.map_cons, List.nodup_cons] at h
    rcases List.mem_cons.mp hx with rfl | hx' <;> rcases List.mem_cons.mp hy with rfl | hy'
    · rfl
    · exact absurd (List.mem_map.mpr ⟨y, hy', he.symm⟩) h.1
    · exact absurd (List.mem_map.mpr ⟨x, hx', he⟩) h.1
    · exact inj_of_nodup h.2 hx' hy' he

theorem members_asked (hk : Keeps nv) (env : Env) {fs : Fields} {xs : List Obj} (hok : fs.Ok) (ht : fs.Tables True)
    (hs : StorableL fs xs) (hn : fs.names.Nodup) : ∀ {fs' : Fields} {ys olds : List Obj}, Asked fs xs fs' ys →
    WTL fs' olds → members env (Norm.items nv true (fieldItems fs xs)) fs' olds = .ok ys
  | .nil, ys, olds, h, _ => by
    simp only [Asked] at h
    subst h
    rfl
  | .cons nm opt ty rest, ys, olds, h, hw => by
    simp only [Asked] at h
    obtain ⟨y, ys', rfl, hp, h⟩ := h
    cases olds <;> simp only [WTL] at hw
    obtain ⟨h1, -, h3, -⟩ := packed_spec hp hok ht hs
    simp only [members, member_of hk env h1 h3 hw.1 (itemFor_stored hp hs hn), Res.ok_bind,
      members_asked hk env hok ht hs hn h hw.2]

theorem absent_stored {nm : Bytes} {k : Bool} {fs : Fields} {xs : List Obj} (hs : StorableL fs xs) (h : nm ∉ fs.names) :
    itemFor nm k (Norm.items nv true (fieldItems fs xs)) = none := by
  rw [itemFor, List.find?_eq_none]
  intro x hx
  have : itemName x ∈ fs.names := by
    rw [← stored_names (nv := nv) fs xs hs]
    exact List.mem_map_of_mem hx
  have hne : itemName x ≠ nm := fun he => h (he ▸ this)
  simp [hne]

theorem members_missing (hk : Keeps nv) (env : Env) {fs : Fields} {xs : List Obj} (hok : fs.Ok) (ht : fs.Tables True)
    (hs : StorableL fs xs) (hn : fs.names.Nodup) : ∀ {fs' : Fields} {olds : List Obj}, Wanted fs xs fs' →
    WTL fs' olds → Missing fs fs' → members env (Norm.items nv true (fieldItems fs xs)) fs' olds = .err
  | .nil, olds, h, _, hm => hm.elim
  | .cons nm opt ty rest, olds, h, hw, hm => by
    simp only [Wanted] at h
    cases olds <;> simp only [WTL] at hw
    rename_i old olds
    simp only [Missing] at hm
    simp only [members]
    have key : ∀ {r : Res Obj}, (∃ o, r = .ok o) ∨ r = .err →
        Missing fs rest → (r >>= fun y => members env (Norm.items nv true (fieldItems fs xs)) rest olds >>= fun ys =>
          Res.ok (y :: ys)) = .err := by
      rintro r (⟨o, rfl⟩ | rfl) hm
      · rw [Res.ok_bind, members_missing hk env hok ht hs hn h.2 hw.2 hm]
        rfl
      · rfl
    rcases h.1 with ⟨y, hp⟩ | ha
    · obtain ⟨h1, -, h3, h4⟩ := packed_spec hp hok ht hs
      refine key (.inl ⟨y, member_of hk env h1 h3 hw.1 (itemFor_stored hp hs hn)⟩) ?_
      rcases hm with hm | hm
      · exact absurd h4 hm.2
      · exact hm
    · have he : member env nm opt ty old (Norm.items nv true (fieldItems fs xs)) = if opt then .ok old else .err := by
        unfold member
        rw [absent_stored hs ha]
      rcases hm with hm | hm
      · rw [he, hm.1]
        rfl
      · refine key ?_ hm
        rw [he]
        cases opt
        · exact .inr rfl
        · exact .inl ⟨old, rfl⟩

theorem asked_wanted {fs : Fields} {xs : List Obj} : ∀ {fs' : Fields} {ys : List Obj}, Asked fs xs fs' ys → Wanted fs xs fs'
  | .nil, _, _ => trivial
  | .cons _ _ _ _, _, h => by
    simp only [Asked] at h
    obtain ⟨y, ys', rfl, hp, h⟩ := h
    exact ⟨.inl ⟨y, hp⟩, asked_wanted h⟩

theorem fits_wanted {fs : Fields} {xs : List Obj} (hok : fs.Ok) (ht : fs.Tables True)
    (hs : StorableL fs xs) (hn : fs.names.Nodup) : ∀ {fs' : Fields} (ni : Nat), Wanted fs xs fs' →
    [] ∉ fs'.names → FitsL fs' ni (Norm.items nv true (fieldItems fs xs))
  | .nil, _, h, _ => trivial
  | .cons nm opt ty rest, ni, h, h0 => by
    simp only [Wanted] at h
    simp only [Fields.names, List.mem_cons, not_or] at h0
    refine ⟨fun hsc x hx => ?_, fun _ hb => ?_, fits_wanted hok ht hs hn _ h.2 h0.2⟩
    · rw [pick, if_neg (Ne.symm h0.1)] at hx
      rcases h.1 with ⟨y, hp⟩ | ha
      · obtain ⟨h1, h2, h3, -⟩ := packed_spec hp hok ht hs
        have := itemFor_stored (nv := nv) hp hs hn
        rw [hsc, itemFor_true, scopeAt, hx, norm_scope nv h3 hsc] at this
        simp only [Option.map_some, Option.some.injEq, Item.scope.injEq] at this
        rw [this.2.2]
        refine plain_fits ty ty.scopeTy _ h1 (plain_stored nv ty y false h1 h2 hsc h3 fun e he => ?_)
        subst he
        cases h2.2.1
      · have := absent_stored (nv := nv) (k := true) hs ha
        rw [itemFor_true, scopeAt, hx] at this
        cases this
    · obtain ⟨x, hx, hx1, hx2⟩ := kindNames_mem hb.1
      obtain ⟨y, hy, hy1, hy2⟩ := kindNames_mem hb.2
      rw [← stored_names (nv := nv) fs xs hs] at hn
      have := inj_of_nodup hn hx hy (by rw [hx1, hy1])
      subst this
      rw [hx2] at hy2
      cases hy2

mutual
theorem norm_depth (nv : Val → Val) : ∀ (b : Bool) (i : Item), (Norm.item nv b i).depth = i.depth
  | _, .val _ _ => rfl
  | _, .scope _ t kids => by simp only [Norm.item, Item.depth, norm_depthL nv _ kids]
theorem norm_depthL (nv : Val → Val) : ∀ (b : Bool) (is : List Item), Item.depthL (Norm.items nv b is) = Item.depthL is
  | _, [] => rfl
  | b, i :: is => by simp only [Norm.items, Item.depthL, norm_depth nv b i, norm_depthL nv b is]
end

end Srl.Typed
