import Verif.Model.NodeApi
import Verif.Props.Fnv

/-! # Lemmas on the lists of fields of a node -/

namespace Srl.NodeApi.Items

variable {α : Type}

/-- What holds of the links of a list: increasing addresses, all used, and the right hash. -/
structure Good (l : Items α) : Prop where
  sorted : (l.links.map (·.id)).Pairwise (· < ·)
  used : ∀ x ∈ l.links, x.id < l.next
  hashed : ∀ x ∈ l.links, Fnv.hash x.name = .ok x.hash

theorem good_empty : Good (empty : Items α) :=
  ⟨by simp [empty], by simp [empty], by simp [empty]⟩

theorem eraseName_sublist (name : Bytes) (ls : List (Link α)) :
    (eraseName name ls).Sublist ls := by
  induction ls with
  | nil => simp [eraseName]
  | cons x xs ih =>
    rw [eraseName]; split
    · exact List.sublist_cons_self _ _
    · exact ih.cons_cons x

theorem eraseId_sublist (id : Nat) (ls : List (Link α)) : (eraseId id ls).Sublist ls := by
  induction ls with
  | nil => simp [eraseId]
  | cons x xs ih =>
    rw [eraseId]; split
    · exact List.sublist_cons_self _ _
    · exact ih.cons_cons x

theorem eraseIndex_sublist (i : Nat) (ls : List (Link α)) : (eraseIndex i ls).Sublist ls := by
  rw [eraseIndex]; split
  · exact List.eraseIdx_sublist _ _
  · exact List.Sublist.refl _

theorem Good.sublist {l : Items α} (h : Good l) {ls : List (Link α)} (hs : ls.Sublist l.links) :
    Good { l with links := ls } :=
  ⟨h.sorted.sublist (hs.map _), fun x hx => h.used x (hs.subset hx),
    fun x hx => h.hashed x (hs.subset hx)⟩

theorem modify_spec (id : Nat) (f : α → α) (ls ls' : List (Link α)) (h : modify id f ls = .ok ls') :
    ls'.map (·.id) = ls.map (·.id) ∧ ls'.map (·.name) = ls.map (·.name) ∧
      ls'.map (·.hash) = ls.map (·.hash) := by
  induction ls generalizing ls' with
  | nil => simp [modify] at h
  | cons x xs ih =>
    rw [modify] at h
    split at h
    · cases h; simp
    · obtain ⟨ys, hy, h⟩ := Res.bind_eq_ok.mp h
      cases h
      have := ih ys hy
      simp [this]

/-- Members after an assignment: those with another address as they were, and the one with the
address with a new content. -/
theorem modify_mem (id : Nat) (f : α → α) (ls ls' : List (Link α)) (h : modify id f ls = .ok ls')
    (hs : (ls.map (·.id)).Pairwise (· < ·)) (y : Link α) :
    y ∈ ls' ↔ (y ∈ ls ∧ y.id ≠ id) ∨ ∃ x ∈ ls, x.id = id ∧ y = { x with field := f x.field } := by
  induction ls generalizing ls' with
  | nil => simp [modify] at h
  | cons x xs ih =>
    simp only [List.map_cons, List.pairwise_cons, List.mem_map, forall_exists_index, and_imp,
      forall_apply_eq_imp_iff₂] at hs
    rw [modify] at h
    split at h
    · rename_i he
      have he : x.id = id := by simpa using he
      cases h
      simp only [List.mem_cons]
      constructor
      · rintro (rfl | hy)
        · exact .inr ⟨x, .inl rfl, he, rfl⟩
        · exact .inl ⟨.inr hy, by have := hs.1 y hy; omega⟩
      · rintro (⟨rfl | hy, hne⟩ | ⟨z, rfl | hz, hzi, rfl⟩)
        · exact absurd he hne
        · exact .inr hy
        · exact .inl rfl
        · have := hs.1 z hz; omega
    · rename_i he
      have he : x.id ≠ id := by simpa using he
      obtain ⟨ys, hy, h⟩ := Res.bind_eq_ok.mp h
      cases h
      simp only [List.mem_cons, ih ys hy hs.2]
      constructor
      · rintro (rfl | ⟨h1, h2⟩ | ⟨z, hz, h1, h2⟩)
        · exact .inl ⟨.inl rfl, he⟩
        · exact .inl ⟨.inr h1, h2⟩
        · exact .inr ⟨z, .inr hz, h1, h2⟩
      · rintro (⟨rfl | h1, h2⟩ | ⟨z, rfl | hz, h1, h2⟩)
        · exact .inl rfl
        · exact .inr (.inl ⟨h1, h2⟩)
        · exact absurd h1 he
        · exact .inr (.inr ⟨z, hz, h1, h2⟩)

theorem modify_live (id : Nat) (f : α → α) (ls : List (Link α)) (x : Link α) (hx : x ∈ ls)
    (hi : x.id = id) : ∃ ls', modify id f ls = .ok ls' := by
  induction ls with
  | nil => cases hx
  | cons y ys ih =>
    rw [modify]
    split
    · exact ⟨_, rfl⟩
    · rename_i hne
      rcases List.mem_cons.mp hx with rfl | hx
      · simp [hi] at hne
      · obtain ⟨ys', h⟩ := ih hx
        exact ⟨y :: ys', by rw [h]; rfl⟩

theorem good_step {l l' : Items α} {op : Op α} (h : Good l) (hs : step l op = .ok l') : Good l' := by
  cases op with
  | insert name x =>
    obtain ⟨hv, hh, _⟩ := Srl.Props.hash_is_fnv1a name
    simp only [step, create, hh, Res.ok_bind] at hs
    cases hs
    refine ⟨?_, ?_, ?_⟩
    · simp only [List.map_append, List.map_cons, List.map_nil, List.pairwise_append]
      refine ⟨h.sorted, by simp, ?_⟩
      intro a ha b hb
      obtain ⟨x, hx, rfl⟩ := List.mem_map.mp ha
      simp only [List.mem_singleton] at hb
      subst hb
      exact h.used x hx
    · intro y hy
      rcases List.mem_append.mp hy with hy | hy
      · exact Nat.lt_succ_of_lt (h.used y hy)
      · simp only [List.mem_singleton] at hy; subst hy; exact Nat.lt_succ_self _
    · intro y hy
      rcases List.mem_append.mp hy with hy | hy
      · exact h.hashed y hy
      · simp only [List.mem_singleton] at hy; subst hy; exact hh
  | removeName name => cases hs; exact h.sublist (eraseName_sublist name _)
  | removeAt i => cases hs; exact h.sublist (eraseIndex_sublist i _)
  | removeId i => cases hs; exact h.sublist (eraseId_sublist i _)
  | modify i f =>
    obtain ⟨ls, hm, hs⟩ := Res.bind_eq_ok.mp hs
    cases hs
    have hsp := modify_spec i f _ _ hm
    refine ⟨by simpa only [hsp.1] using h.sorted, ?_, ?_⟩
    · intro y hy
      rcases (modify_mem i f _ _ hm h.sorted y).mp hy with ⟨hy, _⟩ | ⟨z, hz, _, rfl⟩
      · exact h.used y hy
      · exact h.used z hz
    · intro y hy
      rcases (modify_mem i f _ _ hm h.sorted y).mp hy with ⟨hy, _⟩ | ⟨z, hz, _, rfl⟩
      · exact h.hashed y hy
      · exact h.hashed z hz

theorem findHash_eq (l : Items α) (h : Good l) (name : Bytes) (hv : UInt64)
    (hh : Fnv.hash name = .ok hv) : findHash hv name l.links = findName name l.links := by
  have hm := h.hashed
  generalize l.links = ls at hm
  induction ls with
  | nil => rfl
  | cons x xs ih =>
    rw [findHash, findName, ih (fun y hy => hm y (List.mem_cons_of_mem _ hy))]
    by_cases hn : x.name = name
    · have : Res.ok x.hash = Res.ok hv := by
        rw [← hm x List.mem_cons_self, hn, hh]
      cases this
      simp [hn]
    · simp [hn]

theorem get_eq (l : Items α) (h : Good l) (name : Bytes) :
    get name l = (match findName name l.links with | some x => .ok x | none => .err) := by
  obtain ⟨hv, hh, _⟩ := Srl.Props.hash_is_fnv1a name
  rw [get, hh, Res.ok_bind, findHash_eq l h name hv hh]
  cases findName name l.links <;> rfl

theorem findName_some (name : Bytes) (ls : List (Link α)) (k : Link α)
    (hs : (ls.map (·.id)).Pairwise (· < ·)) :
    findName name ls = some k ↔
      (k ∈ ls ∧ k.name = name ∧ ∀ j ∈ ls, j.name = name → k.id ≤ j.id) := by
  induction ls with
  | nil => simp [findName]
  | cons x xs ih =>
    simp only [List.map_cons, List.pairwise_cons, List.mem_map, forall_exists_index, and_imp,
      forall_apply_eq_imp_iff₂] at hs
    rw [findName]
    by_cases hn : x.name = name
    · simp only [hn, beq_self_eq_true, if_true, Option.some.injEq]
      constructor
      · rintro rfl
        refine ⟨List.mem_cons_self, hn, ?_⟩
        intro j hj _
        rcases List.mem_cons.mp hj with rfl | hj
        · exact Nat.le_refl _
        · exact Nat.le_of_lt (hs.1 j hj)
      · rintro ⟨hk, _, hmin⟩
        rcases List.mem_cons.mp hk with rfl | hk
        · rfl
        · have h1 := hmin x List.mem_cons_self hn
          have h2 := hs.1 k hk
          omega
    · have : (x.name == name) = false := by simpa using hn
      rw [this, if_neg (by simp), ih hs.2]
      constructor
      · rintro ⟨hk, h1, h2⟩
        refine ⟨List.mem_cons_of_mem _ hk, h1, ?_⟩
        intro j hj hjn
        rcases List.mem_cons.mp hj with rfl | hj
        · exact absurd hjn hn
        · exact h2 j hj hjn
      · rintro ⟨hk, h1, h2⟩
        rcases List.mem_cons.mp hk with rfl | hk
        · exact absurd h1 hn
        · exact ⟨hk, h1, fun j hj => h2 j (List.mem_cons_of_mem _ hj)⟩

theorem findName_none (name : Bytes) (ls : List (Link α)) :
    findName name ls = none ↔ ∀ j ∈ ls, j.name ≠ name := by
  induction ls with
  | nil => simp [findName]
  | cons x xs ih =>
    rw [findName]
    by_cases hn : x.name = name
    · simp [hn]
    · simp [hn, ih]

/-- Erasing by name erases what the search finds. -/
theorem eraseName_eq (name : Bytes) (ls : List (Link α)) (hs : (ls.map (·.id)).Pairwise (· < ·)) :
    eraseName name ls = (match findName name ls with
      | some k => eraseId k.id ls
      | none => ls) := by
  induction ls with
  | nil => rfl
  | cons x xs ih =>
    simp only [List.map_cons, List.pairwise_cons, List.mem_map, forall_exists_index, and_imp,
      forall_apply_eq_imp_iff₂] at hs
    rw [eraseName, findName]
    by_cases hn : x.name = name
    · simp [hn, eraseId]
    · have hb : (x.name == name) = false := by simpa using hn
      rw [hb, if_neg (by simp), if_neg (by simp), ih hs.2]
      cases hf : findName name xs with
      | none => rfl
      | some k =>
        have hk := ((findName_some name xs k hs.2).mp hf).1
        have := hs.1 k hk
        simp only [eraseId]
        rw [if_neg (by simp; omega)]

theorem eraseId_mem (id : Nat) (ls : List (Link α)) (hs : (ls.map (·.id)).Pairwise (· < ·))
    (y : Link α) : y ∈ eraseId id ls ↔ y ∈ ls ∧ y.id ≠ id := by
  induction ls with
  | nil => simp [eraseId]
  | cons x xs ih =>
    simp only [List.map_cons, List.pairwise_cons, List.mem_map, forall_exists_index, and_imp,
      forall_apply_eq_imp_iff₂] at hs
    rw [eraseId]
    by_cases hi : x.id = id
    · simp only [hi, beq_self_eq_true, if_true, List.mem_cons]
      constructor
      · intro hy; exact ⟨.inr hy, by have := hs.1 y hy; omega⟩
      · rintro ⟨rfl | hy, hne⟩
        · exact absurd hi hne
        · exact hy
    · have hb : (x.id == id) = false := by simpa using hi
      rw [hb, if_neg (by simp), List.mem_cons, List.mem_cons, ih hs.2]
      constructor
      · rintro (rfl | ⟨h1, h2⟩)
        · exact ⟨.inl rfl, hi⟩
        · exact ⟨.inr h1, h2⟩
      · rintro ⟨rfl | h1, h2⟩
        · exact .inl rfl
        · exact .inr ⟨h1, h2⟩

theorem eraseIndex_eq (i : Nat) (ls : List (Link α)) (hs : (ls.map (·.id)).Pairwise (· < ·)) :
    eraseIndex i ls = (match atIndex i ls with
      | some k => eraseId k.id ls
      | none => ls) := by
  induction ls generalizing i with
  | nil => simp [eraseIndex, atIndex]
  | cons x xs ih =>
    simp only [List.map_cons, List.pairwise_cons, List.mem_map, forall_exists_index, and_imp,
      forall_apply_eq_imp_iff₂] at hs
    cases i with
    | zero => simp [eraseIndex, atIndex, eraseId]
    | succ i =>
      have := ih i hs.2
      rw [eraseIndex, atIndex] at this ⊢
      by_cases hi : i < xs.length
      · simp only [List.length_cons, Nat.add_lt_add_iff_right, hi, if_true, List.getElem?_cons_succ,
          List.eraseIdx_cons_succ] at this ⊢
        rw [List.getElem?_eq_getElem hi] at this ⊢
        have hlt := hs.1 xs[i] (List.getElem_mem hi)
        simp only [eraseId] at this ⊢
        rw [if_neg (by simp; omega), this]
      · simp [hi]

theorem atIndex_some (i : Nat) (ls : List (Link α)) (k : Link α) :
    atIndex i ls = some k ↔ ∃ h : i < ls.length, ls[i] = k := by
  rw [atIndex]
  by_cases h : i < ls.length
  · simp [h]
  · simp [h]

theorem atIndex_none (i : Nat) (ls : List (Link α)) : atIndex i ls = none ↔ ls.length ≤ i := by
  rw [atIndex]
  by_cases h : i < ls.length
  · simp [h]
  · simp only [h, if_false, true_iff]; omega

end Srl.NodeApi.Items
