import Verif.Lemmas.TypedEnum

/-! Adding the elements of a container in any order gives the elements, each as often as it was added. -/

namespace Srl.Typed

theorem emplace_perm {b : Order} {x : Obj} : ∀ {ys : List Obj},
    (b.multi = true ∨ ∀ y ∈ ys, cmp (keyOf b.byKey x) (keyOf b.byKey y) ≠ .eq) → (emplace b x ys).Perm (x :: ys)
  | [], _ => by simp [emplace]
  | y :: ys, h => by
    have rest : (y :: emplace b x ys).Perm (x :: y :: ys) :=
      ((emplace_perm (h.imp id fun h z hz => h z (by simp [hz]))).cons y).trans (List.Perm.swap x y ys)
    rw [emplace]
    split
    · exact .refl _
    · rename_i he
      rcases h with h | h
      · rw [if_pos h]; exact rest
      · exact absurd he (h y (by simp))
    · exact rest

theorem foldl_keeps {b : Order} {P : Obj → Prop} (hk : Keyed b.byKey P) : ∀ (xs acc : List Obj),
    (∀ x ∈ acc ++ xs, P x) → (b.multi = true ∨ ((acc ++ xs).map (keyOf b.byKey)).Nodup) →
    (xs.foldl (fun acc x => emplace b x acc) acc).Perm (acc ++ xs)
  | [], acc, _, _ => by simp
  | x :: xs, acc, hP, h => by
    have hx : (emplace b x acc).Perm (x :: acc) := emplace_perm (h.imp id fun h y hy he => by
      have hs := hk.cmp x y (hP x (by simp)) (hP y (by simp [hy]))
      rw [he] at hs
      have hxy : keyOf b.byKey x = keyOf b.byKey y := hs
      rw [List.map_append, List.nodup_append] at h
      exact h.2.2 _ (List.mem_map_of_mem hy) (keyOf b.byKey x) (by simp) hxy.symm)
    have hp : (emplace b x acc ++ xs).Perm (acc ++ x :: xs) :=
      (hx.append_right xs).trans List.perm_middle.symm
    refine (foldl_keeps hk xs (emplace b x acc) (fun y hy => hP y (hp.mem_iff.mp hy)) ?_).trans hp
    exact h.imp id fun h => ((hp.map _).nodup_iff).mpr h

/-- A container with repeated keys takes all elements, another one takes them if their keys differ. -/
theorem collect_keeps {b : Order} {c : Ty} (hc : c.Elems b) {xs : List Obj} (hw : WT c (.many xs))
    (h : b.multi = true ∨ (xs.map (keyOf b.byKey)).Nodup) : ∃ ys, collect b (.many xs) = .many ys ∧ xs.Perm ys := by
  obtain ⟨P, hk, hP⟩ := keyed_elems hc
  obtain ⟨xs', he, hx⟩ := (hP _).mp hw
  cases he
  exact ⟨_, rfl, (foldl_keeps hk xs [] (by simpa using hx) (by simpa using h)).symm⟩

theorem zip_same : ∀ {xs ys : List Obj}, xs.length = ys.length → (∀ p ∈ xs.zip ys, p.1 = p.2) → xs = ys
  | [], [], _, _ => rfl
  | x :: xs, y :: ys, hl, h => by
    have ih : xs = ys := zip_same (by simpa using hl) fun p hp => h p (by simp [hp])
    rw [show x = y from h (x, y) (by simp), ih]
  | [], _ :: _, hl, _ => by simp at hl
  | _ :: _, [], hl, _ => by simp at hl

mutual
/-- Keys hold no containers that could be written in another order. -/
theorem enum_key {free : Bool} : ∀ (k : Ty) (x y : Obj), k.Key → Enumerates free k x y → x = y
  | .bool, _, _, _, h | .int _, _, _, _, h | .str, _, _, _, h => h
  | .vec e, x, y, hk, h => by
    obtain ⟨xs, ys, rfl, rfl, hl, h⟩ := h
    rw [zip_same hl fun p hp => enum_key e p.1 p.2 hk (h p hp)]
  | .record _ _ fs, x, y, hk, h => by
    obtain ⟨xs, ys, rfl, rfl, h⟩ := h
    rw [enumL_key fs xs ys hk.2 h]
  | .float, _, _, hk, _ | .double, _, _, hk, _ | .bytes, _, _, hk, _ | .named _, _, _, hk, _
  | .arr _ _, _, _, hk, _ | .ptr _ _, _, _, hk, _ | .sorted _ _, _, _, hk, _ => by simp [Ty.Key] at hk
theorem enumL_key {free : Bool} : ∀ (fs : Fields) (xs ys : List Obj), fs.Key → EnumeratesL free fs xs ys → xs = ys
  | .nil, [], [], _, _ => rfl
  | .cons _ _ ty rest, x :: xs, y :: ys, hk, h => by
    simp only [EnumeratesL] at h
    rw [enum_key ty x y hk.1 h.1, enumL_key rest xs ys hk.2 h.2]
  | .nil, _ :: _, _, _, h => by simp [EnumeratesL] at h
  | .nil, [], _ :: _, _, h => by simp [EnumeratesL] at h
  | .cons _ _ _ _, [], _, _, h => by simp [EnumeratesL] at h
  | .cons _ _ _ _, _ :: _, [], _, h => by simp [EnumeratesL] at h
end

theorem zip_keys {f : Obj → Obj} : ∀ {xs ys : List Obj}, xs.length = ys.length →
    (∀ p ∈ xs.zip ys, f p.1 = f p.2) → xs.map f = ys.map f
  | [], [], _, _ => rfl
  | x :: xs, y :: ys, hl, h => by
    rw [List.map_cons, List.map_cons, show f x = f y from h (x, y) (by simp),
      zip_keys (by simpa using hl) fun p hp => h p (by simp [hp])]
  | [], _ :: _, hl, _ => by simp at hl
  | _ :: _, [], hl, _ => by simp at hl

/-- The keys of the elements are written as they are. -/
theorem enum_keys {free : Bool} {b : Order} {c : Ty} (hc : c.Elems b) {xs ys : List Obj}
    (h : Enumerates free c (.many xs) (.many ys)) : xs.map (keyOf b.byKey) = ys.map (keyOf b.byKey) := by
  unfold Ty.Elems at hc
  split at hc
  · rename_i hb
    rw [hb]
    rcases hc with ⟨k, v, hk, rfl⟩ | ⟨-, v, rfl⟩
    · obtain ⟨_, _, h1, h2, hl, h⟩ := h
      cases h1; cases h2
      refine zip_keys hl fun p hp => ?_
      obtain ⟨as, bs, h1, h2, h⟩ := h p hp
      rw [h1, h2]
      match as, bs, h with
      | [a, a'], [b, b'], h =>
        simp only [EnumeratesL] at h
        rw [enum_key k a b hk h.1]
        rfl
      | [], [], h | [], _ :: _, h | [_], [], h | [_], [_], h | [_], _ :: _ :: _, h | [_, _], [], h
      | [_, _], [_], h | [_, _], _ :: _ :: _ :: _, h | _ :: _ :: _ :: _, [], h | _ :: _ :: _ :: _, [_], h
      | _ :: _ :: _ :: _, [_, _], h | _ :: _ :: _ :: _, _ :: _ :: _ :: _, h => simp [EnumeratesL] at h
    · obtain ⟨_, _, h1, h2, hl, h⟩ := h
      cases h1; cases h2
      refine zip_keys hl fun p hp => ?_
      obtain ⟨k, x, y, rfl, -⟩ := h p hp
      rfl
  · rename_i hb
    obtain ⟨k, hk, rfl⟩ := hc
    obtain ⟨_, _, h1, h2, hl, h⟩ := h
    cases h1; cases h2
    refine zip_keys hl fun p hp => ?_
    rw [enum_key k _ _ hk (h p hp)]

theorem zip_tidy {xs ys : List Obj} {f : Obj → Obj} {R : Obj × Obj → Prop} (h : ∀ p ∈ xs.zip ys, R (p.1, f p.2)) :
    ∀ p ∈ xs.zip (ys.map f), R p := by
  intro p hp
  rw [List.zip_map_right] at hp
  obtain ⟨q, hq, rfl⟩ := List.mem_map.mp hp
  exact h q hq

theorem zip_right : ∀ {xs ys : List Obj} {P : Obj → Prop}, xs.length = ys.length → (∀ p ∈ xs.zip ys, P p.2) → ∀ y ∈ ys, P y
  | [], [], _, _, _ => by simp
  | x :: xs, y :: ys, P, hl, h => by
    intro z hz
    rcases List.mem_cons.mp hz with rfl | hz
    · exact h (x, z) (by simp)
    · exact zip_right (by simpa using hl) (fun p hp => h p (by simp [hp])) z hz
  | [], _ :: _, _, hl, _ => by simp at hl
  | _ :: _, [], _, hl, _ => by simp at hl

mutual
/-- What is written in any order is restored with its containers in an order of their own. -/
theorem enum_tidy : ∀ (ty : Ty) (o o' : Obj), ty.Ok → Proper ty o → Enumerates true ty o o' →
    Enumerates true ty o (tidy ty o') ∧ Proper ty (tidy ty o')
  | .bool, o, o', _, hp, h | .int _, o, o', _, hp, h | .float, o, o', _, hp, h | .double, o, o', _, hp, h
  | .str, o, o', _, hp, h | .bytes, o, o', _, hp, h => by
    simp only [Enumerates] at h
    subst h
    cases o <;> exact ⟨rfl, hp⟩
  | .vec e, o, o', hok, hp, h => by
    obtain ⟨xs, ys, rfl, rfl, hl, h⟩ := h
    simp only [Proper] at hp
    have ih : ∀ p ∈ xs.zip ys, _ := fun p hx => enum_tidy e p.1 p.2 hok (hp p.1 (List.of_mem_zip hx).1) (h p hx)
    simp only [tidy]
    refine ⟨⟨xs, _, rfl, rfl, by simpa using hl, zip_tidy fun p hp => (ih p hp).1⟩, ?_⟩
    simp only [Proper]
    refine zip_right (xs := xs) (by simpa using hl) (zip_tidy fun p hp => (ih p hp).2)
  | .named e, o, o', hok, hp, h => by
    obtain ⟨xs, ys, rfl, rfl, hl, h⟩ := h
    simp only [Proper] at hp
    have ih : ∀ p ∈ xs.zip ys, (∃ k x y, (p.1, onValue (fun y => tidy e y) p.2) = (.many [k, x], .many [k, y]) ∧
        Enumerates true e x y) ∧ Entry (Proper e) (onValue (fun y => tidy e y) p.2) := fun p hx => by
      obtain ⟨k, x, y, rfl, hxy⟩ := h p hx
      obtain ⟨k', x', he, hpx⟩ := hp _ (List.of_mem_zip hx).1
      cases he
      have ih := enum_tidy e x y hok hpx hxy
      exact ⟨⟨_, x, tidy e y, rfl, ih.1⟩, ⟨k', tidy e y, rfl, ih.2⟩⟩
    simp only [tidy]
    refine ⟨⟨xs, _, rfl, rfl, by simpa using hl, zip_tidy fun p hp => (ih p hp).1⟩, ?_⟩
    simp only [Proper]
    refine zip_right (xs := xs) (by simpa using hl) (zip_tidy fun p hp => (ih p hp).2)
  | .arr _ e, o, o', hok, hp, h => by
    obtain ⟨xs, ys, rfl, rfl, hl, h⟩ := h
    simp only [Proper] at hp
    have ih : ∀ p ∈ xs.zip ys, _ := fun p hx => enum_tidy e p.1 p.2 hok (hp.2 p.1 (List.of_mem_zip hx).1) (h p hx)
    simp only [tidy]
    refine ⟨⟨xs, _, rfl, rfl, by simpa using hl, zip_tidy fun p hp => (ih p hp).1⟩, ?_⟩
    simp only [Proper]
    refine ⟨by rw [List.length_map, ← hl, hp.1], ?_⟩
    refine zip_right (xs := xs) (by simpa using hl) (zip_tidy fun p hp => (ih p hp).2)
  | .record _ _ fs, o, o', hok, hp, h => by
    obtain ⟨xs, ys, rfl, rfl, h⟩ := h
    simp only [Proper] at hp
    have ih := enumL_tidy fs xs ys hok.1 hp h
    simp only [tidy]
    exact ⟨⟨xs, _, rfl, rfl, ih.1⟩, by simpa only [Proper] using ih.2⟩
  | .ptr _ e, o, o', hok, hp, h => by
    rcases h with ⟨rfl, rfl⟩ | ⟨x, y, rfl, rfl, h⟩
    · exact ⟨.inl ⟨rfl, rfl⟩, hp⟩
    · simp only [Proper] at hp
      have ih := enum_tidy e x y hok hp h
      simp only [tidy]
      exact ⟨.inr ⟨x, _, rfl, rfl, ih.1⟩, by simpa only [Proper] using ih.2⟩
  | .sorted b c, o, o', hok, hp, h => by
    simp only [Proper] at hp
    have hw := Srl.Proper.proper_wt c o hp.1
    obtain ⟨P, hk, hP⟩ := keyed_elems hok.2
    obtain ⟨os, rfl, hos⟩ := (hP _).mp hw
    have hn : b.multi = true ∨ (os.map (keyOf b.byKey)).Nodup := by
      cases hm : b.multi with
      | true => exact .inl rfl
      | false => exact .inr (asc_nodup hm ((ascending_iff hk hos).mp hp.2))
    obtain ⟨t, ht⟩ := tidy_many hok.2
    -- `zs`: the elements in the order of the object, `ys`: in the order in which they were written
    have key : ∀ xs ys, xs.Perm ys → Enumerates true c (.many os) (.many xs) →
        Enumerates true (.sorted b c) (.many os) (tidy (.sorted b c) (.many ys)) ∧
          Proper (.sorted b c) (tidy (.sorted b c) (.many ys)) := by
      intro xs ys hperm h
      have ih := enum_tidy c (.many os) (.many xs) hok.1 hp.1 h
      rw [ht] at ih
      obtain ⟨Q, hQ⟩ := Srl.Proper.elems_proper hok.2
      have hpy : Proper c (.many (ys.map t)) := by
        obtain ⟨zs, he, hz⟩ := (hQ _).mp ih.2
        cases he
        exact (hQ _).mpr ⟨_, rfl, fun y hy => hz y ((hperm.map t).mem_iff.mpr hy)⟩
      have hny : b.multi = true ∨ ((ys.map t).map (keyOf b.byKey)).Nodup := hn.imp id fun h => by
        rw [enum_keys hok.2 ih.1] at h
        exact (((hperm.map t).map _).nodup_iff).mp h
      simp only [tidy, ht]
      obtain ⟨zs, he, hz⟩ := collect_keeps hok.2 (Srl.Proper.proper_wt c _ hpy) hny
      refine ⟨?_, by simpa only [Proper] using Srl.Proper.collect_proper hok.2 hpy⟩
      rw [he]
      exact .inr ⟨.inr rfl, _, zs, ih.1, rfl, (hperm.map t).trans hz⟩
    rcases h with h | ⟨-, xs, ys, h, rfl, hperm⟩
    · obtain ⟨ys, rfl⟩ : ∃ ys, o' = .many ys := by
        rcases elems_form hok.2 with ⟨e, rfl⟩ | ⟨e, rfl⟩ <;> obtain ⟨_, ys, _, rfl, _⟩ := h <;> exact ⟨ys, rfl⟩
      exact key ys ys (.refl _) h
    · exact key xs ys hperm h
theorem enumL_tidy : ∀ (fs : Fields) (xs ys : List Obj), fs.Ok → ProperL fs xs → EnumeratesL true fs xs ys →
    EnumeratesL true fs xs (tidyL fs ys) ∧ ProperL fs (tidyL fs ys)
  | .nil, [], [], _, _, _ => ⟨trivial, trivial⟩
  | .cons _ _ ty rest, x :: xs, y :: ys, hok, hp, h => by
    simp only [ProperL] at hp
    simp only [EnumeratesL] at h
    have ih := enum_tidy ty x y hok.1 hp.1 h.1
    have ih' := enumL_tidy rest xs ys hok.2 hp.2 h.2
    simp only [tidyL, EnumeratesL, ProperL]
    exact ⟨⟨ih.1, ih'.1⟩, ih.2, ih'.2⟩
  | .nil, _ :: _, _, _, _, h => by simp [EnumeratesL] at h
  | .nil, [], _ :: _, _, _, h => by simp [EnumeratesL] at h
  | .cons _ _ _ _, [], _, _, _, h => by simp [EnumeratesL] at h
  | .cons _ _ _ _, _ :: _, [], _, _, h => by simp [EnumeratesL] at h
end

end Srl.Typed
