import Verif.Props.SharedSpec
import Verif.Props.HTable
import Verif.Lemmas.TypedStore

/-! Storing and restoring shared pointers. -/

namespace Srl.Shared
open Typed Doc
open HTable (Cfg Tbl)

/-! ## Tables -/

/-- The table holds the entries of `g`. -/
def Tab (cfg : Cfg Nat) (t : Tbl Nat Nat) (g : Nat → Option Nat) : Prop :=
  HTable.Inv cfg t ∧ ∃ m, Props.Abs t m ∧ ∀ k, (m k).map (·.2) = g k

theorem tab_new (cfg : Cfg Nat) (b : Nat) : Tab cfg (HTable.new b) (fun _ => none) :=
  ⟨(Props.new_inv cfg b).1, _, (Props.new_inv cfg b).2, fun _ => rfl⟩

theorem tab_get {cfg : Cfg Nat} {t : Tbl Nat Nat} {g : Nat → Option Nat} (h : Tab cfg t g) (k : Nat) :
    ∃ r, HTable.get cfg t k = .ok r ∧ r.map (·.2) = g k := by
  obtain ⟨hi, m, ha, hm⟩ := h
  exact ⟨m k, Props.get_spec hi ha k, hm k⟩

theorem grow_elements {cfg : Cfg Nat} {t t' : Tbl Nat Nat} (h : HTable.grow cfg t = .ok t') :
    t'.elements = t.elements := by
  unfold HTable.grow at h
  split at h
  · unfold HTable.redistribute at h
    split at h
    · cases h; rfl
    · split at h
      · cases h
      · cases h; rfl
  · cases h; rfl

theorem insert_elements {cfg : Cfg Nat} {t t' : Tbl Nat Nat} {k v a w : Nat} {x : Bool}
    (h : HTable.insertHash cfg false t k v = .ok (t', x, a, w)) :
    t'.elements = t.elements + (if x then 0 else 1) := by
  unfold HTable.insertHash at h
  simp only [Res.bind_eq_ok] at h
  obtain ⟨t1, h1, c, h2, h3⟩ := h
  have := grow_elements h1
  split at h3
  · cases h3; simpa using this
  · cases h3; simp [this]

theorem tab_insert {cfg : Cfg Nat} {t : Tbl Nat Nat} {g : Nat → Option Nat} (h : Tab cfg t g)
    (k v : Nat) : ∃ t' x a w, HTable.insert cfg t k v = .ok (t', x, a, w) ∧
      ((x = false ∧ w = v ∧ g k = none ∧ Tab cfg t' (fun j => if j = k then some v else g j) ∧
          t'.elements = t.elements + 1) ∨
       (x = true ∧ g k = some w ∧ Tab cfg t' g ∧ t'.elements = t.elements)) := by
  obtain ⟨hi, m, ha, hm⟩ := h
  obtain ⟨t', x, a, w, h1, h2, h3⟩ := Props.insert_spec hi ha false k v
  refine ⟨t', x, a, w, h1, ?_⟩
  have he := insert_elements h1
  rcases h3 with ⟨rfl, rfl, hn, -, h4⟩ | ⟨rfl, -, hs, h4⟩ | ⟨-, hu, -⟩
  · refine .inl ⟨rfl, rfl, by rw [← hm, hn]; rfl, ⟨h2, _, h4, fun j => ?_⟩, by simpa using he⟩
    simp only [Props.Map.put]
    split
    · rfl
    · exact hm j
  · exact .inr ⟨rfl, by rw [← hm, hs]; rfl, ⟨h2, m, h4, hm⟩, by simpa using he⟩
  · cases hu

/-- The table of stored addresses after `seen`. -/
structure SeenIs (cfg : Cfg Nat) (t : Seen) (seen : List Nat) : Prop where
  tab : ∃ g, Tab cfg t g ∧ ∀ a k, g a = some k ↔ seen[k]? = some a
  count : t.elements = seen.length
  nodup : seen.Nodup

theorem seen_new (cfg : Cfg Nat) : SeenIs cfg Seen.new [] :=
  ⟨⟨_, tab_new cfg 16, by simp⟩, rfl, List.nodup_nil⟩

theorem insertShared_spec {cfg : Cfg Nat} {t : Seen} {seen : List Nat} (h : SeenIs cfg t seen)
    (a : Nat) : ∃ known key t', insertShared cfg t a = .ok (known, key, t') ∧
      ((known = true ∧ seen[key]? = some a ∧ SeenIs cfg t' seen) ∨
       (known = false ∧ key = seen.length ∧ a ∉ seen ∧ SeenIs cfg t' (seen ++ [a]))) := by
  obtain ⟨⟨g, hg, hs⟩, hc, hn⟩ := h
  obtain ⟨t', x, p, w, h1, h2⟩ := tab_insert hg a t.elements
  refine ⟨x, w, t', by simp [insertShared, h1], ?_⟩
  rcases h2 with ⟨rfl, rfl, hnone, ht, he⟩ | ⟨rfl, hsome, ht, he⟩
  · have hni : a ∉ seen := by
      intro hm
      obtain ⟨k, hk⟩ := List.getElem?_of_mem hm
      rw [← hs, hnone] at hk
      cases hk
    refine .inr ⟨rfl, hc, hni, ⟨_, ht, fun b k => ?_⟩, by simp [he, hc], ?_⟩
    · rw [hc]
      by_cases hb : b = a
      · subst hb
        simp only [if_true]
        rw [List.getElem?_append]
        split
        · rename_i hlt
          constructor
          · intro h; cases h; omega
          · intro h
            exact absurd (List.mem_of_getElem? h) hni
        · rename_i hge
          constructor
          · intro h; cases h; simp
          · intro h
            obtain ⟨hlt, -⟩ := List.getElem?_eq_some_iff.mp h
            simp at hlt
            congr 1
            omega
      · rw [if_neg hb, hs, List.getElem?_append]
        split
        · rfl
        · rename_i hge
          rw [List.getElem?_eq_none (by omega)]
          constructor
          · intro h; cases h
          · intro h
            have := List.mem_of_getElem? h
            simp at this
            exact absurd this hb
    · rw [List.nodup_append]
      exact ⟨hn, by simp, by rintro x hx y hy rfl; simp at hy; exact hni (hy ▸ hx)⟩
  · exact .inl ⟨rfl, (hs a w).mp hsome, ⟨g, ht, hs⟩, by rw [he, hc], hn⟩

/-! ## What storing gives -/

mutual
/-- The item an object is stored as, if the objects `seen` were stored before. -/
inductive DocI (C : Nat → GTy) (G : Graph) :
    List Nat → GTy → Bytes → Obj → Item → List Nat → Prop
  | plain {seen ty nm o} : Typed.Storable ty o →
      DocI C G seen (.plain ty) nm o (toItem nm ty o) seen
  | vec {seen e nm xs is seen'} : DocL C G seen e xs is seen' →
      DocI C G seen (.vec e) nm (.many xs) (.scope nm .array is) seen'
  | record {seen fs nm xs is seen'} : DocF C G seen fs xs is seen' →
      DocI C G seen (.record fs) nm (.many xs) (.scope nm .object is) seen'
  | known {seen w nm a} {k : Nat} : seen[k]? = some a → k < 2 ^ 64 →
      DocI C G seen (.shared w (G.cls a)) nm (addr a)
        (.scope nm .object [.val keyName (.int .u64 k)]) seen
  | new {seen w nm a i seen'} : a ∉ seen → seen.length < 2 ^ 64 →
      DocI C G (seen ++ [a]) (C (G.cls a)) valueName (G.obj a) i seen' →
      DocI C G seen (.shared w (G.cls a)) nm (addr a)
        (.scope nm .object [.val keyName (.int .u64 seen.length), i]) seen'
inductive DocL (C : Nat → GTy) (G : Graph) :
    List Nat → GTy → List Obj → List Item → List Nat → Prop
  | nil {seen e} : DocL C G seen e [] [] seen
  | cons {seen e x xs i is seen1 seen'} : DocI C G seen e [] x i seen1 →
      DocL C G seen1 e xs is seen' → DocL C G seen e (x :: xs) (i :: is) seen'
inductive DocF (C : Nat → GTy) (G : Graph) :
    List Nat → GFields → List Obj → List Item → List Nat → Prop
  | nil {seen} : DocF C G seen .nil [] [] seen
  | cons {seen nm ty rest x xs i is seen1 seen'} : DocI C G seen ty nm x i seen1 →
      DocF C G seen1 rest xs is seen' → DocF C G seen (.cons nm ty rest) (x :: xs) (i :: is) seen'
end

variable {C : Nat → GTy} {G : Graph}

/-- Storing `o` after `seen` succeeds for every sufficient bound of the recursion. -/
def Stores (cfg : Cfg Nat) (C : Nat → GTy) (G : Graph) (dom : List Nat) (seen : List Nat) (ty : GTy)
    (nm : Bytes) (o : Obj) (t : Seen) : Prop :=
  ∃ D it t' seen', (∀ f, D ≤ f → store cfg C G f nm ty o t = .ok (it, t')) ∧
    DocI C G seen ty nm o it seen' ∧ SeenIs cfg t' seen' ∧ seen ⊆ seen' ∧ seen' ⊆ dom

theorem length_le_of_subset {xs ys : List Nat} (hn : xs.Nodup) (h : xs ⊆ ys) :
    xs.length ≤ ys.length := by
  induction xs generalizing ys with
  | nil => simp
  | cons x xs ih =>
    simp only [List.nodup_cons] at hn
    have h1 : xs ⊆ ys.erase x := by
      intro y hy
      rw [List.mem_erase_of_ne (by rintro rfl; exact hn.1 hy)]
      exact h (by simp [hy])
    have h2 := ih hn.2 h1
    have hx : x ∈ ys := h (by simp)
    rw [List.length_erase_of_mem hx] at h2
    have := List.length_pos_of_mem hx
    simp
    omega

theorem addr_inj {a b : Nat} (h : addr a = addr b) : a = b := by
  simp only [addr, Obj.ref.injEq, Obj.int.injEq] at h
  exact Int.ofNat_inj.mp h

section storing
variable (cfg : Cfg Nat) (dom : List Nat) (hG : G.Ok C dom)
include hG

/-- One more object seen. -/
def Below (cfg : Cfg Nat) (C : Nat → GTy) (G : Graph) (dom : List Nat) (u : Nat) : Prop :=
  ∀ ty nm o seen t, Storable ty o → PtrsOk G dom (refs ty o) → SeenIs cfg t seen → seen ⊆ dom →
    dom.length ≤ seen.length + u → Stores cfg C G dom seen ty nm o t

mutual
theorem store_ty (u : Nat) (hb : ∀ v, v < u → Below cfg C G dom v) : ∀ (ty : GTy) (nm : Bytes) (o : Obj)
    (seen : List Nat) (t : Seen), Storable ty o → PtrsOk G dom (refs ty o) → SeenIs cfg t seen →
    seen ⊆ dom → dom.length ≤ seen.length + u → Stores cfg C G dom seen ty nm o t
  | .plain ty, nm, o, seen, t => by
    intro hst _ hs hd _
    simp only [Storable] at hst
    refine ⟨1, toItem nm ty o, t, seen, fun f hf => ?_, .plain hst, hs, fun _ h => h, hd⟩
    obtain ⟨k, rfl⟩ : ∃ k, f = k + 1 := ⟨f - 1, by omega⟩
    simp only [store]
  | .vec e, nm, o, seen, t => by
    intro hst hp hs hd hu
    simp only [Storable] at hst
    obtain ⟨xs, rfl, hst⟩ := hst
    simp only [refs] at hp
    have key : ∀ (xs : List Obj), (∀ x ∈ xs, Storable e x) → PtrsOk G dom (xs.flatMap (refs e)) →
        ∀ seen t, SeenIs cfg t seen → seen ⊆ dom → dom.length ≤ seen.length + u →
        ∃ D is t' seen', (∀ f, D ≤ f → eachObj (store cfg C G f [] e) xs t = .ok (is, t')) ∧
          DocL C G seen e xs is seen' ∧ SeenIs cfg t' seen' ∧ seen ⊆ seen' ∧ seen' ⊆ dom := by
      intro xs
      induction xs with
      | nil =>
        intro _ _ seen t hs hd _
        exact ⟨0, [], t, seen, fun f _ => rfl, .nil, hs, fun _ h => h, hd⟩
      | cons x xs ih =>
        intro h1 h2 seen t hs hd hu
        obtain ⟨D1, i, t1, seen1, e1, d1, hs1, hsub1, hd1⟩ := store_ty u hb e [] x seen t
          (h1 x (by simp)) (fun r hr => h2 r (by simp [hr])) hs hd hu
        have hlen := length_le_of_subset hs.nodup hsub1
        obtain ⟨D2, is, t2, seen2, e2, d2, hs2, hsub2, hd2⟩ := ih (fun y hy => h1 y (by simp [hy]))
          (fun r hr => h2 r (by rw [List.flatMap_cons]; exact List.mem_append_right _ hr))
          seen1 t1 hs1 hd1 (by omega)
        refine ⟨max D1 D2, i :: is, t2, seen2, fun f hf => ?_, .cons d1 d2, hs2,
          fun _ h => hsub2 (hsub1 h), hd2⟩
        simp only [eachObj, e1 f (by omega), Res.ok_bind, e2 f (by omega)]
    obtain ⟨D, is, t', seen', e1, d, hs', hsub, hd'⟩ := key xs hst hp seen t hs hd hu
    refine ⟨D + 1, .scope nm .array is, t', seen', fun f hf => ?_, .vec d, hs', hsub, hd'⟩
    obtain ⟨k, rfl⟩ : ∃ k, f = k + 1 := ⟨f - 1, by omega⟩
    simp only [store, e1 k (by omega), Res.ok_bind]
  | .record fs, nm, o, seen, t => by
    intro hst hp hs hd hu
    simp only [Storable] at hst
    obtain ⟨xs, rfl, hst⟩ := hst
    simp only [refs] at hp
    obtain ⟨D, is, t', seen', e1, d, hs', hsub, hd'⟩ := store_fields u hb fs xs seen t hst hp hs hd hu
    refine ⟨D + 1, .scope nm .object is, t', seen', fun f hf => ?_, .record d, hs', hsub, hd'⟩
    obtain ⟨k, rfl⟩ : ∃ k, f = k + 1 := ⟨f - 1, by omega⟩
    simp only [store, e1 k (by omega), Res.ok_bind]
  | .shared w c, nm, o, seen, t => by
    intro hst hp hs hd hu
    simp only [Storable] at hst
    obtain ⟨a, rfl⟩ := hst
    obtain ⟨had, hc⟩ := hp (c, a) (by simp [refs, addr])
    simp only at had hc
    subst hc
    have hcount := hG.count
    have hlen := length_le_of_subset hs.nodup hd
    obtain ⟨known, key, t1, h1, h2⟩ := insertShared_spec hs a
    rcases h2 with ⟨rfl, hk, hs1⟩ | ⟨rfl, rfl, hni, hs1⟩
    · obtain ⟨hlt, -⟩ := List.getElem?_eq_some_iff.mp hk
      refine ⟨1, _, t1, seen, fun f hf => ?_, .known hk (by omega), hs1, fun _ h => h, hd⟩
      obtain ⟨k, rfl⟩ : ∃ k, f = k + 1 := ⟨f - 1, by omega⟩
      simp only [addr, store, h1, Res.ok_bind, if_true]
    · have hd1 : seen ++ [a] ⊆ dom := by
        intro b hb
        simp only [List.mem_append, List.mem_singleton] at hb
        rcases hb with hb | rfl
        · exact hd hb
        · exact had
      have hlt := length_le_of_subset hs1.nodup hd1
      simp only [List.length_append, List.length_singleton] at hlt
      obtain ⟨D, i, t2, seen2, e1, d, hs2, hsub, hd2⟩ := hb (dom.length - (seen.length + 1))
        (by omega) (C (G.cls a)) valueName (G.obj a) (seen ++ [a]) t1 (hG.objs a had) (hG.ptrs a had)
        hs1 hd1 (by simp only [List.length_append, List.length_singleton]; omega)
      refine ⟨D + 1, _, t2, seen2, fun f hf => ?_, .new hni (by omega) d, hs2,
        fun x hx => hsub (by simp [hx]), hd2⟩
      obtain ⟨k, rfl⟩ : ∃ k, f = k + 1 := ⟨f - 1, by omega⟩
      simp only [addr, store, h1, Res.ok_bind, Bool.false_eq_true, if_false, e1 k (by omega)]
theorem store_fields (u : Nat) (hb : ∀ v, v < u → Below cfg C G dom v) : ∀ (fs : GFields)
    (xs : List Obj) (seen : List Nat) (t : Seen), StorableL fs xs → PtrsOk G dom (refsL fs xs) →
    SeenIs cfg t seen → seen ⊆ dom → dom.length ≤ seen.length + u →
    ∃ D is t' seen', (∀ f, D ≤ f → eachField (store cfg C G f) fs xs t = .ok (is, t')) ∧
      DocF C G seen fs xs is seen' ∧ SeenIs cfg t' seen' ∧ seen ⊆ seen' ∧ seen' ⊆ dom
  | .nil, xs, seen, t => by
    intro hst _ hs hd _
    simp only [StorableL] at hst
    subst hst
    exact ⟨0, [], t, seen, fun f _ => by simp only [eachField], .nil, hs, fun _ h => h, hd⟩
  | .cons nm ty rest, xs, seen, t => by
    intro hst hp hs hd hu
    simp only [StorableL] at hst
    obtain ⟨x, xs, rfl, h1, h2⟩ := hst
    simp only [refsL] at hp
    obtain ⟨D1, i, t1, seen1, e1, d1, hs1, hsub1, hd1⟩ := store_ty u hb ty nm x seen t
      h1 (fun r hr => hp r (by simp [hr])) hs hd hu
    have hlen := length_le_of_subset hs.nodup hsub1
    obtain ⟨D2, is, t2, seen2, e2, d2, hs2, hsub2, hd2⟩ := store_fields u hb rest xs seen1 t1 h2
      (fun r hr => hp r (by simp [hr])) hs1 hd1 (by omega)
    refine ⟨max D1 D2, i :: is, t2, seen2, fun f hf => ?_, .cons d1 d2, hs2,
      fun _ h => hsub2 (hsub1 h), hd2⟩
    simp only [eachField, e1 f (by omega), Res.ok_bind, e2 f (by omega)]
end

/-- Storing any object of any graph, even a cyclic one, comes to an end. -/
theorem store_ok (ty : GTy) (nm : Bytes) (o : Obj) (h1 : Storable ty o)
    (h2 : PtrsOk G dom (refs ty o)) : Stores cfg C G dom [] ty nm o Seen.new := by
  have key : ∀ u, Below cfg C G dom u := by
    intro u
    induction u using Nat.strongRecOn with
    | ind u ih => exact fun ty nm o seen t => store_ty cfg dom hG u ih ty nm o seen t
  exact key dom.length ty nm o [] Seen.new h1 h2 (seen_new cfg) (by simp) (by simp)

end storing

mutual
theorem doc_prefix {C : Nat → GTy} {G : Graph} : ∀ {seen ty nm o it seen'},
    DocI C G seen ty nm o it seen' → seen <+: seen'
  | _, _, _, _, _, _, .plain _ => List.prefix_refl _
  | _, _, _, _, _, _, .vec h => docL_prefix h
  | _, _, _, _, _, _, .record h => docF_prefix h
  | _, _, _, _, _, _, .known _ _ => List.prefix_refl _
  | _, _, _, _, _, _, .new _ _ h => (List.prefix_append _ _).trans (doc_prefix h)
theorem docL_prefix {C : Nat → GTy} {G : Graph} : ∀ {seen e xs is seen'},
    DocL C G seen e xs is seen' → seen <+: seen'
  | _, _, _, _, _, .nil => List.prefix_refl _
  | _, _, _, _, _, .cons h1 h2 => (doc_prefix h1).trans (docL_prefix h2)
theorem docF_prefix {C : Nat → GTy} {G : Graph} : ∀ {seen fs xs is seen'},
    DocF C G seen fs xs is seen' → seen <+: seen'
  | _, _, _, _, _, .nil => List.prefix_refl _
  | _, _, _, _, _, .cons h1 h2 => (doc_prefix h1).trans (docF_prefix h2)
end

mutual
/-- Only objects that can be reached are stored. -/
theorem doc_only {C : Nat → GTy} {G : Graph} {P : Nat → Prop}
    (hP : ∀ b, P b → ∀ r ∈ refs (C (G.cls b)) (G.obj b), P r.2) : ∀ {seen ty nm o it seen'},
    DocI C G seen ty nm o it seen' → (∀ r ∈ refs ty o, P r.2) → ∀ a ∈ seen', a ∈ seen ∨ P a
  | _, _, _, _, _, _, .plain _ => fun _ _ h => .inl h
  | _, _, _, _, _, _, .vec h => fun hr => docL_only hP h (by simpa only [refs] using hr)
  | _, _, _, _, _, _, .record h => fun hr => docF_only hP h (by simpa only [refs] using hr)
  | _, _, _, _, _, _, .known _ _ => fun _ _ h => .inl h
  | _, _, _, _, _, _, .new (a := b) _ _ h => fun hr a ha => by
    have hb : P b := hr (G.cls b, b) (by simp [refs, addr])
    rcases doc_only hP h (hP b hb) a ha with h' | h'
    · simp only [List.mem_append, List.mem_singleton] at h'
      rcases h' with h' | rfl
      · exact .inl h'
      · exact .inr hb
    · exact .inr h'
theorem docL_only {C : Nat → GTy} {G : Graph} {P : Nat → Prop}
    (hP : ∀ b, P b → ∀ r ∈ refs (C (G.cls b)) (G.obj b), P r.2) : ∀ {seen e xs is seen'},
    DocL C G seen e xs is seen' → (∀ r ∈ xs.flatMap (refs e), P r.2) → ∀ a ∈ seen', a ∈ seen ∨ P a
  | _, _, _, _, _, .nil => fun _ _ h => .inl h
  | _, _, _, _, _, .cons h1 h2 => fun hr a ha => by
    rw [List.flatMap_cons] at hr
    rcases docL_only hP h2 (fun r h => hr r (List.mem_append_right _ h)) a ha with h | h
    · exact doc_only hP h1 (fun r h => hr r (List.mem_append_left _ h)) a h
    · exact .inr h
theorem docF_only {C : Nat → GTy} {G : Graph} {P : Nat → Prop}
    (hP : ∀ b, P b → ∀ r ∈ refs (C (G.cls b)) (G.obj b), P r.2) : ∀ {seen fs xs is seen'},
    DocF C G seen fs xs is seen' → (∀ r ∈ refsL fs xs, P r.2) → ∀ a ∈ seen', a ∈ seen ∨ P a
  | _, _, _, _, _, .nil => fun _ _ h => .inl h
  | _, _, _, _, _, .cons h1 h2 => fun hr a ha => by
    rw [refsL] at hr
    rcases docF_only hP h2 (fun r h => hr r (List.mem_append_right _ h)) a ha with h | h
    · exact doc_only hP h1 (fun r h => hr r (List.mem_append_left _ h)) a h
    · exact .inr h
end

end Srl.Shared
