import Verif.Lemmas.TypedProper
import Verif.Props.Typed

/-! # Restored objects are objects of their type; maps and sets: C61, C62 -/

namespace Srl.Props
open Typed

/-! ## C61: whatever the document, an object that is restored is one of its type -/

variable {σ : Type}

/-- C61: whatever a reader makes of a source, restoring into an object of the type gives an object of the type or none:
while reading, and after the document was loaded. -/
theorem restored_proper (env : Env) (read : σ → Res (Event × σ)) (fuel : Nat) (ty : Ty) (old : Obj) (s : σ)
    (hok : ty.Ok) (ho : Proper ty old) :
    (∀ o s', restore env read fuel ty old s = .ok (o, s') → Proper ty o) ∧
      ∀ o, loadUnwrap env read fuel ty old s = .ok o → Proper ty o :=
  ⟨fun o s' h => Proper.restore_proper env read fuel ty old s hok ho (o, s') h,
    Proper.loadUnwrap_proper env read fuel ty old s hok ho⟩

/-- C61: objects newly made are objects of their type, so one may restore into them. -/
theorem default_proper (ty : Ty) (hok : ty.Ok) : Proper ty (dflt ty) := Proper.dflt_proper ty hok

/-! ## C62: maps and sets -/

open Classical in
/-- The elements with a certain key, in their order -/
noncomputable def withKey (byKey : Bool) (k : Obj) (xs : List Obj) : List Obj := xs.filter fun x => decide (Key byKey x k)

/-- Specification: what a container keeps of a sequence. Multisets and multimaps keep all elements, those with equal
keys in the order of the sequence; sets, maps and tables keep of each key the first element. -/
def KeptOf (b : Order) (ys xs : List Obj) : Prop := (∀ y ∈ ys, y ∈ xs) ∧ ∀ k,
  withKey b.byKey k ys = if b.multi then withKey b.byKey k xs else (withKey b.byKey k xs).take 1

private theorem withKey_eq {b : Bool} {P : Obj → Prop} (hk : Keyed b P) (k : Obj) : ∀ {xs : List Obj},
    (∀ x ∈ xs, P x) → withKey b k xs = sameKey b k xs
  | [], _ => rfl
  | x :: xs, h => by
    have ih := withKey_eq hk k (xs := xs) fun y hy => h y (by simp [hy])
    have hx : Key b x k ↔ keyOf b x = k :=
      ⟨fun h' => (Key.unique h' (hk.key x (h x (by simp)))).symm, fun h' => by rw [← h']; exact hk.key x (h x (by simp))⟩
    simp only [withKey, sameKey, List.filter_cons] at ih ⊢
    by_cases hkx : keyOf b x = k
    · simp only [hx.mpr hkx, hkx, decide_true, if_true, ih]
    · simp only [mt hx.mp hkx, hkx, decide_false, Bool.false_eq_true, if_false, ih]

theorem collected {b : Order} {c : Ty} (hc : c.Elems b) {xs : List Obj} (hw : WT c (.many xs)) (o : Obj) :
    o = collect b (.many xs) ↔ ∃ ys, o = .many ys ∧ Ascending b o ∧ KeptOf b ys xs := by
  have ha := (collect_wt hc hw).2
  obtain ⟨P, hk, hP⟩ := keyed_elems hc
  obtain ⟨xs', he, hx⟩ := (hP _).mp hw
  cases he
  have he : ∀ k, sameKey b.byKey k [] = kept b (sameKey b.byKey k []) := fun k => by
    have : sameKey b.byKey k [] = [] := rfl
    rw [this, kept]
    split <;> rfl
  have hmem : ∀ y ∈ xs.foldl (fun acc x => emplace b x acc) [], y ∈ xs := fun y hy => by
    rcases foldl_mem xs [] y hy with h | h
    · cases h
    · exact h
  have hsame : ∀ k, sameKey b.byKey k (xs.foldl (fun acc x => emplace b x acc) []) = kept b (sameKey b.byKey k xs) :=
    fun k => foldl_same hk xs [] (by simp) hx List.Pairwise.nil k (he k)
  constructor
  · rintro rfl
    refine ⟨_, rfl, ha, hmem, fun k => ?_⟩
    rw [withKey_eq hk k fun y hy => hx y (hmem y hy), hsame, withKey_eq hk k hx, kept]
  · rintro ⟨ys, rfl, h1, h2, h3⟩
    have hy : ∀ y ∈ ys, P y := fun y hy => hx y (h2 y hy)
    rw [collect, asc_unique ys _ ((ascending_iff hk hy).mp h1)
      ((ascending_iff hk fun y hy => hx y (hmem y hy)).mp ha) fun k => ?_]
    rw [hsame, ← withKey_eq hk k hy, h3, withKey_eq hk k hx, kept]

/-- C62: a set, map, multiset, multimap or table is restored exactly if the sequence of its elements could be restored,
and then consists of what it keeps of the sequence, in ascending order. Only one object satisfies this. -/
theorem container_restored (env : Env) (read : σ → Res (Event × σ)) (fuel : Nat) (b : Order) (c : Ty) (old o : Obj)
    (s s' : σ) (hok : (Ty.sorted b c).Ok) :
    restore env read fuel (.sorted b c) old s = .ok (o, s') ↔
      ∃ xs ys, restore env read fuel c (.many []) s = .ok (.many xs, s') ∧
        o = .many ys ∧ Ascending b o ∧ KeptOf b ys xs := by
  obtain ⟨hok1, hc⟩ := hok
  have hp := Proper.restore_proper env read fuel c (dflt c) s hok1 (Proper.dflt_proper c hok1)
  have hcoll := fun xs (h : WT c (.many xs)) => collected hc h o
  obtain ⟨hd, hsc⟩ := elems_dflt hc
  obtain ⟨P, -, hP⟩ := keyed_elems hc
  rw [hd] at hp
  have key : restore env read fuel (.sorted b c) old s =
      restore env read fuel c (.many []) s >>= fun x => .ok (collect b x.1, x.2) := by
    simp only [restore]
    cases read s with
    | ok x =>
      simp only [Res.ok_bind]
      cases x.1.tok with
      | scope t =>
        simp only [Ty.isScope, hsc, if_true]
        have : paste env read fuel (.sorted b c) old (.fresh t) x.2 =
            paste env read fuel c (dflt c) (.fresh t) x.2 >>= fun y =>
              .ok (collect b y.1, y.2.1, y.2.2) := by conv => lhs; unfold paste
        rw [this, hd]
        cases paste env read fuel c (.many []) (.fresh t) x.2 <;> rfl
      | _ => rfl
    | _ => rfl
  rw [key, Res.bind_eq_ok]
  constructor
  · rintro ⟨⟨x, s1⟩, h1, h2⟩
    cases h2
    have := Proper.proper_wt _ _ (hp _ h1)
    obtain ⟨xs, he, -⟩ := (hP _).mp this
    cases he
    obtain ⟨ys, h3⟩ := (hcoll xs this).mp rfl
    exact ⟨xs, ys, h1, h3⟩
  · rintro ⟨xs, ys, h1, h2⟩
    have := Proper.proper_wt _ _ (hp _ h1)
    exact ⟨_, h1, by rw [(hcoll xs this).mpr ⟨ys, h2⟩]⟩

/-- C62: only the order of elements with the same key matters. -/
theorem container_order {σ' : Type} (env : Env) (read : σ → Res (Event × σ)) (read' : σ' → Res (Event × σ'))
    (fuel fuel' : Nat) (b : Order) (c : Ty) (old old' : Obj) (s s1 : σ) (s' s1' : σ') (xs ys : List Obj)
    (hok : (Ty.sorted b c).Ok) (h1 : restore env read fuel c (.many []) s = .ok (.many xs, s1))
    (h2 : restore env read' fuel' c (.many []) s' = .ok (.many ys, s1'))
    (hkeys : ∀ k, withKey b.byKey k xs = withKey b.byKey k ys) :
    ∃ o, restore env read fuel (.sorted b c) old s = .ok (o, s1) ∧
      restore env read' fuel' (.sorted b c) old' s' = .ok (o, s1') := by
  have hd : Proper c (.many []) := by rw [← (elems_dflt hok.2).1]; exact Proper.dflt_proper c hok.1
  have hx := Proper.proper_wt _ _ (Proper.restore_proper env read fuel c (.many []) s hok.1 hd _ h1)
  have hy := Proper.proper_wt _ _ (Proper.restore_proper env read' fuel' c (.many []) s' hok.1 hd _ h2)
  obtain ⟨zs, h3, h4, h5, h6⟩ := (collected hok.2 hx _).mp rfl
  obtain ⟨P, hk, hP⟩ := keyed_elems hok.2
  have hx' : ∀ x ∈ xs, P x := by obtain ⟨_, he, h⟩ := (hP _).mp hx; cases he; exact h
  have hmem : ∀ z ∈ xs, z ∈ ys := fun z hz => by
    have : z ∈ withKey b.byKey (keyOf b.byKey z) xs := by
      simp only [withKey, List.mem_filter, decide_eq_true_eq]
      exact ⟨hz, hk.key z (hx' z hz)⟩
    rw [hkeys] at this
    exact (List.mem_filter.mp this).1
  refine ⟨.many zs, ?_, ?_⟩
  · exact (container_restored env read fuel b c old _ s s1 hok).mpr ⟨xs, zs, h1, rfl, h3 ▸ h4, h5, h6⟩
  · refine (container_restored env read' fuel' b c old' _ s' s1' hok).mpr
      ⟨ys, zs, h2, rfl, h3 ▸ h4, fun z hz => hmem z (h5 z hz), fun k => ?_⟩
    rw [h6, hkeys]

/-- C62: the order of the elements in a document does not matter, as long as their keys are different. -/
theorem container_permuted {σ' : Type} (env : Env) (read : σ → Res (Event × σ)) (read' : σ' → Res (Event × σ'))
    (fuel fuel' : Nat) (b : Order) (c : Ty) (old old' : Obj) (s s1 : σ) (s' s1' : σ') (xs ys : List Obj)
    (hok : (Ty.sorted b c).Ok) (h1 : restore env read fuel c (.many []) s = .ok (.many xs, s1))
    (h2 : restore env read' fuel' c (.many []) s' = .ok (.many ys, s1'))
    (hkeys : xs.Pairwise fun x y => ∀ k, Key b.byKey x k → ¬ Key b.byKey y k) (hperm : xs.Perm ys) :
    ∃ o, restore env read fuel (.sorted b c) old s = .ok (o, s1) ∧
      restore env read' fuel' (.sorted b c) old' s' = .ok (o, s1') := by
  refine container_order env read read' fuel fuel' b c old old' s s1 s' s1' xs ys hok h1 h2 fun k => ?_
  refine short_perm (hperm.filter _) ?_
  clear h1 h2 hperm
  induction xs with
  | nil => simp [withKey]
  | cons x xs ih =>
    obtain ⟨h3, h4⟩ := List.pairwise_cons.mp hkeys
    have ih := ih h4
    simp only [withKey, List.filter_cons] at ih ⊢
    split
    · rename_i hx
      have hx : Key b.byKey x k := by simpa using hx
      rw [List.filter_eq_nil_iff.mpr fun y hy => by simpa using h3 y hy k hx]
      simp
    · exact ih

/-! Cases -/

/-- `std::map<std::string, std::vector<uint8_t>>` and `std::set<int>` -/
def mapTy : Ty := .sorted ⟨true, false⟩ (.vec (.record .object false
  (.cons (str "key") false .str (.cons (str "value") false .bytes .nil))))
def setTy : Ty := .sorted ⟨false, false⟩ (.vec (.int .i32))

theorem mapTy_ok : mapTy.Ok := by
  refine ⟨⟨⟨trivial, trivial, trivial⟩, .inl ⟨rfl, ?_⟩⟩, ?_⟩
  · refine ⟨?_, ?_⟩ <;> decide
  · exact .inl ⟨.str, .bytes, trivial, rfl⟩

theorem setTy_ok : setTy.Ok := ⟨trivial, .int .i32, trivial, rfl⟩

private def env1 : Env := ⟨fun _ => none, fun _ => []⟩

/-- The first of two entries stays; the order is that of the keys. -/
theorem map_example :
    (do let r ← restore env1 (PJson.read ⟨some 0, 4096⟩ env1.strtod) 100 mapTy (.many []) (PJson.Rd.new.clear,
          str "[{\"key\":\"b\",\"value\":\"QUJD\"},{\"value\":\"\",\"key\":\"a\"},{\"key\":\"b\",\"value\":\"QQ==\"}]")
        .ok r.1) =
      Res.ok (.many [.many [.str (str "a"), .str []], .many [.str (str "b"), .str (str "ABC")]]) :=
  isObj_eq (by decide +kernel)

theorem set_example :
    (do let r ← restore env1 (PMsgPack.read ⟨none, 4096⟩) 100 setTy (.many [.int 5]) ([], [0x94, 3, 0xFF, 3, 2])
        .ok r.1) = Res.ok (.many [.int (-1), .int 2, .int 3]) :=
  isObj_eq (by decide +kernel)

/-- `std::multimap<int, bool>`: equal keys in the order of the document -/
def multiTy : Ty := .sorted ⟨true, true⟩ (.vec (.record .object false
  (.cons (str "key") false (.int .i32) (.cons (str "value") false .bool .nil))))

theorem multiTy_ok : multiTy.Ok := by
  refine ⟨⟨⟨trivial, trivial, trivial⟩, .inl ⟨rfl, ?_⟩⟩, ?_⟩
  · refine ⟨?_, ?_⟩ <;> decide
  · exact .inl ⟨.int .i32, .bool, trivial, rfl⟩

theorem multi_example :
    (do let r ← restore env1 (PJson.read ⟨some 0, 4096⟩ env1.strtod) 100 multiTy (.many []) (PJson.Rd.new.clear,
          str "[{\"key\":2,\"value\":true},{\"value\":false,\"key\":1},{\"key\":2,\"value\":false}]")
        .ok r.1) =
      Res.ok (.many [.many [.int 1, .bool false], .many [.int 2, .bool true], .many [.int 2, .bool false]]) :=
  isObj_eq (by decide +kernel)

/-- `HTable<std::string, T>` with classes as values -/
def tableTy : Ty := .sorted ⟨true, false⟩ (.named xTy)

theorem tableTy_ok : tableTy.Ok := by
  refine ⟨?_, .inr ⟨rfl, xTy, rfl⟩⟩
  simp only [xTy, Ty.Ok, Fields.Ok, Fields.Named, Fields.names]
  repeat' apply And.intro
  all_goals first | trivial | (left; decide +kernel)

/-- The first of two values with a name stays. -/
theorem table_example :
    (do let r ← restore env1 (PJson.read ⟨some 0, 4096⟩ env1.strtod) 100 tableTy (.many []) (PJson.Rd.new.clear,
          str "{\"b\":{\"x\":1},\"u\":null,\"a\":{\"x\":2},\"b\":{\"x\":3}}")
        .ok r.1) =
      Res.ok (.many [.many [.str (str "a"), .many [.int 2]], .many [.str (str "b"), .many [.int 1]]]) :=
  isObj_eq (by decide +kernel)

/-- Maps and sets that can be stored and restored (C04). -/
example : Storable mapTy (.many [.many [.str (str "a"), .str []], .many [.str (str "b"), .str [0, 255]]]) := by
  refine ⟨rfl, ?_, ?_⟩
  · intro x hx
    simp only [List.mem_cons, List.not_mem_nil, or_false] at hx
    rcases hx with rfl | rfl <;> simp [Storable, StorableL, Ty.isScope]
  · intro xs h
    cases h
    simp only [List.pairwise_cons, List.mem_singleton, forall_eq, List.not_mem_nil, false_implies, implies_true,
      List.Pairwise.nil, and_true]
    rintro k l ⟨v, hv⟩ ⟨w, hw⟩
    simp only [Obj.many.injEq, List.cons.injEq] at hv hw
    rw [← hv.1, ← hw.1]
    left
    simp only [Less]
    show LessBytes [97] [98]
    simp [LessBytes]

/-- The hypotheses of `container_order`: two documents with the same entries. -/
example : ∃ o, ∀ doc ∈ [[0x93, 3, 1, 2], [0x93, 1, 2, 3]],
    ∃ s, restore env1 (PMsgPack.read ⟨none, 4096⟩) 100 setTy (.many []) ([], doc) = .ok (o, s) := by
  refine ⟨.many [.int 1, .int 2, .int 3], ?_⟩
  have : ∀ doc, isObj (do let r ← restore env1 (PMsgPack.read ⟨none, 4096⟩) 100 setTy (.many []) ([], doc)
                          .ok r.1) (.many [.int 1, .int 2, .int 3]) = true →
      ∃ s, restore env1 (PMsgPack.read ⟨none, 4096⟩) 100 setTy (.many []) ([], doc) =
        .ok (.many [.int 1, .int 2, .int 3], s) := by
    intro doc h
    have := isObj_eq h
    rw [Res.bind_eq_ok] at this
    obtain ⟨⟨o, s⟩, h1, h2⟩ := this
    cases h2
    exact ⟨s, h1⟩
  intro doc hd
  simp only [List.mem_cons, List.not_mem_nil, or_false] at hd
  rcases hd with rfl | rfl
  · exact this _ (by decide +kernel)
  · exact this _ (by decide +kernel)

end Srl.Props
