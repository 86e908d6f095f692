import Verif.Props.TypedSpec

/-! # Ordered containers -/

namespace Srl.Typed

/-- The result of comparing two keys, by the specification. -/
def CmpSpec {α : Type} (less : α → α → Prop) (o : Ordering) (a b : α) : Prop :=
  match o with
  | .lt => less a b
  | .eq => a = b
  | .gt => less b a

theorem cmpBytes_spec : ∀ a b, CmpSpec LessBytes (cmpBytes a b) a b
  | [], [] => rfl
  | [], _ :: _ => by simp only [cmpBytes, CmpSpec, LessBytes]
  | _ :: _, [] => by simp only [cmpBytes, CmpSpec, LessBytes]
  | a :: as, b :: bs => by
    have ih := cmpBytes_spec as bs
    simp only [cmpBytes]
    by_cases h1 : a.toNat < b.toNat
    · rw [Nat.compare_eq_lt.mpr h1]
      simp only [CmpSpec, LessBytes]
      exact .inl h1
    · by_cases h2 : a.toNat = b.toNat
      · rw [Nat.compare_eq_eq.mpr h2]
        have : a = b := UInt8.toNat_inj.mp h2
        subst this
        simp only
        unfold CmpSpec at ih ⊢
        split at ih <;> simp_all [LessBytes]
      · rw [Nat.compare_eq_gt.mpr (by omega)]
        simp only [CmpSpec, LessBytes]
        exact .inl (by omega)

/-- A lexicographic step -/
private theorem cmpL_cons {a b : Obj} {as bs : List Obj} (h1 : CmpSpec Less (cmp a b) a b)
    (h2 : CmpSpec LessL (cmpL as bs) as bs) : CmpSpec LessL (cmpL (a :: as) (b :: bs)) (a :: as) (b :: bs) := by
  rw [cmpL]
  cases hc : cmp a b with
  | lt => rw [hc] at h1; simp only [CmpSpec, LessL] at h1 ⊢; exact .inl h1
  | gt => rw [hc] at h1; simp only [CmpSpec, LessL] at h1 ⊢; exact .inl h1
  | eq =>
    rw [hc] at h1
    simp only [CmpSpec] at h1
    subst h1
    simp only
    unfold CmpSpec at h2 ⊢
    split at h2 <;> simp_all [LessL]

private theorem cmpL_spec (P : Obj → Prop) (h : ∀ a b, P a → P b → CmpSpec Less (cmp a b) a b) :
    ∀ as bs : List Obj, (∀ a ∈ as, P a) → (∀ b ∈ bs, P b) → CmpSpec LessL (cmpL as bs) as bs
  | [], [], _, _ => by simp only [cmpL, CmpSpec]
  | [], _ :: _, _, _ => by simp only [cmpL, CmpSpec, LessL]
  | _ :: _, [], _, _ => by simp only [cmpL, CmpSpec, LessL]
  | a :: as, b :: bs, ha, hb =>
    cmpL_cons (h a b (ha a (by simp)) (hb b (by simp)))
      (cmpL_spec P h as bs (fun x hx => ha x (by simp [hx])) (fun x hx => hb x (by simp [hx])))

private theorem many_spec {as bs : List Obj} (h : CmpSpec LessL (cmpL as bs) as bs) :
    CmpSpec Less (cmp (.many as) (.many bs)) (.many as) (.many bs) := by
  rw [cmp]
  unfold CmpSpec at h ⊢
  split at h <;> simp_all [Less]

mutual
theorem cmp_spec : ∀ (ty : Ty) (a b : Obj), ty.Key → WT ty a → WT ty b → CmpSpec Less (cmp a b) a b
  | .bool, a, b, _, ha, hb => by
    cases a <;> cases b <;> simp only [WT] at ha hb
    rename_i x y
    have h1 : compare (0 : Nat) 1 = .lt := by decide
    have h2 : compare (1 : Nat) 0 = .gt := by decide
    cases x <;> cases y <;> simp [cmp, CmpSpec, Less, h1, h2]
  | .int t, a, b, _, ha, hb => by
    cases a <;> cases b <;> simp only [WT] at ha hb
    rename_i x y
    rw [cmp]
    by_cases h1 : x < y
    · have : compare x y = .lt := by simp [compare, compareOfLessAndEq, h1]
      rw [this]; simpa only [CmpSpec, Less] using h1
    · by_cases h2 : x = y
      · have : compare x y = .eq := by simp [compare, compareOfLessAndEq, h2]
        rw [this]; simpa only [CmpSpec, Obj.int.injEq] using h2
      · have : compare x y = .gt := by simp [compare, compareOfLessAndEq, h1, h2]
        rw [this]; simp only [CmpSpec, Less]; omega
  | .str, a, b, _, ha, hb => by
    cases a <;> cases b <;> simp only [WT] at ha hb
    rename_i x y
    have h := cmpBytes_spec x y
    rw [cmp]
    unfold CmpSpec at h ⊢
    split at h <;> simp_all [Less]
  | .vec e, a, b, hk, ha, hb => by
    cases a <;> cases b <;> simp only [WT] at ha hb
    simp only [Ty.Key] at hk
    exact many_spec (cmpL_spec (WT e) (fun x y hx hy => cmp_spec e x y hk hx hy) _ _ ha hb)
  | .record t s fs, a, b, hk, ha, hb => by
    cases a <;> cases b <;> simp only [WT] at ha hb
    simp only [Ty.Key] at hk
    exact many_spec (cmpFields_spec fs _ _ hk.2 ha hb)
  | .float, _, _, hk, _, _ => by simp only [Ty.Key] at hk
  | .double, _, _, hk, _, _ => by simp only [Ty.Key] at hk
  | .bytes, _, _, hk, _, _ => by simp only [Ty.Key] at hk
  | .arr _ _, _, _, hk, _, _ => by simp only [Ty.Key] at hk
  | .ptr _ _, _, _, hk, _, _ => by simp only [Ty.Key] at hk
  | .sorted _ _, _, _, hk, _, _ => by simp only [Ty.Key] at hk
  | .named _, _, _, hk, _, _ => by simp only [Ty.Key] at hk
theorem cmpFields_spec : ∀ (fs : Fields) (as bs : List Obj), fs.Key → WTL fs as → WTL fs bs →
    CmpSpec LessL (cmpL as bs) as bs
  | .nil, as, bs, _, ha, hb => by
    cases as <;> cases bs <;> simp only [WTL] at ha hb
    simp only [cmpL, CmpSpec]
  | .cons _ _ ty rest, as, bs, hk, ha, hb => by
    cases as <;> cases bs <;> simp only [WTL] at ha hb
    simp only [Fields.Key] at hk
    exact cmpL_cons (cmp_spec ty _ _ hk.1 ha.1 hb.1) (cmpFields_spec rest _ _ hk.2 ha.2 hb.2)
end

/-! ## The order is one -/

theorem LessBytes.irrefl : ∀ a, ¬ LessBytes a a
  | [] => by simp [LessBytes]
  | a :: as => by
    have := LessBytes.irrefl as
    simp only [LessBytes]
    rintro (h | ⟨_, h⟩)
    · omega
    · exact this h

theorem LessBytes.trans : ∀ a b c, LessBytes a b → LessBytes b c → LessBytes a c
  | [], b, [], _, h2 => by
    cases b <;> simp [LessBytes] at h2
  | [], _, _ :: _, _, _ => by simp only [LessBytes]
  | _ :: _, [], _, h1, _ => by simp [LessBytes] at h1
  | _ :: _, _ :: _, [], _, h2 => by simp [LessBytes] at h2
  | a :: as, b :: bs, c :: cs, h1, h2 => by
    simp only [LessBytes] at h1 h2 ⊢
    rcases h1 with h1 | ⟨rfl, h1⟩
    · rcases h2 with h2 | ⟨rfl, h2⟩
      · exact .inl (by omega)
      · exact .inl h1
    · rcases h2 with h2 | ⟨rfl, h2⟩
      · exact .inl h2
      · exact .inr ⟨rfl, LessBytes.trans as bs cs h1 h2⟩

mutual
theorem Less.irrefl : ∀ a, ¬ Less a a
  | .bool a => by simp [Less]
  | .int a => by simp [Less]
  | .str a => by simpa [Less] using LessBytes.irrefl a
  | .many as => by simpa [Less] using LessL.irrefl as
  | .float _ => by simp [Less]
  | .double _ => by simp [Less]
  | .null => by simp [Less]
  | .ref _ => by simp [Less]
theorem LessL.irrefl : ∀ as, ¬ LessL as as
  | [] => by simp [LessL]
  | a :: as => by
    have h1 := Less.irrefl a
    have h2 := LessL.irrefl as
    simp [LessL, h1, h2]
end

mutual
theorem Less.trans : ∀ a b c, Less a b → Less b c → Less a c
  | .bool a, b, c => fun h1 h2 => by
    cases b <;> cases c <;> simp only [Less] at h1 h2 ⊢
    exact ⟨h1.1, h2.2⟩
  | .int a, b, c => fun h1 h2 => by
    cases b <;> cases c <;> simp only [Less] at h1 h2 ⊢
    omega
  | .str a, b, c => fun h1 h2 => by
    cases b <;> cases c <;> simp only [Less] at h1 h2 ⊢
    exact LessBytes.trans _ _ _ h1 h2
  | .many as, b, c => fun h1 h2 => by
    cases b <;> cases c <;> simp only [Less] at h1 h2 ⊢
    exact LessL.trans _ _ _ h1 h2
  | .float _, _, _ => fun h1 _ => by simp [Less] at h1
  | .double _, _, _ => fun h1 _ => by simp [Less] at h1
  | .null, _, _ => fun h1 _ => by simp [Less] at h1
  | .ref _, _, _ => fun h1 _ => by simp [Less] at h1
theorem LessL.trans : ∀ a b c, LessL a b → LessL b c → LessL a c
  | [], b, [] => fun _ h2 => by
    cases b <;> simp [LessL] at h2
  | [], _, _ :: _ => fun _ _ => by simp only [LessL]
  | _ :: _, [], _ => fun h1 _ => by simp [LessL] at h1
  | _ :: _, _ :: _, [] => fun _ h2 => by simp [LessL] at h2
  | a :: as, b :: bs, c :: cs => fun h1 h2 => by
    simp only [LessL] at h1 h2 ⊢
    rcases h1 with h1 | ⟨rfl, h1⟩
    · rcases h2 with h2 | ⟨rfl, h2⟩
      · exact .inl (Less.trans a b c h1 h2)
      · exact .inl h1
    · rcases h2 with h2 | ⟨rfl, h2⟩
      · exact .inl h2
      · exact .inr ⟨rfl, LessL.trans as bs cs h1 h2⟩
end

/-! ## Adding elements -/

/-- Elements that have a key: what `cmp` and `keyOf` do with them -/
structure Keyed (byKey : Bool) (P : Obj → Prop) : Prop where
  key : ∀ x, P x → Key byKey x (keyOf byKey x)
  cmp : ∀ x y, P x → P y →
    CmpSpec Less (cmp (keyOf byKey x) (keyOf byKey y)) (keyOf byKey x) (keyOf byKey y)

theorem Key.unique {byKey : Bool} {x k l : Obj} (h1 : Key byKey x k) (h2 : Key byKey x l) : k = l := by
  unfold Key at h1 h2
  split at h1
  · rw [if_pos (by assumption)] at h2
    obtain ⟨v, rfl⟩ := h1
    obtain ⟨w, h⟩ := h2
    simp only [Obj.many.injEq, List.cons.injEq] at h
    exact h.1
  · rw [if_neg (by assumption)] at h2
    rw [← h1, ← h2]

theorem keyed_entry {P : Obj → Prop} : Keyed true (Entry P) := by
  constructor
  · rintro x ⟨k, y, rfl, -⟩
    simp [Key, keyOf]
  · rintro x x' ⟨k, y, rfl, -⟩ ⟨k', y', rfl, -⟩
    simpa [keyOf] using cmp_spec .str (.str k) (.str k') trivial trivial trivial

/-- The elements of containers with an order are keyed. -/
theorem keyed_elems {b : Order} {c : Ty} (h : c.Elems b) : ∃ P, Keyed b.byKey P ∧
    ∀ o, WT c o ↔ ∃ xs, o = .many xs ∧ ∀ x ∈ xs, P x := by
  unfold Ty.Elems at h
  have hvec : ∀ e o, WT (.vec e) o ↔ ∃ xs, o = .many xs ∧ ∀ x ∈ xs, WT e x := by
    intro e o
    constructor
    · intro h
      cases o <;> simp only [WT] at h
      exact ⟨_, rfl, h⟩
    · rintro ⟨xs, rfl, h⟩
      simpa only [WT] using h
  split at h
  · rename_i hb
    rw [hb]
    rcases h with ⟨k, v, hk, rfl⟩ | ⟨-, v, rfl⟩
    · refine ⟨_, ⟨fun x hx => ?_, fun x y hx hy => ?_⟩, hvec _⟩
      · cases x <;> simp only [WT] at hx
        rename_i xs
        cases xs with
        | nil => simp only [WTL] at hx
        | cons a as => simp [Key, keyOf]
      · cases x <;> simp only [WT] at hx
        cases y <;> simp only [WT] at hy
        rename_i xs ys
        cases xs with
        | nil => simp only [WTL] at hx
        | cons a as =>
          cases ys with
          | nil => simp only [WTL] at hy
          | cons b bs =>
            simp only [WTL] at hx hy
            simpa [keyOf] using cmp_spec k a b hk hx.1 hy.1
    · refine ⟨Entry (WT v), keyed_entry, fun o => ?_⟩
      constructor
      · intro h
        cases o <;> simp only [WT] at h
        exact ⟨_, rfl, h⟩
      · rintro ⟨xs, rfl, h⟩
        simpa only [WT] using h
  · rename_i hb
    have hb : b.byKey = false := by simpa using hb
    rw [hb]
    obtain ⟨k, hk, rfl⟩ := h
    exact ⟨WT k, ⟨fun x _ => by simp [Key, keyOf], fun x y hx hy => by
      simpa [keyOf] using cmp_spec k x y hk hx hy⟩, hvec k⟩

theorem elems_dflt {b : Order} {c : Ty} (h : c.Elems b) : dflt c = .many [] ∧ c.isScope = true := by
  unfold Ty.Elems at h
  split at h
  · rcases h with ⟨k, v, hk, rfl⟩ | ⟨-, v, rfl⟩ <;> exact ⟨rfl, rfl⟩
  · obtain ⟨k, hk, rfl⟩ := h
    exact ⟨rfl, rfl⟩

/-- In order by `keyOf` -/
def Before (b : Order) (x y : Obj) : Prop :=
  Less (keyOf b.byKey x) (keyOf b.byKey y) ∨ (b.multi = true ∧ keyOf b.byKey x = keyOf b.byKey y)

theorem Before.less {b : Order} {x y z : Obj} (h1 : Less (keyOf b.byKey x) (keyOf b.byKey y)) (h2 : Before b y z) :
    Less (keyOf b.byKey x) (keyOf b.byKey z) := by
  rcases h2 with h2 | ⟨-, h2⟩
  · exact Less.trans _ _ _ h1 h2
  · exact h2 ▸ h1

/-- Ascending by `keyOf` -/
def Asc (b : Order) (xs : List Obj) : Prop := xs.Pairwise (Before b)

theorem ascending_iff {b : Order} {P : Obj → Prop} (hk : Keyed b.byKey P) {xs : List Obj}
    (hP : ∀ x ∈ xs, P x) : Ascending b (.many xs) ↔ Asc b xs := by
  unfold Ascending Asc
  constructor
  · intro h
    refine (h xs rfl).imp_of_mem ?_
    intro x y hx hy h
    exact h _ _ (hk.key x (hP x hx)) (hk.key y (hP y hy))
  · intro h ys he
    simp only [Obj.many.injEq] at he
    subst he
    refine h.imp_of_mem ?_
    intro x y hx hy h k l h1 h2
    rw [h1.unique (hk.key x (hP x hx)), h2.unique (hk.key y (hP y hy))]
    exact h

theorem emplace_mem {b : Order} {x : Obj} : ∀ {ys : List Obj} {z : Obj}, z ∈ emplace b x ys → z = x ∨ z ∈ ys
  | [], z, h => by simp [emplace] at h; exact .inl h
  | y :: ys, z, h => by
    have rest : z ∈ y :: emplace b x ys → z = x ∨ z ∈ y :: ys := fun h => by
      rcases List.mem_cons.mp h with h | h
      · exact .inr (by simp [h])
      · rcases emplace_mem h with h | h
        · exact .inl h
        · exact .inr (by simp [h])
    unfold emplace at h
    split at h
    · simpa using h
    · split at h
      · exact rest h
      · exact .inr h
    · exact rest h

theorem emplace_asc {b : Order} {P : Obj → Prop} (hk : Keyed b.byKey P) {x : Obj} (hx : P x) :
    ∀ {ys : List Obj}, (∀ y ∈ ys, P y) → Asc b ys → Asc b (emplace b x ys)
  | [], _, _ => by simp [emplace, Asc]
  | y :: ys, hP, h => by
    have hs := hk.cmp x y hx (hP y (by simp))
    have rest : Before b y x → Asc b (y :: emplace b x ys) := fun hb => by
      refine List.pairwise_cons.mpr ⟨?_, emplace_asc hk hx (fun z hz => hP z (by simp [hz]))
        (List.pairwise_cons.mp h).2⟩
      intro z hz
      rcases emplace_mem hz with rfl | hz
      · exact hb
      · exact (List.pairwise_cons.mp h).1 z hz
    unfold emplace
    split
    · rename_i hc
      rw [hc] at hs
      simp only [CmpSpec] at hs
      refine List.pairwise_cons.mpr ⟨?_, h⟩
      intro z hz
      rcases List.mem_cons.mp hz with rfl | hz
      · exact .inl hs
      · exact .inl (Before.less hs ((List.pairwise_cons.mp h).1 z hz))
    · rename_i hc
      rw [hc] at hs
      simp only [CmpSpec] at hs
      split
      · exact rest (.inr ⟨by assumption, hs.symm⟩)
      · exact h
    · rename_i hc
      rw [hc] at hs
      exact rest (.inl hs)

/-- An element behind all others is added at the end. -/
theorem emplace_last {b : Order} {P : Obj → Prop} (hk : Keyed b.byKey P) {x : Obj} (hx : P x) :
    ∀ {ys : List Obj}, (∀ y ∈ ys, P y) → (∀ y ∈ ys, Before b y x) → emplace b x ys = ys ++ [x]
  | [], _, _ => rfl
  | y :: ys, hP, h => by
    have hs := hk.cmp x y hx (hP y (by simp))
    have hl := h y (by simp)
    have rest : y :: emplace b x ys = y :: ys ++ [x] := by
      rw [emplace_last hk hx (fun z hz => hP z (by simp [hz])) (fun z hz => h z (by simp [hz]))]
      rfl
    unfold emplace
    split
    · rename_i hc
      rw [hc] at hs
      exact absurd (Before.less hs hl) (Less.irrefl _)
    · rename_i hc
      rw [hc] at hs
      simp only [CmpSpec] at hs
      split
      · exact rest
      · rename_i hm
        rcases hl with hl | ⟨hl, -⟩
        · rw [hs] at hl
          exact absurd hl (Less.irrefl _)
        · exact absurd hl hm
    · exact rest

theorem foldl_last {b : Order} {P : Obj → Prop} (hk : Keyed b.byKey P) :
    ∀ (xs acc : List Obj), (∀ x ∈ acc ++ xs, P x) → Asc b (acc ++ xs) →
    xs.foldl (fun acc x => emplace b x acc) acc = acc ++ xs
  | [], acc, _, _ => by simp
  | x :: xs, acc, hP, h => by
    rw [List.foldl_cons, emplace_last hk (hP x (by simp)) (fun y hy => hP y (by simp [hy]))
      (fun y hy => (List.pairwise_append.mp h).2.2 y hy x (by simp)),
      foldl_last hk xs (acc ++ [x]) (by simpa using hP) (by simpa using h)]
    simp

/-- Adding the elements of a container in their order gives this container. -/
theorem collect_same {b : Order} {c : Ty} {o : Obj} (hc : c.Elems b) (ho : WT c o)
    (ha : Ascending b o) : collect b o = o := by
  obtain ⟨P, hk, hw⟩ := keyed_elems hc
  replace ho := (hw o).mp ho
  obtain ⟨xs, rfl, ho⟩ := ho
  rw [collect, foldl_last hk xs [] (by simpa using ho) (by simpa using (ascending_iff hk ho).mp ha)]
  rfl

theorem foldl_asc {b : Order} {P : Obj → Prop} (hk : Keyed b.byKey P) :
    ∀ (xs acc : List Obj), (∀ x ∈ acc, P x) → (∀ x ∈ xs, P x) → Asc b acc →
    Asc b (xs.foldl (fun acc x => emplace b x acc) acc)
  | [], acc, _, _, h => h
  | x :: xs, acc, h1, h2, h => by
    have hP : ∀ y ∈ emplace b x acc, P y := fun y hy => by
      rcases emplace_mem hy with rfl | hy
      · exact h2 _ (by simp)
      · exact h1 y hy
    exact foldl_asc hk xs _ hP (fun y hy => h2 y (by simp [hy])) (emplace_asc hk (h2 x (by simp)) h1 h)

theorem foldl_mem {b : Order} : ∀ (xs acc : List Obj),
    ∀ x ∈ xs.foldl (fun acc x => emplace b x acc) acc, x ∈ acc ∨ x ∈ xs
  | [], _, _, hx => .inl hx
  | x :: xs, acc, y, hy => by
    rcases foldl_mem xs _ y hy with hy | hy
    · rcases emplace_mem hy with rfl | hy
      · exact .inr (by simp)
      · exact .inl hy
    · exact .inr (by simp [hy])

/-- Containers with an order are ascending. -/
theorem collect_wt {b : Order} {c : Ty} {o : Obj} (hc : c.Elems b) (ho : WT c o) :
    WT c (collect b o) ∧ Ascending b (collect b o) := by
  obtain ⟨P, hk, hw⟩ := keyed_elems hc
  replace ho := (hw o).mp ho
  obtain ⟨xs, rfl, ho⟩ := ho
  have h := foldl_asc hk xs [] (by simp) ho List.Pairwise.nil
  have hP : ∀ x ∈ xs.foldl (fun acc x => emplace b x acc) [], P x := fun x hx => by
    rcases foldl_mem xs [] x hx with hx | hx
    · cases hx
    · exact ho x hx
  rw [collect]
  exact ⟨(hw _).mpr ⟨_, rfl, hP⟩, (ascending_iff hk hP).mpr h⟩

/-! ## Which elements a container has -/

open Classical in
/-- The elements whose `keyOf` is `k` -/
noncomputable def sameKey (byKey : Bool) (k : Obj) (xs : List Obj) : List Obj :=
  xs.filter fun x => decide (keyOf byKey x = k)

/-- What a container keeps of the elements with one key -/
def kept (b : Order) (xs : List Obj) : List Obj := if b.multi then xs else xs.take 1

theorem sameKey_cons {byKey : Bool} {k x : Obj} {xs : List Obj} :
    (keyOf byKey x = k → sameKey byKey k (x :: xs) = x :: sameKey byKey k xs) ∧
    (keyOf byKey x ≠ k → sameKey byKey k (x :: xs) = sameKey byKey k xs) := by
  constructor <;> intro h <;> simp [sameKey, h]

theorem sameKey_none {byKey : Bool} {k : Obj} {xs : List Obj} (h : ∀ x ∈ xs, keyOf byKey x ≠ k) :
    sameKey byKey k xs = [] := by
  simp only [sameKey, List.filter_eq_nil_iff, decide_eq_true_eq]
  exact h

theorem emplace_other {b : Order} {x k : Obj} (hx : keyOf b.byKey x ≠ k) :
    ∀ ys, sameKey b.byKey k (emplace b x ys) = sameKey b.byKey k ys
  | [] => by rw [emplace, sameKey_cons.2 hx]
  | y :: ys => by
    have ih := emplace_other hx ys
    have rest : sameKey b.byKey k (y :: emplace b x ys) = sameKey b.byKey k (y :: ys) := by
      by_cases hy : keyOf b.byKey y = k
      · rw [sameKey_cons.1 hy, sameKey_cons.1 hy, ih]
      · rw [sameKey_cons.2 hy, sameKey_cons.2 hy, ih]
    unfold emplace
    split
    · rw [sameKey_cons.2 hx]
    · split
      · exact rest
      · rfl
    · exact rest

theorem emplace_same {b : Order} {P : Obj → Prop} (hk : Keyed b.byKey P) {x : Obj} (hx : P x) :
    ∀ {ys : List Obj}, (∀ y ∈ ys, P y) → Asc b ys →
    sameKey b.byKey (keyOf b.byKey x) (emplace b x ys) =
      if b.multi then sameKey b.byKey (keyOf b.byKey x) ys ++ [x]
      else if sameKey b.byKey (keyOf b.byKey x) ys = [] then [x] else sameKey b.byKey (keyOf b.byKey x) ys
  | [], _, _ => by
    rw [emplace, sameKey_cons.1 rfl]
    simp [sameKey]
  | y :: ys, hP, h => by
    have hs := hk.cmp x y hx (hP y (by simp))
    have hy := List.pairwise_cons.mp h
    have ih := emplace_same hk hx (fun w hw => hP w (by simp [hw])) hy.2
    unfold emplace
    split
    · rename_i hc
      rw [hc] at hs
      simp only [CmpSpec] at hs
      have hn : sameKey b.byKey (keyOf b.byKey x) (y :: ys) = [] := sameKey_none fun w hw he => by
        rcases List.mem_cons.mp hw with rfl | hw
        · rw [he] at hs; exact Less.irrefl _ hs
        · have := Before.less hs (hy.1 w hw)
          rw [he] at this; exact Less.irrefl _ this
      rw [sameKey_cons.1 rfl, hn]
      simp
    · rename_i hc
      rw [hc] at hs
      simp only [CmpSpec] at hs
      split
      · rename_i hm
        rw [sameKey_cons.1 hs.symm, ih, if_pos hm, sameKey_cons.1 hs.symm]
        rfl
      · rw [sameKey_cons.1 hs.symm, if_neg (by simp)]
    · rename_i hc
      rw [hc] at hs
      simp only [CmpSpec] at hs
      have hne : keyOf b.byKey y ≠ keyOf b.byKey x := fun he => by rw [he] at hs; exact Less.irrefl _ hs
      rw [sameKey_cons.2 hne, sameKey_cons.2 hne, ih]

theorem kept_append {b : Order} {xs : List Obj} (h : xs = kept b xs) (x : Obj) (zs : List Obj) :
    kept b ((if b.multi then xs ++ [x] else if xs = [] then [x] else xs) ++ zs) = kept b (xs ++ x :: zs) ∧
    (if b.multi then xs ++ [x] else if xs = [] then [x] else xs) =
      kept b (if b.multi then xs ++ [x] else if xs = [] then [x] else xs) := by
  unfold kept at h ⊢
  cases hm : b.multi with
  | true => simp
  | false =>
    rw [hm] at h
    simp only [Bool.false_eq_true, if_false] at h ⊢
    cases xs with
    | nil => simp
    | cons y ys =>
      simp only [List.take_succ_cons, List.take_zero] at h
      simp only [List.cons.injEq, true_and] at h
      subst h
      simp

/-- Adding elements to a container keeps of each key what `kept` says. -/
theorem foldl_same {b : Order} {P : Obj → Prop} (hk : Keyed b.byKey P) :
    ∀ (xs acc : List Obj), (∀ x ∈ acc, P x) → (∀ x ∈ xs, P x) → Asc b acc →
    ∀ k, sameKey b.byKey k acc = kept b (sameKey b.byKey k acc) →
    sameKey b.byKey k (xs.foldl (fun acc x => emplace b x acc) acc) =
      kept b (sameKey b.byKey k acc ++ sameKey b.byKey k xs)
  | [], acc, _, _, _, k, hacc => by
    have : sameKey b.byKey k [] = [] := rfl
    rw [List.foldl_nil, this, List.append_nil]
    exact hacc
  | x :: xs, acc, h1, h2, h, k, hacc => by
    have hx := h2 x (by simp)
    have hP : ∀ y ∈ emplace b x acc, P y := fun y hy => by
      rcases emplace_mem hy with rfl | hy
      · exact hx
      · exact h1 y hy
    have ih := foldl_same hk xs (emplace b x acc) hP (fun y hy => h2 y (by simp [hy])) (emplace_asc hk hx h1 h) k
    rw [List.foldl_cons]
    by_cases hkx : keyOf b.byKey x = k
    · subst hkx
      rw [emplace_same hk hx h1 h] at ih
      obtain ⟨g1, g2⟩ := kept_append hacc x (sameKey b.byKey (keyOf b.byKey x) xs)
      rw [ih g2, sameKey_cons.1 rfl, g1]
    · rw [emplace_other hkx] at ih
      rw [ih hacc, sameKey_cons.2 hkx]

theorem sameKey_mem {byKey : Bool} {x : Obj} {xs : List Obj} : x ∈ xs ↔ x ∈ sameKey byKey (keyOf byKey x) xs := by
  simp [sameKey]

/-- Ascending lists with the same elements of each key are the same. -/
theorem asc_unique {b : Order} : ∀ (xs ys : List Obj), Asc b xs → Asc b ys →
    (∀ k, sameKey b.byKey k xs = sameKey b.byKey k ys) → xs = ys
  | [], [], _, _, _ => rfl
  | [], y :: ys, _, _, h => by
    have := h (keyOf b.byKey y)
    rw [sameKey_cons.1 rfl] at this
    simp [sameKey] at this
  | x :: xs, [], _, _, h => by
    have := h (keyOf b.byKey x)
    rw [sameKey_cons.1 rfl] at this
    simp [sameKey] at this
  | x :: xs, y :: ys, h1, h2, h => by
    have h1' := List.pairwise_cons.mp h1
    have h2' := List.pairwise_cons.mp h2
    have hx : x ∈ y :: ys := by
      rw [sameKey_mem (byKey := b.byKey), ← h, ← sameKey_mem]
      simp
    have hy : y ∈ x :: xs := by
      rw [sameKey_mem (byKey := b.byKey), h, ← sameKey_mem]
      simp
    have hkey : keyOf b.byKey x = keyOf b.byKey y := by
      rcases List.mem_cons.mp hx with e | hx
      · rw [e]
      rcases List.mem_cons.mp hy with e | hy
      · rw [e]
      rcases h2'.1 x hx with g | ⟨-, g⟩
      · exact absurd (Before.less g (h1'.1 y hy)) (Less.irrefl _)
      · exact g.symm
    have hhead := h (keyOf b.byKey x)
    rw [sameKey_cons.1 rfl, sameKey_cons.1 hkey.symm, List.cons.injEq] at hhead
    obtain ⟨rfl, -⟩ := hhead
    rw [asc_unique xs ys h1'.2 h2'.2 fun k => ?_]
    have := h k
    by_cases hk : keyOf b.byKey x = k
    · rw [sameKey_cons.1 hk, sameKey_cons.1 hk, List.cons.injEq] at this
      exact this.2
    · rwa [sameKey_cons.2 hk, sameKey_cons.2 hk] at this

theorem short_perm {α : Type} {xs ys : List α} (h : xs.Perm ys) (hl : xs.length ≤ 1) : xs = ys := by
  match xs, hl with
  | [], _ => simpa using h.symm
  | [x], _ => exact (by simpa using h.symm : ys = [x]).symm

/-- The elements a container keeps, whatever the order in which they are added: those of the same key in
their order. -/
theorem foldl_order {b : Order} {P : Obj → Prop} (hk : Keyed b.byKey P) {xs ys : List Obj} (hx : ∀ x ∈ xs, P x)
    (hy : ∀ y ∈ ys, P y) (h : ∀ k, kept b (sameKey b.byKey k xs) = kept b (sameKey b.byKey k ys)) :
    xs.foldl (fun acc x => emplace b x acc) [] = ys.foldl (fun acc x => emplace b x acc) [] := by
  have he : ∀ k, sameKey b.byKey k [] = kept b (sameKey b.byKey k []) := fun k => by
    have : sameKey b.byKey k [] = [] := rfl
    rw [this, kept]
    split <;> rfl
  refine asc_unique _ _ (foldl_asc hk xs [] (by simp) hx List.Pairwise.nil)
    (foldl_asc hk ys [] (by simp) hy List.Pairwise.nil) fun k => ?_
  rw [foldl_same hk xs [] (by simp) hx List.Pairwise.nil k (he k),
    foldl_same hk ys [] (by simp) hy List.Pairwise.nil k (he k)]
  exact h k

theorem sameKey_nodup {byKey : Bool} {k : Obj} : ∀ {xs : List Obj}, (xs.map (keyOf byKey)).Nodup →
    (sameKey byKey k xs).length ≤ 1
  | [], _ => by simp [sameKey]
  | x :: xs, h => by
    simp only [List.map_cons, List.nodup_cons] at h
    by_cases hx : keyOf byKey x = k
    · rw [sameKey_cons.1 hx, sameKey_none fun y hy he => h.1 (List.mem_map.mpr ⟨y, hy, he.trans hx.symm⟩)]
      simp
    · rw [sameKey_cons.2 hx]
      exact sameKey_nodup h.2

/-- With different keys the order does not matter. -/
theorem foldl_perm {b : Order} {P : Obj → Prop} (hk : Keyed b.byKey P) {xs ys : List Obj} (hx : ∀ x ∈ xs, P x)
    (hn : (xs.map (keyOf b.byKey)).Nodup) (h : xs.Perm ys) :
    xs.foldl (fun acc x => emplace b x acc) [] = ys.foldl (fun acc x => emplace b x acc) [] := by
  refine foldl_order hk hx (fun y hy => hx y (h.mem_iff.mpr hy)) fun k => ?_
  have : sameKey b.byKey k xs = sameKey b.byKey k ys := short_perm (h.filter _) (sameKey_nodup hn)
  rw [this]

end Srl.Typed
