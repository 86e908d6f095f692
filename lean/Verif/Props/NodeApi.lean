import Verif.Lemmas.NodeApi

/-! # C33, C34, C35 – access to the fields of a node -/

namespace Srl.Props

open NodeApi NodeApi.Items

variable {α : Type}

/-! ## Specification: the history of a node

A field is known by the number of fields inserted before it. A history maps the numbers of the
fields that are still there to name and content. -/

structure Hist (α : Type) where
  next : Nat
  at_ : Nat → Option (Bytes × α)

namespace Hist

def empty : Hist α := ⟨0, fun _ => none⟩

def put (s : Hist α) (i : Nat) (x : Option (Bytes × α)) : Hist α :=
  { s with at_ := fun j => if j = i then x else s.at_ j }

/-- Field `i` was inserted before all others of this name that are still there. -/
def First (s : Hist α) (name : Bytes) (i : Nat) : Prop :=
  (∃ x, s.at_ i = some (name, x)) ∧ ∀ j x, s.at_ j = some (name, x) → i ≤ j

def Absent (s : Hist α) (name : Bytes) : Prop := ∀ j x, s.at_ j ≠ some (name, x)

/-- Field `i` is there, and so are exactly `k` inserted before it. -/
def Nth (s : Hist α) (k i : Nat) : Prop :=
  (s.at_ i).isSome ∧ ∃ js : List Nat, js.length = k ∧ js.Pairwise (· < ·) ∧
    ∀ j, j ∈ js ↔ (j < i ∧ (s.at_ j).isSome)

/-- What each change means. -/
inductive Step : Hist α → Op α → Hist α → Prop
  | insert (s : Hist α) (name : Bytes) (x : α) :
    Step s (.insert name x) { s.put s.next (some (name, x)) with next := s.next + 1 }
  | removeName (s : Hist α) (name : Bytes) (i : Nat) (h : s.First name i) :
    Step s (.removeName name) (s.put i none)
  | removeNoName (s : Hist α) (name : Bytes) (h : s.Absent name) : Step s (.removeName name) s
  | removeAt (s : Hist α) (k i : Nat) (h : s.Nth k i) : Step s (.removeAt k) (s.put i none)
  | removeAtNone (s : Hist α) (k : Nat) (h : ∀ i, ¬ s.Nth k i) : Step s (.removeAt k) s
  | removeId (s : Hist α) (i : Nat) : Step s (.removeId i) (s.put i none)
  | modify (s : Hist α) (i : Nat) (f : α → α) (name : Bytes) (x : α)
      (h : s.at_ i = some (name, x)) : Step s (.modify i f) (s.put i (some (name, f x)))

inductive Steps : Hist α → List (Op α) → Hist α → Prop
  | nil (s : Hist α) : Steps s [] s
  | cons {s s' s'' : Hist α} {op : Op α} {ops : List (Op α)} (h : Step s op s')
      (hs : Steps s' ops s'') : Steps s (op :: ops) s''

end Hist

/-! ## The lists represent the history -/

private structure Rep (l : Items α) (s : Hist α) : Prop where
  good : Good l
  next : l.next = s.next
  mem : ∀ i n x, s.at_ i = some (n, x) ↔ ∃ k ∈ l.links, k.id = i ∧ k.name = n ∧ k.field = x

private theorem rep_empty : Rep (Items.empty : Items α) Hist.empty :=
  ⟨good_empty, rfl, by simp [Hist.empty, Items.empty]⟩

private theorem Rep.link {l : Items α} {s : Hist α} (h : Rep l s) {k : Link α} (hk : k ∈ l.links) :
    s.at_ k.id = some (k.name, k.field) := (h.mem _ _ _).mpr ⟨k, hk, rfl, rfl, rfl⟩

private theorem Rep.unique {l : Items α} {s : Hist α} (h : Rep l s) {k k' : Link α}
    (hk : k ∈ l.links) (hk' : k' ∈ l.links) (hi : k.id = k'.id) : k = k' := by
  have hs := h.good.sorted
  generalize l.links = ls at hs hk hk'
  induction ls with
  | nil => cases hk
  | cons x xs ih =>
    simp only [List.map_cons, List.pairwise_cons, List.mem_map, forall_exists_index, and_imp,
      forall_apply_eq_imp_iff₂] at hs
    rcases List.mem_cons.mp hk with rfl | hk1 <;> rcases List.mem_cons.mp hk' with rfl | hk2
    · rfl
    · have := hs.1 k' hk2; omega
    · have := hs.1 k hk1; omega
    · exact ih hs.2 hk1 hk2

private theorem Rep.live {l : Items α} {s : Hist α} (h : Rep l s) (i : Nat) :
    (s.at_ i).isSome ↔ i ∈ l.links.map (·.id) := by
  constructor
  · intro hs
    obtain ⟨⟨n, x⟩, hx⟩ := Option.isSome_iff_exists.mp hs
    obtain ⟨k, hk, hi, _⟩ := (h.mem i n x).mp hx
    exact List.mem_map.mpr ⟨k, hk, hi⟩
  · intro hm
    obtain ⟨k, hk, rfl⟩ := List.mem_map.mp hm
    rw [h.link hk]; rfl

private theorem Rep.first {l : Items α} {s : Hist α} (h : Rep l s) (name : Bytes) (k : Link α) :
    findName name l.links = some k ↔
      (k ∈ l.links ∧ s.First name k.id ∧ s.at_ k.id = some (name, k.field)) := by
  rw [findName_some name _ k h.good.sorted]
  constructor
  · rintro ⟨hk, rfl, hmin⟩
    refine ⟨hk, ⟨⟨_, h.link hk⟩, ?_⟩, h.link hk⟩
    intro j x hj
    obtain ⟨k', hk', rfl, hn, _⟩ := (h.mem _ _ _).mp hj
    exact hmin k' hk' hn
  · rintro ⟨hk, hf, hat⟩
    have := h.link hk
    rw [hat] at this
    cases this
    exact ⟨hk, rfl, fun j hj hn => hf.2 j.id j.field (by rw [h.link hj, hn])⟩

private theorem Rep.absent {l : Items α} {s : Hist α} (h : Rep l s) (name : Bytes) :
    findName name l.links = none ↔ s.Absent name := by
  rw [findName_none]
  constructor
  · intro hn j x hj
    obtain ⟨k, hk, _, hkn, _⟩ := (h.mem _ _ _).mp hj
    exact hn k hk hkn
  · intro ha j hj hn
    exact ha j.id j.field (by rw [h.link hj, hn])

private theorem sorted_ext : ∀ (a b : List Nat), a.Pairwise (· < ·) → b.Pairwise (· < ·) →
    (∀ x, x ∈ a ↔ x ∈ b) → a = b
  | [], [], _, _, _ => rfl
  | [], y :: b, _, _, h => absurd ((h y).mpr List.mem_cons_self) (by simp)
  | x :: a, [], _, _, h => absurd ((h x).mp List.mem_cons_self) (by simp)
  | x :: a, y :: b, ha, hb, h => by
    rw [List.pairwise_cons] at ha hb
    have hxy : x = y := by
      rcases List.mem_cons.mp ((h x).mp List.mem_cons_self) with h1 | h1
      · exact h1
      · rcases List.mem_cons.mp ((h y).mpr List.mem_cons_self) with h2 | h2
        · exact h2.symm
        · have := ha.1 y h2; have := hb.1 x h1; omega
    subst hxy
    rw [sorted_ext a b ha.2 hb.2 ?_]
    intro z
    constructor
    · intro hz
      rcases List.mem_cons.mp ((h z).mp (List.mem_cons_of_mem _ hz)) with rfl | h1
      · have := ha.1 z hz; omega
      · exact h1
    · intro hz
      rcases List.mem_cons.mp ((h z).mpr (List.mem_cons_of_mem _ hz)) with rfl | h1
      · have := hb.1 z hz; omega
      · exact h1

private theorem nth_unique {s : Hist α} {k i i' : Nat} (h : s.Nth k i) (h' : s.Nth k i') :
    i = i' := by
  obtain ⟨hl, js, hlen, hs, hm⟩ := h
  obtain ⟨hl', js', hlen', hs', hm'⟩ := h'
  have key : ∀ (a b : Nat) (xs ys : List Nat), a < b → (s.at_ a).isSome → xs.length = k →
      ys.length = k → xs.Pairwise (· < ·) → ys.Pairwise (· < ·) →
      (∀ j, j ∈ xs ↔ (j < a ∧ (s.at_ j).isSome)) → (∀ j, j ∈ ys ↔ (j < b ∧ (s.at_ j).isSome)) →
      False := by
    intro a b xs ys hab ha hx hy sx sy mx my
    have e : xs = ys.filter (fun j => decide (j < a)) := by
      refine sorted_ext _ _ sx (sy.sublist List.filter_sublist) ?_
      intro z
      rw [mx, List.mem_filter, my]
      simp only [decide_eq_true_eq]
      constructor
      · rintro ⟨h1, h2⟩; exact ⟨⟨by omega, h2⟩, h1⟩
      · rintro ⟨⟨_, h2⟩, h1⟩; exact ⟨h1, h2⟩
    have hlt : (ys.filter (fun j => decide (j < a))).length < ys.length := by
      rw [List.length_filter_lt_length_iff_exists]
      exact ⟨a, (my a).mpr ⟨hab, ha⟩, by simp⟩
    rw [← e] at hlt
    omega
  rcases Nat.lt_trichotomy i i' with h | h | h
  · exact (key i i' js js' h hl hlen hlen' hs hs' hm hm').elim
  · exact h
  · exact (key i' i js' js h hl' hlen' hlen hs' hs hm' hm).elim

private theorem Rep.nth {l : Items α} {s : Hist α} (h : Rep l s) (k : Nat) (hk : k < l.links.length) :
    s.Nth k l.links[k].id := by
  refine ⟨by rw [h.link (List.getElem_mem hk)]; rfl, (l.links.map (·.id)).take k,
    by simp; omega, h.good.sorted.sublist (List.take_sublist _ _), ?_⟩
  intro j
  rw [h.live]
  have hs := h.good.sorted
  rw [List.pairwise_iff_getElem] at hs
  simp only [List.length_map, List.getElem_map] at hs
  constructor
  · intro hj
    obtain ⟨m, hm, rfl⟩ := List.mem_take_iff_getElem.mp hj
    simp only [List.length_map] at hm
    simp only [List.getElem_map]
    exact ⟨hs m k (by omega) hk (by omega), List.mem_map.mpr ⟨_, List.getElem_mem _, rfl⟩⟩
  · rintro ⟨hlt, hj⟩
    obtain ⟨m, hm, rfl⟩ := List.mem_iff_getElem.mp hj
    simp only [List.length_map] at hm
    simp only [List.getElem_map] at hlt ⊢
    have hmk : m < k := by
      rcases Nat.lt_trichotomy m k with h1 | h1 | h1
      · exact h1
      · subst h1; omega
      · have := hs k m hk hm h1; omega
    exact List.mem_take_iff_getElem.mpr ⟨m, by simp; omega, by simp⟩

private theorem Rep.nth_iff {l : Items α} {s : Hist α} (h : Rep l s) (k : Nat) (x : Link α) :
    atIndex k l.links = some x ↔ (x ∈ l.links ∧ s.Nth k x.id) := by
  rw [atIndex_some]
  constructor
  · rintro ⟨hk, rfl⟩
    exact ⟨List.getElem_mem hk, h.nth k hk⟩
  · rintro ⟨hx, hn⟩
    have hlen : k < l.links.length := by
      obtain ⟨_, js, hlen, hs, hm⟩ := hn
      obtain ⟨m, hm', rfl⟩ := List.mem_iff_getElem.mp hx
      have := h.nth m hm'
      have e := this.2
      obtain ⟨js', hl', hs', hmm⟩ := e
      have : js = js' := sorted_ext _ _ hs hs' (fun z => by rw [hm, hmm])
      subst this
      omega
    exact ⟨hlen, h.unique (List.getElem_mem hlen) hx (nth_unique (h.nth k hlen) hn)⟩

private theorem Rep.nth_none {l : Items α} {s : Hist α} (h : Rep l s) (k : Nat) :
    atIndex k l.links = none ↔ ∀ i, ¬ s.Nth k i := by
  constructor
  · intro hn i hi
    obtain ⟨⟨n, x⟩, hx⟩ := Option.isSome_iff_exists.mp hi.1
    obtain ⟨y, hy, rfl, _⟩ := (h.mem i n x).mp hx
    rw [(h.nth_iff k y).mpr ⟨hy, hi⟩] at hn
    cases hn
  · intro hn
    cases hf : atIndex k l.links with
    | none => rfl
    | some x => exact absurd ((h.nth_iff k x).mp hf).2 (hn _)

private theorem Rep.erase {l : Items α} {s : Hist α} (h : Rep l s) (i : Nat) :
    Rep { l with links := eraseId i l.links } (s.put i none) := by
  refine ⟨h.good.sublist (eraseId_sublist i _), h.next, ?_⟩
  intro j n x
  simp only [Hist.put, eraseId_mem i _ h.good.sorted]
  by_cases hj : j = i
  · subst hj
    simp only [if_true]
    constructor
    · intro hh; cases hh
    · rintro ⟨k, ⟨_, hne⟩, he, _⟩; exact absurd he hne
  · simp only [hj, if_false, h.mem]
    constructor
    · rintro ⟨k, hk, rfl, h1⟩; exact ⟨k, ⟨hk, hj⟩, rfl, h1⟩
    · rintro ⟨k, ⟨hk, _⟩, h1⟩; exact ⟨k, hk, h1⟩

/-- A change goes through exactly when it has a meaning, and then with that meaning. -/
private theorem Rep.step {l : Items α} {s s' : Hist α} {op : Op α} (h : Rep l s)
    (hs : Hist.Step s op s') : ∃ l', Items.step l op = .ok l' ∧ Rep l' s' := by
  cases hs with
  | insert name x =>
    obtain ⟨hv, hh, _⟩ := hash_is_fnv1a name
    have e : Items.step l (.insert name x) =
        .ok ⟨l.next + 1, l.links ++ [⟨l.next, hv, name, x⟩]⟩ := by
      simp only [Items.step, create, hh, Res.ok_bind]
    refine ⟨_, e, good_step h.good e, by simp [h.next], ?_⟩
    intro i n y
    simp only [Hist.put, List.mem_append, List.mem_singleton]
    by_cases hi : i = s.next
    · subst hi
      simp only [if_true, Option.some.injEq, Prod.mk.injEq]
      constructor
      · rintro ⟨rfl, rfl⟩; exact ⟨_, .inr rfl, h.next, rfl, rfl⟩
      · rintro ⟨k, hk | rfl, h1, h2, h3⟩
        · have := h.good.used k hk; rw [h.next] at this; omega
        · exact ⟨h2, h3⟩
    · simp only [hi, if_false, h.mem]
      constructor
      · rintro ⟨k, hk, h1⟩; exact ⟨k, .inl hk, h1⟩
      · rintro ⟨k, hk | rfl, h1, h2⟩
        · exact ⟨k, hk, h1, h2⟩
        · exact absurd (h1.symm.trans h.next) hi
  | removeName name i hf =>
    refine ⟨_, rfl, ?_⟩
    obtain ⟨⟨x, hx⟩, hmin⟩ := hf
    obtain ⟨k, hk, rfl, hn, hfl⟩ := (h.mem _ _ _).mp hx
    have : findName name l.links = some k :=
      (h.first name k).mpr ⟨hk, ⟨⟨x, hx⟩, hmin⟩, by rw [hx, hfl]⟩
    rw [eraseName_eq name _ h.good.sorted, this]
    exact h.erase k.id
  | removeNoName name ha =>
    refine ⟨_, rfl, ?_⟩
    rw [eraseName_eq name _ h.good.sorted, (h.absent name).mpr ha]
    exact h
  | removeAt k i hn =>
    refine ⟨_, rfl, ?_⟩
    obtain ⟨⟨n, x⟩, hx⟩ := Option.isSome_iff_exists.mp hn.1
    obtain ⟨y, hy, rfl, _⟩ := (h.mem i n x).mp hx
    rw [eraseIndex_eq k _ h.good.sorted, (h.nth_iff k y).mpr ⟨hy, hn⟩]
    exact h.erase y.id
  | removeAtNone k hn =>
    refine ⟨_, rfl, ?_⟩
    rw [eraseIndex_eq k _ h.good.sorted, (h.nth_none k).mpr hn]
    exact h
  | removeId i => exact ⟨_, rfl, h.erase i⟩
  | modify i f name x hx =>
    obtain ⟨k, hk, hi, hn, hfl⟩ := (h.mem _ _ _).mp hx
    obtain ⟨ls, hls⟩ := modify_live i f l.links k hk hi
    have e : Items.step l (.modify i f) = .ok { l with links := ls } := by
      simp only [Items.step, hls, Res.ok_bind]
    refine ⟨_, e, good_step h.good e, h.next, ?_⟩
    intro j n y
    simp only [Hist.put, modify_mem i f _ _ hls h.good.sorted]
    by_cases hj : j = i
    · subst hj
      simp only [if_true, Option.some.injEq, Prod.mk.injEq]
      constructor
      · rintro ⟨rfl, rfl⟩
        exact ⟨_, .inr ⟨k, hk, hi, rfl⟩, hi, hn, by rw [hfl]⟩
      · rintro ⟨k', ⟨_, hne⟩ | ⟨z, hz, hzi, rfl⟩, h1, h2, h3⟩
        · exact absurd h1 hne
        · have := h.unique hz hk (hzi.trans hi.symm)
          subst this
          exact ⟨hn.symm.trans h2, by rw [← hfl]; exact h3⟩
    · simp only [hj, if_false, h.mem]
      constructor
      · rintro ⟨k', hk', rfl, h1⟩; exact ⟨k', .inl ⟨hk', hj⟩, rfl, h1⟩
      · rintro ⟨k', ⟨hk', _⟩ | ⟨z, hz, hzi, rfl⟩, h1, h2⟩
        · exact ⟨k', hk', h1, h2⟩
        · exact absurd (h1.symm.trans hzi) hj

private theorem Rep.run {l : Items α} {s s' : Hist α} {ops : List (Op α)} (h : Rep l s)
    (hs : Hist.Steps s ops s') : ∃ l', Items.run l ops = .ok l' ∧ Rep l' s' := by
  induction hs generalizing l with
  | nil s => exact ⟨l, rfl, h⟩
  | cons h1 _ ih =>
    obtain ⟨l1, e1, r1⟩ := h.step h1
    obtain ⟨l2, e2, r2⟩ := ih r1
    exact ⟨l2, by rw [Items.run, e1, Res.ok_bind, e2], r2⟩

/-- C33: after every history of insertions, removals (by name, position or address) and
assignments, looking up a name gives the field first inserted under it and not removed, with its
present content; it throws when there is none. -/
theorem node_lookup (ops : List (Op α)) (s : Hist α) (hs : Hist.Steps Hist.empty ops s) :
    ∃ l, Items.run Items.empty ops = .ok l ∧
      (∀ name i x, (∃ k, l.get name = .ok k ∧ k.id = i ∧ k.field = x) ↔
        (s.First name i ∧ s.at_ i = some (name, x))) ∧
      (∀ name, l.get name = .err ↔ s.Absent name) ∧
      (∀ n i x, (∃ k, l.getAt n = .ok k ∧ k.id = i ∧ k.field = x) ↔
        (s.Nth n i ∧ ∃ name, s.at_ i = some (name, x))) ∧
      (∀ n, l.getAt n = .err ↔ ∀ i, ¬ s.Nth n i) := by
  obtain ⟨l, e, r⟩ := rep_empty.run hs
  refine ⟨l, e, ?_, ?_, ?_, ?_⟩
  · intro name i x
    rw [get_eq l r.good]
    constructor
    · rintro ⟨k, hk, rfl, rfl⟩
      cases hf : findName name l.links with
      | none => simp [hf] at hk
      | some k' =>
        simp only [hf] at hk; cases hk
        have := (r.first name k).mp hf
        exact this.2
    · rintro ⟨hf, hx⟩
      obtain ⟨k, hk, rfl, hn, rfl⟩ := (r.mem _ _ _).mp hx
      exact ⟨k, by rw [(r.first name k).mpr ⟨hk, hf, hx⟩], rfl, rfl⟩
  · intro name
    rw [get_eq l r.good, ← r.absent name]
    cases findName name l.links <;> simp
  · intro n i x
    rw [Items.getAt]
    constructor
    · rintro ⟨k, hk, rfl, rfl⟩
      cases hf : atIndex n l.links with
      | none => simp [hf] at hk
      | some k' =>
        simp only [hf] at hk; cases hk
        have := (r.nth_iff n k).mp hf
        exact ⟨this.2, _, r.link this.1⟩
    · rintro ⟨hf, name, hx⟩
      obtain ⟨k, hk, rfl, hn, rfl⟩ := (r.mem _ _ _).mp hx
      exact ⟨k, by rw [(r.nth_iff n k).mpr ⟨hk, hf⟩], rfl, rfl⟩
  · intro n
    rw [Items.getAt, ← r.nth_none n]
    cases atIndex n l.links <;> simp

private theorem hist_ext {s s' : Hist α} (h1 : s.next = s'.next) (h2 : s.at_ = s'.at_) : s = s' := by
  cases s; cases s'; simp_all

private theorem step_unique {s a b : Hist α} {op : Op α} (ha : Hist.Step s op a)
    (hb : Hist.Step s op b) : a = b := by
  cases ha with
  | insert name x => cases hb; rfl
  | removeName name i h =>
    cases hb with
    | removeName _ j h' =>
      obtain ⟨⟨x, hx⟩, hm⟩ := h
      obtain ⟨⟨y, hy⟩, hm'⟩ := h'
      have : i = j := Nat.le_antisymm (hm j y hy) (hm' i x hx)
      rw [this]
    | removeNoName _ h' => obtain ⟨⟨x, hx⟩, _⟩ := h; exact absurd hx (h' i x)
  | removeNoName name h =>
    cases hb with
    | removeName _ j h' => obtain ⟨⟨x, hx⟩, _⟩ := h'; exact absurd hx (h j x)
    | removeNoName _ h' => rfl
  | removeAt k i h =>
    cases hb with
    | removeAt _ j h' => rw [nth_unique h h']
    | removeAtNone _ h' => exact absurd h (h' i)
  | removeAtNone k h =>
    cases hb with
    | removeAt _ j h' => exact absurd h' (h j)
    | removeAtNone _ h' => rfl
  | removeId i => cases hb; rfl
  | modify i f name x h =>
    cases hb with
    | modify _ _ n y h' => rw [h] at h'; cases h'; rfl

/-- The specification leaves no choice: a history has one meaning. -/
theorem node_history_unique (ops : List (Op α)) (s a b : Hist α) (ha : Hist.Steps s ops a)
    (hb : Hist.Steps s ops b) : a = b := by
  induction ha with
  | nil s => cases hb; rfl
  | cons h1 _ ih =>
    cases hb with
    | cons h2 hs2 => rw [step_unique h2 h1] at hs2; exact ih hs2

/-- Every history has a meaning unless it assigns to a field that has been removed. -/
theorem node_history_total (s : Hist α) (op : Op α)
    (h : ∀ i f, op = .modify i f → (s.at_ i).isSome) : ∃ s', Hist.Step s op s' := by
  cases op with
  | insert name x => exact ⟨_, .insert s name x⟩
  | removeName name =>
    rcases Classical.em (∃ i x, s.at_ i = some (name, x)) with ⟨i, x, hx⟩ | hn
    · have key : ∀ n, (∃ i, i ≤ n ∧ ∃ x, s.at_ i = some (name, x)) → ∃ i, s.First name i := by
        intro n
        induction n with
        | zero =>
          rintro ⟨i, hi, x, hx⟩
          exact ⟨i, ⟨x, hx⟩, fun j y hy => by omega⟩
        | succ n ih =>
          rintro ⟨i, hi, x, hx⟩
          rcases Classical.em (∃ i, i ≤ n ∧ ∃ x, s.at_ i = some (name, x)) with h' | h'
          · exact ih h'
          · refine ⟨i, ⟨x, hx⟩, fun j y hy => ?_⟩
            rcases Nat.lt_or_ge n j with hj | hj
            · omega
            · exact absurd ⟨j, hj, y, hy⟩ h'
      obtain ⟨i, hi⟩ := key i ⟨i, Nat.le_refl _, x, hx⟩
      exact ⟨_, .removeName s name i hi⟩
    · exact ⟨s, .removeNoName s name (fun j x hx => hn ⟨j, x, hx⟩)⟩
  | removeAt k =>
    rcases Classical.em (∃ i, s.Nth k i) with ⟨i, hi⟩ | hn
    · exact ⟨_, .removeAt s k i hi⟩
    · exact ⟨s, .removeAtNone s k (fun i hi => hn ⟨i, hi⟩)⟩
  | removeId i => exact ⟨_, .removeId s i⟩
  | modify i f =>
    obtain ⟨⟨n, x⟩, hx⟩ := Option.isSome_iff_exists.mp (h i f rfl)
    exact ⟨_, .modify s i f n x hx⟩

/-- C33: a change leaves all fields but one as they are, and looking up any name that the changed
field does not have gives what it gave before. -/
theorem node_edit_others (s s' : Hist α) (op : Op α) (h : Hist.Step s op s') :
    ∃ i, (∀ j, j ≠ i → s'.at_ j = s.at_ j) ∧
      ∀ name, (∀ x, s.at_ i ≠ some (name, x)) → (∀ x, s'.at_ i ≠ some (name, x)) →
        (∀ j, s'.First name j ↔ s.First name j) ∧ (s'.Absent name ↔ s.Absent name) := by
  have main : ∀ i, (∀ j, j ≠ i → s'.at_ j = s.at_ j) →
      ∃ i, (∀ j, j ≠ i → s'.at_ j = s.at_ j) ∧
      ∀ name, (∀ x, s.at_ i ≠ some (name, x)) → (∀ x, s'.at_ i ≠ some (name, x)) →
        (∀ j, s'.First name j ↔ s.First name j) ∧ (s'.Absent name ↔ s.Absent name) := by
    intro i hi
    refine ⟨i, hi, fun name h1 h2 => ?_⟩
    have e : ∀ j x, s'.at_ j = some (name, x) ↔ s.at_ j = some (name, x) := by
      intro j x
      by_cases hj : j = i
      · subst hj
        exact ⟨fun hh => absurd hh (h2 x), fun hh => absurd hh (h1 x)⟩
      · rw [hi j hj]
    simp only [Hist.First, Hist.Absent, ne_eq, e, implies_true, and_self]
  cases h with
  | insert name x => exact main s.next (fun j hj => by simp [Hist.put, hj])
  | removeName name i h => exact main i (fun j hj => by simp [Hist.put, hj])
  | removeNoName name h => exact main 0 (fun j hj => rfl)
  | removeAt k i h => exact main i (fun j hj => by simp [Hist.put, hj])
  | removeAtNone k h => exact main 0 (fun j hj => rfl)
  | removeId i => exact main i (fun j hj => by simp [Hist.put, hj])
  | modify i f name x h => exact main i (fun j hj => by simp [Hist.put, hj])

/-- The same for the lists themselves: when the field changed last has another name (before and
after), looking up a name gives the same field with the same content as before the change. -/
theorem node_edit_lookup (ops : List (Op α)) (op : Op α) (s s' : Hist α)
    (hs : Hist.Steps Hist.empty ops s) (h : Hist.Step s op s') (name : Bytes)
    (hne : ∀ j x, s.at_ j ≠ s'.at_ j → s.at_ j ≠ some (name, x) ∧ s'.at_ j ≠ some (name, x)) :
    ∃ l l', Items.run Items.empty ops = .ok l ∧ Items.step l op = .ok l' ∧
      ∀ i x, (∃ k, l'.get name = .ok k ∧ k.id = i ∧ k.field = x) ↔
        (∃ k, l.get name = .ok k ∧ k.id = i ∧ k.field = x) := by
  obtain ⟨l, e, r⟩ := rep_empty.run hs
  obtain ⟨l', e', r'⟩ := r.step h
  refine ⟨l, l', e, e', ?_⟩
  have key : ∀ j x, s'.at_ j = some (name, x) ↔ s.at_ j = some (name, x) := by
    intro j x
    rcases Classical.em (s.at_ j = s'.at_ j) with hj | hj
    · rw [hj]
    · exact ⟨fun hh => absurd hh (hne j x hj).2, fun hh => absurd hh (hne j x hj).1⟩
  have look : ∀ (l : Items α) (s : Hist α), Rep l s → ∀ i x,
      (∃ k, l.get name = .ok k ∧ k.id = i ∧ k.field = x) ↔
        (s.First name i ∧ s.at_ i = some (name, x)) := by
    intro l s r i x
    rw [get_eq l r.good]
    constructor
    · rintro ⟨k, hk, rfl, rfl⟩
      cases hf : findName name l.links with
      | none => simp [hf] at hk
      | some k' =>
        simp only [hf] at hk; cases hk
        have := (r.first name k).mp hf
        exact this.2
    · rintro ⟨hf, hx⟩
      obtain ⟨k, hk, rfl, hn, rfl⟩ := (r.mem _ _ _).mp hx
      exact ⟨k, by rw [(r.first name k).mpr ⟨hk, hf, hx⟩], rfl, rfl⟩
  intro i x
  rw [look l' s' r', look l s r]
  simp only [Hist.First, key]

/-! ## Both lists of a node -/

variable {V N : Type}

/-- C33: `get` by name, `has_value` and `has_node` over both lists: a value under the name comes
first, then a node; otherwise an exception. -/
theorem node_get (vops : List (Op V)) (nops : List (Op N)) (sv : Hist V) (sn : Hist N)
    (hv : Hist.Steps Hist.empty vops sv) (hn : Hist.Steps Hist.empty nops sn) :
    ∃ lv ln, Items.run Items.empty vops = .ok lv ∧ Items.run Items.empty nops = .ok ln ∧
      ∀ name,
        (∀ k, Fields.get name ⟨lv, ln⟩ = .ok (.value k) →
          sv.First name k.id ∧ sv.at_ k.id = some (name, k.field)) ∧
        (∀ k, Fields.get name ⟨lv, ln⟩ = .ok (.node k) →
          sv.Absent name ∧ sn.First name k.id ∧ sn.at_ k.id = some (name, k.field)) ∧
        (Fields.get name ⟨lv, ln⟩ = .err ↔ sv.Absent name ∧ sn.Absent name) ∧
        Fields.get name ⟨lv, ln⟩ ≠ .ub ∧ Fields.get name ⟨lv, ln⟩ ≠ .fuel ∧
        (∀ u, Fields.tryGet name ⟨lv, ln⟩ = .ok (some u) ↔ Fields.get name ⟨lv, ln⟩ = .ok u) ∧
        (Fields.tryGet name ⟨lv, ln⟩ = .ok none ↔ sv.Absent name ∧ sn.Absent name) ∧
        (Fields.hasValue name ⟨lv, ln⟩ = true ↔ ¬ sv.Absent name) ∧
        (Fields.hasNode name ⟨lv, ln⟩ = true ↔ ¬ sn.Absent name) := by
  obtain ⟨lv, ev, rv⟩ := rep_empty.run hv
  obtain ⟨ln, en, rn⟩ := rep_empty.run hn
  refine ⟨lv, ln, ev, en, fun name => ?_⟩
  simp only [← rv.absent name, ← rn.absent name, Fields.tryGet, Fields.get, Fields.hasValue,
    Fields.hasNode]
  cases hfv : findName name lv.links with
  | some k =>
    have := (rv.first name k).mp hfv
    refine ⟨fun k' hk' => ?_, fun k' hk' => ?_, by simp, by simp, by simp,
      by simp [Fields.attempt], by simp [Fields.attempt], by simp, ?_⟩
    · cases hk'; exact this.2
    · cases hk'
    · cases findName name ln.links <;> simp
  | none =>
    cases hfn : findName name ln.links with
    | some k =>
      have := (rn.first name k).mp hfn
      refine ⟨fun k' hk' => ?_, fun k' hk' => ?_, by simp, by simp, by simp,
        by simp [Fields.attempt], by simp [Fields.attempt], by simp, by simp⟩
      · cases hk'
      · cases hk'; exact ⟨rfl, this.2⟩
    | none => simp [Fields.attempt]

/-- C35: access to the values or to the nodes by position throws exactly when the position is out
of range. -/
theorem node_position (l : Items α) (i : Nat) :
    (l.getAt i = .err ↔ l.links.length ≤ i) ∧
    (∀ k, l.getAt i = .ok k ↔ ∃ h : i < l.links.length, l.links[i] = k) ∧
    l.getAt i ≠ .ub ∧ l.getAt i ≠ .fuel := by
  rw [Items.getAt]
  cases hf : atIndex i l.links with
  | none =>
    have := (atIndex_none i l.links).mp hf
    refine ⟨by simp [this], fun k => ?_, by simp, by simp⟩
    constructor
    · intro h; cases h
    · rintro ⟨h, _⟩; omega
  | some x =>
    obtain ⟨h, hx⟩ := (atIndex_some i l.links x).mp hf
    refine ⟨?_, fun k => ?_, by simp, by simp⟩
    · constructor
      · intro h; cases h
      · intro h; omega
    · constructor
      · intro e; cases e; exact ⟨h, hx⟩
      · rintro ⟨_, e⟩; rw [← e, hx]

/-- C35 is violated by `get(size_t)`: a position out of range of both lists dereferences a null
pointer, and `try_get(size_t)` does not prevent it. For every position there is such a node. -/
theorem node_get_position_undefined (i : Nat) (n : Fields V N) (hn : n.nodes.links.length ≤ i)
    (hv : n.values.links.length ≤ i) : n.getAt i = .ub ∧ n.tryGetAt i = .ub := by
  have e : n.getAt i = .ub := by
    rw [Fields.getAt, (atIndex_none i _).mpr hn]
    simp only [(atIndex_none i _).mpr hv]
  exact ⟨e, by rw [Fields.tryGetAt, e]; rfl⟩

/-- An empty object and position 0. -/
example : (⟨Items.empty, Items.empty⟩ : Fields Nat Nat).getAt 0 = .ub := rfl

/-- C35, what holds of `get(size_t)`: within the range of one of the lists it is defined and gives
the node at that position, or the value if there are not so many nodes. (Missing: the exception
for positions out of range.) -/
theorem node_get_position_partial (i : Nat) (n : Fields V N) :
    (∀ h : i < n.nodes.links.length, n.getAt i = .ok (.node n.nodes.links[i])) ∧
    (n.nodes.links.length ≤ i →
      ∀ h : i < n.values.links.length, n.getAt i = .ok (.value n.values.links[i])) := by
  constructor
  · intro h
    rw [Fields.getAt, (atIndex_some i _ _).mpr ⟨h, rfl⟩]
  · intro hn h
    rw [Fields.getAt, (atIndex_none i _).mpr hn]
    simp only [(atIndex_some i _ _).mpr ⟨h, rfl⟩]

/-- Witness: insert `a`, `b`, `a`, remove the first `a`, change `b`: the history has a meaning,
and looking up `a` gives the third field. -/
example : ∃ s, Hist.Steps (Hist.empty : Hist Nat)
      [.insert (str "a") 1, .insert (str "b") 2, .insert (str "a") 3, .removeName (str "a"),
        .modify 1 (· + 10)] s ∧
    s.First (str "a") 2 ∧ s.at_ 1 = some (str "b", 12) ∧ s.Nth 0 1 := by
  refine ⟨_, .cons (.insert ..) (.cons (.insert ..) (.cons (.insert ..) (.cons
    (.removeName _ _ 0 ⟨⟨1, rfl⟩, fun j x h => Nat.zero_le j⟩)
    (.cons (.modify _ 1 _ (str "b") 2 rfl) (.nil _))))), ⟨⟨3, rfl⟩, ?_⟩, rfl, rfl, [], rfl, by simp, ?_⟩
  · intro j x h
    match j with
    | 0 => cases h
    | 1 =>
      have : some (str "b", 12) = some (str "a", x) := h
      simp only [Option.some.injEq, Prod.mk.injEq] at this
      exact absurd this.1 (by decide)
    | j + 2 => omega
  · intro j
    match j with
    | 0 => simp [Hist.put, Hist.empty]
    | j + 1 => simp

example : ((Items.run (Items.empty : Items Nat)
      [.insert (str "a") 1, .insert (str "b") 2, .insert (str "a") 3, .removeName (str "a"),
        .modify 1 (· + 10)] >>= fun l => l.get (str "a")) >>= fun k => .ok (k.id, k.field)) =
    .ok (2, 3) := by decide +kernel

/-! ## Recursive enumeration -/

/-- Specification: the node reached from the top by a list of positions, with its name. -/
def fieldAt : Node → Path → Option (Bytes × Node)
  | _, [] => none
  | .mk _ _ ns, [i] => ns[i]?
  | .mk _ _ ns, i :: j :: p =>
    match ns[i]? with
    | some (_, m) => fieldAt m (j :: p)
    | none => none

/-- Specification: the value at a position of the node reached by a list of positions. -/
def valueAt (n : Node) (p : Path) (i : Nat) : Option (Bytes × Val) :=
  match p with
  | [] => match n with | .mk _ vs _ => vs[i]?
  | j :: p =>
    match fieldAt n (j :: p) with
    | some (_, .mk _ vs _) => vs[i]?
    | none => none

/-- Order of a document read from the front: a node before what is below it, and everything below
a node before its next sibling. -/
def Before (p q : Path) : Prop :=
  (∃ i r, q = p ++ i :: r) ∨ ∃ c i j r t, p = c ++ i :: r ∧ q = c ++ j :: t ∧ i < j

private abbrev one (p : Path) (name : Bytes) (m : Node) : List (Path × Bytes × Node) := [(p, name, m)]

mutual
private theorem foreachNode_flat {β : Type} (f : Path → Bytes → Node → List β) (rec : Bool)
    (path : Path) : ∀ n : Node, foreachNode f rec path n =
      (foreachNode one rec path n).flatMap (fun x => f x.1 x.2.1 x.2.2)
  | .mk _ _ ns => by
    simp only [foreachNode]
    exact foreachNodes_flat f rec path 0 ns
private theorem foreachNodes_flat {β : Type} (f : Path → Bytes → Node → List β) (rec : Bool)
    (path : Path) : ∀ (i : Nat) (ns : List (Bytes × Node)), foreachNodes f rec path i ns =
      (foreachNodes one rec path i ns).flatMap (fun x => f x.1 x.2.1 x.2.2)
  | _, [] => by simp [foreachNodes]
  | i, (name, n) :: ns => by
    simp only [foreachNodes, List.flatMap_append, foreachNodes_flat f rec path (i + 1) ns]
    congr 1
    · simp
    · congr 1
      cases rec with
      | false => simp
      | true => simp only [if_true]; exact foreachNode_flat f true (path ++ [i]) n
end

private theorem fieldAt_cons (t : ScopeTy) (vs : List (Bytes × Val)) (ns : List (Bytes × Node))
    (i : Nat) (p : Path) : fieldAt (.mk t vs ns) (i :: p) =
      match ns[i]? with
      | none => none
      | some (name, m) => if p = [] then some (name, m) else fieldAt m p := by
  cases p with
  | nil => simp only [fieldAt]; cases ns[i]? <;> simp
  | cons j p => simp only [fieldAt]; cases ns[i]? <;> simp

mutual
private theorem foreachNode_mem (rec : Bool) (path : Path) : ∀ (n : Node) (p : Path) (name : Bytes)
    (m : Node), (p, name, m) ∈ foreachNode one rec path n ↔
      ∃ q, p = path ++ q ∧ fieldAt n q = some (name, m) ∧ (rec = true ∨ q.length = 1)
  | .mk t vs ns, p, name, m => by
    simp only [foreachNode, foreachNodes_mem rec path 0 ns p name m]
    constructor
    · rintro ⟨j, q, rfl, hq, hr⟩
      refine ⟨j :: q, by simp, ?_, by simpa using hr⟩
      rw [fieldAt_cons]; exact hq
    · rintro ⟨q, rfl, hq, hr⟩
      cases q with
      | nil => cases hq
      | cons j q =>
        rw [fieldAt_cons] at hq
        exact ⟨j, q, by simp, hq, by simpa using hr⟩
private theorem foreachNodes_mem (rec : Bool) (path : Path) : ∀ (i : Nat) (ns : List (Bytes × Node))
    (p : Path) (name : Bytes) (m : Node), (p, name, m) ∈ foreachNodes one rec path i ns ↔
      ∃ j q, p = path ++ (i + j) :: q ∧
        (match ns[j]? with
          | none => none
          | some (name, m) => if q = [] then some (name, m) else fieldAt m q) = some (name, m) ∧
        (rec = true ∨ q = [])
  | i, [], p, name, m => by simp [foreachNodes]
  | i, (nm, n) :: ns, p, name, m => by
    simp only [foreachNodes, List.mem_append, foreachNodes_mem rec path (i + 1) ns p name m]
    constructor
    · rintro (h | h | ⟨j, q, rfl, h⟩)
      · simp only [List.mem_singleton, Prod.mk.injEq] at h
        obtain ⟨rfl, rfl, rfl⟩ := h
        exact ⟨0, [], by simp⟩
      · cases rec with
        | false => simp at h
        | true =>
          simp only [if_true] at h
          obtain ⟨q, rfl, hq, _⟩ := (foreachNode_mem true (path ++ [i]) n p name m).mp h
          have : q ≠ [] := by rintro rfl; cases hq
          exact ⟨0, q, by simp, by simp [this, hq], .inl rfl⟩
      · refine ⟨j + 1, q, by rw [show i + 1 + j = i + (j + 1) by omega], ?_, h.2⟩
        simpa only [List.getElem?_cons_succ] using h.1
    · rintro ⟨j, q, rfl, h, hr⟩
      cases j with
      | zero =>
        simp only [List.getElem?_cons_zero] at h
        by_cases hq : q = []
        · subst hq
          simp only [if_true, Option.some.injEq, Prod.mk.injEq] at h
          exact .inl (by simp [h])
        · rw [if_neg hq] at h
          have hrec : rec = true := hr.resolve_right hq
          subst hrec
          simp only [if_true]
          exact .inr (.inl ((foreachNode_mem true (path ++ [i]) n _ name m).mpr
            ⟨q, by simp, h, .inl rfl⟩))
      | succ j =>
        simp only [List.getElem?_cons_succ] at h
        exact .inr (.inr ⟨j, q, by rw [show i + (j + 1) = i + 1 + j by omega], h, hr⟩)
end

private theorem foreachNodes_pos (rec : Bool) (path : Path) (i : Nat) (ns : List (Bytes × Node))
    (x : Path × Bytes × Node) (h : x ∈ foreachNodes one rec path i ns) :
    ∃ j q, x.1 = path ++ (i + j) :: q := by
  obtain ⟨p, name, m⟩ := x
  obtain ⟨j, q, e, _⟩ := (foreachNodes_mem rec path i ns p name m).mp h
  exact ⟨j, q, e⟩

mutual
private theorem foreachNode_order (rec : Bool) (path : Path) : ∀ n : Node,
    (foreachNode one rec path n).Pairwise (fun x y => Before x.1 y.1)
  | .mk _ _ ns => by simp only [foreachNode]; exact foreachNodes_order rec path 0 ns
private theorem foreachNodes_order (rec : Bool) (path : Path) : ∀ (i : Nat) (ns : List (Bytes × Node)),
    (foreachNodes one rec path i ns).Pairwise (fun x y => Before x.1 y.1)
  | _, [] => by simp [foreachNodes]
  | i, (nm, n) :: ns => by
    simp only [foreachNodes, List.pairwise_append]
    refine ⟨by simp, ⟨?_, foreachNodes_order rec path (i + 1) ns, ?_⟩, ?_⟩
    · cases rec with
      | false => simp
      | true => simp only [if_true]; exact foreachNode_order true (path ++ [i]) n
    · intro a ha b hb
      obtain ⟨j, r, e⟩ := foreachNodes_pos rec path (i + 1) ns b hb
      cases rec with
      | false => simp at ha
      | true =>
        simp only [if_true] at ha
        obtain ⟨p, name, m⟩ := a
        obtain ⟨q, rfl, _⟩ := (foreachNode_mem true (path ++ [i]) n p name m).mp ha
        exact .inr ⟨path, i, i + 1 + j, q, r, by simp, e, by omega⟩
    · intro a ha b hb
      simp only [List.mem_singleton] at ha
      subst ha
      rcases List.mem_append.mp hb with hb | hb
      · cases rec with
        | false => simp at hb
        | true =>
          simp only [if_true] at hb
          obtain ⟨p, name, m⟩ := b
          obtain ⟨q, rfl, hq, _⟩ := (foreachNode_mem true (path ++ [i]) n p name m).mp hb
          cases q with
          | nil => cases hq
          | cons c q => exact .inl ⟨c, q, rfl⟩
      · obtain ⟨j, r, e⟩ := foreachNodes_pos rec path (i + 1) ns b hb
        exact .inr ⟨path, i, i + 1 + j, [], r, rfl, e, by omega⟩
end

/-- The order is strict: nothing comes before itself. -/
theorem before_irrefl (p : Path) : ¬ Before p p := by
  rintro (⟨i, r, h⟩ | ⟨c, i, j, r, t, h1, h2, hlt⟩)
  · have := congrArg List.length h
    simp at this
  · rw [h1] at h2
    have := List.append_cancel_left h2
    simp only [List.cons.injEq] at this
    omega

/-- C34: recursive enumeration of the nodes gives each node of the tree exactly once, in document
order; without recursion it gives the children of the node. -/
theorem all_nodes_once (n : Node) :
    (∀ p name m, (p, name, m) ∈ allNodes true n ↔ fieldAt n p = some (name, m)) ∧
    (∀ p name m, (p, name, m) ∈ allNodes false n ↔ ∃ i, p = [i] ∧ fieldAt n [i] = some (name, m)) ∧
    (∀ rec, (allNodes rec n).Pairwise (fun x y => Before x.1 y.1)) ∧
    (∀ rec, ((allNodes rec n).map (·.1)).Nodup) := by
  refine ⟨fun p name m => ?_, fun p name m => ?_, fun rec => foreachNode_order rec [] n, fun rec => ?_⟩
  · rw [allNodes, foreachNode_mem]; simp
  · rw [allNodes, foreachNode_mem]
    constructor
    · rintro ⟨q, rfl, h, hq⟩
      simp only [Bool.false_eq_true, false_or] at hq
      obtain ⟨i, rfl⟩ := List.length_eq_one_iff.mp hq
      exact ⟨i, by simp, h⟩
    · rintro ⟨i, rfl, h⟩
      exact ⟨[i], by simp, h, .inr rfl⟩
  · rw [List.Nodup, List.pairwise_map]
    refine (foreachNode_order rec [] n).imp ?_
    intro a b h e
    rw [e] at h
    exact before_irrefl _ h

/-- C34: searching for a name gives exactly those of that name, in the same order. -/
theorem find_nodes_exact (name : Bytes) (rec : Bool) (n : Node) :
    findNodes name rec n = (allNodes rec n).filter (fun x => x.2.1 == name) := by
  rw [findNodes, foreachNode_flat, allNodes]
  generalize foreachNode _ rec [] n = l
  induction l with
  | nil => rfl
  | cons x xs ih =>
    rw [List.flatMap_cons, ih, List.filter_cons]
    split <;> simp

private abbrev oneV (p : Path) (i : Nat) (name : Bytes) (v : Val) :
    List (Path × Nat × Bytes × Val) := [(p, i, name, v)]

private theorem foreachVals_flat {β : Type} (f : Path → Nat → Bytes → Val → List β) (path : Path)
    (i : Nat) (vs : List (Bytes × Val)) : foreachVals f path i vs =
      (foreachVals oneV path i vs).flatMap (fun x => f x.1 x.2.1 x.2.2.1 x.2.2.2) := by
  induction vs generalizing i with
  | nil => rfl
  | cons v vs ih => obtain ⟨name, v⟩ := v; simp only [foreachVals, ih, List.flatMap_append]; simp

private theorem foreachVals_mem (path : Path) (i : Nat) (vs : List (Bytes × Val)) (p : Path) (k : Nat)
    (name : Bytes) (v : Val) : (p, k, name, v) ∈ foreachVals oneV path i vs ↔
      p = path ∧ ∃ j, k = i + j ∧ vs[j]? = some (name, v) := by
  induction vs generalizing i with
  | nil => simp [foreachVals]
  | cons w vs ih =>
    obtain ⟨nm, w⟩ := w
    simp only [foreachVals, List.mem_append, ih, List.mem_singleton, Prod.mk.injEq]
    constructor
    · rintro (⟨rfl, rfl, rfl, rfl⟩ | ⟨rfl, j, rfl, h⟩)
      · exact ⟨rfl, 0, by simp⟩
      · exact ⟨rfl, j + 1, by omega, by simpa using h⟩
    · rintro ⟨rfl, j, rfl, h⟩
      cases j with
      | zero => simp only [List.getElem?_cons_zero, Option.some.injEq, Prod.mk.injEq] at h; simp [h]
      | succ j => exact .inr ⟨rfl, j, by omega, by simpa using h⟩

private theorem foreachVals_order (path : Path) (i : Nat) (vs : List (Bytes × Val)) :
    (foreachVals oneV path i vs).Pairwise (fun x y => x.1 = y.1 ∧ x.2.1 < y.2.1) := by
  induction vs generalizing i with
  | nil => simp [foreachVals]
  | cons w vs ih =>
    obtain ⟨nm, w⟩ := w
    simp only [foreachVals, List.pairwise_append]
    refine ⟨by simp, ih (i + 1), ?_⟩
    intro a ha b hb
    simp only [List.mem_singleton] at ha
    subst ha
    obtain ⟨p, k, name, v⟩ := b
    obtain ⟨rfl, j, rfl, _⟩ := (foreachVals_mem path (i + 1) vs p k name v).mp hb
    exact ⟨rfl, by simp; omega⟩

private def valsOf (p : Path) (m : Node) : List (Path × Nat × Bytes × Val) :=
  match m with | .mk _ ws _ => foreachVals oneV p 0 ws

private theorem allValues_eq (rec : Bool) (n : Node) : allValues rec n =
    valsOf [] n ++ (if rec then (allNodes true n).flatMap (fun x => valsOf x.1 x.2.2) else []) := by
  obtain ⟨t, vs, ns⟩ := n
  simp only [allValues, foreachValue, valsOf]
  congr 1
  cases rec with
  | false => simp
  | true =>
    simp only [if_true]
    rw [foreachNode_flat, allNodes]
    rfl

/-- Order of the values: by the document order of their nodes, and by position in one node. -/
def BeforeV (x y : Path × Nat) : Prop := Before x.1 y.1 ∨ (x.1 = y.1 ∧ x.2 < y.2)

/-- C34: recursive enumeration of the values gives each value of the tree exactly once, in document
order; without recursion it gives the values of the node. -/
theorem all_values_once (n : Node) :
    (∀ p i name v, (p, i, name, v) ∈ allValues true n ↔ valueAt n p i = some (name, v)) ∧
    (∀ p i name v, (p, i, name, v) ∈ allValues false n ↔ p = [] ∧ valueAt n [] i = some (name, v)) ∧
    (∀ rec, (allValues rec n).Pairwise (fun x y => BeforeV (x.1, x.2.1) (y.1, y.2.1))) ∧
    (∀ rec, ((allValues rec n).map (fun x => (x.1, x.2.1))).Nodup) := by
  have own : ∀ p i name v, (p, i, name, v) ∈ valsOf [] n ↔ p = [] ∧ valueAt n [] i = some (name, v) := by
    obtain ⟨t, vs, ns⟩ := n
    intro p i name v
    rw [valsOf, foreachVals_mem]
    simp [valueAt]
  have sub : ∀ q (m : Node) p i name v, (p, i, name, v) ∈ valsOf q m ↔
      p = q ∧ (match m with | .mk _ ws _ => ws[i]?) = some (name, v) := by
    intro q m p i name v
    obtain ⟨t, vs, ns⟩ := m
    rw [valsOf, foreachVals_mem]
    simp
  have order : ∀ rec, (allValues rec n).Pairwise (fun x y => BeforeV (x.1, x.2.1) (y.1, y.2.1)) := by
    intro rec
    have ordv : ∀ q (m : Node), (valsOf q m).Pairwise
        (fun x y => BeforeV (x.1, x.2.1) (y.1, y.2.1)) := by
      intro q m
      obtain ⟨t, vs, ns⟩ := m
      exact (foreachVals_order q 0 vs).imp (fun h => .inr h)
    rw [allValues_eq, List.pairwise_append]
    refine ⟨ordv [] n, ?_, ?_⟩
    · cases rec with
      | false => simp
      | true =>
        simp only [if_true, List.pairwise_flatMap]
        refine ⟨fun x _ => ordv x.1 x.2.2, ?_⟩
        refine ((all_nodes_once n).2.2.1 true).imp ?_
        rintro ⟨p, nm, m⟩ ⟨p', nm', m'⟩ hb ⟨q, i, a, v⟩ hx ⟨q', i', a', v'⟩ hy
        obtain ⟨rfl, _⟩ := (sub _ _ _ _ _ _).mp hx
        obtain ⟨rfl, _⟩ := (sub _ _ _ _ _ _).mp hy
        exact .inl hb
    · rintro ⟨p, i, a, v⟩ hx ⟨p', i', a', v'⟩ hy
      obtain ⟨rfl, _⟩ := (own _ _ _ _).mp hx
      cases rec with
      | false => simp at hy
      | true =>
        simp only [if_true, List.mem_flatMap] at hy
        obtain ⟨⟨q, nm, m⟩, hm, hy⟩ := hy
        obtain ⟨rfl, _⟩ := (sub _ _ _ _ _ _).mp hy
        have := ((all_nodes_once n).1 p' nm m).mp hm
        cases p' with
        | nil => cases this
        | cons c r => exact .inl (.inl ⟨c, r, rfl⟩)
  refine ⟨fun p i name v => ?_, fun p i name v => ?_, order, fun rec => ?_⟩
  · rw [allValues_eq, List.mem_append, own]
    simp only [if_true, List.mem_flatMap]
    constructor
    · rintro (⟨rfl, h⟩ | ⟨⟨q, nm, m⟩, hm, h⟩)
      · exact h
      · obtain ⟨rfl, h⟩ := (sub _ _ _ _ _ _).mp h
        have := ((all_nodes_once n).1 p nm m).mp hm
        cases p with
        | nil => cases this
        | cons c r => obtain ⟨t, ws, ns⟩ := m; simp only [valueAt, this]; exact h
    · intro h
      cases p with
      | nil => exact .inl ⟨rfl, h⟩
      | cons c r =>
        simp only [valueAt] at h
        cases hf : fieldAt n (c :: r) with
        | none => simp [hf] at h
        | some x =>
          obtain ⟨nm, m⟩ := x
          refine .inr ⟨(c :: r, nm, m), ((all_nodes_once n).1 _ _ _).mpr hf, (sub _ _ _ _ _ _).mpr ⟨rfl, ?_⟩⟩
          obtain ⟨t, ws, ns⟩ := m
          simpa only [hf] using h
  · rw [allValues_eq, List.mem_append, own]; simp
  · rw [List.Nodup, List.pairwise_map]
    refine (order rec).imp ?_
    rintro a b (h | h) e
    · rw [show a.1 = b.1 from (Prod.mk.injEq .. ▸ e).1] at h
      exact before_irrefl _ h
    · have : a.2.1 = b.2.1 := (Prod.mk.injEq .. ▸ e).2
      have h2 : a.2.1 < b.2.1 := h.2
      omega

/-- C34: searching for a name gives exactly those of that name, in the same order. -/
theorem find_values_exact (name : Bytes) (rec : Bool) (n : Node) :
    findValues name rec n = (allValues rec n).filter (fun x => x.2.2.1 == name) := by
  have flat : ∀ p (ws : List (Bytes × Val)) i,
      foreachVals (fun p i nm v => if nm == name then [(p, i, nm, v)] else []) p i ws =
        (foreachVals oneV p i ws).filter (fun x => x.2.2.1 == name) := by
    intro p ws
    induction ws with
    | nil => intro i; rfl
    | cons w ws ih =>
      intro i
      obtain ⟨nm, w⟩ := w
      simp only [foreachVals, ih, List.filter_append]
      congr 1
      by_cases h : nm = name <;> simp [h]
  obtain ⟨t, vs, ns⟩ := n
  simp only [findValues, allValues, foreachValue, List.filter_append, flat]
  congr 1
  cases rec with
  | false => simp
  | true =>
    simp only [if_true]
    rw [foreachNode_flat (β := Path × Nat × Bytes × Val)]
    conv => rhs; rw [foreachNode_flat (β := Path × Nat × Bytes × Val)]
    rw [List.filter_flatMap]
    congr 1
    funext x
    obtain ⟨p, nm, t, ws, ns⟩ := x
    rfl

/-- A tree with a node below a node, the same name used twice. -/
example :
    let n := Node.mk .object [(str "v", .null)]
      [(str "a", .mk .object [(str "v", .bool true)] [(str "a", .mk .array [] [])]),
       (str "b", .mk .array [] [])]
    (allNodes true n).map (·.1) = [[0], [0, 0], [1]] ∧
    (findNodes (str "a") true n).map (·.1) = [[0], [0, 0]] ∧
    (findValues (str "v") true n).map (fun x => (x.1, x.2.1)) = [([], 0), ([0], 0)] := by
  decide +kernel

end Srl.Props
