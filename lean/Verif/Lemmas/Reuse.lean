import Verif.Model.Reuse
import Verif.Lemmas.PSrl
import Verif.Props.HTable

/-! # The hash table of names is the list of names -/

namespace Srl.PSrl

open HTable (Tbl Cfg Inv)
open Props (Abs Map)

variable {cfg : Cfg Bytes}

/-- The table holds the names of the list, each with its position. -/
def Rep (cfg : Cfg Bytes) (t : Tbl Bytes Nat) (names : List Bytes) : Prop :=
  Inv cfg t ∧ names.Nodup ∧ ∃ m, Abs t m ∧ ∀ k, (m k).map (·.2) = indexOf k names

theorem indexOf_none {k : Bytes} {ns : List Bytes} : indexOf k ns = none ↔ k ∉ ns := by
  induction ns with
  | nil => simp [indexOf]
  | cons n ns ih =>
    rw [indexOf]
    by_cases h : n = k
    · simp [h]
    · rw [if_neg h, Option.map_eq_none_iff, ih]
      simp [Ne.symm h]

theorem indexOf_append {k x : Bytes} {ns : List Bytes} (hx : indexOf x ns = none) :
    indexOf k (ns ++ [x]) = if k = x then some ns.length else indexOf k ns := by
  induction ns with
  | nil =>
    by_cases h : k = x
    · simp [indexOf, h]
    · simp [indexOf, h, Ne.symm h]
  | cons n ns ih =>
    have hn := indexOf_none.mp hx
    have h1 : n ≠ x := fun h => hn (by simp [h])
    have h2 : indexOf x ns = none := indexOf_none.mpr fun h => hn (List.mem_cons_of_mem _ h)
    rw [List.cons_append, indexOf, indexOf, ih h2]
    by_cases h : n = k
    · subst h; rw [if_pos rfl, if_pos rfl, if_neg h1]
    · rw [if_neg h, if_neg h]
      by_cases h3 : k = x <;> simp [h3]

theorem Rep.count {t : Tbl Bytes Nat} {names : List Bytes} (h : Rep cfg t names) :
    t.elements = names.length := by
  obtain ⟨hi, hn, m, ha, hm⟩ := h
  have hl := Props.lists_of hi ha
  rw [hi.cnt]
  have hp : (t.es.map (·.key)).Perm names := by
    rw [List.perm_ext_iff_of_nodup hi.keys hn]
    intro k
    constructor
    · intro hk
      obtain ⟨e, he, rfl⟩ := List.mem_map.mp hk
      refine Decidable.byContradiction fun hc => ?_
      have h1 := (ha e.key e.addr e.val).mpr ⟨e, he, rfl, rfl, rfl⟩
      have h2 := hm e.key
      rw [h1, indexOf_none.mpr hc] at h2
      cases h2
    · intro hk
      cases hmk : m k with
      | none =>
        have h2 := hm k
        rw [hmk] at h2
        exact absurd hk (indexOf_none.mp h2.symm)
      | some x =>
        obtain ⟨e, he, h3, -⟩ := (ha k x.1 x.2).mp hmk
        exact List.mem_map.mpr ⟨e, he, h3⟩
  simpa using hp.length_eq

theorem Rep.insert_old {t : Tbl Bytes Nat} {names : List Bytes} (h : Rep cfg t names)
    {k : Bytes} {i : Nat} (hk : indexOf k names = some i) (v : Nat) :
    ∃ t' a, HTable.insert cfg t k v = .ok (t', true, a, i) ∧ Rep cfg t' names := by
  obtain ⟨hi, hn, m, ha, hm⟩ := h
  obtain ⟨t', x, a, w, h1, hi', hc⟩ := Props.insert_spec hi ha false k v
  have h2 := hm k
  rcases hc with ⟨-, -, h3, -⟩ | ⟨rfl, -, h3, h4⟩ | ⟨-, h3, -⟩
  · rw [h3, hk] at h2; cases h2
  · rw [h3, hk] at h2; cases h2
    exact ⟨t', a, h1, hi', hn, m, h4, hm⟩
  · cases h3

theorem Rep.insert_new {t : Tbl Bytes Nat} {names : List Bytes} (h : Rep cfg t names)
    {k : Bytes} (hk : indexOf k names = none) :
    ∃ t' a w, HTable.insert cfg t k t.elements = .ok (t', false, a, w) ∧
      Rep cfg t' (names ++ [k]) := by
  have hcnt := h.count
  obtain ⟨hi, hn, m, ha, hm⟩ := h
  obtain ⟨t', x, a, w, h1, hi', hc⟩ := Props.insert_spec hi ha false k t.elements
  have h2 := hm k
  rcases hc with ⟨rfl, rfl, h3, -, h4⟩ | ⟨-, -, h3, -⟩ | ⟨-, h3, -⟩
  · refine ⟨t', a, _, h1, hi', ?_, _, h4, ?_⟩
    · rw [List.nodup_append]
      refine ⟨hn, by simp, ?_⟩
      intro x hx y hy he
      rw [List.mem_singleton] at hy
      exact indexOf_none.mp hk (by rw [← hy, ← he]; exact hx)
    · intro k'
      rw [indexOf_append hk, Map.put]
      by_cases he : k' = k
      · simp [he, hcnt]
      · simp [he, hm k']
  · rw [h3, hk] at h2; cases h2
  · cases h3

theorem rep_clear {t : Tbl Bytes Nat} {m : Map Bytes Nat} (hi : Inv cfg t) (ha : Abs t m) :
    Rep cfg (HTable.clear t) [] := by
  obtain ⟨h1, h2⟩ := Props.clear_spec hi ha
  exact ⟨h1, List.nodup_nil, _, h2, fun _ => rfl⟩

/-- What a result of the object and one of the abstract parser have in common. -/
def Sim (cfg : Cfg Bytes) (o : Obj) (st : St) : Prop := o.stack = st.stack ∧ Rep cfg o.hashed st.names

/-- Equal output, related states. -/
def SimR {α β : Type} (R : α → β → Prop) : Res (α × Bytes) → Res (β × Bytes) → Prop
  | .ok (a, x), .ok (b, y) => R a b ∧ x = y
  | .err, .err => True
  | .ub, .ub => True
  | .fuel, .fuel => True
  | _, _ => False

theorem SimR.bind {α β α' β' : Type} {R : α → β → Prop} {R' : α' → β' → Prop}
    {x : Res (α × Bytes)} {y : Res (β × Bytes)} {f : α × Bytes → Res (α' × Bytes)}
    {g : β × Bytes → Res (β' × Bytes)} (h : SimR R x y)
    (hf : ∀ a b s, R a b → SimR R' (f (a, s)) (g (b, s))) : SimR R' (x >>= f) (y >>= g) := by
  cases x with
  | ok p =>
    cases y with
    | ok q =>
      obtain ⟨h1, h2⟩ := h
      obtain ⟨a, s⟩ := p
      obtain ⟨b, s'⟩ := q
      cases h2
      exact hf a b s h1
    | _ => exact h.elim
  | _ => cases y <;> first | exact h.elim | trivial

theorem SimR.bind_same {α β γ : Type} {R : α → β → Prop} {x : Res γ} {f : γ → Res (α × Bytes)}
    {g : γ → Res (β × Bytes)} (hf : ∀ c, SimR R (f c) (g c)) : SimR R (x >>= f) (x >>= g) := by
  cases x with
  | ok c => exact hf c
  | _ => trivial

theorem sim_head {o : Obj} {st : St} (h : Sim cfg o st) (flag : UInt8) (name : Bytes) :
    SimR (Rep cfg) (o.writeHead cfg flag name) (writeHead st flag name) := by
  obtain ⟨h1, h2⟩ := h
  unfold Obj.writeHead writeHead
  rw [h1]
  by_cases hc : name.length < 1 ∨ st.stack.head? ≠ some .object
  · rw [if_pos hc, if_pos hc]
    exact ⟨h2, rfl⟩
  · rw [if_neg hc, if_neg hc]
    cases hi : indexOf name st.names with
    | some i =>
      obtain ⟨t', a, h3, h4⟩ := h2.insert_old hi o.hashed.elements
      simp only [h3, Res.ok_bind]
      exact SimR.bind_same fun c => ⟨h4, rfl⟩
    | none =>
      obtain ⟨t', a, w, h3, h4⟩ := h2.insert_new hi
      simp only [h3, Res.ok_bind]
      exact SimR.bind_same fun c => ⟨h4, rfl⟩

theorem sim_write {o : Obj} {st : St} (h : Sim cfg o st) (e : Event) :
    SimR (Sim cfg) (o.write cfg e) (write st e) := by
  obtain ⟨n, tok⟩ := e
  unfold Obj.write write
  cases tok with
  | scopeEnd =>
    dsimp only
    rw [h.1]
    cases st.stack with
    | nil => trivial
    | cons t stk => exact ⟨⟨rfl, h.2⟩, rfl⟩
  | scope t =>
    refine SimR.bind (sim_head h _ _) fun a b s hr => ?_
    exact ⟨⟨by rw [h.1], hr⟩, rfl⟩
  | val v =>
    refine SimR.bind (sim_head h _ _) fun a b s hr => ?_
    exact SimR.bind_same fun c => ⟨⟨h.1, hr⟩, rfl⟩

theorem sim_writeAll (es : List Event) : ∀ {o : Obj} {st : St}, Sim cfg o st →
    SimR (Sim cfg) (o.writeAll cfg es) (writeAll st es) := by
  induction es with
  | nil => intro o st h; exact ⟨h, rfl⟩
  | cons e es ih =>
    intro o st h
    rw [Obj.writeAll, writeAll]
    refine SimR.bind (sim_write h e) fun a b s hr => ?_
    exact SimR.bind (ih hr) fun a b s hr => ⟨hr, rfl⟩

end Srl.PSrl

namespace Srl.Doc

variable {σ τ : Type}

/-- A token reader that is another one seen through a projection of its state. -/
def Through (f : σ → τ) (read : σ → Res (Event × σ)) (read' : τ → Res (Event × τ)) : Prop :=
  ∀ x, (do let (e, y) ← read x; .ok (e, f y)) = read' (f x)

variable {f : σ → τ} {read : σ → Res (Event × σ)} {read' : τ → Res (Event × τ)}

theorem Through.cases (h : Through f read read') (x : σ) :
    (∃ e y, read x = .ok (e, y) ∧ read' (f x) = .ok (e, f y)) ∨
    (read x = .err ∧ read' (f x) = .err) ∨ (read x = .ub ∧ read' (f x) = .ub) ∨
    (read x = .fuel ∧ read' (f x) = .fuel) := by
  have := h x
  cases hx : read x with
  | ok p =>
    obtain ⟨e, y⟩ := p
    rw [hx] at this
    exact Or.inl ⟨e, y, rfl, this.symm⟩
  | err => rw [hx] at this; exact Or.inr (Or.inl ⟨rfl, this.symm⟩)
  | ub => rw [hx] at this; exact Or.inr (Or.inr (Or.inl ⟨rfl, this.symm⟩))
  | fuel => rw [hx] at this; exact Or.inr (Or.inr (Or.inr ⟨rfl, this.symm⟩))

/-- The same, with the state of the result projected. -/
theorem map_cases {α : Type} (x : Res (α × σ)) {y : Res (α × τ)}
    (h : (do let (a, s) ← x; .ok (a, f s)) = y) :
    (∃ a s, x = .ok (a, s) ∧ y = .ok (a, f s)) ∨ (x = .err ∧ y = .err) ∨ (x = .ub ∧ y = .ub) ∨
    (x = .fuel ∧ y = .fuel) := by
  cases x with
  | ok p => exact Or.inl ⟨p.1, p.2, rfl, h.symm⟩
  | err => exact Or.inr (Or.inl ⟨rfl, h.symm⟩)
  | ub => exact Or.inr (Or.inr (Or.inl ⟨rfl, h.symm⟩))
  | fuel => exact Or.inr (Or.inr (Or.inr ⟨rfl, h.symm⟩))

theorem readScope_through (h : Through f read read') (n : Nat) : ∀ depth x,
    (do let (a, y) ← readScope read n depth x; .ok (a, f y)) = readScope read' n depth (f x) := by
  induction n with
  | zero => intro depth x; rfl
  | succ n ih =>
    intro depth x
    rw [readScope, readScope]
    rcases h.cases x with ⟨e, y, h1, h2⟩ | ⟨h1, h2⟩ | ⟨h1, h2⟩ | ⟨h1, h2⟩ <;> rw [h1, h2] <;>
      try rfl
    obtain ⟨nm, tok⟩ := e
    cases tok with
    | scopeEnd => rfl
    | val v =>
      simp only [Res.ok_bind]
      rcases map_cases _ (ih depth y) with ⟨a, s, h3, h4⟩ | ⟨h3, h4⟩ | ⟨h3, h4⟩ | ⟨h3, h4⟩ <;>
        rw [h3, h4] <;> rfl
    | scope t =>
      simp only [Res.ok_bind]
      by_cases hd : depth + 1 > maxDepth
      · rw [if_pos hd, if_pos hd]; rfl
      · rw [if_neg hd, if_neg hd]
        rcases map_cases _ (ih (depth + 1) y) with ⟨a, s, h3, h4⟩ | ⟨h3, h4⟩ | ⟨h3, h4⟩ | ⟨h3, h4⟩ <;>
          rw [h3, h4] <;> try rfl
        simp only [Res.ok_bind]
        rcases map_cases _ (ih depth s) with ⟨a, s, h5, h6⟩ | ⟨h5, h6⟩ | ⟨h5, h6⟩ | ⟨h5, h6⟩ <;>
          rw [h5, h6] <;> rfl

theorem load_through (h : Through f read read') (n : Nat) (x : σ) :
    (do let (a, y) ← load read n x; .ok (a, f y)) = load read' n (f x) := by
  rw [load, load]
  rcases h.cases x with ⟨e, y, h1, h2⟩ | ⟨h1, h2⟩ | ⟨h1, h2⟩ | ⟨h1, h2⟩ <;> rw [h1, h2] <;>
    try rfl
  obtain ⟨nm, tok⟩ := e
  cases tok with
  | scopeEnd => rfl
  | val v => rfl
  | scope t =>
    simp only [Res.ok_bind]
    rcases map_cases _ (readScope_through h n 0 y) with ⟨a, s, h3, h4⟩ | ⟨h3, h4⟩ | ⟨h3, h4⟩ | ⟨h3, h4⟩ <;>
      rw [h3, h4] <;> rfl

end Srl.Doc

namespace Srl

theorem PSrl.through (m : Mem) : Doc.Through
    (fun x : PSrl.Obj × Bytes => ((⟨x.1.stack, x.1.indexed⟩, x.2) : PSrl.St × Bytes))
    (PSrl.Obj.read m) (PSrl.read m) := by
  intro x
  rw [PSrl.Obj.read]
  cases PSrl.read m (⟨x.1.stack, x.1.indexed⟩, x.2) <;> rfl

theorem PMsgPack.through (m : Mem) : Doc.Through
    (fun x : PMsgPack.Obj × Bytes => (x.1.scopes.map fun w => (⟨w.type, w.elements⟩ : RScope), x.2))
    (PMsgPack.Obj.read m) (PMsgPack.read m) := by
  intro x
  rw [PMsgPack.Obj.read]
  cases PMsgPack.read m (x.1.scopes.map fun w => ⟨w.type, w.elements⟩, x.2) with
  | ok p =>
    obtain ⟨⟨nm, tok⟩, st, s⟩ := p
    simp [Obj.bufferName, Function.comp_def]
  | _ => rfl

end Srl
