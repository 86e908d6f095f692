import Verif.Lemmas.HTable

/-! # C23, C24, C51 – the hash table -/

namespace Srl.Props

open HTable (Op Ans Cfg Tbl Entry)

variable {K V : Type}

/-- Specification: a finite map; with each key the address of its entry and its value. -/
abbrev Map (K V : Type) := K → Option (Nat × V)

/-- Specification: `es` lists the map, every key once. -/
def Lists (m : Map K V) (es : List (K × V)) : Prop :=
  (es.map (·.1)).Nodup ∧ ∀ k v, (k, v) ∈ es ↔ ∃ a, m k = some (a, v)

def Map.put [DecidableEq K] (m : Map K V) (k : K) (x : Option (Nat × V)) : Map K V :=
  fun k' => if k' = k then x else m k'

/-- Specification: answer and effect of each operation on a map. A new entry gets an address no
entry has; an existing entry keeps its address until it is removed. -/
inductive Allows [DecidableEq K] (m : Map K V) : Op K V → Ans K V → Map K V → Prop
  | insertOld {k v a w} : m k = some (a, w) → Allows m (.insert k v) (.entry true a w) m
  | insertNew {k v a} : m k = none → (∀ k' w, m k' ≠ some (a, w)) →
      Allows m (.insert k v) (.entry false a v) (m.put k (some (a, v)))
  | upsertOld {k v a w} : m k = some (a, w) →
      Allows m (.upsert k v) (.entry true a v) (m.put k (some (a, v)))
  | upsertNew {k v a} : m k = none → (∀ k' w, m k' ≠ some (a, w)) →
      Allows m (.upsert k v) (.entry false a v) (m.put k (some (a, v)))
  | get {k} : Allows m (.get k) (.found (m k)) m
  | modify {k f} : Allows m (.modify k f) .none (m.put k ((m k).map fun (a, v) => (a, f v)))
  | remove {k} : Allows m (.remove k) .none (m.put k none)
  | extract {k} : Allows m (.extract k) (.value ((m k).map (·.2))) (m.put k none)
  | removeIf {p es} : Lists m es →
      Allows m (.removeIf p) (.seen es) (fun k => (m k).filter fun (_, v) => !p k v)
  | foreach {f es} : Lists m es →
      Allows m (.foreach f) (.seen es) (fun k => (m k).map fun (a, v) => (a, f k v))
  | iterate {es} : Lists m es → Allows m .iterate (.seen es) m
  | size {es} : Lists m es → Allows m .size (.num es.length) m
  | clear : Allows m .clear .none (fun _ => none)

/-- Specification: answers of a sequence of operations. -/
inductive Trace [DecidableEq K] : Map K V → List (Op K V) → List (Ans K V) → Prop
  | nil {m} : Trace m [] []
  | cons {m m' o a os as} : Allows m o a m' → Trace m' os as → Trace m (o :: os) (a :: as)

/-- What the table holds. -/
def Abs (t : Tbl K V) (m : Map K V) : Prop :=
  ∀ k a v, m k = some (a, v) ↔ ∃ e ∈ t.es, e.key = k ∧ e.addr = a ∧ e.val = v

private theorem abs_perm {t t' : Tbl K V} {m : Map K V} (h : Abs t m) (hp : t'.es.Perm t.es) :
    Abs t' m := by
  intro k a v
  rw [h k a v]
  constructor
  · rintro ⟨e, he, h⟩; exact ⟨e, hp.mem_iff.mpr he, h⟩
  · rintro ⟨e, he, h⟩; exact ⟨e, hp.mem_iff.mp he, h⟩

private theorem abs_none {t : Tbl K V} {m : Map K V} (h : Abs t m) (k : K) :
    m k = none ↔ ∀ e ∈ t.es, e.key ≠ k := by
  constructor
  · intro hm e he hk
    have := (h k e.addr e.val).mpr ⟨e, he, hk, rfl, rfl⟩
    rw [hm] at this; cases this
  · intro hn
    cases hm : m k with
    | none => rfl
    | some x =>
      obtain ⟨e, he, hk, -⟩ := (h k x.1 x.2).mp hm
      exact absurd hk (hn e he)

theorem lists_of {cfg : Cfg K} {t : Tbl K V} {m : Map K V} (hi : HTable.Inv cfg t)
    (h : Abs t m) : Lists m (t.es.map fun e => (e.key, e.val)) := by
  constructor
  · have := hi.keys
    simpa [List.map_map, Function.comp_def] using this
  · intro k v
    constructor
    · intro hm
      obtain ⟨e, he, hx⟩ := List.mem_map.mp hm
      simp only [Prod.mk.injEq] at hx
      exact ⟨e.addr, (h k e.addr v).mpr ⟨e, he, hx.1, rfl, hx.2⟩⟩
    · rintro ⟨a, ha⟩
      obtain ⟨e, he, hk, -, hv⟩ := (h k a v).mp ha
      exact List.mem_map.mpr ⟨e, he, by rw [hk, hv]⟩

/-- An entry determined by its key. -/
private theorem uniq_key {es : List (Entry K V)} (hn : (es.map (·.key)).Nodup) {x y : Entry K V}
    (hx : x ∈ es) (hy : y ∈ es) (h : x.key = y.key) : x = y := by
  induction es with
  | nil => cases hx
  | cons e es ih =>
    simp only [List.map_cons, List.nodup_cons] at hn
    rcases List.mem_cons.mp hx with h1 | h1 <;> rcases List.mem_cons.mp hy with h2 | h2
    · rw [h1, h2]
    · rw [h1] at h
      exact absurd (List.mem_map.mpr ⟨y, h2, h.symm⟩) hn.1
    · rw [h2] at h
      exact absurd (List.mem_map.mpr ⟨x, h1, h⟩) hn.1
    · exact ih hn.2 h1 h2

variable [DecidableEq K]

/-- Changing the value of one entry. -/
private theorem mid_val {cfg : Cfg K} {t : Tbl K V} {m : Map K V} (hi : HTable.Inv cfg t)
    (ha : Abs t m) {l1 l2 : List (List (Entry K V))} {c1 c2 : List (Entry K V)} {e : Entry K V}
    (ht : t.table = some (l1 ++ (c1 ++ e :: c2) :: l2)) (w : V) :
    let t' : Tbl K V := { t with table := some (l1 ++ (c1 ++ { e with val := w } :: c2) :: l2) }
    HTable.Inv cfg t' ∧ Abs t' (Map.put m e.key (some (e.addr, w))) ∧ m e.key = some (e.addr, e.val) := by
  intro t'
  have hes : t.es = (l1.flatten ++ c1) ++ e :: (c2 ++ l2.flatten) := by
    rw [HTable.es_split ht]; simp
  have hes' : t'.es = (l1.flatten ++ c1) ++ { e with val := w } :: (c2 ++ l2.flatten) := by
    rw [HTable.es_split (t := t') rfl]; simp
  have hmem : e ∈ t.es := by rw [hes]; simp
  have hk := hi.keys
  refine ⟨?_, ?_, (ha _ _ _).mpr ⟨e, hmem, rfl, rfl, rfl⟩⟩
  · constructor
    · intro tb htb
      cases htb
      have := hi.len _ ht
      simpa using this
    · intro tb htb
      cases htb
      refine HTable.home_replace (hi.home _ ht) ?_
      intro x hx
      have hm := HTable.home_mem (hi.home _ ht)
      rcases List.mem_append.mp hx with hx | hx
      · exact hm x (by simp [hx])
      · rcases List.mem_cons.mp hx with rfl | hx
        · exact hm e (by simp)
        · exact hm x (by simp [hx])
    · intro x hx
      rw [hes'] at hx
      rcases List.mem_append.mp hx with hx | hx
      · exact hi.hash x (by rw [hes]; exact List.mem_append_left _ hx)
      · rcases List.mem_cons.mp hx with rfl | hx
        · exact hi.hash e hmem
        · exact hi.hash x (by rw [hes]; exact List.mem_append_right _ (List.mem_cons_of_mem _ hx))
    · show t.elements = _
      rw [hi.cnt, hes, hes']; simp
    · rw [hes'] ; rw [hes] at hk; simpa using hk
    · have := hi.addrs; rw [hes] at this; rw [hes']; simpa using this
    · have := hi.fresh; rw [hes] at this; rw [hes']; simpa using this
    · exact hi.lim0
    · intro _; simp [t']
  · intro k a v
    rw [hes] at hk
    simp only [Map.put]
    by_cases hke : k = e.key
    · rw [if_pos hke]
      constructor
      · intro h
        simp only [Option.some.injEq, Prod.mk.injEq] at h
        refine ⟨{ e with val := w }, by rw [hes']; simp, hke.symm, h.1, h.2⟩
      · rintro ⟨x, hx, h1, h2, h3⟩
        have hx' : x = { e with val := w } := by
          refine uniq_key (es := t'.es) ?_ hx (by rw [hes']; simp) (by simp [h1, hke])
          rw [hes']; simpa using hk
        subst hx'
        simp at h2 h3
        rw [h2, h3]
    · rw [if_neg hke, ha k a v, hes, hes']
      constructor
      · rintro ⟨x, hx, h1, h2⟩
        refine ⟨x, ?_, h1, h2⟩
        rcases List.mem_append.mp hx with hx | hx
        · exact List.mem_append_left _ hx
        · rcases List.mem_cons.mp hx with rfl | hx
          · exact absurd h1.symm hke
          · exact List.mem_append_right _ (List.mem_cons_of_mem _ hx)
      · rintro ⟨x, hx, h1, h2⟩
        refine ⟨x, ?_, h1, h2⟩
        rcases List.mem_append.mp hx with hx | hx
        · exact List.mem_append_left _ hx
        · rcases List.mem_cons.mp hx with rfl | hx
          · exact absurd h1.symm hke
          · exact List.mem_append_right _ (List.mem_cons_of_mem _ hx)

/-- Taking one entry out. -/
private theorem mid_out {cfg : Cfg K} {t : Tbl K V} {m : Map K V} (hi : HTable.Inv cfg t)
    (ha : Abs t m) {l1 l2 : List (List (Entry K V))} {c1 c2 : List (Entry K V)} {e : Entry K V}
    (ht : t.table = some (l1 ++ (c1 ++ e :: c2) :: l2)) :
    let t' : Tbl K V := { t with table := some (l1 ++ (c1 ++ c2) :: l2),
                                 elements := t.elements - 1, cache := e.addr :: t.cache }
    HTable.Inv cfg t' ∧ Abs t' (Map.put m e.key none) ∧ m e.key = some (e.addr, e.val) := by
  intro t'
  have hes : t.es = (l1.flatten ++ c1) ++ e :: (c2 ++ l2.flatten) := by
    rw [HTable.es_split ht]; simp
  have hes' : t'.es = (l1.flatten ++ c1) ++ (c2 ++ l2.flatten) := by
    rw [HTable.es_split (t := t') rfl]; simp
  have hp : t.es.Perm (e :: t'.es) := by rw [hes, hes']; exact List.perm_middle
  have hmem : e ∈ t.es := by rw [hes]; simp
  have hk := hi.keys
  refine ⟨?_, ?_, (ha _ _ _).mpr ⟨e, hmem, rfl, rfl, rfl⟩⟩
  · constructor
    · intro tb htb
      cases htb
      have := hi.len _ ht
      simpa using this
    · intro tb htb
      cases htb
      refine HTable.home_replace (hi.home _ ht) ?_
      intro x hx
      have hm := HTable.home_mem (hi.home _ ht)
      rcases List.mem_append.mp hx with hx | hx
      · exact hm x (by simp [hx])
      · exact hm x (by simp [hx])
    · intro x hx
      exact hi.hash x (hp.mem_iff.mpr (List.mem_cons_of_mem _ hx))
    · show t.elements - 1 = _
      rw [hi.cnt, hp.length_eq]; simp
    · have := (hp.map (·.key)).nodup_iff.mp hk
      exact (List.nodup_cons.mp this).2
    · have h1 := ((hp.map (·.addr)).append_right t.cache).nodup_iff.mp hi.addrs
      have h2 : (t'.es.map (·.addr) ++ e.addr :: t.cache).Perm
          ((e :: t'.es).map (·.addr) ++ t.cache) := List.perm_middle
      exact h2.nodup_iff.mpr h1
    · intro a haa
      refine hi.fresh a ?_
      refine ((hp.map (·.addr)).append_right t.cache).mem_iff.mpr ?_
      have h2 : (t'.es.map (·.addr) ++ e.addr :: t.cache).Perm
          ((e :: t'.es).map (·.addr) ++ t.cache) := List.perm_middle
      exact h2.mem_iff.mp haa
    · intro h0
      have := hi.lim0 h0
      show t.elements - 1 = 0
      omega
    · intro _; simp [t']
  · intro k a v
    have hn := (hp.map (·.key)).nodup_iff.mp hk
    have hnot : ∀ x ∈ t'.es, x.key ≠ e.key := by
      intro x hx h
      exact (List.nodup_cons.mp hn).1 (List.mem_map.mpr ⟨x, hx, h⟩)
    simp only [Map.put]
    by_cases hke : k = e.key
    · rw [if_pos hke]
      constructor
      · intro h; cases h
      · rintro ⟨x, hx, h1, -⟩
        exact absurd (h1.trans hke) (hnot x hx)
    · rw [if_neg hke, ha k a v]
      constructor
      · rintro ⟨x, hx, h1, h2⟩
        rcases List.mem_cons.mp (hp.mem_iff.mp hx) with rfl | hx
        · exact absurd h1.symm hke
        · exact ⟨x, hx, h1, h2⟩
      · rintro ⟨x, hx, h1, h2⟩
        exact ⟨x, hp.mem_iff.mpr (List.mem_cons_of_mem _ hx), h1, h2⟩

/-- Adding one entry. -/
private theorem end_in {cfg : Cfg K} {t : Tbl K V} {m : Map K V} (hi : HTable.Inv cfg t)
    (ha : Abs t m) {l1 l2 : List (List (Entry K V))} {c : List (Entry K V)} {k : K} (v : V)
    (ht : t.table = some (l1 ++ c :: l2)) (hl : t.limit ≠ 0)
    (hb : HTable.bucket t.cap (cfg.hash k) = l1.length)
    (hk : ∀ e ∈ t.es, e.key ≠ k) {a fresh : Nat} {cache : List Nat}
    (hc : (t.cache = a :: cache ∧ fresh = t.fresh) ∨
          (t.cache = [] ∧ cache = [] ∧ a = t.fresh ∧ fresh = t.fresh + 1)) :
    let t' : Tbl K V := { t with table := some (l1 ++ (c ++ [⟨a, cfg.hash k, k, v⟩]) :: l2),
                                 elements := t.elements + 1, cache := cache, fresh := fresh }
    HTable.Inv cfg t' ∧ Abs t' (Map.put m k (some (a, v))) ∧ m k = none ∧
      ∀ k' w, m k' ≠ some (a, w) := by
  intro t'
  let e : Entry K V := ⟨a, cfg.hash k, k, v⟩
  have hes : t.es = (l1.flatten ++ c) ++ l2.flatten := by
    rw [HTable.es_split ht]; simp
  have hes' : t'.es = (l1.flatten ++ c) ++ e :: l2.flatten := by
    rw [HTable.es_split (t := t') rfl]; simp [e]
  have hp : t'.es.Perm (e :: t.es) := by rw [hes, hes']; exact List.perm_middle
  have hfresh : ∀ x ∈ t.es, x.addr ≠ a := by
    intro x hx h
    have hin : x.addr ∈ t.es.map (·.addr) := List.mem_map_of_mem hx
    rcases hc with ⟨h1, -⟩ | ⟨-, -, h3, -⟩
    · have := hi.addrs
      rw [h1] at this
      have := (List.nodup_append.mp this).2.2 x.addr hin a (by simp)
      exact this h
    · have := hi.fresh x.addr (List.mem_append_left _ hin)
      omega
  refine ⟨?_, ?_, (abs_none ha k).mpr hk, ?_⟩
  · constructor
    · intro tb htb
      cases htb
      have := hi.len _ ht
      simpa using this
    · intro tb htb
      cases htb
      refine HTable.home_replace (hi.home _ ht) ?_
      intro x hx
      rcases List.mem_append.mp hx with hx | hx
      · exact HTable.home_mem (hi.home _ ht) x hx
      · simp at hx; subst hx; exact hb
    · intro x hx
      rcases List.mem_cons.mp (hp.mem_iff.mp hx) with rfl | hx
      · rfl
      · exact hi.hash x hx
    · show t.elements + 1 = _
      rw [hi.cnt, hp.length_eq]; simp
    · refine (hp.map (·.key)).nodup_iff.mpr ?_
      refine List.nodup_cons.mpr ⟨?_, hi.keys⟩
      intro h
      obtain ⟨x, hx, hxk⟩ := List.mem_map.mp h
      exact hk x hx hxk
    · refine ((hp.map (·.addr)).append_right cache).nodup_iff.mpr ?_
      rcases hc with ⟨h1, -⟩ | ⟨h1, h2, h3, -⟩
      · have := hi.addrs
        rw [h1] at this
        exact List.perm_middle.nodup_iff.mp this
      · subst h2
        have := hi.addrs
        rw [h1] at this
        simp only [List.append_nil] at this ⊢
        refine List.nodup_cons.mpr ⟨?_, this⟩
        intro h
        obtain ⟨x, hx, hxk⟩ := List.mem_map.mp h
        exact hfresh x hx hxk
    · intro b hb
      have hb := ((hp.map (·.addr)).append_right cache).mem_iff.mp hb
      rcases hc with ⟨h1, h2⟩ | ⟨h1, h2, h3, h4⟩
      · show b < fresh
        rw [h2]
        refine hi.fresh b ?_
        rw [h1]
        exact List.perm_middle.mem_iff.mpr hb
      · show b < fresh
        subst h2
        simp only [List.append_nil, List.map_cons] at hb
        rcases List.mem_cons.mp hb with hb | hb
        · have : b = a := hb
          omega
        · have := hi.fresh b (List.mem_append_left _ hb)
          omega
    · intro h0; exact absurd h0 hl
    · intro _; simp [t']
  · intro k' a' v'
    simp only [Map.put]
    by_cases hke : k' = k
    · rw [if_pos hke]
      constructor
      · intro h
        simp only [Option.some.injEq, Prod.mk.injEq] at h
        exact ⟨e, hp.mem_iff.mpr (List.mem_cons_self), hke.symm, h.1, h.2⟩
      · rintro ⟨x, hx, h1, h2, h3⟩
        rcases List.mem_cons.mp (hp.mem_iff.mp hx) with rfl | hx
        · rw [← h2, ← h3]
        · exact absurd (h1.trans hke) (hk x hx)
    · rw [if_neg hke, ha k' a' v']
      constructor
      · rintro ⟨x, hx, h1, h2⟩
        exact ⟨x, hp.mem_iff.mpr (List.mem_cons_of_mem _ hx), h1, h2⟩
      · rintro ⟨x, hx, h1, h2⟩
        rcases List.mem_cons.mp (hp.mem_iff.mp hx) with rfl | hx
        · exact absurd h1.symm hke
        · exact ⟨x, hx, h1, h2⟩
  · intro k' w h
    obtain ⟨x, hx, -, h2, -⟩ := (ha k' a w).mp h
    exact hfresh x hx h2

theorem insert_spec {cfg : Cfg K} {t : Tbl K V} {m : Map K V} (hi : HTable.Inv cfg t)
    (ha : Abs t m) (upd : Bool) (k : K) (v : V) :
    ∃ t' x a w, HTable.insertHash cfg upd t k v = .ok (t', x, a, w) ∧ HTable.Inv cfg t' ∧
      ((x = false ∧ w = v ∧ m k = none ∧ (∀ k' w, m k' ≠ some (a, w)) ∧
          Abs t' (Map.put m k (some (a, v)))) ∨
       (x = true ∧ upd = false ∧ m k = some (a, w) ∧ Abs t' m) ∨
       (x = true ∧ upd = true ∧ w = v ∧ (∃ w', m k = some (a, w')) ∧
          Abs t' (Map.put m k (some (a, v))))) := by
  obtain ⟨t1, h1, hi1, ha1, hn1, hl1⟩ : ∃ t1,
      HTable.grow cfg t = .ok t1 ∧
      HTable.Inv cfg t1 ∧ Abs t1 m ∧ t1.table ≠ none ∧ t1.limit ≠ 0 := by
    rw [HTable.grow]
    by_cases hc : t.limit < 1 ∨ t.elements ≥ t.limit
    · rw [if_pos hc]
      obtain ⟨t', a, b, c, d, e, -⟩ := HTable.redistribute_spec hi
      exact ⟨t', a, b, abs_perm ha c, d, e⟩
    · rw [if_neg hc]
      have hl : t.limit ≠ 0 := by omega
      exact ⟨t, rfl, hi, ha, hi.lim1 hl, hl⟩
  obtain ⟨l1, c, l2, ht, hb, hat, hh, hin⟩ := HTable.chain_at hi1 hn1 k
  rw [HTable.insertHash, h1, Res.ok_bind]
  simp only [hat, Res.ok_bind]
  rcases HTable.chain_cases k hh with ⟨f, -, -, hne⟩ | ⟨c1, e, c2, rfl, hk, f, -, hput⟩
  · rw [f]
    have hk : ∀ e ∈ t1.es, e.key ≠ k := fun e he hk => hne e (hin e he hk) hk
    cases hcache : t1.cache with
    | cons a cache =>
      obtain ⟨g1, g2, g3, g4⟩ := end_in hi1 ha1 v ht hl1 hb hk (Or.inl ⟨hcache, rfl⟩)
      refine ⟨_, false, a, v, ?_, g1, Or.inl ⟨rfl, rfl, g3, g4, g2⟩⟩
      simp only [ht, Option.map_some, hb, HTable.modify_split]
    | nil =>
      obtain ⟨g1, g2, g3, g4⟩ := end_in hi1 ha1 v ht hl1 hb hk (Or.inr ⟨hcache, rfl, rfl, rfl⟩)
      refine ⟨_, false, t1.fresh, v, ?_, g1, Or.inl ⟨rfl, rfl, g3, g4, g2⟩⟩
      simp only [ht, Option.map_some, hb, HTable.modify_split]
  · rw [f]
    obtain ⟨g1, g2, g3⟩ := mid_val hi1 ha1 ht v
    cases upd with
    | false =>
      refine ⟨t1, true, e.addr, e.val, by simp, hi1, Or.inr (Or.inl ⟨rfl, rfl, hk ▸ g3, ha1⟩)⟩
    | true =>
      refine ⟨_, true, e.addr, v, ?_, g1, Or.inr (Or.inr ⟨rfl, rfl, rfl, ⟨_, hk ▸ g3⟩, hk ▸ g2⟩)⟩
      simp only [ht, Option.map_some, hb, HTable.modify_split, if_true]
      rw [hput]

omit [DecidableEq K] in
private theorem map_ext {m m' : Map K V} {t : Tbl K V} (h : Abs t m) (e : ∀ k, m k = m' k) :
    Abs t m' := by
  intro k a v; rw [← e k]; exact h k a v

private theorem put_self {m : Map K V} {k : K} {x : Option (Nat × V)} (h : m k = x) (k' : K) :
    m k' = Map.put m k x k' := by
  simp only [Map.put]; split
  · rename_i h'; rw [h', h]
  · rfl

omit [DecidableEq K] in
private theorem empty_of {cfg : Cfg K} {t : Tbl K V} {m : Map K V} (hi : HTable.Inv cfg t)
    (ha : Abs t m) (he : t.elements < 1) (k : K) : m k = none := by
  refine (abs_none ha k).mpr ?_
  have : t.es = [] := List.eq_nil_of_length_eq_zero (by rw [← hi.cnt]; omega)
  rw [this]; intro e h; cases h

theorem get_spec {cfg : Cfg K} {t : Tbl K V} {m : Map K V} (hi : HTable.Inv cfg t)
    (ha : Abs t m) (k : K) : HTable.get cfg t k = .ok (m k) := by
  rw [HTable.get]
  by_cases he : t.elements < 1
  · rw [if_pos he, empty_of hi ha he]
  · rw [if_neg he]
    obtain ⟨l1, c, l2, ht, hb, hat, hh, hin⟩ :=
      HTable.chain_at hi (HTable.table_of_elements hi he) k
    rw [hat, Res.ok_bind]
    rcases HTable.chain_cases k hh with ⟨f, -, -, hne⟩ | ⟨c1, e, c2, rfl, hk, f, -, -⟩
    · rw [f, (abs_none ha k).mpr fun e he hk => hne e (hin e he hk) hk]; rfl
    · rw [f]
      obtain ⟨-, -, g⟩ := mid_val hi ha ht e.val
      rw [← hk, g]; rfl

private theorem modify_spec {cfg : Cfg K} {t : Tbl K V} {m : Map K V} (hi : HTable.Inv cfg t)
    (ha : Abs t m) (k : K) (f : V → V) :
    ∃ t', HTable.modify cfg t k f = .ok t' ∧ HTable.Inv cfg t' ∧
      Abs t' (Map.put m k ((m k).map fun (a, v) => (a, f v))) := by
  rw [HTable.modify]
  by_cases he : t.elements < 1
  · rw [if_pos he]
    refine ⟨t, rfl, hi, map_ext ha ?_⟩
    have h0 := empty_of hi ha he k
    exact put_self (by rw [h0]; rfl)
  · rw [if_neg he]
    obtain ⟨l1, c, l2, ht, hb, hat, hh, hin⟩ :=
      HTable.chain_at hi (HTable.table_of_elements hi he) k
    rw [ht]
    have hlt : l1.length < (l1 ++ c :: l2).length := by simp
    simp only [hb]
    rw [if_pos hlt, HTable.modify_split]
    rcases HTable.chain_cases k hh with ⟨-, -, hp, hne⟩ | ⟨c1, e, c2, rfl, hk, -, -, hp⟩
    · rw [hp]
      refine ⟨_, rfl, ?_, ?_⟩
      · rw [← ht]; exact hi
      · rw [← ht]
        have h0 := (abs_none ha k).mpr fun e he hk => hne e (hin e he hk) hk
        exact map_ext ha (put_self (by rw [h0]; rfl))
    · rw [hp]
      obtain ⟨g1, g2, g3⟩ := mid_val hi ha ht (f e.val)
      refine ⟨_, rfl, g1, ?_⟩
      rw [← hk, g3]; exact g2

private theorem extract_spec {cfg : Cfg K} {t : Tbl K V} {m : Map K V} (hi : HTable.Inv cfg t)
    (ha : Abs t m) (k : K) :
    ∃ t', HTable.extract cfg t k = .ok (t', (m k).map (·.2)) ∧ HTable.Inv cfg t' ∧
      Abs t' (Map.put m k none) := by
  rw [HTable.extract]
  by_cases he : t.elements < 1
  · rw [if_pos he]
    have h0 := empty_of hi ha he k
    exact ⟨t, by rw [h0]; rfl, hi, map_ext ha (put_self h0)⟩
  · rw [if_neg he]
    obtain ⟨l1, c, l2, ht, hb, hat, hh, hin⟩ :=
      HTable.chain_at hi (HTable.table_of_elements hi he) k
    simp only [hat, Res.ok_bind]
    rcases HTable.chain_cases k hh with ⟨-, hu, -, hne⟩ | ⟨c1, e, c2, rfl, hk, -, hu, -⟩
    · rw [hu]
      have h0 := (abs_none ha k).mpr fun e he hk => hne e (hin e he hk) hk
      exact ⟨t, by rw [h0]; rfl, hi, map_ext ha (put_self h0)⟩
    · rw [hu]
      obtain ⟨g1, g2, g3⟩ := mid_out hi ha ht
      refine ⟨_, ?_, g1, hk ▸ g2⟩
      rw [← hk, g3]
      simp only [Option.map_some]
      rw [hk, ht, Option.map_some, hb, HTable.set_split]

omit [DecidableEq K] in
private theorem flatten_map_filter (p : Entry K V → Bool) (tb : List (List (Entry K V))) :
    (tb.map (·.filter p)).flatten = tb.flatten.filter p := by
  induction tb with
  | nil => rfl
  | cons c tb ih => simp

omit [DecidableEq K] in
private theorem flatten_map_map (g : Entry K V → Entry K V) (tb : List (List (Entry K V))) :
    (tb.map (·.map g)).flatten = tb.flatten.map g := by
  induction tb with
  | nil => rfl
  | cons c tb ih => simp

omit [DecidableEq K] in
private theorem removeIf_spec {cfg : Cfg K} {t : Tbl K V} {m : Map K V} (hi : HTable.Inv cfg t)
    (ha : Abs t m) (p : K → V → Bool) :
    ∃ t', HTable.removeIf t p = .ok (t', t.es) ∧ HTable.Inv cfg t' ∧
      Abs t' (fun k => (m k).filter fun (_, v) => !p k v) := by
  rw [HTable.removeIf]
  by_cases he : t.elements < 1
  · rw [if_pos he]
    have hes : t.es = [] := List.eq_nil_of_length_eq_zero (by rw [← hi.cnt]; omega)
    refine ⟨t, by rw [hes], hi, ?_⟩
    have h0 : ∀ k, m k = none := fun k => (abs_none ha k).mpr (by rw [hes]; intro e h; cases h)
    intro k a v
    rw [← ha k a v]; simp [h0 k]
  · rw [if_neg he]
    obtain ⟨tb, ht⟩ := Option.ne_none_iff_exists'.mp (HTable.table_of_elements hi he)
    have hes : t.es = tb.flatten := by simp [Tbl.es, ht]
    rw [ht]
    simp only
    rw [HTable.rmLoop_eq p t.elements tb 0 (by rw [hi.cnt, hes]; simp)]
    let t' : Tbl K V := { t with
      table := some (tb.map (·.filter fun e => !p e.key e.val)),
      elements := t.elements - (tb.flatten.filter fun e => p e.key e.val).length,
      cache := ((tb.flatten.filter fun e => p e.key e.val).map (·.addr)).reverse ++ t.cache }
    have hes' : t'.es = t.es.filter fun e => !p e.key e.val := by
      show ((some (tb.map _)).getD []).flatten = _
      rw [Option.getD_some, flatten_map_filter, hes]
    refine ⟨t', by rw [hes], ?_, ?_⟩
    · have hperm : (t'.es.map (·.addr) ++ t'.cache).Perm (t.es.map (·.addr) ++ t.cache) := by
        rw [hes']
        show ((t.es.filter _).map _ ++ (((tb.flatten.filter _).map _).reverse ++ t.cache)).Perm _
        rw [← hes, ← List.append_assoc]
        refine List.Perm.append_right _ ?_
        refine ((List.reverse_perm _).append_left _).trans ?_
        rw [← List.map_append]
        refine List.Perm.map _ ?_
        have := List.filter_append_perm (fun e : Entry K V => !p e.key e.val) t.es
        simpa using this
      constructor
      · intro tb' h'; cases h'
        have := hi.len _ ht
        simpa using this
      · intro tb' h'; cases h'
        intro i c hc x hx
        rw [List.getElem?_map] at hc
        obtain ⟨c0, hc0, rfl⟩ := Option.map_eq_some_iff.mp hc
        exact hi.home _ ht i c0 hc0 x (List.mem_filter.mp hx).1
      · intro x hx
        rw [hes'] at hx
        exact hi.hash x (List.mem_filter.mp hx).1
      · show t.elements - _ = _
        rw [hi.cnt, hes', ← hes]
        have := (List.filter_append_perm (fun e : Entry K V => p e.key e.val) t.es).length_eq
        simp only [List.length_append] at this
        omega
      · rw [hes']
        exact hi.keys.sublist (List.Sublist.map _ List.filter_sublist)
      · exact hperm.nodup_iff.mpr hi.addrs
      · intro a h; exact hi.fresh a (hperm.mem_iff.mp h)
      · intro h0
        have := hi.lim0 h0
        show t.elements - _ = 0
        omega
      · intro _; simp [t']
    · intro k a v
      rw [Option.filter_eq_some_iff, ha k a v, hes']
      constructor
      · rintro ⟨⟨x, hx, rfl, rfl, rfl⟩, hp⟩
        exact ⟨x, List.mem_filter.mpr ⟨hx, hp⟩, rfl, rfl, rfl⟩
      · rintro ⟨x, hx, rfl, rfl, rfl⟩
        have := List.mem_filter.mp hx
        exact ⟨⟨x, this.1, rfl, rfl, rfl⟩, this.2⟩

omit [DecidableEq K] in
private theorem foreach_spec {cfg : Cfg K} {t : Tbl K V} {m : Map K V} (hi : HTable.Inv cfg t)
    (ha : Abs t m) (f : K → V → V) :
    ∃ t', HTable.foreach t f = .ok (t', t.es) ∧ HTable.Inv cfg t' ∧
      Abs t' (fun k => (m k).map fun (a, v) => (a, f k v)) := by
  rw [HTable.foreach]
  by_cases he : t.elements < 1
  · rw [if_pos he]
    have hes : t.es = [] := List.eq_nil_of_length_eq_zero (by rw [← hi.cnt]; omega)
    refine ⟨t, by rw [hes], hi, ?_⟩
    have h0 : ∀ k, m k = none := fun k => (abs_none ha k).mpr (by rw [hes]; intro e h; cases h)
    intro k a v
    rw [← ha k a v]; simp [h0 k]
  · rw [if_neg he]
    obtain ⟨tb, ht⟩ := Option.ne_none_iff_exists'.mp (HTable.table_of_elements hi he)
    have hes : t.es = tb.flatten := by simp [Tbl.es, ht]
    rw [ht]
    simp only
    rw [HTable.forLoop_eq f t.elements tb 0 (by rw [hi.cnt, hes]; simp)]
    let g : Entry K V → Entry K V := fun e => { e with val := f e.key e.val }
    let t' : Tbl K V := { t with table := some (tb.map (·.map g)) }
    have hes' : t'.es = t.es.map g := by
      show ((some (tb.map _)).getD []).flatten = _
      rw [Option.getD_some, flatten_map_map, hes]
    refine ⟨t', by rw [hes], ?_, ?_⟩
    · constructor
      · intro tb' h'; cases h'
        have := hi.len _ ht
        simpa using this
      · intro tb' h'; cases h'
        intro i c hc x hx
        rw [List.getElem?_map] at hc
        obtain ⟨c0, hc0, rfl⟩ := Option.map_eq_some_iff.mp hc
        obtain ⟨y, hy, rfl⟩ := List.mem_map.mp hx
        exact hi.home _ ht i c0 hc0 y hy
      · intro x hx
        rw [hes'] at hx
        obtain ⟨y, hy, rfl⟩ := List.mem_map.mp hx
        exact hi.hash y hy
      · show t.elements = _
        rw [hi.cnt, hes']; simp
      · rw [hes', List.map_map]; exact hi.keys
      · rw [hes', List.map_map]; exact hi.addrs
      · rw [hes', List.map_map]; exact hi.fresh
      · exact hi.lim0
      · intro _; simp [t']
    · intro k a v
      rw [Option.map_eq_some_iff, hes']
      constructor
      · rintro ⟨⟨a', v'⟩, h, hx⟩
        obtain ⟨x, hx', rfl, rfl, rfl⟩ := (ha k a' v').mp h
        simp only [Prod.mk.injEq] at hx
        exact ⟨g x, List.mem_map_of_mem hx', rfl, hx.1, hx.2⟩
      · rintro ⟨x, hx, rfl, rfl, rfl⟩
        obtain ⟨y, hy, rfl⟩ := List.mem_map.mp hx
        exact ⟨(y.addr, y.val), (ha _ _ _).mpr ⟨y, hy, rfl, rfl, rfl⟩, rfl⟩

omit [DecidableEq K] in
theorem clear_spec {cfg : Cfg K} {t : Tbl K V} {m : Map K V} (hi : HTable.Inv cfg t)
    (_ : Abs t m) : HTable.Inv cfg (HTable.clear t) ∧ Abs (HTable.clear t) (fun _ => none) := by
  rw [HTable.clear]
  by_cases he : t.elements < 1
  · rw [if_pos he]
    refine ⟨hi, ?_⟩
    have hes : t.es = [] := List.eq_nil_of_length_eq_zero (by rw [← hi.cnt]; omega)
    intro k a v
    rw [hes]; simp
  · rw [if_neg he]
    obtain ⟨tb, ht⟩ := Option.ne_none_iff_exists'.mp (HTable.table_of_elements hi he)
    rw [ht, Option.map_some]
    let t' : Tbl K V := { t with table := some (tb.map fun _ => []), cache := [],
                                 elements := 0, limit := 0 }
    have hes' : t'.es = [] := by simp [Tbl.es, t']
    show HTable.Inv cfg t' ∧ Abs t' _
    refine ⟨?_, ?_⟩
    · constructor
      · intro tb' h'; cases h'
        have := hi.len _ ht
        simpa using this
      · intro tb' h'; cases h'
        intro i c hc x hx
        rw [List.getElem?_map] at hc
        obtain ⟨c0, hc0, rfl⟩ := Option.map_eq_some_iff.mp hc
        cases hx
      · intro x hx; rw [hes'] at hx; cases hx
      · rw [hes']; rfl
      · rw [hes']; exact List.nodup_nil
      · rw [hes']; exact List.nodup_nil
      · rw [hes']; intro a h; cases h
      · intro _; rfl
      · intro h; exact absurd rfl h
    · intro k a v
      rw [hes']; simp

theorem htable_step_spec {cfg : Cfg K} {t : Tbl K V} {m : Map K V} (hi : HTable.Inv cfg t)
    (ha : Abs t m) (o : Op K V) :
    ∃ t' a m', HTable.step cfg t o = .ok (t', a) ∧ Allows m o a m' ∧ HTable.Inv cfg t' ∧
      Abs t' m' := by
  cases o with
  | insert k v =>
    obtain ⟨t', x, a, w, h, hi', hc⟩ := insert_spec hi ha false k v
    rcases hc with ⟨rfl, rfl, h1, h2, h3⟩ | ⟨rfl, -, h1, h2⟩ | ⟨-, h, -⟩
    · exact ⟨t', _, _, by simp [HTable.step, HTable.insert, h], .insertNew h1 h2, hi', h3⟩
    · exact ⟨t', _, _, by simp [HTable.step, HTable.insert, h], .insertOld h1, hi', h2⟩
    · cases h
  | upsert k v =>
    obtain ⟨t', x, a, w, h, hi', hc⟩ := insert_spec hi ha true k v
    rcases hc with ⟨rfl, rfl, h1, h2, h3⟩ | ⟨-, h, -⟩ | ⟨rfl, -, rfl, ⟨w', h1⟩, h2⟩
    · exact ⟨t', _, _, by simp [HTable.step, HTable.upsert, h], .upsertNew h1 h2, hi', h3⟩
    · cases h
    · exact ⟨t', _, _, by simp [HTable.step, HTable.upsert, h], .upsertOld h1, hi', h2⟩
  | get k => exact ⟨t, _, m, by simp [HTable.step, get_spec hi ha k], .get, hi, ha⟩
  | modify k f =>
    obtain ⟨t', h, hi', ha'⟩ := modify_spec hi ha k f
    exact ⟨t', _, _, by simp [HTable.step, h], .modify, hi', ha'⟩
  | remove k =>
    obtain ⟨t', h, hi', ha'⟩ := extract_spec hi ha k
    exact ⟨t', _, _, by simp [HTable.step, HTable.remove, h], .remove, hi', ha'⟩
  | extract k =>
    obtain ⟨t', h, hi', ha'⟩ := extract_spec hi ha k
    exact ⟨t', _, _, by simp [HTable.step, h], .extract, hi', ha'⟩
  | removeIf p =>
    obtain ⟨t', h, hi', ha'⟩ := removeIf_spec hi ha p
    exact ⟨t', _, _, by simp [HTable.step, h], .removeIf (lists_of hi ha), hi', ha'⟩
  | foreach f =>
    obtain ⟨t', h, hi', ha'⟩ := foreach_spec hi ha f
    exact ⟨t', _, _, by simp [HTable.step, h], .foreach (lists_of hi ha), hi', ha'⟩
  | iterate =>
    exact ⟨t, _, m, by simp [HTable.step, HTable.iterate_eq hi], .iterate (lists_of hi ha), hi, ha⟩
  | size =>
    refine ⟨t, .num (t.es.map fun e => (e.key, e.val)).length, m, ?_, .size (lists_of hi ha), hi, ha⟩
    simp only [HTable.step, hi.cnt, List.length_map]
  | clear =>
    obtain ⟨hi', ha'⟩ := clear_spec hi ha
    exact ⟨_, _, _, rfl, .clear, hi', ha'⟩

private theorem run_spec {cfg : Cfg K} (os : List (Op K V)) : ∀ {t : Tbl K V} {m : Map K V},
    HTable.Inv cfg t → Abs t m → ∃ t' as, HTable.run cfg t os = .ok (t', as) ∧ Trace m os as := by
  induction os with
  | nil => intro t m _ _; exact ⟨t, [], rfl, .nil⟩
  | cons o os ih =>
    intro t m hi ha
    obtain ⟨t1, a, m1, h1, h2, h3, h4⟩ := htable_step_spec hi ha o
    obtain ⟨t2, as, h5, h6⟩ := ih h3 h4
    exact ⟨t2, a :: as, by simp [HTable.run, h1, h5], .cons h2 h6⟩

omit [DecidableEq K] in
/-- An empty table meets the invariant and holds nothing. -/
theorem new_inv (cfg : Cfg K) (buckets : Nat) : HTable.Inv cfg (HTable.new buckets : Tbl K V) ∧
    Abs (HTable.new buckets : Tbl K V) (fun _ => none) := by
  refine ⟨?_, ?_⟩
  · constructor
    · intro tb h; cases h
    · intro tb h; cases h
    · intro e h; simp [Tbl.es, HTable.new] at h
    · simp [Tbl.es, HTable.new]
    · simp [Tbl.es, HTable.new]
    · simp [Tbl.es, HTable.new]
    · simp [Tbl.es, HTable.new]
    · intro _; rfl
    · intro h; exact absurd rfl h
  · intro k a v; simp [Tbl.es, HTable.new]

/-- C23, C24, C51: whatever the hash function, the number of buckets and the load factor, any
sequence of operations on a new table succeeds and its answers are those of a finite map: lookups
see the last value stored, `insert` keeps an existing entry, `foreach`, `remove_if` and the
iterators see every entry once, `num_entries` is their number, and the address of an entry stays
the same until it is removed and is shared with no other entry. -/
theorem htable_map (cfg : Cfg K) (buckets : Nat) (os : List (Op K V)) :
    ∃ t as, HTable.run cfg (HTable.new buckets) os = .ok (t, as) ∧ Trace (fun _ => none) os as := by
  exact run_spec os (new_inv cfg buckets).1 (new_inv cfg buckets).2

/-- Two keys in one bucket of a table that grows, loses an entry and gets a new one. -/
example : HTable.run (K := Nat) (V := Nat) ⟨fun _ => 7, fun _ => 0⟩ (HTable.new 0)
    ((List.range 12).map (fun i => .insert i (i * i)) ++
      [.extract 3, .insert 20 5, .insert 20 6, .upsert 1 8, .get 1, .get 3, .get 20, .size,
       .removeIf (fun k _ => k ≥ 2), .iterate, .clear, .iterate, .get 1]) =
    .ok (⟨2, 0, 0, some [[], []], [], 12⟩,
      (List.range 12).map (fun i => .entry false i (i * i)) ++
      [.value (some 9), .entry false 3 5, .entry true 3 5, .entry true 1 8, .found (some (1, 8)),
       .found none, .found (some (3, 5)), .num 12,
       .seen [(0, 0), (1, 8), (2, 4), (4, 16), (5, 25), (6, 36), (7, 49), (8, 64), (9, 81),
              (10, 100), (11, 121), (20, 5)],
       .seen [(0, 0), (1, 8)], .none, .seen [], .found none]) := by
  decide +kernel

end Srl.Props
