import Verif.Model.Cost
import Verif.Props.HTable
import Verif.Props.MemorySpec
import Verif.Props.TimeSpec

/-! # Helper lemmas about what is done for names -/

namespace Srl.Cost
open HTable Props

/-! ## Reading with the table is storing the names one after the other -/

/-- Storing names one after the other -/
def storeAll : Strs → List Bytes → Res (Strs × Nat)
  | t, [] => .ok (t, 0)
  | t, nm :: l => do
    let (t, a) ← storeString t nm
    let (t, b) ← storeAll t l
    .ok (t, a + b)

theorem storeAll_append {t t1 t2 : Strs} {a b : Nat} {xs ys : List Bytes} (h1 : storeAll t xs = .ok (t1, a))
    (h2 : storeAll t1 ys = .ok (t2, b)) : storeAll t (xs ++ ys) = .ok (t2, a + b) := by
  induction xs generalizing t a with
  | nil => cases h1; simpa using h2
  | cons x xs ih =>
    simp only [storeAll, Res.bind_eq_ok] at h1
    obtain ⟨⟨t', c⟩, g1, ⟨t'', d⟩, g2, g3⟩ := h1
    cases g3
    simp only [List.cons_append, storeAll, g1, Res.ok_bind, ih g2]
    rw [Nat.add_assoc]

theorem storeAll_split {t t2 : Strs} {c : Nat} {xs ys : List Bytes} (h : storeAll t (xs ++ ys) = .ok (t2, c)) :
    ∃ t1 a b, storeAll t xs = .ok (t1, a) ∧ storeAll t1 ys = .ok (t2, b) ∧ c = a + b := by
  induction xs generalizing t c with
  | nil => exact ⟨t, 0, c, rfl, h, by omega⟩
  | cons x xs ih =>
    simp only [List.cons_append, storeAll, Res.bind_eq_ok] at h
    obtain ⟨⟨t', d⟩, g1, ⟨t'', e⟩, g2, g3⟩ := h
    cases g3
    obtain ⟨t1, a, b, k1, k2, rfl⟩ := ih g2
    exact ⟨t1, d + a, b, by simp [storeAll, g1, k1], k2, by omega⟩

variable {σ : Type}

theorem readScope_counted (read : σ → Res (Event × σ)) : ∀ (fuel depth : Nat) (s s' : σ) (vs : List (Bytes × Val))
    (ns : List (Bytes × Node)), Doc.readScope read fuel depth s = .ok ((vs, ns), s') →
    ∃ xs : List Bytes, xs.Perm (vs.map (·.1) ++ Room.namesL ns) ∧ NamesRead read 0 s xs ∧
      (∀ d ys, NamesRead read d s' ys → NamesRead read (d + 1) s (xs ++ ys)) ∧ ∀ t n t' k, storeAll t xs = .ok (t', k) →
      Doc.readScope (counted read) fuel depth (s, t, n) =
        .ok ((vs, ns), (s', t', n + k + (vs.length + (Node.eventsL ns).length + 1)))
  | 0, _, _, _, _, _, h => by cases h
  | fuel + 1, depth, s, s', vs, ns, h => by
    simp only [Doc.readScope, Res.bind_eq_ok] at h
    obtain ⟨⟨e, s1⟩, h1, h2⟩ := h
    obtain ⟨name, tok⟩ := e
    cases tok with
    | scopeEnd =>
      cases h2
      refine ⟨[], by simp [Room.namesL], .done _ _ _ h1, fun d ys hy => .close _ _ _ _ _ h1 hy, fun t n t' k hk => ?_⟩
      cases hk
      simp only [Doc.readScope, counted, h1, Res.ok_bind, Node.eventsL]
      rfl
    | val v =>
      simp only [Res.bind_eq_ok] at h2
      obtain ⟨⟨⟨vs1, ns1⟩, s2⟩, h3, h4⟩ := h2
      cases h4
      obtain ⟨xs, hp, o1, o2, hx⟩ := readScope_counted read fuel depth _ _ _ _ h3
      refine ⟨name :: xs, by simpa using hp, .val _ _ _ _ _ _ h1 o1, fun d ys hy => .val _ _ _ _ _ _ h1 (o2 d ys hy),
        fun t n t' k hk => ?_⟩
      simp only [storeAll, Res.bind_eq_ok] at hk
      obtain ⟨⟨t1, a⟩, g1, ⟨t2, b⟩, g2, g3⟩ := hk
      cases g3
      simp only [Doc.readScope, counted, h1, Res.ok_bind, g1, hx _ _ _ _ g2, List.length_cons]
      congr 4
      show _ = _
      omega
    | scope ty =>
      simp only at h2
      by_cases hd : depth + 1 > maxDepth
      · rw [if_pos hd] at h2; cases h2
      rw [if_neg hd] at h2
      simp only [Res.bind_eq_ok] at h2
      obtain ⟨⟨⟨vs1, ns1⟩, s2⟩, h3, ⟨⟨vs2, ns2⟩, s3⟩, h4, h5⟩ := h2
      cases h5
      obtain ⟨xs, hp, -, o2, hx⟩ := readScope_counted read fuel (depth + 1) s1 s2 vs1 ns1 h3
      obtain ⟨ys, hq, o3, o4, hy⟩ := readScope_counted read fuel depth _ _ _ _ h4
      refine ⟨name :: (xs ++ ys), ?_, .scope _ _ _ _ _ _ h1 (o2 _ _ o3), fun d zs hz => ?_, fun t n t' k hk => ?_⟩
      · have h6 := (hp.append hq).cons name
        refine h6.trans ?_
        simp only [Room.namesL, Room.names]
        refine List.Perm.symm ?_
        have a := List.perm_middle (a := name) (l₁ := vs2.map (·.1)) (l₂ := (vs1.map (·.1) ++ Room.namesL ns1) ++ Room.namesL ns2)
        refine a.trans (List.Perm.cons _ ?_)
        exact List.perm_append_comm_assoc _ _ _
      · have := o2 _ _ (o4 d zs hz)
        rw [← List.append_assoc] at this
        exact .scope _ _ _ _ _ _ h1 this
      · simp only [storeAll, Res.bind_eq_ok] at hk
        obtain ⟨⟨t1, a⟩, g1, ⟨t2, b⟩, g2, g3⟩ := hk
        cases g3
        obtain ⟨t3, b1, b2, k1, k2, rfl⟩ := storeAll_split g2
        simp only [Doc.readScope, counted, h1, Res.ok_bind, g1, if_neg hd, hx _ _ _ _ k1, hy _ _ _ _ k2]
        congr 4
        simp only [Node.eventsL, Node.events, List.length_cons, List.length_append, List.length_map, List.length_nil]
        omega

theorem load_counted (read : σ → Res (Event × σ)) (fuel : Nat) (s s' : σ) (r : Root) (h : Doc.load read fuel s = .ok (r, s')) :
    ∃ xs : List Bytes, xs.Perm (r.name :: Room.names r.node) ∧ DocNames read s xs ∧ ∀ t' k, storeAll (HTable.new 64) xs = .ok (t', k) →
      load read fuel s = .ok (r, k + (r.node.events r.name).length) := by
  simp only [Doc.load, Res.bind_eq_ok] at h
  obtain ⟨⟨e, s1⟩, h1, h2⟩ := h
  obtain ⟨name, tok⟩ := e
  cases tok with
  | scopeEnd => cases h2
  | val v => cases h2
  | scope ty =>
    simp only [Res.bind_eq_ok] at h2
    obtain ⟨⟨⟨vs, ns⟩, s2⟩, h3, h4⟩ := h2
    cases h4
    obtain ⟨xs, hp, o1, -, hx⟩ := readScope_counted read fuel 0 _ _ _ _ h3
    refine ⟨name :: xs, by simpa [Room.names] using hp, ⟨_, _, _, _, h1, o1, rfl⟩, fun t' k hk => ?_⟩
    simp only [storeAll, Res.bind_eq_ok] at hk
    obtain ⟨⟨t1, a⟩, g1, ⟨t2, b⟩, g2, g3⟩ := hk
    cases g3
    simp only [load, Doc.load, counted, h1, Res.ok_bind, g1, hx _ _ _ _ g2]
    congr 2
    simp only [Node.events, List.length_cons, List.length_append, List.length_map, List.length_nil]
    omega

/-! ## How long chains are -/

section
variable {K V : Type}

theorem chain_eq {cfg : Cfg K} {t : Tbl K V} (h : Inv cfg t) (ht : t.table ≠ none) (k : K) :
    ∃ l1 l2, t.table = some (l1 ++ chain t (cfg.hash k) :: l2) ∧ bucket t.cap (cfg.hash k) = l1.length := by
  obtain ⟨l1, c, l2, h1, h2, _⟩ := chain_at h ht k
  have : chain t (cfg.hash k) = c := by simp [chain, h1, h2]
  rw [this]
  exact ⟨l1, l2, h1, h2⟩

theorem look_le [DecidableEq K] (h : UInt64) (k : K) (c : List (Entry K V)) : look h k c ≤ c.length := by
  induction c with
  | nil => simp [look]
  | cons e c ih => rw [look, List.length_cons]; split <;> omega

theorem look_miss [DecidableEq K] (h : UInt64) (k : K) (c : List (Entry K V)) (hc : ∀ e ∈ c, e.key ≠ k) :
    look h k c = c.length := by
  induction c with
  | nil => rfl
  | cons e c ih =>
    have : hit h k e = false := by simp [hit, hc e (by simp)]
    rw [look, this, ih fun x hx => hc x (by simp [hx])]
    simp
end

/-- At most `L` of the texts are in one bucket, in tables with at least `N` of them. -/
def Few (P : Bytes → Prop) (N L : Nat) : Prop :=
  ∀ (j b : Nat) (ys : List Bytes), N ≤ 64 * 2 ^ j → ys.Nodup → (∀ y ∈ ys, P y ∧ bucket (64 * 2 ^ j) (names.hash y) = b) → ys.length ≤ L

variable {V : Type}

/-- What holds of a table of names that began with `c` places -/
structure Good (c : Nat) (t : Tbl Bytes V) (m : Map Bytes V) : Prop where
  inv : Inv names t
  abs : Abs t m
  start : ∃ j, c = 64 * 2 ^ j
  room : (t.limit = 0 ∧ t.cap = c) ∨ (t.limit = t.cap ∧ t.elements ≤ t.cap ∧ (∃ j, t.cap = 64 * 2 ^ j) ∧
    (t.cap = c ∨ t.cap ≤ 2 * t.elements))

def Keys (P : Bytes → Prop) (t : Tbl Bytes V) : Prop := ∀ e ∈ t.es, P e.key

theorem chain_few {P : Bytes → Prop} {N L : Nat} (hL : Few P N L) {t : Tbl Bytes V} (h : Inv names t) (ht : t.table ≠ none)
    (hN : N ≤ t.cap) (hj : ∃ j, t.cap = 64 * 2 ^ j) (hk : Keys P t) (k : Bytes) : (chain t (names.hash k)).length ≤ L := by
  obtain ⟨l1, l2, h1, h2⟩ := chain_eq h ht k
  obtain ⟨j, hj⟩ := hj
  have hes := es_split h1
  have := hL j l1.length ((chain t (names.hash k)).map (·.key)) (by rw [← hj]; exact hN) ?_ ?_
  · simpa using this
  · have := h.keys
    rw [hes, List.map_append, List.map_append] at this
    exact (List.nodup_append.mp (List.nodup_append.mp this).2.1).1
  · intro y hy
    obtain ⟨e, he, rfl⟩ := List.mem_map.mp hy
    have hm : e ∈ t.es := by rw [hes]; simp [he]
    refine ⟨hk e hm, ?_⟩
    rw [← h.hash e hm, ← hj]
    exact home_mem (h.home _ h1) e he

theorem relinkSteps_le {P : Bytes → Prop} {N L : Nat} (hL : Few P N L) (j : Nat) (hN : N ≤ 64 * 2 ^ j) : ∀ (es : List (Entry Bytes V))
    (nt : List (List (Entry Bytes V))), nt.length = 64 * 2 ^ j → Home (64 * 2 ^ j) nt →
    ((nt.flatten ++ es).map (·.key)).Nodup → (∀ e ∈ nt.flatten ++ es, e.hash = names.hash e.key ∧ P e.key) →
    relinkSteps (64 * 2 ^ j) es nt ≤ (1 + L) * es.length
  | [], _, _, _, _, _ => by simp [relinkSteps]
  | e :: es, nt, h1, h2, h3, h4 => by
    have hpos : 0 < 64 * 2 ^ j := by have := Nat.two_pow_pos j; omega
    obtain ⟨g1, g2, g3⟩ := relink_perm hpos nt e h1 h2
    have g4 : ((relink (64 * 2 ^ j) nt e).flatten ++ es).Perm (nt.flatten ++ e :: es) := by
      have := g3.append_right es
      simpa using this
    have ih := relinkSteps_le hL j hN es _ g1 g2 (((g4.map (·.key)).nodup_iff).mpr h3) fun x hx => h4 x (g4.mem_iff.mp hx)
    have hc : (nt[bucket (64 * 2 ^ j) e.hash]?.getD []).length ≤ L := by
      obtain ⟨c, hc⟩ : ∃ c, nt[bucket (64 * 2 ^ j) e.hash]? = some c :=
        ⟨_, List.getElem?_eq_getElem (by rw [h1]; exact bucket_lt hpos _)⟩
      obtain ⟨l1, l2, rfl, hl⟩ := split_at hc
      rw [hc, Option.getD_some]
      have := hL j l1.length (c.map (·.key)) hN ?_ ?_
      · simpa using this
      · simp only [List.flatten_append, List.flatten_cons, List.append_assoc, List.map_append] at h3
        exact (List.nodup_append.mp (List.nodup_append.mp h3).2.1).1
      · intro y hy
        obtain ⟨x, hx, rfl⟩ := List.mem_map.mp hy
        have h5 := h4 x (by simp [hx])
        refine ⟨h5.2, ?_⟩
        rw [← h5.1]
        exact home_mem h2 x hx
    rw [relinkSteps, List.length_cons, Nat.mul_succ]
    omega

/-- What has been done to enlarge the table is accounted for by its size. -/
def pot (L : Nat) (t : Tbl Bytes V) : Nat := if t.limit = 0 then 0 else (4 + L) * t.cap

theorem grow_good {P : Bytes → Prop} {L c : Nat} {t : Tbl Bytes V} (hL : Few P t.elements L) {m : Map Bytes V}
    (h : Good c t m) (hk : Keys P t) : ∃ t1, grow names t = .ok t1 ∧ Good c t1 m ∧ Keys P t1 ∧ t1.table ≠ none ∧ t1.limit ≠ 0 ∧
      t1.elements = t.elements ∧ t1.elements < t1.cap ∧
      (if t.limit < 1 ∨ t.elements ≥ t.limit then redistributeSteps names t else 0) + pot L t ≤ pot L t1 := by
  by_cases hc : t.limit < 1 ∨ t.elements ≥ t.limit
  · rw [grow, if_pos hc, if_pos hc]
    obtain ⟨t1, g1, g2, g3, g4, g5, -, -⟩ := redistribute_spec h.inv
    have ga : Abs t1 m := by
      intro k a v
      rw [h.abs k a v]
      constructor
      · rintro ⟨e, he, h⟩; exact ⟨e, g3.mem_iff.mpr he, h⟩
      · rintro ⟨e, he, h⟩; exact ⟨e, g3.mem_iff.mp he, h⟩
    have ge : t1.elements = t.elements := by rw [g2.cnt, h.inv.cnt, g3.length_eq]
    rcases h.room with ⟨r1, r2⟩ | ⟨r1, r2, ⟨j, r3⟩, r4⟩
    · have he : t.elements = 0 := h.inv.lim0 r1
      obtain ⟨j0, hj0⟩ := h.start
      have hp := Nat.two_pow_pos j0
      have gd : t1.cap = c ∧ t1.limit = c := by
        rw [redistribute, if_pos r1] at g1
        cases g1
        simp only [setCapacity, r2, he, names, id]
        omega
      refine ⟨t1, g1, ⟨g2, ga, h.start, .inr ⟨by rw [gd.1, gd.2], by omega, ⟨j0, by rw [gd.1, hj0]⟩, .inl gd.1⟩⟩,
        fun e h => hk e (g3.mem_iff.mp h), g4, g5, ge, by omega, ?_⟩
      rw [redistributeSteps, if_pos r1, pot, if_pos r1, pot, if_neg g5, gd.1, Nat.add_mul]
      simp only [setCapacity, r2]
      omega
    · have hpos := Nat.two_pow_pos j
      have r0 : t.limit ≠ 0 := by omega
      obtain ⟨tb, htb⟩ := Option.ne_none_iff_exists'.mp (h.inv.lim1 r0)
      have hE : t.elements = t.cap := by omega
      have gd : t1.cap = 2 * t.cap ∧ t1.limit = 2 * t.cap := by
        rw [redistribute, if_neg r0, htb] at g1
        cases g1
        simp only [setCapacity, names, id]
        omega
      refine ⟨t1, g1, ⟨g2, ga, h.start, .inr ⟨by rw [gd.1, gd.2], by omega, ⟨j + 1, by rw [gd.1, r3, Nat.pow_succ]; omega⟩,
        .inr (by omega)⟩⟩, fun e h => hk e (g3.mem_iff.mp h), g4, g5, ge, by omega, ?_⟩
      have hes : t.es = tb.flatten := by simp [Tbl.es, htb]
      have hcap : (setCapacity names t (t.cap * 2)).cap = 64 * 2 ^ (j + 1) := by
        simp only [setCapacity]
        rw [r3, Nat.pow_succ]; omega
      have hr := relinkSteps_le hL (j + 1) (by rw [Nat.pow_succ]; omega) tb.flatten (List.replicate (64 * 2 ^ (j + 1)) []) (by simp) (home_empty _)
        (by rw [flatten_replicate_nil, List.nil_append, ← hes]; exact h.inv.keys)
        (by
          rw [flatten_replicate_nil, List.nil_append, ← hes]
          exact fun e he => ⟨h.inv.hash e he, hk e he⟩)
      have hn : tb.flatten.length = t.cap := by rw [← hes, ← h.inv.cnt, hE]
      rw [hn] at hr
      rw [redistributeSteps, if_neg r0, pot, if_neg r0, pot, if_neg g5, gd.1, htb]
      simp only [hcap, Option.getD_some]
      have e1 : 64 * 2 ^ (j + 1) = 2 * t.cap := by rw [r3, Nat.pow_succ]; omega
      have e2 : (4 + L) * (2 * t.cap) = (4 + L) * t.cap + (4 + L) * t.cap := by rw [Nat.two_mul, Nat.mul_add]
      have e3 : (4 + L) * t.cap = 3 * t.cap + (1 + L) * t.cap := by rw [← Nat.add_mul]; congr 1; omega
      omega
  · rw [grow, if_neg hc, if_neg hc]
    have hl : t.limit ≠ 0 := by omega
    rcases h.room with ⟨r1, r2⟩ | ⟨r1, r2, r3, r4⟩
    · exact absurd r1 hl
    exact ⟨t, rfl, h, hk, h.inv.lim1 hl, hl, rfl, by omega, by omega⟩

theorem insert_keeps {K W : Type} [DecidableEq K] {cfg : Cfg K} {upd : Bool} {t t1 t' : Tbl K W} {k : K} {v : W}
    {x : Bool × Nat × W} (h1 : grow cfg t = .ok t1) (h : insertHash cfg upd t k v = .ok (t', x)) :
    t'.cap = t1.cap ∧ t'.limit = t1.limit := by
  rw [insertHash, h1, Res.ok_bind] at h
  simp only [Res.bind_eq_ok] at h
  obtain ⟨c, _, h3⟩ := h
  cases hf : c.find? (hit (cfg.hash k) k) with
  | some e =>
    rw [hf] at h3
    cases upd <;> cases h3 <;> exact ⟨rfl, rfl⟩
  | none =>
    rw [hf] at h3
    cases h3; exact ⟨rfl, rfl⟩

/-- The keys after a new one was added -/
theorem put_keys {t t' : Tbl Bytes V} {m : Map Bytes V} {k : Bytes} {v : V} {a : Nat} (h : Inv names t) (h' : Inv names t')
    (ha : Abs t m) (ha' : Abs t' (Map.put m k (some (a, v)))) (hk : m k = none) :
    (t'.es.map (·.key)).Perm (k :: t.es.map (·.key)) := by
  have hin : ∀ y, y ∈ t.es.map (·.key) ↔ m y ≠ none := by
    intro y
    constructor
    · intro hy
      obtain ⟨e, he, rfl⟩ := List.mem_map.mp hy
      rw [(ha e.key e.addr e.val).mpr ⟨e, he, rfl, rfl, rfl⟩]; simp
    · intro hy
      obtain ⟨⟨b, w⟩, hb⟩ := Option.ne_none_iff_exists'.mp hy
      obtain ⟨e, he, hek, -⟩ := (ha y b w).mp hb
      exact List.mem_map.mpr ⟨e, he, hek⟩
  have hin' : ∀ y, y ∈ t'.es.map (·.key) ↔ Map.put m k (some (a, v)) y ≠ none := by
    intro y
    constructor
    · intro hy
      obtain ⟨e, he, rfl⟩ := List.mem_map.mp hy
      rw [(ha' e.key e.addr e.val).mpr ⟨e, he, rfl, rfl, rfl⟩]; simp
    · intro hy
      obtain ⟨⟨b, w⟩, hb⟩ := Option.ne_none_iff_exists'.mp hy
      obtain ⟨e, he, hek, -⟩ := (ha' y b w).mp hb
      exact List.mem_map.mpr ⟨e, he, hek⟩
  refine (List.perm_ext_iff_of_nodup h'.keys (List.nodup_cons.mpr ⟨fun x => (hin k).mp x hk, h.keys⟩)).mpr fun y => ?_
  rw [hin' y, List.mem_cons, hin y, Map.put]
  by_cases hy : y = k
  · simp [hy]
  · rw [if_neg hy]; simp [hy]

/-- Adding a name to a table: what is done, and what is in it afterwards -/
theorem insert_good {P Q : Bytes → Prop} {L c : Nat} {t : Tbl Bytes V} (hL : Few Q t.elements L) (hq : Keys Q t)
    {m : Map Bytes V} (h : Good c t m) (hk : Keys P t) (name : Bytes) (hP : P name) (v : V) :
    ∃ t' m' x, HTable.insert names t name v = .ok (t', x) ∧ Good c t' m' ∧ Keys P t' ∧ t'.elements ≤ t.elements + 1 ∧
      insertSteps names t name + pot L t ≤ L + pot L t' ∧ (∀ y, m y ≠ none → m' y ≠ none) ∧ m' name ≠ none := by
  obtain ⟨t1, g1, g2, g3, g4, g5, g6, g7, g8⟩ := grow_good hL h hq
  obtain ⟨t', x, a, w, k1, k2, k3⟩ := insert_spec h.inv h.abs false name v
  obtain ⟨kc, kl⟩ := insert_keeps g1 k1
  rcases g2.room with ⟨r1, -⟩ | ⟨r1, r2, r3, r4⟩
  · exact absurd r1 g5
  have hs : insertSteps names t name + pot L t ≤ L + pot L t' := by
    have hp : pot L t' = pot L t1 := by rw [pot, pot, kc, kl]
    have hi : look (names.hash name) name (chain t1 (names.hash name)) ≤ L :=
      Nat.le_trans (look_le _ _ _) (chain_few hL g2.inv g4 (by omega) r3 g3 name)
    rw [hp, insertSteps, g1]
    simp only
    omega
  rcases k3 with ⟨rfl, -, hm, -, k4⟩ | ⟨-, -, hm, k4⟩ | ⟨-, k4, -⟩
  · have kp := put_keys h.inv k2 h.abs k4 hm
    have ke : t'.elements = t.elements + 1 := by
      have := kp.length_eq
      simp only [List.length_map, List.length_cons] at this
      rw [k2.cnt, h.inv.cnt, this]
    refine ⟨t', _, _, k1, ⟨k2, k4, h.start, .inr ⟨by rw [kc, kl, r1], by omega, by rw [kc]; exact r3,
      by rw [kc, ke]; omega⟩⟩, ?_, by omega, hs, ?_, by simp [Map.put]⟩
    · intro e he
      have := kp.mem_iff.mp (List.mem_map_of_mem (f := (·.key)) he)
      rcases List.mem_cons.mp this with h1 | h1
      · rw [h1]; exact hP
      · obtain ⟨y, hy, hye⟩ := List.mem_map.mp h1
        rw [← hye]; exact hk y hy
    · intro y hy
      rw [Map.put]
      split
      · simp
      · exact hy
  · have kp : (t'.es.map (·.key)).Perm (t.es.map (·.key)) := by
      refine (List.perm_ext_iff_of_nodup k2.keys h.inv.keys).mpr fun y => ?_
      have hin : ∀ {t0 : Tbl Bytes V}, Abs t0 m → (y ∈ t0.es.map (·.key) ↔ m y ≠ none) := by
        intro t0 ha
        constructor
        · intro hy
          obtain ⟨e, he, rfl⟩ := List.mem_map.mp hy
          rw [(ha e.key e.addr e.val).mpr ⟨e, he, rfl, rfl, rfl⟩]; simp
        · intro hy
          obtain ⟨⟨b, w⟩, hb⟩ := Option.ne_none_iff_exists'.mp hy
          obtain ⟨e, he, hek, -⟩ := (ha y b w).mp hb
          exact List.mem_map.mpr ⟨e, he, hek⟩
      rw [hin k4, hin h.abs]
    have ke : t'.elements = t.elements := by
      have := kp.length_eq
      simp only [List.length_map] at this
      rw [k2.cnt, h.inv.cnt, this]
    refine ⟨t', m, _, k1, ⟨k2, k4, h.start, .inr ⟨by rw [kc, kl, r1], by omega, by rw [kc]; exact r3,
      by rw [kc, ke]; omega⟩⟩, ?_, by omega, hs, fun _ h => h, by rw [hm]; simp⟩
    intro e he
    have := kp.mem_iff.mp (List.mem_map_of_mem (f := (·.key)) he)
    obtain ⟨y, hy, hye⟩ := List.mem_map.mp this
    rw [← hye]; exact hk y hy
  · cases k4

theorem storeString_good {P Q : Bytes → Prop} {L c : Nat} {t : Strs} (hL : Few Q t.elements L) (hq : Keys Q t)
    {m : Map Bytes Bytes} (h : Good c t m) (hk : Keys P t) (name : Bytes) (hn : name ≠ [] → P name) :
    ∃ t' m' k, storeString t name = .ok (t', k) ∧ Good c t' m' ∧ Keys P t' ∧ t'.elements ≤ t.elements + 1 ∧
      k + pot L t ≤ 4 * name.length + 2 * L + pot L t' ∧ (∀ y, m y ≠ none → m' y ≠ none) ∧
      (name ≠ [] → m' name ≠ none) := by
  by_cases hl : name.length < 1
  · refine ⟨t, m, 0, by rw [storeString, if_pos hl], h, hk, by omega, by omega, fun _ h => h, fun hne => ?_⟩
    exact absurd (List.length_eq_zero_iff.mp (by omega)) hne
  have hP : P name := hn (by rintro rfl; exact hl (by decide))
  have hg : getSteps names t name ≤ L := by
    rw [getSteps]
    split
    · omega
    · rename_i he
      have ht := table_of_elements h.inv he
      rcases h.room with ⟨r1, r2⟩ | ⟨r1, r2, r3, r4⟩
      · have := h.inv.lim0 r1; omega
      · exact Nat.le_trans (look_le _ _ _) (chain_few hL h.inv ht r2 r3 hq name)
  cases hm : m name with
  | some x =>
    refine ⟨t, m, 2 * name.length + getSteps names t name, ?_, h, hk, by omega, by omega, fun _ h => h,
      fun _ => by rw [hm]; simp⟩
    rw [storeString, if_neg hl, get_spec h.inv h.abs name, hm]
    rfl
  | none =>
    obtain ⟨t', m', x, k1, k2, k3, k4, k5, k6, k7⟩ := insert_good hL hq h hk name hP name
    refine ⟨t', m', 2 * name.length + getSteps names t name + 2 * name.length + insertSteps names t name, ?_, k2, k3, k4,
      by omega, k6, fun _ => k7⟩
    rw [storeString, if_neg hl, get_spec h.inv h.abs name, hm]
    simp only [Res.ok_bind, k1]

theorem good_new : Good (V := V) 64 (HTable.new 64) (fun _ => none) := by
  refine ⟨?_, ?_, ⟨0, rfl⟩, .inl ⟨rfl, rfl⟩⟩
  · constructor <;> simp [HTable.new, Tbl.es]
  · intro k a v
    simp [HTable.new, Tbl.es]

/-- The keys of a table -/
theorem key_mem {c : Nat} {t : Tbl Bytes V} {m : Map Bytes V} (h : Good c t m) {y : Bytes} (hy : m y ≠ none) :
    y ∈ t.es.map (·.key) := by
  obtain ⟨⟨b, w⟩, hb⟩ := Option.ne_none_iff_exists'.mp hy
  obtain ⟨e, he, hek, -⟩ := (h.abs y b w).mp hb
  exact List.mem_map.mpr ⟨e, he, hek⟩

/-- A table has at least as many entries as there are different keys, and as many places. -/
theorem elements_ge {c : Nat} {t : Tbl Bytes V} {m : Map Bytes V} (h : Good c t m) {ys : List Bytes} (hn : ys.Nodup)
    (hy : ∀ y ∈ ys, m y ≠ none) : ys.length ≤ t.elements ∧ ys.length ≤ t.cap := by
  have h1 : ys.length ≤ t.elements := by
    have := hn.length_le_of_subset fun y hm => key_mem h (hy y hm)
    rw [List.length_map, ← h.inv.cnt] at this
    exact this
  refine ⟨h1, ?_⟩
  rcases h.room with ⟨r1, r2⟩ | ⟨r1, r2, r3, r4⟩
  · have := h.inv.lim0 r1; omega
  · omega

/-- The names of a list are in few places of tables that have room for them. -/
def FewOf (L : Nat) (pre : List Bytes) : Prop := ∀ N, AtMost N pre → Few (fun y => y ∈ pre ∧ y ≠ []) N L

/-- … and so are those of its beginnings. -/
def FewAll (L : Nat) (xs : List Bytes) : Prop := ∀ pre, pre <+: xs → FewOf L pre

/-- A table that has the names of a list, and no others -/
structure Has (pre : List Bytes) (t : Tbl Bytes V) (m : Map Bytes V) : Prop where
  keys : Keys (fun y => y ∈ pre ∧ y ≠ []) t
  all : ∀ y ∈ pre, y ≠ [] → m y ≠ none

theorem Has.few {L c : Nat} {pre : List Bytes} {t : Tbl Bytes V} {m : Map Bytes V} (hh : Has pre t m) (hg : Good c t m)
    (hL : FewOf L pre) : Few (fun y => y ∈ pre ∧ y ≠ []) t.elements L :=
  hL _ fun _ hn hz => (elements_ge hg hn fun z h => hh.all z (hz z h).1 (hz z h).2).1

theorem Has.more {pre : List Bytes} {t t' : Tbl Bytes V} {m m' : Map Bytes V} {x : Bytes} (hh : Has pre t m)
    (hk : Keys (fun y => y ∈ pre ++ [x] ∧ y ≠ []) t') (hm : ∀ y, m y ≠ none → m' y ≠ none) (hx : x ≠ [] → m' x ≠ none) :
    Has (pre ++ [x]) t' m' := by
  refine ⟨hk, fun y hy hne => ?_⟩
  rcases List.mem_append.mp hy with h | h
  · exact hm _ (hh.all y h hne)
  · rw [List.mem_singleton] at h
    subst h
    exact hx hne

theorem Has.wider {pre : List Bytes} {t : Tbl Bytes V} {m : Map Bytes V} (hh : Has pre t m) (x : Bytes) :
    Keys (fun y => y ∈ pre ++ [x] ∧ y ≠ []) t :=
  fun e he => ⟨List.mem_append_left _ (hh.keys e he).1, (hh.keys e he).2⟩

theorem storeAll_good {L c : Nat} : ∀ (xs pre : List Bytes) (t : Strs) (m : Map Bytes Bytes),
    FewAll L (pre ++ xs) → Good c t m → Has pre t m →
    ∃ t' m' k, storeAll t xs = .ok (t', k) ∧ Good c t' m' ∧ Has (pre ++ xs) t' m' ∧
      t'.elements ≤ t.elements + xs.length ∧ k + pot L t ≤ 4 * Room.total xs + 2 * L * xs.length + pot L t'
  | [], pre, t, m, _, h, hh => ⟨t, m, 0, rfl, h, by rw [List.append_nil]; exact hh, by simp, by simp [Room.total]⟩
  | x :: xs, pre, t, m, hL, h, hh => by
    obtain ⟨t1, m1, k1, a1, a2, a3, a4, a5, a6, a7⟩ := storeString_good
      (P := fun y => y ∈ pre ++ [x] ∧ y ≠ []) (hh.few h (hL pre (List.prefix_append _ _))) hh.keys h (hh.wider x) x
      (fun hne => ⟨by simp, hne⟩)
    have e : pre ++ x :: xs = (pre ++ [x]) ++ xs := by simp
    obtain ⟨t2, m2, k2, b1, b2, b3, b4, b5⟩ := storeAll_good xs (pre ++ [x]) t1 m1 (by rw [← e]; exact hL) a2
      (hh.more a3 a6 a7)
    refine ⟨t2, m2, k1 + k2, by simp [storeAll, a1, b1], b2, by rw [e]; exact b3, by simp only [List.length_cons]; omega, ?_⟩
    have : Room.total (x :: xs) = x.length + Room.total xs := by simp [Room.total]
    rw [this, List.length_cons, Nat.mul_succ]
    omega

/-- How large tables get -/
theorem cap_le {c : Nat} {t : Tbl Bytes V} {m : Map Bytes V} (h : Good c t m) : t.cap ≤ c + 2 * t.elements := by
  rcases h.room with ⟨r1, r2⟩ | ⟨r1, r2, r3, r4⟩ <;> omega

theorem pot_le {c : Nat} {t : Tbl Bytes V} {m : Map Bytes V} (h : Good c t m) (L n : Nat) (hn : t.elements ≤ n) :
    pot L t ≤ (4 + L) * (c + 2 * n) := by
  rw [pot]
  split
  · omega
  · have := cap_le h
    exact Nat.mul_le_mul_left _ (by omega)

theorem has_none {c : Nat} {t : Tbl Bytes V} {m : Map Bytes V} (h : Good c t m) (he : t.elements = 0) : Has [] t m := by
  refine ⟨fun e hm => ?_, by simp⟩
  have := h.inv.cnt
  rw [he] at this
  rw [List.length_eq_zero_iff.mp this.symm] at hm
  cases hm

/-- The bound for an empty table -/
theorem storeAll_le {L c : Nat} {xs : List Bytes} (hL : FewAll L xs) {t : Strs} {m : Map Bytes Bytes} (h : Good c t m)
    (he : t.elements = 0) :
    ∃ t' m' k, storeAll t xs = .ok (t', k) ∧ Good c t' m' ∧ t'.elements ≤ xs.length ∧
      (∀ y ∈ xs, y ≠ [] → m' y ≠ none) ∧
      k ≤ 4 * Room.total xs + 2 * L * xs.length + (4 + L) * (c + 2 * xs.length) := by
  obtain ⟨t', m', k, h1, h2, h3, h4, h5⟩ := storeAll_good xs [] _ _ hL h (has_none h he)
  have := pot_le h2 L xs.length (by omega)
  exact ⟨t', m', k, h1, h2, by omega, h3.all, by omega⟩

/-! ## Names with one hash -/

theorem chain_all {t : Tbl Bytes V} {h : UInt64} (hi : Inv names t) (ht : t.table ≠ none) (k : Bytes) (hk : names.hash k = h)
    (hall : Keys (fun y => names.hash y = h) t) : (chain t h).length = t.elements := by
  obtain ⟨l1, l2, h1, h2⟩ := chain_eq hi ht k
  rw [hk] at h1 h2
  have hes := es_split h1
  have none_in : ∀ e ∈ l1.flatten ++ l2.flatten, False := by
    intro e he
    have hm : e ∈ t.es := by
      rw [hes]; rcases List.mem_append.mp he with h | h <;> simp [h]
    have hb : bucket t.cap e.hash = l1.length := by rw [hi.hash e hm, hall e hm, h2]
    have hin : ∀ (i : Nat) (c : List (Entry Bytes V)), (l1 ++ chain t h :: l2)[i]? = some c → e ∈ c → i = l1.length :=
      fun i c hc he => by rw [← hb]; exact (hi.home _ h1 i c hc e he).symm
    rcases List.mem_append.mp he with h3 | h3
    · obtain ⟨c, hc, hec⟩ := List.mem_flatten.mp h3
      obtain ⟨i, hlt, hi'⟩ := List.mem_iff_getElem.mp hc
      have := hin i c (by rw [List.getElem?_append_left hlt, List.getElem?_eq_getElem hlt, hi']) hec
      omega
    · obtain ⟨c, hc, hec⟩ := List.mem_flatten.mp h3
      obtain ⟨i, hlt, hi'⟩ := List.mem_iff_getElem.mp hc
      have := hin (l1.length + (i + 1)) c (by
        rw [List.getElem?_append_right (by omega), show l1.length + (i + 1) - l1.length = i + 1 by omega,
          List.getElem?_cons_succ, List.getElem?_eq_getElem hlt, hi']) hec
      omega
  have hn : l1.flatten ++ l2.flatten = [] := List.eq_nil_iff_forall_not_mem.mpr none_in
  have hl := congrArg List.length hn
  rw [hi.cnt, hes]
  simp only [List.length_append, List.length_nil] at hl ⊢
  omega

theorem storeAll_same {c : Nat} {h : UInt64} : ∀ (xs : List Bytes) (t t' : Strs) (m : Map Bytes Bytes) (k : Nat), Good c t m →
    Keys (fun y => names.hash y = h) t → xs.Nodup → (∀ x ∈ xs, x ≠ [] ∧ names.hash x = h ∧ m x = none) →
    storeAll t xs = .ok (t', k) → 2 * t.elements * xs.length + xs.length * (xs.length - 1) ≤ k
  | [], _, _, _, _, _, _, _, _, _ => by simp
  | x :: xs, t, t', m, k, hg, hk, hn, hx, hs => by
    obtain ⟨x1, x2, x3⟩ := hx x (by simp)
    simp only [storeAll, Res.bind_eq_ok] at hs
    obtain ⟨⟨t1, a⟩, s1, ⟨t2, b⟩, s2, s3⟩ := hs
    cases s3
    have hl : ¬ x.length < 1 := by
      have := List.length_pos_iff.mpr x1; omega
    rw [storeString, if_neg hl, get_spec hg.inv hg.abs x, x3] at s1
    obtain ⟨tn, y, ad, w, k1, k2, k3⟩ := insert_spec hg.inv hg.abs false x x
    simp only [Res.ok_bind, HTable.insert, k1, Res.ok.injEq, Prod.mk.injEq] at s1
    obtain ⟨rfl, rfl⟩ := s1
    rcases k3 with ⟨rfl, -, -, -, k4⟩ | ⟨-, -, k4, -⟩ | ⟨-, k4, -⟩
    · have kp := put_keys hg.inv k2 hg.abs k4 x3
      have ke : tn.elements = t.elements + 1 := by
        have := kp.length_eq
        simp only [List.length_map, List.length_cons] at this
        rw [k2.cnt, hg.inv.cnt, this]
      obtain ⟨t1, g1, g2, g4, g5, g6, g7⟩ : ∃ t1, grow names t = .ok t1 ∧ Good c t1 m ∧ Keys (fun y => names.hash y = h) t1 ∧
          t1.table ≠ none ∧ t1.limit ≠ 0 ∧ t1.elements = t.elements ∧ t1.elements < t1.cap := by
        have hfew : Few (fun y => y ∈ t.es.map (·.key) ∧ names.hash y = h) t.elements t.es.length := by
          intro j b ys _ hys h
          have := hys.length_le_of_subset fun y hy => ((h y hy).1).1
          simpa using this
        obtain ⟨t1, g1, g2, g3, g4, g5, g6, g7, -⟩ := grow_good hfew hg fun e he =>
          ⟨List.mem_map_of_mem (f := (·.key)) he, hk e he⟩
        exact ⟨t1, g1, g2, fun e he => (g3 e he).2, g4, g5, g6, g7⟩
      obtain ⟨kc, kl⟩ := insert_keeps g1 k1
      have hgn : Good c tn (Map.put m x (some (ad, x))) := by
        rcases g2.room with ⟨r1, -⟩ | ⟨r1, r2, r3, r4⟩
        · exact absurd r1 g6
        exact ⟨k2, k4, hg.start, .inr ⟨by rw [kc, kl, r1], by omega, by rw [kc]; exact r3, by rw [kc, ke]; omega⟩⟩
      have hkn : Keys (fun y => names.hash y = h) tn := by
        intro e he
        have := kp.mem_iff.mp (List.mem_map_of_mem (f := (·.key)) he)
        rcases List.mem_cons.mp this with h1 | h1
        · rw [h1]; exact x2
        · obtain ⟨y, hy, hye⟩ := List.mem_map.mp h1
          rw [← hye]; exact hk y hy
      have ih := storeAll_same xs tn _ _ b hgn hkn (List.nodup_cons.mp hn).2 (fun y hy => by
        obtain ⟨y1, y2, y3⟩ := hx y (by simp [hy])
        refine ⟨y1, y2, ?_⟩
        rw [Map.put, if_neg (by rintro rfl; exact (List.nodup_cons.mp hn).1 hy)]
        exact y3) s2
      have miss : ∀ (t0 : Strs), Abs t0 m → Inv names t0 → t0.table ≠ none → Keys (fun y => names.hash y = h) t0 →
          look (names.hash x) x (chain t0 (names.hash x)) = t0.elements := by
        intro t0 ha hi ht hk0
        obtain ⟨l1, l2, h1, h2⟩ := chain_eq hi ht x
        rw [look_miss, x2, chain_all hi ht x x2 hk0]
        intro e he hke
        have hm : e ∈ t0.es := by rw [es_split h1]; simp [he]
        have := (ha x e.addr e.val).mpr ⟨e, hm, hke, rfl, rfl⟩
        rw [x3] at this; cases this
      have hget : getSteps names t x = t.elements := by
        rw [getSteps]
        split
        · omega
        · rename_i he
          exact miss t hg.abs hg.inv (table_of_elements hg.inv he) hk
      have hins : t.elements ≤ insertSteps names t x := by
        rw [insertSteps, g1]
        simp only
        rw [miss t1 g2.abs g2.inv g5 g4]
        omega
      rw [ke] at ih
      simp only [List.length_cons, Nat.add_sub_cancel]
      have e1 : 2 * (t.elements + 1) * xs.length = 2 * t.elements * xs.length + 2 * xs.length := by
        rw [Nat.mul_add, Nat.add_mul]
      have e2 : 2 * t.elements * (xs.length + 1) = 2 * t.elements * xs.length + 2 * t.elements := by rw [Nat.mul_succ]
      have e3 : (xs.length + 1) * xs.length ≤ xs.length * (xs.length - 1) + 2 * xs.length := by
        cases hq : xs.length with
        | zero => omega
        | succ q =>
          rw [Nat.add_sub_cancel, Nat.mul_comm (q + 1 + 1), Nat.mul_add, Nat.mul_add]
          omega
      omega
    · rw [x3] at k4; cases k4
    · cases k4

end Srl.Cost
