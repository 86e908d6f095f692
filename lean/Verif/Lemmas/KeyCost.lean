import Verif.Model.KeyCost
import Verif.Lemmas.Cost
import Verif.Props.KeyTimeSpec

/-! # Helper lemmas about what is done for the keys of shared pointers

The tables are analysed as those of names (`Lemmas/Cost.lean`); they begin with 16 places. -/

namespace Srl.KeyCost
open HTable Props
open Cost (chain look getSteps relinkSteps redistributeSteps insertSteps chain_eq look_le look_miss insert_keeps)

variable {V : Type}

/-- At most `L` of the keys are in one bucket, in tables with at least `N` of them. -/
def Few (P : Nat → Prop) (N L : Nat) : Prop :=
  ∀ (j b : Nat) (ys : List Nat), N ≤ 16 * 2 ^ j → ys.Nodup → (∀ y ∈ ys, P y ∧ bucket (16 * 2 ^ j) (keys.hash y) = b) → ys.length ≤ L

/-- What holds of a table of keys that began with `c` places -/
structure Good (c : Nat) (t : Tbl Nat V) (m : Map Nat V) : Prop where
  inv : Inv keys t
  abs : Abs t m
  start : ∃ j, c = 16 * 2 ^ j
  room : (t.limit = 0 ∧ t.cap = c) ∨ (t.limit = t.cap ∧ t.elements ≤ t.cap ∧ (∃ j, t.cap = 16 * 2 ^ j) ∧
    (t.cap = c ∨ t.cap ≤ 2 * t.elements))

def Keys (P : Nat → Prop) (t : Tbl Nat V) : Prop := ∀ e ∈ t.es, P e.key

theorem chain_few {P : Nat → Prop} {N L : Nat} (hL : Few P N L) {t : Tbl Nat V} (h : Inv keys t) (ht : t.table ≠ none)
    (hN : N ≤ t.cap) (hj : ∃ j, t.cap = 16 * 2 ^ j) (hk : Keys P t) (k : Nat) : (chain t (keys.hash k)).length ≤ L := by
  obtain ⟨l1, l2, h1, h2⟩ := chain_eq h ht k
  obtain ⟨j, hj⟩ := hj
  have hes := es_split h1
  have := hL j l1.length ((chain t (keys.hash k)).map (·.key)) (by rw [← hj]; exact hN) ?_ ?_
  · simpa using this
  · have := h.keys
    rw [hes, List.map_append, List.map_append] at this
    exact (List.nodup_append.mp (List.nodup_append.mp this).2.1).1
  · intro y hy
    obtain ⟨e, he, rfl⟩ := List.mem_map.mp hy
    have hm : e ∈ t.es := by rw [hes]; simp [he]
    refine ⟨hk e hm, ?_⟩
    rw [← h.hash e hm, ← hj]
    exact home_mem (h.home _ h1) e he

theorem relinkSteps_le {P : Nat → Prop} {N L : Nat} (hL : Few P N L) (j : Nat) (hN : N ≤ 16 * 2 ^ j) : ∀ (es : List (Entry Nat V))
    (nt : List (List (Entry Nat V))), nt.length = 16 * 2 ^ j → Home (16 * 2 ^ j) nt →
    ((nt.flatten ++ es).map (·.key)).Nodup → (∀ e ∈ nt.flatten ++ es, e.hash = keys.hash e.key ∧ P e.key) →
    relinkSteps (16 * 2 ^ j) es nt ≤ (1 + L) * es.length
  | [], _, _, _, _, _ => by simp [relinkSteps]
  | e :: es, nt, h1, h2, h3, h4 => by
    have hpos : 0 < 16 * 2 ^ j := by have := Nat.two_pow_pos j; omega
    obtain ⟨g1, g2, g3⟩ := relink_perm hpos nt e h1 h2
    have g4 : ((relink (16 * 2 ^ j) nt e).flatten ++ es).Perm (nt.flatten ++ e :: es) := by
      have := g3.append_right es
      simpa using this
    have ih := relinkSteps_le hL j hN es _ g1 g2 (((g4.map (·.key)).nodup_iff).mpr h3) fun x hx => h4 x (g4.mem_iff.mp hx)
    have hc : (nt[bucket (16 * 2 ^ j) e.hash]?.getD []).length ≤ L := by
      obtain ⟨c, hc⟩ : ∃ c, nt[bucket (16 * 2 ^ j) e.hash]? = some c :=
        ⟨_, List.getElem?_eq_getElem (by rw [h1]; exact bucket_lt hpos _)⟩
      obtain ⟨l1, l2, rfl, hl⟩ := split_at hc
      rw [hc, Option.getD_some]
      have := hL j l1.length (c.map (·.key)) hN ?_ ?_
      · simpa using this
      · simp only [List.flatten_append, List.flatten_cons, List.append_assoc, List.map_append] at h3
        exact (List.nodup_append.mp (List.nodup_append.mp h3).2.1).1
      · intro y hy
        obtain ⟨x, hx, rfl⟩ := List.mem_map.mp hy
        have h5 := h4 x (by simp [hx])
        refine ⟨h5.2, ?_⟩
        rw [← h5.1]
        exact home_mem h2 x hx
    rw [relinkSteps, List.length_cons, Nat.mul_succ]
    omega

/-- What has been done to enlarge the table is accounted for by its size. -/
def pot (L : Nat) (t : Tbl Nat V) : Nat := if t.limit = 0 then 0 else (4 + L) * t.cap

theorem grow_good {P : Nat → Prop} {L c : Nat} {t : Tbl Nat V} (hL : Few P t.elements L) {m : Map Nat V}
    (h : Good c t m) (hk : Keys P t) : ∃ t1, grow keys t = .ok t1 ∧ Good c t1 m ∧ Keys P t1 ∧ t1.table ≠ none ∧ t1.limit ≠ 0 ∧
      t1.elements = t.elements ∧ t1.elements < t1.cap ∧
      (if t.limit < 1 ∨ t.elements ≥ t.limit then redistributeSteps keys t else 0) + pot L t ≤ pot L t1 := by
  by_cases hc : t.limit < 1 ∨ t.elements ≥ t.limit
  · rw [grow, if_pos hc, if_pos hc]
    obtain ⟨t1, g1, g2, g3, g4, g5, -, -⟩ := redistribute_spec h.inv
    have ga : Abs t1 m := by
      intro k a v
      rw [h.abs k a v]
      constructor
      · rintro ⟨e, he, h⟩; exact ⟨e, g3.mem_iff.mpr he, h⟩
      · rintro ⟨e, he, h⟩; exact ⟨e, g3.mem_iff.mp he, h⟩
    have ge : t1.elements = t.elements := by rw [g2.cnt, h.inv.cnt, g3.length_eq]
    rcases h.room with ⟨r1, r2⟩ | ⟨r1, r2, ⟨j, r3⟩, r4⟩
    · have he : t.elements = 0 := h.inv.lim0 r1
      obtain ⟨j0, hj0⟩ := h.start
      have hp := Nat.two_pow_pos j0
      have gd : t1.cap = c ∧ t1.limit = c := by
        rw [redistribute, if_pos r1] at g1
        cases g1
        simp only [setCapacity, r2, he, keys, id]
        omega
      refine ⟨t1, g1, ⟨g2, ga, h.start, .inr ⟨by rw [gd.1, gd.2], by omega, ⟨j0, by rw [gd.1, hj0]⟩, .inl gd.1⟩⟩,
        fun e h => hk e (g3.mem_iff.mp h), g4, g5, ge, by omega, ?_⟩
      rw [redistributeSteps, if_pos r1, pot, if_pos r1, pot, if_neg g5, gd.1, Nat.add_mul]
      simp only [setCapacity, r2]
      omega
    · have hpos := Nat.two_pow_pos j
      have r0 : t.limit ≠ 0 := by omega
      obtain ⟨tb, htb⟩ := Option.ne_none_iff_exists'.mp (h.inv.lim1 r0)
      have hE : t.elements = t.cap := by omega
      have gd : t1.cap = 2 * t.cap ∧ t1.limit = 2 * t.cap := by
        rw [redistribute, if_neg r0, htb] at g1
        cases g1
        simp only [setCapacity, keys, id]
        omega
      refine ⟨t1, g1, ⟨g2, ga, h.start, .inr ⟨by rw [gd.1, gd.2], by omega, ⟨j + 1, by rw [gd.1, r3, Nat.pow_succ]; omega⟩,
        .inr (by omega)⟩⟩, fun e h => hk e (g3.mem_iff.mp h), g4, g5, ge, by omega, ?_⟩
      have hes : t.es = tb.flatten := by simp [Tbl.es, htb]
      have hcap : (setCapacity keys t (t.cap * 2)).cap = 16 * 2 ^ (j + 1) := by
        simp only [setCapacity]
        rw [r3, Nat.pow_succ]; omega
      have hr := relinkSteps_le hL (j + 1) (by rw [Nat.pow_succ]; omega) tb.flatten (List.replicate (16 * 2 ^ (j + 1)) []) (by simp) (home_empty _)
        (by rw [flatten_replicate_nil, List.nil_append, ← hes]; exact h.inv.keys)
        (by
          rw [flatten_replicate_nil, List.nil_append, ← hes]
          exact fun e he => ⟨h.inv.hash e he, hk e he⟩)
      have hn : tb.flatten.length = t.cap := by rw [← hes, ← h.inv.cnt, hE]
      rw [hn] at hr
      rw [redistributeSteps, if_neg r0, pot, if_neg r0, pot, if_neg g5, gd.1, htb]
      simp only [hcap, Option.getD_some]
      have e1 : 16 * 2 ^ (j + 1) = 2 * t.cap := by rw [r3, Nat.pow_succ]; omega
      have e2 : (4 + L) * (2 * t.cap) = (4 + L) * t.cap + (4 + L) * t.cap := by rw [Nat.two_mul, Nat.mul_add]
      have e3 : (4 + L) * t.cap = 3 * t.cap + (1 + L) * t.cap := by rw [← Nat.add_mul]; congr 1; omega
      omega
  · rw [grow, if_neg hc, if_neg hc]
    have hl : t.limit ≠ 0 := by omega
    rcases h.room with ⟨r1, r2⟩ | ⟨r1, r2, r3, r4⟩
    · exact absurd r1 hl
    exact ⟨t, rfl, h, hk, h.inv.lim1 hl, hl, rfl, by omega, by omega⟩

/-- The keys after a new one was added -/
theorem put_keys {t t' : Tbl Nat V} {m : Map Nat V} {k : Nat} {v : V} {a : Nat} (h : Inv keys t) (h' : Inv keys t')
    (ha : Abs t m) (ha' : Abs t' (Map.put m k (some (a, v)))) (hk : m k = none) :
    (t'.es.map (·.key)).Perm (k :: t.es.map (·.key)) := by
  have hin : ∀ y, y ∈ t.es.map (·.key) ↔ m y ≠ none := by
    intro y
    constructor
    · intro hy
      obtain ⟨e, he, rfl⟩ := List.mem_map.mp hy
      rw [(ha e.key e.addr e.val).mpr ⟨e, he, rfl, rfl, rfl⟩]; simp
    · intro hy
      obtain ⟨⟨b, w⟩, hb⟩ := Option.ne_none_iff_exists'.mp hy
      obtain ⟨e, he, hek, -⟩ := (ha y b w).mp hb
      exact List.mem_map.mpr ⟨e, he, hek⟩
  have hin' : ∀ y, y ∈ t'.es.map (·.key) ↔ Map.put m k (some (a, v)) y ≠ none := by
    intro y
    constructor
    · intro hy
      obtain ⟨e, he, rfl⟩ := List.mem_map.mp hy
      rw [(ha' e.key e.addr e.val).mpr ⟨e, he, rfl, rfl, rfl⟩]; simp
    · intro hy
      obtain ⟨⟨b, w⟩, hb⟩ := Option.ne_none_iff_exists'.mp hy
      obtain ⟨e, he, hek, -⟩ := (ha' y b w).mp hb
      exact List.mem_map.mpr ⟨e, he, hek⟩
  refine (List.perm_ext_iff_of_nodup h'.keys (List.nodup_cons.mpr ⟨fun x => (hin k).mp x hk, h.keys⟩)).mpr fun y => ?_
  rw [hin' y, List.mem_cons, hin y, Map.put]
  by_cases hy : y = k
  · simp [hy]
  · rw [if_neg hy]; simp [hy]

/-- Adding a key to a table: what is done, and what is in it afterwards -/
theorem insert_good {P Q : Nat → Prop} {L c : Nat} {t : Tbl Nat V} (hL : Few Q t.elements L) (hq : Keys Q t)
    {m : Map Nat V} (h : Good c t m) (hk : Keys P t) (key : Nat) (hP : P key) (v : V) :
    ∃ t' m' x, HTable.insert keys t key v = .ok (t', x) ∧ Good c t' m' ∧ Keys P t' ∧ t'.elements ≤ t.elements + 1 ∧
      insertSteps keys t key + pot L t ≤ L + pot L t' ∧ (∀ y, m y ≠ none → m' y ≠ none) ∧ m' key ≠ none := by
  obtain ⟨t1, g1, g2, g3, g4, g5, g6, g7, g8⟩ := grow_good hL h hq
  obtain ⟨t', x, a, w, k1, k2, k3⟩ := insert_spec h.inv h.abs false key v
  obtain ⟨kc, kl⟩ := insert_keeps g1 k1
  rcases g2.room with ⟨r1, -⟩ | ⟨r1, r2, r3, r4⟩
  · exact absurd r1 g5
  have hs : insertSteps keys t key + pot L t ≤ L + pot L t' := by
    have hp : pot L t' = pot L t1 := by rw [pot, pot, kc, kl]
    have hi : look (keys.hash key) key (chain t1 (keys.hash key)) ≤ L :=
      Nat.le_trans (look_le _ _ _) (chain_few hL g2.inv g4 (by omega) r3 g3 key)
    rw [hp, insertSteps, g1]
    simp only
    omega
  rcases k3 with ⟨rfl, -, hm, -, k4⟩ | ⟨-, -, hm, k4⟩ | ⟨-, k4, -⟩
  · have kp := put_keys h.inv k2 h.abs k4 hm
    have ke : t'.elements = t.elements + 1 := by
      have := kp.length_eq
      simp only [List.length_map, List.length_cons] at this
      rw [k2.cnt, h.inv.cnt, this]
    refine ⟨t', _, _, k1, ⟨k2, k4, h.start, .inr ⟨by rw [kc, kl, r1], by omega, by rw [kc]; exact r3,
      by rw [kc, ke]; omega⟩⟩, ?_, by omega, hs, ?_, by simp [Map.put]⟩
    · intro e he
      have := kp.mem_iff.mp (List.mem_map_of_mem (f := (·.key)) he)
      rcases List.mem_cons.mp this with h1 | h1
      · rw [h1]; exact hP
      · obtain ⟨y, hy, hye⟩ := List.mem_map.mp h1
        rw [← hye]; exact hk y hy
    · intro y hy
      rw [Map.put]
      split
      · simp
      · exact hy
  · have kp : (t'.es.map (·.key)).Perm (t.es.map (·.key)) := by
      refine (List.perm_ext_iff_of_nodup k2.keys h.inv.keys).mpr fun y => ?_
      have hin : ∀ {t0 : Tbl Nat V}, Abs t0 m → (y ∈ t0.es.map (·.key) ↔ m y ≠ none) := by
        intro t0 ha
        constructor
        · intro hy
          obtain ⟨e, he, rfl⟩ := List.mem_map.mp hy
          rw [(ha e.key e.addr e.val).mpr ⟨e, he, rfl, rfl, rfl⟩]; simp
        · intro hy
          obtain ⟨⟨b, w⟩, hb⟩ := Option.ne_none_iff_exists'.mp hy
          obtain ⟨e, he, hek, -⟩ := (ha y b w).mp hb
          exact List.mem_map.mpr ⟨e, he, hek⟩
      rw [hin k4, hin h.abs]
    have ke : t'.elements = t.elements := by
      have := kp.length_eq
      simp only [List.length_map] at this
      rw [k2.cnt, h.inv.cnt, this]
    refine ⟨t', m, _, k1, ⟨k2, k4, h.start, .inr ⟨by rw [kc, kl, r1], by omega, by rw [kc]; exact r3,
      by rw [kc, ke]; omega⟩⟩, ?_, by omega, hs, fun _ h => h, by rw [hm]; simp⟩
    intro e he
    have := kp.mem_iff.mp (List.mem_map_of_mem (f := (·.key)) he)
    obtain ⟨y, hy, hye⟩ := List.mem_map.mp this
    rw [← hye]; exact hk y hy
  · cases k4

theorem good_new : Good (V := V) 16 (HTable.new 16) (fun _ => none) := by
  refine ⟨?_, ?_, ⟨0, rfl⟩, .inl ⟨rfl, rfl⟩⟩
  · constructor <;> simp [HTable.new, Tbl.es]
  · intro k a v
    simp [HTable.new, Tbl.es]

/-- How large tables get -/
theorem cap_le {c : Nat} {t : Tbl Nat V} {m : Map Nat V} (h : Good c t m) : t.cap ≤ c + 2 * t.elements := by
  rcases h.room with ⟨r1, r2⟩ | ⟨r1, r2, r3, r4⟩ <;> omega

theorem pot_le {c : Nat} {t : Tbl Nat V} {m : Map Nat V} (h : Good c t m) (L n : Nat) (hn : t.elements ≤ n) :
    pot L t ≤ (4 + L) * (c + 2 * n) := by
  rw [pot]
  split
  · omega
  · have := cap_le h
    exact Nat.mul_le_mul_left _ (by omega)


/-- The keys of a table -/
theorem key_mem {c : Nat} {t : Tbl Nat V} {m : Map Nat V} (h : Good c t m) {y : Nat} (hy : m y ≠ none) :
    y ∈ t.es.map (·.key) := by
  obtain ⟨⟨b, w⟩, hb⟩ := Option.ne_none_iff_exists'.mp hy
  obtain ⟨e, he, hek, -⟩ := (h.abs y b w).mp hb
  exact List.mem_map.mpr ⟨e, he, hek⟩

/-- A table has at least as many entries as there are different keys, and as many places. -/
theorem elements_ge {c : Nat} {t : Tbl Nat V} {m : Map Nat V} (h : Good c t m) {ys : List Nat} (hn : ys.Nodup)
    (hy : ∀ y ∈ ys, m y ≠ none) : ys.length ≤ t.elements ∧ ys.length ≤ t.cap := by
  have h1 : ys.length ≤ t.elements := by
    have := hn.length_le_of_subset fun y hm => key_mem h (hy y hm)
    rw [List.length_map, ← h.inv.cnt] at this
    exact this
  refine ⟨h1, ?_⟩
  rcases h.room with ⟨r1, r2⟩ | ⟨r1, r2, r3, r4⟩
  · have := h.inv.lim0 r1; omega
  · omega


/-- Looking a key up, and adding it if it is new -/
theorem find_good {P Q : Nat → Prop} {L c : Nat} {t : Tbl Nat Nat} (hL : Few Q t.elements L) (hq : Keys Q t)
    {m : Map Nat Nat} (h : Good c t m) (hk : Keys P t) (key a : Nat) (hP : P key) :
    ∃ t' m' k, find t key a = .ok (t', k) ∧ Good c t' m' ∧ Keys P t' ∧ t'.elements ≤ t.elements + 1 ∧
      k + pot L t ≤ 2 * L + pot L t' ∧ (∀ y, m y ≠ none → m' y ≠ none) ∧ m' key ≠ none ∧ (m key ≠ none → t' = t) := by
  have hg : getSteps keys t key ≤ L := by
    rw [getSteps]
    split
    · omega
    · rename_i he
      have ht := table_of_elements h.inv he
      rcases h.room with ⟨r1, r2⟩ | ⟨r1, r2, r3, r4⟩
      · have := h.inv.lim0 r1; omega
      · exact Nat.le_trans (look_le _ _ _) (chain_few hL h.inv ht r2 r3 hq key)
  cases hm : m key with
  | some x =>
    refine ⟨t, m, getSteps keys t key, ?_, h, hk, by omega, by omega, fun _ h => h, by rw [hm]; simp, fun _ => rfl⟩
    rw [find, get_spec h.inv h.abs key, hm]
    rfl
  | none =>
    obtain ⟨t', m', x, k1, k2, k3, k4, k5, k6, k7⟩ := insert_good hL hq h hk key hP a
    refine ⟨t', m', getSteps keys t key + insertSteps keys t key, ?_, k2, k3, k4, by omega, k6, k7, by simp⟩
    rw [find, get_spec h.inv h.abs key, hm]
    simp only [Res.ok_bind, k1]

theorem hash_nat {y : Nat} (h : y < 2 ^ 64) : (keys.hash y).toNat = y := by
  show (UInt64.ofNat y).toNat = y
  rw [UInt64.toNat_ofNat']
  exact Nat.mod_eq_of_lt h

theorem bucket_key {cap y : Nat} (h : y < 2 ^ 64) :
    bucket cap (keys.hash y) = (if cap ≤ 2 ^ 32 - 1 then y ^^^ y / 2 ^ 32 else y) % cap := by
  rw [bucket]
  split
  · rw [UInt64.toNat_xor, UInt64.toNat_shiftRight, hash_nat h]
    congr 2
    simp [Nat.shiftRight_eq_div_pow]
  · rw [hash_nat h]

theorem bucket_small {cap y : Nat} (h : y < 2 ^ 64) (hc : y < cap) : bucket cap (keys.hash y) = y := by
  rw [bucket_key h]
  split
  · rw [Nat.div_eq_of_lt (by omega), Nat.xor_zero, Nat.mod_eq_of_lt hc]
  · rw [Nat.mod_eq_of_lt hc]

theorem few_order (N : Nat) : Few (fun y => y < N ∧ y < 2 ^ 64) N 1 := by
  intro j b ys hj hn hy
  match ys, hn, hy with
  | [], _, _ => exact Nat.zero_le _
  | [_], _, _ => exact Nat.le_refl _
  | x :: y :: ys, hn, hy =>
    obtain ⟨⟨x1, x2⟩, x3⟩ := hy x (by simp)
    obtain ⟨⟨y1, y2⟩, y3⟩ := hy y (by simp)
    rw [bucket_small x2 (by omega)] at x3
    rw [bucket_small y2 (by omega)] at y3
    rw [x3, y3] at hn
    simp at hn

/-- The keys that come first have lower numbers. -/
theorem findAll_order {c : Nat} : ∀ (ks : List Nat) (N : Nat) (t : Tbl Nat Nat) (m : Map Nat Nat), Good c t m →
    Keys (fun y => y < N ∧ y < 2 ^ 64) t → (∀ y < N, m y ≠ none) → KeysInOrder N ks → (∀ k ∈ ks, k < 2 ^ 64) →
    ∃ t' m' k, findAll t ks = .ok (t', k) ∧ Good c t' m' ∧ t'.elements ≤ t.elements + ks.length ∧
      k + pot 1 t ≤ 2 * ks.length + pot 1 t'
  | [], N, t, m, hg, hk, hm, ho, hs => ⟨t, m, 0, rfl, hg, by simp, by simp⟩
  | key :: ks, N, t, m, hg, hk, hm, ho, hs => by
    have hN : N ≤ t.elements := by
      have := (elements_ge hg (ys := List.range N) List.nodup_range fun y hy => hm y (List.mem_range.mp hy)).1
      simpa using this
    have hL : Few (fun y => y < N ∧ y < 2 ^ 64) t.elements 1 := fun j b ys hj hn hy => few_order N j b ys (by omega) hn hy
    have h6 := hs key (by simp)
    obtain ⟨M, hM, hle, hkey, hrest⟩ : ∃ M, N ≤ M ∧ M ≤ N + 1 ∧ key < M ∧ KeysInOrder M ks ∧ (M = N ∨ key = N) := by
      cases ho with
      | again h1 h2 => exact ⟨N, by omega, by omega, h1, h2, .inl rfl⟩
      | next h2 => exact ⟨key + 1, by omega, by omega, by omega, h2, .inr rfl⟩
    obtain ⟨h2, h3⟩ := hrest
    obtain ⟨t', m', k, f1, f2, f3, f4, f5, f6, f7, -⟩ := find_good (P := fun y => y < M ∧ y < 2 ^ 64) hL hk hg
      (fun e he => ⟨by have := (hk e he).1; omega, (hk e he).2⟩) key t.elements ⟨hkey, h6⟩
    obtain ⟨t2, m2, k2, g1, g2, g3, g4⟩ := findAll_order ks M t' m' f2 f3 (fun y hy => by
      by_cases hy' : y < N
      · exact f6 y (hm y hy')
      · rcases h3 with rfl | rfl
        · exact absurd hy hy'
        · rw [show y = key by omega]; exact f7) h2 fun x hx => hs x (by simp [hx])
    refine ⟨t2, m2, k + k2, by simp [findAll, f1, g1], g2, by rw [List.length_cons]; omega, by rw [List.length_cons]; omega⟩

/-! ## Keys that share a place -/

/-- The first place, in all tables for which both halves of the key are used -/
def Clash (y : Nat) : Prop := ∀ j, 16 * 2 ^ j ≤ 2 ^ 32 - 1 → bucket (16 * 2 ^ j) (keys.hash y) = 0

theorem clash {i : Nat} (h : i < 2 ^ 32) : Clash (i * (2 ^ 32 + 1)) := by
  intro j hj
  have hx : i * (2 ^ 32 + 1) = 2 ^ 32 * i + i := by omega
  have h1 : (2 ^ 32 * i + i) / 2 ^ 32 = i := by omega
  have h2 : (2 ^ 32 * i + i) ^^^ i = 2 ^ 32 * i := by
    apply Nat.eq_of_testBit_eq
    intro b
    rw [Nat.testBit_xor, Nat.testBit_two_pow_mul_add _ h, Nat.testBit_two_pow_mul]
    by_cases hb : b < 32
    · simp [hb, Nat.not_le.mpr hb]
    · have : i.testBit b = false := Nat.testBit_lt_two_pow (Nat.lt_of_lt_of_le h (Nat.pow_le_pow_right (by omega) (by omega)))
      simp [hb, Nat.not_lt.mp hb, this]
  rw [bucket_key (by omega), if_pos hj, hx, h1, h2]
  have : j ≤ 28 := by
    rcases Nat.lt_or_ge 28 j with h | h
    · have := Nat.pow_le_pow_right (n := 2) (by omega) h
      omega
    · exact h
  have e : 2 ^ 32 * i = 16 * 2 ^ j * (2 ^ (28 - j) * i) := by
    rw [← Nat.mul_assoc, Nat.mul_assoc 16, ← Nat.pow_add, show j + (28 - j) = 28 by omega]
  rw [e, Nat.mul_mod_right]

theorem chain_all {t : Tbl Nat V} (hi : Inv keys t) (ht : t.table ≠ none) (k : Nat)
    (hall : Keys (fun y => bucket t.cap (keys.hash y) = bucket t.cap (keys.hash k)) t) : (chain t (keys.hash k)).length = t.elements := by
  obtain ⟨l1, l2, h1, h2⟩ := chain_eq hi ht k
  have hes := es_split h1
  have none_in : ∀ e ∈ l1.flatten ++ l2.flatten, False := by
    intro e he
    have hm : e ∈ t.es := by
      rw [hes]; rcases List.mem_append.mp he with h | h <;> simp [h]
    have hb : bucket t.cap e.hash = l1.length := by rw [hi.hash e hm, hall e hm, h2]
    have hin : ∀ (i : Nat) (c : List (Entry Nat V)), (l1 ++ chain t (keys.hash k) :: l2)[i]? = some c → e ∈ c → i = l1.length :=
      fun i c hc he => by rw [← hb]; exact (hi.home _ h1 i c hc e he).symm
    rcases List.mem_append.mp he with h3 | h3
    · obtain ⟨c, hc, hec⟩ := List.mem_flatten.mp h3
      obtain ⟨i, hlt, hi'⟩ := List.mem_iff_getElem.mp hc
      have := hin i c (by rw [List.getElem?_append_left hlt, List.getElem?_eq_getElem hlt, hi']) hec
      omega
    · obtain ⟨c, hc, hec⟩ := List.mem_flatten.mp h3
      obtain ⟨i, hlt, hi'⟩ := List.mem_iff_getElem.mp hc
      have := hin (l1.length + (i + 1)) c (by
        rw [List.getElem?_append_right (by omega), show l1.length + (i + 1) - l1.length = i + 1 by omega,
          List.getElem?_cons_succ, List.getElem?_eq_getElem hlt, hi']) hec
      omega
  have hn : l1.flatten ++ l2.flatten = [] := List.eq_nil_iff_forall_not_mem.mpr none_in
  have hl := congrArg List.length hn
  rw [hi.cnt, hes]
  simp only [List.length_append, List.length_nil] at hl ⊢
  omega

theorem findAll_same {c : Nat} : ∀ (xs : List Nat) (t t' : Tbl Nat Nat) (m : Map Nat Nat) (k : Nat), Good c t m →
    Keys Clash t → xs.Nodup →
    (∀ x ∈ xs, Clash x ∧ m x = none) →
    c + 2 * (t.elements + xs.length) < 2 ^ 32 →
    findAll t xs = .ok (t', k) → 2 * t.elements * xs.length + xs.length * (xs.length - 1) ≤ k
  | [], _, _, _, _, _, _, _, _, _, _ => by simp
  | x :: xs, t, t', m, k, hg, hk, hn, hx, hc, hs => by
    obtain ⟨x2, x3⟩ := hx x (by simp)
    simp only [findAll, Res.bind_eq_ok] at hs
    obtain ⟨⟨t1, a⟩, s1, ⟨t2, b⟩, s2, s3⟩ := hs
    cases s3
    rw [List.length_cons] at hc
    rw [find, get_spec hg.inv hg.abs x, x3] at s1
    obtain ⟨tn, y, ad, w, k1, k2, k3⟩ := insert_spec hg.inv hg.abs false x t.elements
    simp only [Res.ok_bind, HTable.insert, k1, Res.ok.injEq, Prod.mk.injEq] at s1
    obtain ⟨rfl, rfl⟩ := s1
    rcases k3 with ⟨rfl, -, -, -, k4⟩ | ⟨-, -, k4, -⟩ | ⟨-, k4, -⟩
    · have kp := put_keys hg.inv k2 hg.abs k4 x3
      have ke : tn.elements = t.elements + 1 := by
        have := kp.length_eq
        simp only [List.length_map, List.length_cons] at this
        rw [k2.cnt, hg.inv.cnt, this]
      obtain ⟨t1, g1, g2, g4, g5, g6, g7', g7⟩ : ∃ t1, grow keys t = .ok t1 ∧ Good c t1 m ∧ Keys Clash t1 ∧
          t1.table ≠ none ∧ t1.limit ≠ 0 ∧ t1.elements = t.elements ∧ t1.elements < t1.cap := by
        have hfew : Few (fun y => y ∈ t.es.map (·.key) ∧ Clash y) t.elements t.es.length := by
          intro j b ys _ hys h
          have := hys.length_le_of_subset fun y hy => ((h y hy).1).1
          simpa using this
        obtain ⟨t1, g1, g2, g3, g4, g5, g6, g7, -⟩ := grow_good hfew hg fun e he =>
          ⟨List.mem_map_of_mem (f := (·.key)) he, hk e he⟩
        exact ⟨t1, g1, g2, fun e he => (g3 e he).2, g4, g5, g6, g7⟩
      obtain ⟨kc, kl⟩ := insert_keeps g1 k1
      have hgn : Good c tn (Map.put m x (some (ad, t.elements))) := by
        rcases g2.room with ⟨r1, -⟩ | ⟨r1, r2, r3, r4⟩
        · exact absurd r1 g6
        exact ⟨k2, k4, hg.start, .inr ⟨by rw [kc, kl, r1], by omega, by rw [kc]; exact r3, by rw [kc, ke]; omega⟩⟩
      have hkn : Keys Clash tn := by
        intro e he
        have := kp.mem_iff.mp (List.mem_map_of_mem (f := (·.key)) he)
        rcases List.mem_cons.mp this with h1 | h1
        · rw [h1]; exact x2
        · obtain ⟨y, hy, hye⟩ := List.mem_map.mp h1
          rw [← hye]; exact hk y hy
      have ih := findAll_same xs tn _ _ b hgn hkn (List.nodup_cons.mp hn).2 (fun y hy => by
        obtain ⟨y2, y3⟩ := hx y (by simp [hy])
        refine ⟨y2, ?_⟩
        rw [Map.put, if_neg (by rintro rfl; exact (List.nodup_cons.mp hn).1 hy)]
        exact y3) (by rw [ke]; omega) s2
      have miss : ∀ (t0 : Tbl Nat Nat), Good c t0 m → t0.elements = t.elements → t0.table ≠ none → t0.limit ≠ 0 → Keys Clash t0 →
          look (keys.hash x) x (chain t0 (keys.hash x)) = t0.elements := by
        intro t0 hg0 he0 ht hl0 hk0
        have ha := hg0.abs
        have hi := hg0.inv
        have hle := cap_le hg0
        rcases hg0.room with ⟨r1, -⟩ | ⟨-, -, ⟨j, r3⟩, -⟩
        · exact absurd r1 hl0
        obtain ⟨l1, l2, h1, h2⟩ := chain_eq hi ht x
        have at0 : ∀ y, Clash y → bucket t0.cap (keys.hash y) = 0 := fun y hy => by rw [r3]; exact hy j (by omega)
        rw [look_miss, chain_all hi ht x fun e he => (at0 _ (hk0 e he)).trans (at0 _ x2).symm]
        intro e he hke
        have hm : e ∈ t0.es := by rw [es_split h1]; simp [he]
        have := (ha x e.addr e.val).mpr ⟨e, hm, hke, rfl, rfl⟩
        rw [x3] at this; cases this
      have hget : getSteps keys t x = t.elements := by
        rw [getSteps]
        split
        · omega
        · rename_i he
          exact miss t hg rfl (table_of_elements hg.inv he) (fun h0 => by have := hg.inv.lim0 h0; omega) hk
      have hins : t.elements ≤ insertSteps keys t x := by
        rw [insertSteps, g1]
        simp only
        rw [miss t1 g2 g7' g5 g6 g4]
        omega
      rw [ke] at ih
      simp only [List.length_cons, Nat.add_sub_cancel]
      have e1 : 2 * (t.elements + 1) * xs.length = 2 * t.elements * xs.length + 2 * xs.length := by
        rw [Nat.mul_add, Nat.add_mul]
      have e2 : 2 * t.elements * (xs.length + 1) = 2 * t.elements * xs.length + 2 * t.elements := by rw [Nat.mul_succ]
      have e3 : (xs.length + 1) * xs.length ≤ xs.length * (xs.length - 1) + 2 * xs.length := by
        cases hq : xs.length with
        | zero => omega
        | succ q =>
          rw [Nat.add_sub_cancel, Nat.mul_comm (q + 1 + 1), Nat.mul_add, Nat.mul_add]
          omega
      omega
    · rw [x3] at k4; cases k4
    · cases k4


end Srl.KeyCost
