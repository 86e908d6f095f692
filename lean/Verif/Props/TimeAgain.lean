import Verif.Lemmas.CostAgain
import Verif.Props.Time

/-! # C92: trees and parsers that were used before work as fast as new ones

The property is: what is done for the names of a document while it is loaded into a tree that was used before, or for those
of a tree while it is saved with a parser that was used before, is at most a multiple of what a new tree or parser would
do (`TreesAsNew`, `ParsersAsNew`). The code violates it: tables that are cleared keep their size, and are allocated and
cleared again in that size for the first name. What holds is a bound with a term for the largest document before. -/

namespace Srl.Props
open Cost

/-! ## Specification -/

/-- Trees, given by their tables of names, into which any documents were loaded, each with less than `N` names -/
inductive UsedTree (N : Nat) : Strs → Prop
  | new : UsedTree N (HTable.new 64)
  | loaded {σ : Type} (read : σ → Res (Event × σ)) (fuel : Nat) (s : σ) {t t' : Strs} {r : Root} {k : Nat} :
      UsedTree N t → loadInto read fuel s t = .ok (r, t', k) → (Room.names r.node).length < N → UsedTree N t'

/-- Parsers of the Srl format with which any trees were saved, of size `N` at most -/
inductive UsedParser (N : Nat) : PSrl.Obj → Prop
  | new : UsedParser N PSrl.Obj.new
  | saved {o o' : PSrl.Obj} {name : Bytes} {n : Node} {b : Bytes} :
      UsedParser N o → o.save names name n = .ok (o', b) → Room.size false n ≤ N → UsedParser N o'

/-- C92 in full, loading: there is a factor that what is done with a used tree never exceeds. -/
def TreesAsNew : Prop :=
  ∃ c : Nat, ∀ (σ : Type) (read : σ → Res (Event × σ)) (fuel : Nat) (s : σ) (N : Nat) (t t' t0 : Strs) (r : Root) (k k0 : Nat),
    UsedTree N t → loadInto read fuel s t = .ok (r, t', k) →
    loadInto read fuel s (HTable.new 64) = .ok (r, t0, k0) → k ≤ c * k0

/-- C92 in full, saving: `c` is such a factor. -/
def ParsersAsNew (c : Nat) : Prop :=
  ∀ (N : Nat) (o o' o0 : PSrl.Obj) (name : Bytes) (n : Node) (k k0 : Nat),
    UsedParser N o → o.saveSteps names name n = .ok (o', k) →
    PSrl.Obj.new.saveSteps names name n = .ok (o0, k0) → k ≤ c * k0

/-! ## What holds -/

private theorem cap_max {V : Type} {c N : Nat} {t : HTable.Tbl Bytes V} {m : Map Bytes V} (h : Good c t m)
    (h1 : c ≤ 64 + 2 * N) (h2 : t.elements ≤ N) : t.cap ≤ 64 + 2 * N := by
  rcases h.room with ⟨r1, r2⟩ | ⟨r1, r2, r3, r4⟩ <;> omega

private theorem used_tree {N : Nat} {t : Strs} (h : UsedTree N t) : ∃ c m, Good c t m ∧ t.cap ≤ 64 + 2 * N := by
  induction h with
  | new => exact ⟨64, _, good_new, by show 64 ≤ _; omega⟩
  | loaded read fuel s ht hl hn ih =>
    obtain ⟨c, m, hg, hc⟩ := ih
    obtain ⟨s', hd⟩ := loadInto_loads hl
    obtain ⟨xs, hp, _, hx⟩ := loadInto_counted read fuel s s' _ hd
    obtain ⟨g1, g2, g3, _⟩ := clear_good hg
    obtain ⟨t2, m2, k2, f1, f2, f3, _⟩ := storeAll_le (few_length xs) g1 g2
    have := hx _ _ _ f1
    rw [hl] at this
    cases this
    refine ⟨_, _, f2, cap_max f2 hc ?_⟩
    have := hp.length_eq
    rw [List.length_cons] at this
    omega

/-- C92 (what holds of loading): with a tree into which documents with less than `N` names were loaded, loading takes at
most what a new tree is known to take (`Cost.load_work`, C90), and `2·N·(4 + L)` more. What is missing: that the last
term were not there. -/
theorem tree_again_partial {σ : Type} {read : σ → Res (Event × σ)} {fuel : Nat} {s s' : σ} {r : Root} {N : Nat} {t : Strs}
    (ht : UsedTree N t) (h : Doc.load read fuel s = .ok (r, s')) :
    ∃ t' k xs, loadInto read fuel s t = .ok (r, t', k) ∧ DocNames read s xs ∧ ∀ L, Spread L xs →
      k ≤ 4 * Room.total (r.name :: Room.names r.node) + 10 * Room.size false r.node + 4 * (L * Room.size false r.node) +
        (64 + 2 * N) * (4 + L) := by
  obtain ⟨c, m, hg, hc⟩ := used_tree ht
  obtain ⟨xs, hp, ho, hx⟩ := loadInto_counted read fuel s s' r h
  obtain ⟨g1, g2, g3, _⟩ := clear_good hg
  obtain ⟨t', _, k, h1, _⟩ := storeAll_le (few_length xs) g1 g2
  refine ⟨t', _, xs, hx _ _ _ h1, ho, fun L hL => ?_⟩
  obtain ⟨t2, -, k2, f1, -, -, -, f2⟩ := storeAll_le (few_spread hL) g1 g2
  rw [h1] at f1
  cases f1
  have e1 := events_length r.name r.node
  have e2 := names_length r.node
  have e3 := total_perm hp
  have e4 := hp.length_eq
  rw [List.length_cons] at e4
  have e5 : L * xs.length ≤ L * Room.size false r.node := Nat.mul_le_mul_left _ (by omega)
  have e6 : (4 + L) * (t.cap + 2 * xs.length) = (4 + L) * t.cap + 8 * xs.length + 2 * (L * xs.length) := by
    rw [Nat.mul_add, Nat.add_mul 4 L (2 * _), Nat.mul_left_comm L 2]; omega
  have e7 : 2 * L * xs.length = 2 * (L * xs.length) := Nat.mul_assoc _ _ _
  have e8 : (4 + L) * t.cap ≤ (64 + 2 * N) * (4 + L) := by
    rw [Nat.mul_comm]; exact Nat.mul_le_mul_right _ hc
  omega

private theorem used_parser {N : Nat} {o : PSrl.Obj} (h : UsedParser N o) :
    ∃ c m, Good c o.hashed m ∧ o.hashed.cap ≤ 64 + 2 * (2 * N) := by
  induction h with
  | new => exact ⟨64, _, good_new, by show 64 ≤ _; omega⟩
  | @saved o o' name n b ho hs hn ih =>
    obtain ⟨c, m, hg, hc⟩ := ih
    obtain ⟨g1, g2, g3, _⟩ := clear_good hg
    obtain ⟨k, hk⟩ := PSrl.stepsAll_ok _ _ _ _ _ hs
    obtain ⟨m', f1, f2, f3, _⟩ := PSrl.stepsAll_good _ [] o.clear _ _ _ (few_length _) g1 (has_none g1 g2) hk
    have e1 := events_length name n
    have e2 : o.clear.hashed.elements = 0 := g2
    exact ⟨_, _, f1, cap_max f1 hc (by omega)⟩

/-- C92 (what holds of saving in the Srl format): with a parser with which trees of size `N` at most were saved, what is
done for the names is linear in the tree, if at most `L` names share a place, with a term for `N`. -/
theorem srl_save_again_partial {N : Nat} {o o' : PSrl.Obj} {name : Bytes} {n : Node} {b : Bytes} (ho : UsedParser N o)
    (h : o.save names name n = .ok (o', b)) :
    ∃ k, o.saveSteps names name n = .ok (o', k) ∧ ∀ L, Spread L (namesWritten n) →
      k ≤ Room.total (name :: Room.names n) + 18 * Room.size false n + 6 * (L * Room.size false n) +
        (64 + 4 * N) * (4 + L) := by
  obtain ⟨c, m, hg, hc⟩ := used_parser ho
  obtain ⟨g1, g2, g3, _⟩ := clear_good hg
  obtain ⟨k, hk⟩ := PSrl.stepsAll_ok _ _ _ _ _ h
  refine ⟨k, hk, fun L hL => ?_⟩
  obtain ⟨m', f1, f2, f3, f4, _⟩ := PSrl.stepsAll_good _ [] o.clear _ _ _
    (by rw [List.nil_append, PSrl.names_saved]; exact few_spread hL) g1 (has_none g1 g2) hk
  have e2 : o.clear.hashed.elements = 0 := g2
  have e1 := events_length name n
  rw [e2, Nat.zero_add] at f3
  have e3 := pot_le f1 L _ f3
  rw [PSrl.total_events] at f4
  generalize (n.events name).length = E at *
  have e4 : (4 + L) * (o.hashed.cap + 2 * E) = (4 + L) * o.hashed.cap + 8 * E + 2 * (L * E) := by
    rw [Nat.mul_add, Nat.add_mul 4 L (2 * _), Nat.mul_left_comm L 2]; omega
  have e5 : (4 + L) * o.hashed.cap ≤ (64 + 4 * N) * (4 + L) := by
    rw [Nat.mul_comm]; exact Nat.mul_le_mul_right _ (by omega)
  have e6 : (1 + L) * E = E + L * E := by rw [Nat.add_mul, Nat.one_mul]
  have e7 : L * E ≤ 2 * (L * Room.size false n) := by
    rw [← Nat.mul_left_comm]; exact Nat.mul_le_mul_left _ e1
  omega

/-! ## What does not hold -/

/-- Negation of C92, loading: after a document with the different names `ys`, any document with a name takes as long as
there are `ys`, however small it is. -/
theorem tree_again_slow {σ τ : Type} {read : σ → Res (Event × σ)} {fuel : Nat} {s : σ} {r : Root} {N k : Nat} {t t' : Strs}
    (ht : UsedTree N t) (h : loadInto read fuel s t = .ok (r, t', k)) (ys : List Bytes) (hn : ys.Nodup)
    (hy : ∀ y ∈ ys, y ≠ [] ∧ y ∈ Room.names r.node)
    {read2 : τ → Res (Event × τ)} {fuel2 : Nat} {s2 s2' : τ} {r2 : Root}
    (h2 : Doc.load read2 fuel2 s2 = .ok (r2, s2')) (x : Bytes) (hx : x ≠ []) (hm : x ∈ Room.names r2.node) :
    ∃ t'' k2, loadInto read2 fuel2 s2 t' = .ok (r2, t'', k2) ∧ ys.length ≤ k2 := by
  obtain ⟨c, m, hg, _⟩ := used_tree ht
  obtain ⟨s', hd⟩ := loadInto_loads h
  obtain ⟨xs, hp, _, hxs⟩ := loadInto_counted read fuel s s' _ hd
  obtain ⟨g1, g2, g3, _⟩ := clear_good hg
  obtain ⟨t2, m2, k2, f1, f2, f3, f4, _⟩ := storeAll_le (few_length xs) g1 g2
  have := hxs _ _ _ f1
  rw [h] at this
  cases this
  obtain ⟨a1, a2⟩ := elements_ge f2 hn fun y hm => f4 y (hp.symm.subset (List.mem_cons_of_mem _ (hy y hm).2)) (hy y hm).1
  obtain ⟨zs, hq, _, hz⟩ := loadInto_counted read2 fuel2 s2 s2' _ h2
  obtain ⟨b1, b2, b3, b4⟩ := clear_good f2
  obtain ⟨t3, m3, k3, d1, _⟩ := storeAll_le (few_length zs) b1 b2
  refine ⟨_, _, hz _ _ _ d1, ?_⟩
  by_cases h0 : ys.length = 0
  · omega
  · have := storeAll_first (b4 (by omega)) b2 ⟨x, hq.symm.subset (List.mem_cons_of_mem _ hm), hx⟩ d1
    omega

/-- C92 does not hold of loading: after `{"…":null,…}` with enough names, `{"a":null}` takes as much longer as one likes. -/
theorem trees_not_as_new : ¬ TreesAsNew := by
  rintro ⟨c, h⟩
  have hm : (⟨some 0, 4096⟩ : Mem).Sane := by show 4096 < 2 ^ 63; decide
  obtain ⟨rd, hs⟩ := json_nulls (fun _ => none) _ hm [str "a"] (by decide +kernel)
  obtain ⟨t0, k0, _, h0, _⟩ := tree_again_partial (N := 0) .new hs
  obtain ⟨a1, a2, a3⟩ := same_hash (c * k0)
  obtain ⟨rd2, hl⟩ := json_nulls (fun _ => none) _ hm (zeroNames (c * k0)) fun x hx => (a3 x hx).2.2
  obtain ⟨t1, k1, _, h1, _⟩ := tree_again_partial (N := 0) .new hl
  have hne : ∀ y ∈ zeroNames (c * k0), y ≠ [] := fun y hy e => by
    have := (a3 y hy).1
    rw [e] at this; simp at this
  have hnames : ∀ xs : List Bytes, Room.names (.mk .object (keptValues (nulls xs)) (keptNodes (nulls xs))) = xs := by
    intro xs
    rw [(nulls_kept xs).1, (nulls_kept xs).2.1]
    simp only [Room.names, Room.namesL, List.append_nil, List.map_map]
    exact List.map_id _
  obtain ⟨t2, k2, h2, h3⟩ := tree_again_slow (N := 0) .new h1 (zeroNames (c * k0)) a2
    (fun y hy => ⟨hne y hy, by rw [hnames]; exact hy⟩) hs (str "a") (by decide) (by rw [hnames]; simp)
  have h4 := h _ _ _ _ _ _ _ _ _ _ _ (.loaded (N := 2 ^ (c * k0) + 1) _ _ _ .new h1 (by rw [hnames, a1]; omega)) h2 h0
  have : c * k0 < 2 ^ (c * k0) := Nat.lt_two_pow_self
  omega

/-- 65 different names -/
private def sample : List Bytes := (List.range 65).map fun i => [65, UInt8.ofNat (48 + i % 40), UInt8.ofNat (97 + i / 40)]

private def into (t : Strs) (xs : List Bytes) : Strs × Nat :=
  match loadInto (PJson.read ⟨some 0, 4096⟩ fun _ => none) ((jsonNulls xs).length + 2)
    (PJson.Rd.new.clear, 123 :: jsonNulls xs) t with
  | .ok (_, t, k) => (t, k)
  | _ => (t, 0)

/-- Loading `{"a":null}` takes 71 with a new tree, and with one into which 65 names were loaded, 135. -/
example : (into (HTable.new 64) [str "a"]).2 = 71 ∧ (into (into (HTable.new 64) sample).1 [str "a"]).2 = 135 := by
  decide +kernel

/-- Negation of C92, saving: after a tree for which the different names `ys` are written, saving any object with a value
with a name takes as long as there are `ys`. -/
theorem srl_save_again_slow {N : Nat} {o o' o'' : PSrl.Obj} {name name2 x : Bytes} {n : Node} {vs2 : List (Bytes × Val)}
    {ns2 : List (Bytes × Node)} {v : Val} {b b2 : Bytes} (ho : UsedParser N o)
    (h : o.save names name n = .ok (o', b)) (ys : List Bytes) (hn : ys.Nodup)
    (hy : ∀ y ∈ ys, y ≠ [] ∧ y ∈ namesWritten n) (hx : x ≠ [])
    (h2 : o'.save names name2 (.mk .object ((x, v) :: vs2) ns2) = .ok (o'', b2)) :
    ∃ k, o'.saveSteps names name2 (.mk .object ((x, v) :: vs2) ns2) = .ok (o'', k) ∧ ys.length ≤ k := by
  obtain ⟨c, m, hg, _⟩ := used_parser ho
  obtain ⟨g1, g2, g3, _⟩ := clear_good hg
  have scope : ∀ (p p' : PSrl.Obj) (nm : Bytes) (e : List Event) (k : Nat),
      p.clear.stepsAll names (⟨nm, .scope .object⟩ :: e) = .ok (p', k) →
      ∃ k', PSrl.Obj.stepsAll names ⟨[.object], [], HTable.clear p.hashed⟩ e = .ok (p', k') ∧ k' ≤ k := by
    intro p p' nm e k hk
    simp only [PSrl.Obj.stepsAll, Res.bind_eq_ok] at hk
    obtain ⟨⟨o1, b⟩, h1, ⟨o2, k2⟩, h2, h3⟩ := hk
    cases h3
    have : o1 = ⟨[.object], [], HTable.clear p.hashed⟩ := by
      simp only [PSrl.Obj.write, PSrl.Obj.writeHead, PSrl.Obj.clear] at h1
      rw [if_pos (.inr (by simp))] at h1
      simp only [Res.ok_bind] at h1
      cases h1; rfl
    subst this
    exact ⟨k2, h2, by omega⟩
  obtain ⟨k1, hk1⟩ := PSrl.stepsAll_ok _ _ _ _ _ h
  obtain ⟨m2, q1, q2, _⟩ := PSrl.stepsAll_good _ [] o.clear _ _ _ (few_length _) g1 (has_none g1 g2) hk1
  obtain ⟨e1, e2⟩ := elements_ge q1 hn fun y hm => by
    obtain ⟨h1, h2⟩ := hy y hm
    refine q2.all y ?_ h1
    rw [List.nil_append, PSrl.names_saved]
    exact h2
  obtain ⟨b1, b2', b3, b4⟩ := clear_good q1
  obtain ⟨k, hk⟩ := PSrl.stepsAll_ok _ _ _ _ _ h2
  refine ⟨k, hk, ?_⟩
  by_cases h0 : ys.length = 0
  · omega
  obtain ⟨k3, hk3, hle⟩ := scope o' o'' name2 _ _ hk
  simp only [List.map_cons, List.cons_append, PSrl.Obj.stepsAll, Res.bind_eq_ok] at hk3
  obtain ⟨⟨o3, _⟩, j1, ⟨o4, k4⟩, _, j3⟩ := hk3
  cases j3
  obtain ⟨_, _, _, j4⟩ := PSrl.write_value (o := ⟨[.object], [], HTable.clear o'.hashed⟩) rfl hx j1
  have := insertSteps_first (HTable.clear o'.hashed) (b4 (by omega)) x
  rw [j4] at hle
  dsimp only at hle
  omega

/-- The names of a document as a tree -/
private def nullTree (xs : List Bytes) : Node := .mk .object (xs.map fun x => (x, .null)) []

private theorem tree_events (xs : List Bytes) : (nullTree xs).events [] =
    ⟨[], .scope .object⟩ :: (xs.map (fun x => (⟨x, .val .null⟩ : Event)) ++ [⟨[], .scopeEnd⟩]) := by
  simp [nullTree, Node.events, Node.eventsL, Function.comp_def]

private theorem null_tree_saved {N : Nat} {o : PSrl.Obj} (ho : UsedParser N o) {h : UInt64} (xs : List Bytes) (hn : xs.Nodup)
    (hx : ∀ x ∈ xs, x ≠ [] ∧ x.length < 2 ^ 64 ∧ names.hash x = h) : ∃ o' b, o.save names [] (nullTree xs) = .ok (o', b) := by
  obtain ⟨c, m, hg, _⟩ := used_parser ho
  obtain ⟨g1, g2, g3, _⟩ := clear_good hg
  have hnil : (HTable.clear o.hashed).es = [] := by
    have := g1.inv.cnt
    rw [g2] at this
    exact List.eq_nil_of_length_eq_zero this.symm
  obtain ⟨o', b, h1, h2⟩ := PSrl.values_ok (h := h) xs ⟨[.object], [], HTable.clear o.hashed⟩ _ g1 (by
    intro e he
    rw [show (HTable.clear o.hashed).es = [] from hnil] at he
    cases he) rfl hn fun x hm => ⟨(hx x hm).1, (hx x hm).2.1, (hx x hm).2.2, rfl⟩
  have app : ∀ (xs ys : List Event) (p p' q : PSrl.Obj) (a c : Bytes), p.writeAll names xs = .ok (p', a) →
      p'.writeAll names ys = .ok (q, c) → ∃ d, p.writeAll names (xs ++ ys) = .ok (q, d) := by
    intro xs ys
    induction xs with
    | nil => intro p p' q a c h1 h2; cases h1; exact ⟨c, h2⟩
    | cons x xs ih =>
      intro p p' q a c h1 h2
      simp only [PSrl.Obj.writeAll, Res.bind_eq_ok] at h1
      obtain ⟨⟨o1, b1⟩, i1, ⟨o2, b2⟩, i2, i3⟩ := h1
      cases i3
      obtain ⟨d, hd⟩ := ih _ _ _ _ _ i2 h2
      exact ⟨b1 ++ d, by simp [PSrl.Obj.writeAll, i1, hd]⟩
  obtain ⟨d, hd⟩ := app _ [⟨[], .scopeEnd⟩] _ _ ⟨[], o'.indexed, o'.hashed⟩ _ ([0] ++ []) h1 (by
    simp [PSrl.Obj.writeAll, PSrl.Obj.write, h2])
  refine ⟨⟨[], o'.indexed, o'.hashed⟩, PSrl.flagOf (.scope .object) :: d, ?_⟩
  rw [PSrl.Obj.save, tree_events, PSrl.Obj.writeAll]
  simp only [PSrl.Obj.write, PSrl.Obj.writeHead, PSrl.Obj.clear]
  rw [if_pos (.inr (by simp))]
  simp only [Res.ok_bind, hd]
  rfl

private theorem zero_names (n : Nat) (hn : n < 2 ^ 60) : ∀ x ∈ zeroNames n, x ≠ [] ∧ x.length < 2 ^ 64 ∧ names.hash x = 0 := by
  obtain ⟨a1, a2, a3⟩ := same_hash n
  intro x hx
  obtain ⟨b1, b2, _⟩ := a3 x hx
  exact ⟨fun e => by rw [e] at b1; simp at b1, by omega, UInt64.toNat_inj.mp (by rw [hash_nat, b2]; rfl)⟩

/-- Saving in the Srl format takes time in the square of the size of the tree if the names have the same hash (see C90). -/
theorem srl_save_quadratic (n : Nat) (hn : n < 2 ^ 60) :
    ∃ o b k, PSrl.Obj.new.save names [] (.mk .object ((zeroNames n).map fun x => (x, .null)) []) = .ok (o, b) ∧
      PSrl.Obj.new.saveSteps names [] (.mk .object ((zeroNames n).map fun x => (x, .null)) []) = .ok (o, k) ∧
      2 ^ n * (2 ^ n - 1) ≤ 2 * k := by
  obtain ⟨a1, a2, a3⟩ := same_hash n
  obtain ⟨o, b, hs⟩ := null_tree_saved (N := 0) .new (zeroNames n) a2 (zero_names n hn)
  obtain ⟨k, hk⟩ := PSrl.stepsAll_ok _ _ _ _ _ hs
  refine ⟨o, b, k, hs, hk, ?_⟩
  rw [tree_events] at hk
  simp only [PSrl.Obj.stepsAll, Res.bind_eq_ok] at hk
  obtain ⟨⟨o1, b⟩, h1, ⟨o2, k2⟩, h2, h3⟩ := hk
  cases h3
  have : o1 = ⟨[.object], [], HTable.new 64⟩ := by
    simp only [PSrl.Obj.write, PSrl.Obj.writeHead, PSrl.Obj.clear, PSrl.Obj.new] at h1
    rw [if_pos (.inr (by simp))] at h1
    simp only [Res.ok_bind] at h1
    cases h1; rfl
  subst this
  obtain ⟨o3, a, b, i1, i2, rfl⟩ := PSrl.stepsAll_append h2
  have := PSrl.values_same (h := 0) (zeroNames n) _ _ _ _ good_new (by intro e he; simp [HTable.new, HTable.Tbl.es] at he) rfl a2
    (fun x hx => ⟨(zero_names n hn x hx).1, (zero_names n hn x hx).2.2, rfl⟩) i1
  rw [a1] at this
  have e : (HTable.new 64 : HTable.Tbl Bytes Nat).elements = 0 := rfl
  simp only [e] at this
  omega

/-- C92 does not hold of saving in the Srl format, with any factor worth the name. (Names have less than `2^64` bytes, so
there is a last one.) -/
theorem parsers_not_as_new (c e : Nat) (he : e < 2 ^ 59) (hc : c < 2 ^ e) : ¬ ParsersAsNew c := by
  intro h
  have one : ∀ x ∈ [zero], x ≠ [] ∧ x.length < 2 ^ 64 ∧ names.hash x = 0 := by
    intro x hx
    exact zero_names 0 (by decide) x (by simpa [zeroNames, tails] using hx)
  obtain ⟨o0, b0, hs⟩ := null_tree_saved (N := 0) .new [zero] (by simp) one
  obtain ⟨k0, hk0, hb⟩ := srl_save_again_partial (N := 0) .new hs
  have hk : k0 ≤ 1000 := (hb _ (spread_length _)).trans (by decide +kernel)
  have hn1 : c * k0 < 2 ^ (e + 1000) := by
    rw [Nat.pow_add]
    have : k0 < 2 ^ k0 := Nat.lt_two_pow_self
    have h3 : 2 ^ k0 ≤ 2 ^ 1000 := Nat.pow_le_pow_right (by omega) hk
    exact Nat.mul_lt_mul_of_lt_of_le hc (Nat.le_of_lt (Nat.lt_of_lt_of_le this h3)) (Nat.lt_of_le_of_lt (Nat.zero_le _) (Nat.lt_of_lt_of_le this h3))
  have hn2 : e + 1000 < 2 ^ 60 := by omega
  generalize e + 1000 = n at hn1 hn2
  obtain ⟨a1, a2, a3⟩ := same_hash n
  obtain ⟨o1, b1, h1⟩ := null_tree_saved (N := 0) .new (zeroNames n) a2 (zero_names n hn2)
  have hu : UsedParser (Room.size false (nullTree (zeroNames n))) o1 := .saved .new h1 (Nat.le_refl _)
  obtain ⟨o2, b2, h2⟩ := null_tree_saved hu [zero] (by simp) one
  obtain ⟨k, hk, hle⟩ := srl_save_again_slow (N := 0) .new h1 (zeroNames n) a2
    (fun y hy => ⟨(zero_names n hn2 y hy).1, by simpa [nullTree, namesWritten, namesWrittenL] using hy⟩) (one zero (by simp)).1 h2
  have := h _ _ _ _ _ _ _ _ hu hk hk0
  omega

end Srl.Props
