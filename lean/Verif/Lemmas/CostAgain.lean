import Verif.Lemmas.Time
import Verif.Model.CostAgain
import Verif.Props.Reuse

/-! # Helper lemmas about the work with trees and parsers that were used before -/

namespace Srl.Cost
open HTable Props

variable {V : Type} {σ : Type}

/-- A table that is cleared keeps its capacity. -/
theorem clear_good {c : Nat} {t : Tbl Bytes V} {m : Map Bytes V} (h : Good c t m) :
    Good t.cap (HTable.clear t) (fun _ => none) ∧ (HTable.clear t).elements = 0 ∧ (HTable.clear t).cap = t.cap ∧
      (1 ≤ t.elements → (HTable.clear t).limit = 0) := by
  obtain ⟨h1, h2⟩ := clear_spec h.inv h.abs
  have hc : (HTable.clear t).cap = t.cap := by unfold HTable.clear; split <;> rfl
  have hs : ∃ j, t.cap = 64 * 2 ^ j := by
    rcases h.room with ⟨r1, r2⟩ | ⟨r1, r2, r3, r4⟩
    · rw [r2]; exact h.start
    · exact r3
  have he : (HTable.clear t).elements = 0 := by
    unfold HTable.clear
    split
    · omega
    · rfl
  refine ⟨⟨h1, h2, hs, ?_⟩, he, hc, ?_⟩
  · unfold HTable.clear
    split
    · rcases h.room with ⟨r1, r2⟩ | ⟨r1, r2, r3, r4⟩
      · exact .inl ⟨r1, rfl⟩
      · exact .inr ⟨r1, r2, r3, .inl rfl⟩
    · exact .inl ⟨rfl, rfl⟩
  · intro hp
    unfold HTable.clear
    rw [if_neg (by omega)]

/-- The first name that is added allocates the table. -/
theorem insertSteps_first (t : Tbl Bytes V) (hl : t.limit = 0) (name : Bytes) : t.cap ≤ insertSteps names t name := by
  rw [insertSteps, if_pos (.inl (by omega)), redistributeSteps, if_pos hl]
  simp only [setCapacity]
  omega

theorem storeAll_first {t t' : Strs} {k : Nat} {xs : List Bytes} (hl : t.limit = 0) (he : t.elements = 0)
    (hx : ∃ x ∈ xs, x ≠ []) (h : storeAll t xs = .ok (t', k)) : t.cap ≤ k := by
  rw [storeAll_filter] at h
  obtain ⟨x, hx, hne⟩ := hx
  cases hf : xs.filter (· ≠ []) with
  | nil =>
    have : x ∈ xs.filter (· ≠ []) := List.mem_filter.mpr ⟨hx, by simpa using hne⟩
    rw [hf] at this; cases this
  | cons y ys =>
    have hy : y ≠ [] := by
      have : y ∈ xs.filter (· ≠ []) := by rw [hf]; simp
      simpa using (List.mem_filter.mp this).2
    rw [hf] at h
    simp only [storeAll, Res.bind_eq_ok] at h
    obtain ⟨⟨t1, a⟩, h1, ⟨t2, b⟩, _, h3⟩ := h
    cases h3
    have hlen := List.length_pos_iff.mpr hy
    rw [storeString, if_neg (by omega)] at h1
    simp only [HTable.get, he, Nat.zero_lt_one, if_true, Res.ok_bind, Res.bind_eq_ok] at h1
    obtain ⟨⟨t3, _⟩, _, h1⟩ := h1
    cases h1
    have := insertSteps_first t hl y
    omega

/-- What is done when a document is loaded, whatever the table is. -/
theorem loadInto_counted (read : σ → Res (Event × σ)) (fuel : Nat) (s s' : σ) (r : Root)
    (h : Doc.load read fuel s = .ok (r, s')) :
    ∃ xs : List Bytes, xs.Perm (r.name :: Room.names r.node) ∧ DocNames read s xs ∧ ∀ t t' k, storeAll (HTable.clear t) xs = .ok (t', k) →
      loadInto read fuel s t = .ok (r, t', k + (r.node.events r.name).length) := by
  simp only [Doc.load, Res.bind_eq_ok] at h
  obtain ⟨⟨e, s1⟩, h1, h2⟩ := h
  obtain ⟨name, tok⟩ := e
  cases tok with
  | scopeEnd => cases h2
  | val v => cases h2
  | scope ty =>
    simp only [Res.bind_eq_ok] at h2
    obtain ⟨⟨⟨vs, ns⟩, s2⟩, h3, h4⟩ := h2
    cases h4
    obtain ⟨xs, hp, o1, -, hx⟩ := readScope_counted read fuel 0 _ _ _ _ h3
    refine ⟨name :: xs, by simpa [Room.names] using hp, ⟨_, _, _, _, h1, o1, rfl⟩, fun t t' k hk => ?_⟩
    simp only [storeAll, Res.bind_eq_ok] at hk
    obtain ⟨⟨t1, a⟩, g1, ⟨t2, b⟩, g2, g3⟩ := hk
    cases g3
    simp only [loadInto, Doc.load, counted, h1, Res.ok_bind, g1, hx _ _ _ _ g2]
    congr 3
    simp only [Node.events, List.length_cons, List.length_append, List.length_map, List.length_nil]
    omega

theorem counted_ok (read : σ → Res (Event × σ)) {x : σ × Strs × Nat} {e : Event} {y : σ × Strs × Nat}
    (h : counted read x = .ok (e, y)) : read x.1 = .ok (e, y.1) := by
  simp only [counted, Res.bind_eq_ok] at h
  obtain ⟨⟨e1, s⟩, h1, h2⟩ := h
  dsimp only at h2
  split at h2
  · cases h2; exact h1
  · simp only [Res.bind_eq_ok] at h2
    obtain ⟨⟨t, n⟩, _, h2⟩ := h2
    cases h2; exact h1

theorem readScope_uncounted (read : σ → Res (Event × σ)) : ∀ (fuel depth : Nat) (x y : σ × Strs × Nat)
    (vs : List (Bytes × Val)) (ns : List (Bytes × Node)),
    Doc.readScope (counted read) fuel depth x = .ok ((vs, ns), y) → Doc.readScope read fuel depth x.1 = .ok ((vs, ns), y.1)
  | 0, _, _, _, _, _, h => by cases h
  | fuel + 1, depth, x, y, vs, ns, h => by
    simp only [Doc.readScope, Res.bind_eq_ok] at h
    obtain ⟨⟨e, x1⟩, h1, h2⟩ := h
    have g1 := counted_ok read h1
    obtain ⟨name, tok⟩ := e
    rw [Doc.readScope, g1]
    cases tok with
    | scopeEnd => cases h2; rfl
    | val v =>
      simp only [Res.bind_eq_ok] at h2
      obtain ⟨⟨⟨vs1, ns1⟩, x2⟩, h3, h4⟩ := h2
      cases h4
      simp only [Res.ok_bind, readScope_uncounted read fuel _ _ _ _ _ h3]
    | scope ty =>
      dsimp only at h2
      simp only [Res.ok_bind]
      split at h2
      · cases h2
      · rename_i hd
        rw [if_neg hd]
        simp only [Res.bind_eq_ok] at h2
        obtain ⟨⟨⟨vs1, ns1⟩, x2⟩, h3, ⟨⟨vs2, ns2⟩, x3⟩, h5, h4⟩ := h2
        cases h4
        simp only [Res.ok_bind, readScope_uncounted read fuel _ _ _ _ _ h3, readScope_uncounted read fuel _ _ _ _ _ h5]

/-- What is loaded does not depend on the counting. -/
theorem loadInto_loads {read : σ → Res (Event × σ)} {fuel : Nat} {s : σ} {t t' : Strs} {r : Root} {k : Nat}
    (h : loadInto read fuel s t = .ok (r, t', k)) : ∃ s', Doc.load read fuel s = .ok (r, s') := by
  simp only [loadInto, Res.bind_eq_ok] at h
  obtain ⟨⟨r1, x⟩, h1, h2⟩ := h
  cases h2
  simp only [Doc.load, Res.bind_eq_ok] at h1
  obtain ⟨⟨e, x1⟩, h3, h4⟩ := h1
  have g1 := counted_ok read h3
  obtain ⟨name, tok⟩ := e
  cases tok with
  | scopeEnd => cases h4
  | val v => cases h4
  | scope ty =>
    simp only [Res.bind_eq_ok] at h4
    obtain ⟨⟨⟨vs, ns⟩, x2⟩, h5, h6⟩ := h4
    cases h6
    refine ⟨x2.1, ?_⟩
    rw [Doc.load, g1]
    simp only [Res.ok_bind, readScope_uncounted read _ _ _ _ _ _ h5]

/-- A new name among others with its hash -/
theorem insert_same {c : Nat} {h : UInt64} {t : Tbl Bytes V} {m : Map Bytes V} (hg : Good c t m)
    (hk : Keys (fun y => names.hash y = h) t) {x : Bytes} (x2 : names.hash x = h) (x3 : m x = none) (v : V) :
    ∃ t' m' y, HTable.insert names t x v = .ok (t', y) ∧ Good c t' m' ∧ Keys (fun y => names.hash y = h) t' ∧
      t'.elements = t.elements + 1 ∧ t.elements ≤ insertSteps names t x ∧ (∀ z, z ≠ x → m' z = m z) ∧ y.1 = false := by
  obtain ⟨tn, y, ad, w, k1, k2, k3⟩ := insert_spec hg.inv hg.abs false x v
  rcases k3 with ⟨rfl, -, -, -, k4⟩ | ⟨-, -, k4, -⟩ | ⟨-, k4, -⟩
  · have kp := put_keys hg.inv k2 hg.abs k4 x3
    have ke : tn.elements = t.elements + 1 := by
      have := kp.length_eq
      simp only [List.length_map, List.length_cons] at this
      rw [k2.cnt, hg.inv.cnt, this]
    obtain ⟨t1, g1, g2, g4, g5, g6, g7⟩ : ∃ t1, grow names t = .ok t1 ∧ Good c t1 m ∧
        Keys (fun y => names.hash y = h) t1 ∧ t1.table ≠ none ∧ t1.limit ≠ 0 ∧ t1.elements = t.elements ∧
        t1.elements < t1.cap := by
      have hfew : Few (fun y => y ∈ t.es.map (·.key) ∧ names.hash y = h) t.elements t.es.length := by
        intro j b ys _ hys h
        have := hys.length_le_of_subset fun y hy => ((h y hy).1).1
        simpa using this
      obtain ⟨t1, g1, g2, g3, g4, g5, g6, g7, -⟩ := grow_good hfew hg fun e he =>
        ⟨List.mem_map_of_mem (f := (·.key)) he, hk e he⟩
      exact ⟨t1, g1, g2, fun e he => (g3 e he).2, g4, g5, g6, g7⟩
    obtain ⟨kc, kl⟩ := insert_keeps g1 k1
    refine ⟨tn, m.put x (some (ad, v)), _, k1, ?_, ?_, ke, ?_, fun z hz => if_neg hz, rfl⟩
    · rcases g2.room with ⟨r1, -⟩ | ⟨r1, r2, r3, r4⟩
      · exact absurd r1 g6
      exact ⟨k2, k4, hg.start, .inr ⟨by rw [kc, kl, r1], by omega, by rw [kc]; exact r3, by rw [kc, ke]; omega⟩⟩
    · intro e he
      have := kp.mem_iff.mp (List.mem_map_of_mem (f := (·.key)) he)
      rcases List.mem_cons.mp this with h1 | h1
      · rw [h1]; exact x2
      · obtain ⟨y, hy, hye⟩ := List.mem_map.mp h1
        rw [← hye]; exact hk y hy
    · obtain ⟨l1, l2, h1, h2⟩ := chain_eq g2.inv g5 x
      have : look (names.hash x) x (chain t1 (names.hash x)) = t1.elements := by
        rw [look_miss, x2, chain_all g2.inv g5 x x2 g4]
        intro e he hke
        have hm : e ∈ t1.es := by rw [es_split h1]; simp [he]
        have := (g2.abs x e.addr e.val).mpr ⟨e, hm, hke, rfl, rfl⟩
        rw [x3] at this; cases this
      rw [insertSteps, g1]
      simp only
      rw [this]
      omega
  · rw [x3] at k4; cases k4
  · cases k4

end Srl.Cost

namespace Srl.PSrl
open Cost HTable Props

/-- The names of tokens -/
def namesOf (es : List Event) : List Bytes := es.map (·.name)

/-- Counting succeeds where writing does. -/
theorem stepsAll_ok (cfg : Cfg Bytes) : ∀ (es : List Event) (o o' : Obj) (b : Bytes),
    o.writeAll cfg es = .ok (o', b) → ∃ k, o.stepsAll cfg es = .ok (o', k)
  | [], o, o', b, h => by cases h; exact ⟨0, rfl⟩
  | e :: es, o, o', b, h => by
    simp only [Obj.writeAll, Res.bind_eq_ok] at h
    obtain ⟨⟨o1, b1⟩, h1, ⟨o2, b2⟩, h2, h3⟩ := h
    cases h3
    obtain ⟨k, hk⟩ := stepsAll_ok cfg es _ _ _ h2
    exact ⟨o.steps cfg e + k, by simp [Obj.stepsAll, h1, hk]⟩

/-- What writing a token does to the table -/
theorem write_table {o o' : Obj} {e : Event} {b : Bytes} (h : o.write names e = .ok (o', b)) :
    (o'.hashed = o.hashed ∧ o.steps names e = 1 ∧ (e.name = [] ∨ e.tok = .scopeEnd ∨ o.stack.head? ≠ some .object)) ∨
    (e.name ≠ [] ∧ e.tok ≠ .scopeEnd ∧ o.stack.head? = some .object ∧ ∃ x, HTable.insert names o.hashed e.name o.hashed.elements = .ok (o'.hashed, x) ∧
      o.steps names e = 1 + e.name.length + insertSteps names o.hashed e.name) := by
  have head : ∀ (flag : UInt8) (t : Tbl Bytes Nat) (q : Bytes), o.writeHead names flag e.name = .ok (t, q) →
      (t = o.hashed ∧ (e.name.length < 1 ∨ o.stack.head? ≠ some .object)) ∨
      (e.name ≠ [] ∧ ¬ (e.name.length < 1 ∨ o.stack.head? ≠ some .object) ∧ o.stack.head? = some .object ∧
        ∃ x, HTable.insert names o.hashed e.name o.hashed.elements = .ok (t, x)) := by
    intro flag t q hw
    unfold Obj.writeHead at hw
    split at hw
    · rename_i hc
      cases hw; exact .inl ⟨rfl, hc⟩
    · rename_i hc
      simp only [Res.bind_eq_ok] at hw
      obtain ⟨⟨t1, ex, a, i⟩, h1, h2⟩ := hw
      refine .inr ⟨fun hn => hc (.inl (by rw [hn]; decide)), hc, Decidable.byContradiction fun h => hc (.inr h), (ex, a, i), ?_⟩
      dsimp only at h2
      split at h2
      · simp only [Res.bind_eq_ok] at h2
        obtain ⟨n, _, h2⟩ := h2
        cases h2; exact h1
      · simp only [Res.bind_eq_ok] at h2
        obtain ⟨n, _, h2⟩ := h2
        cases h2; exact h1
  obtain ⟨name, tok⟩ := e
  unfold Obj.write at h
  cases tok with
  | scopeEnd =>
    left
    dsimp only at h
    split at h
    · cases h
    · cases h; exact ⟨rfl, rfl, .inr (.inl rfl)⟩
  | scope t =>
    simp only [Res.bind_eq_ok] at h
    obtain ⟨⟨t1, q⟩, h1, h2⟩ := h
    cases h2
    rcases head _ _ _ h1 with ⟨g1, g2⟩ | ⟨g1, g2, g4, x, g3⟩
    · refine .inl ⟨g1, by unfold Obj.steps; exact if_pos g2, ?_⟩
      rcases g2 with g2 | g2
      · exact .inl (List.length_eq_zero_iff.mp (by omega))
      · exact .inr (.inr g2)
    · exact .inr ⟨g1, by simp, g4, x, g3, by unfold Obj.steps; exact if_neg g2⟩
  | val v =>
    simp only [Res.bind_eq_ok] at h
    obtain ⟨⟨t1, q⟩, h1, w, _, h2⟩ := h
    cases h2
    rcases head _ _ _ h1 with ⟨g1, g2⟩ | ⟨g1, g2, g4, x, g3⟩
    · refine .inl ⟨g1, by unfold Obj.steps; exact if_pos g2, ?_⟩
      rcases g2 with g2 | g2
      · exact .inl (List.length_eq_zero_iff.mp (by omega))
      · exact .inr (.inr g2)
    · exact .inr ⟨g1, by simp, g4, x, g3, by unfold Obj.steps; exact if_neg g2⟩

/-- The names that are written for tokens, if these scopes are open -/
def namesIn : List ScopeTy → List Event → List Bytes
  | _, [] => []
  | stack, ⟨_, .scopeEnd⟩ :: es => namesIn stack.tail es
  | stack, ⟨name, .scope t⟩ :: es => (if stack.head? = some .object then [name] else []) ++ namesIn (t :: stack) es
  | stack, ⟨name, .val _⟩ :: es => (if stack.head? = some .object then [name] else []) ++ namesIn stack es

private theorem namesIn_values (stack : List ScopeTy) (es : List Event) : ∀ vs : List (Bytes × Val),
    namesIn stack ((vs.map fun p => (⟨p.1, .val p.2⟩ : Event)) ++ es) =
      (if stack.head? = some .object then vs.map (·.1) else []) ++ namesIn stack es
  | [] => by simp
  | v :: vs => by
    have := namesIn_values stack es vs
    simp only [List.map_cons, List.cons_append, namesIn, this]
    split <;> simp

mutual
/-- The names that are written for a tree -/
theorem namesIn_events : ∀ (n : Node) (name : Bytes) (stack : List ScopeTy) (es : List Event),
    namesIn stack (n.events name ++ es) =
      (if stack.head? = some .object then [name] else []) ++ (namesWritten n ++ namesIn stack es)
  | .mk t vs ns, name, stack, es => by
    have h1 := namesIn_eventsL ns t stack (⟨[], .scopeEnd⟩ :: es)
    rw [Node.events, namesWritten]
    simp only [List.cons_append, List.append_assoc, namesIn, namesIn_values, List.head?_cons, Option.some.injEq,
      List.nil_append, h1, List.tail_cons]
theorem namesIn_eventsL : ∀ (ns : List (Bytes × Node)) (t : ScopeTy) (stack : List ScopeTy) (es : List Event),
    namesIn (t :: stack) (Node.eventsL ns ++ es) = namesWrittenL t ns ++ namesIn (t :: stack) es
  | [], t, stack, es => by simp [Node.eventsL, namesWrittenL]
  | (name, n) :: ns, t, stack, es => by
    have h1 := namesIn_events n name (t :: stack) (Node.eventsL ns ++ es)
    have h2 := namesIn_eventsL ns t stack es
    rw [Node.eventsL, namesWrittenL, List.append_assoc, h1, h2]
    simp
end

theorem names_saved (o : Obj) (n : Node) (name : Bytes) : namesIn o.clear.stack (n.events name) = namesWritten n := by
  have := namesIn_events n name [] []
  simp only [List.append_nil, namesIn, List.head?_nil, reduceCtorEq, if_false, List.nil_append] at this
  exact this

/-- The scopes that are open after a token -/
theorem write_stack {o o' : Obj} {e : Event} {b : Bytes} (h : o.write names e = .ok (o', b)) (es : List Event) :
    namesIn o.stack (e :: es) = (if e.tok ≠ .scopeEnd ∧ o.stack.head? = some .object then [e.name] else []) ++
      namesIn o'.stack es := by
  obtain ⟨name, tok⟩ := e
  unfold Obj.write at h
  cases tok with
  | scopeEnd =>
    dsimp only at h
    split at h
    · cases h
    · rename_i hs
      cases h
      simp [namesIn, hs]
  | scope t =>
    simp only [Res.bind_eq_ok] at h
    obtain ⟨⟨t1, q⟩, h1, h2⟩ := h
    cases h2
    simp [namesIn]
  | val v =>
    simp only [Res.bind_eq_ok] at h
    obtain ⟨⟨t1, q⟩, h1, w, _, h2⟩ := h
    cases h2
    simp [namesIn]

theorem stepsAll_good {L c : Nat} : ∀ (es : List Event) (pre : List Bytes) (o o' : Obj) (k : Nat)
    (m : Map Bytes Nat), FewAll L (pre ++ namesIn o.stack es) → Good c o.hashed m → Has pre o.hashed m →
    o.stepsAll names es = .ok (o', k) →
    ∃ m', Good c o'.hashed m' ∧ Has (pre ++ namesIn o.stack es) o'.hashed m' ∧
      o'.hashed.elements ≤ o.hashed.elements + es.length ∧
      k + pot L o.hashed ≤ Room.total (namesOf es) + (1 + L) * es.length + pot L o'.hashed ∧
      (∀ y, m y ≠ none → m' y ≠ none)
  | [], pre, o, o', k, m, _, hg, hk, h => by
    cases h
    refine ⟨m, hg, ?_, by simp, by simp [Room.total, namesOf], fun _ h => h⟩
    rw [namesIn, List.append_nil]; exact hk
  | e :: es, pre, o, o', k, m, hL, hg, hk, h => by
    simp only [Obj.stepsAll, Res.bind_eq_ok] at h
    obtain ⟨⟨o1, b⟩, h1, ⟨o2, k2⟩, h2, h3⟩ := h
    cases h3
    dsimp only
    have tot : Room.total (namesOf (e :: es)) = e.name.length + Room.total (namesOf es) := by simp [Room.total, namesOf]
    rw [tot, List.length_cons, Nat.mul_succ]
    rw [write_stack h1 es] at hL ⊢
    rcases write_table h1 with ⟨g1, g2, g4⟩ | ⟨g1, g5, g4, x, g2, g3⟩
    · by_cases hc : e.tok ≠ .scopeEnd ∧ o.stack.head? = some .object
      · rw [if_pos hc] at hL ⊢
        have hn : e.name = [] := by
          rcases g4 with h | h | h
          · exact h
          · exact absurd h hc.1
          · exact absurd hc.2 h
        rw [hn] at hL ⊢
        have hh : Has (pre ++ [[]]) o.hashed m := hk.more (hk.wider _) (fun _ h => h) (fun h => absurd rfl h)
        rw [← List.append_assoc] at hL ⊢
        obtain ⟨m', f1, f2, f3, f4, f5⟩ := stepsAll_good es (pre ++ [[]]) o1 _ _ m hL (by rw [g1]; exact hg)
          (by rw [g1]; exact hh) h2
        rw [g1] at f3 f4
        exact ⟨m', f1, f2, by omega, by omega, f5⟩
      · rw [if_neg hc, List.nil_append] at hL ⊢
        obtain ⟨m', f1, f2, f3, f4, f5⟩ := stepsAll_good es pre o1 _ _ m hL (by rw [g1]; exact hg)
          (by rw [g1]; exact hk) h2
        rw [g1] at f3 f4
        exact ⟨m', f1, f2, by omega, by omega, f5⟩
    · rw [if_pos ⟨g5, g4⟩] at hL ⊢
      obtain ⟨t', m1, y, a1, a2, a3, a4, a5, a6, a7⟩ := insert_good (P := fun y => y ∈ pre ++ [e.name] ∧ y ≠ [])
        (hk.few hg (hL pre (List.prefix_append _ _))) hk.keys hg (hk.wider _) e.name ⟨by simp, g1⟩ o.hashed.elements
      rw [g2] at a1
      cases a1
      rw [← List.append_assoc] at hL ⊢
      obtain ⟨m', f1, f2, f3, f4, f5⟩ := stepsAll_good es (pre ++ [e.name]) o1 _ _ m1 hL a2 (hk.more a3 a6 fun _ => a7) h2
      exact ⟨m', f1, f2, by omega, by omega, fun y hy => f5 y (a6 y hy)⟩

theorem stepsAll_append {o o' : Obj} {k : Nat} {xs ys : List Event} (h : o.stepsAll names (xs ++ ys) = .ok (o', k)) :
    ∃ o1 a b, o.stepsAll names xs = .ok (o1, a) ∧ o1.stepsAll names ys = .ok (o', b) ∧ k = a + b := by
  induction xs generalizing o k with
  | nil => exact ⟨o, 0, k, rfl, h, by omega⟩
  | cons x xs ih =>
    simp only [List.cons_append, Obj.stepsAll, Res.bind_eq_ok] at h
    obtain ⟨⟨o1, b⟩, h1, ⟨o2, k2⟩, h2, h3⟩ := h
    cases h3
    obtain ⟨o3, a, b2, i1, i2, rfl⟩ := ih h2
    exact ⟨o3, o.steps names x + a, b2, by simp [Obj.stepsAll, h1, i1], i2, by omega⟩

/-- A value with a name in an object -/
theorem write_value {o o' : Obj} {name : Bytes} {v : Val} {b : Bytes} (hs : o.stack.head? = some .object) (hn : name ≠ [])
    (h : o.write names ⟨name, .val v⟩ = .ok (o', b)) :
    o'.stack = o.stack ∧ ∃ x, HTable.insert names o.hashed name o.hashed.elements = .ok (o'.hashed, x) ∧
      o.steps names ⟨name, .val v⟩ = 1 + name.length + insertSteps names o.hashed name := by
  have hlen := List.length_pos_iff.mpr hn
  have hst : o'.stack = o.stack := by
    unfold Obj.write at h
    simp only [Res.bind_eq_ok] at h
    obtain ⟨⟨t1, q⟩, h1, w, _, h2⟩ := h
    cases h2; rfl
  have hc : o.steps names ⟨name, .val v⟩ = 1 + name.length + insertSteps names o.hashed name := by
    unfold Obj.steps
    exact if_neg (by
      rintro (h | h)
      · exact absurd h (by show ¬ name.length < 1; omega)
      · exact h hs)
  refine ⟨hst, ?_⟩
  rcases write_table h with ⟨-, g2, -⟩ | ⟨-, -, -, x, g2, g3⟩
  · rw [hc] at g2; omega
  · exact ⟨x, g2, hc⟩

/-- Values whose names have one hash -/
theorem values_same {c : Nat} {h : UInt64} : ∀ (xs : List Bytes) (o o' : Obj) (k : Nat) (m : Map Bytes Nat),
    Good c o.hashed m → Keys (fun y => names.hash y = h) o.hashed → o.stack.head? = some .object → xs.Nodup →
    (∀ x ∈ xs, x ≠ [] ∧ names.hash x = h ∧ m x = none) →
    o.stepsAll names (xs.map fun x => ⟨x, .val .null⟩) = .ok (o', k) →
    2 * o.hashed.elements * xs.length + xs.length * (xs.length - 1) ≤ 2 * k
  | [], _, _, _, _, _, _, _, _, _, _ => by simp
  | x :: xs, o, o', k, m, hg, hk, hs, hn, hx, hw => by
    obtain ⟨x1, x2, x3⟩ := hx x (by simp)
    simp only [List.map_cons, Obj.stepsAll, Res.bind_eq_ok] at hw
    obtain ⟨⟨o1, b⟩, h1, ⟨o2, k2⟩, h2, h3⟩ := hw
    cases h3
    obtain ⟨s1, y, s2, s3⟩ := write_value hs x1 h1
    obtain ⟨t', m', y', a1, a2, a3, a4, a5, a6, _⟩ := insert_same hg hk x2 x3 o.hashed.elements
    rw [s2] at a1
    cases a1
    have ih := values_same xs o1 _ _ m' a2 a3 (by rw [s1]; exact hs) (List.nodup_cons.mp hn).2 (fun z hz => by
      obtain ⟨y1, y2, y3⟩ := hx z (by simp [hz])
      exact ⟨y1, y2, by rw [a6 z (by rintro rfl; exact (List.nodup_cons.mp hn).1 hz)]; exact y3⟩) h2
    rw [a4] at ih
    rw [s3]
    simp only [List.length_cons, Nat.add_sub_cancel]
    have e1 : 2 * (o.hashed.elements + 1) * xs.length = 2 * o.hashed.elements * xs.length + 2 * xs.length := by
      rw [Nat.mul_add, Nat.add_mul]
    have e2 : 2 * o.hashed.elements * (xs.length + 1) = 2 * o.hashed.elements * xs.length + 2 * o.hashed.elements := by
      rw [Nat.mul_succ]
    have e3 : (xs.length + 1) * xs.length ≤ xs.length * (xs.length - 1) + 2 * xs.length := by
      cases hq : xs.length with
      | zero => omega
      | succ q =>
        rw [Nat.add_sub_cancel, Nat.mul_comm (q + 1 + 1), Nat.mul_add, Nat.mul_add]
        omega
    omega

/-- Different names can be written. -/
theorem values_ok {c : Nat} {h : UInt64} : ∀ (xs : List Bytes) (o : Obj) (m : Map Bytes Nat),
    Good c o.hashed m → Keys (fun y => names.hash y = h) o.hashed → o.stack.head? = some .object → xs.Nodup →
    (∀ x ∈ xs, x ≠ [] ∧ x.length < 2 ^ 64 ∧ names.hash x = h ∧ m x = none) →
    ∃ o' b, o.writeAll names (xs.map fun x => ⟨x, .val .null⟩) = .ok (o', b) ∧ o'.stack = o.stack
  | [], o, _, _, _, _, _, _ => ⟨o, [], rfl, rfl⟩
  | x :: xs, o, m, hg, hk, hs, hn, hx => by
    obtain ⟨x1, x0, x2, x3⟩ := hx x (by simp)
    have hlen := List.length_pos_iff.mpr x1
    obtain ⟨t', m', ⟨ex, ad, i⟩, a1, a2, a3, a4, a5, a6, a7⟩ := insert_same hg hk x2 x3 o.hashed.elements
    obtain ⟨w, hw, -⟩ := vlq_encode_spec x.length x0
    dsimp only at a7
    subst a7
    have h1 : o.write names ⟨x, .val .null⟩ =
        .ok (⟨o.stack, o.indexed, t'⟩, (flagOf (.val .null) ||| fNamed) :: (w ++ x)) := by
      simp only [Obj.write, Obj.writeHead]
      rw [if_neg (by
        rintro (h | h)
        · omega
        · exact h hs), a1]
      simp [hw, writeBody]
    obtain ⟨o', b, i1, i2⟩ := values_ok xs ⟨o.stack, o.indexed, t'⟩ m' a2 a3 hs (List.nodup_cons.mp hn).2 fun z hz => by
      obtain ⟨y1, y0, y2, y3⟩ := hx z (by simp [hz])
      exact ⟨y1, y0, y2, by rw [a6 z (by rintro rfl; exact (List.nodup_cons.mp hn).1 hz)]; exact y3⟩
    exact ⟨o', _, by simp only [List.map_cons, Obj.writeAll, h1, i1, Res.ok_bind]; rfl, i2⟩

mutual
theorem total_events : ∀ (name : Bytes) (n : Node), Room.total (namesOf (n.events name)) = Room.total (name :: Room.names n)
  | name, .mk t vs ns => by
    have h := total_eventsL ns
    simp only [Room.total, namesOf, Node.events, Room.names, List.map_cons, List.map_append, List.map_map, List.map_nil,
      List.sum_cons, List.sum_append_nat, List.length_nil, List.sum_nil] at h ⊢
    rw [h]
    simp only [Function.comp_def]
    omega
theorem total_eventsL : ∀ ns : List (Bytes × Node),
    Room.total (namesOf (Node.eventsL ns)) = Room.total (Room.namesL ns)
  | [] => by simp [Room.total, namesOf, Node.eventsL, Room.namesL]
  | (name, n) :: ns => by
    have h1 := total_events name n
    have h2 := total_eventsL ns
    simp only [Room.total, namesOf, Node.eventsL, Room.namesL, List.map_cons, List.map_append, List.sum_cons,
      List.sum_append_nat, List.cons_append] at h1 h2 ⊢
    omega
end

mutual
theorem mem_events : ∀ (name : Bytes) (n : Node) (x : Bytes), x ∈ namesOf (n.events name) → x ≠ [] →
    x ∈ name :: Room.names n
  | name, .mk t vs ns, x, h, hne => by
    simp only [namesOf, Node.events, List.map_cons, List.map_append, List.map_map, List.map_nil, List.mem_cons,
      List.mem_append, List.not_mem_nil, or_false] at h
    rcases h with rfl | (h | h) | h
    · simp
    · refine List.mem_cons_of_mem _ ?_
      rw [Room.names]
      exact List.mem_append_left _ h
    · refine List.mem_cons_of_mem _ ?_
      rw [Room.names]
      exact List.mem_append_right _ (mem_eventsL ns x h hne)
    · exact absurd h hne
theorem mem_eventsL : ∀ (ns : List (Bytes × Node)) (x : Bytes), x ∈ namesOf (Node.eventsL ns) → x ≠ [] →
    x ∈ Room.namesL ns
  | [], x, h, _ => by simp [namesOf, Node.eventsL] at h
  | (name, n) :: ns, x, h, hne => by
    simp only [namesOf, Node.eventsL, List.map_append, List.mem_append] at h
    rw [Room.namesL]
    rcases h with h | h
    · exact List.mem_append_left _ (mem_events name n x h hne)
    · exact List.mem_append_right _ (mem_eventsL ns x h hne)
end

end Srl.PSrl
