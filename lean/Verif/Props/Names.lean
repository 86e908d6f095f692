import Verif.Lemmas.Names
import Verif.Props.PSrl
import Verif.Props.Fnv

/-! # C58 – how long names have to live -/

namespace Srl.Props
open Srl.Names Doc

/-- A call, and the name it passes -/
abbrev Passed := Call × Bytes

/-- Specification: the pointer leads to this name at the time of the call. -/
def Valid (p : Passed) : Prop := deref p.1.mem p.1.name = .ok p.2

/-- What is written -/
def token (p : Passed) : Event := ⟨p.2, p.1.tok⟩

private theorem events_passed : ∀ (ps : List Passed), events (ps.map (·.1)) (ps.map (·.2)) = ps.map token
  | [] => rfl
  | p :: ps => by
    simp only [List.map_cons, events, events_passed ps]
    rfl

private theorem old_nil {p : Passed} (hp : Valid p) (hn : p.2 = []) (μ : Memory) : deref μ p.1.name = .ok p.2 := by
  have h1 := deref_size hp
  rw [hn] at h1 ⊢
  exact deref_nil (by simpa using h1.symm)

private theorem kept_passed {hash : Bytes → UInt64} : ∀ (ps os : List Passed), (∀ p ∈ ps, Valid p) →
    (∀ o ∈ os, Valid o) → (∀ o ∈ os, ∀ p ∈ ps, o.2 ≠ [] → hash o.2 = hash p.2 → deref p.1.mem o.1.name = .ok o.2) →
    (ps.Pairwise fun a b => a.2 ≠ [] → hash a.2 = hash b.2 → deref b.1.mem a.1.name = .ok a.2) →
    Kept hash (os.map fun o => (o.1.name, o.2)) (ps.map (·.1)) (ps.map (·.2))
  | [], _, _, _, _, _ => trivial
  | p :: ps, os, hv, ho, hk, hp => by
    rw [List.pairwise_cons] at hp
    refine ⟨hv p List.mem_cons_self, ?_, ?_⟩
    · intro q hq he
      rw [List.mem_map] at hq
      obtain ⟨o, h1, rfl⟩ := hq
      by_cases hn : o.2 = []
      · exact old_nil (ho o h1) hn _
      · exact hk o h1 p List.mem_cons_self hn he
    · have := kept_passed ps (os ++ [p]) (fun q hq => hv q (List.mem_cons_of_mem _ hq))
        (by
          intro o h
          rcases List.mem_append.mp h with h | h
          · exact ho o h
          · simp only [List.mem_singleton] at h
            rw [h]
            exact hv p List.mem_cons_self)
        (by
          intro o h q hq
          rcases List.mem_append.mp h with h | h
          · exact hk o h q (List.mem_cons_of_mem _ hq)
          · simp only [List.mem_singleton] at h
            rw [h]
            exact hp.1 q hq)
        hp.2
      rwa [List.map_append] at this

/-- C58: if every name is where it was whenever a name with the same hash is passed later, the Srl writer writes
what it writes for these names as values – whatever happens to the memory otherwise. In particular … -/
theorem srl_names_partial (hash : Bytes → UInt64) (ps : List Passed) (hv : ∀ p ∈ ps, Valid p)
    (hk : ps.Pairwise fun a b => a.2 ≠ [] → hash a.2 = hash b.2 → deref b.1.mem a.1.name = .ok a.2) :
    output (writeAll hash St.init (ps.map (·.1))) = output (PSrl.writeAll PSrl.St.init (ps.map token)) := by
  rw [← events_passed]
  exact writeAll_kept _ _ [] _ _ rfl trivial (kept_passed ps [] hv (fun o h => nomatch h) (fun o h => nomatch h) hk)

/-- … if all names stay where they are, as names that are constants do, … -/
theorem srl_names_kept_partial (hash : Bytes → UInt64) (ps : List Passed) (hv : ∀ p ∈ ps, Valid p)
    (hk : ps.Pairwise fun a b => deref b.1.mem a.1.name = .ok a.2) :
    output (writeAll hash St.init (ps.map (·.1))) = output (PSrl.writeAll PSrl.St.init (ps.map token)) :=
  srl_names_partial hash ps hv (hk.imp fun h _ _ => h)

/-- … or if no two names have the same hash; then they may be gone after the call. -/
theorem srl_names_once_partial (hash : Bytes → UInt64) (ps : List Passed) (hv : ∀ p ∈ ps, Valid p)
    (hk : ps.Pairwise fun a b => a.2 ≠ [] → hash a.2 ≠ hash b.2) :
    output (writeAll hash St.init (ps.map (·.1))) = output (PSrl.writeAll PSrl.St.init (ps.map token)) :=
  srl_names_partial hash ps hv (hk.imp fun h hn he => absurd he (h hn))

private theorem live_passed {hash : Bytes → UInt64} : ∀ (ps os : List Passed), (∀ p ∈ ps, Valid p) →
    (∀ o ∈ os, Valid o) → (∀ o ∈ os, ∀ p ∈ ps, o.2.length = p.2.length → hash o.2 = hash p.2 → o.2 = p.2) →
    (∀ o ∈ os, ∀ p ∈ ps, ∃ x, deref p.1.mem o.1.name = .ok x) →
    (∀ o ∈ ps, ∀ p ∈ ps, o.2.length = p.2.length → hash o.2 = hash p.2 → o.2 = p.2) →
    (ps.Pairwise fun a b => ∃ x, deref b.1.mem a.1.name = .ok x) →
    Live hash (os.map fun o => (o.1.name, o.2)) (ps.map (·.1)) (ps.map (·.2))
  | [], _, _, _, _, _, _, _ => trivial
  | p :: ps, os, hv, ho, hc, hk, hd, hp => by
    rw [List.pairwise_cons] at hp
    refine ⟨hv p List.mem_cons_self, ?_, ?_⟩
    · intro q hq he hl
      rw [List.mem_map] at hq
      obtain ⟨o, h1, rfl⟩ := hq
      exact ⟨hc o h1 p List.mem_cons_self hl he, hk o h1 p List.mem_cons_self⟩
    · have := live_passed (hash := hash) ps (os ++ [p]) (fun q hq => hv q (List.mem_cons_of_mem _ hq))
        (by
          intro o h
          rcases List.mem_append.mp h with h | h
          · exact ho o h
          · simp only [List.mem_singleton] at h
            rw [h]
            exact hv p List.mem_cons_self)
        (by
          intro o h q hq
          rcases List.mem_append.mp h with h | h
          · exact hc o h q (List.mem_cons_of_mem _ hq)
          · simp only [List.mem_singleton] at h
            rw [h]
            exact hd p List.mem_cons_self q (List.mem_cons_of_mem _ hq))
        (by
          intro o h q hq
          rcases List.mem_append.mp h with h | h
          · exact hk o h q (List.mem_cons_of_mem _ hq)
          · simp only [List.mem_singleton] at h
            rw [h]
            exact hp.1 q hq)
        (fun o h q hq => hd o (List.mem_cons_of_mem _ h) q (List.mem_cons_of_mem _ hq))
        hp.2
      rwa [List.map_append] at this

private theorem same_norm (n : Node) : SameNode n (PSrl.normNode n) := by
  have := sameNode_norm SameVal PSrl.normVal (fun v => by cases v <;> simp [SameVal, PSrl.normVal]) n
  rwa [← PSrl.normNode_eq] at this

/-- What is written by calls that make up a document is read as this document. -/
private theorem read_back {m : Mem} (hm : m.Sane) {hash : Bytes → UInt64} {cs : List Call} {ns : List Bytes}
    {name : Bytes} {n : Node} (hl : Live hash [] cs ns) (he : events cs ns = n.events name)
    (hcs : cs.length < 2 ^ 64) (hname : name.length < 2 ^ 32) (hn : PSrl.NodeOk n) (hdepth : n.depth ≤ 128) :
    ∃ bs, output (writeAll hash St.init cs) = .ok bs ∧ ∀ rest, ∃ r st,
      PSrl.load m (bs ++ rest) = .ok (r, (st, rest)) ∧ SameNode n r.node := by
  rw [Node.events_eq] at he
  obtain ⟨st', pst', bs, h1, h2⟩ := writeAll_live hm cs ns [] St.init PSrl.St.init rfl trivial hl
    (fun p h => nomatch h) (by rw [he]; exact tokens_item _ (PSrl.itemOk_toItem name n hname hn))
    (by simpa [PSrl.St.init] using hcs)
    (by
      rw [he, ← List.append_nil (n.toItem name).events]
      exact closes_item _ _ _ trivial)
  refine ⟨bs, by rw [h1]; rfl, fun rest => ?_⟩
  have h3 := h2 rest
  rw [he, ← List.append_nil (n.toItem name).events, normEvents_item] at h3
  simp only [normEvents, List.append_nil] at h3
  have hb : PSrl.inObject PSrl.St.init = false := rfl
  rw [hb, PSrl.normItem_toItem] at h3
  refine ⟨⟨[], PSrl.normNode n⟩, pst', ?_, same_norm n⟩
  obtain ⟨t, vs, ks⟩ := n
  simp only [PSrl.normNode, Node.toItem] at h3
  have hl := fun F hF => load_item (PSrl.read m) _ _ _ F _ _ h3 hF
  have hl := hl (max (_ + 1) ((bs ++ rest).length + 1))
    (Nat.lt_of_lt_of_le (Nat.lt_succ_self _) (Nat.le_max_left _ _))
  rw [PSrl.load_eq_fuel m _ _ (Nat.lt_of_lt_of_le (Nat.lt_succ_self _) (Nat.le_max_right _ _))] at hl
  rw [hl, Node.depthL_vals, Node.depthL_toItems, PSrl.depthL_normNodes, Item.contentL_vals,
    Node.contentL_toItems]
  simp only [Node.depth] at hdepth
  simp only [PSrl.normNode, List.append_nil]
  rw [if_pos (by unfold maxDepth; omega)]
  rfl

/-- C58: names may be overwritten after the call, if their memory can still be read. What is written may
differ, but it is read as the same document, with the names as they were when they were passed. No two names
of the same length may have the same hash. -/
theorem srl_names_overwritten_partial (m : Mem) (hm : m.Sane) (hash : Bytes → UInt64) (ps : List Passed)
    (name : Bytes) (n : Node) (he : ps.map token = n.events name) (hlen : ps.length < 2 ^ 64)
    (hname : name.length < 2 ^ 32) (hn : PSrl.NodeOk n) (hdepth : n.depth ≤ 128) (hv : ∀ p ∈ ps, Valid p)
    (hc : ∀ a ∈ ps, ∀ b ∈ ps, a.2.length = b.2.length → hash a.2 = hash b.2 → a.2 = b.2)
    (hk : ps.Pairwise fun a b => ∃ x, deref b.1.mem a.1.name = .ok x) :
    ∃ bs, output (writeAll hash St.init (ps.map (·.1))) = .ok bs ∧ ∀ rest, ∃ r st,
      PSrl.load m (bs ++ rest) = .ok (r, (st, rest)) ∧ SameNode n r.node :=
  read_back hm (live_passed ps [] hv (fun o h => nomatch h) (fun o h => nomatch h) (fun o h => nomatch h) hc hk)
    (by rw [events_passed]; exact he) (by simpa using hlen) hname hn hdepth

private theorem events_calls : ∀ (ws : List Wide) (b : Buffer),
    events (calls b ws) (ws.map (·.name)) = ws.map fun w => ⟨w.name, w.tok⟩
  | [], _ => rfl
  | w :: ws, b => by
    simp only [calls, List.map_cons, events]
    rw [events_calls ws]

private theorem calls_length : ∀ (ws : List Wide) (b : Buffer), (calls b ws).length = ws.length
  | [], _ => rfl
  | w :: ws, b => by
    simp only [calls, List.length_cons, calls_length ws]

/-- C58, names of UTF-16 and UTF-32 characters, which are converted: as long as the buffer need not grow, the
document is read back. -/
theorem srl_wide_names_partial (m : Mem) (hm : m.Sane) (hash : Bytes → UInt64) (b : Buffer) (ws : List Wide)
    (name : Bytes) (n : Node) (he : (ws.map fun w => ⟨w.name, w.tok⟩) = n.events name) (hlen : ws.length < 2 ^ 64)
    (hname : name.length < 2 ^ 32) (hn : PSrl.NodeOk n) (hdepth : n.depth ≤ 128)
    (hw : ∀ w ∈ ws, w.name.length ≤ w.reserve ∧ w.reserve ≤ b.cap)
    (hc : ∀ v ∈ ws, ∀ w ∈ ws, hash v.name = hash w.name → v.name.length = w.name.length → v.name = w.name) :
    ∃ bs, output (writeAll hash St.init (calls b ws)) = .ok bs ∧ ∀ rest, ∃ r st,
      PSrl.load m (bs ++ rest) = .ok (r, (st, rest)) ∧ SameNode n r.node :=
  read_back hm (live_calls ws b [] (fun p h => nomatch h) hw (fun p h => nomatch h) hc)
    (by rw [events_calls]; exact he) (by rw [calls_length]; exact hlen) hname hn hdepth

/-! ### Examples -/

/-- The hash of the library -/
private def fnv (b : Bytes) : UInt64 :=
  match Fnv.hash b with
  | .ok h => h
  | _ => 0

private def block (a : Nat) (b : Bytes) : Memory := fun x => if x = a then some b else none

/-- Two objects in an array in an object, each with a field of the same name; the name is at address `a`
at first, then at address `a'`. -/
private def passes (a a' : Nat) (b b' : Memory) : List Passed :=
  [(⟨b, ⟨0, 0⟩, .scope .array⟩, []), (⟨b, ⟨0, 0⟩, .scope .object⟩, []),
   (⟨b, ⟨a, 2⟩, .val (.int .i32 5)⟩, str "id"), (⟨b, ⟨0, 0⟩, .scopeEnd⟩, []),
   (⟨b', ⟨0, 0⟩, .scope .object⟩, []), (⟨b', ⟨a', 2⟩, .val (.int .i32 6)⟩, str "id"),
   (⟨b', ⟨0, 0⟩, .scopeEnd⟩, []), (⟨b', ⟨0, 0⟩, .scopeEnd⟩, [])]

private def two : Memory := fun x => if x = 1 then some (str "id") else if x = 2 then some (str "id") else none

/-- Not vacuous: two constants, … -/
example : (∀ p ∈ passes 1 2 two two, Valid p) ∧
    ((passes 1 2 two two).Pairwise fun a b => deref b.1.mem a.1.name = .ok a.2) ∧
    output (writeAll fnv St.init ((passes 1 2 two two).map (·.1))) =
      .ok [128, 64, 3, 2, 105, 100, 5, 0, 64, 7, 0, 6, 0, 0] := by
  refine ⟨by unfold Valid; decide +kernel, by decide +kernel, by decide +kernel⟩

private def overwritten : Memory := fun x => if x = 1 then some (str "xy") else if x = 2 then some (str "id") else none

private def objects : Node :=
  .mk .array [] [([], .mk .object [(str "id", .int .i32 5)] []), ([], .mk .object [(str "id", .int .i32 6)] [])]

/-- … memory that is overwritten: the name is written a second time. -/
example : (passes 1 2 two overwritten).map token = objects.events [] ∧
    ((passes 1 2 two overwritten).Pairwise fun a b => (deref b.1.mem a.1.name).isUb = false) ∧
    output (writeAll fnv St.init ((passes 1 2 two overwritten).map (·.1))) =
      .ok [128, 64, 3, 2, 105, 100, 5, 0, 64, 3, 2, 105, 100, 6, 0, 0] := by
  refine ⟨by rfl, by decide +kernel, by decide +kernel⟩

/-- C58 fails: the same name twice, both times in memory that is given back after the call – as of a
`std::string` made for the call. The writer reads memory that is no longer there. -/
theorem srl_names_dangling : ∃ ps : List Passed, (∀ p ∈ ps, Valid p) ∧
    writeAll fnv St.init (ps.map (·.1)) = .ub ∧
    output (PSrl.writeAll PSrl.St.init (ps.map token)) = .ok [128, 64, 3, 2, 105, 100, 5, 0, 64, 7, 0, 6, 0, 0] :=
  ⟨passes 1 2 (block 1 (str "id")) (block 2 (str "id")), by unfold Valid; decide +kernel,
    Res.eq_ub (by decide +kernel), by decide +kernel⟩

/-- An object with two UTF-16 names, and one of them again in an object in between -/
private def wides : List Wide :=
  [⟨[], 0, .scope .object⟩, ⟨str "id", 4, .val (.int .i32 5)⟩, ⟨str "name", 8, .scope .object⟩,
   ⟨str "id", 4, .val (.int .i32 6)⟩, ⟨[], 0, .scopeEnd⟩, ⟨[], 0, .scopeEnd⟩]

/-- Not vacuous: the buffer is large enough from before. -/
example : (wides.map fun w => ⟨w.name, w.tok⟩) =
      (Node.mk .object [(str "id", .int .i32 5)] [(str "name", .mk .object [(str "id", .int .i32 6)] [])]).events [] ∧
    (∀ w ∈ wides, w.name.length ≤ w.reserve ∧ w.reserve ≤ 8) ∧
    output (writeAll fnv St.init (calls ⟨1, 8, 8⟩ wides)) =
      .ok [64, 3, 2, 105, 100, 5, 66, 4, 110, 97, 109, 101, 7, 0, 6, 0, 0] := by
  refine ⟨by rfl, by decide +kernel, by decide +kernel⟩

/-- C58 fails: with a new tree, the buffer grows for the second name, and the pointer to the first is left
dangling. These names are string constants of the program. -/
theorem srl_wide_names_dangling : writeAll fnv St.init (calls ⟨0, 0, 0⟩ wides) = .ub :=
  Res.eq_ub (by decide +kernel)

end Srl.Props
