import Verif.Lemmas.Depth
import Verif.Props.Shared
import Verif.Props.PSrl

/-! # C77: how deep restoring nests -/

namespace Srl.Props
open Doc Shared
open Typed (Env Keeps Obj)

variable {σ : Type}

/-- Restoring from a tree that was loaded before: 129 nested calls are enough for every document, every
type and every class table, as loading accepts no more than 128 nested scopes. -/
theorem loaded_depth (cfg : HTable.Cfg Nat) (env : Env) (C : Nat → GTy) (read : σ → Res (Event × σ))
    (total : Nat) (ty : GTy) (old : Obj) (s : σ) :
    Enough 129 fun depth => loadWithin cfg env C read total depth ty old s := by
  intro d hd
  simp only [loadWithin]
  cases h : Doc.load read total s with
  | ok x =>
    obtain ⟨r, s1⟩ := x
    have hdep := nesting_bounded read total s s1 r h
    simp only [Res.ok_bind]
    rw [paste_parsed cfg env C read total d 129 ty old (whole r.node) (s1, Objs.new)
      (by cases r.node; rfl) (by rw [depth_whole]; omega) (by rw [depth_whole]; omega)]
  | err => rfl
  | ub => rfl
  | fuel => rfl

/-- Restoring while reading, if no class leads back to itself: the types give a bound that holds for every
document, format and previous content. Missing: classes that contain pointers to themselves. -/
theorem restore_depth_partial (C : Nat → GTy) (hC : NotRecursive C) (ty : GTy) : ∃ D,
    ∀ (σ : Type) (cfg : HTable.Cfg Nat) (env : Env) (read : σ → Res (Event × σ)) (total : Nat) (old : Obj)
      (s : σ), Enough D fun depth => restoreWithin cfg env C read total depth ty old s := by
  obtain ⟨D, h⟩ := bounded_all hC ty
  refine ⟨D, fun σ cfg env read total old s d hd => ?_⟩
  simp only [restoreWithin, h σ cfg env read total d hd]

/-! ## Violated for recursive classes -/

/-- The bytes `bs` make restoring a `Person` nest more than `depth` calls, although they are what the
library itself stored for an object that it restores correctly; loading the same bytes throws. -/
def Exhausts (cfg : HTable.Cfg Nat) (env : Env) (read : σ → Res (Event × σ)) (depth : Nat) (s : σ)
    (o : Obj) (G : Graph) : Prop :=
  (∀ total old, 0 < total → WT personTy old →
    restoreWithin cfg env (fun _ => personTy) read total depth personTy old s = .fuel) ∧
  (∃ bound, ∀ fuel old, bound ≤ fuel → WT personTy old →
    (∃ y heap, restore cfg env (fun _ => personTy) read fuel personTy old s = .ok (y, heap) ∧
      Copy (fun _ => personTy) G personTy o y heap) ∧
    loadUnwrap cfg env (fun _ => personTy) read fuel personTy old s = .err)

private theorem person_ok : personTy.Ok := (chain_ok 0 (by decide)).types 0

private theorem person_storable (N a : Nat) : Storable personTy (person N a) := by
  refine ⟨_, rfl, _, _, rfl, ⟨_, rfl, fun x hx => ?_⟩, rfl⟩
  split at hx
  · exact ⟨a, by simpa using hx⟩
  · cases hx

private theorem person_ptrs (N : Nat) : PtrsOk (chain N) (List.range N) (refs personTy (person N 0)) := by
  intro r hr
  simp only [personTy, person, refs, refsL, List.append_nil] at hr
  split at hr
  · simp only [addr, List.flatMap_cons, List.flatMap_nil, List.append_nil, refs, List.mem_singleton] at hr
    subst hr
    simp [chain]
    assumption
  · cases hr

/-- The stored chain, and what every format makes of it. -/
private theorem exhausts {nv : Val → Val} (hk : Keeps nv) (cs cr : HTable.Cfg Nat) (env : Env) (N : Nat)
    (hN : N < 2 ^ 64) (h43 : 43 ≤ N) :
    (∃ D, ∀ f, D ≤ f → ∃ t, store cs (fun _ => personTy) (chain N) f [] personTy (person N 0) Seen.new
        = .ok (.scope [] .object (deep 0 N), t)) ∧
      ∀ (read : σ → Res (Event × σ)) (s s' : σ),
        Emits read s (Norm.item nv false (.scope [] .object (deep 0 N))).events s' →
        ∀ depth, depth ≤ 3 * N → Exhausts cr env read depth s (person N 0) (chain N) := by
  have key := fun old hold => shared_restored (σ := σ) hk cs cr env (fun _ => personTy) (chain N) (List.range N)
    (chain_ok N hN) (chain_acyclic N) personTy (person N 0) old person_ok rfl (person_storable N 0)
    (person_ptrs N) hold
  constructor
  · obtain ⟨D, kids, seen, h1, h2, -⟩ := key (dfltG personTy) (dfltG_wt _)
    have := chain_doc N N 0 [] _ _ (by omega) h1
    rw [this] at h2
    exact ⟨D, h2⟩
  · intro read s s' he depth hd
    refine ⟨fun total old ht hw => ?_, (Item.scope [] .object (deep 0 N)).events.length, fun fuel old hf hw => ?_⟩
    · obtain ⟨os, rfl, o, os', rfl, -, -⟩ := hw
      simp only [Norm.item, Bool.false_eq_true, if_false, Item.events,
        show (ScopeTy.object == ScopeTy.object) = true from rfl] at he
      obtain ⟨s1, r1, he⟩ := he.cons_inv
      have := chain_fuel hk cr env read total ht N 0 depth o os' s1 s' _ hd (by omega) he
      simp only [restoreWithin, r1, Res.ok_bind, this, Res.fuel_bind]
    · obtain ⟨D, kids, seen, h1, -, h3⟩ := key old hw
      have e := chain_doc N N 0 [] _ _ (by omega) h1
      rw [e] at h3
      refine ⟨(h3 read s s' fuel he hf).1, ?_⟩
      simp only [Norm.item, Bool.false_eq_true, if_false] at he
      have hl := load_item read [] .object _ fuel s s' he (by
        rw [← Norm.events_length nv false] at hf
        simp [Norm.item, Item.events] at hf ⊢
        omega)
      rw [if_neg (by rw [Norm.depth_items, deep_depth]; simp only [maxDepth]; omega)] at hl
      simp only [loadUnwrap, hl, Res.err_bind]

private theorem chain_srl : ∀ k n, k + n < 2 ^ 64 → PSrl.ItemsOk (deep k n)
  | _, 0, _ => by
    simp only [deep, PSrl.ItemsOk, PSrl.ItemOk, and_true]
    decide
  | k, n + 1, h => by
    have := chain_srl (k + 1) n (by omega)
    simp only [deep, PSrl.ItemsOk, PSrl.ItemOk, PSrl.ValOk, this, and_true]
    simp [kidsName, keyName, valueName, str, IntTy.lo, IntTy.hi, IntTy.signed, IntTy.bits]
    omega

private theorem chain_msgpack : ∀ k n, k + n < 2 ^ 64 → PMsgPack.ItemsOk (deep k n)
  | _, 0, _ => by
    simp only [deep, PMsgPack.ItemsOk, PMsgPack.ItemOk, and_true]
    decide
  | k, n + 1, h => by
    have := chain_msgpack (k + 1) n (by omega)
    have hl : (deep (k + 1) n).length = 1 := by cases n <;> rfl
    simp only [deep, PMsgPack.ItemsOk, PMsgPack.ItemOk, PMsgPack.ValOk, this, and_true, hl]
    simp [kidsName, keyName, valueName, str, IntTy.lo, IntTy.hi, IntTy.signed, IntTy.bits]
    omega

private theorem names_ok : PJson.NameOk kidsName ∧ PJson.NameOk keyName ∧ PJson.NameOk valueName := by
  simp [kidsName, keyName, valueName, str, PJson.NameOk]

private theorem chain_json (mem : Mem) (env : Env) : ∀ k n, k + n < 2 ^ 64 →
    PJson.ItemsOk mem env.dtoa env.strtod (nvKept env) true (deep k n)
  | _, 0, _ => by
    simp only [deep, PJson.ItemsOk, PJson.ItemOk, and_true]
    exact fun _ => names_ok.1
  | k, n + 1, h => by
    have := chain_json mem env (k + 1) n (by omega)
    simp only [deep, PJson.ItemsOk, PJson.ItemOk, and_true]
    refine ⟨fun _ => names_ok.1, fun h => (by cases h), ⟨fun _ => names_ok.2.1, ?_⟩, fun _ => names_ok.2.2, this⟩
    refine kept_reads mem env _ (by simp [JsonVal]) ?_
    simp only [PJson.ValOk]
    simp [IntTy.lo, IntTy.hi, IntTy.signed, IntTy.bits]
    omega

/-- C77 violated with the format Srl: whatever nesting the stack allows, a document exceeds it. -/
theorem restore_depth_srl (m : Mem) (hm : m.Sane) (env : Env) (cs cr : HTable.Cfg Nat) (depth : Nat)
    (hd : depth < 2 ^ 60) :
    ∃ G o it bs, (∃ D, ∀ f, D ≤ f → ∃ t, store cs (fun _ => personTy) G f [] personTy o Seen.new = .ok (it, t)) ∧
      (∃ st, PSrl.writeAll PSrl.St.init it.events = .ok (st, bs)) ∧
      ∀ rest, Exhausts cr env (PSrl.read m) depth (PSrl.St.init, bs ++ rest) o G := by
  obtain ⟨h1, h2⟩ := exhausts (σ := PSrl.St × Bytes) keeps_srl cs cr env (depth + 43) (by omega) (by omega)
  obtain ⟨st, ⟨bs, h3, h4⟩, -, -⟩ := PSrl.codes_item hm (.scope [] .object (deep 0 (depth + 43))) PSrl.St.init
    ⟨by simp, chain_srl 0 _ (by omega)⟩ (by
      simp only [Item.events, List.length_cons, List.length_append, deep_length, PSrl.St.init]
      simp; omega)
  refine ⟨_, _, _, bs, h1, ⟨st, h3⟩, fun rest => ?_⟩
  have he := h4 rest
  rw [show PSrl.inObject PSrl.St.init = false from rfl, normItem_eq] at he
  exact h2 _ _ _ he depth (by omega)

/-- … with MessagePack -/
theorem restore_depth_msgpack (m : Mem) (hm : m.Sane) (env : Env) (cs cr : HTable.Cfg Nat) (depth : Nat)
    (hd : depth < 2 ^ 60) :
    ∃ G o it bs, (∃ D, ∀ f, D ≤ f → ∃ t, store cs (fun _ => personTy) G f [] personTy o Seen.new = .ok (it, t)) ∧
      (∃ x, PMsgPack.writeAll ([], []) it.events = .ok (x, bs)) ∧
      ∀ rest, Exhausts cr env (PMsgPack.read m) depth ([], bs ++ rest) o G := by
  obtain ⟨h1, h2⟩ := exhausts (nv := PMsgPack.normVal) keeps_msgpack cs cr env (depth + 43) (by omega) (by omega)
  have h3 := PMsgPack.writeAll_item (.scope [] .object (deep 0 (depth + 43))) [] []
  refine ⟨_, _, _, _, h1, ⟨_, h3⟩, fun rest => ?_⟩
  have hl : (deep 0 (depth + 43)).length = 1 := rfl
  exact h2 _ _ _ (PMsgPack.emits_item hm _ [] _ rest (by simp [PMsgPack.Open])
    (PMsgPack.writeItem_enc _ false ⟨by simp, by simp [hl], chain_msgpack 0 _ (by omega)⟩)) depth (by omega)

/-- … with JSON in both layouts -/
theorem restore_depth_json (m : Mem) (hm : m.Sane) (env : Env) (compact : Bool) (cs cr : HTable.Cfg Nat)
    (depth : Nat) (hd : depth < 2 ^ 60) :
    ∃ G o it bs, (∃ D, ∀ f, D ≤ f → ∃ t, store cs (fun _ => personTy) G f [] personTy o Seen.new = .ok (it, t)) ∧
      (∃ w, PJson.writeAll env.dtoa compact PJson.Wr.new it.events = .ok (bs, w)) ∧
      ∀ rest, Exhausts cr env (PJson.read m env.strtod) depth (PJson.Rd.new, bs ++ rest) o G := by
  obtain ⟨h1, h2⟩ := exhausts (keeps_json env) cs cr env (depth + 43) (by omega) (by omega)
  obtain ⟨bs, h3, h4⟩ := PJson.emits_doc hm env.strtod env.dtoa compact
    (nvKept env) [] .object (deep 0 (depth + 43)) (chain_json m env 0 _ (by omega))
  refine ⟨_, _, _, bs, h1, ⟨_, h3⟩, fun rest => ?_⟩
  obtain ⟨r', h5⟩ := h4 rest PJson.Rd.new rfl
  exact h2 _ _ _ h5 depth (by omega)

/-! ## Examples -/

private def c0 : HTable.Cfg Nat := ⟨fun k => k.toUInt64, fun n => n⟩

/-- `struct Leaf { int x; }`, `struct Pair { shared_ptr<Leaf> l, r; }` -/
private def flat : Nat → GTy
  | 0 => .plain (.record .object false (.cons (str "x") false (.int .i32) .nil))
  | _ => .record (.cons (str "l") (.shared false 0) (.cons (str "r") (.shared false 0) .nil))

/-- Class tables without recursion exist, with pointers to pointers; that of `Person` is none. -/
example : NotRecursive flat ∧ (flat 1).leads = [0, 0] ∧ ¬ NotRecursive (fun _ => personTy) := by
  refine ⟨⟨fun c => if c = 0 then 0 else 1, fun c c' hc' => ?_⟩, rfl, ?_⟩
  · unfold flat at hc'
    split at hc'
    · simp [GTy.leads] at hc'
    · rename_i h
      simp [GTy.leads, GFields.leads] at hc'
      subst hc'
      have : c ≠ 0 := h
      simp [this]
  · rintro ⟨rank, h⟩
    have := h 0 0 (by simp [personTy, GTy.leads, GFields.leads])
    omega

private def short : Bytes :=
  str "{\"kids\":[{\"srl_shared_key\":0,\"srl_shared_value\":{\"kids\":[]}}]}"

private def within (depth : Nat) : Res (Obj × List (Nat × Obj)) :=
  restoreWithin c0 env0 (fun _ => personTy) jread 100 depth personTy (dfltG personTy) (PJson.Rd.new, short)

private def loadedWithin (depth : Nat) : Res (Obj × List (Nat × Obj)) :=
  loadWithin c0 env0 (fun _ => personTy) jread 100 depth personTy (dfltG personTy) (PJson.Rd.new, short)

private def outOfDepth : Res (Obj × List (Nat × Obj)) → Bool
  | .fuel => true
  | _ => false

/-- A person with one kid: five nested calls are needed, both ways. -/
example : isGraph (within 5) (.many [.many [addr 0]]) [(0, .many [.many []])] = true ∧
    outOfDepth (within 4) = true ∧
    isGraph (loadedWithin 5) (.many [.many [addr 0]]) [(0, .many [.many []])] = true ∧
    outOfDepth (loadedWithin 4) = true := by
  refine ⟨?_, ?_, ?_, ?_⟩ <;> decide +kernel

/-- What is stored for a chain is a nested document (C77 applies to it for every length). -/
example : deep 0 1 = [.scope (str "kids") .array [.scope [] .object [.val (str "srl_shared_key") (.int .u64 0),
    .scope (str "srl_shared_value") .object [.scope (str "kids") .array []]]]] := rfl

end Srl.Props
