import Verif.Lemmas.MemoryJson
import Verif.Props.Fpconv
import Verif.Props.Stream

/-! # C84: documents cannot make the library hold much more than they have bytes

Trees and objects are measured by `Room.size` and `Room.weight` (Verif/Props/MemorySpec.lean). The property is: whatever
the bytes of a document, what is held of it, in a tree or in an object restored from it, is at most a multiple of the
number of its bytes that depends on the type only. -/

namespace Srl.Props
open Typed Doc Room

variable {σ : Type}

private theorem emits_paid {own : Bool} {read : σ → Res (Event × σ)} {μ : σ → Nat} (hp : Pays own read μ)
    {s s' : σ} {es : List Event} (h : Emits read s es s') : (es.map (gain own)).sum + μ s' ≤ μ s := by
  induction h with
  | nil s => simp
  | cons h1 _ ih =>
    have := hp _ _ _ h1
    simp only [List.map_cons, List.sum_cons]; omega

/-! ## What is read -/

/-- C84: all that is read from a MessagePack document, also if an error follows: at most one byte for each byte. -/
theorem msgpack_tokens_memory (m : Mem) (src : Bytes) (es : List Event) (x : List PMsgPack.RScope × Bytes)
    (h : Emits (PMsgPack.read m) ([], src) es x) : (es.map (gain true)).sum + x.2.length ≤ src.length :=
  emits_paid (msgpack_pays m) h

/-- C84: … from a JSON text, by a parser in any state. -/
theorem json_tokens_memory (m : Mem) (hm : m.Sane) (strtod : Bytes → Option UInt64) (r : PJson.Rd) (src : Bytes)
    (es : List Event) (x : PJson.Rd × Bytes) (h : Emits (PJson.read m strtod) (r, src) es x) :
    (es.map (gain true)).sum + x.2.length ≤ src.length :=
  emits_paid (json_pays hm strtod) h

/-- C84: … from a Srl document, where the names are counted once, in the table of the parser. -/
theorem srl_tokens_memory (m : Mem) (src : Bytes) (es : List Event) (x : PSrl.St × Bytes)
    (h : Emits (PSrl.read m) (PSrl.St.init, src) es x) :
    (es.map (gain false)).sum + total x.1.names + x.2.length ≤ src.length ∧
      ∀ e ∈ es, e.name = [] ∨ e.name ∈ x.1.names := by
  constructor
  · have := emits_paid (srl_pays m) h
    simp only [srlRoom, PSrl.St.init, total, List.map_nil, List.sum_nil] at this
    simp only [total]; omega
  · generalize PSrl.St.init = st at h
    have grow : ∀ {a b : PSrl.St × Bytes} {es : List Event}, Emits (PSrl.read m) a es b →
        (∃ new, b.1.names = a.1.names ++ new) ∧ ∀ e ∈ es, e.name = [] ∨ e.name ∈ b.1.names := by
      intro a b es h
      induction h with
      | nil s => exact ⟨⟨[], by simp⟩, by simp⟩
      | cons h1 _ ih =>
        obtain ⟨⟨n1, e1⟩, k⟩ := srl_names h1
        obtain ⟨⟨n2, e2⟩, k2⟩ := ih
        refine ⟨⟨n1 ++ n2, by rw [e2, e1, List.append_assoc]⟩, fun e he => ?_⟩
        rcases List.mem_cons.mp he with rfl | he
        · exact k.imp id (fun hk => by rw [e2]; exact List.mem_append_left _ hk)
        · exact k2 e he
    exact (grow h).2

/-! ## Trees -/

/-- C84: the tree of a MessagePack document, each item counted with a name of its own. -/
theorem msgpack_tree_memory (m : Mem) (src : Bytes) (r : Root) (x : List PMsgPack.RScope × Bytes)
    (h : PMsgPack.load m src = .ok (r, x)) : r.name.length + size true r.node + x.2.length ≤ src.length := by
  have := load_paid (msgpack_pays m) h
  simpa only [nameBytes, if_true] using this

/-- C84: the tree of a JSON text, and the two buffers of the parser, which may have been used before. -/
theorem json_tree_memory (m : Mem) (hm : m.Sane) (strtod : Bytes → Option UInt64) (r0 r1 : PJson.Rd) (src t : Bytes)
    (r : Root) (h : PJson.loadWith m strtod r0 src = .ok (r, r1, t)) :
    r.name.length + size true r.node + t.length ≤ src.length ∧
    r1.nameCap ≤ max r0.nameCap (2 * src.length + 10) ∧ r1.valCap ≤ max r0.valCap (2 * src.length + 10) := by
  constructor
  · have := load_paid (json_pays hm strtod) h
    simpa only [nameBytes, if_true] using this
  · unfold PJson.loadWith at h
    rw [Doc.load, Res.bind_eq_ok] at h
    obtain ⟨⟨⟨nm, tok⟩, r2, s2⟩, h1, h⟩ := h
    obtain ⟨-, a, b⟩ := loop_gain hm _ _ _ _ _ _ _ h1
    cases tok with
    | val v => cases h
    | scopeEnd => cases h
    | scope ty =>
      simp only [Res.bind_eq_ok] at h
      obtain ⟨⟨⟨vs, ns⟩, r3, s3⟩, h2, h⟩ := h
      cases h
      exact a.trans (scope_buffers hm _ _ _ _ _ _ _ h2).1 b

/-- C84: the tree of a Srl document, with names counted once, as trees keep them (Environment.cpp:50-84). -/
theorem srl_tree_memory (m : Mem) (src : Bytes) (r : Root) (x : PSrl.St × Bytes) (h : PSrl.load m src = .ok (r, x)) :
    size false r.node + total x.1.names + x.2.length ≤ src.length ∧
      ∀ nm ∈ r.name :: names r.node, nm = [] ∨ nm ∈ x.1.names := by
  constructor
  · have := load_paid (srl_pays m) h
    simp only [nameBytes, srlRoom, PSrl.St.init, total, List.map_nil, List.sum_nil] at this
    simp only [total]; simp at this; omega
  · unfold PSrl.load at h
    rw [Doc.load, Res.bind_eq_ok] at h
    obtain ⟨⟨⟨nm, tok⟩, x1⟩, h1, h⟩ := h
    obtain ⟨-, k⟩ := srl_names h1
    cases tok with
    | val v => cases h
    | scopeEnd => cases h
    | scope ty =>
      simp only [Res.bind_eq_ok] at h
      obtain ⟨⟨⟨vs, ns⟩, x2⟩, h2, h⟩ := h
      cases h
      obtain ⟨⟨new, e⟩, k2⟩ := srl_scope_names _ _ _ _ _ _ h2
      intro z hz
      rcases List.mem_cons.mp hz with rfl | hz
      · exact k.imp id (fun hk => by rw [e]; exact List.mem_append_left _ hk)
      · exact k2 z (by simpa only [names, contentNames] using hz)

private theorem values_names (vs : List (Bytes × Val)) :
    (vs.map (fun p => 1 + valBytes p.2 + nameBytes true p.1)).sum =
      (vs.map (fun p => 1 + valBytes p.2 + nameBytes false p.1)).sum + total (vs.map (·.1)) := by
  induction vs with
  | nil => rfl
  | cons v vs ih =>
    have e : total ((v :: vs).map (·.1)) = v.1.length + total (vs.map (·.1)) := by simp [total]
    have t : nameBytes true v.1 = v.1.length := rfl
    have f : nameBytes false v.1 = 0 := rfl
    rw [e]
    simp only [List.map_cons, List.sum_cons, ih, t, f]
    omega

mutual
private theorem node_names : ∀ n : Node, size true n = size false n + total (names n)
  | .mk t vs ns => by
    have a := values_names vs
    have b := nodes_names ns
    rw [size, size, names, total_append]
    omega
private theorem nodes_names : ∀ ns : List (Bytes × Node), sizes true ns = sizes false ns + total (namesL ns)
  | [] => rfl
  | (nm, n) :: ns => by
    have a := node_names n
    have b := nodes_names ns
    have e : total (nm :: names n ++ namesL ns) = nm.length + total (names n) + total (namesL ns) := by
      rw [total_append]; simp [total]
    have t : nameBytes true nm = nm.length := rfl
    have f : nameBytes false nm = 0 := rfl
    rw [sizes, sizes, namesL, e]
    omega
end

/-- A tree whose items have names of their own holds the bytes of the names more. -/
theorem memory_names (n : Node) : size true n = size false n + total (names n) := node_names n

/-- Not vacuous: `{"a":"xyz","b":[1,2]}` has 21 bytes; its tree counts 10. -/
example : (match PJson.load ⟨some 0, 4096⟩ (fun _ => none) (str "{\"a\":\"xyz\",\"b\":[1,2]}") with
    | .ok p => some (size true p.1.node)
    | _ => none) = some 10 := by decide +kernel

/-! ## Objects -/

/-- C84: an object restored from any bytes taken as MessagePack, while reading or from the tree, holds at most
`factor ty` for each byte more than the object restored into. -/
theorem msgpack_object_memory (m : Mem) (env : Env) (hd : ∀ d, (env.dtoa d).length ≤ 24) (ty : Ty) (old o : Obj)
    (src : Bytes) (fuel : Nat)
    (h : (∃ x, restore env (PMsgPack.read m) fuel ty old ([], src) = .ok (o, x)) ∨
      loadUnwrap env (PMsgPack.read m) fuel ty old ([], src) = .ok o) :
    weight o ≤ weight old + factor ty * src.length := by
  rcases h with ⟨x, h⟩ | h
  · have := restore_weight (msgpack_pays m) hd (Or.inl rfl) h
    dsimp only at this; omega
  · exact unwrap_weight (msgpack_pays m) hd (Or.inl rfl) h

/-- C84: … as JSON, by a parser in any state. -/
theorem json_object_memory (m : Mem) (hm : m.Sane) (env : Env) (hd : ∀ d, (env.dtoa d).length ≤ 24) (ty : Ty)
    (old o : Obj) (r : PJson.Rd) (src : Bytes) (fuel : Nat)
    (h : (∃ x, restore env (PJson.read m env.strtod) fuel ty old (r, src) = .ok (o, x)) ∨
      loadUnwrap env (PJson.read m env.strtod) fuel ty old (r, src) = .ok o) :
    weight o ≤ weight old + factor ty * src.length := by
  rcases h with ⟨x, h⟩ | h
  · have := restore_weight (json_pays hm env.strtod) hd (Or.inl rfl) h
    dsimp only at this; omega
  · exact unwrap_weight (json_pays hm env.strtod) hd (Or.inl rfl) h

/-- C84: … as Srl, for types without tables. What is missing: tables, where it does not hold (`tables_memory`). -/
theorem srl_object_memory_partial (m : Mem) (env : Env) (hd : ∀ d, (env.dtoa d).length ≤ 24) (ty : Ty)
    (ht : noTables ty) (old o : Obj) (src : Bytes) (fuel : Nat)
    (h : (∃ x, restore env (PSrl.read m) fuel ty old (PSrl.St.init, src) = .ok (o, x)) ∨
      loadUnwrap env (PSrl.read m) fuel ty old (PSrl.St.init, src) = .ok o) :
    weight o ≤ weight old + factor ty * src.length := by
  have e : srlRoom (PSrl.St.init, src) = src.length := by simp [srlRoom, PSrl.St.init, total]
  rcases h with ⟨x, h⟩ | h
  · have := restore_weight (srl_pays m) hd (Or.inr ht) h
    rw [e] at this; omega
  · have := unwrap_weight (srl_pays m) hd (Or.inr ht) h
    rwa [e] at this

/-- Not vacuous: texts made by `fpconv_dtoa` are that short. -/
example : ∀ d, (Fpconv.text d).length ≤ 24 := fun d => by
  obtain ⟨t, h1, h2⟩ := Fpconv.dtoa_some d
  unfold Fpconv.text
  rw [h1]; exact h2

/-- Eleven bytes of MessagePack make a vector of the weight 8, with a string and a number behind a pointer in a class. -/
example : (match restore ⟨fun _ => none, fun _ => []⟩ (PMsgPack.read ⟨some 0, 4096⟩) 100
      (.vec (.record .object false (.cons (str "s") false .str (.cons (str "p") false (.ptr .raw (.int .u8)) .nil))))
      (.many []) ([], [0x91, 0x82, 0xA1, 115, 0xA3, 1, 2, 3, 0xA1, 112, 7]) with
    | .ok (o, _) => weight o
    | _ => 0) = 8 := by decide +kernel

/-- The types of the witness: a vector of tables with numbers -/
def tables : Ty := .vec (.sorted ⟨true, false⟩ (.named (.int .u8)))

/-- An array of objects with one number each, all of the same name, which has less than 128 bytes. The first has the
name, the `n` others its index. -/
def sharedName (name : Bytes) (n : Nat) : Bytes :=
  [128, 64, 3, UInt8.ofNat name.length] ++ name ++ [1, 0] ++ (List.replicate n [64, 7, 0, 1, 0]).flatten ++ [0]

/-- C84 fails for tables restored from Srl: names used again take a byte in the document, but each table has its own
copy of them (Resolve.hpp:945-948, 955-959). A document of 434 bytes makes an object of the weight 7992; what holds of
the other formats is 9 for each byte. -/
theorem tables_memory :
    (sharedName (List.replicate 127 97) 60).length = 434 ∧ factor tables = 9 ∧
    (match restore ⟨fun _ => none, fun _ => []⟩ (PSrl.read ⟨some 0, 4096⟩) 2000 tables (.many [])
      (PSrl.St.init, sharedName (List.replicate 127 97) 60) with
    | .ok (o, _) => weight o
    | _ => 0) = 7992 := by decide +kernel

end Srl.Props
