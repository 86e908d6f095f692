import Verif.Lemmas.SavedSize
import Verif.Props.RestoreTime

/-! # C94: what is saved is not much larger than what it is saved from

Trees are measured by `Room.size` (Verif/Props/MemorySpec.lean): one for each value and node, and the bytes of strings,
binaries and, if `own` is true, names. `Room.total` are the bytes of a list of names. -/

namespace Srl.Props
open Room Doc Saved

/-! ## Specification -/

/-- C94 in full for documents in the Srl format that are saved as MessagePack: `c` for each byte of the document -/
def SrlToMsgPack (c : Nat) : Prop :=
  ∀ (m : Mem) (s b : Bytes) (r : Root) (x : PSrl.St × Bytes), m.Sane → PSrl.load m s = .ok (r, x) →
    PMsgPack.save r.name r.node = .ok b → b.length ≤ c * s.length

/-- … and as JSON -/
def SrlToJson (compact : Bool) (c : Nat) : Prop :=
  ∀ (dtoa : UInt64 → Bytes) (m : Mem) (s b : Bytes) (r : Root) (x : PSrl.St × Bytes), m.Sane → PSrl.load m s = .ok (r, x) →
    PJson.save dtoa compact r.name r.node = .ok b → b.length ≤ c * s.length

/-- C94 in full for trees saved as JSON: `c` for each value, node and byte of the tree -/
def JsonSaved (compact : Bool) (c : Nat) : Prop :=
  ∀ (dtoa : UInt64 → Bytes) (name b : Bytes) (n : Node), (∀ d, (dtoa d).length ≤ 24) →
    PJson.save dtoa compact name n = .ok b → b.length ≤ c * (name.length + size true n)

/-! ## Trees -/

/-- C94 for MessagePack: every tree that can be saved -/
theorem msgpack_saved_size (name : Bytes) (n : Node) (b : Bytes) (h : PMsgPack.save name n = .ok b) :
    b.length ≤ 14 * (name.length + size true n) := by
  rw [PMsgPack.save, Res.bind_eq_ok] at h
  obtain ⟨⟨st, b1⟩, h1, h2⟩ := h
  cases h2
  have a := msgpack_writeAll _ _ _ (fun sc hs => by cases hs) h1
  have e := events_sum true 14 0 n name
  simp only [nameBytes, if_true, List.length_nil] at *
  omega

/-- C94 for the Srl format: names count once, whatever list they are in. -/
theorem srl_saved_size (name : Bytes) (n : Node) (b : Bytes) (h : PSrl.save name n = .ok b) (table : List Bytes)
    (ht : ∀ nm ∈ name :: names n, nm = [] ∨ nm ∈ table) : b.length ≤ 22 * size false n + total table := by
  rw [PSrl.save, Res.bind_eq_ok] at h
  obtain ⟨⟨st, b1⟩, h1, h2⟩ := h
  cases h2
  obtain ⟨p, q, r⟩ := srl_writeAll _ _ _ _ List.nodup_nil h1
  have e := events_sum false 21 1 n name
  have t := total_subset st.names table q fun x hx => by
    rcases r x hx with h | ⟨⟨e, he, rfl⟩, hne⟩
    · cases h
    · rcases events_names n name e he with h | h
      · exact absurd h hne
      · exact (ht _ h).resolve_left hne
  have z : total PSrl.St.init.names = 0 := rfl
  simp only [nameBytes] at *
  simp only [Bool.false_eq_true, if_false] at e
  omega

/-- C94 for the Srl format, with all names counted -/
theorem srl_saved_all (name : Bytes) (n : Node) (b : Bytes) (h : PSrl.save name n = .ok b) :
    b.length ≤ 22 * (name.length + size true n) := by
  have h1 := srl_saved_size name n b h (name :: names n) fun nm hn => .inr hn
  have h2 := memory_names n
  have h3 : total (name :: names n) = name.length + total (names n) := by simp [total]
  omega

private theorem json_size (dtoa : UInt64 → Bytes) (hd : ∀ d, (dtoa d).length ≤ 24) (compact : Bool) (name : Bytes) (n : Node)
    (b : Bytes) (h : PJson.save dtoa compact name n = .ok b) :
    b.length ≤ (36 + 2 * pad compact (n.depth + 1)) * (name.length + size true n) := by
  rw [PJson.save, Res.bind_eq_ok] at h
  obtain ⟨⟨b1, w⟩, h1, h2⟩ := h
  cases h2
  have := (json_node hd compact n name _ _ _ h1).2
  simpa [PJson.Wr.new] using this

/-- C94 for JSON without line ends -/
theorem json_saved_size : JsonSaved true 36 := fun dtoa name b n hd h => by
  simpa [pad] using json_size dtoa hd true name n b h

/-- C94 for JSON in lines, which are indented: the factor grows with the nesting. -/
theorem json_readable_size_partial (dtoa : UInt64 → Bytes) (hd : ∀ d, (dtoa d).length ≤ 24) (name : Bytes) (n : Node)
    (b : Bytes) (h : PJson.save dtoa false name n = .ok b) : b.length ≤ (40 + 2 * n.depth) * (name.length + size true n) := by
  have := json_size dtoa hd false name n b h
  have e : 36 + 2 * pad false (n.depth + 1) = 40 + 2 * n.depth := by simp only [pad]; simp; omega
  rwa [e] at this

/-- Not vacuous: texts made by `fpconv_dtoa` are that short, and a tree with 10 items and bytes takes 21 bytes. -/
example : (∀ d, (Fpconv.text d).length ≤ 24) ∧
    PJson.save Fpconv.text true [] (.mk .object [(str "a", .str (str "xyz"))] [(str "b", .mk .array [([], .int .u8 1), ([], .int .u8 2)] [])]) =
      .ok (str "{\"a\":\"xyz\",\"b\":[1,2]}") ∧
    size true (.mk .object [(str "a", .str (str "xyz"))] [(str "b", .mk .array [([], .int .u8 1), ([], .int .u8 2)] [])]) = 10 := by
  refine ⟨fun d => ?_, by decide +kernel, by decide +kernel⟩
  obtain ⟨t, h1, h2⟩ := Fpconv.dtoa_some d
  unfold Fpconv.text
  rw [h1]; exact h2

/-! ## Documents that are saved again -/

private theorem again (name : Bytes) (n : Node) (k : Nat) (hk : name.length + size true n ≤ k) (hdepth : n.depth ≤ 128)
    (dtoa : UInt64 → Bytes) (hd : ∀ d, (dtoa d).length ≤ 24) (b : Bytes) :
    (PMsgPack.save name n = .ok b → b.length ≤ 14 * k) ∧ (PSrl.save name n = .ok b → b.length ≤ 22 * k) ∧
    (PJson.save dtoa true name n = .ok b → b.length ≤ 36 * k) ∧
    (PJson.save dtoa false name n = .ok b → b.length ≤ 296 * k) := by
  refine ⟨fun h => ?_, fun h => ?_, fun h => ?_, fun h => ?_⟩
  · have := msgpack_saved_size _ _ _ h; omega
  · have := srl_saved_all _ _ _ h; omega
  · have := json_saved_size _ _ _ _ hd h; omega
  · have := json_readable_size_partial _ hd _ _ _ h
    have h2 := Nat.mul_le_mul (show 40 + 2 * n.depth ≤ 296 by omega) hk
    omega

/-- C94: what is loaded from MessagePack, in each format -/
theorem msgpack_resaved (m : Mem) (s : Bytes) (r : Root) (x : List PMsgPack.RScope × Bytes)
    (h : PMsgPack.load m s = .ok (r, x)) (dtoa : UInt64 → Bytes) (hd : ∀ d, (dtoa d).length ≤ 24) (b : Bytes) :
    (PMsgPack.save r.name r.node = .ok b → b.length ≤ 14 * s.length) ∧
    (PSrl.save r.name r.node = .ok b → b.length ≤ 22 * s.length) ∧
    (PJson.save dtoa true r.name r.node = .ok b → b.length ≤ 36 * s.length) ∧
    (PJson.save dtoa false r.name r.node = .ok b → b.length ≤ 296 * s.length) := by
  have := msgpack_tree_memory m s r x h
  exact again _ _ _ (by omega) (nesting_bounded _ _ _ _ _ h) dtoa hd b

/-- C94: what is loaded from JSON, in each format -/
theorem json_resaved (m : Mem) (hm : m.Sane) (strtod : Bytes → Option UInt64) (r0 r1 : PJson.Rd) (s t : Bytes) (r : Root)
    (h : PJson.loadWith m strtod r0 s = .ok (r, r1, t)) (dtoa : UInt64 → Bytes) (hd : ∀ d, (dtoa d).length ≤ 24) (b : Bytes) :
    (PMsgPack.save r.name r.node = .ok b → b.length ≤ 14 * s.length) ∧
    (PSrl.save r.name r.node = .ok b → b.length ≤ 22 * s.length) ∧
    (PJson.save dtoa true r.name r.node = .ok b → b.length ≤ 36 * s.length) ∧
    (PJson.save dtoa false r.name r.node = .ok b → b.length ≤ 296 * s.length) := by
  have := (json_tree_memory m hm strtod r0 r1 s t r h).1
  exact again _ _ _ (by omega) (nesting_bounded _ _ _ _ _ h) dtoa hd b

/-- C94: what is loaded from the Srl format and saved in it, although it has names once only -/
theorem srl_resaved (m : Mem) (s : Bytes) (r : Root) (x : PSrl.St × Bytes) (h : PSrl.load m s = .ok (r, x)) (b : Bytes)
    (hb : PSrl.save r.name r.node = .ok b) : b.length ≤ 22 * s.length := by
  obtain ⟨h1, h2⟩ := srl_tree_memory m s r x h
  have := srl_saved_size _ _ _ hb _ h2
  omega

/-- C94: what is loaded from the Srl format, in the other formats: the square of the size of the document is not
exceeded. -/
theorem srl_resaved_quadratic_partial (m : Mem) (s : Bytes) (r : Root) (x : PSrl.St × Bytes) (h : PSrl.load m s = .ok (r, x))
    (dtoa : UInt64 → Bytes) (hd : ∀ d, (dtoa d).length ≤ 24) (b : Bytes) :
    (PMsgPack.save r.name r.node = .ok b → b.length ≤ 14 * (s.length * s.length)) ∧
    (PJson.save dtoa true r.name r.node = .ok b → b.length ≤ 36 * (s.length * s.length)) ∧
    (PJson.save dtoa false r.name r.node = .ok b → b.length ≤ 296 * (s.length * s.length)) := by
  obtain ⟨a, g⟩ := srl_tree_memory m s r x h
  have b1 := memory_names r.node
  have c := Srl.Cost.names_length r.node
  have ht := Srl.Cost.total_le (n := total x.1.names) (xs := r.name :: Room.names r.node) fun y hy => by
    rcases g y hy with rfl | h
    · simp
    · exact Srl.Cost.length_le_total h
  have e : total (r.name :: Room.names r.node) = r.name.length + total (Room.names r.node) := by simp [total]
  have k : r.name.length + size true r.node ≤ s.length * s.length := by
    have h1 : (r.name :: Room.names r.node).length * total x.1.names ≤ size false r.node * total x.1.names :=
      Nat.mul_le_mul_right _ (by simp; omega)
    have h2 : size false r.node * (1 + total x.1.names) ≤ s.length * s.length := Nat.mul_le_mul (by omega) (by omega)
    rw [Nat.mul_add] at h2
    omega
  obtain ⟨p, _, q, u⟩ := again _ _ _ k (nesting_bounded _ _ _ _ _ h) dtoa hd b
  exact ⟨p, q, u⟩

/-! ## What does not hold -/

private def one (name : Bytes) : Bytes × Node := ([], .mk .object [(name, .int .u64 1)] [])

private theorem writeStr_least (b : Bytes) : b.length ≤ (PMsgPack.writeStr b).length := by
  unfold PMsgPack.writeStr
  split
  · simp
  split
  · simp; omega
  split <;> simp <;> omega

private theorem msgpack_one (name : Bytes) : ∀ (k e t : Nat) (out : Bytes),
    ∃ e' out', PMsgPack.writeAll ([⟨.array, e, t⟩], out) (Node.eventsL (List.replicate k (one name))) =
      .ok ([⟨.array, e', t⟩], out') ∧ out.length + k * name.length ≤ out'.length
  | 0, e, t, out => ⟨e, out, rfl, by simp⟩
  | k + 1, e, t, out => by
    let mid := out ++ (0xDF : UInt8) :: [0, 0, 0, 0] ++ PMsgPack.writeStr name ++ [1]
    obtain ⟨e', out', h1, h2⟩ := msgpack_one name k ((e + 1) % 2 ^ 32) t
      (PMsgPack.patch mid (out.length + 1) (PMsgPack.beBytes 4 1))
    have hl := writeStr_least name
    have hp := Saved.patch_length mid (out.length + 1) (PMsgPack.beBytes 4 1) (by simp [mid, PMsgPack.beBytes_length]; omega)
    refine ⟨e', out', ?_, ?_⟩
    · rw [List.replicate_succ, one, Node.eventsL, Node.events]
      rw [one] at h1
      simp only [List.map_cons, List.map_nil, Node.eventsL, List.append_nil, List.cons_append, List.nil_append,
        PMsgPack.writeAll]
      exact h1
    · have : mid.length = out.length + 5 + (PMsgPack.writeStr name).length + 1 := by simp [mid]; omega
      rw [Nat.succ_mul]; omega

private theorem json_one (dtoa : UInt64 → Bytes) (compact : Bool) (name : Bytes) : ∀ (k : Nat) (w : PJson.Wr),
    w.stack = [.array] → ∃ b w', PJson.writeAll dtoa compact w (Node.eventsL (List.replicate k (one name))) = .ok (b, w') ∧
      w'.stack = [.array] ∧ k * name.length ≤ b.length
  | 0, w, hw => ⟨[], w, rfl, hw, by simp⟩
  | k + 1, w, hw => by
    obtain ⟨b, w', h1, h2, h3⟩ := json_one dtoa compact name k ⟨[.array], false⟩ rfl
    have hv : PJson.valText dtoa (.int .u64 1) = .ok [49] := by rfl
    rw [one] at h1
    rw [List.replicate_succ, one, Node.eventsL, Node.events]
    simp only [List.map_cons, List.map_nil, Node.eventsL, List.append_nil, List.cons_append, List.nil_append,
      PJson.writeAll, PJson.write, hv, Res.ok_bind, hw, h1]
    refine ⟨_, _, rfl, h2, ?_⟩
    rw [Nat.succ_mul]
    simp [PJson.nameText]
    omega

private theorem msgpack_array (ns : List (Bytes × Node)) (e : Nat) (out : Bytes)
    (h : PMsgPack.writeAll ([⟨.array, 0, 1⟩], [0xDD, 0, 0, 0, 0]) (Node.eventsL ns) = .ok ([⟨.array, e, 1⟩], out)) :
    PMsgPack.save [] (.mk .array [] ns) = .ok (PMsgPack.patch out 1 (PMsgPack.beBytes 4 e)) := by
  rw [PMsgPack.save, Node.events]
  simp only [List.map_nil, List.nil_append]
  rw [PMsgPack.writeAll]
  have h1 : PMsgPack.write ([], []) ⟨[], .scope .array⟩ = .ok ([⟨.array, 0, 1⟩], [0xDD, 0, 0, 0, 0]) := rfl
  rw [h1, Res.ok_bind, PMsgPack.writeAll_append, h]
  rfl

/-- C94 fails for documents in the Srl format saved as MessagePack: names used again take a byte of the document, but are
written in full each time (PMsgPack.cpp:371-388). -/
theorem srl_msgpack_large (c : Nat) (hc : c < 2 ^ 59) : ¬ SrlToMsgPack c := by
  intro h
  have hn : (List.replicate (16 * (c + 2)) (97 : UInt8)).length = 16 * (c + 2) := List.length_replicate
  generalize List.replicate (16 * (c + 2)) (97 : UInt8) = name at hn
  obtain ⟨s, h1, h2⟩ := shared_name_loaded name (by omega) (16 * (c + 2))
  have hm : (⟨some 0, 4096⟩ : Mem).Sane := by show 4096 < 2 ^ 63; decide
  obtain ⟨x, h3⟩ := h2 _ hm
  obtain ⟨e, out, h4, h5⟩ := msgpack_one name (16 * (c + 2) + 1) 0 1 [0xDD, 0, 0, 0, 0]
  have h6 := msgpack_array _ e out h4
  have h7 := h _ _ _ _ _ hm h3 h6
  have h8 := Saved.patch_length out 1 (PMsgPack.beBytes 4 e) (by simp [PMsgPack.beBytes_length] at *; omega)
  rw [hn] at h1 h5
  have := shared_name_grows c _ h1
  simp only [List.length_cons, List.length_nil] at h5
  omega

/-- … and as JSON (PJson.cpp:106-116) -/
theorem srl_json_large (compact : Bool) (c : Nat) (hc : c < 2 ^ 59) : ¬ SrlToJson compact c := by
  intro h
  have hn : (List.replicate (16 * (c + 2)) (97 : UInt8)).length = 16 * (c + 2) := List.length_replicate
  generalize List.replicate (16 * (c + 2)) (97 : UInt8) = name at hn
  obtain ⟨s, h1, h2⟩ := shared_name_loaded name (by omega) (16 * (c + 2))
  have hm : (⟨some 0, 4096⟩ : Mem).Sane := by show 4096 < 2 ^ 63; decide
  obtain ⟨x, h3⟩ := h2 _ hm
  obtain ⟨b, w, h4, h5, h6⟩ := json_one (fun _ => []) compact name (16 * (c + 2) + 1) ⟨[.array], true⟩ rfl
  rw [one] at h4
  have h7 : ∃ t, PJson.save (fun _ => []) compact [] (.mk .array [] (List.replicate (16 * (c + 2) + 1)
      ([], .mk .object [(name, .int .u64 1)] []))) = .ok t ∧ b.length ≤ t.length := by
    rw [PJson.save, Node.events]
    simp only [List.map_nil, List.nil_append, PJson.writeAll, PJson.write, Res.ok_bind, PJson.Wr.new,
      PJson.writeAll_append, h4, h5]
    refine ⟨_, rfl, ?_⟩
    simp
    omega
  obtain ⟨t, h7, h8⟩ := h7
  have h9 := h _ _ _ _ _ _ hm h3 h7
  rw [hn] at h1 h6
  have := shared_name_grows c _ h1
  omega

/-- Nested arrays -/
def nested : Nat → Node
  | 0 => .mk .array [] []
  | k + 1 => .mk .array [] [([], nested k)]

private theorem nested_size : ∀ k, size true (nested k) = k + 1
  | 0 => rfl
  | k + 1 => by
    have := nested_size k
    simp [nested, size, sizes, this, nameBytes]
    omega

private theorem nested_json (dtoa : UInt64 → Bytes) : ∀ (k : Nat) (w : PJson.Wr), ∃ b,
    PJson.writeAll dtoa false w ((nested k).events []) = .ok (b, ⟨w.stack, false⟩) ∧
      k * k + 2 * (k * w.stack.length) ≤ 2 * b.length
  | 0, w => by
    rw [nested, Node.events]
    simp only [List.map_nil, Node.eventsL, List.nil_append, PJson.writeAll, PJson.write, Res.ok_bind]
    exact ⟨_, rfl, by simp⟩
  | k + 1, w => by
    obtain ⟨b, h1, h2⟩ := nested_json dtoa k ⟨.array :: w.stack, true⟩
    rw [nested, Node.events]
    simp only [List.map_nil, Node.eventsL, List.nil_append, List.append_nil, PJson.writeAll, PJson.write, Res.ok_bind,
      PJson.writeAll_append, h1]
    refine ⟨_, rfl, ?_⟩
    simp only [List.length_cons, Nat.mul_add, Nat.add_mul] at h2 ⊢
    simp [PJson.spacing]
    omega

/-- C94 fails for trees saved as JSON in lines: each node is indented by as many bytes as there are nodes around it
(PJson.cpp:155-175). -/
theorem json_readable_large (c : Nat) : ¬ JsonSaved false c := by
  intro h
  obtain ⟨b, h1, h2⟩ := nested_json (fun _ => []) (4 * (c + 1)) PJson.Wr.new
  have h3 : PJson.save (fun _ => []) false [] (nested (4 * (c + 1))) = .ok b := by
    rw [PJson.save, h1]; rfl
  have h4 := h (fun _ => []) [] b _ (fun _ => by simp) h3
  rw [nested_size] at h4
  have e1 : 4 * (c + 1) * (4 * (c + 1)) = 16 * (c * c) + 32 * c + 16 := by
    simp only [Nat.mul_add, Nat.add_mul, Nat.mul_one, Nat.mul_assoc, Nat.mul_left_comm c 4]
    omega
  have e2 : c * (0 + (4 * (c + 1) + 1)) = 4 * (c * c) + 5 * c := by
    simp only [Nat.mul_add, Nat.mul_one, Nat.mul_left_comm c 4]
    omega
  simp only [List.length_nil] at h4
  omega

/-- Not vacuous: three arrays in lines -/
example : PJson.save Fpconv.text false [] (nested 2) = .ok (str "[\n\t[\n\t\t[\n\t\t]\n\t]\n]") := by decide +kernel

end Srl.Props
