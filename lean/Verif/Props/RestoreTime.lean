import Verif.Lemmas.RestoreCost
import Verif.Props.Memory
import Verif.Props.SrlLax
import Verif.Lemmas.Time

/-! # C93: restoring an object takes time in proportion to the tree

What is done to restore an object from a tree that was loaded is counted by `Typed.unwrapSteps`. The property is: for each
type there is a number which is not exceeded for each value, node and byte of the tree, whatever the tree holds, whether or
not restoring succeeds. -/

namespace Srl.Props
open Typed Room

/-! ## Specification -/

mutual
/-- What restoring takes at most for each value, node and byte of the tree: for a class, the sum of what its members take,
and three for each byte of their names. -/
def effort : Ty → Nat
  | .vec e => 1 + effort e
  | .named e => 1 + effort e
  | .arr _ e => 1 + effort e
  | .record _ _ fs => 1 + efforts fs
  | .ptr _ e => 1 + effort e
  | .sorted _ c => 1 + effort c
  | _ => 1
def efforts : Fields → Nat
  | .nil => 0
  | .cons name _ ty rest => 3 * name.length + 4 + effort ty + efforts rest
end

/-- C93 in full for the Srl format: `c` for each byte of a document -/
def SrlRestored (ty : Ty) (c : Nat) : Prop :=
  ∀ (m : Mem) (s : Bytes) (r : Root) (x : PSrl.St × Bytes) (env : Env) (old : Obj), m.Sane → PSrl.load m s = .ok (r, x) →
    unwrapSteps env ty old r ≤ c * s.length

/-! ## Theorems -/

private theorem effort_pos (ty : Ty) : 1 ≤ effort ty := by cases ty <;> simp [effort]

/-- A loop over nodes -/
private theorem nodes_sum {own : Bool} {E : Nat} {ns : List (Bytes × Node)} {g : Bytes × Node → Nat}
    (h : ∀ p ∈ ns, g p ≤ Room.nameBytes own p.1 + E * Room.size own p.2) :
    ∀ p ∈ ns, 1 + g p ≤ (1 + E) * (Room.nameBytes own p.1 + Room.size own p.2) := by
  intro p hp
  have h1 := h p hp
  have h2 := size_one own p.2
  have : (1 + E) * (Room.nameBytes own p.1 + Room.size own p.2) =
      Room.nameBytes own p.1 + Room.size own p.2 + E * Room.nameBytes own p.1 + E * Room.size own p.2 := by
    rw [Nat.add_mul, Nat.one_mul, Nat.mul_add]; omega
  omega

private theorem values_sum {own : Bool} {E : Nat} (hE : 1 ≤ E) {vs : List (Bytes × Val)} {g : Bytes × Val → Nat}
    (h : ∀ p ∈ vs, g p ≤ Room.nameBytes own p.1 + valSteps p.2) :
    ∀ p ∈ vs, 1 + g p ≤ (1 + E) * (1 + Room.valBytes p.2 + Room.nameBytes own p.1) := by
  intro p hp
  have h1 := h p hp
  have h2 := valSteps_le p.2
  have h3 := Nat.mul_le_mul_right (1 + Room.valBytes p.2 + Room.nameBytes own p.1) hE
  rw [Nat.add_mul]
  omega

private theorem whole_size {E A B k : Nat} (h : k ≤ (1 + E) * A ∨ k ≤ (1 + E) * B) : 1 + k ≤ (1 + E) * (1 + A + B) := by
  have : (1 + E) * (1 + A + B) = 1 + E + (1 + E) * A + (1 + E) * B := by rw [Nat.mul_add, Nat.mul_add]; omega
  rcases h with h | h <;> omega

mutual
/-- What it takes to restore from a node -/
theorem node_steps (env : Env) (own : Bool) : ∀ (ty : Ty), (own = true ∨ noTables ty) → ∀ (old : Obj) (n : Node),
    nodeSteps env ty old n ≤ effort ty * Room.size own n
  | .vec e, ht, old, .mk t vs ns => by
    rw [nodeSteps, effort, size_parts own]
    refine whole_size ?_
    split
    · right
      rw [← sum_scale]
      exact mapSteps_le _ _ _ _ (nodes_sum fun p _ => by have := node_steps env own e (ht.imp id fun h => by simpa only [noTables] using h) (dflt e) p.2; omega)
    · left
      rw [← sum_scale]
      exact mapSteps_le _ _ _ _ (values_sum (effort_pos e) fun p _ => by omega)
  | .named e, ht, old, .mk t vs ns => by
    have ho : own = true := ht.elim id fun h => by rw [noTables] at h; exact h.elim
    subst ho
    rw [nodeSteps, effort, size_parts true]
    split
    · exact (by omega : 1 ≤ 1 + 0).trans (whole_size (.inl (Nat.zero_le _)))
    refine whole_size ?_
    split
    · right
      rw [← sum_scale]
      exact mapSteps_le _ _ _ _ (nodes_sum fun p _ => by have ha : Room.nameBytes true p.1 = p.1.length := rfl; have := node_steps env true e (.inl rfl) (dflt e) p.2; omega)
    · left
      rw [← sum_scale]
      exact mapSteps_le _ _ _ _ (values_sum (effort_pos e) fun p _ => by have ha : Room.nameBytes true p.1 = p.1.length := rfl; omega)
  | .arr k e, ht, .many os, .mk t vs ns => by
    rw [nodeSteps, effort, size_parts own]
    split
    · split
      · exact (by omega : 1 ≤ 1 + 0).trans (whole_size (.inl (Nat.zero_le _)))
      · refine whole_size (.inr ?_)
        rw [← sum_scale]
        exact zipSteps_le _ _ _ _ _ fun o => nodes_sum fun p _ => by have := node_steps env own e (ht.imp id fun h => by simpa only [noTables] using h) o p.2; omega
    · split
      · exact (by omega : 1 ≤ 1 + 0).trans (whole_size (.inl (Nat.zero_le _)))
      · refine whole_size (.inl ?_)
        rw [← sum_scale]
        exact zipSteps_le _ _ _ _ _ fun o => values_sum (effort_pos e) fun p _ => by omega
  | .record _ strict fs, ht, .many os, .mk t vs ns => by
    rw [nodeSteps, effort, Nat.add_mul, Nat.one_mul]
    have := size_one own (.mk t vs ns)
    split
    · omega
    · have := field_steps env own fs (ht.imp id fun h => by simpa only [noTables] using h) os 0 0 t vs ns
      omega
  | .ptr _ e, ht, old, n => by
    rw [nodeSteps, effort, Nat.add_mul, Nat.one_mul]
    have := size_one own n
    have := node_steps env own e (ht.imp id fun h => by simpa only [noTables] using h) (dflt e) n
    omega
  | .sorted _ c, ht, old, n => by
    rw [nodeSteps, effort, Nat.add_mul, Nat.one_mul]
    have := size_one own n
    have := node_steps env own c (ht.imp id fun h => by simpa only [noTables] using h) (dflt c) n
    omega
  | .bool, _, _, n => by simp only [nodeSteps, effort, Nat.one_mul]; exact size_one own n
  | .int _, _, _, n => by simp only [nodeSteps, effort, Nat.one_mul]; exact size_one own n
  | .float, _, _, n => by simp only [nodeSteps, effort, Nat.one_mul]; exact size_one own n
  | .double, _, _, n => by simp only [nodeSteps, effort, Nat.one_mul]; exact size_one own n
  | .str, _, _, n => by simp only [nodeSteps, effort, Nat.one_mul]; exact size_one own n
  | .bytes, _, _, n => by simp only [nodeSteps, effort, Nat.one_mul]; exact size_one own n
  | .arr k e, ht, .bool _, n => by
    have := size_one own n
    simp only [nodeSteps, effort, Nat.add_mul, Nat.one_mul]; omega
  | .arr k e, ht, .int _, n => by
    have := size_one own n
    simp only [nodeSteps, effort, Nat.add_mul, Nat.one_mul]; omega
  | .arr k e, ht, .float _, n => by
    have := size_one own n
    simp only [nodeSteps, effort, Nat.add_mul, Nat.one_mul]; omega
  | .arr k e, ht, .double _, n => by
    have := size_one own n
    simp only [nodeSteps, effort, Nat.add_mul, Nat.one_mul]; omega
  | .arr k e, ht, .str _, n => by
    have := size_one own n
    simp only [nodeSteps, effort, Nat.add_mul, Nat.one_mul]; omega
  | .arr k e, ht, .null, n => by
    have := size_one own n
    simp only [nodeSteps, effort, Nat.add_mul, Nat.one_mul]; omega
  | .arr k e, ht, .ref _, n => by
    have := size_one own n
    simp only [nodeSteps, effort, Nat.add_mul, Nat.one_mul]; omega
  | .record _ _ fs, ht, .bool _, n => by
    have := size_one own n
    simp only [nodeSteps, effort, Nat.add_mul, Nat.one_mul]; omega
  | .record _ _ fs, ht, .int _, n => by
    have := size_one own n
    simp only [nodeSteps, effort, Nat.add_mul, Nat.one_mul]; omega
  | .record _ _ fs, ht, .float _, n => by
    have := size_one own n
    simp only [nodeSteps, effort, Nat.add_mul, Nat.one_mul]; omega
  | .record _ _ fs, ht, .double _, n => by
    have := size_one own n
    simp only [nodeSteps, effort, Nat.add_mul, Nat.one_mul]; omega
  | .record _ _ fs, ht, .str _, n => by
    have := size_one own n
    simp only [nodeSteps, effort, Nat.add_mul, Nat.one_mul]; omega
  | .record _ _ fs, ht, .null, n => by
    have := size_one own n
    simp only [nodeSteps, effort, Nat.add_mul, Nat.one_mul]; omega
  | .record _ _ fs, ht, .ref _, n => by
    have := size_one own n
    simp only [nodeSteps, effort, Nat.add_mul, Nat.one_mul]; omega
/-- … and the members of a class -/
theorem field_steps (env : Env) (own : Bool) : ∀ (fs : Fields), (own = true ∨ noTablesL fs) → ∀ (os : List Obj) (ni vi : Nat) (t : ScopeTy)
    (vs : List (Bytes × Val)) (ns : List (Bytes × Node)),
    fieldSteps env fs os ni vi vs ns ≤ efforts fs * Room.size own (.mk t vs ns)
  | .nil, _, _, _, _, _, _, _ => by simp [fieldSteps]
  | .cons _ _ _ _, _, [], _, _, _, _, _ => by simp [fieldSteps]
  | .cons name opt ty rest, ht, o :: os, ni, vi, t, vs, ns => by
    have hs := size_parts own t vs ns
    have hv : vs.length ≤ (vs.map fun p => 1 + Room.valBytes p.2 + Room.nameBytes own p.1).sum := length_le_sum _ _ fun x _ => by omega
    have hn : ns.length ≤ (ns.map fun p => Room.nameBytes own p.1 + Room.size own p.2).sum :=
      length_le_sum _ _ fun x _ => by have := size_one own x.2; omega
    -- what one member takes at most
    have key : ∀ l a b c d : Nat, l + 1 ≤ Room.size own (.mk t vs ns) → a ≤ (1 + name.length) * l →
        b ≤ name.length + (1 + name.length) * l + 1 → c ≤ effort ty * Room.size own (.mk t vs ns) →
        d ≤ efforts rest * Room.size own (.mk t vs ns) →
        a + (1 + b + (c + d)) ≤ (3 * name.length + 4 + effort ty + efforts rest) * Room.size own (.mk t vs ns) := by
      intro l a b c d hl ha hb hc hd
      rw [Nat.add_mul, Nat.add_mul]
      have h1 : (1 + name.length) * (l + 1) ≤ (1 + name.length) * Room.size own (.mk t vs ns) := Nat.mul_le_mul_left _ hl
      have h2 : (3 * name.length + 4) * Room.size own (.mk t vs ns) =
          2 * ((1 + name.length) * Room.size own (.mk t vs ns)) +
          (name.length * Room.size own (.mk t vs ns) + 2 * Room.size own (.mk t vs ns)) := by
        rw [← Nat.mul_assoc, ← Nat.add_mul, ← Nat.add_mul]; congr 1; omega
      rw [Nat.mul_succ] at h1
      have h3 : name.length * 1 ≤ name.length * Room.size own (.mk t vs ns) := Nat.mul_le_mul_left _ (by omega)
      omega
    have fn := findSteps_le name ns
    have fv := findSteps_le name vs
    have ln := lookupSteps_le name ni ns
    have lv := lookupSteps_le name vi vs
    have fn' : (if opt = true then findSteps name ns else 0) ≤ (1 + name.length) * ns.length := by split <;> omega
    have fv' : (if opt = true then findSteps name vs else 0) ≤ (1 + name.length) * vs.length := by split <;> omega
    rw [fieldSteps, efforts]
    generalize (if opt = true then findSteps name ns else 0) = F at fn' ⊢
    generalize (if opt = true then findSteps name vs else 0) = G at fv' ⊢
    split
    · split
      · have ih := field_steps env own rest (ht.imp id fun h => by rw [noTablesL] at h; exact h.2) os ni vi t vs ns
        have := key ns.length _ 0 0 _ (by omega) fn' (by omega) (by omega) ih
        omega
      · split
        · rename_i n hl
          obtain ⟨p, hp, hpe⟩ := lookup_item hl
          have hc := node_steps env own ty (ht.imp id fun h => by rw [noTablesL] at h; exact h.1) o n
          have hm := mem_le_sum (fun p => Room.nameBytes own p.1 + Room.size own p.2) ns p hp
          simp only [hpe] at hm
          have hc' : nodeSteps env ty o n ≤ effort ty * Room.size own (.mk t vs ns) :=
            hc.trans (Nat.mul_le_mul_left _ (by omega))
          have ih := field_steps env own rest (ht.imp id fun h => by rw [noTablesL] at h; exact h.2) os (ni + 1) vi t vs ns
          exact key ns.length _ _ _ _ (by omega) fn' ln hc' ((thenSteps_le _ _).trans ih)
        · have := key ns.length _ _ 0 0 (by omega) fn' ln (by omega) (by omega)
          omega
    · split
      · have ih := field_steps env own rest (ht.imp id fun h => by rw [noTablesL] at h; exact h.2) os ni vi t vs ns
        have := key vs.length _ 0 0 _ (by omega) fv' (by omega) (by omega) ih
        omega
      · split
        · rename_i v hl
          obtain ⟨p, hp, hpe⟩ := lookup_item hl
          have hc := valSteps_le v
          have hm := mem_le_sum (fun p => 1 + Room.valBytes p.2 + Room.nameBytes own p.1) vs p hp
          simp only [hpe] at hm
          have h1 := Nat.mul_le_mul_right (Room.size own (.mk t vs ns)) (effort_pos ty)
          have ih := field_steps env own rest (ht.imp id fun h => by rw [noTablesL] at h; exact h.2) os ni (vi + 1) t vs ns
          exact key vs.length _ _ (valSteps v) _ (by omega) fv' lv (by omega) ((thenSteps_le _ _).trans ih)
        · have := key vs.length _ _ 0 0 (by omega) fv' lv (by omega) (by omega)
          omega
end

private theorem unwrap_steps (env : Env) (own : Bool) (ty : Ty) (ht : own = true ∨ noTables ty) (old : Obj) (r : Root) :
    unwrapSteps env ty old r ≤ (1 + effort ty) * Room.size own r.node := by
  rw [unwrapSteps, Nat.add_mul, Nat.one_mul]
  split
  · have := node_steps env own ty ht old r.node
    omega
  · obtain ⟨name, ⟨t, vs, ns⟩⟩ := r
    have hs := size_parts own t vs ns
    have he := Nat.mul_le_mul_right (Room.size own (.mk t vs ns)) (effort_pos ty)
    have h1 : lookupSteps (.index 0) vs ≤ 1 := by simp only [lookupSteps]; split <;> omega
    dsimp only
    split
    · rename_i v hl
      obtain ⟨p, hp, hpe⟩ := lookup_item hl
      have hc := valSteps_le v
      have hm := mem_le_sum (fun p => 1 + Room.valBytes p.2 + Room.nameBytes own p.1) vs p hp
      simp only [hpe] at hm
      omega
    · omega

/-- C93: what restoring takes is at most `1 + effort ty` for each value, node and byte of the tree, whatever object is
overwritten, and whether or not it succeeds. -/
theorem restore_time (env : Env) (ty : Ty) (old : Obj) (r : Root) :
    unwrapSteps env ty old r ≤ (1 + effort ty) * Room.size true r.node :=
  unwrap_steps env true ty (.inl rfl) old r

/-- C93: where no names are restored, those of the tree are not counted. -/
theorem restore_time_names (env : Env) (ty : Ty) (ht : noTables ty) (old : Obj) (r : Root) :
    unwrapSteps env ty old r ≤ (1 + effort ty) * Room.size false r.node :=
  unwrap_steps env false ty (.inr ht) old r

/-- C93 for MessagePack documents: … for each byte of the document. -/
theorem msgpack_restore_time (m : Mem) (s : Bytes) (r : Root) (x : List PMsgPack.RScope × Bytes)
    (h : PMsgPack.load m s = .ok (r, x)) (env : Env) (ty : Ty) (old : Obj) :
    unwrapSteps env ty old r ≤ (1 + effort ty) * s.length := by
  have := msgpack_tree_memory m s r x h
  exact (restore_time env ty old r).trans (Nat.mul_le_mul_left _ (by omega))

/-- C93 for JSON texts -/
theorem json_restore_time (strtod : Bytes → Option UInt64) (m : Mem) (hm : m.Sane) (s t : Bytes) (r : Root)
    (r0 r1 : PJson.Rd) (h : PJson.loadWith m strtod r0 s = .ok (r, r1, t)) (env : Env) (ty : Ty) (old : Obj) :
    unwrapSteps env ty old r ≤ (1 + effort ty) * s.length := by
  have := (json_tree_memory m hm strtod r0 r1 s t r h).1
  exact (restore_time env ty old r).trans (Nat.mul_le_mul_left _ (by omega))

/-- C93 for documents in the Srl format, for types that have no tables in them. -/
theorem srl_restore_time_partial (m : Mem) (s : Bytes) (r : Root) (x : PSrl.St × Bytes)
    (h : PSrl.load m s = .ok (r, x)) (env : Env) (ty : Ty) (ht : noTables ty) (old : Obj) :
    unwrapSteps env ty old r ≤ (1 + effort ty) * s.length := by
  have := (srl_tree_memory m s r x h).1
  exact (restore_time_names env ty ht old r).trans (Nat.mul_le_mul_left _ (by omega))

/-- C93: for all types, the square of the size of the document is not exceeded. -/
theorem srl_restore_quadratic (m : Mem) (s : Bytes) (r : Root) (x : PSrl.St × Bytes)
    (h : PSrl.load m s = .ok (r, x)) (env : Env) (ty : Ty) (old : Obj) :
    unwrapSteps env ty old r ≤ (1 + effort ty) * (s.length * s.length) := by
  obtain ⟨a, g⟩ := srl_tree_memory m s r x h
  have b := memory_names r.node
  have c := Srl.Cost.names_length r.node
  have ht := Srl.Cost.total_le (n := s.length) (xs := Room.names r.node) fun y hy => by
    rcases g y (by simp [hy]) with rfl | h
    · simp
    · have := Srl.Cost.length_le_total h; omega
  have h1 : ((Room.names r.node).length + 1) * s.length ≤ s.length * s.length := Nat.mul_le_mul_right _ (by omega)
  rw [Nat.add_mul, Nat.one_mul] at h1
  exact (restore_time env ty old r).trans (Nat.mul_le_mul_left _ (by omega))

/-! ## Cases -/

/-- A class with a number, and optional text -/
private def point : Ty := .record .object false (.cons (str "x") false (.int .u8) (.cons (str "s") true .str .nil))

/-- Two of them take 30 steps. The bound is 19 for each of the 27 bytes. -/
example : effort (.vec point) = 18 ∧
    (str "[{\"s\":\"abc\",\"x\":1},{\"x\":2}]").length = 27 ∧
    (match PJson.load ⟨some 0, 4096⟩ (fun _ => none) (str "[{\"s\":\"abc\",\"x\":1},{\"x\":2}]") with
    | .ok p => some (unwrapSteps ⟨fun _ => none, fun _ => []⟩ (.vec point) (.many []) p.1)
    | _ => none) = some 30 := by decide +kernel

/-! ## What does not hold -/

/-- An object with a number, the name of which is given by its place -/
private def again (name : Bytes) (k : Nat) : List Item := List.replicate k (.scope [] .object [.val name (.int .u64 1)])

private theorem one_byte (b : UInt8) (h : b.toNat < 128) : LaxSrl.Num true b.toNat [b] :=
  ⟨by simp, b.toNat, .last h, by have := b.toNat_lt; omega, .inl rfl⟩

private theorem again_elems (name : Bytes) : ∀ k : Nat, ∃ b, b.length = 5 * k + 1 ∧
    LaxSrl.Elems true .array [name] (again name k) b [name]
  | 0 => ⟨[0], rfl, .nil _ _⟩
  | k + 1 => by
    obtain ⟨b, h1, h2⟩ := again_elems name k
    refine ⟨64 :: ([] ++ ([7, 0, 1, 0] ++ b)), by simp [h1]; omega, ?_⟩
    rw [again, List.replicate_succ]
    exact .scope _ _ _ [name] [name] _ _ _ _ _ _ [7, 0, 1, 0] b (.none _ _ _ (.inr rfl) (.inl rfl))
      ⟨by decide, by decide, .inl rfl⟩
      (.val _ _ [name] _ 7 name _ _ [0] [1] [0]
        (.again _ _ 0 _ _ (by decide) (by decide) (one_byte 0 (by decide)) rfl (.inl rfl))
        (.pos 7 1 _ (by decide) (by decide) (one_byte 1 (by decide)) (.inl rfl)) (.nil _ _)) h2

/-- Arrays of objects with one number, all of the same name, which is in the document once -/
theorem shared_name_document (name : Bytes) (hn : name.length < 2 ^ 64) (k : Nat) :
    ∃ b, b.length ≤ 18 + name.length + 5 * k ∧ LaxSrl.Document true .array (again name (k + 1)) [name] b := by
  obtain ⟨b, h1, h2⟩ := again_elems name k
  obtain ⟨w, hw⟩ : ∃ w, LaxSrl.Num true name.length w := by
    have hw := Vlq.encode_eq name.length hn
    obtain ⟨a, j, c, d, _⟩ := (LaxSrl.encode_iff hn).mp hw
    exact ⟨_, a, j, c, d, .inl rfl⟩
  have hl := hw.1
  refine ⟨128 :: 64 :: ([] ++ ((3 :: ((w ++ name) ++ ([1] ++ [0]))) ++ b)), by simp [h1]; omega, 128, _,
    ⟨by decide, by decide, .inl rfl⟩, .inl rfl, ?_, rfl⟩
  rw [again, List.replicate_succ]
  exact .scope _ _ _ [] [name] _ _ _ _ _ _ _ b (.none _ _ _ (.inr rfl) (.inl rfl))
    ⟨by decide, by decide, .inl rfl⟩
    (.val _ _ [name] _ 3 name _ _ _ [1] [0]
      (.first _ _ _ w (by decide) (by decide) hw (.inl rfl))
      (.pos 3 1 _ (by decide) (by decide) (one_byte 1 (by decide)) (.inl rfl)) (.nil _ _)) h2

private theorem again_nesting (name : Bytes) : ∀ k, nesting (again name k) ≤ 1
  | 0 => by simp [again, nesting]
  | k + 1 => by
    have := again_nesting name k
    rw [again] at this
    rw [again, List.replicate_succ]
    simp only [nesting]
    omega

private theorem again_kept (name : Bytes) : ∀ k, keptValues (again name k) = [] ∧
    keptNodes (again name k) = List.replicate k ([], .mk .object [(name, .int .u64 1)] [])
  | 0 => by simp [again, keptValues, keptNodes]
  | k + 1 => by
    have := again_kept name k
    rw [again] at this
    rw [again, List.replicate_succ, List.replicate_succ]
    simp [keptValues, keptNodes, this]

/-- What it takes to restore tables: each has a copy of the name. -/
private theorem again_steps (env : Env) (name : Bytes) (old : Obj) (k : Nat) :
    unwrapSteps env tables old ⟨[], .mk .array [] (List.replicate k ([], .mk .object [(name, .int .u64 1)] []))⟩ =
      1 + k * (5 + name.length) := by
  have h1 : pasteNode env (.sorted ⟨true, false⟩ (.named (.int .u8))) (dflt (.sorted ⟨true, false⟩ (.named (.int .u8))))
      (.mk .object [(name, .int .u64 1)] []) = .ok (.many [.many [.str name, .int 1]]) := by
    rfl
  have h2 : nodeSteps env (.sorted ⟨true, false⟩ (.named (.int .u8))) (dflt (.sorted ⟨true, false⟩ (.named (.int .u8))))
      (.mk .object [(name, .int .u64 1)] []) = 4 + name.length := by
    have h3 : ∀ r : Res Obj, thenSteps r 0 = 0 := fun r => by cases r <;> rfl
    simp [nodeSteps, mapSteps, Ty.isScope, valSteps, h3]
    omega
  have h3 : ∀ k, mapSteps (fun p : Bytes × Node => pasteNode env (.sorted ⟨true, false⟩ (.named (.int .u8)))
        (dflt (.sorted ⟨true, false⟩ (.named (.int .u8)))) p.2)
      (fun p => nodeSteps env (.sorted ⟨true, false⟩ (.named (.int .u8)))
        (dflt (.sorted ⟨true, false⟩ (.named (.int .u8)))) p.2)
      (List.replicate k ([], .mk .object [(name, .int .u64 1)] [])) = k * (5 + name.length) := by
    intro k
    induction k with
    | zero => simp [mapSteps]
    | succ k ih =>
      rw [List.replicate_succ, mapSteps, ih, Nat.succ_mul]
      dsimp only
      rw [h1, h2, thenSteps]
      omega
  rw [unwrapSteps, tables, if_pos (by rfl), nodeSteps, if_pos (by rfl), h3]

private theorem square (c : Nat) : (16 * (c + 2)) * (16 * (c + 2)) = c * (256 * (c + 2)) + 512 * (c + 2) := by
  have e : ∀ x : Nat, (16 * x) * (16 * x) = x * (256 * x) := fun x => by
    rw [Nat.mul_comm 16 x, Nat.mul_assoc, ← Nat.mul_assoc 16 x, Nat.mul_comm 16 x, Nat.mul_assoc x 16 16, Nat.mul_comm 256 x]
  rw [e, Nat.add_mul, ← Nat.mul_assoc 2]

/-- C93 fails for tables in the Srl format: names used again take a byte of the document, but each table gets a copy of
them (Resolve.hpp:945-948, 955-959). -/
theorem srl_tables_slow (c : Nat) (hc : c < 2 ^ 59) : ¬ SrlRestored tables c := by
  intro h
  have hn : (List.replicate (16 * (c + 2)) (97 : UInt8)).length = 16 * (c + 2) := List.length_replicate
  generalize List.replicate (16 * (c + 2)) (97 : UInt8) = name at hn
  obtain ⟨b, h1, h2⟩ := shared_name_document name (by omega) (16 * (c + 2))
  have hm : (⟨some 0, 4096⟩ : Mem).Sane := by show 4096 < 2 ^ 63; decide
  have h3 := srl_accepts_all _ hm _ _ _ _ [] h2 ((again_nesting _ _).trans (by decide))
  rw [(again_kept _ _).1, (again_kept _ _).2] at h3
  have h4 := h _ _ _ _ ⟨fun _ => none, fun _ => []⟩ (.many []) hm h3
  rw [again_steps, List.append_nil, hn] at h4
  rw [hn] at h1
  have h5 := Nat.mul_le_mul_left c h1
  have h6 : c * (18 + 16 * (c + 2) + 5 * (16 * (c + 2))) = c * 18 + c * (96 * (c + 2)) := by
    rw [← Nat.mul_add]; congr 1; omega
  have h7 : (16 * (c + 2) + 1) * (5 + 16 * (c + 2)) = (16 * (c + 2)) * (16 * (c + 2)) + 6 * (16 * (c + 2)) + 5 := by
    rw [Nat.add_mul, Nat.mul_add]; omega
  have h8 := square c
  have h9 : c * (96 * (c + 2)) ≤ c * (256 * (c + 2)) := Nat.mul_le_mul_left _ (by omega)
  omega

private theorem again_paste (env : Env) (name : Bytes) (old : Obj) (k : Nat) :
    unwrap env tables old ⟨[], .mk .array [] (List.replicate k ([], .mk .object [(name, .int .u64 1)] []))⟩ =
      .ok (.many (List.replicate k (.many [.many [.str name, .int 1]]))) := by
  have h1 : pasteNode env (.sorted ⟨true, false⟩ (.named (.int .u8))) (dflt (.sorted ⟨true, false⟩ (.named (.int .u8))))
      (.mk .object [(name, .int .u64 1)] []) = .ok (.many [.many [.str name, .int 1]]) := by
    rfl
  have h3 : ∀ k, mapRes (fun p : Bytes × Node => pasteNode env (.sorted ⟨true, false⟩ (.named (.int .u8)))
        (dflt (.sorted ⟨true, false⟩ (.named (.int .u8)))) p.2)
      (List.replicate k ([], .mk .object [(name, .int .u64 1)] [])) =
      .ok (List.replicate k (.many [.many [.str name, .int 1]])) := by
    intro k
    induction k with
    | zero => rfl
    | succ k ih =>
      rw [List.replicate_succ, mapRes, ih]
      dsimp only
      rw [h1]
      rfl
  rw [unwrap, tables, if_pos (by rfl), pasteNode, if_pos (by rfl), h3]
  rfl

private theorem again_weight (name : Bytes) : ∀ k,
    k * name.length ≤ weights (List.replicate k (.many [.many [.str name, .int 1]]))
  | 0 => by simp
  | k + 1 => by
    have := again_weight name k
    rw [List.replicate_succ, Nat.succ_mul]
    simp only [weights, weight]
    omega

/-- C84 fails for tables restored from Srl by any factor: there are documents that make objects which weigh more than `c`
for each byte. -/
theorem srl_tables_large (c : Nat) (hc : c < 2 ^ 59) : ∃ (s : Bytes) (o : Obj), ∀ (m : Mem) (env : Env) (old : Obj), m.Sane →
    loadUnwrap env (PSrl.read m) (s.length + 1) tables old (PSrl.St.init, s) = .ok o ∧ c * s.length < weight o := by
  have hn : (List.replicate (16 * (c + 2)) (97 : UInt8)).length = 16 * (c + 2) := List.length_replicate
  generalize List.replicate (16 * (c + 2)) (97 : UInt8) = name at hn
  obtain ⟨b, h1, h2⟩ := shared_name_document name (by omega) (16 * (c + 2))
  refine ⟨b, .many (List.replicate (16 * (c + 2) + 1) (.many [.many [.str name, .int 1]])), fun m env old hm => ⟨?_, ?_⟩⟩
  · have h3 := srl_accepts_all _ hm _ _ _ _ [] h2 ((again_nesting _ _).trans (by decide))
    rw [(again_kept _ _).1, (again_kept _ _).2, List.append_nil, PSrl.load] at h3
    rw [loadUnwrap, h3]
    exact again_paste env name old _
  · have h4 := again_weight name (16 * (c + 2) + 1)
    rw [weight]
    rw [hn] at h1 h4
    have h5 := Nat.mul_le_mul_left c h1
    have h6 : c * (18 + 16 * (c + 2) + 5 * (16 * (c + 2))) = c * 18 + c * (96 * (c + 2)) := by
      rw [← Nat.mul_add]; congr 1; omega
    have h7 : (16 * (c + 2) + 1) * (16 * (c + 2)) = (16 * (c + 2)) * (16 * (c + 2)) + 16 * (c + 2) := by
      rw [Nat.add_mul]; omega
    have h8 := square c
    have h9 : c * (96 * (c + 2)) ≤ c * (256 * (c + 2)) := Nat.mul_le_mul_left _ (by omega)
    omega

/-- What is loaded from these documents has the name in each of the objects. -/
theorem shared_name_loaded (name : Bytes) (hn : name.length < 2 ^ 64) (k : Nat) :
    ∃ b, b.length ≤ 18 + name.length + 5 * k ∧ ∀ m : Mem, m.Sane → ∃ x, PSrl.load m b =
      .ok (⟨[], .mk .array [] (List.replicate (k + 1) ([], .mk .object [(name, .int .u64 1)] []))⟩, x) := by
  obtain ⟨b, h1, h2⟩ := shared_name_document name hn k
  refine ⟨b, h1, fun m hm => ?_⟩
  have h3 := srl_accepts_all _ hm _ _ _ _ [] h2 ((again_nesting _ _).trans (by decide))
  rw [(again_kept _ _).1, (again_kept _ _).2, List.append_nil] at h3
  exact ⟨_, h3⟩

/-- Names of `16 * (c + 2)` bytes that often are more than `c` for each byte of such a document. -/
theorem shared_name_grows (c l : Nat) (hl : l ≤ 18 + 16 * (c + 2) + 5 * (16 * (c + 2))) :
    c * l < (16 * (c + 2) + 1) * (16 * (c + 2)) := by
  have h5 := Nat.mul_le_mul_left c hl
  have h6 : c * (18 + 16 * (c + 2) + 5 * (16 * (c + 2))) = c * 18 + c * (96 * (c + 2)) := by
    rw [← Nat.mul_add]; congr 1; omega
  have h7 : (16 * (c + 2) + 1) * (16 * (c + 2)) = (16 * (c + 2)) * (16 * (c + 2)) + 16 * (c + 2) := by
    rw [Nat.add_mul]; omega
  have h8 := square c
  have h9 : c * (96 * (c + 2)) ≤ c * (256 * (c + 2)) := Nat.mul_le_mul_left _ (by omega)
  omega

end Srl.Props
