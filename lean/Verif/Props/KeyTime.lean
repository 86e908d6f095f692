import Verif.Lemmas.KeyCost
import Verif.Lemmas.Shared
import Verif.Props.PMsgPack
import Verif.Props.SavedSize

/-! # C95: shared pointers are restored in time in proportion to them

The property is: what is done for the keys of the shared pointers of a sequence while it is restored is at most a number for
each of them, whatever document they come from (`KeysProportional`). It holds for documents with the keys as they are
stored. It does not hold for others: the keys of a document can be chosen so that all of them share a place. -/

namespace Srl.Props
open Shared Typed Doc KeyCost
open HTable (Tbl Inv)

/-! ## Specification -/

/-- The shared pointer in a node has a key: the first value with the name `srl_shared_key`, as a `uint64_t`. -/
def HasKey (env : Env) (n : Node) (key : Nat) : Prop :=
  match n with
  | .mk _ vs _ => ∃ v, findName keyName vs = some v ∧ pasteVal env (.int .u64) (.int 0) v = .ok (.int key)

/-- Nodes with their keys -/
def HaveKeys (env : Env) : List (Bytes × Node) → List Nat → Prop
  | [], [] => True
  | x :: ns, k :: ks => HasKey env x.2 k ∧ HaveKeys env ns ks
  | _, _ => False

/-- C95 in full: a factor and a constant that suffice for all sequences of keys -/
def KeysProportional (c d : Nat) : Prop :=
  ∀ (ks : List Nat) (t : Tbl Nat Nat) (k : Nat), (∀ x ∈ ks, x < 2 ^ 64) →
    findAll (HTable.new 16) ks = .ok (t, k) → k ≤ c * ks.length + d

/-- The keys in what is stored for a sequence of shared pointers -/
def storedKeys : List Item → List Nat
  | [] => []
  | .scope _ _ (.val _ (.int _ (.ofNat key)) :: _) :: is => key :: storedKeys is
  | _ :: is => storedKeys is

/-! ## What is looked up -/

section
variable {σ : Type}

private theorem plain_field {cfg : HTable.Cfg Nat} {env : Env} {C : Nat → GTy} {read : σ → Res (Event × σ)} {total fuel : Nat}
    {ty : Ty} {old : Obj} {sel : Sel} {n : Node} {s s' : σ × Objs} {o : Obj} {n' : LNode}
    (h : pasteField read total (GTy.plain ty).isScope sel (paste cfg env C read total fuel (.plain ty) old)
      (valueOf env (.plain ty) old) (whole n) s = .ok (o, n', s')) : n' = whole n ∧ s'.2 = s.2 := by
  obtain ⟨t, vs, ns⟩ := n
  unfold pasteField at h
  simp only [whole, if_true] at h
  split at h
  · simp only [Res.bind_eq_ok] at h
    obtain ⟨c, _, ⟨y, _, s1⟩, h2, h3⟩ := h
    cases h3
    refine ⟨rfl, ?_⟩
    cases fuel with
    | zero => cases h2
    | succ fuel =>
      simp only [Shared.paste, Res.bind_eq_ok] at h2
      obtain ⟨⟨_, _, _⟩, _, h3⟩ := h2
      cases h3; rfl
  · simp only [Res.bind_eq_ok] at h
    obtain ⟨v, _, y, _, h3⟩ := h
    cases h3
    exact ⟨rfl, rfl⟩

private theorem one_key {env : Env} {C : Nat → GTy} {read : σ → Res (Event × σ)} {total fuel c : Nat} {w : Bool} {ty : Ty}
    (hC : C c = .plain ty) {old : Obj} {n : Node} {s s' : σ × Objs} {o : Obj} {n' : LNode} {m : Map Nat Nat}
    (hi : Inv keys s.2.table) (ha : Abs s.2.table m) (hh : s.2.heap.length = s.2.table.elements)
    (h : paste keys env C read total fuel (.shared w c) old (whole n) s = .ok (o, n', s')) :
    ∃ key k, HasKey env n key ∧ find s.2.table key s.2.table.elements = .ok (s'.2.table, k) ∧
      Inv keys s'.2.table ∧ (∃ m', Abs s'.2.table m') ∧ s'.2.heap.length = s'.2.table.elements := by
  cases fuel with
  | zero => cases h
  | succ fuel =>
  simp only [Shared.paste, Res.bind_eq_ok] at h
  obtain ⟨⟨kv, n1, s1⟩, h1, h2⟩ := h
  obtain ⟨t, vs, ns⟩ := n
  unfold pasteField at h1
  simp only [whole, Bool.false_eq_true, if_false, if_true, Res.bind_eq_ok] at h1
  obtain ⟨v, g1, y, g2, g3⟩ := h1
  cases g3
  have hv : findName keyName vs = some v := by
    simp only [lookup] at g1
    split at g1
    · rename_i x hx; cases g1; exact hx
    · cases g1
  dsimp only at h2
  split at h2
  · rename_i key
    have hkey : HasKey env (.mk t vs ns) key := ⟨v, hv, g2⟩
    simp only [Res.bind_eq_ok] at h2
    obtain ⟨f, f1, f2⟩ := h2
    have hget := get_spec hi ha key
    rw [f1] at hget
    cases hf : f with
    | some x =>
      obtain ⟨_, a⟩ := x
      rw [hf] at f2
      simp only [Res.bind_eq_ok] at f2
      obtain ⟨p, _, f3⟩ := f2
      cases f3
      refine ⟨key, Cost.getSteps keys s.2.table key, hkey, ?_, hi, ⟨m, ha⟩, hh⟩
      rw [find, f1, hf]; rfl
    | none =>
      rw [hf] at f2
      simp only [Res.bind_eq_ok] at f2
      obtain ⟨⟨o2, n2, s2⟩, p1, ⟨table, x⟩, p2, p3⟩ := f2
      cases p3
      rw [hC] at p1
      obtain ⟨-, e⟩ := plain_field (n := .mk t vs ns) p1
      rw [e] at p2 ⊢
      rw [hh] at p2
      obtain ⟨t', b, ad, w', q1, q2, q3⟩ := insert_spec hi ha false key s.2.table.elements
      have hq : t' = table := by
        have := p2
        rw [HTable.insert, q1] at this
        cases this; rfl
      subst hq
      have hel := insert_elements q1
      refine ⟨key, Cost.getSteps keys s.2.table key + Cost.insertSteps keys s.2.table key, hkey, ?_, q2, ?_, ?_⟩
      · rw [find, f1, hf]
        simp only [Res.ok_bind, p2]
      · rcases q3 with ⟨_, _, _, _, h⟩ | ⟨_, _, _, h⟩ | ⟨_, h, _⟩
        · exact ⟨_, h⟩
        · exact ⟨_, h⟩
        · cases h
      · rcases q3 with ⟨rfl, _⟩ | ⟨_, _, h, _⟩ | ⟨_, h, _⟩
        · simp only [List.length_append, List.length_cons, List.length_nil, hel]
          simp; omega
        · rw [← Res.ok.inj hget, hf] at h; cases h
        · cases h
  · cases h2

/-- C95 (what is looked up): when a sequence of shared pointers is restored from a tree, the keys of its nodes are looked up
one after the other, and the table is as after `findAll`. -/
theorem keys_restored {env : Env} {C : Nat → GTy} {read : σ → Res (Event × σ)} {total fuel c : Nat} {w : Bool} {ty : Ty}
    (hC : C c = .plain ty) {old : Obj} : ∀ {ns : List (Bytes × Node)} {s s' : σ × Objs} {ys : List Obj} {m : Map Nat Nat},
    Inv keys s.2.table → Abs s.2.table m → s.2.heap.length = s.2.table.elements →
    eachNode (paste keys env C read total fuel (.shared w c) old) ns s = .ok (ys, s') →
    ∃ ks k, HaveKeys env ns ks ∧ findAll s.2.table ks = .ok (s'.2.table, k) ∧ s'.2.heap.length = s'.2.table.elements
  | [], s, s', ys, m, hi, ha, hh, h => by
    cases h
    exact ⟨[], 0, trivial, rfl, hh⟩
  | x :: ns, s, s', ys, m, hi, ha, hh, h => by
    simp only [eachNode, Res.bind_eq_ok] at h
    obtain ⟨⟨y, n1, s1⟩, h1, ⟨ys, s2⟩, h2, h3⟩ := h
    cases h3
    obtain ⟨key, k, a1, a2, a3, ⟨m', a4⟩, a5⟩ := one_key hC hi ha hh h1
    obtain ⟨ks, k2, b1, b2, b3⟩ := keys_restored hC a3 a4 a5 h2
    exact ⟨key :: ks, k + k2, ⟨a1, b1⟩, by simp [findAll, a2, b2], b3⟩

/-- C95 (what is looked up): … so it is when a sequence of shared pointers is restored from a document that is loaded. -/
theorem keys_loaded {env : Env} {C : Nat → GTy} {read : σ → Res (Event × σ)} {fuel c : Nat} {w : Bool} {ty : Ty}
    (hC : C c = .plain ty) {old o : Obj} {s : σ} {heap : List (Nat × Obj)}
    (h : loadUnwrap keys env C read fuel (.vec (.shared w c)) old s = .ok (o, heap)) :
    ∃ name t vs ns s' ks table k, load read fuel s = .ok (⟨name, .mk t vs ns⟩, s') ∧ HaveKeys env ns ks ∧
      findAll (HTable.new 16) ks = .ok (table, k) ∧ heap.length = table.elements := by
  simp only [Shared.loadUnwrap, Res.bind_eq_ok] at h
  obtain ⟨⟨⟨name, t, vs, ns⟩, s1⟩, h1, ⟨o1, n1, s2⟩, h2, h3⟩ := h
  cases h3
  cases fuel with
  | zero => cases h2
  | succ fuel =>
  simp only [Shared.paste, whole, if_true, Res.bind_eq_ok] at h2
  obtain ⟨⟨ys, s3⟩, g1, g2⟩ := h2
  cases g2
  obtain ⟨ks, k, a1, a2, a3⟩ := keys_restored hC (new_inv keys 16).1 (new_inv keys 16).2 rfl g1
  exact ⟨name, t, vs, ns, s1, ks, _, k, h1, a1, a2, a3⟩

end

/-! ## What holds -/

private theorem order_lt : ∀ {N : Nat} {ks : List Nat}, KeysInOrder N ks → ∀ k ∈ ks, k < N + ks.length
  | _, _, .nil, _, h => by cases h
  | _, _, .again h1 h2, k, h => by
    rw [List.length_cons]
    rcases List.mem_cons.mp h with rfl | h
    · omega
    · have := order_lt h2 k h; omega
  | _, _, .next h2, k, h => by
    rw [List.length_cons]
    rcases List.mem_cons.mp h with rfl | h
    · omega
    · have := order_lt h2 k h; omega

/-- C95 (what holds): keys that are given in order are looked up in time in proportion to them. What is missing: other keys. -/
theorem keys_time_partial (ks : List Nat) (h : KeysInOrder 0 ks) (hl : ks.length ≤ 2 ^ 64) :
    ∃ t k, findAll (HTable.new 16) ks = .ok (t, k) ∧ k ≤ 12 * ks.length + 80 := by
  obtain ⟨t, m, k, h1, h2, h3, h4⟩ := findAll_order ks 0 _ _ good_new (by intro e he; simp [HTable.new, Tbl.es] at he)
    (by simp) h fun k hk => by have := order_lt h k hk; omega
  have e : (HTable.new 16 : Tbl Nat Nat).elements = 0 := rfl
  have := pot_le h2 1 ks.length (by omega)
  exact ⟨t, k, h1, by omega⟩

private theorem stored_from {C : Nat → GTy} {G : Graph} {fuel c : Nat} {w : Bool} {ty : Ty} (hC : C c = .plain ty)
    (cfg : HTable.Cfg Nat) : ∀ (xs : List Obj) (t t' : Seen) (seen : List Nat) (is : List Item), SeenIs cfg t seen →
    eachObj (store cfg C G fuel [] (.shared w c)) xs t = .ok (is, t') → KeysInOrder seen.length (storedKeys is)
  | [], t, t', seen, is, hs, h => by cases h; exact .nil
  | x :: xs, t, t', seen, is, hs, h => by
    simp only [eachObj, Res.bind_eq_ok] at h
    obtain ⟨⟨i, t1⟩, h1, ⟨is, t2⟩, h2, h3⟩ := h
    cases h3
    cases fuel with
    | zero => cases h1
    | succ fuel =>
    unfold store at h1
    split at h1
    · cases h1
    · rename_i h; cases h
    · rename_i h; cases h
    · rename_i h; cases h
    · rename_i h; cases h
      cases h1
      exact stored_from hC cfg xs _ _ seen is hs h2
    · rename_i hu ht
      cases hu; cases ht
      simp only [Res.bind_eq_ok] at h1
      obtain ⟨⟨known, key, t3⟩, g1, g2⟩ := h1
      obtain ⟨known', key', t4, f1, f2⟩ := insertShared_spec hs _
      rw [g1] at f1
      cases f1
      dsimp only at g2
      rcases f2 with ⟨rfl, f2, f3⟩ | ⟨rfl, rfl, -, f3⟩
      · cases g2
        obtain ⟨hlt, -⟩ := List.getElem?_eq_some_iff.mp f2
        exact .again hlt (stored_from hC cfg xs _ _ seen is f3 h2)
      · simp only [Bool.false_eq_true, if_false, Res.bind_eq_ok] at g2
        obtain ⟨⟨i1, t5⟩, g3, g4⟩ := g2
        cases g4
        rw [hC] at g3
        have : t5 = t3 := by
          cases fuel with
          | zero => cases g3
          | succ fuel => rw [store] at g3; cases g3; rfl
        subst this
        have := stored_from hC cfg xs _ _ _ is f3 h2
        rw [List.length_append] at this
        exact .next this
    · cases h1

/-- C95 (what holds): keys are given in order when a sequence of shared pointers is stored. -/
theorem keys_stored {C : Nat → GTy} {G : Graph} {fuel c : Nat} {w : Bool} {ty : Ty} (hC : C c = .plain ty)
    (cfg : HTable.Cfg Nat) (name : Bytes) (xs : List Obj) (i : Item) (t : Seen)
    (h : store cfg C G fuel name (.vec (.shared w c)) (.many xs) Seen.new = .ok (i, t)) :
    ∃ is, i = .scope name .array is ∧ KeysInOrder 0 (storedKeys is) := by
  cases fuel with
  | zero => cases h
  | succ fuel =>
  simp only [store, Res.bind_eq_ok] at h
  obtain ⟨⟨is, t1⟩, h1, h2⟩ := h
  cases h2
  exact ⟨is, rfl, stored_from hC cfg xs _ _ [] is (seen_new cfg) h1⟩

/-! ## What does not hold -/

/-- Keys that share a place: both halves are the same -/
def doubled (n : Nat) : List Nat := (List.range n).map (· * (2 ^ 32 + 1))

private theorem doubled_nodup (n : Nat) : (doubled n).Nodup := by
  refine List.Nodup.map (fun a b h => ?_) List.nodup_range
  omega

private theorem doubled_lt {n : Nat} (hn : n < 2 ^ 30) : ∀ x ∈ doubled n, x < 2 ^ 64 ∧ Clash x := by
  intro x hx
  obtain ⟨i, hi, rfl⟩ := List.mem_map.mp hx
  have := List.mem_range.mp hi
  exact ⟨by omega, clash (by omega)⟩

/-- Negation of C95: these take the square. -/
theorem keys_quadratic (n : Nat) (hn : n < 2 ^ 30) (t : Tbl Nat Nat) (k : Nat)
    (h : findAll (HTable.new 16) (doubled n) = .ok (t, k)) : n * (n - 1) ≤ k := by
  have hl : (doubled n).length = n := by simp [doubled]
  have e : (HTable.new 16 : Tbl Nat Nat).elements = 0 := rfl
  have := findAll_same (doubled n) _ _ _ k good_new (by intro e he; simp [HTable.new, Tbl.es] at he) (doubled_nodup n)
    (fun x hx => ⟨(doubled_lt hn x hx).2, rfl⟩) (by rw [hl, e]; omega) h
  rw [hl, e] at this
  omega

private theorem findAll_ok {c : Nat} : ∀ (ks : List Nat) (t : Tbl Nat Nat) (m : Map Nat Nat), Good c t m →
    ∃ t' k, findAll t ks = .ok (t', k)
  | [], t, _, _ => ⟨t, 0, rfl⟩
  | key :: ks, t, m, hg => by
    have hfew : Few (fun y => y ∈ t.es.map (·.key)) t.elements t.es.length := by
      intro j b ys _ hn h
      have := hn.length_le_of_subset fun y hy => (h y hy).1
      simpa using this
    obtain ⟨t1, m1, k1, h1, h2, -⟩ := find_good (P := fun _ => True) hfew
      (fun e he => List.mem_map_of_mem (f := (·.key)) he) hg (fun _ _ => trivial) key t.elements trivial
    obtain ⟨t2, k2, h3⟩ := findAll_ok ks t1 m1 h2
    exact ⟨t2, k1 + k2, by simp [findAll, h1, h3]⟩

/-- C95 does not hold, with any factor worth the name. (There are no more than `2^64` keys, so there is a last one.) -/
theorem keys_not_proportional (c d : Nat) (hc : c < 2 ^ 29) (hd : d < 2 ^ 29) : ¬ KeysProportional c d := by
  intro h
  obtain ⟨t, k, hk⟩ := findAll_ok (doubled (2 ^ 30 - 1)) _ _ good_new
  have h1 := keys_quadratic (2 ^ 30 - 1) (by omega) t k hk
  have h2 := h (doubled (2 ^ 30 - 1)) t k (fun x hx => (doubled_lt (by omega) x hx).1) hk
  have hl : (doubled (2 ^ 30 - 1)).length = 2 ^ 30 - 1 := by rw [doubled, List.length_map, List.length_range]
  rw [hl] at h2
  have h3 : c * (2 ^ 30 - 1) ≤ 2 ^ 29 * (2 ^ 30 - 1) := Nat.mul_le_mul_right _ (by omega)
  omega

/-- A shared pointer to a `uint64_t` with a key -/
def pointerNode (key : Nat) : Node := .mk .object [(keyName, .int .u64 key), (valueName, .int .u64 0)] []

/-- A sequence of them -/
def pointersNode (ks : List Nat) : Node := .mk .array [] (ks.map fun key => ([], pointerNode key))

private theorem apply_u64 (env : Env) (old : Obj) (k : Nat) (hk : k < 2 ^ 64) :
    pasteVal env (.int .u64) old (PMsgPack.normVal (.int .u64 k)) = .ok (.int k) := by
  have e : Apply.castInt (.int .u64) (k : Int) = k := by
    simp only [Apply.castInt, IntTy.bits, IntTy.signed]
    simp
    omega
  rw [PMsgPack.normVal]
  split
  · simp only [pasteVal, Apply.paste, Apply.apply, IntTy.signed, if_true]
    rw [if_neg (by
      simp [Apply.overflowsSigned, Apply.Target.bits, IntTy.bits]), e]
    rfl
  · simp only [pasteVal, Apply.paste, Apply.apply, IntTy.signed, Bool.false_eq_true, if_false]
    rw [if_neg (by
      simp [Apply.overflowsUnsigned, Apply.Target.bits, IntTy.bits, Apply.Target.signed, IntTy.signed]), e]
    rfl

private theorem pointers_norm (ks : List Nat) : Norm.node PMsgPack.normVal (pointersNode ks) =
    .mk .array [] (ks.map fun key => ([], Norm.node PMsgPack.normVal (pointerNode key))) := by
  rw [pointersNode, Norm.node]
  congr 1
  induction ks with
  | nil => rfl
  | cons k ks ih => simp only [List.map_cons, Norm.nodes, ih]; rfl

section
variable {σ : Type}

private theorem pointers_pasted (env : Env) (read : σ → Res (Event × σ)) (total fuel : Nat) (old : Obj) :
    ∀ (ks : List Nat) (s : σ × Objs) (m : Map Nat Nat), Inv keys s.2.table → Abs s.2.table m → ks.Nodup →
    (∀ k ∈ ks, k < 2 ^ 64 ∧ m k = none) →
    ∃ ys s', eachNode (Shared.paste keys env (fun _ => .plain (.int .u64)) read total (fuel + 1) (.shared false 0) old)
      (ks.map fun key => ([], Norm.node PMsgPack.normVal (pointerNode key))) s = .ok (ys, s')
  | [], s, m, hi, ha, hn, hk => ⟨[], s, rfl⟩
  | k :: ks, s, m, hi, ha, hn, hk => by
    obtain ⟨k1, k2⟩ := hk k (by simp)
    have hg := get_spec hi ha k
    rw [k2] at hg
    obtain ⟨t', b, ad, w', q1, q2, q3⟩ := insert_spec hi ha false k s.2.heap.length
    rcases q3 with ⟨rfl, -, -, -, q4⟩ | ⟨-, -, h, -⟩ | ⟨-, h, -⟩
    · obtain ⟨ys, s', ih⟩ := pointers_pasted env read total fuel old ks
        (s.1, ⟨t', s.2.heap ++ [(0, .int 0)]⟩) _ q2 q4 (List.nodup_cons.mp hn).2 (fun x hx => by
          refine ⟨(hk x (by simp [hx])).1, ?_⟩
          rw [Map.put, if_neg (by rintro rfl; exact (List.nodup_cons.mp hn).1 hx)]
          exact (hk x (by simp [hx])).2)
      refine ⟨addr s.2.heap.length :: ys, s', ?_⟩
      have h0 : pasteVal env (.int .u64) (.int 0) (PMsgPack.normVal (.int .u64 0)) = .ok (.int 0) :=
        apply_u64 env (.int 0) 0 (by omega)
      have hk := apply_u64 env (.int 0) k k1
      have hne : (keyName == valueName) = false := by decide +kernel
      have one : Shared.paste keys env (fun _ => .plain (.int .u64)) read total (fuel + 1) (.shared false 0) old
          (whole (Norm.node PMsgPack.normVal (pointerNode k))) s =
          .ok (addr s.2.heap.length, whole (Norm.node PMsgPack.normVal (pointerNode k)), s.1,
            ⟨t', s.2.heap ++ [(0, .int 0)]⟩) := by
        simp only [Shared.paste, pointerNode, Norm.node, whole, pasteField, Bool.false_eq_true, if_false, if_true, lookup,
          List.map_cons, List.map_nil, findName, beq_self_eq_true, Res.ok_bind, hk, hg, GTy.isScope, Ty.isScope, hne,
          valueOf, dfltG, dflt]
        simp only [h0, Res.ok_bind, HTable.insert, q1]
      rw [List.map_cons, eachNode, one]
      simp only [Res.ok_bind, ih]
    · rw [k2] at h; cases h
    · cases h

end

private theorem keys_unique {env : Env} : ∀ {ns : List (Bytes × Node)} {ks ls : List Nat}, HaveKeys env ns ks →
    HaveKeys env ns ls → ks = ls
  | [], [], [], _, _ => rfl
  | [], [], _ :: _, _, h => by cases h
  | [], _ :: _, _, h, _ => by cases h
  | _ :: _, [], _, h, _ => by cases h
  | _ :: _, _ :: _, [], _, h => by cases h
  | (_, .mk _ _ _) :: ns, k :: ks, l :: ls, ⟨⟨v, h1, h2⟩, h3⟩, ⟨⟨w, g1, g2⟩, g3⟩ => by
    rw [h1] at g1
    cases g1
    rw [h2] at g2
    cases g2
    rw [keys_unique h3 g3]

private theorem pointers_keys (env : Env) : ∀ ks : List Nat, (∀ k ∈ ks, k < 2 ^ 64) →
    HaveKeys env (ks.map fun key => ([], Norm.node PMsgPack.normVal (pointerNode key))) ks
  | [], _ => trivial
  | k :: ks, h => by
    refine ⟨?_, pointers_keys env ks fun x hx => h x (by simp [hx])⟩
    have hk := apply_u64 env (.int 0) k (h k (by simp))
    exact ⟨_, by simp [findName], hk⟩

private theorem pointers_ok : ∀ ks : List Nat, (∀ k ∈ ks, k < 2 ^ 64) →
    PMsgPack.NodesOk (ks.map fun key => ([], pointerNode key))
  | [], _ => trivial
  | k :: ks, h => by
    refine ⟨by simp, ⟨by simp, ?_, trivial⟩, pointers_ok ks fun x hx => h x (by simp [hx])⟩
    intro p hp
    have h1 := h k (by simp)
    have l1 : keyName.length = 14 := by decide +kernel
    have l2 : valueName.length = 16 := by decide +kernel
    rcases List.mem_cons.mp hp with rfl | hp
    · refine ⟨by rw [l1]; omega, ?_⟩
      simp only [PMsgPack.ValOk, IntTy.lo, IntTy.hi, IntTy.signed, IntTy.bits]
      simp
      omega
    · rcases List.mem_cons.mp hp with rfl | hp
      · exact ⟨by rw [l2]; omega, by simp only [PMsgPack.ValOk]; decide⟩
      · cases hp

private theorem pointers_depth : ∀ ks : List Nat, Node.depthL (ks.map fun key => ([], pointerNode key)) ≤ 1
  | [] => by simp [Node.depthL]
  | k :: ks => by
    have := pointers_depth ks
    simp only [List.map_cons, Node.depthL, pointerNode, Node.depth] at this ⊢
    omega

private theorem pointers_size : ∀ ks : List Nat, Room.sizes true (ks.map fun key => ([], pointerNode key)) = 33 * ks.length
  | [] => by simp [Room.sizes]
  | k :: ks => by
    have := pointers_size ks
    have l1 : keyName.length = 14 := by decide +kernel
    have l2 : valueName.length = 16 := by decide +kernel
    simp only [pointerNode] at this
    simp only [List.map_cons, Room.sizes, this, pointerNode, Room.size, List.map_nil, List.sum_cons, List.sum_nil,
      Room.valBytes, Room.nameBytes, if_true, l1, l2, List.length_nil, List.length_cons]
    omega

/-- Negation of C95: there is a MessagePack document of less than 500 bytes for each of `n` shared pointers, for the keys of
which `n·(n − 1)` is done while they are restored. -/
theorem keys_document (m : Mem) (hm : m.Sane) (env : Env) (n : Nat) (hn : n < 2 ^ 30) :
    ∃ bs o heap table k, bs.length ≤ 462 * n + 14 ∧
      Shared.loadUnwrap keys env (fun _ => .plain (.int .u64)) (PMsgPack.read m) (2 * bs.length + 1)
        (.vec (.shared false 0)) (.many []) ([], bs) = .ok (o, heap) ∧
      (∃ r s, PMsgPack.load m bs = .ok (r, s) ∧ match r.node with | .mk _ _ ns => HaveKeys env ns (doubled n)) ∧
      findAll (HTable.new 16) (doubled n) = .ok (table, k) ∧ heap.length = table.elements ∧ n * (n - 1) ≤ k := by
  have hlt : ∀ x ∈ doubled n, x < 2 ^ 64 := fun x hx => (doubled_lt hn x hx).1
  have hl : (doubled n).length = n := by rw [doubled, List.length_map, List.length_range]
  have hok : PMsgPack.NodeOk (pointersNode (doubled n)) :=
    ⟨by simp only [List.length_nil, List.length_map, hl]; omega, by simp, pointers_ok _ hlt⟩
  obtain ⟨bs, h1, h2⟩ := PMsgPack.save_enc [] (pointersNode (doubled n)) (by simp) hok
  have h3 := PMsgPack.load_enc hm _ _ [] h2
  rw [Norm.depth_node, if_pos (by have := pointers_depth (doubled n); simp only [pointersNode, Node.depth]; unfold maxDepth; omega), pointers_norm, List.append_nil] at h3
  have hs := msgpack_saved_size [] _ _ h1
  simp only [pointersNode, Room.size, pointers_size, hl, List.map_nil, List.sum_nil, List.length_nil] at hs
  obtain ⟨ys, s', h4⟩ := pointers_pasted env (PMsgPack.read m) (2 * bs.length + 1) (2 * bs.length - 1) (dfltG (.shared false 0)) (doubled n)
    (([], []), Objs.new) _ (new_inv keys 16).1 (new_inv keys 16).2 (doubled_nodup n) fun k hk => ⟨hlt k hk, rfl⟩
  obtain ⟨ks, k, a1, a2, a3⟩ := keys_restored rfl (new_inv keys 16).1 (new_inv keys 16).2 rfl h4
  rw [keys_unique a1 (pointers_keys env _ hlt)] at a2
  have hb' : 1 ≤ bs.length := by
    have := msgpack_tree_memory m bs _ _ h3
    simp only [Room.size] at this
    omega
  rw [show 2 * bs.length - 1 + 1 = 2 * bs.length by omega] at h4
  refine ⟨bs, .many ys, s'.2.heap, s'.2.table, k, by omega, ?_, ⟨_, _, h3, pointers_keys env _ hlt⟩, a2, a3,
    keys_quadratic n hn _ k a2⟩
  rw [PMsgPack.load] at h3
  simp only [Shared.loadUnwrap, h3, Res.ok_bind, Shared.paste, whole, if_true, h4]

private def work (ks : List Nat) : Nat :=
  match findAll (HTable.new 16) ks with
  | .ok (_, k) => k
  | _ => 0

/-- The keys of a sequence in which two pointers lead to what others lead to -/
example : KeysInOrder 0 [0, 1, 0, 2, 1] ∧ work [0, 1, 0, 2, 1] = 18 :=
  ⟨.next (.next (.again (by omega) (.next (.again (by omega) .nil)))), by decide +kernel⟩

/-- For 100 keys that are given in order 467 is done, for 100 others 12996. -/
example : work (List.range 100) = 467 ∧ work (doubled 100) = 12996 := by decide +kernel

end Srl.Props
