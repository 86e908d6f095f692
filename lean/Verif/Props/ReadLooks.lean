import Verif.Props.ReadLooksSpec
import Verif.Props.LookTime

/-! # C95 for objects that are restored while a document is read

What is done for the keys of shared pointers, said by the object that is restored. -/

namespace Srl.Props
open Shared Typed Doc KeyCost LookCost
open HTable (Tbl Inv)

/-- The table of restored objects is as after `b`, and each key leads to the object that was added with it. -/
def Lk (s : Objs) (b : List Op) : Prop :=
  ∃ k m, run (HTable.new 16) 0 b = .ok (s.table, k) ∧ Inv keys s.table ∧ Abs s.table m ∧
    (∀ key, m key ≠ none ↔ key ∈ added b) ∧ (∀ key z a, m key = some (z, a) → (added b)[a]? = some key) ∧
    s.heap.length = (added b).length

private theorem lk_look {s : Objs} {b : List Op} (h : Lk s b) (key : Nat) {f : Option (Nat × Nat)}
    (hf : HTable.get keys s.table key = .ok f) :
    Lk s (b ++ [.look key]) ∧ (f ≠ none ↔ key ∈ added b) ∧ ∀ z a, f = some (z, a) → (added b)[a]? = some key := by
  obtain ⟨k, m, h1, h2, h3, h4, h6, h5⟩ := h
  have e : added (b ++ [.look key]) = added b := by rw [added_append]; simp [added]
  refine ⟨⟨_, m, run_append b [.look key] _ _ s.table 0 k (Cost.getSteps keys s.table key + 0) h1
    (by simp only [run, hf, Res.ok_bind]), h2, h3, by rw [e]; exact h4, by rw [e]; exact h6, by rw [e]; exact h5⟩, ?_⟩
  rw [get_spec h2 h3 key] at hf
  cases hf
  exact ⟨h4 key, h6 key⟩

private theorem lk_add {s : Objs} {b : List Op} (h : Lk s b) (key : Nat) {table : Tbl Nat Nat} {x : Bool × Nat × Nat}
    (hi : HTable.insert keys s.table key s.heap.length = .ok (table, x)) (o : Nat × Obj) :
    Lk ⟨table, s.heap ++ [o]⟩ (b ++ [.add key]) := by
  obtain ⟨k, m, h1, h2, h3, h4, h6, h5⟩ := h
  have e : added (b ++ [.add key]) = added b ++ [key] := by rw [added_append]; simp [added]
  have hr : run (HTable.new 16) 0 (b ++ [.add key]) = .ok (table, k + (Cost.insertSteps keys s.table key + 0)) :=
    run_append b [.add key] _ _ table 0 k _ h1 (by
      rw [Nat.zero_add, ← h5]
      simp only [run, hi, Res.ok_bind])
  obtain ⟨t', y, ad, w, q1, q2, q3⟩ := insert_spec h2 h3 false key s.heap.length
  rw [HTable.insert, q1] at hi
  cases hi
  have hl : (s.heap ++ [o]).length = (added (b ++ [.add key])).length := by
    rw [e, List.length_append, List.length_append, h5]; rfl
  have old : ∀ x z a, m x = some (z, a) → (added b ++ [key])[a]? = some x := by
    intro x z a hm
    have := h6 x z a hm
    obtain ⟨hlt, -⟩ := List.getElem?_eq_some_iff.mp this
    rw [List.getElem?_append_left hlt]
    exact this
  rcases q3 with ⟨_, rfl, _, _, q⟩ | ⟨_, _, q0, q⟩ | ⟨_, q, _⟩
  · refine ⟨_, _, hr, q2, q, fun x => ?_, fun x z a hm => ?_, hl⟩
    · rw [e, List.mem_append, List.mem_singleton, Map.put]
      by_cases hx : x = key
      · simp [hx]
      · rw [if_neg hx]
        simp only [hx, or_false]
        exact h4 x
    · rw [e]
      rw [Map.put] at hm
      by_cases hx : x = key
      · rw [if_pos hx] at hm
        cases hm
        rw [h5, hx]
        simp
      · rw [if_neg hx] at hm
        exact old x z a hm
  · refine ⟨_, m, hr, q2, q, fun x => ?_, fun x z a hm => by rw [e]; exact old x z a hm, hl⟩
    rw [e, List.mem_append, List.mem_singleton, ← h4]
    constructor
    · exact .inl
    · rintro (h | rfl)
      · exact h
      · rw [q0]; simp
  · cases q

private theorem Found.mono {C : Nat → GTy} {heap heap' : List (Nat × Obj)} (hp : heap <+: heap') {ty : GTy} {o : Obj} {b d : List Op}
    (h : Found C heap ty o b d) : Found C heap' ty o b d := by
  induction h with
  | plain => exact .plain
  | empty => exact .empty
  | item _ _ ih1 ih2 => exact .item ih1 ih2
  | done => exact .done
  | member _ _ ih1 ih2 => exact .member ih1 ih2
  | again h => exact .again h
  | first h1 h2 _ ih =>
    refine .first h1 ?_ ih
    obtain ⟨r, rfl⟩ := hp
    obtain ⟨hlt, -⟩ := List.getElem?_eq_some_iff.mp h2
    rw [List.getElem?_append_left hlt]
    exact h2

section
variable {σ : Type}

/-- What a function that restores objects of a type does -/
def Does (C : Nat → GTy) (ty : GTy) (f : LNode → σ × Objs → Res (Obj × LNode × σ × Objs)) : Prop :=
  ∀ n s y c s' b, Lk s.2 b → f n s = .ok (y, c, s') →
    ∃ d, Found C s'.2.heap ty y b d ∧ Lk s'.2 d ∧ s.2.heap <+: s'.2.heap

private theorem field_any {read : σ → Res (Event × σ)} {total : Nat} {scope : Bool} {sel : Sel}
    {f : LNode → σ × Objs → Res (Obj × LNode × σ × Objs)} {g : Val → Res Obj} {n n' : LNode} {s s' : σ × Objs} {o : Obj}
    (h : pasteField read total scope sel f g n s = .ok (o, n', s')) :
    (scope = true ∧ ∃ n1 s1 c s2, f n1 s1 = .ok (o, c, s2) ∧ s1.2 = s.2 ∧ s'.2 = s2.2) ∨
      (scope = false ∧ s'.2 = s.2 ∧ ∃ v, g v = .ok o) := by
  unfold pasteField at h
  split at h
  · rename_i hs
    refine .inl ⟨hs, ?_⟩
    split at h
    · simp only [Res.bind_eq_ok] at h
      obtain ⟨x, -, ⟨y, c, s1⟩, h2, h3⟩ := h
      cases h3
      exact ⟨_, _, _, _, h2, rfl, rfl⟩
    · simp only [Res.bind_eq_ok] at h
      obtain ⟨⟨x, n1, t1⟩, -, h2⟩ := h
      cases x with
      | none => cases h2
      | some x =>
        simp only [Res.bind_eq_ok] at h2
        obtain ⟨⟨y, c, s1⟩, h3, t2, -, h4⟩ := h2
        cases h4
        exact ⟨_, _, _, _, h3, rfl, rfl⟩
  · rename_i hs
    refine .inr ⟨by simpa using hs, ?_⟩
    split at h
    · simp only [Res.bind_eq_ok] at h
      obtain ⟨v, -, y, h2, h3⟩ := h
      cases h3
      exact ⟨rfl, v, h2⟩
    · simp only [Res.bind_eq_ok] at h
      obtain ⟨⟨x, n1, t1⟩, -, h2⟩ := h
      cases x with
      | none => cases h2
      | some x =>
        simp only [Res.bind_eq_ok] at h2
        obtain ⟨y, h3, h4⟩ := h2
        cases h4
        exact ⟨rfl, _, h3⟩

private theorem found_value {C : Nat → GTy} {heap : List (Nat × Obj)} {ty : GTy} (hs : ty.isScope = false) (o : Obj) (b : List Op) :
    Found C heap ty o b b := by
  cases ty with
  | plain _ => exact .plain
  | _ => simp [GTy.isScope] at hs

private theorem field_found {C : Nat → GTy} {read : σ → Res (Event × σ)} {total : Nat} {ty : GTy} {sel : Sel}
    {f : LNode → σ × Objs → Res (Obj × LNode × σ × Objs)} {g : Val → Res Obj} (hf : Does C ty f) :
    Does C ty (pasteField read total ty.isScope sel f g) := by
  intro n s y c s' b hl h
  rcases field_any h with ⟨-, n1, s1, c1, s2, h1, h2, h3⟩ | ⟨h1, h2, -⟩
  · rw [← h2] at hl ⊢
    rw [h3]
    exact hf n1 s1 y c1 s2 b hl h1
  · rw [h2]
    exact ⟨b, found_value h1 _ _, hl, List.prefix_rfl⟩

private theorem found_each {C : Nat → GTy} {e : GTy} {f : LNode → σ × Objs → Res (Obj × LNode × σ × Objs)} (hf : Does C e f) :
    ∀ (ns : List (Bytes × Node)) (s s' : σ × Objs) (ys : List Obj) (b : List Op), Lk s.2 b → eachNode f ns s = .ok (ys, s') →
    ∃ d, Found C s'.2.heap (.vec e) (.many ys) b d ∧ Lk s'.2 d ∧ s.2.heap <+: s'.2.heap
  | [], s, s', ys, b, hl, h => by
    cases h
    exact ⟨b, .empty, hl, List.prefix_rfl⟩
  | x :: ns, s, s', ys, b, hl, h => by
    simp only [eachNode, Res.bind_eq_ok] at h
    obtain ⟨⟨y, c, s1⟩, h1, ⟨ys, s2⟩, h2, h3⟩ := h
    cases h3
    obtain ⟨c', c1, c2, c3⟩ := hf _ s y c s1 b hl h1
    obtain ⟨d, d1, d2, d3⟩ := found_each hf ns s1 s2 ys c' c2 h2
    exact ⟨d, .item (c1.mono d3) d1, d2, c3.trans d3⟩

private theorem found_next {C : Nat → GTy} {e : GTy} {read : σ → Res (Event × σ)} {total : Nat}
    {f : LNode → σ × Objs → Res (Obj × LNode × σ × Objs)} (hf : Does C e f) :
    ∀ (fuel : Nat) (n n' : LNode) (s s' : σ × Objs) (ys : List Obj) (b : List Op), Lk s.2 b →
    nextNodes read total f fuel n s = .ok (ys, n', s') →
    ∃ d, Found C s'.2.heap (.vec e) (.many ys) b d ∧ Lk s'.2 d ∧ s.2.heap <+: s'.2.heap
  | 0, _, _, _, _, _, _, _, h => by cases h
  | fuel + 1, n, n', s, s', ys, b, hl, h => by
    simp only [nextNodes, Res.bind_eq_ok] at h
    obtain ⟨⟨x, n1, t1⟩, -, h2⟩ := h
    split at h2
    · cases h2
      exact ⟨b, .empty, hl, List.prefix_rfl⟩
    · cases x with
      | none => cases h2
      | some x =>
        simp only [Res.bind_eq_ok] at h2
        obtain ⟨⟨y, c, s1⟩, h3, t2, -, ⟨ys, n2, s2⟩, h4, h5⟩ := h2
        cases h5
        obtain ⟨c', c1, c2, c3⟩ := hf _ (t1, s.2) y c s1 b hl h3
        obtain ⟨d, d1, d2, d3⟩ := found_next hf fuel _ _ (t2, s1.2) _ ys c' c2 h4
        exact ⟨d, .item (c1.mono d3) d1, d2, c3.trans d3⟩

private theorem found_members {C : Nat → GTy} {h : Bytes → GTy → Obj → LNode → σ × Objs → Res (Obj × LNode × σ × Objs)}
    (hf : ∀ name ty o, Does C ty (h name ty o)) :
    ∀ (fs : GFields) (os : List Obj) (n n' : LNode) (s s' : σ × Objs) (ys : List Obj) (b : List Op), Lk s.2 b →
    eachMember h fs os n s = .ok (ys, n', s') →
    ∃ d, Found C s'.2.heap (.record fs) (.many ys) b d ∧ Lk s'.2 d ∧ s.2.heap <+: s'.2.heap
  | .nil, os, n, n', s, s', ys, b, hl, h => by
    cases h
    exact ⟨b, .done, hl, List.prefix_rfl⟩
  | .cons _ _ _, [], n, n', s, s', ys, b, hl, h => by cases h
  | .cons name ty rest, o :: os, n, n', s, s', ys, b, hl, h => by
    simp only [eachMember, Res.bind_eq_ok] at h
    obtain ⟨⟨y, c, s1⟩, h1, ⟨ys, n2, s2⟩, h2, h3⟩ := h
    cases h3
    obtain ⟨c', c1, c2, c3⟩ := hf name ty o _ s y c s1 b hl h1
    obtain ⟨d, d1, d2, d3⟩ := found_members hf rest os c n2 s1 s2 ys c' c2 h2
    exact ⟨d, .member (c1.mono d3) d1, d2, c3.trans d3⟩

theorem found_from {env : Env} {C : Nat → GTy} {read : σ → Res (Event × σ)} {total : Nat} : ∀ (fuel : Nat) (ty : GTy)
    (old : Obj), Does C ty (paste keys env C read total fuel ty old)
  | 0, _, _ => fun _ _ _ _ _ _ _ h => by cases h
  | fuel + 1, ty, old => fun n s o n' s' b hl h => by
    unfold Shared.paste at h
    split at h
    · cases h
    · simp only [Res.bind_eq_ok] at h
      obtain ⟨⟨_, _, _⟩, _, h3⟩ := h
      cases h3
      exact ⟨b, .plain, hl, List.prefix_rfl⟩
    · rename_i hu; cases hu
      split at h
      · simp only [Res.bind_eq_ok] at h
        obtain ⟨⟨ys, s1⟩, h1, h2⟩ := h
        cases h2
        exact found_each (found_from fuel _ _) _ _ _ _ _ hl h1
      · simp only [Res.bind_eq_ok] at h
        obtain ⟨⟨ys, n1, s1⟩, h1, h2⟩ := h
        cases h2
        exact found_next (found_from fuel _ _) _ _ _ _ _ _ _ hl h1
    · rename_i hu; cases hu
      simp only [Res.bind_eq_ok] at h
      obtain ⟨⟨ys, n2, s1⟩, h1, h2⟩ := h
      cases h2
      exact found_members (fun name ty o => field_found (found_from fuel ty o)) _ _ _ _ _ _ _ _ hl h1
    · rename_i hu; cases hu
      simp only [Res.bind_eq_ok] at h
      obtain ⟨⟨kv, n1, s1⟩, h1, h2⟩ := h
      rcases field_any h1 with ⟨h3, -⟩ | ⟨-, h3, -⟩
      · cases h3
      rw [← h3] at hl
      dsimp only at h2
      split at h2
      · rename_i key
        simp only [Res.bind_eq_ok] at h2
        obtain ⟨f, f1, f2⟩ := h2
        obtain ⟨g1, g2, g3⟩ := lk_look hl key f1
        cases hf : f with
        | some x =>
          rw [hf] at f2
          obtain ⟨z, a⟩ := x
          simp only [Res.bind_eq_ok] at f2
          obtain ⟨p, f4, f3⟩ := f2
          cases f3
          unfold castTo at f4
          split at f4
          · split at f4
            · cases f4
              exact ⟨_, .again (g3 z a hf), g1, by rw [h3]⟩
            · cases f4
          · cases f4
        | none =>
          rw [hf] at f2
          simp only [Res.bind_eq_ok] at f2
          obtain ⟨⟨o2, n2, s2⟩, p1, ⟨table, x⟩, p2, p3⟩ := f2
          cases p3
          have hno : key ∉ added b := fun hm => g2.mpr hm hf
          obtain ⟨d, d1, d2, d3⟩ := field_found (found_from fuel _ _) _ _ _ _ _ _ g1 p1
          have hlen : s2.2.heap.length = (added d).length := by
            obtain ⟨_, _, _, _, _, _, _, q⟩ := d2
            exact q
          refine ⟨d ++ [.add key], ?_, lk_add d2 key p2 _, ?_⟩
          · rw [hlen]
            refine .first hno ?_ (d1.mono (List.prefix_append _ _))
            rw [← hlen]
            simp
          · rw [← h3]
            exact d3.trans (List.prefix_append _ _)
      · cases h2
    · cases h

/-- C95 (what is looked up): also while a document is read, keys are looked up and added one after the other, as can be told
by the object that is restored, and the table is as after that. -/
theorem pointers_read {env : Env} {C : Nat → GTy} {read : σ → Res (Event × σ)} {fuel : Nat} {ty : GTy} {old o : Obj} {s : σ}
    {heap : List (Nat × Obj)} (h : Shared.restore keys env C read fuel ty old s = .ok (o, heap)) :
    ∃ ops t k, Found C heap ty o [] ops ∧ run (HTable.new 16) 0 ops = .ok (t, k) ∧ heap.length = (added ops).length := by
  simp only [Shared.restore, Res.bind_eq_ok] at h
  obtain ⟨⟨e, s1⟩, h1, h2⟩ := h
  dsimp only at h2
  split at h2
  · simp only [Res.bind_eq_ok] at h2
    obtain ⟨⟨o1, n1, s2⟩, h3, h4⟩ := h2
    cases h4
    obtain ⟨d, d1, ⟨k, m, d2, -, -, -, -, d3⟩, -⟩ := found_from fuel _ _ _ _ _ _ _ [] ⟨0, fun _ => none, rfl, (new_inv keys 16).1,
      (new_inv keys 16).2, by simp [added], by simp, rfl⟩ h3
    exact ⟨d, _, k, d1, d2, d3⟩
  · cases h2

end

/-! ### How much is looked up -/

private theorem pointersOf_append {C : Nat → GTy} : ∀ xs ys : List (Nat × Obj),
    pointersOf C (xs ++ ys) = pointersOf C xs + pointersOf C ys
  | [], ys => by simp [pointersOf]
  | (c, x) :: xs, ys => by rw [List.cons_append, pointersOf, pointersOf, pointersOf_append xs ys]; omega

private theorem pointersOf_next {C : Nat → GTy} {heap : List (Nat × Obj)} {n c : Nat} {x : Obj} (h : heap[n]? = some (c, x)) :
    pointersOf C (heap.take (n + 1)) = pointersOf C (heap.take n) + (refs (C c) x).length := by
  rw [List.take_add_one, h, pointersOf_append]
  simp [pointersOf]

private theorem found_count {C : Nat → GTy} {heap : List (Nat × Obj)} {ty : GTy} {o : Obj} {b d : List Op} (h : Found C heap ty o b d) :
    (lookedUp d).length + pointersOf C (heap.take (added b).length) =
      (lookedUp b).length + pointersOf C (heap.take (added d).length) + (refs ty o).length := by
  induction h with
  | plain => simp [refs]
  | empty => simp [refs]
  | item _ _ ih1 ih2 =>
    simp only [refs, List.flatMap_cons, List.length_append] at ih2 ⊢
    omega
  | done => simp [refs, refsL]
  | member _ _ ih1 ih2 =>
    simp only [refs, refsL, List.length_append] at ih2 ⊢
    omega
  | again _ => simp [refs, addr, looked_append, added_append, lookedUp, added]; omega
  | first _ h2 _ ih =>
    simp only [refs, addr, looked_append, added_append, lookedUp, added, List.append_nil, List.length_append, List.length_cons,
      List.length_nil] at ih ⊢
    rw [pointersOf_next h2]
    omega

/-- C95 (what is looked up): one key is looked up for each pointer in the object and in the objects that were restored for
it, however many pointers lead to an object. -/
theorem pointers_each {C : Nat → GTy} {heap : List (Nat × Obj)} {ty : GTy} {o : Obj} {ops : List Op}
    (h : Found C heap ty o [] ops) (hl : heap.length = (added ops).length) :
    (lookedUp ops).length = (refs ty o).length + pointersOf C heap := by
  have := found_count h
  rw [← hl, List.take_length] at this
  simp [lookedUp, added, pointersOf] at this
  omega

theorem found_added {C : Nat → GTy} {heap : List (Nat × Obj)} {ty : GTy} {o : Obj} {b d : List Op} (h : Found C heap ty o b d) :
    (added d).length + (lookedUp b).length ≤ (added b).length + (lookedUp d).length := by
  induction h with
  | plain => omega
  | empty => omega
  | item _ _ ih1 ih2 => omega
  | done => omega
  | member _ _ ih1 ih2 => omega
  | again => simp [added_append, looked_append, added, lookedUp]
  | first _ _ _ ih =>
    simp [added_append, looked_append, added, lookedUp] at ih ⊢
    omega

theorem ops_length : ∀ ops : List Op, ops.length = (added ops).length + (lookedUp ops).length
  | [] => rfl
  | .look _ :: ops => by rw [List.length_cons, added, lookedUp, List.length_cons, ops_length ops]; omega
  | .add _ :: ops => by rw [List.length_cons, added, lookedUp, List.length_cons, ops_length ops]; omega

/-- C95 (what holds): if at most `L` of the keys share a place, what is done while an object of any type is restored from a
document that is read is in proportion to the pointers in it and in the objects behind them. What is missing: other keys.
For stored ones see `stored_read_partial`. -/
theorem pointers_read_partial {σ : Type} {env : Env} {C : Nat → GTy} {read : σ → Res (Event × σ)} {fuel : Nat} {ty : GTy} {old o : Obj}
    {s : σ} {heap : List (Nat × Obj)} (h : Shared.restore keys env C read fuel ty old s = .ok (o, heap)) :
    ∃ ops t k, Found C heap ty o [] ops ∧ run (HTable.new 16) 0 ops = .ok (t, k) ∧ heap.length = (added ops).length ∧
      ∀ L, AddressesSpread L (added ops) → (∀ k ∈ added ops, k < 2 ^ 64) →
        k ≤ (6 * L + 16) * ((refs ty o).length + pointersOf C heap) + 16 * (L + 4) := by
  obtain ⟨ops, t, k, h1, h2, h3⟩ := pointers_read h
  refine ⟨ops, t, k, h1, h2, h3, fun L hL h64 => ?_⟩
  obtain ⟨t', k', g1, g2⟩ := pointers_time_partial L ops hL h64
  rw [h2] at g1
  cases g1
  have h4 := pointers_each h1 h3
  have h5 := found_added h1
  simp only [added, lookedUp, List.length_nil] at h5
  have h6 := ops_length ops
  have h7 : ops.length ≤ 2 * ((refs ty o).length + pointersOf C heap) := by omega
  have h8 := Nat.mul_le_mul_left (3 * L + 8) h7
  rw [← Nat.mul_assoc, show (3 * L + 8) * 2 = 6 * L + 16 by omega] at h8
  omega

/-- Two pointers to an object with a pointer to a number -/
example : Found (fun | 0 => .record (.cons [97] (.shared false 1) .nil) | _ => .plain (.int .u64))
    [(1, .int 7), (0, .many [addr 0])] (.vec (.shared false 0)) (.many [addr 1, addr 1]) []
    [.look 0, .look 1, .add 1, .add 0, .look 0] :=
  .item (.first (d := [.look 0, .look 1, .add 1]) (by simp [added]) rfl
      (.member (.first (d := [.look 0, .look 1]) (by simp [added]) rfl .plain) .done))
    (.item (.again rfl) .empty)

end Srl.Props
