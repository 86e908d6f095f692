import Verif.Props.LookTimeSpec
import Verif.Lemmas.AddrCost

/-! # C95 for all types: shared pointers in objects of shared pointers

What is done for the keys of shared pointers when objects of any type are restored from a tree. -/

namespace Srl.Props
open Shared Typed Doc KeyCost LookCost
open HTable (Tbl Inv)

theorem run_append : ∀ (xs ys : List Op) (t t1 t2 : Tbl Nat Nat) (a k1 k2 : Nat), run t a xs = .ok (t1, k1) →
    run t1 (a + (added xs).length) ys = .ok (t2, k2) → run t a (xs ++ ys) = .ok (t2, k1 + k2)
  | [], ys, t, t1, t2, a, k1, k2, h1, h2 => by
    cases h1
    rw [List.nil_append, Nat.zero_add]
    exact h2
  | .look key :: xs, ys, t, t1, t2, a, k1, k2, h1, h2 => by
    simp only [run, Res.bind_eq_ok] at h1
    obtain ⟨_, g1, ⟨t4, k⟩, g2, g3⟩ := h1
    cases g3
    simp only [List.cons_append, run, g1, Res.ok_bind, run_append xs ys t t4 t2 a k k2 g2 h2, Nat.add_assoc]
  | .add key :: xs, ys, t, t1, t2, a, k1, k2, h1, h2 => by
    simp only [run, Res.bind_eq_ok] at h1
    obtain ⟨⟨t3, _⟩, g1, ⟨t4, k⟩, g2, g3⟩ := h1
    cases g3
    simp only [List.cons_append, run, g1, Res.ok_bind, run_append xs ys t3 t4 t2 (a + 1) k k2 g2 (by
      rw [added, List.length_cons] at h2
      rw [Nat.add_assoc, Nat.add_comm 1]; exact h2), Nat.add_assoc]

theorem added_append : ∀ xs ys : List Op, added (xs ++ ys) = added xs ++ added ys
  | [], _ => rfl
  | .look _ :: xs, ys => by rw [List.cons_append, added, added, added_append xs ys]
  | .add _ :: xs, ys => by rw [List.cons_append, added, added, added_append xs ys, List.cons_append]

private def Looked (s : Objs) (b : List Op) : Prop :=
  ∃ k m, run (HTable.new 16) 0 b = .ok (s.table, k) ∧ Inv keys s.table ∧ Abs s.table m ∧
    (∀ key, m key ≠ none ↔ key ∈ added b) ∧ s.heap.length = (added b).length

private theorem looked_look {s : Objs} {b : List Op} (h : Looked s b) (key : Nat) {f : Option (Nat × Nat)}
    (hf : HTable.get keys s.table key = .ok f) : Looked s (b ++ [.look key]) ∧ (f ≠ none ↔ key ∈ added b) := by
  obtain ⟨k, m, h1, h2, h3, h4, h5⟩ := h
  have e : added (b ++ [.look key]) = added b := by rw [added_append]; simp [added]
  refine ⟨⟨_, m, run_append b [.look key] _ _ s.table 0 k (Cost.getSteps keys s.table key + 0) h1 (by simp only [run, hf, Res.ok_bind]), h2, h3, by rw [e]; exact h4,
    by rw [e]; exact h5⟩, ?_⟩
  rw [get_spec h2 h3 key] at hf
  cases hf
  exact h4 key

private theorem looked_add {s : Objs} {b : List Op} (h : Looked s b) (key : Nat) {table : Tbl Nat Nat} {x : Bool × Nat × Nat}
    (hi : HTable.insert keys s.table key s.heap.length = .ok (table, x)) (o : Nat × Obj) :
    Looked ⟨table, s.heap ++ [o]⟩ (b ++ [.add key]) := by
  obtain ⟨k, m, h1, h2, h3, h4, h5⟩ := h
  have e : added (b ++ [.add key]) = added b ++ [key] := by rw [added_append]; simp [added]
  have hr : run (HTable.new 16) 0 (b ++ [.add key]) = .ok (table, k + (Cost.insertSteps keys s.table key + 0)) :=
    run_append b [.add key] _ _ table 0 k _ h1 (by
      rw [Nat.zero_add, ← h5]
      simp only [run, hi, Res.ok_bind])
  obtain ⟨t', y, ad, w, q1, q2, q3⟩ := insert_spec h2 h3 false key s.heap.length
  rw [HTable.insert, q1] at hi
  cases hi
  have hl : (s.heap ++ [o]).length = (added (b ++ [.add key])).length := by
    rw [e, List.length_append, List.length_append, h5]; rfl
  rcases q3 with ⟨_, _, _, _, q⟩ | ⟨_, _, q0, q⟩ | ⟨_, q, _⟩
  · refine ⟨_, _, hr, q2, q, fun x => ?_, hl⟩
    rw [e, List.mem_append, List.mem_singleton, Map.put]
    by_cases hx : x = key
    · simp [hx]
    · rw [if_neg hx]
      simp only [hx, or_false]
      exact h4 x
  · refine ⟨_, m, hr, q2, q, fun x => ?_, hl⟩
    rw [e, List.mem_append, List.mem_singleton, ← h4]
    constructor
    · exact .inl
    · rintro (h | rfl)
      · exact h
      · rw [q0]; simp
  · cases q

section
variable {σ : Type}

/-- Restoring from a node that was read to its end leaves it, and looks something up only in the node under the name. -/
private theorem field_parsed {read : σ → Res (Event × σ)} {total : Nat} {scope : Bool} {name : Bytes}
    {f : LNode → σ × Objs → Res (Obj × LNode × σ × Objs)} {g : Val → Res Obj} {t : ScopeTy} {vs : List (Bytes × Val)}
    {ns : List (Bytes × Node)} {s s' : σ × Objs} {o : Obj} {n' : LNode}
    (h : pasteField read total scope (.name name) f g (whole (.mk t vs ns)) s = .ok (o, n', s')) :
    n' = whole (.mk t vs ns) ∧
      ((scope = true ∧ ∃ x c, findName name ns = some x ∧ f (whole x) s = .ok (o, c, s')) ∨
       (scope = false ∧ s' = s ∧ ∃ v, findName name vs = some v ∧ g v = .ok o)) := by
  unfold pasteField at h
  simp only [whole, if_true] at h
  split at h
  · rename_i hs
    simp only [Res.bind_eq_ok] at h
    obtain ⟨x, h1, ⟨y, c, s1⟩, h2, h3⟩ := h
    cases h3
    refine ⟨rfl, .inl ⟨hs, x, c, ?_, h2⟩⟩
    simp only [lookup] at h1
    split at h1
    · rename_i z hz; cases h1; exact hz
    · cases h1
  · rename_i hs
    simp only [Res.bind_eq_ok] at h
    obtain ⟨v, h1, y, h2, h3⟩ := h
    cases h3
    refine ⟨rfl, .inr ⟨by simpa using hs, rfl, v, ?_, h2⟩⟩
    simp only [lookup] at h1
    split at h1
    · rename_i z hz; cases h1; exact hz
    · cases h1

private theorem restores_each {env : Env} {C : Nat → GTy} {f : LNode → σ × Objs → Res (Obj × LNode × σ × Objs)} {e : GTy}
    (hf : ∀ n s o c s' b, Looked s.2 b → f (whole n) s = .ok (o, c, s') → ∃ d, Restores env C e n b d ∧ Looked s'.2 d)
    (t : ScopeTy) (vs : List (Bytes × Val)) : ∀ (ns : List (Bytes × Node)) (s s' : σ × Objs) (ys : List Obj) (b : List Op),
    Looked s.2 b → eachNode f ns s = .ok (ys, s') → ∃ d, Restores env C (.vec e) (.mk t vs ns) b d ∧ Looked s'.2 d
  | [], s, s', ys, b, hl, h => by
    cases h
    exact ⟨b, .empty, hl⟩
  | x :: ns, s, s', ys, b, hl, h => by
    simp only [eachNode, Res.bind_eq_ok] at h
    obtain ⟨⟨y, c, s1⟩, h1, ⟨ys, s2⟩, h2, h3⟩ := h
    cases h3
    obtain ⟨c', c1, c2⟩ := hf x.2 s y c s1 b hl h1
    obtain ⟨d, d1, d2⟩ := restores_each hf t vs ns s1 s2 ys c' c2 h2
    exact ⟨d, .item c1 d1, d2⟩

private theorem restores_members {env : Env} {C : Nat → GTy} {read : σ → Res (Event × σ)} {total : Nat}
    {f : GTy → Obj → LNode → σ × Objs → Res (Obj × LNode × σ × Objs)} {g : GTy → Obj → Val → Res Obj}
    (hf : ∀ ty old n s o c s' b, Looked s.2 b → f ty old (whole n) s = .ok (o, c, s') →
      ∃ d, Restores env C ty n b d ∧ Looked s'.2 d) (t : ScopeTy) (vs : List (Bytes × Val)) (ns : List (Bytes × Node)) :
    ∀ (fs : GFields) (os : List Obj) (s s' : σ × Objs) (ys : List Obj) (n' : LNode) (b : List Op), Looked s.2 b →
    eachMember (fun name ty o => pasteField read total ty.isScope (.name name) (f ty o) (g ty o)) fs os (whole (.mk t vs ns)) s =
      .ok (ys, n', s') → ∃ d, Restores env C (.record fs) (.mk t vs ns) b d ∧ Looked s'.2 d
  | .nil, os, s, s', ys, n', b, hl, h => by
    cases h
    exact ⟨b, .done, hl⟩
  | .cons _ _ _, [], s, s', ys, n', b, hl, h => by cases h
  | .cons name ty rest, o :: os, s, s', ys, n', b, hl, h => by
    simp only [eachMember, Res.bind_eq_ok] at h
    obtain ⟨⟨y, c, s1⟩, h1, ⟨ys, n2, s2⟩, h2, h3⟩ := h
    cases h3
    obtain ⟨rfl, ⟨h4, x, c', h5, h6⟩ | ⟨h4, rfl, -⟩⟩ := field_parsed h1
    · obtain ⟨d, d1, d2⟩ := hf ty o x s y c' s1 b hl h6
      obtain ⟨e, e1, e2⟩ := restores_members hf t vs ns rest os s1 s2 ys n2 d d2 h2
      exact ⟨e, .scope h4 h5 d1 e1, e2⟩
    · obtain ⟨e, e1, e2⟩ := restores_members hf t vs ns rest os s1 s2 ys n2 b hl h2
      exact ⟨e, .value h4 e1, e2⟩

private theorem restores_from {env : Env} {C : Nat → GTy} {read : σ → Res (Event × σ)} {total : Nat} : ∀ (fuel : Nat) (ty : GTy)
    (old : Obj) (n : Node) (s : σ × Objs) (o : Obj) (n' : LNode) (s' : σ × Objs) (b : List Op), Looked s.2 b →
    paste keys env C read total fuel ty old (whole n) s = .ok (o, n', s') → ∃ d, Restores env C ty n b d ∧ Looked s'.2 d
  | 0, _, _, _, _, _, _, _, _, _, h => by cases h
  | fuel + 1, ty, old, .mk t vs ns, s, o, n', s', b, hl, h => by
    unfold Shared.paste at h
    split at h
    · cases h
    · simp only [Res.bind_eq_ok] at h
      obtain ⟨⟨_, _, _⟩, _, h3⟩ := h
      cases h3
      exact ⟨b, .plain, hl⟩
    · rename_i hu; cases hu
      simp only [whole, if_true, Res.bind_eq_ok] at h
      obtain ⟨⟨ys, s1⟩, h1, h2⟩ := h
      cases h2
      exact restores_each (fun n s o c s' b => restores_from fuel _ _ n s o c s' b) t vs _ _ _ _ _ hl h1
    · rename_i hu; cases hu
      simp only [Res.bind_eq_ok] at h
      obtain ⟨⟨ys, n2, s1⟩, h1, h2⟩ := h
      cases h2
      exact restores_members (f := fun ty o => paste keys env C read total fuel ty o) (g := fun ty o => valueOf env ty o)
        (fun ty old n s o c s' b => restores_from fuel ty old n s o c s' b) t vs ns _ _ _ _ _ _ _ hl h1
    · rename_i hu; cases hu
      simp only [Res.bind_eq_ok] at h
      obtain ⟨⟨kv, n1, s1⟩, h1, h2⟩ := h
      obtain ⟨rfl, ⟨h3, -⟩ | ⟨-, rfl, v, h4, h5⟩⟩ := field_parsed h1
      · cases h3
      dsimp only at h2
      split at h2
      · rename_i key
        have hkey : HasKey env (.mk t vs ns) key := ⟨v, h4, h5⟩
        simp only [Res.bind_eq_ok] at h2
        obtain ⟨f, f1, f2⟩ := h2
        obtain ⟨g1, g2⟩ := looked_look hl key f1
        cases hf : f with
        | some x =>
          rw [hf] at f2
          obtain ⟨_, a⟩ := x
          simp only [Res.bind_eq_ok] at f2
          obtain ⟨p, _, f3⟩ := f2
          cases f3
          exact ⟨_, .known hkey (g2.mp (by rw [hf]; simp)), g1⟩
        | none =>
          rw [hf] at f2
          simp only [Res.bind_eq_ok] at f2
          obtain ⟨⟨o2, n2, s2⟩, p1, ⟨table, x⟩, p2, p3⟩ := f2
          cases p3
          have hno : key ∉ added b := fun hm => g2.mpr hm hf
          obtain ⟨rfl, ⟨q1, x', c', q2, q3⟩ | ⟨q1, rfl, -⟩⟩ := field_parsed p1
          · obtain ⟨d, d1, d2⟩ := restores_from fuel _ _ x' _ _ _ _ _ g1 q3
            exact ⟨_, .newScope hkey hno q1 q2 d1, looked_add d2 key p2 _⟩
          · exact ⟨_, .newValue hkey hno q1, looked_add g1 key p2 _⟩
      · cases h2
    · cases h

/-- C95 (what is looked up): when an object of any type is restored from a tree, keys are looked up and added one after the
other as the tree has them, and the table is as after that. -/
theorem pointers_restored {env : Env} {C : Nat → GTy} {read : σ → Res (Event × σ)} {fuel : Nat} {ty : GTy} {old o : Obj} {s : σ}
    {heap : List (Nat × Obj)} (h : Shared.loadUnwrap keys env C read fuel ty old s = .ok (o, heap)) :
    ∃ r s' ops t k, load read fuel s = .ok (r, s') ∧ Restores env C ty r.node [] ops ∧
      run (HTable.new 16) 0 ops = .ok (t, k) ∧ heap.length = (added ops).length := by
  simp only [Shared.loadUnwrap, Res.bind_eq_ok] at h
  obtain ⟨⟨r, s1⟩, h1, ⟨o1, n1, s2⟩, h2, h3⟩ := h
  cases h3
  obtain ⟨d, d1, k, m, d2, -, -, -, d3⟩ := restores_from fuel _ _ r.node _ _ _ _ [] ⟨0, fun _ => none, rfl, (new_inv keys 16).1,
    (new_inv keys 16).2, by simp [added], rfl⟩ h2
  exact ⟨r, s1, d, _, k, h1, d1, d2, d3⟩

end

/-- What is looked up and added is determined by the tree. -/
theorem restores_once {env : Env} {C : Nat → GTy} {ty : GTy} {n : Node} {b c d : List Op} (h1 : Restores env C ty n b c)
    (h2 : Restores env C ty n b d) : c = d := by
  have one : ∀ {n : Node} {k l : Nat}, HasKey env n k → HasKey env n l → k = l := by
    rintro ⟨_, _, _⟩ k l ⟨v, g1, g2⟩ ⟨w, g3, g4⟩
    rw [g1] at g3
    cases g3
    rw [g2] at g4
    cases g4; rfl
  induction h1 generalizing d with
  | plain => cases h2; rfl
  | empty => cases h2; rfl
  | item _ _ ih1 ih2 =>
    cases h2 with
    | item g1 g2 => cases ih1 g1; exact ih2 g2
  | done => cases h2; rfl
  | value hs _ ih =>
    cases h2 with
    | value _ g => exact ih g
    | scope hs' => rw [hs] at hs'; cases hs'
  | scope hs hx _ _ ih1 ih2 =>
    cases h2 with
    | value hs' => rw [hs] at hs'; cases hs'
    | scope _ hx' g1 g2 =>
      rw [hx] at hx'
      cases hx'
      cases ih1 g1
      exact ih2 g2
  | known hk hm =>
    cases h2 with
    | known hk' => rw [one hk hk']
    | newValue hk' hn => rw [one hk hk'] at hm; exact absurd hm hn
    | newScope hk' hn => rw [one hk hk'] at hm; exact absurd hm hn
  | newValue hk hn hs =>
    cases h2 with
    | known hk' hm => rw [one hk hk'] at hn; exact absurd hm hn
    | newValue hk' => rw [one hk hk']
    | newScope _ _ hs' => rw [hs] at hs'; cases hs'
  | newScope hk hn hs hx _ ih =>
    cases h2 with
    | known hk' hm => rw [one hk hk'] at hn; exact absurd hm hn
    | newValue _ _ hs' => rw [hs] at hs'; cases hs'
    | newScope hk' _ _ hx' g =>
      rw [hx] at hx'
      cases hx'
      cases one hk hk'
      rw [ih g]

/-! ## What holds -/

private theorem run_spread {c L : Nat} (all : List Nat) (hL : AddressesSpread L all) (h64 : ∀ a ∈ all, a < 2 ^ 64) :
    ∀ (ops : List Op) (a : Nat) (b : List Nat) (t : Tbl Nat Nat) (m : Map Nat Nat), all = b ++ added ops → Good c t m →
    Keys (· ∈ b) t → (∀ y ∈ b, m y ≠ none) →
    ∃ t' m' k, run t a ops = .ok (t', k) ∧ Good c t' m' ∧ t'.elements ≤ t.elements + (added ops).length ∧
      k + pot L t ≤ L * ops.length + pot L t'
  | [], a, b, t, m, he, hg, hk, hm => ⟨t, m, 0, rfl, hg, by simp [added], by simp⟩
  | op :: ops, a, b, t, m, he, hg, hk, hm => by
    have htake : all.take b.length = b := by rw [he, List.take_left]
    have hfew : Few (· ∈ b) t.elements L := by
      intro j p ys hj hn hy
      refine hL b.length j p ys ?_ hn ?_
      · intro zs hz1 hz2
        rw [htake] at hz2
        have := (elements_ge hg hz1 fun z hz => hm z (hz2 z hz)).1
        omega
      · intro y h
        obtain ⟨h1, h2⟩ := hy y h
        rw [htake]
        exact ⟨h1, by rw [← AddrCost.addrPlace_eq j (h64 y (by rw [he]; simp [h1]))]; exact h2⟩
    cases op with
    | look key =>
      have hs : Cost.getSteps keys t key ≤ L := by
        rw [Cost.getSteps]
        split
        · omega
        · rename_i he
          have ht := HTable.table_of_elements hg.inv he
          rcases hg.room with ⟨r1, r2⟩ | ⟨r1, r2, r3, r4⟩
          · have := hg.inv.lim0 r1; omega
          · exact Nat.le_trans (Cost.look_le _ _ _) (chain_few hfew hg.inv ht r2 r3 hk key)
      obtain ⟨t2, m2, k, g1, g2, g3, g4⟩ := run_spread all hL h64 ops a b t m he hg hk hm
      refine ⟨t2, m2, Cost.getSteps keys t key + k, by simp only [run, get_spec hg.inv hg.abs key, Res.ok_bind, g1], g2, g3, ?_⟩
      rw [List.length_cons, Nat.mul_succ]
      omega
    | add key =>
      obtain ⟨t', m', x, k1, k2, k3, k4, k5, k6, k7⟩ := insert_good (P := (· ∈ b ++ [key])) hfew hk hg
        (fun e h => List.mem_append_left _ (hk e h)) key (by simp) a
      obtain ⟨t2, m2, k, g1, g2, g3, g4⟩ := run_spread all hL h64 ops (a + 1) (b ++ [key]) t' m' (by rw [he]; simp [added]) k2 k3
        (fun y hy => by
          rcases List.mem_append.mp hy with h | h
          · exact k6 y (hm y h)
          · rw [List.mem_singleton.mp h]; exact k7)
      refine ⟨t2, m2, Cost.insertSteps keys t key + k, by simp only [run, k1, Res.ok_bind, g1], g2,
        by rw [added, List.length_cons]; omega, ?_⟩
      rw [List.length_cons, Nat.mul_succ]
      omega

private theorem added_le : ∀ ops : List Op, (added ops).length ≤ ops.length
  | [] => Nat.le_refl _
  | .look _ :: ops => by have := added_le ops; simp only [added, List.length_cons]; omega
  | .add _ :: ops => by have := added_le ops; simp only [added, List.length_cons]; omega

/-- C95 (what holds): if at most `L` of the keys share a place, what is done is in proportion to how many are looked up and
added. What is missing: other keys. -/
theorem pointers_time_partial (L : Nat) (ops : List Op) (hL : AddressesSpread L (added ops)) (h : ∀ k ∈ added ops, k < 2 ^ 64) :
    ∃ t k, run (HTable.new 16) 0 ops = .ok (t, k) ∧ k ≤ (3 * L + 8) * ops.length + 16 * (L + 4) := by
  obtain ⟨t, m, k, h1, h2, h3, h4⟩ := run_spread (added ops) hL h ops 0 [] (HTable.new 16) _ rfl good_new
    (by intro e he; simp [HTable.new, Tbl.es] at he) (by simp)
  have e : (HTable.new 16 : Tbl Nat Nat).elements = 0 := rfl
  have hle := added_le ops
  have := pot_le h2 L ops.length (by omega)
  have e1 : (4 + L) * (16 + 2 * ops.length) = 64 + 16 * L + 8 * ops.length + 2 * (L * ops.length) := by
    rw [Nat.add_mul, Nat.mul_add, Nat.mul_add, Nat.mul_left_comm L 2]; omega
  have e2 : (3 * L + 8) * ops.length = 3 * (L * ops.length) + 8 * ops.length := by rw [Nat.add_mul, Nat.mul_assoc]
  refine ⟨t, k, h1, ?_⟩
  rw [e2]
  omega

/-- C95 (what holds): keys that are numbered so that none is far ahead are spread. With `w = 128`, the number of scopes that
can be nested, `L` is 10. -/
theorem keys_near_spread (w : Nat) (ks : List Nat) (h : KeysNear w ks) (h32 : ∀ k ∈ ks, k < 2 ^ 32) :
    AddressesSpread (w / 16 + 2) ks := by
  intro n j b ys hz hn hy
  have hc : 0 < 16 * 2 ^ j := by have := Nat.two_pow_pos j; omega
  have hlt := h n (16 * 2 ^ j) hz
  have hpl : ∀ y ∈ ys, y < 16 * 2 ^ j + w ∧ y % (16 * 2 ^ j) = b := by
    intro y hm
    obtain ⟨h1, h2⟩ := hy y hm
    refine ⟨hlt y h1, ?_⟩
    rw [addrPlace, Nat.div_eq_of_lt (h32 y (List.mem_of_mem_take h1)), Nat.xor_zero, ite_self] at h2
    exact h2
  have h16 : 16 ≤ 16 * 2 ^ j := by have := Nat.two_pow_pos j; omega
  generalize 16 * 2 ^ j = c at hpl hc h16
  have hnd : (ys.map (· / c)).Nodup := by
    refine List.Nodup.map_on ?_ hn
    intro x hx y hy' he
    have h1 := Nat.div_add_mod x c
    rw [he, (hpl x hx).2, ← (hpl y hy').2, Nat.div_add_mod] at h1
    exact h1.symm
  have hsub : ∀ x ∈ ys.map (· / c), x ∈ List.range (w / 16 + 2) := by
    intro x hx
    obtain ⟨y, hy', rfl⟩ := List.mem_map.mp hx
    rw [List.mem_range]
    have h1 := (hpl y hy').1
    have h2 : y / c ≤ (w + c) / c := Nat.div_le_div_right (by omega)
    rw [Nat.add_div_right _ hc] at h2
    have h3 : w / c ≤ w / 16 := Nat.div_le_div_left h16 (by omega)
    omega
  have := hnd.length_le_of_subset hsub
  simpa using this

/-! ### Keys as they are stored -/

theorem looked_append : ∀ xs ys : List Op, lookedUp (xs ++ ys) = lookedUp xs ++ lookedUp ys
  | [], _ => rfl
  | .look _ :: xs, ys => by rw [List.cons_append, lookedUp, lookedUp, looked_append xs ys, List.cons_append]
  | .add _ :: xs, ys => by rw [List.cons_append, lookedUp, lookedUp, looked_append xs ys]

/-- No more is added than is looked up. -/
theorem added_looked {env : Env} {C : Nat → GTy} {ty : GTy} {n : Node} {b d : List Op} (h : Restores env C ty n b d) :
    (added d).length + (lookedUp b).length ≤ (added b).length + (lookedUp d).length := by
  induction h with
  | plain => omega
  | empty => omega
  | item _ _ ih1 ih2 => omega
  | done => omega
  | value _ _ ih => exact ih
  | scope _ _ _ _ ih1 ih2 => omega
  | known => simp [added_append, looked_append, added, lookedUp]
  | newValue => simp [added_append, looked_append, added, lookedUp]; omega
  | newScope _ _ _ _ _ ih =>
    simp [added_append, looked_append, added, lookedUp] at ih ⊢
    omega

/-- What was looked up was added, or is among the pointers that are being restored. -/
def Cov (ops : List Op) (Q : List Nat) : Prop := ∀ x ∈ lookedUp ops, x ∈ added ops ∨ x ∈ Q

theorem cov_look {ops : List Op} {Q : List Nat} (h : Cov ops Q) (key : Nat) : Cov (ops ++ [.look key]) (key :: Q) := by
  intro x hx
  rw [looked_append] at hx
  rw [added_append]
  rcases List.mem_append.mp hx with hx | hx
  · rcases h x hx with h | h
    · exact .inl (by simp [h])
    · exact .inr (by simp [h])
  · simp only [lookedUp, List.mem_singleton] at hx
    exact .inr (by simp [hx])

theorem cov_add {ops : List Op} {Q : List Nat} {key : Nat} (h : Cov ops (key :: Q)) : Cov (ops ++ [.add key]) Q := by
  intro x hx
  rw [looked_append] at hx
  rw [added_append]
  simp only [lookedUp, List.append_nil] at hx
  rcases h x hx with h | h
  · exact .inl (by simp [h])
  · rcases List.mem_cons.mp h with rfl | h
    · exact .inl (by simp [added])
    · exact .inr h

private theorem depth_find {name : Bytes} : ∀ {ns : List (Bytes × Node)} {x : Node}, findName name ns = some x →
    x.depth + 1 ≤ Node.depthL ns
  | [], _, h => by cases h
  | (nm, n) :: ns, x, h => by
    rw [findName] at h
    rw [Node.depthL]
    split at h
    · cases h; omega
    · have := depth_find h; omega

/-- With `Q` pointers being restored there are never more than the depth of the node that are restored besides. -/
private theorem restores_cov {env : Env} {C : Nat → GTy} {ty : GTy} {n : Node} {b d : List Op} (h : Restores env C ty n b d) :
    ∀ (w : Nat) (Q : List Nat), Cov b Q → Q.length + n.depth + 1 ≤ w → ∃ e, d = b ++ e ∧ Cov d Q ∧
      ∀ m, ∃ Q', Q'.length ≤ w ∧ Cov (b ++ e.take m) Q' := by
  induction h with
  | plain => intro w Q hc hw; exact ⟨[], by simp, hc, fun m => ⟨Q, by omega, by simpa using hc⟩⟩
  | empty => intro w Q hc hw; exact ⟨[], by simp, hc, fun m => ⟨Q, by omega, by simpa using hc⟩⟩
  | done => intro w Q hc hw; exact ⟨[], by simp, hc, fun m => ⟨Q, by omega, by simpa using hc⟩⟩
  | value _ _ ih => exact ih
  | @item e t vs x ns b c d _ _ ih1 ih2 =>
    intro w Q hc hw
    obtain ⟨nm, x⟩ := x
    rw [Node.depth, Node.depthL] at hw
    obtain ⟨e1, rfl, h2, h3⟩ := ih1 w Q hc (by dsimp only; omega)
    obtain ⟨e2, rfl, g2, g3⟩ := ih2 w Q h2 (by rw [Node.depth]; omega)
    refine ⟨e1 ++ e2, by simp, g2, fun m => ?_⟩
    rw [List.take_append]
    rcases Nat.le_total m e1.length with hm | hm
    · rw [show m - e1.length = 0 by omega, List.take_zero, List.append_nil]
      exact h3 m
    · rw [List.take_of_length_le hm, ← List.append_assoc]
      exact g3 _
  | @scope name ty rest t vs ns x b c d _ hx _ _ ih1 ih2 =>
    intro w Q hc hw
    have hd := depth_find hx
    rw [Node.depth] at hw
    obtain ⟨e1, rfl, h2, h3⟩ := ih1 w Q hc (by omega)
    obtain ⟨e2, rfl, g2, g3⟩ := ih2 w Q h2 (by rw [Node.depth]; omega)
    refine ⟨e1 ++ e2, by simp, g2, fun m => ?_⟩
    rw [List.take_append]
    rcases Nat.le_total m e1.length with hm | hm
    · rw [show m - e1.length = 0 by omega, List.take_zero, List.append_nil]
      exact h3 m
    · rw [List.take_of_length_le hm, ← List.append_assoc]
      exact g3 _
  | @known _ _ n key b _ hm =>
    intro w Q hc hw
    have h1 : Cov (b ++ [.look key]) Q := by
      intro x hx
      rcases cov_look hc key x hx with h | h
      · exact .inl h
      · rcases List.mem_cons.mp h with rfl | h
        · exact .inl (by rw [added_append]; simp [hm])
        · exact .inr h
    refine ⟨[.look key], rfl, h1, fun m => ⟨Q, by omega, ?_⟩⟩
    rcases m with _ | m
    · simpa using hc
    · simpa using h1
  | @newValue _ _ n key b _ _ _ =>
    intro w Q hc hw
    have h1 := cov_look hc key
    have h2 := cov_add h1
    refine ⟨[.look key, .add key], by simp, h2, fun m => ?_⟩
    rcases m with _ | _ | m
    · exact ⟨Q, by omega, by simpa using hc⟩
    · exact ⟨key :: Q, by rw [List.length_cons]; omega, by simpa using h1⟩
    · exact ⟨Q, by omega, by simpa using h2⟩
  | @newScope _ _ t vs ns x key b d _ _ _ hx _ ih =>
    intro w Q hc hw
    have hd := depth_find hx
    rw [Node.depth] at hw
    have h1 := cov_look hc key
    obtain ⟨e, rfl, h2, h3⟩ := ih w (key :: Q) h1 (by rw [List.length_cons]; omega)
    have h4 := cov_add h2
    refine ⟨.look key :: e ++ [.add key], by simp, h4, fun m => ?_⟩
    rcases m with _ | m
    · exact ⟨Q, by omega, by simpa using hc⟩
    · rw [List.cons_append, List.take_succ_cons, List.take_append]
      rcases Nat.le_total m e.length with hm | hm
      · rw [show m - e.length = 0 by omega, List.take_zero, List.append_nil]
        obtain ⟨Q', q1, q2⟩ := h3 m
        exact ⟨Q', q1, by simpa using q2⟩
      · rw [List.take_of_length_le hm]
        rcases m - e.length with _ | r
        · exact ⟨key :: Q, by rw [List.length_cons]; omega, by simpa using h2⟩
        · exact ⟨Q, by omega, by simpa using h4⟩

/-- What is added was looked up before. -/
def Sub (ops : List Op) : Prop := ∀ m, ∀ x ∈ added (ops.take m), x ∈ lookedUp (ops.take m)

theorem sub_snoc {ops : List Op} {op : Op} (h : Sub ops) (ho : ∀ x ∈ added [op], x ∈ lookedUp ops) : Sub (ops ++ [op]) := by
  intro m x hx
  rw [List.take_append] at hx ⊢
  rcases Nat.le_total m ops.length with hm | hm
  · rw [show m - ops.length = 0 by omega, List.take_zero, List.append_nil] at hx ⊢
    exact h m x hx
  · have h0 := h ops.length
    rw [List.take_length] at h0
    rw [List.take_of_length_le hm, added_append] at hx
    rw [List.take_of_length_le hm, looked_append]
    rcases List.mem_append.mp hx with hx | hx
    · exact List.mem_append_left _ (h0 x hx)
    · refine List.mem_append_left _ (ho x ?_)
      cases hr : m - ops.length with
      | zero => rw [hr] at hx; simp [added] at hx
      | succ r => rw [hr] at hx; simpa using hx

private theorem restores_sub {env : Env} {C : Nat → GTy} {ty : GTy} {n : Node} {b d : List Op} (h : Restores env C ty n b d) :
    (∀ x ∈ lookedUp b, x ∈ lookedUp d) ∧ (Sub b → Sub d) := by
  induction h with
  | plain => exact ⟨fun _ h => h, id⟩
  | empty => exact ⟨fun _ h => h, id⟩
  | done => exact ⟨fun _ h => h, id⟩
  | value _ _ ih => exact ih
  | item _ _ ih1 ih2 => exact ⟨fun x h => ih2.1 x (ih1.1 x h), fun h => ih2.2 (ih1.2 h)⟩
  | scope _ _ _ _ ih1 ih2 => exact ⟨fun x h => ih2.1 x (ih1.1 x h), fun h => ih2.2 (ih1.2 h)⟩
  | known => exact ⟨fun x h => by rw [looked_append]; simp [h], fun h => sub_snoc h (by simp [added])⟩
  | newValue =>
    refine ⟨fun x h => by rw [looked_append, looked_append]; simp [h], fun h => sub_snoc (sub_snoc h (by simp [added])) ?_⟩
    intro x hx
    simp only [added, List.mem_singleton] at hx
    rw [looked_append]
    simp [lookedUp, hx]
  | newScope _ _ _ _ _ ih =>
    refine ⟨fun x h => ?_, fun h => sub_snoc (ih.2 (sub_snoc h (by simp [added]))) ?_⟩
    · rw [looked_append]
      exact List.mem_append_left _ (ih.1 x (by rw [looked_append]; simp [h]))
    · intro x hx
      simp only [added, List.mem_singleton] at hx
      exact ih.1 x (by rw [looked_append]; simp [lookedUp, hx])

theorem added_take : ∀ (ops : List Op) (n : Nat), ∃ m, added (ops.take m) = (added ops).take n
  | [], n => ⟨0, by simp [added]⟩
  | .look _ :: ops, n => by
    obtain ⟨m, h⟩ := added_take ops n
    exact ⟨m + 1, by rw [List.take_succ_cons, added, added, h]⟩
  | .add _ :: ops, 0 => ⟨0, by simp [added]⟩
  | .add _ :: ops, n + 1 => by
    obtain ⟨m, h⟩ := added_take ops n
    exact ⟨m + 1, by rw [List.take_succ_cons, added, added, List.take_succ_cons, h]⟩

theorem looked_take : ∀ (ops : List Op) (m : Nat), ∃ j, lookedUp (ops.take m) = (lookedUp ops).take j
  | ops, 0 => ⟨0, by simp [lookedUp]⟩
  | [], m + 1 => ⟨0, by simp [lookedUp]⟩
  | .look _ :: ops, m + 1 => by
    obtain ⟨j, h⟩ := looked_take ops m
    exact ⟨j + 1, by rw [List.take_succ_cons, lookedUp, lookedUp, List.take_succ_cons, h]⟩
  | .add _ :: ops, m + 1 => by
    obtain ⟨j, h⟩ := looked_take ops m
    exact ⟨j, by rw [List.take_succ_cons, lookedUp, lookedUp, h]⟩

theorem order_below : ∀ {N : Nat} {ks : List Nat}, KeysInOrder N ks → ∀ n, ∃ M, N ≤ M ∧
    (∀ k ∈ ks.take n, k < M) ∧ ∀ k, N ≤ k → k < M → k ∈ ks.take n
  | N, _, .nil, n => ⟨N, by omega, by simp, by intros; omega⟩
  | N, _, _, 0 => ⟨N, by omega, by simp, by intros; omega⟩
  | N, _, .again (k := k) (ks := ks) h1 h2, n + 1 => by
    obtain ⟨M, a1, a3, a4⟩ := order_below h2 n
    refine ⟨M, a1, ?_, ?_⟩
    · intro x hx
      rw [List.take_succ_cons] at hx
      rcases List.mem_cons.mp hx with rfl | hx
      · omega
      · exact a3 x hx
    · intro x hx hy
      rw [List.take_succ_cons]
      exact List.mem_cons_of_mem _ (a4 x hx hy)
  | N, _, .next (ks := ks) h2, n + 1 => by
    obtain ⟨M, a1, a3, a4⟩ := order_below h2 n
    refine ⟨M, by omega, ?_, ?_⟩
    · intro x hx
      rw [List.take_succ_cons] at hx
      rcases List.mem_cons.mp hx with rfl | hx
      · omega
      · exact a3 x hx
    · intro x hx hy
      rw [List.take_succ_cons]
      by_cases e : x = N
      · rw [e]; simp
      · exact List.mem_cons_of_mem _ (a4 x (by omega) hy)

theorem near_of {w : Nat} {ops : List Op} (hcov : ∀ m, ∃ Q : List Nat, Q.length ≤ w ∧ Cov (ops.take m) Q) (hsub : Sub ops)
    (ho : KeysInOrder 0 (lookedUp ops)) : KeysNear w (added ops) := by
  intro i M hz k hk
  obtain ⟨m, hm⟩ := added_take ops i
  rw [← hm] at hz hk
  have hl := hsub m k hk
  obtain ⟨Q, q1, q2⟩ := hcov m
  obtain ⟨j, hj⟩ := looked_take ops m
  obtain ⟨N, -, n1, n2⟩ := order_below ho j
  rw [← hj] at n1 n2
  have h1 := n1 k hl
  have h2 := hz ((List.range N).filter (· ∈ added (ops.take m))) (List.nodup_range.filter _) (by
    intro z hz
    simpa using (List.mem_filter.mp hz).2)
  have h3 := (List.nodup_range (n := N)).filter (fun x => ¬ x ∈ added (ops.take m))
  have h4 := h3.length_le_of_subset (l₂ := Q) (by
    intro x hx
    obtain ⟨x1, x2⟩ := List.mem_filter.mp hx
    rcases q2 x (n2 x (by omega) (List.mem_range.mp x1)) with h | h
    · simp [h] at x2
    · exact h)
  have h5 := List.length_eq_length_filter_add (l := List.range N) (fun x => decide (x ∈ added (ops.take m)))
  rw [List.length_range] at h5
  have h6 : ((List.range N).filter fun x => !decide (x ∈ added (ops.take m))).length ≤ Q.length := by simpa using h4
  omega

/-- C95 (what holds): if the keys are numbered in the order of the pointers in the tree, as they are when objects are stored,
no key that is added is ahead of the others by more than the nesting. -/
theorem keys_nested {env : Env} {C : Nat → GTy} {ty : GTy} {n : Node} {ops : List Op} (h : Restores env C ty n [] ops)
    (ho : KeysInOrder 0 (lookedUp ops)) : KeysNear (n.depth + 1) (added ops) := by
  obtain ⟨e, he, -, hcov⟩ := restores_cov h (n.depth + 1) [] (by intro x hx; cases hx) (by simp)
  rw [List.nil_append] at he
  subst he
  exact near_of (by simpa using hcov) ((restores_sub h).2 (by intro m x hx; simp [added] at hx)) ho

theorem order_len : ∀ {N : Nat} {ks : List Nat}, KeysInOrder N ks → ∀ k ∈ ks, k < N + ks.length
  | _, _, .nil, _, h => by cases h
  | _, _, .again h1 h2, k, h => by
    rw [List.length_cons]
    rcases List.mem_cons.mp h with rfl | h
    · omega
    · have := order_len h2 k h; omega
  | _, _, .next h2, k, h => by
    rw [List.length_cons]
    rcases List.mem_cons.mp h with rfl | h
    · omega
    · have := order_len h2 k h; omega

private theorem ops_length : ∀ ops : List Op, ops.length = (added ops).length + (lookedUp ops).length
  | [] => rfl
  | .look _ :: ops => by have := ops_length ops; simp only [added, lookedUp, List.length_cons]; omega
  | .add _ :: ops => by have := ops_length ops; simp only [added, lookedUp, List.length_cons]; omega

/-- C95 (what holds): objects of any type, with pointers in the objects of pointers, are restored from a document whose keys
are numbered in order in time in proportion to the number of pointers. What is missing: other keys. -/
theorem pointers_loaded_partial {σ : Type} {env : Env} {C : Nat → GTy} {read : σ → Res (Event × σ)} {fuel : Nat} {ty : GTy}
    {old o : Obj} {s s' : σ} {r : Root} {heap : List (Nat × Obj)} {ops : List Op}
    (h : Shared.loadUnwrap keys env C read fuel ty old s = .ok (o, heap)) (hl : load read fuel s = .ok (r, s'))
    (hr : Restores env C ty r.node [] ops) (ho : KeysInOrder 0 (lookedUp ops)) (h32 : (lookedUp ops).length ≤ 2 ^ 32) :
    ∃ t k, run (HTable.new 16) 0 ops = .ok (t, k) ∧ heap.length = (added ops).length ∧
      k ≤ 76 * (lookedUp ops).length + 224 := by
  obtain ⟨r', s2, ops', t, k, h1, h2, h3, h4⟩ := pointers_restored h
  rw [hl] at h1
  cases h1
  cases restores_once hr h2
  have hd := load_depth read fuel s s' r hl
  have hnear := keys_nested hr ho
  have hlt : ∀ x ∈ added ops, x < 2 ^ 32 := by
    intro x hx
    have h5 := (restores_sub hr).2 (by intro m x hx; simp [added] at hx) ops.length x (by rw [List.take_length]; exact hx)
    rw [List.take_length] at h5
    have := order_len ho x h5
    omega
  have hsp : AddressesSpread 10 (added ops) := by
    intro n j b ys a1 a2 a3
    have := keys_near_spread _ _ hnear hlt n j b ys a1 a2 a3
    unfold maxDepth at hd
    omega
  obtain ⟨t', k', g1, g2⟩ := pointers_time_partial 10 ops hsp fun x hx => by have := hlt x hx; omega
  have g3 := added_looked hr
  have g4 := ops_length ops
  simp only [added, lookedUp, List.length_nil] at g3
  exact ⟨t', k', g1, h4, by omega⟩

/-- A list of shared pointers to objects with a pointer to the next: the keys are looked up from the first, and added from
the last. -/
example : ∃ t k, run (HTable.new 16) 0 [.look 0, .look 1, .look 2, .add 2, .add 1, .add 0] = .ok (t, k) ∧ k ≤ 14 * 6 + 96 :=
  pointers_time_partial 2 _ (keys_near_spread 2 [2, 1, 0] (by
    intro n M hz k hk
    have h1 : k ≤ 2 := by
      have := List.mem_of_mem_take hk
      simp at this
      omega
    have h2 := hz [k] (by simp) (by simpa using hk)
    simp at h2
    omega) (by decide)) (by decide)

/-- Objects with a member `a`, a shared pointer to a number -/
private def linked : Nat → GTy
  | 0 => .record (.cons [97] (.shared false 1) .nil)
  | _ => .plain (.int .u64)

/-- A vector of two shared pointers to the same object, which has a pointer to a number -/
example (env : Env) : Restores env linked (.vec (.shared false 0))
    (.mk .array []
      [([], .mk .object [(keyName, .int .u64 0)] [(valueName, .mk .object []
          [([97], .mk .object [(keyName, .int .u64 1), (valueName, .int .u64 7)] [])])]),
       ([], .mk .object [(keyName, .int .u64 0)] [])]) []
    [.look 0, .look 1, .add 1, .add 0, .look 0] ∧ KeysInOrder 0 (lookedUp [.look 0, .look 1, .add 1, .add 0, .look 0]) :=
  ⟨.item (c := [.look 0, .look 1, .add 1, .add 0])
    (.newScope (d := [.look 0, .look 1, .add 1]) ⟨.int .u64 0, rfl, rfl⟩ (by simp [added]) rfl rfl
      (.scope (c := [.look 0, .look 1, .add 1]) rfl rfl (.newValue (b := [.look 0]) ⟨.int .u64 1, rfl, rfl⟩ (by simp [added]) rfl) .done))
    (.item (.known (b := [.look 0, .look 1, .add 1, .add 0]) ⟨.int .u64 0, rfl, rfl⟩ (by simp [added])) .empty),
   .next (.next (.again (by omega) .nil))⟩

end Srl.Props
