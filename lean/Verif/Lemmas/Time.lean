import Verif.Lemmas.Cost
import Verif.Props.Fnv
import Verif.Props.Memory
import Verif.Props.SrlLax
import Verif.Props.MsgPackLax
import Verif.Props.JsonLax

/-! # Helper lemmas about the work for the names of documents -/

namespace Srl.Cost
open HTable Props

/-! ## Sizes of trees -/

private theorem values_length (vs : List (Bytes × Val)) :
    vs.length ≤ (vs.map (fun p => 1 + Room.valBytes p.2 + Room.nameBytes false p.1)).sum := by
  induction vs with
  | nil => simp
  | cons q vs ih => simp only [List.map_cons, List.sum_cons, List.length_cons]; omega

mutual
theorem events_length : ∀ (name : Bytes) (n : Node), (n.events name).length ≤ 2 * Room.size false n
  | name, .mk t vs ns => by
    have := values_length vs
    have := eventsL_length ns
    simp only [Node.events, Room.size, List.length_cons, List.length_append, List.length_map, List.length_nil]
    omega
theorem eventsL_length : ∀ ns : List (Bytes × Node), (Node.eventsL ns).length ≤ 2 * Room.sizes false ns
  | [] => by simp [Node.eventsL]
  | (name, n) :: ns => by
    have := events_length name n
    have := eventsL_length ns
    simp only [Node.eventsL, Room.sizes, List.length_append]; omega
end

mutual
theorem names_length : ∀ n : Node, (Room.names n).length < Room.size false n
  | .mk t vs ns => by
    have := values_length vs
    have := namesL_length ns
    simp only [Room.names, Room.size, List.length_append, List.length_map]
    omega
theorem namesL_length : ∀ ns : List (Bytes × Node), (Room.namesL ns).length ≤ Room.sizes false ns
  | [] => by simp [Room.namesL]
  | (name, n) :: ns => by
    have := names_length n
    have := namesL_length ns
    simp only [Room.namesL, Room.sizes, List.length_append, List.length_cons]; omega
end

theorem total_perm {xs ys : List Bytes} (h : xs.Perm ys) : Room.total xs = Room.total ys :=
  (h.map List.length).sum_nat

theorem total_le {xs : List Bytes} {n : Nat} (h : ∀ x ∈ xs, x.length ≤ n) : Room.total xs ≤ xs.length * n := by
  induction xs with
  | nil => simp [Room.total]
  | cons x xs ih =>
    have a := ih fun y hy => h y (by simp [hy])
    have b := h x (by simp)
    have e : Room.total (x :: xs) = x.length + Room.total xs := by simp [Room.total]
    rw [e, List.length_cons, Nat.succ_mul]; omega

theorem length_le_total {xs : List Bytes} {x : Bytes} (h : x ∈ xs) : x.length ≤ Room.total xs := by
  induction xs with
  | nil => cases h
  | cons y xs ih =>
    have e : Room.total (y :: xs) = y.length + Room.total xs := by simp [Room.total]
    rcases List.mem_cons.mp h with rfl | h
    · omega
    · have := ih h; omega

/-! ## Storing names -/

/-- Empty names are not stored. -/
theorem storeAll_filter : ∀ (xs : List Bytes) (t : Strs), storeAll t xs = storeAll t (xs.filter (· ≠ []))
  | [], t => rfl
  | [] :: xs, t => by
    have e : storeAll t ([] :: xs) = storeAll t xs := by
      rw [storeAll]
      simp only [storeString, List.length_nil, Nat.zero_lt_one, if_true, Res.ok_bind]
      cases storeAll t xs with
      | ok p => obtain ⟨a, b⟩ := p; simp
      | err => rfl
      | ub => rfl
      | fuel => rfl
    rw [e, storeAll_filter xs t]; simp
  | (b :: x) :: xs, t => by
    have : ((b :: x) :: xs).filter (· ≠ []) = (b :: x) :: xs.filter (· ≠ []) := by simp
    rw [this, storeAll, storeAll]
    congr 1
    funext p
    obtain ⟨t1, a⟩ := p
    show (storeAll t1 xs >>= _) = (storeAll t1 (xs.filter _) >>= _)
    rw [storeAll_filter xs t1]

/-- Each name is hashed twice at least. -/
theorem storeAll_hash : ∀ (xs : List Bytes) (t t' : Strs) (k : Nat), storeAll t xs = .ok (t', k) → 2 * Room.total xs ≤ k
  | [], _, _, _, _ => by simp [Room.total]
  | x :: xs, t, t', k, h => by
    simp only [storeAll, Res.bind_eq_ok] at h
    obtain ⟨⟨t1, a⟩, h1, ⟨t2, b⟩, h2, h3⟩ := h
    cases h3
    have i := storeAll_hash xs _ _ _ h2
    have e : Room.total (x :: xs) = x.length + Room.total xs := by simp [Room.total]
    have : 2 * x.length ≤ a := by
      unfold storeString at h1
      split at h1
      · cases h1; omega
      · simp only [Res.bind_eq_ok] at h1
        obtain ⟨o, _, h1⟩ := h1
        cases o with
        | some v => cases h1; omega
        | none =>
          simp only [Res.bind_eq_ok] at h1
          obtain ⟨⟨t3, _⟩, _, h1⟩ := h1
          cases h1; omega
    rw [e]; omega

theorem few_length (xs : List Bytes) : FewAll xs.length xs :=
  fun _ hp _ _ _ _ _ _ hn hy => hn.length_le_of_subset fun y h => hp.subset (hy y h).1.1

/-- What is done for a document, and its bounds -/
theorem load_work {σ : Type} {read : σ → Res (Event × σ)} {fuel : Nat} {s s' : σ} {r : Root}
    (h : Doc.load read fuel s = .ok (r, s')) :
    ∃ k xs, load read fuel s = .ok (r, k) ∧ DocNames read s xs ∧ xs.Perm (r.name :: Room.names r.node) ∧
      (∀ L, FewAll L xs →
        k ≤ 4 * Room.total (r.name :: Room.names r.node) + 10 * Room.size false r.node +
          4 * (L * Room.size false r.node) + 64 * (4 + L)) ∧
      2 * Room.total (r.name :: Room.names r.node) ≤ k ∧
      (r.name = [] → (Room.names r.node).Nodup → ∀ c, (∀ x ∈ Room.names r.node, x ≠ [] ∧ names.hash x = c) →
        (Room.names r.node).length * ((Room.names r.node).length - 1) ≤ k) := by
  obtain ⟨xs, hp, ho, hx⟩ := load_counted read fuel s s' r h
  obtain ⟨t, -, k, h1, -⟩ := storeAll_le (few_length xs) good_new rfl
  refine ⟨_, xs, hx t k h1, ho, hp, fun L hL => ?_, ?_, ?_⟩
  · obtain ⟨t2, -, k2, g1, -, -, -, g2⟩ := storeAll_le hL good_new rfl
    rw [h1] at g1
    cases g1
    have e1 := events_length r.name r.node
    have e2 := names_length r.node
    have e3 := total_perm hp
    have e4 := hp.length_eq
    rw [List.length_cons] at e4
    have e5 : L * xs.length ≤ L * Room.size false r.node := Nat.mul_le_mul_left _ (by omega)
    have e6 : (4 + L) * (64 + 2 * xs.length) = 64 * (4 + L) + 8 * xs.length + 2 * (L * xs.length) := by
      rw [Nat.mul_add, Nat.add_mul, Nat.add_mul, Nat.mul_left_comm L 2]; omega
    have e7 : 2 * L * xs.length = 2 * (L * xs.length) := Nat.mul_assoc _ _ _
    omega
  · have := storeAll_hash _ _ _ _ h1
    rw [total_perm hp] at this
    omega
  · intro hr hn c hc
    rw [storeAll_filter] at h1
    have hq : (xs.filter (· ≠ [])).Perm (Room.names r.node) := by
      have := hp.filter (· ≠ [])
      rw [hr] at this
      refine this.trans (List.Perm.of_eq ?_)
      rw [List.filter_cons_of_neg (by simp), List.filter_eq_self]
      intro x hx
      simpa using (hc x hx).1
    have := storeAll_same (h := c) _ _ _ _ _ good_new (by intro e he; simp [HTable.new, Tbl.es] at he)
      (hq.nodup_iff.mpr hn) (fun x hx => ⟨(hc x (hq.subset hx)).1, (hc x (hq.subset hx)).2, rfl⟩) h1
    rw [hq.length_eq] at this
    omega

theorem hash_nat (x : Bytes) : (names.hash x).toNat = fnv1a x := by
  obtain ⟨h, h1, h2⟩ := hash_is_fnv1a x
  simp only [names, h1, h2]

end Srl.Cost

namespace Srl.Lax
open PJson Doc

/-- Documents of the grammar are accepted, with the name of the root. -/
theorem document_named {m : Mem} (strtod : Bytes → Option UInt64) (hm : m.Sane) (old : Rd) {s u t n : Bytes} {k : ScopeTy}
    {is : List Item} (h1 : Token (wordOf strtod) none none false s ⟨n, .scope k⟩ u) (h2 : Scope (wordOf strtod) k u is t)
    (hu : UOk s) (hd : Props.nesting is ≤ maxDepth) :
    ∃ r, loadWith m strtod old s = .ok (⟨n, .mk k (Props.keptValues is) (Props.keptNodes is)⟩, r, t) := by
  obtain ⟨r1, g1, g2, g3, g4⟩ := token_read strtod hm h1 hu old.clear rfl
  simp only [after] at g2
  obtain ⟨r2, f1, _⟩ := scope_read strtod hm h2 g4 r1 0 (s.length + 1) (by rw [g2]; rfl) (by omega) (by omega)
  refine ⟨r2, ?_⟩
  unfold loadWith Doc.load
  rw [g1]
  simp only [Res.ok_bind, f1]

end Srl.Lax
