import Verif.Props.MemorySpec
import Verif.Lemmas.Depth
import Verif.Lemmas.Base64

/-! How much is read from a document (C84). -/

namespace Srl.Props.Room
open Typed Doc

variable {σ : Type}

/-- What a value counts for -/
def itemV (own : Bool) (p : Bytes × Val) : Nat := 1 + valBytes p.2 + nameBytes own p.1

/-- What a node counts for -/
def itemN (own : Bool) (p : Bytes × Node) : Nat := nameBytes own p.1 + size own p.2

theorem sizes_eq (own : Bool) : ∀ ns : List (Bytes × Node), sizes own ns = (ns.map (itemN own)).sum
  | [] => rfl
  | (nm, n) :: ns => by rw [sizes, sizes_eq own ns]; rfl

/-- What the content of a node counts for -/
def content (own : Bool) (vs : List (Bytes × Val)) (ns : List (Bytes × Node)) : Nat :=
  (vs.map (itemV own)).sum + (ns.map (itemN own)).sum

theorem size_eq (own : Bool) (t : ScopeTy) (vs : List (Bytes × Val)) (ns : List (Bytes × Node)) :
    size own (.mk t vs ns) = 1 + content own vs ns := by
  rw [size, sizes_eq, content, ← Nat.add_assoc]; rfl

/-- Tokens are paid for by what is taken from the source. -/
def Pays (own : Bool) (read : σ → Res (Event × σ)) (μ : σ → Nat) : Prop :=
  ∀ s e s', read s = .ok (e, s') → gain own e + μ s' ≤ μ s

section
variable {own : Bool} {read : σ → Res (Event × σ)} {μ : σ → Nat} (hp : Pays own read μ)
include hp

theorem scope_paid : ∀ (fuel depth : Nat) (s : σ) (vs : List (Bytes × Val)) (ns : List (Bytes × Node)) (s' : σ),
    readScope read fuel depth s = .ok ((vs, ns), s') → content own vs ns + μ s' ≤ μ s
  | 0, _, _, _, _, _, h => by cases h
  | fuel + 1, depth, s, vs, ns, s', h => by
    rw [readScope, Res.bind_eq_ok] at h
    obtain ⟨⟨⟨nm, tok⟩, s1⟩, h1, h⟩ := h
    have g := hp _ _ _ h1
    cases tok with
    | scopeEnd =>
      cases h
      simp only [gain, content, List.map_nil, List.sum_nil] at *
      exact g
    | val v =>
      simp only [Res.bind_eq_ok] at h
      obtain ⟨⟨⟨vs1, ns1⟩, s2⟩, h2, h⟩ := h
      cases h
      have := scope_paid fuel depth s1 _ _ _ h2
      simp only [gain, content, itemV, List.map_cons, List.sum_cons] at *
      omega
    | scope t =>
      simp only at h
      split at h
      · cases h
      · simp only [Res.bind_eq_ok] at h
        obtain ⟨⟨⟨vs1, ns1⟩, s2⟩, h2, ⟨⟨vs2, ns2⟩, s3⟩, h3, h⟩ := h
        cases h
        have a := scope_paid fuel _ s1 _ _ _ h2
        have b := scope_paid fuel _ s2 _ _ _ h3
        have e : ∀ x, itemN own (nm, .mk t vs1 ns1) = x → x = nameBytes own nm + (1 + content own vs1 ns1) := by
          intro x hx; rw [← hx, itemN, size_eq]
        have e := e _ rfl
        simp only [gain, content, List.map_cons, List.sum_cons] at *
        omega

theorem load_paid {fuel : Nat} {s s' : σ} {r : Root} (h : load read fuel s = .ok (r, s')) :
    nameBytes own r.name + size own r.node + μ s' ≤ μ s := by
  rw [load, Res.bind_eq_ok] at h
  obtain ⟨⟨⟨nm, tok⟩, s1⟩, h1, h⟩ := h
  have g := hp _ _ _ h1
  cases tok with
  | scopeEnd => cases h
  | val v => cases h
  | scope t =>
    simp only [Res.bind_eq_ok] at h
    obtain ⟨⟨⟨vs1, ns1⟩, s2⟩, h2, h⟩ := h
    cases h
    have := scope_paid hp _ _ _ _ _ _ h2
    simp only [gain, size_eq] at *
    omega

theorem read_less {s s' : σ} {e : Event} (h : read s = .ok (e, s')) : μ s' ≤ μ s := by
  have := hp _ _ _ h; omega

theorem skip_paid : ∀ (fuel : Nat) (depth : Int) (s s' : σ), skipScope read fuel depth s = .ok s' → μ s' ≤ μ s
  | 0, _, _, _, h => by cases h
  | fuel + 1, depth, s, s', h => by
    rw [skipScope, Res.bind_eq_ok] at h
    obtain ⟨⟨⟨nm, tok⟩, s1⟩, h1, h⟩ := h
    have g := read_less hp h1
    cases tok with
    | scope t => exact Nat.le_trans (skip_paid fuel _ _ _ h) g
    | val v => exact Nat.le_trans (skip_paid fuel _ _ _ h) g
    | scopeEnd =>
      simp only at h
      split at h
      · cases h; exact g
      · exact Nat.le_trans (skip_paid fuel _ _ _ h) g

theorem finish_paid {fuel : Nat} {n : LNode} {s s' : σ} (h : finish read fuel n s = .ok s') : μ s' ≤ μ s := by
  rw [finish] at h
  split at h
  · cases h; exact Nat.le_refl _
  · exact skip_paid hp _ _ _ _ h

/-- What a node being read holds, with itself -/
def held (own : Bool) (n : LNode) : Nat := 1 + content own n.values n.nodes

omit hp in
theorem held_pos (own : Bool) (n : LNode) : 1 ≤ held own n := by unfold held; omega

omit hp in
theorem held_addValue (n : LNode) (nm : Bytes) (v : Val) :
    held own (n.addValue nm v) = held own n + itemV own (nm, v) := by
  simp only [held, LNode.addValue, content, List.map_append, List.map_cons, List.map_nil, List.sum_append, List.sum_cons,
    List.sum_nil]
  omega

omit hp in
theorem held_addNode (n : LNode) (nm : Bytes) (x : Node) :
    held own (n.addNode nm x) = held own n + itemN own (nm, x) := by
  simp only [held, LNode.addNode, content, List.map_append, List.map_cons, List.map_nil, List.sum_append, List.sum_cons,
    List.sum_nil]
  omega

theorem seekNode_paid : ∀ (fuel : Nat) (sel : Sel) (n : LNode) (s : σ) (r : Option (Bytes × ScopeTy)) (n' : LNode) (s' : σ),
    seekNode read fuel sel n s = .ok (r, n', s') → μ s' ≤ μ s ∧
      r.elim 0 (fun x => 1 + nameBytes own x.1) + held own n' + μ s' ≤ held own n + μ s
  | 0, _, _, _, _, _, _, h => by cases h
  | fuel + 1, sel, n, s, r, n', s', h => by
    rw [seekNode] at h
    split at h
    · cases h; simp
    · rw [Res.bind_eq_ok] at h
      obtain ⟨⟨⟨nm, tok⟩, s1⟩, h1, h⟩ := h
      have g := hp _ _ _ h1
      cases tok with
      | scopeEnd => cases h; simp only [gain, held, Option.elim] at *; omega
      | val v =>
        obtain ⟨a, b⟩ := seekNode_paid fuel _ _ _ _ _ _ h
        rw [held_addValue] at b
        simp only [gain, itemV] at *
        omega
      | scope t =>
        simp only at h
        split at h
        · cases h; simp only [gain, Option.elim] at *; omega
        · simp only [Res.bind_eq_ok] at h
          obtain ⟨⟨⟨vs1, ns1⟩, s2⟩, h2, h⟩ := h
          obtain ⟨a, b⟩ := seekNode_paid fuel _ _ _ _ _ _ h
          have c := scope_paid hp _ _ _ _ _ _ h2
          rw [held_addNode, itemN, size_eq] at b
          simp only [gain] at *
          omega

theorem seekValue_paid : ∀ (fuel : Nat) (sel : Sel) (n : LNode) (s : σ) (r : Option (Bytes × Val)) (n' : LNode) (s' : σ),
    seekValue read fuel sel n s = .ok (r, n', s') → μ s' ≤ μ s ∧
      r.elim 0 (itemV own) + held own n' + μ s' ≤ held own n + μ s
  | 0, _, _, _, _, _, _, h => by cases h
  | fuel + 1, sel, n, s, r, n', s', h => by
    rw [seekValue] at h
    split at h
    · cases h; simp
    · rw [Res.bind_eq_ok] at h
      obtain ⟨⟨⟨nm, tok⟩, s1⟩, h1, h⟩ := h
      have g := hp _ _ _ h1
      cases tok with
      | scopeEnd => cases h; simp only [gain, held, Option.elim] at *; omega
      | val v =>
        simp only at h
        split at h
        · cases h; simp only [gain, itemV, Option.elim] at *; omega
        · obtain ⟨a, b⟩ := seekValue_paid fuel _ _ _ _ _ _ h
          rw [held_addValue] at b
          simp only [gain, itemV] at *
          omega
      | scope t =>
        simp only [Res.bind_eq_ok] at h
        obtain ⟨⟨⟨vs1, ns1⟩, s2⟩, h2, h⟩ := h
        obtain ⟨a, b⟩ := seekValue_paid fuel _ _ _ _ _ _ h
        have c := scope_paid hp _ _ _ _ _ _ h2
        rw [held_addNode, itemN, size_eq] at b
        simp only [gain] at *
        omega

theorem seekItem_paid : ∀ (fuel : Nat) (name : Bytes) (n : LNode) (s : σ) (r : Option Bool) (n' : LNode) (s' : σ),
    seekItem read fuel name n s = .ok (r, n', s') → μ s' ≤ μ s ∧ held own n' + μ s' ≤ held own n + μ s
  | 0, _, _, _, _, _, _, h => by cases h
  | fuel + 1, name, n, s, r, n', s', h => by
    rw [seekItem] at h
    split at h
    · cases h; simp
    · rw [Res.bind_eq_ok] at h
      obtain ⟨⟨⟨nm, tok⟩, s1⟩, h1, h⟩ := h
      have g := hp _ _ _ h1
      cases tok with
      | scopeEnd => cases h; simp only [gain, held, Option.elim] at *; omega
      | val v =>
        simp only at h
        split at h
        · cases h; rw [held_addValue]; simp only [gain, itemV] at *; omega
        · obtain ⟨a, b⟩ := seekItem_paid fuel _ _ _ _ _ _ h
          rw [held_addValue] at b
          simp only [gain, itemV] at *
          omega
      | scope t =>
        simp only [Res.bind_eq_ok] at h
        obtain ⟨⟨⟨vs1, ns1⟩, s2⟩, h2, h⟩ := h
        have c := scope_paid hp _ _ _ _ _ _ h2
        split at h
        · cases h; rw [held_addNode, itemN, size_eq]; simp only [gain, Option.elim] at *; omega
        · obtain ⟨a, b⟩ := seekItem_paid fuel _ _ _ _ _ _ h
          rw [held_addNode, itemN, size_eq] at b
          simp only [gain] at *
          omega

theorem has_paid {fuel : Nat} {node : Bool} {name : Bytes} {n n' : LNode} {s s' : σ} {b : Bool}
    (h : has read fuel node name n s = .ok (b, n', s')) : μ s' ≤ μ s ∧ held own n' + μ s' ≤ held own n + μ s := by
  rw [has] at h
  split at h
  · cases h; simp
  · split at h
    · cases h; simp
    · split at h
      · cases h; simp
      · rw [Res.bind_eq_ok] at h
        obtain ⟨⟨r, n1, s1⟩, h1, h⟩ := h
        cases h
        exact seekItem_paid hp _ _ _ _ _ _ _ h1

omit hp in
theorem takeOut_sum {α : Type} (w : Bytes × α → Nat) : ∀ {sel : Sel} {xs rest : List (Bytes × α)} {y : Bytes × α},
    takeOut sel xs = some (y, rest) → (xs.map w).sum = w y + (rest.map w).sum
  | .index _, [], _, _, h => by cases h
  | .index _, x :: xs, _, _, h => by cases h; rfl
  | .name _, [], _, _, h => by cases h
  | .name n, x :: xs, rest, y, h => by
    rw [takeOut] at h
    split at h
    · cases h; rfl
    · split at h
      · rename_i y1 ys h1
        cases h
        have := takeOut_sum w h1
        simp only [List.map_cons, List.sum_cons, this]
        omega
      · cases h

theorem consumeNode_paid {fuel : Nat} {sel : Sel} {n n' : LNode} {s s' : σ} {r : Option (Bytes × LNode)}
    (h : consumeNode read fuel sel n s = .ok (r, n', s')) : μ s' ≤ μ s ∧
      r.elim 0 (fun x => held own x.2 + nameBytes own x.1) + held own n' + μ s' ≤ held own n + μ s := by
  rw [consumeNode] at h
  split at h
  · rename_i nm t vs ns rest h1
    cases h
    have := takeOut_sum (itemN own) h1
    rw [itemN, size_eq] at this
    simp only [held, content, Option.elim] at *
    omega
  · rw [Res.bind_eq_ok] at h
    obtain ⟨⟨r1, n1, s1⟩, h1, h⟩ := h
    cases h
    have := seekNode_paid hp _ _ _ _ _ _ _ h1
    cases r1 with
    | none => exact this
    | some x =>
      have e : held own (LNode.fresh x.2) = 1 := rfl
      simp only [Option.map_some, Option.elim, e] at *
      exact this

theorem consumeValue_paid {fuel : Nat} {sel : Sel} {n n' : LNode} {s s' : σ} {r : Option (Bytes × Val)}
    (h : consumeValue read fuel sel n s = .ok (r, n', s')) : μ s' ≤ μ s ∧
      r.elim 0 (itemV own) + held own n' + μ s' ≤ held own n + μ s := by
  rw [consumeValue] at h
  split at h
  · rename_i v rest h1
    cases h
    have := takeOut_sum (itemV own) h1
    simp only [held, content, Option.elim] at *
    omega
  · exact seekValue_paid hp _ _ _ _ _ _ _ h

end

end Srl.Props.Room
