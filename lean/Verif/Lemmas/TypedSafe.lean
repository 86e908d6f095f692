import Verif.Lemmas.TypedMain

/-! Restoring has no undefined behaviour and ends, whatever the reader reads. -/

namespace Srl

/-- Success with a result as said, or an exception. -/
def Sound {α : Type} (r : Res α) (Q : α → Prop) : Prop :=
  match r with
  | .ok a => Q a
  | .err => True
  | .ub => False
  | .fuel => False

theorem Sound.bind {α β : Type} {r : Res α} {f : α → Res β} {Q : α → Prop} {R : β → Prop}
    (h : Sound r Q) (hf : ∀ a, Q a → Sound (f a) R) : Sound (r >>= f) R := by
  cases r with
  | ok a => exact hf a h
  | err => trivial
  | ub => exact h.elim
  | fuel => exact h.elim

theorem Sound.mono {α : Type} {r : Res α} {Q R : α → Prop} (h : Sound r Q) (hf : ∀ a, Q a → R a) :
    Sound r R := by
  cases r with
  | ok a => exact hf a h
  | err => trivial
  | ub => exact h.elim
  | fuel => exact h.elim

theorem Sound.iff {α : Type} {r : Res α} {Q : α → Prop} :
    Sound r Q ↔ r ≠ .ub ∧ r ≠ .fuel ∧ ∀ a, r = .ok a → Q a := by
  cases r <;> simp [Sound]

namespace Typed
open Doc

variable {σ : Type}

/-- What a reader is like: nothing undefined happens in the states `P`, every token is progress, and values
satisfy `G`. -/
def Reads (read : σ → Res (Event × σ)) (G : Val → Prop) (P : σ → Prop) (μ : σ → Nat) : Prop :=
  ∀ s, P s → Sound (read s) fun x => P x.2 ∧ μ x.2 < μ s ∧ ∀ v, x.1.tok = .val v → G v

mutual
/-- All values of a node satisfy `G`. -/
def NodeGood (G : Val → Prop) : Node → Prop
  | .mk _ vs ns => (∀ p ∈ vs, G p.2) ∧ NodesGood G ns
def NodesGood (G : Val → Prop) : List (Bytes × Node) → Prop
  | [] => True
  | (_, n) :: ns => NodeGood G n ∧ NodesGood G ns
end

theorem nodesGood_iff {G : Val → Prop} {ns : List (Bytes × Node)} :
    NodesGood G ns ↔ ∀ p ∈ ns, NodeGood G p.2 := by
  induction ns with
  | nil => simp [NodesGood]
  | cons x ns ih => simp [NodesGood, ih]

mutual
/-- Number of values and scopes in a node, itself included. -/
def nodeSize : Node → Nat
  | .mk _ vs ns => 1 + vs.length + nodesSize ns
def nodesSize : List (Bytes × Node) → Nat
  | [] => 0
  | (_, n) :: ns => nodeSize n + nodesSize ns
end

theorem nodesSize_append (xs ys : List (Bytes × Node)) : nodesSize (xs ++ ys) = nodesSize xs + nodesSize ys := by
  induction xs with
  | nil => simp [nodesSize]
  | cons x xs ih => simp [nodesSize, ih]; omega

/-- The same for what has been read of a node. -/
def lsize (n : LNode) : Nat := n.values.length + nodesSize n.nodes

theorem lsize_addValue (n : LNode) (nm : Bytes) (v : Val) : lsize (n.addValue nm v) = lsize n + 1 := by
  simp [lsize, LNode.addValue]; omega

theorem lsize_addNode (n : LNode) (nm : Bytes) (t : ScopeTy) (vs : List (Bytes × Val))
    (ns : List (Bytes × Node)) :
    lsize (n.addNode nm (.mk t vs ns)) = lsize n + 1 + vs.length + nodesSize ns := by
  simp [lsize, LNode.addNode, nodesSize_append, nodesSize, nodeSize]; omega

def LGood (G : Val → Prop) (n : LNode) : Prop :=
  (∀ p ∈ n.values, G p.2) ∧ ∀ p ∈ n.nodes, NodeGood G p.2

/-- A node read to its end, or not at all. -/
def Start (n : LNode) : Prop := n.parsed = true ∨ (n.values = [] ∧ n.nodes = [])

section
variable {G : Val → Prop} {P : σ → Prop} {μ : σ → Nat} {read : σ → Res (Event × σ)}

theorem readScope_good (hr : Reads read G P μ) : ∀ (fuel d : Nat) (s : σ), P s → μ s < fuel →
    Sound (readScope read fuel d s) fun x =>
      (∀ p ∈ x.1.1, G p.2) ∧ (∀ p ∈ x.1.2, NodeGood G p.2) ∧ P x.2 ∧
        μ x.2 + (x.1.1.length + nodesSize x.1.2) < μ s := by
  intro fuel
  induction fuel with
  | zero => intro d s _ h; omega
  | succ fuel ih =>
    intro d s hp hm
    rw [readScope]
    refine (hr s hp).bind ?_
    rintro ⟨⟨nm, tok⟩, s1⟩ ⟨hp1, hm1, hv⟩
    simp only at hp1 hm1 hv ⊢
    cases tok with
    | scopeEnd => exact ⟨by simp, by simp, hp1, by simpa [nodesSize] using hm1⟩
    | val v =>
      refine (ih d s1 hp1 (by omega)).bind ?_
      rintro ⟨⟨vs, ns⟩, s2⟩ ⟨h1, h2, h3, h4⟩
      simp only at h1 h2 h3 h4
      refine ⟨?_, h2, h3, by simp only [List.length_cons]; omega⟩
      intro p hp
      rcases List.mem_cons.mp hp with rfl | hp
      · exact hv v rfl
      · exact h1 p hp
    | scope t =>
      simp only
      split
      · trivial
      · refine (ih (d + 1) s1 hp1 (by omega)).bind ?_
        rintro ⟨⟨vs', ns'⟩, s2⟩ ⟨h1, h2, h3, h4⟩
        simp only at h1 h2 h3 h4
        refine (ih d s2 h3 (by omega)).bind ?_
        rintro ⟨⟨vs, ns⟩, s3⟩ ⟨h5, h6, h7, h8⟩
        simp only at h5 h6 h7 h8
        refine ⟨h5, ?_, h7, by simp only [nodesSize, nodeSize]; omega⟩
        intro p hp
        rcases List.mem_cons.mp hp with rfl | hp
        · exact ⟨h1, nodesGood_iff.mpr h2⟩
        · exact h6 p hp

theorem LGood.addValue {n : LNode} (h : LGood G n) (nm : Bytes) {v : Val} (hv : G v) :
    LGood G (n.addValue nm v) := by
  refine ⟨?_, h.2⟩
  intro p hp
  simp only [LNode.addValue, List.mem_append, List.mem_singleton] at hp
  rcases hp with hp | rfl
  · exact h.1 p hp
  · exact hv

theorem LGood.addNode {n : LNode} (h : LGood G n) (nm : Bytes) {t : ScopeTy} {vs : List (Bytes × Val)}
    {ns : List (Bytes × Node)} (h1 : ∀ p ∈ vs, G p.2) (h2 : ∀ p ∈ ns, NodeGood G p.2) :
    LGood G (n.addNode nm (.mk t vs ns)) := by
  refine ⟨h.1, ?_⟩
  intro p hp
  simp only [LNode.addNode, List.mem_append, List.mem_singleton] at hp
  rcases hp with hp | rfl
  · exact h.2 p hp
  · exact ⟨h1, nodesGood_iff.mpr h2⟩

theorem seekNode_good (hr : Reads read G P μ) : ∀ (fuel : Nat) (sel : Sel) (n : LNode) (s : σ), LGood G n →
    P s → μ s < fuel → Sound (seekNode read fuel sel n s) fun x =>
      LGood G x.2.1 ∧ P x.2.2 ∧ μ x.2.2 ≤ μ s ∧ (x.1 = none → x.2.1.parsed = true) ∧
      (x.1.isSome = true → μ x.2.2 < μ s) ∧ ((∃ i, sel = .index i) → x.2.1.nodes = n.nodes) ∧
      μ x.2.2 + lsize x.2.1 ≤ μ s + lsize n := by
  intro fuel
  induction fuel with
  | zero => intro sel n s _ _ h; omega
  | succ fuel ih =>
    intro sel n s hn hp hm
    rw [seekNode]
    split
    · rename_i h
      exact ⟨hn, hp, Nat.le_refl _, fun _ => h, by simp, fun _ => rfl, Nat.le_refl _⟩
    refine (hr s hp).bind ?_
    rintro ⟨⟨nm, tok⟩, s1⟩ ⟨hp1, hm1, hv⟩
    simp only at hp1 hm1 hv ⊢
    cases tok with
    | scopeEnd => exact ⟨hn, hp1, by simp only; omega, fun _ => rfl, by simp, fun _ => rfl, by
        simp only [lsize]; omega⟩
    | scope t =>
      simp only
      split
      · exact ⟨hn, hp1, by simp only; omega, by simp, fun _ => hm1, fun _ => rfl, by simp only; omega⟩
      · rename_i hh
        refine (readScope_good hr fuel 0 s1 hp1 (by omega)).bind ?_
        rintro ⟨⟨vs, ns⟩, s2⟩ ⟨h1, h2, h3, h4⟩
        simp only at h1 h2 h3 h4
        refine (ih sel (n.addNode nm (.mk t vs ns)) s2 (hn.addNode nm h1 h2) h3 (by omega)).mono ?_
        rintro x ⟨h5, h6, h7, h8, h9, h10, h11⟩
        rw [lsize_addNode] at h11
        refine ⟨h5, h6, by omega, h8, fun h => by have := h9 h; omega, ?_, by omega⟩
        rintro ⟨i, rfl⟩
        simp [Sel.hits] at hh
    | val v =>
      refine (ih sel (n.addValue nm v) s1 (hn.addValue nm (hv v rfl)) hp1 (by omega)).mono ?_
      rintro x ⟨h5, h6, h7, h8, h9, h10, h11⟩
      rw [lsize_addValue] at h11
      exact ⟨h5, h6, by omega, h8, fun h => by have := h9 h; omega, fun h => h10 h, by omega⟩

theorem seekValue_good (hr : Reads read G P μ) : ∀ (fuel : Nat) (sel : Sel) (n : LNode) (s : σ),
    LGood G n → P s → μ s < fuel → Sound (seekValue read fuel sel n s) fun x =>
      LGood G x.2.1 ∧ P x.2.2 ∧ μ x.2.2 ≤ μ s ∧ (x.1 = none → x.2.1.parsed = true) ∧
      (x.1.isSome = true → μ x.2.2 < μ s) ∧ (∀ v, x.1 = some v → G v.2) ∧
      ((∃ i, sel = .index i) → x.2.1.values = n.values) ∧
      μ x.2.2 + lsize x.2.1 ≤ μ s + lsize n := by
  intro fuel
  induction fuel with
  | zero => intro sel n s _ _ h; omega
  | succ fuel ih =>
    intro sel n s hn hp hm
    rw [seekValue]
    split
    · rename_i h
      exact ⟨hn, hp, Nat.le_refl _, fun _ => h, by simp, by simp, fun _ => rfl, Nat.le_refl _⟩
    refine (hr s hp).bind ?_
    rintro ⟨⟨nm, tok⟩, s1⟩ ⟨hp1, hm1, hv⟩
    simp only at hp1 hm1 hv ⊢
    cases tok with
    | scopeEnd => exact ⟨hn, hp1, by simp only; omega, fun _ => rfl, by simp, by simp, fun _ => rfl, by
        simp only [lsize]; omega⟩
    | scope t =>
      simp only
      refine (readScope_good hr fuel 0 s1 hp1 (by omega)).bind ?_
      rintro ⟨⟨vs, ns⟩, s2⟩ ⟨h1, h2, h3, h4⟩
      simp only at h1 h2 h3 h4
      refine (ih sel (n.addNode nm (.mk t vs ns)) s2 (hn.addNode nm h1 h2) h3 (by omega)).mono ?_
      rintro x ⟨h5, h6, h7, h8, h9, h10, h11, h12⟩
      rw [lsize_addNode] at h12
      exact ⟨h5, h6, by omega, h8, fun h => by have := h9 h; omega, h10, fun h => h11 h, by omega⟩
    | val v =>
      simp only
      split
      · refine ⟨hn, hp1, by simp only; omega, by simp, fun _ => hm1, ?_, fun _ => rfl, by simp only; omega⟩
        intro v' h
        cases h
        exact hv v rfl
      · rename_i hh
        refine (ih sel (n.addValue nm v) s1 (hn.addValue nm (hv v rfl)) hp1 (by omega)).mono ?_
        rintro x ⟨h5, h6, h7, h8, h9, h10, h11, h12⟩
        rw [lsize_addValue] at h12
        refine ⟨h5, h6, by omega, h8, fun h => by have := h9 h; omega, h10, ?_, by omega⟩
        rintro ⟨i, rfl⟩
        simp [Sel.hits] at hh

theorem takeOut_good {α : Type} {Q : α → Prop} : ∀ {sel : Sel} {xs rest : List (Bytes × α)} {y : Bytes × α},
    (∀ p ∈ xs, Q p.2) → takeOut sel xs = some (y, rest) → Q y.2 ∧ ∀ p ∈ rest, Q p.2
  | .index _, [], _, _, _, h => by simp [takeOut] at h
  | .index _, x :: xs, _, _, hq, h => by
    simp only [takeOut, Option.some.injEq, Prod.mk.injEq] at h
    obtain ⟨rfl, rfl⟩ := h
    exact ⟨hq x (by simp), fun p hp => hq p (by simp [hp])⟩
  | .name _, [], _, _, _, h => by simp [takeOut] at h
  | .name n, x :: xs, rest, y, hq, h => by
    rw [takeOut] at h
    split at h
    · simp only [Option.some.injEq, Prod.mk.injEq] at h
      obtain ⟨rfl, rfl⟩ := h
      exact ⟨hq x (by simp), fun p hp => hq p (by simp [hp])⟩
    · split at h
      · rename_i y' ys heq
        simp only [Option.some.injEq, Prod.mk.injEq] at h
        obtain ⟨rfl, rfl⟩ := h
        obtain ⟨h1, h2⟩ := takeOut_good (fun p hp => hq p (by simp [hp])) heq
        refine ⟨h1, ?_⟩
        intro p hp
        rcases List.mem_cons.mp hp with rfl | hp
        · exact hq p (by simp)
        · exact h2 p hp
      · cases h

theorem takeOut_length {α : Type} : ∀ {sel : Sel} {xs rest : List (Bytes × α)} {y : Bytes × α},
    takeOut sel xs = some (y, rest) → xs.length = rest.length + 1
  | .index _, [], _, _, h => by simp [takeOut] at h
  | .index _, x :: xs, _, _, h => by
    simp only [takeOut, Option.some.injEq, Prod.mk.injEq] at h
    rw [← h.2, List.length_cons]
  | .name _, [], _, _, h => by simp [takeOut] at h
  | .name n, x :: xs, rest, y, h => by
    rw [takeOut] at h
    split at h
    · simp only [Option.some.injEq, Prod.mk.injEq] at h
      rw [← h.2, List.length_cons]
    · split at h
      · rename_i y' ys heq
        simp only [Option.some.injEq, Prod.mk.injEq] at h
        rw [← h.2, List.length_cons, List.length_cons, takeOut_length heq]
      · cases h

theorem takeOut_nodes : ∀ {sel : Sel} {xs rest : List (Bytes × Node)} {y : Bytes × Node},
    takeOut sel xs = some (y, rest) → nodesSize xs = nodeSize y.2 + nodesSize rest
  | .index _, [], _, _, h => by simp [takeOut] at h
  | .index _, x :: xs, _, _, h => by
    simp only [takeOut, Option.some.injEq, Prod.mk.injEq] at h
    rw [← h.1, ← h.2, nodesSize]
  | .name _, [], _, _, h => by simp [takeOut] at h
  | .name n, x :: xs, rest, y, h => by
    rw [takeOut] at h
    split at h
    · simp only [Option.some.injEq, Prod.mk.injEq] at h
      rw [← h.1, ← h.2, nodesSize]
    · split at h
      · rename_i y' ys heq
        simp only [Option.some.injEq, Prod.mk.injEq] at h
        rw [← h.1, ← h.2, nodesSize, nodesSize, takeOut_nodes heq]
        omega
      · cases h

theorem consumeNode_good (hr : Reads read G P μ) (fuel : Nat) (sel : Sel) (n : LNode) (s : σ)
    (hn : LGood G n) (hp : P s) (hm : μ s < fuel) : Sound (consumeNode read fuel sel n s) fun x =>
      LGood G x.2.1 ∧ P x.2.2 ∧ μ x.2.2 ≤ μ s ∧ (x.1 = none → x.2.1.parsed = true) ∧
      (∀ c, x.1 = some c → LGood G c.2 ∧ Start c.2) ∧
      ((∃ i, sel = .index i) → n.nodes = [] → x.2.1.nodes = [] ∧ (x.1.isSome = true → μ x.2.2 < μ s)) ∧
      μ x.2.2 + lsize x.2.1 ≤ μ s + lsize n ∧ (∀ c, x.1 = some c → μ x.2.2 + lsize c.2 < μ s + lsize n) := by
  unfold consumeNode
  split
  · rename_i nm t vs ns rest heq
    obtain ⟨h1, h2⟩ := takeOut_good (Q := NodeGood G) hn.2 heq
    have hsz := takeOut_nodes heq
    refine ⟨⟨hn.1, h2⟩, hp, Nat.le_refl _, by simp, ?_, ?_, by simp only [lsize]; omega, ?_⟩
    · intro c hc
      cases hc
      exact ⟨⟨h1.1, nodesGood_iff.mp h1.2⟩, .inl rfl⟩
    · rintro ⟨i, rfl⟩ h
      rw [h] at heq
      simp [takeOut] at heq
    · intro c hc
      cases hc
      simp only [nodeSize, lsize] at hsz ⊢
      omega
  · refine (seekNode_good hr fuel sel n s hn hp hm).bind ?_
    rintro ⟨r, n', s'⟩ ⟨h1, h2, h3, h4, h5, h6, h7⟩
    refine ⟨h1, h2, h3, ?_, ?_, ?_, h7, ?_⟩
    · intro h
      exact h4 (by simpa using h)
    · intro c hc
      cases r with
      | none => cases hc
      | some t =>
        cases hc
        exact ⟨⟨by simp [LNode.fresh], by simp [LNode.fresh]⟩, .inr ⟨rfl, rfl⟩⟩
    · intro hi hnil
      refine ⟨(h6 hi).trans hnil, ?_⟩
      intro h
      apply h5
      cases r with
      | none => cases h
      | some t => rfl
    · intro c hc
      cases r with
      | none => cases hc
      | some t =>
        cases hc
        have := h5 rfl
        simp only [lsize, LNode.fresh, nodesSize, List.length_nil] at this ⊢
        omega

theorem consumeValue_good (hr : Reads read G P μ) (fuel : Nat) (sel : Sel) (n : LNode) (s : σ)
    (hn : LGood G n) (hp : P s) (hm : μ s < fuel) : Sound (consumeValue read fuel sel n s) fun x =>
      LGood G x.2.1 ∧ P x.2.2 ∧ μ x.2.2 ≤ μ s ∧ (x.1 = none → x.2.1.parsed = true) ∧
      (∀ v, x.1 = some v → G v.2) ∧
      ((∃ i, sel = .index i) → n.values = [] → x.2.1.values = [] ∧ (x.1.isSome = true → μ x.2.2 < μ s)) ∧
      μ x.2.2 + lsize x.2.1 ≤ μ s + lsize n := by
  unfold consumeValue
  split
  · rename_i v rest heq
    obtain ⟨h1, h2⟩ := takeOut_good (Q := G) hn.1 heq
    have hsz := takeOut_length heq
    refine ⟨⟨h2, hn.2⟩, hp, Nat.le_refl _, by simp, ?_, ?_, by simp only [lsize]; omega⟩
    · intro c hc
      cases hc
      exact h1
    · rintro ⟨i, rfl⟩ h
      rw [h] at heq
      simp [takeOut] at heq
  · refine (seekValue_good hr fuel sel n s hn hp hm).mono ?_
    rintro ⟨r, n', s'⟩ ⟨h1, h2, h3, h4, h5, h6, h7, h8⟩
    exact ⟨h1, h2, h3, h4, h6, fun hi hnil => ⟨(h7 hi).trans hnil, h5⟩, h8⟩

theorem seekItem_good (hr : Reads read G P μ) : ∀ (fuel : Nat) (name : Bytes) (n : LNode) (s : σ),
    LGood G n → P s → μ s < fuel → Sound (seekItem read fuel name n s) fun x =>
      LGood G x.2.1 ∧ P x.2.2 ∧ μ x.2.2 ≤ μ s := by
  intro fuel
  induction fuel with
  | zero => intro name n s _ _ h; omega
  | succ fuel ih =>
    intro name n s hn hp hm
    rw [seekItem]
    split
    · exact ⟨hn, hp, Nat.le_refl _⟩
    refine (hr s hp).bind ?_
    rintro ⟨⟨nm, tok⟩, s1⟩ ⟨hp1, hm1, hv⟩
    simp only at hp1 hm1 hv ⊢
    cases tok with
    | scopeEnd => exact ⟨hn, hp1, by simp only; omega⟩
    | scope t =>
      simp only
      refine (readScope_good hr fuel 0 s1 hp1 (by omega)).bind ?_
      rintro ⟨⟨vs, ns⟩, s2⟩ ⟨h1, h2, h3, h4⟩
      simp only at h1 h2 h3 h4 ⊢
      have hn' : LGood G (n.addNode nm (.mk t vs ns)) := hn.addNode nm h1 h2
      split
      · exact ⟨hn', h3, by simp only; omega⟩
      · refine (ih name _ s2 hn' h3 (by omega)).mono ?_
        rintro x ⟨h5, h6, h7⟩
        exact ⟨h5, h6, by omega⟩
    | val v =>
      simp only
      have hn' := hn.addValue nm (hv v rfl)
      split
      · exact ⟨hn', hp1, by simp only; omega⟩
      · refine (ih name _ s1 hn' hp1 (by omega)).mono ?_
        rintro x ⟨h5, h6, h7⟩
        exact ⟨h5, h6, by omega⟩

theorem has_good (hr : Reads read G P μ) (fuel : Nat) (node : Bool) (name : Bytes) (n : LNode) (s : σ)
    (hn : LGood G n) (hp : P s) (hm : μ s < fuel) : Sound (has read fuel node name n s) fun x =>
      LGood G x.2.1 ∧ P x.2.2 ∧ μ x.2.2 ≤ μ s := by
  unfold has
  split
  · exact ⟨hn, hp, Nat.le_refl _⟩
  split
  · exact ⟨hn, hp, Nat.le_refl _⟩
  split
  · exact ⟨hn, hp, Nat.le_refl _⟩
  refine (seekItem_good hr fuel name n s hn hp hm).bind ?_
  rintro ⟨r, n', s'⟩ h
  exact h

theorem skipScope_good (hr : Reads read G P μ) : ∀ (fuel : Nat) (d : Int) (s : σ), P s → μ s < fuel →
    Sound (skipScope read fuel d s) fun s' => P s' ∧ μ s' ≤ μ s := by
  intro fuel
  induction fuel with
  | zero => intro d s _ h; omega
  | succ fuel ih =>
    intro d s hp hm
    rw [skipScope]
    refine (hr s hp).bind ?_
    rintro ⟨⟨nm, tok⟩, s1⟩ ⟨hp1, hm1, hv⟩
    simp only at hp1 hm1 hv ⊢
    have go : ∀ d, Sound (skipScope read fuel d s1) fun s' => P s' ∧ μ s' ≤ μ s := fun d =>
      (ih d s1 hp1 (by omega)).mono fun s' h => ⟨h.1, by omega⟩
    cases tok with
    | scopeEnd =>
      simp only
      split
      · exact ⟨hp1, by omega⟩
      · exact go _
    | scope t => exact go _
    | val v => exact go _

theorem finish_good (hr : Reads read G P μ) (fuel : Nat) (n : LNode) (s : σ) (hp : P s) (hm : μ s < fuel) :
    Sound (finish read fuel n s) fun s' => P s' ∧ μ s' ≤ μ s := by
  unfold finish
  split
  · exact ⟨hp, Nat.le_refl _⟩
  · exact skipScope_good hr fuel 0 s hp hm

/-! ## Restoring from nodes read to their end -/

/-- Values for which no conversion is undefined, except to binaries without `bin`. -/
def Convertible (env : Env) (bin : Bool) (v : Val) : Prop :=
  ∀ ty old, ty.Bin bin → Sound (pasteVal env ty old v) fun _ => True

theorem lookup_good {α : Type} {Q : α → Prop} {sel : Sel} {xs : List (Bytes × α)} (h : ∀ p ∈ xs, Q p.2) :
    Sound (lookup sel xs) Q := by
  cases sel with
  | name n =>
    rw [lookup]
    cases hf : findName n xs with
    | none => trivial
    | some x =>
      exact h _ (findName_mem hf)
  | index i =>
    rw [lookup]
    cases hf : xs[i]? with
    | none => trivial
    | some x => exact h _ (List.mem_of_getElem? hf)

theorem mapRes_good {α β : Type} {f : α → Res β} : ∀ {xs : List α},
    (∀ x ∈ xs, Sound (f x) fun _ => True) → Sound (mapRes f xs) fun _ => True
  | [], _ => trivial
  | x :: xs, h => by
    rw [mapRes]
    refine (h x (by simp)).bind fun y _ => ?_
    exact (mapRes_good fun x hx => h x (by simp [hx])).bind fun ys _ => trivial

theorem zipRes_good {α : Type} {f : Obj → α → Res Obj} : ∀ {os : List Obj} {xs : List α},
    xs.length = os.length → (∀ o ∈ os, ∀ x ∈ xs, Sound (f o x) fun _ => True) →
    Sound (zipRes f os xs) fun _ => True
  | os, [], _, _ => by
    cases os <;> trivial
  | [], _ :: _, h, _ => by cases h
  | o :: os, x :: xs, hl, h => by
    rw [zipRes]
    refine (h o (by simp) x (by simp)).bind fun y _ => ?_
    exact (zipRes_good (by simpa using hl) fun o ho x hx => h o (by simp [ho]) x (by simp [hx])).bind
      fun ys _ => trivial

mutual
theorem pasteNode_good (env : Env) {bin : Bool} : ∀ (ty : Ty) (old : Obj) (n : Node), ty.isScope = true →
    ty.Bin bin → WT ty old →
    NodeGood (Convertible env bin) n → Sound (pasteNode env ty old n) fun _ => True
  | .vec e, old, .mk t vs ns, _, hb, hw, hn => by
    simp only [pasteNode]
    have hns := nodesGood_iff.mp hn.2
    split
    · rename_i hs
      exact (mapRes_good fun p hp => pasteNode_good env e (dflt e) p.2 hs hb (dflt_wt e) (hns p hp)).bind
        fun _ _ => trivial
    · exact (mapRes_good fun p hp => hn.1 p hp e (dflt e) hb).bind fun _ _ => trivial
  | .named e, old, .mk t vs ns, _, hb, hw, hn => by
    simp only [pasteNode]
    have hns := nodesGood_iff.mp hn.2
    split
    · trivial
    split
    · rename_i hs
      refine (mapRes_good ?_).bind fun _ _ => trivial
      intro p hp
      exact (pasteNode_good env e (dflt e) p.2 hs hb (dflt_wt e) (hns p hp)).bind fun _ _ => trivial
    · refine (mapRes_good ?_).bind fun _ _ => trivial
      intro p hp
      exact (hn.1 p hp e (dflt e) hb).bind fun _ _ => trivial
  | .arr k e, old, .mk t vs ns, _, hb, hw, hn => by
    have hns := nodesGood_iff.mp hn.2
    cases old with
    | many os =>
      obtain ⟨hl, hw⟩ := hw
      simp only [pasteNode]
      split
      · rename_i hs
        split
        · trivial
        · rename_i hk
          exact (zipRes_good (by omega) fun o ho p hp =>
            pasteNode_good env e o p.2 hs hb (hw o ho) (hns p hp)).bind fun _ _ => trivial
      · split
        · trivial
        · rename_i hk
          exact (zipRes_good (by omega) fun o ho p hp => hn.1 p hp e o hb).bind fun _ _ => trivial
    | _ => cases hw
  | .record _ st fs, old, .mk t vs ns, _, hb, hw, hn => by
    cases old with
    | many os =>
      simp only [pasteNode]
      split
      · trivial
      · exact (pasteFields_good env fs os 0 0 vs ns hb hw hn.1 (nodesGood_iff.mp hn.2)).bind fun _ _ => trivial
    | _ => cases hw
  | .ptr k e, old, n, hs, hb, hw, hn => by
    simp only [pasteNode]
    exact (pasteNode_good env e (dflt e) n hs hb (dflt_wt e) hn).bind fun _ _ => trivial
  | .sorted b c, old, n, hs, hb, hw, hn => by
    simp only [pasteNode]
    exact (pasteNode_good env c (dflt c) n hs hb (dflt_wt c) hn).bind fun _ _ => trivial
  | .bytes, _, _, h, _, _, _ => by cases h
  | .bool, _, _, h, _, _, _ => by cases h
  | .int _, _, _, h, _, _, _ => by cases h
  | .float, _, _, h, _, _, _ => by cases h
  | .double, _, _, h, _, _, _ => by cases h
  | .str, _, _, h, _, _, _ => by cases h
theorem pasteFields_good (env : Env) {bin : Bool} : ∀ (fs : Fields) (os : List Obj) (ni vi : Nat)
    (vs : List (Bytes × Val)) (ns : List (Bytes × Node)), fs.Bin bin → WTL fs os →
    (∀ p ∈ vs, Convertible env bin p.2) → (∀ p ∈ ns, NodeGood (Convertible env bin) p.2) →
    Sound (pasteFields env fs os ni vi vs ns) fun _ => True
  | .nil, os, ni, vi, vs, ns, _, _, _, _ => by
    simp only [pasteFields]
    trivial
  | .cons _ _ _ _, [], _, _, _, _, _, hw, _, _ => by cases hw
  | .cons name opt ty rest, o :: os, ni, vi, vs, ns, hb, hw, hv, hn => by
    obtain ⟨h1, h2⟩ := hw
    obtain ⟨hb1, hb2⟩ := hb
    simp only [pasteFields]
    split
    · rename_i hs
      split
      · exact (pasteFields_good env rest os ni vi vs ns hb2 h2 hv hn).bind fun _ _ => trivial
      · refine (lookup_good (Q := NodeGood (Convertible env bin)) hn).bind fun c hc => ?_
        refine (pasteNode_good env ty o c hs hb1 h1 hc).bind fun _ _ => ?_
        exact (pasteFields_good env rest os (ni + 1) vi vs ns hb2 h2 hv hn).bind fun _ _ => trivial
    · split
      · exact (pasteFields_good env rest os ni vi vs ns hb2 h2 hv hn).bind fun _ _ => trivial
      · refine (lookup_good (Q := Convertible env bin) hv).bind fun c hc => ?_
        refine (hc ty o hb1).bind fun _ _ => ?_
        exact (pasteFields_good env rest os ni (vi + 1) vs ns hb2 h2 hv hn).bind fun _ _ => trivial
end

/-! ## Restoring while reading -/

theorem vecNodes_good (hr : Reads read G P μ) {total : Nat} {f : Bytes × LNode → σ → Res (Obj × σ)}
    (hf : ∀ c s, LGood G c.2 → Start c.2 → P s → μ s < total →
      Sound (f c s) fun x => P x.2 ∧ μ x.2 ≤ μ s) : ∀ (fuel : Nat) (n : LNode) (s : σ), LGood G n →
    n.nodes = [] → P s → μ s < fuel → μ s < total →
    Sound (vecNodes read total f fuel n s) fun x => LGood G x.2.1 ∧ P x.2.2 ∧ μ x.2.2 ≤ μ s := by
  intro fuel
  induction fuel with
  | zero => intro n s _ _ _ h _; omega
  | succ fuel ih =>
    intro n s hn hnil hp hm ht
    rw [vecNodes]
    refine (consumeNode_good hr total (.index 0) n s hn hp ht).bind ?_
    rintro ⟨c, n', s'⟩ ⟨h1, h2, h3, h4, h5, h6, -⟩
    obtain ⟨h7, h8⟩ := h6 ⟨0, rfl⟩ hnil
    simp only at h1 h2 h3 h4 h5 h7 h8 ⊢
    split
    · exact ⟨h1, h2, h3⟩
    rename_i hnp
    cases c with
    | none => exact absurd (h4 rfl) hnp
    | some c =>
      have h9 := h8 rfl
      obtain ⟨hc1, hc2⟩ := h5 c rfl
      refine (hf c s' hc1 hc2 h2 (by omega)).bind ?_
      rintro ⟨y, s2⟩ ⟨h10, h11⟩
      simp only at h10 h11 ⊢
      refine (ih n' s2 h1 h7 h10 (by omega) (by omega)).bind ?_
      rintro ⟨ys, n3, s3⟩ ⟨h12, h13, h14⟩
      simp only at h12 h13 h14
      exact ⟨h12, h13, by simp only; omega⟩

theorem vecValues_good (hr : Reads read G P μ) {total : Nat} {f : Bytes × Val → Res Obj}
    (hf : ∀ v, G v.2 → Sound (f v) fun _ => True) : ∀ (fuel : Nat) (n : LNode) (s : σ), LGood G n →
    n.values = [] → P s → μ s < fuel → μ s < total →
    Sound (vecValues read total f fuel n s) fun x => LGood G x.2.1 ∧ P x.2.2 ∧ μ x.2.2 ≤ μ s := by
  intro fuel
  induction fuel with
  | zero => intro n s _ _ _ h _; omega
  | succ fuel ih =>
    intro n s hn hnil hp hm ht
    rw [vecValues]
    refine (consumeValue_good hr total (.index 0) n s hn hp ht).bind ?_
    rintro ⟨c, n', s'⟩ ⟨h1, h2, h3, h4, h5, h6, -⟩
    obtain ⟨h7, h8⟩ := h6 ⟨0, rfl⟩ hnil
    simp only at h1 h2 h3 h4 h5 h7 h8 ⊢
    split
    · exact ⟨h1, h2, h3⟩
    rename_i hnp
    cases c with
    | none => exact absurd (h4 rfl) hnp
    | some v =>
      have h9 := h8 rfl
      refine (hf v (h5 v rfl)).bind ?_
      intro y _
      refine (ih n' s' h1 h7 h2 (by omega) (by omega)).bind ?_
      rintro ⟨ys, n3, s3⟩ ⟨h12, h13, h14⟩
      simp only at h12 h13 h14
      exact ⟨h12, h13, by simp only; omega⟩

theorem arrNodes_good (hr : Reads read G P μ) {total : Nat} {f : Obj → LNode → σ → Res (Obj × σ)} :
    ∀ (os : List Obj), (∀ o ∈ os, ∀ c s, LGood G c → Start c → P s → μ s < total →
      Sound (f o c s) fun x => P x.2 ∧ μ x.2 ≤ μ s) → ∀ (n : LNode) (s : σ), LGood G n → P s →
    μ s < total →
    Sound (arrNodes read total f os n s) fun x => LGood G x.2.1 ∧ P x.2.2 ∧ μ x.2.2 ≤ μ s := by
  intro os
  induction os with
  | nil => intro _ n s hn hp _; exact ⟨hn, hp, Nat.le_refl _⟩
  | cons o os ih =>
    intro hf n s hn hp ht
    rw [arrNodes]
    split
    · trivial
    refine (consumeNode_good hr total (.index 0) n s hn hp ht).bind ?_
    rintro ⟨c, n', s'⟩ ⟨h1, h2, h3, h4, h5, h6, -⟩
    simp only at h1 h2 h3 h4 h5 ⊢
    cases c with
    | none => trivial
    | some c =>
      obtain ⟨hc1, hc2⟩ := h5 c rfl
      refine (hf o (by simp) c.2 s' hc1 hc2 h2 (by omega)).bind ?_
      rintro ⟨y, s2⟩ ⟨h10, h11⟩
      simp only at h10 h11 ⊢
      refine (ih (fun o ho => hf o (by simp [ho])) n' s2 h1 h10 (by omega)).bind ?_
      rintro ⟨ys, n3, s3⟩ ⟨h12, h13, h14⟩
      simp only at h12 h13 h14
      exact ⟨h12, h13, by simp only; omega⟩

theorem arrValues_good (hr : Reads read G P μ) {total : Nat} {f : Obj → Val → Res Obj}
    (hf : ∀ o v, G v → Sound (f o v) fun _ => True) : ∀ (os : List Obj) (n : LNode) (s : σ), LGood G n →
    P s → μ s < total →
    Sound (arrValues read total f os n s) fun x => LGood G x.2.1 ∧ P x.2.2 ∧ μ x.2.2 ≤ μ s := by
  intro os
  induction os with
  | nil => intro n s hn hp _; exact ⟨hn, hp, Nat.le_refl _⟩
  | cons o os ih =>
    intro n s hn hp ht
    rw [arrValues]
    split
    · trivial
    refine (consumeValue_good hr total (.index 0) n s hn hp ht).bind ?_
    rintro ⟨c, n', s'⟩ ⟨h1, h2, h3, h4, h5, h6, -⟩
    simp only at h1 h2 h3 h4 h5 ⊢
    cases c with
    | none => trivial
    | some v =>
      refine (hf o v.2 (h5 v rfl)).bind ?_
      intro y _
      refine (ih n' s' h1 h2 (by omega)).bind ?_
      rintro ⟨ys, n3, s3⟩ ⟨h12, h13, h14⟩
      simp only at h12 h13 h14
      exact ⟨h12, h13, by simp only; omega⟩

end

section
variable {env : Env} {bin : Bool} {P : σ → Prop} {μ : σ → Nat} {read : σ → Res (Event × σ)}

theorem Start.empty {n : LNode} (h : Start n) (hp : n.parsed ≠ true) : n.values = [] ∧ n.nodes = [] :=
  h.resolve_left hp

mutual
theorem paste_good (hr : Reads read (Convertible env bin) P μ) (fuel : Nat) : ∀ (ty : Ty) (old : Obj)
    (n : LNode) (s : σ), ty.isScope = true → ty.Bin bin → WT ty old → LGood (Convertible env bin) n → Start n → P s →
    μ s < fuel → Sound (paste env read fuel ty old n s) fun x =>
      LGood (Convertible env bin) x.2.1 ∧ P x.2.2 ∧ μ x.2.2 ≤ μ s
  | .vec e, old, n, s, _, hb, hw, hn, hst, hp, hm => by
    simp only [paste]
    split
    · exact (pasteNode_good env (.vec e) old (.mk n.type n.values n.nodes) rfl hb hw ⟨hn.1, nodesGood_iff.mpr hn.2⟩).bind
        fun _ _ => ⟨hn, hp, Nat.le_refl _⟩
    rename_i hnp
    obtain ⟨hv, hnn⟩ := hst.empty hnp
    split
    · rename_i hs
      refine (vecNodes_good hr ?_ fuel n s hn hnn hp hm hm).bind fun x hx => hx
      intro c s1 hc1 hc2 hp1 hm1
      refine (paste_good hr fuel e (dflt e) c.2 s1 hs hb (dflt_wt e) hc1 hc2 hp1 hm1).bind ?_
      rintro ⟨y, c', s2⟩ ⟨h1, h2, h3⟩
      simp only at h1 h2 h3 ⊢
      exact (finish_good hr fuel c' s2 h2 (by omega)).bind fun s3 h4 => ⟨h4.1, by simp only; omega⟩
    · refine (vecValues_good hr ?_ fuel n s hn hv hp hm hm).bind fun x hx => hx
      intro v hv
      exact hv e (dflt e) hb
  | .named e, old, n, s, _, hb, hw, hn, hst, hp, hm => by
    simp only [paste]
    split
    · trivial
    split
    · exact (pasteNode_good env (.named e) old (.mk n.type n.values n.nodes) rfl hb hw
        ⟨hn.1, nodesGood_iff.mpr hn.2⟩).bind fun _ _ => ⟨hn, hp, Nat.le_refl _⟩
    rename_i hnp
    obtain ⟨hv, hnn⟩ := hst.empty hnp
    split
    · rename_i hs
      refine (vecNodes_good hr ?_ fuel n s hn hnn hp hm hm).bind fun x hx => hx
      intro c s1 hc1 hc2 hp1 hm1
      refine (paste_good hr fuel e (dflt e) c.2 s1 hs hb (dflt_wt e) hc1 hc2 hp1 hm1).bind ?_
      rintro ⟨y, c', s2⟩ ⟨h1, h2, h3⟩
      simp only at h1 h2 h3 ⊢
      exact (finish_good hr fuel c' s2 h2 (by omega)).bind fun s3 h4 => ⟨h4.1, by simp only; omega⟩
    · refine (vecValues_good hr ?_ fuel n s hn hv hp hm hm).bind fun x hx => hx
      intro v hv
      exact (hv e (dflt e) hb).bind fun _ _ => trivial
  | .arr k e, old, n, s, _, hb, hw, hn, hst, hp, hm => by
    cases old with
    | many os =>
      simp only [paste]
      split
      · exact (pasteNode_good env (.arr k e) (.many os) (.mk n.type n.values n.nodes) rfl hb hw ⟨hn.1, nodesGood_iff.mpr hn.2⟩).bind
          fun _ _ => ⟨hn, hp, Nat.le_refl _⟩
      split
      · rename_i hs
        refine (arrNodes_good hr os ?_ n s hn hp hm).bind fun x hx => hx
        intro o ho c s1 hc1 hc2 hp1 hm1
        refine (paste_good hr fuel e o c s1 hs hb (hw.2 o ho) hc1 hc2 hp1 hm1).bind ?_
        rintro ⟨y, c', s2⟩ ⟨h1, h2, h3⟩
        simp only at h1 h2 h3 ⊢
        exact (finish_good hr fuel c' s2 h2 (by omega)).bind fun s3 h4 => ⟨h4.1, by simp only; omega⟩
      · refine (arrValues_good hr ?_ os n s hn hp hm).bind fun x hx => hx
        intro o v hv
        exact hv e o hb
    | _ => cases hw
  | .record _ st fs, old, n, s, _, hb, hw, hn, hst, hp, hm => by
    cases old with
    | many os =>
      simp only [paste]
      split
      · trivial
      · exact (pasteMembers_good hr fuel fs os 0 0 n s hb hw hn hp hm).bind fun x hx => hx
    | _ => cases hw
  | .ptr k e, old, n, s, hs, hb, hw, hn, hst, hp, hm => by
    simp only [paste]
    exact (paste_good hr fuel e (dflt e) n s hs hb (dflt_wt e) hn hst hp hm).bind fun x hx => hx
  | .sorted _ c, old, n, s, hs, hb, hw, hn, hst, hp, hm => by
    simp only [paste]
    exact (paste_good hr fuel c (dflt c) n s hs hb (dflt_wt c) hn hst hp hm).bind fun x hx => hx
  | .bytes, _, _, _, h, _, _, _, _, _, _ => by cases h
  | .bool, _, _, _, h, _, _, _, _, _, _ => by cases h
  | .int _, _, _, _, h, _, _, _, _, _, _ => by cases h
  | .float, _, _, _, h, _, _, _, _, _, _ => by cases h
  | .double, _, _, _, h, _, _, _, _, _, _ => by cases h
  | .str, _, _, _, h, _, _, _, _, _, _ => by cases h
theorem pasteMembers_good (hr : Reads read (Convertible env bin) P μ) (fuel : Nat) : ∀ (fs : Fields)
    (os : List Obj) (ni vi : Nat) (n : LNode) (s : σ), fs.Bin bin → WTL fs os → LGood (Convertible env bin) n → P s →
    μ s < fuel → Sound (pasteMembers env read fuel fs os ni vi n s) fun x =>
      LGood (Convertible env bin) x.2.1 ∧ P x.2.2 ∧ μ x.2.2 ≤ μ s
  | .nil, os, ni, vi, n, s, _, _, hn, hp, _ => by
    simp only [pasteMembers]
    exact ⟨hn, hp, Nat.le_refl _⟩
  | .cons _ _ _ _, [], _, _, _, _, _, hw, _, _, _ => by cases hw
  | .cons name opt ty rest, o :: os, ni, vi, n, s, hb, hw, hn, hp, hm => by
    obtain ⟨hw1, hw2⟩ := hw
    obtain ⟨hb1, hb2⟩ := hb
    simp only [pasteMembers]
    have hh : Sound (if opt then has read fuel ty.isScope name n s else .ok (true, n, s)) fun x =>
        LGood (Convertible env bin) x.2.1 ∧ P x.2.2 ∧ μ x.2.2 ≤ μ s := by
      split
      · exact has_good hr fuel _ name n s hn hp hm
      · exact ⟨hn, hp, Nat.le_refl _⟩
    refine hh.bind ?_
    rintro ⟨here, n1, s1⟩ ⟨h1, h2, h3⟩
    simp only at h1 h2 h3 ⊢
    have go : ∀ (y : Obj) (ni vi : Nat) (n2 : LNode) (s2 : σ), LGood (Convertible env bin) n2 → P s2 →
        μ s2 ≤ μ s → Sound (pasteMembers env read fuel rest os ni vi n2 s2 >>= fun x =>
          .ok (y :: x.1, x.2.1, x.2.2)) fun x => LGood (Convertible env bin) x.2.1 ∧ P x.2.2 ∧ μ x.2.2 ≤ μ s := by
      intro y ni vi n2 s2 hn2 hp2 hm2
      refine (pasteMembers_good hr fuel rest os ni vi n2 s2 hb2 hw2 hn2 hp2 (by omega)).bind ?_
      rintro ⟨ys, n3, s3⟩ ⟨h4, h5, h6⟩
      simp only at h4 h5 h6
      exact ⟨h4, h5, by simp only; omega⟩
    split
    · exact go o ni vi n1 s1 h1 h2 h3
    split
    · rename_i hs
      split
      · refine (lookup_good (Q := NodeGood (Convertible env bin)) h1.2).bind fun c hc => ?_
        refine (pasteNode_good env ty o c hs hb1 hw1 hc).bind fun y _ => ?_
        exact go y (ni + 1) vi n1 s1 h1 h2 h3
      · refine (consumeNode_good hr fuel _ n1 s1 h1 h2 (by omega)).bind ?_
        rintro ⟨c, n2, s2⟩ ⟨h4, h5, h6, h7, h8, h9, -⟩
        simp only at h4 h5 h6 h7 h8 ⊢
        cases c with
        | none => trivial
        | some c =>
          obtain ⟨hc1, hc2⟩ := h8 c rfl
          refine (paste_good hr fuel ty o c.2 s2 hs hb1 hw1 hc1 hc2 h5 (by omega)).bind ?_
          rintro ⟨y, c', s3⟩ ⟨h10, h11, h12⟩
          simp only at h10 h11 h12 ⊢
          refine (finish_good hr fuel c' s3 h11 (by omega)).bind ?_
          intro s4 h13
          exact go y (ni + 1) vi n2 s4 h4 h13.1 (by omega)
    · split
      · refine (lookup_good (Q := Convertible env bin) h1.1).bind fun c hc => ?_
        refine (hc ty o hb1).bind fun y _ => ?_
        exact go y ni (vi + 1) n1 s1 h1 h2 h3
      · refine (consumeValue_good hr fuel _ n1 s1 h1 h2 (by omega)).bind ?_
        rintro ⟨c, n2, s2⟩ ⟨h4, h5, h6, h7, h8, h9, -⟩
        simp only at h4 h5 h6 h7 h8 ⊢
        cases c with
        | none => trivial
        | some v =>
          refine (h8 v rfl ty o hb1).bind fun y _ => ?_
          exact go y ni (vi + 1) n2 s2 h4 h5 (by omega)
end

theorem restore_good (hr : Reads read (Convertible env bin) P μ) (fuel : Nat) (ty : Ty) (old : Obj) (s : σ)
    (hb : ty.Bin bin) (hw : WT ty old) (hp : P s) (hm : μ s ≤ fuel) :
    Sound (restore env read fuel ty old s) fun x => P x.2 ∧ μ x.2 < μ s := by
  unfold restore
  refine (hr s hp).bind ?_
  rintro ⟨⟨nm, tok⟩, s1⟩ ⟨hp1, hm1, hv⟩
  simp only at hp1 hm1 ⊢
  have hfresh : ∀ t, LGood (Convertible env bin) (.fresh t) := fun t => ⟨by simp [LNode.fresh], by simp [LNode.fresh]⟩
  cases tok with
  | val v => trivial
  | scopeEnd => trivial
  | scope t =>
    simp only
    split
    · rename_i hs
      refine (paste_good hr fuel ty old (.fresh t) s1 hs hb hw (hfresh t) (.inr ⟨rfl, rfl⟩) hp1
        (by omega)).bind ?_
      rintro ⟨o, n, s2⟩ ⟨h1, h2, h3⟩
      simp only at h2 h3
      exact ⟨h2, by simp only; omega⟩
    · refine (consumeValue_good hr fuel (.index 0) (.fresh t) s1 (hfresh t) hp1 (by omega)).bind ?_
      rintro ⟨c, n, s2⟩ ⟨h1, h2, h3, h4, h5, h6, -⟩
      simp only at h2 h3 h5 ⊢
      cases c with
      | none => trivial
      | some v => exact (h5 v rfl ty old hb).bind fun o _ => ⟨h2, by simp only; omega⟩

theorem loadUnwrap_good (hr : Reads read (Convertible env bin) P μ) (fuel : Nat) (ty : Ty) (old : Obj) (s : σ)
    (hb : ty.Bin bin) (hw : WT ty old) (hp : P s) (hm : μ s ≤ fuel) :
    Sound (loadUnwrap env read fuel ty old s) fun _ => True := by
  have hl : Sound (Doc.load read fuel s) fun x => NodeGood (Convertible env bin) x.1.node := by
    unfold Doc.load
    refine (hr s hp).bind ?_
    rintro ⟨⟨nm, tok⟩, s1⟩ ⟨hp1, hm1, hv⟩
    simp only at hp1 hm1 ⊢
    cases tok with
    | val v => trivial
    | scopeEnd => trivial
    | scope t =>
      refine (readScope_good hr fuel 0 s1 hp1 (by omega)).bind ?_
      rintro ⟨⟨vs, ns⟩, s2⟩ ⟨h1, h2, h3, h4⟩
      exact ⟨h1, nodesGood_iff.mpr h2⟩
  unfold loadUnwrap
  refine hl.bind ?_
  rintro ⟨⟨nm, n⟩, s1⟩ hn
  simp only at hn ⊢
  unfold unwrap
  split
  · rename_i hs
    exact pasteNode_good env ty old n hs hb hw hn
  · cases n with
    | mk t vs ns => exact (lookup_good (Q := Convertible env bin) hn.1).bind fun v hv => hv ty old hb

/-- The states reached from `s0` by reading tokens. -/
def Reached (read : σ → Res (Event × σ)) (s0 s : σ) : Prop := ∃ evs, Emits read s0 evs s

/-- A document all whose values can be converted. -/
def ValuesOk (env : Env) (bin : Bool) (read : σ → Res (Event × σ)) (s0 : σ) : Prop :=
  ∀ evs s, Emits read s0 evs s → ∀ e ∈ evs, ∀ v, e.tok = .val v → Convertible env bin v

theorem reads_of_emits {s0 : σ} (hv : ValuesOk env bin read s0)
    (hr : ∀ s, P s → Sound (read s) fun x => P x.2 ∧ μ x.2 < μ s) :
    Reads read (Convertible env bin) (fun s => P s ∧ Reached read s0 s) μ := by
  rintro s ⟨hp, evs, he⟩
  have h := hr s hp
  cases hrd : read s with
  | err => trivial
  | ub => rw [hrd] at h; exact h
  | fuel => rw [hrd] at h; exact h
  | ok x =>
    rw [hrd] at h
    have he' : Emits read s0 (evs ++ [x.1]) x.2 :=
      emits_append.mpr ⟨s, he, .cons hrd (.nil _)⟩
    exact ⟨⟨h.1, _, he'⟩, h.2, fun v hx => hv _ _ he' x.1 (by simp) v hx⟩

end
end Typed
end Srl
