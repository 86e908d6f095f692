import Verif.Lemmas.Typed

namespace Srl.Typed

open Doc

variable {σ : Type}

/-- Two computations of which the second also gives a state: same outcome, and the state is as said. -/
def Agrees {α τ : Type} (r : Res α) (l : Res (α × τ)) (P : τ → Prop) : Prop :=
  match r with
  | .ok a => ∃ t, l = .ok (a, t) ∧ P t
  | .err => l = .err
  | .ub => l = .ub
  | .fuel => l = .fuel

theorem Agrees.bind {α β τ υ : Type} {r : Res α} {l : Res (α × τ)} {P : τ → Prop}
    {f : α → Res β} {g : α × τ → Res (β × υ)} {Q : υ → Prop} (h : Agrees r l P)
    (hn : ∀ a t, P t → Agrees (f a) (g (a, t)) Q) : Agrees (r >>= f) (l >>= g) Q := by
  cases r with
  | ok a =>
    obtain ⟨t, e, hp⟩ := h
    subst e
    exact hn a t hp
  | err => simp only [Agrees] at h; subst h; rfl
  | ub => simp only [Agrees] at h; subst h; rfl
  | fuel => simp only [Agrees] at h; subst h; rfl

theorem Agrees.mono {α τ : Type} {r : Res α} {l : Res (α × τ)} {P Q : τ → Prop} (h : Agrees r l P)
    (hpq : ∀ t, P t → Q t) : Agrees r l Q := by
  cases r with
  | ok a => obtain ⟨t, e, hp⟩ := h; exact ⟨t, e, hpq t hp⟩
  | err => exact h
  | ub => exact h
  | fuel => exact h

/-- The same computation first. -/
theorem Agrees.same {α β τ : Type} (r : Res α) {f : α → Res β} {g : α → Res (β × τ)} {Q : τ → Prop}
    (h : ∀ a, Agrees (f a) (g a) Q) : Agrees (r >>= f) (r >>= g) Q := by
  cases r with
  | ok a => exact h a
  | err => rfl
  | ub => rfl
  | fuel => rfl

theorem Agrees.ok {α τ : Type} {a : α} {t : τ} {P : τ → Prop} (h : P t) :
    Agrees (.ok a) (.ok (a, t)) P := ⟨t, rfl, h⟩

/-- How far a node has been read: `post` is left. -/
def Pos (read : σ → Res (Event × σ)) (n : LNode) (post : List Item) (s s' : σ) : Prop :=
  (n.parsed = true ∧ post = [] ∧ s = s') ∨ (n.parsed = false ∧ Left read post s s')

theorem finish_flat {read : σ → Res (Event × σ)} {n : LNode} {post : List Item} {s s' : σ}
    {fuel : Nat} (h : Pos read n post s s') (hs : scopesOf post = [])
    (hf : (Item.eventsL post).length < fuel) : finish read fuel n s = .ok s' := by
  rcases h with ⟨h1, _, rfl⟩ | ⟨h1, h2⟩
  · simp [finish, h1]
  · simp only [finish, h1]
    exact skipScope_flat read post fuel s s' hs h2 hf

/-- What is left after restoring an object of type `ty` from a scope with `items`. -/
def Tail (read : σ → Res (Event × σ)) (ty : Ty) (items : List Item) (s' : σ) (p : LNode × σ) : Prop :=
  ∃ pre post, items = pre ++ post ∧ Pos read p.1 post p.2 s' ∧ (Covered ty items → scopesOf post = [])

theorem finish_tail {read : σ → Res (Event × σ)} {ty : Ty} {items : List Item} {s s' : σ}
    {n : LNode} {fuel : Nat} (h : Tail read ty items s' (n, s)) (hc : Covered ty items)
    (hf : (Item.eventsL items).length < fuel) : finish read fuel n s = .ok s' := by
  obtain ⟨pre, post, rfl, hp, hs⟩ := h
  refine finish_flat hp (hs hc) ?_
  rw [Item.eventsL_append, List.length_append] at hf
  omega

/-- The node made of a scope. -/
abbrev nodeOf (t : ScopeTy) (kids : List Item) : Node :=
  .mk t (Item.contentL kids).1 (Item.contentL kids).2

theorem nodesOf_nil : nodesOf [] = [] := rfl
theorem nodesOf_val (n : Bytes) (v : Val) (is : List Item) : nodesOf (.val n v :: is) = nodesOf is := rfl
theorem nodesOf_scope (n : Bytes) (t : ScopeTy) (kids is : List Item) :
    nodesOf (.scope n t kids :: is) = (n, nodeOf t kids) :: nodesOf is := rfl

theorem nodesOf_eq_nil {a : List Item} (h : scopesOf a = []) : nodesOf a = [] := by
  simp [nodesOf, h]

/-! ## Sequences and arrays -/

section loops
variable {read : σ → Res (Event × σ)} {total : Nat}

theorem seek_next_node {post : List Item} {n : LNode} {s s' : σ} (hn : n.nodes = [])
    (hp : n.parsed = false) (he : Left read post s s') (hf : (Item.eventsL post).length < total)
    (hd : Item.depthL post ≤ maxDepth) :
    (∃ a nm t kids b s1 s2 n', post = a ++ .scope nm t kids :: b ∧ scopesOf a = [] ∧
      consumeNode read total (.index 0) n s = .ok (some (nm, .fresh t), n', s1) ∧ n'.parsed = false ∧
      n'.nodes = [] ∧ Left read kids s1 s2 ∧ Left read b s2 s') ∨
    (scopesOf post = [] ∧ ∃ n', n'.parsed = true ∧
      consumeNode read total (.index 0) n s = .ok (none, n', s')) := by
  have e : consumeNode read total (.index 0) n s
      = (do let (r, n, s) ← seekNode read total (.index 0) n s; .ok (r.map (fun x => (x.1, LNode.fresh x.2)), n, s)) := by
    simp [consumeNode, hn, takeOut]
  rcases seekNode_spec read (.index 0) post total n s s' hp he hf hd with
    ⟨a, nm, t, kids, b, s1, s2, hpost, _, hno, hs, hk, hb⟩ | ⟨hno, hs⟩
  · left
    have ha : scopesOf a = [] := by
      cases h : scopesOf a with
      | nil => rfl
      | cons x xs => have := hno x (by rw [h]; exact List.mem_cons_self ..); simp [Sel.hits] at this
    refine ⟨a, nm, t, kids, b, s1, s2, n.add a, hpost, ha, ?_, hp, ?_, hk, hb⟩
    · rw [e, hs]; rfl
    · simp [LNode.add, hn, nodesOf_eq_nil ha]
  · right
    have ha : scopesOf post = [] := by
      cases h : scopesOf post with
      | nil => rfl
      | cons x xs => have := hno x (by rw [h]; exact List.mem_cons_self ..); simp [Sel.hits] at this
    exact ⟨ha, { n.add post with parsed := true }, rfl, by rw [e, hs]; rfl⟩

theorem seek_next_value {post : List Item} {n : LNode} {s s' : σ} (hn : n.values = [])
    (hp : n.parsed = false) (he : Left read post s s') (hf : (Item.eventsL post).length < total)
    (hd : Item.depthL post ≤ maxDepth) :
    (∃ a nm v b s1 n', post = a ++ .val nm v :: b ∧ valuesOf a = [] ∧
      consumeValue read total (.index 0) n s = .ok (some (nm, v), n', s1) ∧ n'.parsed = false ∧
      n'.values = [] ∧ Left read b s1 s') ∨
    (valuesOf post = [] ∧ ∃ n', n'.parsed = true ∧
      consumeValue read total (.index 0) n s = .ok (none, n', s')) := by
  have e : consumeValue read total (.index 0) n s = seekValue read total (.index 0) n s := by
    simp [consumeValue, hn, takeOut]
  rcases seekValue_spec read (.index 0) post total n s s' hp he hf hd with
    ⟨a, nm, v, b, s1, hpost, _, hno, hs, hb⟩ | ⟨hno, hs⟩
  · left
    have ha : valuesOf a = [] := by
      cases h : valuesOf a with
      | nil => rfl
      | cons x xs => have := hno x (by rw [h]; exact List.mem_cons_self ..); simp [Sel.hits] at this
    refine ⟨a, nm, v, b, s1, n.add a, hpost, ha, ?_, hp, ?_, hb⟩
    · rw [e, hs]
    · simp [LNode.add, hn, ha]
  · right
    have ha : valuesOf post = [] := by
      cases h : valuesOf post with
      | nil => rfl
      | cons x xs => have := hno x (by rw [h]; exact List.mem_cons_self ..); simp [Sel.hits] at this
    exact ⟨ha, { n.add post with parsed := true }, rfl, by rw [e, hs]⟩

theorem vecNodes_agrees (g : Bytes × Node → Res Obj) (f : Bytes × LNode → σ → Res (Obj × σ)) :
    ∀ (k : Nat) (post : List Item) (n : LNode) (s s' : σ), n.nodes = [] → n.parsed = false →
      Left read post s s' → (Item.eventsL post).length < total → Item.depthL post ≤ maxDepth →
      (Item.eventsL post).length < k →
      (∀ x ∈ scopesOf post, ∀ s1 s2, Left read x.2.2 s1 s2 →
        (Item.eventsL x.2.2).length < total → Item.depthL x.2.2 ≤ maxDepth →
        Agrees (g (x.1, nodeOf x.2.1 x.2.2)) (f (x.1, .fresh x.2.1) s1) (fun s => s = s2)) →
      Agrees (mapRes g (nodesOf post)) (vecNodes read total f k n s)
        (fun p => p.1.parsed = true ∧ p.2 = s') := by
  intro k
  induction k with
  | zero => intro _ _ _ _ _ _ _ _ _ hk; omega
  | succ k ih =>
    intro post n s s' hn hp he hf hd hk hF
    rcases seek_next_node hn hp he hf hd with
      ⟨a, nm, t, kids, b, s1, s2, n', rfl, ha, hs, hp', hn', hkids, hb⟩ | ⟨hno, n', hp', hs⟩
    · rw [Item.eventsL_append, List.length_append, eventsL_scope_length] at hf hk
      rw [depthL_append] at hd
      simp only [Item.depthL, Item.depth] at hd
      rw [nodesOf_append, nodesOf_eq_nil ha, List.nil_append, nodesOf_scope]
      have hx : (nm, t, kids) ∈ scopesOf (a ++ .scope nm t kids :: b) := by
        rw [scopesOf_append]; exact List.mem_append_right _ (List.mem_cons_self ..)
      simp only [mapRes, vecNodes, hs, Res.ok_bind, hp', Bool.false_eq_true, if_false]
      refine (hF _ hx s1 s2 hkids (by simp only; omega) (by simp only; omega)).bind ?_
      rintro y s3 rfl
      refine (ih b n' s3 s' hn' hp' hb (by omega) (by omega) (by omega) ?_).bind ?_
      · intro x hx'
        exact hF x (by rw [scopesOf_append]; exact List.mem_append_right _ (List.mem_cons_of_mem _ hx'))
      · rintro ys ⟨n2, s4⟩ h
        exact .ok h
    · rw [nodesOf_eq_nil hno]
      simp only [mapRes, vecNodes, hs, Res.ok_bind, hp', if_true]
      exact .ok ⟨hp', rfl⟩

theorem vecValues_agrees (g : Bytes × Val → Res Obj) :
    ∀ (k : Nat) (post : List Item) (n : LNode) (s s' : σ), n.values = [] → n.parsed = false →
      Left read post s s' → (Item.eventsL post).length < total → Item.depthL post ≤ maxDepth →
      (Item.eventsL post).length < k →
      Agrees (mapRes g (valuesOf post)) (vecValues read total g k n s)
        (fun p => p.1.parsed = true ∧ p.2 = s') := by
  intro k
  induction k with
  | zero => intro _ _ _ _ _ _ _ _ _ hk; omega
  | succ k ih =>
    intro post n s s' hn hp he hf hd hk
    rcases seek_next_value hn hp he hf hd with
      ⟨a, nm, v, b, s1, n', rfl, ha, hs, hp', hn', hb⟩ | ⟨hno, n', hp', hs⟩
    · rw [Item.eventsL_append, List.length_append, eventsL_val_length] at hf hk
      rw [depthL_append] at hd
      simp only [Item.depthL, Item.depth] at hd
      rw [valuesOf_append, ha, List.nil_append, valuesOf]
      simp only [mapRes, vecValues, hs, Res.ok_bind, hp', Bool.false_eq_true, if_false]
      refine .same _ fun y => ?_
      refine (ih b n' s1 s' hn' hp' hb (by omega) (by omega) (by omega)).bind ?_
      rintro ys ⟨n2, s4⟩ h
      exact .ok h
    · rw [hno]
      simp only [mapRes, vecValues, hs, Res.ok_bind, hp', if_true]
      exact .ok ⟨hp', rfl⟩

theorem arrNodes_agrees (g : Obj → Node → Res Obj) (f : Obj → LNode → σ → Res (Obj × σ)) :
    ∀ (os : List Obj) (post : List Item) (n : LNode) (s s' : σ), n.nodes = [] → n.parsed = false →
      Left read post s s' → (Item.eventsL post).length < total → Item.depthL post ≤ maxDepth →
      (scopesOf post).length = os.length →
      (∀ o ∈ os, ∀ x ∈ scopesOf post, ∀ s1 s2, Left read x.2.2 s1 s2 →
        (Item.eventsL x.2.2).length < total → Item.depthL x.2.2 ≤ maxDepth →
        Agrees (g o (nodeOf x.2.1 x.2.2)) (f o (.fresh x.2.1) s1) (fun s => s = s2)) →
      Agrees (zipRes (fun o p => g o p.2) os (nodesOf post)) (arrNodes read total f os n s)
        (fun p => ∃ a b, post = a ++ b ∧ p.1.parsed = false ∧ Left read b p.2 s' ∧ scopesOf b = []) := by
  intro os
  induction os with
  | nil =>
    intro post n s s' hn hp he hf hd hc hF
    have h0 : scopesOf post = [] := List.length_eq_zero_iff.mp hc
    rw [nodesOf_eq_nil h0]
    simp only [zipRes, arrNodes]
    exact .ok ⟨[], post, rfl, hp, he, h0⟩
  | cons o os ih =>
    intro post n s s' hn hp he hf hd hc hF
    rcases seek_next_node hn hp he hf hd with
      ⟨a, nm, t, kids, b, s1, s2, n', rfl, ha, hs, hp', hn', hkids, hb⟩ | ⟨hno, n', hp', hs⟩
    · rw [Item.eventsL_append, List.length_append, eventsL_scope_length] at hf
      rw [depthL_append] at hd
      simp only [Item.depthL, Item.depth] at hd
      rw [nodesOf_append, nodesOf_eq_nil ha, List.nil_append, nodesOf_scope]
      have hx : (nm, t, kids) ∈ scopesOf (a ++ .scope nm t kids :: b) := by
        rw [scopesOf_append]; exact List.mem_append_right _ (List.mem_cons_self ..)
      simp only [zipRes, arrNodes, hp, hs, Res.ok_bind, Bool.false_eq_true, if_false]
      refine (hF o (List.mem_cons_self ..) _ hx s1 s2 hkids (by simp only; omega)
        (by simp only; omega)).bind ?_
      rintro y s3 rfl
      rw [scopesOf_append, ha, scopesOf] at hc
      simp only [List.nil_append, List.length_cons] at hc
      refine (ih b n' s3 s' hn' hp' hb (by omega) (by omega) (by omega) ?_).bind ?_
      · intro o' ho' x hx'
        exact hF o' (List.mem_cons_of_mem _ ho') x
          (by rw [scopesOf_append]; exact List.mem_append_right _ (List.mem_cons_of_mem _ hx'))
      · rintro ys ⟨n2, s4⟩ ⟨a', b', rfl, h1, h2, h3⟩
        exact .ok ⟨a ++ .scope nm t kids :: a', b', by simp, h1, h2, h3⟩
    · rw [hno] at hc
      cases hc

theorem arrValues_agrees (g : Obj → Val → Res Obj) :
    ∀ (os : List Obj) (post : List Item) (n : LNode) (s s' : σ), n.values = [] → n.parsed = false →
      Left read post s s' → (Item.eventsL post).length < total → Item.depthL post ≤ maxDepth →
      (valuesOf post).length = os.length →
      Agrees (zipRes (fun o p => g o p.2) os (valuesOf post)) (arrValues read total g os n s)
        (fun p => ∃ a b, post = a ++ b ∧ p.1.parsed = false ∧ Left read b p.2 s' ∧ valuesOf b = []) := by
  intro os
  induction os with
  | nil =>
    intro post n s s' hn hp he hf hd hc
    have h0 : valuesOf post = [] := List.length_eq_zero_iff.mp hc
    rw [h0]
    simp only [zipRes, arrValues]
    exact .ok ⟨[], post, rfl, hp, he, h0⟩
  | cons o os ih =>
    intro post n s s' hn hp he hf hd hc
    rcases seek_next_value hn hp he hf hd with
      ⟨a, nm, v, b, s1, n', rfl, ha, hs, hp', hn', hb⟩ | ⟨hno, n', hp', hs⟩
    · rw [Item.eventsL_append, List.length_append, eventsL_val_length] at hf
      rw [depthL_append] at hd
      simp only [Item.depthL, Item.depth] at hd
      rw [valuesOf_append, ha, valuesOf] at hc
      simp only [List.nil_append, List.length_cons] at hc
      rw [valuesOf_append, ha, List.nil_append, valuesOf]
      simp only [zipRes, arrValues, hp, hs, Res.ok_bind, Bool.false_eq_true, if_false]
      refine .same _ fun y => ?_
      refine (ih b n' s1 s' hn' hp' hb (by omega) (by omega) (by omega)).bind ?_
      rintro ys ⟨n2, s4⟩ ⟨a', b', rfl, h1, h2, h3⟩
      exact .ok ⟨a ++ .val nm v :: a', b', by simp, h1, h2, h3⟩
    · rw [hno] at hc
      cases hc

end loops

end Srl.Typed
