import Verif.Lemmas.Doc

/-! Facts about `Doc.load` that hold for every token reader. -/

namespace Srl

mutual
/-- Number of scopes nested in a node. -/
def Node.depth : Node → Nat
  | .mk _ _ ns => Node.depthL ns
def Node.depthL : List (Bytes × Node) → Nat
  | [] => 0
  | (_, n) :: ns => max (n.depth + 1) (Node.depthL ns)
end

namespace Doc
variable {σ : Type}

/-- More steps do not change an outcome. -/
theorem readScope_mono (read : σ → Res (Event × σ)) (f f' d : Nat) (s : σ)
    (h : readScope read f d s ≠ .fuel) (hf : f ≤ f') :
    readScope read f' d s = readScope read f d s := by
  induction f generalizing f' d s with
  | zero => exact absurd rfl h
  | succ f ih =>
    cases f' with
    | zero => omega
    | succ f' =>
      rw [readScope] at h ⊢
      rw [readScope]
      cases hr : read s with
      | ok x =>
        obtain ⟨⟨n, tok⟩, s1⟩ := x
        rw [hr] at h
        simp only [Res.ok_bind] at h ⊢
        cases tok with
        | scopeEnd => rfl
        | val v =>
          simp only at h ⊢
          rw [ih f' d s1 (by intro hh; rw [hh] at h; exact h rfl) (by omega)]
        | scope t =>
          simp only at h ⊢
          split
          · rfl
          · rename_i hd
            rw [if_neg hd] at h
            rw [ih f' (d + 1) s1 (by intro hh; rw [hh] at h; exact h rfl) (by omega)]
            cases h1 : readScope read f (d + 1) s1 with
            | ok y =>
              obtain ⟨⟨vs, ns⟩, s2⟩ := y
              rw [h1] at h
              simp only [Res.ok_bind] at h ⊢
              rw [ih f' d s2 (by intro hh; rw [hh] at h; exact h rfl) (by omega)]
            | _ => rfl
      | _ => rfl

theorem load_mono (read : σ → Res (Event × σ)) (f f' : Nat) (s : σ)
    (h : load read f s ≠ .fuel) (hf : f ≤ f') : load read f' s = load read f s := by
  unfold load at h ⊢
  cases hr : read s with
  | ok x =>
    obtain ⟨⟨n, tok⟩, s1⟩ := x
    rw [hr] at h
    simp only [Res.ok_bind] at h ⊢
    cases tok with
    | scope t =>
      simp only at h ⊢
      rw [readScope_mono read f f' 0 s1 (by intro hh; rw [hh] at h; exact h rfl) hf]
    | _ => rfl
  | _ => rfl

/-- A reader that makes progress in a measure never exhausts that many steps. -/
theorem readScope_fuel (read : σ → Res (Event × σ)) (μ : σ → Nat)
    (hdec : ∀ s e s', read s = .ok (e, s') → μ s' < μ s) (hnf : ∀ s, read s ≠ .fuel)
    (f d : Nat) (s : σ) (h : μ s < f) :
    readScope read f d s ≠ .fuel ∧
      ∀ c s', readScope read f d s = .ok (c, s') → μ s' < μ s := by
  induction f generalizing d s with
  | zero => omega
  | succ f ih =>
    rw [readScope]
    cases hr : read s with
    | ok x =>
      obtain ⟨⟨n, tok⟩, s1⟩ := x
      have h1 := hdec _ _ _ hr
      simp only [Res.ok_bind]
      cases tok with
      | scopeEnd =>
        refine ⟨by simp, fun c s' h => ?_⟩
        simp only [Res.ok.injEq, Prod.mk.injEq] at h
        rw [← h.2]; exact h1
      | val v =>
        obtain ⟨i1, i2⟩ := ih d s1 (by omega)
        simp only
        cases h2 : readScope read f d s1 with
        | ok y =>
          obtain ⟨⟨vs, ns⟩, s2⟩ := y
          refine ⟨by simp, fun c s' h => ?_⟩
          simp only [Res.ok_bind, Res.ok.injEq, Prod.mk.injEq] at h
          have := i2 _ _ h2
          rw [← h.2]; omega
        | fuel => exact absurd h2 i1
        | err => exact ⟨by simp, by simp⟩
        | ub => exact ⟨by simp, by simp⟩
      | scope t =>
        simp only
        split
        · exact ⟨by simp, by simp⟩
        obtain ⟨i1, i2⟩ := ih (d + 1) s1 (by omega)
        cases h2 : readScope read f (d + 1) s1 with
        | ok y =>
          obtain ⟨⟨vs, ns⟩, s2⟩ := y
          have h3 := i2 _ _ h2
          obtain ⟨j1, j2⟩ := ih d s2 (by omega)
          simp only [Res.ok_bind]
          cases h4 : readScope read f d s2 with
          | ok z =>
            obtain ⟨⟨vs', ns'⟩, s3⟩ := z
            refine ⟨by simp, fun c s' h => ?_⟩
            simp only [Res.ok_bind, Res.ok.injEq, Prod.mk.injEq] at h
            have := j2 _ _ h4
            rw [← h.2]; omega
          | fuel => exact absurd h4 j1
          | err => exact ⟨by simp, by simp⟩
          | ub => exact ⟨by simp, by simp⟩
        | fuel => exact absurd h2 i1
        | err => exact ⟨by simp, by simp⟩
        | ub => exact ⟨by simp, by simp⟩
    | fuel => exact absurd hr (hnf s)
    | err => exact ⟨by simp, by simp⟩
    | ub => exact ⟨by simp, by simp⟩

theorem load_fuel (read : σ → Res (Event × σ)) (μ : σ → Nat)
    (hdec : ∀ s e s', read s = .ok (e, s') → μ s' < μ s) (hnf : ∀ s, read s ≠ .fuel)
    (f : Nat) (s : σ) (h : μ s < f) : load read f s ≠ .fuel := by
  unfold load
  cases hr : read s with
  | ok x =>
    obtain ⟨⟨n, tok⟩, s1⟩ := x
    have h1 := hdec _ _ _ hr
    simp only [Res.ok_bind]
    cases tok with
    | scope t =>
      obtain ⟨i1, i2⟩ := readScope_fuel read μ hdec hnf f 0 s1 (by omega)
      simp only
      cases h2 : readScope read f 0 s1 with
      | fuel => exact absurd h2 i1
      | ok y => simp
      | err => simp
      | ub => simp
    | _ => simp
  | fuel => exact absurd hr (hnf s)
  | err => simp
  | ub => simp

/-- Nothing deeper than the limit is ever built. -/
theorem readScope_depth (read : σ → Res (Event × σ)) (f d : Nat) (s s' : σ) (c : Content)
    (h : readScope read f d s = .ok (c, s')) (hd : d ≤ maxDepth) :
    Node.depthL c.2 + d ≤ maxDepth := by
  induction f generalizing d s s' c with
  | zero => cases h
  | succ f ih =>
    rw [readScope, Res.bind_eq_ok] at h
    obtain ⟨⟨⟨n, tok⟩, s1⟩, hr, h⟩ := h
    cases tok with
    | scopeEnd =>
      simp only [Res.ok.injEq, Prod.mk.injEq] at h
      rw [← h.1]; simp [Node.depthL, hd]
    | val v =>
      simp only [Res.bind_eq_ok] at h
      obtain ⟨⟨⟨vs, ns⟩, s2⟩, h1, h⟩ := h
      simp only [Res.ok.injEq, Prod.mk.injEq] at h
      have := ih _ _ _ _ h1 hd
      rw [← h.1]; exact this
    | scope t =>
      simp only at h
      split at h
      · cases h
      rename_i hle
      simp only [Res.bind_eq_ok] at h
      obtain ⟨⟨⟨vs, ns⟩, s2⟩, h1, ⟨⟨vs', ns'⟩, s3⟩, h2, h⟩ := h
      simp only [Res.ok.injEq, Prod.mk.injEq] at h
      have := ih _ _ _ _ h1 (by omega)
      have := ih _ _ _ _ h2 hd
      rw [← h.1]
      simp only [Node.depthL, Node.depth] at *
      omega

/-- Failure: an exception (when `a` holds), or undefined behaviour (when `b` holds). -/
def Fails {α : Type} (a b : Prop) (x : Res α) : Prop := (a ∧ x = .err) ∨ (b ∧ x = .ub)

theorem Fails.bind {α β : Type} {a b : Prop} {x : Res α} (h : Fails a b x) (f : α → Res β) :
    Fails a b (x >>= f) := by
  rcases h with ⟨ha, h⟩ | ⟨hb, h⟩ <;> rw [h]
  · exact Or.inl ⟨ha, rfl⟩
  · exact Or.inr ⟨hb, rfl⟩

/-- Two readers, where what the first one reads the second one reads as well unless it fails.
`R` relates their states. -/
def CutRel (a b : Prop) (R : σ → σ → Prop) (read read' : σ → Res (Event × σ)) :
    Prop :=
  ∀ s s' e t, R s s' → read s = .ok (e, t) →
    (∃ t', R t t' ∧ read' s' = .ok (e, t')) ∨ Fails a b (read' s')

theorem readScope_cut (read read' : σ → Res (Event × σ)) (a b : Prop) (R : σ → σ → Prop)
    (hc : CutRel a b R read read') (f d : Nat) (s s' t : σ) (c : Content)
    (hR : R s s')
    (h : readScope read f d s = .ok (c, t)) :
    (∃ t', R t t' ∧ readScope read' f d s' = .ok (c, t')) ∨ Fails a b (readScope read' f d s') := by
  induction f generalizing d s s' t c with
  | zero => cases h
  | succ f ih =>
    rw [readScope, Res.bind_eq_ok] at h
    obtain ⟨⟨⟨n, tok⟩, s1⟩, hr, h⟩ := h
    rw [readScope]
    rcases hc _ s' _ _ hR hr with ⟨s1', hR1, hr'⟩ | hf
    · rw [hr']
      simp only [Res.ok_bind]
      cases tok with
      | scopeEnd =>
        simp only [Res.ok.injEq, Prod.mk.injEq] at h
        exact Or.inl ⟨s1', h.2 ▸ hR1, by simp [h.1]⟩
      | val v =>
        simp only [Res.bind_eq_ok] at h
        obtain ⟨⟨⟨vs, ns⟩, s2⟩, h1, h⟩ := h
        simp only [Res.ok.injEq, Prod.mk.injEq] at h
        rcases ih _ _ _ _ _ hR1 h1 with ⟨t', hR2, h2⟩ | h2
        · exact Or.inl ⟨t', h.2 ▸ hR2, by simp [h2, h.1]⟩
        · exact Or.inr (h2.bind _)
      | scope t =>
        simp only at h ⊢
        split at h
        · cases h
        rename_i hle
        rw [if_neg hle]
        simp only [Res.bind_eq_ok] at h
        obtain ⟨⟨⟨vs, ns⟩, s2⟩, h1, ⟨⟨vs', ns'⟩, s3⟩, h2, h⟩ := h
        simp only [Res.ok.injEq, Prod.mk.injEq] at h
        rcases ih _ _ _ _ _ hR1 h1 with ⟨t', hR2, h3⟩ | h3
        · rw [h3]
          simp only [Res.ok_bind]
          rcases ih _ _ _ _ _ hR2 h2 with ⟨t'', hR3, h4⟩ | h4
          · exact Or.inl ⟨t'', h.2 ▸ hR3, by simp [h4, h.1]⟩
          · exact Or.inr (h4.bind _)
        · exact Or.inr (h3.bind _)
    · exact Or.inr (hf.bind _)

theorem load_cut (read read' : σ → Res (Event × σ)) (a b : Prop) (R : σ → σ → Prop)
    (hc : CutRel a b R read read') (f : Nat) (s s' t : σ) (r : Root) (hR : R s s')
    (h : load read f s = .ok (r, t)) :
    (∃ t', R t t' ∧ load read' f s' = .ok (r, t')) ∨ Fails a b (load read' f s') := by
  rw [load, Res.bind_eq_ok] at h
  obtain ⟨⟨⟨n, tok⟩, s1⟩, hr, h⟩ := h
  rw [load]
  rcases hc _ s' _ _ hR hr with ⟨s1', hR1, hr'⟩ | hf
  · rw [hr']
    simp only [Res.ok_bind]
    cases tok with
    | scope t =>
      simp only [Res.bind_eq_ok] at h
      obtain ⟨⟨⟨vs, ns⟩, s2⟩, h1, h⟩ := h
      simp only [Res.ok.injEq, Prod.mk.injEq] at h
      rcases readScope_cut read read' a b R hc _ _ _ _ _ _ hR1 h1 with ⟨t', hR2, h2⟩ | h2
      · exact Or.inl ⟨t', h.2 ▸ hR2, by simp [h2, h.1]⟩
      · exact Or.inr (h2.bind _)
    | _ => cases h
  · exact Or.inr (hf.bind _)

/-- Undefined behaviour is avoided if an invariant of the reader's state excludes it. -/
theorem readScope_safe (read : σ → Res (Event × σ)) (P : σ → Prop)
    (hub : ∀ s, P s → read s ≠ .ub) (hinv : ∀ s e s', P s → read s = .ok (e, s') → P s')
    (f d : Nat) (s : σ) (h : P s) :
    readScope read f d s ≠ .ub ∧ ∀ c s', readScope read f d s = .ok (c, s') → P s' := by
  induction f generalizing d s with
  | zero => exact ⟨by simp [readScope], by simp [readScope]⟩
  | succ f ih =>
    rw [readScope]
    cases hr : read s with
    | ok x =>
      obtain ⟨⟨n, tok⟩, s1⟩ := x
      have h1 := hinv _ _ _ h hr
      simp only [Res.ok_bind]
      cases tok with
      | scopeEnd =>
        refine ⟨by simp, fun c s' h => ?_⟩
        simp only [Res.ok.injEq, Prod.mk.injEq] at h
        rw [← h.2]; exact h1
      | val v =>
        obtain ⟨i1, i2⟩ := ih d s1 h1
        simp only
        cases h2 : readScope read f d s1 with
        | ok y =>
          obtain ⟨⟨vs, ns⟩, s2⟩ := y
          refine ⟨by simp, fun c s' h => ?_⟩
          simp only [Res.ok_bind, Res.ok.injEq, Prod.mk.injEq] at h
          rw [← h.2]; exact i2 _ _ h2
        | ub => exact absurd h2 i1
        | err => exact ⟨by simp, by simp⟩
        | fuel => exact ⟨by simp, by simp⟩
      | scope t =>
        simp only
        split
        · exact ⟨by simp, by simp⟩
        obtain ⟨i1, i2⟩ := ih (d + 1) s1 h1
        cases h2 : readScope read f (d + 1) s1 with
        | ok y =>
          obtain ⟨⟨vs, ns⟩, s2⟩ := y
          obtain ⟨j1, j2⟩ := ih d s2 (i2 _ _ h2)
          simp only [Res.ok_bind]
          cases h4 : readScope read f d s2 with
          | ok z =>
            obtain ⟨⟨vs', ns'⟩, s3⟩ := z
            refine ⟨by simp, fun c s' h => ?_⟩
            simp only [Res.ok_bind, Res.ok.injEq, Prod.mk.injEq] at h
            rw [← h.2]; exact j2 _ _ h4
          | ub => exact absurd h4 j1
          | err => exact ⟨by simp, by simp⟩
          | fuel => exact ⟨by simp, by simp⟩
        | ub => exact absurd h2 i1
        | err => exact ⟨by simp, by simp⟩
        | fuel => exact ⟨by simp, by simp⟩
    | ub => exact absurd hr (hub s h)
    | err => exact ⟨by simp, by simp⟩
    | fuel => exact ⟨by simp, by simp⟩

theorem load_safe (read : σ → Res (Event × σ)) (P : σ → Prop)
    (hub : ∀ s, P s → read s ≠ .ub) (hinv : ∀ s e s', P s → read s = .ok (e, s') → P s')
    (f : Nat) (s : σ) (h : P s) : load read f s ≠ .ub := by
  unfold load
  cases hr : read s with
  | ok x =>
    obtain ⟨⟨n, tok⟩, s1⟩ := x
    have h1 := hinv _ _ _ h hr
    simp only [Res.ok_bind]
    cases tok with
    | scope t =>
      obtain ⟨i1, i2⟩ := readScope_safe read P hub hinv f 0 s1 h1
      simp only
      cases h2 : readScope read f 0 s1 with
      | ub => exact absurd h2 i1
      | _ => simp
    | _ => simp
  | ub => exact absurd hr (hub s h)
  | _ => simp

/-- A tree that was loaded is not deeper than the limit. -/
theorem load_depth (read : σ → Res (Event × σ)) (f : Nat) (s s' : σ) (r : Root)
    (h : load read f s = .ok (r, s')) : r.node.depth ≤ maxDepth := by
  rw [load, Res.bind_eq_ok] at h
  obtain ⟨⟨⟨n, tok⟩, s1⟩, hr, h⟩ := h
  cases tok with
  | scope t =>
    simp only [Res.bind_eq_ok] at h
    obtain ⟨⟨⟨vs, ns⟩, s2⟩, h1, h⟩ := h
    simp only [Res.ok.injEq, Prod.mk.injEq] at h
    have := readScope_depth read _ _ _ _ _ h1 (by decide)
    rw [← h.1]; simpa [Node.depth] using this
  | _ => cases h

end Doc
end Srl
