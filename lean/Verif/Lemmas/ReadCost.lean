import Verif.Model.ReadCost
import Verif.Lemmas.RestoreCost
import Verif.Lemmas.MemoryRead

/-! # Helper lemmas about the steps of restoring while a document is read -/

namespace Srl.Typed
open Props Room Doc

theorem onward_bind {α β : Type} (r : Res α) (k : α → Res β) (f : β → Nat) :
    onward (r >>= k) f = onward r fun a => onward (k a) f := by
  cases r <;> rfl

@[simp] theorem onward_ok {α : Type} (a : α) (f : α → Nat) : onward (.ok a) f = f a := rfl
@[simp] theorem onward_err {α : Type} (f : α → Nat) : onward .err f = 0 := rfl
@[simp] theorem onward_ub {α : Type} (f : α → Nat) : onward .ub f = 0 := rfl
@[simp] theorem onward_fuel {α : Type} (f : α → Nat) : onward .fuel f = 0 := rfl

/-- What was used is at most `K` times what is gone. -/
theorem drop {x K a b D : Nat} (h : x + K * b ≤ K * a) (h2 : a ≤ b + D) : x ≤ K * D := by
  have := Nat.mul_le_mul_left K h2
  rw [Nat.mul_add] at this
  omega

theorem undrop {x K a b : Nat} (h : ∀ D, a = b + D → x ≤ K * D) (h2 : b ≤ a) : x + K * b ≤ K * a := by
  obtain ⟨D, rfl⟩ := Nat.exists_eq_add_of_le h2
  have := h D rfl
  rw [Nat.mul_add]
  omega

theorem tok_gain (own : Bool) (e : Event) : tokSteps e ≤ gain own e := by
  obtain ⟨nm, tok⟩ := e
  cases tok with
  | scopeEnd => simp [tokSteps]
  | scope t => simp [tokSteps, gain]
  | val v => have := valSteps_le v; simp only [tokSteps, gain]; omega

theorem sel_pos (sel : Sel) : 1 ≤ sel.steps := by cases sel <;> simp [Sel.steps]

theorem sel_of (name : Bytes) (i : Nat) : (Sel.of name i).steps ≤ 1 + name.length := by
  unfold Sel.of; split <;> simp [Sel.steps]

theorem takeSteps_le {α : Type} (sel : Sel) (xs : List (Bytes × α)) : takeSteps sel xs ≤ sel.steps * (1 + xs.length) := by
  cases sel with
  | index i => simp [takeSteps, Sel.steps]
  | name n =>
    have := findSteps_le n xs
    simp only [takeSteps, Sel.steps, Nat.mul_add, Nat.mul_one]
    omega

theorem nodes_held (own : Bool) (n : LNode) : 1 + n.nodes.length + n.values.length ≤ held own n := by
  have h1 := length_le_sum (itemV own) n.values fun x _ => by unfold itemV; omega
  have h2 := length_le_sum (itemN own) n.nodes fun x _ => by have := size_one own x.2; unfold itemN; omega
  simp only [held, content]
  omega

variable {σ : Type} {own : Bool} {read : σ → Res (Event × σ)} {μ : σ → Nat} (hp : Pays own read μ)
include hp

theorem scope_steps : ∀ (fuel depth : Nat) (s : σ),
    scopeSteps read fuel depth s + onward (readScope read fuel depth s) (fun x => μ x.2) ≤ μ s
  | 0, _, s => by simp [scopeSteps, readScope]
  | fuel + 1, depth, s => by
    rw [scopeSteps, readScope, onward_bind]
    cases h : read s with
    | ok x =>
      obtain ⟨⟨nm, tok⟩, s1⟩ := x
      have g := hp _ _ _ h
      have t := tok_gain own ⟨nm, tok⟩
      simp only [onward_ok]
      cases tok with
      | scopeEnd => simp only [onward_ok]; omega
      | val v =>
        have ih := scope_steps fuel depth s1
        simp only [onward_bind]
        cases h2 : readScope read fuel depth s1 <;> rw [h2] at ih <;> simp only [onward_ok, onward_err, onward_ub, onward_fuel] at ih ⊢ <;>
          omega
      | scope ty =>
        dsimp only
        split
        · simp only [onward_err]; omega
        · have ih := scope_steps fuel (depth + 1) s1
          rw [onward_bind]
          cases h2 : readScope read fuel (depth + 1) s1 with
          | ok y =>
            rw [h2] at ih
            have ih2 := scope_steps fuel depth y.2
            simp only [onward_ok, onward_bind] at ih ⊢
            cases h3 : readScope read fuel depth y.2 <;> rw [h3] at ih2 <;>
              simp only [onward_ok, onward_err, onward_ub, onward_fuel] at ih2 ⊢ <;> omega
          | err => rw [h2] at ih; simp only [onward_err] at ih ⊢; omega
          | ub => rw [h2] at ih; simp only [onward_ub] at ih ⊢; omega
          | fuel => rw [h2] at ih; simp only [onward_fuel] at ih ⊢; omega
    | err => simp
    | ub => simp
    | fuel => simp

theorem skip_steps : ∀ (fuel : Nat) (depth : Int) (s : σ),
    skipSteps read fuel depth s + onward (skipScope read fuel depth s) μ ≤ μ s
  | 0, _, s => by simp [skipSteps, skipScope]
  | fuel + 1, depth, s => by
    rw [skipSteps, skipScope, onward_bind]
    cases h : read s with
    | ok x =>
      obtain ⟨⟨nm, tok⟩, s1⟩ := x
      have g := hp _ _ _ h
      have t := tok_gain own ⟨nm, tok⟩
      simp only [onward_ok]
      cases tok with
      | scopeEnd =>
        dsimp only
        split
        · simp only [onward_ok]; omega
        · have ih := skip_steps fuel (depth - 1) s1; omega
      | val v => have ih := skip_steps fuel depth s1; dsimp only; omega
      | scope ty => have ih := skip_steps fuel (depth + 1) s1; dsimp only; omega
    | err => simp
    | ub => simp
    | fuel => simp

theorem finish_steps (fuel : Nat) (n : LNode) (s : σ) :
    finishSteps read fuel n s + onward (finish read fuel n s) μ ≤ μ s := by
  rw [finishSteps, finish]
  split
  · simp
  · exact skip_steps hp _ _ _

omit hp in
/-- A token, and what is compared -/
theorem token_paid {t u g a b r : Nat} (h : g + b ≤ a) (ht : t ≤ g) (hg : 1 ≤ g) (hr : r ≤ (1 + u) * b) :
    t + (u + r) ≤ (1 + u) * a := by
  have h1 := Nat.mul_le_mul_left (1 + u) h
  have h2 := Nat.mul_le_mul_left u hg
  rw [Nat.mul_add, Nat.add_mul 1 u g] at h1
  omega

omit hp in
/-- A scope with what is in it -/
theorem scope_paid_by {x K a b r : Nat} (hK : 1 ≤ K) (h : x + b ≤ a) (hr : r ≤ K * b) : x + r ≤ K * a := by
  have h1 := Nat.mul_le_mul_left K h
  have h2 := Nat.mul_le_mul_right x hK
  rw [Nat.mul_add] at h1
  omega

theorem seekNode_steps : ∀ (fuel : Nat) (sel : Sel) (n : LNode) (s : σ),
    seekNodeSteps read fuel sel n s + (1 + sel.steps) * onward (seekNode read fuel sel n s) (fun x => μ x.2.2) ≤
      (1 + sel.steps) * μ s
  | 0, _, _, s => by simp [seekNodeSteps, seekNode]
  | fuel + 1, sel, n, s => by
    rw [seekNodeSteps, seekNode]
    split
    · simp
    rw [onward_bind]
    cases h : read s with
    | ok x =>
      obtain ⟨⟨nm, tok⟩, s1⟩ := x
      have g := hp _ _ _ h
      have t := tok_gain own ⟨nm, tok⟩
      simp only [onward_ok]
      cases tok with
      | scopeEnd =>
        simp only [onward_ok]
        have := Nat.mul_le_mul_left (1 + sel.steps) (show μ s1 ≤ μ s by omega)
        simp only [tokSteps]
        omega
      | val v =>
        have ih := seekNode_steps fuel sel (n.addValue nm v) s1
        dsimp only
        have := token_paid (u := sel.steps) g t (by simp only [gain]; omega) ih
        omega
      | scope ty =>
        dsimp only
        have tp := fun r hr => token_paid (u := sel.steps) (r := r) g t (by simp only [gain]; omega) hr
        split
        · simp only [onward_ok]
          have := tp _ (Nat.le_refl _)
          omega
        · have sc := scope_steps hp fuel 0 s1
          rw [onward_bind]
          cases h2 : readScope read fuel 0 s1 with
          | ok y =>
            obtain ⟨⟨vs, ns⟩, s2⟩ := y
            rw [h2] at sc
            have ih := seekNode_steps fuel sel (n.addNode nm (.mk ty vs ns)) s2
            simp only [onward_ok] at sc ⊢
            have := tp _ (scope_paid_by (by omega) sc ih)
            omega
          | err => rw [h2] at sc; have := tp _ (scope_paid_by (K := 1 + sel.steps) (by omega) sc (Nat.zero_le _)); simp only [onward_err] at this ⊢; omega
          | ub => rw [h2] at sc; have := tp _ (scope_paid_by (K := 1 + sel.steps) (by omega) sc (Nat.zero_le _)); simp only [onward_ub] at this ⊢; omega
          | fuel => rw [h2] at sc; have := tp _ (scope_paid_by (K := 1 + sel.steps) (by omega) sc (Nat.zero_le _)); simp only [onward_fuel] at this ⊢; omega
    | err => simp
    | ub => simp
    | fuel => simp

theorem seekValue_steps : ∀ (fuel : Nat) (sel : Sel) (n : LNode) (s : σ),
    seekValueSteps read fuel sel n s + (1 + sel.steps) * onward (seekValue read fuel sel n s) (fun x => μ x.2.2) ≤
      (1 + sel.steps) * μ s
  | 0, _, _, s => by simp [seekValueSteps, seekValue]
  | fuel + 1, sel, n, s => by
    rw [seekValueSteps, seekValue]
    split
    · simp
    rw [onward_bind]
    cases h : read s with
    | ok x =>
      obtain ⟨⟨nm, tok⟩, s1⟩ := x
      have g := hp _ _ _ h
      have t := tok_gain own ⟨nm, tok⟩
      simp only [onward_ok]
      cases tok with
      | scopeEnd =>
        simp only [onward_ok]
        have := Nat.mul_le_mul_left (1 + sel.steps) (show μ s1 ≤ μ s by omega)
        simp only [tokSteps]
        omega
      | val v =>
        dsimp only
        have tp := fun r hr => token_paid (u := sel.steps) (r := r) g t (by simp only [gain]; omega) hr
        split
        · simp only [onward_ok]
          have := tp _ (Nat.le_refl _)
          omega
        · have ih := seekValue_steps fuel sel (n.addValue nm v) s1
          have := tp _ ih
          omega
      | scope ty =>
        dsimp only
        have tp := fun r hr => token_paid (u := sel.steps) (r := r) g t (by simp only [gain]; omega) hr
        have sc := scope_steps hp fuel 0 s1
        rw [onward_bind]
        cases h2 : readScope read fuel 0 s1 with
        | ok y =>
          obtain ⟨⟨vs, ns⟩, s2⟩ := y
          rw [h2] at sc
          have ih := seekValue_steps fuel sel (n.addNode nm (.mk ty vs ns)) s2
          simp only [onward_ok] at sc ⊢
          have := tp _ (scope_paid_by (by omega) sc ih)
          omega
        | err => rw [h2] at sc; have := tp _ (scope_paid_by (K := 1 + sel.steps) (by omega) sc (Nat.zero_le _)); simp only [onward_err] at this ⊢; omega
        | ub => rw [h2] at sc; have := tp _ (scope_paid_by (K := 1 + sel.steps) (by omega) sc (Nat.zero_le _)); simp only [onward_ub] at this ⊢; omega
        | fuel => rw [h2] at sc; have := tp _ (scope_paid_by (K := 1 + sel.steps) (by omega) sc (Nat.zero_le _)); simp only [onward_fuel] at this ⊢; omega
    | err => simp
    | ub => simp
    | fuel => simp

theorem seekItem_steps : ∀ (fuel : Nat) (name : Bytes) (n : LNode) (s : σ),
    seekItemSteps read fuel name n s + (1 + (1 + name.length)) * onward (seekItem read fuel name n s) (fun x => μ x.2.2) ≤
      (1 + (1 + name.length)) * μ s
  | 0, _, _, s => by simp [seekItemSteps, seekItem]
  | fuel + 1, name, n, s => by
    rw [seekItemSteps, seekItem]
    split
    · simp
    rw [onward_bind]
    cases h : read s with
    | ok x =>
      obtain ⟨⟨nm, tok⟩, s1⟩ := x
      have g := hp _ _ _ h
      have t := tok_gain own ⟨nm, tok⟩
      simp only [onward_ok]
      cases tok with
      | scopeEnd =>
        simp only [onward_ok]
        have := Nat.mul_le_mul_left (1 + (1 + name.length)) (show μ s1 ≤ μ s by omega)
        simp only [tokSteps]
        omega
      | val v =>
        dsimp only
        have tp := fun r hr => token_paid (u := 1 + name.length) (r := r) g t (by simp only [gain]; omega) hr
        split
        · simp only [onward_ok]
          have := tp _ (Nat.le_refl _)
          omega
        · have ih := seekItem_steps fuel name (n.addValue nm v) s1
          have := tp _ ih
          omega
      | scope ty =>
        dsimp only
        have tp := fun r hr => token_paid (u := 1 + name.length) (r := r) g t (by simp only [gain]; omega) hr
        have sc := scope_steps hp fuel 0 s1
        rw [onward_bind]
        cases h2 : readScope read fuel 0 s1 with
        | ok y =>
          obtain ⟨⟨vs, ns⟩, s2⟩ := y
          rw [h2] at sc
          simp only [onward_ok] at sc ⊢
          split
          · simp only [onward_ok]
            have := tp _ (scope_paid_by (K := 1 + (1 + name.length)) (by omega) sc (Nat.le_refl _))
            omega
          · have ih := seekItem_steps fuel name (n.addNode nm (.mk ty vs ns)) s2
            have := tp _ (scope_paid_by (by omega) sc ih)
            omega
        | err => rw [h2] at sc; have := tp _ (scope_paid_by (K := 1 + (1 + name.length)) (by omega) sc (Nat.zero_le _)); simp only [onward_err] at this ⊢; omega
        | ub => rw [h2] at sc; have := tp _ (scope_paid_by (K := 1 + (1 + name.length)) (by omega) sc (Nat.zero_le _)); simp only [onward_ub] at this ⊢; omega
        | fuel => rw [h2] at sc; have := tp _ (scope_paid_by (K := 1 + (1 + name.length)) (by omega) sc (Nat.zero_le _)); simp only [onward_fuel] at this ⊢; omega
    | err => simp
    | ub => simp
    | fuel => simp

theorem has_steps (fuel : Nat) (node : Bool) (name : Bytes) (n : LNode) (s : σ) :
    hasSteps read fuel node name n s + (2 + name.length) * onward (has read fuel node name n s) (fun x => μ x.2.2) ≤
      (2 + name.length) * (held own n + μ s) := by
  have h1 := findSteps_le name n.nodes
  have h2 := findSteps_le name n.values
  have h3 := Nat.mul_le_mul_left (1 + name.length) (nodes_held own n)
  have h4 := held_pos own n
  have h5 := seekItem_steps hp fuel name n s
  have e : 1 + (1 + name.length) = 2 + name.length := by omega
  rw [e] at h5
  have e2 : (2 + name.length) * (held own n + μ s) = held own n + (1 + name.length) * held own n + (2 + name.length) * μ s := by
    rw [Nat.mul_add, show 2 + name.length = 1 + (1 + name.length) by omega, Nat.add_mul 1, Nat.one_mul]
  rw [e2, hasSteps, has]
  rw [Nat.mul_add, Nat.mul_add, Nat.mul_one] at h3
  split
  · simp only [onward_ok]
    split <;> omega
  · split
    · simp only [onward_ok]; omega
    · split
      · simp only [onward_ok]; omega
      · rw [onward_bind]
        have e3 : (onward (seekItem read fuel name n s) fun a => onward (.ok (a.1 == some node, a.2.1, a.2.2)) fun x => μ x.2.2) =
          onward (seekItem read fuel name n s) fun x => μ x.2.2 := rfl
        simp only [e3]
        omega

theorem consumeNode_steps (fuel : Nat) (sel : Sel) (n : LNode) (s : σ) :
    consumeNodeSteps read fuel sel n s + (1 + sel.steps) * onward (consumeNode read fuel sel n s) (fun x => μ x.2.2) ≤
      takeSteps sel n.nodes + (1 + sel.steps) * μ s := by
  rw [consumeNodeSteps, consumeNode]
  cases h : takeOut sel n.nodes with
  | some x => obtain ⟨⟨nm, ⟨t, vs, ns⟩⟩, rest⟩ := x; simp
  | none =>
    dsimp only
    rw [onward_bind]
    have := seekNode_steps hp fuel sel n s
    rcases h2 : seekNode read fuel sel n s with ⟨r, n1, s1⟩ | _ | _ | _ <;> rw [h2] at this <;>
      simp only [onward_ok, onward_err, onward_ub, onward_fuel] at this ⊢ <;> omega

theorem consumeValue_steps (fuel : Nat) (sel : Sel) (n : LNode) (s : σ) :
    consumeValueSteps read fuel sel n s + (1 + sel.steps) * onward (consumeValue read fuel sel n s) (fun x => μ x.2.2) ≤
      takeSteps sel n.values + (1 + sel.steps) * μ s := by
  rw [consumeValueSteps, consumeValue]
  cases h : takeOut sel n.values with
  | some x => simp
  | none =>
    dsimp only
    have := seekValue_steps hp fuel sel n s
    omega

/-! ## Loops -/

theorem vecNodes_steps {total C : Nat} {f : Bytes × LNode → σ → Res (Obj × σ)} {g : Bytes × LNode → σ → Nat}
    (hf : ∀ c s, g c s + C * onward (f c s) (fun x => μ x.2) ≤ C * (held own c.2 + nameBytes own c.1 + μ s))
    (hm : ∀ c s, onward (f c s) (fun x => μ x.2) ≤ μ s) :
    ∀ (fuel : Nat) (n : LNode) (s : σ),
      vecNodesSteps read total f g fuel n s + (C + 4) * onward (vecNodes read total f fuel n s) (fun x => μ x.2.2) ≤
        2 * μ s + (C + 2) * (held own n + μ s) ∧
      onward (vecNodes read total f fuel n s) (fun x => μ x.2.2) ≤ μ s
  | 0, n, s => by simp [vecNodesSteps, vecNodes]
  | fuel + 1, n, s => by
    have cs := consumeNode_steps hp total (.index 0) n s
    have hpos := held_pos own n
    simp only [Sel.steps, takeSteps] at cs
    rw [vecNodesSteps, vecNodes, onward_bind]
    cases h : consumeNode read total (.index 0) n s with
    | err => rw [h] at cs; simp only [onward_err] at cs ⊢; simp only [Nat.add_mul, Nat.mul_add] at *; omega
    | ub => rw [h] at cs; simp only [onward_ub] at cs ⊢; simp only [Nat.add_mul, Nat.mul_add] at *; omega
    | fuel => rw [h] at cs; simp only [onward_fuel] at cs ⊢; simp only [Nat.add_mul, Nat.mul_add] at *; omega
    | ok x =>
      obtain ⟨c, n1, s1⟩ := x
      obtain ⟨a, b⟩ := consumeNode_paid hp h
      rw [h] at cs
      simp only [onward_ok] at cs ⊢
      have aC := Nat.mul_le_mul_left C a
      split
      · simp only [onward_ok]
        simp only [Nat.add_mul, Nat.mul_add] at *
        omega
      · cases c with
        | none =>
          simp only [onward_ub]
          simp only [Nat.add_mul, Nat.mul_add] at *
          omega
        | some c =>
          have f1 := hf c s1
          have m1 := hm c s1
          have bC := Nat.mul_le_mul_left C b
          have q := held_pos own c.2
          simp only [Option.elim] at b bC
          simp only [onward_bind]
          cases h2 : f c s1 with
          | ok y =>
            obtain ⟨y, s2⟩ := y
            rw [h2] at f1 m1
            simp only [onward_ok] at f1 m1 ⊢
            obtain ⟨u, v⟩ := vecNodes_steps hf hm fuel n1 s2
            rcases h3 : vecNodes read total f fuel n1 s2 with ⟨ys, n2, s3⟩ | _ | _ | _ <;> rw [h3] at u v <;>
              simp only [onward_ok, onward_err, onward_ub, onward_fuel] at u v ⊢ <;> simp only [Nat.add_mul, Nat.mul_add] at * <;>
              omega
          | err => rw [h2] at f1; simp only [onward_err] at f1 ⊢; simp only [Nat.add_mul, Nat.mul_add] at *; omega
          | ub => rw [h2] at f1; simp only [onward_ub] at f1 ⊢; simp only [Nat.add_mul, Nat.mul_add] at *; omega
          | fuel => rw [h2] at f1; simp only [onward_fuel] at f1 ⊢; simp only [Nat.add_mul, Nat.mul_add] at *; omega

theorem vecValues_steps {total C : Nat} {f : Bytes × Val → Res Obj} {g : Bytes × Val → Nat}
    (hf : ∀ c, g c ≤ C * itemV own c) :
    ∀ (fuel : Nat) (n : LNode) (s : σ),
      vecValuesSteps read total f g fuel n s + (C + 4) * onward (vecValues read total f fuel n s) (fun x => μ x.2.2) ≤
        2 * μ s + (C + 2) * (held own n + μ s) ∧
      onward (vecValues read total f fuel n s) (fun x => μ x.2.2) ≤ μ s
  | 0, n, s => by simp [vecValuesSteps, vecValues]
  | fuel + 1, n, s => by
    have cs := consumeValue_steps hp total (.index 0) n s
    have hpos := held_pos own n
    simp only [Sel.steps, takeSteps] at cs
    rw [vecValuesSteps, vecValues, onward_bind]
    cases h : consumeValue read total (.index 0) n s with
    | err => rw [h] at cs; simp only [onward_err] at cs ⊢; simp only [Nat.add_mul, Nat.mul_add] at *; omega
    | ub => rw [h] at cs; simp only [onward_ub] at cs ⊢; simp only [Nat.add_mul, Nat.mul_add] at *; omega
    | fuel => rw [h] at cs; simp only [onward_fuel] at cs ⊢; simp only [Nat.add_mul, Nat.mul_add] at *; omega
    | ok x =>
      obtain ⟨c, n1, s1⟩ := x
      obtain ⟨a, b⟩ := consumeValue_paid hp h
      rw [h] at cs
      simp only [onward_ok] at cs ⊢
      have aC := Nat.mul_le_mul_left C a
      split
      · simp only [onward_ok]
        simp only [Nat.add_mul, Nat.mul_add] at *
        omega
      · cases c with
        | none =>
          simp only [onward_ub]
          simp only [Nat.add_mul, Nat.mul_add] at *
          omega
        | some c =>
          have f1 := hf c
          have bC := Nat.mul_le_mul_left C b
          have q : 1 ≤ itemV own c := by unfold itemV; omega
          simp only [Option.elim] at b bC
          simp only [onward_bind]
          cases h2 : f c with
          | ok y =>
            simp only [onward_ok]
            obtain ⟨u, v⟩ := vecValues_steps hf fuel n1 s1
            rcases h3 : vecValues read total f fuel n1 s1 with ⟨ys, n2, s3⟩ | _ | _ | _ <;> rw [h3] at u v <;>
              simp only [onward_ok, onward_err, onward_ub, onward_fuel] at u v ⊢ <;> simp only [Nat.add_mul, Nat.mul_add] at * <;>
              omega
          | err => simp only [onward_err]; simp only [Nat.add_mul, Nat.mul_add] at *; omega
          | ub => simp only [onward_ub]; simp only [Nat.add_mul, Nat.mul_add] at *; omega
          | fuel => simp only [onward_fuel]; simp only [Nat.add_mul, Nat.mul_add] at *; omega

theorem arrNodes_steps {total C : Nat} {f : Obj → LNode → σ → Res (Obj × σ)} {g : Obj → LNode → σ → Nat}
    (hf : ∀ o c s, g o c s + C * onward (f o c s) (fun x => μ x.2) ≤ C * (held own c + μ s))
    (hm : ∀ o c s, onward (f o c s) (fun x => μ x.2) ≤ μ s) :
    ∀ (os : List Obj) (n : LNode) (s : σ),
      arrNodesSteps read total f g os n s + (C + 4) * onward (arrNodes read total f os n s) (fun x => μ x.2.2) ≤
        2 * μ s + (C + 2) * (held own n + μ s) ∧
      onward (arrNodes read total f os n s) (fun x => μ x.2.2) ≤ μ s
  | [], n, s => by
    simp only [arrNodesSteps, arrNodes, onward_ok, Nat.add_mul, Nat.mul_add]; omega
  | o :: os, n, s => by
    have cs := consumeNode_steps hp total (.index 0) n s
    have hpos := held_pos own n
    simp only [Sel.steps, takeSteps] at cs
    rw [arrNodesSteps, arrNodes]
    split
    · simp only [onward_err]; simp only [Nat.add_mul, Nat.mul_add] at *; omega
    rw [onward_bind]
    cases h : consumeNode read total (.index 0) n s with
    | err => rw [h] at cs; simp only [onward_err] at cs ⊢; simp only [Nat.add_mul, Nat.mul_add] at *; omega
    | ub => rw [h] at cs; simp only [onward_ub] at cs ⊢; simp only [Nat.add_mul, Nat.mul_add] at *; omega
    | fuel => rw [h] at cs; simp only [onward_fuel] at cs ⊢; simp only [Nat.add_mul, Nat.mul_add] at *; omega
    | ok x =>
      obtain ⟨c, n1, s1⟩ := x
      obtain ⟨a, b⟩ := consumeNode_paid hp h
      rw [h] at cs
      simp only [onward_ok] at cs ⊢
      have aC := Nat.mul_le_mul_left C a
      cases c with
      | none =>
        simp only [onward_err]
        simp only [Nat.add_mul, Nat.mul_add] at *
        omega
      | some c =>
        obtain ⟨nm, c⟩ := c
        have f1 := hf o c s1
        have m1 := hm o c s1
        have bC := Nat.mul_le_mul_left C b
        have q := held_pos own c
        simp only [Option.elim] at b bC
        simp only [onward_bind]
        cases h2 : f o c s1 with
        | ok y =>
          obtain ⟨y, s2⟩ := y
          rw [h2] at f1 m1
          simp only [onward_ok] at f1 m1 ⊢
          obtain ⟨u, v⟩ := arrNodes_steps hf hm os n1 s2
          rcases h3 : arrNodes read total f os n1 s2 with ⟨ys, n2, s3⟩ | _ | _ | _ <;> rw [h3] at u v <;>
            simp only [onward_ok, onward_err, onward_ub, onward_fuel] at u v ⊢ <;> simp only [Nat.add_mul, Nat.mul_add] at * <;>
            omega
        | err => rw [h2] at f1; simp only [onward_err] at f1 ⊢; simp only [Nat.add_mul, Nat.mul_add] at *; omega
        | ub => rw [h2] at f1; simp only [onward_ub] at f1 ⊢; simp only [Nat.add_mul, Nat.mul_add] at *; omega
        | fuel => rw [h2] at f1; simp only [onward_fuel] at f1 ⊢; simp only [Nat.add_mul, Nat.mul_add] at *; omega

theorem arrValues_steps {total C : Nat} {f : Obj → Val → Res Obj} {g : Val → Nat}
    (hf : ∀ v, g v ≤ C * (1 + valBytes v)) :
    ∀ (os : List Obj) (n : LNode) (s : σ),
      arrValuesSteps read total f g os n s + (C + 4) * onward (arrValues read total f os n s) (fun x => μ x.2.2) ≤
        2 * μ s + (C + 2) * (held own n + μ s) ∧
      onward (arrValues read total f os n s) (fun x => μ x.2.2) ≤ μ s
  | [], n, s => by
    simp only [arrValuesSteps, arrValues, onward_ok, Nat.add_mul, Nat.mul_add]; omega
  | o :: os, n, s => by
    have cs := consumeValue_steps hp total (.index 0) n s
    have hpos := held_pos own n
    simp only [Sel.steps, takeSteps] at cs
    rw [arrValuesSteps, arrValues]
    split
    · simp only [onward_err]; simp only [Nat.add_mul, Nat.mul_add] at *; omega
    rw [onward_bind]
    cases h : consumeValue read total (.index 0) n s with
    | err => rw [h] at cs; simp only [onward_err] at cs ⊢; simp only [Nat.add_mul, Nat.mul_add] at *; omega
    | ub => rw [h] at cs; simp only [onward_ub] at cs ⊢; simp only [Nat.add_mul, Nat.mul_add] at *; omega
    | fuel => rw [h] at cs; simp only [onward_fuel] at cs ⊢; simp only [Nat.add_mul, Nat.mul_add] at *; omega
    | ok x =>
      obtain ⟨c, n1, s1⟩ := x
      obtain ⟨a, b⟩ := consumeValue_paid hp h
      rw [h] at cs
      simp only [onward_ok] at cs ⊢
      have aC := Nat.mul_le_mul_left C a
      cases c with
      | none =>
        simp only [onward_err]
        simp only [Nat.add_mul, Nat.mul_add] at *
        omega
      | some c =>
        obtain ⟨nm, c⟩ := c
        have f1 := hf c
        simp only [Option.elim, itemV] at b
        have bC := Nat.mul_le_mul_left C b
        simp only [onward_bind]
        cases h2 : f o c with
        | ok y =>
          simp only [onward_ok]
          obtain ⟨u, v⟩ := arrValues_steps hf os n1 s1
          rcases h3 : arrValues read total f os n1 s1 with ⟨ys, n2, s3⟩ | _ | _ | _ <;> rw [h3] at u v <;>
            simp only [onward_ok, onward_err, onward_ub, onward_fuel] at u v ⊢ <;> simp only [Nat.add_mul, Nat.mul_add] at * <;>
            omega
        | err => simp only [onward_err]; simp only [Nat.add_mul, Nat.mul_add] at *; omega
        | ub => simp only [onward_ub]; simp only [Nat.add_mul, Nat.mul_add] at *; omega
        | fuel => simp only [onward_fuel]; simp only [Nat.add_mul, Nat.mul_add] at *; omega

end Srl.Typed
