import Verif.Model.RestoreCost
import Verif.Props.MemorySpec

/-! # Helper lemmas about the steps of restoring -/

namespace Srl.Typed
open Props

theorem thenSteps_le {α : Type} (r : Res α) (n : Nat) : thenSteps r n ≤ n := by
  cases r <;> simp [thenSteps]

theorem findSteps_le {α : Type} (name : Bytes) : ∀ xs : List (Bytes × α), findSteps name xs ≤ (1 + name.length) * xs.length
  | [] => by simp [findSteps]
  | (n, x) :: xs => by
    have := findSteps_le name xs
    rw [findSteps, List.length_cons, Nat.mul_succ]
    split <;> omega

theorem lookupSteps_le {α : Type} (name : Bytes) (i : Nat) (xs : List (Bytes × α)) :
    lookupSteps (.of name i) xs ≤ name.length + (1 + name.length) * xs.length + 1 := by
  unfold Sel.of
  split
  · rename_i h
    subst h
    simp only [lookupSteps, List.length_nil]
    split <;> omega
  · have := findSteps_le name xs
    simp only [lookupSteps]
    omega

theorem valSteps_le (v : Val) : valSteps v ≤ 1 + Room.valBytes v := by
  cases v <;> simp [valSteps, Room.valBytes]

theorem mapSteps_le {α β : Type} (f : α → Res β) (g w : α → Nat) : ∀ (xs : List α), (∀ x ∈ xs, 1 + g x ≤ w x) →
    mapSteps f g xs ≤ (xs.map w).sum
  | [], _ => by simp [mapSteps]
  | x :: xs, h => by
    have h1 := mapSteps_le f g w xs fun y hy => h y (by simp [hy])
    have h2 := h x (by simp)
    have h3 := thenSteps_le (f x) (mapSteps f g xs)
    rw [mapSteps, List.map_cons, List.sum_cons]
    omega

theorem zipSteps_le {α : Type} (f : Obj → α → Res Obj) (g : Obj → α → Nat) (w : α → Nat) : ∀ (os : List Obj) (xs : List α),
    (∀ o, ∀ x ∈ xs, 1 + g o x ≤ w x) → zipSteps f g os xs ≤ (xs.map w).sum
  | _, [], _ => by simp [zipSteps]
  | [], _ :: _, _ => by simp [zipSteps]
  | o :: os, x :: xs, h => by
    have h1 := zipSteps_le f g w os xs fun o y hy => h o y (by simp [hy])
    have h2 := h o x (by simp)
    have h3 := thenSteps_le (f o x) (zipSteps f g os xs)
    rw [zipSteps, List.map_cons, List.sum_cons]
    omega

theorem sizes_sum (own : Bool) (ns : List (Bytes × Node)) :
    Room.sizes own ns = (ns.map fun p => Room.nameBytes own p.1 + Room.size own p.2).sum := by
  induction ns with
  | nil => simp [Room.sizes]
  | cons p ns ih => obtain ⟨n, x⟩ := p; simp [Room.sizes, ih]

theorem sum_scale {α : Type} (k : Nat) (f : α → Nat) (xs : List α) : (xs.map fun x => k * f x).sum = k * (xs.map f).sum := by
  induction xs with
  | nil => simp
  | cons x xs ih => simp [ih, Nat.mul_add]

theorem size_one (own : Bool) : ∀ n : Node, 1 ≤ Room.size own n
  | .mk _ _ _ => by rw [Room.size]; omega

theorem length_le_sum {α : Type} (f : α → Nat) : ∀ (xs : List α), (∀ x ∈ xs, 1 ≤ f x) → xs.length ≤ (xs.map f).sum
  | [], _ => by simp
  | x :: xs, h => by
    have h1 := length_le_sum f xs fun y hy => h y (by simp [hy])
    have h2 := h x (by simp)
    rw [List.map_cons, List.sum_cons, List.length_cons]
    omega

theorem mem_le_sum {α : Type} (f : α → Nat) : ∀ (xs : List α) (x : α), x ∈ xs → f x ≤ (xs.map f).sum
  | y :: xs, x, h => by
    rw [List.map_cons, List.sum_cons]
    rcases List.mem_cons.mp h with rfl | h
    · omega
    · have := mem_le_sum f xs x h
      omega

/-- The items of a node -/
theorem size_parts (own : Bool) (t : ScopeTy) (vs : List (Bytes × Val)) (ns : List (Bytes × Node)) :
    Room.size own (.mk t vs ns) = 1 + (vs.map fun p => 1 + Room.valBytes p.2 + Room.nameBytes own p.1).sum +
      (ns.map fun p => Room.nameBytes own p.1 + Room.size own p.2).sum := by
  rw [Room.size, sizes_sum]

theorem findName_item {α : Type} {name : Bytes} {x : α} : ∀ {xs : List (Bytes × α)}, findName name xs = some x →
    ∃ p ∈ xs, p.2 = x
  | [], h => by cases h
  | (n, y) :: xs, h => by
    rw [findName] at h
    split at h
    · cases h; exact ⟨(n, x), by simp, rfl⟩
    · obtain ⟨p, hp, he⟩ := findName_item h
      exact ⟨p, by simp [hp], he⟩

theorem lookup_item {α : Type} {sel : Sel} {xs : List (Bytes × α)} {x : α} (h : lookup sel xs = .ok x) : ∃ p ∈ xs, p.2 = x := by
  cases sel with
  | name n =>
    simp only [lookup] at h
    split at h
    · cases h; exact findName_item (by assumption)
    · cases h
  | index i =>
    simp only [lookup] at h
    split at h
    · rename_i p hp
      cases h
      exact ⟨p, List.mem_of_getElem? hp, rfl⟩
    · cases h

end Srl.Typed
