import Verif.Lemmas.SharedRestore

/-! Weak pointers of copies. -/

namespace Srl.Shared
open Typed

mutual
theorem strong_relabel (m : Nat → Nat) : ∀ (ty : GTy) (o : Obj),
    strong ty (relabel m ty o) = (strong ty o).map m
  | .plain _, o => by cases o <;> simp [relabel, strong]
  | .vec e, o => by
    cases o <;> simp only [relabel, strong, List.map_nil]
    rename_i xs
    induction xs with
    | nil => rfl
    | cons x xs ih =>
      simp only [List.map_cons, List.flatMap_cons, List.map_append, ih, strong_relabel m e x]
  | .record fs, o => by
    cases o <;> simp only [relabel, strong, List.map_nil]
    exact strongL_relabel m fs _
  | .shared w c, o => by
    cases o with
    | ref o =>
      cases o with
      | int v =>
        cases v with
        | ofNat a => cases w <;> simp [relabel, strong, addr]
        | negSucc a => cases w <;> simp [relabel, strong]
      | _ => cases w <;> simp [relabel, strong]
    | _ => cases w <;> simp [relabel, strong]
theorem strongL_relabel (m : Nat → Nat) : ∀ (fs : GFields) (xs : List Obj),
    strongL fs (relabelL m fs xs) = (strongL fs xs).map m
  | .nil, xs => by simp only [relabelL, strongL, List.map_nil]
  | .cons _ ty rest, [] => by simp only [relabelL, strongL, List.map_nil]
  | .cons _ ty rest, x :: xs => by
    simp only [relabelL, strongL, List.map_append, strong_relabel m ty x, strongL_relabel m rest xs]
end

mutual
theorem weak_relabel (m : Nat → Nat) : ∀ (ty : GTy) (o : Obj),
    weak ty (relabel m ty o) = (weak ty o).map m
  | .plain _, o => by cases o <;> simp [relabel, weak]
  | .vec e, o => by
    cases o <;> simp only [relabel, weak, List.map_nil]
    rename_i xs
    induction xs with
    | nil => rfl
    | cons x xs ih =>
      simp only [List.map_cons, List.flatMap_cons, List.map_append, ih, weak_relabel m e x]
  | .record fs, o => by
    cases o <;> simp only [relabel, weak, List.map_nil]
    exact weakL_relabel m fs _
  | .shared w c, o => by
    cases o with
    | ref o =>
      cases o with
      | int v =>
        cases v with
        | ofNat a => cases w <;> simp [relabel, weak, addr]
        | negSucc a => cases w <;> simp [relabel, weak]
      | _ => cases w <;> simp [relabel, weak]
    | _ => cases w <;> simp [relabel, weak]
theorem weakL_relabel (m : Nat → Nat) : ∀ (fs : GFields) (xs : List Obj),
    weakL fs (relabelL m fs xs) = (weakL fs xs).map m
  | .nil, xs => by simp only [relabelL, weakL, List.map_nil]
  | .cons _ ty rest, [] => by simp only [relabelL, weakL, List.map_nil]
  | .cons _ ty rest, x :: xs => by
    simp only [relabelL, weakL, List.map_append, weak_relabel m ty x, weakL_relabel m rest xs]
end

mutual
theorem strong_refs : ∀ (ty : GTy) (o : Obj) (a : Nat), a ∈ strong ty o → ∃ c, (c, a) ∈ refs ty o
  | .plain _, o, a, h => by cases o <;> simp [strong] at h
  | .vec e, o, a, h => by
    cases o <;> simp only [strong, List.mem_flatMap, List.not_mem_nil] at h
    obtain ⟨x, hx, h⟩ := h
    obtain ⟨c, hc⟩ := strong_refs e x a h
    exact ⟨c, by simp only [refs, List.mem_flatMap]; exact ⟨x, hx, hc⟩⟩
  | .record fs, o, a, h => by
    cases o <;> simp only [strong, List.not_mem_nil] at h
    obtain ⟨c, hc⟩ := strongL_refs fs _ a h
    exact ⟨c, by simpa only [refs] using hc⟩
  | .shared w c, o, a, h => by
    unfold strong at h
    split at h
    case h_1 => simp at *
    case h_2 => simp at *
    case h_3 h1 h2 => 
      simp only [List.mem_singleton] at h
      subst h
      exact ⟨c, by simp [refs]⟩
    case h_4 => simp at h
theorem strongL_refs : ∀ (fs : GFields) (xs : List Obj) (a : Nat), a ∈ strongL fs xs →
    ∃ c, (c, a) ∈ refsL fs xs
  | .nil, xs, a, h => by simp [strongL] at h
  | .cons _ ty rest, [], a, h => by simp [strongL] at h
  | .cons _ ty rest, x :: xs, a, h => by
    simp only [strongL, List.mem_append] at h
    rcases h with h | h
    · obtain ⟨c, hc⟩ := strong_refs ty x a h
      exact ⟨c, by simp only [refsL, List.mem_append]; exact .inl hc⟩
    · obtain ⟨c, hc⟩ := strongL_refs rest xs a h
      exact ⟨c, by simp only [refsL, List.mem_append]; exact .inr hc⟩
end

theorem owns_reach {C : Nat → GTy} {G : Graph} {ty : GTy} {o : Obj} {a : Nat} (h : Owns C G ty o a) :
    Reach C G ty o a := by
  induction h with
  | root h => obtain ⟨c, hc⟩ := strong_refs _ _ _ h; exact .root hc
  | step _ h ih => obtain ⟨c, hc⟩ := strong_refs _ _ _ h; exact .step ih hc

section
variable {m : Nat → Nat} {C : Nat → GTy} {G : Graph} {ty : GTy} {o y : Obj} {heap : List (Nat × Obj)}

theorem graphOf_copy (h : CopyBy m C G ty o y heap) {a : Nat} (ha : Reach C G ty o a) :
    (graphOf heap).cls (m a) = G.cls a ∧
    (graphOf heap).obj (m a) = relabel m (C (G.cls a)) (G.obj a) := by
  simp only [graphOf, h.2.2.1 a ha, Option.getD_some, and_self]

theorem owns_of_copy (h : CopyBy m C G ty o y heap) {x : Nat} (hx : Owns C (graphOf heap) ty y x) :
    ∃ a, Owns C G ty o a ∧ m a = x := by
  induction hx with
  | root hx =>
    rw [h.2.1, strong_relabel, List.mem_map] at hx
    obtain ⟨a, ha, rfl⟩ := hx
    exact ⟨a, .root ha, rfl⟩
  | step _ hx ih =>
    obtain ⟨b, hb, rfl⟩ := ih
    obtain ⟨h1, h2⟩ := graphOf_copy h (owns_reach hb)
    rw [h1, h2, strong_relabel, List.mem_map] at hx
    obtain ⟨a, ha, rfl⟩ := hx
    exact ⟨a, .step hb ha, rfl⟩

theorem copy_owns (h : CopyBy m C G ty o y heap) {a : Nat} (ha : Owns C G ty o a) :
    Owns C (graphOf heap) ty y (m a) := by
  induction ha with
  | root ha =>
    apply Owns.root
    rw [h.2.1, strong_relabel]
    exact List.mem_map_of_mem ha
  | step hb ha ih =>
    refine .step ih ?_
    obtain ⟨h1, h2⟩ := graphOf_copy h (owns_reach hb)
    rw [h1, h2, strong_relabel]
    exact List.mem_map_of_mem ha

end

end Srl.Shared
