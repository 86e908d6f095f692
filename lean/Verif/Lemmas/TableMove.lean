import Verif.Model.TableMoveSpec

/-! # Lemmas about moved hash tables -/

namespace Srl.TableMove

open HTable (Tbl Op Ans Cfg Inv)
open Props (Map Allows Abs)

variable {K V : Type}

/-- Only `fresh` differs. -/
theorem inv_fresh {cfg : Cfg K} {t : Tbl K V} {n : Nat} (h : Inv cfg t) (hn : t.fresh ≤ n) :
    Inv cfg { t with fresh := n } := by
  obtain ⟨a, b, c, d, e, f, g, i, j⟩ := h
  exact ⟨a, b, c, d, e, f, fun x hx => Nat.lt_of_lt_of_le (g x hx) hn, i, j⟩

section
variable [DecidableEq K]

theorem insert_fresh {cfg : Cfg K} {u : Bool} {t t' : Tbl K V} {k : K} {v : V} {x : Bool × Nat × V}
    (h : HTable.insertHash cfg u t k v = .ok (t', x)) : t.fresh ≤ t'.fresh := by
  rw [HTable.insertHash, Res.bind_eq_ok] at h
  obtain ⟨t1, h1, h⟩ := h
  have hf : t1.fresh = t.fresh := by
    rw [HTable.grow] at h1
    split at h1
    · rw [HTable.redistribute] at h1
      split at h1
      · cases h1; rfl
      · split at h1
        · cases h1
        · cases h1; rfl
    · cases h1; rfl
  simp only [Res.bind_eq_ok] at h
  obtain ⟨c, -, h⟩ := h
  split at h
  · split at h
    · cases h; exact hf ▸ Nat.le_refl _
    · cases h; exact hf ▸ Nat.le_refl _
  · cases hc : t1.cache <;> rw [hc] at h <;> cases h
    · show t.fresh ≤ t1.fresh + 1
      omega
    · exact hf ▸ Nat.le_refl _

theorem step_fresh {cfg : Cfg K} {t t' : Tbl K V} {o : Op K V} {a : Ans K V}
    (h : HTable.step cfg t o = .ok (t', a)) : t.fresh ≤ t'.fresh := by
  cases o <;> simp only [HTable.step, Res.bind_eq_ok] at h
  case insert k v =>
    obtain ⟨⟨t1, x⟩, h1, h⟩ := h
    cases h; exact insert_fresh h1
  case upsert k v =>
    obtain ⟨⟨t1, x⟩, h1, h⟩ := h
    cases h; exact insert_fresh h1
  case get k => obtain ⟨_, -, h⟩ := h; cases h; exact Nat.le_refl _
  case modify k f =>
    obtain ⟨t1, h1, h⟩ := h
    cases h
    rw [HTable.modify] at h1
    split at h1
    · cases h1; exact Nat.le_refl _
    · split at h1
      · cases h1
      · simp only at h1
        split at h1
        · cases h1; exact Nat.le_refl _
        · cases h1
  case remove k =>
    obtain ⟨t1, h1, h⟩ := h
    cases h
    simp only [HTable.remove, Res.bind_eq_ok] at h1
    obtain ⟨⟨t2, x⟩, h2, h1⟩ := h1
    cases h1
    rw [HTable.extract] at h2
    split at h2
    · cases h2; exact Nat.le_refl _
    · simp only [Res.bind_eq_ok] at h2
      obtain ⟨c, -, h2⟩ := h2
      split at h2 <;> cases h2 <;> exact Nat.le_refl _
  case extract k =>
    obtain ⟨⟨t2, x⟩, h2, h1⟩ := h
    cases h1
    rw [HTable.extract] at h2
    split at h2
    · cases h2; exact Nat.le_refl _
    · simp only [Res.bind_eq_ok] at h2
      obtain ⟨c, -, h2⟩ := h2
      split at h2 <;> cases h2 <;> exact Nat.le_refl _
  case removeIf p =>
    obtain ⟨⟨t2, x⟩, h2, h1⟩ := h
    cases h1
    rw [HTable.removeIf] at h2
    split at h2
    · cases h2; exact Nat.le_refl _
    · split at h2 <;> cases h2 <;> exact Nat.le_refl _
  case foreach f =>
    obtain ⟨⟨t2, x⟩, h2, h1⟩ := h
    cases h1
    rw [HTable.foreach] at h2
    split at h2
    · cases h2; exact Nat.le_refl _
    · split at h2 <;> cases h2 <;> exact Nat.le_refl _
  case iterate => obtain ⟨_, -, h⟩ := h; cases h; exact Nat.le_refl _
  case size => cases h; exact Nat.le_refl _
  case clear =>
    cases h
    rw [HTable.clear]
    split <;> exact Nat.le_refl _

/-- Inserting into a table without limit does not look at its array. -/
theorem insert_anew {cfg : Cfg K} {u : Bool} {t : Tbl K V} (hl : t.limit = 0) (k : K) (v : V) :
    HTable.insertHash cfg u t k v = HTable.insertHash cfg u { t with table := none } k v := by
  have h : ∀ x : Option (List (List (HTable.Entry K V))), HTable.grow cfg { t with table := x } =
      .ok { HTable.setCapacity cfg t t.cap with
        table := some (List.replicate (HTable.setCapacity cfg t t.cap).cap []) } := by
    intro x
    rw [HTable.grow, if_pos (Or.inl (by show t.limit < 1; omega)), HTable.redistribute, if_pos hl]
    rfl
  rw [HTable.insertHash, HTable.insertHash, h none, show HTable.grow cfg t = _ from h t.table]

omit [DecidableEq K] in
/-- A table without limit, elements and cache meets the invariant but for its array. -/
theorem husk_inv {cfg : Cfg K} {t : Tbl K V} (hl : t.limit = 0) (he : t.elements = 0)
    (hc : t.cache = []) : Inv cfg ({ t with table := none } : Tbl K V) ∧
      Abs ({ t with table := none } : Tbl K V) (fun _ => none) := by
  refine ⟨⟨?_, ?_, ?_, ?_, ?_, ?_, ?_, ?_, ?_⟩, ?_⟩
  · intro tb h; cases h
  · intro tb h; cases h
  · intro e h; simp [Tbl.es] at h
  · simp [Tbl.es, he]
  · simp [Tbl.es]
  · simp [Tbl.es, hc]
  · simp [Tbl.es, hc]
  · intro _; exact he
  · intro h; exact absurd hl h
  · intro k a v; simp [Tbl.es]

omit [DecidableEq K] in
theorem lists_empty : Props.Lists (fun _ => none : Map K V) [] :=
  ⟨List.nodup_nil, fun k v => by simp⟩

/-- Other operations leave such a table alone and answer as an empty table does. -/
theorem husk_step {cfg : Cfg K} {t : Tbl K V} (he : t.elements = 0) {o : Op K V}
    (h1 : ∀ k v, o ≠ .insert k v) (h2 : ∀ k v, o ≠ .upsert k v) (h3 : o ≠ .iterate) :
    ∃ a, HTable.step cfg t o = .ok (t, a) ∧ Allows (fun _ => none) o a (fun _ => none) := by
  have e1 : t.elements < 1 := by omega
  have hput : ∀ k : K, (fun _ => none : Map K V) = Map.put (fun _ => none) k none := by
    intro k; funext k'; simp [Map.put]
  cases o with
  | insert k v => exact absurd rfl (h1 k v)
  | upsert k v => exact absurd rfl (h2 k v)
  | iterate => exact absurd rfl h3
  | get k => exact ⟨_, by simp [HTable.step, HTable.get, e1], .get⟩
  | modify k f =>
    refine ⟨_, by simp [HTable.step, HTable.modify, e1]; rfl, ?_⟩
    have := Allows.modify (m := (fun _ => none : Map K V)) (k := k) (f := f)
    rw [Option.map_none, ← hput k] at this
    exact this
  | remove k =>
    refine ⟨_, by simp [HTable.step, HTable.remove, HTable.extract, e1]; rfl, ?_⟩
    have := Allows.remove (m := (fun _ => none : Map K V)) (k := k)
    rw [← hput k] at this
    exact this
  | extract k =>
    refine ⟨_, by simp [HTable.step, HTable.extract, e1]; rfl, ?_⟩
    have := Allows.extract (m := (fun _ => none : Map K V)) (k := k)
    rw [← hput k] at this
    exact this
  | removeIf p =>
    refine ⟨_, by simp [HTable.step, HTable.removeIf, e1]; rfl, ?_⟩
    exact Allows.removeIf (p := p) lists_empty
  | foreach f =>
    refine ⟨_, by simp [HTable.step, HTable.foreach, e1]; rfl, ?_⟩
    exact Allows.foreach (f := f) lists_empty
  | size => exact ⟨_, by simp only [HTable.step, he]; rfl, .size lists_empty⟩
  | clear => exact ⟨_, by simp [HTable.step, HTable.clear, e1], .clear⟩

end
end Srl.TableMove
