import Verif.Lemmas.TableMove

/-! # Programs that move hash tables: the invariant -/

namespace Srl.TableMove

open HTable (Tbl Op Ans Cfg Inv)
open Props (Map Allows Abs)

variable {K V : Type}

/-- A table in order: it is what the map says, and all it points to can be accessed. -/
structure Regular (cfg : Cfg K) (r : Rules) (w : World K V) (i : Nat) (x : Map K V) : Prop where
  inv : Inv cfg { (w.slot i).tbl with fresh := w.fresh }
  abs : Abs (w.slot i).tbl x
  alive : (w.slot i).dead = false
  live : ∀ p ∈ (w.slot i).arr :: (w.slot i).mem, w.age p.home = p.age
  lent : ∀ p ∈ (w.slot i).arr :: (w.slot i).mem, p.home = i ∨ (p.home ∈ r.lent ∧ i ∈ r.got)

/-- A table that was moved from. -/
structure Husk (r : Rules) (w : World K V) (i : Nat) (x : Map K V) : Prop where
  mem : i ∈ r.husk
  limit : (w.slot i).tbl.limit = 0
  elements : (w.slot i).tbl.elements = 0
  cache : (w.slot i).tbl.cache = []
  empty : x = fun _ => none

def Sim (cfg : Cfg K) (r : Rules) (w : World K V) (m : Maps K V) : Prop :=
  ∀ i, Regular cfg r w i (m i) ∨ Husk r w i (m i)

theorem Regular.safe {cfg : Cfg K} {r : Rules} {w : World K V} {i : Nat} {x : Map K V}
    (h : Regular cfg r w i x) : w.safe (w.slot i) = true := by
  rw [World.safe, List.all_eq_true]
  intro p hp
  simp [World.live, h.live p hp]

/-- A table the step does not concern -/
theorem Regular.other {cfg : Cfg K} {r r' : Rules} {w w' : World K V} {k : Nat} {x : Map K V}
    (h : Regular cfg r w k x) (hs : w'.slot k = w.slot k) (hf : w.fresh ≤ w'.fresh)
    (ha : ∀ j, j = k ∨ j ∈ r.lent → w'.age j = w.age j)
    (hr : ∀ j, j ∈ r.lent → j ∈ r'.lent) (hg : k ∈ r.got → k ∈ r'.got) :
    Regular cfg r' w' k x := by
  refine ⟨?_, ?_, ?_, ?_, ?_⟩
  · rw [hs]; exact inv_fresh (t := { (w.slot k).tbl with fresh := w.fresh }) h.inv hf
  · rw [hs]; exact h.abs
  · rw [hs]; exact h.alive
  · rw [hs]
    intro p hp
    rw [ha p.home ((h.lent p hp).imp id (·.1)), h.live p hp]
  · rw [hs]
    intro p hp
    exact (h.lent p hp).imp id fun x => ⟨hr _ x.1, hg x.2⟩

theorem Husk.other {r r' : Rules} {w w' : World K V} {k : Nat} {x : Map K V}
    (h : Husk r w k x) (hs : w'.slot k = w.slot k) (hr : k ∈ r.husk → k ∈ r'.husk) :
    Husk r' w' k x := by
  refine ⟨hr h.mem, ?_, ?_, ?_, h.empty⟩ <;> rw [hs]
  · exact h.limit
  · exact h.elements
  · exact h.cache

theorem put_same (w : World K V) (i : Nat) (s : Slot K V) : (w.put i s).slot i = s := by
  simp [World.put]

theorem put_other (w : World K V) {i k : Nat} (s : Slot K V) (h : k ≠ i) :
    (w.put i s).slot k = w.slot k := by
  simp [World.put, h]

theorem maps_same (m : Maps K V) (i : Nat) (x : Map K V) : m.put i x i = x := by simp [Maps.put]

theorem maps_other (m : Maps K V) {i k : Nat} (x : Map K V) (h : k ≠ i) : m.put i x k = m k := by
  simp [Maps.put, h]

theorem start_sim (cfg : Cfg K) (b : Nat → Nat) :
    Sim cfg ⟨[], [], []⟩ (start b : World K V) (fun _ _ => none) := by
  intro i
  left
  have h := Props.new_inv (V := V) cfg (b i)
  refine ⟨h.1, h.2, rfl, ?_, ?_⟩ <;> intro p hp <;> simp [start] at hp <;> subst hp
  · rfl
  · exact Or.inl rfl

/-- Operations on the other tables are not concerned by a step on table `i`. -/
theorem others {cfg : Cfg K} {r r' : Rules} {w w' : World K V} {m : Maps K V} {i : Nat}
    {x : Map K V} (hs : Sim cfg r w m) (hi : Regular cfg r' w' i x ∨ Husk r' w' i x)
    (hslot : ∀ k, k ≠ i → w'.slot k = w.slot k) (hf : w.fresh ≤ w'.fresh)
    (ha : ∀ j, j ≠ i ∨ j ∈ r.lent → w'.age j = w.age j)
    (hl : ∀ j, j ∈ r.lent → j ∈ r'.lent) (hg : ∀ k, k ≠ i → k ∈ r.got → k ∈ r'.got)
    (hh : ∀ k, k ≠ i → k ∈ r.husk → k ∈ r'.husk) : Sim cfg r' w' (m.put i x) := by
  intro k
  by_cases hk : k = i
  · subst hk; rw [maps_same]; exact hi
  · rw [maps_other m x hk]
    rcases hs k with h | h
    · left
      refine h.other (hslot k hk) hf ?_ hl (hg k hk)
      rintro j (rfl | hj)
      · exact ha j (Or.inl hk)
      · exact ha j (Or.inr hj)
    · exact Or.inr (h.other (hslot k hk) (hh k hk))

theorem mem_filter_ne {l : List Nat} {i k : Nat} (hk : k ≠ i) (h : k ∈ l) :
    k ∈ l.filter (· ≠ i) := by
  rw [List.mem_filter]; simp [h, hk]

/-- Where a regular table points after an operation that is no `clear`. -/
theorem after_places {cfg : Cfg K} {r : Rules} {w : World K V} {i : Nat} {x : Map K V}
    (h : Regular cfg r w i x) (t : Tbl K V) (o : Op K V) :
    (after w i t o).tbl = t ∧ (after w i t o).dead = false ∧
      ∀ p ∈ (after w i t o).arr :: (after w i t o).mem,
        p ∈ (w.slot i).arr :: (w.slot i).mem ∨ p = ⟨i, w.age i⟩ := by
  have key : (inserted w i t).tbl = t ∧ (inserted w i t).dead = false ∧
      ∀ p ∈ (inserted w i t).arr :: (inserted w i t).mem,
        p ∈ (w.slot i).arr :: (w.slot i).mem ∨ p = ⟨i, w.age i⟩ := by
    rw [inserted]
    split
    · refine ⟨rfl, rfl, ?_⟩
      intro p hp; simp at hp; exact Or.inr hp
    · split
      · refine ⟨rfl, h.alive, ?_⟩
        intro p hp
        simp only [List.mem_cons] at hp ⊢
        rcases hp with hp | hp | hp | hp
        · exact Or.inr hp
        · exact Or.inl (Or.inl hp)
        · exact Or.inr hp
        · exact Or.inl (Or.inr hp)
      · refine ⟨rfl, h.alive, ?_⟩
        intro p hp
        simp only [List.mem_cons] at hp ⊢
        rcases hp with hp | hp | hp
        · exact Or.inl (Or.inl hp)
        · exact Or.inr hp
        · exact Or.inl (Or.inr hp)
  cases o <;> first | exact key | exact ⟨rfl, h.alive, fun p hp => Or.inl hp⟩

theorem next_lent (r : Rules) (i : Nat) (o : Op K V) : (r.next (.on i o)).lent = r.lent := by
  cases o <;> rfl

theorem next_got (r : Rules) (i : Nat) (o : Op K V) : (r.next (.on i o)).got = r.got := by
  cases o <;> rfl

theorem next_husk (r : Rules) {i k : Nat} (o : Op K V) (hk : k ≠ i) (h : k ∈ r.husk) :
    k ∈ (r.next (.on i o)).husk := by
  cases o <;> first | exact h | exact mem_filter_ne hk h

section
variable [DecidableEq K]

theorem regular_on {cfg : Cfg K} {r : Rules} {w : World K V} {m : Maps K V} {i : Nat} {o : Op K V}
    (hs : Sim cfg r w m) (h : Regular cfg r w i (m i)) (hc : o ≠ .clear) :
    ∃ w' a x, onTable cfg w i o = .ok (w', a) ∧ Allows (m i) o a x ∧
      Sim cfg (r.next (.on i o)) w' (m.put i x) := by
  obtain ⟨t', a, x, h1, h2, h3, h4⟩ := Props.htable_step_spec (m := m i) h.inv
    (show Abs { (w.slot i).tbl with fresh := w.fresh } (m i) from h.abs) o
  have hf := step_fresh h1
  obtain ⟨p1, p2, p3⟩ := after_places h t' o
  refine ⟨{ w.put i (after w i t' o) with fresh := t'.fresh }, a, x, ?_, h2, ?_⟩
  · rw [onTable]
    simp only [h.safe, h.alive, Bool.not_true, Bool.and_false, Bool.false_eq_true, if_false]
    simp only [h1, Res.ok_bind]
    exact hc
  · refine others hs (Or.inl ?_) (fun k hk => put_other w _ hk) hf (fun _ _ => rfl)
      (fun j hj => by rw [next_lent]; exact hj) (fun k _ hk => by rw [next_got]; exact hk)
      (fun k hk h => next_husk r o hk h)
    have es : ({ w.put i (after w i t' o) with fresh := t'.fresh } : World K V).slot i =
      after w i t' o := put_same w i _
    refine ⟨?_, ?_, ?_, ?_, ?_⟩ <;> rw [es]
    · rw [p1]; exact h3
    · rw [p1]; exact h4
    · exact p2
    · intro p hp
      rcases p3 p hp with hp | rfl
      · exact h.live p hp
      · rfl
    · intro p hp
      rw [next_lent, next_got]
      rcases p3 p hp with hp | rfl
      · exact h.lent p hp
      · exact Or.inl rfl

theorem regular_clear {cfg : Cfg K} {r : Rules} {w : World K V} {m : Maps K V} {i : Nat}
    (hs : Sim cfg r w m) (h : Regular cfg r w i (m i)) (hl : i ∉ r.lent) (hg : i ∉ r.got) :
    ∃ w', onTable cfg w i .clear = .ok (w', .none) ∧ Sim cfg r w' (m.put i fun _ => none) := by
  refine ⟨clear w i, ?_, ?_⟩
  · rw [onTable]
    simp only [h.safe, Bool.not_true, Bool.and_false, Bool.false_eq_true, if_false]
  · obtain ⟨h1, h2⟩ := Props.clear_spec (m := m i) h.inv h.abs
    rw [clear]
    simp only
    by_cases he : (w.slot i).tbl.elements = 0
    · rw [if_pos he]
      have e : HTable.clear { (w.slot i).tbl with fresh := w.fresh } =
          { (w.slot i).tbl with fresh := w.fresh } := by
        rw [HTable.clear, if_pos (by show (w.slot i).tbl.elements < 1; omega)]
      rw [e] at h1 h2
      exact others hs (Or.inl ⟨h1, h2, h.alive, h.live, h.lent⟩) (fun _ _ => rfl)
        (Nat.le_refl _) (fun _ _ => rfl) (fun _ h => h) (fun _ _ h => h) (fun _ _ h => h)
    · rw [if_neg he]
      have hown : (w.slot i).arr.home = i := by
        rcases h.lent _ (List.mem_cons_self) with h | ⟨-, h⟩
        · exact h
        · exact absurd h hg
      rw [if_pos hown]
      refine others hs (Or.inl ?_) (fun k hk => put_other _ _ hk) (Nat.le_refl _) ?_
        (fun _ h => h) (fun _ _ h => h) (fun _ _ h => h)
      · have es := put_same (w.giveUp i) i
          (⟨HTable.clear (w.slot i).tbl, ⟨i, (w.giveUp i).age i⟩, [], false⟩ : Slot K V)
        have e : HTable.clear { (w.slot i).tbl with fresh := w.fresh } =
            { HTable.clear (w.slot i).tbl with fresh := w.fresh } := by
          rw [HTable.clear, HTable.clear, if_neg (by show ¬ (w.slot i).tbl.elements < 1; omega),
            if_neg (by omega)]
        rw [e] at h1 h2
        refine ⟨?_, ?_, ?_, ?_, ?_⟩ <;> rw [es]
        · exact h1
        · exact h2
        · intro p hp
          simp at hp; subst hp; rfl
        · intro p hp
          simp at hp; subst hp; exact Or.inl rfl
      · rintro j (hj | hj)
        · show (if j = i then _ else _) = _
          rw [if_neg hj]
        · show (if j = i then _ else _) = _
          rw [if_neg (fun e : j = i => hl (e ▸ hj))]

theorem husk_on {cfg : Cfg K} {r : Rules} {w : World K V} {m : Maps K V} {i : Nat} {o : Op K V}
    (hs : Sim cfg r w m) (h : Husk r w i (m i)) (hi : o ≠ .iterate) (hc : o ≠ .clear) :
    ∃ w' a x, onTable cfg w i o = .ok (w', a) ∧ Allows (m i) o a x ∧
      Sim cfg (r.next (.on i o)) w' (m.put i x) := by
  have ht : touches (w.slot i).tbl o = false := by
    cases o <;> simp [touches, h.limit, h.elements] at hi ⊢
  have run : ∀ {t' a}, HTable.step cfg { (w.slot i).tbl with fresh := w.fresh } o = .ok (t', a) →
      onTable cfg w i o = .ok ({ w.put i (after w i t' o) with fresh := t'.fresh }, a) := by
    intro t' a h1
    rw [onTable]
    simp only [ht, Bool.false_and, Bool.false_eq_true, if_false]
    simp only [h1, Res.ok_bind]
    exact hc
  have ins : (∃ k v, o = .insert k v) ∨ (∃ k v, o = .upsert k v) ∨
      ((∀ k v, o ≠ .insert k v) ∧ (∀ k v, o ≠ .upsert k v)) := by
    cases o <;> simp
  have anew : HTable.step cfg { (w.slot i).tbl with fresh := w.fresh } o =
        HTable.step cfg { ({ (w.slot i).tbl with fresh := w.fresh } : Tbl K V) with
          table := none } o →
      (∀ t, after w i t o = inserted w i t) → ∃ w' a x, onTable cfg w i o = .ok (w', a) ∧
        Allows (m i) o a x ∧ Sim cfg (r.next (.on i o)) w' (m.put i x) := by
    intro hstep hafter
    obtain ⟨i1, i2⟩ := husk_inv (cfg := cfg) (t := { (w.slot i).tbl with fresh := w.fresh })
      h.limit h.elements h.cache
    obtain ⟨t', a, x, h1, h2, h3, h4⟩ := Props.htable_step_spec i1 i2 o
    rw [← hstep] at h1
    have hf := step_fresh h1
    refine ⟨_, a, x, run h1, by rw [h.empty]; exact h2, ?_⟩
    refine others hs (Or.inl ?_) (fun k hk => put_other w _ hk) hf (fun _ _ => rfl)
      (fun j hj => by rw [next_lent]; exact hj) (fun k _ hk => by rw [next_got]; exact hk)
      (fun k hk h => next_husk r o hk h)
    have es : ({ w.put i (after w i t' o) with fresh := t'.fresh } : World K V).slot i =
        ⟨t', ⟨i, w.age i⟩, [⟨i, w.age i⟩], false⟩ := by
      show (w.put i _).slot i = _
      rw [put_same, hafter, inserted]
      rw [if_pos h.limit]
    refine ⟨?_, ?_, ?_, ?_, ?_⟩ <;> rw [es]
    · exact h3
    · exact h4
    · intro p hp
      simp at hp; subst hp; rfl
    · intro p hp
      simp at hp; subst hp; exact Or.inl rfl
  rcases ins with ⟨k, v, rfl⟩ | ⟨k, v, rfl⟩ | ⟨n1, n2⟩
  · refine anew ?_ (fun _ => rfl)
    simp only [HTable.step, HTable.insert]
    rw [insert_anew (by exact h.limit)]
  · refine anew ?_ (fun _ => rfl)
    simp only [HTable.step, HTable.upsert]
    rw [insert_anew (by exact h.limit)]
  · obtain ⟨a, h1, h2⟩ := husk_step (cfg := cfg)
      (t := { (w.slot i).tbl with fresh := w.fresh }) h.elements n1 n2 hi
    refine ⟨_, a, fun _ => none, run h1, by rw [h.empty]; exact h2, ?_⟩
    have ha : ∀ t, after w i t o = { w.slot i with tbl := t } := by
      intro t
      cases o with
      | insert k v => exact absurd rfl (n1 k v)
      | upsert k v => exact absurd rfl (n2 k v)
      | _ => rfl
    have hn : r.next (.on i o) = r := by
      cases o with
      | insert k v => exact absurd rfl (n1 k v)
      | upsert k v => exact absurd rfl (n2 k v)
      | _ => rfl
    rw [hn]
    refine others hs (Or.inr ?_) (fun k hk => put_other w _ hk) (Nat.le_refl _) (fun _ _ => rfl)
      (fun _ h => h) (fun _ _ h => h) (fun _ _ h => h)
    have es : ({ w.put i (after w i { (w.slot i).tbl with fresh := w.fresh } o) with
        fresh := w.fresh } : World K V).slot i =
        { w.slot i with tbl := { (w.slot i).tbl with fresh := w.fresh } } := by
      show (w.put i _).slot i = _
      rw [put_same, ha]
    refine ⟨h.mem, ?_, ?_, ?_, rfl⟩ <;> rw [es]
    · exact h.limit
    · exact h.elements
    · exact h.cache

omit [DecidableEq K] in
theorem destroy_ok {cfg : Cfg K} {r : Rules} {w : World K V} {i : Nat} {x : Map K V}
    (h : Regular cfg r w i x ∨ Husk r w i x) : destroyAll w i = .ok () := by
  rw [destroyAll]
  rcases h with h | h
  · rw [if_neg]; simp [h.safe]
  · rw [if_neg]; simp [h.elements]

omit [DecidableEq K] in
theorem move_step {cfg : Cfg K} {r : Rules} {w : World K V} {m : Maps K V} {i j : Nat}
    (hs : Sim cfg r w m) (hij : i ≠ j) (hh : i ∉ r.husk) :
    ∃ w', move w i j = .ok w' ∧
      Sim cfg (r.next (.move i j : MOp K V)) w' ((m.put j (m i)).put i fun _ => none) := by
  have hi : Regular cfg r w i (m i) := by
    rcases hs i with h | h
    · exact h
    · exact absurd h.mem hh
  refine ⟨(w.put j (w.slot i)).put i (husk (w.slot i)), ?_, ?_⟩
  · rw [move, destroy_ok (hs j), Res.ok_bind, if_neg hij]
  · intro k
    by_cases hk : k = i
    · subst hk
      right
      rw [maps_same]
      refine ⟨List.mem_cons_self, ?_, ?_, ?_, rfl⟩ <;> rw [put_same] <;> rfl
    · rw [maps_other _ _ hk]
      by_cases hj : k = j
      · subst hj
        left
        rw [maps_same]
        have es : ((w.put k (w.slot i)).put i (husk (w.slot i))).slot k = w.slot i := by
          rw [put_other _ _ hk, put_same]
        refine ⟨?_, ?_, ?_, ?_, ?_⟩ <;> rw [es]
        · exact hi.inv
        · exact hi.abs
        · exact hi.alive
        · exact hi.live
        · intro p hp
          right
          refine ⟨?_, List.mem_cons_self⟩
          rcases hi.lent p hp with h | h
          · rw [h]; exact List.mem_cons_self
          · exact List.mem_cons_of_mem _ h.1
      · rw [maps_other _ _ hj]
        have es : ((w.put j (w.slot i)).put i (husk (w.slot i))).slot k = w.slot k := by
          rw [put_other _ _ hk, put_other _ _ hj]
        rcases hs k with h | h
        · exact Or.inl (h.other es (Nat.le_refl _) (fun _ _ => rfl)
            (fun _ h => List.mem_cons_of_mem _ h) (fun h => List.mem_cons_of_mem _ h))
        · exact Or.inr (h.other es fun h => List.mem_cons_of_mem _ (mem_filter_ne hj h))

omit [DecidableEq K] in
theorem renew_step {cfg : Cfg K} {r : Rules} {w : World K V} {m : Maps K V} {i b : Nat}
    (hs : Sim cfg r w m) (hl : i ∉ r.lent) :
    ∃ w', renew w i b = .ok w' ∧
      Sim cfg (r.next (.renew i b : MOp K V)) w' (m.put i fun _ => none) := by
  refine ⟨(w.giveUp i).put i (fresh (w.giveUp i) i b), ?_, ?_⟩
  · rw [renew, destroy_ok (hs i)]; rfl
  · refine others hs (Or.inl ?_) (fun k hk => put_other _ _ hk) (Nat.le_refl _) ?_
      (fun _ h => h) (fun k hk h => mem_filter_ne hk h) (fun k hk h => mem_filter_ne hk h)
    · have h := Props.new_inv (V := V) cfg b
      refine ⟨?_, ?_, ?_, ?_, ?_⟩ <;> rw [put_same]
      · exact inv_fresh h.1 (Nat.zero_le _)
      · exact h.2
      · rfl
      · intro p hp
        simp [fresh] at hp; subst hp; rfl
      · intro p hp
        simp [fresh] at hp; subst hp; exact Or.inl rfl
    · rintro j (hj | hj)
      · show (if j = i then _ else _) = _
        rw [if_neg hj]
      · show (if j = i then _ else _) = _
        rw [if_neg (fun e : j = i => hl (e ▸ hj))]

theorem step_sim {cfg : Cfg K} {r : Rules} {w : World K V} {m : Maps K V} (hs : Sim cfg r w m)
    (o : MOp K V) (ho : r.ok o = true) : ∃ w' a m', step cfg w o = .ok (w', a) ∧
      MAllows m o a m' ∧ Sim cfg (r.next o) w' m' := by
  cases o with
  | on i o =>
    by_cases hc : o = .clear
    · subst hc
      simp only [Rules.ok, Bool.and_eq_true, Bool.not_eq_true', List.contains_eq_mem,
        decide_eq_false_iff_not] at ho
      rcases hs i with h | h
      · obtain ⟨w', h1, h2⟩ := regular_clear hs h ho.1.2 ho.2
        exact ⟨w', _, _, h1, .on .clear, h2⟩
      · exact absurd h.mem ho.1.1
    · have key : ∃ w' a x, onTable cfg w i o = .ok (w', a) ∧ Allows (m i) o a x ∧
          Sim cfg (r.next (.on i o)) w' (m.put i x) := by
        rcases hs i with h | h
        · exact regular_on hs h hc
        · refine husk_on hs h ?_ hc
          rintro rfl
          simp only [Rules.ok, Bool.not_eq_true', List.contains_eq_mem,
            decide_eq_false_iff_not] at ho
          exact ho h.mem
      obtain ⟨w', a, x, h1, h2, h3⟩ := key
      exact ⟨w', a, _, h1, .on h2, h3⟩
  | move i j =>
    simp only [Rules.ok, Bool.and_eq_true, Bool.not_eq_true', List.contains_eq_mem,
      decide_eq_false_iff_not, decide_eq_true_eq] at ho
    obtain ⟨w', h1, h2⟩ := move_step hs ho.1 ho.2
    exact ⟨w', .none, _, by simp only [step, h1, Res.ok_bind], .move, h2⟩
  | renew i b =>
    simp only [Rules.ok, Bool.not_eq_true', List.contains_eq_mem, decide_eq_false_iff_not] at ho
    obtain ⟨w', h1, h2⟩ := renew_step (b := b) hs ho
    exact ⟨w', .none, _, by simp only [step, h1, Res.ok_bind], .renew, h2⟩

theorem run_sim {cfg : Cfg K} (os : List (MOp K V)) : ∀ {r : Rules} {w : World K V} {m : Maps K V},
    Sim cfg r w m → r.keeps os = true →
    ∃ w' as, run cfg w os = .ok (w', as) ∧ MTrace m os as := by
  induction os with
  | nil => intro r w m _ _; exact ⟨w, [], rfl, .nil⟩
  | cons o os ih =>
    intro r w m hs hk
    simp only [Rules.keeps, Bool.and_eq_true] at hk
    obtain ⟨w1, a, m1, h1, h2, h3⟩ := step_sim hs o hk.1
    obtain ⟨w2, as, h4, h5⟩ := ih h3 hk.2
    exact ⟨w2, a :: as, by simp only [run, h1, Res.ok_bind, h4], .cons h2 h5⟩

end
end Srl.TableMove
