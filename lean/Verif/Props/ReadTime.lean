import Verif.Props.RestoreTime
import Verif.Lemmas.ReadCost

/-! # C93, for objects that are restored while a document is read

`Tree::restore` takes members from what was read before or reads on until it meets them, and stores what it meets on the
way. What is done is counted by `Typed.restoreSteps`. -/

namespace Srl.Props
open Typed Room Doc

/-! ## Specification -/

mutual
/-- What restoring while reading takes at most for each byte of the document -/
def readEffort : Ty → Nat
  | .vec e => 5 + readEffort e
  | .named e => 5 + readEffort e
  | .arr _ e => 5 + readEffort e
  | .record _ _ fs => 1 + readEfforts fs
  | .ptr _ e => 1 + readEffort e
  | .sorted _ c => 1 + readEffort c
  | _ => 1
def readEfforts : Fields → Nat
  | .nil => 0
  | .cons name _ ty rest => 3 * name.length + 6 + readEffort ty + readEfforts rest
end

/-! ## Theorems -/

private theorem effort_pos (ty : Ty) : 1 ≤ readEffort ty := by cases ty <;> simp only [readEffort] <;> omega

mutual
private theorem effort_le : ∀ ty, effort ty ≤ readEffort ty
  | .vec e => by have := effort_le e; simp only [effort, readEffort]; omega
  | .named e => by have := effort_le e; simp only [effort, readEffort]; omega
  | .arr _ e => by have := effort_le e; simp only [effort, readEffort]; omega
  | .record _ _ fs => by have := efforts_le fs; simp only [effort, readEffort]; omega
  | .ptr _ e => by have := effort_le e; simp only [effort, readEffort]; omega
  | .sorted _ c => by have := effort_le c; simp only [effort, readEffort]; omega
  | .bool | .int _ | .float | .double | .str | .bytes => by simp only [effort, readEffort]; omega
private theorem efforts_le : ∀ fs, efforts fs ≤ readEfforts fs
  | .nil => by simp only [efforts, readEfforts]; omega
  | .cons name _ ty rest => by
    have := effort_le ty
    have := efforts_le rest
    simp only [efforts, readEfforts]; omega
end

section
variable {σ : Type} {own : Bool} {read : σ → Res (Event × σ)} {μ : σ → Nat} (hp : Pays own read μ)

/-- From a node that is read to its end -/
private theorem parsed_steps {env : Env} {ty : Ty} (ht : own = true ∨ noTables ty) (old : Obj) (n : LNode) (s : σ) :
    nodeSteps env ty old (.mk n.type n.values n.nodes) + readEffort ty * onward (do
      let o ← pasteNode env ty old (.mk n.type n.values n.nodes)
      .ok (o, n, s)) (fun x : Obj × LNode × σ => μ x.2.2) ≤ readEffort ty * (held own n + μ s) ∧
    onward (do
      let o ← pasteNode env ty old (.mk n.type n.values n.nodes)
      .ok (o, n, s)) (fun x : Obj × LNode × σ => μ x.2.2) ≤ μ s := by
  have h1 := node_steps env own ty ht old (.mk n.type n.values n.nodes)
  have h2 : size own (.mk n.type n.values n.nodes) = held own n := by rw [size_eq]; rfl
  rw [h2] at h1
  have h3 := Nat.mul_le_mul_right (held own n) (effort_le ty)
  have h4 : onward (do
      let o ← pasteNode env ty old (.mk n.type n.values n.nodes)
      .ok (o, n, s)) (fun x : Obj × LNode × σ => μ x.2.2) ≤ μ s := by
    rw [onward_bind]; cases pasteNode env ty old (.mk n.type n.values n.nodes) <;> simp
  have h5 := Nat.mul_le_mul_left (readEffort ty) h4
  refine ⟨?_, h4⟩
  rw [Nat.mul_add]
  omega

include hp

/-- An element that is restored and read to its end -/
private theorem elem_steps {C x H fuel : Nat} (hC : 1 ≤ C) (s : σ) (P : Res (Obj × LNode × σ))
    (h : x + C * onward P (fun x => μ x.2.2) ≤ C * (H + μ s)) (hm : onward P (fun x => μ x.2.2) ≤ μ s) (F : Obj → Obj) :
    x + onward P (fun (_, c, s) => finishSteps read fuel c s) + C * onward (do
      let (y, c, s) ← P
      let s ← finish read fuel c s
      .ok (F y, s)) (fun x => μ x.2) ≤ C * (H + μ s) ∧
    onward (do
      let (y, c, s) ← P
      let s ← finish read fuel c s
      .ok (F y, s)) (fun x => μ x.2) ≤ μ s := by
  rw [onward_bind]
  rcases P with ⟨y, c, s1⟩ | _ | _ | _
  · have f := finish_steps hp fuel c s1
    simp only [onward_ok, onward_bind] at h hm ⊢
    rcases h2 : finish read fuel c s1 with s2 | _ | _ | _ <;> rw [h2] at f <;>
      simp only [onward_ok, onward_err, onward_ub, onward_fuel] at f ⊢
    · have := Nat.mul_le_mul_left C f
      have := Nat.mul_le_mul_right (finishSteps read fuel c s1) hC
      rw [Nat.mul_add C (finishSteps read fuel c s1)] at *
      omega
    all_goals
      have := Nat.mul_le_mul_left C f
      have := Nat.mul_le_mul_right (finishSteps read fuel c s1) hC
      rw [Nat.mul_add C (finishSteps read fuel c s1)] at *
      omega
  all_goals simp only [onward_err, onward_ub, onward_fuel] at h ⊢; omega

omit hp in
/-- From a loop to a sequence -/
private theorem seq_steps {C x M : Nat} {n : LNode} {s : σ}
    (h : x + (C + 4) * M ≤ 2 * μ s + (C + 2) * (held own n + μ s) ∧ M ≤ μ s) :
    1 + x + (5 + C) * M ≤ (5 + C) * (held own n + μ s) ∧ M ≤ μ s := by
  obtain ⟨h1, h2⟩ := h
  have := held_pos own n
  refine ⟨?_, h2⟩
  simp only [Nat.add_mul, Nat.mul_add] at *
  omega

omit hp in
/-- One more -/
private theorem more_steps {C x M H m : Nat} (h : x + C * M ≤ C * (H + m)) (hM : M ≤ m) (hH : 1 ≤ H) :
    1 + x + (1 + C) * M ≤ (1 + C) * (H + m) := by
  simp only [Nat.add_mul, Nat.mul_add] at *
  omega

omit hp in
/-- What comes before a member, and the member -/
private theorem first_steps {K W V A P P1 m1 x b : Nat} (h1 : x + K * m1 ≤ K * P) (h2 : b + V * A ≤ V * P1) (hA : A ≤ m1)
    (hP : P1 ≤ P) (hP1 : A + 1 ≤ P) (hW : 1 + K + V ≤ W) : 1 + x + b + W * A ≤ W * P := by
  refine undrop (fun D hD => ?_) (by omega)
  have e1 : x ≤ K * D := drop h1 (by omega)
  have e2 : b ≤ V * D := drop h2 (by omega)
  have e3 := Nat.mul_le_mul_right D hW
  simp only [Nat.add_mul] at e3
  omega

omit hp in
private theorem weaken {F W A P b : Nat} (h : b + F * A ≤ F * P) (hA : A ≤ P) (hW : F ≤ W) : b + W * A ≤ W * P := by
  refine undrop (fun D hD => ?_) hA
  have e1 : b ≤ F * D := drop h (by omega)
  have e2 := Nat.mul_le_mul_right D hW
  omega

omit hp in
/-- A member that is looked up -/
private theorem found_steps {E F W L A H m x y z k : Nat} (hx : x ≤ L + (1 + L) * k + 1) (hk : 1 + k ≤ H) (hy : y ≤ E * H)
    (hz : z + F * A ≤ F * (H + m)) (hA : A ≤ m) (hW : 1 + L + E + F ≤ W) : x + (y + z) + W * A ≤ W * (H + m) := by
  refine undrop (fun D hD => ?_) (by omega)
  have e1 : z ≤ F * D := drop hz (by omega)
  have e2 := Nat.mul_le_mul_right D hW
  have e3 : y ≤ E * D := Nat.le_trans hy (Nat.mul_le_mul_left _ (by omega))
  have e4 : (1 + L) * (1 + k) ≤ (1 + L) * D := Nat.mul_le_mul_left _ (by omega)
  simp only [Nat.add_mul, Nat.mul_add] at *
  omega

omit hp in
/-- Taking a member out or reading on to it -/
private theorem consume_drop {L A H m m1 u x t D k : Nat} (hu : u ≤ 1 + L) (hx : x + (1 + u) * m1 ≤ t + (1 + u) * m)
    (ht : t ≤ u * k) (hk : k ≤ H) (hA : A ≤ m1) (hD : H + m = A + D) : x ≤ (2 + L) * D := by
  have h1 : t ≤ u * H := Nat.le_trans ht (Nat.mul_le_mul_left _ hk)
  have h2 : x + (1 + u) * m1 ≤ (1 + u) * (H + m) := by
    simp only [Nat.add_mul, Nat.mul_add] at *
    omega
  have h3 := drop (D := D) h2 (by omega)
  exact Nat.le_trans h3 (Nat.mul_le_mul_right _ (by omega))

omit hp in
/-- A member that is taken out or read -/
private theorem taken_steps {E F W L D x y z f : Nat} (hx : x ≤ (2 + L) * D) (hy : y ≤ E * D) (hf : f ≤ D) (hz : z ≤ F * D)
    (hW : 3 + L + E + F ≤ W) : x + (y + (f + z)) ≤ W * D := by
  have e2 := Nat.mul_le_mul_right D hW
  simp only [Nat.add_mul] at *
  omega

mutual
private theorem paste_steps (env : Env) (fuel : Nat) : ∀ (ty : Ty), (own = true ∨ noTables ty) →
    ∀ (old : Obj) (n : LNode) (s : σ),
    pasteSteps env read fuel ty old n s + readEffort ty * onward (paste env read fuel ty old n s) (fun x => μ x.2.2) ≤
      readEffort ty * (held own n + μ s) ∧
    onward (paste env read fuel ty old n s) (fun x => μ x.2.2) ≤ μ s
  | .vec e, ht, old, n, s => by
    have ht' : own = true ∨ noTables e := by simpa only [noTables] using ht
    rw [pasteSteps, paste]
    split
    · exact parsed_steps ht old n s
    · rw [readEffort]
      split
      · rw [onward_bind]
        refine seq_steps (vecNodes_steps hp (fun c s => ?_) (fun c s => ?_) fuel n s)
        · have := paste_steps env fuel e ht' (dflt e) c.2 s
          have := (elem_steps hp (fuel := fuel) (effort_pos e) s _ this.1 this.2 id).1
          refine Nat.le_trans this (Nat.mul_le_mul_left _ (by omega))
        · have := paste_steps env fuel e ht' (dflt e) c.2 s
          exact (elem_steps hp (fuel := fuel) (effort_pos e) s _ this.1 this.2 id).2
      · rw [onward_bind]
        refine seq_steps (vecValues_steps hp (fun c => ?_) fuel n s)
        have h1 := valSteps_le c.2
        have h2 := itemV_le own c
        have h3 := Nat.mul_le_mul_right (itemV own c) (effort_pos e)
        omega
  | .named e, ht, old, n, s => by
    have hown : own = true := by simpa only [noTables, or_false] using ht
    have ht' : own = true ∨ noTables e := .inl hown
    have nb : ∀ x : Bytes, nameBytes own x = x.length := fun x => by simp [nameBytes, hown]
    rw [pasteSteps, paste]
    split
    · have := held_pos own n
      have h3 := Nat.mul_le_mul_right (held own n + μ s) (effort_pos (.named e))
      simp only [onward_err]
      omega
    split
    · exact parsed_steps ht old n s
    · rw [readEffort]
      split
      · rw [onward_bind]
        refine seq_steps (vecNodes_steps hp (fun c s => ?_) (fun c s => ?_) fuel n s)
        · have := paste_steps env fuel e ht' (dflt e) c.2 s
          have := (elem_steps hp (fuel := fuel) (effort_pos e) s _ this.1 this.2 fun y => .many [.str c.1, y]).1
          have h3 := Nat.mul_le_mul_right c.1.length (effort_pos e)
          rw [nb]
          simp only [Nat.mul_add] at *
          omega
        · have := paste_steps env fuel e ht' (dflt e) c.2 s
          exact (elem_steps hp (fuel := fuel) (effort_pos e) s _ this.1 this.2 fun y => .many [.str c.1, y]).2
      · rw [onward_bind]
        refine seq_steps (vecValues_steps hp (fun c => ?_) fuel n s)
        have h1 := valSteps_le c.2
        have h3 := Nat.mul_le_mul_right (itemV own c) (effort_pos e)
        simp only [itemV, nb] at *
        omega
  | .arr k e, ht, .many os, n, s => by
    have ht' : own = true ∨ noTables e := by simpa only [noTables] using ht
    rw [pasteSteps, paste]
    split
    · exact parsed_steps ht _ n s
    · rw [readEffort]
      split
      · rw [onward_bind]
        refine seq_steps (arrNodes_steps hp (fun o c s => ?_) (fun o c s => ?_) os n s)
        · have := paste_steps env fuel e ht' o c s
          exact (elem_steps hp (fuel := fuel) (effort_pos e) s _ this.1 this.2 id).1
        · have := paste_steps env fuel e ht' o c s
          exact (elem_steps hp (fuel := fuel) (effort_pos e) s _ this.1 this.2 id).2
      · rw [onward_bind]
        refine seq_steps (arrValues_steps hp (fun v => ?_) os n s)
        have h1 := valSteps_le v
        have h3 := Nat.mul_le_mul_right (1 + valBytes v) (effort_pos e)
        omega
  | .record sc strict fs, ht, .many os, n, s => by
    have ht' : own = true ∨ noTablesL fs := by simpa only [noTables] using ht
    have hpos := held_pos own n
    rw [pasteSteps, paste]
    split
    · have h3 := Nat.mul_le_mul_right (held own n + μ s) (effort_pos (.record sc strict fs))
      simp only [onward_err]
      omega
    · rw [onward_bind, readEffort]
      have := members_steps env fuel fs ht' os 0 0 n s
      exact ⟨more_steps this.1 this.2 hpos, this.2⟩
  | .ptr _ e, ht, old, n, s => by
    have ht' : own = true ∨ noTables e := by simpa only [noTables] using ht
    rw [pasteSteps, paste, onward_bind, readEffort]
    have := paste_steps env fuel e ht' (dflt e) n s
    exact ⟨more_steps this.1 this.2 (held_pos own n), this.2⟩
  | .sorted _ e, ht, old, n, s => by
    have ht' : own = true ∨ noTables e := by simpa only [noTables] using ht
    rw [pasteSteps, paste, onward_bind, readEffort]
    have := paste_steps env fuel e ht' (dflt e) n s
    exact ⟨more_steps this.1 this.2 (held_pos own n), this.2⟩
  | .bool, _, _, n, s | .int _, _, _, n, s | .float, _, _, n, s | .double, _, _, n, s | .str, _, _, n, s
  | .bytes, _, _, n, s => by
    have := held_pos own n
    simp only [pasteSteps, paste, onward_ub, readEffort]; omega
  | .arr _ _, _, .bool _, n, s | .arr _ _, _, .int _, n, s | .arr _ _, _, .float _, n, s | .arr _ _, _, .double _, n, s
  | .arr _ _, _, .str _, n, s | .arr _ _, _, .null, n, s | .arr _ _, _, .ref _, n, s => by
    have := held_pos own n
    simp only [pasteSteps, paste, onward_ub, readEffort, Nat.add_mul]; omega
  | .record _ _ _, _, .bool _, n, s | .record _ _ _, _, .int _, n, s | .record _ _ _, _, .float _, n, s
  | .record _ _ _, _, .double _, n, s | .record _ _ _, _, .str _, n, s | .record _ _ _, _, .null, n, s
  | .record _ _ _, _, .ref _, n, s => by
    have := held_pos own n
    simp only [pasteSteps, paste, onward_ub, readEffort, Nat.add_mul]; omega
private theorem members_steps (env : Env) (fuel : Nat) : ∀ (fs : Fields), (own = true ∨ noTablesL fs) →
    ∀ (os : List Obj) (ni vi : Nat) (n : LNode) (s : σ),
    membersSteps env read fuel fs os ni vi n s +
      readEfforts fs * onward (pasteMembers env read fuel fs os ni vi n s) (fun x => μ x.2.2) ≤
      readEfforts fs * (held own n + μ s) ∧
    onward (pasteMembers env read fuel fs os ni vi n s) (fun x => μ x.2.2) ≤ μ s
  | .nil, _, _, _, _, n, s => by simp [membersSteps, pasteMembers, readEfforts]
  | .cons _ _ _ _, _, [], _, _, n, s => by simp [membersSteps, pasteMembers]
  | .cons name opt ty rest, ht, o :: os, ni, vi, n, s => by
    have h1 : own = true ∨ noTables ty := ht.imp id fun h => by rw [noTablesL] at h; exact h.1
    have h2 : own = true ∨ noTablesL rest := ht.imp id fun h => by rw [noTablesL] at h; exact h.2
    have hpos := held_pos own n
    have IH := members_steps env fuel rest h2 os
    have IP := paste_steps env fuel ty h1 o
    have E1 := effort_pos ty
    rw [membersSteps, pasteMembers, onward_bind, readEfforts]
    have hx : (if opt then hasSteps read fuel ty.isScope name n s else 0) + (2 + name.length) *
        onward (if opt then has read fuel ty.isScope name n s else .ok (true, n, s)) (fun x => μ x.2.2) ≤
        (2 + name.length) * (held own n + μ s) := by
      split
      · exact has_steps hp fuel ty.isScope name n s
      · simp only [onward_ok, Nat.mul_add]; omega
    have hr : ∀ b n1 s1, (if opt then has read fuel ty.isScope name n s else .ok (true, n, s)) = .ok (b, n1, s1) →
        μ s1 ≤ μ s ∧ held own n1 + μ s1 ≤ held own n + μ s := by
      intro b n1 s1 h
      split at h
      · exact has_paid hp h
      · cases h; exact ⟨Nat.le_refl _, Nat.le_refl _⟩
    generalize (if opt then hasSteps read fuel ty.isScope name n s else 0) = x at hx ⊢
    generalize (if opt then has read fuel ty.isScope name n s else Res.ok (true, n, s)) = H at hx hr ⊢
    rcases H with ⟨here, n1, s1⟩ | _ | _ | _
    · obtain ⟨q1, q2⟩ := hr _ _ _ rfl
      have hpos1 := held_pos own n1
      simp only [onward_ok] at hx ⊢
      obtain ⟨V, hV⟩ : ∃ V, V = 3 + name.length + readEffort ty + readEfforts rest := ⟨_, rfl⟩
      have lift : ∀ b A, (b + V * A ≤ V * (held own n1 + μ s1) ∧ A ≤ μ s1) →
          (1 + x + b + (3 * name.length + 6 + readEffort ty + readEfforts rest) * A ≤
            (3 * name.length + 6 + readEffort ty + readEfforts rest) * (held own n + μ s) ∧ A ≤ μ s) := fun b A h =>
        ⟨first_steps hx h.1 h.2 q2 (by omega) (by omega), by omega⟩
      refine lift _ _ ?_
      split
      · rw [onward_bind]
        have := IH ni vi n1 s1
        exact ⟨weaken this.1 (Nat.le_trans this.2 (Nat.le_add_left _ _)) (by omega), this.2⟩
      split
      · have u := sel_of name ni
        have hl := nodes_held own n1
        split
        · have l := lookupSteps_le name ni n1.nodes
          rw [onward_bind]
          rcases h : lookup (.of name ni) n1.nodes with c | _ | _ | _
          · simp only [onward_ok]
            rw [onward_bind]
            have hc : nodeSteps env ty o c ≤ readEffort ty * held own n1 := by
              have e1 := node_steps env own ty h1 o c
              obtain ⟨p, hp, rfl⟩ := lookup_item h
              have e2 := mem_le_sum (itemN own) _ _ hp
              have e3 : size own p.2 ≤ held own n1 := by simp only [held, content, itemN] at *; omega
              exact Nat.le_trans e1 (Nat.mul_le_mul (effort_le ty) e3)
            rcases pasteNode env ty o c with y | _ | _ | _
            · simp only [onward_ok]
              rw [onward_bind]
              have := IH (ni + 1) vi n1 s1
              exact ⟨found_steps l (by omega) hc this.1 this.2 (by omega), this.2⟩
            all_goals
              simp only [onward_err, onward_ub, onward_fuel]
              exact ⟨found_steps (F := 0) l (by omega) hc (by omega) (Nat.zero_le _) (by omega), Nat.zero_le _⟩
          all_goals
            simp only [onward_err, onward_ub, onward_fuel]
            exact ⟨found_steps (F := 0) (E := 0) (y := 0) (z := 0) l (by omega) (by omega) (by omega) (Nat.zero_le _) (by omega), Nat.zero_le _⟩
        · rw [onward_bind]
          have cs := consumeNode_steps hp fuel (.of name ni) n1 s1
          have tk := takeSteps_le (.of name ni) n1.nodes
          rcases h : consumeNode read fuel (.of name ni) n1 s1 with ⟨c, n2, s2⟩ | _ | _ | _
          · rw [h] at cs
            obtain ⟨p1, p2⟩ := consumeNode_paid hp h
            simp only [onward_ok] at cs ⊢
            rcases c with _ | ⟨nm, c⟩
            · simp only [onward_err]
              refine ⟨undrop (fun D hD => ?_) (by omega), Nat.zero_le _⟩
              exact taken_steps (E := 0) (F := 0) (y := 0) (f := 0) (z := 0) (consume_drop u cs tk (by omega) (Nat.zero_le _) hD) (by omega) (by omega) (by omega) (by omega)
            · simp only [Option.elim] at p2
              dsimp only
              rw [onward_bind]
              have ip := IP c s2
              rcases h3 : paste env read fuel ty o c s2 with ⟨y, c3, s3⟩ | _ | _ | _
              · rw [h3] at ip
                simp only [onward_ok] at ip ⊢
                rw [onward_bind]
                have fs := finish_steps hp fuel c3 s3
                rcases h4 : finish read fuel c3 s3 with s4 | _ | _ | _
                · rw [h4] at fs
                  simp only [onward_ok] at fs ⊢
                  rw [onward_bind]
                  have it := IH (ni + 1) vi n2 s4
                  change _ + V * onward (pasteMembers env read fuel rest os (ni + 1) vi n2 s4) (fun x => μ x.2.2) ≤ _ ∧
                    onward (pasteMembers env read fuel rest os (ni + 1) vi n2 s4) (fun x => μ x.2.2) ≤ _
                  refine ⟨undrop (fun D hD => ?_) (by omega), by omega⟩
                  exact taken_steps (consume_drop u cs tk (by omega) (by omega) hD) (drop ip.1 (by omega)) (by omega) (drop it.1 (by omega)) (by omega)
                all_goals
                  rw [h4] at fs
                  simp only [onward_err, onward_ub, onward_fuel] at fs ⊢
                  refine ⟨undrop (fun D hD => ?_) (by omega), Nat.zero_le _⟩
                  exact taken_steps (F := 0) (consume_drop u cs tk (by omega) (by omega) hD) (drop ip.1 (by omega)) (by omega) (by omega) (by omega)
              all_goals
                rw [h3] at ip
                simp only [onward_err, onward_ub, onward_fuel] at ip ⊢
                refine ⟨undrop (fun D hD => ?_) (by omega), Nat.zero_le _⟩
                exact taken_steps (F := 0) (f := 0) (z := 0) (consume_drop u cs tk (by omega) (by omega) hD) (drop ip.1 (by omega)) (by omega) (by omega) (by omega)
          all_goals
            rw [h] at cs
            simp only [onward_err, onward_ub, onward_fuel] at cs ⊢
            refine ⟨undrop (fun D hD => ?_) (by omega), Nat.zero_le _⟩
            exact taken_steps (E := 0) (F := 0) (y := 0) (f := 0) (z := 0) (consume_drop u cs tk (by omega) (Nat.zero_le _) hD) (by omega) (by omega) (by omega) (by omega)
      · have u := sel_of name vi
        have hl := nodes_held own n1
        split
        · have l := lookupSteps_le name vi n1.values
          rw [onward_bind]
          rcases h : lookup (.of name vi) n1.values with v | _ | _ | _
          · simp only [onward_ok]
            rw [onward_bind]
            have hc : valSteps v ≤ readEffort ty * held own n1 := by
              have e1 := valSteps_le v
              obtain ⟨p, hp, rfl⟩ := lookup_item h
              have e2 := mem_le_sum (itemV own) _ _ hp
              have e3 : valSteps p.2 ≤ held own n1 := by simp only [held, content, itemV] at *; omega
              have e4 := Nat.mul_le_mul_right (held own n1) E1
              omega
            rcases pasteVal env ty o v with y | _ | _ | _
            · simp only [onward_ok]
              rw [onward_bind]
              have := IH ni (vi + 1) n1 s1
              exact ⟨found_steps l (by omega) hc this.1 this.2 (by omega), this.2⟩
            all_goals
              simp only [onward_err, onward_ub, onward_fuel]
              exact ⟨found_steps (F := 0) l (by omega) hc (by omega) (Nat.zero_le _) (by omega), Nat.zero_le _⟩
          all_goals
            simp only [onward_err, onward_ub, onward_fuel]
            exact ⟨found_steps (F := 0) (E := 0) (y := 0) (z := 0) l (by omega) (by omega) (by omega) (Nat.zero_le _) (by omega), Nat.zero_le _⟩
        · rw [onward_bind]
          have cs := consumeValue_steps hp fuel (.of name vi) n1 s1
          have tk := takeSteps_le (.of name vi) n1.values
          rcases h : consumeValue read fuel (.of name vi) n1 s1 with ⟨c, n2, s2⟩ | _ | _ | _
          · rw [h] at cs
            obtain ⟨p1, p2⟩ := consumeValue_paid hp h
            simp only [onward_ok] at cs ⊢
            rcases c with _ | ⟨nm, v⟩
            · simp only [onward_err]
              refine ⟨undrop (fun D hD => ?_) (by omega), Nat.zero_le _⟩
              exact taken_steps (E := 0) (F := 0) (y := 0) (f := 0) (z := 0) (consume_drop u cs tk (by omega) (Nat.zero_le _) hD) (by omega) (by omega) (by omega) (by omega)
            · simp only [Option.elim] at p2
              have hv := valSteps_le v
              simp only [itemV] at p2
              dsimp only
              rw [onward_bind]
              rcases pasteVal env ty o v with y | _ | _ | _
              · simp only [onward_ok]
                rw [onward_bind]
                have it := IH ni (vi + 1) n2 s2
                change _ + V * onward (pasteMembers env read fuel rest os ni (vi + 1) n2 s2) (fun x => μ x.2.2) ≤ _ ∧
                  onward (pasteMembers env read fuel rest os ni (vi + 1) n2 s2) (fun x => μ x.2.2) ≤ _
                refine ⟨undrop (fun D hD => ?_) (by omega), by omega⟩
                have := taken_steps (y := 0) (E := 0) (f := valSteps v) (consume_drop u cs tk (by omega) (by omega) hD) (by omega) (by omega) (drop it.1 (by omega)) (by omega : _ ≤ V)
                omega
              all_goals
                simp only [onward_err, onward_ub, onward_fuel]
                refine ⟨undrop (fun D hD => ?_) (by omega), Nat.zero_le _⟩
                have := taken_steps (y := 0) (z := 0) (E := 0) (F := 0) (f := valSteps v) (consume_drop u cs tk (by omega) (Nat.zero_le _) hD) (by omega) (by omega) (by omega) (by omega : _ ≤ V)
                omega
          all_goals
            rw [h] at cs
            simp only [onward_err, onward_ub, onward_fuel] at cs ⊢
            refine ⟨undrop (fun D hD => ?_) (by omega), Nat.zero_le _⟩
            exact taken_steps (E := 0) (F := 0) (y := 0) (f := 0) (z := 0) (consume_drop u cs tk (by omega) (Nat.zero_le _) hD) (by omega) (by omega) (by omega) (by omega)
    all_goals
      simp only [onward_err, onward_ub, onward_fuel] at hx ⊢
      refine ⟨?_, Nat.zero_le _⟩
      exact first_steps (K := 2 + name.length) (V := 0) (P1 := 0) (m1 := 0) hx (by omega) (Nat.le_refl _) (Nat.zero_le _) (by omega) (by omega)
end

private theorem restore_steps (env : Env) (fuel : Nat) (ty : Ty) (ht : own = true ∨ noTables ty) (old : Obj) (s : σ) :
    restoreSteps env read fuel ty old s ≤ (3 + readEffort ty) * μ s := by
  rw [restoreSteps]
  rcases h : read s with ⟨⟨nm, tok⟩, s1⟩ | _ | _ | _
  · have g := hp _ _ _ h
    have tg := tok_gain own ⟨nm, tok⟩
    simp only [onward_ok]
    have e : ∀ x, x ≤ (2 + readEffort ty) * (1 + μ s1) → 1 + μ s1 ≤ μ s →
        tokSteps ⟨nm, tok⟩ + x ≤ (3 + readEffort ty) * μ s := fun x hx h1 => by
      have h2 := Nat.mul_le_mul_left (2 + readEffort ty) h1
      have h3 : (3 + readEffort ty) * μ s = μ s + (2 + readEffort ty) * μ s := by
        simp only [Nat.add_mul]; omega
      omega
    cases tok with
    | scope t =>
      have hs : 1 + μ s1 ≤ μ s := by simp only [gain] at g; omega
      refine e _ ?_ hs
      dsimp only
      have hf : held own (.fresh t) = 1 := by simp [held, content, LNode.fresh]
      split
      · have := (paste_steps hp env fuel ty ht old (.fresh t) s1).1
        rw [hf] at this
        rw [Nat.add_mul]
        omega
      · have cs := consumeValue_steps hp fuel (.index 0) (.fresh t) s1
        have tk := takeSteps_le (.index 0) (LNode.fresh t).values
        have f0 : (LNode.fresh t).values.length = 0 := rfl
        rw [f0] at tk
        have hE := Nat.mul_le_mul_right (1 + μ s1) (effort_pos ty)
        simp only [Sel.steps] at cs tk
        rw [Nat.add_mul]
        rcases h2 : consumeValue read fuel (.index 0) (.fresh t) s1 with ⟨c, n2, s2⟩ | _ | _ | _
        · rw [h2] at cs
          obtain ⟨p1, p2⟩ := consumeValue_paid hp h2
          have := held_pos own n2
          simp only [onward_ok] at cs ⊢
          rcases c with _ | ⟨nm, v⟩
          · change _ + 0 ≤ _; omega
          · have := valSteps_le v
            simp only [Option.elim, itemV, hf] at p2
            change _ + valSteps v ≤ _
            omega
        all_goals
          rw [h2] at cs
          simp only [onward_err, onward_ub, onward_fuel] at cs ⊢
          omega
    | scopeEnd | val _ =>
      have h3 : (3 + readEffort ty) * μ s = 3 * μ s + readEffort ty * μ s := Nat.add_mul _ _ _
      dsimp only
      omega
  all_goals simp

end

/-- C93: restoring from any bytes taken as MessagePack, while they are read, takes at most `3 + readEffort ty` for each
byte, whatever object is overwritten, and whether or not it succeeds. -/
theorem msgpack_read_time (m : Mem) (env : Env) (fuel : Nat) (ty : Ty) (old : Obj) (src : Bytes) :
    restoreSteps env (PMsgPack.read m) fuel ty old ([], src) ≤ (3 + readEffort ty) * src.length :=
  restore_steps (msgpack_pays m) env fuel ty (.inl rfl) old _

/-- C93: … from any bytes taken as JSON … -/
theorem json_read_time (m : Mem) (hm : m.Sane) (env : Env) (fuel : Nat) (ty : Ty) (old : Obj) (r : PJson.Rd) (src : Bytes) :
    restoreSteps env (PJson.read m env.strtod) fuel ty old (r, src) ≤ (3 + readEffort ty) * src.length :=
  restore_steps (json_pays hm env.strtod) env fuel ty (.inl rfl) old _

/-- C93: … from any bytes taken as Srl, for types that have no tables in them. -/
theorem srl_read_time_partial (m : Mem) (env : Env) (fuel : Nat) (ty : Ty) (ht : noTables ty) (old : Obj) (src : Bytes) :
    restoreSteps env (PSrl.read m) fuel ty old (PSrl.St.init, src) ≤ (3 + readEffort ty) * src.length := by
  have h := restore_steps (srl_pays m) env fuel ty (.inr ht) old (PSrl.St.init, src)
  have e : srlRoom (PSrl.St.init, src) = src.length := by simp [srlRoom, PSrl.St.init, total]
  rwa [e] at h

/-! ## Cases -/

/-- A class with a number, and optional text -/
private def point : Ty := .record .object false (.cons (str "x") false (.int .u8) (.cons (str "s") true .str .nil))

/-- The text of the first is stored while its number is sought. The bound is 29 for each of the 27 bytes. -/
example : readEffort (.vec point) = 26 ∧
    (match restore ⟨fun _ => none, fun _ => []⟩ (PJson.read ⟨some 0, 4096⟩ fun _ => none) 100 (.vec point) (.many [])
      (PJson.Rd.new, str "[{\"s\":\"abc\",\"x\":1},{\"x\":2}]") with
    | .ok (.many [.many [.int x, .str s], .many [.int y, .str t]], _) => x = 1 ∧ s = str "abc" ∧ y = 2 ∧ t = []
    | _ => False) ∧
    restoreSteps ⟨fun _ => none, fun _ => []⟩ (PJson.read ⟨some 0, 4096⟩ fun _ => none) 100 (.vec point) (.many [])
      (PJson.Rd.new, str "[{\"s\":\"abc\",\"x\":1},{\"x\":2}]") = 47 := by
  refine ⟨by decide +kernel, ?_, by decide +kernel⟩
  exact ⟨rfl, rfl, rfl, rfl⟩

end Srl.Props
