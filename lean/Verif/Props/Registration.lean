import Verif.Props.HTable
import Verif.Model.Registration

/-! # C41 – registered types; C54 – raw pointers after a failed restore -/

namespace Srl.Props

open Registration

variable {F : Type}

/-- Specification: the factory an identifier stands for after the calls made so far — the one given with
the first registration. -/
def registered : List (Call F) → Bytes → Option F
  | [], _ => none
  | .add id f :: cs, x => if id = x then some f else registered cs x
  | .create _ :: cs, x => registered cs x

/-- Specification: what a call gives, knowing the calls before. -/
def answer (before : List (Call F)) : Call F → Answer F
  | .add id _ => match registered before id with
    | none => .added
    | some _ => .threw
  | .create id => match registered before id with
    | none => .threw
    | some f => .made f

/-- Specification: what a sequence of calls gives. -/
def answers : List (Call F) → List (Call F) → List (Answer F)
  | _, [] => []
  | before, c :: cs => answer before c :: answers (before ++ [c]) cs

private theorem registered_append (h : List (Call F)) (c : Call F) (x : Bytes) :
    registered (h ++ [c]) x = match registered h x with
      | some f => some f
      | none => registered [c] x := by
  induction h with
  | nil => rfl
  | cons d h ih =>
    cases d with
    | add id f =>
      show registered (.add id f :: (h ++ [c])) x = _
      rw [registered, registered]
      by_cases hx : id = x
      · rw [if_pos hx, if_pos hx]
      · rw [if_neg hx, if_neg hx, ih]
    | create id => exact ih

private def Holds (r : Reg F) (h : List (Call F)) : Prop :=
  ∃ m : Map Bytes F, Abs r m ∧ ∀ x, (m x).map (·.2) = registered h x

private theorem call_spec (cfg : HTable.Cfg Bytes) (r : Reg F) (h : List (Call F))
    (hi : HTable.Inv cfg r) (hh : Holds r h) (c : Call F) :
    ∃ r', call cfg r c = .ok (answer h c, r') ∧ HTable.Inv cfg r' ∧ Holds r' (h ++ [c]) := by
  obtain ⟨m, ha, hm⟩ := hh
  cases c with
  | add id f =>
    obtain ⟨t', x, a, w, e, hi', hc⟩ := insert_spec hi ha false id f
    refine ⟨t', ?_, hi', ?_⟩
    · rw [call, Registration.insert, HTable.insert, e]
      simp only [Res.ok_bind, answer]
      rw [← hm id]
      rcases hc with ⟨rfl, -, h1, -⟩ | ⟨rfl, -, h1, -⟩ | ⟨-, h1, -⟩
      · rw [h1]; rfl
      · rw [h1]; rfl
      · cases h1
    · rcases hc with ⟨rfl, -, h1, -, ha'⟩ | ⟨rfl, -, h1, ha'⟩ | ⟨-, h1, -⟩
      · refine ⟨_, ha', fun y => ?_⟩
        rw [registered_append, ← hm y]
        by_cases hy : y = id
        · subst hy
          rw [h1]
          simp [Map.put, registered]
        · have hy' : ¬ id = y := fun h => hy h.symm
          simp only [Map.put, if_neg hy, registered, if_neg hy']
          cases m y <;> rfl
      · refine ⟨_, ha', fun y => ?_⟩
        rw [registered_append, ← hm y]
        cases hy : m y with
        | some _ => rfl
        | none =>
          have hy' : ¬ id = y := by
            intro h
            rw [h, hy] at h1
            cases h1
          simp only [registered, if_neg hy', Option.map_none]
      · cases h1
  | create id =>
    refine ⟨r, ?_, hi, m, ha, fun y => ?_⟩
    · rw [call, Registration.find, get_spec hi ha id]
      simp only [Res.ok_bind, answer]
      rw [← hm id]
      cases m id <;> rfl
    · rw [registered_append, hm y]
      cases registered h y <;> rfl

private theorem calls_spec (cfg : HTable.Cfg Bytes) (cs : List (Call F)) (r : Reg F)
    (h : List (Call F)) (hi : HTable.Inv cfg r) (hh : Holds r h) :
    ∃ r', calls cfg r cs = .ok (answers h cs, r') ∧ HTable.Inv cfg r' ∧ Holds r' (h ++ cs) := by
  induction cs generalizing r h with
  | nil => exact ⟨r, rfl, hi, by simpa using hh⟩
  | cons c cs ih =>
    obtain ⟨r1, e1, hi1, hh1⟩ := call_spec cfg r h hi hh c
    obtain ⟨r2, e2, hi2, hh2⟩ := ih r1 (h ++ [c]) hi1 hh1
    refine ⟨r2, ?_, hi2, by simpa using hh2⟩
    rw [calls, e1]
    simp only [Res.ok_bind, e2, answers]

/-- C41: in every sequence of registrations and uses, whatever the hash function and the load factor,
registering an identifier again throws and the first registration stays; using one that is not registered
throws; using a registered one calls the factory it was registered with. -/
theorem registrations (cfg : HTable.Cfg Bytes) (cs : List (Call F)) :
    ∃ r, calls cfg Reg.new cs = .ok (answers [] cs, r) := by
  obtain ⟨r, e, -⟩ := calls_spec cfg cs Reg.new [] (new_inv cfg 16).1
    ⟨_, (new_inv cfg 16).2, fun _ => rfl⟩
  exact ⟨r, e⟩

/-- The calls of the example: two types, the second identifier twice, one never registered. -/
example : answers [] [Call.add [65] 1, .add [66] 2, .add [66] 3, .create [66], .create [65],
      .create [67], .add [67] 4, .create [67]]
    = [.added, .added, .threw, .made 2, .made 1, .threw, .added, .made 4] := by decide

/-! ## Pointers -/

/-- A pointer that may be used -/
def Ptr.Usable {O : Type} : Ptr O → Prop
  | .dangling => False
  | _ => True

/-- C54 fails: restoring into a raw pointer that points to an object deletes the object first; when
restoring throws, the pointer still holds the address of the deleted object. Deleting or using it
afterwards, as the destructor of the owner or the next restore does, is undefined. -/
theorem raw_pointer_dangles {O : Type} (o : O) :
    (∃ p, pasteRaw (.live o) false .err = .ok (true, p) ∧ ¬ Ptr.Usable p ∧
      ∀ n i, pasteRaw p n i = .ub) ∧
    ∀ (cfg : HTable.Cfg Bytes) (id : Bytes) (inner : F → Res O), ∃ p,
      pastePoly cfg Reg.new (.live o) (.ok id) inner = .ok (true, p) ∧ ¬ Ptr.Usable p := by
  refine ⟨⟨.dangling, rfl, fun h => h, fun _ _ => rfl⟩, fun cfg id inner => ⟨.dangling, ?_, fun h => h⟩⟩
  have : HTable.get cfg (Reg.new : Reg F) id = .ok none :=
    get_spec (new_inv cfg 16).1 (new_inv cfg 16).2 id
  rw [pastePoly, Registration.find, this]
  rfl

/-- C54, partial: a raw pointer is usable after restoring if it was null before, if restoring does not
throw, or if there is a null value. Missing: pointers to objects when restoring throws, see
`raw_pointer_dangles`. -/
theorem raw_pointer_usable_partial {O : Type} (p p' : Ptr O) (n threw : Bool) (i : Res O)
    (hp : Ptr.Usable p) (h : pasteRaw p n i = .ok (threw, p')) :
    (Ptr.Usable p' ↔ threw = false ∨ p = .null) ∧ (threw = true ↔ n = false ∧ i = .err) := by
  cases p with
  | dangling => exact hp.elim
  | null =>
    cases n <;> cases i <;> cases h <;> simp [Ptr.Usable, Ptr.gone]
  | live o =>
    cases n <;> cases i <;> cases h <;> simp [Ptr.Usable, Ptr.gone]

/-- C54, partial, and C41: the same for pointers to polymorphic types, after any registrations. If the
identifier cannot be read, the pointer is as before; otherwise the object is made by the factory
registered first. Missing: pointers to objects when the identifier is not registered or restoring
throws. -/
theorem poly_pointer_partial {O : Type} (cfg : HTable.Cfg Bytes) (cs : List (Call F)) (r : Reg F)
    (as : List (Answer F)) (hr : calls cfg Reg.new cs = .ok (as, r)) (p : Ptr O) (hp : Ptr.Usable p)
    (tid : Res Bytes) (inner : F → Res O) :
    (tid = .err → pastePoly cfg r p tid inner = .ok (true, p)) ∧
    (∀ id, tid = .ok id → registered cs id = none →
      ∃ p', pastePoly cfg r p tid inner = .ok (true, p') ∧ (Ptr.Usable p' ↔ p = .null)) ∧
    (∀ id f, tid = .ok id → registered cs id = some f →
      (∀ o, inner f = .ok o → pastePoly cfg r p tid inner = .ok (false, .live o)) ∧
      (inner f = .err →
        ∃ p', pastePoly cfg r p tid inner = .ok (true, p') ∧ (Ptr.Usable p' ↔ p = .null))) := by
  obtain ⟨r', e, hi, m, ha, hm⟩ := calls_spec cfg cs Reg.new [] (new_inv cfg 16).1
    ⟨_, (new_inv cfg 16).2, fun _ => rfl⟩
  rw [hr] at e
  cases e
  have hf : ∀ id, Registration.find cfg r id = .ok (registered cs id) := by
    intro id
    rw [Registration.find, get_spec hi ha id, Res.ok_bind, hm id]
    rfl
  refine ⟨fun h => by rw [h]; rfl, fun id h hn => ?_, fun id f h hs => ⟨fun o ho => ?_, fun ho => ?_⟩⟩
  · subst h
    rw [pastePoly, hf, hn]
    cases p with
    | dangling => exact hp.elim
    | null => exact ⟨.null, rfl, by simp [Ptr.Usable]⟩
    | live o => exact ⟨.dangling, rfl, by simp [Ptr.Usable]⟩
  · subst h
    rw [pastePoly, hf, hs]
    cases p with
    | dangling => exact hp.elim
    | null => simp [Ptr.del, ho]
    | live o => simp [Ptr.del, ho]
  · subst h
    rw [pastePoly, hf, hs]
    cases p with
    | dangling => exact hp.elim
    | null => exact ⟨.null, by simp [Ptr.del, Ptr.gone, ho], by simp [Ptr.Usable]⟩
    | live o => exact ⟨.dangling, by simp [Ptr.del, Ptr.gone, ho], by simp [Ptr.Usable]⟩

/-- A pointer to an object, replaced by one made by the second registration. -/
example : ∃ r, calls ⟨fun _ => 0, fun n => n⟩ Reg.new [Call.add [65] 1, .add [66] 2]
      = .ok ([.added, .added], r) ∧
    pastePoly ⟨fun _ => 0, fun n => n⟩ r (.live 10) (.ok [66]) (fun f => .ok (f + 20))
      = .ok (false, .live 22) := by
  obtain ⟨r, h⟩ := registrations (F := Nat) ⟨fun _ => 0, fun n => n⟩ [Call.add [65] 1, .add [66] 2]
  exact ⟨r, h, ((poly_pointer_partial _ _ r _ h (.live 10) trivial (.ok [66]) (fun f => .ok (f + 20))).2.2
    [66] 2 rfl rfl).1 22 rfl⟩

end Srl.Props
