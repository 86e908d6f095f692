import Verif.Lemmas.Reuse

/-! # C32 – parsers of the binary formats can be reused -/

namespace Srl.Props

open PSrl (nameCfg)

/-- States a `PSrl` can be in: uses in any order, interrupted anywhere. A write that is cut off
(the output may throw) has inserted the name or not; what a read, successful or not, leaves in the
scopes and in the list of names read is left open. -/
inductive SrlState (cfg : HTable.Cfg Bytes) : PSrl.Obj → Prop
  | new : SrlState cfg .new
  | clear {o} : SrlState cfg o → SrlState cfg o.clear
  | write {o e o' b} : SrlState cfg o → o.write cfg e = .ok (o', b) → SrlState cfg o'
  | name {o k v t x} : SrlState cfg o → HTable.insert cfg o.hashed k v = .ok (t, x) →
      SrlState cfg { o with hashed := t }
  | read {o} (stack indexed) : SrlState cfg o → SrlState cfg ⟨stack, indexed, o.hashed⟩

private theorem new_ok (cfg : HTable.Cfg Bytes) : HTable.Inv cfg PSrl.Obj.new.hashed ∧
    Abs PSrl.Obj.new.hashed (fun _ => none) := by
  refine ⟨?_, fun k a v => by simp [PSrl.Obj.new, HTable.Tbl.es, HTable.new]⟩
  constructor
  · intro tb h; cases h
  · intro tb h; cases h
  · intro e h; simp [HTable.Tbl.es, HTable.new, PSrl.Obj.new] at h
  · simp [HTable.Tbl.es, HTable.new, PSrl.Obj.new]
  · simp [HTable.Tbl.es, HTable.new, PSrl.Obj.new]
  · simp [HTable.Tbl.es, HTable.new, PSrl.Obj.new]
  · simp [HTable.Tbl.es, HTable.new, PSrl.Obj.new]
  · intro _; rfl
  · intro h; exact absurd rfl h

private theorem insert_ok {cfg : HTable.Cfg Bytes} {t t' : HTable.Tbl Bytes Nat} {k : Bytes} {v : Nat}
    {x : Bool × Nat × Nat} (h : HTable.Inv cfg t ∧ ∃ m, Abs t m)
    (hi : HTable.insert cfg t k v = .ok (t', x)) : HTable.Inv cfg t' ∧ ∃ m, Abs t' m := by
  obtain ⟨hv, m, ha⟩ := h
  obtain ⟨t1, y, a, w, h1, h2, h3⟩ := insert_spec hv ha false k v
  rw [HTable.insert] at hi
  rw [hi] at h1
  cases h1
  refine ⟨h2, ?_⟩
  rcases h3 with ⟨-, -, -, -, h⟩ | ⟨-, -, -, h⟩ | ⟨-, -, -, -, h⟩ <;> exact ⟨_, h⟩

private theorem head_ok {cfg : HTable.Cfg Bytes} {o : PSrl.Obj} {flag : UInt8} {name b : Bytes}
    {t : HTable.Tbl Bytes Nat} (h : HTable.Inv cfg o.hashed ∧ ∃ m, Abs o.hashed m)
    (hw : o.writeHead cfg flag name = .ok (t, b)) : HTable.Inv cfg t ∧ ∃ m, Abs t m := by
  rw [PSrl.Obj.writeHead] at hw
  by_cases hc : name.length < 1 ∨ o.stack.head? ≠ some .object
  · rw [if_pos hc] at hw; cases hw; exact h
  · rw [if_neg hc] at hw
    obtain ⟨⟨t1, y, a, w⟩, h1, h2⟩ := Res.bind_eq_ok.mp hw
    have := insert_ok h h1
    cases y with
    | false =>
      obtain ⟨_, _, h3⟩ := Res.bind_eq_ok.mp (by simpa using h2)
      cases h3; exact this
    | true =>
      obtain ⟨_, _, h3⟩ := Res.bind_eq_ok.mp (by simpa using h2)
      cases h3; exact this

theorem srl_state_ok {cfg : HTable.Cfg Bytes} {o : PSrl.Obj} (h : SrlState cfg o) :
    HTable.Inv cfg o.hashed ∧ ∃ m, Abs o.hashed m := by
  induction h with
  | new => exact ⟨(new_ok cfg).1, _, (new_ok cfg).2⟩
  | clear _ ih =>
    obtain ⟨h1, m, h2⟩ := ih
    exact ⟨(clear_spec h1 h2).1, _, (clear_spec h1 h2).2⟩
  | @write o e o' b _ hw ih =>
    obtain ⟨n, tok⟩ := e
    cases tok with
    | scopeEnd =>
      rw [PSrl.Obj.write] at hw
      cases hs : o.stack with
      | nil => simp [hs] at hw
      | cons t stk => simp [hs] at hw; rw [← hw.1]; exact ih
    | scope t =>
      obtain ⟨⟨t1, h⟩, h1, h2⟩ := Res.bind_eq_ok.mp hw
      cases h2; exact head_ok ih h1
    | val v =>
      obtain ⟨⟨t1, h⟩, h1, h2⟩ := Res.bind_eq_ok.mp hw
      obtain ⟨_, _, h3⟩ := Res.bind_eq_ok.mp h2
      cases h3; exact head_ok ih h1
  | name _ hi ih => exact insert_ok ih hi
  | read stack indexed _ ih => exact ih

/-- What a user sees of a load: the tree and the bytes left over. -/
def seen {σ : Type} (x : Res (Root × (σ × Bytes))) : Res (Root × Bytes) := do
  let (a, _, t) ← x
  .ok (a, t)

/-- What a user sees of a save. -/
def output {σ : Type} (x : Res (σ × Bytes)) : Res Bytes := do
  let (_, b) ← x
  .ok b

/-- The writer with its hash table of names gives the bytes of the model used for the other
properties of the Srl format. -/
theorem srl_table_exact (scale : Nat → Nat) (o : PSrl.Obj) (ho : SrlState (nameCfg scale) o)
    (name : Bytes) (n : Node) :
    output (o.save (nameCfg scale) name n) = PSrl.save name n := by
  obtain ⟨h1, m, h2⟩ := srl_state_ok ho
  have := PSrl.sim_writeAll (n.events name) (o := o.clear) (st := PSrl.St.init)
    ⟨rfl, PSrl.rep_clear h1 h2⟩
  rw [PSrl.Obj.save, PSrl.save, output]
  cases hx : o.clear.writeAll (nameCfg scale) (n.events name) <;>
    cases hy : PSrl.writeAll PSrl.St.init (n.events name) <;> rw [hx, hy] at this <;>
    first | exact this.elim | rfl | skip
  rename_i p q
  obtain ⟨-, h3⟩ := this
  show Res.ok _ = Res.ok _
  rw [h3]

/-- C32 for the Srl format: whatever a parser was used for before, and wherever that was
interrupted, saving with it gives the bytes a new one gives, and loading the result a new one
gives. -/
theorem srl_reuse (scale : Nat → Nat) (o : PSrl.Obj) (ho : SrlState (nameCfg scale) o) :
    (∀ name n, output (o.save (nameCfg scale) name n) =
      output (PSrl.Obj.new.save (nameCfg scale) name n)) ∧
    (∀ m s, seen (o.load m s) = seen (PSrl.Obj.new.load m s)) := by
  refine ⟨?_, ?_⟩
  · intro name n
    rw [srl_table_exact scale o ho, srl_table_exact scale _ .new]
  · intro m s
    have key : ∀ o : PSrl.Obj, seen (o.load m s) = seen (PSrl.load m s) := by
      intro o
      have := Doc.load_through (PSrl.through m) (s.length + 1) (o.clear, s)
      rw [PSrl.Obj.load, PSrl.load]
      have he : ((⟨o.clear.stack, o.clear.indexed⟩, s) : PSrl.St × Bytes) = (PSrl.St.init, s) := rfl
      simp only [he] at this
      rw [← this]
      cases Doc.load (PSrl.Obj.read m) (s.length + 1) (o.clear, s) <;> rfl
    rw [key o, key]

private def getOr {α : Type} (x : Res α) (d : α) : α := match x with | .ok a => a | _ => d

private theorem ok_getOr {α : Type} {x : Res α} (d : α)
    (h : (match x with | .ok _ => true | _ => false) = true) : x = .ok (getOr x d) := by
  cases x <;> first | rfl | cases h

/-- Step by step: the name "a" written inside an object, then a failed read that left a scope. -/
private def used1 : PSrl.Obj × Bytes :=
  getOr (PSrl.Obj.new.write (nameCfg id) ⟨[], .scope .object⟩) (.new, [])
private def used2 : PSrl.Obj × Bytes :=
  getOr (used1.1.write (nameCfg id) ⟨[97], .val .null⟩) (.new, [])

/-- Such a parser holds a name and scopes, and still writes the name in full. -/
example : SrlState (nameCfg id) ⟨[.array, .object], [[97], [98]], used2.1.hashed⟩ ∧
    used2.1.hashed.elements = 1 ∧
    output (PSrl.Obj.save (nameCfg id) ⟨[.array, .object], [[97], [98]], used2.1.hashed⟩ []
      (.mk .object [([97], .bool true), ([97], .null)] [])) = .ok [64, 67, 1, 97, 14, 0, 0] := by
  have h1 : SrlState (nameCfg id) used1.1 :=
    .write (e := ⟨[], .scope .object⟩) .new (ok_getOr (PSrl.Obj.new, []) (by decide +kernel))
  have h2 : SrlState (nameCfg id) used2.1 :=
    .write (e := ⟨[97], .val .null⟩) h1 (ok_getOr (PSrl.Obj.new, []) (by decide +kernel))
  exact ⟨.read _ _ h2, by decide +kernel, by decide +kernel⟩

/-- C32 for MessagePack: the same, for a parser in any state. -/
theorem msgpack_reuse (o : PMsgPack.Obj) :
    (∀ name n, output (o.save name n) = output (PMsgPack.Obj.new.save name n)) ∧
    (∀ m s, seen (o.load m s) = seen (PMsgPack.Obj.new.load m s)) := by
  refine ⟨?_, ?_⟩
  · intro name n
    simp only [PMsgPack.Obj.save, PMsgPack.Obj.clear]
    cases PMsgPack.writeAll ([], []) (n.events name) <;> rfl
  · intro m s
    have key : ∀ o : PMsgPack.Obj, seen (o.load m s) = seen (PMsgPack.load m s) := by
      intro o
      have := Doc.load_through (PMsgPack.through m) (2 * s.length + 1) (o.clear, s)
      rw [PMsgPack.Obj.load, PMsgPack.load]
      simp only [PMsgPack.Obj.clear, List.map_nil] at this ⊢
      rw [← this]
      cases Doc.load (PMsgPack.Obj.read m) (2 * s.length + 1) (⟨[], o.buffer⟩, s) <;> rfl
    rw [key o, key]

end Srl.Props
