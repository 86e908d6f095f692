import Verif.Props.StoredKeysSpec
import Verif.Lemmas.Shared

/-! # C95: the keys of objects of any type are given in order -/

namespace Srl.Props
open Shared Typed Doc

/-- `KeysInOrder`, with the number of keys that were given afterwards -/
inductive Given : Nat → List Nat → Nat → Prop
  | nil {N : Nat} : Given N [] N
  | again {N M k : Nat} {ks : List Nat} : k < N → Given N ks M → Given N (k :: ks) M
  | next {N M : Nat} {ks : List Nat} : Given (N + 1) ks M → Given N (N :: ks) M

theorem Given.append {N M L : Nat} {ks ls : List Nat} (h1 : Given N ks M) (h2 : Given M ls L) : Given N (ks ++ ls) L := by
  induction h1 with
  | nil => exact h2
  | again h _ ih => exact .again h (ih h2)
  | next _ ih => exact .next (ih h2)

theorem Given.order {N M : Nat} {ks : List Nat} (h : Given N ks M) : KeysInOrder N ks := by
  induction h with
  | nil => exact .nil
  | again h _ ih => exact .again h ih
  | next _ ih => exact .next ih

private theorem given_each {cfg : HTable.Cfg Nat} {C : Nat → GTy} {f : Obj → Seen → Res (Item × Seen)} {e : GTy}
    (hf : ∀ x t i t' b, SeenIs cfg t b → f x t = .ok (i, t') → ∃ c ks, SeenIs cfg t' c ∧ KeysIn C e i ks ∧ Given b.length ks c.length)
    (name : Bytes) (s : ScopeTy) : ∀ (xs : List Obj) (t t' : Seen) (is : List Item) (b : List Nat), SeenIs cfg t b →
      eachObj f xs t = .ok (is, t') →
      ∃ c ks, SeenIs cfg t' c ∧ KeysIn C (.vec e) (.scope name s is) ks ∧ Given b.length ks c.length
  | [], t, t', is, b, hk, h => by
    cases h
    exact ⟨b, [], hk, .empty, .nil⟩
  | x :: xs, t, t', is, b, hk, h => by
    simp only [eachObj, Res.bind_eq_ok] at h
    obtain ⟨⟨i, t1⟩, h1, ⟨is, t2⟩, h2, h3⟩ := h
    cases h3
    obtain ⟨c, ks, c1, c2, c3⟩ := hf x t i t1 b hk h1
    obtain ⟨d, ls, d1, d2, d3⟩ := given_each hf name s xs t1 t2 is c c1 h2
    exact ⟨d, ks ++ ls, d1, .item c2 d2, c3.append d3⟩

private theorem given_members {cfg : HTable.Cfg Nat} {C : Nat → GTy} {f : Bytes → GTy → Obj → Seen → Res (Item × Seen)}
    (hf : ∀ name ty x t i t' b, SeenIs cfg t b → f name ty x t = .ok (i, t') →
      ∃ c ks, SeenIs cfg t' c ∧ KeysIn C ty i ks ∧ Given b.length ks c.length)
    (name : Bytes) (s : ScopeTy) : ∀ (fs : GFields) (xs : List Obj) (t t' : Seen) (is : List Item) (b : List Nat), SeenIs cfg t b →
      eachField f fs xs t = .ok (is, t') →
      ∃ c ks, SeenIs cfg t' c ∧ KeysIn C (.record fs) (.scope name s is) ks ∧ Given b.length ks c.length
  | .nil, xs, t, t', is, b, hk, h => by
    cases h
    exact ⟨b, [], hk, .done, .nil⟩
  | .cons _ _ _, [], t, t', is, b, hk, h => by cases h
  | .cons field ty rest, x :: xs, t, t', is, b, hk, h => by
    simp only [eachField, Res.bind_eq_ok] at h
    obtain ⟨⟨i, t1⟩, h1, ⟨is, t2⟩, h2, h3⟩ := h
    cases h3
    obtain ⟨c, ks, c1, c2, c3⟩ := hf field ty x t i t1 b hk h1
    obtain ⟨d, ls, d1, d2, d3⟩ := given_members hf name s rest xs t1 t2 is c c1 h2
    exact ⟨d, ks ++ ls, d1, .member c2 d2, c3.append d3⟩

private theorem given_from {cfg : HTable.Cfg Nat} {C : Nat → GTy} {G : Graph} : ∀ (fuel : Nat) (name : Bytes) (ty : GTy) (o : Obj)
    (t : Seen) (i : Item) (t' : Seen) (b : List Nat), SeenIs cfg t b → store cfg C G fuel name ty o t = .ok (i, t') →
    ∃ c ks, SeenIs cfg t' c ∧ KeysIn C ty i ks ∧ Given b.length ks c.length
  | 0, _, _, _, _, _, _, _, _, h => by cases h
  | fuel + 1, name, ty, o, t, i, t', b, hk, h => by
    unfold store at h
    split at h
    · cases h
    · cases h
      exact ⟨b, [], hk, .plain, .nil⟩
    · rename_i hu; cases hu
      simp only [Res.bind_eq_ok] at h
      obtain ⟨⟨is, t1⟩, h1, h2⟩ := h
      cases h2
      exact given_each (fun x t i t' b => given_from fuel _ _ x t i t' b) _ _ _ _ _ _ _ hk h1
    · rename_i hu; cases hu
      simp only [Res.bind_eq_ok] at h
      obtain ⟨⟨is, t1⟩, h1, h2⟩ := h
      cases h2
      exact given_members (fun name ty x t i t' b => given_from fuel name ty x t i t' b) _ _ _ _ _ _ _ _ hk h1
    · cases h
      exact ⟨b, [], hk, .null, .nil⟩
    · rename_i hu; cases hu
      simp only [Res.bind_eq_ok] at h
      obtain ⟨⟨known, key, t1⟩, h1, h2⟩ := h
      obtain ⟨known', key', t2, f1, f2⟩ := insertShared_spec hk _
      rw [h1] at f1
      cases f1
      dsimp only at h2
      rcases f2 with ⟨rfl, f2, f3⟩ | ⟨rfl, rfl, -, f3⟩
      · cases h2
        obtain ⟨hlt, -⟩ := List.getElem?_eq_some_iff.mp f2
        exact ⟨b, [key], f3, .again, .again hlt .nil⟩
      · simp only [Bool.false_eq_true, if_false, Res.bind_eq_ok] at h2
        obtain ⟨⟨i2, t2⟩, h3, h4⟩ := h2
        cases h4
        obtain ⟨c, ks, c1, c2, c3⟩ := given_from fuel _ _ _ _ _ _ _ f3 h3
        rw [List.length_append] at c3
        exact ⟨c, _ :: ks, c1, .first c2, .next c3⟩
    · cases h

/-- C95 (what holds): keys are given in order when an object of any type is stored. -/
theorem keys_given {cfg : HTable.Cfg Nat} {C : Nat → GTy} {G : Graph} {fuel : Nat} {name : Bytes} {ty : GTy} {o : Obj} {i : Item}
    {t : Seen} (h : store cfg C G fuel name ty o Seen.new = .ok (i, t)) : ∃ ks, KeysIn C ty i ks ∧ KeysInOrder 0 ks := by
  obtain ⟨c, ks, -, h1, h2⟩ := given_from fuel name ty o _ i t [] (seen_new cfg) h
  exact ⟨ks, h1, h2.order⟩

/-- Two pointers to an object with a pointer to a number -/
example : KeysIn (fun | 0 => .record (.cons [97] (.shared false 1) .nil) | _ => .plain (.int .u64)) (.vec (.shared false 0))
    (.scope [] .array
      [.scope [] .object [.val keyName (.int .u64 0), .scope valueName .object
         [.scope [97] .object [.val keyName (.int .u64 1), .val valueName (.int .u64 7)]]],
       .scope [] .object [.val keyName (.int .u64 0)]]) [0, 1, 0] :=
  .item (ks := [0, 1]) (.first (key := 0) (.member (ks := [1]) (.first (key := 1) .plain) .done)) (.item (ks := [0]) .again .empty)

end Srl.Props
