import Verif.Lemmas.SrlLax
import Verif.Lemmas.MsgPackObject

/-! Documents in the Srl format as they are read: which tokens they consist of, and that their values are kept as they
are. -/

namespace Srl.LaxSrl
open PSrl Doc Props

/-- Scopes of the grammar consist of the tokens of their elements. -/
theorem elems_emits {m : Mem} (hm : m.Sane) {odd : Bool} {t : ScopeTy} {a c : List Bytes} {is : List Item} {b : Bytes}
    (h : Elems odd t a is b c) : ∀ (stack : List ScopeTy) (u : Bytes),
    Emits (PSrl.read m) (⟨t :: stack, a⟩, b ++ u) (Item.eventsL is ++ [⟨[], .scopeEnd⟩]) (⟨stack, c⟩, u) := by
  induction h with
  | nil ty names =>
    intro stack u
    refine .cons ?_ (.nil _)
    simp only [PSrl.read, List.singleton_append]
    rw [readHead_cons hm, if_pos (.inl (by decide))]
    simp [readRest]
  | val ty a b c f n v is k w r hk hv _ ih =>
    intro stack u
    refine .cons ?_ (ih stack u)
    simp only [PSrl.read, List.cons_append, List.append_assoc]
    rw [key_read hm hk]
    simp only [Res.ok_bind]
    rw [body_read hm hv]
  | scope ty t a b c e f n js is k q r hk ho _ _ ih1 ih2 =>
    intro stack u
    have : PSrl.read m (⟨ty :: stack, a⟩, f :: (k ++ (q ++ r)) ++ u) =
        .ok (⟨n, .scope t⟩, (⟨t :: ty :: stack, b⟩, q ++ (r ++ u))) := by
      simp only [PSrl.read, List.cons_append, List.append_assoc]
      rw [key_read hm hk]
      simp only [Res.ok_bind]
      rw [opens_read ho]
    have hk := emits_append.mpr ⟨_, ih1 (ty :: stack) (r ++ u), ih2 stack u⟩
    simp only [Item.eventsL, Item.events, List.cons_append, List.append_assoc] at hk ⊢
    rw [List.cons_append, List.append_assoc, List.append_assoc] at this
    exact .cons this hk

/-- Documents of the grammar consist of the tokens of their root. -/
theorem document_emits {m : Mem} (hm : m.Sane) {odd : Bool} {t : ScopeTy} {is : List Item} {names : List Bytes}
    {b : Bytes} (h : Document odd t is names b) (u : Bytes) :
    Emits (PSrl.read m) (St.init, b ++ u) (Item.scope [] t is).events (⟨[], names⟩, u) := by
  obtain ⟨f, c, h1, _, h2, rfl⟩ := h
  refine .cons ?_ (elems_emits hm h2 [] u)
  simp only [PSrl.read, List.cons_append]
  rw [readHead_cons hm, if_pos (.inr (by simp [St.init]))]
  simp only [Res.ok_bind]
  rw [opens_read h1]
  rfl

/-- Values are those that are read. -/
theorem body_same {odd : Bool} {f : UInt8} {v : Val} {w : Bytes} (h : Body odd f v w) : MpVal v v := by
  cases h with
  | bool => exact rfl
  | float => exact rfl
  | double =>
    rename_i d _ _ _ _
    rcases Typed.ofDouble_cases d with ⟨x, hx⟩ | hx
    · rw [hx]; exact rfl
    · rw [hx]; exact hx.symm
  | pos =>
    obtain ⟨-, k, -, rfl, -⟩ := (by assumption : Num odd _ w)
    refine ⟨.u64, rfl, ?_, ?_⟩
    · show (0 : Int) ≤ _; exact Int.natCast_nonneg _
    · show _ ≤ (2 ^ 64 - 1 : Int); omega
  | neg =>
    refine ⟨.i64, rfl, ?_, ?_⟩
    · show (-2 ^ 63 : Int) ≤ _; omega
    · show _ ≤ (2 ^ 63 - 1 : Int); omega
  | str => exact rfl
  | bin => exact rfl
  | null => exact rfl

theorem elems_same {odd : Bool} {t : ScopeTy} {a c : List Bytes} {is : List Item} {b : Bytes}
    (h : Elems odd t a is b c) : ∀ named, MpRelL named is is := by
  induction h with
  | nil => intro named; simp [MpRelL]
  | val ty a b c f n v is k w r _ hv _ ih =>
    intro named
    simp only [MpRelL, MpRel]
    exact ⟨⟨fun _ => trivial, body_same hv⟩, ih named⟩
  | scope ty t a b c e f n js is k q r _ _ _ _ ih1 ih2 =>
    intro named
    simp only [MpRelL, MpRel]
    exact ⟨⟨fun _ => trivial, trivial, ih1 _⟩, ih2 named⟩

theorem document_same {odd : Bool} {t : ScopeTy} {is : List Item} {names : List Bytes} {b : Bytes}
    (h : Document odd t is names b) : MpRel false (.scope [] t is) (.scope [] t is) := by
  obtain ⟨f, c, _, _, h2, rfl⟩ := h
  simp only [MpRel]
  exact ⟨fun _ => trivial, trivial, elems_same h2 _⟩

theorem nesting_depth : ∀ is : List Item, Item.depthL is = nesting is
  | [] => by rw [Item.depthL, nesting]
  | .val _ _ :: is => by
    rw [Item.depthL, nesting, Item.depth, nesting_depth is]; omega
  | .scope _ _ js :: is => by
    rw [Item.depthL, nesting, Item.depth, nesting_depth is, nesting_depth js]

/-- Every byte of a document belongs to a token, and there are no more tokens than bytes. -/
theorem elems_length {odd : Bool} {t : ScopeTy} {a c : List Bytes} {is : List Item} {b : Bytes}
    (h : Elems odd t a is b c) : (Item.eventsL is).length < b.length := by
  induction h with
  | nil => simp [Item.eventsL]
  | val ty a b c f n v is k w r _ _ _ ih =>
    simp only [Item.eventsL, Item.events, List.length_append, List.length_cons, List.length_nil]
    omega
  | scope ty t a b c e f n js is k q r _ _ _ _ ih1 ih2 =>
    simp only [Item.eventsL, Item.events, List.length_append, List.length_cons, List.length_nil]
    omega

end Srl.LaxSrl
