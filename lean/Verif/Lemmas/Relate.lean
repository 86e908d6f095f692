import Verif.Model.Typed
import Verif.Model.Shared
import Verif.Model.Doc

/-! Readers that give the same tokens give the same results. -/

namespace Srl

/-- How far results may differ. -/
structure Lax where
  /-- an error of the first may be lack of memory (`fuel`) of the second -/
  mem : Prop
  /-- if the first fails the second may do anything -/
  any : Prop

/-- Results that correspond -/
def Rel {α β : Type} (E : Lax) (S : α → β → Prop) : Res α → Res β → Prop
  | .ok a, .ok b => S a b
  | .ok _, _ => False
  | .err, .err => True
  | .ub, .ub => True
  | .fuel, .fuel => True
  | .err, .fuel => E.mem ∨ E.any
  | _, _ => E.any

theorem Rel.of_any {α β : Type} {E : Lax} {S : α → β → Prop} {r : Res α} (r' : Res β) (hr : ∀ a, r ≠ .ok a)
    (h : E.any) : Rel E S r r' := by
  cases r with
  | ok a => exact absurd rfl (hr a)
  | _ => cases r' <;> first | exact h | trivial | exact .inr h

theorem Rel.bind {α β γ δ : Type} {E : Lax} {S : α → β → Prop} {T : γ → δ → Prop} {r : Res α} {r' : Res β}
    {f : α → Res γ} {f' : β → Res δ} (h : Rel E S r r') (hf : ∀ a b, S a b → Rel E T (f a) (f' b)) :
    Rel E T (r >>= f) (r' >>= f') := by
  cases r <;> cases r' <;>
    first | exact hf _ _ h | exact h.elim | trivial | exact h | exact Rel.of_any _ (fun a e => nomatch e) h

theorem Rel.mono {α β : Type} {E : Lax} {S T : α → β → Prop} {r : Res α} {r' : Res β} (h : Rel E S r r')
    (hf : ∀ a b, S a b → T a b) : Rel E T r r' := by
  cases r <;> cases r' <;> first | exact hf _ _ h | exact h.elim | trivial | exact h

theorem Rel.same {α : Type} {E : Lax} {S : α → α → Prop} (hS : ∀ a, S a a) (r : Res α) : Rel E S r r := by
  cases r with
  | ok a => exact hS a
  | _ => trivial

/-- The same value, and related states. -/
def With {α σ τ : Type} (R : σ → τ → Prop) (a : α × σ) (b : α × τ) : Prop := a.1 = b.1 ∧ R a.2 b.2

/-- Readers that go together. -/
def Reading {σ τ : Type} (E : Lax) (R : σ → τ → Prop) (read : σ → Res (Event × σ)) (read' : τ → Res (Event × τ)) :
    Prop := ∀ s t, R s t → Rel E (With R) (read s) (read' t)

variable {σ τ : Type} {E : Lax} {R : σ → τ → Prop} {read : σ → Res (Event × σ)} {read' : τ → Res (Event × τ)}

namespace Doc

theorem readScope_rel (hr : Reading E R read read') : ∀ (fuel d : Nat) (s : σ) (t : τ), R s t →
    Rel E (With R) (readScope read fuel d s) (readScope read' fuel d t)
  | 0, _, _, _, _ => trivial
  | fuel + 1, d, s, t, h => by
    rw [readScope, readScope]
    refine (hr s t h).bind ?_
    rintro ⟨e, s⟩ ⟨e', t⟩ ⟨rfl, h⟩
    simp only
    split
    · exact ⟨rfl, h⟩
    · refine (readScope_rel hr fuel d s t h).bind ?_
      rintro ⟨⟨vs, ns⟩, s⟩ ⟨⟨vs', ns'⟩, t⟩ ⟨he, h⟩
      cases he
      exact ⟨rfl, h⟩
    · split
      · trivial
      · refine (readScope_rel hr fuel (d + 1) s t h).bind ?_
        rintro ⟨⟨vs, ns⟩, s⟩ ⟨⟨vs', ns'⟩, t⟩ ⟨he, h⟩
        cases he
        refine (readScope_rel hr fuel d s t h).bind ?_
        rintro ⟨⟨vs, ns⟩, s⟩ ⟨⟨vs', ns'⟩, t⟩ ⟨he, h⟩
        cases he
        exact ⟨rfl, h⟩

theorem load_rel (hr : Reading E R read read') (fuel : Nat) (s : σ) (t : τ) (h : R s t) :
    Rel E (With R) (load read fuel s) (load read' fuel t) := by
  unfold load
  refine (hr s t h).bind ?_
  rintro ⟨e, s⟩ ⟨e', t⟩ ⟨rfl, h⟩
  simp only
  split
  · refine (readScope_rel hr fuel 0 s t h).bind ?_
    rintro ⟨⟨vs, ns⟩, s⟩ ⟨⟨vs', ns'⟩, t⟩ ⟨he, h⟩
    cases he
    exact ⟨rfl, h⟩
  · trivial

end Doc

namespace Typed

theorem seekNode_rel (hr : Reading E R read read') : ∀ (fuel : Nat) (sel : Sel) (n : LNode) (s : σ) (t : τ), R s t →
    Rel E (With (With R)) (seekNode read fuel sel n s) (seekNode read' fuel sel n t)
  | 0, _, _, _, _, _ => trivial
  | fuel + 1, sel, n, s, t, h => by
    rw [seekNode, seekNode]
    split
    · exact ⟨rfl, rfl, h⟩
    · refine (hr s t h).bind ?_
      rintro ⟨e, s⟩ ⟨e', t⟩ ⟨rfl, h⟩
      simp only
      split
      · exact ⟨rfl, rfl, h⟩
      · split
        · exact ⟨rfl, rfl, h⟩
        · refine (Doc.readScope_rel hr fuel 0 s t h).bind ?_
          rintro ⟨⟨vs, ns⟩, s⟩ ⟨⟨vs', ns'⟩, t⟩ ⟨he, h⟩
          cases he
          exact seekNode_rel hr fuel sel _ s t h
      · exact seekNode_rel hr fuel sel _ s t h

theorem seekValue_rel (hr : Reading E R read read') : ∀ (fuel : Nat) (sel : Sel) (n : LNode) (s : σ) (t : τ), R s t →
    Rel E (With (With R)) (seekValue read fuel sel n s) (seekValue read' fuel sel n t)
  | 0, _, _, _, _, _ => trivial
  | fuel + 1, sel, n, s, t, h => by
    rw [seekValue, seekValue]
    split
    · exact ⟨rfl, rfl, h⟩
    · refine (hr s t h).bind ?_
      rintro ⟨e, s⟩ ⟨e', t⟩ ⟨rfl, h⟩
      simp only
      split
      · exact ⟨rfl, rfl, h⟩
      · refine (Doc.readScope_rel hr fuel 0 s t h).bind ?_
        rintro ⟨⟨vs, ns⟩, s⟩ ⟨⟨vs', ns'⟩, t⟩ ⟨he, h⟩
        cases he
        exact seekValue_rel hr fuel sel _ s t h
      · split
        · exact ⟨rfl, rfl, h⟩
        · exact seekValue_rel hr fuel sel _ s t h

theorem consumeNode_rel (hr : Reading E R read read') (fuel : Nat) (sel : Sel) (n : LNode) (s : σ) (t : τ)
    (h : R s t) : Rel E (With (With R)) (consumeNode read fuel sel n s) (consumeNode read' fuel sel n t) := by
  unfold consumeNode
  split
  · exact ⟨rfl, rfl, h⟩
  · refine (seekNode_rel hr fuel sel n s t h).bind ?_
    rintro ⟨r, n, s⟩ ⟨r', n', t⟩ ⟨h1, h2, h3⟩
    cases h1
    cases h2
    exact ⟨rfl, rfl, h3⟩

theorem consumeValue_rel (hr : Reading E R read read') (fuel : Nat) (sel : Sel) (n : LNode) (s : σ) (t : τ)
    (h : R s t) : Rel E (With (With R)) (consumeValue read fuel sel n s) (consumeValue read' fuel sel n t) := by
  unfold consumeValue
  split
  · exact ⟨rfl, rfl, h⟩
  · exact seekValue_rel hr fuel sel n s t h

theorem seekItem_rel (hr : Reading E R read read') : ∀ (fuel : Nat) (name : Bytes) (n : LNode) (s : σ) (t : τ), R s t →
    Rel E (With (With R)) (seekItem read fuel name n s) (seekItem read' fuel name n t)
  | 0, _, _, _, _, _ => trivial
  | fuel + 1, name, n, s, t, h => by
    rw [seekItem, seekItem]
    split
    · exact ⟨rfl, rfl, h⟩
    · refine (hr s t h).bind ?_
      rintro ⟨e, s⟩ ⟨e', t⟩ ⟨rfl, h⟩
      simp only
      split
      · exact ⟨rfl, rfl, h⟩
      · refine (Doc.readScope_rel hr fuel 0 s t h).bind ?_
        rintro ⟨⟨vs, ns⟩, s⟩ ⟨⟨vs', ns'⟩, t⟩ ⟨he, h⟩
        cases he
        simp only
        split
        · exact ⟨rfl, rfl, h⟩
        · exact seekItem_rel hr fuel name _ s t h
      · split
        · exact ⟨rfl, rfl, h⟩
        · exact seekItem_rel hr fuel name _ s t h

theorem has_rel (hr : Reading E R read read') (fuel : Nat) (node : Bool) (name : Bytes) (n : LNode) (s : σ) (t : τ)
    (h : R s t) : Rel E (With (With R)) (has read fuel node name n s) (has read' fuel node name n t) := by
  unfold has
  split
  · exact ⟨rfl, rfl, h⟩
  · split
    · exact ⟨rfl, rfl, h⟩
    · split
      · exact ⟨rfl, rfl, h⟩
      · refine (seekItem_rel hr fuel name n s t h).bind ?_
        rintro ⟨r, n, s⟩ ⟨r', n', t⟩ ⟨h1, h2, h3⟩
        cases h1
        cases h2
        exact ⟨rfl, rfl, h3⟩

theorem skipScope_rel (hr : Reading E R read read') : ∀ (fuel : Nat) (d : Int) (s : σ) (t : τ), R s t →
    Rel E R (skipScope read fuel d s) (skipScope read' fuel d t)
  | 0, _, _, _, _ => trivial
  | fuel + 1, d, s, t, h => by
    rw [skipScope, skipScope]
    refine (hr s t h).bind ?_
    rintro ⟨e, s⟩ ⟨e', t⟩ ⟨rfl, h⟩
    simp only
    split
    · exact skipScope_rel hr fuel _ s t h
    · split
      · exact h
      · exact skipScope_rel hr fuel _ s t h
    · exact skipScope_rel hr fuel _ s t h

theorem finish_rel (hr : Reading E R read read') (fuel : Nat) (n : LNode) (s : σ) (t : τ) (h : R s t) :
    Rel E R (finish read fuel n s) (finish read' fuel n t) := by
  unfold finish
  split
  · exact h
  · exact skipScope_rel hr fuel 0 s t h

theorem vecNodes_rel (hr : Reading E R read read') {total : Nat} {f : Bytes × LNode → σ → Res (Obj × σ)}
    {f' : Bytes × LNode → τ → Res (Obj × τ)} (hf : ∀ c s t, R s t → Rel E (With R) (f c s) (f' c t)) :
    ∀ (fuel : Nat) (n : LNode) (s : σ) (t : τ), R s t →
      Rel E (With (With R)) (vecNodes read total f fuel n s) (vecNodes read' total f' fuel n t)
  | 0, _, _, _, _ => trivial
  | fuel + 1, n, s, t, h => by
    rw [vecNodes, vecNodes]
    refine (consumeNode_rel hr total _ n s t h).bind ?_
    rintro ⟨c, n, s⟩ ⟨c', n', t⟩ ⟨h1, h2, h⟩
    cases h1
    cases h2
    simp only
    split
    · exact ⟨rfl, rfl, h⟩
    · cases c with
      | none => trivial
      | some c =>
        refine (hf c s t h).bind ?_
        rintro ⟨y, s⟩ ⟨y', t⟩ ⟨h1, h⟩
        cases h1
        refine (vecNodes_rel hr hf fuel n s t h).bind ?_
        rintro ⟨ys, n, s⟩ ⟨ys', n', t⟩ ⟨h1, h2, h⟩
        cases h1
        cases h2
        exact ⟨rfl, rfl, h⟩

theorem vecValues_rel (hr : Reading E R read read') {total : Nat} {f : Bytes × Val → Res Obj} :
    ∀ (fuel : Nat) (n : LNode) (s : σ) (t : τ), R s t →
      Rel E (With (With R)) (vecValues read total f fuel n s) (vecValues read' total f fuel n t)
  | 0, _, _, _, _ => trivial
  | fuel + 1, n, s, t, h => by
    rw [vecValues, vecValues]
    refine (consumeValue_rel hr total _ n s t h).bind ?_
    rintro ⟨c, n, s⟩ ⟨c', n', t⟩ ⟨h1, h2, h⟩
    cases h1
    cases h2
    simp only
    split
    · exact ⟨rfl, rfl, h⟩
    · cases c with
      | none => trivial
      | some c =>
        refine (Rel.same (S := Eq) (fun _ => rfl) (f c)).bind ?_
        rintro y _ rfl
        refine (vecValues_rel hr fuel n s t h).bind ?_
        rintro ⟨ys, n, s⟩ ⟨ys', n', t⟩ ⟨h1, h2, h⟩
        cases h1
        cases h2
        exact ⟨rfl, rfl, h⟩

theorem arrNodes_rel (hr : Reading E R read read') {total : Nat} {f : Obj → LNode → σ → Res (Obj × σ)}
    {f' : Obj → LNode → τ → Res (Obj × τ)} (hf : ∀ o c s t, R s t → Rel E (With R) (f o c s) (f' o c t)) :
    ∀ (os : List Obj) (n : LNode) (s : σ) (t : τ), R s t →
      Rel E (With (With R)) (arrNodes read total f os n s) (arrNodes read' total f' os n t)
  | [], _, _, _, h => ⟨rfl, rfl, h⟩
  | o :: os, n, s, t, h => by
    rw [arrNodes, arrNodes]
    split
    · trivial
    · refine (consumeNode_rel hr total _ n s t h).bind ?_
      rintro ⟨c, n, s⟩ ⟨c', n', t⟩ ⟨h1, h2, h⟩
      cases h1
      cases h2
      cases c with
      | none => trivial
      | some c =>
        refine (hf o c.2 s t h).bind ?_
        rintro ⟨y, s⟩ ⟨y', t⟩ ⟨h1, h⟩
        cases h1
        refine (arrNodes_rel hr hf os n s t h).bind ?_
        rintro ⟨ys, n, s⟩ ⟨ys', n', t⟩ ⟨h1, h2, h⟩
        cases h1
        cases h2
        exact ⟨rfl, rfl, h⟩

theorem arrValues_rel (hr : Reading E R read read') {total : Nat} {f : Obj → Val → Res Obj} :
    ∀ (os : List Obj) (n : LNode) (s : σ) (t : τ), R s t →
      Rel E (With (With R)) (arrValues read total f os n s) (arrValues read' total f os n t)
  | [], _, _, _, h => ⟨rfl, rfl, h⟩
  | o :: os, n, s, t, h => by
    rw [arrValues, arrValues]
    split
    · trivial
    · refine (consumeValue_rel hr total _ n s t h).bind ?_
      rintro ⟨c, n, s⟩ ⟨c', n', t⟩ ⟨h1, h2, h⟩
      cases h1
      cases h2
      cases c with
      | none => trivial
      | some c =>
        refine (Rel.same (S := Eq) (fun _ => rfl) (f o c.2)).bind ?_
        rintro y _ rfl
        refine (arrValues_rel hr os n s t h).bind ?_
        rintro ⟨ys, n, s⟩ ⟨ys', n', t⟩ ⟨h1, h2, h⟩
        cases h1
        cases h2
        exact ⟨rfl, rfl, h⟩

theorem closing_rel {α : Type} (hr : Reading E R read read') (fuel : Nat)
    {r : Res (α × LNode × σ)} {r' : Res (α × LNode × τ)} (h : Rel E (With (With R)) r r') :
    Rel E (With R)
      (do let (y, c, s) ← r
          let s ← finish read fuel c s
          Res.ok (y, s))
      (do let (y, c, s) ← r'
          let s ← finish read' fuel c s
          Res.ok (y, s)) := by
  refine h.bind ?_
  rintro ⟨y, c, s⟩ ⟨y', c', t⟩ ⟨h1, h2, h⟩
  cases h1
  cases h2
  refine (finish_rel hr fuel c s t h).bind ?_
  exact fun s t h => ⟨rfl, h⟩

theorem wrap_rel {α β : Type} (g : α → β) {r : Res (α × LNode × σ)} {r' : Res (α × LNode × τ)}
    (h : Rel E (With (With R)) r r') :
    Rel E (With (With R)) (do let (y, c, s) ← r; Res.ok (g y, c, s)) (do let (y, c, s) ← r'; Res.ok (g y, c, s)) := by
  refine h.bind ?_
  rintro ⟨y, c, s⟩ ⟨y', c', t⟩ ⟨h1, h2, h⟩
  cases h1
  cases h2
  exact ⟨rfl, rfl, h⟩

mutual
theorem paste_rel (env : Env) (hr : Reading E R read read') (fuel : Nat) : ∀ (ty : Ty) (old : Obj) (n : LNode)
    (s : σ) (t : τ), R s t → Rel E (With (With R)) (paste env read fuel ty old n s) (paste env read' fuel ty old n t)
  | .vec e, old, n, s, t, h => by
    unfold paste
    split
    · refine (Rel.same (S := Eq) (fun _ => rfl) _).bind ?_
      rintro y _ rfl
      exact ⟨rfl, rfl, h⟩
    · split
      · exact wrap_rel _ (vecNodes_rel hr (fun c s t h => closing_rel hr fuel (paste_rel env hr fuel e _ c.2 s t h))
          fuel n s t h)
      · exact wrap_rel _ (vecValues_rel hr fuel n s t h)
  | .named e, old, n, s, t, h => by
    unfold paste
    split
    · trivial
    split
    · refine (Rel.same (S := Eq) (fun _ => rfl) _).bind ?_
      rintro y _ rfl
      exact ⟨rfl, rfl, h⟩
    · split
      · refine wrap_rel _ (vecNodes_rel hr (fun c s t h => ?_) fuel n s t h)
        refine (paste_rel env hr fuel e _ c.2 s t h).bind ?_
        rintro ⟨y, d, s⟩ ⟨y', d', t⟩ ⟨h1, h2, h⟩
        cases h1
        cases h2
        exact (finish_rel hr fuel d s t h).bind fun s t h => ⟨rfl, h⟩
      · exact wrap_rel _ (vecValues_rel hr fuel n s t h)
  | .arr k e, o, n, s, t, h => by
    cases o with
    | many os =>
      unfold paste
      split
      · refine (Rel.same (S := Eq) (fun _ => rfl) _).bind ?_
        rintro y _ rfl
        exact ⟨rfl, rfl, h⟩
      · split
        · exact wrap_rel _ (arrNodes_rel hr (fun o c s t h => closing_rel hr fuel (paste_rel env hr fuel e o c s t h))
            os n s t h)
        · exact wrap_rel _ (arrValues_rel hr os n s t h)
    | _ => unfold paste; trivial
  | .record _ strict fs, o, n, s, t, h => by
    cases o with
    | many os =>
      unfold paste
      split
      · trivial
      · exact wrap_rel _ (pasteMembers_rel env hr fuel fs os 0 0 n s t h)
    | _ => unfold paste; trivial
  | .ptr _ e, o, n, s, t, h => by
    unfold paste
    exact wrap_rel _ (paste_rel env hr fuel e _ n s t h)
  | .sorted _ c, o, n, s, t, h => by
    unfold paste
    exact wrap_rel _ (paste_rel env hr fuel c _ n s t h)
  | .bool, _, _, _, _, _ => by unfold paste; trivial
  | .int _, _, _, _, _, _ => by unfold paste; trivial
  | .float, _, _, _, _, _ => by unfold paste; trivial
  | .double, _, _, _, _, _ => by unfold paste; trivial
  | .str, _, _, _, _, _ => by unfold paste; trivial
  | .bytes, _, _, _, _, _ => by unfold paste; trivial
theorem pasteMembers_rel (env : Env) (hr : Reading E R read read') (fuel : Nat) : ∀ (fs : Fields) (os : List Obj)
    (ni vi : Nat) (n : LNode) (s : σ) (t : τ), R s t →
    Rel E (With (With R)) (pasteMembers env read fuel fs os ni vi n s) (pasteMembers env read' fuel fs os ni vi n t)
  | .nil, _, _, _, _, _, _, h => by unfold pasteMembers; exact ⟨rfl, rfl, h⟩
  | .cons _ _ _ _, [], _, _, _, _, _, _ => by unfold pasteMembers; trivial
  | .cons name opt ty rest, o :: os, ni, vi, n, s, t, h => by
    unfold pasteMembers
    have h0 : Rel E (With (With R)) (if opt = true then has read fuel ty.isScope name n s else .ok (true, n, s))
        (if opt = true then has read' fuel ty.isScope name n t else .ok (true, n, t)) := by
      split
      · exact has_rel hr fuel _ name n s t h
      · exact ⟨rfl, rfl, h⟩
    refine h0.bind ?_
    rintro ⟨here, n, s⟩ ⟨here', n', t⟩ ⟨h1, h2, h⟩
    cases h1
    cases h2
    simp only
    split
    · exact wrap_rel _ (pasteMembers_rel env hr fuel rest os ni vi n s t h)
    · split
      · split
        · refine (Rel.same (S := Eq) (fun _ => rfl) _).bind ?_
          rintro c _ rfl
          refine (Rel.same (S := Eq) (fun _ => rfl) _).bind ?_
          rintro y _ rfl
          exact wrap_rel _ (pasteMembers_rel env hr fuel rest os (ni + 1) vi n s t h)
        · refine (consumeNode_rel hr fuel _ n s t h).bind ?_
          rintro ⟨c, n, s⟩ ⟨c', n', t⟩ ⟨h1, h2, h⟩
          cases h1
          cases h2
          cases c with
          | none => trivial
          | some c =>
            refine (paste_rel env hr fuel ty o c.2 s t h).bind ?_
            rintro ⟨y, c, s⟩ ⟨y', c', t⟩ ⟨h1, h2, h⟩
            cases h1
            cases h2
            refine (finish_rel hr fuel c s t h).bind ?_
            intro s t h
            exact wrap_rel _ (pasteMembers_rel env hr fuel rest os (ni + 1) vi n s t h)
      · split
        · refine (Rel.same (S := Eq) (fun _ => rfl) _).bind ?_
          rintro c _ rfl
          refine (Rel.same (S := Eq) (fun _ => rfl) _).bind ?_
          rintro y _ rfl
          exact wrap_rel _ (pasteMembers_rel env hr fuel rest os ni (vi + 1) n s t h)
        · refine (consumeValue_rel hr fuel _ n s t h).bind ?_
          rintro ⟨c, n, s⟩ ⟨c', n', t⟩ ⟨h1, h2, h⟩
          cases h1
          cases h2
          cases c with
          | none => trivial
          | some c =>
            refine (Rel.same (S := Eq) (fun _ => rfl) _).bind ?_
            rintro y _ rfl
            exact wrap_rel _ (pasteMembers_rel env hr fuel rest os ni (vi + 1) n s t h)
end

theorem restore_rel (env : Env) (hr : Reading E R read read') (fuel : Nat) (ty : Ty) (old : Obj) (s : σ) (t : τ)
    (h : R s t) : Rel E (With R) (restore env read fuel ty old s) (restore env read' fuel ty old t) := by
  unfold restore
  refine (hr s t h).bind ?_
  rintro ⟨e, s⟩ ⟨e', t⟩ ⟨rfl, h⟩
  simp only
  split
  · split
    · refine (paste_rel env hr fuel ty old _ s t h).bind ?_
      rintro ⟨y, c, s⟩ ⟨y', c', t⟩ ⟨h1, h2, h⟩
      cases h1
      exact ⟨rfl, h⟩
    · refine (consumeValue_rel hr fuel _ _ s t h).bind ?_
      rintro ⟨c, n, s⟩ ⟨c', n', t⟩ ⟨h1, h2, h⟩
      cases h1
      cases c with
      | none => trivial
      | some c =>
        refine (Rel.same (S := Eq) (fun _ => rfl) _).bind ?_
        rintro y _ rfl
        exact ⟨rfl, h⟩
  · trivial

end Typed

namespace Shared
open Typed

/-- Related sources, the same objects -/
def Beside (R : σ → τ → Prop) (s : σ × Objs) (t : τ × Objs) : Prop := R s.1 t.1 ∧ s.2 = t.2

theorem pasteField_rel (hr : Reading E R read read') (total : Nat) (scope : Bool) (sel : Sel)
    {f : LNode → σ × Objs → Res (Obj × LNode × σ × Objs)} {f' : LNode → τ × Objs → Res (Obj × LNode × τ × Objs)}
    (hf : ∀ c s t, Beside R s t → Rel E (With (With (Beside R))) (f c s) (f' c t)) (g : Val → Res Obj)
    (n : LNode) (s : σ × Objs) (t : τ × Objs) (h : Beside R s t) :
    Rel E (With (With (Beside R))) (pasteField read total scope sel f g n s)
      (pasteField read' total scope sel f' g n t) := by
  unfold pasteField
  obtain ⟨s, x⟩ := s
  obtain ⟨t, y⟩ := t
  obtain ⟨h, hx⟩ := h
  cases hx
  split
  · split
    · refine (Rel.same (S := Eq) (fun _ => rfl) _).bind ?_
      rintro c _ rfl
      refine (hf _ _ _ ⟨h, rfl⟩).bind ?_
      rintro ⟨y, c, s⟩ ⟨y', c', t⟩ ⟨h1, h2, h⟩
      cases h1
      exact ⟨rfl, rfl, h⟩
    · refine (consumeNode_rel hr total _ n s t h).bind ?_
      rintro ⟨c, n, s⟩ ⟨c', n', t⟩ ⟨h1, h2, h⟩
      cases h1
      cases h2
      cases c with
      | none => trivial
      | some c =>
        refine (hf _ _ _ ⟨h, rfl⟩).bind ?_
        rintro ⟨y, c, s⟩ ⟨y', c', t⟩ ⟨h1, h2, h⟩
        cases h1
        cases h2
        refine (finish_rel hr total c _ _ h.1).bind ?_
        exact fun s' t' h' => ⟨rfl, rfl, h', h.2⟩
  · split
    · refine (Rel.same (S := Eq) (fun _ => rfl) _).bind ?_
      rintro c _ rfl
      refine (Rel.same (S := Eq) (fun _ => rfl) _).bind ?_
      rintro y _ rfl
      exact ⟨rfl, rfl, h, rfl⟩
    · refine (consumeValue_rel hr total _ n s t h).bind ?_
      rintro ⟨c, n, s⟩ ⟨c', n', t⟩ ⟨h1, h2, h⟩
      cases h1
      cases h2
      cases c with
      | none => trivial
      | some c =>
        refine (Rel.same (S := Eq) (fun _ => rfl) _).bind ?_
        rintro y _ rfl
        exact ⟨rfl, rfl, h, rfl⟩

theorem eachNode_rel {f : LNode → σ × Objs → Res (Obj × LNode × σ × Objs)}
    {f' : LNode → τ × Objs → Res (Obj × LNode × τ × Objs)}
    (hf : ∀ c s t, Beside R s t → Rel E (With (With (Beside R))) (f c s) (f' c t)) :
    ∀ (xs : List (Bytes × Node)) (s : σ × Objs) (t : τ × Objs), Beside R s t →
      Rel E (With (Beside R)) (eachNode f xs s) (eachNode f' xs t)
  | [], _, _, h => ⟨rfl, h⟩
  | x :: xs, s, t, h => by
    rw [eachNode, eachNode]
    refine (hf _ _ _ h).bind ?_
    rintro ⟨y, c, s⟩ ⟨y', c', t⟩ ⟨h1, h2, h⟩
    cases h1
    refine (eachNode_rel hf xs s t h).bind ?_
    rintro ⟨ys, s⟩ ⟨ys', t⟩ ⟨h1, h⟩
    cases h1
    exact ⟨rfl, h⟩

theorem nextNodes_rel (hr : Reading E R read read') (total : Nat)
    {f : LNode → σ × Objs → Res (Obj × LNode × σ × Objs)} {f' : LNode → τ × Objs → Res (Obj × LNode × τ × Objs)}
    (hf : ∀ c s t, Beside R s t → Rel E (With (With (Beside R))) (f c s) (f' c t)) :
    ∀ (fuel : Nat) (n : LNode) (s : σ × Objs) (t : τ × Objs), Beside R s t →
      Rel E (With (With (Beside R))) (nextNodes read total f fuel n s) (nextNodes read' total f' fuel n t)
  | 0, _, _, _, _ => trivial
  | fuel + 1, n, s, t, h => by
    rw [nextNodes, nextNodes]
    obtain ⟨s, x⟩ := s
    obtain ⟨t, y⟩ := t
    obtain ⟨h, hx⟩ := h
    cases hx
    refine (consumeNode_rel hr total _ n s t h).bind ?_
    rintro ⟨c, n, s⟩ ⟨c', n', t⟩ ⟨h1, h2, h⟩
    cases h1
    cases h2
    simp only
    split
    · exact ⟨rfl, rfl, h, rfl⟩
    · cases c with
      | none => trivial
      | some c =>
        refine (hf _ _ _ ⟨h, rfl⟩).bind ?_
        rintro ⟨y, c, s⟩ ⟨y', c', t⟩ ⟨h1, h2, h⟩
        cases h1
        cases h2
        refine (finish_rel hr total c _ _ h.1).bind ?_
        intro s' t' h'
        refine (nextNodes_rel hr total hf fuel n (s', s.2) (t', t.2) ⟨h', h.2⟩).bind ?_
        rintro ⟨ys, n, s⟩ ⟨ys', n', t⟩ ⟨h1, h2, h⟩
        cases h1
        cases h2
        exact ⟨rfl, rfl, h⟩

theorem eachMember_rel {f : Bytes → GTy → Obj → LNode → σ × Objs → Res (Obj × LNode × σ × Objs)}
    {f' : Bytes → GTy → Obj → LNode → τ × Objs → Res (Obj × LNode × τ × Objs)}
    (hf : ∀ name ty o c s t, Beside R s t → Rel E (With (With (Beside R))) (f name ty o c s) (f' name ty o c t)) :
    ∀ (fs : GFields) (os : List Obj) (n : LNode) (s : σ × Objs) (t : τ × Objs), Beside R s t →
      Rel E (With (With (Beside R))) (eachMember f fs os n s) (eachMember f' fs os n t)
  | .nil, _, _, _, _, h => by unfold eachMember; exact ⟨rfl, rfl, h⟩
  | .cons _ _ _, [], _, _, _, _ => by unfold eachMember; trivial
  | .cons name ty rest, o :: os, n, s, t, h => by
    unfold eachMember
    refine (hf _ _ _ _ _ _ h).bind ?_
    rintro ⟨y, n, s⟩ ⟨y', n', t⟩ ⟨h1, h2, h⟩
    cases h1
    cases h2
    refine (eachMember_rel hf rest os n s t h).bind ?_
    rintro ⟨ys, n, s⟩ ⟨ys', n', t⟩ ⟨h1, h2, h⟩
    cases h1
    cases h2
    exact ⟨rfl, rfl, h⟩

theorem paste_rel (cfg : HTable.Cfg Nat) (env : Env) (C : Nat → GTy) (hr : Reading E R read read') (total : Nat) :
    ∀ (fuel : Nat) (ty : GTy) (old : Obj) (n : LNode) (s : σ × Objs) (t : τ × Objs), Beside R s t →
      Rel E (With (With (Beside R))) (paste cfg env C read total fuel ty old n s)
        (paste cfg env C read' total fuel ty old n t)
  | 0, _, _, _, _, _, _ => by unfold paste; trivial
  | fuel + 1, ty, old, n, s, t, h => by
    cases ty with
    | plain ty =>
      unfold paste
      refine (Typed.paste_rel env hr total ty old n _ _ h.1).bind ?_
      rintro ⟨o, n, s'⟩ ⟨o', n', t'⟩ ⟨h1, h2, h'⟩
      cases h1
      cases h2
      exact ⟨rfl, rfl, h', h.2⟩
    | vec e =>
      unfold paste
      split
      · refine (eachNode_rel (paste_rel cfg env C hr total fuel e _) _ s t h).bind ?_
        rintro ⟨ys, s⟩ ⟨ys', t⟩ ⟨h1, h⟩
        cases h1
        exact ⟨rfl, rfl, h⟩
      · refine (nextNodes_rel hr total (paste_rel cfg env C hr total fuel e _) total n s t h).bind ?_
        rintro ⟨ys, n, s⟩ ⟨ys', n', t⟩ ⟨h1, h2, h⟩
        cases h1
        cases h2
        exact ⟨rfl, rfl, h⟩
    | record fs =>
      cases old with
      | many os =>
        unfold paste
        refine (eachMember_rel (R := R) (f := fun name ty o => pasteField read total ty.isScope (.name name)
            (paste cfg env C read total fuel ty o) (valueOf env ty o))
          (f' := fun name ty o => pasteField read' total ty.isScope (.name name)
            (paste cfg env C read' total fuel ty o) (valueOf env ty o))
          (fun name ty o c s t h => pasteField_rel hr total ty.isScope (.name name)
            (paste_rel cfg env C hr total fuel ty o) (valueOf env ty o) c s t h) fs os n s t h).bind ?_
        rintro ⟨ys, n, s⟩ ⟨ys', n', t⟩ ⟨h1, h2, h⟩
        cases h1
        cases h2
        exact ⟨rfl, rfl, h⟩
      | _ => unfold paste; trivial
    | shared c =>
      unfold paste
      refine (pasteField_rel hr total false (.name keyName) (f := fun _ _ => .ub) (f' := fun _ _ => .ub)
        (fun _ _ _ _ => trivial) (pasteVal env (.int .u64) (.int 0)) n s t h).bind ?_
      rintro ⟨k, n, s⟩ ⟨k', n', t⟩ ⟨h1, h2, h⟩
      cases h1
      cases h2
      simp only
      split
      · obtain ⟨s, x⟩ := s
        obtain ⟨t, y⟩ := t
        obtain ⟨h, hx⟩ := h
        cases hx
        refine (Rel.same (S := Eq) (fun _ => rfl) _).bind ?_
        rintro found _ rfl
        cases found with
        | some p =>
          refine (Rel.same (S := Eq) (fun _ => rfl) _).bind ?_
          rintro p _ rfl
          exact ⟨rfl, rfl, h, rfl⟩
        | none =>
          refine (pasteField_rel hr total _ _ (paste_rel cfg env C hr total fuel _ _) _ n _ _ ⟨h, rfl⟩).bind ?_
          rintro ⟨o, n, s⟩ ⟨o', n', t⟩ ⟨h1, h2, h⟩
          cases h1
          cases h2
          obtain ⟨s, x⟩ := s
          obtain ⟨t, y⟩ := t
          obtain ⟨h, hx⟩ := h
          cases hx
          refine (Rel.same (S := Eq) (fun _ => rfl) _).bind ?_
          rintro z _ rfl
          exact ⟨rfl, rfl, h, rfl⟩
      · trivial

theorem restore_rel (cfg : HTable.Cfg Nat) (env : Env) (C : Nat → GTy) (hr : Reading E R read read') (fuel : Nat)
    (ty : GTy) (old : Obj) (s : σ) (t : τ) (h : R s t) :
    Rel E Eq (restore cfg env C read fuel ty old s) (restore cfg env C read' fuel ty old t) := by
  unfold restore
  refine (hr s t h).bind ?_
  rintro ⟨e, s⟩ ⟨e', t⟩ ⟨rfl, h⟩
  simp only
  split
  · refine (paste_rel cfg env C hr fuel fuel ty old _ (s, Objs.new) (t, Objs.new) ⟨h, rfl⟩).bind ?_
    rintro ⟨o, n, s⟩ ⟨o', n', t⟩ ⟨h1, h2, h⟩
    cases h1
    have := h.2
    simp only at this ⊢
    rw [this]
    exact rfl
  · trivial

end Shared
end Srl
