import Verif.Lemmas.TypedProper
import Verif.Lemmas.TypedStore
import Verif.Props.TypedEnumSpec

/-! Restoring containers that were written in any order: restoring them is restoring the sequences of their elements,
and then adding the elements. -/

namespace Srl.Typed

mutual
/-- Containers with an order replaced by the sequences of their elements -/
def strip : Ty → Ty
  | .bool => .bool
  | .int t => .int t
  | .float => .float
  | .double => .double
  | .str => .str
  | .bytes => .bytes
  | .vec e => .vec (strip e)
  | .named e => .named (strip e)
  | .arr n e => .arr n (strip e)
  | .record t st fs => .record t st (stripL fs)
  | .ptr k e => .ptr k (strip e)
  | .sorted _ c => strip c
def stripL : Fields → Fields
  | .nil => .nil
  | .cons name opt ty rest => .cons name opt (strip ty) (stripL rest)
end

/-- An entry of a table with another value -/
def onValue (f : Obj → Obj) : Obj → Obj
  | .many [k, y] => .many [k, f y]
  | o => o

mutual
/-- The elements added to the containers -/
def tidy : Ty → Obj → Obj
  | .vec e, .many xs => .many (xs.map fun x => tidy e x)
  | .named e, .many xs => .many (xs.map (onValue fun y => tidy e y))
  | .arr _ e, .many xs => .many (xs.map fun x => tidy e x)
  | .record _ _ fs, .many xs => .many (tidyL fs xs)
  | .ptr _ e, .ref o => .ref (tidy e o)
  | .sorted b c, o => collect b (tidy c o)
  | _, o => o
def tidyL : Fields → List Obj → List Obj
  | .cons _ _ ty rest, x :: xs => tidy ty x :: tidyL rest xs
  | _, xs => xs
end

mutual
theorem strip_scope : ∀ ty : Ty, (strip ty).isScope = ty.isScope
  | .bool | .int _ | .float | .double | .str | .bytes | .vec _ | .named _ | .arr _ _ | .record _ _ _ => rfl
  | .ptr _ e => by simp only [strip, Ty.isScope]; exact strip_scope e
  | .sorted _ c => by simp only [strip, Ty.isScope]; exact strip_scope c
end

theorem strip_names : ∀ fs : Fields, (stripL fs).names = fs.names
  | .nil => rfl
  | .cons _ _ _ rest => by simp only [stripL, Fields.names, strip_names rest]

theorem strip_positional : ∀ fs : Fields, fs.Positional → (stripL fs).Positional
  | .nil, h => h
  | .cons _ _ _ rest, h => ⟨h.1, h.2.1, strip_positional rest h.2.2⟩

mutual
theorem strip_ok : ∀ ty : Ty, ty.Ok → (strip ty).Ok
  | .bool, h | .int _, h | .float, h | .double, h | .str, h | .bytes, h => h
  | .vec e, h => strip_ok e h
  | .named e, h => strip_ok e h
  | .arr _ e, h => strip_ok e h
  | .record t st fs, h => by
    refine ⟨stripL_ok fs h.1, ?_⟩
    rcases h.2 with ⟨h1, h2⟩ | ⟨h1, h2, h3⟩
    · exact .inl ⟨h1, by unfold Fields.Named at h2 ⊢; rwa [strip_names]⟩
    · exact .inr ⟨h1, h2, strip_positional fs h3⟩
  | .ptr _ e, h => strip_ok e h
  | .sorted _ c, h => strip_ok c h.1
theorem stripL_ok : ∀ fs : Fields, fs.Ok → (stripL fs).Ok
  | .nil, h => h
  | .cons _ _ ty rest, h => ⟨strip_ok ty h.1, stripL_ok rest h.2⟩
end

mutual
theorem strip_dflt : ∀ ty : Ty, dflt (strip ty) = dflt ty
  | .bool | .int _ | .float | .double | .str | .bytes | .vec _ | .named _ | .ptr _ _ => rfl
  | .arr _ e => by simp only [strip, dflt, strip_dflt e]
  | .record _ _ fs => by simp only [strip, dflt, stripL_dflt fs]
  | .sorted _ c => by simp only [strip, dflt, strip_dflt c]
theorem stripL_dflt : ∀ fs : Fields, dfltL (stripL fs) = dfltL fs
  | .nil => rfl
  | .cons _ _ ty rest => by simp only [stripL, dfltL, strip_dflt ty, stripL_dflt rest]
end

mutual
theorem strip_item : ∀ (ty : Ty) (nm : Bytes) (o : Obj), toItem nm (strip ty) o = toItem nm ty o
  | .bool, _, _ | .int _, _, _ | .float, _, _ | .double, _, _ | .str, _, _ | .bytes, _, _ => rfl
  | .vec e, nm, o => by
    cases o <;> simp only [strip, toItem]
    congr 1
    exact List.map_congr_left fun x _ => strip_item e [] x
  | .named e, nm, o => by
    cases o <;> simp only [strip, toItem]
    congr 1
    exact List.map_congr_left fun x _ => strip_item e _ _
  | .arr _ e, nm, o => by
    cases o <;> simp only [strip, toItem]
    congr 1
    exact List.map_congr_left fun x _ => strip_item e [] x
  | .record t st fs, nm, o => by
    cases o <;> simp only [strip, toItem]
    rw [strip_items fs]
  | .ptr _ e, nm, o => by
    cases o <;> simp only [strip, toItem]
    exact strip_item e nm _
  | .sorted _ c, nm, o => by
    simp only [strip, toItem]
    exact strip_item c nm o
theorem strip_items : ∀ (fs : Fields) (xs : List Obj), fieldItems (stripL fs) xs = fieldItems fs xs
  | .nil, xs => by cases xs <;> rfl
  | .cons _ _ ty rest, xs => by
    cases xs <;> simp only [stripL, fieldItems]
    rw [strip_item ty, strip_items rest]
end

mutual
theorem strip_wt : ∀ (ty : Ty) (o : Obj), WT ty o → WT (strip ty) o
  | .bool, o, h | .int _, o, h | .float, o, h | .double, o, h | .str, o, h | .bytes, o, h => h
  | .vec e, o, h => by
    cases o <;> simp only [strip, WT] at h ⊢
    exact fun x hx => strip_wt e x (h x hx)
  | .named e, o, h => by
    cases o <;> simp only [strip, WT] at h ⊢
    intro x hx
    obtain ⟨k, y, rfl, hy⟩ := h x hx
    exact ⟨k, y, rfl, strip_wt e y hy⟩
  | .arr _ e, o, h => by
    cases o <;> simp only [strip, WT] at h ⊢
    exact ⟨h.1, fun x hx => strip_wt e x (h.2 x hx)⟩
  | .record _ _ fs, o, h => by
    cases o <;> simp only [strip, WT] at h ⊢
    exact stripL_wt fs _ h
  | .ptr _ e, o, h => by
    cases o <;> simp only [strip, WT] at h ⊢
    exact strip_wt e _ h
  | .sorted _ c, o, h => by
    simp only [strip]
    simp only [WT] at h
    exact strip_wt c o h
theorem stripL_wt : ∀ (fs : Fields) (xs : List Obj), WTL fs xs → WTL (stripL fs) xs
  | .nil, xs, h => h
  | .cons _ _ ty rest, xs, h => by
    cases xs <;> simp only [stripL, WTL] at h ⊢
    exact ⟨strip_wt ty _ h.1, stripL_wt rest _ h.2⟩
end

theorem strip_root (ty : Ty) (o : Obj) : rootItem (strip ty) o = rootItem ty o := by
  simp only [rootItem, strip_scope, strip_item]

/-- The content of a container is a sequence or the entries of a table. -/
theorem elems_form {b : Order} {c : Ty} (h : c.Elems b) : (∃ e, c = .vec e) ∨ ∃ e, c = .named e := by
  unfold Ty.Elems at h
  split at h
  · rcases h with ⟨k, v, -, rfl⟩ | ⟨-, v, rfl⟩
    · exact .inl ⟨_, rfl⟩
    · exact .inr ⟨_, rfl⟩
  · obtain ⟨k, -, rfl⟩ := h
    exact .inl ⟨_, rfl⟩

/-! ## What is ascending already -/

theorem onValue_id {f : Obj → Obj} {P : Obj → Prop} (h : ∀ y, P y → f y = y) : ∀ x, Entry P x → onValue f x = x := by
  rintro x ⟨k, y, rfl, hy⟩
  simp only [onValue, h y hy]

mutual
theorem tidy_proper : ∀ (ty : Ty) (o : Obj), ty.Ok → Proper ty o → tidy ty o = o
  | .bool, o, _, h | .int _, o, _, h | .float, o, _, h | .double, o, _, h | .str, o, _, h | .bytes, o, _, h => by
    cases o <;> rfl
  | .vec e, o, hok, h => by
    cases o <;> simp only [Proper] at h
    simp only [tidy]
    congr 1
    exact (List.map_congr_left fun x hx => tidy_proper e x hok (h x hx)).trans (List.map_id _)
  | .named e, o, hok, h => by
    cases o <;> simp only [Proper] at h
    simp only [tidy]
    congr 1
    exact (List.map_congr_left fun x hx => onValue_id (fun y hy => tidy_proper e y hok hy) x (h x hx)).trans (List.map_id _)
  | .arr _ e, o, hok, h => by
    cases o <;> simp only [Proper] at h
    simp only [tidy]
    congr 1
    exact (List.map_congr_left fun x hx => tidy_proper e x hok (h.2 x hx)).trans (List.map_id _)
  | .record _ _ fs, o, hok, h => by
    cases o <;> simp only [Proper] at h
    simp only [tidy]
    rw [tidyL_proper fs _ hok.1 h]
  | .ptr _ e, o, hok, h => by
    cases o <;> simp only [Proper] at h
    · rfl
    · simp only [tidy, tidy_proper e _ hok h]
  | .sorted b c, o, hok, h => by
    simp only [Proper] at h
    simp only [tidy]
    rw [tidy_proper c o hok.1 h.1]
    exact collect_same hok.2 (Srl.Proper.proper_wt c o h.1) h.2
theorem tidyL_proper : ∀ (fs : Fields) (xs : List Obj), fs.Ok → ProperL fs xs → tidyL fs xs = xs
  | .nil, xs, _, h => by cases xs <;> rfl
  | .cons _ _ ty rest, xs, hok, h => by
    cases xs <;> simp only [ProperL] at h
    simp only [tidyL, tidy_proper ty _ hok.1 h.1, tidyL_proper rest _ hok.2 h.2]
end

theorem tidy_dflt (ty : Ty) (hok : ty.Ok) : tidy ty (dflt ty) = dflt ty :=
  tidy_proper ty _ hok (Srl.Proper.dflt_proper ty hok)

/-! ## Values -/

theorem pasteVal_tidy (env : Env) : ∀ (ty : Ty) (old : Obj) (v : Val) (x : Obj), ty.Ok →
    pasteVal env (strip ty) old v = .ok x → pasteVal env ty (tidy ty old) v = .ok (tidy ty x)
  | .bool, old, v, x, _, h | .int _, old, v, x, _, h | .float, old, v, x, _, h | .double, old, v, x, _, h
  | .str, old, v, x, _, h | .bytes, old, v, x, _, h => by
    simp only [strip] at h
    simpa only [tidy] using h
  | .vec _, old, v, x, _, h => by simp [strip, pasteVal] at h
  | .named _, old, v, x, _, h => by simp [strip, pasteVal] at h
  | .arr _ _, old, v, x, _, h => by simp [strip, pasteVal] at h
  | .record _ _ _, old, v, x, _, h => by simp [strip, pasteVal] at h
  | .ptr k e, old, v, x, hok, h => by
    simp only [strip, pasteVal] at h ⊢
    split at h
    · rename_i hc
      cases h
      rw [if_pos hc]
      rfl
    · rename_i hc
      rw [if_neg hc]
      simp only [Res.bind_eq_ok, Res.ok.injEq] at h ⊢
      obtain ⟨y, h1, rfl⟩ := h
      rw [strip_dflt] at h1
      have := pasteVal_tidy env e _ v y hok h1
      rw [tidy_dflt e hok] at this
      exact ⟨_, this, rfl⟩
  | .sorted b c, old, v, x, hok, h => by
    rcases elems_form hok.2 with ⟨e, rfl⟩ | ⟨e, rfl⟩ <;> simp [strip, pasteVal] at h

/-! ## Lists -/

theorem mapRes_tidy {α : Type} {f g : α → Res Obj} {t : Obj → Obj} : ∀ {xs : List α} {ys : List Obj},
    (∀ x ∈ xs, ∀ y, g x = .ok y → f x = .ok (t y)) → mapRes g xs = .ok ys → mapRes f xs = .ok (ys.map t)
  | [], ys, _, h => by
    simp only [mapRes, Res.ok.injEq] at h ⊢
    subst h
    rfl
  | x :: xs, ys, hf, h => by
    simp only [mapRes, Res.bind_eq_ok, Res.ok.injEq] at h ⊢
    obtain ⟨y, h1, zs, h2, rfl⟩ := h
    exact ⟨t y, hf x (by simp) y h1, zs.map t, mapRes_tidy (fun z hz => hf z (by simp [hz])) h2, rfl⟩

theorem zipRes_tidy {α : Type} {f g : Obj → α → Res Obj} {t : Obj → Obj} : ∀ {os : List Obj} {xs : List α}
    {ys : List Obj}, (∀ o, ∀ x ∈ xs, ∀ y, g o x = .ok y → f (t o) x = .ok (t y)) → zipRes g os xs = .ok ys →
    zipRes f (os.map t) xs = .ok (ys.map t)
  | os, [], ys, _, h => by
    rw [zipRes] at h ⊢
    cases h
    rfl
  | [], _ :: _, ys, _, h => by rw [zipRes] at h; cases h
  | o :: os, x :: xs, ys, hf, h => by
    simp only [List.map_cons, zipRes, Res.bind_eq_ok, Res.ok.injEq] at h ⊢
    obtain ⟨y, h1, zs, h2, rfl⟩ := h
    exact ⟨t y, hf o x (by simp) y h1, zs.map t, zipRes_tidy (fun o z hz => hf o z (by simp [hz])) h2, rfl⟩

/-! ## Nodes -/

mutual
theorem pasteNode_tidy (env : Env) : ∀ (ty : Ty) (old : Obj) (n : Node) (x : Obj), ty.Ok →
    pasteNode env (strip ty) old n = .ok x → pasteNode env ty (tidy ty old) n = .ok (tidy ty x)
  | .vec e, old, .mk t vs ns, x, hok, h => by
    simp only [strip, pasteNode, strip_scope, strip_dflt] at h
    simp only [pasteNode, tidy]
    split at h
    · rename_i hs
      rw [if_pos hs]
      simp only [Res.bind_eq_ok, Res.ok.injEq] at h ⊢
      obtain ⟨ys, h, rfl⟩ := h
      refine ⟨_, mapRes_tidy (fun p _ y hy => ?_) h, rfl⟩
      have := pasteNode_tidy env e _ p.2 y hok hy
      rwa [tidy_dflt e hok] at this
    · rename_i hs
      rw [if_neg hs]
      simp only [Res.bind_eq_ok, Res.ok.injEq] at h ⊢
      obtain ⟨ys, h, rfl⟩ := h
      refine ⟨_, mapRes_tidy (fun p _ y hy => ?_) h, rfl⟩
      have := pasteVal_tidy env e _ p.2 y hok hy
      rwa [tidy_dflt e hok] at this
  | .named e, old, .mk t vs ns, x, hok, h => by
    simp only [strip, pasteNode, strip_scope, strip_dflt] at h
    split at h
    · cases h
    rename_i ht
    simp only [pasteNode, tidy]
    rw [if_neg ht]
    split at h
    · rename_i hs
      rw [if_pos hs]
      simp only [Res.bind_eq_ok, Res.ok.injEq] at h ⊢
      obtain ⟨ys, h, rfl⟩ := h
      refine ⟨_, mapRes_tidy (fun p _ y hy => ?_) h, rfl⟩
      simp only [Res.bind_eq_ok, Res.ok.injEq] at hy ⊢
      obtain ⟨z, hz, rfl⟩ := hy
      have := pasteNode_tidy env e _ p.2 z hok hz
      rw [tidy_dflt e hok] at this
      exact ⟨_, this, rfl⟩
    · rename_i hs
      rw [if_neg hs]
      simp only [Res.bind_eq_ok, Res.ok.injEq] at h ⊢
      obtain ⟨ys, h, rfl⟩ := h
      refine ⟨_, mapRes_tidy (fun p _ y hy => ?_) h, rfl⟩
      simp only [Res.bind_eq_ok, Res.ok.injEq] at hy ⊢
      obtain ⟨z, hz, rfl⟩ := hy
      have := pasteVal_tidy env e _ p.2 z hok hz
      rw [tidy_dflt e hok] at this
      exact ⟨_, this, rfl⟩
  | .arr k e, old, .mk t vs ns, x, hok, h => by
    cases old with
    | many os =>
      simp only [strip, pasteNode, strip_scope] at h
      simp only [tidy, pasteNode]
      split at h
      · rename_i hs
        rw [if_pos hs]
        split at h
        · cases h
        rename_i hl
        rw [if_neg hl]
        simp only [Res.bind_eq_ok, Res.ok.injEq] at h ⊢
        obtain ⟨ys, h, rfl⟩ := h
        exact ⟨_, zipRes_tidy (fun o p _ y hy => pasteNode_tidy env e o p.2 y hok hy) h, rfl⟩
      · rename_i hs
        rw [if_neg hs]
        split at h
        · cases h
        rename_i hl
        rw [if_neg hl]
        simp only [Res.bind_eq_ok, Res.ok.injEq] at h ⊢
        obtain ⟨ys, h, rfl⟩ := h
        exact ⟨_, zipRes_tidy (fun o p _ y hy => pasteVal_tidy env e o p.2 y hok hy) h, rfl⟩
    | _ => simp [strip, pasteNode] at h
  | .record t' st fs, old, .mk t vs ns, x, hok, h => by
    cases old with
    | many os =>
      simp only [strip, pasteNode] at h
      simp only [tidy, pasteNode]
      split at h
      · cases h
      rename_i hl
      rw [if_neg hl]
      simp only [Res.bind_eq_ok, Res.ok.injEq] at h ⊢
      obtain ⟨ys, h, rfl⟩ := h
      exact ⟨_, pasteFields_tidy env fs os 0 0 vs ns ys hok.1 h, rfl⟩
    | _ => simp [strip, pasteNode] at h
  | .ptr k e, old, n, x, hok, h => by
    simp only [strip, pasteNode, strip_dflt, Res.bind_eq_ok, Res.ok.injEq] at h ⊢
    obtain ⟨y, h, rfl⟩ := h
    have := pasteNode_tidy env e _ n y hok h
    rw [tidy_dflt e hok] at this
    exact ⟨_, this, rfl⟩
  | .sorted b c, old, n, x, hok, h => by
    have h' : pasteNode env (strip c) (dflt c) n = .ok x := by
      rw [← h]
      rcases elems_form hok.2 with ⟨e, rfl⟩ | ⟨e, rfl⟩ <;> cases n <;> simp only [strip, pasteNode]
    have := pasteNode_tidy env c _ n x hok.1 h'
    rw [tidy_dflt c hok.1] at this
    simp only [pasteNode, this, Res.ok_bind, tidy]
  | .bool, _, _, _, _, h => by simp [strip, pasteNode] at h
  | .int _, _, _, _, _, h => by simp [strip, pasteNode] at h
  | .float, _, _, _, _, h => by simp [strip, pasteNode] at h
  | .double, _, _, _, _, h => by simp [strip, pasteNode] at h
  | .str, _, _, _, _, h => by simp [strip, pasteNode] at h
  | .bytes, _, _, _, _, h => by simp [strip, pasteNode] at h
theorem pasteFields_tidy (env : Env) : ∀ (fs : Fields) (os : List Obj) (ni vi : Nat) (vs : List (Bytes × Val))
    (ns : List (Bytes × Node)) (xs : List Obj), fs.Ok → pasteFields env (stripL fs) os ni vi vs ns = .ok xs →
    pasteFields env fs (tidyL fs os) ni vi vs ns = .ok (tidyL fs xs)
  | .nil, os, ni, vi, vs, ns, xs, _, h => by
    simp only [stripL, pasteFields, Res.ok.injEq] at h ⊢
    subst h
    rfl
  | .cons _ _ _ _, [], _, _, _, _, _, _, h => by simp [stripL, pasteFields] at h
  | .cons name opt ty rest, o :: os, ni, vi, vs, ns, xs, hok, h => by
    simp only [stripL, pasteFields, strip_scope] at h
    simp only [tidyL, pasteFields]
    split at h
    · rename_i hs
      rw [if_pos hs]
      split at h
      · rename_i ho
        rw [if_pos ho]
        simp only [Res.bind_eq_ok, Res.ok.injEq] at h ⊢
        obtain ⟨ys, h, rfl⟩ := h
        exact ⟨_, pasteFields_tidy env rest os ni vi vs ns ys hok.2 h, rfl⟩
      · rename_i ho
        rw [if_neg ho]
        simp only [Res.bind_eq_ok, Res.ok.injEq] at h ⊢
        obtain ⟨n, hn, y, hy, ys, h, rfl⟩ := h
        exact ⟨n, hn, _, pasteNode_tidy env ty o n y hok.1 hy, _, pasteFields_tidy env rest os _ _ vs ns ys hok.2 h, rfl⟩
    · rename_i hs
      rw [if_neg hs]
      split at h
      · rename_i ho
        rw [if_pos ho]
        simp only [Res.bind_eq_ok, Res.ok.injEq] at h ⊢
        obtain ⟨ys, h, rfl⟩ := h
        exact ⟨_, pasteFields_tidy env rest os ni vi vs ns ys hok.2 h, rfl⟩
      · rename_i ho
        rw [if_neg ho]
        simp only [Res.bind_eq_ok, Res.ok.injEq] at h ⊢
        obtain ⟨n, hn, y, hy, ys, h, rfl⟩ := h
        exact ⟨n, hn, _, pasteVal_tidy env ty o n y hok.1 hy, _, pasteFields_tidy env rest os _ _ vs ns ys hok.2 h, rfl⟩
end

/-! ## While reading -/

variable {σ : Type} {read : σ → Res (Event × σ)}

theorem vecNodes_tidy {total : Nat} {f g : Bytes × LNode → σ → Res (Obj × σ)} {t : Obj → Obj}
    (h : ∀ c s y s', g c s = .ok (y, s') → f c s = .ok (t y, s')) : ∀ (fuel : Nat) (n : LNode) (s : σ) (ys : List Obj)
    (n' : LNode) (s' : σ), vecNodes read total g fuel n s = .ok (ys, n', s') →
    vecNodes read total f fuel n s = .ok (ys.map t, n', s')
  | 0, _, _, _, _, _, e => by simp [vecNodes] at e
  | fuel + 1, n, s, ys, n', s', e => by
    rw [vecNodes, Res.bind_eq_ok] at e
    obtain ⟨⟨c, n1, s1⟩, e1, e⟩ := e
    rw [vecNodes, e1, Res.ok_bind]
    simp only at e ⊢
    split at e
    · rename_i hp
      cases e
      rw [if_pos hp]
      rfl
    · rename_i hp
      rw [if_neg hp]
      cases c with
      | none => cases e
      | some c =>
        simp only [Res.bind_eq_ok] at e
        obtain ⟨⟨y, s2⟩, e2, ⟨zs, n3, s3⟩, e3, e⟩ := e
        cases e
        simp only [h _ _ _ _ e2, Res.ok_bind, vecNodes_tidy h fuel _ _ _ _ _ e3, List.map_cons]

theorem vecValues_tidy {total : Nat} {f g : Bytes × Val → Res Obj} {t : Obj → Obj}
    (h : ∀ c y, g c = .ok y → f c = .ok (t y)) : ∀ (fuel : Nat) (n : LNode) (s : σ) (ys : List Obj)
    (n' : LNode) (s' : σ), vecValues read total g fuel n s = .ok (ys, n', s') →
    vecValues read total f fuel n s = .ok (ys.map t, n', s')
  | 0, _, _, _, _, _, e => by simp [vecValues] at e
  | fuel + 1, n, s, ys, n', s', e => by
    rw [vecValues, Res.bind_eq_ok] at e
    obtain ⟨⟨c, n1, s1⟩, e1, e⟩ := e
    rw [vecValues, e1, Res.ok_bind]
    simp only at e ⊢
    split at e
    · rename_i hp
      cases e
      rw [if_pos hp]
      rfl
    · rename_i hp
      rw [if_neg hp]
      cases c with
      | none => cases e
      | some c =>
        simp only [Res.bind_eq_ok] at e
        obtain ⟨y, e2, ⟨zs, n3, s3⟩, e3, e⟩ := e
        cases e
        simp only [h _ _ e2, Res.ok_bind, vecValues_tidy h fuel _ _ _ _ _ e3, List.map_cons]

theorem arrNodes_tidy {total : Nat} {f g : Obj → LNode → σ → Res (Obj × σ)} {t : Obj → Obj}
    (h : ∀ o c s y s', g o c s = .ok (y, s') → f (t o) c s = .ok (t y, s')) : ∀ (os : List Obj) (n : LNode) (s : σ)
    (ys : List Obj) (n' : LNode) (s' : σ), arrNodes read total g os n s = .ok (ys, n', s') →
    arrNodes read total f (os.map t) n s = .ok (ys.map t, n', s')
  | [], _, _, _, _, _, e => by
    simp only [arrNodes] at e
    cases e
    rfl
  | o :: os, n, s, ys, n', s', e => by
    rw [arrNodes] at e
    rw [List.map_cons, arrNodes]
    split at e
    · cases e
    rename_i hp
    rw [if_neg hp]
    rw [Res.bind_eq_ok] at e
    obtain ⟨⟨c, n1, s1⟩, e1, e⟩ := e
    rw [e1, Res.ok_bind]
    cases c with
    | none => cases e
    | some c =>
      simp only [Res.bind_eq_ok] at e
      obtain ⟨⟨y, s2⟩, e2, ⟨zs, n3, s3⟩, e3, e⟩ := e
      cases e
      simp only [h _ _ _ _ _ e2, Res.ok_bind, arrNodes_tidy h os _ _ _ _ _ e3, List.map_cons]

theorem arrValues_tidy {total : Nat} {f g : Obj → Val → Res Obj} {t : Obj → Obj}
    (h : ∀ o c y, g o c = .ok y → f (t o) c = .ok (t y)) : ∀ (os : List Obj) (n : LNode) (s : σ)
    (ys : List Obj) (n' : LNode) (s' : σ), arrValues read total g os n s = .ok (ys, n', s') →
    arrValues read total f (os.map t) n s = .ok (ys.map t, n', s')
  | [], _, _, _, _, _, e => by
    simp only [arrValues] at e
    cases e
    rfl
  | o :: os, n, s, ys, n', s', e => by
    rw [arrValues] at e
    rw [List.map_cons, arrValues]
    split at e
    · cases e
    rename_i hp
    rw [if_neg hp]
    rw [Res.bind_eq_ok] at e
    obtain ⟨⟨c, n1, s1⟩, e1, e⟩ := e
    rw [e1, Res.ok_bind]
    cases c with
    | none => cases e
    | some c =>
      simp only [Res.bind_eq_ok] at e
      obtain ⟨y, e2, ⟨zs, n3, s3⟩, e3, e⟩ := e
      cases e
      simp only [h _ _ _ e2, Res.ok_bind, arrValues_tidy h os _ _ _ _ _ e3, List.map_cons]

mutual
theorem paste_tidy (env : Env) (read : σ → Res (Event × σ)) (fuel : Nat) : ∀ (ty : Ty) (old : Obj) (n : LNode) (s : σ)
    (x : Obj) (n' : LNode) (s' : σ), ty.Ok → paste env read fuel (strip ty) old n s = .ok (x, n', s') →
    paste env read fuel ty (tidy ty old) n s = .ok (tidy ty x, n', s')
  | .vec e, old, n, s, x, n', s', hok, h => by
    have hp := pasteNode_tidy env (.vec e) old (.mk n.type n.values n.nodes)
    simp only [strip, paste, strip_scope, strip_dflt] at h hp
    simp only [paste]
    split at h
    · rename_i hc
      rw [if_pos hc]
      rw [Res.bind_eq_ok] at h
      obtain ⟨y, h1, h⟩ := h
      cases h
      simp only [hp x hok h1, Res.ok_bind]
    rename_i hc
    rw [if_neg hc]
    split at h
    · rename_i hs
      rw [if_pos hs]
      rw [Res.bind_eq_ok] at h
      obtain ⟨⟨ys, n1, s1⟩, h1, h⟩ := h
      cases h
      rw [vecNodes_tidy (t := tidy e) (fun c s y s' hy => ?_) fuel n s ys _ _ h1]
      · rfl
      simp only [Res.bind_eq_ok] at hy
      obtain ⟨⟨z, c', s2⟩, h2, s3, h3, h4⟩ := hy
      cases h4
      have := paste_tidy env read fuel e _ c.2 s z c' s2 hok h2
      rw [tidy_dflt e hok] at this
      simp only [this, Res.ok_bind, h3]
    · rename_i hs
      rw [if_neg hs]
      rw [Res.bind_eq_ok] at h
      obtain ⟨⟨ys, n1, s1⟩, h1, h⟩ := h
      cases h
      rw [vecValues_tidy (t := tidy e) (fun c y hy => ?_) fuel n s ys _ _ h1]
      · rfl
      have := pasteVal_tidy env e _ c.2 y hok hy
      rwa [tidy_dflt e hok] at this
  | .named e, old, n, s, x, n', s', hok, h => by
    have hp := pasteNode_tidy env (.named e) old (.mk n.type n.values n.nodes)
    simp only [strip, paste, strip_scope, strip_dflt] at h hp
    simp only [paste]
    split at h
    · cases h
    rename_i ht
    rw [if_neg ht]
    split at h
    · rename_i hc
      rw [if_pos hc]
      rw [Res.bind_eq_ok] at h
      obtain ⟨y, h1, h⟩ := h
      cases h
      simp only [hp x hok h1, Res.ok_bind]
    rename_i hc
    rw [if_neg hc]
    split at h
    · rename_i hs
      rw [if_pos hs]
      rw [Res.bind_eq_ok] at h
      obtain ⟨⟨ys, n1, s1⟩, h1, h⟩ := h
      cases h
      rw [vecNodes_tidy (t := onValue fun y => tidy e y) (fun c s y s' hy => ?_) fuel n s ys _ _ h1]
      · rfl
      simp only [Res.bind_eq_ok] at hy
      obtain ⟨⟨z, c', s2⟩, h2, s3, h3, h4⟩ := hy
      cases h4
      have := paste_tidy env read fuel e _ c.2 s z c' s2 hok h2
      rw [tidy_dflt e hok] at this
      simp only [this, Res.ok_bind, h3, onValue]
    · rename_i hs
      rw [if_neg hs]
      rw [Res.bind_eq_ok] at h
      obtain ⟨⟨ys, n1, s1⟩, h1, h⟩ := h
      cases h
      rw [vecValues_tidy (t := onValue fun y => tidy e y) (fun c y hy => ?_) fuel n s ys _ _ h1]
      · rfl
      simp only [Res.bind_eq_ok] at hy
      obtain ⟨z, h2, h4⟩ := hy
      cases h4
      have := pasteVal_tidy env e _ c.2 z hok h2
      rw [tidy_dflt e hok] at this
      simp only [this, Res.ok_bind, onValue]
  | .arr k e, old, n, s, x, n', s', hok, h => by
    cases old with
    | many os =>
      have hp := pasteNode_tidy env (.arr k e) (.many os) (.mk n.type n.values n.nodes)
      simp only [strip, paste, strip_scope] at h hp
      simp only [tidy, paste] at hp ⊢
      split at h
      · rename_i hc
        rw [if_pos hc]
        rw [Res.bind_eq_ok] at h
        obtain ⟨y, h1, h⟩ := h
        cases h
        have := hp x hok h1
        rw [this]
        rfl
      rename_i hc
      rw [if_neg hc]
      split at h
      · rename_i hs
        rw [if_pos hs]
        rw [Res.bind_eq_ok] at h
        obtain ⟨⟨ys, n1, s1⟩, h1, h⟩ := h
        cases h
        rw [arrNodes_tidy (t := tidy e) (fun o c s y s' hy => ?_) os n s ys _ _ h1]
        · rfl
        simp only [Res.bind_eq_ok] at hy
        obtain ⟨⟨z, c', s2⟩, h2, s3, h3, h4⟩ := hy
        cases h4
        simp only [paste_tidy env read fuel e o c s z c' s2 hok h2, Res.ok_bind, h3]
      · rename_i hs
        rw [if_neg hs]
        rw [Res.bind_eq_ok] at h
        obtain ⟨⟨ys, n1, s1⟩, h1, h⟩ := h
        cases h
        rw [arrValues_tidy (t := tidy e) (fun o c y hy => pasteVal_tidy env e o c y hok hy) os n s ys _ _ h1]
        rfl
    | _ => simp [strip, paste] at h
  | .record t st fs, old, n, s, x, n', s', hok, h => by
    cases old with
    | many os =>
      simp only [strip, paste] at h
      simp only [tidy, paste]
      split at h
      · cases h
      rename_i hc
      rw [if_neg hc]
      rw [Res.bind_eq_ok] at h
      obtain ⟨⟨ys, n1, s1⟩, h1, h⟩ := h
      cases h
      rw [pasteMembers_tidy env read fuel fs os 0 0 n s ys _ _ hok.1 h1]
      rfl
    | _ => simp [strip, paste] at h
  | .ptr k e, old, n, s, x, n', s', hok, h => by
    simp only [strip, paste, strip_dflt, Res.bind_eq_ok] at h
    obtain ⟨⟨y, n1, s1⟩, h1, h⟩ := h
    cases h
    have := paste_tidy env read fuel e _ n s y _ _ hok h1
    rw [tidy_dflt e hok] at this
    simp only [paste, this, Res.ok_bind, tidy]
  | .sorted b c, old, n, s, x, n', s', hok, h => by
    have h' : paste env read fuel (strip c) (dflt c) n s = .ok (x, n', s') := by
      rw [← h]
      rcases elems_form hok.2 with ⟨e, rfl⟩ | ⟨e, rfl⟩ <;> simp only [strip, paste, pasteNode]
    have := paste_tidy env read fuel c _ n s x n' s' hok.1 h'
    rw [tidy_dflt c hok.1] at this
    conv => lhs; unfold paste
    simp only [this, Res.ok_bind, tidy]
  | .bool, _, _, _, _, _, _, _, h => by simp [strip, paste] at h
  | .int _, _, _, _, _, _, _, _, h => by simp [strip, paste] at h
  | .float, _, _, _, _, _, _, _, h => by simp [strip, paste] at h
  | .double, _, _, _, _, _, _, _, h => by simp [strip, paste] at h
  | .str, _, _, _, _, _, _, _, h => by simp [strip, paste] at h
  | .bytes, _, _, _, _, _, _, _, h => by simp [strip, paste] at h
theorem pasteMembers_tidy (env : Env) (read : σ → Res (Event × σ)) (fuel : Nat) : ∀ (fs : Fields) (os : List Obj)
    (ni vi : Nat) (n : LNode) (s : σ) (xs : List Obj) (n' : LNode) (s' : σ), fs.Ok →
    pasteMembers env read fuel (stripL fs) os ni vi n s = .ok (xs, n', s') →
    pasteMembers env read fuel fs (tidyL fs os) ni vi n s = .ok (tidyL fs xs, n', s')
  | .nil, os, ni, vi, n, s, xs, n', s', _, h => by
    simp only [stripL, pasteMembers] at h ⊢
    cases h
    rfl
  | .cons _ _ _ _, [], _, _, _, _, _, _, _, _, h => by simp [stripL, pasteMembers] at h
  | .cons name opt ty rest, o :: os, ni, vi, n, s, xs, n', s', hok, h => by
    simp only [stripL, pasteMembers, strip_scope] at h
    simp only [tidyL, pasteMembers]
    rw [Res.bind_eq_ok] at h
    obtain ⟨⟨here, n1, s1⟩, h1, h⟩ := h
    rw [h1, Res.ok_bind]
    simp only at h ⊢
    split at h
    · rename_i hh
      rw [if_pos hh]
      rw [Res.bind_eq_ok] at h
      obtain ⟨⟨ys, n2, s2⟩, h2, h⟩ := h
      cases h
      rw [pasteMembers_tidy env read fuel rest os ni vi n1 s1 ys _ _ hok.2 h2]
      rfl
    rename_i hh
    rw [if_neg hh]
    split at h
    · rename_i hs
      rw [if_pos hs]
      split at h
      · rename_i hp
        rw [if_pos hp]
        simp only [Res.bind_eq_ok] at h
        obtain ⟨c, h2, y, h3, ⟨ys, n2, s2⟩, h4, h⟩ := h
        cases h
        rw [h2, Res.ok_bind, pasteNode_tidy env ty o c y hok.1 h3, Res.ok_bind,
          pasteMembers_tidy env read fuel rest os _ _ n1 s1 ys _ _ hok.2 h4]
        rfl
      · rename_i hp
        rw [if_neg hp]
        rw [Res.bind_eq_ok] at h
        obtain ⟨⟨c, n2, s2⟩, h2, h⟩ := h
        rw [h2, Res.ok_bind]
        cases c with
        | none => cases h
        | some c =>
          simp only [Res.bind_eq_ok] at h
          obtain ⟨⟨y, c', s3⟩, h3, s4, h4, ⟨ys, n5, s5⟩, h5, h⟩ := h
          cases h
          simp only [paste_tidy env read fuel ty o c.2 s2 y c' s3 hok.1 h3, Res.ok_bind, h4,
            pasteMembers_tidy env read fuel rest os _ _ n2 s4 ys n5 s5 hok.2 h5, tidyL]
    · rename_i hs
      rw [if_neg hs]
      split at h
      · rename_i hp
        rw [if_pos hp]
        simp only [Res.bind_eq_ok] at h
        obtain ⟨c, h2, y, h3, ⟨ys, n2, s2⟩, h4, h⟩ := h
        cases h
        rw [h2, Res.ok_bind, pasteVal_tidy env ty o c y hok.1 h3, Res.ok_bind,
          pasteMembers_tidy env read fuel rest os _ _ n1 s1 ys _ _ hok.2 h4]
        rfl
      · rename_i hp
        rw [if_neg hp]
        rw [Res.bind_eq_ok] at h
        obtain ⟨⟨c, n2, s2⟩, h2, h⟩ := h
        rw [h2, Res.ok_bind]
        cases c with
        | none => cases h
        | some c =>
          simp only [Res.bind_eq_ok] at h
          obtain ⟨y, h3, ⟨ys, n5, s5⟩, h5, h⟩ := h
          cases h
          simp only [pasteVal_tidy env ty o c.2 y hok.1 h3, Res.ok_bind,
            pasteMembers_tidy env read fuel rest os _ _ n2 s2 ys n5 s5 hok.2 h5, tidyL]
end

theorem restore_tidy (env : Env) (read : σ → Res (Event × σ)) (fuel : Nat) (ty : Ty) (old : Obj) (s : σ) (x : Obj)
    (s' : σ) (hok : ty.Ok) (h : restore env read fuel (strip ty) old s = .ok (x, s')) :
    restore env read fuel ty (tidy ty old) s = .ok (tidy ty x, s') := by
  unfold restore at h ⊢
  rw [Res.bind_eq_ok] at h
  obtain ⟨⟨e, s1⟩, h1, h⟩ := h
  rw [h1, Res.ok_bind]
  simp only [strip_scope] at h ⊢
  split at h
  · rename_i t ht
    split at h
    · rename_i hs
      simp only [if_pos hs]
      rw [Res.bind_eq_ok] at h
      obtain ⟨⟨y, n, s2⟩, h2, h⟩ := h
      cases h
      rw [paste_tidy env read fuel ty old _ s1 _ _ _ hok h2]
      rfl
    · rename_i hs
      simp only [if_neg hs]
      rw [Res.bind_eq_ok] at h
      obtain ⟨⟨c, n, s2⟩, h2, h⟩ := h
      rw [h2, Res.ok_bind]
      cases c with
      | none => cases h
      | some c =>
        simp only [Res.bind_eq_ok] at h
        obtain ⟨y, h3, h⟩ := h
        cases h
        simp only [pasteVal_tidy env ty old c.2 x hok h3, Res.ok_bind]
  · cases h

/-! ## Containers in any order -/

theorem zip_map {t : Obj → Obj} : ∀ {xs ys : List Obj}, xs.length = ys.length → (∀ p ∈ xs.zip ys, t p.2 = p.1) →
    ys.map t = xs
  | [], [], _, _ => rfl
  | x :: xs, y :: ys, hl, h => by
    rw [List.map_cons, h (x, y) (by simp), zip_map (by simpa using hl) fun p hp => h p (by simp [hp])]
  | [], _ :: _, hl, _ => by simp at hl
  | _ :: _, [], hl, _ => by simp at hl

theorem zip_mem {P Q : Obj → Prop} : ∀ {xs ys : List Obj}, xs.length = ys.length → (∀ x ∈ xs, P x) →
    (∀ p ∈ xs.zip ys, P p.1 → Q p.2) → ∀ y ∈ ys, Q y
  | [], [], _, _, _ => by simp
  | x :: xs, y :: ys, hl, hp, h => by
    intro z hz
    rcases List.mem_cons.mp hz with rfl | hz
    · exact h (x, z) (by simp) (hp x (by simp))
    · exact zip_mem (by simpa using hl) (fun x hx => hp x (by simp [hx])) (fun p hp => h p (by simp [hp])) z hz
  | [], _ :: _, hl, _, _ => by simp at hl
  | _ :: _, [], hl, _, _ => by simp at hl

theorem tidy_many {b : Order} {c : Ty} (hc : c.Elems b) : ∃ t : Obj → Obj, ∀ xs, tidy c (.many xs) = .many (xs.map t) := by
  rcases elems_form hc with ⟨e, rfl⟩ | ⟨e, rfl⟩
  · exact ⟨fun x => tidy e x, fun xs => by simp only [tidy]⟩
  · exact ⟨onValue fun y => tidy e y, fun xs => by simp only [tidy]⟩

theorem asc_nodup {b : Order} (hm : b.multi = false) {xs : List Obj} (h : Asc b xs) : (xs.map (keyOf b.byKey)).Nodup := by
  refine List.Pairwise.map _ (fun _ _ h => h) (h.imp fun {x y} hxy he => ?_)
  rcases hxy with h | ⟨h, -⟩
  · rw [he] at h
    exact Less.irrefl _ h
  · rw [hm] at h
    cases h

mutual
theorem tidy_enum : ∀ (ty : Ty) (o o' : Obj), ty.Ok → Proper ty o → Enumerates false ty o o' → tidy ty o' = o
  | .bool, o, o', _, hp, h | .int _, o, o', _, hp, h | .float, o, o', _, hp, h | .double, o, o', _, hp, h
  | .str, o, o', _, hp, h | .bytes, o, o', _, hp, h => by
    simp only [Enumerates] at h
    subst h
    cases o <;> rfl
  | .vec e, o, o', hok, hp, h => by
    obtain ⟨xs, ys, rfl, rfl, hl, h⟩ := h
    simp only [Proper] at hp
    simp only [tidy]
    rw [zip_map hl fun p hx => tidy_enum e p.1 p.2 hok (hp p.1 (List.of_mem_zip hx).1) (h p hx)]
  | .named e, o, o', hok, hp, h => by
    obtain ⟨xs, ys, rfl, rfl, hl, h⟩ := h
    simp only [Proper] at hp
    simp only [tidy]
    rw [zip_map hl fun p hx => ?_]
    obtain ⟨k, x, y, rfl, hxy⟩ := h p hx
    obtain ⟨k', x', he, hpx⟩ := hp _ (List.of_mem_zip hx).1
    cases he
    simp only [onValue, tidy_enum e x y hok hpx hxy]
  | .arr _ e, o, o', hok, hp, h => by
    obtain ⟨xs, ys, rfl, rfl, hl, h⟩ := h
    simp only [Proper] at hp
    simp only [tidy]
    rw [zip_map hl fun p hx => tidy_enum e p.1 p.2 hok (hp.2 p.1 (List.of_mem_zip hx).1) (h p hx)]
  | .record _ _ fs, o, o', hok, hp, h => by
    obtain ⟨xs, ys, rfl, rfl, h⟩ := h
    simp only [Proper] at hp
    simp only [tidy]
    rw [tidyL_enum fs xs ys hok.1 hp h]
  | .ptr _ e, o, o', hok, hp, h => by
    rcases h with ⟨rfl, rfl⟩ | ⟨x, y, rfl, rfl, h⟩
    · rfl
    · simp only [Proper] at hp
      simp only [tidy, tidy_enum e x y hok hp h]
  | .sorted b c, o, o', hok, hp, h => by
    simp only [Proper] at hp
    have hw := Srl.Proper.proper_wt c o hp.1
    have hsame := collect_same hok.2 hw hp.2
    simp only [tidy]
    rcases h with h | ⟨hm, xs, ys, h, rfl, hperm⟩
    · rw [tidy_enum c o o' hok.1 hp.1 h, hsame]
    · replace hm : b.multi = false := hm.resolve_right (by decide)
      obtain ⟨t, ht⟩ := tidy_many hok.2
      have ih := tidy_enum c o (.many xs) hok.1 hp.1 h
      rw [ht] at ih ⊢
      subst ih
      obtain ⟨P, hk, hP⟩ := keyed_elems hok.2
      obtain ⟨zs, he, hz⟩ := (hP _).mp hw
      cases he
      have hn := asc_nodup hm ((ascending_iff hk hz).mp hp.2)
      rw [collect] at hsame ⊢
      rw [← hsame, ← foldl_perm hk hz hn (hperm.map t)]
theorem tidyL_enum : ∀ (fs : Fields) (xs ys : List Obj), fs.Ok → ProperL fs xs → EnumeratesL false fs xs ys → tidyL fs ys = xs
  | .nil, [], [], _, _, _ => rfl
  | .cons _ _ ty rest, x :: xs, y :: ys, hok, hp, h => by
    simp only [ProperL] at hp
    simp only [EnumeratesL] at h
    simp only [tidyL, tidy_enum ty x y hok.1 hp.1 h.1, tidyL_enum rest xs ys hok.2 hp.2 h.2]
  | .nil, _ :: _, _, _, _, h => by simp [EnumeratesL] at h
  | .nil, [], _ :: _, _, _, h => by simp [EnumeratesL] at h
  | .cons _ _ _ _, [], _, _, _, h => by simp [EnumeratesL] at h
  | .cons _ _ _ _, _ :: _, [], _, _, h => by simp [EnumeratesL] at h
end

theorem depth_mem : ∀ (xs : List Item) (n : Nat), Item.depthL xs ≤ n ↔ ∀ x ∈ xs, x.depth ≤ n
  | [], n => by simp [Item.depthL]
  | x :: xs, n => by
    simp only [Item.depthL, List.mem_cons, forall_eq_or_imp, ← depth_mem xs n]
    omega

theorem depth_perm {xs ys : List Item} (h : xs.Perm ys) : Item.depthL xs = Item.depthL ys := by
  apply Nat.le_antisymm
  · rw [depth_mem]
    intro x hx
    exact (depth_mem ys _).mp (Nat.le_refl _) x (h.mem_iff.mp hx)
  · rw [depth_mem]
    intro x hx
    exact (depth_mem xs _).mp (Nat.le_refl _) x (h.mem_iff.mpr hx)

theorem depth_zip {f : Obj → Item} : ∀ {xs ys : List Obj}, xs.length = ys.length →
    (∀ p ∈ xs.zip ys, (f p.2).depth = (f p.1).depth) → Item.depthL (ys.map f) = Item.depthL (xs.map f)
  | [], [], _, _ => rfl
  | x :: xs, y :: ys, hl, h => by
    simp only [List.map_cons, Item.depthL]
    rw [h (x, y) (by simp), depth_zip (by simpa using hl) fun p hp => h p (by simp [hp])]
  | [], _ :: _, hl, _ => by simp at hl
  | _ :: _, [], hl, _ => by simp at hl

theorem item_many {b : Order} {c : Ty} (hc : c.Elems b) (nm : Bytes) : ∃ (t : ScopeTy) (f : Obj → Item),
    ∀ xs, toItem nm c (.many xs) = .scope nm t (xs.map f) := by
  rcases elems_form hc with ⟨e, rfl⟩ | ⟨e, rfl⟩
  · exact ⟨.array, fun x => toItem [] e x, fun xs => by simp only [toItem]⟩
  · exact ⟨.object, fun x => toItem (entry x).1 e (entry x).2, fun xs => by simp only [toItem]⟩

mutual
theorem depth_enum {free : Bool} : ∀ (ty : Ty) (nm : Bytes) (o o' : Obj), ty.Ok → Storable ty o → Enumerates free ty o o' →
    (toItem nm ty o').depth = (toItem nm ty o).depth
  | .bool, nm, o, o', _, hs, h | .int _, nm, o, o', _, hs, h | .float, nm, o, o', _, hs, h
  | .double, nm, o, o', _, hs, h | .str, nm, o, o', _, hs, h | .bytes, nm, o, o', _, hs, h => by
    simp only [Enumerates] at h
    rw [h]
  | .vec e, nm, o, o', hok, hs, h => by
    obtain ⟨xs, ys, rfl, rfl, hl, h⟩ := h
    simp only [Storable] at hs
    simp only [toItem, Item.depth]
    rw [depth_zip hl fun p hx => depth_enum e [] p.1 p.2 hok (hs p.1 (List.of_mem_zip hx).1) (h p hx)]
  | .named e, nm, o, o', hok, hs, h => by
    obtain ⟨xs, ys, rfl, rfl, hl, h⟩ := h
    simp only [Storable] at hs
    simp only [toItem, Item.depth]
    rw [depth_zip hl fun p hx => ?_]
    obtain ⟨k, x, y, rfl, hxy⟩ := h p hx
    obtain ⟨k', x', he, hsx⟩ := hs _ (List.of_mem_zip hx).1
    cases he
    exact depth_enum e _ x y hok hsx hxy
  | .arr _ e, nm, o, o', hok, hs, h => by
    obtain ⟨xs, ys, rfl, rfl, hl, h⟩ := h
    simp only [Storable] at hs
    simp only [toItem, Item.depth]
    rw [depth_zip hl fun p hx => depth_enum e [] p.1 p.2 hok (hs.2 p.1 (List.of_mem_zip hx).1) (h p hx)]
  | .record _ _ fs, nm, o, o', hok, hs, h => by
    obtain ⟨xs, ys, rfl, rfl, h⟩ := h
    simp only [Storable] at hs
    simp only [toItem, Item.depth]
    rw [depthL_enum fs xs ys hok.1 hs h]
  | .ptr _ e, nm, o, o', hok, hs, h => by
    rcases h with ⟨rfl, rfl⟩ | ⟨x, y, rfl, rfl, h⟩
    · rfl
    · simp only [Storable] at hs
      simp only [toItem]
      exact depth_enum e nm x y hok hs.1 h
  | .sorted b c, nm, o, o', hok, hs, h => by
    simp only [Storable] at hs
    simp only [toItem]
    rcases h with h | ⟨hm, xs, ys, h, rfl, hperm⟩
    · exact depth_enum c nm o o' hok.1 hs.2.1 h
    · rw [← depth_enum c nm o (.many xs) hok.1 hs.2.1 h]
      obtain ⟨t, f, hf⟩ := item_many hok.2 nm
      rw [hf, hf]
      simp only [Item.depth]
      rw [depth_perm (hperm.symm.map f)]
theorem depthL_enum {free : Bool} : ∀ (fs : Fields) (xs ys : List Obj), fs.Ok → StorableL fs xs → EnumeratesL free fs xs ys →
    Item.depthL (fieldItems fs ys) = Item.depthL (fieldItems fs xs)
  | .nil, [], [], _, _, _ => rfl
  | .cons _ _ ty rest, x :: xs, y :: ys, hok, hs, h => by
    simp only [StorableL] at hs
    simp only [EnumeratesL] at h
    simp only [fieldItems, Item.depthL]
    rw [depth_enum ty _ x y hok.1 hs.1 h.1, depthL_enum rest xs ys hok.2 hs.2.2 h.2]
  | .nil, _ :: _, _, _, _, h => by simp [EnumeratesL] at h
  | .nil, [], _ :: _, _, _, h => by simp [EnumeratesL] at h
  | .cons _ _ _ _, [], _, _, _, h => by simp [EnumeratesL] at h
  | .cons _ _ _ _, _ :: _, [], _, _, h => by simp [EnumeratesL] at h
end

theorem null_enum {free : Bool} : ∀ (ty : Ty) (o o' : Obj), Enumerates free ty o o' → o'.isNull = o.isNull
  | .bool, o, o', h | .int _, o, o', h | .float, o, o', h | .double, o, o', h | .str, o, o', h | .bytes, o, o', h => by
    simp only [Enumerates] at h
    rw [h]
  | .vec _, o, o', h | .named _, o, o', h | .arr _ _, o, o', h => by
    obtain ⟨xs, ys, rfl, rfl, -⟩ := h
    rfl
  | .record _ _ _, o, o', h => by
    obtain ⟨xs, ys, rfl, rfl, -⟩ := h
    rfl
  | .ptr _ e, o, o', h => by
    rcases h with ⟨rfl, rfl⟩ | ⟨x, y, rfl, rfl, h⟩
    · rfl
    · exact null_enum e x y h
  | .sorted b c, o, o', h => by
    rcases h with h | ⟨hm, xs, ys, h, rfl, hperm⟩
    · exact null_enum c o o' h
    · rw [← null_enum c o _ h]
      rfl

theorem storable_many {b : Order} {c : Ty} (hc : c.Elems b) : ∃ P : Obj → Prop,
    ∀ xs, Storable (strip c) (.many xs) ↔ ∀ x ∈ xs, P x := by
  rcases elems_form hc with ⟨e, rfl⟩ | ⟨e, rfl⟩
  · exact ⟨Storable (strip e), fun xs => by simp only [strip, Storable]⟩
  · exact ⟨Entry (Storable (strip e)), fun xs => by simp only [strip, Storable]⟩

mutual
theorem storable_enum {free : Bool} : ∀ (ty : Ty) (o o' : Obj), ty.Ok → Storable ty o → Enumerates free ty o o' → Storable (strip ty) o'
  | .bool, o, o', _, hs, h | .int _, o, o', _, hs, h | .float, o, o', _, hs, h | .double, o, o', _, hs, h
  | .str, o, o', _, hs, h | .bytes, o, o', _, hs, h => by
    simp only [Enumerates] at h
    subst h
    exact hs
  | .vec e, o, o', hok, hs, h => by
    obtain ⟨xs, ys, rfl, rfl, hl, h⟩ := h
    simp only [strip, Storable] at hs ⊢
    exact zip_mem hl hs fun p hx hp => storable_enum e p.1 p.2 hok hp (h p hx)
  | .named e, o, o', hok, hs, h => by
    obtain ⟨xs, ys, rfl, rfl, hl, h⟩ := h
    simp only [strip, Storable] at hs ⊢
    refine zip_mem hl hs fun p hx hp => ?_
    obtain ⟨k, x, y, rfl, hxy⟩ := h p hx
    obtain ⟨k', x', he, hsx⟩ := hp
    cases he
    exact ⟨_, _, rfl, storable_enum e x y hok hsx hxy⟩
  | .arr _ e, o, o', hok, hs, h => by
    obtain ⟨xs, ys, rfl, rfl, hl, h⟩ := h
    simp only [strip, Storable] at hs ⊢
    exact ⟨hl ▸ hs.1, zip_mem hl hs.2 fun p hx hp => storable_enum e p.1 p.2 hok hp (h p hx)⟩
  | .record _ _ fs, o, o', hok, hs, h => by
    obtain ⟨xs, ys, rfl, rfl, h⟩ := h
    simp only [strip, Storable] at hs ⊢
    exact storableL_enum fs xs ys hok.1 hs h
  | .ptr k e, o, o', hok, hs, h => by
    rcases h with ⟨rfl, rfl⟩ | ⟨x, y, rfl, rfl, h⟩
    · simp only [strip, Storable, strip_scope] at hs ⊢
      exact hs
    · simp only [strip, Storable] at hs ⊢
      exact ⟨storable_enum e x y hok hs.1 h, fun hk => by rw [null_enum e x y h]; exact hs.2 hk⟩
  | .sorted b c, o, o', hok, hs, h => by
    simp only [Storable] at hs
    simp only [strip]
    rcases h with h | ⟨hm, xs, ys, h, rfl, hperm⟩
    · exact storable_enum c o o' hok.1 hs.2.1 h
    · have ih := storable_enum c o (.many xs) hok.1 hs.2.1 h
      obtain ⟨P, hP⟩ := storable_many hok.2
      rw [hP] at ih ⊢
      exact fun y hy => ih y (hperm.mem_iff.mpr hy)
theorem storableL_enum {free : Bool} : ∀ (fs : Fields) (xs ys : List Obj), fs.Ok → StorableL fs xs → EnumeratesL free fs xs ys →
    StorableL (stripL fs) ys
  | .nil, [], [], _, _, _ => trivial
  | .cons nm opt ty rest, x :: xs, y :: ys, hok, hs, h => by
    simp only [StorableL] at hs
    simp only [EnumeratesL] at h
    simp only [stripL, StorableL, strip_scope, strip_item]
    refine ⟨storable_enum ty x y hok.1 hs.1 h.1, fun h1 h2 => ?_, storableL_enum rest xs ys hok.2 hs.2.2 h.2⟩
    rw [depth_enum ty nm x y hok.1 hs.1 h.1]
    exact hs.2.1 h1 h2
  | .nil, _ :: _, _, _, _, h => by simp [EnumeratesL] at h
  | .nil, [], _ :: _, _, _, h => by simp [EnumeratesL] at h
  | .cons _ _ _ _, [], _, _, _, h => by simp [EnumeratesL] at h
  | .cons _ _ _ _, _ :: _, [], _, _, h => by simp [EnumeratesL] at h
end

/-- Objects that can be stored are objects of their type. -/
theorem storable_proper : ∀ (ty : Ty) (o : Obj), Storable ty o → Proper ty o := by
  intro ty
  refine Ty.rec (motive_1 := fun ty => ∀ o, Storable ty o → Proper ty o)
    (motive_2 := fun fs => ∀ xs, StorableL fs xs → ProperL fs xs) ?_ ?_ ?_ ?_ ?_ ?_ ?_ ?_ ?_ ?_ ?_ ?_ ?_ ?_ ty
  · intro o h; cases o <;> simp [Storable, Proper] at *
  · intro t o h; cases o <;> simp [Storable, Proper] at *; exact h
  · intro o h; cases o <;> simp [Storable, Proper] at *
  · intro o h; cases o <;> simp [Storable, Proper] at *
  · intro o h; cases o <;> simp [Storable, Proper] at *
  · intro o h; cases o <;> simp [Storable, Proper] at *
  · intro e ih o h
    cases o <;> simp only [Storable, Proper] at *
    exact fun x hx => ih x (h x hx)
  · intro e ih o h
    cases o <;> simp only [Storable, Proper] at *
    intro x hx
    obtain ⟨k, y, rfl, h⟩ := h x hx
    exact ⟨k, y, rfl, ih y h⟩
  · intro k e ih o h
    cases o <;> simp only [Storable, Proper] at *
    exact ⟨h.1, fun x hx => ih x (h.2 x hx)⟩
  · intro t st fs ih o h
    cases o <;> simp only [Storable, Proper] at *
    exact ih _ h
  · intro k e ih o h
    cases o <;> simp only [Storable, Proper] at *
    exact ih _ h.1
  · intro b c ih o h
    simp only [Storable, Proper] at *
    exact ⟨ih _ h.2.1, h.2.2⟩
  · intro xs h
    cases xs <;> simp only [StorableL, ProperL] at *
  · intro nm opt ty rest ih1 ih2 xs h
    cases xs <;> simp only [StorableL, ProperL] at *
    exact ⟨ih1 _ h.1, ih2 _ h.2.2⟩

end Srl.Typed
