import Verif.Lemmas.Range
import Verif.Lemmas.TypedOrder

/-! Whatever is restored is an object of its type. -/

namespace Srl.Proper
open Typed

theorem gives_mono {α : Type} {r : Res α} {Q R : α → Prop} (h : Gives r Q) (hQ : ∀ a, Q a → R a) : Gives r R :=
  fun a e => hQ a (h a e)

/-- Like `Gives.bind`, with a property of the intermediate result -/
theorem gives_bind {α β : Type} {r : Res α} {f : α → Res β} {Q : α → Prop} {R : β → Prop} (h : Gives r Q)
    (hf : ∀ a, Q a → Gives (f a) R) : Gives (r >>= f) R :=
  Gives.bind fun a e => hf a (h a e)

mutual
theorem proper_wt : ∀ (ty : Ty) (o : Obj), Proper ty o → WT ty o
  | .bool, o, h => by cases o <;> simp only [Proper, WT] at h ⊢
  | .int _, o, h => by
    cases o <;> simp only [Proper, WT] at h ⊢
    exact h
  | .float, o, h => by cases o <;> simp only [Proper, WT] at h ⊢
  | .double, o, h => by cases o <;> simp only [Proper, WT] at h ⊢
  | .str, o, h => by cases o <;> simp only [Proper, WT] at h ⊢
  | .bytes, o, h => by cases o <;> simp only [Proper, WT] at h ⊢
  | .vec e, o, h => by
    cases o <;> simp only [Proper, WT] at h ⊢
    exact fun x hx => proper_wt e x (h x hx)
  | .named e, o, h => by
    cases o <;> simp only [Proper, WT] at h ⊢
    intro x hx
    obtain ⟨k, y, rfl, hy⟩ := h x hx
    exact ⟨k, y, rfl, proper_wt e y hy⟩
  | .arr k e, o, h => by
    cases o <;> simp only [Proper, WT] at h ⊢
    exact ⟨h.1, fun x hx => proper_wt e x (h.2 x hx)⟩
  | .record _ _ fs, o, h => by
    cases o <;> simp only [Proper, WT] at h ⊢
    exact properL_wt fs _ h
  | .ptr _ e, o, h => by
    cases o <;> simp only [Proper, WT] at h ⊢
    exact proper_wt e _ h
  | .sorted _ c, o, h => by
    simp only [Proper, WT] at h ⊢
    exact proper_wt c o h.1
theorem properL_wt : ∀ (fs : Fields) (xs : List Obj), ProperL fs xs → WTL fs xs
  | .nil, xs, h => by cases xs <;> simp only [ProperL, WTL] at h ⊢
  | .cons _ _ ty rest, xs, h => by
    cases xs <;> simp only [ProperL, WTL] at h ⊢
    exact ⟨proper_wt ty _ h.1, properL_wt rest _ h.2⟩
end

theorem asc_nil (b : Order) : Ascending b (.many []) := by
  intro xs h
  cases h
  exact .nil

mutual
theorem dflt_proper : ∀ ty : Ty, ty.Ok → Proper ty (dflt ty)
  | .bool, _ => trivial
  | .int t, _ => by cases t <;> simp [dflt, Proper, IntTy.lo, IntTy.hi, IntTy.signed, IntTy.bits]
  | .float, _ => by simp [dflt, Proper]
  | .double, _ => by simp [dflt, Proper]
  | .str, _ => trivial
  | .bytes, _ => trivial
  | .vec e, _ => by simp [dflt, Proper]
  | .named e, _ => by simp [dflt, Proper]
  | .arr k e, h => by
    simp only [dflt, Proper, List.length_replicate, true_and]
    intro x hx
    rw [List.eq_of_mem_replicate hx]
    exact dflt_proper e h
  | .record _ _ fs, h => by simp only [dflt, Proper]; exact dfltL_proper fs h.1
  | .ptr _ _, _ => trivial
  | .sorted b c, h => by
    simp only [dflt, Proper]
    refine ⟨dflt_proper c h.1, ?_⟩
    rw [(elems_dflt h.2).1]
    exact asc_nil b
theorem dfltL_proper : ∀ fs : Fields, fs.Ok → ProperL fs (dfltL fs)
  | .nil, _ => trivial
  | .cons _ _ ty rest, h => ⟨dflt_proper ty h.1, dfltL_proper rest h.2⟩
end

/-- Containers with an order are those of a property of their elements. -/
theorem elems_proper {b : Order} {c : Ty} (hc : c.Elems b) : ∃ P : Obj → Prop, ∀ o, Proper c o ↔
    ∃ xs, o = .many xs ∧ ∀ x ∈ xs, P x := by
  have hv : ∀ e, ∀ o, Proper (.vec e) o ↔ ∃ xs, o = .many xs ∧ ∀ x ∈ xs, Proper e x := fun e o => by
    constructor
    · intro h
      cases o <;> simp only [Proper] at h
      exact ⟨_, rfl, h⟩
    · rintro ⟨xs, rfl, h⟩
      simpa only [Proper] using h
  unfold Ty.Elems at hc
  split at hc
  · rcases hc with ⟨k, v, -, rfl⟩ | ⟨-, v, rfl⟩
    · exact ⟨_, hv _⟩
    · refine ⟨Entry (Proper v), fun o => ?_⟩
      constructor
      · intro h
        cases o <;> simp only [Proper] at h
        exact ⟨_, rfl, h⟩
      · rintro ⟨xs, rfl, h⟩
        simpa only [Proper] using h
  · obtain ⟨k, -, rfl⟩ := hc
    exact ⟨_, hv _⟩

theorem collect_proper {b : Order} {c : Ty} {o : Obj} (hc : c.Elems b) (ho : Proper c o) :
    Proper c (collect b o) ∧ Ascending b (collect b o) := by
  refine ⟨?_, (collect_wt hc (proper_wt c o ho)).2⟩
  obtain ⟨P, hP⟩ := elems_proper hc
  replace ho := (hP o).mp ho
  obtain ⟨xs, rfl, ho⟩ := ho
  refine (hP _).mpr ⟨_, rfl, fun x hx => ?_⟩
  rcases foldl_mem xs [] x hx with hx | hx
  · cases hx
  · exact ho x hx

/-! ## Values -/

theorem cast_in (t : IntTy) (v : Int) : t.lo ≤ Apply.castInt (.int t) v ∧ Apply.castInt (.int t) v ≤ t.hi := by
  cases t <;> simp only [Apply.castInt, IntTy.lo, IntTy.hi, IntTy.signed, IntTy.bits] <;> simp <;>
    (try split) <;> omega

theorem int_in (strtod : Bytes → Option UInt64) (t : IntTy) (v : Val) :
    Gives (Apply.paste strtod (.int t) v) fun i => t.lo ≤ i ∧ i ≤ t.hi := by
  have hfp : ∀ x, Gives (Apply.applyFp (.int t) x) fun i => t.lo ≤ i ∧ i ≤ t.hi := by
    intro x i hx
    unfold Apply.applyFp at hx
    split at hx
    · cases hx
    · cases x with
      | fin w =>
        simp only [Apply.castFp] at hx
        split at hx
        · cases hx; assumption
        · cases hx
      | _ => cases hx
  have happ : ∀ w, Gives (Apply.apply (.int t) w) fun i => t.lo ≤ i ∧ i ≤ t.hi := by
    intro w
    cases w with
    | int t' j =>
      intro i hw
      simp only [Apply.apply] at hw
      repeat' split at hw
      all_goals first | cases hw; done | (cases hw; exact cast_in t _)
    | bool b => exact gives_ok (cast_in t _)
    | fp32 f => exact hfp _
    | fp64 d => exact hfp _
    | null => exact gives_ok (by cases t <;> decide)
    | _ => exact gives_err
  cases v with
  | str s =>
    simp only [Apply.paste]
    split
    · exact happ _
    · exact gives_err
  | bin b => exact gives_err
  | _ => simp only [Apply.paste]; exact happ _

theorem pasteVal_proper (env : Env) : ∀ (ty : Ty) (old : Obj) (v : Val), ty.Ok → Proper ty old →
    Gives (pasteVal env ty old v) (Proper ty)
  | .bool, old, v, _, _ => by
    simp only [pasteVal]
    exact Gives.bind fun i _ => gives_ok trivial
  | .int t, old, v, _, _ => by
    simp only [pasteVal]
    refine gives_bind (int_in env.strtod t v) fun i hi => gives_ok ?_
    simpa only [Proper] using hi
  | .float, old, v, _, _ => by
    simp only [pasteVal]
    exact Gives.bind fun i _ => gives_ok (by simp only [Proper])
  | .double, old, v, _, _ => by
    simp only [pasteVal]
    exact Gives.bind fun i _ => gives_ok (by simp only [Proper])
  | .str, old, v, _, h => by
    simp only [pasteVal]
    split
    · exact gives_ok h
    · exact gives_ok trivial
    · exact gives_err
    · split
      · exact Gives.bind fun i _ => gives_ok trivial
      · exact gives_err
  | .bytes, old, v, _, h => by
    simp only [pasteVal]
    split
    · exact gives_ok trivial
    · exact Gives.bind fun i _ => gives_ok trivial
    · exact gives_err
  | .ptr k e, old, v, hok, h => by
    simp only [pasteVal]
    split
    · exact gives_ok trivial
    · exact gives_bind (pasteVal_proper env e (dflt e) v hok (dflt_proper e hok)) fun o ho =>
        gives_ok (by simpa only [Proper] using ho)
  | .vec _, _, _, _, _ => gives_err
  | .named _, _, _, _, _ => gives_err
  | .arr _ _, _, _, _, _ => gives_err
  | .record _ _ _, _, _, _, _ => gives_err
  | .sorted _ _, _, _, _, _ => gives_err

/-! ## Lists -/

theorem mapRes_gives {α β : Type} {f : α → Res β} {Q : β → Prop} : ∀ (xs : List α),
    (∀ x ∈ xs, Gives (f x) Q) → Gives (mapRes f xs) fun ys => ∀ y ∈ ys, Q y
  | [], _ => gives_ok (by simp)
  | x :: xs, h => by
    rw [mapRes]
    refine gives_bind (h x (by simp)) fun y hy => ?_
    refine gives_bind (mapRes_gives xs fun z hz => h z (by simp [hz])) fun ys hys => gives_ok ?_
    simpa using ⟨hy, hys⟩

theorem zipRes_gives {α : Type} {f : Obj → α → Res Obj} {Q : Obj → Prop} : ∀ (os : List Obj) (xs : List α),
    (∀ o ∈ os, Q o) → (∀ o x, x ∈ xs → Q o → Gives (f o x) Q) →
    Gives (zipRes f os xs) fun ys => ys.length = os.length ∧ ∀ y ∈ ys, Q y
  | os, [], ho, _ => by rw [zipRes]; exact gives_ok ⟨rfl, ho⟩
  | [], _ :: _, _, _ => by rw [zipRes]; exact gives_ub
  | o :: os, x :: xs, ho, h => by
    rw [zipRes]
    refine gives_bind (h o x (by simp) (ho o (by simp))) fun y hy => ?_
    refine gives_bind (zipRes_gives os xs (fun z hz => ho z (by simp [hz])) fun p z hz => h p z (by simp [hz]))
      fun ys hys => gives_ok ?_
    simpa using ⟨hys.1, hy, hys.2⟩

/-! ## Nodes -/

mutual
theorem pasteNode_proper (env : Env) : ∀ (ty : Ty) (old : Obj) (n : Node), ty.Ok → Proper ty old →
    Gives (pasteNode env ty old n) (Proper ty)
  | .vec e, old, .mk t vs ns, hok, ho => by
    simp only [pasteNode]
    have done : ∀ ys : List Obj, (∀ y ∈ ys, Proper e y) → Gives (.ok (.many ys)) (Proper (.vec e)) :=
      fun ys hys => gives_ok (by simpa only [Proper] using hys)
    split
    · exact gives_bind (mapRes_gives _ fun p _ => pasteNode_proper env e (dflt e) p.2 hok (dflt_proper e hok)) done
    · exact gives_bind (mapRes_gives _ fun p _ => pasteVal_proper env e (dflt e) p.2 hok (dflt_proper e hok)) done
  | .named e, old, .mk t vs ns, hok, ho => by
    simp only [pasteNode]
    have done : ∀ ys : List Obj, (∀ y ∈ ys, Entry (Proper e) y) → Gives (.ok (.many ys)) (Proper (.named e)) :=
      fun ys hys => gives_ok (by simpa only [Proper] using hys)
    split
    · exact gives_err
    split
    · refine gives_bind (mapRes_gives _ fun p _ => ?_) done
      exact gives_bind (pasteNode_proper env e (dflt e) p.2 hok (dflt_proper e hok)) fun y hy =>
        gives_ok ⟨p.1, y, rfl, hy⟩
    · refine gives_bind (mapRes_gives _ fun p _ => ?_) done
      exact gives_bind (pasteVal_proper env e (dflt e) p.2 hok (dflt_proper e hok)) fun y hy =>
        gives_ok ⟨p.1, y, rfl, hy⟩
  | .arr k e, old, .mk t vs ns, hok, ho => by
    cases old <;> simp only [Proper] at ho
    rename_i os
    simp only [pasteNode]
    split
    · split
      · exact gives_err
      · refine gives_bind (zipRes_gives os ns ho.2 fun o p _ h => pasteNode_proper env e o p.2 hok h)
          fun ys hys => gives_ok ?_
        simp only [Proper]
        exact ⟨hys.1.trans ho.1, hys.2⟩
    · split
      · exact gives_err
      · refine gives_bind (zipRes_gives os vs ho.2 fun o p _ h => pasteVal_proper env e o p.2 hok h)
          fun ys hys => gives_ok ?_
        simp only [Proper]
        exact ⟨hys.1.trans ho.1, hys.2⟩
  | .record _ st fs, old, .mk t vs ns, hok, ho => by
    cases old <;> simp only [Proper] at ho
    rename_i os
    simp only [pasteNode]
    split
    · exact gives_err
    · exact gives_bind (pasteFields_proper env fs os 0 0 vs ns hok.1 ho) fun ys hys =>
        gives_ok (by simpa only [Proper] using hys)
  | .ptr k e, old, n, hok, ho => by
    simp only [pasteNode]
    exact gives_bind (pasteNode_proper env e (dflt e) n hok (dflt_proper e hok)) fun o h =>
      gives_ok (by simpa only [Proper] using h)
  | .sorted b c, old, n, hok, ho => by
    simp only [pasteNode]
    refine gives_bind (pasteNode_proper env c (dflt c) n hok.1 (dflt_proper c hok.1)) fun o h =>
      gives_ok ?_
    simp only [Proper]
    exact collect_proper hok.2 h
  | .bool, _, _, _, _ => by unfold pasteNode; exact gives_ub
  | .int _, _, _, _, _ => by unfold pasteNode; exact gives_ub
  | .float, _, _, _, _ => by unfold pasteNode; exact gives_ub
  | .double, _, _, _, _ => by unfold pasteNode; exact gives_ub
  | .str, _, _, _, _ => by unfold pasteNode; exact gives_ub
  | .bytes, _, _, _, _ => by unfold pasteNode; exact gives_ub
theorem pasteFields_proper (env : Env) : ∀ (fs : Fields) (os : List Obj) (ni vi : Nat)
    (vs : List (Bytes × Val)) (ns : List (Bytes × Node)), fs.Ok → ProperL fs os →
    Gives (pasteFields env fs os ni vi vs ns) (ProperL fs)
  | .nil, os, ni, vi, vs, ns, _, _ => by simp only [pasteFields]; exact gives_ok trivial
  | .cons _ _ _ _, [], _, _, _, _, _, h => by simp only [ProperL] at h
  | .cons name opt ty rest, o :: os, ni, vi, vs, ns, hok, h => by
    simp only [ProperL] at h
    obtain ⟨h1, h2⟩ := h
    have keep : ∀ ni vi, Gives (pasteFields env rest os ni vi vs ns >>= fun ys => .ok (o :: ys))
        (ProperL (.cons name opt ty rest)) := fun ni vi =>
      gives_bind (pasteFields_proper env rest os ni vi vs ns hok.2 h2) fun ys hys =>
        gives_ok (by simp only [ProperL]; exact ⟨h1, hys⟩)
    have next : ∀ y, Proper ty y → ∀ ni vi,
        Gives (pasteFields env rest os ni vi vs ns >>= fun ys => .ok (y :: ys))
        (ProperL (.cons name opt ty rest)) := fun y hy ni vi =>
      gives_bind (pasteFields_proper env rest os ni vi vs ns hok.2 h2) fun ys hys =>
        gives_ok (by simp only [ProperL]; exact ⟨hy, hys⟩)
    simp only [pasteFields]
    split
    · split
      · exact keep _ _
      · exact Gives.bind fun n _ => gives_bind (pasteNode_proper env ty o n hok.1 h1) fun y hy => next y hy _ _
    · split
      · exact keep _ _
      · exact Gives.bind fun v _ => gives_bind (pasteVal_proper env ty o v hok.1 h1) fun y hy => next y hy _ _
end

/-! ## While reading -/

variable {σ : Type} {read : σ → Res (Event × σ)}

theorem vecNodes_gives {total : Nat} {f : Bytes × LNode → σ → Res (Obj × σ)} {Q : Obj → Prop}
    (h : ∀ c s, Gives (f c s) fun x => Q x.1) : ∀ (fuel : Nat) (n : LNode) (s : σ),
    Gives (vecNodes read total f fuel n s) fun x => ∀ y ∈ x.1, Q y
  | 0, _, _ => gives_fuel
  | fuel + 1, n, s => by
    rw [vecNodes]
    refine Gives.bind ?_
    rintro ⟨c, n', s'⟩ -
    simp only
    split
    · exact gives_ok (by simp)
    · cases c with
      | none => exact gives_ub
      | some c =>
        simp only
        refine gives_bind (h c s') ?_
        rintro ⟨y, s2⟩ hy
        refine gives_bind (vecNodes_gives h fuel n' s2) ?_
        rintro ⟨ys, n3, s3⟩ hys
        exact gives_ok (by simpa using ⟨hy, hys⟩)

theorem vecValues_gives {total : Nat} {f : Bytes × Val → Res Obj} {Q : Obj → Prop}
    (h : ∀ v, Gives (f v) Q) : ∀ (fuel : Nat) (n : LNode) (s : σ),
    Gives (vecValues read total f fuel n s) fun x => ∀ y ∈ x.1, Q y
  | 0, _, _ => gives_fuel
  | fuel + 1, n, s => by
    rw [vecValues]
    refine Gives.bind ?_
    rintro ⟨c, n', s'⟩ -
    simp only
    split
    · exact gives_ok (by simp)
    · cases c with
      | none => exact gives_ub
      | some c =>
        simp only
        refine gives_bind (h c) fun y hy => ?_
        refine gives_bind (vecValues_gives h fuel n' s') ?_
        rintro ⟨ys, n3, s3⟩ hys
        exact gives_ok (by simpa using ⟨hy, hys⟩)

theorem arrNodes_gives {total : Nat} {f : Obj → LNode → σ → Res (Obj × σ)} {Q : Obj → Prop}
    (h : ∀ o c s, Q o → Gives (f o c s) fun x => Q x.1) : ∀ (os : List Obj) (n : LNode) (s : σ),
    (∀ o ∈ os, Q o) →
    Gives (arrNodes read total f os n s) fun x => x.1.length = os.length ∧ ∀ y ∈ x.1, Q y
  | [], n, s, _ => by rw [arrNodes]; exact gives_ok ⟨rfl, by simp⟩
  | o :: os, n, s, ho => by
    rw [arrNodes]
    split
    · exact gives_err
    · refine Gives.bind ?_
      rintro ⟨c, n', s'⟩ -
      cases c with
      | none => exact gives_err
      | some c =>
        simp only
        refine gives_bind (h o c.2 s' (ho o (by simp))) ?_
        rintro ⟨y, s2⟩ hy
        refine gives_bind (arrNodes_gives h os n' s2 fun z hz => ho z (by simp [hz])) ?_
        rintro ⟨ys, n3, s3⟩ hys
        exact gives_ok (by simpa using ⟨hys.1, hy, hys.2⟩)

theorem arrValues_gives {total : Nat} {f : Obj → Val → Res Obj} {Q : Obj → Prop}
    (h : ∀ o v, Q o → Gives (f o v) Q) : ∀ (os : List Obj) (n : LNode) (s : σ),
    (∀ o ∈ os, Q o) →
    Gives (arrValues read total f os n s) fun x => x.1.length = os.length ∧ ∀ y ∈ x.1, Q y
  | [], n, s, _ => by rw [arrValues]; exact gives_ok ⟨rfl, by simp⟩
  | o :: os, n, s, ho => by
    rw [arrValues]
    split
    · exact gives_err
    · refine Gives.bind ?_
      rintro ⟨c, n', s'⟩ -
      cases c with
      | none => exact gives_err
      | some c =>
        simp only
        refine gives_bind (h o c.2 (ho o (by simp))) fun y hy => ?_
        refine gives_bind (arrValues_gives h os n' s' fun z hz => ho z (by simp [hz])) ?_
        rintro ⟨ys, n3, s3⟩ hys
        exact gives_ok (by simpa using ⟨hys.1, hy, hys.2⟩)

mutual
theorem paste_proper (env : Env) (read : σ → Res (Event × σ)) (fuel : Nat) : ∀ (ty : Ty) (old : Obj) (n : LNode)
    (s : σ), ty.Ok → Proper ty old → Gives (paste env read fuel ty old n s) fun x => Proper ty x.1
  | .vec e, old, n, s, hok, ho => by
    simp only [paste]
    split
    · exact gives_bind (pasteNode_proper env (.vec e) old _ hok ho) fun o h => gives_ok h
    · split
      · refine gives_bind (vecNodes_gives (Q := Proper e) (fun c s => ?_) fuel n s) ?_
        · refine gives_bind (paste_proper env read fuel e (dflt e) c.2 s hok (dflt_proper e hok)) ?_
          rintro ⟨y, c', s'⟩ hy
          exact Gives.bind fun _ _ => gives_ok hy
        · rintro ⟨ys, n', s'⟩ hys
          exact gives_ok (by simpa only [Proper] using hys)
      · refine gives_bind (vecValues_gives (Q := Proper e)
          (fun v => pasteVal_proper env e (dflt e) v.2 hok (dflt_proper e hok)) fuel n s) ?_
        rintro ⟨ys, n', s'⟩ hys
        exact gives_ok (by simpa only [Proper] using hys)
  | .named e, old, n, s, hok, ho => by
    simp only [paste]
    split
    · exact gives_err
    split
    · exact gives_bind (pasteNode_proper env (.named e) old _ hok ho) fun o h => gives_ok h
    · split
      · refine gives_bind (vecNodes_gives (Q := Entry (Proper e)) (fun c s => ?_) fuel n s) ?_
        · refine gives_bind (paste_proper env read fuel e (dflt e) c.2 s hok (dflt_proper e hok)) ?_
          rintro ⟨y, c', s'⟩ hy
          exact Gives.bind fun _ _ => gives_ok ⟨c.1, y, rfl, hy⟩
        · rintro ⟨ys, n', s'⟩ hys
          exact gives_ok (by simpa only [Proper] using hys)
      · refine gives_bind (vecValues_gives (Q := Entry (Proper e)) (fun v => ?_) fuel n s) ?_
        · exact gives_bind (pasteVal_proper env e (dflt e) v.2 hok (dflt_proper e hok)) fun y hy =>
            gives_ok ⟨v.1, y, rfl, hy⟩
        · rintro ⟨ys, n', s'⟩ hys
          exact gives_ok (by simpa only [Proper] using hys)
  | .arr k e, old, n, s, hok, ho => by
    have ho' := ho
    cases old <;> simp only [Proper] at ho
    rename_i os
    simp only [paste]
    split
    · exact gives_bind (pasteNode_proper env (.arr k e) (.many os) _ hok ho') fun o h => gives_ok h
    · split
      · refine gives_bind (arrNodes_gives (Q := Proper e) (fun o c s h => ?_) os n s ho.2) ?_
        · refine gives_bind (paste_proper env read fuel e o c s hok h) ?_
          rintro ⟨y, c', s'⟩ hy
          exact Gives.bind fun _ _ => gives_ok hy
        · rintro ⟨ys, n', s'⟩ hys
          refine gives_ok ?_
          simp only [Proper]
          exact ⟨hys.1.trans ho.1, hys.2⟩
      · refine gives_bind (arrValues_gives (Q := Proper e)
          (fun o v h => pasteVal_proper env e o v hok h) os n s ho.2) ?_
        rintro ⟨ys, n', s'⟩ hys
        refine gives_ok ?_
        simp only [Proper]
        exact ⟨hys.1.trans ho.1, hys.2⟩
  | .record _ st fs, old, n, s, hok, ho => by
    cases old <;> simp only [Proper] at ho
    rename_i os
    simp only [paste]
    split
    · exact gives_err
    · refine gives_bind (pasteMembers_proper env read fuel fs os 0 0 n s hok.1 ho) ?_
      rintro ⟨ys, n', s'⟩ hys
      exact gives_ok (by simpa only [Proper] using hys)
  | .ptr k e, old, n, s, hok, ho => by
    simp only [paste]
    refine gives_bind (paste_proper env read fuel e (dflt e) n s hok (dflt_proper e hok)) ?_
    rintro ⟨o, n', s'⟩ h
    exact gives_ok (by simpa only [Proper] using h)
  | .sorted b c, old, n, s, hok, ho => by
    simp only [paste]
    refine gives_bind (paste_proper env read fuel c (dflt c) n s hok.1 (dflt_proper c hok.1)) ?_
    rintro ⟨o, n', s'⟩ h
    refine gives_ok ?_
    simp only [Proper]
    exact collect_proper hok.2 h
  | .bool, _, _, _, _, _ => by unfold paste; exact gives_ub
  | .int _, _, _, _, _, _ => by unfold paste; exact gives_ub
  | .float, _, _, _, _, _ => by unfold paste; exact gives_ub
  | .double, _, _, _, _, _ => by unfold paste; exact gives_ub
  | .str, _, _, _, _, _ => by unfold paste; exact gives_ub
  | .bytes, _, _, _, _, _ => by unfold paste; exact gives_ub
theorem pasteMembers_proper (env : Env) (read : σ → Res (Event × σ)) (fuel : Nat) : ∀ (fs : Fields)
    (os : List Obj) (ni vi : Nat) (n : LNode) (s : σ), fs.Ok → ProperL fs os →
    Gives (pasteMembers env read fuel fs os ni vi n s) fun x => ProperL fs x.1
  | .nil, os, ni, vi, n, s, _, _ => by simp only [pasteMembers]; exact gives_ok trivial
  | .cons _ _ _ _, [], _, _, _, _, _, h => by simp only [ProperL] at h
  | .cons name opt ty rest, o :: os, ni, vi, n, s, hok, h => by
    simp only [ProperL] at h
    obtain ⟨h1, h2⟩ := h
    have next : ∀ y, Proper ty y → ∀ ni vi n s,
        Gives (pasteMembers env read fuel rest os ni vi n s >>= fun x => .ok (y :: x.1, x.2.1, x.2.2))
        fun x => ProperL (.cons name opt ty rest) x.1 := fun y hy ni vi n s =>
      gives_bind (pasteMembers_proper env read fuel rest os ni vi n s hok.2 h2) fun x hx =>
        gives_ok (by simp only [ProperL]; exact ⟨hy, hx⟩)
    simp only [pasteMembers]
    refine Gives.bind ?_
    rintro ⟨here, n1, s1⟩ -
    simp only
    split
    · exact next o h1 _ _ _ _
    split
    · split
      · exact Gives.bind fun c _ => gives_bind (pasteNode_proper env ty o c hok.1 h1) fun y hy => next y hy _ _ _ _
      · refine Gives.bind ?_
        rintro ⟨c, n2, s2⟩ -
        cases c with
        | none => exact gives_err
        | some c =>
          simp only
          refine gives_bind (paste_proper env read fuel ty o c.2 s2 hok.1 h1) ?_
          rintro ⟨y, c', s3⟩ hy
          exact Gives.bind fun _ _ => next y hy _ _ _ _
    · split
      · exact Gives.bind fun v _ => gives_bind (pasteVal_proper env ty o v hok.1 h1) fun y hy => next y hy _ _ _ _
      · refine Gives.bind ?_
        rintro ⟨c, n2, s2⟩ -
        cases c with
        | none => exact gives_err
        | some v =>
          exact gives_bind (pasteVal_proper env ty o v.2 hok.1 h1) fun y hy => next y hy _ _ _ _
end

theorem restore_proper (env : Env) (read : σ → Res (Event × σ)) (fuel : Nat) (ty : Ty) (old : Obj) (s : σ)
    (hok : ty.Ok) (ho : Proper ty old) : Gives (restore env read fuel ty old s) fun x => Proper ty x.1 := by
  unfold restore
  refine Gives.bind ?_
  rintro ⟨e, s1⟩ -
  simp only
  split
  · split
    · refine gives_bind (paste_proper env read fuel ty old _ s1 hok ho) ?_
      rintro ⟨o, n, s2⟩ h
      exact gives_ok h
    · refine Gives.bind ?_
      rintro ⟨c, n, s2⟩ -
      cases c with
      | none => exact gives_err
      | some v => exact gives_bind (pasteVal_proper env ty old v.2 hok ho) fun o h => gives_ok h
  · exact gives_err

theorem loadUnwrap_proper (env : Env) (read : σ → Res (Event × σ)) (fuel : Nat) (ty : Ty) (old : Obj) (s : σ)
    (hok : ty.Ok) (ho : Proper ty old) : Gives (loadUnwrap env read fuel ty old s) (Proper ty) := by
  unfold loadUnwrap unwrap
  refine Gives.bind ?_
  rintro ⟨r, s1⟩ -
  simp only
  split
  · exact pasteNode_proper env ty old _ hok ho
  · split
    exact Gives.bind fun v _ => pasteVal_proper env ty old v hok ho

end Srl.Proper
