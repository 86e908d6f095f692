import Verif.Lemmas.Shared

/-! Restoring shared pointers from what was stored. -/

namespace Srl.Shared
open Typed Doc
open HTable (Cfg Tbl)

/-! ## Copies -/

def valm (m : Nat → Option Nat) (a : Nat) : Nat := (m a).getD 0

/-- Entries are added only. -/
def Ext (m m' : Nat → Option Nat) : Prop := ∀ a x, m a = some x → m' a = some x

theorem Ext.refl (m : Nat → Option Nat) : Ext m m := fun _ _ h => h

theorem Ext.trans {m1 m2 m3 : Nat → Option Nat} (h : Ext m1 m2) (h' : Ext m2 m3) : Ext m1 m3 :=
  fun a x e => h' a x (h a x e)

mutual
theorem relabel_congr {f g : Nat → Nat} : ∀ (ty : GTy) (o : Obj),
    (∀ r ∈ refs ty o, f r.2 = g r.2) → relabel f ty o = relabel g ty o
  | .plain _, _, _ => by simp only [relabel]
  | .vec e, o, h => by
    cases o <;> simp only [relabel]
    rename_i xs
    congr 1
    apply List.map_congr_left
    intro x hx
    exact relabel_congr e x (fun r hr => h r (by
      simp only [refs, List.mem_flatMap]
      exact ⟨x, hx, hr⟩))
  | .record fs, o, h => by
    cases o <;> simp only [relabel]
    rename_i xs
    rw [relabelL_congr fs xs (fun r hr => h r (by simpa only [refs] using hr))]
  | .shared w c, o, h => by
    cases o with
    | ref o =>
      cases o with
      | int v =>
        cases v with
        | ofNat a =>
          simp only [relabel]
          rw [h (c, a) (by simp [refs])]
        | negSucc a => simp only [relabel]
      | _ => simp only [relabel]
    | _ => simp only [relabel]
theorem relabelL_congr {f g : Nat → Nat} : ∀ (fs : GFields) (xs : List Obj),
    (∀ r ∈ refsL fs xs, f r.2 = g r.2) → relabelL f fs xs = relabelL g fs xs
  | .nil, _, _ => by simp only [relabelL]
  | .cons _ ty rest, xs, h => by
    cases xs with
    | nil => simp only [relabelL]
    | cons x xs =>
      simp only [refsL, List.mem_append] at h
      simp only [relabelL]
      rw [relabel_congr ty x (fun r hr => h r (.inl hr)),
        relabelL_congr rest xs (fun r hr => h r (.inr hr))]
end

/-- `y` is the copy of `o`, all of whose pointers have been restored. -/
def Done (m : Nat → Option Nat) (ty : GTy) (o y : Obj) : Prop :=
  y = relabel (valm m) ty o ∧ ∀ r ∈ refs ty o, (m r.2).isSome

theorem Done.mono {m m' : Nat → Option Nat} {ty : GTy} {o y : Obj} (h : Done m ty o y)
    (he : Ext m m') : Done m' ty o y := by
  obtain ⟨h1, h2⟩ := h
  have key : ∀ r ∈ refs ty o, ∃ x, m r.2 = some x ∧ m' r.2 = some x := by
    intro r hr
    obtain ⟨x, hx⟩ := Option.isSome_iff_exists.mp (h2 r hr)
    exact ⟨x, hx, he _ _ hx⟩
  refine ⟨?_, fun r hr => ?_⟩
  · rw [h1]
    apply relabel_congr
    intro r hr
    obtain ⟨x, hx, hx'⟩ := key r hr
    simp [valm, hx, hx']
  · obtain ⟨x, -, hx⟩ := key r hr
    simp [hx]

/-! ## The state of restoring -/

/-- The objects `seen` have been met, `opn` of them are not yet complete, `m` gives the others. -/
structure RInv (cfg : Cfg Nat) (C : Nat → GTy) (G : Graph) (opn seen : List Nat)
    (m : Nat → Option Nat) (st : Objs) : Prop where
  tab : Tab cfg st.table (fun k => (seen[k]?).bind m)
  nodup : seen.Nodup
  dom : ∀ a x, m a = some x → a ∈ seen ∧ a ∉ opn
  all : ∀ a ∈ seen, a ∉ opn → ∃ x, m a = some x
  heap : ∀ a x, m a = some x → ∃ o, st.heap[x]? = some (G.cls a, o) ∧
    Done m (C (G.cls a)) (G.obj a) o
  inj : ∀ a b x, m a = some x → m b = some x → a = b
  onto : ∀ x, x < st.heap.length → ∃ a, m a = some x

theorem rinv_new (cfg : Cfg Nat) (C : Nat → GTy) (G : Graph) :
    RInv cfg C G [] [] (fun _ => none) Objs.new where
  tab := by
    have := tab_new cfg 16
    simpa [Objs.new] using this
  nodup := List.nodup_nil
  dom := by simp
  all := by simp
  heap := by simp
  inj := by simp
  onto := by simp [Objs.new]

/-- An object is met for the first time. -/
theorem rinv_open {cfg : Cfg Nat} {C : Nat → GTy} {G : Graph} {opn seen : List Nat}
    {m : Nat → Option Nat} {st : Objs} (h : RInv cfg C G opn seen m st) {a : Nat} (ha : a ∉ seen) :
    RInv cfg C G (a :: opn) (seen ++ [a]) m st where
  tab := by
    have hm : m a = none := by
      cases hm : m a with
      | none => rfl
      | some x => exact absurd (h.dom a x hm).1 ha
    have : (fun (k : Nat) => ((seen ++ [a])[k]?).bind m) = (fun k => (seen[k]?).bind m) := by
      funext k
      rw [List.getElem?_append]
      split
      · rfl
      · rename_i hk
        rw [List.getElem?_eq_none (l := seen) (by omega)]
        cases hx : [a][k - seen.length]? with
        | none => rfl
        | some b =>
          have := List.mem_of_getElem? hx
          simp only [List.mem_singleton] at this
          subst this
          simp [hm]
    rw [this]
    exact h.tab
  nodup := by
    rw [List.nodup_append]
    exact ⟨h.nodup, by simp, by rintro x hx y hy rfl; simp at hy; exact ha (hy ▸ hx)⟩
  dom := by
    intro b x hb
    obtain ⟨h1, h2⟩ := h.dom b x hb
    refine ⟨by simp [h1], fun hc => ?_⟩
    rcases List.mem_cons.mp hc with rfl | hc
    · exact ha h1
    · exact h2 hc
  all := by
    intro b hb hn
    simp only [List.mem_cons, not_or] at hn
    simp only [List.mem_append, List.mem_singleton] at hb
    rcases hb with hb | rfl
    · exact h.all b hb hn.2
    · exact absurd rfl hn.1
  heap := h.heap
  inj := h.inj
  onto := h.onto

/-- The object is complete. -/
theorem rinv_close {cfg : Cfg Nat} {C : Nat → GTy} {G : Graph} {opn seen : List Nat}
    {m : Nat → Option Nat} {st : Objs} {a k : Nat} {y : Obj} (h : RInv cfg C G (a :: opn) seen m st)
    (hk : seen[k]? = some a) (ha : a ∉ opn) (hy : Done m (C (G.cls a)) (G.obj a) y) :
    ∃ table p, HTable.insert cfg st.table k st.heap.length = .ok (table, p) ∧
      ∃ m', Ext m m' ∧ m' a = some st.heap.length ∧
        RInv cfg C G opn seen m' ⟨table, st.heap ++ [(G.cls a, y)]⟩ := by
  have hm : m a = none := by
    cases hm : m a with
    | none => rfl
    | some x => exact absurd (List.mem_cons_self ..) (h.dom a x hm).2
  obtain ⟨table, x, p, w, h1, h2⟩ := tab_insert h.tab k st.heap.length
  refine ⟨table, _, h1, fun b => if b = a then some st.heap.length else m b, ?_, by simp, ?_⟩
  · intro b z hb
    have : b ≠ a := by rintro rfl; rw [hm] at hb; cases hb
    simp [this, hb]
  have hext : Ext m (fun b => if b = a then some st.heap.length else m b) := by
    intro b z hb
    have : b ≠ a := by rintro rfl; rw [hm] at hb; cases hb
    simp [this, hb]
  have hlt : ∀ b z, m b = some z → z < st.heap.length := by
    intro b z hb
    obtain ⟨o, ho, -⟩ := h.heap b z hb
    exact (List.getElem?_eq_some_iff.mp ho).1
  rcases h2 with ⟨-, -, -, ht, -⟩ | ⟨-, hs, -⟩
  · refine ⟨?_, h.nodup, ?_, ?_, ?_, ?_, ?_⟩
    · have : (fun (j : Nat) => if j = k then some st.heap.length else (seen[j]?).bind m)
          = (fun j => (seen[j]?).bind (fun b => if b = a then some st.heap.length else m b)) := by
        funext j
        by_cases hj : j = k
        · subst hj
          simp [hk]
        · rw [if_neg hj]
          cases hb : seen[j]? with
          | none => rfl
          | some b =>
            have : b ≠ a := by
              rintro rfl
              obtain ⟨hj1, hj2⟩ := List.getElem?_eq_some_iff.mp hb
              obtain ⟨hk1, hk2⟩ := List.getElem?_eq_some_iff.mp hk
              exact hj ((List.getElem_inj h.nodup).mp (hj2.trans hk2.symm))
            simp [this]
      rw [← this]
      exact ht
    · intro b z hb
      by_cases hba : b = a
      · subst hba
        exact ⟨List.mem_of_getElem? hk, ha⟩
      · simp only [hba, if_false] at hb
        obtain ⟨g1, g2⟩ := h.dom b z hb
        exact ⟨g1, fun hc => g2 (by simp [hc])⟩
    · intro b hb hn
      by_cases hba : b = a
      · exact ⟨st.heap.length, by simp [hba]⟩
      · obtain ⟨z, hz⟩ := h.all b hb (by simp [hba, hn])
        exact ⟨z, by simp [hba, hz]⟩
    · intro b z hb
      by_cases hba : b = a
      · subst hba
        simp only [if_true, Option.some.injEq] at hb
        subst hb
        exact ⟨y, List.getElem?_concat_length .., hy.mono hext⟩
      · simp only [hba, if_false] at hb
        obtain ⟨o, g1, g2⟩ := h.heap b z hb
        refine ⟨o, ?_, g2.mono hext⟩
        rw [List.getElem?_append_left (hlt b z hb)]
        exact g1
    · intro b c z hb hc
      by_cases hba : b = a <;> by_cases hca : c = a
      · rw [hba, hca]
      · simp only [hba, if_true, Option.some.injEq] at hb
        simp only [hca, if_false] at hc
        have := hlt c z hc
        omega
      · simp only [hca, if_true, Option.some.injEq] at hc
        simp only [hba, if_false] at hb
        have := hlt b z hb
        omega
      · simp only [hba, if_false] at hb
        simp only [hca, if_false] at hc
        exact h.inj b c z hb hc
    · intro z hz
      simp only [List.length_append, List.length_singleton] at hz
      by_cases hze : z = st.heap.length
      · exact ⟨a, by simp [hze]⟩
      · obtain ⟨b, hb⟩ := h.onto z (by omega)
        exact ⟨b, hext b z hb⟩
  · simp [hk, hm] at hs

/-! ## Fields of a scope, loaded or while reading -/

variable {σ : Type}

/-- A node whose content `items` has been read, or lies ahead. -/
def Start (read : σ → Res (Event × σ)) (t : ScopeTy) (items : List Item) (n : LNode) (s s' : σ) :
    Prop :=
  (n = .fresh t ∧ Left read items s s') ∨ (n = whole (nodeOf t items) ∧ s' = s)

/-- The same, with some of the fields asked for already. -/
def Pos (read : σ → Res (Event × σ)) (t : ScopeTy) (items : List Item) (n : LNode) (s s' : σ) : Prop :=
  (n = .fresh t ∧ Left read items s s') ∨
  (∃ pre, n = whole (nodeOf t (pre ++ items)) ∧ s' = s ∧
    ∀ i ∈ pre, ∀ j ∈ items, itemName i ≠ itemName j)

theorem Start.pos {read : σ → Res (Event × σ)} {t : ScopeTy} {items : List Item} {n : LNode} {s s' : σ}
    (h : Start read t items n s s') : Pos read t items n s s' := by
  rcases h with h | ⟨h1, h2⟩
  · exact .inl h
  · exact .inr ⟨[], by simpa using h1, h2, by simp⟩

theorem whole_eq (t : ScopeTy) (items : List Item) :
    whole (nodeOf t items) = ⟨t, valuesOf items, nodesOf items, true⟩ := by
  simp only [whole, contentL_eq]

theorem Pos.end {read : σ → Res (Event × σ)} {t : ScopeTy} {items : List Item} {n : LNode} {s s' : σ}
    (h : Pos read t items n s s') {total : Nat} (ht : 0 < total) (hi : items = []) :
    finish read total n s = .ok s' := by
  subst hi
  rcases h with ⟨rfl, h⟩ | ⟨pre, rfl, rfl, -⟩
  · exact finish_end ht h
  · simp [finish, whole_eq]

theorem Pos.same {read : σ → Res (Event × σ)} {t : ScopeTy} {items : List Item} {n : LNode} {s s' : σ}
    (h : Pos read t items n s s') (hp : n.parsed = true) : s' = s := by
  rcases h with ⟨rfl, h⟩ | ⟨pre, -, h, -⟩
  · simp [LNode.fresh] at hp
  · exact h

theorem field_scope {read : σ → Res (Event × σ)} {t t' : ScopeTy} {nm : Bytes} {kids post : List Item}
    {n : LNode} {s s' : σ} (h : Pos read t (.scope nm t' kids :: post) n s s') {total : Nat}
    (ht : 0 < total) (hp : ∀ j ∈ post, nm ≠ itemName j) :
    ∃ c s1 s2, Start read t' kids c s1 s2 ∧ Pos read t post n s2 s' ∧
      (n.parsed = true → s1 = s) ∧
      ∀ (f : LNode → σ × Objs → Res (Obj × LNode × σ × Objs)) (g : Val → Res Obj) (st : Objs) y c' s3 st',
        f c (s1, st) = .ok (y, c', s3, st') → finish read total c' s3 = .ok s2 →
        (c.parsed = true → s3 = s1) →
        pasteField read total true (.name nm) f g n (s, st) = .ok (y, n, s2, st') := by
  rcases h with ⟨rfl, h⟩ | ⟨pre, rfl, rfl, h⟩
  · obtain ⟨s1, s2, h1, h2, h3⟩ := consumeNode_first (sel := .name nm) (t := t) ht
      (by simp [Sel.hits]) h
    refine ⟨.fresh t', s1, s2, .inl ⟨rfl, h2⟩, .inl ⟨rfl, h3⟩, by simp [LNode.fresh], ?_⟩
    intro f g st y c' s3 st' hf hfin _
    simp only [pasteField, if_true]
    rw [if_neg (fresh_parsed _)]
    simp only [h1, Res.ok_bind, hf, hfin]
  · refine ⟨whole (nodeOf t' kids), s', s', .inr ⟨rfl, rfl⟩, .inr ⟨pre ++ [.scope nm t' kids], ?_, rfl, ?_⟩,
      fun _ => rfl, ?_⟩
    · simp
    · intro i hi j hj
      rcases List.mem_append.mp hi with hi | hi
      · exact h i hi j (by simp [hj])
      · simp only [List.mem_singleton] at hi
        subst hi
        exact hp j hj
    · intro f g st y c' s3 st' hf _ hs
      have hs3 := hs (by simp [whole])
      subst hs3
      simp only [pasteField, if_true, whole_eq, nodesOf_append, nodesOf_scope, lookup_name,
        findName_append]
      rw [findName_none (nm := nm) (xs := nodesOf pre) (by
        intro x hx
        obtain ⟨t2, k2, hm⟩ := mem_nodesOf hx
        exact h _ hm _ (List.mem_cons_self ..))]
      simp only [findName, beq_self_eq_true, if_true, Option.none_or, Res.ok_bind, hf]

theorem field_value {read : σ → Res (Event × σ)} {t : ScopeTy} {nm : Bytes} {v : Val}
    {post : List Item} {n : LNode} {s s' : σ} (h : Pos read t (.val nm v :: post) n s s') {total : Nat}
    (ht : 0 < total) (hp : ∀ j ∈ post, nm ≠ itemName j) :
    ∃ s2, Pos read t post n s2 s' ∧ (n.parsed = true → s2 = s) ∧
      ∀ (f : LNode → σ × Objs → Res (Obj × LNode × σ × Objs)) (g : Val → Res Obj) (st : Objs) y,
        g v = .ok y → pasteField read total false (.name nm) f g n (s, st) = .ok (y, n, s2, st) := by
  rcases h with ⟨rfl, h⟩ | ⟨pre, rfl, rfl, h⟩
  · obtain ⟨s1, h1, h2⟩ := consumeValue_first (sel := .name nm) (t := t) ht
      (by simp [Sel.hits]) h
    refine ⟨s1, .inl ⟨rfl, h2⟩, by simp [LNode.fresh], ?_⟩
    intro f g st y hg
    simp only [pasteField, Bool.false_eq_true, if_false]
    rw [if_neg (fresh_parsed _)]
    simp only [h1, Res.ok_bind, hg]
  · refine ⟨s', .inr ⟨pre ++ [.val nm v], ?_, rfl, ?_⟩, fun _ => rfl, ?_⟩
    · simp
    · intro i hi j hj
      rcases List.mem_append.mp hi with hi | hi
      · exact h i hi j (by simp [hj])
      · simp only [List.mem_singleton] at hi
        subst hi
        exact hp j hj
    · intro f g st y hg
      simp only [pasteField, Bool.false_eq_true, if_false, whole_eq, if_true, valuesOf_append,
        valuesOf_val, lookup_name, findName_append]
      rw [findName_none (nm := nm) (xs := valuesOf pre) (by
        intro x hx
        exact h _ (mem_valuesOf hx) _ (List.mem_cons_self ..))]
      simp only [findName, beq_self_eq_true, if_true, Option.none_or, Res.ok_bind, hg]

/-! ## Restoring -/

mutual
theorem dfltG_wt : ∀ ty : GTy, WT ty (dfltG ty)
  | .plain ty => by simp only [WT, dfltG]; exact dflt_wt ty
  | .vec _ => by simp only [WT]
  | .record fs => by
    simp only [WT, dfltG]
    exact ⟨_, rfl, dfltGL_wt fs⟩
  | .shared _ _ => by simp only [WT]
theorem dfltGL_wt : ∀ fs : GFields, WTL fs (dfltGL fs)
  | .nil => by simp only [WTL]
  | .cons _ ty rest => by
    simp only [WTL, dfltGL]
    exact ⟨_, _, rfl, dfltG_wt ty, dfltGL_wt rest⟩
end

/-- Whether an item is stored as a scope. -/
theorem doc_scope {C : Nat → GTy} {G : Graph} {seen seen' : List Nat} {ty : GTy} {nm : Bytes} {o : Obj}
    {it : Item} (h : DocI C G seen ty nm o it seen') (hs : ty.isScope = true) :
    ∃ kids, it = .scope nm ty.scopeTy kids := by
  cases h with
  | plain hst =>
    simp only [GTy.isScope] at hs
    exact ⟨_, stored_scope _ _ hst hs nm⟩
  | vec _ => exact ⟨_, rfl⟩
  | record _ => exact ⟨_, rfl⟩
  | known _ _ => exact ⟨_, rfl⟩
  | new _ _ _ => exact ⟨_, rfl⟩

theorem doc_name {C : Nat → GTy} {G : Graph} {seen seen' : List Nat} {ty : GTy} {nm : Bytes} {o : Obj}
    {it : Item} (h : DocI C G seen ty nm o it seen') : itemName it = nm := by
  by_cases hs : ty.isScope = true
  · obtain ⟨kids, rfl⟩ := doc_scope h hs
    rfl
  · cases h with
    | plain hst =>
      simp only [GTy.isScope] at hs
      obtain ⟨v, h2, -⟩ := stored_value _ _ hst (by simpa using hs)
      rw [h2]
      rfl
    | _ => simp [GTy.isScope] at hs

theorem norm_name (nv : Val → Val) (i : Item) : itemName (Norm.item nv true i) = itemName i := by
  cases i <;> simp [Norm.item, itemName]

theorem finish_whole (read : σ → Res (Event × σ)) (total : Nat) (x : Node) (s : σ) :
    finish read total (whole x) s = .ok s := by
  cases x; simp [finish, whole]

/-- What restoring one object gives: `s'` is behind its scope. -/
def Restores (cfg : Cfg Nat) (C : Nat → GTy) (G : Graph) (read : σ → Res (Event × σ)) (total : Nat)
    (run : LNode → σ × Objs → Res (Obj × LNode × σ × Objs)) (opn seen' : List Nat)
    (m : Nat → Option Nat) (st : Objs) (ty : GTy) (o : Obj) (n : LNode) (s s' : σ) : Prop :=
  ∃ y n' s1 st' m', run n (s, st) = .ok (y, n', s1, st') ∧ finish read total n' s1 = .ok s' ∧
    (n.parsed = true → s1 = s) ∧ RInv cfg C G opn seen' m' st' ∧ Ext m m' ∧ Done m' ty o y

section restoring
variable {nv : Val → Val} (hk : Keeps nv) (cfg : Cfg Nat) (env : Env) {C : Nat → GTy} {G : Graph}
  (hC : ∀ c, (C c).Ok) (rank : Nat → Nat)
  (hr : ∀ a, ∀ r ∈ refs (C (G.cls a)) (G.obj a), rank r.2 < rank a)
  (read : σ → Res (Event × σ)) (total : Nat)

/-- The claim for objects of which less than `f` tokens remain. -/
def Claim (nv : Val → Val) (cfg : Cfg Nat) (env : Env) (C : Nat → GTy) (G : Graph) (rank : Nat → Nat)
    (read : σ → Res (Event × σ)) (total f : Nat) : Prop :=
  ∀ (ty : GTy) (nm : Bytes) (o : Obj) (kids : List Item) (seen seen' : List Nat),
    DocI C G seen ty nm o (.scope nm ty.scopeTy kids) seen' → ty.Ok → ty.isScope = true →
    ∀ (old : Obj), WT ty old → ∀ (opn : List Nat) (r : Nat) (m : Nat → Option Nat) (st : Objs),
    RInv cfg C G opn seen m st → (∀ x ∈ refs ty o, rank x.2 < r) → (∀ b ∈ opn, r ≤ rank b) →
    (Item.eventsL (Norm.items nv (ty.scopeTy == .object) kids)).length < f → f ≤ total →
    ∀ (n : LNode) (s s' : σ),
    Start read ty.scopeTy (Norm.items nv (ty.scopeTy == .object) kids) n s s' →
    Restores cfg C G read total (paste cfg env C read total f ty old) opn seen' m st ty o n s s'

/-- The same for a member, which may be a value. -/
theorem member_stored (hk : Keeps nv) {f : Nat}
    (ih : Claim nv cfg env C G rank read total f) (ht : 0 < total) (hft : f ≤ total)
    (ty : GTy) (nm : Bytes) (o : Obj) (it : Item) (seen seen' : List Nat)
    (hd : DocI C G seen ty nm o it seen') (hok : ty.Ok) (old : Obj) (hw : WT ty old)
    (opn : List Nat) (r : Nat) (m : Nat → Option Nat) (st : Objs) (hi : RInv cfg C G opn seen m st)
    (h1 : ∀ x ∈ refs ty o, rank x.2 < r) (h2 : ∀ b ∈ opn, r ≤ rank b) (post : List Item)
    (hf : (Item.eventsL (Norm.item nv true it :: post)).length < f + 1) (t : ScopeTy)
    (hp : ∀ j ∈ post, nm ≠ itemName j) (n : LNode) (s s' : σ)
    (hpos : Pos read t (Norm.item nv true it :: post) n s s') :
    ∃ y s1 st' m', pasteField read total ty.isScope (.name nm) (paste cfg env C read total f ty old)
        (valueOf env ty old) n (s, st) = .ok (y, n, s1, st') ∧ Pos read t post n s1 s' ∧
      (n.parsed = true → s1 = s) ∧ RInv cfg C G opn seen' m' st' ∧ Ext m m' ∧ Done m' ty o y := by
  by_cases hs : ty.isScope = true
  · obtain ⟨kids, rfl⟩ := doc_scope hd hs
    simp only [Norm.item, if_true] at hf hpos
    rw [eventsL_scope_length] at hf
    obtain ⟨c, s1, s2, g1, g2, g3, g4⟩ := field_scope hpos ht hp
    obtain ⟨y, n', s3, st', m', e1, e2, e3, e4, e5, e6⟩ := ih ty nm o kids seen seen' hd hok hs old hw
      opn r m st hi h1 h2 (by omega) hft c s1 s2 g1
    refine ⟨y, s2, st', m', ?_, g2, fun hpn => ?_, e4, e5, e6⟩
    · rw [hs]
      exact g4 _ _ _ _ _ _ _ e1 e2 e3
    · rcases hpos with ⟨rfl, -⟩ | ⟨pre, rfl, rfl, -⟩
      · simp [LNode.fresh] at hpn
      · exact (g2.same hpn).symm
  · have hs' : ty.isScope = false := by simpa using hs
    cases hd with
    | plain hst =>
      rename_i ty
      simp only [GTy.isScope] at hs'
      obtain ⟨v, g1, g2⟩ := stored_value ty o hst hs'
      rw [g1] at hf hpos
      simp only [Norm.item, if_true] at hpos
      obtain ⟨s2, g3, g4, g5⟩ := field_value hpos ht hp
      refine ⟨o, s2, st, m, ?_, g3, g4, hi, Ext.refl m, ?_⟩
      · simp only [GTy.isScope, hs']
        exact g5 _ _ _ _ (by simp only [valueOf, (g2 nv hk).2])
      · simp [Done, relabel, refs]
    | _ => simp [GTy.isScope] at hs'

theorem members_stored (hk : Keeps nv) {f : Nat}
    (ih : Claim nv cfg env C G rank read total f) (ht : 0 < total) (hft : f ≤ total) (t : ScopeTy)
    (opn : List Nat) (r : Nat) (h2 : ∀ b ∈ opn, r ≤ rank b) : ∀ (fs : GFields) (xs : List Obj)
    (is : List Item) (seen seen' : List Nat), DocF C G seen fs xs is seen' → fs.Ok → fs.names.Nodup →
    ∀ (os : List Obj), WTL fs os → ∀ (m : Nat → Option Nat) (st : Objs), RInv cfg C G opn seen m st →
    (∀ x ∈ refsL fs xs, rank x.2 < r) →
    (Item.eventsL (Norm.items nv true is)).length < f + 1 →
    ∀ (n : LNode) (s s' : σ), Pos read t (Norm.items nv true is) n s s' →
    ∃ ys s1 st' m', eachMember (fun name ty o => pasteField read total ty.isScope (.name name)
        (paste cfg env C read total f ty o) (valueOf env ty o)) fs os n (s, st) = .ok (ys, n, s1, st') ∧
      finish read total n s1 = .ok s' ∧ (n.parsed = true → s1 = s) ∧ RInv cfg C G opn seen' m' st' ∧
      Ext m m' ∧ ys = relabelL (valm m') fs xs ∧ ∀ x ∈ refsL fs xs, (m' x.2).isSome := by
  intro fs
  induction fs using GFields.rec (motive_1 := fun _ => True) with
  | nil =>
    intro xs is seen seen' hd _ _ os _ m st hi _ _ n s s' hpos
    cases hd
    exact ⟨[], s, st, m, by simp only [eachMember], hpos.end ht rfl, fun _ => rfl, hi, Ext.refl m,
      by simp only [relabelL], by simp [refsL]⟩
  | cons nm ty rest _ ihf =>
    intro xs is seen seen' hd hok hn os hw m st hi h1 hf n s s' hpos
    cases hd with
    | cons hd1 hd2 =>
      rename_i x xs i is seen1
      simp only [WTL] at hw
      obtain ⟨o, os, rfl, hw1, hw2⟩ := hw
      simp only [GFields.Ok] at hok
      simp only [GFields.names, List.nodup_cons] at hn
      simp only [refsL, List.mem_append] at h1
      simp only [Norm.items] at hf hpos
      have hnames : ∀ (fs : GFields) xs is seen seen', DocF C G seen fs xs is seen' →
          ∀ j ∈ Norm.items nv true is, itemName j ∈ fs.names := by
        intro fs
        induction fs using GFields.rec (motive_1 := fun _ => True) with
        | nil => intro xs is seen seen' hd j hj; cases hd; simp [Norm.items] at hj
        | cons nm ty rest _ ih2 =>
          intro xs is seen seen' hd j hj
          cases hd with
          | cons g1 g2 =>
            simp only [Norm.items, List.mem_cons] at hj
            simp only [GFields.names, List.mem_cons]
            rcases hj with rfl | hj
            · exact .inl ((norm_name nv _).trans (doc_name g1))
            · exact .inr (ih2 _ _ _ _ g2 j hj)
        | plain => trivial
        | vec => trivial
        | record => trivial
        | shared => trivial
      obtain ⟨y, s1, st1, m1, e1, e2, e3, e4, e5, e6⟩ := member_stored cfg env rank read total hk ih
        ht hft ty nm x i seen seen1 hd1 hok.1 o hw1 opn r m st hi (fun z hz => h1 z (.inl hz)) h2 _ hf
        t (fun j hj hc => hn.1 (hc ▸ hnames _ _ _ _ _ hd2 j hj)) n s s' hpos
      have hlen : (Item.eventsL (Norm.items nv true is)).length < f + 1 := by
        simp only [Item.eventsL, List.length_append] at hf
        omega
      obtain ⟨ys, s2, st2, m2, k1, k2, k3, k4, k5, k6, k7⟩ := ihf xs is seen1 seen' hd2 hok.2 hn.2 os
        hw2 m1 st1 e4 (fun z hz => h1 z (.inr hz)) hlen n s1 s' e2
      have e6' := e6.mono k5
      refine ⟨y :: ys, s2, st2, m2, ?_, k2, fun hpn => (k3 hpn).trans (e3 hpn), k4, e5.trans k5, ?_, ?_⟩
      · simp only [eachMember, e1, Res.ok_bind, k1]
      · simp only [relabelL, ← e6'.1, ← k6]
      · intro z hz
        simp only [refsL, List.mem_append] at hz
        rcases hz with hz | hz
        · exact e6'.2 z hz
        · exact k7 z hz
  | plain => trivial
  | vec => trivial
  | record => trivial
  | shared => trivial

/-- Elements of a loaded sequence. -/
theorem nodes_stored {f : Nat} (ih : Claim nv cfg env C G rank read total f) (hft : f ≤ total)
    (e : GTy) (he : e.isScope = true) (hok : e.Ok) (opn : List Nat) (r : Nat)
    (h2 : ∀ b ∈ opn, r ≤ rank b) (s : σ) : ∀ (xs : List Obj)
    (is : List Item) (seen seen' : List Nat), DocL C G seen e xs is seen' →
    ∀ (m : Nat → Option Nat) (st : Objs), RInv cfg C G opn seen m st →
    (∀ x ∈ xs.flatMap (refs e), rank x.2 < r) →
    (Item.eventsL (Norm.items nv false is)).length < f + 1 →
    ∃ ys st' m', eachNode (paste cfg env C read total f e (dfltG e)) (nodesOf (Norm.items nv false is))
        (s, st) = .ok (ys, s, st') ∧ RInv cfg C G opn seen' m' st' ∧
      Ext m m' ∧ ys = xs.map (relabel (valm m') e) ∧ ∀ x ∈ xs.flatMap (refs e), (m' x.2).isSome := by
  intro xs
  induction xs with
  | nil =>
    intro is seen seen' hd m st hi _ _
    cases hd
    exact ⟨[], st, m, by simp [Norm.items, nodesOf_nil, eachNode], hi, Ext.refl m, rfl, by simp⟩
  | cons x xs ihx =>
    intro is seen seen' hd m st hi h1 hf
    cases hd with
    | cons hd1 hd2 =>
      rename_i i is seen1
      obtain ⟨kids, rfl⟩ := doc_scope hd1 he
      simp only [Norm.items, Norm.item, Bool.false_eq_true, if_false] at hf
      rw [eventsL_scope_length] at hf
      rw [List.flatMap_cons] at h1
      obtain ⟨y, n', s3, st1, m1, e1, -, e3, e4, e5, e6⟩ := ih e [] x kids seen seen1 hd1 hok he
        (dfltG e) (dfltG_wt e) opn r m st hi (fun z hz => h1 z (by simp [hz])) h2 (by omega) hft
        _ s s (.inr ⟨rfl, rfl⟩)
      have hs3 := e3 (by simp [whole])
      subst hs3
      obtain ⟨ys, st2, m2, k1, k2, k3, k4, k5⟩ := ihx is seen1 seen' hd2 m1 st1 e4
        (fun z hz => h1 z (List.mem_append_right _ hz)) (by omega)
      have e6' := e6.mono k3
      refine ⟨y :: ys, st2, m2, ?_, k2, e5.trans k3, ?_, ?_⟩
      · simp only [Norm.items, Norm.item, Bool.false_eq_true, if_false, nodesOf_scope, eachNode, e1,
          Res.ok_bind, k1]
      · simp only [List.map_cons, ← e6'.1, ← k4]
      · intro z hz
        rw [List.flatMap_cons] at hz
        rcases List.mem_append.mp hz with hz | hz
        · exact e6'.2 z hz
        · exact k5 z hz

/-- Elements of a sequence that is being read. -/
theorem next_stored {f : Nat} (ih : Claim nv cfg env C G rank read total f) (ht : 0 < total)
    (hft : f ≤ total) (t : ScopeTy) (e : GTy) (he : e.isScope = true) (hok : e.Ok) (opn : List Nat)
    (r : Nat) (h2 : ∀ b ∈ opn, r ≤ rank b) : ∀ (xs : List Obj)
    (is : List Item) (seen seen' : List Nat), DocL C G seen e xs is seen' →
    ∀ (m : Nat → Option Nat) (st : Objs), RInv cfg C G opn seen m st →
    (∀ x ∈ xs.flatMap (refs e), rank x.2 < r) →
    (Item.eventsL (Norm.items nv false is)).length < f + 1 →
    ∀ (k : Nat), (Item.eventsL (Norm.items nv false is)).length < k →
    ∀ (s s' : σ), Left read (Norm.items nv false is) s s' →
    ∃ ys st' m', nextNodes read total (paste cfg env C read total f e (dfltG e)) k (.fresh t) (s, st)
        = .ok (ys, ⟨t, [], [], true⟩, s', st') ∧ RInv cfg C G opn seen' m' st' ∧
      Ext m m' ∧ ys = xs.map (relabel (valm m') e) ∧ ∀ x ∈ xs.flatMap (refs e), (m' x.2).isSome := by
  intro xs
  induction xs with
  | nil =>
    intro is seen seen' hd m st hi _ _ k hk s s' hl
    cases hd
    obtain ⟨j, rfl⟩ : ∃ j, k = j + 1 := ⟨k - 1, by omega⟩
    refine ⟨[], st, m, ?_, hi, Ext.refl m, rfl, by simp⟩
    simp only [Norm.items] at hl
    simp only [nextNodes, consumeNode_end ht hl, Res.ok_bind, if_true]
  | cons x xs ihx =>
    intro is seen seen' hd m st hi h1 hf k hk s s' hl
    obtain ⟨j, rfl⟩ : ∃ j, k = j + 1 := ⟨k - 1, by omega⟩
    cases hd with
    | cons hd1 hd2 =>
      rename_i i is seen1
      obtain ⟨kids, rfl⟩ := doc_scope hd1 he
      simp only [Norm.items, Norm.item, Bool.false_eq_true, if_false] at hf hk hl
      rw [eventsL_scope_length] at hf hk
      rw [List.flatMap_cons] at h1
      obtain ⟨s1, s2, g1, g2, g3⟩ := consumeNode_first (sel := .index 0) (t := t) ht rfl hl
      obtain ⟨y, n', s3, st1, m1, e1, e2, e3, e4, e5, e6⟩ := ih e [] x kids seen seen1 hd1 hok he
        (dfltG e) (dfltG_wt e) opn r m st hi (fun z hz => h1 z (by simp [hz])) h2 (by omega) hft
        _ s1 s2 (.inl ⟨rfl, g2⟩)
      obtain ⟨ys, st2, m2, k1, k2, k3, k4, k5⟩ := ihx is seen1 seen' hd2 m1 st1 e4
        (fun z hz => h1 z (List.mem_append_right _ hz)) (by omega) j (by omega) s2 s' g3
      have e6' := e6.mono k3
      refine ⟨y :: ys, st2, m2, ?_, k2, e5.trans k3, ?_, ?_⟩
      · simp only [nextNodes, g1, Res.ok_bind]
        rw [if_neg (fresh_parsed _)]
        simp only [e1, Res.ok_bind, e2, k1]
      · simp only [List.map_cons, ← e6'.1, ← k4]
      · intro z hz
        rw [List.flatMap_cons] at hz
        rcases List.mem_append.mp hz with hz | hz
        · exact e6'.2 z hz
        · exact k5 z hz

include hk hC hr in
theorem claim (f : Nat) : Claim nv cfg env C G rank read total f := by
  induction f with
  | zero =>
    intro ty nm o kids seen seen' _ _ _ old _ opn r m st _ _ _ hf
    omega
  | succ f ih =>
    intro ty nm o kids seen seen' hd hok hs old hw opn r m st hi h1 h2 hf hft n s s' hstart
    generalize hit : Item.scope nm ty.scopeTy kids = it at hd
    cases hd with
    | plain hst =>
      rename_i ty
      simp only [GTy.Ok] at hok
      simp only [GTy.isScope] at hs
      simp only [WT] at hw
      rw [stored_scope ty o hst hs nm] at hit
      simp only [GTy.scopeTy, Item.scope.injEq, true_and] at hit
      subst hit
      have hdone : Done m (.plain ty) o o := by simp [Done, relabel, refs]
      rcases hstart with ⟨rfl, hl⟩ | ⟨rfl, rfl⟩
      · obtain ⟨n', s1, g1, g2⟩ := lazy hk env read total ty o old s s' hok hs hst hw
          (Nat.lt_of_lt_of_le hf hft) hl
        refine ⟨o, n', s1, st, m, ?_, g2, by simp [LNode.fresh], hi, Ext.refl m, hdone⟩
        simp only [paste, GTy.scopeTy, g1, Res.ok_bind]
      · refine ⟨o, whole _, s', st, m, ?_, finish_whole read total (nodeOf ty.scopeTy (kidsN nv ty o)) s', fun _ => rfl, hi, Ext.refl m, hdone⟩
        rw [paste, paste_parsed env read total ty old _ s' rfl]
        have := eager hk env ty o old hok hs hst hw
        simp only [whole, GTy.scopeTy]
        simp only [nodeOf, kidsN] at this
        simp only [this, Res.ok_bind]
    | vec hd =>
      rename_i e xs is
      simp only [GTy.scopeTy, Item.scope.injEq, true_and] at hit
      subst hit
      simp only [GTy.Ok] at hok
      simp only [refs] at h1
      simp only [GTy.scopeTy] at hf hstart
      rcases hstart with ⟨rfl, hl⟩ | ⟨rfl, rfl⟩
      · obtain ⟨ys, st', m', g1, g2, g3, g4, g5⟩ := next_stored cfg env rank read total ih (by omega)
          (by omega) .array e hok.1 hok.2 opn r h2 xs kids seen seen' hd m st hi h1 hf total
          (Nat.lt_of_lt_of_le hf hft) s s' hl
        refine ⟨.many ys, ⟨.array, [], [], true⟩, s', st', m', ?_, by simp [finish], by simp [LNode.fresh], g2, g3, ?_⟩
        · rw [paste, if_neg (fresh_parsed _)]
          simp only [g1, Res.ok_bind]
        · exact ⟨by simp only [relabel, g4], by simpa only [refs] using g5⟩
      · obtain ⟨ys, st', m', g1, g2, g3, g4, g5⟩ := nodes_stored cfg env rank read total ih
          (by omega) e hok.1 hok.2 opn r h2 s' xs kids seen seen' hd m st hi h1 hf
        refine ⟨.many ys, whole _, s', st', m', ?_, finish_whole read total
          (nodeOf .array (Norm.items nv false kids)) s', fun _ => rfl, g2, g3, ?_⟩
        · rw [paste, if_pos (by simp [whole]), whole_eq]
          simp only [show (ScopeTy.array == ScopeTy.object) = false from rfl, g1, Res.ok_bind, whole_eq]
        · exact ⟨by simp only [relabel, g4], by simpa only [refs] using g5⟩
    | record hd =>
      rename_i fs xs is
      simp only [GTy.scopeTy, Item.scope.injEq, true_and] at hit
      subst hit
      simp only [GTy.Ok] at hok
      simp only [refs] at h1
      simp only [WT] at hw
      obtain ⟨os, rfl, hw⟩ := hw
      obtain ⟨ys, s1, st', m', g1, g2, g3, g4, g5, g6, g7⟩ := members_stored cfg env rank read total hk
        ih (by omega) (by omega) .object opn r h2 fs xs kids seen seen' hd hok.2.2 hok.2.1 os hw m st hi
        h1 hf n s s' hstart.pos
      refine ⟨.many ys, n, s1, st', m', ?_, g2, g3, g4, g5, ?_⟩
      · simp only [paste, g1, Res.ok_bind]
      · exact ⟨by simp only [relabel, g6], by simpa only [refs] using g7⟩
    | known hk1 hk2 =>
      rename_i a k
      simp only [GTy.scopeTy, Item.scope.injEq, true_and] at hit
      subst hit
      have hrank : rank a < r := h1 (G.cls a, a) (by simp [refs, addr])
      have hno : a ∉ opn := fun hc => by have := h2 a hc; omega
      obtain ⟨x, hx⟩ := hi.all a (List.mem_of_getElem? hk1) hno
      obtain ⟨t', e1, e2, e3⟩ := hk.int .u64 k (by simp [IntTy.lo, IntTy.signed]) (by
        simp only [IntTy.hi, IntTy.signed, IntTy.bits]; simp; omega)
      have hpos := hstart.pos
      simp only [GTy.scopeTy, show (ScopeTy.object == ScopeTy.object) = true from rfl, Norm.items,
        Norm.item, if_true, e1] at hpos
      obtain ⟨s2, g1, g2, g3⟩ := field_value hpos (total := total) (by omega) (by simp)
      have hv : pasteVal env (.int .u64) (.int 0) (.int t' k) = .ok (.int (.ofNat k)) := by
        simp only [pasteVal]
        rw [int_paste env.strtod .u64 t' k (by simp [IntTy.lo, IntTy.signed]) (by
          simp only [IntTy.hi, IntTy.signed, IntTy.bits]; simp; omega) e2 e3]
        rfl
      obtain ⟨o', ho, -⟩ := hi.heap a x hx
      obtain ⟨found, hf1, hf2⟩ := tab_get hi.tab k
      simp only [hk1, Option.bind_some, hx] at hf2
      obtain ⟨p, rfl, hp2⟩ := Option.map_eq_some_iff.mp hf2
      obtain ⟨p1, p2⟩ := p
      simp only at hp2
      subst hp2
      refine ⟨addr p2, n, s2, st, m, ?_, g1.end (by omega) rfl, g2, hi, Ext.refl m, ?_⟩
      · simp only [paste, g3 _ _ st _ hv, Res.ok_bind, hf1, castTo, ho, if_true]
      · simp [Done, relabel, refs, addr, valm, hx]
    | new hk1 hk2 hd =>
      rename_i a i
      simp only [GTy.scopeTy, Item.scope.injEq, true_and] at hit
      subst hit
      have hrank : rank a < r := h1 (G.cls a, a) (by simp [refs, addr])
      have hno : a ∉ opn := fun hc => by have := h2 a hc; omega
      obtain ⟨t', e1, e2, e3⟩ := hk.int .u64 seen.length (by simp [IntTy.lo, IntTy.signed]) (by
        simp only [IntTy.hi, IntTy.signed, IntTy.bits]; simp; omega)
      have hpos := hstart.pos
      simp only [GTy.scopeTy, show (ScopeTy.object == ScopeTy.object) = true from rfl, Norm.items,
        Norm.item, if_true, e1] at hpos hf
      rw [eventsL_val_length] at hf
      have hname : itemName (Norm.item nv true i) = valueName := by
        exact (norm_name nv i).trans (doc_name hd)
      obtain ⟨s2, g1, g2, g3⟩ := field_value hpos (total := total) (by omega) (by
        intro j hj
        simp only [List.mem_singleton] at hj
        rw [hj, hname]
        decide +kernel)
      have hv : pasteVal env (.int .u64) (.int 0) (.int t' seen.length) = .ok (.int (.ofNat seen.length)) := by
        simp only [pasteVal]
        rw [int_paste env.strtod .u64 t' seen.length (by simp [IntTy.lo, IntTy.signed]) (by
          simp only [IntTy.hi, IntTy.signed, IntTy.bits]; simp; omega) e2 e3]
        rfl
      obtain ⟨found, hf1, hf2⟩ := tab_get hi.tab seen.length
      rw [List.getElem?_eq_none (Nat.le_refl _), Option.bind_none, Option.map_eq_none_iff] at hf2
      subst hf2
      have hi2 := rinv_open hi hk1
      obtain ⟨y, s3, st3, m3, k1, k2, k3, k4, k5, k6⟩ := member_stored cfg env rank read total hk ih
        (by omega) (by omega) (C (G.cls a)) valueName (G.obj a) i (seen ++ [a]) seen' hd (hC _)
        (dfltG (C (G.cls a))) (dfltG_wt _) (a :: opn) (rank a) m st hi2 (hr a) (by
          intro b hb
          rcases List.mem_cons.mp hb with rfl | hb
          · exact Nat.le_refl _
          · have := h2 b hb; omega) [] (by omega) .object (by simp) n s2 s' g1
      have hk' : seen'[seen.length]? = some a := by
        obtain ⟨l, rfl⟩ := doc_prefix hd
        simp
      obtain ⟨table, p, q1, m4, q2, q3, q4⟩ := rinv_close k4 hk' hno k6
      obtain ⟨p1, p2⟩ := p
      refine ⟨addr st3.heap.length, n, s3, ⟨table, st3.heap ++ [(G.cls a, y)]⟩, m4, ?_,
        k2.end (by omega) rfl, fun hpn => (k3 hpn).trans (g2 hpn), q4, k5.trans q2, ?_⟩
      · simp only [paste, g3 _ _ st _ hv, Res.ok_bind, hf1, k1, q1]
      · simp [Done, relabel, refs, addr, valm, q3]

end restoring

end Srl.Shared
