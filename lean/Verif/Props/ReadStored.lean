import Verif.Props.ReadLooks
import Verif.Props.StoredLooks

/-! # C95: objects that were stored are restored while reading in proportion to their pointers -/

namespace Srl.Props
open Shared Typed Doc KeyCost LookCost
open HTable (Tbl Inv)

/-! ### Pointers in the objects of pointers -/

/-- What is done for pointers that are nested at most `w` deep -/
private inductive Nest : Nat → List Op → List Op → Prop
  | nil {w b} : Nest w b b
  | seq {w b c d} : Nest w b c → Nest w c d → Nest w b d
  | known {w b key} : key ∈ added b → Nest w b (b ++ [.look key])
  | new {w b d key} : Nest w (b ++ [.look key]) d → Nest (w + 1) b (d ++ [.add key])

private theorem Nest.mono {w : Nat} {b d : List Op} (h : Nest w b d) : ∀ {w'}, w ≤ w' → Nest w' b d := by
  induction h with
  | nil => intros; exact .nil
  | seq _ _ ih1 ih2 => intro w' h; exact .seq (ih1 h) (ih2 h)
  | known h => intros; exact .known h
  | new _ ih =>
    intro w' h
    obtain ⟨v, rfl⟩ : ∃ v, w' = v + 1 := ⟨w' - 1, by omega⟩
    exact .new (ih (by omega))

private theorem nest_cov {w : Nat} {b d : List Op} (h : Nest w b d) : ∀ (W : Nat) (Q : List Nat), Cov b Q → Q.length + w ≤ W →
    ∃ e, d = b ++ e ∧ Cov d Q ∧ ∀ m, ∃ Q', Q'.length ≤ W ∧ Cov (b ++ e.take m) Q' := by
  induction h with
  | nil => intro W Q hc hw; exact ⟨[], by simp, hc, fun m => ⟨Q, by omega, by simpa using hc⟩⟩
  | seq _ _ ih1 ih2 =>
    intro W Q hc hw
    obtain ⟨e1, rfl, h2, h3⟩ := ih1 W Q hc hw
    obtain ⟨e2, rfl, g2, g3⟩ := ih2 W Q h2 hw
    refine ⟨e1 ++ e2, by simp, g2, fun m => ?_⟩
    rw [List.take_append]
    rcases Nat.le_total m e1.length with hm | hm
    · rw [show m - e1.length = 0 by omega, List.take_zero, List.append_nil]
      exact h3 m
    · rw [List.take_of_length_le hm, ← List.append_assoc]
      exact g3 _
  | @known w b key hm =>
    intro W Q hc hw
    have h1 : Cov (b ++ [.look key]) Q := by
      intro x hx
      rcases cov_look hc key x hx with h | h
      · exact .inl h
      · rcases List.mem_cons.mp h with rfl | h
        · exact .inl (by rw [added_append]; simp [hm])
        · exact .inr h
    refine ⟨[.look key], rfl, h1, fun m => ⟨Q, by omega, ?_⟩⟩
    rcases m with _ | m
    · simpa using hc
    · simpa using h1
  | @new w b d key _ ih =>
    intro W Q hc hw
    have h1 := cov_look hc key
    obtain ⟨e, rfl, h2, h3⟩ := ih W (key :: Q) h1 (by rw [List.length_cons]; omega)
    have h4 := cov_add h2
    refine ⟨.look key :: e ++ [.add key], by simp, h4, fun m => ?_⟩
    rcases m with _ | m
    · exact ⟨Q, by omega, by simpa using hc⟩
    · rw [List.cons_append, List.take_succ_cons, List.take_append]
      rcases Nat.le_total m e.length with hm | hm
      · rw [show m - e.length = 0 by omega, List.take_zero, List.append_nil]
        obtain ⟨Q', q1, q2⟩ := h3 m
        exact ⟨Q', q1, by simpa using q2⟩
      · rw [List.take_of_length_le hm]
        rcases m - e.length with _ | r
        · exact ⟨key :: Q, by rw [List.length_cons]; omega, by simpa using h2⟩
        · exact ⟨Q, by omega, by simpa using h4⟩

private theorem nest_sub {w : Nat} {b d : List Op} (h : Nest w b d) :
    (∀ x ∈ lookedUp b, x ∈ lookedUp d) ∧ (Sub b → Sub d) := by
  induction h with
  | nil => exact ⟨fun _ h => h, id⟩
  | seq _ _ ih1 ih2 => exact ⟨fun x h => ih2.1 x (ih1.1 x h), fun h => ih2.2 (ih1.2 h)⟩
  | known => exact ⟨fun x h => by rw [looked_append]; simp [h], fun h => sub_snoc h (by simp [added])⟩
  | new _ ih =>
    refine ⟨fun x h => ?_, fun h => sub_snoc (ih.2 (sub_snoc h (by simp [added]))) ?_⟩
    · rw [looked_append]
      exact List.mem_append_left _ (ih.1 x (by rw [looked_append]; simp [h]))
    · intro x hx
      simp only [added, List.mem_singleton] at hx
      exact ih.1 x (by rw [looked_append]; simp [lookedUp, hx])

/-! ### What is restored, beside what was stored -/

private theorem found_prefix {C : Nat → GTy} {heap : List (Nat × Obj)} {ty : GTy} {o : Obj} {b d : List Op}
    (h : Found C heap ty o b d) : added b <+: added d := by
  induction h with
  | plain => exact List.prefix_rfl
  | empty => exact List.prefix_rfl
  | item _ _ ih1 ih2 => exact ih1.trans ih2
  | done => exact List.prefix_rfl
  | member _ _ ih1 ih2 => exact ih1.trans ih2
  | again => rw [added_append]; exact List.prefix_append _ _
  | first _ _ _ ih =>
    rw [added_append] at ih
    rw [added_append]
    exact ((List.prefix_append _ _).trans ih).trans (List.prefix_append _ _)

private theorem found_shared {C : Nat → GTy} {heap : List (Nat × Obj)} {w : Bool} {c : Nat} {y : Obj} {b d : List Op}
    (h : Found C heap (.shared w c) y b d) :
    (∃ a key, y = addr a ∧ (added b)[a]? = some key ∧ d = b ++ [.look key]) ∨
    (∃ key x d', y = addr (added d').length ∧ key ∉ added b ∧ heap[(added d').length]? = some (c, x) ∧
      Found C heap (C c) x (b ++ [.look key]) d' ∧ d = d' ++ [.add key]) := by
  cases h with
  | again h => exact .inl ⟨_, _, rfl, h, rfl⟩
  | first h1 h2 h3 => exact .inr ⟨_, _, _, rfl, h1, h2, h3, rfl⟩

private theorem addr_inj {a b : Nat} (h : addr a = addr b) : a = b := by
  simp only [addr] at h
  injection h with h
  injection h with h
  injection h

private theorem prefix_get {α : Type} {xs ys : List α} (h : xs <+: ys) {i : Nat} {x : α} (hx : xs[i]? = some x) : ys[i]? = some x := by
  obtain ⟨r, rfl⟩ := h
  obtain ⟨hlt, -⟩ := List.getElem?_eq_some_iff.mp hx
  rw [List.getElem?_append_left hlt]
  exact hx

section
variable {C : Nat → GTy} {G : Graph} (heap : List (Nat × Obj)) (m : Nat → Nat) (S K : List Nat)

/-- `S` are all objects that were stored and `K` all keys that are added; `seen` were met before, `seen'` after. -/
private def Walk (P : List Op → List Op → Prop) (seen seen' : List Nat) (w : Nat) : Prop :=
  seen <+: seen' ∧ (seen' <+: S → ∀ b d, P b d → added d <+: K → (∀ x ∈ added b, x < seen.length) →
    (∀ k a, seen[k]? = some a → k ∉ added b → (added d).length ≤ m a) →
    (∀ x ∈ added d, x < seen'.length) ∧ (∀ k, seen.length ≤ k → k < seen'.length → k ∈ added d) ∧ Nest w b d ∧
    ∃ ls, lookedUp d = lookedUp b ++ ls ∧ Given seen.length ls seen'.length)

private theorem walk_none {P : List Op → List Op → Prop} {seen : List Nat} {w : Nat} (h : ∀ b d, P b d → d = b) :
    Walk m S K P seen seen w := by
  refine ⟨List.prefix_rfl, fun _ b d hp _ hb _ => ?_⟩
  rw [h b d hp]
  exact ⟨hb, fun k h1 h2 => by omega, .nil, [], by simp, .nil⟩

private theorem walk_both {P Q R : List Op → List Op → Prop} {seen seen1 seen' : List Nat} {v w u : Nat}
    (h1 : Walk m S K P seen seen1 v) (h2 : Walk m S K Q seen1 seen' w) (hv : v ≤ u) (hw : w ≤ u)
    (h : ∀ b d, R b d → ∃ c, P b c ∧ Q c d ∧ added b <+: added c ∧ added c <+: added d) : Walk m S K R seen seen' u := by
  refine ⟨h1.1.trans h2.1, fun hS b d hr hK hb hopen => ?_⟩
  obtain ⟨c, hp, hq, e1, e2⟩ := h b d hr
  obtain ⟨a1, a2, a3, ks, a4, a5⟩ := h1.2 (h2.1.trans hS) b c hp (e2.trans hK) hb (fun k a hk hn => by
    have := hopen k a hk hn
    have := e2.length_le
    omega)
  obtain ⟨b1, b2, b3, ls, b4, b5⟩ := h2.2 hS c d hq hK a1 (fun k a hk hn => by
    rcases Nat.lt_or_ge k seen.length with hlt | hge
    · refine hopen k a ?_ fun hm => hn (e1.subset hm)
      obtain ⟨r, rfl⟩ := h1.1
      rwa [List.getElem?_append_left hlt] at hk
    · obtain ⟨hlt, -⟩ := List.getElem?_eq_some_iff.mp hk
      exact absurd (a2 k hge hlt) hn)
  refine ⟨b1, fun k hk1 hk2 => ?_, .seq (a3.mono hv) (b3.mono hw), ks ++ ls, by rw [b4, a4, List.append_assoc], a5.append b5⟩
  rcases Nat.lt_or_ge k seen1.length with hlt | hge
  · exact e2.subset (a2 k hk1 hlt)
  · exact b2 k hge hk2

variable (hS : ∀ k a : Nat, S[k]? = some a → K[m a]? = some k ∧
  heap[m a]? = some (G.cls a, relabel m (C (G.cls a)) (G.obj a)))
include hS

private theorem walk_item {seen seen' : List Nat} {ty : GTy} {nm : Bytes} {o : Obj} {it : Item}
    (h : DocI C G seen ty nm o it seen') : Walk m S K (Found C heap ty (relabel m ty o)) seen seen' it.depth := by
  refine DocI.rec
    (motive_1 := fun seen ty _ o it seen' _ => Walk m S K (Found C heap ty (relabel m ty o)) seen seen' it.depth)
    (motive_2 := fun seen e xs is seen' _ =>
      Walk m S K (Found C heap (.vec e) (.many (xs.map (relabel m e)))) seen seen' (Item.depthL is))
    (motive_3 := fun seen fs xs is seen' _ =>
      Walk m S K (Found C heap (.record fs) (.many (relabelL m fs xs))) seen seen' (Item.depthL is))
    ?plain ?vec ?record ?known ?new ?lnil ?lcons ?fnil ?fcons h
  case plain =>
    intro seen ty nm o _
    exact walk_none _ _ _ fun b d h => by cases h; rfl
  case vec =>
    intro seen e nm xs is seen' _ ih
    rw [relabel]
    exact ⟨ih.1, fun h1 b d h2 h3 h4 h5 => by
      obtain ⟨a1, a2, a3, a4⟩ := ih.2 h1 b d h2 h3 h4 h5
      exact ⟨a1, a2, a3.mono (by simp only [Item.depth]; omega), a4⟩⟩
  case record =>
    intro seen fs nm xs is seen' _ ih
    rw [relabel]
    exact ⟨ih.1, fun h1 b d h2 h3 h4 h5 => by
      obtain ⟨a1, a2, a3, a4⟩ := ih.2 h1 b d h2 h3 h4 h5
      exact ⟨a1, a2, a3.mono (by simp only [Item.depth]; omega), a4⟩⟩
  case known =>
    intro seen w nm a k h1 _
    refine ⟨List.prefix_rfl, fun hp b d hf hK hb hopen => ?_⟩
    obtain ⟨hlt, -⟩ := List.getElem?_eq_some_iff.mp h1
    obtain ⟨k1, -⟩ := hS k a (prefix_get hp h1)
    rcases found_shared hf with ⟨a', key, e1, e2, rfl⟩ | ⟨key, x, d', e1, e2, e3, e4, rfl⟩
    · have e1 : m a = a' := addr_inj e1
      subst e1
      rw [added_append] at hK
      have := prefix_get ((List.prefix_append _ _).trans hK) e2
      rw [k1] at this
      cases this
      refine ⟨by rw [added_append]; simpa [added] using hb, fun k h1 h2 => by omega, .known (List.mem_of_getElem? e2), [k],
        looked_append _ _, .again hlt .nil⟩
    · have e1 : m a = (added d').length := addr_inj e1
      have hk : K[(added d').length]? = some key := prefix_get hK (by rw [added_append]; simp [added])
      rw [← e1, k1] at hk
      cases hk
      have := hopen k a h1 e2
      rw [added_append, List.length_append] at this
      simp [added] at this
      omega
  case new =>
    intro seen w nm a i seen' h1 _ _ ih
    refine ⟨(List.prefix_append _ _).trans ih.1, fun hp b d hf hK hb hopen => ?_⟩
    have hN : (seen ++ [a])[seen.length]? = some a := by simp
    obtain ⟨k1, k2⟩ := hS seen.length a (prefix_get (ih.1.trans hp) hN)
    rcases found_shared hf with ⟨a', key, e1, e2, rfl⟩ | ⟨key, x, d', e1, e2, e3, e4, rfl⟩
    · have e1 : m a = a' := addr_inj e1
      subst e1
      rw [added_append] at hK
      have := prefix_get ((List.prefix_append _ _).trans hK) e2
      rw [k1] at this
      cases this
      have := hb _ (List.mem_of_getElem? e2)
      omega
    · have e1 : m a = (added d').length := addr_inj e1
      have hk : K[(added d').length]? = some key := prefix_get hK (by rw [added_append]; simp [added])
      rw [← e1, k1] at hk
      cases hk
      rw [← e1, k2] at e3
      cases e3
      have hd : added d' <+: added (d' ++ [.add seen.length]) := by rw [added_append]; exact List.prefix_append _ _
      have hb' : added (b ++ [.look seen.length]) = added b := by rw [added_append]; simp [added]
      obtain ⟨a1, a2, a3, ls, a4, a5⟩ := ih.2 hp _ _ e4 (hd.trans hK) (by
        intro x hx
        rw [hb'] at hx
        have := hb x hx
        rw [List.length_append]
        omega) (by
        intro k c hk hn
        rw [hb'] at hn
        rcases Nat.lt_or_ge k seen.length with hlt | hge
        · rw [List.getElem?_append_left hlt] at hk
          have := hopen k c hk hn
          have := hd.length_le
          omega
        · obtain ⟨hlt, -⟩ := List.getElem?_eq_some_iff.mp hk
          rw [List.length_append, List.length_singleton] at hlt
          have : k = seen.length := by omega
          subst this
          rw [hN] at hk
          cases hk
          omega)
      rw [List.length_append, List.length_singleton] at a2 a5
      refine ⟨?_, ?_, (Nest.new a3).mono (by simp only [Item.depth, Item.depthL]; omega), seen.length :: ls,
        by rw [looked_append, a4, looked_append]; simp [lookedUp], .next a5⟩
      · intro x hx
        rw [added_append] at hx
        rcases List.mem_append.mp hx with hx | hx
        · exact a1 x hx
        · simp only [added, List.mem_singleton] at hx
          have := a5.le
          omega
      · intro k hk1 hk2
        rw [added_append]
        rcases Nat.eq_or_lt_of_le hk1 with rfl | hlt
        · simp [added]
        · exact List.mem_append_left _ (a2 k (by omega) hk2)
  case lnil =>
    intro seen e
    exact walk_none _ _ _ fun b d h => by cases h; rfl
  case lcons =>
    intro seen e x xs i is seen1 seen' _ _ ih1 ih2
    refine walk_both _ _ _ ih1 ih2 (by simp only [Item.depthL]; omega) (by simp only [Item.depthL]; omega) ?_
    intro b d hr
    rw [List.map_cons] at hr
    cases hr with
    | item g1 g2 => exact ⟨_, g1, g2, found_prefix g1, found_prefix g2⟩
  case fnil =>
    intro seen
    exact walk_none _ _ _ fun b d h => by
      simp only [relabelL] at h
      cases h; rfl
  case fcons =>
    intro seen nm ty rest x xs i is seen1 seen' _ _ ih1 ih2
    refine walk_both _ _ _ ih1 ih2 (by simp only [Item.depthL]; omega) (by simp only [Item.depthL]; omega) ?_
    intro b d hr
    rw [relabelL] at hr
    cases hr with
    | member g1 g2 => exact ⟨_, g1, g2, found_prefix g1, found_prefix g2⟩

end

/-! ### Objects that were stored -/

/-- C95 (what holds): the keys of an object that was stored are looked up in the order in which they were given when it is
restored while the document is read, for all types and formats, so that what is done is in proportion to its pointers, with a
factor that depends on how deep the document is nested. What is missing: documents that were not stored so, and a factor for
all depths. (`two_objects` meets the hypotheses.) -/
theorem stored_read_partial {σ : Type} {nv : Val → Val} (hk : Keeps nv) (env : Env) (cs : HTable.Cfg Nat) (C : Nat → GTy) (G : Graph)
    (dom : List Nat) (hG : G.Ok C dom) (ha : G.Acyclic C) (ty : GTy) (o old : Obj) (hok : ty.Ok) (hs : ty.isScope = true)
    (ho : Shared.Storable ty o) (hp : PtrsOk G dom (refs ty o)) (hold : Shared.WT ty old) :
    ∃ D kids seen, DocI C G [] ty [] o (.scope [] ty.scopeTy kids) seen ∧
      (∀ f, D ≤ f → ∃ t, Shared.store cs C G f [] ty o Seen.new = .ok (.scope [] ty.scopeTy kids, t)) ∧
      ∀ (read : σ → Res (Event × σ)) (s s' : σ) (fuel : Nat),
        Emits read s (Norm.item nv false (.scope [] ty.scopeTy kids)).events s' →
        (Item.scope [] ty.scopeTy kids).events.length ≤ fuel →
        ReadInOrder env C G ty o old read fuel s (Item.scope [] ty.scopeTy kids).depth := by
  obtain ⟨D, it, t0, seen, h1, h2, -, -, -⟩ := store_ok cs dom hG ty [] o ho hp
  obtain ⟨kids, rfl⟩ := doc_scope h2 hs
  refine ⟨D, kids, seen, h2, fun f hf => ⟨t0, h1 f hf⟩, fun read s s' fuel he hf => ?_⟩
  rw [← Norm.events_length nv false] at hf
  simp only [Norm.item, Bool.false_eq_true, if_false] at he hf
  have hlen : (Item.eventsL (Norm.items nv (ty.scopeTy == .object) kids)).length < fuel := by
    simp [Item.events] at hf
    omega
  simp only [Item.events] at he
  obtain ⟨s1, g1, g2⟩ := Emits.cons_inv he
  obtain ⟨y, n', s2, st, c1, c2⟩ := copy_of hk keys env hG ha hok hs hold h2 read fuel hlen _ s1 s' (.inl ⟨rfl, g2⟩)
  obtain ⟨rank, hr⟩ := ha
  obtain ⟨top, htop⟩ : ∃ top, ∀ x ∈ refs ty o, rank x.2 < top := by
    have key : ∀ l : List (Nat × Nat), ∃ top, ∀ x ∈ l, rank x.2 < top := by
      intro l
      induction l with
      | nil => exact ⟨0, by simp⟩
      | cons x l ih =>
        obtain ⟨top, h⟩ := ih
        refine ⟨max top (rank x.2 + 1), fun y hy => ?_⟩
        rcases List.mem_cons.mp hy with rfl | hy
        · omega
        · have := h y hy; omega
    exact key _
  obtain ⟨y', n0, s0, st0, m, g3, -, -, g4, -, g5⟩ := claim hk keys env hG.types rank hr read fuel fuel
    ty [] o kids [] seen h2 hok hs old hold [] top _ Objs.new (rinv_new keys C G) htop (by simp)
    hlen (Nat.le_refl _) _ s1 s' (.inl ⟨rfl, g2⟩)
  rw [g3] at c1
  cases c1
  obtain ⟨ops, f1, ⟨k, mm, f2, f3, f4, -, f5, f6⟩, -⟩ := found_from fuel _ _ _ _ _ _ _ [] ⟨0, fun _ => none, rfl,
    (new_inv keys 16).1, (new_inv keys 16).2, by simp [added], by simp, rfl⟩ g3
  dsimp only at f1 f2 f3 f4 f5 f6
  have hS : ∀ k a : Nat, seen[k]? = some a → (added ops)[valm m a]? = some k ∧
      st.heap[valm m a]? = some (G.cls a, relabel (valm m) (C (G.cls a)) (G.obj a)) := by
    intro k a hka
    obtain ⟨x, hx⟩ := g4.all a (List.mem_of_getElem? hka) (by simp)
    obtain ⟨o', h7, h8⟩ := g4.heap a x hx
    obtain ⟨r, q1, q2⟩ := tab_get g4.tab k
    rw [get_spec f3 f4 k] at q1
    cases q1
    simp only [hka, Option.bind_some, hx] at q2
    have hv : valm m a = x := by simp [valm, hx]
    rw [hv]
    refine ⟨?_, by rw [h7, h8.1]⟩
    cases hm : mm k with
    | none => rw [hm] at q2; cases q2
    | some p =>
      rw [hm] at q2
      obtain ⟨z, x'⟩ := p
      cases q2
      exact f5 k z _ hm
  have hy := g5.1
  obtain ⟨-, -, w3, ls, w4, w5⟩ := (walk_item st.heap (valm m) seen (added ops) hS h2).2 List.prefix_rfl [] ops (hy ▸ f1)
    List.prefix_rfl (by simp [added]) (by simp)
  have hord : KeysInOrder 0 (lookedUp ops) := by
    rw [w4]
    exact w5.order
  refine ⟨y, st.heap, ops, st.table, k, by simp only [Shared.restore, g1, Res.ok_bind, g3], c2, f1, hord, f2, fun h32 => ?_⟩
  obtain ⟨e, he', -, hcov⟩ := nest_cov w3 _ [] (by intro x hx; cases hx) (Nat.le_of_eq (Nat.zero_add _))
  rw [List.nil_append] at he'
  subst he'
  have hsub := (nest_sub w3).2 (by intro m x hx; simp [added] at hx)
  have hnear := near_of (by simpa using hcov) hsub hord
  have h4 := pointers_each f1 f6
  have hlt : ∀ x ∈ added ops, x < 2 ^ 32 := by
    intro x hx
    have h5 := hsub ops.length x (by rw [List.take_length]; exact hx)
    rw [List.take_length] at h5
    have := order_len hord x h5
    omega
  obtain ⟨t', k', q1, q2⟩ := pointers_time_partial _ ops (keys_near_spread _ _ hnear hlt) fun x hx => by have := hlt x hx; omega
  rw [f2] at q1
  cases q1
  have h5 := found_added f1
  simp only [added, lookedUp, List.length_nil] at h5
  have h6 := ops_length ops
  have h7 : ops.length ≤ 2 * ((refs ty y).length + pointersOf C st.heap) := by omega
  generalize (Item.scope [] ty.scopeTy kids).depth / 16 = v at q2 ⊢
  have h8 := Nat.mul_le_mul_left (3 * (v + 2) + 8) h7
  rw [← Nat.mul_assoc, show (3 * (v + 2) + 8) * 2 = 6 * v + 28 by omega] at h8
  omega

/-- C95 with the format Srl -/
theorem read_srl_partial (mem : Mem) (hm : mem.Sane) (env : Env) (cs : HTable.Cfg Nat) (C : Nat → GTy) (G : Graph)
    (dom : List Nat) (hG : G.Ok C dom) (ha : G.Acyclic C) (ty : GTy) (o old : Obj) (hok : ty.Ok) (hs : ty.isScope = true)
    (ho : Shared.Storable ty o) (hp : PtrsOk G dom (refs ty o)) (hold : Shared.WT ty old) :
    ∃ D it, (∀ f, D ≤ f → ∃ t, Shared.store cs C G f [] ty o Seen.new = .ok (it, t)) ∧
      (PSrl.ItemOk it → it.events.length < 2 ^ 64 →
        ∃ st bs, PSrl.writeAll PSrl.St.init it.events = .ok (st, bs) ∧ ∀ rest fuel, it.events.length ≤ fuel →
          ReadInOrder env C G ty o old (PSrl.read mem) fuel (PSrl.St.init, bs ++ rest) it.depth) := by
  obtain ⟨D, kids, seen, -, h1, h2⟩ := stored_read_partial (σ := PSrl.St × Bytes) keeps_srl env cs C G dom hG ha ty o old hok hs ho
    hp hold
  refine ⟨D, _, h1, fun hc hsize => ?_⟩
  obtain ⟨st, ⟨bs, h3, h4⟩, -, -⟩ := PSrl.codes_item hm _ PSrl.St.init hc (by simpa [PSrl.St.init] using hsize)
  refine ⟨st, bs, h3, fun rest fuel hf => ?_⟩
  have he := h4 rest
  rw [show PSrl.inObject PSrl.St.init = false from rfl, normItem_eq] at he
  exact h2 _ _ _ fuel he hf

/-- C95 with MessagePack -/
theorem read_msgpack_partial (mem : Mem) (hm : mem.Sane) (env : Env) (cs : HTable.Cfg Nat) (C : Nat → GTy) (G : Graph)
    (dom : List Nat) (hG : G.Ok C dom) (ha : G.Acyclic C) (ty : GTy) (o old : Obj) (hok : ty.Ok) (hs : ty.isScope = true)
    (ho : Shared.Storable ty o) (hp : PtrsOk G dom (refs ty o)) (hold : Shared.WT ty old) :
    ∃ D it, (∀ f, D ≤ f → ∃ t, Shared.store cs C G f [] ty o Seen.new = .ok (it, t)) ∧
      (PMsgPack.ItemOk it → ∃ x bs, PMsgPack.writeAll ([], []) it.events = .ok (x, bs) ∧
        ∀ rest fuel, it.events.length ≤ fuel →
          ReadInOrder env C G ty o old (PMsgPack.read mem) fuel ([], bs ++ rest) it.depth) := by
  obtain ⟨D, kids, seen, -, h1, h2⟩ := stored_read_partial (nv := PMsgPack.normVal) keeps_msgpack env cs C G dom hG ha ty o old hok
    hs ho hp hold
  refine ⟨D, _, h1, fun hc => ?_⟩
  refine ⟨_, _, PMsgPack.writeAll_item (.scope [] ty.scopeTy kids) [] [], fun rest fuel hf => ?_⟩
  have he := PMsgPack.emits_item hm _ [] _ rest (by simp [PMsgPack.Open]) (PMsgPack.writeItem_enc _ false hc)
  exact h2 _ _ _ fuel he hf

/-- C95 with JSON, in both layouts -/
theorem read_json_partial (mem : Mem) (hm : mem.Sane) (env : Env) (compact : Bool) (cs : HTable.Cfg Nat) (C : Nat → GTy) (G : Graph)
    (dom : List Nat) (hG : G.Ok C dom) (ha : G.Acyclic C) (ty : GTy) (o old : Obj) (hok : ty.Ok) (hs : ty.isScope = true)
    (ho : Shared.Storable ty o) (hp : PtrsOk G dom (refs ty o)) (hold : Shared.WT ty old) :
    ∃ D it, (∀ f, D ≤ f → ∃ t, Shared.store cs C G f [] ty o Seen.new = .ok (it, t)) ∧
      (JsonItem env false it →
        ∃ bs w, PJson.writeAll env.dtoa compact PJson.Wr.new it.events = .ok (bs, w) ∧ ∀ rest fuel, it.events.length ≤ fuel →
          ReadInOrder env C G ty o old (PJson.read mem env.strtod) fuel (PJson.Rd.new, bs ++ rest) it.depth) := by
  obtain ⟨D, kids, seen, h0, h1, h2⟩ := stored_read_partial (keeps_json env) env cs C G dom hG ha ty o old hok hs ho hp hold
  refine ⟨D, _, h1, fun hc => ?_⟩
  have hi := doc_json mem env h0 false hc
  simp only [PJson.ItemOk] at hi
  obtain ⟨bs, h3, h4⟩ := PJson.emits_doc hm env.strtod env.dtoa compact (nvKept env) [] ty.scopeTy kids hi.2
  refine ⟨bs, _, h3, fun rest fuel hf => ?_⟩
  obtain ⟨r', h5⟩ := h4 rest PJson.Rd.new rfl
  exact h2 _ _ _ fuel h5 hf

/-- A vector of two pointers to one object that has a pointer itself meets the hypotheses -/
example (mem : Mem) (hm : mem.Sane) (env : Env) (cs : HTable.Cfg Nat) :
    ∃ D it, (∀ f, D ≤ f → ∃ t, Shared.store cs twoClasses twoObjects f [] (.vec (.shared false 0)) (.many [addr 0, addr 0])
        Seen.new = .ok (it, t)) ∧
      (PMsgPack.ItemOk it → ∃ x bs, PMsgPack.writeAll ([], []) it.events = .ok (x, bs) ∧
        ∀ rest fuel, it.events.length ≤ fuel →
          ReadInOrder env twoClasses twoObjects (.vec (.shared false 0)) (.many [addr 0, addr 0]) (.many []) (PMsgPack.read mem)
            fuel ([], bs ++ rest) it.depth) :=
  read_msgpack_partial mem hm env cs twoClasses twoObjects [0, 1] two_objects.1 two_objects.2.1 _ _ _ two_objects.2.2.1 rfl
    two_objects.2.2.2.1 two_objects.2.2.2.2 trivial

end Srl.Props
