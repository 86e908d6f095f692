import Verif.Model.Tree
import Verif.Lemmas.Shared

/-! What acts depend on. -/

namespace Srl.TreeApi
open Shared (Seen SeenIs seen_new insertShared insertShared_spec)

mutual
/-- No shared pointers. -/
def Act.plain : Act → Bool
  | .value _ _ => true
  | .scope _ _ body => plainL body
  | .shared _ _ _ => false
  | .node _ _ => true
  | .list _ body => plainL body
  | .fail => true
def plainL : List Act → Bool
  | [] => true
  | a :: as => a.plain && plainL as
end

variable {P : Type}

theorem seen_clear {cfg : HTable.Cfg Nat} {t : Seen} {l : List Nat} (h : SeenIs cfg t l) :
    SeenIs cfg (HTable.clear t) [] := by
  obtain ⟨⟨g, ⟨hi, m, ha, -⟩, -⟩, -, -⟩ := h
  obtain ⟨h1, h2⟩ := Props.clear_spec hi ha
  refine ⟨⟨fun _ => none, ⟨h1, _, h2, fun _ => rfl⟩, by simp⟩, ?_, List.nodup_nil⟩
  have hes : (HTable.clear t).es = [] := by
    apply List.eq_nil_iff_forall_not_mem.mpr
    intro e he
    have := (h2 e.key e.addr e.val).mpr ⟨e, he, rfl, rfl, rfl⟩
    cases this
  have := h1.cnt
  rw [hes] at this
  simpa using this

/-- Two runs in the same mode: `b` says that the tables of shared objects agree. -/
structure Like (cfg : HTable.Cfg Nat) (par b : Bool) (w1 w2 : Work P) : Prop where
  parser : par = true → w1.parser = w2.parser
  out : par = true → w1.out = w2.out
  values : par = false → w1.values = w2.values
  nodes : par = false → w1.nodes = w2.nodes
  seen : ∃ l1 l2, SeenIs cfg w1.seen l1 ∧ SeenIs cfg w2.seen l2 ∧ (b = true → l1 = l2)

/-- What acts leave alone. -/
structure Kept (par : Bool) (w w' : Work P) : Prop where
  parser : par = false → w'.parser = w.parser
  out : par = false → w'.out = w.out
  values : par = true → w'.values = w.values
  nodes : par = true → w'.nodes = w.nodes

/-- Equal results in both runs, states alike. -/
def Same (cfg : HTable.Cfg Nat) (par b : Bool) (x y : Res Unit × Work P) : Prop :=
  x.1 = y.1 ∧ Like cfg par b x.2 y.2

theorem Same.andThen {cfg : HTable.Cfg Nat} {par b : Bool} {x y : Res Unit × Work P}
    {f g : Work P → Res Unit × Work P} (h : Same cfg par b x y)
    (hf : ∀ w1 w2, Like cfg par b w1 w2 → Same cfg par b (f w1) (g w2)) :
    Same cfg par b (andThen x f) (andThen y g) := by
  obtain ⟨r1, w1⟩ := x
  obtain ⟨r2, w2⟩ := y
  obtain ⟨h1, h2⟩ := h
  simp only at h1 h2
  subst h1
  cases r1 <;> simp only [TreeApi.andThen]
  · exact hf _ _ h2
  all_goals exact ⟨rfl, h2⟩

theorem emit_same (cfg : HTable.Cfg Nat) (fmt : Fmt P) (b : Bool) (e : Event) (w1 w2 : Work P)
    (h : Like cfg true b w1 w2) : Same cfg true b (emit fmt e w1) (emit fmt e w2) := by
  have hp := h.parser rfl
  have ho := h.out rfl
  unfold emit
  rw [← hp, ← ho]
  cases w1.parser with
  | none => exact ⟨rfl, h⟩
  | some p =>
    simp only
    cases fmt.write (p, w1.out) e with
    | ok x => exact ⟨rfl, ⟨fun _ => rfl, fun _ => rfl, by simp, by simp, h.seen⟩⟩
    | err => exact ⟨rfl, h⟩
    | ub => exact ⟨rfl, h⟩
    | fuel => exact ⟨rfl, h⟩

theorem insertValue_same (cfg : HTable.Cfg Nat) (fmt : Fmt P) (par b : Bool) (n : Bytes) (v : Val)
    (w1 w2 : Work P) (h : Like cfg par b w1 w2) :
    Same cfg par b (insertValue fmt par n v w1) (insertValue fmt par n v w2) := by
  unfold insertValue
  cases par with
  | true => exact emit_same cfg fmt b _ w1 w2 h
  | false =>
    refine ⟨rfl, ⟨by simp, by simp, fun _ => ?_, fun _ => h.nodes rfl, h.seen⟩⟩
    show w1.values ++ _ = w2.values ++ _
    rw [h.values rfl]

theorem openScope_same (cfg : HTable.Cfg Nat) (fmt : Fmt P) (par b : Bool) (n : Bytes) (t : ScopeTy)
    (f g : Work P → Res Unit × Work P)
    (hf : ∀ w1 w2, Like cfg par b w1 w2 → Same cfg par b (f w1) (g w2))
    (w1 w2 : Work P) (h : Like cfg par b w1 w2) :
    Same cfg par b (openScope fmt par n t f w1) (openScope fmt par n t g w2) := by
  unfold openScope
  cases par with
  | true =>
    exact ((emit_same cfg fmt b _ w1 w2 h).andThen hf).andThen (emit_same cfg fmt b _)
  | false =>
    have hs := hf { w1 with values := [], nodes := [] } { w2 with values := [], nodes := [] }
      ⟨by simp, by simp, fun _ => rfl, fun _ => rfl, h.seen⟩
    obtain ⟨h1, h2⟩ := hs
    refine ⟨h1, ⟨by simp, by simp, fun _ => h.values rfl, fun _ => ?_, h2.seen⟩⟩
    show w1.nodes ++ [_] = w2.nodes ++ [_]
    rw [h.nodes rfl, h2.values rfl, h2.nodes rfl]

theorem emitL_same (cfg : HTable.Cfg Nat) (fmt : Fmt P) (b : Bool) : ∀ (es : List Event) (w1 w2 : Work P),
    Like cfg true b w1 w2 → Same cfg true b (emitL fmt es w1) (emitL fmt es w2)
  | [], _, _, h => ⟨rfl, h⟩
  | e :: es, w1, w2, h => (emit_same cfg fmt b e w1 w2 h).andThen (emitL_same cfg fmt b es)

theorem insertNode_same (cfg : HTable.Cfg Nat) (fmt : Fmt P) (par b : Bool) (name : Bytes) (n : Node)
    (w1 w2 : Work P) (h : Like cfg par b w1 w2) :
    Same cfg par b (insertNode fmt par name n w1) (insertNode fmt par name n w2) := by
  unfold insertNode
  cases par with
  | true => exact emitL_same cfg fmt b _ w1 w2 h
  | false =>
    refine ⟨rfl, ⟨by simp, by simp, fun _ => h.values rfl, fun _ => ?_, h.seen⟩⟩
    show w1.nodes ++ _ = w2.nodes ++ _
    rw [h.nodes rfl]

mutual
theorem perform_same (cfg : HTable.Cfg Nat) (fmt : Fmt P) (par b : Bool) : ∀ (a : Act) (w1 w2 : Work P),
    b = true ∨ a.plain = true → Like cfg par b w1 w2 →
    Same cfg par b (perform cfg fmt par a w1) (perform cfg fmt par a w2)
  | .value n v, w1, w2, _, h => by
    simp only [perform]
    exact insertValue_same cfg fmt par b n v w1 w2 h
  | .scope n t body, w1, w2, hb, h => by
    simp only [perform]
    exact openScope_same cfg fmt par b n t _ _
      (fun u1 u2 hu => performL_same cfg fmt par b body u1 u2 (by simpa [Act.plain] using hb) hu) w1 w2 h
  | .shared n a body, w1, w2, hb, h => by
    simp only [Act.plain, Bool.false_eq_true, or_false] at hb
    subst hb
    simp only [perform, withShared]
    obtain ⟨l1, l2, h1, h2, h3⟩ := h.seen
    have := h3 rfl
    subst this
    obtain ⟨k1, key1, t1, e1, s1⟩ := insertShared_spec h1 a
    obtain ⟨k2, key2, t2, e2, s2⟩ := insertShared_spec h2 a
    have key : k1 = k2 ∧ key1 = key2 ∧ ∃ l, SeenIs cfg t1 l ∧ SeenIs cfg t2 l := by
      rcases s1 with ⟨rfl, g1, s1⟩ | ⟨rfl, rfl, g1, s1⟩ <;>
        rcases s2 with ⟨rfl, g2, s2⟩ | ⟨rfl, rfl, g2, s2⟩
      · exact ⟨rfl, (List.getElem?_inj (List.getElem?_eq_some_iff.mp g1).1 h1.nodup).mp (g1.trans g2.symm),
          _, s1, s2⟩
      · exact absurd (List.mem_of_getElem? g1) g2
      · exact absurd (List.mem_of_getElem? g2) g1
      · exact ⟨rfl, rfl, _, s1, s2⟩
    obtain ⟨rfl, rfl, l, g1, g2⟩ := key
    rw [e1, e2]
    simp only
    refine openScope_same cfg fmt par true n .object _ _ (fun u1 u2 hu => ?_) _ _
      ⟨h.parser, h.out, h.values, h.nodes, l, l, g1, g2, fun _ => rfl⟩
    refine (insertValue_same cfg fmt par true _ _ u1 u2 hu).andThen (fun v1 v2 hv => ?_)
    by_cases hk : k1 = true
    · rw [if_pos hk, if_pos hk]; exact ⟨rfl, hv⟩
    · rw [if_neg hk, if_neg hk]
      exact performL_same cfg fmt par true body v1 v2 (.inl rfl) hv
  | .node n nd, w1, w2, _, h => by
    simp only [perform]
    exact insertNode_same cfg fmt par b n nd w1 w2 h
  | .list n body, w1, w2, hb, h => by
    have ih := fun u1 u2 hu => performL_same cfg fmt par b body u1 u2 (by simpa [Act.plain] using hb) hu
    simp only [perform, insertList]
    cases par with
    | true => exact (insertNode_same cfg fmt true b n _ w1 w2 h).andThen ih
    | false => exact openScope_same cfg fmt false b n .array _ _ ih w1 w2 h
  | .fail, w1, w2, _, h => by
    simp only [perform]
    exact ⟨rfl, h⟩
theorem performL_same (cfg : HTable.Cfg Nat) (fmt : Fmt P) (par b : Bool) : ∀ (as : List Act)
    (w1 w2 : Work P), b = true ∨ plainL as = true → Like cfg par b w1 w2 →
    Same cfg par b (performL cfg fmt par as w1) (performL cfg fmt par as w2)
  | [], w1, w2, _, h => by
    simp only [performL]
    exact ⟨rfl, h⟩
  | a :: as, w1, w2, hb, h => by
    simp only [performL]
    refine (perform_same cfg fmt par b a w1 w2 ?_ h).andThen
      (fun u1 u2 hu => performL_same cfg fmt par b as u1 u2 ?_ hu)
    · rcases hb with hb | hb
      · exact .inl hb
      · simp only [plainL, Bool.and_eq_true] at hb; exact .inr hb.1
    · rcases hb with hb | hb
      · exact .inl hb
      · simp only [plainL, Bool.and_eq_true] at hb; exact .inr hb.2
end

theorem Kept.refl (par : Bool) (w : Work P) : Kept par w w := ⟨fun _ => rfl, fun _ => rfl, fun _ => rfl, fun _ => rfl⟩

theorem Kept.trans {par : Bool} {a b c : Work P} (h1 : Kept par a b) (h2 : Kept par b c) : Kept par a c :=
  ⟨fun h => (h2.parser h).trans (h1.parser h), fun h => (h2.out h).trans (h1.out h),
   fun h => (h2.values h).trans (h1.values h), fun h => (h2.nodes h).trans (h1.nodes h)⟩

theorem kept_andThen {par : Bool} {w : Work P} {x : Res Unit × Work P} {f : Work P → Res Unit × Work P}
    (h : Kept par w x.2) (hf : ∀ u, Kept par u (f u).2) : Kept par w (andThen x f).2 := by
  obtain ⟨r, u⟩ := x
  cases r <;> simp only [andThen]
  · exact h.trans (hf u)
  all_goals exact h

theorem kept_emit (fmt : Fmt P) (e : Event) (w : Work P) : Kept true w (emit fmt e w).2 := by
  unfold emit
  split
  · exact .refl _ _
  · split
    · exact ⟨by simp, by simp, fun _ => rfl, fun _ => rfl⟩
    all_goals exact .refl _ _

theorem kept_insertValue (fmt : Fmt P) (par : Bool) (n : Bytes) (v : Val) (w : Work P) :
    Kept par w (insertValue fmt par n v w).2 := by
  unfold insertValue
  cases par with
  | true => exact kept_emit fmt _ w
  | false => exact ⟨fun _ => rfl, fun _ => rfl, by simp, by simp⟩

theorem kept_openScope (fmt : Fmt P) (par : Bool) (n : Bytes) (t : ScopeTy)
    (f : Work P → Res Unit × Work P) (hf : ∀ u, Kept par u (f u).2) (w : Work P) :
    Kept par w (openScope fmt par n t f w).2 := by
  unfold openScope
  cases par with
  | true => exact kept_andThen (kept_andThen (kept_emit fmt _ w) hf) (kept_emit fmt _)
  | false =>
    have := hf { w with values := [], nodes := [] }
    exact ⟨fun h => this.parser h, fun h => this.out h, by simp, by simp⟩

theorem kept_emitL (fmt : Fmt P) : ∀ (es : List Event) (w : Work P), Kept true w (emitL fmt es w).2
  | [], w => .refl _ _
  | e :: es, w => kept_andThen (kept_emit fmt e w) (kept_emitL fmt es)

theorem kept_insertNode (fmt : Fmt P) (par : Bool) (name : Bytes) (n : Node) (w : Work P) :
    Kept par w (insertNode fmt par name n w).2 := by
  unfold insertNode
  cases par with
  | true => exact kept_emitL fmt _ w
  | false => exact ⟨fun _ => rfl, fun _ => rfl, by simp, by simp⟩

mutual
theorem perform_kept (cfg : HTable.Cfg Nat) (fmt : Fmt P) (par : Bool) : ∀ (a : Act) (w : Work P),
    Kept par w (perform cfg fmt par a w).2
  | .value n v, w => by
    simp only [perform]
    exact kept_insertValue fmt par n v w
  | .scope n t body, w => by
    simp only [perform]
    exact kept_openScope fmt par n t _ (performL_kept cfg fmt par body) w
  | .shared n a body, w => by
    simp only [perform, withShared]
    split
    · rename_i known key t _
      have h0 : Kept par w { w with seen := t } := ⟨fun _ => rfl, fun _ => rfl, fun _ => rfl, fun _ => rfl⟩
      refine h0.trans (kept_openScope fmt par n .object _ (fun u => ?_) _)
      refine kept_andThen (kept_insertValue fmt par _ _ u) (fun u => ?_)
      by_cases hk : known = true
      · rw [if_pos hk]; exact .refl _ _
      · rw [if_neg hk]; exact performL_kept cfg fmt par body u
    all_goals exact .refl _ _
  | .node n nd, w => by
    simp only [perform]
    exact kept_insertNode fmt par n nd w
  | .list n body, w => by
    simp only [perform, insertList]
    cases par with
    | true => exact kept_andThen (kept_insertNode fmt true n _ w) (performL_kept cfg fmt true body)
    | false => exact kept_openScope fmt false n .array _ (performL_kept cfg fmt false body) w
  | .fail, w => by
    simp only [perform]
    exact .refl _ _
theorem performL_kept (cfg : HTable.Cfg Nat) (fmt : Fmt P) (par : Bool) : ∀ (as : List Act) (w : Work P),
    Kept par w (performL cfg fmt par as w).2
  | [], w => by
    simp only [performL]
    exact .refl _ _
  | a :: as, w => by
    simp only [performL]
    exact kept_andThen (perform_kept cfg fmt par a w) (performL_kept cfg fmt par as)
end

theorem seen_andThen {x : Res Unit × Work P} {s : Seen} {f : Work P → Res Unit × Work P}
    (h : x.2.seen = s) (hf : ∀ w, w.seen = s → (f w).2.seen = s) : (andThen x f).2.seen = s := by
  obtain ⟨r, w⟩ := x
  cases r
  · exact hf w h
  all_goals exact h

theorem seen_emit (fmt : Fmt P) (e : Event) (w : Work P) : (emit fmt e w).2.seen = w.seen := by
  unfold emit
  split
  · rfl
  · split <;> rfl

theorem seen_openScope (fmt : Fmt P) (par : Bool) (name : Bytes) (t : ScopeTy)
    (f : Work P → Res Unit × Work P) (hf : ∀ w, (f w).2.seen = w.seen) (w : Work P) :
    (openScope fmt par name t f w).2.seen = w.seen := by
  unfold openScope
  split
  · exact seen_andThen (seen_andThen (seen_emit fmt _ w) fun w' h => (hf w').trans h)
      fun w' h => (seen_emit fmt _ w').trans h
  · exact hf _

theorem seen_emitL (fmt : Fmt P) : ∀ (es : List Event) (w : Work P), (emitL fmt es w).2.seen = w.seen
  | [], _ => rfl
  | e :: es, w => seen_andThen (seen_emit fmt e w) fun w' h => (seen_emitL fmt es w').trans h

theorem seen_insertNode (fmt : Fmt P) (par : Bool) (name : Bytes) (n : Node) (w : Work P) :
    (insertNode fmt par name n w).2.seen = w.seen := by
  unfold insertNode
  split
  · exact seen_emitL fmt _ w
  · rfl

mutual
theorem perform_seen (cfg : HTable.Cfg Nat) (fmt : Fmt P) (par : Bool) :
    ∀ (a : Act) (_ : a.plain = true) (w : Work P), (perform cfg fmt par a w).2.seen = w.seen
  | .value name v, _, w => by
    simp only [perform, insertValue]
    split
    · exact seen_emit fmt _ w
    · rfl
  | .scope name t body, h, w => by
    rw [perform]
    exact seen_openScope fmt par name t _ (fun w => performL_seen cfg fmt par body h w) w
  | .shared _ _ _, h, _ => by cases h
  | .node name n, _, w => by rw [perform]; exact seen_insertNode fmt par name n w
  | .list name body, h, w => by
    rw [perform, insertList]
    split
    · exact seen_andThen (seen_insertNode fmt true name _ w)
        fun w' hw => (performL_seen cfg fmt par body h w').trans hw
    · exact seen_openScope fmt false name .array _ (fun w => performL_seen cfg fmt par body h w) w
  | .fail, _, w => by rw [perform]
theorem performL_seen (cfg : HTable.Cfg Nat) (fmt : Fmt P) (par : Bool) :
    ∀ (as : List Act) (_ : plainL as = true) (w : Work P), (performL cfg fmt par as w).2.seen = w.seen
  | [], _, w => by rw [performL]
  | a :: as, h, w => by
    rw [plainL, Bool.and_eq_true] at h
    rw [performL]
    exact seen_andThen (perform_seen cfg fmt par a h.1 w)
      fun w' hw => (performL_seen cfg fmt par as h.2 w').trans hw
end

theorem storeWith_seen (cfg : HTable.Cfg Nat) (fmt : Fmt P) (p : P) (ty : ScopeTy) (acts : List Act)
    (h : plainL acts = true) (t : Tree P) : (storeWith cfg fmt p ty acts t).2.seen = t.seen := by
  have := seen_andThen (seen_andThen
    (seen_emit fmt ⟨t.name, .scope ty⟩ ⟨some (fmt.clear p), [], t.seen, t.values, t.nodes⟩)
    (f := performL cfg fmt true acts) fun w' hw => (performL_seen cfg fmt true acts h w').trans hw)
    (f := emit fmt ⟨[], .scopeEnd⟩) fun w' hw => (seen_emit fmt _ w').trans hw
  simp only [storeWith, Tree.work]
  revert this
  generalize andThen (andThen (emit fmt _ _) _) _ = r
  obtain ⟨r, w⟩ := r
  cases r <;> exact id

/-! ## Agreement with the functions on tokens -/

/-- Result without what was read or written. -/
def outcome {α : Type} : Res α → Res Unit
  | .ok _ => .ok ()
  | .err => .err
  | .ub => .ub
  | .fuel => .fuel

theorem readScope_agrees (fmt : Fmt P) (fuel : Nat) : ∀ depth (s : Reading P),
    (readScope fmt false fuel depth s).1 = outcome (Doc.readScope fmt.read fuel depth (s.parser, s.source)) ∧
    ∀ c x, Doc.readScope fmt.read fuel depth (s.parser, s.source) = .ok (c, x) →
      (readScope fmt false fuel depth s).2 = (c, ⟨x.1, x.2, s.out⟩) := by
  induction fuel with
  | zero =>
    intro depth s
    simp [readScope, Doc.readScope, outcome]
  | succ fuel ih =>
    intro depth s
    rw [readScope, Doc.readScope]
    cases fmt.read (s.parser, s.source) with
    | err => simp [outcome]
    | ub => simp [outcome]
    | fuel => simp [outcome]
    | ok y =>
      obtain ⟨e, p, src⟩ := y
      simp only [Res.ok_bind]
      cases e.tok with
      | scopeEnd =>
        refine ⟨rfl, ?_⟩
        intro c x h
        cases h
        rfl
      | val v =>
        obtain ⟨h1, h2⟩ := ih depth ⟨p, src, s.out⟩
        simp only at h1 h2 ⊢
        cases hr : Doc.readScope fmt.read fuel depth (p, src) with
        | ok r =>
          obtain ⟨⟨vs, ns⟩, x⟩ := r
          rw [hr] at h1
          have h2 := h2 _ _ hr
          refine ⟨h1, ?_⟩
          intro c x' h
          simp only [Res.ok_bind, Res.ok.injEq, Prod.mk.injEq] at h
          obtain ⟨h, rfl⟩ := h
          subst h
          rw [h2]
        | err => rw [hr] at h1; simp [h1, outcome]
        | ub => rw [hr] at h1; simp [h1, outcome]
        | fuel => rw [hr] at h1; simp [h1, outcome]
      | scope t =>
        simp only
        split
        · simp [outcome]
        · simp only [Bool.false_eq_true, if_false]
          obtain ⟨h1, h2⟩ := ih (depth + 1) ⟨p, src, s.out⟩
          simp only at h1 h2
          cases hr : Doc.readScope fmt.read fuel (depth + 1) (p, src) with
          | err => rw [hr] at h1; simp [h1, outcome]
          | ub => rw [hr] at h1; simp [h1, outcome]
          | fuel => rw [hr] at h1; simp [h1, outcome]
          | ok r =>
            obtain ⟨⟨vs', ns'⟩, p', src'⟩ := r
            rw [hr] at h1
            have h2 := h2 _ _ hr
            obtain ⟨h3, h4⟩ := ih depth ⟨p', src', s.out⟩
            simp only [h1, outcome, h2, Res.ok_bind]
            simp only at h3 h4
            cases hr' : Doc.readScope fmt.read fuel depth (p', src') with
            | ok r =>
              obtain ⟨⟨vs, ns⟩, x⟩ := r
              rw [hr'] at h3
              have h4 := h4 _ _ hr'
              refine ⟨h3, ?_⟩
              intro c x' h
              simp only [Res.ok_bind, Res.ok.injEq, Prod.mk.injEq] at h
              obtain ⟨h, rfl⟩ := h
              subst h
              rw [h4]
            | err => rw [hr'] at h3; simp [h3, outcome]
            | ub => rw [hr'] at h3; simp [h3, outcome]
            | fuel => rw [hr'] at h3; simp [h3, outcome]

mutual
/-- What a function does that stores an item. -/
def act : Item → Act
  | .val n v => .value n v
  | .scope n t kids => .scope n t (actL kids)
def actL : List Item → List Act
  | [] => []
  | i :: is => act i :: actL is
end

/-- Acts that write tokens: same outcome as the writer on the tokens, same state if it succeeds. -/
def Writes (fmt : Fmt P) (f : Work P → Res Unit × Work P) (evs : List Event) : Prop :=
  ∀ (w : Work P) (p : P), w.parser = some p →
    (f w).1 = outcome (writeAll fmt (p, w.out) evs) ∧
    ∀ p' out, writeAll fmt (p, w.out) evs = .ok (p', out) →
      (f w).2 = { w with parser := some p', out := out }

theorem writeAll_append (fmt : Fmt P) (es es' : List Event) (x : P × Bytes) :
    writeAll fmt x (es ++ es') = (writeAll fmt x es).bind fun y => writeAll fmt y es' := by
  induction es generalizing x with
  | nil => rfl
  | cons e es ih =>
    simp only [List.cons_append, writeAll]
    cases fmt.write x e with
    | ok y => exact ih y
    | err => rfl
    | ub => rfl
    | fuel => rfl

theorem Writes.emit (fmt : Fmt P) (e : Event) : Writes fmt (emit fmt e) [e] := by
  intro w p hp
  simp only [TreeApi.emit, hp, writeAll]
  cases fmt.write (p, w.out) e with
  | ok y =>
    obtain ⟨p', out⟩ := y
    refine ⟨rfl, ?_⟩
    intro p'' out' h
    simp only [Res.ok_bind, Res.ok.injEq, Prod.mk.injEq] at h
    obtain ⟨rfl, rfl⟩ := h
    rfl
  | err => simp [outcome]
  | ub => simp [outcome]
  | fuel => simp [outcome]

theorem Writes.andThen {fmt : Fmt P} {f g : Work P → Res Unit × Work P} {es es' : List Event}
    (hf : Writes fmt f es) (hg : Writes fmt g es') :
    Writes fmt (fun w => andThen (f w) g) (es ++ es') := by
  intro w p hp
  obtain ⟨h1, h2⟩ := hf w p hp
  rw [writeAll_append]
  simp only
  revert h1 h2
  generalize f w = r
  obtain ⟨r, w'⟩ := r
  cases writeAll fmt (p, w.out) es with
  | ok y =>
    obtain ⟨p', out⟩ := y
    intro h1 h2
    have h3 := h2 p' out rfl
    simp only [outcome] at h1 h3
    subst h1 h3
    obtain ⟨h3, h4⟩ := hg { w with parser := some p', out := out } p' rfl
    exact ⟨h3, h4⟩
  | err => intro h1 h2; simp only [outcome] at h1; subst h1; exact ⟨rfl, fun _ _ h => by cases h⟩
  | ub => intro h1 h2; simp only [outcome] at h1; subst h1; exact ⟨rfl, fun _ _ h => by cases h⟩
  | fuel => intro h1 h2; simp only [outcome] at h1; subst h1; exact ⟨rfl, fun _ _ h => by cases h⟩

mutual
theorem perform_writes (cfg : HTable.Cfg Nat) (fmt : Fmt P) :
    ∀ i : Item, Writes fmt (perform cfg fmt true (act i)) i.events
  | .val n v => by
    have h : perform cfg fmt true (act (.val n v)) = emit fmt ⟨n, .val v⟩ := by
      funext w
      simp [act, perform, insertValue]
    rw [h]
    exact Writes.emit fmt _
  | .scope n t kids => by
    have h : perform cfg fmt true (act (.scope n t kids)) = fun w =>
        TreeApi.andThen (TreeApi.andThen (emit fmt ⟨n, .scope t⟩ w) (performL cfg fmt true (actL kids)))
          (emit fmt ⟨[], .scopeEnd⟩) := by
      funext w
      simp [act, perform, openScope]
    rw [h]
    exact ((Writes.emit fmt _).andThen (performL_writes cfg fmt kids)).andThen (Writes.emit fmt _)
theorem performL_writes (cfg : HTable.Cfg Nat) (fmt : Fmt P) :
    ∀ is : List Item, Writes fmt (performL cfg fmt true (actL is)) (Item.eventsL is)
  | [] => by
    intro w p hp
    refine ⟨by simp [actL, performL, Item.eventsL, writeAll, outcome], ?_⟩
    intro p' out h
    simp only [Item.eventsL, writeAll, Res.ok.injEq, Prod.mk.injEq] at h
    obtain ⟨rfl, rfl⟩ := h
    simp only [actL, performL, ← hp]
  | i :: is => by
    have h : performL cfg fmt true (actL (i :: is)) = fun w =>
        TreeApi.andThen (perform cfg fmt true (act i) w) (performL cfg fmt true (actL is)) := by
      funext w
      simp [actL, performL]
    rw [h]
    exact (perform_writes cfg fmt i).andThen (performL_writes cfg fmt is)
end

/-- If `parsing` is not set, what has been written before makes no difference to reading. -/
theorem readScope_out (fmt : Fmt P) : ∀ (fuel depth : Nat) (p : P) (src o1 o2 : Bytes),
    let x := readScope fmt false fuel depth ⟨p, src, o1⟩
    let y := readScope fmt false fuel depth ⟨p, src, o2⟩
    x.1 = y.1 ∧ x.2.1 = y.2.1 ∧ x.2.2.parser = y.2.2.parser ∧ x.2.2.source = y.2.2.source := by
  intro fuel
  induction fuel with
  | zero => intro depth p src o1 o2; exact ⟨rfl, rfl, rfl, rfl⟩
  | succ fuel ih =>
    intro depth p src o1 o2
    simp only [readScope]
    cases fmt.read (p, src) with
    | err => exact ⟨rfl, rfl, rfl, rfl⟩
    | ub => exact ⟨rfl, rfl, rfl, rfl⟩
    | fuel => exact ⟨rfl, rfl, rfl, rfl⟩
    | ok r =>
      obtain ⟨e, p', src'⟩ := r
      simp only
      cases e.tok with
      | scopeEnd => exact ⟨rfl, rfl, rfl, rfl⟩
      | val v =>
        obtain ⟨h1, h2, h3, h4⟩ := ih depth p' src' o1 o2
        simp only at h1 h2 h3 h4 ⊢
        exact ⟨h1, by rw [h2], h3, h4⟩
      | scope t =>
        simp only [Bool.false_eq_true, if_false]
        split
        · exact ⟨rfl, rfl, rfl, rfl⟩
        · obtain ⟨h1, h2, h3, h4⟩ := ih (depth + 1) p' src' o1 o2
          revert h1 h2 h3 h4
          generalize readScope fmt false fuel (depth + 1) ⟨p', src', o1⟩ = x
          generalize readScope fmt false fuel (depth + 1) ⟨p', src', o2⟩ = y
          obtain ⟨r1, c1, ⟨q1, z1, w1⟩⟩ := x
          obtain ⟨r2, c2, ⟨q2, z2, w2⟩⟩ := y
          intro h1 h2 h3 h4
          simp only at h1 h2 h3 h4
          subst h1 h2 h3 h4
          cases r1 with
          | ok u =>
            obtain ⟨h1, h2, h3, h4⟩ := ih depth q1 z1 w1 w2
            simp only at h1 h2 h3 h4 ⊢
            exact ⟨h1, by rw [h2], h3, h4⟩
          | err => exact ⟨rfl, rfl, rfl, rfl⟩
          | ub => exact ⟨rfl, rfl, rfl, rfl⟩
          | fuel => exact ⟨rfl, rfl, rfl, rfl⟩

end Srl.TreeApi
