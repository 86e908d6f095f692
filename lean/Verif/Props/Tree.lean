import Verif.Lemmas.Tree
import Verif.Props.Typed

/-! # Calls on tree objects: C37 and C38 -/

namespace Srl.Props
open TreeApi
open Shared (SeenIs seen_new valueName)

section
variable {P : Type}

/-- The name of the root is not written. -/
def RootUnnamed (fmt : Fmt P) : Prop := ∀ p n ty,
  fmt.write (fmt.clear p, []) ⟨n, .scope ty⟩ = fmt.write (fmt.clear p, []) ⟨[], .scope ty⟩

/-- Calls that store no shared pointers. -/
def plainOp : Op P → Bool
  | .store _ _ _ acts => plainL acts
  | .pack _ _ acts => plainL acts
  | .insert acts => plainL acts
  | _ => true

/-- What holds of a tree object between calls. -/
private structure Good (cfg : HTable.Cfg Nat) (t : Tree P) : Prop where
  seen : ∃ l, SeenIs cfg t.seen l

/-- Trees that cannot be told apart as long as nothing depends on the flag `parsing`. -/
private structure Near (cfg : HTable.Cfg Nat) (b : Bool) (t1 t2 : Tree P) : Prop where
  name : t1.name = t2.name
  type : t1.type = t2.type
  values : t1.values = t2.values
  nodes : t1.nodes = t2.nodes
  seen : ∃ l1 l2, SeenIs cfg t1.seen l1 ∧ SeenIs cfg t2.seen l2 ∧ (b = true → l1 = l2)

private structure Equal (cfg : HTable.Cfg Nat) (b : Bool) (t1 t2 : Tree P) : Prop where
  near : Near cfg b t1 t2
  parsing : t1.parsing = t2.parsing
  parser : t2.parsing = true → t1.parser = t2.parser
  out : t2.parsing = true → t1.out = t2.out

private theorem storeWith_same (cfg : HTable.Cfg Nat) (fmt : Fmt P) (p : P) (type : ScopeTy)
    (acts : List Act) (b : Bool) (t1 t2 : Tree P) (hn : t1.name = t2.name)
    (hs : ∃ l1 l2, SeenIs cfg t1.seen l1 ∧ SeenIs cfg t2.seen l2 ∧ (b = true → l1 = l2))
    (hb : b = true ∨ plainL acts = true) :
    let x := storeWith cfg fmt p type acts t1
    let y := storeWith cfg fmt p type acts t2
    x.1 = y.1 ∧ x.2.parsing = y.2.parsing ∧ x.2.parser = y.2.parser ∧ x.2.out = y.2.out ∧
    (∃ l1 l2, SeenIs cfg x.2.seen l1 ∧ SeenIs cfg y.2.seen l2 ∧ (b = true → l1 = l2)) ∧
    (x.2.name = t1.name ∧ x.2.type = t1.type ∧ x.2.values = t1.values ∧ x.2.nodes = t1.nodes) ∧
    (y.2.name = t2.name ∧ y.2.type = t2.type ∧ y.2.values = t2.values ∧ y.2.nodes = t2.nodes) := by
  intro x y
  let w1 : Work P := ⟨some (fmt.clear p), [], t1.seen, t1.values, t1.nodes⟩
  let w2 : Work P := ⟨some (fmt.clear p), [], t2.seen, t2.values, t2.nodes⟩
  have hw : Like cfg true b w1 w2 := ⟨fun _ => rfl, fun _ => rfl, by simp, by simp, hs⟩
  have hsame := ((emit_same cfg fmt b ⟨t1.name, .scope type⟩ w1 w2 hw).andThen
    (fun u1 u2 hu => performL_same cfg fmt true b acts u1 u2 hb hu)).andThen
    (emit_same cfg fmt b ⟨[], .scopeEnd⟩)
  have k1 : Kept true w1 (andThen (andThen (emit fmt ⟨t1.name, .scope type⟩ w1)
      (performL cfg fmt true acts)) (emit fmt ⟨[], .scopeEnd⟩)).2 :=
    kept_andThen (kept_andThen (kept_emit fmt _ w1) (performL_kept cfg fmt true acts)) (kept_emit fmt _)
  have k2 : Kept true w2 (andThen (andThen (emit fmt ⟨t1.name, .scope type⟩ w2)
      (performL cfg fmt true acts)) (emit fmt ⟨[], .scopeEnd⟩)).2 :=
    kept_andThen (kept_andThen (kept_emit fmt _ w2) (performL_kept cfg fmt true acts)) (kept_emit fmt _)
  simp only [x, y, storeWith, Tree.work, ← hn]
  change Same cfg true b (andThen (andThen (emit fmt ⟨t1.name, .scope type⟩ w1)
      (performL cfg fmt true acts)) (emit fmt ⟨[], .scopeEnd⟩)) _ at hsame
  revert hsame k1 k2
  generalize andThen (andThen (emit fmt ⟨t1.name, .scope type⟩ w1) (performL cfg fmt true acts))
    (emit fmt ⟨[], .scopeEnd⟩) = r1
  generalize andThen (andThen (emit fmt ⟨t1.name, .scope type⟩ w2) (performL cfg fmt true acts))
    (emit fmt ⟨[], .scopeEnd⟩) = r2
  intro k1 k2 hsame
  obtain ⟨r1, u1⟩ := r1
  obtain ⟨r2, u2⟩ := r2
  obtain ⟨h1, h2⟩ := hsame
  simp only at h1 h2 k1 k2
  subst h1
  have hv1 := k1.values rfl
  have hv2 := k2.values rfl
  have hn1 := k1.nodes rfl
  have hn2 := k2.nodes rfl
  cases r1 <;> simp only [Tree.take]
  · exact ⟨by rw [h2.out rfl], trivial, h2.parser rfl, h2.out rfl, h2.seen, ⟨trivial, trivial, hv1, hn1⟩,
      ⟨trivial, trivial, hv2, hn2⟩⟩
  all_goals exact ⟨trivial, trivial, h2.parser rfl, h2.out rfl, h2.seen, ⟨trivial, trivial, hv1, hn1⟩,
      ⟨trivial, trivial, hv2, hn2⟩⟩

private theorem seen_cleared {cfg : HTable.Cfg Nat} {b b' : Bool} {t1 t2 : Tree P}
    (h : ∃ l1 l2, SeenIs cfg t1.seen l1 ∧ SeenIs cfg t2.seen l2 ∧ (b = true → l1 = l2)) :
    ∃ l1 l2, SeenIs cfg t1.clear.seen l1 ∧ SeenIs cfg t2.clear.seen l2 ∧ (b' = true → l1 = l2) := by
  obtain ⟨l1, l2, h1, h2, -⟩ := h
  exact ⟨[], [], seen_clear h1, seen_clear h2, fun _ => rfl⟩

private theorem drop_same (keep : Bool) (t : Tree P) : (drop keep t).parsing = t.parsing ∧
    (drop keep t).parser = (if keep then t.parser else none) ∧ (drop keep t).out = t.out ∧
    (drop keep t).seen = t.seen ∧ (drop keep t).name = t.name ∧ (drop keep t).type = t.type ∧
    (drop keep t).values = t.values ∧ (drop keep t).nodes = t.nodes := by
  cases keep <;> simp [drop]

private theorem Near.clear {cfg : HTable.Cfg Nat} {b b' : Bool} {t1 t2 : Tree P} (h : Near cfg b t1 t2) :
    Near cfg b' t1.clear t2.clear :=
  ⟨rfl, h.type, rfl, rfl, seen_cleared h.seen⟩

private theorem Near.drop {cfg : HTable.Cfg Nat} {b : Bool} {t1 t2 : Tree P} (h : Near cfg b t1 t2)
    (keep : Bool) : Near cfg b (drop keep t1) (drop keep t2) := by
  cases keep
  · exact ⟨h.name, h.type, h.values, h.nodes, h.seen⟩
  · exact h

private theorem Equal.drop {cfg : HTable.Cfg Nat} {b : Bool} {t1 t2 : Tree P} (h : Equal cfg b t1 t2)
    (keep : Bool) : Equal cfg b (drop keep t1) (drop keep t2) := by
  cases keep
  · exact ⟨h.near.drop false, h.parsing, fun _ => rfl, h.out⟩
  · exact h

/-- Saving and clearing do not tell trees apart that differ in `parsing`. -/
private theorem step_near (cfg : HTable.Cfg Nat) (fmt : Fmt P) (b : Bool) (t1 t2 : Tree P)
    (h : Near cfg b t1 t2) (op : Op P) (ho : (∃ p k, op = .save p k) ∨ op = .clear) :
    (step cfg fmt t1 op).1 = (step cfg fmt t2 op).1 ∧
    Near cfg b (step cfg fmt t1 op).2 (step cfg fmt t2 op).2 := by
  rcases ho with ⟨p, k, rfl⟩ | rfl
  · simp only [step, save, h.name, h.type, h.values, h.nodes]
    cases writeAll fmt (fmt.clear p, []) ((Node.mk t2.type t2.values t2.nodes).events t2.name) with
    | ok x => exact ⟨rfl, Near.drop (by exact ⟨rfl, rfl, rfl, rfl, h.seen⟩) k⟩
    | err => exact ⟨rfl, Near.drop (by exact ⟨rfl, rfl, rfl, rfl, h.seen⟩) k⟩
    | ub => exact ⟨rfl, Near.drop (by exact ⟨rfl, rfl, rfl, rfl, h.seen⟩) k⟩
    | fuel => exact ⟨rfl, Near.drop (by exact ⟨rfl, rfl, rfl, rfl, h.seen⟩) k⟩
  · exact ⟨rfl, h.clear⟩

/-- Storing and packing make the trees equal. -/
private theorem step_sync (cfg : HTable.Cfg Nat) (fmt : Fmt P) (b : Bool) (t1 t2 : Tree P)
    (h : Near cfg b t1 t2) (op : Op P)
    (ho : (∃ p k ty acts, op = .store p k ty acts) ∨ ∃ p k acts, op = .pack p k acts)
    (hb : b = true ∨ plainOp op = true) :
    (step cfg fmt t1 op).1 = (step cfg fmt t2 op).1 ∧
    Equal cfg b (step cfg fmt t1 op).2 (step cfg fmt t2 op).2 := by
  rcases ho with ⟨p, k, ty, acts, rfl⟩ | ⟨p, k, acts, rfl⟩
  · obtain ⟨h1, h2, h3, h4, h5, ⟨a1, a2, a3, a4⟩, c1, c2, c3, c4⟩ :=
      storeWith_same cfg fmt p ty acts b t1 t2 h.name h.seen hb
    exact ⟨h1, Equal.drop ⟨⟨by rw [a1, c1, h.name], by rw [a2, c2, h.type], by rw [a3, c3, h.values],
      by rw [a4, c4, h.nodes], h5⟩, h2, fun _ => h3, fun _ => h4⟩ k⟩
  · have h := h.clear (b' := b)
    obtain ⟨h1, h2, h3, h4, h5, ⟨a1, a2, a3, a4⟩, c1, c2, c3, c4⟩ :=
      storeWith_same cfg fmt p .object acts b t1.clear t2.clear h.name h.seen hb
    exact ⟨h1, Equal.drop ⟨⟨by rw [a1, c1, h.name], by rw [a2, c2, h.type], by rw [a3, c3, h.values],
      by rw [a4, c4, h.nodes], h5⟩, h2, fun _ => h3, fun _ => h4⟩ k⟩

/-- Nothing tells equal trees apart. -/
private theorem step_equal (cfg : HTable.Cfg Nat) (fmt : Fmt P) (b : Bool) (t1 t2 : Tree P)
    (h : Equal cfg b t1 t2) (op : Op P) (hb : b = true ∨ plainOp op = true) :
    (step cfg fmt t1 op).1 = (step cfg fmt t2 op).1 ∧
    Equal cfg b (step cfg fmt t1 op).2 (step cfg fmt t2 op).2 := by
  cases op with
  | store p k ty acts => exact step_sync cfg fmt b t1 t2 h.near _ (.inl ⟨_, _, _, _, rfl⟩) hb
  | pack p k acts => exact step_sync cfg fmt b t1 t2 h.near _ (.inr ⟨_, _, _, rfl⟩) hb
  | insert acts =>
    have hl : Like cfg t2.parsing b t1.work t2.work :=
      ⟨h.parser, h.out, fun _ => h.near.values, fun _ => h.near.nodes, h.near.seen⟩
    obtain ⟨h1, h2⟩ := performL_same cfg fmt t2.parsing b acts _ _ hb hl
    have k1 := performL_kept cfg fmt t2.parsing acts t1.work
    have k2 := performL_kept cfg fmt t2.parsing acts t2.work
    simp only [step, h.parsing]
    refine ⟨by rw [h1], ⟨⟨h.near.name, h.near.type, ?_, ?_, h2.seen⟩, h.parsing, h2.parser, h2.out⟩⟩ <;>
      simp only [Tree.take] <;> cases hp : t2.parsing <;> rw [hp] at k1 k2 h2
    · exact h2.values rfl
    · rw [k1.values rfl, k2.values rfl]; exact h.near.values
    · exact h2.nodes rfl
    · rw [k1.nodes rfl, k2.nodes rfl]; exact h.near.nodes
  | save p k =>
    simp only [step, save, h.near.name, h.near.type, h.near.values, h.near.nodes]
    cases writeAll fmt (fmt.clear p, []) ((Node.mk t2.type t2.values t2.nodes).events t2.name) with
    | ok x => exact ⟨rfl, Equal.drop (by exact ⟨⟨rfl, rfl, rfl, rfl, h.near.seen⟩, h.parsing, fun _ => rfl, fun _ => rfl⟩) k⟩
    | err => exact ⟨rfl, Equal.drop (by exact ⟨⟨rfl, rfl, rfl, rfl, h.near.seen⟩, h.parsing, fun _ => rfl, h.out⟩) k⟩
    | ub => exact ⟨rfl, Equal.drop (by exact ⟨⟨rfl, rfl, rfl, rfl, h.near.seen⟩, h.parsing, fun _ => rfl, h.out⟩) k⟩
    | fuel => exact ⟨rfl, Equal.drop (by exact ⟨⟨rfl, rfl, rfl, rfl, h.near.seen⟩, h.parsing, fun _ => rfl, h.out⟩) k⟩
  | load p k fuel s =>
    have hs := (h.near.clear (b' := b)).seen
    simp only [step, load]
    have hp : t1.clear.parsing = t2.parsing := h.parsing
    have hp2 : t2.clear.parsing = t2.parsing := rfl
    have hq : t2.parsing = true → t1.clear.out = t2.clear.out := h.out
    rw [hp, hp2]
    split
    any_goals exact ⟨rfl, Equal.drop (by exact ⟨⟨rfl, h.near.type, rfl, rfl, hs⟩, rfl, fun _ => rfl, hq⟩) k⟩
    split
    · rename_i p' s' _ _ _ _
      cases hpar : t2.parsing with
      | true =>
        rw [hq hpar]
        exact ⟨rfl, Equal.drop (by exact ⟨⟨rfl, rfl, rfl, rfl, hs⟩, rfl, fun _ => rfl, fun _ => rfl⟩) k⟩
      | false =>
        obtain ⟨h1, h2, h3, -⟩ := readScope_out fmt fuel 0 p' s' t1.clear.out t2.clear.out
        rw [h1, h2, h3]
        exact ⟨rfl, Equal.drop (by exact ⟨⟨rfl, rfl, rfl, rfl, hs⟩, rfl, fun _ => rfl,
          nofun⟩) k⟩
    · exact ⟨rfl, Equal.drop (by exact ⟨⟨rfl, h.near.type, rfl, rfl, hs⟩, rfl, fun _ => rfl, hq⟩) k⟩
  | clear => exact ⟨rfl, ⟨h.near.clear, h.parsing, h.parser, h.out⟩⟩

private theorem Good.equal {cfg : HTable.Cfg Nat} {t : Tree P} (h : Good cfg t) (b : Bool) :
    Equal cfg b t t := by
  obtain ⟨l, hl⟩ := h.seen
  exact ⟨⟨rfl, rfl, rfl, rfl, l, l, hl, hl, fun _ => rfl⟩, rfl, fun _ => rfl, fun _ => rfl⟩

private theorem good_step {cfg : HTable.Cfg Nat} {fmt : Fmt P} {t : Tree P}
    (h : Good cfg t) (op : Op P) : Good cfg (step cfg fmt t op).2 := by
  obtain ⟨-, he⟩ := step_equal cfg fmt true t t (h.equal true) op (.inl rfl)
  obtain ⟨l, -, hl, -⟩ := he.near.seen
  exact ⟨l, hl⟩

private theorem good_run {cfg : HTable.Cfg Nat} {fmt : Fmt P} (ops : List (Op P))
    {t : Tree P} (h : Good cfg t) : Good cfg (run cfg fmt t ops).2 := by
  induction ops generalizing t with
  | nil => exact h
  | cons op ops ih => exact ih (good_step h op)

private theorem good_new (cfg : HTable.Cfg Nat) : Good cfg (Tree.new (P := P)) :=
  ⟨[], seen_new cfg⟩

private theorem run_equal (cfg : HTable.Cfg Nat) (fmt : Fmt P) (b : Bool) (ops : List (Op P))
    (t1 t2 : Tree P) (h : Equal cfg b t1 t2) (hb : b = true ∨ ∀ op ∈ ops, plainOp op = true) :
    (run cfg fmt t1 ops).1 = (run cfg fmt t2 ops).1 := by
  induction ops generalizing t1 t2 with
  | nil => rfl
  | cons op ops ih =>
    obtain ⟨h1, h2⟩ := step_equal cfg fmt b t1 t2 h op (hb.imp id fun h => h op (by simp))
    simp only [run, h1, ih _ _ h2 (hb.imp id fun h o ho => h o (by simp [ho]))]

/-- Calls that store nothing shared leave the table of shared objects as it was, or empty. -/
private theorem plain_empty {cfg : HTable.Cfg Nat} {fmt : Fmt P} {t : Tree P} (op : Op P)
    (hp : plainOp op = true) (h : SeenIs cfg t.seen []) : SeenIs cfg (step cfg fmt t op).2.seen [] := by
  cases op with
  | store p k ty acts =>
    simp only [step, (drop_same k _).2.2.2.1]
    rw [storeWith_seen cfg fmt p ty acts hp t]
    exact h
  | pack p k acts =>
    simp only [step, (drop_same k _).2.2.2.1]
    rw [storeWith_seen cfg fmt p .object acts hp t.clear]
    exact seen_clear h
  | insert acts =>
    have := performL_seen cfg fmt t.parsing acts hp t.work
    simp only [step, Tree.take]
    rw [this]
    exact h
  | save p k =>
    simp only [step, save, (drop_same k _).2.2.2.1]
    split <;> exact h
  | load p k fuel s =>
    simp only [step, load, (drop_same k _).2.2.2.1]
    split
    any_goals exact seen_clear h
    split <;> exact seen_clear h
  | clear => exact seen_clear h

private theorem plain_run {cfg : HTable.Cfg Nat} {fmt : Fmt P} (ops : List (Op P)) {t : Tree P}
    (hp : ∀ op ∈ ops, plainOp op = true) (h : SeenIs cfg t.seen []) :
    SeenIs cfg (run cfg fmt t ops).2.seen [] := by
  induction ops generalizing t with
  | nil => exact h
  | cons op ops ih => exact ih (fun o ho => hp o (by simp [ho])) (plain_empty op (hp op (by simp)) h)

/-- The result of a store does not depend on the name of the root. -/
private theorem storeWith_unnamed (cfg : HTable.Cfg Nat) {fmt : Fmt P} (hf : RootUnnamed fmt) (p : P)
    (ty : ScopeTy) (acts : List Act) (t : Tree P) :
    (storeWith cfg fmt p ty acts t).1 = (storeWith cfg fmt p ty acts { t with name := [] }).1 := by
  have he : ∀ w : Work P, w.parser = some (fmt.clear p) → w.out = [] →
      emit fmt ⟨t.name, .scope ty⟩ w = emit fmt ⟨[], .scope ty⟩ w := by
    intro w h1 h2
    simp only [emit, h1, h2, hf p t.name ty]
  simp only [storeWith, Tree.work]
  rw [he _ rfl rfl]
  split <;> simp only

/-- Trees give the same results when storing, whatever they hold, if their tables of shared objects agree,
or nothing shared is stored. -/
private theorem store_same {cfg : HTable.Cfg Nat} {fmt : Fmt P} (hf : RootUnnamed fmt) (b : Bool)
    (t1 t2 : Tree P) (p : P) (ty : ScopeTy) (acts : List Act)
    (hs : ∃ l1 l2, SeenIs cfg t1.seen l1 ∧ SeenIs cfg t2.seen l2 ∧ (b = true → l1 = l2))
    (hb : b = true ∨ plainL acts = true) :
    (storeWith cfg fmt p ty acts t1).1 = (storeWith cfg fmt p ty acts t2).1 := by
  rw [storeWith_unnamed cfg hf, storeWith_unnamed cfg hf p ty acts t2]
  exact (storeWith_same cfg fmt p ty acts b { t1 with name := [] } { t2 with name := [] } rfl hs hb).1

/-! ## C37 -/

/-- C37, objects without shared pointers, or on trees that have seen none: after any sequence of calls,
failed ones included, storing gives what it gives with a new tree object; so storing twice gives the same
twice. Missing: objects with shared pointers stored repeatedly, for which it does not hold (see
`shared_store_twice`). -/
theorem store_any_time_partial (cfg : HTable.Cfg Nat) (fmt : Fmt P) (hf : RootUnnamed fmt)
    (ops : List (Op P)) (p : P) (keep : Bool) (ty : ScopeTy) (acts : List Act)
    (h : plainL acts = true ∨ ∀ op ∈ ops, plainOp op = true) :
    (step cfg fmt (run cfg fmt Tree.new ops).2 (.store p keep ty acts)).1 =
    (step cfg fmt Tree.new (.store p keep ty acts)).1 := by
  have hg := good_run (fmt := fmt) ops (good_new cfg)
  rcases h with h | h
  · obtain ⟨l, hl⟩ := hg.seen
    exact store_same hf false _ Tree.new p ty acts ⟨l, [], hl, seen_new cfg, by simp⟩ (.inr h)
  · exact store_same hf true _ Tree.new p ty acts
      ⟨[], [], plain_run ops h (seen_new cfg), seen_new cfg, fun _ => rfl⟩ (.inl rfl)

/-- C37, `Tree::pack`, which clears the tree first: for all objects. -/
theorem pack_any_time (cfg : HTable.Cfg Nat) (fmt : Fmt P) (hf : RootUnnamed fmt)
    (ops : List (Op P)) (p : P) (keep : Bool) (acts : List Act) :
    (step cfg fmt (run cfg fmt Tree.new ops).2 (.pack p keep acts)).1 =
    (step cfg fmt Tree.new (.store p keep .object acts)).1 := by
  obtain ⟨l, hl⟩ := (good_run ops (good_new cfg)).seen
  exact store_same hf true (run cfg fmt Tree.new ops).2.clear Tree.new p .object acts
    ⟨[], [], seen_clear hl, seen_new cfg, fun _ => rfl⟩ (.inl rfl)

/-- The same of `Tree::store` after `Tree::clear`. -/
theorem store_after_clear (cfg : HTable.Cfg Nat) (fmt : Fmt P) (hf : RootUnnamed fmt)
    (ops : List (Op P)) (p : P) (keep : Bool) (ty : ScopeTy) (acts : List Act) :
    (step cfg fmt (run cfg fmt Tree.new (ops ++ [.clear])).2 (.store p keep ty acts)).1 =
    (step cfg fmt Tree.new (.store p keep ty acts)).1 := by
  have hr : ∀ t : Tree P, (run cfg fmt t (ops ++ [.clear])).2 = ((run cfg fmt t ops).2).clear := by
    induction ops with
    | nil => intro t; rfl
    | cons op ops ih => intro t; exact ih _
  obtain ⟨l, hl⟩ := (good_run ops (good_new cfg)).seen
  rw [hr]
  exact store_same hf true (run cfg fmt Tree.new ops).2.clear Tree.new p ty acts
    ⟨[], [], seen_clear hl, seen_new cfg, fun _ => rfl⟩ (.inl rfl)

/-- What a store gives with a new tree object: the tokens of the object, written one after the other. -/
theorem store_is_write (cfg : HTable.Cfg Nat) (fmt : Fmt P) (p : P) (keep : Bool) (ty : ScopeTy)
    (items : List Item) :
    (step cfg fmt Tree.new (.store p keep ty (actL items))).1 =
    (writeAll fmt (fmt.clear p, []) (Item.scope [] ty items).events).bind fun x => .ok x.2 := by
  have h := perform_writes cfg fmt (.scope [] ty items)
    ⟨some (fmt.clear p), [], Shared.Seen.new, [], []⟩ _ rfl
  obtain ⟨h1, h2⟩ := h
  simp only [act, perform, openScope, if_true] at h1 h2
  simp only [step, storeWith, Tree.new, Tree.work]
  revert h1 h2
  generalize andThen (andThen (emit fmt _ _) _) _ = r
  obtain ⟨r, w⟩ := r
  cases writeAll fmt (fmt.clear p, []) (Item.scope [] ty items).events with
  | ok x =>
    intro h1 h2
    have h3 := h2 x.1 x.2 rfl
    simp only [outcome] at h1 h3
    subst h1 h3
    rfl
  | err => intro h1 h2; simp only [outcome] at h1; subst h1; rfl
  | ub => intro h1 h2; simp only [outcome] at h1; subst h1; rfl
  | fuel => intro h1 h2; simp only [outcome] at h1; subst h1; rfl

/-- Loading, as long as no store has failed before: what `Doc.load` reads is in the tree. -/
theorem load_is_load (cfg : HTable.Cfg Nat) (fmt : Fmt P) (p : P) (keep : Bool) (fuel : Nat) (s : Bytes)
    (t : Tree P) (h : t.parsing = false) :
    (step cfg fmt t (.load p keep fuel s)).1 =
      ((Doc.load fmt.read fuel (fmt.clear p, s)).bind fun _ => .ok []) ∧
    ∀ root x, Doc.load fmt.read fuel (fmt.clear p, s) = .ok (root, x) →
      let t' := (step cfg fmt t (.load p keep fuel s)).2
      t'.name = root.name ∧ Node.mk t'.type t'.values t'.nodes = root.node := by
  simp only [step, load, Doc.load]
  cases fmt.read (fmt.clear p, s) with
  | err => exact ⟨rfl, fun _ _ h => by cases h⟩
  | ub => exact ⟨rfl, fun _ _ h => by cases h⟩
  | fuel => exact ⟨rfl, fun _ _ h => by cases h⟩
  | ok y =>
    obtain ⟨e, p', s'⟩ := y
    simp only [Res.ok_bind]
    cases e.tok with
    | val v => exact ⟨rfl, fun _ _ h => by cases h⟩
    | scopeEnd => exact ⟨rfl, fun _ _ h => by cases h⟩
    | scope ty =>
      have hp : t.clear.parsing = false := h
      simp only [hp]
      obtain ⟨h1, h2⟩ := readScope_agrees fmt fuel 0 ⟨p', s', t.clear.out⟩
      simp only at h1 h2
      cases hr : Doc.readScope fmt.read fuel 0 (p', s') with
      | ok r =>
        obtain ⟨⟨vs, ns⟩, x⟩ := r
        rw [hr] at h1
        have h2 := h2 _ _ hr
        refine ⟨by rw [h1]; rfl, ?_⟩
        intro root x' h
        simp only [Res.ok_bind, Res.ok.injEq, Prod.mk.injEq] at h
        obtain ⟨rfl, -⟩ := h
        have hd := drop_same (P := P) keep
        simp only [(hd _).2.2.2.2.1, (hd _).2.2.2.2.2.1, (hd _).2.2.2.2.2.2.1, (hd _).2.2.2.2.2.2.2, h2]
        exact ⟨trivial, trivial⟩
      | err => rw [hr] at h1; rw [h1]; exact ⟨rfl, fun _ _ h => by cases h⟩
      | ub => rw [hr] at h1; rw [h1]; exact ⟨rfl, fun _ _ h => by cases h⟩
      | fuel => rw [hr] at h1; rw [h1]; exact ⟨rfl, fun _ _ h => by cases h⟩

/-! ## C38 -/

/-- Storing is the first thing after `save` and `clear` that happens, if anything happens. -/
def storesNext : List (Op P) → Bool
  | [] => true
  | .save _ _ :: ops => storesNext ops
  | .clear :: ops => storesNext ops
  | .store _ _ _ _ :: _ => true
  | .pack _ _ _ :: _ => true
  | _ => false

private theorem run_near (cfg : HTable.Cfg Nat) (fmt : Fmt P) (b : Bool) (ops : List (Op P))
    (t1 t2 : Tree P) (h : Near cfg b t1 t2) (hb : b = true ∨ ∀ op ∈ ops, plainOp op = true)
    (hs : storesNext ops = true) :
    (run cfg fmt t1 ops).1 = (run cfg fmt t2 ops).1 := by
  induction ops generalizing t1 t2 with
  | nil => rfl
  | cons op ops ih =>
    have hb' : b = true ∨ ∀ op ∈ ops, plainOp op = true := hb.imp id fun h o ho => h o (by simp [ho])
    have hop : b = true ∨ plainOp op = true := hb.imp id fun h => h op (by simp)
    cases op with
    | save p k =>
      obtain ⟨h1, h2⟩ := step_near cfg fmt b t1 t2 h (.save p k) (.inl ⟨_, _, rfl⟩)
      simp only [run, h1, ih _ _ h2 hb' hs]
    | clear =>
      obtain ⟨h1, h2⟩ := step_near cfg fmt b t1 t2 h .clear (.inr rfl)
      simp only [run, h1, ih _ _ h2 hb' hs]
    | store p k ty acts =>
      obtain ⟨h1, h2⟩ := step_sync cfg fmt b t1 t2 h _ (.inl ⟨p, k, ty, acts, rfl⟩) hop
      simp only [run, h1, run_equal cfg fmt b ops _ _ h2 hb']
    | pack p k acts =>
      obtain ⟨h1, h2⟩ := step_sync cfg fmt b t1 t2 h _ (.inr ⟨p, k, acts, rfl⟩) hop
      simp only [run, h1, run_equal cfg fmt b ops _ _ h2 hb']
    | insert acts => cases hs
    | load p k fuel s => cases hs

private theorem store_near (cfg : HTable.Cfg Nat) (fmt : Fmt P) (t : Tree P) (h : Good cfg t) (p : P)
    (keep : Bool) (ty : ScopeTy) (acts : List Act) :
    Near cfg (plainL acts) (drop keep (storeWith cfg fmt p ty acts t).2) t := by
  obtain ⟨l, hl⟩ := h.seen
  obtain ⟨-, -, -, -, ⟨l1, -, h1, -⟩, ⟨a1, a2, a3, a4⟩, -⟩ := storeWith_same cfg fmt p ty acts true t t
    rfl (h.equal true).near.seen (.inl rfl)
  have hd := drop_same keep (storeWith cfg fmt p ty acts t).2
  refine ⟨hd.2.2.2.2.1.trans a1, hd.2.2.2.2.2.1.trans a2, hd.2.2.2.2.2.2.1.trans a3,
    hd.2.2.2.2.2.2.2.trans a4, ?_⟩
  rw [hd.2.2.2.1]
  cases hp : plainL acts with
  | false => exact ⟨l1, l, h1, hl, by simp⟩
  | true =>
    rw [storeWith_seen cfg fmt p ty acts hp t]
    exact ⟨l, l, hl, hl, fun _ => rfl⟩

/-- C38 as far as it holds: after any calls, a call of `store`, failed or not, makes no difference to all
later calls, provided that one stores next, and that the store of which we speak, or all later ones,
involve no shared pointers. Missing: `insert` and `load_source` next, and shared pointers; there it does
not hold (see `insert_after_failed_store`, `load_after_failed_store`, `shared_after_failed_store`). -/
theorem failed_store_partial (cfg : HTable.Cfg Nat) (fmt : Fmt P)
    (before after : List (Op P)) (p : P) (keep : Bool) (ty : ScopeTy) (acts : List Act)
    (hs : storesNext after = true)
    (hp : plainL acts = true ∨ ∀ op ∈ after, plainOp op = true) :
    let t := (run cfg fmt Tree.new before).2
    (run cfg fmt (step cfg fmt t (.store p keep ty acts)).2 after).1 = (run cfg fmt t after).1 :=
  run_near cfg fmt (plainL acts) after _ _
    (store_near cfg fmt _ (good_run before (good_new cfg)) p keep ty acts) hp hs

/-- The same of `pack`, which clears the tree. -/
theorem failed_pack_partial (cfg : HTable.Cfg Nat) (fmt : Fmt P)
    (before after : List (Op P)) (p : P) (keep : Bool) (acts : List Act)
    (hs : storesNext after = true)
    (hp : plainL acts = true ∨ ∀ op ∈ after, plainOp op = true) :
    let t := (run cfg fmt Tree.new before).2
    (run cfg fmt (step cfg fmt t (.pack p keep acts)).2 after).1 = (run cfg fmt t.clear after).1 :=
  run_near cfg fmt (plainL acts) after _ _
    (store_near cfg fmt _ (good_step (fmt := fmt) (good_run (fmt := fmt) before (good_new cfg)) .clear) p keep .object acts)
    hp hs

/-! ## C57 -/

/-- Every `store` and `pack` of these calls gave bytes. -/
def StoresOk (ops : List (Op P)) (results : List (Res Bytes)) : Prop :=
  ∀ x ∈ ops.zip results, (match x.1 with
    | .store _ _ _ _ => True
    | .pack _ _ _ => True
    | _ => False) → ∃ b, x.2 = .ok b

private theorem storeWith_flag (cfg : HTable.Cfg Nat) (fmt : Fmt P) (p : P) (ty : ScopeTy) (acts : List Act)
    (t : Tree P) (b : Bytes) (h : (storeWith cfg fmt p ty acts t).1 = .ok b) :
    (storeWith cfg fmt p ty acts t).2.parsing = false := by
  unfold storeWith at h ⊢
  simp only at h ⊢
  split at h
  · rfl
  · cases h
  · cases h
  · cases h

private theorem step_flag (cfg : HTable.Cfg Nat) (fmt : Fmt P) (t : Tree P) (ht : t.parsing = false)
    (op : Op P) (h : (match op with
      | .store _ _ _ _ => True
      | .pack _ _ _ => True
      | _ => False) → ∃ b, (step cfg fmt t op).1 = .ok b) : (step cfg fmt t op).2.parsing = false := by
  cases op with
  | store p k ty acts =>
    obtain ⟨b, h⟩ := h trivial
    exact (drop_same k _).1.trans (storeWith_flag cfg fmt p ty acts t b h)
  | pack p k acts =>
    obtain ⟨b, h⟩ := h trivial
    exact (drop_same k _).1.trans (storeWith_flag cfg fmt p .object acts t.clear b h)
  | insert acts => exact ht
  | save p k =>
    refine (drop_same k _).1.trans ?_
    unfold save
    split <;> exact ht
  | load p k fuel s =>
    refine (drop_same k _).1.trans ?_
    unfold load
    simp only
    split
    any_goals exact ht
    split <;> exact ht
  | clear => exact ht

private theorem run_flag (cfg : HTable.Cfg Nat) (fmt : Fmt P) : ∀ (ops : List (Op P)) (t : Tree P),
    t.parsing = false → StoresOk ops (run cfg fmt t ops).1 → (run cfg fmt t ops).2.parsing = false := by
  intro ops
  induction ops with
  | nil => intro t h _; exact h
  | cons op ops ih =>
    intro t h hs
    refine ih _ (step_flag cfg fmt t h op ?_) ?_
    · exact hs (op, _) (by simp [run])
    · intro x hx
      exact hs x (by simp only [run, List.zip_cons_cons, List.mem_cons]; exact .inr hx)

/-- C57, `store`: if no store has failed before, a store that succeeds makes no difference to all later
calls of whatever kind. Missing: shared pointers in the store and later; there it does not hold (see
`shared_store_twice`). -/
theorem successful_store_partial (cfg : HTable.Cfg Nat) (fmt : Fmt P) (before after : List (Op P)) (p : P)
    (keep : Bool) (ty : ScopeTy) (acts : List Act) (hb : StoresOk before (run cfg fmt Tree.new before).1)
    (hp : plainL acts = true ∨ ∀ op ∈ after, plainOp op = true) :
    let t := (run cfg fmt Tree.new before).2
    ∀ b, (step cfg fmt t (.store p keep ty acts)).1 = .ok b →
      (run cfg fmt (step cfg fmt t (.store p keep ty acts)).2 after).1 = (run cfg fmt t after).1 := by
  intro t b h
  have ht : t.parsing = false := run_flag cfg fmt before Tree.new rfl hb
  have h1 : (step cfg fmt t (.store p keep ty acts)).2.parsing = false :=
    step_flag cfg fmt t ht _ fun _ => ⟨b, h⟩
  exact run_equal cfg fmt (plainL acts) after _ _
    ⟨store_near cfg fmt t (good_run before (good_new cfg)) p keep ty acts, h1.trans ht.symm,
      fun hx => by (rw [ht] at hx; cases hx), fun hx => by (rw [ht] at hx; cases hx)⟩ hp

/-- C57, `to_source`: if no store has failed before, saving the tree, whether it succeeds or not, makes no
difference to all later calls; in particular it can be saved again with the same result. -/
theorem save_invisible (cfg : HTable.Cfg Nat) (fmt : Fmt P) (before after : List (Op P)) (p : P)
    (keep : Bool) (hb : StoresOk before (run cfg fmt Tree.new before).1) :
    let t := (run cfg fmt Tree.new before).2
    (run cfg fmt (step cfg fmt t (.save p keep)).2 after).1 = (run cfg fmt t after).1 := by
  intro t
  have ht : t.parsing = false := run_flag cfg fmt before Tree.new rfl hb
  obtain ⟨l, hl⟩ := (good_run (fmt := fmt) before (good_new cfg)).seen
  refine run_equal cfg fmt true after _ _ ?_ (.inl rfl)
  have hd := drop_same keep (save fmt p t).2
  have hs : (save fmt p t).2.name = t.name ∧ (save fmt p t).2.type = t.type ∧
      (save fmt p t).2.values = t.values ∧ (save fmt p t).2.nodes = t.nodes ∧
      (save fmt p t).2.seen = t.seen ∧ (save fmt p t).2.parsing = t.parsing := by
    unfold save
    split <;> exact ⟨rfl, rfl, rfl, rfl, rfl, rfl⟩
  exact ⟨⟨hd.2.2.2.2.1.trans hs.1, hd.2.2.2.2.2.1.trans hs.2.1, hd.2.2.2.2.2.2.1.trans hs.2.2.1,
      hd.2.2.2.2.2.2.2.trans hs.2.2.2.1, l, l, by simp only [step]; rw [hd.2.2.2.1, hs.2.2.2.2.1]; exact hl, hl,
      fun _ => rfl⟩, hd.1.trans hs.2.2.2.2.2,
    fun hx => by (rw [ht] at hx; cases hx), fun hx => by (rw [ht] at hx; cases hx)⟩

/-- C57, `load_source`: if no store has failed before, loading a document and everything after it gives
what it gives with a new tree object. -/
theorem load_any_time (cfg : HTable.Cfg Nat) (fmt : Fmt P) (before after : List (Op P)) (p : P)
    (keep : Bool) (fuel : Nat) (s : Bytes) (hb : StoresOk before (run cfg fmt Tree.new before).1)
    (hr : ∃ root x, Doc.load fmt.read fuel (fmt.clear p, s) = .ok (root, x)) :
    (run cfg fmt (run cfg fmt Tree.new before).2 (.load p keep fuel s :: after)).1 =
    (run cfg fmt Tree.new (.load p keep fuel s :: after)).1 := by
  have ht : (run cfg fmt Tree.new before).2.parsing = false := run_flag cfg fmt before Tree.new rfl hb
  obtain ⟨l, hl⟩ := (good_run (fmt := fmt) before (good_new cfg)).seen
  obtain ⟨root, x, hr⟩ := hr
  revert ht hl
  generalize (run cfg fmt Tree.new before).2 = t
  intro ht hl
  obtain ⟨a1, a2⟩ := load_is_load cfg fmt p keep fuel s t ht
  obtain ⟨c1, c2⟩ := load_is_load cfg fmt p keep fuel s Tree.new rfl
  obtain ⟨a3, a4⟩ := a2 root x hr
  obtain ⟨c3, c4⟩ := c2 root x hr
  simp only [run, a1, c1]
  congr 1
  have e := a4.trans c4.symm
  simp only [Node.mk.injEq] at e
  have seen : ∀ t : Tree P, (step cfg fmt t (.load p keep fuel s)).2.seen = HTable.clear t.seen := by
    intro t
    simp only [step, (drop_same keep _).2.2.2.1, load]
    split
    any_goals rfl
    split <;> rfl
  have flag : ∀ t : Tree P, (step cfg fmt t (.load p keep fuel s)).2.parsing = t.parsing := by
    intro t
    simp only [step, (drop_same keep _).1, load]
    split
    any_goals rfl
    split <;> rfl
  have hf : (step cfg fmt Tree.new (.load p keep fuel s)).2.parsing = false := flag _
  refine run_equal cfg fmt true after _ _ ⟨⟨a3.trans c3.symm, e.1, e.2.1, e.2.2, [], [], ?_, ?_, fun _ => rfl⟩,
    by rw [flag, hf, ht], fun hx => by (rw [hf] at hx; cases hx), fun hx => by (rw [hf] at hx; cases hx)⟩ (.inl rfl)
  · rw [seen]; exact seen_clear hl
  · rw [seen]; exact seen_clear (seen_new cfg)

end

theorem rootUnnamed_srl (m : Mem) (scale : Nat → Nat) : RootUnnamed (srl m scale) := by
  intro p n ty
  simp [srl, PSrl.Obj.clear, PSrl.Obj.write, PSrl.Obj.writeHead]

theorem rootUnnamed_msgpack (m : Mem) : RootUnnamed (msgpack m) := by
  intro p n ty
  rfl

theorem rootUnnamed_json (m : Mem) (strtod : Bytes → Option UInt64) (dtoa : UInt64 → Bytes)
    (compact : Bool) : RootUnnamed (json m strtod dtoa compact) := by
  intro p n ty
  rfl

/-! ## Cases and where it does not hold -/

private def c1 : HTable.Cfg Nat := ⟨fun k => k.toUInt64, fun n => n⟩

private def jfmt : Fmt (PJson.Rd × PJson.Wr) := json ⟨some 0, 4096⟩ (fun _ => none) (fun _ => []) true

private def sfmt : Fmt PSrl.Obj := srl ⟨some 0, 4096⟩ id

private def jp : PJson.Rd × PJson.Wr := (PJson.Rd.new, PJson.Wr.new)

private def sp : PSrl.Obj := PSrl.Obj.new

private def plain : List Act :=
  [.value (str "a") (.int .u64 1), .scope (str "s") .array [.value [] (.str (str "x"))]]

/-- An object with a pointer to address 10, where an object with a member `x` lies. -/
private def pointer (x : Nat) : List Act :=
  [.shared (str "p") 10 [.scope valueName .object [.value (str "x") (.int .u64 x)]]]

/-- The theorems at work: a failed store, a failed load, another document loaded, then stored twice. -/
example : (run c1 jfmt Tree.new
    [.store jp false .object (plain ++ [.fail]), .load jp false 9 (str "[1,"), .load jp true 9 (str "[1]"),
     .insert [.value [] (.int .u64 2)], .store jp true .object plain, .store jp true .object plain,
     .save jp true]).1 =
    [.err, .err, .ok [], .ok [], .ok (str "{\"a\":1,\"s\":[\"x\"]}"), .ok (str "{\"a\":1,\"s\":[\"x\"]}"),
     .ok (str "[1]")] := by decide +kernel

/-- Calls that meet the hypotheses of C57. -/
example : StoresOk (P := PJson.Rd × PJson.Wr)
    [.load jp false 9 (str "[1,"), .store jp false .object plain, .insert [.value [] (.int .u64 2)]]
    [.err, .ok (str "{\"a\":1,\"s\":[\"x\"]}"), .ok []] ∧
    (run c1 jfmt Tree.new
      [.load jp false 9 (str "[1,"), .store jp false .object plain, .insert [.value [] (.int .u64 2)],
       .store jp false .object plain, .save jp false, .save jp false, .load jp false 9 (str "[[3],4]"),
       .insert [.value [] (.int .u64 2)], .save jp false]).1 =
    [.err, .ok (str "{\"a\":1,\"s\":[\"x\"]}"), .ok [], .ok (str "{\"a\":1,\"s\":[\"x\"]}"),
     .ok (str "[1,2]"), .ok (str "[1,2]"), .ok [], .ok [], .ok (str "[4,2,[3]]")] := by
  refine ⟨?_, by decide +kernel⟩
  intro x hx h
  simp only [List.zip_cons_cons, List.zip_nil_left, List.mem_cons, List.not_mem_nil, or_false] at hx
  rcases hx with rfl | rfl | rfl
  · exact h.elim
  · exact ⟨_, rfl⟩
  · exact h.elim

/-- C37 violated: an object with a shared pointer, stored twice with the same tree object. The second
document has no content; if another object lies at the address by then, its content is lost as well. -/
theorem shared_store_twice : ∃ acts acts' : List Act,
    (run c1 jfmt Tree.new [.store jp true .object acts, .store jp true .object acts,
      .store jp true .object acts']).1 =
      [.ok (str "{\"p\":{\"srl_shared_key\":0,\"srl_shared_value\":{\"x\":7}}}"),
       .ok (str "{\"p\":{\"srl_shared_key\":0}}"), .ok (str "{\"p\":{\"srl_shared_key\":0}}")] ∧
    (run c1 jfmt Tree.new [.store jp true .object acts']).1 =
      [.ok (str "{\"p\":{\"srl_shared_key\":0,\"srl_shared_value\":{\"x\":8}}}")] :=
  ⟨pointer 7, pointer 8, by decide +kernel, by decide +kernel⟩

/-- C38 violated: values inserted after a failed store are not in the tree, but are written to the output of
the failed store; undefined if its parser is gone. -/
theorem insert_after_failed_store : ∃ f acts : List Act,
    (run c1 jfmt Tree.new [.insert acts, .save jp true]).1 = [.ok [], .ok (str "{\"b\":2}")] ∧
    (run c1 jfmt Tree.new [.store jp true .object f, .insert acts, .save jp true]).1 =
      [.err, .ok [], .ok (str "{}")] ∧
    (run c1 jfmt Tree.new [.store jp false .object f, .insert acts]).1 = [.err, .ub] :=
  ⟨[.fail], [.value (str "b") (.int .u64 2)], by decide +kernel, by decide +kernel,
    by decide +kernel⟩

/-- C38 violated: after a failed store, nested scopes of documents in the Srl format are lost when loading,
and no error is reported. -/
theorem load_after_failed_store : ∃ (f : List Act) (doc : Bytes),
    (run c1 sfmt Tree.new [.load sp true 99 doc, .save sp true]).1 = [.ok [], .ok doc] ∧
    ∃ doc', doc' ≠ doc ∧
    (run c1 sfmt Tree.new [.store sp true .object f, .load sp true 99 doc, .save sp true]).1 =
      [.err, .ok [], .ok doc'] := by
  refine ⟨[.fail], [64, 3, 1, 97, 1, 66, 1, 115, 3, 1, 98, 2, 0, 0], by decide +kernel,
    [64, 3, 1, 97, 1, 0], by decide, by decide +kernel⟩

/-- C38 violated: an object with a shared pointer loses its content in the next store if the first one
fails after writing it. -/
theorem shared_after_failed_store : ∃ acts : List Act,
    (run c1 jfmt Tree.new [.store jp true .object acts]).1 =
      [.ok (str "{\"p\":{\"srl_shared_key\":0,\"srl_shared_value\":{\"x\":7}}}")] ∧
    (run c1 jfmt Tree.new [.store jp true .object (acts ++ [.fail]), .store jp true .object acts]).1 =
      [.err, .ok (str "{\"p\":{\"srl_shared_key\":0}}")] :=
  ⟨pointer 7, by decide +kernel, by decide +kernel⟩

end Srl.Props
