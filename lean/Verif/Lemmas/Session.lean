import Verif.Props.SessionSpec
import Verif.Props.Union

/-! # Lemmas about one tree for several documents -/

namespace Srl.Typed
open Doc Props

variable {σ : Type} {read : σ → Res (Event × σ)} {fuel : Nat}

/-- What was stored, as `unpack_unions_stored` takes it -/
structure Document (read : σ → Res (Event × σ)) (fuel : Nat) (fs : Fields) (xs : List Obj) (s : σ) : Prop where
  ok : (Ty.record .object false fs).Ok
  tables : fs.Tables True
  storable : StorableL fs xs
  depth : Item.depthL (fieldItems fs xs) ≤ maxDepth
  emits : ∃ nv s', Keeps nv ∧ Emits read s (Norm.item nv false (rootItem (.record .object false fs) (.many xs))).events s'
  size : (rootItem (.record .object false fs) (.many xs)).events.length ≤ fuel

theorem readPtr_emits {s s' : σ} {es : List Event} (h : Emits read s es s') : Emits (readPtr read) (some s) es (some s') := by
  induction h with
  | nil s => exact .nil _
  | cons h1 _ ih => exact .cons (by simp [readPtr, h1]) ih

theorem Document.ptr {fs : Fields} {xs : List Obj} {s : σ} (h : Document read fuel fs xs s) :
    Document (readPtr read) fuel fs xs (some s) := by
  obtain ⟨nv, s', hk, he⟩ := h.emits
  exact ⟨h.ok, h.tables, h.storable, h.depth, ⟨nv, some s', hk, readPtr_emits he⟩, h.size⟩

/-- `pasteMany` is `pasteAll` with the state. -/
theorem pasteMany_eq (env : Env) : ∀ (qs : List (Bytes × Target)) (n : LNode) (s : σ),
    pasteAll env read fuel qs n s = (do let (gs, _, _) ← pasteMany env read fuel qs n s; .ok gs)
  | [], n, s => rfl
  | (name, .obj ty old) :: rest, n, s => by
    simp only [pasteAll, pasteMany, pasteOne]
    by_cases h1 : ty.isScope = true
    · by_cases h2 : n.parsed = true
      · simp only [h1, h2, if_true]
        cases lookup (.name name) n.nodes with
        | ok c =>
          simp only [Res.ok_bind]
          cases pasteNode env ty old c with
          | ok y =>
            simp only [Res.ok_bind, pasteMany_eq env rest n s]
            cases pasteMany env read fuel rest n s <;> rfl
          | _ => rfl
        | _ => rfl
      · simp only [h1, h2, if_true, if_false, Bool.false_eq_true]
        cases consumeNode read fuel (.name name) n s with
        | ok x =>
          obtain ⟨c, n, s⟩ := x
          simp only [Res.ok_bind]
          cases c with
          | none => rfl
          | some c =>
            obtain ⟨_, c⟩ := c
            simp only
            cases paste env read fuel ty old c s with
            | ok x =>
              obtain ⟨y, c, s⟩ := x
              simp only [Res.ok_bind]
              cases finish read fuel c s with
              | ok s =>
                simp only [Res.ok_bind, pasteMany_eq env rest n s]
                cases pasteMany env read fuel rest n s <;> rfl
              | _ => rfl
            | _ => rfl
        | _ => rfl
    · by_cases h2 : n.parsed = true
      · simp only [h1, h2, if_true, if_false, Bool.false_eq_true]
        cases lookup (.name name) n.values with
        | ok c =>
          simp only [Res.ok_bind]
          cases pasteVal env ty old c with
          | ok y =>
            simp only [Res.ok_bind, pasteMany_eq env rest n s]
            cases pasteMany env read fuel rest n s <;> rfl
          | _ => rfl
        | _ => rfl
      · simp only [h1, h2, if_false, Bool.false_eq_true]
        cases consumeValue read fuel (.name name) n s with
        | ok x =>
          obtain ⟨c, n, s⟩ := x
          simp only [Res.ok_bind]
          cases c with
          | none => rfl
          | some c =>
            obtain ⟨_, c⟩ := c
            simp only
            cases pasteVal env ty old c with
            | ok y =>
              simp only [Res.ok_bind, pasteMany_eq env rest n s]
              cases pasteMany env read fuel rest n s <;> rfl
            | _ => rfl
        | _ => rfl
  | (name, .union) :: rest, n, s => by
    simp only [pasteAll, pasteMany, pasteOne]
    cases pasteUnion read fuel name n s with
    | ok x =>
      obtain ⟨u, n, s⟩ := x
      simp only [Res.ok_bind, pasteMany_eq env rest n s]
      cases pasteMany env read fuel rest n s <;> rfl
    | _ => rfl

theorem pasteMany_append (env : Env) : ∀ (qs qs' : List (Bytes × Target)) (n : LNode) (s : σ),
    pasteMany env read fuel (qs ++ qs') n s = (do
      let (gs, n, s) ← pasteMany env read fuel qs n s
      let (gs', n, s) ← pasteMany env read fuel qs' n s
      .ok (gs ++ gs', n, s))
  | [], qs', n, s => by
    simp only [List.nil_append, pasteMany, Res.ok_bind]
    cases pasteMany env read fuel qs' n s <;> rfl
  | (name, t) :: qs, qs', n, s => by
    simp only [List.cons_append, pasteMany]
    cases pasteOne env read fuel name t n s with
    | ok x =>
      obtain ⟨g, n, s⟩ := x
      simp only [Res.ok_bind, pasteMany_append env qs qs' n s]
      cases pasteMany env read fuel qs n s with
      | ok x =>
        obtain ⟨gs, n, s⟩ := x
        simp only [Res.ok_bind]
        cases pasteMany env read fuel qs' n s <;> rfl
      | _ => rfl
    | _ => rfl

theorem allGiven_append {fs : Fields} {xs : List Obj} : ∀ {qs qs' : List (Bytes × Target)} {gs gs' : List Got},
    AllGiven fs xs (qs ++ qs') (gs ++ gs') → AllGiven fs xs qs gs → AllGiven fs xs qs' gs'
  | [], _, [], _, h, _ => h
  | [], _, _ :: _, _, _, h => h.elim
  | _ :: _, _, [], _, _, h => h.elim
  | _ :: qs, _, _ :: gs, _, h, h' => allGiven_append (qs := qs) (gs := gs) h.2 h'.2

theorem timely_prefix {order : List Bytes} : ∀ {qs qs' : List (Bytes × Target)} {closed : Bool} {asked : List Bytes},
    Timely order closed asked (qs ++ qs') → Timely order closed asked qs
  | [], _, _, _, _ => trivial
  | (_, _) :: _, _, _, _, h => ⟨h.1, timely_prefix h.2⟩

/-- Unpacking a document -/
theorem unpack_document (env : Env) {fs : Fields} {xs : List Obj} {s : σ} (hd : Document read fuel fs xs s)
    {qs : List (Bytes × Target)} (hq : Fine fs xs qs) :
    ∃ e s1 gs n s2, read s = .ok (e, s1) ∧ e.tok = .scope .object ∧
      pasteMany env read fuel qs (.fresh .object) s1 = .ok (gs, n, s2) ∧ AllGiven fs xs qs gs := by
  obtain ⟨nv, s', hk, he⟩ := hd.emits
  obtain ⟨gs, h1, h2⟩ := (unpack_unions_stored env fs xs qs hk hd.ok hd.tables hd.storable hd.depth hq.1 hq.2.1 he hd.size).1 hq.2.2
  have hroot : Norm.item nv false (rootItem (.record .object false fs) (.many xs)) =
      .scope [] .object (Norm.items nv true (fieldItems fs xs)) := by
    simp [rootItem, Ty.isScope, toItem, Norm.item]
  rw [hroot] at he
  simp only [Item.events] at he
  obtain ⟨s1, h3, -⟩ := Emits.cons_inv he
  simp only [unpack, h3, Res.ok_bind, pasteMany_eq, Res.bind_eq_ok] at h1
  obtain ⟨⟨gs', n, s2⟩, h4, h5⟩ := h1
  cases h5
  exact ⟨_, s1, _, n, s2, h3, rfl, h4, h2⟩

/-- Pasting from a tree that was loaded -/
theorem pasteMany_whole (env : Env) {fs : Fields} {xs : List Obj} (hok : (Ty.record .object false fs).Ok)
    (ho : StorableL fs xs) {ty : ScopeTy} {vs : List (Bytes × Val)} {ns : List (Bytes × Node)}
    (hh : Holds (.node (.mk ty vs ns)) (.record .object false fs) (.many xs)) (s : σ) :
    ∀ (qs : List (Bytes × Target)), (∀ q ∈ qs, Request fs xs q) →
      ∃ gs, pasteMany env read fuel qs ⟨ty, vs, ns, true⟩ s = .ok (gs, ⟨ty, vs, ns, true⟩, s) ∧ AllGiven fs xs qs gs
  | [], _ => ⟨[], rfl, trivial⟩
  | (name, .obj t old) :: qs, hq => by
    obtain ⟨gs, h1, h2⟩ := pasteMany_whole env hok ho hh s qs (fun q h => hq q (List.mem_cons_of_mem _ h))
    obtain ⟨hw, o, hp⟩ := hq (name, .obj t old) (by simp)
    obtain ⟨u, h3, h4, -⟩ := hh [name] t o ⟨t, o, hp, rfl, rfl⟩
    have h5 := h4 env old hw
    simp only [Uni.follow, Res.bind_eq_ok, Uni.get, getFrom] at h3
    obtain ⟨u', h3, h6⟩ := h3
    cases h6
    refine ⟨.obj o :: gs, ?_, hp, h2⟩
    simp only [pasteMany, pasteOne]
    cases hv : findName name vs with
    | some v =>
      rw [hv] at h3
      cases h3
      simp only [Uni.copyTo] at h5
      by_cases hs : t.isScope = true
      · simp [hs] at h5
      · simp only [hs, if_false, Bool.false_eq_true] at h5 ⊢
        simp only [lookup, hv, if_true, Res.ok_bind, h5, h1]
    | none =>
      rw [hv] at h3
      cases hn : findName name ns with
      | none => simp [hn] at h3
      | some x =>
        simp only [hn] at h3
        cases h3
        simp only [Uni.copyTo] at h5
        by_cases hs : t.isScope = true
        · simp only [hs, if_true] at h5 ⊢
          simp only [lookup, hn, Res.ok_bind, h5, h1]
        · simp [hs] at h5
  | (name, .union) :: qs, hq => by
    obtain ⟨gs, h1, h2⟩ := pasteMany_whole env hok ho hh s qs (fun q h => hq q (List.mem_cons_of_mem _ h))
    have hname : name ∈ fs.names := hq (name, .union) (by simp)
    obtain ⟨t0, o0, hp0⟩ := packed_of_name ho hname
    obtain ⟨u, h3, -⟩ := hh [name] t0 o0 ⟨t0, o0, hp0, rfl, rfl⟩
    simp only [Uni.follow, Res.bind_eq_ok] at h3
    obtain ⟨u', h3, h6⟩ := h3
    cases h6
    refine ⟨.union u :: gs, ?_, ?_, h2⟩
    · simp only [Uni.get] at h3
      simp only [pasteMany, pasteOne, pasteUnion, if_true, h3, Res.ok_bind, h1]
    · intro t o hp names ty' o' hpath
      obtain ⟨u'', h7, h8⟩ := hh (name :: names) ty' o' ⟨t, o, hp, hpath⟩
      simp only [Uni.follow, h3, Res.ok_bind] at h7
      exact ⟨u'', h7, h8⟩

/-- A tree is good for what the specification says. -/
def Good (env : Env) (read : σ → Res (Event × σ)) (fuel : Nat) (t : Sess σ) : Holding → Prop
  | .unknown => True
  | .whole fs xs => (Ty.record .object false fs).Ok ∧ StorableL fs xs ∧ t.root.parsed = true ∧
    Holds (.node (.mk t.root.type t.root.values t.root.nodes)) (.record .object false fs) (.many xs)
  | .begun fs xs asked => ∃ s s1 e gs, Document read fuel fs xs s ∧ readPtr read (some s) = .ok (e, s1) ∧
    e.tok = .scope .object ∧ pasteMany env (readPtr read) fuel asked (.fresh .object) s1 = .ok (gs, t.root, t.src)

theorem step_right (env : Env) {doc : σ → Option (Fields × List Obj)}
    (hdoc : ∀ s fs xs, doc s = some (fs, xs) → Document read fuel fs xs s) (left : Nat → Sess σ) :
    ∀ (cs : List (Call σ)) (k : Nat) (h : Holding) (t : Sess σ), Good env read fuel t h → Allowed doc h cs →
      Right doc h cs (Sess.run env read fuel left k t cs)
  | [], _, _, _, _, _ => trivial
  | .unpack s kept qs :: cs, k, h, t, _, ha => by
    obtain ⟨⟨fs, xs, hd, hq⟩, ha⟩ := ha
    obtain ⟨e, s1, gs, n, s2, h1, h2, h3, h4⟩ := unpack_document env (hdoc s fs xs hd).ptr hq
    have hstep : t.step env read fuel (.unpack s kept qs) = .ok (gs, ⟨n, after kept s2⟩) := by
      simp only [Sess.step, h1, Res.ok_bind, h2, h3]
    rw [Sess.run, hstep]
    refine ⟨fun fs' xs' h5 => ?_, step_right env hdoc left cs _ _ _ ?_ ha⟩
    · rw [hd] at h5
      cases h5
      exact ⟨gs, rfl, h4⟩
    · simp only [Holding.next, hd]
      cases kept with
      | false => exact trivial
      | true => exact ⟨s, s1, e, gs, hdoc s fs xs hd, h1, h2, h3⟩
  | .load s kept :: cs, k, h, t, _, ha => by
    obtain ⟨⟨fs, xs, hd⟩, ha⟩ := ha
    have hD := (hdoc s fs xs hd).ptr
    obtain ⟨nv, s', hk, he⟩ := hD.emits
    obtain ⟨⟨nm, ty, vs, ns⟩, h1, h2⟩ := loaded_unions hk (.record .object false fs) (.many xs) hD.ok rfl
      (by simpa [Storable] using hD.storable) (by
        have := hD.depth
        simpa [rootItem, Ty.isScope, toItem, Item.depth] using this) he hD.size
    have hstep : t.step env read fuel (.load s kept) = .ok ([], ⟨⟨ty, vs, ns, true⟩, after kept s'⟩) := by
      simp only [Sess.step, h1, Res.ok_bind]
    rw [Sess.run, hstep]
    refine ⟨rfl, step_right env hdoc left cs _ _ _ ?_ ha⟩
    simp only [Holding.next, hd]
    exact ⟨hD.ok, hD.storable, rfl, h2⟩
  | .paste qs :: cs, k, .unknown, t, _, ha => ha.1.elim
  | .paste qs :: cs, k, .whole fs xs, ⟨⟨ty, vs, ns, p⟩, src⟩, hg, ha => by
    obtain ⟨g1, g2, g3, g4⟩ := hg
    simp only at g3 g4
    subst g3
    obtain ⟨gs, h1, h2⟩ := pasteMany_whole (read := readPtr read) (fuel := fuel) env g1 g2 g4 src qs ha.1
    have hstep : Sess.step env read fuel ⟨⟨ty, vs, ns, true⟩, src⟩ (.paste qs) = .ok (gs, ⟨⟨ty, vs, ns, true⟩, src⟩) := by
      simp only [Sess.step, h1, Res.ok_bind]
    rw [Sess.run, hstep]
    exact ⟨⟨gs, rfl, h2⟩, step_right env hdoc left cs _ (.whole fs xs) _ ⟨g1, g2, rfl, g4⟩ ha.2⟩
  | .paste qs :: cs, k, .begun fs xs asked, t, hg, ha => by
    obtain ⟨s, s1, e, gs, g1, g2, g3, g4⟩ := hg
    obtain ⟨e', s1', gs', n, s2, h1, h2, h3, h4⟩ := unpack_document env g1.ptr ha.1
    rw [g2] at h1
    cases h1
    have h3' := h3
    rw [pasteMany_append, g4] at h3
    simp only [Res.ok_bind, Res.bind_eq_ok] at h3
    obtain ⟨⟨gs2, n2, s3⟩, h5, h6⟩ := h3
    simp only [Res.ok.injEq, Prod.mk.injEq] at h6
    obtain ⟨rfl, rfl, rfl⟩ := h6
    have hfine : Fine fs xs asked := by
      obtain ⟨f1, f2, f3⟩ := ha.1
      refine ⟨fun q hq => f1 q (by simp [hq]), ?_, timely_prefix f3⟩
      rw [List.map_append, List.nodup_append] at f2
      exact f2.1
    obtain ⟨e2, s12, gs3, n3, s4, h7, h8, h9, h10⟩ := unpack_document env g1.ptr hfine
    rw [g2] at h7
    cases h7
    rw [g4] at h9
    cases h9
    have hstep : t.step env read fuel (.paste qs) = .ok (gs2, ⟨n2, s3⟩) := by
      simp only [Sess.step, h5, Res.ok_bind]
    rw [Sess.run, hstep]
    exact ⟨⟨gs2, rfl, allGiven_append h4 h10⟩, step_right env hdoc left cs _ (.begun fs xs (asked ++ qs)) _
      ⟨s, s1, e, gs ++ gs2, g1, g2, g3, h3'⟩ ha.2⟩
  | .other :: cs, k, h, t, _, ha => by
    rw [Sess.run]
    simp only [Sess.step]
    exact ⟨trivial, step_right env hdoc left cs _ .unknown _ trivial ha.2⟩

end Srl.Typed
