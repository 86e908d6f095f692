import Verif.Props.ViewsSpec
import Verif.Lemmas.OwnSim

/-! # Lemmas about restored `String`s -/

namespace Srl.Own
open Mem

/-! ## Documents -/

theorem field_any {d : Bytes} {f : Field} {x x' : ANode} (h : Spec.field d f x = some x') (y : ANode) :
    ∃ y', Spec.field d f y = some y' := by
  cases f with
  | val nm k p =>
    simp only [Spec.field, Option.bind_eq_bind, Option.bind_eq_some_iff] at h ⊢
    obtain ⟨a, ha, b, hb, -⟩ := h
    exact ⟨_, a, ha, b, hb, rfl⟩
  | scope nm t gs =>
    simp only [Spec.field, Option.bind_eq_bind, Option.bind_eq_some_iff] at h ⊢
    obtain ⟨a, ha, b, hb, -⟩ := h
    exact ⟨_, a, ha, b, hb, rfl⟩

theorem fields_all {d : Bytes} : ∀ {fs : List Field} {x x' : ANode}, Spec.fields d fs x = some x' →
    ∀ f ∈ fs, ∀ y, ∃ y', Spec.field d f y = some y'
  | [], _, _, _, f, hf, _ => by simp at hf
  | f :: fs, x, x', h, f', hf, y => by
    simp only [Spec.fields, Option.bind_eq_bind, Option.bind_eq_some_iff] at h
    obtain ⟨z, hz, h⟩ := h
    rcases List.mem_cons.1 hf with rfl | hf
    · exact field_any hz y
    · exact fields_all h f' hf y

theorem valNames_append {d : Bytes} : ∀ (a b : List Field), valNames d (a ++ b) = valNames d a ++ valNames d b
  | [], _ => rfl
  | .val _ _ _ :: a, b => by simp [valNames, valNames_append a b]
  | .scope _ _ _ :: a, b => by simp [valNames, valNames_append a b]

theorem valNames_mem {d : Bytes} : ∀ {fs : List Field} {nm k p name}, .val nm k p ∈ fs → Spec.piece d nm = some name →
    name ∈ valNames d fs
  | [], _, _, _, _, h, _ => by simp at h
  | .val nm' _ _ :: fs, nm, k, p, name, h, hp => by
    rcases List.mem_cons.1 h with h | h
    · cases h; simp [valNames, hp]
    · simp [valNames, valNames_mem h hp]
  | .scope _ _ _ :: fs, nm, k, p, name, h, hp => by
    rcases List.mem_cons.1 h with h | h
    · cases h
    · simp [valNames, valNames_mem h hp]

theorem stored_unique {d : Bytes} : ∀ {fs : List Field} {name k p t k' p' t'}, (valNames d fs).Nodup →
    Stored d fs name k p t → Stored d fs name k' p' t' → k = k' ∧ p = p' ∧ t = t'
  | [], _, _, _, _, _, _, _, _, ⟨_, h, _⟩, _ => by simp at h
  | f :: fs, name, k, p, t, k', p', t', hn, ⟨nm, h1, h2, h3⟩, ⟨nm', h1', h2', h3'⟩ => by
    rcases List.mem_cons.1 h1 with e | j1
    · rcases List.mem_cons.1 h1' with e' | j1'
      · subst e
        cases e'
        rw [h3] at h3'
        cases h3'
        exact ⟨rfl, rfl, rfl⟩
      · subst e
        have := valNames_mem (fs := fs) j1' h2'
        simp only [valNames, h2, Option.getD_some, List.nodup_cons] at hn
        exact absurd this hn.1
    · rcases List.mem_cons.1 h1' with e' | j1'
      · subst e'
        have := valNames_mem (fs := fs) j1 h2
        simp only [valNames, h2', Option.getD_some, List.nodup_cons] at hn
        exact absurd this hn.1
      · have hn' : (valNames d fs).Nodup := by
          cases f with
          | val _ _ _ => exact (List.nodup_cons.1 hn).2
          | scope _ _ _ => exact hn
        exact stored_unique hn' ⟨nm, j1, h2, h3⟩ ⟨nm', j1', h2', h3'⟩

theorem stored_mono {d : Bytes} {fs fs' : List Field} (h : ∀ f ∈ fs, f ∈ fs') {name k p t} (hs : Stored d fs name k p t) :
    Stored d fs' name k p t := by
  obtain ⟨nm, h1, h2, h3⟩ := hs
  exact ⟨nm, h _ h1, h2, h3⟩

/-! ## Values kept aside -/

/-- What a value kept aside is like -/
def KBlock (m : Mem) (e g : Nat) (b : Block) (p : Piece) (txt : Bytes) : Prop :=
  OwnBlock e g b ∧ m.read b = .ok txt ∧
    ((∀ x, p ≠ .num x) → (b = .loc txt ∧ txt.length ≤ 8) ∨ (∃ q o l, b = .ext q o l) ∧ 8 < txt.length)

/-- The values kept aside, with their names -/
structure Kept (m : Mem) (e g : Nat) (d : Bytes) (fs : List Field) (kept : List PVal) (ns : List Bytes) : Prop where
  names : kept.map (fun v => m.nameOf v.name) = ns.map .ok
  own : ∀ v ∈ kept, OwnVal e g v
  vals : ∀ v ∈ kept, ∃ name p txt, m.nameOf v.name = .ok name ∧ Stored d fs name v.kind p txt ∧ KBlock m e g v.block p txt

theorem KBlock.keeps {m m' : Mem} {e g : Nat} {b : Block} {p : Piece} {txt : Bytes} (h : KBlock m e g b p txt)
    (k : Keeps m m' e) : KBlock m' e g b p txt := ⟨h.1, k.own_block h.1 h.2.1, h.2.2⟩

theorem Kept.keeps {m m' : Mem} {e g : Nat} {d : Bytes} {fs : List Field} {kept : List PVal} {ns : List Bytes}
    (h : Kept m e g d fs kept ns) (k : Keeps m m' e) : Kept m' e g d fs kept ns := by
  refine ⟨?_, h.own, ?_⟩
  · rw [← h.names]
    refine List.map_congr_left fun v hv => ?_
    obtain ⟨name, _, _, h1, _⟩ := h.vals v hv
    rw [h1]
    exact k.own_name (h.own v hv).1 h1
  · intro v hv
    obtain ⟨name, p, txt, h1, h2, h3⟩ := h.vals v hv
    exact ⟨name, p, txt, k.own_name (h.own v hv).1 h1, h2, h3.keeps k⟩

theorem takeValue_some {m : Mem} {name : Bytes} : ∀ {kept : List PVal} {ns : List Bytes},
    kept.map (fun v => m.nameOf v.name) = ns.map .ok → name ∈ ns →
    ∃ k1 v k2 n1 n2, kept = k1 ++ v :: k2 ∧ ns = n1 ++ name :: n2 ∧ k1.map (fun v => m.nameOf v.name) = n1.map .ok ∧
      k2.map (fun v => m.nameOf v.name) = n2.map .ok ∧ m.nameOf v.name = .ok name ∧
      m.takeValue name kept = .ok (some (v, k1 ++ k2))
  | [], ns, h, hn => by
    cases ns with
    | nil => simp at hn
    | cons _ _ => simp at h
  | v :: kept, [], h, hn => by simp at hn
  | v :: kept, x :: ns, h, hn => by
    simp only [List.map_cons, List.cons.injEq] at h
    obtain ⟨hv, h⟩ := h
    by_cases hx : x = name
    · subst hx
      exact ⟨[], v, kept, [], ns, rfl, rfl, rfl, h, hv, by simp [takeValue, hv]⟩
    · obtain ⟨k1, w, k2, n1, n2, e1, e2, e3, e4, e5, e6⟩ := takeValue_some h (by
        rcases List.mem_cons.1 hn with e | e
        · exact absurd e.symm hx
        · exact e)
      exact ⟨v :: k1, w, k2, x :: n1, n2, by simp [e1], by simp [e2], by simp [hv, e3], e4, e5, by
        simp [takeValue, hv, hx, e6]⟩

theorem takeValue_none {m : Mem} {name : Bytes} : ∀ {kept : List PVal} {ns : List Bytes},
    kept.map (fun v => m.nameOf v.name) = ns.map .ok → name ∉ ns → m.takeValue name kept = .ok none
  | [], _, _, _ => rfl
  | v :: kept, [], h, hn => by simp at h
  | v :: kept, x :: ns, h, hn => by
    simp only [List.map_cons, List.cons.injEq] at h
    simp only [List.mem_cons, not_or] at hn
    have hne : ¬ x = name := fun e => hn.1 e.symm
    simp [takeValue, h.1, hne, takeValue_none h.2 hn.2]

/-- Storing a value keeps its data in the value if it is short. -/
theorem storeValue_kept {m : Mem} {e g : Nat} (h : Live m e g) (kind : Nat) {src : Block} {d txt : Bytes} {p : Piece}
    (hb : m.read (m.valueBlock src p).1 = .ok txt) (hp : Spec.piece d p = some txt)
    (hsrc : ∃ q o l, src = .ext q o l) (name : Bytes) :
    ∃ w m', m.storeValue e kind (m.valueBlock src p).1 name = .ok (w, m') ∧ Ext m m' ∧ OwnVal e g w ∧ w.kind = kind ∧
      m'.nameOf w.name = .ok name ∧ KBlock m' e g w.block p txt := by
  obtain ⟨w, m', h1, h2, h3, h4, h5, h6⟩ := storeValue_ok h kind hb name
  refine ⟨w, m', h1, h2, h3, h4, h5, h3.2, h6, fun hnum => ?_⟩
  have hext : ∃ q o, (m.valueBlock src p).1 = .ext q o txt.length := by
    obtain ⟨q, o, l, rfl⟩ := hsrc
    cases p with
    | num x => exact absurd rfl (hnum x)
    | scratch x =>
      cases hp
      exact ⟨_, _, rfl⟩
    | src o' l' =>
      have := read_length (p := q) (off := o + o') (len := l') hb
      subst this
      exact ⟨_, _, rfl⟩
  obtain ⟨q, o, he⟩ := hext
  rw [he] at h1 hb
  unfold storeValue at h1
  simp only [Res.bind_eq_ok] at h1
  obtain ⟨⟨nm, m1⟩, e1, d', e2, e3⟩ := h1
  by_cases h8 : txt.length ≤ 8
  · rw [if_pos h8] at e3
    simp only [Res.ok.injEq, Prod.mk.injEq] at e3
    obtain ⟨rfl, rfl⟩ := e3
    have : d' = txt := by simpa [Mem.read] using h6
    exact .inl ⟨by rw [this], h8⟩
  · rw [if_neg h8] at e3
    simp only [Res.bind_eq_ok] at e3
    obtain ⟨v, -, e4⟩ := e3
    simp only [Res.ok.injEq, Prod.mk.injEq] at e4
    obtain ⟨rfl, rfl⟩ := e4
    exact .inr ⟨⟨_, _, _, rfl⟩, by omega⟩

/-- What the loop of `consume_value` finds, and what it keeps aside -/
theorem seekValue_ok {e g : Nat} {src : Block} {d : Bytes} {all : List Field} (hn : NotParser src)
    (hsrc : ∃ q o l, src = .ext q o l) {name : Bytes} : ∀ {rest : List Field} {m : Mem} {kept : List PVal} {ns : List Bytes},
    Live m e g → m.read src = .ok d → (∀ f ∈ rest, f ∈ all ∧ ∀ y, ∃ y', Spec.field d f y = some y') →
    Kept m e g d all kept ns → name ∈ valNames d rest →
    ∃ r1 nm kind data r2 m0 kept' m', rest = r1 ++ .val nm kind data :: r2 ∧ name ∉ valNames d r1 ∧
      Spec.piece d nm = some name ∧
      m.seekValue e src name rest kept = .ok (some (kind, (Mem.valueBlock m0 src data).1), r2, kept', m') ∧
      Grow m m' ∧ Kept m' e g d all kept' (ns ++ valNames d r1)
  | [], m, kept, ns, _, _, _, _, h => by simp [valNames] at h
  | .val nm kind data :: rest, m, kept, ns, hl, hs, hw, hk, hin => by
    obtain ⟨y, hy⟩ := (hw _ (List.mem_cons_self ..)).2 (.mk .object [] [] [])
    simp only [Spec.field, Option.bind_eq_bind, Option.bind_eq_some_iff] at hy
    obtain ⟨nd, hnd, vd, hvd, -⟩ := hy
    obtain ⟨g1, r1⟩ := nameBlock_ok hs hnd
    obtain ⟨g2, r2⟩ := valueBlock_ok (g1.read hn hs) hvd
    have r1' := name_after_value (q := data) hn r1
    have g12 := g1.trans g2
    unfold seekValue
    simp only [r1', Res.ok_bind]
    by_cases hnn : nd = name
    · subst hnn
      exact ⟨[], nm, kind, data, rest, (m.nameBlock src nm).2, kept, _, rfl, by simp [valNames], hnd, by simp, g12,
        by simpa [valNames] using hk.keeps (g12.keeps e)⟩
    · simp only [hnn, if_false]
      have hin' : name ∈ valNames d rest := by
        simp only [valNames, hnd, Option.getD_some, List.mem_cons] at hin
        exact hin.resolve_left (fun h => hnn h.symm)
      have r2' : (Mem.valueBlock (m.nameBlock src nm).2 src data).2.read
          (Mem.valueBlock (Mem.valueBlock (m.nameBlock src nm).2 src data).2 src data).1 = .ok vd := by
        cases data <;> exact r2
      have hb : (Mem.valueBlock (Mem.valueBlock (m.nameBlock src nm).2 src data).2 src data).1 =
          (Mem.valueBlock (m.nameBlock src nm).2 src data).1 := by
        cases data <;> rfl
      obtain ⟨w, m3, h3, x3, o3, k3, n3, b3⟩ := storeValue_kept (hl.keeps (g12.keeps e)) kind r2' hvd hsrc nd
      rw [hb] at h3
      have g3 := g12.trans x3.grow
      have hk' : Kept m3 e g d all (kept ++ [w]) (ns ++ [nd]) := by
        have hk3 := hk.keeps (g3.keeps e)
        refine ⟨by simp [hk3.names, n3], ?_, ?_⟩
        · intro v hv
          rcases List.mem_append.1 hv with hv | hv
          · exact hk3.own v hv
          · rw [List.mem_singleton.1 hv]; exact o3
        · intro v hv
          rcases List.mem_append.1 hv with hv | hv
          · exact hk3.vals v hv
          · rw [List.mem_singleton.1 hv]
            refine ⟨nd, data, vd, n3, ?_, b3⟩
            rw [k3]
            exact ⟨nm, (hw _ (List.mem_cons_self ..)).1, hnd, hvd⟩
      obtain ⟨q1, nm', kind', data', q2, m0, kept', m', e1, e2, e3, e4, e5, e6⟩ := seekValue_ok hn hsrc
        (hl.keeps (g3.keeps e)) (g3.read hn hs) (fun f hf => hw f (List.mem_cons_of_mem _ hf)) hk' hin'
      refine ⟨.val nm kind data :: q1, nm', kind', data', q2, m0, kept', m', by simp [e1], ?_, e3, ?_, g3.trans e5, ?_⟩
      · simp only [valNames, hnd, Option.getD_some, List.mem_cons, not_or]
        exact ⟨fun h => hnn h.symm, e2⟩
      · rw [h3]
        exact e4
      · simpa [valNames, hnd, List.append_assoc] using e6
  | .scope nm t gs :: rest, m, kept, ns, hl, hs, hw, hk, hin => by
    obtain ⟨y, hy⟩ := (hw _ (List.mem_cons_self ..)).2 (.mk .object [] [] [])
    simp only [Spec.field, Option.bind_eq_bind, Option.bind_eq_some_iff] at hy
    obtain ⟨nd, hnd, c, hc, -⟩ := hy
    obtain ⟨g1, r1⟩ := nameBlock_ok hs hnd
    obtain ⟨nn, m2, h2, x2, gn, _, _, _, zn⟩ := newNode_ok (hl.keeps (g1.keeps e)) t nd
    have g12 := g1.trans x2.grow
    obtain ⟨n3, m3, h3, g3, gd3, z3⟩ := readFields_ok hn (hl.keeps (g12.keeps e)) gn (g12.read hn hs) hc
    have g123 := g12.trans g3
    obtain ⟨q1, nm', kind', data', q2, m0, kept', m', e1, e2, e3, e4, e5, e6⟩ := seekValue_ok hn hsrc
      (hl.keeps (g123.keeps e)) (g123.read hn hs) (fun f hf => hw f (List.mem_cons_of_mem _ hf)) (hk.keeps (g123.keeps e)) hin
    refine ⟨.scope nm t gs :: q1, nm', kind', data', q2, m0, kept', m', by simp [e1], by simpa [valNames] using e2, e3, ?_,
      g123.trans e5, by simpa [valNames] using e6⟩
    unfold seekValue
    simp only [r1, Res.ok_bind, h2, h3]
    exact e4

/-- The end of the scope is reached. -/
theorem seekValue_none {e g : Nat} {src : Block} {d : Bytes} (hn : NotParser src) {name : Bytes} :
    ∀ {rest : List Field} {m : Mem} {kept : List PVal}, Live m e g → m.read src = .ok d →
    (∀ f ∈ rest, ∀ y, ∃ y', Spec.field d f y = some y') → name ∉ valNames d rest →
    ∃ kept' m', m.seekValue e src name rest kept = .ok (none, [], kept', m')
  | [], m, kept, _, _, _, _ => ⟨kept, m, rfl⟩
  | .val nm kind data :: rest, m, kept, hl, hs, hw, hin => by
    obtain ⟨y, hy⟩ := hw _ (List.mem_cons_self ..) (.mk .object [] [] [])
    simp only [Spec.field, Option.bind_eq_bind, Option.bind_eq_some_iff] at hy
    obtain ⟨nd, hnd, vd, hvd, -⟩ := hy
    obtain ⟨g1, r1⟩ := nameBlock_ok hs hnd
    obtain ⟨g2, r2⟩ := valueBlock_ok (g1.read hn hs) hvd
    have r1' := name_after_value (q := data) hn r1
    have g12 := g1.trans g2
    simp only [valNames, hnd, Option.getD_some, List.mem_cons, not_or] at hin
    have hnn : ¬ nd = name := fun h => hin.1 h.symm
    obtain ⟨w, m3, h3, x3, -⟩ := storeValue_ok (hl.keeps (g12.keeps e)) kind r2 nd
    have g3 := g12.trans x3.grow
    obtain ⟨kept', m', h4⟩ := seekValue_none hn (rest := rest) (kept := kept ++ [w]) (hl.keeps (g3.keeps e))
      (g3.read hn hs) (fun f hf => hw f (List.mem_cons_of_mem _ hf)) hin.2
    refine ⟨kept', m', ?_⟩
    unfold seekValue
    simp only [r1', Res.ok_bind, hnn, if_false]
    rw [h3]
    exact h4
  | .scope nm t gs :: rest, m, kept, hl, hs, hw, hin => by
    obtain ⟨y, hy⟩ := hw _ (List.mem_cons_self ..) (.mk .object [] [] [])
    simp only [Spec.field, Option.bind_eq_bind, Option.bind_eq_some_iff] at hy
    obtain ⟨nd, hnd, c, hc, -⟩ := hy
    obtain ⟨g1, r1⟩ := nameBlock_ok hs hnd
    obtain ⟨nn, m2, h2, x2, gn, _, _, _, zn⟩ := newNode_ok (hl.keeps (g1.keeps e)) t nd
    have g12 := g1.trans x2.grow
    obtain ⟨n3, m3, h3, g3, gd3, z3⟩ := readFields_ok hn (hl.keeps (g12.keeps e)) gn (g12.read hn hs) hc
    have g123 := g12.trans g3
    obtain ⟨kept', m', h4⟩ := seekValue_none hn (rest := rest) (kept := kept) (hl.keeps (g123.keeps e))
      (g123.read hn hs) (fun f hf => hw f (List.mem_cons_of_mem _ hf)) hin
    refine ⟨kept', m', ?_⟩
    unfold seekValue
    simp only [r1, Res.ok_bind, h2, h3]
    exact h4

/-! ## Restoring -/

/-- Later: the source is as it was, the tree was not cleared. -/
def Later (b e : Nat) (m m' : Mem) : Prop := m'.bufs b = m.bufs b ∧ Keeps m m' e

theorem Later.of_grow {b e : Nat} {m m' m'' : Mem} (g : Grow m m') (h : Later b e m' m'') : Later b e m m'' :=
  ⟨h.1.trans (by rw [g.bufs]), (g.keeps e).trans h.2⟩

theorem Later.read_buf {b e : Nat} {m m' : Mem} (h : Later b e m m') {o l : Nat} {d : Bytes}
    (hr : m.read (.ext (.buf b) o l) = .ok d) : m'.read (.ext (.buf b) o l) = .ok d := by
  refine read_mono (fun c hc => ?_) hr
  simp only [Mem.get] at hc ⊢
  rw [h.1]
  exact hc

/-- Where a restore is: what was asked for, the values kept aside, and the fields not read -/
structure Ongoing (m : Mem) (e g : Nat) (d : Bytes) (fs : List Field) (asked : List Bytes) (rest : List Field)
    (kept : List PVal) : Prop where
  live : Live m e g
  here : ∃ pre ns, fs = pre ++ rest ∧ (∀ a ∈ asked, a ∈ valNames d pre) ∧
    (∀ x ∈ valNames d pre, x ∈ asked ∨ Late (valNames d fs) asked x) ∧
    Kept m e g d fs kept ns ∧ ns.Nodup ∧ ∀ x, x ∈ ns ↔ x ∈ valNames d pre ∧ x ∉ asked

theorem Late.mono {order asked : List Bytes} {x a : Bytes} (h : Late order asked x) : Late order (a :: asked) x := by
  obtain ⟨b, hb, l⟩ := h
  exact ⟨b, List.mem_cons_of_mem _ hb, l⟩

theorem late_pre {pre rest asked : List Bytes} {x : Bytes} (hnd : (pre ++ rest).Nodup) (ha : ∀ a ∈ asked, a ∈ pre)
    (hx : x ∉ pre) : ¬ Late (pre ++ rest) asked x := by
  rintro ⟨a, h1, l1, l2, h2, h3⟩
  have h4 := ha a h1
  obtain ⟨p1, p2, rfl⟩ := List.append_of_mem h4
  rw [h2] at hnd
  -- the name comes behind `pre`
  have : ∃ q, l1 = p1 ++ a :: p2 ++ q := by
    rcases List.append_eq_append_iff.1 h2 with ⟨q, h5, -⟩ | ⟨q, h5, h6⟩
    · exact ⟨q, h5⟩
    · cases q with
      | nil => exact ⟨[], by simpa using h5.symm⟩
      | cons y q =>
        simp only [List.cons_append, List.cons.injEq] at h6
        exact absurd (by rw [h5]; simp [h6.1]) hx
  obtain ⟨q, rfl⟩ := this
  rw [List.nodup_append] at hnd
  exact hnd.2.2 a (by simp) a (by simp [h3]) rfl

/-- One member -/
theorem consumeValue_ok {b off len e g : Nat} {d : Bytes} {fs : List Field} (hnd : (valNames d fs).Nodup)
    (hw : ∀ f ∈ fs, ∀ y, ∃ y', Spec.field d f y = some y') {m : Mem} {asked : List Bytes} {rest : List Field} {kept : List PVal}
    (ho : Ongoing m e g d fs asked rest kept) (hs : m.read (.ext (.buf b) off len) = .ok d) {name : Bytes}
    (ha : name ∉ asked) {kind : Nat} {data : Piece} {txt : Bytes} (hst : Stored d fs name kind data txt) :
    ∃ blk rest' kept' m', m.consumeValue e (.ext (.buf b) off len) name rest kept = .ok ((kind, blk), rest', kept', m') ∧
      Grow m m' ∧ Ongoing m' e g d fs (name :: asked) rest' kept' ∧
      ((∀ x, data ≠ .num x) → ∀ m'', Later b e m' m'' → Seen m'' (Late (valNames d fs) asked name) data txt (viewOf blk)) := by
  obtain ⟨pre, ns, hfs, h1, h2, h3, h4, h5⟩ := ho.here
  have hmem : name ∈ valNames d fs := by
    obtain ⟨nm, a, b, _⟩ := hst
    exact valNames_mem a b
  unfold consumeValue
  by_cases hp : name ∈ valNames d pre
  · -- kept aside
    have hlate := (h2 name hp).resolve_left ha
    obtain ⟨k1, v, k2, n1, n2, e1, e2, e3, e4, e5, e6⟩ := takeValue_some h3.names ((h5 name).2 ⟨hp, ha⟩)
    obtain ⟨name', p, t, q1, q2, q3⟩ := h3.vals v (by simp [e1])
    have : name' = name := by rw [e5] at q1; exact (Res.ok.inj q1).symm
    subst this
    obtain ⟨rfl, rfl, rfl⟩ := stored_unique hnd hst q2
    refine ⟨v.block, rest, k1 ++ k2, m, by simp only [e6, Res.ok_bind], Grow.refl m, ⟨ho.live, pre, n1 ++ n2, hfs, ?_, ?_, ?_, ?_, ?_⟩, ?_⟩
    · intro a haa
      rcases List.mem_cons.1 haa with rfl | haa
      · exact hp
      · exact h1 a haa
    · intro x hx
      rcases h2 x hx with h | h
      · exact .inl (List.mem_cons_of_mem _ h)
      · exact .inr h.mono
    · refine ⟨by simp [e3, e4], fun w hw => h3.own w ?_, fun w hw => h3.vals w ?_⟩ <;>
      · rw [e1]
        rcases List.mem_append.1 hw with h | h <;> simp [h]
    · rw [e2] at h4
      rw [List.nodup_append] at h4 ⊢
      exact ⟨h4.1, (List.nodup_cons.1 h4.2.1).2, fun a ha b hb => h4.2.2 a ha b (List.mem_cons_of_mem _ hb)⟩
    · intro x
      have h6 : x ∈ n1 ++ n2 ↔ x ∈ ns ∧ x ≠ name' := by
        rw [e2] at h4 ⊢
        rw [List.nodup_append, List.nodup_cons] at h4
        simp only [List.mem_append, List.mem_cons]
        constructor
        · rintro (h | h)
          · exact ⟨.inl h, fun e => h4.2.2 x h name' (by simp) e⟩
          · exact ⟨.inr (.inr h), fun e => h4.2.1.1 (e ▸ h)⟩
        · rintro ⟨h | h | h, hne⟩
          · exact .inl h
          · exact absurd h hne
          · exact .inr h
      rw [h6, h5]
      simp only [List.mem_cons, not_or]
      exact ⟨fun h => ⟨h.1.1, h.2, h.1.2⟩, fun h => ⟨⟨h.1, h.2.2⟩, h.2.1⟩⟩
    · intro hnum m'' hl
      refine ⟨fun _ => ?_, fun h => absurd hlate h⟩
      rcases q3.2.2 hnum with ⟨hb, h8⟩ | ⟨⟨q, o, l, hb⟩, h8⟩
      · rw [hb]
        refine ⟨fun hx => by simp [viewOf, hx.1, View.read], fun hx => ?_⟩
        have : txt = [] := hx.resolve_right (by omega)
        simp [viewOf, this, View.read, Mem.read]
      · refine ⟨fun hx => by omega, fun _ => ?_⟩
        have := hl.2.own_block q3.1 q3.2.1
        rw [hb] at this ⊢
        exact this
  · -- read now
    have hns : name ∉ ns := fun h => hp ((h5 name).1 h).1
    rw [takeValue_none h3.names hns]
    simp only [Res.ok_bind]
    have hin : name ∈ valNames d rest := by
      rw [hfs, valNames_append, List.mem_append] at hmem
      exact hmem.resolve_left hp
    obtain ⟨r1, nm, kind', data', r2, m0, kept', m', e1, e2, e3, e4, e5, e6⟩ := seekValue_ok
      (src := .ext (.buf b) off len) trivial ⟨_, _, _, rfl⟩ ho.live hs
      (fun f hf => ⟨by rw [hfs]; simp [hf], hw f (by rw [hfs]; simp [hf])⟩) h3 hin
    rw [e4]
    simp only [Res.ok_bind]
    have hfield : Field.val nm kind' data' ∈ fs := by rw [hfs, e1]; simp
    have hst' : ∃ t, Spec.piece d data' = some t := by
      obtain ⟨y, hy⟩ := hw _ hfield (.mk .object [] [] [])
      simp only [Spec.field, Option.bind_eq_bind, Option.bind_eq_some_iff] at hy
      obtain ⟨_, _, t, ht, _⟩ := hy
      exact ⟨t, ht⟩
    obtain ⟨t, ht⟩ := hst'
    obtain ⟨rfl, rfl, rfl⟩ := stored_unique hnd hst ⟨nm, hfield, e3, ht⟩
    have horder : valNames d fs = valNames d pre ++ (valNames d r1 ++ name :: valNames d r2) := by
      rw [hfs, e1, valNames_append, valNames_append]
      simp [valNames, e3]
    have hnd' := hnd
    rw [horder, List.nodup_append, List.nodup_append, List.nodup_cons] at hnd'
    obtain ⟨n1, ⟨n2, ⟨n3, n4⟩, n5⟩, n6⟩ := hnd'
    refine ⟨_, r2, kept', m', rfl, e5, ⟨ho.live.keeps (e5.keeps e), pre ++ r1 ++ [.val nm kind data], ns ++ valNames d r1, ?_, ?_, ?_, e6,
      ?_, ?_⟩, ?_⟩
    · rw [hfs, e1]; simp
    · intro a haa
      rw [valNames_append, valNames_append]
      rcases List.mem_cons.1 haa with rfl | haa
      · simp [valNames, e3]
      · simp [h1 a haa]
    · intro x hx
      rw [valNames_append, valNames_append] at hx
      simp only [valNames, e3, Option.getD_some, List.mem_append, List.mem_singleton] at hx
      rcases hx with (hx | hx) | hx
      · rcases h2 x hx with h | h
        · exact .inl (List.mem_cons_of_mem _ h)
        · exact .inr h.mono
      · obtain ⟨l1, l2, hl⟩ := List.append_of_mem hx
        refine .inr ⟨name, by simp, valNames d pre ++ l1, l2 ++ name :: valNames d r2, ?_, by simp⟩
        rw [horder, hl]
        simp
      · simp [hx]
    · rw [List.nodup_append]
      exact ⟨h4, n2, fun a ha' c hc => n6 a ((h5 a).1 ha').1 c (by simp [hc])⟩
    · intro x
      rw [valNames_append, valNames_append]
      simp only [valNames, e3, Option.getD_some, List.mem_append, List.mem_singleton, List.mem_cons, not_or, h5]
      constructor
      · rintro (⟨hx1, hx2⟩ | hx)
        · exact ⟨.inl (.inl hx1), fun e => hp (e ▸ hx1), hx2⟩
        · exact ⟨.inl (.inr hx), fun e => e2 (e ▸ hx), fun h => n6 x (h1 x h) x (by simp [hx]) rfl⟩
      · rintro ⟨(hx | hx) | hx, hx1, hx2⟩
        · exact .inl ⟨hx, hx2⟩
        · exact .inr hx
        · exact absurd (by simpa using hx) hx1
    · intro _ m'' hl
      have hnl : ¬ Late (valNames d fs) asked name := by
        rw [horder]
        exact late_pre (by rw [← horder]; exact hnd) h1 hp
      refine ⟨fun h => absurd h hnl, fun _ => ⟨fun o l hd => ?_, fun hd => ?_⟩⟩
      · subst hd
        have hr := read_part hs ht
        exact (Later.of_grow e5 hl).read_buf hr
      · subst hd
        rfl

theorem restoreStrings_ok {isStr : Nat → Bool} {b off len e g : Nat} {d : Bytes} {fs : List Field}
    (hnd : (valNames d fs).Nodup) (hw : ∀ f ∈ fs, ∀ y, ∃ y', Spec.field d f y = some y') : ∀ (names : List Bytes) {m : Mem}
    {asked : List Bytes} {rest : List Field} {kept : List PVal}, Ongoing m e g d fs asked rest kept →
    m.read (.ext (.buf b) off len) = .ok d → names.Nodup → (∀ n ∈ names, n ∉ asked) →
    (∀ n ∈ names, ∃ kind data txt, Stored d fs n kind data txt ∧ isStr kind = true ∧ ∀ x, data ≠ .num x) →
    ∃ vs m', Mem.restoreStrings isStr e (.ext (.buf b) off len) names m rest kept = .ok (vs, m') ∧ Grow m m' ∧
      ∀ m'', Later b e m' m'' → AllSeen d fs m'' asked names vs
  | [], m, asked, rest, kept, _, _, _, _, _ => ⟨[], m, rfl, Grow.refl m, fun _ _ => trivial⟩
  | name :: names, m, asked, rest, kept, ho, hs, hn, ha, hq => by
    obtain ⟨kind, data, txt, hst, hk, hnum⟩ := hq name (by simp)
    obtain ⟨blk, rest', kept', m1, h1, h2, h3, h4⟩ := consumeValue_ok hnd hw ho hs (ha name (by simp)) hst
    have hn' := List.nodup_cons.1 hn
    obtain ⟨vs, m2, h5, h6, h7⟩ := restoreStrings_ok hnd hw names h3 (h2.read (b := .ext (.buf b) off len) trivial hs) hn'.2
      (fun n h => by
        simp only [List.mem_cons, not_or]
        exact ⟨fun e => hn'.1 (e ▸ h), ha n (List.mem_cons_of_mem _ h)⟩)
      (fun n h => hq n (List.mem_cons_of_mem _ h))
    refine ⟨viewOf blk :: vs, m2, ?_, h2.trans h6, fun m'' hl => ⟨?_, h7 m'' hl⟩⟩
    · simp only [Mem.restoreStrings, h1, Res.ok_bind, hk, if_true, h5]
    · intro kind' data' txt' hst'
      obtain ⟨rfl, rfl, rfl⟩ := stored_unique hnd hst hst'
      exact h4 hnum m'' (Later.of_grow h6 hl)

/-- A member that is not stored, or not as a text, ends the restore. -/
theorem restoreStrings_err {isStr : Nat → Bool} {b off len e g : Nat} {d : Bytes} {fs : List Field}
    (hnd : (valNames d fs).Nodup) (hw : ∀ f ∈ fs, ∀ y, ∃ y', Spec.field d f y = some y') {bad : Bytes} {more : List Bytes}
    (hbad : bad ∉ valNames d fs ∨ ∃ kind data txt, Stored d fs bad kind data txt ∧ isStr kind = false) :
    ∀ (names : List Bytes) {m : Mem}
    {asked : List Bytes} {rest : List Field} {kept : List PVal}, Ongoing m e g d fs asked rest kept →
    m.read (.ext (.buf b) off len) = .ok d → (names ++ [bad]).Nodup → (∀ n ∈ names ++ [bad], n ∉ asked) →
    (∀ n ∈ names, ∃ kind data txt, Stored d fs n kind data txt ∧ isStr kind = true) →
    Mem.restoreStrings isStr e (.ext (.buf b) off len) (names ++ bad :: more) m rest kept = .err
  | [], m, asked, rest, kept, ho, hs, _, ha, _ => by
    simp only [List.nil_append, List.mem_singleton, forall_eq] at ha
    rcases hbad with hno | ⟨kind, data, txt, hst, hk⟩
    · obtain ⟨pre, ns, hfs, h1, h2, h3, h4, h5⟩ := ho.here
      have hp : bad ∉ valNames d pre ∧ bad ∉ valNames d rest := by
        rw [hfs, valNames_append, List.mem_append, not_or] at hno
        exact hno
      have hns : bad ∉ ns := fun h => hp.1 ((h5 bad).1 h).1
      obtain ⟨kept', m', h6⟩ := seekValue_none (e := e) (src := .ext (.buf b) off len) trivial (kept := kept) ho.live hs
        (fun f hf => hw f (by rw [hfs]; simp [hf])) hp.2
      simp only [List.nil_append, Mem.restoreStrings, Mem.consumeValue, takeValue_none h3.names hns, Res.ok_bind, h6,
        Res.err_bind]
    · obtain ⟨blk, rest', kept', m1, h1, -⟩ := consumeValue_ok hnd hw ho hs ha hst
      simp only [List.nil_append, Mem.restoreStrings, h1, Res.ok_bind, hk, Bool.false_eq_true, if_false]
  | name :: names, m, asked, rest, kept, ho, hs, hn, ha, hq => by
    obtain ⟨kind, data, txt, hst, hk⟩ := hq name (by simp)
    obtain ⟨blk, rest', kept', m1, h1, h2, h3, -⟩ := consumeValue_ok hnd hw ho hs (ha name (by simp)) hst
    have hn' := List.nodup_cons.1 hn
    have h5 := restoreStrings_err (more := more) hnd hw hbad names h3 (h2.read (b := .ext (.buf b) off len) trivial hs) hn'.2
      (fun n h => by
        simp only [List.mem_cons, not_or]
        exact ⟨fun e => hn'.1 (e ▸ h), ha n (List.mem_cons_of_mem _ h)⟩)
      (fun n h => hq n (List.mem_cons_of_mem _ h))
    simp only [List.cons_append, Mem.restoreStrings, h1, Res.ok_bind, hk, if_true, h5, Res.err_bind]

/-- The whole restore -/
theorem restoreViews_ok {isStr : Nat → Bool} {m : Mem} {b off len e : Nat} {d : Bytes} {root : Piece × ScopeTy} {rn : Bytes}
    {fs : List Field} {names : List Bytes} (temporary : Bool) (he : ∃ v, m.env e = .ok v)
    (hs : m.read (.ext (.buf b) off len) = .ok d) (hroot : Spec.piece d root.1 = some rn) (hw : WellFormed d fs)
    (hnd : (valNames d fs).Nodup) (hn : names.Nodup)
    (hq : ∀ n ∈ names, ∃ kind data txt, Stored d fs n kind data txt ∧ isStr kind = true ∧ ∀ x, data ≠ .num x) :
    ∃ vs m', restoreViews isStr m e (.ext (.buf b) off len) root fs names temporary = .ok (vs, m') ∧ m'.bufs = m.bufs ∧
      ∀ m'', m''.bufs b = m'.bufs b → TreeHeld e m' m'' → AllSeen d fs m'' [] names vs := by
  obtain ⟨v, hv⟩ := he
  have hl : Live (m.setEnv e { v with gen := v.gen + 1, data := [], names := [] }) e (v.gen + 1) :=
    ⟨_, env_setEnv hv (by simpa using env_alive hv), rfl⟩
  generalize hm0 : m.setEnv e { v with gen := v.gen + 1, data := [], names := [] } = m0 at hl
  have hb0 : m0.bufs = m.bufs := by rw [← hm0]; rfl
  have hs0 : m0.read (.ext (.buf b) off len) = .ok d :=
    read_mono (fun c hc => by simp only [Mem.get] at hc ⊢; rw [hb0]; exact hc) hs
  obtain ⟨g1, r1⟩ := nameBlock_ok hs0 hroot
  obtain ⟨nn, m2, h2, x2, -⟩ := newNode_ok (hl.keeps (g1.keeps e)) root.2 rn
  have g2 := g1.trans x2.grow
  obtain ⟨x, hx⟩ := hw
  have ho : Ongoing m2 e (v.gen + 1) d fs [] fs [] :=
    ⟨hl.keeps (g2.keeps e), [], [], rfl, by simp, by simp [valNames], ⟨rfl, by simp, by simp⟩, by simp, by simp [valNames]⟩
  obtain ⟨vs, m3, h3, g3, h4⟩ := restoreStrings_ok hnd (fields_all hx) names ho (g2.read (b := .ext (.buf b) off len) trivial hs0)
    hn (by simp) hq
  refine ⟨vs, if temporary then { m3 with pname := none, pval := none } else m3, ?_, ?_, ?_⟩
  · unfold restoreViews
    simp only [clearEnv, hv, Res.ok_bind, hm0, r1, h2, h3]
  · have : m3.bufs = m.bufs := by rw [g3.bufs, g2.bufs, hb0]
    cases temporary <;> exact this
  · intro m'' hb hk
    refine h4 m'' ⟨?_, ?_⟩
    · cases temporary <;> exact hb
    · cases temporary <;> exact hk

theorem restoreViews_err {isStr : Nat → Bool} {m : Mem} {b off len e : Nat} {d : Bytes} {root : Piece × ScopeTy} {rn : Bytes}
    {fs : List Field} {names more : List Bytes} {bad : Bytes} (temporary : Bool) (he : ∃ v, m.env e = .ok v)
    (hs : m.read (.ext (.buf b) off len) = .ok d) (hroot : Spec.piece d root.1 = some rn) (hw : WellFormed d fs)
    (hnd : (valNames d fs).Nodup) (hn : (names ++ [bad]).Nodup)
    (hq : ∀ n ∈ names, ∃ kind data txt, Stored d fs n kind data txt ∧ isStr kind = true)
    (hbad : bad ∉ valNames d fs ∨ ∃ kind data txt, Stored d fs bad kind data txt ∧ isStr kind = false) :
    restoreViews isStr m e (.ext (.buf b) off len) root fs (names ++ bad :: more) temporary = .err := by
  obtain ⟨v, hv⟩ := he
  have hl : Live (m.setEnv e { v with gen := v.gen + 1, data := [], names := [] }) e (v.gen + 1) :=
    ⟨_, env_setEnv hv (by simpa using env_alive hv), rfl⟩
  generalize hm0 : m.setEnv e { v with gen := v.gen + 1, data := [], names := [] } = m0 at hl
  have hb0 : m0.bufs = m.bufs := by rw [← hm0]; rfl
  have hs0 : m0.read (.ext (.buf b) off len) = .ok d :=
    read_mono (fun c hc => by simp only [Mem.get] at hc ⊢; rw [hb0]; exact hc) hs
  obtain ⟨g1, r1⟩ := nameBlock_ok hs0 hroot
  obtain ⟨nn, m2, h2, x2, -⟩ := newNode_ok (hl.keeps (g1.keeps e)) root.2 rn
  have g2 := g1.trans x2.grow
  obtain ⟨x, hx⟩ := hw
  have ho : Ongoing m2 e (v.gen + 1) d fs [] fs [] :=
    ⟨hl.keeps (g2.keeps e), [], [], rfl, by simp, by simp [valNames], ⟨rfl, by simp, by simp⟩, by simp, by simp [valNames]⟩
  have h3 := restoreStrings_err (more := more) hnd (fields_all hx) hbad names ho
    (g2.read (b := .ext (.buf b) off len) trivial hs0) hn (by simp) hq
  unfold restoreViews
  simp only [clearEnv, hv, Res.ok_bind, hm0, r1, h2, h3, Res.err_bind]

/-! ## Without exceptions -/

theorem not_late {order : List Bytes} {asked names : List Bytes} {x : Bytes} (hnd : order.Nodup)
    (h : (asked ++ x :: names).Sublist order) : ¬ Late order asked x := by
  rintro ⟨a, ha, l1, l2, rfl, hl⟩
  have h1 : [a, x].Sublist (l1 ++ x :: l2) := by
    refine List.Sublist.trans ?_ h
    exact List.Sublist.append (l₁ := [a]) (List.singleton_sublist.2 ha) (List.singleton_sublist.2 (by simp))
  rw [List.nodup_append, List.nodup_cons] at hnd
  obtain ⟨n1, ⟨n2, n3⟩, n4⟩ := hnd
  obtain ⟨u, v, h2, h3, h4⟩ := List.sublist_append_iff.1 h1
  cases u with
  | nil =>
    simp only [List.nil_append] at h2
    subst h2
    cases h4 with
    | cons _ h4 => exact n2 (h4.subset (by simp))
    | cons_cons _ _ => exact n2 hl
  | cons y u =>
    have : y = a := by
      have := congrArg (·.head?) h2
      simpa using this.symm
    subst this
    exact n4 y (h3.subset (by simp)) y (by simp [hl]) rfl

theorem allText_of_order {d : Bytes} {fs : List Field} {m : Mem} (hnd : (valNames d fs).Nodup) : ∀ {names asked : List Bytes}
    {vs : List View}, AllSeen d fs m asked names vs → (asked.reverse ++ names).Sublist (valNames d fs) →
    (∀ n ∈ names, ∀ kind data txt, Stored d fs n kind data txt → ∃ o l, data = .src o l) → AllText d fs m names vs
  | [], _, [], _, _, _ => trivial
  | [], _, _ :: _, h, _, _ => h.elim
  | _ :: _, _, [], h, _, _ => h.elim
  | name :: names, asked, v :: vs, h, hsub, hq => by
    refine ⟨fun kind data txt hst => ?_, allText_of_order hnd h.2 (by simpa using hsub)
      (fun n hn => hq n (List.mem_cons_of_mem _ hn))⟩
    obtain ⟨o, l, rfl⟩ := hq name (by simp) kind data txt hst
    refine ((h.1 kind _ txt hst).2 ?_).1 o l rfl
    intro hl
    obtain ⟨a, ha, x⟩ := hl
    exact not_late hnd hsub ⟨a, List.mem_reverse.2 ha, x⟩

theorem allText_of_long {d : Bytes} {fs : List Field} {m : Mem} : ∀ {names asked : List Bytes} {vs : List View},
    AllSeen d fs m asked names vs →
    (∀ n ∈ names, ∀ kind data txt, Stored d fs n kind data txt → (∃ o l, data = .src o l) ∧ (txt = [] ∨ 8 < txt.length)) →
    AllText d fs m names vs
  | [], _, [], _, _ => trivial
  | [], _, _ :: _, h, _ => h.elim
  | _ :: _, _, [], h, _ => h.elim
  | name :: names, asked, v :: vs, h, hq => by
    refine ⟨fun kind data txt hst => ?_, allText_of_long h.2 (fun n hn => hq n (List.mem_cons_of_mem _ hn))⟩
    obtain ⟨⟨o, l, rfl⟩, hlen⟩ := hq name (by simp) kind data txt hst
    by_cases hl : Late (valNames d fs) asked name
    · exact ((h.1 kind _ txt hst).1 hl).2 hlen
    · exact ((h.1 kind _ txt hst).2 hl).1 o l rfl

/-- A `String` from a value of a node that was loaded -/
theorem viewIn_ok {m m' : Mem} {e g : Nat} (hl : Live m e g) {b : Block} (ho : OwnBlock e g b) {d : Bytes} (hr : m.read b = .ok d)
    (k : Keeps m m' e) : (viewIn e g b).read m' = .ok d := by
  cases b with
  | ext p o l => exact k.own_block ho hr
  | loc c =>
    have : c = d := by simpa [Mem.read] using hr
    subst this
    obtain ⟨v, hv, hg⟩ := hl.keeps k
    simp only [viewIn, View.read, Mem.read]
    by_cases h0 : c.length = 0
    · simp [List.length_eq_zero_iff.1 h0]
    · rw [if_neg h0]
      simp [Mem.get, Mem.envAt, hv, hg]

theorem viewValues_read {m : Mem} : ∀ {vs : List PVal} {xs}, m.viewValues vs = .ok xs → ∀ v ∈ vs, ∃ d, m.read v.block = .ok d
  | [], _, _, _, hv => by simp at hv
  | w :: vs, xs, h, v, hv => by
    simp only [viewValues, Res.bind_eq_ok] at h
    obtain ⟨_, _, d, hd, _, hr, _⟩ := h
    rcases List.mem_cons.1 hv with rfl | hv
    · exact ⟨d, hd⟩
    · exact viewValues_read hr v hv

theorem good_value {m : Mem} {e g : Nat} {n : PNode} {x : ANode} (h : Good m e g n x) {v : PVal} (hv : v ∈ n.values) :
    Live m e g ∧ OwnBlock e g v.block ∧ n.gen = g ∧ ∃ d, m.read v.block = .ok d := by
  refine ⟨view_live h, ?_⟩
  obtain ⟨h1, h2⟩ := h
  cases n with
  | mk e' g' t nm vs ns =>
    simp only [view, Res.bind_eq_ok] at h2
    obtain ⟨_, _, _, _, _, h3, _⟩ := h2
    exact ⟨(h1.2.2.2.1 v hv).2, h1.2.1, viewValues_read h3 v hv⟩

end Srl.Own
