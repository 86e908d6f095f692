import Verif.Model.OwnSpec

/-! # Lemmas about the memory of trees -/

namespace Srl.Own
open Mem

/-- Environment `e` is as it was except that its heap and table may hold more. -/
def Keeps (m m' : Mem) (e : Nat) : Prop :=
  ∀ v, m.env e = .ok v → ∃ v', m'.env e = .ok v' ∧ v'.gen = v.gen ∧ v.data <+: v'.data ∧ v.names <+: v'.names

theorem Keeps.refl (m : Mem) (e : Nat) : Keeps m m e :=
  fun v h => ⟨v, h, rfl, List.prefix_refl _, List.prefix_refl _⟩

theorem Keeps.trans {m m' m'' : Mem} {e : Nat} (a : Keeps m m' e) (b : Keeps m' m'' e) : Keeps m m'' e := by
  intro v h
  obtain ⟨v', h', g', d', n'⟩ := a v h
  obtain ⟨v'', h'', g'', d'', n''⟩ := b v' h'
  exact ⟨v'', h'', g''.trans g', d'.trans d'', n'.trans n''⟩

theorem Keeps.of_envs {m m' : Mem} (h : m'.envs = m.envs) (e : Nat) : Keeps m m' e := by
  intro v hv
  refine ⟨v, ?_, rfl, List.prefix_refl _, List.prefix_refl _⟩
  simpa [Mem.env, h] using hv

/-- All environments are kept, buffers and the memory of the parser are unchanged. -/
structure Ext (m m' : Mem) : Prop where
  bufs : m'.bufs = m.bufs
  pname : m'.pname = m.pname
  pval : m'.pval = m.pval
  keeps : ∀ e, Keeps m m' e

theorem Ext.refl (m : Mem) : Ext m m := ⟨rfl, rfl, rfl, Keeps.refl m⟩
theorem Ext.trans {m m' m'' : Mem} (a : Ext m m') (b : Ext m' m'') : Ext m m'' :=
  ⟨b.bufs.trans a.bufs, b.pname.trans a.pname, b.pval.trans a.pval, fun e => (a.keeps e).trans (b.keeps e)⟩

theorem prefix_get {α : Type} {xs ys : List α} (h : xs <+: ys) {i : Nat} {x : α} (hx : xs[i]? = some x) :
    ys[i]? = some x := by
  obtain ⟨zs, rfl⟩ := h
  have hl : i < xs.length := by
    rcases Nat.lt_or_ge i xs.length with h | h
    · exact h
    · rw [List.getElem?_eq_none h] at hx; cases hx
  rw [List.getElem?_append_left hl]; exact hx

theorem orUb_eq {α : Type} {x : Option α} {a : α} : orUb x = .ok a ↔ x = some a := by
  cases x <;> simp [orUb]

theorem envAt_eq {m : Mem} {e g : Nat} {v : Env} : m.envAt e g = .ok v ↔ m.env e = .ok v ∧ v.gen = g := by
  unfold envAt
  rw [Res.bind_eq_ok]
  constructor
  · rintro ⟨a, h, h'⟩
    by_cases hg : a.gen = g
    · rw [if_pos hg] at h'; cases h'; exact ⟨h, hg⟩
    · rw [if_neg hg] at h'; cases h'
  · rintro ⟨h, h'⟩
    exact ⟨v, h, by rw [if_pos h']⟩

theorem Keeps.envAt {m m' : Mem} {e g : Nat} (k : Keeps m m' e) {v : Env} (h : m.envAt e g = .ok v) :
    ∃ v', m'.envAt e g = .ok v' ∧ v.data <+: v'.data ∧ v.names <+: v'.names := by
  obtain ⟨h1, h2⟩ := envAt_eq.1 h
  obtain ⟨v', h', g', d', n'⟩ := k v h1
  exact ⟨v', envAt_eq.2 ⟨h', g'.trans h2⟩, d', n'⟩

theorem Keeps.name {m m' : Mem} {e g i : Nat} (k : Keeps m m' e) {d : Bytes}
    (h : m.nameOf (.entry e g i) = .ok d) : m'.nameOf (.entry e g i) = .ok d := by
  simp only [nameOf, Res.bind_eq_ok, orUb_eq] at h ⊢
  obtain ⟨v, hv, hd⟩ := h
  obtain ⟨v', hv', _, hn⟩ := k.envAt hv
  exact ⟨v', hv', prefix_get hn hd⟩

theorem Ext.nameOf {m m' : Mem} (x : Ext m m') {r : NameRef} {d : Bytes} (h : m.nameOf r = .ok d) :
    m'.nameOf r = .ok d := by
  cases r with
  | null => exact h
  | empty => exact h
  | entry e g i => exact (x.keeps e).name h

theorem Keeps.heap {m m' : Mem} {e g i : Nat} (k : Keeps m m' e) {d : Bytes}
    (h : m.get (.heap e g i) = .ok d) : m'.get (.heap e g i) = .ok d := by
  simp only [Mem.get, Res.bind_eq_ok, orUb_eq] at h ⊢
  obtain ⟨v, hv, hd⟩ := h
  obtain ⟨v', hv', hn, _⟩ := k.envAt hv
  exact ⟨v', hv', prefix_get hn hd⟩

theorem Ext.get {m m' : Mem} (x : Ext m m') {p : Ptr} {d : Bytes} (h : m.get p = .ok d) : m'.get p = .ok d := by
  cases p with
  | buf b => simpa [Mem.get, x.bufs] using h
  | parserName => simpa [Mem.get, x.pname] using h
  | parserValue => simpa [Mem.get, x.pval] using h
  | heap e g i => exact (x.keeps e).heap h
  | link e g c =>
    simp only [Mem.get, Res.bind_eq_ok] at h ⊢
    obtain ⟨v, hv, hd⟩ := h
    obtain ⟨v', hv', _⟩ := (x.keeps e).envAt hv
    exact ⟨v', hv', hd⟩

theorem read_mono {m m' : Mem} {p : Ptr} {off len : Nat} {d : Bytes}
    (hg : ∀ c, m.get p = .ok c → m'.get p = .ok c) (h : m.read (.ext p off len) = .ok d) :
    m'.read (.ext p off len) = .ok d := by
  simp only [Mem.read] at h ⊢
  by_cases hl : len = 0
  · rw [if_pos hl] at h ⊢; exact h
  · rw [if_neg hl] at h ⊢
    rw [Res.bind_eq_ok] at h ⊢
    obtain ⟨c, hc, hd⟩ := h
    exact ⟨c, hg c hc, hd⟩

theorem Ext.read {m m' : Mem} (x : Ext m m') {b : Block} {d : Bytes} (h : m.read b = .ok d) :
    m'.read b = .ok d := by
  cases b with
  | loc c => exact h
  | ext p off len => exact read_mono (fun _ => x.get) h

theorem read_length {m : Mem} {p : Ptr} {off len : Nat} {d : Bytes} (h : m.read (.ext p off len) = .ok d) :
    d.length = len := by
  simp only [Mem.read] at h
  by_cases hl : len = 0
  · rw [if_pos hl] at h; cases h; exact hl.symm
  · rw [if_neg hl] at h
    rw [Res.bind_eq_ok] at h
    obtain ⟨c, _, hd⟩ := h
    by_cases hb : off + len ≤ c.length
    · rw [if_pos hb] at hd; cases hd; simp; omega
    · rw [if_neg hb] at hd; cases hd

/-! ## Ownership -/

def OwnName (e g : Nat) : NameRef → Prop
  | .null => True
  | .empty => True
  | .entry e' g' _ => e' = e ∧ g' = g

def OwnBlock (e g : Nat) : Block → Prop
  | .loc _ => True
  | .ext (.heap e' g' _) _ _ => e' = e ∧ g' = g
  | .ext _ _ _ => False

def OwnVal (e g : Nat) (v : PVal) : Prop := OwnName e g v.name ∧ OwnBlock e g v.block

mutual
/-- All pointers of a node lead into environment `e`, and the nodes in it have names that are not null. -/
def OwnNode (e g : Nat) : PNode → Prop
  | .mk e' g' _ n vs ns => e' = e ∧ g' = g ∧ OwnName e g n ∧ (∀ v ∈ vs, OwnVal e g v) ∧ OwnNodes e g ns
def OwnNodes (e g : Nat) : List PNode → Prop
  | [] => True
  | n :: ns => (OwnNode e g n ∧ n.name ≠ .null) ∧ OwnNodes e g ns
end

theorem Keeps.own_name {m m' : Mem} {e g : Nat} (k : Keeps m m' e) {r : NameRef} (o : OwnName e g r)
    {d : Bytes} (h : m.nameOf r = .ok d) : m'.nameOf r = .ok d := by
  cases r with
  | null => exact h
  | empty => exact h
  | entry e' g' i => obtain ⟨rfl, rfl⟩ := o; exact k.name h

theorem Keeps.own_block {m m' : Mem} {e g : Nat} (k : Keeps m m' e) {b : Block} (o : OwnBlock e g b)
    {d : Bytes} (h : m.read b = .ok d) : m'.read b = .ok d := by
  cases b with
  | loc c => exact h
  | ext p off len =>
    cases p with
    | heap e' g' i =>
      obtain ⟨rfl, rfl⟩ := o
      exact read_mono (fun _ => k.heap) h
    | _ => exact o.elim

theorem Keeps.own_values {m m' : Mem} {e g : Nat} (k : Keeps m m' e) :
    ∀ {vs : List PVal}, (∀ v ∈ vs, OwnVal e g v) → ∀ {xs}, m.viewValues vs = .ok xs → m'.viewValues vs = .ok xs
  | [], _, _, h => h
  | v :: vs, o, xs, h => by
    simp only [viewValues, Res.bind_eq_ok] at h ⊢
    obtain ⟨n, hn, d, hd, r, hr, he⟩ := h
    have hv := o v (by simp)
    exact ⟨n, k.own_name hv.1 hn, d, k.own_block hv.2 hd, r,
      k.own_values (fun w hw => o w (by simp [hw])) hr, he⟩

mutual
theorem Keeps.own_view {m m' : Mem} {e g : Nat} (k : Keeps m m' e) :
    ∀ {n : PNode}, OwnNode e g n → ∀ {x}, m.view n = .ok x → m'.view n = .ok x
  | .mk e' g' t nm vs ns, o, x, h => by
    obtain ⟨rfl, rfl, on, ov, os⟩ := o
    simp only [view, Res.bind_eq_ok] at h ⊢
    obtain ⟨v, hv, n, hn, ys, hys, zs, hzs, he⟩ := h
    obtain ⟨v', hv', _⟩ := k.envAt hv
    exact ⟨v', hv', n, k.own_name on hn, ys, k.own_values ov hys, zs, k.own_views os hzs, he⟩
theorem Keeps.own_views {m m' : Mem} {e g : Nat} (k : Keeps m m' e) :
    ∀ {ns : List PNode}, OwnNodes e g ns → ∀ {xs}, m.viewNodes ns = .ok xs → m'.viewNodes ns = .ok xs
  | [], _, _, h => h
  | n :: ns, o, xs, h => by
    simp only [viewNodes, Res.bind_eq_ok] at h ⊢
    obtain ⟨a, ha, as, has, he⟩ := h
    exact ⟨a, k.own_view o.1.1 ha, as, k.own_views o.2 has, he⟩
end

/-- Node `n` of environment `e` has content `x`. -/
def Good (m : Mem) (e g : Nat) (n : PNode) (x : ANode) : Prop := OwnNode e g n ∧ m.view n = .ok x

theorem Good.keeps {m m' : Mem} {e g : Nat} {n : PNode} {x : ANode} (h : Good m e g n x) (k : Keeps m m' e) :
    Good m' e g n x := ⟨h.1, k.own_view h.1 h.2⟩

/-- Environment `e` exists and was cleared `g` times. -/
def Live (m : Mem) (e g : Nat) : Prop := ∃ v, m.env e = .ok v ∧ v.gen = g

theorem Live.keeps {m m' : Mem} {e g : Nat} (h : Live m e g) (k : Keeps m m' e) : Live m' e g := by
  obtain ⟨v, hv, hg⟩ := h
  obtain ⟨v', hv', hg', _⟩ := k v hv
  exact ⟨v', hv', hg'.trans hg⟩

/-! ## Storing -/

theorem env_lt {m : Mem} {e : Nat} {v : Env} (h : m.env e = .ok v) : e < m.envs.length := by
  unfold Mem.env at h
  split at h
  · next w hw =>
    rcases Nat.lt_or_ge e m.envs.length with h' | h'
    · exact h'
    · rw [List.getElem?_eq_none h'] at hw; cases hw
  · cases h

theorem env_alive {m : Mem} {e : Nat} {v : Env} (h : m.env e = .ok v) : v.alive = true := by
  unfold Mem.env at h
  split at h
  · split at h
    · next w hw ha => cases h; exact ha
    · cases h
  · cases h

theorem env_setEnv {m : Mem} {e : Nat} {v w : Env} (h : m.env e = .ok v) (hw : w.alive = true) :
    (m.setEnv e w).env e = .ok w := by
  simp [Mem.env, setEnv, List.getElem?_set_self (env_lt h), hw]

theorem env_setEnv_ne {m : Mem} {e e' : Nat} {w : Env} (h : e' ≠ e) : (m.setEnv e w).env e' = m.env e' := by
  simp [Mem.env, setEnv, List.getElem?_set_ne (Ne.symm h)]

theorem Ext.setEnv {m : Mem} {e : Nat} {v w : Env} (h : m.env e = .ok v) (ha : w.alive = true)
    (hg : w.gen = v.gen) (hd : v.data <+: w.data) (hn : v.names <+: w.names) : Ext m (m.setEnv e w) := by
  refine ⟨rfl, rfl, rfl, fun e' u hu => ?_⟩
  by_cases he : e' = e
  · subst he
    rw [h] at hu; cases hu
    exact ⟨w, env_setEnv h ha, hg, hd, hn⟩
  · exact ⟨u, by rw [env_setEnv_ne he]; exact hu, rfl, List.prefix_refl _, List.prefix_refl _⟩

theorem find_get {d : Bytes} : ∀ {xs : List Bytes} {i : Nat}, find d xs = some i → xs[i]? = some d
  | [], _, h => by cases h
  | x :: xs, i, h => by
    unfold find at h
    by_cases hx : x = d
    · rw [if_pos hx] at h; cases h; simp [hx]
    · rw [if_neg hx] at h
      cases hf : find d xs with
      | none => rw [hf] at h; cases h
      | some j => rw [hf] at h; cases h; simpa using find_get hf

theorem storeString_ok {m : Mem} {e g : Nat} (h : Live m e g) (d : Bytes) :
    ∃ r m', m.storeString e d = .ok (r, m') ∧ Ext m m' ∧ OwnName e g r ∧ m'.nameOf r = .ok d ∧
      r ≠ .null := by
  obtain ⟨v, hv, rfl⟩ := h
  unfold storeString
  by_cases hd : d = []
  · rw [if_pos hd]
    exact ⟨.empty, m, rfl, Ext.refl m, trivial, by simp [nameOf, hd], by simp⟩
  · rw [if_neg hd, hv, Res.ok_bind]
    cases hf : find d v.names with
    | some i =>
      refine ⟨.entry e v.gen i, m, rfl, Ext.refl m, ⟨rfl, rfl⟩, ?_, by simp⟩
      simp only [nameOf, Res.bind_eq_ok, orUb_eq]
      exact ⟨v, envAt_eq.2 ⟨hv, rfl⟩, find_get hf⟩
    | none =>
      have ha := env_alive hv
      refine ⟨.entry e v.gen v.names.length, _, rfl,
        Ext.setEnv hv ha rfl (List.prefix_refl _) (List.prefix_append _ _), ⟨rfl, rfl⟩, ?_, by simp⟩
      simp only [nameOf, Res.bind_eq_ok, orUb_eq]
      exact ⟨_, envAt_eq.2 ⟨env_setEnv hv ha, rfl⟩, by simp⟩

theorem storeValue_ok {m : Mem} {e g : Nat} (h : Live m e g) (kind : Nat) {b : Block} {d : Bytes}
    (hb : m.read b = .ok d) (name : Bytes) :
    ∃ w m', m.storeValue e kind b name = .ok (w, m') ∧ Ext m m' ∧ OwnVal e g w ∧ w.kind = kind ∧
      m'.nameOf w.name = .ok name ∧ m'.read w.block = .ok d := by
  obtain ⟨r, m1, h1, x1, o1, n1, z1⟩ := storeString_ok h name
  unfold storeValue
  rw [h1, Res.ok_bind]
  cases b with
  | loc c =>
    have : c = d := by simpa [Mem.read] using hb
    subst this
    exact ⟨_, m1, rfl, x1, ⟨o1, trivial⟩, rfl, n1, rfl⟩
  | ext p off len =>
    have hr := x1.read hb
    have hl := read_length hb
    simp only [hr, Res.ok_bind]
    by_cases h8 : len ≤ 8
    · rw [if_pos h8]
      exact ⟨_, m1, rfl, x1, ⟨o1, trivial⟩, rfl, n1, rfl⟩
    · rw [if_neg h8]
      obtain ⟨v, hv, hg⟩ := h.keeps (x1.keeps e)
      have ha := env_alive hv
      have x2 : Ext m1 (m1.setEnv e { v with data := v.data ++ [d] }) :=
        Ext.setEnv hv ha rfl (List.prefix_append _ _) (List.prefix_refl _)
      rw [hv, Res.ok_bind]
      refine ⟨_, _, rfl, x1.trans x2, ⟨o1, ⟨rfl, hg⟩⟩, rfl, x2.nameOf n1, ?_⟩
      have hget : (m1.setEnv e { v with data := v.data ++ [d] }).get (.heap e v.gen v.data.length) = .ok d := by
        simp only [Mem.get, Res.bind_eq_ok, orUb_eq]
        exact ⟨_, envAt_eq.2 ⟨env_setEnv hv ha, rfl⟩, by simp⟩
      have h0 : ¬ len = 0 := by omega
      simp only [Mem.read, hget, Res.ok_bind, if_neg h0]
      rw [if_pos (by omega), List.drop_zero, ← hl, List.take_length]

theorem newNode_ok {m : Mem} {e g : Nat} (h : Live m e g) (t : ScopeTy) (name : Bytes) :
    ∃ n m', m.newNode e t name = .ok (n, m') ∧ Ext m m' ∧ Good m' e g n (.mk t name [] []) ∧ n.env = e ∧
      n.gen = g ∧ n.type = t ∧ n.name ≠ .null := by
  obtain ⟨r, m1, h1, x1, o1, n1, z1⟩ := storeString_ok h name
  obtain ⟨v, hv, rfl⟩ := h.keeps (x1.keeps e)
  refine ⟨.mk e v.gen t r [] [], m1, ?_, x1, ⟨⟨rfl, rfl, o1, by simp, trivial⟩, ?_⟩, rfl, rfl, rfl, z1⟩
  · simp [newNode, h1, hv]
  · simp [view, n1, viewValues, viewNodes, envAt_eq.2 ⟨hv, rfl⟩]

theorem view_live {m : Mem} {e g : Nat} {n : PNode} {x : ANode} (h : Good m e g n x) : Live m e g := by
  cases n with
  | mk e' g' t nm vs ns =>
    obtain ⟨⟨rfl, rfl, _⟩, hv⟩ := h
    simp only [view, Res.bind_eq_ok] at hv
    obtain ⟨v, hv, _⟩ := hv
    exact ⟨v, envAt_eq.1 hv⟩

theorem copyValues_ok {e g e' g' : Nat} : ∀ {m : Mem} {vs : List PVal} {xs}, Live m e g →
    (∀ v ∈ vs, OwnVal e' g' v) → m.viewValues vs = .ok xs →
    ∃ ws m', m.copyValues e vs = .ok (ws, m') ∧ Ext m m' ∧ (∀ w ∈ ws, OwnVal e g w) ∧ m'.viewValues ws = .ok xs
  | m, [], xs, _, _, hx => ⟨[], m, rfl, Ext.refl m, by simp, hx⟩
  | m, v :: vs, xs, h, o, hx => by
    simp only [viewValues, Res.bind_eq_ok] at hx
    obtain ⟨n, hn, d, hd, r, hr, he⟩ := hx
    cases he
    obtain ⟨w, m1, h1, x1, o1, k1, n1, r1⟩ := storeValue_ok h v.kind hd n
    have o' : ∀ w ∈ vs, OwnVal e' g' w := fun w hw => o w (by simp [hw])
    obtain ⟨ws, m2, h2, x2, o2, v2⟩ := copyValues_ok (h.keeps (x1.keeps e)) o' ((x1.keeps e').own_values o' hr)
    refine ⟨w :: ws, m2, by simp [copyValues, hn, h1, h2], x1.trans x2, ?_, ?_⟩
    · intro u hu
      rcases List.mem_cons.1 hu with rfl | hu
      · exact o1
      · exact o2 u hu
    · simp only [viewValues, Res.bind_eq_ok]
      exact ⟨n, x2.nameOf n1, d, x2.read r1, r, v2, by rw [k1]⟩

mutual
theorem copyNode_ok {e g e' g' : Nat} : ∀ {m : Mem} {n : PNode} {x : ANode}, Live m e g → Good m e' g' n x →
    ∀ name, ∃ c m', m.copyNode e n name = .ok (c, m') ∧ Ext m m' ∧ Good m' e g c (x.rename name) ∧ c.name ≠ .null
  | m, .mk e1 g1 t nm vs ns, x, h, hn, name => by
    have hlive := view_live hn
    obtain ⟨⟨rfl, rfl, on, ov, os⟩, hx⟩ := hn
    simp only [view, Res.bind_eq_ok] at hx
    obtain ⟨v, hv, n, hn, ys, hys, zs, hzs, he⟩ := hx
    cases he
    by_cases hne : e1 = e
    · subst hne
      have hg : g1 = g := by
        obtain ⟨v1, hv1, rfl⟩ := hlive
        obtain ⟨v2, hv2, rfl⟩ := h
        rw [hv1] at hv2; cases hv2; rfl
      subst hg
      obtain ⟨r, m1, h1, x1, o1, n1, z1⟩ := storeString_ok h name
      obtain ⟨v', hv', _⟩ := (x1.keeps e1).envAt hv
      refine ⟨.mk e1 g1 t r vs ns, m1, by simp [copyNode, hv, h1], x1, ⟨⟨rfl, rfl, o1, ov, os⟩, ?_⟩, z1⟩
      simp only [view, Res.bind_eq_ok]
      exact ⟨v', hv', name, n1, ys, (x1.keeps e1).own_values ov hys, zs, (x1.keeps e1).own_views os hzs, rfl⟩
    · obtain ⟨c, m1, h1, x1, gc, ec, gc', tc, zc⟩ := newNode_ok h t name
      obtain ⟨cs, m2, h2, x2, o2, v2⟩ := copyNodes_ok (h.keeps (x1.keeps e)) os ((x1.keeps e1).own_views os hzs)
      obtain ⟨ws, m3, h3, x3, o3, v3⟩ := copyValues_ok (h.keeps ((x1.trans x2).keeps e)) ov
        (((x1.trans x2).keeps e1).own_values ov hys)
      refine ⟨.mk c.env c.gen t c.name ws cs, m3, by simp [copyNode, hv, hne, h1, h2, h3],
        (x1.trans x2).trans x3, ?_, zc⟩
      obtain ⟨oc, vc⟩ := gc.keeps ((x2.trans x3).keeps e)
      cases c with
      | mk ec gc tc nc vc' nc' =>
        obtain ⟨rfl, rfl, onc, _, _⟩ := oc
        simp only [view, Res.bind_eq_ok] at vc
        obtain ⟨u, hu, nn, hnn, _, _, _, _, hee⟩ := vc
        cases hee
        refine ⟨⟨rfl, rfl, onc, o3, o2⟩, ?_⟩
        simp only [view, Res.bind_eq_ok]
        exact ⟨u, hu, _, hnn, ys, v3, zs, (x3.keeps _).own_views o2 v2, rfl⟩
theorem copyNodes_ok {e g e' g' : Nat} : ∀ {m : Mem} {ns : List PNode} {xs}, Live m e g → OwnNodes e' g' ns →
    m.viewNodes ns = .ok xs → ∃ cs m', m.copyNodes e ns = .ok (cs, m') ∧ Ext m m' ∧ OwnNodes e g cs ∧
      m'.viewNodes cs = .ok xs
  | m, [], xs, _, _, hx => ⟨[], m, rfl, Ext.refl m, trivial, hx⟩
  | m, n :: ns, xs, h, o, hx => by
    simp only [viewNodes, Res.bind_eq_ok] at hx
    obtain ⟨a, ha, as, has, he⟩ := hx
    cases he
    have hnm : ∃ d, m.nameOf n.name = .ok d ∧ a.rename d = a := by
      cases n with
      | mk e1 g1 t nm vs ns =>
        simp only [view, Res.bind_eq_ok] at ha
        obtain ⟨v, hv, n, hn, ys, hys, zs, hzs, he⟩ := ha
        cases he
        exact ⟨n, hn, rfl⟩
    obtain ⟨d, hd, hr⟩ := hnm
    obtain ⟨c, m1, h1, x1, g1, z1⟩ := copyNode_ok h ⟨o.1.1, ha⟩ d
    rw [hr] at g1
    obtain ⟨cs, m2, h2, x2, o2, v2⟩ := copyNodes_ok (h.keeps (x1.keeps e)) o.2 ((x1.keeps e').own_views o.2 has)
    refine ⟨c :: cs, m2, by simp [copyNodes, hd, h1, h2], x1.trans x2, ⟨⟨g1.1, z1⟩, o2⟩, ?_⟩
    simp only [viewNodes, Res.bind_eq_ok]
    exact ⟨a, (g1.keeps (x2.keeps e)).2, as, v2, rfl⟩
end

end Srl.Own
