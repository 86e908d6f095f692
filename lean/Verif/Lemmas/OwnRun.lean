import Verif.Lemmas.OwnSim

/-! # Programs on trees: the invariant and each call -/

namespace Srl.Own
open Mem
open Spec (World empty slice)

/-- State and content correspond. -/
structure Sim (s : St) (w : World) : Prop where
  bufs : s.mem.bufs = w.bufs
  trees : ∀ h e n, s.trees h = some (e, n) → ∃ g, Good s.mem e g n (w.trees h)
  named : ∀ h e n, s.trees h = some (e, n) → n.name ≠ .null
  fresh : ∀ h, s.trees h = none → w.trees h = empty .object
  apart : ∀ h h' e n n', s.trees h = some (e, n) → s.trees h' = some (e, n') → h = h'
  no : ∀ k, w.held k = none → s.held k = none
  yes : ∀ k x o, w.held k = some (x, o) → ∃ n, s.held k = some n
  owned : ∀ k x o, w.held k = some (x, some o) →
    ∃ n e r g, s.held k = some n ∧ s.trees o = some (e, r) ∧ Good s.mem e g n x

theorem Sim.init : Sim St.init Spec.init := by
  constructor <;> simp [St.init, Spec.init]

theorem Sim.grow {s : St} {w : World} (h : Sim s w) {m : Mem} (g : Grow s.mem m) : Sim { s with mem := m } w where
  bufs := g.bufs.trans h.bufs
  trees := fun t e n ht => let ⟨x, hx⟩ := h.trees t e n ht; ⟨x, hx.keeps (g.keeps e)⟩
  named := h.named
  fresh := h.fresh
  apart := h.apart
  no := h.no
  yes := h.yes
  owned := fun k x o hk =>
    let ⟨n, e, r, y, h1, h2, h3⟩ := h.owned k x o hk
    ⟨n, e, r, y, h1, h2, h3.keeps (g.keeps e)⟩

theorem expire_none {w : World} {h k : Nat} : (w.expire h).held k = none ↔ w.held k = none := by
  simp only [World.expire]
  split
  · next n o hk => by_cases ho : o = h <;> simp [ho, hk]
  · exact Iff.rfl

theorem expire_some {w : World} {h k : Nat} {x : ANode} {o : Option Nat}
    (hk : (w.expire h).held k = some (x, o)) : ∃ o', w.held k = some (x, o') := by
  simp only [World.expire] at hk
  split at hk
  · next n o' hk' =>
    by_cases ho : o' = h
    · simp only [ho, if_true] at hk; cases hk; exact ⟨_, hk'⟩
    · simp only [ho, if_false] at hk; cases hk; exact ⟨_, hk'⟩
  · exact ⟨_, hk⟩

theorem expire_owned {w : World} {h k : Nat} {x : ANode} {o : Nat}
    (hk : (w.expire h).held k = some (x, some o)) : w.held k = some (x, some o) ∧ o ≠ h := by
  simp only [World.expire] at hk
  split at hk
  · next n o' hk' =>
    by_cases ho : o' = h
    · simp only [ho, if_true] at hk; cases hk
    · simp only [ho, if_false] at hk; cases hk; exact ⟨hk', ho⟩
  · next hx => exact absurd hk (hx x o)

theorem Sim.expire {s : St} {w : World} (h : Sim s w) (t : Nat) : Sim s (w.expire t) where
  bufs := h.bufs
  trees := h.trees
  named := h.named
  fresh := h.fresh
  apart := h.apart
  no := fun k hk => h.no k (expire_none.1 hk)
  yes := fun k x _ hk => let ⟨o', hk'⟩ := expire_some hk; h.yes k x o' hk'
  owned := fun k x o hk => h.owned k x o (expire_owned hk).1

/-- The root of a tree is replaced after its environment has changed in any way; the nodes held that
belong to it are not to be used any more. -/
theorem Sim.replace {s : St} {w : World} (h : Sim s w) {t e g : Nat} {n n' : PNode} {x' : ANode} {m : Mem}
    (ht : s.trees t = some (e, n)) (hb : m.bufs = s.mem.bufs) (hk : ∀ e', e' ≠ e → Keeps s.mem m e')
    (hg : Good m e g n' x') (hz : n'.name ≠ .null) :
    Sim ({ s with mem := m }.setTree t (some (e, n'))) ((w.expire t).setTree t x') where
  bufs := hb.trans h.bufs
  trees := by
    intro t' e' r hr
    simp only [St.setTree, World.setTree] at hr ⊢
    by_cases hh : t' = t
    · rw [if_pos hh] at hr ⊢; cases hr; exact ⟨g, hg⟩
    · rw [if_neg hh] at hr ⊢
      have hne : e' ≠ e := fun he => hh (h.apart t' t e' r n hr (he ▸ ht))
      obtain ⟨y, hy⟩ := h.trees t' e' r hr
      exact ⟨y, hy.keeps (hk e' hne)⟩
  named := by
    intro t' e' r hr
    simp only [St.setTree] at hr
    by_cases hh : t' = t
    · rw [if_pos hh] at hr; cases hr; exact hz
    · rw [if_neg hh] at hr; exact h.named t' e' r hr
  fresh := by
    intro t' hr
    simp only [St.setTree, World.setTree] at hr ⊢
    by_cases hh : t' = t
    · rw [if_pos hh] at hr; cases hr
    · rw [if_neg hh] at hr ⊢; exact h.fresh t' hr
  apart := by
    intro a b e' na nb ha hb'
    simp only [St.setTree] at ha hb'
    by_cases h1 : a = t
    · by_cases h2 : b = t
      · rw [h1, h2]
      · rw [if_pos h1] at ha; rw [if_neg h2] at hb'; cases ha
        exact absurd (h.apart b t e nb n hb' ht) h2
    · by_cases h2 : b = t
      · rw [if_neg h1] at ha; rw [if_pos h2] at hb'; cases hb'
        exact absurd (h.apart a t e na n ha ht) h1
      · rw [if_neg h1] at ha; rw [if_neg h2] at hb'
        exact h.apart a b e' na nb ha hb'
  no := fun k hk => h.no k (expire_none.1 hk)
  yes := fun k x o hk => let ⟨o', hk'⟩ := expire_some (w := w) hk; h.yes k x o' hk'
  owned := by
    intro k x o hk'
    obtain ⟨h1, h2⟩ := expire_owned (w := w) hk'
    obtain ⟨y, e', r, z, h3, h4, h5⟩ := h.owned k x o h1
    have hne : e' ≠ e := fun he => h2 (h.apart o t e' r n h4 (he ▸ ht))
    refine ⟨y, e', r, z, h3, ?_, h5.keeps (hk e' hne)⟩
    simp only [St.setTree]; rw [if_neg h2]; exact h4

/-- The root of a tree is replaced while its environment only grows. -/
theorem Sim.setTree {s : St} {w : World} (h : Sim s w) {t e g : Nat} {n n' : PNode} {x' : ANode} {m : Mem}
    (ht : s.trees t = some (e, n)) (gr : Grow s.mem m) (hg : Good m e g n' x')
    (hz : n'.name ≠ .null) : Sim ({ s with mem := m }.setTree t (some (e, n'))) (w.setTree t x') := by
  have hr := h.replace ht gr.bufs (fun e' _ => gr.keeps e') hg hz
  refine ⟨hr.bufs, hr.trees, hr.named, hr.fresh, hr.apart, h.no, h.yes, ?_⟩
  intro k x o hk
  obtain ⟨y, e', r, z, h1, h2, h3⟩ := h.owned k x o hk
  simp only [St.setTree]
  by_cases ho : o = t
  · subst ho
    rw [ht] at h2; cases h2
    exact ⟨y, e, n', z, h1, by rw [if_pos rfl], h3.keeps (gr.keeps e)⟩
  · exact ⟨y, e', r, z, h1, by rw [if_neg ho]; exact h2, h3.keeps (gr.keeps e')⟩

theorem grow_newEnv (m : Mem) : Grow m m.newEnv.2 := by
  refine ⟨rfl, fun e v hv => ⟨v, ?_, rfl, List.prefix_refl _, List.prefix_refl _⟩⟩
  have hl := env_lt hv
  simp only [Mem.env, newEnv] at hv ⊢
  rw [List.getElem?_append_left hl]; exact hv

theorem ext_newEnv (m : Mem) : Ext m m.newEnv.2 := ⟨rfl, rfl, rfl, (grow_newEnv m).keeps⟩

theorem newEnv_env (m : Mem) : m.newEnv.2.env m.newEnv.1 = .ok ⟨true, 0, [], []⟩ := by
  simp [Mem.env, newEnv]

theorem Sim.createEnv {s : St} {w : World} (h : Sim s w) {t : Nat} (ht : s.trees t = none) (ty : ScopeTy) :
    Sim (s.createEnv t ty) (w.setTree t (empty ty)) := by
  have hgood : Good s.mem.newEnv.2 s.mem.newEnv.1 0 (.mk s.mem.newEnv.1 0 ty .empty [] []) (empty ty) :=
    good_mk.2 ⟨[], [], [], rfl, rfl, rfl, ⟨_, newEnv_env s.mem, rfl⟩, trivial, rfl, by simp, rfl, trivial, rfl⟩
  have gr := grow_newEnv s.mem
  have hlt : ∀ a e n, s.trees a = Option.some (e, n) → e < s.mem.envs.length := by
    intro a e n ha
    obtain ⟨g, hg⟩ := h.trees a e n ha
    obtain ⟨v, hv, _⟩ := view_live hg
    exact env_lt hv
  constructor
  · exact h.bufs
  · intro t' e' r hr
    simp only [St.createEnv, St.setTree, World.setTree] at hr ⊢
    by_cases hh : t' = t
    · rw [if_pos hh] at hr ⊢; cases hr; exact ⟨0, hgood⟩
    · rw [if_neg hh] at hr ⊢
      obtain ⟨y, hy⟩ := h.trees t' e' r hr
      exact ⟨y, hy.keeps (gr.keeps e')⟩
  · intro t' e' r hr
    simp only [St.createEnv, St.setTree] at hr
    by_cases hh : t' = t
    · rw [if_pos hh] at hr; cases hr; simp [PNode.name]
    · rw [if_neg hh] at hr; exact h.named t' e' r hr
  · intro t' hr
    simp only [St.createEnv, St.setTree, World.setTree] at hr ⊢
    by_cases hh : t' = t
    · rw [if_pos hh] at hr; cases hr
    · rw [if_neg hh] at hr ⊢; exact h.fresh t' hr
  · intro a b e' na nb ha hb'
    simp only [St.createEnv, St.setTree] at ha hb'
    by_cases h1 : a = t
    · by_cases h2 : b = t
      · rw [h1, h2]
      · rw [if_pos h1] at ha; rw [if_neg h2] at hb'; cases ha
        have := hlt b _ nb hb'
        simp [newEnv] at this
    · by_cases h2 : b = t
      · rw [if_neg h1] at ha; rw [if_pos h2] at hb'; cases hb'
        have := hlt a _ na ha
        simp [newEnv] at this
      · rw [if_neg h1] at ha; rw [if_neg h2] at hb'
        exact h.apart a b e' na nb ha hb'
  · exact h.no
  · exact h.yes
  · intro k x o hk
    obtain ⟨y, e', r, z, h1, h2, h3⟩ := h.owned k x o hk
    have ho : o ≠ t := by rintro rfl; rw [ht] at h2; cases h2
    refine ⟨y, e', r, z, h1, ?_, h3.keeps (gr.keeps e')⟩
    simp only [St.createEnv, St.setTree]; rw [if_neg ho]; exact h2

/-- Nothing that a program can see has changed, only more memory and trees that were not used yet. -/
structure Steps (s s' : St) : Prop where
  ext : Ext s.mem s'.mem
  trees : ∀ h x, s.trees h = some x → s'.trees h = some x
  held : s'.held = s.held

theorem Steps.refl (s : St) : Steps s s := ⟨Ext.refl _, fun _ _ h => h, rfl⟩
theorem Steps.trans {a b c : St} (x : Steps a b) (y : Steps b c) : Steps a c :=
  ⟨x.ext.trans y.ext, fun h z hz => y.trees h z (x.trees h z hz), y.held.trans x.held⟩

theorem setTree_self (w : World) (t : Nat) : w.setTree t (w.trees t) = w := by
  unfold World.setTree
  congr 1
  funext k
  by_cases h : k = t
  · simp [h]
  · simp [h]

theorem Sim.ensure {s : St} {w : World} (h : Sim s w) (t : Nat) :
    Sim (s.ensure t) w ∧ Steps s (s.ensure t) ∧ ∃ e n, (s.ensure t).trees t = some (e, n) := by
  unfold St.ensure
  cases ht : s.trees t with
  | some x => exact ⟨h, Steps.refl s, x.1, x.2, ht⟩
  | none =>
    have := h.createEnv ht .object
    rw [← h.fresh t ht, setTree_self] at this
    refine ⟨this, ⟨ext_newEnv s.mem, ?_, rfl⟩, s.mem.newEnv.1, .mk s.mem.newEnv.1 0 .object .empty [] [],
      by simp [St.createEnv, St.setTree]⟩
    intro k x hk
    have hne : k ≠ t := by rintro rfl; rw [ht] at hk; cases hk
    simp only [St.createEnv, St.setTree]; rw [if_neg hne]; exact hk

/-- The node in a variable and the environment it lives in. -/
def At (s : St) (w : World) : Place → Nat → PNode → Prop
  | .tree h, e, n => s.trees h = some (e, n)
  | .held k, e, n => s.held k = some n ∧ ∃ x o r, w.held k = some (x, some o) ∧ s.trees o = some (e, r)

theorem Steps.at_ {s s' : St} {w : World} (x : Steps s s') {a : Place} {e : Nat} {n : PNode} (h : At s w a e n) :
    At s' w a e n := by
  cases a with
  | tree t => exact x.trees t _ h
  | held k =>
    obtain ⟨h1, y, o, r, h2, h3⟩ := h
    exact ⟨by rw [x.held]; exact h1, y, o, r, h2, x.trees o _ h3⟩

theorem root_ok {s : St} {w : World} (h : Sim s w) {a : Place} {x : ANode} (hx : w.root a = some x) :
    ∃ n s' e g, s.root a = .ok (n, s') ∧ Sim s' w ∧ Steps s s' ∧ At s' w a e n ∧ Good s'.mem e g n x := by
  cases a with
  | tree t =>
    obtain ⟨h1, h2, e, n, h3⟩ := h.ensure t
    simp only [World.root] at hx
    cases hx
    obtain ⟨g, hg⟩ := h1.trees t e n h3
    exact ⟨n, s.ensure t, e, g, by simp [St.root, h3], h1, h2, h3, hg⟩
  | held k =>
    simp only [World.root] at hx
    split at hx
    · next y o hk =>
      cases hx
      obtain ⟨n, e, r, g, h1, h2, h3⟩ := h.owned k _ o hk
      obtain ⟨he, hg, _⟩ := h3.env
      obtain ⟨v, hv, hvg⟩ := view_live h3
      refine ⟨n, s, e, g, ?_, h, Steps.refl s, ⟨h1, _, o, r, hk, h2⟩, h3⟩
      simp [St.root, h1, he, hg, envAt_eq.2 ⟨hv, hvg⟩]
    · cases hx

theorem setRoot_ok {s : St} {w : World} (h : Sim s w) {a : Place} {e g : Nat} {n n' : PNode} {x' : ANode} {m : Mem}
    (ha : At s w a e n) (gr : Grow s.mem m) (hg : Good m e g n' x') (hz : n'.name = n.name) :
    Sim ({ s with mem := m }.setRoot n' a) (w.setRoot x' a) := by
  cases a with
  | tree t =>
    have := h.setTree ha gr hg (by rw [hz]; exact h.named t e n ha)
    simpa [St.setRoot, World.setRoot, show s.trees t = some (e, n) from ha] using this
  | held k =>
    obtain ⟨h1, x, o, r, h2, h3⟩ := ha
    have hs := h.grow gr
    simp only [St.setRoot, World.setRoot, h2]
    constructor
    · exact hs.bufs
    · exact hs.trees
    · exact hs.named
    · exact hs.fresh
    · exact hs.apart
    · intro j hj
      simp only [St.setHeld, World.setHeld] at hj ⊢
      by_cases hjk : j = k
      · rw [if_pos hjk] at hj; cases hj
      · rw [if_neg hjk] at hj ⊢; exact hs.no j hj
    · intro j y o' hj
      simp only [St.setHeld, World.setHeld] at hj ⊢
      by_cases hjk : j = k
      · rw [if_pos hjk]; exact ⟨n', rfl⟩
      · rw [if_neg hjk] at hj ⊢; exact hs.yes j y o' hj
    · intro j y o' hj
      simp only [St.setHeld, World.setHeld] at hj ⊢
      by_cases hjk : j = k
      · rw [if_pos hjk] at hj ⊢; cases hj
        exact ⟨n', e, r, g, rfl, h3, hg⟩
      · rw [if_neg hjk] at hj ⊢; exact hs.owned j y o' hj

/-- A new value in a variable of type `Node`. -/
theorem setHeld_ok {s : St} {w : World} (h : Sim s w) (k : Nat) {t e g : Nat} {r n : PNode} {x : ANode}
    (ht : s.trees t = some (e, r)) (hg : Good s.mem e g n x) :
    Sim (s.setHeld k (some n)) (w.setHeld k (some (x, some t))) := by
  constructor
  · exact h.bufs
  · exact h.trees
  · exact h.named
  · exact h.fresh
  · exact h.apart
  · intro j hj
    simp only [St.setHeld, World.setHeld] at hj ⊢
    by_cases hjk : j = k
    · rw [if_pos hjk] at hj; cases hj
    · rw [if_neg hjk] at hj ⊢; exact h.no j hj
  · intro j y o' hj
    simp only [St.setHeld, World.setHeld] at hj ⊢
    by_cases hjk : j = k
    · rw [if_pos hjk]; exact ⟨n, rfl⟩
    · rw [if_neg hjk] at hj ⊢; exact h.yes j y o' hj
  · intro j y o' hj
    simp only [St.setHeld, World.setHeld] at hj ⊢
    by_cases hjk : j = k
    · rw [if_pos hjk] at hj ⊢; cases hj
      exact ⟨n, e, r, g, rfl, ht, hg⟩
    · rw [if_neg hjk] at hj ⊢; exact h.owned j y o' hj

/-- Where the pointer passed leads. -/
def From (s : St) (w : World) (src : Src) (b : Block) : Prop :=
  match b with
  | .ext (.buf _) _ _ => True
  | .ext (.heap e _ _) _ _ => ∃ a n, At s w a e n ∧ ((∃ p i, src = .data a p i) ∨ ∃ p, src = .name a p)
  | .ext (.link e _ _) _ _ => ∃ a n, At s w a e n ∧ ((∃ p i, src = .data a p i) ∨ ∃ p, src = .name a p)
  | _ => False

theorem read_link {m : Mem} {e g : Nat} (h : Live m e g) (d : Bytes) :
    m.read (.ext (.link e g d) 0 d.length) = .ok d := by
  obtain ⟨v, hv, hg⟩ := h
  by_cases hd : d.length = 0
  · simp [Mem.read, List.eq_nil_of_length_eq_zero hd]
  · have : d ≠ [] := fun hc => hd (by simp [hc])
    simp [Mem.read, this, Mem.get, envAt_eq.2 ⟨hv, hg⟩]

theorem block_ok {s : St} {w : World} (h : Sim s w) {src : Src} {r : Option Bytes}
    (hr : Spec.bytes w src = some r) :
    ∃ b s', src.block s = .ok (b, s') ∧ Sim s' w ∧ Steps s s' ∧ (r = none → b = none) ∧
      ∀ d, r = some d → ∃ c, b = some c ∧ s'.mem.read c = .ok d ∧ From s' w src c := by
  cases src with
  | buf b off len =>
    simp only [Spec.bytes, Option.bind_eq_bind, Option.bind_eq_some_iff] at hr
    obtain ⟨d, hd, c, hc, he⟩ := hr
    cases he
    refine ⟨_, s, rfl, h, Steps.refl s, by simp, fun d' hd' => ?_⟩
    cases hd'
    refine ⟨_, rfl, ?_, trivial⟩
    obtain ⟨h1, rfl⟩ := slice_eq.1 hc
    by_cases hl : len = 0
    · simp [Mem.read, hl]
    · simp [Mem.read, hl, Mem.get, h.bufs, hd, orUb, h1]
  | data a p i =>
    simp only [Spec.bytes, Option.bind_eq_bind, Option.bind_eq_some_iff] at hr
    obtain ⟨x, hx, hr⟩ := hr
    obtain ⟨n, s', e, g, h1, h2, h3, h4, h5⟩ := root_ok h hx
    simp only [Src.block, h1, Res.ok_bind]
    rcases h5.at p with ⟨h6, h7⟩ | ⟨c, y, h6, h7, h8⟩
    · rw [h7] at hr; cases hr
      rw [h6]
      exact ⟨none, s', rfl, h2, h3, fun _ => rfl, by simp⟩
    · rw [h7] at hr
      simp only [h6]
      rcases h8.value i with ⟨h9, h10⟩ | ⟨v, d, z, h9, h10, h11, h12⟩
      · simp only [h10] at hr; cases hr
        rw [h9]
        exact ⟨none, s', rfl, h2, h3, fun _ => rfl, by simp⟩
      · simp only [h10] at hr; cases hr
        simp only [h9]
        obtain ⟨he, hg, _⟩ := h8.env
        cases hb : v.block with
        | loc d' =>
          rw [hb] at h12
          have : d' = z := by simpa [Mem.read] using h12
          subst this
          refine ⟨_, s', rfl, h2, h3, by simp, fun d' hd' => ?_⟩
          cases hd'
          refine ⟨_, rfl, ?_, a, n, he.symm ▸ h4, .inl ⟨p, i, rfl⟩⟩
          rw [he, hg]
          exact read_link (view_live h8) _
        | ext q off len =>
          refine ⟨_, s', rfl, h2, h3, by simp, fun d' hd' => ?_⟩
          cases hd'
          refine ⟨_, rfl, by rw [← hb]; exact h12, ?_⟩
          have ho := h11.2
          rw [hb] at ho
          cases q with
          | heap e' g' j =>
            obtain ⟨rfl, rfl⟩ := ho
            exact ⟨a, n, h4, .inl ⟨p, i, rfl⟩⟩
          | _ => exact ho.elim
  | name a p =>
    simp only [Spec.bytes, Option.bind_eq_bind, Option.bind_eq_some_iff] at hr
    obtain ⟨x, hx, hr⟩ := hr
    obtain ⟨n, s', e, g, h1, h2, h3, h4, h5⟩ := root_ok h hx
    simp only [Src.block, h1, Res.ok_bind]
    rcases h5.at p with ⟨h6, h7⟩ | ⟨c, y, h6, h7, h8⟩
    · rw [h7] at hr; cases hr
      rw [h6]
      exact ⟨none, s', rfl, h2, h3, fun _ => rfl, by simp⟩
    · rw [h7] at hr; cases hr
      simp only [h6, h8.name, Res.ok_bind]
      obtain ⟨he, hg, _⟩ := h8.env
      refine ⟨_, s', rfl, h2, h3, by simp, fun d' hd' => ?_⟩
      cases hd'
      refine ⟨_, rfl, ?_, a, n, he.symm ▸ h4, .inr ⟨p, rfl⟩⟩
      rw [he, hg]
      exact read_link (view_live h8) _

/-- Inserting: `f` stores something with content `y` for each name. -/
theorem insertWith_ok {α : Type} {s : St} {w : World} (h : Sim s w) {a : Place} {path : List Nat} {name : Src}
    {f : Mem → Nat → Bytes → Res (α × Mem)} {add : α → PNode → PNode} {f' : Bytes → ANode → ANode}
    (hf : ∀ s' : St, Steps s s' → ∀ e g nm, Live s'.mem e g → ∃ x m', f s'.mem e nm = .ok (x, m') ∧
      Ext s'.mem m' ∧ ∀ n y, Good m' e g n y → Good m' e g (add x n) (f' nm y))
    (hz : ∀ x n, (add x n).name = n.name)
    {o : Out} {w' : World} (hw : Spec.insertWith w a path name f' = some (o, w')) :
    ∃ s', insertWith s a path name f add = .ok (o, s') ∧ Sim s' w' := by
  simp only [Spec.insertWith, Option.bind_eq_bind, Option.bind_eq_some_iff] at hw
  obtain ⟨r, hr, hw⟩ := hw
  obtain ⟨b, s1, h1, sim1, st1, hn, hd⟩ := block_ok h hr
  simp only [insertWith, h1, Res.ok_bind]
  cases r with
  | none =>
    cases hw
    rw [hn rfl]
    exact ⟨s1, rfl, sim1⟩
  | some nm =>
    obtain ⟨c, rfl, hread, _⟩ := hd nm rfl
    simp only [Option.bind_eq_some_iff] at hw
    obtain ⟨x, hx, hw⟩ := hw
    obtain ⟨n, s2, e, g, h2, sim2, st2, at2, good2⟩ := root_ok sim1 hx
    simp only [h2, Res.ok_bind]
    rcases good2.at path with ⟨h6, h7⟩ | ⟨p, y, h6, h7, h8⟩
    · rw [h7] at hw; cases hw
      rw [h6]
      exact ⟨s2, rfl, sim2⟩
    · rw [h7] at hw; cases hw
      simp only [h6, st2.ext.read hread, Res.ok_bind, h8.env.1]
      obtain ⟨v, m', h9, x9, hadd⟩ := hf s2 (st1.trans st2) e g nm (view_live h8)
      simp only [h9, Res.ok_bind]
      refine ⟨_, rfl, setRoot_ok (g := g) sim2 at2 x9.grow ?_ (update_name (hz v) path n)⟩
      exact (good2.keeps (x9.keeps e)).update (hz v) path h6 h7 (hadd p y (h8.keeps (x9.keeps e)))

theorem destroy_ok {s : St} {w : World} (h : Sim s w) (t : Nat) : ∃ s', s.destroy t = .ok s' ∧
    Sim s' ((w.expire t).setTree t (empty .object)) ∧ s'.trees t = none ∧
    (∀ t', t' ≠ t → s'.trees t' = s.trees t') := by
  unfold St.destroy
  cases ht : s.trees t with
  | none =>
    refine ⟨s, rfl, ?_, ht, fun _ _ => rfl⟩
    have := h.expire t
    rw [← setTree_self (w.expire t) t, show (w.expire t).trees t = empty .object from h.fresh t ht] at this
    exact this
  | some x =>
    obtain ⟨e, n⟩ := x
    obtain ⟨g, hg⟩ := h.trees t e n ht
    obtain ⟨v, hv, _⟩ := view_live hg
    simp only [destroyEnv, hv, Res.ok_bind]
    refine ⟨_, rfl, ?_, by simp [St.setTree], fun t' ht' => by simp [St.setTree, ht']⟩
    have hk : ∀ e' u, e' ≠ e → Keeps s.mem (s.mem.setEnv e u) e' := by
      intro e' u he' x hx
      exact ⟨x, by rw [env_setEnv_ne he']; exact hx, rfl, List.prefix_refl _, List.prefix_refl _⟩
    constructor
    · exact h.bufs
    · intro t' e' r hr
      simp only [St.setTree, World.setTree] at hr ⊢
      by_cases hh : t' = t
      · rw [if_pos hh] at hr; cases hr
      · rw [if_neg hh] at hr ⊢
        have hne : e' ≠ e := fun he => hh (h.apart t' t e' r n hr (he ▸ ht))
        obtain ⟨y, hy⟩ := h.trees t' e' r hr
        exact ⟨y, hy.keeps (hk e' _ hne)⟩
    · intro t' e' r hr
      simp only [St.setTree] at hr
      by_cases hh : t' = t
      · rw [if_pos hh] at hr; cases hr
      · rw [if_neg hh] at hr; exact h.named t' e' r hr
    · intro t' hr
      simp only [St.setTree, World.setTree] at hr ⊢
      by_cases hh : t' = t
      · rw [if_pos hh]
      · rw [if_neg hh] at hr ⊢; exact h.fresh t' hr
    · intro a b e' na nb ha hb'
      simp only [St.setTree] at ha hb'
      by_cases h1 : a = t
      · rw [if_pos h1] at ha; cases ha
      · by_cases h2 : b = t
        · rw [if_pos h2] at hb'; cases hb'
        · rw [if_neg h1] at ha; rw [if_neg h2] at hb'
          exact h.apart a b e' na nb ha hb'
    · exact fun k hk => h.no k (expire_none.1 hk)
    · exact fun k x o hk => let ⟨o', hk'⟩ := expire_some (w := w) hk; h.yes k x o' hk'
    · intro k x o hk'
      obtain ⟨h1, h2⟩ := expire_owned (w := w) hk'
      obtain ⟨y, e', r, z, h3, h4, h5⟩ := h.owned k x o h1
      have hne : e' ≠ e := fun he => h2 (h.apart o t e' r n h4 (he ▸ ht))
      refine ⟨y, e', r, z, h3, ?_, h5.keeps (hk e' _ hne)⟩
      simp only [St.setTree]; rw [if_neg h2]; exact h4

theorem clear_ok {s : St} {w : World} (h : Sim s w) (t : Nat) : ∃ s', s.clearTree t = .ok s' ∧
    Sim s' ((w.expire t).setTree t (empty (w.trees t).type)) ∧
    (∀ e n, s.trees t = some (e, n) → (∃ n', s'.trees t = some (e, n')) ∧ s'.mem.bufs = s.mem.bufs ∧
      ∀ e', e' ≠ e → Keeps s.mem s'.mem e') := by
  unfold St.clearTree
  cases ht : s.trees t with
  | none =>
    refine ⟨s, rfl, ?_, fun _ _ hc => by cases hc⟩
    have := h.expire t
    rw [← setTree_self (w.expire t) t, show (w.expire t).trees t = empty .object from h.fresh t ht] at this
    rw [h.fresh t ht]
    exact this
  | some x =>
    obtain ⟨e, n⟩ := x
    obtain ⟨g, hg⟩ := h.trees t e n ht
    obtain ⟨v, hv, _⟩ := view_live hg
    simp only [clearEnv, hv, Res.ok_bind]
    have hk : ∀ e' u, e' ≠ e → Keeps s.mem (s.mem.setEnv e u) e' := by
      intro e' u he' x hx
      exact ⟨x, by rw [env_setEnv_ne he']; exact hx, rfl, List.prefix_refl _, List.prefix_refl _⟩
    have hl : Live (s.mem.setEnv e { v with gen := v.gen + 1, data := [], names := [] }) e (v.gen + 1) :=
      ⟨_, env_setEnv hv (by simpa using env_alive hv), rfl⟩
    obtain ⟨r, m1, h1, x1, g1, _, _, _, z1⟩ := newNode_ok hl n.type []
    simp only [h1, Res.ok_bind]
    have hkeeps : ∀ e', e' ≠ e → Keeps s.mem m1 e' := fun e' he' => (hk e' _ he').trans (x1.keeps e')
    refine ⟨_, rfl, ?_, ?_⟩
    · have := h.replace ht (m := m1) x1.bufs hkeeps g1 z1
      rw [hg.env.2.2] at this
      exact this
    · intro e' n' he
      cases he
      exact ⟨⟨r, by simp [St.setTree]⟩, x1.bufs, hkeeps⟩

theorem setTree_setTree (w : World) (t : Nat) (x y : ANode) : (w.setTree t x).setTree t y = w.setTree t y := by
  unfold World.setTree
  congr 1
  funext k
  by_cases h : k = t <;> simp [h]

/-- The pointer leads to a buffer or to the memory of environments of other trees. -/
def Outside (e : Nat) : Block → Prop
  | .ext (.buf _) _ _ => True
  | .ext (.heap e' _ _) _ _ => e' ≠ e
  | .ext (.link e' _ _) _ _ => e' ≠ e
  | _ => False

theorem Outside.notParser {e : Nat} {b : Block} (h : Outside e b) : NotParser b := by
  cases b with
  | loc d => trivial
  | ext p off len => cases p <;> first | exact h.elim | trivial

theorem read_outside {m m' : Mem} {e : Nat} {b : Block} (h : Outside e b) (hb : m'.bufs = m.bufs)
    (hk : ∀ e', e' ≠ e → Keeps m m' e') {d : Bytes} (hd : m.read b = .ok d) : m'.read b = .ok d := by
  cases b with
  | loc c => exact hd
  | ext p off len =>
    refine read_mono (fun c hc => ?_) hd
    cases p with
    | buf b => simpa [Mem.get, hb] using hc
    | parserName => exact h.elim
    | parserValue => exact h.elim
    | heap e' g i => exact (hk e' h).heap hc
    | link e' g c =>
      simp only [Mem.get, Res.bind_eq_ok] at hc ⊢
      obtain ⟨v, hv, hd⟩ := hc
      obtain ⟨v', hv', _⟩ := (hk e' h).envAt hv
      exact ⟨v', hv', hd⟩

/-- The part of loading after the tree was cleared. -/
theorem load_rest {s : St} {w : World} (h : Sim s w) {t e : Nat} {n : PNode} (ht : s.trees t = some (e, n))
    {src : Block} (hn : NotParser src) {d : Bytes} (hd : s.mem.read src = .ok d) {nm : Piece} {nmd : Bytes}
    (hnm : Spec.piece d nm = some nmd) {ty : ScopeTy} {fs : List Field} {x : ANode}
    (hx : Spec.fields d fs (.mk ty nmd [] []) = some x) (complete : Bool) :
    ∃ s', (do
        let (nb, m) := s.mem.nameBlock src nm
        let d ← m.read nb
        let (n, m) ← m.newNode e ty d
        let (n, m) ← m.readFields e src fs n
        let m := { m with pname := none, pval := none }
        .ok (if complete then Out.done else Out.threw, { s with mem := m }.setTree t (some (e, n))) : Res (Out × St))
      = .ok (if complete then .done else .threw, s') ∧ Sim s' (w.setTree t x) := by
  obtain ⟨g, hg⟩ := h.trees t e n ht
  have hl := view_live hg
  obtain ⟨g1, r1⟩ := nameBlock_ok hd hnm
  obtain ⟨n2, m2, h2, x2, gd2, _, _, _, z2⟩ := newNode_ok (hl.keeps (g1.keeps e)) ty nmd
  have g12 := g1.trans x2.grow
  obtain ⟨n3, m3, h3, g3, gd3, z3⟩ := readFields_ok hn (hl.keeps (g12.keeps e)) gd2 (g12.read hn hd) hx
  have g4 : Grow m3 { m3 with pname := none, pval := none } := ⟨rfl, fun e => Keeps.of_envs rfl e⟩
  refine ⟨_, by simp [r1, h2, h3]; rfl, ?_⟩
  exact h.setTree ht ((g12.trans g3).trans g4) (gd3.keeps (g4.keeps e)) (by rw [z3]; exact z2)

theorem load_ok {s : St} {w : World} (h : Sim s w) {t : Nat} {src : Block} {d : Bytes}
    (hd : s.mem.read src = .ok d) (hn : NotParser src) (hout : ∀ e n, s.trees t = some (e, n) → Outside e src)
    {root : Option (Piece × ScopeTy)} {fs : List Field} {complete : Bool} {o : Out} {w' : World}
    (hw : (match root with
      | none => some (.threw, (w.expire t).setTree t (empty (w.trees t).type))
      | some (nm, ty) => do
        let nm ← Spec.piece d nm
        let n ← Spec.fields d fs (.mk ty nm [] [])
        some (if complete then .done else .threw, (w.expire t).setTree t n)) = some (o, w')) :
    ∃ s', loadTree s t src root fs complete = .ok (o, s') ∧ Sim s' w' := by
  have hstart : ∃ s1, s.emptied t = .ok s1 ∧
      Sim s1 ((w.expire t).setTree t (empty (w.trees t).type)) ∧ s1.mem.read src = .ok d ∧
      ∃ e n, s1.trees t = some (e, n) := by
    unfold St.emptied
    cases ht : s.trees t with
    | some x =>
      obtain ⟨e, n⟩ := x
      obtain ⟨s1, h1, h2, h3⟩ := clear_ok h t
      obtain ⟨⟨n', h4⟩, h5, h6⟩ := h3 e n ht
      exact ⟨s1, h1, h2, read_outside (hout e n ht) h5 h6 hd, e, n', h4⟩
    | none =>
      have h1 := (h.expire t).createEnv ht .object
      refine ⟨_, rfl, ?_, (grow_newEnv s.mem).read hn hd, s.mem.newEnv.1,
        .mk s.mem.newEnv.1 0 .object .empty [] [], ?_⟩
      · rw [h.fresh t ht]; exact h1
      · simp [St.createEnv, St.setTree]
  obtain ⟨s1, h1, h2, h3, e, n, h4⟩ := hstart
  simp only [loadTree, h1, Res.ok_bind]
  cases root with
  | none => cases hw; exact ⟨s1, rfl, h2⟩
  | some r =>
    obtain ⟨nm, ty⟩ := r
    simp only [Option.bind_eq_bind, Option.bind_eq_some_iff] at hw
    obtain ⟨nmd, hnm, x, hx, he⟩ := hw
    cases he
    obtain ⟨s', h5, h6⟩ := load_rest h2 h4 hn h3 hnm hx complete
    rw [setTree_setTree] at h6
    simp only [h4]
    exact ⟨s', h5, h6⟩

/-- Calls to which the theorem applies: no assignment to the root of a tree, no tree moved to itself, no
tree loaded from bytes that lie in the tree itself or in a node held, no node held written itself. -/
def Op.Plain : Op → Prop
  | .assign _ _ _ => False
  | .move h h' => h ≠ h'
  | .load h (.data (.tree h') _ _) _ _ _ => h' ≠ h
  | .load h (.name (.tree h') _) _ _ _ => h' ≠ h
  | .load _ (.data (.held _) _ _) _ _ _ => False
  | .load _ (.name (.held _) _) _ _ _ => False
  | .save (.held _) path => path ≠ []
  | _ => True

theorem from_outside {s : St} {w : World} (h : Sim s w) {src : Src} {b : Block} (hf : From s w src b)
    {t : Nat} (hp : ∀ a, (∃ p i, src = .data a p i) ∨ (∃ p, src = .name a p) → ∃ t', a = .tree t' ∧ t' ≠ t) :
    NotParser b ∧ ∀ e n, s.trees t = some (e, n) → Outside e b := by
  have key : ∀ e', (∃ a n, At s w a e' n ∧ ((∃ p i, src = .data a p i) ∨ ∃ p, src = .name a p)) →
      ∀ e n, s.trees t = some (e, n) → e' ≠ e := by
    rintro e' ⟨a, n', ha, hs⟩ e n ht rfl
    obtain ⟨t', rfl, hne⟩ := hp a hs
    exact hne (h.apart t' t _ _ _ ha ht)
  cases b with
  | loc d => exact hf.elim
  | ext p off len =>
    cases p with
    | buf b => exact ⟨trivial, fun _ _ _ => trivial⟩
    | parserName => exact hf.elim
    | parserValue => exact hf.elim
    | heap e' g i => exact ⟨trivial, key e' hf⟩
    | link e' g c => exact ⟨trivial, key e' hf⟩

/-- Moving to a tree that was just destroyed. -/
theorem move_ok {s : St} {w : World} {t t' : Nat}
    (h : Sim s ((w.expire t').setTree t' (empty .object))) (hne : t ≠ t') (ht' : s.trees t' = none) :
    Sim ((s.setTree t' (s.trees t)).setTree t none)
      ((((w.expire t').handOver t t').setTree t' (w.trees t)).setTree t (empty .object)) := by
  have hbw : ∀ k, (((w.expire t').setTree t' (empty .object)).held k) = (w.expire t').held k := fun _ => rfl
  have tr : ∀ k e n, ((s.setTree t' (s.trees t)).setTree t none).trees k = some (e, n) →
      k ≠ t ∧ ((k = t' ∧ s.trees t = some (e, n)) ∨ (k ≠ t' ∧ s.trees k = some (e, n))) := by
    intro k e n hk
    simp only [St.setTree] at hk
    by_cases h1 : k = t
    · rw [if_pos h1] at hk; cases hk
    · rw [if_neg h1] at hk
      refine ⟨h1, ?_⟩
      by_cases h2 : k = t'
      · rw [if_pos h2] at hk; exact .inl ⟨h2, hk⟩
      · rw [if_neg h2] at hk; exact .inr ⟨h2, hk⟩
  have ho : ∀ k x o, (((w.expire t').handOver t t').held k) = some (x, o) →
      (∃ o', (w.expire t').held k = some (x, o')) ∧
      ∀ o1, o = some o1 → (o1 = t' ∧ (w.expire t').held k = some (x, some t)) ∨
        (o1 ≠ t ∧ (w.expire t').held k = some (x, some o1)) := by
    intro k x o hk
    simp only [World.handOver] at hk
    split at hk
    · next n o' hk' =>
      by_cases h1 : o' = t
      · simp only [h1, if_true] at hk; cases hk
        refine ⟨⟨_, hk'⟩, fun o1 ho1 => ?_⟩
        cases ho1; exact .inl ⟨rfl, h1 ▸ hk'⟩
      · simp only [h1, if_false] at hk; cases hk
        refine ⟨⟨_, hk'⟩, fun o1 ho1 => ?_⟩
        cases ho1; exact .inr ⟨h1, hk'⟩
    · next hx => exact ⟨⟨_, hk⟩, fun o1 ho1 => absurd (ho1 ▸ hk) (hx x o1)⟩
  constructor
  · exact h.bufs
  · intro k e n hk
    obtain ⟨h1, h2⟩ := tr k e n hk
    simp only [World.setTree, if_neg h1]
    rcases h2 with ⟨h2, h3⟩ | ⟨h2, h3⟩
    · rw [if_pos h2]
      have := h.trees t e n h3
      simp only [World.setTree, if_neg hne] at this
      exact this
    · rw [if_neg h2]
      have := h.trees k e n h3
      simp only [World.setTree, if_neg h2] at this
      exact this
  · intro k e n hk
    obtain ⟨h1, ⟨h2, h3⟩ | ⟨h2, h3⟩⟩ := tr k e n hk
    · exact h.named t e n h3
    · exact h.named k e n h3
  · intro k hk
    simp only [St.setTree, World.setTree] at hk ⊢
    by_cases h1 : k = t
    · rw [if_pos h1]
    · rw [if_neg h1] at hk ⊢
      by_cases h2 : k = t'
      · rw [if_pos h2] at hk ⊢
        have := h.fresh t hk
        simp only [World.setTree, if_neg hne] at this
        exact this
      · rw [if_neg h2] at hk ⊢
        have := h.fresh k hk
        simp only [World.setTree, if_neg h2] at this
        exact this
  · intro a b e na nb ha hb
    obtain ⟨h1, h2⟩ := tr a e na ha
    obtain ⟨h3, h4⟩ := tr b e nb hb
    rcases h2 with ⟨h2, h5⟩ | ⟨h2, h5⟩ <;> rcases h4 with ⟨h4, h6⟩ | ⟨h4, h6⟩
    · rw [h2, h4]
    · exact absurd (h.apart t b e na nb h5 h6).symm h3
    · exact absurd (h.apart a t e na nb h5 h6) h1
    · exact h.apart a b e na nb h5 h6
  · intro k hk
    refine h.no k ?_
    have hk : ((w.expire t').handOver t t').held k = none := hk
    simp only [World.handOver] at hk
    split at hk
    · next n o' hk' => by_cases h1 : o' = t <;> simp [h1] at hk
    · exact hk
  · intro k x o hk
    obtain ⟨⟨o', h1⟩, _⟩ := ho k x o hk
    exact h.yes k x o' h1
  · intro k x o hk
    rcases (ho k x (some o) hk).2 o rfl with ⟨h1, h2⟩ | ⟨h1, h2⟩
    · obtain ⟨n, e, r, g, h3, h4, h5⟩ := h.owned k x t h2
      refine ⟨n, e, r, g, h3, ?_, h5⟩
      simp only [St.setTree, h1]
      rw [if_neg (Ne.symm hne)]; simpa using h4
    · obtain ⟨n, e, r, g, h3, h4, h5⟩ := h.owned k x o h2
      have h6 : o ≠ t' := by rintro rfl; rw [ht'] at h4; cases h4
      refine ⟨n, e, r, g, h3, ?_, h5⟩
      simp only [St.setTree]
      rw [if_neg h1, if_neg h6]; exact h4

theorem step_ok {s : St} {w : World} (h : Sim s w) {op : Op} (hp : op.Plain) {o : Out} {w' : World}
    (hw : Spec.step w op = some (o, w')) : ∃ s', step s op = .ok (o, s') ∧ Sim s' w' := by
  cases op with
  | write b d =>
    cases hw
    refine ⟨_, rfl, ?_⟩
    have gk : ∀ e, Keeps s.mem { s.mem with bufs := fun k => if k = b then some d else s.mem.bufs k } e :=
      fun e => Keeps.of_envs rfl e
    exact ⟨by simp [h.bufs], fun t e n ht => let ⟨g, hg⟩ := h.trees t e n ht; ⟨g, hg.keeps (gk e)⟩, h.named, h.fresh,
      h.apart, h.no, h.yes, fun k x o hk => let ⟨n, e, r, g, h1, h2, h3⟩ := h.owned k x o hk
        ⟨n, e, r, g, h1, h2, h3.keeps (gk e)⟩⟩
  | free b =>
    cases hw
    refine ⟨_, rfl, ?_⟩
    have gk : ∀ e, Keeps s.mem { s.mem with bufs := fun k => if k = b then none else s.mem.bufs k } e :=
      fun e => Keeps.of_envs rfl e
    exact ⟨by simp [h.bufs], fun t e n ht => let ⟨g, hg⟩ := h.trees t e n ht; ⟨g, hg.keeps (gk e)⟩, h.named, h.fresh,
      h.apart, h.no, h.yes, fun k x o hk => let ⟨n, e, r, g, h1, h2, h3⟩ := h.owned k x o hk
        ⟨n, e, r, g, h1, h2, h3.keeps (gk e)⟩⟩
  | create t ty =>
    cases hw
    obtain ⟨s1, h1, h2, h3, _⟩ := destroy_ok h t
    refine ⟨s1.createEnv t ty, by simp only [step, h1, Res.ok_bind], ?_⟩
    have := h2.createEnv h3 ty
    rwa [setTree_setTree] at this
  | drop t =>
    cases hw
    obtain ⟨s1, h1, h2, h3, _⟩ := destroy_ok h t
    exact ⟨s1, by simp only [step, h1, Res.ok_bind], h2⟩
  | clear t =>
    cases hw
    obtain ⟨s1, h1, h2, _⟩ := clear_ok h t
    exact ⟨s1, by simp only [step, h1, Res.ok_bind], h2⟩
  | move t t' =>
    have hne : t ≠ t' := hp
    simp only [Spec.step, if_neg hne] at hw
    cases hw
    obtain ⟨s1, h1, h2, h3, h4⟩ := destroy_ok h t'
    refine ⟨(s1.setTree t' (s.trees t)).setTree t none, by simp only [step, if_neg hne, h1, Res.ok_bind], ?_⟩
    have hx : s.trees t = s1.trees t := (h4 t hne).symm
    rw [hx]
    exact move_ok h2 hne h3
  | insert a path name kind data =>
    simp only [Spec.step, Option.bind_eq_bind, Option.bind_eq_some_iff] at hw
    obtain ⟨r, hr, hw⟩ := hw
    obtain ⟨b, s1, h1, sim1, st1, hn, hd⟩ := block_ok h hr
    simp only [step, h1, Res.ok_bind]
    cases r with
    | none => cases hw; rw [hn rfl]; exact ⟨s1, rfl, sim1⟩
    | some d =>
      obtain ⟨c, rfl, hread, _⟩ := hd d rfl
      refine insertWith_ok sim1 ?_ addValue_name hw
      intro s' st e g nm hl
      obtain ⟨v, m', h2, x2, o2, k2, n2, r2⟩ := storeValue_ok hl kind (st.ext.read hread) nm
      refine ⟨v, m', h2, x2, fun n y hy => ?_⟩
      have := hy.addValue o2 n2 r2
      rwa [k2] at this
  | insertNode a path name ty =>
    simp only [step]
    simp only [Spec.step] at hw
    refine insertWith_ok h ?_ addNode_name hw
    intro s' st e g nm hl
    obtain ⟨c, m', h2, x2, g2, _, _, _, z2⟩ := newNode_ok hl ty nm
    exact ⟨c, m', h2, x2, fun n y hy => hy.addNode g2 z2⟩
  | copyNode a path name a' path' =>
    simp only [Spec.step, Option.bind_eq_bind, Option.bind_eq_some_iff] at hw
    obtain ⟨x, hx, hw⟩ := hw
    obtain ⟨n, s1, e', g', h1, sim1, st1, _, good1⟩ := root_ok h hx
    simp only [step, h1, Res.ok_bind]
    rcases good1.at path' with ⟨h6, h7⟩ | ⟨c, y, h6, h7, h8⟩
    · rw [h7] at hw; cases hw; rw [h6]; exact ⟨s1, rfl, sim1⟩
    · rw [h7] at hw
      simp only [h6]
      refine insertWith_ok sim1 ?_ addNode_name hw
      intro s' st e g nm hl
      obtain ⟨k, m', h2, x2, g2, z2⟩ := copyNode_ok hl (h8.keeps (st.ext.keeps e')) nm
      exact ⟨k, m', h2, x2, fun n y hy => hy.addNode g2 z2⟩
  | copyValue a path name a' path' i =>
    simp only [Spec.step, Option.bind_eq_bind, Option.bind_eq_some_iff] at hw
    obtain ⟨x, hx, hw⟩ := hw
    obtain ⟨n, s1, e', g', h1, sim1, st1, _, good1⟩ := root_ok h hx
    simp only [step, h1, Res.ok_bind]
    rcases good1.at path' with ⟨h6, h7⟩ | ⟨c, y, h6, h7, h8⟩
    · rw [h7] at hw; cases hw; rw [h6]; exact ⟨s1, rfl, sim1⟩
    · rw [h7] at hw
      simp only [h6]
      rcases h8.value i with ⟨h9, h10⟩ | ⟨v, d, z, h9, h10, h11, h12⟩
      · simp only [h10] at hw; cases hw; rw [h9]; exact ⟨s1, rfl, sim1⟩
      · simp only [h10] at hw
        simp only [h9]
        refine insertWith_ok sim1 ?_ addValue_name hw
        intro s' st e g nm hl
        obtain ⟨u, m', h2, x2, o2, k2, n2, r2⟩ := storeValue_ok hl v.kind (st.ext.read h12) nm
        refine ⟨u, m', h2, x2, fun n y hy => ?_⟩
        have := hy.addValue o2 n2 r2
        rwa [k2] at this
  | removeNode a path i =>
    simp only [Spec.step, Option.bind_eq_bind, Option.bind_eq_some_iff] at hw
    obtain ⟨x, hx, hw⟩ := hw
    obtain ⟨n, s1, e, g, h1, sim1, st1, at1, good1⟩ := root_ok h hx
    simp only [step, h1, Res.ok_bind]
    rcases good1.at path with ⟨h6, h7⟩ | ⟨c, y, h6, h7, h8⟩
    · rw [h7] at hw; cases hw; rw [h6]; exact ⟨s1, rfl, sim1⟩
    · rw [h7] at hw; cases hw
      simp only [h6]
      exact ⟨_, rfl, setRoot_ok sim1 at1 (Grow.refl _) (good1.update (dropNode_name i) path h6 h7 (h8.dropNode i))
        (update_name (dropNode_name i) path n)⟩
  | removeValue a path i =>
    simp only [Spec.step, Option.bind_eq_bind, Option.bind_eq_some_iff] at hw
    obtain ⟨x, hx, hw⟩ := hw
    obtain ⟨n, s1, e, g, h1, sim1, st1, at1, good1⟩ := root_ok h hx
    simp only [step, h1, Res.ok_bind]
    rcases good1.at path with ⟨h6, h7⟩ | ⟨c, y, h6, h7, h8⟩
    · rw [h7] at hw; cases hw; rw [h6]; exact ⟨s1, rfl, sim1⟩
    · rw [h7] at hw; cases hw
      simp only [h6]
      exact ⟨_, rfl, setRoot_ok sim1 at1 (Grow.refl _) (good1.update (dropValue_name i) path h6 h7 (h8.dropValue i))
        (update_name (dropValue_name i) path n)⟩
  | load t data root fs complete =>
    simp only [Spec.step, Option.bind_eq_bind, Option.bind_eq_some_iff] at hw
    obtain ⟨r, hr, hw⟩ := hw
    obtain ⟨b, s1, h1, sim1, st1, hn, hd⟩ := block_ok h hr
    simp only [step, h1, Res.ok_bind]
    cases r with
    | none => cases hw; rw [hn rfl]; exact ⟨s1, rfl, sim1⟩
    | some d =>
      obtain ⟨c, rfl, hread, hfrom⟩ := hd d rfl
      obtain ⟨hnp, hout⟩ := from_outside sim1 hfrom (t := t) (by
        intro a ha
        rcases ha with ⟨p, i, rfl⟩ | ⟨p, rfl⟩ <;> cases a with
        | tree t' => exact ⟨t', rfl, hp⟩
        | held k => exact hp.elim)
      exact load_ok sim1 hread hnp hout hw
  | declare k t =>
    cases hw
    obtain ⟨n, s1, e, g, h1, sim1, st1, at1, good1⟩ := root_ok h (a := .tree t) rfl
    simp only [step, h1, Res.ok_bind]
    refine ⟨_, rfl, setHeld_ok (g := g) sim1 k at1 ?_⟩
    obtain ⟨he, hg, _⟩ := good1.env
    exact good_mk.2 ⟨[], [], [], rfl, he, hg, view_live good1, trivial, rfl, by simp, rfl, trivial, rfl⟩
  | hold k a path =>
    simp only [Spec.step, Option.bind_eq_bind, Option.bind_eq_some_iff] at hw
    obtain ⟨x, hx, hw⟩ := hw
    obtain ⟨n, s1, e, g, h1, sim1, st1, at1, good1⟩ := root_ok h hx
    simp only [step, h1, Res.ok_bind]
    rcases good1.at path with ⟨h6, h7⟩ | ⟨c, y, h6, h7, h8⟩
    · rw [h7] at hw; cases hw; rw [h6]; exact ⟨s1, rfl, sim1⟩
    · rw [h7] at hw; cases hw
      simp only [h6]
      refine ⟨_, rfl, ?_⟩
      cases a with
      | tree t => exact setHeld_ok sim1 k at1 h8
      | held j =>
        obtain ⟨h9, x', o, r, h10, h11⟩ := at1
        have : w.owner (.held j) = some o := by simp [World.owner, h10]
        rw [this]
        exact setHeld_ok sim1 k h11 h8
  | release k =>
    simp only [Spec.step] at hw
    split at hw
    · next hk =>
      cases hw
      exact ⟨s, by simp [step, h.no k hk], h⟩
    · cases hw
    · next x t hk =>
      cases hw
      obtain ⟨n, e, r, g, h1, h2, h3⟩ := h.owned k x t hk
      obtain ⟨he, hg, _⟩ := h3.env
      obtain ⟨v, hv, hvg⟩ := view_live h3
      refine ⟨s.setHeld k none, by simp [step, h1, he, hg, envAt_eq.2 ⟨hv, hvg⟩], ?_⟩
      constructor
      · exact h.bufs
      · exact h.trees
      · exact h.named
      · exact h.fresh
      · exact h.apart
      · intro j hj
        simp only [St.setHeld, World.setHeld] at hj ⊢
        by_cases hjk : j = k
        · rw [if_pos hjk]
        · rw [if_neg hjk] at hj ⊢; exact h.no j hj
      · intro j y o' hj
        simp only [St.setHeld, World.setHeld] at hj ⊢
        by_cases hjk : j = k
        · rw [if_pos hjk] at hj; cases hj
        · rw [if_neg hjk] at hj ⊢; exact h.yes j y o' hj
      · intro j y o' hj
        simp only [St.setHeld, World.setHeld] at hj ⊢
        by_cases hjk : j = k
        · rw [if_pos hjk] at hj; cases hj
        · rw [if_neg hjk] at hj ⊢; exact h.owned j y o' hj
  | assign t a path => exact hp.elim
  | view a path =>
    simp only [Spec.step, Option.bind_eq_bind, Option.bind_eq_some_iff] at hw
    obtain ⟨x, hx, hw⟩ := hw
    obtain ⟨n, s1, e, g, h1, sim1, st1, at1, good1⟩ := root_ok h hx
    simp only [step, h1, Res.ok_bind]
    rcases good1.at path with ⟨h6, h7⟩ | ⟨c, y, h6, h7, h8⟩
    · rw [h7] at hw; cases hw; rw [h6]; exact ⟨s1, rfl, sim1⟩
    · rw [h7] at hw; cases hw
      simp only [h6, h8.2, Res.ok_bind]
      exact ⟨s1, rfl, sim1⟩
  | save a path =>
    simp only [Spec.step, Option.bind_eq_bind, Option.bind_eq_some_iff] at hw
    obtain ⟨x, hx, hw⟩ := hw
    obtain ⟨n, s1, e, g, h1, sim1, st1, at1, good1⟩ := root_ok h hx
    simp only [step, h1, Res.ok_bind]
    rcases good1.at path with ⟨h6, h7⟩ | ⟨c, y, h6, h7, h8⟩
    · rw [h7] at hw; cases hw; rw [h6]; exact ⟨s1, rfl, sim1⟩
    · rw [h7] at hw; cases hw
      have hz : c.name ≠ .null := good1.at_name path h6 (by
        intro hpath
        cases a with
        | tree t => exact sim1.named t e n at1
        | held k => exact absurd hpath hp)
      simp only [h6, save_ok h8 hz, Res.ok_bind]
      exact ⟨s1, rfl, sim1⟩

theorem run_ok : ∀ {ops : List Op} {s : St} {w : World}, Sim s w → (∀ op ∈ ops, op.Plain) → ∀ {os w'},
    Spec.run ops w = some (os, w') → ∃ s', run ops s = .ok (os, s') ∧ Sim s' w'
  | [], s, w, h, _, os, w', hw => by
    simp only [Spec.run] at hw; cases hw; exact ⟨s, rfl, h⟩
  | op :: ops, s, w, h, hp, os, w', hw => by
    simp only [Spec.run, Option.bind_eq_bind, Option.bind_eq_some_iff] at hw
    obtain ⟨⟨o, w1⟩, h1, ⟨os', w2⟩, h2, he⟩ := hw
    cases he
    obtain ⟨s1, h3, sim1⟩ := step_ok h (hp op (by simp)) h1
    obtain ⟨s2, h4, sim2⟩ := run_ok sim1 (fun op ho => hp op (by simp [ho])) h2
    exact ⟨s2, by simp [run, h3, h4], sim2⟩

end Srl.Own
