import Verif.Lemmas.SharedRestore
import Verif.Lemmas.TypedSafe

/-! Restoring shared pointers of one class has no undefined behaviour and ends, whatever the reader reads. -/

namespace Srl.Shared
open Doc Typed HTable

mutual
/-- Shared pointers lead to objects of one class only; elements of sequences are scopes; without `bin`,
no part is binary. -/
def GTy.OneClass (c0 : Nat) (bin : Bool) : GTy → Prop
  | .plain ty => ty.Bin bin
  | .vec e => e.isScope = true ∧ e.OneClass c0 bin
  | .record fs => fs.OneClass c0 bin
  | .shared _ c => c = c0
def GFields.OneClass (c0 : Nat) (bin : Bool) : GFields → Prop
  | .nil => True
  | .cons _ ty rest => ty.OneClass c0 bin ∧ rest.OneClass c0 bin
end

variable {σ : Type}

/-- Keys lead to objects that exist, all of one class. -/
def OInv (cfg : Cfg Nat) (c0 : Nat) (st : Objs) : Prop :=
  ∃ g, Tab cfg st.table g ∧ (∀ k a, g k = some a → a < st.heap.length) ∧ ∀ p ∈ st.heap, p.1 = c0

theorem oinv_new (cfg : Cfg Nat) (c0 : Nat) : OInv cfg c0 Objs.new :=
  by
  refine ⟨_, tab_new cfg 16, ?_, ?_⟩
  · intro k a h
    cases h
  · intro p h
    cases h

theorem oinv_add {cfg : Cfg Nat} {c0 : Nat} {st : Objs} (h : OInv cfg c0 st) (k : Nat) (o : Obj) :
    Sound (HTable.insert cfg st.table k st.heap.length) fun x =>
      OInv cfg c0 ⟨x.1, st.heap ++ [(c0, o)]⟩ := by
  obtain ⟨g, h1, h2, h3⟩ := h
  obtain ⟨t', x, a, w, e, h4⟩ := tab_insert h1 k st.heap.length
  rw [e]
  have hh : ∀ p ∈ st.heap ++ [(c0, o)], p.1 = c0 := by
    intro p hp
    rcases List.mem_append.mp hp with hp | hp
    · exact h3 p hp
    · rw [List.mem_singleton] at hp
      rw [hp]
  rcases h4 with ⟨-, -, -, h4, -⟩ | ⟨-, -, h4, -⟩
  · refine ⟨_, h4, ?_, hh⟩
    intro j a hj
    simp only [List.length_append, List.length_cons, List.length_nil]
    split at hj
    · cases hj; omega
    · have := h2 j a hj; omega
  · refine ⟨_, h4, ?_, hh⟩
    intro j a hj
    simp only [List.length_append, List.length_cons, List.length_nil]
    have := h2 j a hj
    omega

theorem mem_size {ns : List (Bytes × Node)} {p : Bytes × Node} (h : p ∈ ns) :
    nodeSize p.2 ≤ nodesSize ns := by
  induction ns with
  | nil => cases h
  | cons x ns ih =>
    rcases List.mem_cons.mp h with rfl | h
    · simp only [nodesSize]; omega
    · have := ih h
      simp only [nodesSize]; omega

theorem whole_size (x : Node) : lsize (whole x) + 1 = nodeSize x := by
  cases x; simp only [lsize, whole, nodeSize]; omega

theorem whole_good {G : Val → Prop} {x : Node} (h : NodeGood G x) : LGood G (whole x) := by
  cases x
  exact ⟨h.1, nodesGood_iff.mp h.2⟩

theorem whole_start (x : Node) : Typed.Start (whole x) := by
  cases x
  exact .inl rfl

section
variable {cfg : Cfg Nat} {c0 : Nat} {env : Env} {bin : Bool} {P : σ → Prop} {μ : σ → Nat}
  {read : σ → Res (Event × σ)}

/-- What holds after restoring from `s`. -/
def Post (cfg : Cfg Nat) (c0 : Nat) (P : σ → Prop) (μ : σ → Nat) (s s' : σ × Objs) : Prop :=
  P s'.1 ∧ μ s'.1 ≤ μ s.1 ∧ OInv cfg c0 s'.2

theorem pasteField_good (hr : Reads read (Convertible env bin) P μ) {total W : Nat} {scope : Bool} {sel : Sel}
    {f : LNode → σ × Objs → Res (Obj × LNode × σ × Objs)} {g : Val → Res Obj} {Q : Obj → Prop}
    {n : LNode} {s : σ × Objs} (hn : LGood (Convertible env bin) n) (hp : P s.1) (hm : μ s.1 < total)
    (hW : μ s.1 + lsize n ≤ W) (ho : OInv cfg c0 s.2)
    (hf : scope = true → ∀ c s', LGood (Convertible env bin) c → Typed.Start c → P s'.1 → μ s'.1 < total →
      μ s'.1 + lsize c < W → OInv cfg c0 s'.2 → Sound (f c s') fun x => Post cfg c0 P μ s' x.2.2)
    (hg : scope = false → ∀ v, Convertible env bin v → Sound (g v) Q) :
    Sound (pasteField read total scope sel f g n s) fun x =>
      (scope = false → Q x.1) ∧ LGood (Convertible env bin) x.2.1 ∧ Post cfg c0 P μ s x.2.2 ∧
        μ x.2.2.1 + lsize x.2.1 ≤ μ s.1 + lsize n := by
  unfold pasteField
  cases scope with
  | true =>
    simp only [if_true]
    split
    · have hl : Sound (lookup sel n.nodes) fun c =>
          NodeGood (Convertible env bin) c ∧ nodeSize c ≤ nodesSize n.nodes :=
        lookup_good fun p hp => ⟨hn.2 p hp, mem_size hp⟩
      refine hl.bind ?_
      rintro c ⟨h1, h2⟩
      have hsz := whole_size c
      refine (hf rfl (whole c) s (whole_good h1) (whole_start c) hp hm
        (by simp only [lsize] at hW hsz ⊢; omega) ho).bind ?_
      rintro ⟨y, c', s'⟩ ⟨h3, h4, h5⟩
      simp only at h3 h4 h5
      exact ⟨by simp, hn, ⟨h3, h4, h5⟩, by simp only; omega⟩
    · refine (consumeNode_good hr total sel n s.1 hn hp hm).bind ?_
      rintro ⟨c, n', t⟩ ⟨h1, h2, h3, h4, h5, h6, h7, h8⟩
      simp only at h1 h2 h3 h4 h5 h7 h8 ⊢
      cases c with
      | none => trivial
      | some c =>
        obtain ⟨hc1, hc2⟩ := h5 c rfl
        have := h8 c rfl
        refine (hf rfl c.2 (t, s.2) hc1 hc2 h2 (by simp only; omega) (by simp only; omega) ho).bind ?_
        rintro ⟨y, c', s'⟩ ⟨h9, h10, h11⟩
        simp only at h9 h10 h11 ⊢
        refine (finish_good hr total c' s'.1 h9 (by omega)).bind ?_
        intro t' h12
        exact ⟨by simp, h1, ⟨h12.1, by simp only; omega, h11⟩, by simp only; omega⟩
  | false =>
    simp only [Bool.false_eq_true, if_false]
    split
    · refine (lookup_good (Q := Convertible env bin) hn.1).bind fun v hv => ?_
      exact (hg rfl v hv).bind fun y hy => ⟨fun _ => hy, hn, ⟨hp, Nat.le_refl _, ho⟩, Nat.le_refl _⟩
    · refine (consumeValue_good hr total sel n s.1 hn hp hm).bind ?_
      rintro ⟨c, n', t⟩ ⟨h1, h2, h3, h4, h5, h6, h7⟩
      simp only at h1 h2 h3 h4 h5 h7 ⊢
      cases c with
      | none => trivial
      | some v =>
        exact (hg rfl v.2 (h5 v rfl)).bind fun y hy => ⟨fun _ => hy, h1, ⟨h2, h3, ho⟩, h7⟩

theorem eachNode_good {total W : Nat} {f : LNode → σ × Objs → Res (Obj × LNode × σ × Objs)} :
    ∀ (ns : List (Bytes × Node)) (s : σ × Objs), (∀ p ∈ ns, NodeGood (Convertible env bin) p.2) → P s.1 →
    μ s.1 < total → μ s.1 + nodesSize ns ≤ W → OInv cfg c0 s.2 →
    (∀ c s', LGood (Convertible env bin) c → Typed.Start c → P s'.1 → μ s'.1 < total →
      μ s'.1 + lsize c < W → OInv cfg c0 s'.2 → Sound (f c s') fun x => Post cfg c0 P μ s' x.2.2) →
    Sound (eachNode f ns s) fun x => Post cfg c0 P μ s x.2 := by
  intro ns
  induction ns with
  | nil => intro s _ hp _ _ ho _; exact ⟨hp, Nat.le_refl _, ho⟩
  | cons x ns ih =>
    intro s hg hp hm hW ho hf
    rw [eachNode]
    have hsz := whole_size x.2
    simp only [nodesSize] at hW
    refine (hf (whole x.2) s (whole_good (hg x (by simp))) (whole_start _) hp hm (by omega) ho).bind ?_
    rintro ⟨y, c', s'⟩ ⟨h1, h2, h3⟩
    simp only at h1 h2 h3 ⊢
    refine (ih s' (fun p hp => hg p (by simp [hp])) h1 (by omega) (by omega) h3 hf).bind ?_
    rintro ⟨ys, s2⟩ ⟨h4, h5, h6⟩
    simp only at h4 h5 h6
    exact ⟨h4, by simp only; omega, h6⟩

theorem nextNodes_good (hr : Reads read (Convertible env bin) P μ) {total W : Nat}
    {f : LNode → σ × Objs → Res (Obj × LNode × σ × Objs)}
    (hf : ∀ c s', LGood (Convertible env bin) c → Typed.Start c → P s'.1 → μ s'.1 < total →
      μ s'.1 + lsize c < W → OInv cfg c0 s'.2 → Sound (f c s') fun x => Post cfg c0 P μ s' x.2.2) :
    ∀ (fuel : Nat) (n : LNode) (s : σ × Objs), LGood (Convertible env bin) n → n.nodes = [] → P s.1 →
    μ s.1 < fuel → μ s.1 < total → μ s.1 + lsize n ≤ W → OInv cfg c0 s.2 →
    Sound (nextNodes read total f fuel n s) fun x =>
      LGood (Convertible env bin) x.2.1 ∧ Post cfg c0 P μ s x.2.2 := by
  intro fuel
  induction fuel with
  | zero => intro n s _ _ _ h _ _ _; omega
  | succ fuel ih =>
    intro n s hn hnil hp hm ht hW ho
    rw [nextNodes]
    refine (consumeNode_good hr total (.index 0) n s.1 hn hp ht).bind ?_
    rintro ⟨c, n', t⟩ ⟨h1, h2, h3, h4, h5, h6, h7, h8⟩
    obtain ⟨h9, h10⟩ := h6 ⟨0, rfl⟩ hnil
    simp only at h1 h2 h3 h4 h5 h7 h8 h9 h10 ⊢
    split
    · exact ⟨h1, h2, h3, ho⟩
    rename_i hnp
    cases c with
    | none => exact absurd (h4 rfl) hnp
    | some c =>
      have h11 := h10 rfl
      obtain ⟨hc1, hc2⟩ := h5 c rfl
      have h12 := h8 c rfl
      refine (hf c.2 (t, s.2) hc1 hc2 h2 (by simp only; omega) (by simp only; omega) ho).bind ?_
      rintro ⟨y, c', s'⟩ ⟨h13, h14, h15⟩
      simp only at h13 h14 h15 ⊢
      refine (finish_good hr total c' s'.1 h13 (by omega)).bind ?_
      intro t' h16
      refine (ih n' (t', s'.2) h1 h9 h16.1 (by simp only; omega) (by simp only; omega)
        (by simp only; omega) h15).bind ?_
      rintro ⟨ys, n3, s3⟩ ⟨h17, h18, h19, h20⟩
      simp only at h17 h18 h19 h20
      exact ⟨h17, h18, by simp only; omega, h20⟩

theorem eachMember_good {total W : Nat}
    {h : Bytes → GTy → Obj → LNode → σ × Objs → Res (Obj × LNode × σ × Objs)} :
    ∀ (fs : GFields) (os : List Obj) (n : LNode) (s : σ × Objs), fs.OneClass c0 bin → WTL fs os →
    LGood (Convertible env bin) n → P s.1 → μ s.1 < total → μ s.1 + lsize n ≤ W → OInv cfg c0 s.2 →
    (∀ name ty o n s, ty.OneClass c0 bin → WT ty o → LGood (Convertible env bin) n → P s.1 → μ s.1 < total →
      μ s.1 + lsize n ≤ W → OInv cfg c0 s.2 → Sound (h name ty o n s) fun x =>
        LGood (Convertible env bin) x.2.1 ∧ Post cfg c0 P μ s x.2.2 ∧
          μ x.2.2.1 + lsize x.2.1 ≤ μ s.1 + lsize n) →
    Sound (eachMember h fs os n s) fun x => LGood (Convertible env bin) x.2.1 ∧ Post cfg c0 P μ s x.2.2
  | .nil, os, n, s, _, _, hn, hp, _, _, ho, _ => by
    simp only [eachMember]
    exact ⟨hn, hp, Nat.le_refl _, ho⟩
  | .cons name ty rest, os, n, s, h1, h2, hn, hp, hm, hW, ho, hf => by
    simp only [GFields.OneClass] at h1
    simp only [WTL] at h2
    obtain ⟨y, ys, rfl, hw1, hw2⟩ := h2
    simp only [eachMember]
    refine (hf name ty y n s h1.1 hw1 hn hp hm hW ho).bind ?_
    rintro ⟨z, n', s'⟩ ⟨h3, ⟨h4, h5, h6⟩, h7⟩
    simp only at h3 h4 h5 h6 h7 ⊢
    refine (eachMember_good rest ys n' s' h1.2 hw2 h3 h4 (by omega) (by omega) h6 hf).bind ?_
    rintro ⟨zs, n2, s2⟩ ⟨h8, h9, h10, h11⟩
    simp only at h8 h9 h10 h11
    exact ⟨h8, h9, by simp only; omega, h11⟩

theorem key_good (env : Env) {bin : Bool} (v : Val) (hv : Convertible env bin v) :
    Sound (pasteVal env (.int .u64) (.int 0) v) fun o => ∃ k : Nat, o = .int (.ofNat k) := by
  have h := hv (.int .u64) (.int 0) trivial
  cases hr : pasteVal env (.int .u64) (.int 0) v with
  | err => trivial
  | ub => rw [hr] at h; exact h
  | fuel => rw [hr] at h; exact h
  | ok o =>
    simp only [pasteVal] at hr
    rw [Res.bind_eq_ok] at hr
    obtain ⟨i, h1, h2⟩ := hr
    cases h2
    suffices 0 ≤ i by
      obtain ⟨k, rfl⟩ := Int.eq_ofNat_of_zero_le this
      exact ⟨k, rfl⟩
    have hcast : ∀ j, 0 ≤ Apply.castInt (.int .u64) j := by
      intro j
      simp only [Apply.castInt, IntTy.signed, Bool.false_eq_true, false_and, if_false]
      exact Int.emod_nonneg _ (by simp [IntTy.bits])
    have hfp : ∀ x, Apply.applyFp (.int .u64) x = .ok i → 0 ≤ i := by
      intro x hx
      unfold Apply.applyFp at hx
      split at hx
      · cases hx
      · cases x with
        | fin w =>
          simp only [Apply.castFp] at hx
          split at hx
          · rename_i hc
            cases hx
            exact Int.le_trans (by decide) hc.1
          · cases hx
        | _ => cases hx
    have happ : ∀ w, Apply.apply (.int .u64) w = .ok i → 0 ≤ i := by
      intro w hw
      cases w with
      | int t j =>
        simp only [Apply.apply] at hw
        repeat' split at hw
        all_goals first | cases hw; done | (cases hw; exact hcast _)
      | bool b => cases hw; exact hcast _
      | fp32 f => exact hfp _ hw
      | fp64 d => exact hfp _ hw
      | null => cases hw; decide
      | _ => cases hw
    cases v with
    | str t =>
      simp only [Apply.paste] at h1
      split at h1
      · exact happ _ h1
      · cases h1
    | bin t => cases h1
    | _ => simp only [Apply.paste] at h1; exact happ _ h1

theorem value_good {ty : GTy} (h : ty.isScope = false) (h1 : ty.OneClass c0 bin) (o : Obj) (v : Val) (hv : Convertible env bin v) :
    Sound (valueOf env ty o v) fun _ => True := by
  cases ty with
  | plain ty => exact hv ty o h1
  | _ => cases h

theorem paste_good (hr : Reads read (Convertible env bin) P μ) {C : Nat → GTy} (hC : (C c0).OneClass c0 bin)
    (total : Nat) : ∀ (fuel : Nat) (ty : GTy) (old : Obj) (n : LNode) (s : σ × Objs), ty.isScope = true →
    ty.OneClass c0 bin → WT ty old → LGood (Convertible env bin) n → Typed.Start n → P s.1 → μ s.1 < total →
    μ s.1 + lsize n < fuel → OInv cfg c0 s.2 →
    Sound (paste cfg env C read total fuel ty old n s) fun x =>
      LGood (Convertible env bin) x.2.1 ∧ Post cfg c0 P μ s x.2.2 := by
  intro fuel
  induction fuel with
  | zero => intro ty old n s _ _ _ _ _ _ _ h; omega
  | succ fuel ih =>
    intro ty old n s hs h1 hw hn hst hp hm hf ho
    have down : ∀ (ty : GTy) (old : Obj), ty.isScope = true → ty.OneClass c0 bin → WT ty old →
        ∀ c s', LGood (Convertible env bin) c → Typed.Start c → P s'.1 → μ s'.1 < total →
        μ s'.1 + lsize c < fuel → OInv cfg c0 s'.2 →
        Sound (paste cfg env C read total fuel ty old c s') fun x => Post cfg c0 P μ s' x.2.2 := by
      intro ty old hs h1 hw c s' h2 h3 h4 h5 h6 h7
      exact (ih ty old c s' hs h1 hw h2 h3 h4 h5 h6 h7).mono fun x hx => hx.2
    cases ty with
    | plain ty =>
      simp only [WT] at hw
      rw [paste]
      refine (Typed.paste_good hr total ty old n s.1 hs h1 hw hn hst hp hm).bind ?_
      rintro ⟨o, n', t⟩ ⟨h2, h3, h4⟩
      exact ⟨h2, h3, h4, ho⟩
    | vec e =>
      simp only [GTy.OneClass] at h1
      rw [paste]
      split
      · refine (eachNode_good (total := total) (W := fuel) n.nodes s hn.2 hp hm
          (by simp only [lsize] at hf; omega) ho (down e (dfltG e) h1.1 h1.2 (dfltG_wt e))).bind ?_
        rintro ⟨ys, s'⟩ h2
        exact ⟨hn, h2⟩
      · rename_i hnp
        obtain ⟨-, hnil⟩ := hst.empty hnp
        refine (nextNodes_good hr (W := fuel) (down e (dfltG e) h1.1 h1.2 (dfltG_wt e)) total n s hn hnil
          hp hm hm (by omega) ho).bind ?_
        rintro ⟨ys, n', s'⟩ h2
        exact h2
    | record fs =>
      simp only [GTy.OneClass] at h1
      simp only [WT] at hw
      obtain ⟨os, rfl, hw⟩ := hw
      rw [paste]
      refine (eachMember_good (total := total) (W := fuel) fs os n s h1 hw hn hp hm (by omega) ho ?_).bind ?_
      · intro name ty o n s h1 hw hn hp hm hW ho
        exact (pasteField_good hr (W := fuel) (Q := fun _ => True) hn hp hm hW ho
          (fun hs => down ty o hs h1 hw) (fun hs v hv => value_good hs h1 o v hv)).mono fun x hx => hx.2
      · rintro ⟨ys, n', s'⟩ h2
        exact h2
    | shared w c =>
      simp only [GTy.OneClass] at h1
      subst h1
      rw [paste]
      refine (pasteField_good hr (W := fuel) hn hp hm (by omega) ho (by simp)
        (fun _ v hv => key_good env v hv)).bind ?_
      rintro ⟨k, n1, s1⟩ ⟨h2, h3, ⟨h4, h5, h6⟩, h7⟩
      obtain ⟨key, rfl⟩ := h2 rfl
      simp only at h3 h4 h5 h6 h7 ⊢
      obtain ⟨g, ht, hlt, hcl⟩ := h6
      obtain ⟨r, hget, hg⟩ := tab_get ht key
      simp only [hget, Res.ok_bind]
      cases r with
      | some x =>
        obtain ⟨v0, a⟩ := x
        have ha := hlt key a hg.symm
        have hx : s1.2.heap[a]? = some s1.2.heap[a] := List.getElem?_eq_getElem ha
        have hc := hcl s1.2.heap[a] (List.getElem_mem ha)
        simp only [castTo, hx, hc, if_true, Res.ok_bind]
        exact ⟨h3, h4, h5, g, ht, hlt, hcl⟩
      | none =>
        simp only
        refine (pasteField_good hr (W := fuel) (Q := fun _ => True) (cfg := cfg) (c0 := c) h3 h4 (by omega)
          (by omega) ⟨g, ht, hlt, hcl⟩ (fun hs => down (C c) (dfltG (C c)) hs hC (dfltG_wt (C c)))
          (fun hs v hv => value_good hs hC _ v hv)).bind ?_
        rintro ⟨o, n2, s2⟩ ⟨-, h8, ⟨h9, h10, h11⟩, h12⟩
        simp only at h8 h9 h10 h11 h12 ⊢
        refine (oinv_add h11 key o).bind ?_
        rintro ⟨t', x⟩ h13
        exact ⟨h8, h9, by simp only; omega, h13⟩

theorem restore_good (hr : Reads read (Convertible env bin) P μ) {C : Nat → GTy} (hC : (C c0).OneClass c0 bin)
    (fuel : Nat) (ty : GTy) (old : Obj) (s : σ) (hs : ty.isScope = true) (h1 : ty.OneClass c0 bin)
    (hw : WT ty old) (hp : P s) (hm : μ s ≤ fuel) :
    Sound (restore cfg env C read fuel ty old s) fun _ => True := by
  unfold restore
  refine (hr s hp).bind ?_
  rintro ⟨⟨nm, tok⟩, s1⟩ ⟨hp1, hm1, hv⟩
  simp only at hp1 hm1 ⊢
  cases tok with
  | val v => trivial
  | scopeEnd => trivial
  | scope t =>
    refine (paste_good hr hC fuel fuel ty old (.fresh t) (s1, Objs.new) hs h1 hw
      ⟨by simp [LNode.fresh], by simp [LNode.fresh]⟩ (.inr ⟨rfl, rfl⟩) hp1 (by simp only; omega)
      (by simp only [lsize, LNode.fresh, nodesSize, List.length_nil]; omega) (oinv_new cfg c0)).bind ?_
    intro x _
    trivial

theorem loadUnwrap_good (hr : Reads read (Convertible env bin) P μ) {C : Nat → GTy} (hC : (C c0).OneClass c0 bin)
    (fuel : Nat) (ty : GTy) (old : Obj) (s : σ) (hs : ty.isScope = true) (h1 : ty.OneClass c0 bin)
    (hw : WT ty old) (hp : P s) (hm : μ s ≤ fuel) :
    Sound (loadUnwrap cfg env C read fuel ty old s) fun _ => True := by
  have hl : Sound (Doc.load read fuel s) fun x =>
      NodeGood (Convertible env bin) x.1.node ∧ P x.2 ∧ μ x.2 + nodeSize x.1.node ≤ μ s := by
    unfold Doc.load
    refine (hr s hp).bind ?_
    rintro ⟨⟨nm, tok⟩, s1⟩ ⟨hp1, hm1, hv⟩
    simp only at hp1 hm1 ⊢
    cases tok with
    | val v => trivial
    | scopeEnd => trivial
    | scope t =>
      refine (readScope_good hr fuel 0 s1 hp1 (by omega)).bind ?_
      rintro ⟨⟨vs, ns⟩, s2⟩ ⟨h1, h2, h3, h4⟩
      simp only at h4
      exact ⟨⟨h1, nodesGood_iff.mpr h2⟩, h3, by simp only [nodeSize]; omega⟩
  unfold loadUnwrap
  refine hl.bind ?_
  rintro ⟨⟨nm, n⟩, s1⟩ ⟨hn, hp1, hm1⟩
  simp only at hn hp1 hm1 ⊢
  have hsz := whole_size n
  refine (paste_good hr hC fuel fuel ty old (whole n) (s1, Objs.new) hs h1 hw (whole_good hn)
    (whole_start n) hp1 (by simp only; omega) (by simp only; omega) (oinv_new cfg c0)).bind ?_
  intro x _
  trivial

end
end Srl.Shared
