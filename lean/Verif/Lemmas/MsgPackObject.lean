import Verif.Lemmas.Described
import Verif.Props.PMsgPack

/-! Documents in MessagePack that say what an object is: they still do as they are read. -/

namespace Srl.Typed
open Doc Props

variable {env : Env}

theorem Pairwise2.related {R R' : α → Item → Prop} {named : Bool} : ∀ {xs : List α} {is is' : List Item},
    (∀ x i i', R x i → MpRel named i i' → R' x i') → Pairwise2 R xs is → MpRelL named is is' → Pairwise2 R' xs is'
  | _, _, [], _, .nil, _ => .nil
  | _, _, _ :: _, _, .nil, h => by simp [MpRelL] at h
  | _, _, [], _, .cons _ _ _ _ _ _, h => by simp [MpRelL] at h
  | _, _, i' :: is', hf, .cons x i xs is hr hrs, h => by
    simp only [MpRelL] at h
    exact .cons _ _ _ _ (hf x i i' hr h.1) (hrs.related hf h.2)

theorem Pairwise2.of_mem {α β : Type} {R : α → β → Prop} {y : β} : ∀ {xs : List α} {ys : List β}, Pairwise2 R xs ys →
    y ∈ ys → ∃ x ∈ xs, R x y
  | _, _, .nil, h => by cases h
  | _, _, .cons x z xs zs hr hrs, h => by
    rcases List.mem_cons.mp h with rfl | h
    · exact ⟨x, List.mem_cons_self, hr⟩
    · obtain ⟨w, h1, h2⟩ := hrs.of_mem h
      exact ⟨w, List.mem_cons_of_mem _ h1, h2⟩

/-- Values have no scopes. -/
theorem known_value : ∀ (ty : Ty), ty.isScope = false → ∀ n v, KnownItem ty (.val n v)
  | .bool, _, _, _ => trivial
  | .int _, _, _, _ => trivial
  | .float, _, _, _ => trivial
  | .double, _, _, _ => trivial
  | .str, _, _, _ => trivial
  | .bytes, _, _, _ => trivial
  | .vec _, h, _, _ => by cases h
  | .arr _ _, h, _, _ => by cases h
  | .named _, h, _, _ => by cases h
  | .record .object _ _, h, _, _ => by cases h
  | .record .array _ _, h, _, _ => by cases h
  | .ptr _ e, h, n, v => known_value e h n v
  | .sorted _ c, h, n, v => known_value c h n v

theorem rel_scope {named : Bool} {n : Bytes} {t : ScopeTy} {kids : List Item} : ∀ {i' : Item},
    MpRel named (.scope n t kids) i' → ∃ n' kids', i' = .scope n' t kids' ∧ MpRelL (t == .object) kids kids'
  | .scope n' t' kids', h => by
    simp only [MpRel] at h
    obtain ⟨-, rfl, h⟩ := h
    exact ⟨n', kids', rfl, h⟩
  | .val _ _, h => by simp [MpRel] at h

theorem rel_val {named : Bool} {n : Bytes} {v : Val} : ∀ {i' : Item}, MpRel named (.val n v) i' →
    ∃ n' v', i' = .val n' v' ∧ MpVal v v'
  | .val n' v', h => by
    simp only [MpRel] at h
    exact ⟨n', v', rfl, h.2⟩
  | .scope _ _ _, h => by simp [MpRel] at h

theorem rel_name : ∀ {i i' : Item}, MpRel true i i' → itemName i' = itemName i
  | .val _ _, .val _ _, h => by simp only [MpRel] at h; exact (h.1 trivial).symm
  | .scope _ _ _, .scope _ _ _, h => by simp only [MpRel] at h; exact (h.1 trivial).symm
  | .val _ _, .scope _ _ _, h => by simp [MpRel] at h
  | .scope _ _ _, .val _ _, h => by simp [MpRel] at h

theorem rel_kind {named : Bool} : ∀ {i i' : Item}, MpRel named i i' → itemScope i' = itemScope i
  | .val _ _, .val _ _, _ => rfl
  | .scope _ _ _, .scope _ _ _, _ => rfl
  | .val _ _, .scope _ _ _, h => by simp [MpRel] at h
  | .scope _ _ _, .val _ _, h => by simp [MpRel] at h

theorem rel_names : ∀ {is is' : List Item}, MpRelL true is is' → is'.map itemName = is.map itemName
  | [], [], _ => rfl
  | _ :: _, _ :: _, h => by
    simp only [MpRelL] at h
    rw [List.map_cons, List.map_cons, rel_name h.1, rel_names h.2]
  | [], _ :: _, h => by simp [MpRelL] at h
  | _ :: _, [], h => by simp [MpRelL] at h

theorem rel_mem {named : Bool} {i : Item} : ∀ {is is' : List Item}, MpRelL named is is' → i ∈ is →
    ∃ i' ∈ is', MpRel named i i'
  | [], _, _, h => by cases h
  | j :: is, j' :: is', hr, h => by
    simp only [MpRelL] at hr
    rcases List.mem_cons.mp h with rfl | h
    · exact ⟨j', List.mem_cons_self, hr.1⟩
    · obtain ⟨i', h1, h2⟩ := rel_mem hr.2 h
      exact ⟨i', List.mem_cons_of_mem _ h1, h2⟩
  | _ :: _, [], hr, _ => by simp [MpRelL] at hr

theorem rel_mem_read {named : Bool} {i' : Item} : ∀ {is is' : List Item}, MpRelL named is is' → i' ∈ is' →
    ∃ i ∈ is, MpRel named i i'
  | _, [], _, h => by cases h
  | j :: is, j' :: is', hr, h => by
    simp only [MpRelL] at hr
    rcases List.mem_cons.mp h with rfl | h
    · exact ⟨j, List.mem_cons_self, hr.1⟩
    · obtain ⟨i, h1, h2⟩ := rel_mem_read hr.2 h
      exact ⟨i, List.mem_cons_of_mem _ h1, h2⟩
  | [], _ :: _, hr, _ => by simp [MpRelL] at hr

/-! ### Values -/

theorem ofDouble_cases (d : UInt64) : (∃ f, Fp.ofDouble d = .fp32 f) ∨ Fp.ofDouble d = .fp64 d := by
  unfold Fp.ofDouble
  split
  · exact .inl ⟨_, rfl⟩
  · exact .inr rfl

theorem pasteFp_ofDouble {α : Type} (strtod : Bytes → Option UInt64) (conv : Val → Res α) (d : UInt64) :
    Apply.pasteFp strtod conv (Fp.ofDouble d) = conv (Fp.ofDouble d) := by
  rcases ofDouble_cases d with ⟨f, h⟩ | h <;> rw [h] <;> rfl

theorem double_is {d : UInt64} {v v' : Val} (h : DoubleIs d v) (hr : MpVal v v') :
    Apply.pasteFp env.strtod Apply.toDouble v' = .ok d := by
  cases v with
  | int t k =>
    obtain ⟨t', rfl, -, -⟩ := hr
    exact congrArg Res.ok (Fp.ofInt64_exact d k h.1 h.2)
  | fp32 f =>
    cases hr
    exact congrArg Res.ok (Eq.symm h)
  | fp64 x =>
    cases hr
    cases h
    rw [pasteFp_ofDouble, Fp.toDouble_ofDouble]
  | _ => exact h.elim

theorem float_is {f : UInt32} {v v' : Val} (h : FloatIs f v) (hr : MpVal v v') :
    Apply.pasteFp env.strtod Apply.toFloat v' = .ok f := by
  cases v with
  | int t k =>
    obtain ⟨t', rfl, -, -⟩ := hr
    exact congrArg Res.ok (Fp.ofInt32_exact f k h.1 h.2)
  | fp32 x =>
    cases hr
    obtain ⟨rfl, h⟩ := h
    exact congrArg Res.ok (Fp.narrow_widen f h)
  | fp64 x =>
    cases hr
    obtain ⟨rfl, h⟩ := h
    rw [pasteFp_ofDouble, Fp.toFloat_ofDouble_widen f h]
  | _ => exact h.elim

theorem itemFor_kind : ∀ (ty : Ty) (old o : Obj) (i : Item), ItemFor ty old o i → itemScope i = ty.isScope
  | .bool, _, _, _, h => by obtain ⟨_, _, -, rfl⟩ := h; rfl
  | .int _, _, _, _, h => by obtain ⟨_, _, _, -, rfl, -⟩ := h; rfl
  | .float, _, _, _, h => by obtain ⟨_, _, _, -, rfl, -⟩ := h; rfl
  | .double, _, _, _, h => by obtain ⟨_, _, _, -, rfl, -⟩ := h; rfl
  | .str, _, _, _, h => by obtain ⟨_, _, -, rfl⟩ := h; rfl
  | .bytes, _, _, _, h => by obtain ⟨_, _, -, rfl | rfl⟩ := h <;> rfl
  | .vec _, _, _, _, h => by obtain ⟨_, _, _, -, rfl, -⟩ := h; rfl
  | .arr _ _, _, _, _, h => by obtain ⟨_, _, _, _, -, -, rfl, -⟩ := h; rfl
  | .named _, _, _, _, h => by obtain ⟨_, _, _, -, rfl, -⟩ := h; rfl
  | .record .object _ _, _, _, _, h => by obtain ⟨_, _, _, _, -, -, rfl, -⟩ := h; rfl
  | .record .array _ _, _, _, _, h => by obtain ⟨_, _, _, _, -, -, rfl, -⟩ := h; rfl
  | .ptr _ e, _, _, _, h => by
    rcases h with ⟨-, hs, -, n, rfl⟩ | ⟨x, -, -, h⟩
    · exact hs.symm
    · exact itemFor_kind e _ _ _ h
  | .sorted _ c, _, _, _, h => by
    obtain ⟨_, _, h, -⟩ := h
    exact itemFor_kind c _ _ _ h

theorem mpVal_null : ∀ {v : Val}, MpVal v .null → v = .null
  | .int _ _, ⟨_, h, _⟩ => by cases h
  | .fp64 d, h => by
    have h : Val.null = Fp.ofDouble d := h
    rcases ofDouble_cases d with ⟨f, e⟩ | e <;> rw [e] at h <;> cases h
  | .null, _ => rfl
  | .bool _, h => by cases h
  | .fp32 _, h => by cases h
  | .str _, h => by cases h
  | .bin _, h => by cases h

mutual
/-- A document says the same as it is read. -/
theorem desc_item : ∀ (ty : Ty) (old o : Obj) (i i' : Item) (named : Bool), ty.Ok → ItemFor ty old o i →
    MpRel named i i' → Desc env ty old o i'
  | .bool, old, o, i, i', named, _, h, hr => by
    obtain ⟨n, b, rfl, rfl⟩ := h
    obtain ⟨n', v', rfl, h⟩ := rel_val hr
    cases h
    exact ⟨n', _, rfl, by cases b <;> rfl⟩
  | .int t, old, o, i, i', named, _, h, hr => by
    obtain ⟨n, t', k, rfl, rfl, h1, h2⟩ := h
    obtain ⟨n', v', rfl, t'', rfl, h3, h4⟩ := rel_val hr
    exact ⟨n', _, rfl, by simp only [pasteVal, int_paste env.strtod t t'' k h1 h2 h3 h4, Res.ok_bind]⟩
  | .float, old, o, i, i', named, _, h, hr => by
    obtain ⟨n, v, f, rfl, rfl, h⟩ := h
    obtain ⟨n', v', rfl, h'⟩ := rel_val hr
    exact ⟨n', _, rfl, by simp only [pasteVal, float_is h h', Res.ok_bind]⟩
  | .double, old, o, i, i', named, _, h, hr => by
    obtain ⟨n, v, f, rfl, rfl, h⟩ := h
    obtain ⟨n', v', rfl, h'⟩ := rel_val hr
    exact ⟨n', _, rfl, by simp only [pasteVal, double_is h h', Res.ok_bind]⟩
  | .str, old, o, i, i', named, _, h, hr => by
    obtain ⟨n, s, rfl, rfl⟩ := h
    obtain ⟨n', v', rfl, h⟩ := rel_val hr
    cases h
    exact ⟨n', _, rfl, rfl⟩
  | .bytes, old, o, i, i', named, _, h, hr => by
    obtain ⟨n, s, rfl, rfl | rfl⟩ := h <;> obtain ⟨n', v', rfl, h⟩ := rel_val hr <;> cases h
    · exact ⟨n', _, rfl, rfl⟩
    · exact ⟨n', _, rfl, by
        rw [← Props.base64_encode_spec]
        simp only [pasteVal, Props.base64_restore_binary, Res.ok_bind]⟩
  | .vec e, old, o, i, i', named, hok, h, hr => by
    obtain ⟨xs, n, is, rfl, rfl, hp⟩ := h
    obtain ⟨n', is', rfl, hk⟩ := rel_scope hr
    exact ⟨xs, _, _, _, rfl, rfl, hp.related (fun x i i' h hr => desc_item e _ x i i' _ hok h hr) hk⟩
  | .arr k e, old, o, i, i', named, hok, h, hr => by
    obtain ⟨os, xs, n, is, rfl, rfl, rfl, h1, h2, h3, hp⟩ := h
    obtain ⟨n', is', rfl, hk⟩ := rel_scope hr
    exact ⟨os, xs, _, _, _, rfl, rfl, rfl, (mpRelL_length hk).symm.trans h1, h2, h3,
      hp.related (fun x i i' h hr => desc_item e _ x.2 i i' _ hok h hr) hk⟩
  | .named e, old, o, i, i', named, hok, h, hr => by
    obtain ⟨xs, n, is, rfl, rfl, hp⟩ := h
    obtain ⟨n', is', rfl, hk⟩ := rel_scope hr
    refine ⟨xs, _, _, rfl, rfl, hp.related (fun x i i' h hr => ?_) hk⟩
    obtain ⟨z, rfl, h⟩ := h
    exact ⟨z, by rw [rel_name hr], desc_item e _ z i i' _ hok h hr⟩
  | .record .object st fs, old, o, i, i', named, hok, h, hr => by
    obtain ⟨os, xs, n, is, rfl, rfl, rfl, hn, h⟩ := h
    obtain ⟨n', is', rfl, hk⟩ := rel_scope hr
    exact ⟨os, xs, _, _, rfl, rfl, rfl, by rw [rel_names hk]; exact hn, members_item fs os xs is is' hok.1 h hk⟩
  | .record .array st fs, old, o, i, i', named, hok, h, hr => by
    obtain ⟨os, xs, n, is, rfl, rfl, rfl, h⟩ := h
    obtain ⟨n', is', rfl, hk⟩ := rel_scope hr
    exact ⟨os, xs, _, _, _, rfl, rfl, rfl, tuple_item fs os xs is is' _ hok.1 h hk⟩
  | .ptr k e, old, o, i, i', named, hok, h, hr => by
    rcases h with ⟨rfl, hs, rfl, n, rfl⟩ | ⟨x, rfl, hn, h⟩
    · obtain ⟨n', v', rfl, h⟩ := rel_val hr
      cases h
      exact .inl ⟨hs, n', _, rfl, rfl⟩
    · have ih := desc_item e _ x i i' named hok h hr
      cases hs : e.isScope with
      | true => exact .inr ⟨hs, x, rfl, ih⟩
      | false =>
        refine .inl ⟨hs, ?_⟩
        obtain ⟨n, w, rfl, h2⟩ := desc_val e _ _ _ hs hok ih
        refine ⟨n, w, rfl, ?_⟩
        have : ¬ (k = .raw ∧ w = .null) := by
          rintro ⟨rfl, rfl⟩
          cases i with
          | scope _ _ _ => simp [MpRel] at hr
          | val n v =>
            simp only [MpRel] at hr
            exact hn rfl n (by rw [mpVal_null hr.2])
        simp only [pasteVal, if_neg this, h2, Res.ok_bind]
  | .sorted b c, old, o, i, i', named, hok, h, hr => by
    obtain ⟨xs, ys, h, rfl, h1, h2⟩ := h
    have ih := desc_item c _ _ i i' named hok.1 h hr
    obtain ⟨hd, hsc⟩ := elems_dflt hok.2
    obtain ⟨n, t, kids, rfl⟩ := scope_of_kind ((desc_kind c _ _ _ ih).trans hsc)
    rw [← hd] at ih
    have hp := Proper.pasteNode_proper env c (dflt c) (nodeOf t kids) hok.1 (Proper.dflt_proper c hok.1) _
      (node_desc c _ _ n t kids hok.1 ih)
    exact ⟨.many xs, ih, (Props.collected hok.2 (Proper.proper_wt _ _ hp) _).mpr ⟨ys, rfl, h1, h2⟩⟩
theorem members_item : ∀ (fs : Fields) (os xs : List Obj) (is is' : List Item), fs.Ok → MembersIn fs os xs is →
    MpRelL true is is' → DescMembers env fs os xs is'
  | .nil, _, _, _, _, _, h, _ => h
  | .cons name opt ty rest, os, xs, is, is', hok, h, hr => by
    obtain ⟨o, os', x, xs', rfl, rfl, h, hrest⟩ := h
    refine ⟨o, os', x, xs', rfl, rfl, ?_, members_item rest os' xs' is is' hok.2 hrest hr⟩
    rcases h with ⟨i, hi, h1, h2⟩ | ⟨h1, h2, h3⟩
    · obtain ⟨i', g1, g2⟩ := rel_mem hr hi
      exact .inl ⟨i', g1, (rel_name g2).trans h1, desc_item ty _ _ i i' _ hok.1 h2 g2⟩
    · exact .inr ⟨h1, by rw [rel_names hr]; exact h2, h3⟩
theorem tuple_item : ∀ (fs : Fields) (os xs : List Obj) (is is' : List Item) (named : Bool), fs.Ok →
    TupleIn fs os xs is → MpRelL named is is' → DescTuple env fs os xs is'
  | .nil, os, xs, is, is', _, _, h, hr => by
    obtain ⟨rfl, rfl, rfl⟩ := h
    cases is' with
    | nil => exact ⟨rfl, rfl, rfl⟩
    | cons _ _ => simp [MpRelL] at hr
  | .cons name opt ty rest, os, xs, is, is', named, hok, h, hr => by
    obtain ⟨o, os', x, xs', i, is1, rfl, rfl, rfl, h, hrest⟩ := h
    cases is' with
    | nil => simp [MpRelL] at hr
    | cons i' is2 =>
      simp only [MpRelL] at hr
      exact ⟨o, os', x, xs', i', is2, rfl, rfl, rfl, desc_item ty _ _ i i' _ hok.1 h hr.1,
        tuple_item rest os' xs' is1 is2 named hok.2 hrest hr.2⟩
end

/-! ### Restoring while reading -/

mutual
theorem known_rel : ∀ (ty : Ty) (old o : Obj) (i i' : Item) (named : Bool), ItemFor ty old o i → KnownItem ty i →
    MpRel named i i' → KnownItem ty i'
  | .bool, _, _, _, _, _, _, _, _ => trivial
  | .int _, _, _, _, _, _, _, _, _ => trivial
  | .float, _, _, _, _, _, _, _, _ => trivial
  | .double, _, _, _, _, _, _, _, _ => trivial
  | .str, _, _, _, _, _, _, _, _ => trivial
  | .bytes, _, _, _, _, _, _, _, _ => trivial
  | .vec e, old, o, i, i', named, h, hk, hr => by
    obtain ⟨xs, n, is, rfl, rfl, hp⟩ := h
    obtain ⟨n', is', rfl, hl⟩ := rel_scope hr
    intro y hy
    obtain ⟨z, hz, g⟩ := rel_mem_read hl hy
    obtain ⟨x, -, hx⟩ := hp.of_mem hz
    exact known_rel e _ x z y _ hx (hk z hz) g
  | .arr k e, old, o, i, i', named, h, hk, hr => by
    obtain ⟨os, xs, n, is, rfl, rfl, rfl, -, -, -, hp⟩ := h
    obtain ⟨n', is', rfl, hl⟩ := rel_scope hr
    intro y hy
    obtain ⟨z, hz, g⟩ := rel_mem_read hl hy
    obtain ⟨x, -, hx⟩ := hp.of_mem hz
    exact known_rel e _ x.2 z y _ hx (hk z hz) g
  | .named e, old, o, i, i', named, h, hk, hr => by
    obtain ⟨xs, n, is, rfl, rfl, hp⟩ := h
    obtain ⟨n', is', rfl, hl⟩ := rel_scope hr
    intro y hy
    obtain ⟨z, hz, g⟩ := rel_mem_read hl hy
    obtain ⟨_, -, w, rfl, hx⟩ := hp.of_mem hz
    exact known_rel e _ w z y _ hx (hk z hz) g
  | .record .object st fs, old, o, i, i', named, h, hk, hr => by
    obtain ⟨os, xs, n, is, rfl, rfl, rfl, hn, h⟩ := h
    obtain ⟨n', is', rfl, hl⟩ := rel_scope hr
    intro y hy hs
    obtain ⟨z, hz, g⟩ := rel_mem_read hl hy
    exact knownMember_rel fs os xs is z y h hn hz (hk z hz ((rel_kind g).symm.trans hs)) g
  | .record .array st fs, old, o, i, i', named, h, hk, hr => by
    obtain ⟨os, xs, n, is, rfl, rfl, rfl, h⟩ := h
    obtain ⟨n', is', rfl, hl⟩ := rel_scope hr
    exact knownItems_rel fs os xs is is' _ h hk hl
  | .ptr k e, old, o, i, i', named, h, hk, hr => by
    rcases h with ⟨rfl, hs, rfl, n, rfl⟩ | ⟨x, rfl, hn, h⟩
    · obtain ⟨n', v', rfl, -⟩ := rel_val hr
      exact known_value (.ptr .raw e) hs n' v'
    · exact known_rel e _ x i i' named h hk hr
  | .sorted b c, old, o, i, i', named, h, hk, hr => by
    obtain ⟨xs, ys, h, rfl, h1, h2⟩ := h
    exact known_rel c _ _ i i' named h hk hr
theorem knownMember_rel : ∀ (fs : Fields) (os xs : List Obj) (is : List Item) (i i' : Item), MembersIn fs os xs is →
    (is.map itemName).Nodup → i ∈ is → KnownMember fs i → MpRel true i i' → KnownMember fs i'
  | .nil, _, _, _, _, _, _, _, _, h, _ => h
  | .cons name opt ty rest, os, xs, is, i, i', h, hn, hi, hk, hr => by
    obtain ⟨o, os', x, xs', rfl, rfl, h, hrest⟩ := h
    rcases hk with ⟨h1, h2, h3⟩ | hk
    · refine .inl ⟨(rel_name hr).trans h1, h2, ?_⟩
      rcases h with ⟨j, hj, g1, g2⟩ | ⟨-, g, -⟩
      · obtain rfl := item_unique hn hj hi (g1.trans h1.symm)
        exact known_rel ty _ _ j i' _ g2 h3 hr
      · exact absurd (List.mem_map.mpr ⟨i, hi, h1⟩) g
    · exact .inr (knownMember_rel rest os' xs' is i i' hrest hn hi hk hr)
theorem knownItems_rel : ∀ (fs : Fields) (os xs : List Obj) (is is' : List Item) (named : Bool), TupleIn fs os xs is →
    KnownItems fs is → MpRelL named is is' → KnownItems fs is'
  | .nil, _, _, _, _, _, _, _, _ => trivial
  | .cons name opt ty rest, os, xs, is, is', named, h, hk, hr => by
    obtain ⟨o, os', x, xs', i, is1, rfl, rfl, rfl, h, hrest⟩ := h
    rintro y ys rfl
    simp only [MpRelL] at hr
    obtain ⟨h1, h2⟩ := hk i is1 rfl
    exact ⟨known_rel ty _ _ i y _ h h1 hr.1, knownItems_rel rest os' xs' is1 ys named hrest h2 hr.2⟩
end

end Srl.Typed
