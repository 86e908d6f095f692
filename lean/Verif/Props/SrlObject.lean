import Verif.Lemmas.SrlObject
import Verif.Props.MsgPackObject
import Verif.Props.Stream

/-! # C91: objects restored from any document in the Srl format that describes them -/

namespace Srl.Props
open Typed Doc LaxSrl

/-- C91: every document in the Srl format (by the grammar of C89, `LaxSrl.Document`: also with numbers in more bytes than
they need, names given again, flags with bits that have no meaning) that describes an object – members in any order,
integers for doubles, further members, optional ones missing – is restored as that object, when it is loaded first; and
also while it is read, if it has no scopes where the type has no place for them (`KnownItem`; see `srl_object_unknown`).
What follows does not matter. What is missing besides: documents nested deeper than 128 levels. -/
theorem srl_object_partial (m : Mem) (hm : m.Sane) (env : Env) (ty : Ty) (hok : ty.Ok)
    (old o : Obj) (t : ScopeTy) (is : List Item) (names : List Bytes) (b rest : Bytes)
    (h : LaxSrl.Document true t is names b) (hd : nesting is ≤ 128) (ho : ItemFor ty old o (.scope [] t is)) (fuel : Nat)
    (hf : b.length ≤ fuel) :
    loadUnwrap env (PSrl.read m) fuel ty old (PSrl.St.init, b ++ rest) = .ok o ∧
      (WT ty old → KnownItem ty (.scope [] t is) →
        direct env (PSrl.read m) fuel ty old (PSrl.St.init, b ++ rest) = .ok o) := by
  have hdesc := desc_item (env := env) ty old o _ _ false hok ho (document_same h)
  have he := document_emits hm h rest
  have hlen : (Item.eventsL is).length < fuel := by
    obtain ⟨f, c, _, _, h2, rfl⟩ := h
    have := elems_length h2
    simp only [List.length_cons] at hf
    omega
  exact desc_restored env _ fuel ty old o [] t is _ _ he hok (by rw [nesting_depth]; unfold maxDepth; omega) hlen hdesc

/-- C91: such a document describes one object. -/
theorem srl_described_once (ty : Ty) (hok : ty.Ok) (old o o' : Obj) (t : ScopeTy)
    (is : List Item) (names : List Bytes) (b : Bytes) (h : LaxSrl.Document true t is names b) (hd : nesting is ≤ 128)
    (ho : ItemFor ty old o (.scope [] t is)) (ho' : ItemFor ty old o' (.scope [] t is)) : o = o' := by
  have hm : (⟨some 0, 0⟩ : Mem).Sane := by show 0 < 2 ^ 63; decide
  have h1 := (srl_object_partial _ hm env0 ty hok old o t is names b [] h hd ho _ (Nat.le_refl _)).1
  rw [(srl_object_partial _ hm env0 ty hok old o' t is names b [] h hd ho' _ (Nat.le_refl _)).1] at h1
  exact (Res.ok.inj h1).symm

/-! ## Streams -/

private def mem0 : Mem := ⟨some 0, 0⟩
private theorem mem0_sane : mem0.Sane := by show 0 < 2 ^ 63; decide
private theorem mem0_past : mem0.past ≠ none := by decide

private theorem emits_prefix {σ : Type} {read : σ → Res (Event × σ)} {s t x : σ} {es : List Event}
    (h : Emits read s es t) (hend : ∀ y, read t ≠ .ok y) : ∀ es', Emits read s es' x → ∀ e ∈ es', e ∈ es := by
  induction h with
  | nil s =>
    intro es' h' e he
    cases h' with
    | nil => cases he
    | cons h1 _ => exact absurd h1 (hend _)
  | cons h1 h2 ih =>
    intro es' h' e he
    cases h' with
    | nil => cases he
    | cons h3 h4 =>
      rw [h1] at h3
      cases h3
      rcases List.mem_cons.mp he with rfl | he
      · exact List.mem_cons_self
      · exact List.mem_cons_of_mem _ (ih hend _ h4 e he)

/-- C91 with a stream, wherever the buffer has to be refilled and whatever it held before. What is missing besides:
names of 1024 bytes and more (C28, `stream_long_name`). -/
theorem srl_object_stream_partial (env : Env) (ty : Ty) (hok : ty.Ok) (old o : Obj) (t : ScopeTy)
    (is : List Item) (names : List Bytes) (b : Bytes) (h : LaxSrl.Document true t is names b) (hd : nesting is ≤ 128)
    (hn : ∀ e ∈ Item.eventsL is, e.name.length < 1024) (ho : ItemFor ty old o (.scope [] t is)) (cap : Nat)
    (hc : b.length + 1024 ≤ cap) (hl : b.length < 2 ^ 63) (s : Stream.SIn) :
    (∃ root, PSrl.loadS cap s b = .ok root ∧ unwrap env ty old root = .ok o) ∧
      (WT ty old → KnownItem ty (.scope [] t is) → ∀ fuel, b.length ≤ fuel →
        Stream.opened cap s b (fun s => direct env (PSrl.readS cap) fuel ty old (PSrl.St.init, s)) = .ok o) := by
  have key := fun fuel hf => srl_object_partial mem0 mem0_sane env ty hok old o t is names b [] h hd ho fuel hf
  simp only [List.append_nil] at key
  have hshort : NamesShort mem0 b := by
    intro es x he e hm
    have h6 := document_emits mem0_sane h []
    rw [List.append_nil] at h6
    have := emits_prefix h6 (by
      rintro ⟨e, y⟩ h
      have := PSrl.read_progress _ _ _ _ h
      simp at this) es he e hm
    simp only [Item.events, List.mem_cons, List.mem_append, List.not_mem_nil, or_false] at this
    rcases this with rfl | this | rfl
    · show 0 < 1024; decide
    · exact hn e this
    · decide
  constructor
  · have h1 := (key (b.length + 1) (by omega)).1
    unfold loadUnwrap at h1
    rw [srl_load_budget mem0 b _ (by omega), Res.bind_eq_ok] at h1
    obtain ⟨⟨root, st⟩, h1, h2⟩ := h1
    refine ⟨root, srl_stream_accepts_partial mem0 mem0_sane mem0_past cap s b hc hl hshort root ?_, h2⟩
    rw [h1]
    rfl
  · intro hw hk fuel hf
    exact srl_stream_restores_partial mem0 mem0_sane mem0_past cap s b hc hl hshort env fuel ty old o ((key fuel hf).2 hw hk)

/-! ## Violations and examples -/

private theorem one (b : UInt8) (h : b.toNat < 128) : Num true b.toNat [b] :=
  ⟨by simp, _, .last h, by omega, .inl rfl⟩

private theorem x_for (k : Int) (is : List Item) (h1 : -2 ^ 31 ≤ k) (h2 : k ≤ 2 ^ 31 - 1)
    (hn : ((Item.val (str "x") (.int .u64 k) :: is).map itemName).Nodup) :
    ItemFor xTy (dflt xTy) (.many [.int k]) (.scope [] .object (.val (str "x") (.int .u64 k) :: is)) :=
  ⟨_, _, _, _, rfl, rfl, rfl, hn, .int 0, [], _, [], rfl, rfl,
    .inl ⟨_, List.mem_cons_self, rfl, _, _, _, rfl, rfl, h1, h2⟩, rfl, rfl⟩

private theorem x_ok : (Ty.vec xTy).Ok := by
  simp only [xTy, Ty.Ok, Fields.Ok, Fields.Named, Fields.names]
  repeat' apply And.intro
  all_goals first | trivial | (left; decide +kernel)

/-- Negation of C91 for restoring while reading: behind an object with an array it has no member for, elements are
lost. -/
theorem srl_object_unknown : ∃ (is : List Item) (names : List Bytes) (b : Bytes) (o : Obj),
    LaxSrl.Document true .array is names b ∧ (Ty.vec xTy).Ok ∧ ItemFor (.vec xTy) (.many []) o (.scope [] .array is) ∧
    o = .many [.many [.int 1], .many [.int 2]] ∧
    loadUnwrap env0 (PSrl.read ⟨some 0, 4096⟩) 100 (.vec xTy) (.many []) (PSrl.St.init, b) = .ok o ∧
    direct env0 (PSrl.read ⟨some 0, 4096⟩) 100 (.vec xTy) (.many []) (PSrl.St.init, b) = .ok (.many [.many [.int 1]]) := by
  refine ⟨[.scope [] .object [.val (str "x") (.int .u64 1), .scope (str "u") .array []],
      .scope [] .object [.val (str "x") (.int .u64 2)]], [str "x", str "u"],
    [128, 64, 3, 1, 120, 1, 130, 1, 117, 0, 0, 64, 7, 0, 2, 0, 0], _, ?_, x_ok, ?_, rfl,
    isObj_eq (by decide +kernel), isObj_eq (by decide +kernel)⟩
  · refine ⟨128, _, ⟨by decide, by decide, .inl rfl⟩, .inl rfl,
      .scope _ _ _ [] [str "x", str "u"] _ 64 [] _ _ [] [3, 1, 120, 1, 130, 1, 117, 0, 0] [64, 7, 0, 2, 0, 0]
        (.none _ _ _ (.inl (by decide)) (.inl rfl)) ⟨by decide, by decide, .inl rfl⟩ ?_
        (.scope _ _ _ _ _ _ 64 [] _ _ [] [7, 0, 2, 0] [0] (.none _ _ _ (.inl (by decide)) (.inl rfl))
          ⟨by decide, by decide, .inl rfl⟩ ?_ (.nil _ _)), rfl⟩
    · exact .val _ _ [str "x"] _ 3 _ _ _ [1, 120] [1] [130, 1, 117, 0, 0]
        (.first _ _ _ [1] (by decide) (by decide) (one 1 (by decide)) (.inl rfl))
        (.pos _ _ _ (by decide) (by decide) (one 1 (by decide)) (.inl rfl))
        (.scope _ _ _ [str "x", str "u"] _ _ 130 _ _ _ [1, 117] [0] [0]
          (.first _ _ _ [1] (by decide) (by decide) (one 1 (by decide)) (.inl rfl)) ⟨by decide, by decide, .inl rfl⟩
          (.nil _ _) (.nil _ _))
    · exact .val _ _ _ _ 7 _ _ _ [0] [2] [0]
        (.again _ _ 0 _ [0] (by decide) (by decide) (one 0 (by decide)) rfl (.inl rfl))
        (.pos _ _ _ (by decide) (by decide) (one 2 (by decide)) (.inl rfl)) (.nil _ _)
  · exact ⟨_, _, _, rfl, rfl, .cons _ _ _ _ (x_for 1 _ (by decide) (by decide) (by decide +kernel))
      (.cons _ _ _ _ (x_for 2 _ (by decide) (by decide) (by decide +kernel)) .nil)⟩

/-- An object with the members in another order, an integer for a double, in more bytes than it needs, without the
optional member, and with a further one -/
def mixedKids : List Item := [.scope (str "v") .array [.val [] (.int .u64 3), .val [] (.fp32 0x3f800000)],
  .val (str "z") .null, .val (str "x") (.int .i64 (-2))]

def mixedSrl : Bytes := [64, 130, 1, 118, 1, 0x83, 0, 17, 0, 0, 0x80, 0x3f, 0, 10, 1, 122, 11, 1, 120, 2, 0]

/-- The hypotheses of `srl_object_partial` are met. -/
theorem srl_object_example : LaxSrl.Document true .object mixedKids [str "v", str "z", str "x"] mixedSrl ∧
    mixedTy.Ok ∧ WT mixedTy mixedOld ∧ nesting mixedKids ≤ 128 ∧
    (∀ e ∈ Item.eventsL mixedKids, e.name.length < 1024) ∧
    ItemFor mixedTy mixedOld mixedObj (.scope [] .object mixedKids) ∧ KnownItem mixedTy (.scope [] .object mixedKids) := by
  obtain ⟨h1, -, h3, -⟩ := msgpack_object_example
  refine ⟨?_, h1, h3, by simp [mixedKids, nesting], by decide +kernel, ?_, ?_⟩
  · have k1 : ∀ (names : List Bytes) (f c : UInt8), has f 2 → ¬ has f 4 → Key true .object names f [c] [1, c] (names ++ [[c]]) :=
      fun names f c h1 h2 => .first names f [c] [1] h1 h2 (one 1 (by decide)) (.inl rfl)
    have kn : ∀ (names : List Bytes) (f : UInt8), Key true .array names f [] [] names :=
      fun names f => .none _ _ _ (.inr rfl) (.inl rfl)
    have n3 : Num true 3 [0x83, 0] :=
      ⟨by simp, 3, by simpa using Base128.more (b := 0x83) (by decide) (Base128.last (b := 0) (by decide)), by omega, .inl rfl⟩
    refine ⟨64, _, ⟨by decide, by decide, .inl rfl⟩, .inl rfl,
      .scope _ _ _ [str "v"] [str "v"] _ 130 _ _ _ [1, 118] [1, 0x83, 0, 17, 0, 0, 0x80, 0x3f, 0] [10, 1, 122, 11, 1, 120, 2, 0]
        (k1 _ _ 118 (by decide) (by decide)) ⟨by decide, by decide, .inl rfl⟩ ?_
        (.val _ _ [str "v", str "z"] _ 10 _ _ _ [1, 122] [] [11, 1, 120, 2, 0] (k1 _ _ 122 (by decide) (by decide))
          (.null _ (by decide) (by decide) (.inl rfl))
          (.val _ _ [str "v", str "z", str "x"] _ 11 _ _ _ [1, 120] [2] [0] (k1 _ _ 120 (by decide) (by decide))
            (.neg _ 2 _ _ (by decide) (by decide) (by decide) (one 2 (by decide)) (by decide) (by decide) (by decide)
              (.inl rfl)) (.nil _ _))), rfl⟩
    exact .val _ _ _ _ 1 _ _ _ [] [0x83, 0] [17, 0, 0, 0x80, 0x3f, 0] (kn _ _)
      (.pos _ 3 _ (by decide) (by decide) n3 (.inl rfl))
      (.val _ _ _ _ 17 _ _ _ [] [0, 0, 0x80, 0x3f] [0] (kn _ _)
        (.float _ 0x3f800000 (by decide) (by decide) (by decide) (.inl rfl)) (.nil _ _))
  · refine ⟨_, _, _, _, rfl, rfl, rfl, by decide +kernel, _, _, _, _, rfl, rfl,
      .inl ⟨.val (str "x") (.int .i64 (-2)), by simp [mixedKids], rfl, _, _, _, rfl, rfl, by decide, by decide⟩,
      _, _, _, _, rfl, rfl,
      .inr ⟨rfl, by decide +kernel, rfl⟩, _, _, _, _, rfl, rfl,
      .inl ⟨_, List.mem_cons_self, rfl, _, _, _, rfl, rfl, .cons _ _ _ _ ⟨_, _, _, rfl, rfl, by decide +kernel, by decide⟩
        (.cons _ _ _ _ ⟨_, _, _, rfl, rfl, show _ = _ by decide +kernel⟩ .nil)⟩, rfl, rfl⟩
  · intro y hy hs
    simp only [mixedKids, kidsIn, List.mem_cons, List.not_mem_nil, or_false] at hy
    rcases hy with rfl | rfl | rfl
    · exact .inr (.inr (.inl ⟨rfl, rfl, fun _ _ => trivial⟩))
    · cases hs
    · cases hs

/-- It is restored, from memory and from a stream. -/
example : direct env0 (PSrl.read ⟨some 0, 4096⟩) 100 mixedTy mixedOld (PSrl.St.init, mixedSrl ++ [1, 2]) = .ok mixedObj ∧
    Stream.opened 2048 .new mixedSrl (fun s => direct env0 (PSrl.readS 2048) 100 mixedTy mixedOld (PSrl.St.init, s)) =
      .ok mixedObj := by
  obtain ⟨h1, h2, h4, h5, h6, h7, h8⟩ := srl_object_example
  exact ⟨(srl_object_partial _ (by show 4096 < 2 ^ 63; decide) env0 _ h2 _ _ _ _ _ _ _ h1 h5 h7 100 (by decide)).2 h4 h8,
    (srl_object_stream_partial env0 _ h2 _ _ _ _ _ _ h1 h5 h6 h7 2048 (by decide) (by decide) .new).2 h4 h8 100
      (by decide)⟩

end Srl.Props
