import Verif.Lemmas.MsgPackObject
import Verif.Props.Typed

/-! # C82: objects restored from any MessagePack that describes them -/

namespace Srl.Props
open Typed Doc

mutual
private theorem rel_events : ∀ (i i' : Item) (named : Bool), MpRel named i i' → i'.events.length = i.events.length
  | .val _ _, .val _ _, _, _ => rfl
  | .scope _ t kids, .scope _ t' kids', _, h => by
    simp only [MpRel] at h
    simp only [Item.events, List.length_cons, List.length_append, rel_eventsL kids kids' _ h.2.2, List.length_nil]
  | .val _ _, .scope _ _ _, _, h => by simp [MpRel] at h
  | .scope _ _ _, .val _ _, _, h => by simp [MpRel] at h
private theorem rel_eventsL : ∀ (x y : List Item) (named : Bool), MpRelL named x y →
    (Item.eventsL y).length = (Item.eventsL x).length
  | [], [], _, _ => rfl
  | i :: x, j :: y, named, h => by
    simp only [MpRelL] at h
    simp only [Item.eventsL, List.length_append, rel_events i j named h.1, rel_eventsL x y named h.2]
  | [], _ :: _, _, h => by simp [MpRelL] at h
  | _ :: _, [], _, h => by simp [MpRelL] at h
end

/-- C82: every encoding (by the specification of the format, `MsgPack.Format`) of a document that describes an object –
members in any order, integers in any of the formats, further members, optional ones missing – is restored as that
object, when it is loaded first; and also while it is read, if it has no arrays and maps where the type has no place for
them (`KnownItem`; see `msgpack_object_unknown`). What follows does not matter. What is missing besides: lengths of
strings, names and binaries given in two or four bytes (C40, `msgpack_object_wide`), and documents nested deeper than
129 levels. -/
theorem msgpack_object_partial (m : Mem) (hm : m.Sane) (env : Env) (ty : Ty) (hok : ty.Ok) (hs : ty.isScope = true)
    (old o : Obj) (i : Item) (b rest : Bytes) (h : MsgPack.Format false false i b) (hd : i.depth ≤ 129)
    (ho : ItemFor ty old o i) (fuel : Nat) (hf : i.events.length ≤ fuel) :
    loadUnwrap env (PMsgPack.read m) fuel ty old ([], b ++ rest) = .ok o ∧
      (WT ty old → KnownItem ty i → direct env (PMsgPack.read m) fuel ty old ([], b ++ rest) = .ok o) := by
  obtain ⟨i', h1, h2⟩ := mp_item_enc _ _ _ h
  have hdesc := desc_item (env := env) ty old o i i' false hok ho h1
  have hdep := mpRel_depth _ _ _ h1
  have hev := rel_events _ _ _ h1
  have he := PMsgPack.emits_item hm _ [] b rest trivial h2
  obtain ⟨n, t, kids, rfl⟩ := scope_of_kind ((desc_kind ty _ _ _ hdesc).trans hs)
  rw [Item.depth] at hdep
  simp only [Item.events, List.length_cons, List.length_append] at hev
  obtain ⟨g1, g2⟩ := desc_restored env _ fuel ty old o n t kids _ _ he hok (by unfold maxDepth; omega) (by omega) hdesc
  exact ⟨g1, fun hw hk => g2 hw (known_rel ty old o i _ false ho hk h1)⟩

/-- C82: a document that can be encoded describes one object. -/
theorem msgpack_described_once (ty : Ty) (hok : ty.Ok) (hs : ty.isScope = true) (old o o' : Obj) (i : Item) (b : Bytes)
    (h : MsgPack.Format false false i b) (hd : i.depth ≤ 129) (ho : ItemFor ty old o i) (ho' : ItemFor ty old o' i) :
    o = o' := by
  have hm : (⟨some 0, 0⟩ : Mem).Sane := by show 0 < 2 ^ 63; decide
  have h1 := (msgpack_object_partial _ hm env0 ty hok hs old o i b [] h hd ho _ (Nat.le_refl _)).1
  rw [(msgpack_object_partial _ hm env0 ty hok hs old o' i b [] h hd ho' _ (Nat.le_refl _)).1] at h1
  exact (Res.ok.inj h1).symm

/-! ## Violations and examples -/

private theorem xy_ok : xTy.Ok := by
  simp only [xTy, Ty.Ok, Fields.Ok, Fields.Named, Fields.names]
  repeat' apply And.intro
  all_goals first | trivial | (left; decide +kernel)

private theorem num_for (n : Bytes) (t : IntTy) (k : Int) (h1 : -2 ^ 31 ≤ k) (h2 : k ≤ 2 ^ 31 - 1) (old : Obj) :
    ItemFor (.int .i32) old (.int k) (.val n (.int t k)) := ⟨n, t, k, rfl, rfl, h1, h2⟩

private theorem x_for (k : Int) (is : List Item) (h1 : -2 ^ 31 ≤ k) (h2 : k ≤ 2 ^ 31 - 1)
    (hn : ((Item.val (str "x") (.int .u8 k) :: is).map itemName).Nodup) :
    ItemFor xTy (dflt xTy) (.many [.int k]) (.scope [] .object (.val (str "x") (.int .u8 k) :: is)) :=
  ⟨_, _, _, _, rfl, rfl, rfl, hn, .int 0, [], _, [], rfl, rfl,
    .inl ⟨_, List.mem_cons_self, rfl, num_for _ _ _ h1 h2 _⟩, rfl, rfl⟩

private def unknownItem : Item := .scope [] .array
  [.scope [] .object [.val (str "x") (.int .u8 1), .scope (str "u") .array []],
    .scope [] .object [.val (str "x") (.int .u8 2)]]

/-- Negation of C82 for restoring while reading: behind an object with an array it has no member for, elements are
lost. -/
theorem msgpack_object_unknown : ∃ (i : Item) (b : Bytes) (o : Obj), MsgPack.Format false false i b ∧ (Ty.vec xTy).Ok ∧
    ItemFor (.vec xTy) (.many []) o i ∧ o = .many [.many [.int 1], .many [.int 2]] ∧
    loadUnwrap env0 (PMsgPack.read ⟨some 0, 4096⟩) 100 (.vec xTy) (.many []) ([], b) = .ok o ∧
    direct env0 (PMsgPack.read ⟨some 0, 4096⟩) 100 (.vec xTy) (.many []) ([], b) = .ok (.many [.many [.int 1]]) := by
  refine ⟨unknownItem, [0x92, 0x82, 0xa1, 120, 1, 0xa1, 117, 0x90, 0x81, 0xa1, 120, 2], _, ?_, xy_ok, ?_, rfl,
    isObj_eq (by decide +kernel), isObj_eq (by decide +kernel)⟩
  · have kx : MsgPack.KeyFormat false true (str "x") [0xa1, 120] := .inl ⟨by decide +kernel, by decide +kernel⟩
    have ku : MsgPack.KeyFormat false true (str "u") [0xa1, 117] := .inl ⟨by decide +kernel, by decide +kernel⟩
    exact ⟨[], [0x92], _, rfl, .inl ⟨by decide, by decide⟩, ⟨_, _,
      ⟨[], [0x82], _, rfl, .inl ⟨by decide, by decide⟩, ⟨_, _, ⟨_, [1], kx, .inl ⟨by decide, by decide, by decide⟩, rfl⟩,
        ⟨_, _, ⟨_, [0x90], _, ku, .inl ⟨by decide, by decide⟩, rfl, rfl⟩, rfl, rfl⟩, rfl⟩, rfl⟩,
      ⟨_, _, ⟨[], [0x81], _, rfl, .inl ⟨by decide, by decide⟩,
        ⟨_, _, ⟨_, [2], kx, .inl ⟨by decide, by decide, by decide⟩, rfl⟩, rfl, rfl⟩, rfl⟩, rfl, rfl⟩, rfl⟩, rfl⟩
  · exact ⟨_, _, _, rfl, rfl, .cons _ _ _ _ (x_for 1 _ (by decide) (by decide) (by decide +kernel))
      (.cons _ _ _ _ (x_for 2 _ (by decide) (by decide) (by decide +kernel)) .nil)⟩

/-- Negation of C82 for lengths in two bytes: a sequence of one string of one byte -/
theorem msgpack_object_wide : MsgPack.Format true false (.scope [] .array [.val [] (.str [97])]) [0x91, 0xda, 0, 1, 97] ∧
    ItemFor (.vec .str) (.many []) (.many [.str [97]]) (.scope [] .array [.val [] (.str [97])]) ∧
    loadUnwrap env0 (PMsgPack.read ⟨some 0, 4096⟩) 100 (.vec .str) (.many []) ([], [0x91, 0xda, 0, 1, 97]) = .err ∧
    direct env0 (PMsgPack.read ⟨some 0, 4096⟩) 100 (.vec .str) (.many []) ([], [0x91, 0xda, 0, 1, 97]) = .err := by
  refine ⟨⟨[], [0x91], _, rfl, .inl ⟨by decide, by decide⟩, ⟨_, _, ⟨[], [0xda, 0, 1, 97], rfl,
    .inr (.inr (.inl ⟨rfl, by decide, by decide⟩)), rfl⟩, rfl, rfl⟩, rfl⟩,
    ⟨_, _, _, rfl, rfl, .cons _ _ _ _ ⟨_, _, rfl, rfl⟩ .nil⟩,
    Res.eq_err (by decide +kernel), Res.eq_err (by decide +kernel)⟩

/-- A class with a number, an optional text and a list of doubles -/
def mixedTy : Ty := .record .object false (.cons (str "x") false (.int .i32) (.cons (str "s") true .str
  (.cons (str "v") false (.vec .double) .nil)))

/-- A map with the members in another order, an integer for a double, integers in longer formats than needed, without
the optional member, and with a further one -/
def mixedItem : Item := .scope [] .object [.scope (str "v") .array [.val [] (.int .u8 3), .val [] (.fp32 0x3f800000)],
  .val (str "z") .null, .val (str "x") (.int .i64 (-2))]

def mixedBytes : Bytes := [0xde, 0, 3, 0xa1, 118, 0xdd, 0, 0, 0, 2, 0xcd, 0, 3, 0xca, 0x3f, 0x80, 0, 0,
  0xd9, 1, 122, 0xc0, 0xa1, 120, 0xd3, 255, 255, 255, 255, 255, 255, 255, 254]

def mixedOld : Obj := .many [.int 0, .str (str "old"), .many []]
def mixedObj : Obj := .many [.int (-2), .str (str "old"), .many [.double 0x4008000000000000, .double 0x3ff0000000000000]]

/-- The hypotheses of `msgpack_object_partial` are met. -/
theorem msgpack_object_example : mixedTy.Ok ∧ mixedTy.isScope = true ∧ WT mixedTy mixedOld ∧
    MsgPack.Format false false mixedItem mixedBytes ∧ mixedItem.depth ≤ 129 ∧ ItemFor mixedTy mixedOld mixedObj mixedItem ∧
    KnownItem mixedTy mixedItem ∧ mixedItem.events.length ≤ 100 := by
  refine ⟨?_, rfl, ?_, ?_, by decide +kernel, ?_, ?_, by decide +kernel⟩
  · simp only [mixedTy, Ty.Ok, Fields.Ok, Fields.Named, Fields.names]
    repeat' apply And.intro
    all_goals first | trivial | (left; decide +kernel)
  · simp [mixedTy, mixedOld, WT, WTL, IntTy.lo, IntTy.hi, IntTy.signed, IntTy.bits]
  · exact ⟨[], [0xde, 0, 3], _, rfl, .inr (.inl ⟨by decide, by decide⟩),
      ⟨_, _, ⟨[0xa1, 118], [0xdd, 0, 0, 0, 2], _, .inl ⟨by decide +kernel, by decide +kernel⟩, .inr (.inr ⟨by decide, by decide⟩),
        ⟨_, _, ⟨[], [0xcd, 0, 3], rfl, .inr (.inr (.inr (.inl ⟨by decide, by decide, by decide⟩))), rfl⟩,
          ⟨_, _, ⟨[], [0xca, 0x3f, 0x80, 0, 0], rfl, show _ = _ by decide +kernel, rfl⟩, rfl, rfl⟩, rfl⟩, rfl⟩,
        ⟨_, _, ⟨[0xd9, 1, 122], [0xc0], .inr (.inl ⟨by decide +kernel, by decide +kernel⟩), rfl, rfl⟩,
          ⟨_, _, ⟨[0xa1, 120], [0xd3, 255, 255, 255, 255, 255, 255, 255, 254], .inl ⟨by decide +kernel, by decide +kernel⟩,
            .inr (.inr (.inr (.inr (.inr (.inr (.inr (.inr (.inr ⟨by decide, by decide, by decide⟩)))))))), rfl⟩, rfl, rfl⟩,
          rfl⟩, rfl⟩, rfl⟩
  · refine ⟨_, _, _, _, rfl, rfl, rfl, by decide +kernel, _, _, _, _, rfl, rfl,
      .inl ⟨.val (str "x") (.int .i64 (-2)), by simp, rfl, num_for _ _ _ (by decide) (by decide) _⟩, _, _, _, _, rfl, rfl,
      .inr ⟨rfl, by decide +kernel, rfl⟩, _, _, _, _, rfl, rfl,
      .inl ⟨_, List.mem_cons_self, rfl, _, _, _, rfl, rfl, .cons _ _ _ _ ⟨_, _, _, rfl, rfl, by decide +kernel, by decide⟩
        (.cons _ _ _ _ ⟨_, _, _, rfl, rfl, show _ = _ by decide +kernel⟩ .nil)⟩, rfl, rfl⟩
  · intro y hy hs
    simp only [mixedItem, kidsIn, List.mem_cons, List.not_mem_nil, or_false] at hy
    rcases hy with rfl | rfl | rfl
    · exact .inr (.inr (.inl ⟨rfl, rfl, fun _ _ => trivial⟩))
    · cases hs
    · cases hs

end Srl.Props
