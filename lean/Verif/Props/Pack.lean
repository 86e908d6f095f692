import Verif.Lemmas.Pack
import Verif.Props.TypedDocs

/-! # Items stored under names, and fewer of them restored: C65 -/

namespace Srl.Props
open Typed Doc

/-! ## C65: any of the items that were packed can be unpacked, in any order

`Tree::pack(out, parser, name, item, …)` (Tree.hpp:48-69, Node.hpp:13-25) writes what a class with these members
writes, `Tree::unpack(in, parser, name, item, …)` (Tree.hpp:71-79, Node.hpp:92-97) restores like a class with the members asked for.
So the theorems also say what becomes of stored classes of which members were removed or moved since. -/

variable {σ : Type} {read : σ → Res (Event × σ)} {s s' : σ} {fuel : Nat}

/-- For C65: any format -/
theorem unpack_stored (env : Env) (fs fs' : Fields) (xs ys olds : List Obj) {nv : Val → Val} (hk : Keeps nv)
    (hok : (Ty.record .object false fs).Ok) (htab : fs.Tables True) (ho : StorableL fs xs)
    (hok' : (Ty.record .object false fs').Ok) (hold : WTL fs' olds) (hd : Item.depthL (fieldItems fs xs) ≤ maxDepth)
    (he : Emits read s (Norm.item nv false (rootItem (.record .object false fs) (.many xs))).events s')
    (hf : (rootItem (.record .object false fs) (.many xs)).events.length ≤ fuel) :
    (Asked fs xs fs' ys → direct env read fuel (.record .object false fs') (.many olds) s = .ok (.many ys)) ∧
      (Wanted fs xs fs' → Missing fs fs' →
        direct env read fuel (.record .object false fs') (.many olds) s = .err) := by
  have hnm := hok.2.resolve_right (by simp)
  have hnm' := hok'.2.resolve_right (by simp)
  rw [← Norm.events_length nv false] at hf
  have hroot : Norm.item nv false (rootItem (.record .object false fs) (.many xs)) =
      .scope [] .object (Norm.items nv true (fieldItems fs xs)) := by
    simp [rootItem, Ty.isScope, toItem, Norm.item]
  rw [hroot] at he hf
  have hsrc : Source read s .object (Norm.items nv true (fieldItems fs xs)) fuel := by
    refine ⟨⟨[], s', he⟩, by rw [norm_depthL]; exact hd, ?_⟩
    simp only [Item.events, List.length_cons, List.length_append, List.length_nil] at hf
    omega
  have hm : Wanted fs xs fs' → _ := fun hw => optional_members_partial hsrc env false fs' olds hok' hold
    (fits_wanted hok.1 htab ho hnm.2.2 0 hw hnm'.2.1) (by simp)
  constructor
  · intro ha
    rw [hm (asked_wanted ha), members_asked hk env hok.1 htab ho hnm.2.2 ha hold]
    rfl
  · intro hw hmiss
    rw [hm hw, members_missing hk env hok.1 htab ho hnm.2.2 hw hold hmiss]
    rfl

/-- C65 with the format Srl: what is asked for is given as it was stored; if some of it was not stored, the call throws. -/
theorem unpack_srl (m : Mem) (hm : m.Sane) (env : Env) (fs fs' : Fields) (xs ys olds : List Obj)
    (hok : (Ty.record .object false fs).Ok) (htab : fs.Tables True) (ho : StorableL fs xs)
    (hok' : (Ty.record .object false fs').Ok) (hold : WTL fs' olds) (hd : Item.depthL (fieldItems fs xs) ≤ maxDepth)
    (hc : PSrl.ItemOk (rootItem (.record .object false fs) (.many xs)))
    (hsize : (rootItem (.record .object false fs) (.many xs)).events.length < 2 ^ 64) :
    ∃ st bs, PSrl.writeAll PSrl.St.init (rootItem (.record .object false fs) (.many xs)).events = .ok (st, bs) ∧
      ∀ rest fuel, (rootItem (.record .object false fs) (.many xs)).events.length ≤ fuel →
        (Asked fs xs fs' ys → direct env (PSrl.read m) fuel (.record .object false fs') (.many olds)
          (PSrl.St.init, bs ++ rest) = .ok (.many ys)) ∧
        (Wanted fs xs fs' → Missing fs fs' → direct env (PSrl.read m) fuel (.record .object false fs') (.many olds)
          (PSrl.St.init, bs ++ rest) = .err) := by
  obtain ⟨st, ⟨bs, h1, h2⟩, -, -⟩ := PSrl.codes_item hm (rootItem (.record .object false fs) (.many xs)) PSrl.St.init hc
    (by simpa [PSrl.St.init] using hsize)
  refine ⟨st, bs, h1, fun rest fuel hf => ?_⟩
  have he := h2 rest
  rw [show PSrl.inObject PSrl.St.init = false from rfl, normItem_eq] at he
  exact unpack_stored env fs fs' xs ys olds keeps_srl hok htab ho hok' hold hd he hf

/-- C65 with the format MessagePack -/
theorem unpack_msgpack (m : Mem) (hm : m.Sane) (env : Env) (fs fs' : Fields) (xs ys olds : List Obj)
    (hok : (Ty.record .object false fs).Ok) (htab : fs.Tables True) (ho : StorableL fs xs)
    (hok' : (Ty.record .object false fs').Ok) (hold : WTL fs' olds) (hd : Item.depthL (fieldItems fs xs) ≤ maxDepth)
    (hc : PMsgPack.ItemOk (rootItem (.record .object false fs) (.many xs))) :
    ∃ x bs, PMsgPack.writeAll ([], []) (rootItem (.record .object false fs) (.many xs)).events = .ok (x, bs) ∧
      ∀ rest fuel, (rootItem (.record .object false fs) (.many xs)).events.length ≤ fuel →
        (Asked fs xs fs' ys → direct env (PMsgPack.read m) fuel (.record .object false fs') (.many olds)
          ([], bs ++ rest) = .ok (.many ys)) ∧
        (Wanted fs xs fs' → Missing fs fs' → direct env (PMsgPack.read m) fuel (.record .object false fs') (.many olds)
          ([], bs ++ rest) = .err) := by
  have h1 := PMsgPack.writeAll_item (rootItem (.record .object false fs) (.many xs)) [] []
  refine ⟨_, _, h1, fun rest fuel hf => ?_⟩
  have he := PMsgPack.emits_item hm _ [] _ rest (by simp [PMsgPack.Open])
    (PMsgPack.writeItem_enc (rootItem (.record .object false fs) (.many xs)) false hc)
  exact unpack_stored env fs fs' xs ys olds keeps_msgpack hok htab ho hok' hold hd he hf

/-- C65 with JSON, in both layouts. Missing is what `restore_store_json_partial` lacks. -/
theorem unpack_json_partial (m : Mem) (hm : m.Sane) (env : Env) (compact : Bool) (fs fs' : Fields) (xs ys olds : List Obj)
    (hok : (Ty.record .object false fs).Ok) (htab : fs.Tables True) (ho : StorableL fs xs)
    (hok' : (Ty.record .object false fs').Ok) (hold : WTL fs' olds) (hd : Item.depthL (fieldItems fs xs) ≤ maxDepth)
    (hc : JsonItem env false (rootItem (.record .object false fs) (.many xs))) :
    ∃ bs w, PJson.writeAll env.dtoa compact PJson.Wr.new (rootItem (.record .object false fs) (.many xs)).events
        = .ok (bs, w) ∧
      ∀ rest fuel, (rootItem (.record .object false fs) (.many xs)).events.length ≤ fuel →
        (Asked fs xs fs' ys → direct env (PJson.read m env.strtod) fuel (.record .object false fs') (.many olds)
          (PJson.Rd.new, bs ++ rest) = .ok (.many ys)) ∧
        (Wanted fs xs fs' → Missing fs fs' → direct env (PJson.read m env.strtod) fuel (.record .object false fs')
          (.many olds) (PJson.Rd.new, bs ++ rest) = .err) := by
  have hj := json_item m env (.record .object false fs) (.many xs) [] false ho (by
    simpa only [rootItem, Ty.isScope, if_true] using hc)
  have hroot : rootItem (.record .object false fs) (.many xs) = .scope [] .object (fieldItems fs xs) := by
    simp [rootItem, Ty.isScope, toItem]
  simp only [toItem, PJson.ItemOk] at hj
  obtain ⟨bs, h3, h4⟩ := PJson.emits_doc hm env.strtod env.dtoa compact (nvKept env) [] .object (fieldItems fs xs) hj.2
  rw [← hroot] at h3 h4
  refine ⟨bs, _, h3, fun rest fuel hf => ?_⟩
  obtain ⟨r', h5⟩ := h4 rest PJson.Rd.new rfl
  exact unpack_stored env fs fs' xs ys olds (keeps_json env) hok htab ho hok' hold hd h5 hf

/-! ## Examples -/

/-- Three items stored, two of them asked for in the other order; and one that was not stored. -/
def packFields : Fields := .cons (str "a") false xTy (.cons (str "v") false (.vec (.int .i8)) (.cons (str "b") false .bool .nil))

def packObjs : List Obj := [.many [.int 1], .many [.int 2, .int 3], .bool true]

def askFields : Fields := .cons (str "b") false .bool (.cons (str "a") false xTy .nil)

example : (Ty.record .object false packFields).Ok ∧ packFields.Tables True ∧ StorableL packFields packObjs ∧
    (Ty.record .object false askFields).Ok ∧ WTL askFields [.bool false, .many [.int 0]] ∧
    Item.depthL (fieldItems packFields packObjs) ≤ maxDepth ∧
    PSrl.ItemOk (rootItem (.record .object false packFields) (.many packObjs)) ∧
    PMsgPack.ItemOk (rootItem (.record .object false packFields) (.many packObjs)) ∧
    JsonItem ⟨fun _ => none, fun _ => []⟩ false (rootItem (.record .object false packFields) (.many packObjs)) ∧
    Asked packFields packObjs askFields [.bool true, .many [.int 1]] ∧
    Wanted packFields packObjs (.cons (str "c") false .bool askFields) ∧
    Missing packFields (.cons (str "c") false .bool askFields) := by
  refine ⟨?_, ?_, ?_, ?_, ?_, by decide +kernel, ?_, ?_, ?_, ?_, ?_, ?_⟩
  · simp only [packFields, xTy, Ty.Ok, Fields.Ok, Fields.Named, Fields.names]
    repeat' apply And.intro
    all_goals first | trivial | (left; decide +kernel)
  · simp [packFields, xTy, Fields.Tables, Ty.Tables]
  · simp [packFields, packObjs, xTy, Storable, StorableL, IntTy.lo, IntTy.hi, IntTy.signed, IntTy.bits]
  · simp only [askFields, xTy, Ty.Ok, Fields.Ok, Fields.Named, Fields.names]
    repeat' apply And.intro
    all_goals first | trivial | (left; decide +kernel)
  · simp [askFields, xTy, WT, WTL, IntTy.lo, IntTy.hi, IntTy.signed, IntTy.bits]
  · simp only [packFields, packObjs, xTy, rootItem, Ty.isScope, if_true, toItem, fieldItems, List.map,
      PSrl.ItemOk, PSrl.ItemsOk]
    decide +kernel
  · simp only [packFields, packObjs, xTy, rootItem, Ty.isScope, if_true, toItem, fieldItems, List.map,
      PMsgPack.ItemOk, PMsgPack.ItemsOk]
    decide +kernel
  · simp only [packFields, packObjs, xTy, rootItem, Ty.isScope, if_true, toItem, fieldItems, List.map,
      JsonItem, JsonItems, JsonVal]
    have hn : ∀ n ∈ [str "a", str "b", str "v", str "x"], PJson.NameOk n := by
      simp [str, PJson.NameOk]
    simp [hn]
  · exact ⟨_, _, rfl, .inr (.inr (.inl ⟨rfl, rfl, rfl⟩)), _, _, rfl, .inl ⟨rfl, rfl, rfl⟩, rfl⟩
  · exact ⟨.inr (by decide +kernel), .inl ⟨_, .inr (.inr (.inl ⟨rfl, rfl, rfl⟩))⟩, .inl ⟨_, .inl ⟨rfl, rfl, rfl⟩⟩, trivial⟩
  · exact .inl ⟨rfl, by decide +kernel⟩

end Srl.Props
