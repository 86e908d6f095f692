import Verif.Props.Typed
import Verif.Props.Fpconv

/-! # C04 for `float` and `double` members in JSON

The formats Srl and MessagePack keep every bit of them (`restore_store_srl`, `restore_store_msgpack`). -/

namespace Srl.Props
open Doc Typed

/-- Specification: the values of members that JSON keeps: integers but `INT64_MIN`, and floating point numbers but
negative zero, NaN and the integers from `2^63` up to `2^80`, positive or negative -/
def JsonMember : Val → Prop
  | .int t v => Val.int t v ≠ .int .i64 (-2 ^ 63)
  | .fp32 f => Fpconv.JsonDouble (Fp.widen f) ∧ f ≠ 0x80000000
  | .fp64 d => Fpconv.JsonDouble d ∧ d ≠ 0x8000000000000000
  | _ => True

mutual
/-- Specification: documents with such values, and names in objects without `"` and `\` -/
def JsonDoc (named : Bool) : Item → Prop
  | .val n v => (named = true → PJson.NameOk n) ∧ JsonMember v
  | .scope n t kids => (named = true → PJson.NameOk n) ∧ JsonDocs (t == .object) kids
def JsonDocs (named : Bool) : List Item → Prop
  | [] => True
  | i :: is => JsonDoc named i ∧ JsonDocs named is
end

/-- With the library's own formatting and a correct `strtod`, these numbers are read back. -/
theorem jsonFp_ok (strtod : Bytes → Option UInt64) (hr : Dec.Rounds strtod) (v : Val) (h : JsonMember v) :
    JsonVal ⟨strtod, Fpconv.text⟩ v := by
  cases v with
  | fp32 f => exact ⟨Fpconv.fpOk strtod hr _ h.1, h.2⟩
  | fp64 d => exact ⟨Fpconv.fpOk strtod hr _ h.1, h.2⟩
  | int t v => exact h
  | _ => trivial

mutual
private theorem doc_item (strtod : Bytes → Option UInt64) (hr : Dec.Rounds strtod) :
    ∀ (b : Bool) (i : Item), JsonDoc b i → JsonItem ⟨strtod, Fpconv.text⟩ b i
  | _, .val n v => fun h => by
    simp only [JsonDoc, JsonItem] at h ⊢
    exact ⟨h.1, jsonFp_ok strtod hr v h.2⟩
  | _, .scope n t kids => fun h => by
    simp only [JsonDoc, JsonItem] at h ⊢
    exact ⟨h.1, doc_items strtod hr _ kids h.2⟩
private theorem doc_items (strtod : Bytes → Option UInt64) (hr : Dec.Rounds strtod) :
    ∀ (b : Bool) (is : List Item), JsonDocs b is → JsonItems ⟨strtod, Fpconv.text⟩ b is
  | _, [] => fun _ => by simp only [JsonItems]
  | b, i :: is => fun h => by
    simp only [JsonDocs, JsonItems] at h ⊢
    exact ⟨doc_item strtod hr b i h.1, doc_items strtod hr b is h.2⟩
end

/-- C04 with JSON, with the library's formatting of doubles and any correctly rounding `strtod`: floating point
members come back bit for bit. Missing: what `JsonDoc` excludes; see `json_negative_zero`, `json_double_member`. -/
theorem restore_store_json_fp_partial (m : Mem) (hm : m.Sane) (strtod : Bytes → Option UInt64)
    (hr : Dec.Rounds strtod) (compact : Bool) (ty : Ty) (o old : Obj) (hok : ty.Ok) (ho : Storable ty o)
    (hold : WT ty old) (hc : JsonDoc false (rootItem ty o)) :
    ∃ bs w, PJson.writeAll Fpconv.text compact PJson.Wr.new (rootItem ty o).events = .ok (bs, w) ∧
      ∀ rest fuel, (rootItem ty o).events.length ≤ fuel →
        ∃ s, restore ⟨strtod, Fpconv.text⟩ (PJson.read m strtod) fuel ty old (PJson.Rd.new, bs ++ rest)
          = .ok (o, s) :=
  restore_store_json_partial m hm ⟨strtod, Fpconv.text⟩ compact ty o old hok ho hold
    (doc_item strtod hr false _ hc)

private def fpTy : Ty := .record .object false
  (.cons (str "f") false .float (.cons (str "d") false (.vec .double)
    (.cons (str "p") false (.ptr .unique .double) .nil)))

/-- `{ 0.5f, { 0.1, -7.0, DBL_MAX, -inf }, 5e-324 }` -/
private def fpObj : Obj := .many [.float 0x3F000000, .many [.double 0x3FB999999999999A, .double 0xC01C000000000000,
  .double 0x7FEFFFFFFFFFFFFF, .double 0xFFF0000000000000], .ref (.double 1)]

private theorem fpObj_item : rootItem fpTy fpObj = .scope [] .object [.val (str "f") (.fp32 0x3F000000),
    .scope (str "d") .array [.val [] (.fp64 0x3FB999999999999A), .val [] (.fp32 0xC0E00000),
      .val [] (.fp64 0x7FEFFFFFFFFFFFFF), .val [] (.fp32 0xFF800000)], .val (str "p") (.fp64 1)] := by
  have h1 : Fp.ofDouble 0x3FB999999999999A = .fp64 0x3FB999999999999A := by decide +kernel
  have h2 : Fp.ofDouble 0xC01C000000000000 = .fp32 0xC0E00000 := by decide +kernel
  have h3 : Fp.ofDouble 0x7FEFFFFFFFFFFFFF = .fp64 0x7FEFFFFFFFFFFFFF := by decide +kernel
  have h4 : Fp.ofDouble 0xFFF0000000000000 = .fp32 0xFF800000 := by decide +kernel
  have h5 : Fp.ofDouble 1 = .fp64 1 := by decide +kernel
  simp only [rootItem, fpTy, fpObj, Ty.isScope, if_true, toItem, fieldItems, List.map, h1, h2, h3, h4, h5]

/-- The hypotheses hold for an object with all kinds of numbers. -/
example : fpTy.Ok ∧ Storable fpTy fpObj ∧ WT fpTy (dflt fpTy) ∧ JsonDoc false (rootItem fpTy fpObj) ∧
    PSrl.ItemOk (rootItem fpTy fpObj) ∧ PMsgPack.ItemOk (rootItem fpTy fpObj) := by
  refine ⟨?_, ?_, dflt_wt _, ?_, ?_, ?_⟩
  · simp only [fpTy, Ty.Ok, Fields.Ok, Fields.Named, Fields.names]
    repeat' apply And.intro
    all_goals first | trivial | (left; decide +kernel)
  · simp only [fpTy, fpObj, Storable, StorableL]
    refine ⟨?_, by simp, ⟨by simp [Storable], by simp, ⟨trivial, by simp⟩, by simp, trivial⟩⟩
    intro h
    exact absurd h (by decide +kernel)
  · rw [fpObj_item]
    have key : ∀ d ∈ [0x3FE0000000000000, 0x3FB999999999999A, 0xC01C000000000000, 0x7FEFFFFFFFFFFFFF,
        0xFFF0000000000000, (1 : UInt64)],
      (match Fp.num64 d with
        | .fin v => decide (v % Fp.one ≠ 0 ∨ (-2 ^ 63 * (Fp.one : Int) < v ∧ v < 2 ^ 63 * (Fp.one : Int)) ∨
            v ≤ -2 ^ 80 * (Fp.one : Int) ∨ 2 ^ 80 * (Fp.one : Int) ≤ v)
        | .inf _ => true
        | .nan => false) = true := by decide +kernel
    have h2 : ∀ d ∈ [0x3FE0000000000000, 0x3FB999999999999A, 0xC01C000000000000, 0x7FEFFFFFFFFFFFFF,
        0xFFF0000000000000, (1 : UInt64)], Fpconv.JsonDouble d := by
      intro d hd
      have := key d hd
      unfold Fpconv.JsonDouble
      split
      · rename_i v hv; rw [hv] at this; simpa using this
      · trivial
      · rename_i hv; rw [hv] at this; simp at this
    have e1 : Fp.widen 0x3F000000 = 0x3FE0000000000000 := by decide +kernel
    have e2 : Fp.widen 0xC0E00000 = 0xC01C000000000000 := by decide +kernel
    have e3 : Fp.widen 0xFF800000 = 0xFFF0000000000000 := by decide +kernel
    simp only [JsonDoc, JsonDocs, JsonMember, e1, e2, e3, PJson.NameOk]
    refine ⟨by simp, ⟨by decide +kernel, h2 _ (by simp), by decide⟩,
      ⟨by decide +kernel, ⟨by decide, h2 _ (by simp), by decide⟩, ⟨by decide, h2 _ (by simp), by decide⟩,
        ⟨by decide, h2 _ (by simp), by decide⟩, ⟨by decide, h2 _ (by simp), by decide⟩, trivial⟩,
      ⟨by decide +kernel, h2 _ (by simp), by decide⟩, trivial⟩
  · rw [fpObj_item]
    simp only [PSrl.ItemOk, PSrl.ItemsOk]
    decide +kernel
  · rw [fpObj_item]
    simp only [PMsgPack.ItemOk, PMsgPack.ItemsOk]
    decide +kernel

/-! ## Violations -/

/-- C04 violated: negative zero is written as `0` and comes back as positive zero. (`strtod` is not reached.) -/
theorem json_negative_zero :
    (do let r ← PJson.writeAll Fpconv.text true PJson.Wr.new
          (rootItem (.vec .double) (.many [.double 0x8000000000000000])).events
        .ok r.1) = .ok (str "[0]") ∧
    direct ⟨fun _ => none, Fpconv.text⟩ (PJson.read ⟨some 0, 4096⟩ (fun _ => none)) 100 (.vec .double) (.many [])
        (PJson.Rd.new, str "[0]") = .ok (.many [.double 0]) := by
  refine ⟨?_, isObj_eq (by decide +kernel)⟩
  have h : Fp.ofDouble 0x8000000000000000 = .fp32 0x80000000 := by decide +kernel
  simp only [rootItem, Ty.isScope, if_true, toItem, List.map, h]
  decide +kernel

/-- C04 violated: a double member that is written with digits only comes back as another number:
`3.0000000000001e19` as `1.1553255926291448e19`. -/
theorem json_double_member :
    (do let r ← PJson.writeAll Fpconv.text true PJson.Wr.new
          (rootItem (.vec .double) (.many [.double 0x43FA055690D9DC74])).events
        .ok r.1) = .ok (str "[30000000000001000000]") ∧
    direct ⟨fun _ => none, Fpconv.text⟩ (PJson.read ⟨some 0, 4096⟩ (fun _ => none)) 100 (.vec .double) (.many [])
        (PJson.Rd.new, str "[30000000000001000000]") = .ok (.many [.double 0x43E40AAD21B3B8E8]) := by
  refine ⟨?_, isObj_eq (by decide +kernel)⟩
  have h : Fp.ofDouble 0x43FA055690D9DC74 = .fp64 0x43FA055690D9DC74 := by decide +kernel
  simp only [rootItem, Ty.isScope, if_true, toItem, List.map, h]
  decide +kernel

/-- Why signalling NaNs are left out (`Quiet`): unwrapping converts floats to `double` and back, which makes
them quiet. -/
theorem float_signalling_nan : ¬ Quiet 0x7F800001 ∧
    ∀ env old, pasteVal env .float old (.fp32 0x7F800001) = .ok (.float 0x7FC00001) := by
  refine ⟨fun h => absurd (h (by decide +kernel)) (by decide), fun env old => ?_⟩
  have : Apply.toFloat (.fp32 0x7F800001) = .ok 0x7FC00001 := by decide +kernel
  simp only [pasteVal, Apply.pasteFp, this, Res.ok_bind]

end Srl.Props
