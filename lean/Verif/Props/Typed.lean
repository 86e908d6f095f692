import Verif.Lemmas.TypedStore
import Verif.Lemmas.PSrlDoc
import Verif.Lemmas.PMsgPackCut
import Verif.Lemmas.PJsonTree

/-! # Typed objects: C04, C07, C47 -/

namespace Srl.Props
open Doc Typed

/-! ## Comparing objects by evaluation -/

mutual
def sameObj : Obj → Obj → Bool
  | .bool a, .bool b => a == b
  | .int a, .int b => a == b
  | .float a, .float b => a == b
  | .double a, .double b => a == b
  | .str a, .str b => a == b
  | .many a, .many b => sameObjs a b
  | .null, .null => true
  | .ref a, .ref b => sameObj a b
  | _, _ => false
def sameObjs : List Obj → List Obj → Bool
  | [], [] => true
  | a :: as, b :: bs => sameObj a b && sameObjs as bs
  | _, _ => false
end

mutual
theorem sameObj_eq : ∀ a b : Obj, sameObj a b = true → a = b
  | .bool _, b, h => by cases b <;> simp_all [sameObj]
  | .int _, b, h => by cases b <;> simp_all [sameObj]
  | .float _, b, h => by cases b <;> simp_all [sameObj]
  | .double _, b, h => by cases b <;> simp_all [sameObj]
  | .str _, b, h => by cases b <;> simp_all [sameObj]
  | .null, b, h => by cases b <;> simp_all [sameObj]
  | .many a, b, h => by
    cases b with
    | many b => rw [sameObjs_eq a b (by simpa [sameObj] using h)]
    | _ => simp [sameObj] at h
  | .ref a, b, h => by
    cases b with
    | ref b => rw [sameObj_eq a b (by simpa [sameObj] using h)]
    | _ => simp [sameObj] at h
theorem sameObjs_eq : ∀ a b : List Obj, sameObjs a b = true → a = b
  | [], b, h => by cases b <;> simp_all [sameObjs]
  | a :: as, b, h => by
    cases b with
    | nil => simp [sameObjs] at h
    | cons b bs =>
      simp only [sameObjs, Bool.and_eq_true] at h
      rw [sameObj_eq a b h.1, sameObjs_eq as bs h.2]
end

def isObj (r : Res Obj) (o : Obj) : Bool :=
  match r with
  | .ok x => sameObj x o
  | _ => false

theorem isObj_eq {r : Res Obj} {o : Obj} (h : isObj r o = true) : r = .ok o := by
  cases r with
  | ok x => rw [sameObj_eq x o h]
  | _ => cases h

/-! ## C04: restoring gives back what was stored -/

/-- Formats that do not change floating point numbers -/
private theorem fp_kept {nv : Val → Val} (h1 : ∀ f, nv (.fp32 f) = .fp32 f) (h2 : ∀ d, nv (.fp64 d) = .fp64 d) :
    (∀ f, Quiet f → nv (.fp32 f) ≠ .null ∧
      ∀ strtod, Apply.pasteFp strtod Apply.toFloat (nv (.fp32 f)) = .ok f) ∧
    ∀ d, nv (Fp.ofDouble d) ≠ .null ∧
      ∀ strtod, Apply.pasteFp strtod Apply.toDouble (nv (Fp.ofDouble d)) = .ok d := by
  refine ⟨fun f hf => ?_, fun d => ?_⟩
  · rw [h1]
    exact ⟨by simp, fun strtod => by simp only [Apply.pasteFp, Apply.toFloat, Fp.narrow_widen f hf]⟩
  · have h := Fp.toDouble_ofDouble d
    have e : nv (Fp.ofDouble d) = Fp.ofDouble d ∧ Fp.ofDouble d ≠ .null ∧
        ∀ strtod, Apply.pasteFp strtod Apply.toDouble (Fp.ofDouble d) = Apply.toDouble (Fp.ofDouble d) := by
      unfold Fp.ofDouble
      split
      · exact ⟨h1 _, by simp, fun _ => rfl⟩
      · exact ⟨h2 _, by simp, fun _ => rfl⟩
    rw [e.1]
    exact ⟨e.2.1, fun strtod => by rw [e.2.2, h]⟩

theorem keeps_srl : Keeps PSrl.normVal where
  bool _ := rfl
  null := rfl
  str _ := rfl
  int t v h1 h2 := by
    refine ⟨_, rfl, ?_⟩
    cases t <;> simp only [IntTy.lo, IntTy.hi, IntTy.signed, IntTy.bits] at h1 h2 <;> split <;>
      simp [IntTy.lo, IntTy.hi, IntTy.signed, IntTy.bits] at h1 h2 ⊢ <;> omega
  float := (fp_kept (nv := PSrl.normVal) (fun _ => rfl) fun _ => rfl).1
  widen _ _ := rfl
  double := (fp_kept (nv := PSrl.normVal) (fun _ => rfl) fun _ => rfl).2
  bin _ := ⟨by simp [PSrl.normVal], fun _ _ => rfl⟩

theorem keeps_msgpack : Keeps PMsgPack.normVal where
  bool _ := rfl
  null := rfl
  str _ := rfl
  int t v h1 h2 := by
    refine ⟨_, rfl, ?_⟩
    split
    · rename_i h
      simp only [IntTy.lo, IntTy.hi, IntTy.signed, IntTy.bits]
      simp
      omega
    · exact ⟨h1, h2⟩
  float := (fp_kept (nv := PMsgPack.normVal) (fun _ => rfl) fun _ => rfl).1
  widen _ _ := rfl
  double := (fp_kept (nv := PMsgPack.normVal) (fun _ => rfl) fun _ => rfl).2
  bin _ := ⟨by simp [PMsgPack.normVal], fun _ _ => rfl⟩

/-- The values JSON can carry: integers but `INT64_MIN`, floating point numbers but negative zero that are
written and read as numbers (`PJson.FpOk`; see `jsonFp_ok` for which ones these are). -/
def JsonVal (env : Env) : Val → Prop
  | .int t v => Val.int t v ≠ .int .i64 (-2 ^ 63)
  | .fp32 f => PJson.FpOk env.dtoa env.strtod (Fp.widen f) ∧ f ≠ 0x80000000
  | .fp64 d => PJson.FpOk env.dtoa env.strtod d ∧ d ≠ 0x8000000000000000
  | _ => True

open Classical in
/-- What JSON makes of the values it can carry. -/
noncomputable def nvKept (env : Env) (v : Val) : Val :=
  if JsonVal env v then PJson.nvJson env.dtoa env.strtod v else v

theorem nvKept_eq {env : Env} {v : Val} (h : JsonVal env v) : nvKept env v = PJson.nvJson env.dtoa env.strtod v :=
  if_pos h

theorem nvKept_other {env : Env} {v : Val} (h : ¬ JsonVal env v) : nvKept env v = v := if_neg h

private theorem paste_int {α : Type} (strtod : Bytes → Option UInt64) (conv : Val → Res α) (t : IntTy) (k : Int) :
    Apply.pasteFp strtod conv (.int t k) = conv (.int t k) := rfl

private theorem paste_fp {α : Type} (strtod : Bytes → Option UInt64) (conv : Val → Res α) (d : UInt64) :
    Apply.pasteFp strtod conv (Fp.ofDouble d) = conv (Fp.ofDouble d) := by
  unfold Fp.ofDouble
  split <;> rfl

private theorem ofDouble_ne (d : UInt64) : Fp.ofDouble d ≠ .null := by
  unfold Fp.ofDouble
  split <;> simp

theorem keeps_json (env : Env) : Keeps (nvKept env) where
  bool b := by unfold nvKept; split <;> rfl
  null := by unfold nvKept; split <;> rfl
  str _ := by unfold nvKept; split <;> rfl
  int t v h1 h2 := by
    by_cases h : JsonVal env (.int t v)
    · rw [nvKept_eq h]
      exact keeps_srl.int t v h1 h2
    · rw [nvKept_other h]
      exact ⟨t, rfl, h1, h2⟩
  float f hf := by
    by_cases h : JsonVal env (.fp32 f)
    · rw [nvKept_eq h]
      obtain ⟨-, -, -, -, hr⟩ := PJson.reads_fp env.dtoa env.strtod _ h.1
      show PJson.nvFp env.dtoa env.strtod (Fp.widen f) ≠ .null ∧ ∀ strtod,
        Apply.pasteFp strtod Apply.toFloat (PJson.nvFp env.dtoa env.strtod (Fp.widen f)) = .ok f
      rcases hr with ⟨t, k, h1, h2⟩ | h1
      · rw [h1]
        have hn : Fp.num32 f ≠ .nan := fun hn => by
          rw [Fp.num64_widen_nan f hn] at h2; cases h2
        rw [widen_exact f hn] at h2
        exact ⟨by simp, fun strtod => by simp only [paste_int, Apply.toFloat, Fp.ofInt32_exact f k h2 h.2]⟩
      · rw [h1]
        exact ⟨ofDouble_ne _, fun strtod => by rw [paste_fp, Fp.toFloat_ofDouble_widen f hf]⟩
    · rw [nvKept_other h]
      exact keeps_srl.float f hf
  widen f := by
    intro strtod
    by_cases h : JsonVal env (.fp32 f)
    · rw [nvKept_eq h]
      obtain ⟨-, -, -, -, hr⟩ := PJson.reads_fp env.dtoa env.strtod _ h.1
      show Apply.pasteFp strtod Apply.toDouble (PJson.nvFp env.dtoa env.strtod (Fp.widen f)) = .ok (Fp.widen f)
      rcases hr with ⟨t, k, h1, h2⟩ | h1
      · rw [h1, paste_int, Apply.toDouble, Fp.ofInt64_exact _ k h2]
        intro h0
        have hn : Fp.num32 f ≠ .nan := fun hn => by
          rw [Fp.num64_widen_nan f hn] at h2; cases h2
        have := Fp.narrow_widen f (fun hn' => absurd hn' hn)
        rw [h0] at this
        exact h.2 (by rw [← this]; decide +kernel)
      · rw [h1, paste_fp, Fp.toDouble_ofDouble]
    · rw [nvKept_other h]
      rfl
  double d := by
    by_cases h : JsonVal env (Fp.ofDouble d)
    · rw [nvKept_eq h]
      have key : PJson.FpOk env.dtoa env.strtod d ∧ d ≠ 0x8000000000000000 ∧
          PJson.nvJson env.dtoa env.strtod (Fp.ofDouble d) = PJson.nvFp env.dtoa env.strtod d := by
        have hd := Fp.toDouble_ofDouble d
        unfold Fp.ofDouble at h hd ⊢
        split
        · rename_i hc
          rw [if_pos hc] at h hd
          simp only [Apply.toDouble, Res.ok.injEq] at hd
          simp only [JsonVal, hd] at h
          refine ⟨h.1, fun h0 => h.2 ?_, by simp only [PJson.nvJson, hd]⟩
          rw [h0]
          decide +kernel
        · rename_i hc
          rw [if_neg hc] at h
          exact ⟨h.1, h.2, rfl⟩
      obtain ⟨h1, h2, h3⟩ := key
      rw [h3]
      obtain ⟨-, -, -, -, hr⟩ := PJson.reads_fp env.dtoa env.strtod _ h1
      rcases hr with ⟨t, k, h4, h5⟩ | h4
      · rw [h4]
        exact ⟨by simp, fun strtod => by simp only [paste_int, Apply.toDouble, Fp.ofInt64_exact d k h5 h2]⟩
      · rw [h4]
        exact ⟨ofDouble_ne _, fun strtod => by rw [paste_fp, Fp.toDouble_ofDouble]⟩
    · rw [nvKept_other h]
      have : (Fp.ofDouble d) ≠ .null := ofDouble_ne d
      exact ⟨this, fun strtod => by rw [paste_fp, Fp.toDouble_ofDouble]⟩
  bin s := by
    rw [nvKept_eq (show JsonVal env (.bin s) from trivial)]
    refine ⟨by simp [PJson.nvJson], fun env' old => ?_⟩
    simp only [PJson.nvJson, pasteVal, base64_restore_binary, Res.ok_bind]

mutual
theorem normItem_eq : ∀ (b : Bool) (i : Item), PSrl.normItem b i = Norm.item PSrl.normVal b i
  | _, .val _ _ => rfl
  | _, .scope _ t kids => by
    simp only [PSrl.normItem, Norm.item, normItems_eq (t == .object) kids]
theorem normItems_eq : ∀ (b : Bool) (is : List Item),
    PSrl.normItems b is = Norm.items PSrl.normVal b is
  | _, [] => rfl
  | b, i :: is => by simp only [PSrl.normItems, Norm.items, normItem_eq b i, normItems_eq b is]
end

/-- C04 with the format Srl: an object of any type, whatever follows it, is restored into any object
`old` of the type. `PSrl.ItemOk`: no `INT64_MIN`, strings and names below 4 GiB. -/
theorem restore_store_srl (m : Mem) (hm : m.Sane) (env : Env) (ty : Ty) (o old : Obj) (hok : ty.Ok)
    (ho : Storable ty o) (hold : WT ty old) (hc : PSrl.ItemOk (rootItem ty o))
    (hsize : (rootItem ty o).events.length < 2 ^ 64) :
    ∃ st bs, PSrl.writeAll PSrl.St.init (rootItem ty o).events = .ok (st, bs) ∧
      ∀ rest fuel, (rootItem ty o).events.length ≤ fuel →
        ∃ s, restore env (PSrl.read m) fuel ty old (PSrl.St.init, bs ++ rest) = .ok (o, s) := by
  obtain ⟨st, ⟨bs, h1, h2⟩, -, -⟩ := PSrl.codes_item hm (rootItem ty o) PSrl.St.init hc
    (by simpa [PSrl.St.init] using hsize)
  refine ⟨st, bs, h1, fun rest fuel hf => ?_⟩
  have he := h2 rest
  rw [show PSrl.inObject PSrl.St.init = false from rfl, normItem_eq] at he
  exact restore_stored keeps_srl env _ fuel ty o old _ _ hok ho hold he hf

/-- C04 with the format MessagePack. `PMsgPack.ItemOk`: strings, names and containers below 2³². -/
theorem restore_store_msgpack (m : Mem) (hm : m.Sane) (env : Env) (ty : Ty) (o old : Obj) (hok : ty.Ok)
    (ho : Storable ty o) (hold : WT ty old) (hc : PMsgPack.ItemOk (rootItem ty o)) :
    ∃ x bs, PMsgPack.writeAll ([], []) (rootItem ty o).events = .ok (x, bs) ∧
      ∀ rest fuel, (rootItem ty o).events.length ≤ fuel →
        ∃ s, restore env (PMsgPack.read m) fuel ty old ([], bs ++ rest) = .ok (o, s) := by
  have h1 := PMsgPack.writeAll_item (rootItem ty o) [] []
  refine ⟨_, _, h1, fun rest fuel hf => ?_⟩
  have he := PMsgPack.emits_item hm _ [] _ rest (by simp [PMsgPack.Open])
    (PMsgPack.writeItem_enc (rootItem ty o) false hc)
  exact restore_stored keeps_msgpack env _ fuel ty o old _ _ hok ho hold he hf

theorem kept_reads (m : Mem) (env : Env) (v : Val) (h : JsonVal env v) (hv : PJson.ValOk env.dtoa env.strtod v) :
    PJson.Reads m env.dtoa env.strtod v (nvKept env v) := by
  rw [nvKept_eq h]
  exact PJson.reads_val m env.dtoa env.strtod v hv

mutual
/-- What JSON can carry: names in objects without `"` and `\`, values that it can carry. -/
def JsonItem (env : Env) (named : Bool) : Item → Prop
  | .val n v => (named = true → PJson.NameOk n) ∧ JsonVal env v
  | .scope n t kids => (named = true → PJson.NameOk n) ∧ JsonItems env (t == .object) kids
def JsonItems (env : Env) (named : Bool) : List Item → Prop
  | [] => True
  | i :: is => JsonItem env named i ∧ JsonItems env named is
end

mutual
theorem json_item (m : Mem) (env : Env) :
    ∀ (ty : Ty) (o : Obj) (nm : Bytes) (named : Bool), Storable ty o → JsonItem env named (toItem nm ty o) →
      PJson.ItemOk m env.dtoa env.strtod (nvKept env) named (toItem nm ty o)
  | .bool, o, nm, named => by
    intro h; cases o <;> simp only [Storable] at h
    simp only [toItem, JsonItem, PJson.ItemOk]
    exact fun hj => ⟨hj.1, kept_reads m env _ hj.2 trivial⟩
  | .int t, o, nm, named => by
    intro h; cases o <;> simp only [Storable] at h
    simp only [toItem, JsonItem, PJson.ItemOk]
    refine fun hj => ⟨hj.1, kept_reads m env _ hj.2 ⟨h.1, h.2, fun he => hj.2 ?_⟩⟩
    rw [he] at h ⊢
    cases t <;> simp [IntTy.lo, IntTy.hi, IntTy.signed, IntTy.bits] at h ⊢
  | .float, o, nm, named => by
    intro h; cases o <;> simp only [Storable] at h
    simp only [toItem, JsonItem, PJson.ItemOk]
    exact fun hj => ⟨hj.1, kept_reads m env _ hj.2 hj.2.1⟩
  | .double, o, nm, named => by
    intro h; cases o <;> simp only [Storable] at h
    simp only [toItem, JsonItem, PJson.ItemOk]
    refine fun hj => ⟨hj.1, kept_reads m env _ hj.2 ?_⟩
    replace hj := hj.2
    unfold Fp.ofDouble at hj ⊢
    split
    · rename_i hc; rw [if_pos hc] at hj; exact hj.1
    · rename_i hc; rw [if_neg hc] at hj; exact hj.1
  | .str, o, nm, named => by
    intro h; cases o <;> simp only [Storable] at h
    simp only [toItem, JsonItem, PJson.ItemOk]
    exact fun hj => ⟨hj.1, kept_reads m env _ hj.2 trivial⟩
  | .bytes, o, nm, named => by
    intro h; cases o <;> simp only [Storable] at h
    simp only [toItem, JsonItem, PJson.ItemOk]
    exact fun hj => ⟨hj.1, kept_reads m env _ hj.2 trivial⟩
  | .sorted b c, o, nm, named => by
    intro h
    simp only [Storable] at h
    simp only [toItem]
    exact json_item m env c o nm named h.2.1
  | .vec e, o, nm, named => by
    intro h; cases o <;> simp only [Storable] at h
    rename_i xs
    simp only [toItem, JsonItem, PJson.ItemOk]
    refine fun hj => ⟨hj.1, ?_⟩
    replace hj := hj.2
    induction xs with
    | nil => trivial
    | cons x xs ih =>
      simp only [List.map_cons, JsonItems, PJson.ItemsOk] at hj ⊢
      exact ⟨json_item m env e x [] _ (h x (by simp)) hj.1,
        ih (fun y hy => h y (by simp [hy])) hj.2⟩
  | .named e, o, nm, named => by
    intro h; cases o <;> simp only [Storable] at h
    rename_i xs
    simp only [toItem, JsonItem, PJson.ItemOk]
    refine fun hj => ⟨hj.1, ?_⟩
    replace hj := hj.2
    induction xs with
    | nil => trivial
    | cons x xs ih =>
      simp only [List.map_cons, JsonItems, PJson.ItemsOk] at hj ⊢
      obtain ⟨k, y, rfl, hy⟩ := h x (by simp)
      exact ⟨json_item m env e y k _ hy hj.1, ih (fun y hy => h y (by simp [hy])) hj.2⟩
  | .arr k e, o, nm, named => by
    intro h; cases o <;> simp only [Storable] at h
    rename_i xs
    simp only [toItem, JsonItem, PJson.ItemOk]
    refine fun hj => ⟨hj.1, ?_⟩
    replace hj := hj.2
    replace h := h.2
    induction xs with
    | nil => trivial
    | cons x xs ih =>
      simp only [List.map_cons, JsonItems, PJson.ItemsOk] at hj ⊢
      exact ⟨json_item m env e x [] _ (h x (by simp)) hj.1,
        ih hj.2 (fun y hy => h y (by simp [hy]))⟩
  | .record t st fs, o, nm, named => by
    intro h; cases o <;> simp only [Storable] at h
    simp only [toItem, JsonItem, PJson.ItemOk]
    exact fun hj => ⟨hj.1, json_items m env fs _ _ h hj.2⟩
  | .ptr k e, o, nm, named => by
    intro h
    cases o with
    | null =>
      simp only [toItem, JsonItem, PJson.ItemOk]
      exact fun hj => ⟨hj.1, kept_reads m env _ hj.2 trivial⟩
    | ref o =>
      simp only [Storable] at h
      rw [toItem]
      exact json_item m env e o nm named h.1
    | _ => simp [Storable] at h
theorem json_items (m : Mem) (env : Env) :
    ∀ (fs : Fields) (xs : List Obj) (named : Bool), StorableL fs xs →
      JsonItems env named (fieldItems fs xs) →
      PJson.ItemsOk m env.dtoa env.strtod (nvKept env) named (fieldItems fs xs)
  | .nil, xs, named => by intro _ _; simp only [fieldItems, PJson.ItemsOk]
  | .cons nm opt ty rest, xs, named => by
    intro h hj
    cases xs with
    | nil => simp [StorableL] at h
    | cons x xs =>
      simp only [StorableL] at h
      simp only [fieldItems, JsonItems, PJson.ItemsOk] at hj ⊢
      exact ⟨json_item m env ty x nm named h.1 hj.1,
        json_items m env rest xs named h.2.2 hj.2⟩
end

theorem json_kids (m : Mem) (env : Env) (ty : Ty) (o : Obj) (ho : Storable ty o)
    (hc : JsonItem env false (rootItem ty o)) :
    ∃ t kids, rootItem ty o = .scope [] t kids ∧ PJson.ItemsOk m env.dtoa env.strtod
      (nvKept env) (t == .object) kids := by
  unfold rootItem at hc ⊢
  by_cases hs : ty.isScope = true
  · rw [if_pos hs] at hc ⊢
    have := json_item m env ty o [] false ho hc
    rw [stored_scope ty o ho hs] at this ⊢
    simp only [PJson.ItemOk] at this
    exact ⟨_, _, rfl, this.2⟩
  · rw [if_neg hs] at hc ⊢
    simp only [JsonItem, JsonItems] at hc
    refine ⟨_, _, rfl, ?_⟩
    simp only [PJson.ItemsOk]
    exact ⟨json_item m env ty o _ _ ho hc.2.1, trivial⟩

/-- C04 with JSON, in both layouts. Missing: names of members that contain `"` or `\` (they are written
without escaping, `json_name_quote`), `INT64_MIN` (undefined behaviour on writing), negative zeros
(`json_negative_zero`), and the floating point numbers that JSON does not keep (`jsonFp_ok`). -/
theorem restore_store_json_partial (m : Mem) (hm : m.Sane) (env : Env) (compact : Bool) (ty : Ty)
    (o old : Obj) (hok : ty.Ok) (ho : Storable ty o) (hold : WT ty old)
    (hc : JsonItem env false (rootItem ty o)) :
    ∃ bs w, PJson.writeAll env.dtoa compact PJson.Wr.new (rootItem ty o).events = .ok (bs, w) ∧
      ∀ rest fuel, (rootItem ty o).events.length ≤ fuel →
        ∃ s, restore env (PJson.read m env.strtod) fuel ty old (PJson.Rd.new, bs ++ rest)
          = .ok (o, s) := by
  obtain ⟨t, kids, h1, h2⟩ := json_kids m env ty o ho hc
  obtain ⟨bs, h3, h4⟩ := PJson.emits_doc hm env.strtod env.dtoa compact
    (nvKept env) [] t kids h2
  rw [h1]
  refine ⟨bs, _, h3, fun rest fuel hf => ?_⟩
  obtain ⟨r', h5⟩ := h4 rest PJson.Rd.new rfl
  rw [← h1] at h5 hf
  exact restore_stored (keeps_json env) env _ fuel ty o old _ _ hok ho hold h5 hf

/-- A class with a member of every kind: optional members, a vector of pairs, a fixed array, a tuple, a
null pointer to a value and a pointer to a class. -/
def exampleTy : Ty := .record .object false
  (.cons (str "id") false (.int .u64)
  (.cons (str "name") true .str
  (.cons (str "list") true (.vec (.record .object true
    (.cons (str "first") false .bool (.cons (str "second") false (.int .i8) .nil))))
  (.cons (str "four") false (.arr 2 (.int .i16))
  (.cons (str "tuple") false (.record .array false
    (.cons [] false (.int .i32) (.cons [] false (.vec .str) (.cons [] false .bool .nil))))
  (.cons (str "none") false (.ptr .raw (.int .i32))
  (.cons (str "some") false (.ptr .unique (.record .object false (.cons (str "x") false .str .nil)))
  .nil)))))))

def exampleObj : Obj := .many
  [.int 18446744073709551615, .str (str "n\"a"), .many [.many [.bool true, .int (-128)], .many [.bool false, .int 0]],
    .many [.int (-5), .int 6], .many [.int (-1), .many [.str [], .str (str "y")], .bool true], .null,
    .ref (.many [.str (str "z")])]

/-- The hypotheses of the theorems above are met by a large type and object; the size is that of its
text. -/
example : exampleTy.Ok ∧ Storable exampleTy exampleObj ∧ WT exampleTy (dflt exampleTy) ∧
    PSrl.ItemOk (rootItem exampleTy exampleObj) ∧ PMsgPack.ItemOk (rootItem exampleTy exampleObj) ∧
    (∀ env, JsonItem env false (rootItem exampleTy exampleObj)) ∧
    (rootItem exampleTy exampleObj).events.length = 30 := by
  refine ⟨?_, ?_, dflt_wt _, ?_, ?_, ?_, by decide +kernel⟩
  · simp only [exampleTy, Ty.Ok, Fields.Ok, Fields.Named, Fields.Positional, Fields.names]
    repeat' apply And.intro
    all_goals first | trivial | (left; decide +kernel) | (right; decide +kernel)
  · simp [exampleTy, exampleObj, Storable, StorableL, Ty.isScope, IntTy.lo, IntTy.hi, IntTy.signed,
      IntTy.bits, toItem, fieldItems, Item.depth, Item.depthL, maxDepth, Obj.isNull]
  · simp only [exampleTy, exampleObj, rootItem, Ty.isScope, if_true, toItem, fieldItems, List.map,
      PSrl.ItemOk, PSrl.ItemsOk]
    decide +kernel
  · simp only [exampleTy, exampleObj, rootItem, Ty.isScope, if_true, toItem, fieldItems, List.map,
      PMsgPack.ItemOk, PMsgPack.ItemsOk]
    decide +kernel
  · simp only [exampleTy, exampleObj, rootItem, Ty.isScope, if_true, toItem, fieldItems, List.map,
      JsonItem, JsonItems, PJson.NameOk, JsonVal]
    intro _
    repeat' apply And.intro
    all_goals first | decide +kernel | trivial

/-! ## C07: restoring directly is loading and unwrapping -/

/-- The object `Tree::restore` gives, without the rest of the source. -/
def direct {σ : Type} (env : Env) (read : σ → Res (Event × σ)) (fuel : Nat) (ty : Ty) (old : Obj)
    (s : σ) : Res Obj := do
  let (o, _) ← restore env read fuel ty old s
  .ok o

/-- C07, for every format (`read` may be any parser), every document (its tokens are those of `items` in
a root scope) and every type: the same object, or the same failure. Missing: documents with scopes behind
the last field of a part of the type, arrays of other lengths than the type's, optional fields
that occur twice (`Fits`), and scopes nested deeper than the limit. -/
theorem restore_is_load_partial {σ : Type} (env : Env) (read : σ → Res (Event × σ)) (fuel : Nat)
    (ty : Ty) (old : Obj) (n : Bytes) (t : ScopeTy) (items : List Item) (s s' : σ)
    (he : Emits read s (Item.scope n t items).events s') (hok : ty.Ok) (hold : WT ty old)
    (hfit : Fits ty items) (hd : Item.depthL items ≤ maxDepth)
    (hf : (Item.eventsL items).length < fuel) :
    direct env read fuel ty old s = loadUnwrap env read fuel ty old s := by
  unfold direct
  have hl := load_item read n t items fuel s s' he hf
  rw [if_pos hd] at hl
  simp only [Item.events] at he
  obtain ⟨s1, h1, h2⟩ := Emits.cons_inv he
  simp only [loadUnwrap, hl, Res.ok_bind, restore, h1, unwrap]
  by_cases hs : ty.isScope = true
  · simp only [hs, if_true]
    have := paste_agrees env read fuel ty old t items s1 s' hok hs hold hfit h2 hf hd
    revert this
    simp only [nodeOf]
    cases pasteNode env ty old (.mk t (Item.contentL items).1 (Item.contentL items).2) with
    | ok o =>
      rintro ⟨p, hp, -⟩
      simp only [hp, Res.ok_bind]
    | err => intro hp; simp only [Agrees] at hp; simp only [hp, Res.err_bind]
    | ub => intro hp; simp only [Agrees] at hp; simp only [hp, Res.ub_bind]
    | fuel => intro hp; simp only [Agrees] at hp; simp only [hp, Res.fuel_bind]
  · simp only [hs, Bool.false_eq_true, if_false, contentL_eq]
    have hc : consumeValue read fuel (.index 0) (.fresh t) s1
        = seekValue read fuel (.index 0) (.fresh t) s1 := by
      simp [consumeValue, LNode.fresh, takeOut]
    rw [hc]
    rcases seekValue_spec read (.index 0) items fuel (.fresh t) s1 s' rfl h2 hf hd with
      ⟨a, nm, v, b, s2, rfl, -, hno, hv, -⟩ | ⟨hno, hv⟩
    · have ha : valuesOf a = [] := by
        cases hva : valuesOf a with
        | nil => rfl
        | cons x xs => exact absurd (hno x (by simp [hva])) (by simp [Sel.hits])
      simp only [hv, Res.ok_bind, valuesOf_append, ha, List.nil_append, valuesOf, lookup,
        List.getElem?_cons_zero]
      cases pasteVal env ty old v <;> rfl
    · have ha : valuesOf items = [] := by
        cases hva : valuesOf items with
        | nil => rfl
        | cons x xs => exact absurd (hno x (by simp [hva])) (by simp [Sel.hits])
      simp only [hv, Res.ok_bind, ha, lookup, List.getElem?_nil, Res.err_bind]

/-! ### The hypotheses are met by a document with fields in another order, further values, a further scope
and an absent optional field. -/

def pairTy : Ty := .record .object false
  (.cons (str "a") false (.record .object false (.cons (str "x") false (.int .i32) .nil))
  (.cons (str "o") true .str
  (.cons (str "b") false (.int .i32) .nil)))

def env0 : Env := ⟨fun _ => none, fun _ => []⟩

def jread : PJson.Rd × Bytes → Res (Event × PJson.Rd × Bytes) :=
  PJson.read ⟨some 0, 4096⟩ env0.strtod

def pairItems : List Item :=
  [.val (str "b") (.int .u64 3), .scope (str "u") .array [.val [] .null],
    .scope (str "a") .object [.val (str "y") (.int .u64 2), .val (str "x") (.int .u64 1)],
    .val (str "v") .null]

example : pairTy.Ok ∧ Fits pairTy pairItems ∧ Item.depthL pairItems ≤ maxDepth ∧
    isObj (loadUnwrap env0 jread 100 pairTy (dflt pairTy)
      (PJson.Rd.new, str "{\"b\":3,\"u\":[null],\"a\":{\"y\":2,\"x\":1},\"v\":null}"))
      (.many [.many [.int 1], .str [], .int 3]) = true := by
  refine ⟨?_, ?_, by decide +kernel, by decide +kernel⟩
  · simp only [pairTy, Ty.Ok, Fields.Ok, Fields.Named, Fields.names]
    repeat' apply And.intro
    all_goals first | trivial | (left; decide +kernel)
  · refine ⟨fun _ x hx => ?_, by simp, fun h => by simp [Ty.isScope] at h, ?_, fun h => by simp [Ty.isScope] at h, by simp, trivial⟩
    · have : x = (str "a", .object, [.val (str "y") (.int .u64 2), .val (str "x") (.int .u64 1)]) := by
        have h2 : pick (str "a") 0 pairItems = some
          (str "a", .object, [.val (str "y") (.int .u64 2), .val (str "x") (.int .u64 1)]) := by
          simp [pick, pairItems, scopesOf, str]
        rw [h2] at hx
        exact (Option.some.inj hx).symm
      subst this
      refine ⟨⟨fun h => by simp [Ty.isScope] at h, by simp, trivial⟩, ?_⟩
      intro pre n t kids post h
      replace h : [Item.val (str "y") (.int .u64 2), .val (str "x") (.int .u64 1)]
        = pre ++ Item.scope n t kids :: post := h
      have : Item.scope n t kids ∈ [Item.val (str "y") (.int .u64 2), .val (str "x") (.int .u64 1)] := by
        rw [h]; simp
      simp at this
    · decide +kernel

/-! ### Violations -/

def xTy : Ty := .record .object false (.cons (str "x") false (.int .i32) .nil)

def abTy : Ty := .record .object false
  (.cons (str "a") false xTy (.cons (str "b") false (.int .i32) .nil))

/-- C07, C06 violated: a scope behind the last field of a part of the object ends that part
(`Node::consume_scope`, Node.cpp:514-535, starts with depth 0). Here the member `b` of the inner
object, which nobody asked for, is taken for the one of the outer object. -/
theorem restore_wrong_object : ∃ (ty : Ty) (doc : Bytes) (o1 o2 : Obj), ty.Ok ∧ o1 ≠ o2 ∧
    loadUnwrap env0 jread 100 ty (dflt ty) (PJson.Rd.new, doc) = .ok o1 ∧
    direct env0 jread 100 ty (dflt ty) (PJson.Rd.new, doc) = .ok o2 := by
  refine ⟨abTy, str "{\"a\":{\"x\":1,\"u\":{},\"b\":7},\"b\":3}", .many [.many [.int 1], .int 3],
    .many [.many [.int 1], .int 7], ?_, by simp, isObj_eq (by decide +kernel),
    isObj_eq (by decide +kernel)⟩
  simp only [abTy, xTy, Ty.Ok, Fields.Ok, Fields.Named, Fields.names]
  repeat' apply And.intro
  all_goals first | trivial | (left; decide +kernel)

/-- The same with an exception in place of a wrong object. -/
theorem restore_throws_unknown_scope : ∃ (ty : Ty) (doc : Bytes) (o : Obj),
    loadUnwrap env0 jread 100 ty (dflt ty) (PJson.Rd.new, doc) = .ok o ∧
    direct env0 jread 100 ty (dflt ty) (PJson.Rd.new, doc) = .err :=
  ⟨abTy, str "{\"a\":{\"x\":1,\"u\":{}},\"b\":3}", .many [.many [.int 1], .int 3],
    isObj_eq (by decide +kernel), Res.eq_err (by decide +kernel)⟩

/-- How C06 and C07 are violated, for all formats and documents: if a scope is among what is left of a nested
object, closing the object stops behind that scope, and what follows it is read as if it were fields of the
object around. -/
theorem scope_behind_ends_object {σ : Type} (read : σ → Res (Event × σ)) (fuel : Nat) (n : LNode)
    (a b kids : List Item) (name : Bytes) (t : ScopeTy) (s s' : σ) (hn : n.parsed = false)
    (ha : ∀ i ∈ a, itemScope i = false)
    (he : Emits read s (Item.eventsL (a ++ .scope name t kids :: b) ++ [⟨[], .scopeEnd⟩]) s')
    (hf : (Item.eventsL (a ++ .scope name t kids :: b)).length < fuel) :
    ∃ s2, finish read fuel n s = .ok s2 ∧
      Emits read s2 (Item.eventsL b ++ [⟨[], .scopeEnd⟩]) s' := by
  have h0 : scopesOf a = [] := by
    clear he hf
    induction a with
    | nil => rfl
    | cons i a ih =>
      cases i with
      | val nm v => exact ih fun i hi => ha i (by simp [hi])
      | scope nm t kids => exact absurd (ha _ (List.mem_cons_self ..)) (by simp [itemScope])
  simp only [finish, hn, Bool.false_eq_true, if_false]
  exact skipScope_first read name t kids b a fuel s s' h0 he hf

/-- C07 violated otherwise: what follows the last field is not looked at, so documents that cannot be
loaded are restored. -/
theorem restore_accepts_malformed : ∃ (ty : Ty) (doc : Bytes) (o : Obj),
    loadUnwrap env0 jread 100 ty (dflt ty) (PJson.Rd.new, doc) = .err ∧
    direct env0 jread 100 ty (dflt ty) (PJson.Rd.new, doc) = .ok o :=
  ⟨xTy, str "{\"x\":1,", .many [.int 1], Res.eq_err (by decide +kernel), isObj_eq (by decide +kernel)⟩

/-! ## C42: a violation -/

/-- C42 violated: restoring directly takes the first elements of a longer array; loading first throws. -/
theorem restore_array_too_long : ∃ (ty : Ty) (doc : Bytes) (o : Obj),
    loadUnwrap env0 jread 100 ty (dflt ty) (PJson.Rd.new, doc) = .err ∧
    direct env0 jread 100 ty (dflt ty) (PJson.Rd.new, doc) = .ok o :=
  ⟨.arr 2 (.int .i32), str "[1,2,3]", .many [.int 1, .int 2], Res.eq_err (by decide +kernel),
    isObj_eq (by decide +kernel)⟩

/-! ## C47: null pointers -/

/-- C47 violated for `std::unique_ptr` to a value: null becomes a pointer to 0. -/
theorem null_unique_to_zero : ∃ bs, PJson.writeAll env0.dtoa true PJson.Wr.new
      (rootItem (.ptr .unique (.int .i32)) .null).events = .ok bs ∧
    direct env0 jread 100 (.ptr .unique (.int .i32)) .null (PJson.Rd.new, bs.1) = .ok (.ref (.int 0)) :=
  ⟨_, rfl, isObj_eq (by decide +kernel)⟩

/-- C47 violated for pointers to classes: a null pointer is written as the value `null`, which is not
found among the scopes when the object is restored. -/
theorem null_scope_pointer_throws (k : PtrKind) : ∃ (ty : Ty) (o : Obj) (bs : Bytes × PJson.Wr), WT ty o ∧
    ty = .record .object false (.cons (str "p") false (.ptr k xTy) .nil) ∧ o = .many [.null] ∧
    PJson.writeAll env0.dtoa true PJson.Wr.new (rootItem ty o).events = .ok bs ∧
    direct env0 jread 100 ty (dflt ty) (PJson.Rd.new, bs.1) = .err ∧
    loadUnwrap env0 jread 100 ty (dflt ty) (PJson.Rd.new, bs.1) = .err := by
  refine ⟨_, _, (str "{\"p\":null}", ⟨[], false⟩), by simp [WT, WTL], rfl, rfl, ?_, ?_, ?_⟩ <;> cases k
  · rfl
  · rfl
  · exact Res.eq_err (by decide +kernel)
  · exact Res.eq_err (by decide +kernel)
  · exact Res.eq_err (by decide +kernel)
  · exact Res.eq_err (by decide +kernel)

/-- C47 violated for containers of pointers to classes: the null pointers are gone. -/
theorem null_vector_shrinks (k : PtrKind) : ∃ (o o' : Obj) (bs : Bytes × PJson.Wr),
    o = .many [.null, .ref (.many [.int 1]), .null] ∧ o' = .many [.ref (.many [.int 1])] ∧
    PJson.writeAll env0.dtoa true PJson.Wr.new (rootItem (.vec (.ptr k xTy)) o).events = .ok bs ∧
    direct env0 jread 100 (.vec (.ptr k xTy)) (.many []) (PJson.Rd.new, bs.1) = .ok o' ∧
    loadUnwrap env0 jread 100 (.vec (.ptr k xTy)) (.many []) (PJson.Rd.new, bs.1) = .ok o' := by
  refine ⟨_, _, (str "[null,{\"x\":1},null]", ⟨[], false⟩), rfl, rfl, ?_, ?_, ?_⟩ <;> cases k
  · rfl
  · rfl
  · exact isObj_eq (by decide +kernel)
  · exact isObj_eq (by decide +kernel)
  · exact isObj_eq (by decide +kernel)
  · exact isObj_eq (by decide +kernel)

/-- C47 for raw pointers to values: whichever pointers in a sequence are null, the restored sequence
has the same length, null pointers in the same places, and equal objects behind the others. The same
follows for the other formats and for members of classes from `restore_store_srl` and
`restore_store_json_partial`. Missing: the pointers of the theorems above. -/
theorem null_raw_pointers_partial (m : Mem) (hm : m.Sane) (env : Env) (e : Ty) (xs : List Obj)
    (old : Obj) (hok : e.Ok) (hs : e.isScope = false)
    (hx : ∀ x ∈ xs, x = .null ∨ ∃ o, x = .ref o ∧ Storable e o ∧ o.isNull = false)
    (hold : WT (.vec (.ptr .raw e)) old)
    (hc : PMsgPack.ItemOk (rootItem (.vec (.ptr .raw e)) (.many xs))) :
    ∃ x bs, PMsgPack.writeAll ([], []) (rootItem (.vec (.ptr .raw e)) (.many xs)).events = .ok (x, bs) ∧
      ∀ rest fuel, (rootItem (.vec (.ptr .raw e)) (.many xs)).events.length ≤ fuel →
        direct env (PMsgPack.read m) fuel (.vec (.ptr .raw e)) old ([], bs ++ rest)
          = .ok (.many xs) := by
  obtain ⟨x, bs, h1, h2⟩ := restore_store_msgpack m hm env (.vec (.ptr .raw e)) (.many xs) old hok (by
    simp only [Storable]
    intro x hxm
    rcases hx x hxm with rfl | ⟨o, rfl, h1, h2⟩
    · simp [Storable, hs]
    · simp only [Storable]; exact ⟨h1, fun _ => h2⟩) hold hc
  refine ⟨x, bs, h1, fun rest fuel hf => ?_⟩
  obtain ⟨s, h3⟩ := h2 rest fuel hf
  simp only [direct, h3, Res.ok_bind]

/-- Met by a sequence with nulls in between. -/
example : (∀ x ∈ [Obj.null, .ref (.int 5), .null], x = .null ∨ ∃ o, x = .ref o ∧
      Storable (.int .i32) o ∧ o.isNull = false) ∧
    PMsgPack.ItemOk (rootItem (.vec (.ptr .raw (.int .i32))) (.many [.null, .ref (.int 5), .null])) := by
  constructor
  · intro x hx
    simp at hx
    rcases hx with rfl | rfl | rfl
    · exact .inl rfl
    rotate_left
    · exact .inl rfl
    · exact .inr ⟨_, rfl, by simp [Storable, IntTy.lo, IntTy.hi, IntTy.signed, IntTy.bits], rfl⟩
  · simp only [rootItem, Ty.isScope, if_true, toItem, List.map, PMsgPack.ItemOk, PMsgPack.ItemsOk]
    decide +kernel

end Srl.Props
