import Verif.Lemmas.Versions
import Verif.Props.Typed

/-! # C81: what one version of a program has stored is read by another -/

namespace Srl.Props
open Typed Doc

/-- C81 with the format Srl: an object stored as a `ty` is, restored as a `ty'` into any object `old`, what it is for
a program with `ty'` (`ReadAs`), if the document is loaded first; and also while it is read, if `ty'` has members for
all objects and sequences in it (`Placed`; see `version_lost`). What follows the document does not matter. -/
theorem version_srl_partial (m : Mem) (hm : m.Sane) (env : Env) (ty' ty : Ty) (old o' o : Obj) (hok' : ty'.Ok)
    (hok : ty.Ok) (ho : Storable ty o) (h : ReadAs ty' old o' ty o) (hc : PSrl.ItemOk (rootItem ty o))
    (hsize : (rootItem ty o).events.length < 2 ^ 64) (hd : (rootItem ty o).depth ≤ 129) :
    ∃ st bs, PSrl.writeAll PSrl.St.init (rootItem ty o).events = .ok (st, bs) ∧
      ∀ rest fuel, (rootItem ty o).events.length ≤ fuel →
        loadUnwrap env (PSrl.read m) fuel ty' old (PSrl.St.init, bs ++ rest) = .ok o' ∧
        (WT ty' old → Placed ty' ty o →
          direct env (PSrl.read m) fuel ty' old (PSrl.St.init, bs ++ rest) = .ok o') := by
  obtain ⟨st, ⟨bs, h1, h2⟩, -, -⟩ := PSrl.codes_item hm (rootItem ty o) PSrl.St.init hc
    (by simpa [PSrl.St.init] using hsize)
  refine ⟨st, bs, h1, fun rest fuel hf => ?_⟩
  have he := h2 rest
  rw [show PSrl.inObject PSrl.St.init = false from rfl, normItem_eq] at he
  exact as_restored keeps_srl env _ fuel ty' ty old o' o _ _ hok' hok ho h he (by unfold maxDepth; exact hd) hf

/-- C81 with MessagePack -/
theorem version_msgpack_partial (m : Mem) (hm : m.Sane) (env : Env) (ty' ty : Ty) (old o' o : Obj) (hok' : ty'.Ok)
    (hok : ty.Ok) (ho : Storable ty o) (h : ReadAs ty' old o' ty o) (hc : PMsgPack.ItemOk (rootItem ty o))
    (hd : (rootItem ty o).depth ≤ 129) :
    ∃ x bs, PMsgPack.writeAll ([], []) (rootItem ty o).events = .ok (x, bs) ∧
      ∀ rest fuel, (rootItem ty o).events.length ≤ fuel →
        loadUnwrap env (PMsgPack.read m) fuel ty' old ([], bs ++ rest) = .ok o' ∧
        (WT ty' old → Placed ty' ty o →
          direct env (PMsgPack.read m) fuel ty' old ([], bs ++ rest) = .ok o') := by
  have h1 := PMsgPack.writeAll_item (rootItem ty o) [] []
  refine ⟨_, _, h1, fun rest fuel hf => ?_⟩
  have he := PMsgPack.emits_item hm _ [] _ rest (by simp [PMsgPack.Open])
    (PMsgPack.writeItem_enc (rootItem ty o) false hc)
  exact as_restored keeps_msgpack env _ fuel ty' ty old o' o _ _ hok' hok ho h he (by unfold maxDepth; exact hd) hf

/-- C81 with JSON, in both layouts. Missing besides: what C04 says about JSON (`JsonItem`). -/
theorem version_json_partial (m : Mem) (hm : m.Sane) (env : Env) (compact : Bool) (ty' ty : Ty) (old o' o : Obj)
    (hok' : ty'.Ok) (hok : ty.Ok) (ho : Storable ty o) (h : ReadAs ty' old o' ty o)
    (hc : JsonItem env false (rootItem ty o)) (hd : (rootItem ty o).depth ≤ 129) :
    ∃ bs w, PJson.writeAll env.dtoa compact PJson.Wr.new (rootItem ty o).events = .ok (bs, w) ∧
      ∀ rest fuel, (rootItem ty o).events.length ≤ fuel →
        loadUnwrap env (PJson.read m env.strtod) fuel ty' old (PJson.Rd.new, bs ++ rest) = .ok o' ∧
        (WT ty' old → Placed ty' ty o →
          direct env (PJson.read m env.strtod) fuel ty' old (PJson.Rd.new, bs ++ rest) = .ok o') := by
  obtain ⟨t, kids, h1, h2⟩ := json_kids m env ty o ho hc
  obtain ⟨bs, h3, h4⟩ := PJson.emits_doc hm env.strtod env.dtoa compact (nvKept env) [] t kids h2
  rw [h1]
  refine ⟨bs, _, h3, fun rest fuel hf => ?_⟩
  obtain ⟨r', h5⟩ := h4 rest PJson.Rd.new rfl
  rw [← h1] at h5 hf
  exact as_restored (keeps_json env) env _ fuel ty' ty old o' o _ _ hok' hok ho h h5 (by unfold maxDepth; exact hd) hf

/-- C81: a later version of the type – members lost, optional members new, others in another order, wider numbers,
sequences in place of arrays, pointers in place of objects – reads every object stored by the earlier one, and while
reading if no member that is an object or a sequence has been lost. -/
theorem version_later (ty' ty : Ty) (old o : Obj) (hok' : ty'.Ok) (hok : ty.Ok) (h : Newer ty' ty) (ho : Storable ty o)
    (hw : WT ty' old) : (∃ o', ReadAs ty' old o' ty o) ∧ (LosesValues ty' ty → Placed ty' ty o) :=
  ⟨newer_reads ty' ty old o hok' hok h ho hw, fun hl => newer_placed ty' ty o hok h hl ho⟩

/-- C81: there is one object that is meant. -/
theorem version_once (ty' ty : Ty) (old o o1 o2 : Obj) (hok' : ty'.Ok) (hok : ty.Ok) (ho : Storable ty o)
    (h1 : ReadAs ty' old o1 ty o) (h2 : ReadAs ty' old o2 ty o) : o1 = o2 := by
  have d1 := desc_as (env := env0) keeps_srl ty' old o1 ty o [] false hok' hok ho h1
  have d2 := desc_as (env := env0) keeps_srl ty' old o2 ty o [] false hok' hok ho h2
  cases hs : ty'.isScope with
  | true =>
    obtain ⟨n, t, kids, he⟩ := scope_of_kind ((desc_kind ty' _ _ _ d1).trans hs)
    rw [he] at d1 d2
    have g1 := node_desc ty' _ _ n t kids hok' d1
    rw [node_desc ty' _ _ n t kids hok' d2] at g1
    exact (Res.ok.inj g1).symm
  | false =>
    obtain ⟨n, w, h3, h4⟩ := desc_val ty' _ _ _ hs hok' d1
    obtain ⟨n', w', h5, h6⟩ := desc_val ty' _ _ _ hs hok' d2
    rw [h3] at h5
    obtain ⟨-, rfl⟩ := Item.val.inj h5
    rw [h4] at h6
    exact Res.ok.inj h6

/-- C81: for the same version it is the object that has been stored. -/
theorem version_same (ty : Ty) (old o o' : Obj) (hok : ty.Ok) (ho : Storable ty o) (hw : WT ty old)
    (h : ReadAs ty old o' ty o) : o' = o := by
  have d := desc_as (env := env0) keeps_srl ty old o' ty o [] false hok hok ho h
  cases hs : ty.isScope with
  | true =>
    rw [norm_scope _ ho hs] at d
    have g := node_desc ty _ _ _ _ _ hok d
    rw [eager keeps_srl env0 ty o old hok hs ho hw] at g
    exact (Res.ok.inj g).symm
  | false =>
    obtain ⟨v, h1, h2⟩ := stored_value ty o ho hs
    obtain ⟨n, w, h3, h4⟩ := desc_val ty _ _ _ hs hok d
    rw [h1, Norm.item] at h3
    obtain ⟨-, rfl⟩ := Item.val.inj h3
    rw [(h2 _ keeps_srl).2] at h4
    exact (Res.ok.inj h4).symm

/-! ## Violations and examples -/

/-- A class in an earlier version: a number and a list -/
def beforeTy : Ty := .record .object false (.cons (str "x") false (.int .i32) (.cons (str "u") false (.vec (.int .i32)) .nil))

def twoObj : Obj := .many [.many [.int 1, .many []], .many [.int 2, .many []]]

private theorem two_storable : Storable (.vec beforeTy) twoObj := by
  simp [beforeTy, twoObj, Storable, StorableL, Ty.isScope, IntTy.lo, IntTy.hi, IntTy.signed, IntTy.bits]

/-- what has been written, and what is restored from it -/
private def wrote {α : Type} (r : Res (α × Bytes)) (f : Bytes → Res Obj) (o : Obj) : Bool :=
  match r with
  | .ok (_, bs) => isObj (f bs) o
  | _ => false

private theorem wrote_eq {α : Type} {r : Res (α × Bytes)} {f : Bytes → Res Obj} {o : Obj} (h : wrote r f o = true) :
    ∃ x bs, r = .ok (x, bs) ∧ f bs = .ok o := by
  unfold wrote at h
  split at h
  · exact ⟨_, _, rfl, isObj_eq h⟩
  · cases h

private def wroteText {α : Type} (r : Res (Bytes × α)) (t : Bytes) : Bool :=
  match r with
  | .ok (bs, _) => bs == t
  | _ => false

private theorem wroteText_eq {α : Type} {r : Res (Bytes × α)} {t : Bytes} (h : wroteText r t = true) :
    ∃ w, r = .ok (t, w) := by
  unfold wroteText at h
  split at h
  · exact ⟨_, by rw [eq_of_beq h]⟩
  · cases h

/-- Negation of C81 for restoring while reading, in all formats: when a class has lost a member that is a list, a
sequence of such objects loses its elements behind the first one. -/
theorem version_lost : Newer (.vec xTy) (.vec beforeTy) ∧ Storable (.vec beforeTy) twoObj ∧
    ReadAs (.vec xTy) (.many []) (.many [.many [.int 1], .many [.int 2]]) (.vec beforeTy) twoObj ∧
    (∃ st bs, PSrl.writeAll PSrl.St.init (rootItem (.vec beforeTy) twoObj).events = .ok (st, bs) ∧
      direct env0 (PSrl.read ⟨some 0, 4096⟩) 100 (.vec xTy) (.many []) (PSrl.St.init, bs) = .ok (.many [.many [.int 1]])) ∧
    (∃ x bs, PMsgPack.writeAll ([], []) (rootItem (.vec beforeTy) twoObj).events = .ok (x, bs) ∧
      direct env0 (PMsgPack.read ⟨some 0, 4096⟩) 100 (.vec xTy) (.many []) ([], bs) = .ok (.many [.many [.int 1]])) ∧
    ∃ w, PJson.writeAll env0.dtoa true PJson.Wr.new (rootItem (.vec beforeTy) twoObj).events
        = .ok (str "[{\"x\":1,\"u\":[]},{\"x\":2,\"u\":[]}]", w) ∧
      direct env0 jread 100 (.vec xTy) (.many []) (PJson.Rd.new, str "[{\"x\":1,\"u\":[]},{\"x\":2,\"u\":[]}]")
        = .ok (.many [.many [.int 1]]) := by
  have hx : ∀ k : Int, -(2 ^ 31) ≤ k → k ≤ 2 ^ 31 - 1 → ReadAs xTy (.many [.int 0]) (.many [.int k]) beforeTy
      (.many [.int k, .many []]) := fun k h1 h2 =>
    ⟨false, _, _, [.int 0], [.int k], .same _ _, rfl, rfl, .int 0, [], .int k, [], rfl, rfl,
      .inl ⟨_, _, .here _ _ _ _ _ _, k, .i32, rfl, .same _ _, h1, h2⟩, rfl, rfl⟩
  refine ⟨⟨beforeTy, .inl rfl, false, _, rfl, .inl ⟨_, .inl ⟨rfl, rfl⟩, .i32, rfl, by decide, by decide⟩, trivial⟩,
    two_storable, ⟨beforeTy, _, _, .inl (.same _ _), rfl,
    .cons _ _ _ _ (hx 1 (by decide) (by decide)) (.cons _ _ _ _ (hx 2 (by decide) (by decide)) .nil)⟩, ?_, ?_, ?_⟩
  · exact wrote_eq (f := fun bs => direct env0 (PSrl.read ⟨some 0, 4096⟩) 100 (.vec xTy) (.many []) (PSrl.St.init, bs))
      (by decide +kernel)
  · exact wrote_eq (f := fun bs => direct env0 (PMsgPack.read ⟨some 0, 4096⟩) 100 (.vec xTy) (.many []) ([], bs))
      (by decide +kernel)
  · obtain ⟨w, h⟩ := wroteText_eq (r := PJson.writeAll env0.dtoa true PJson.Wr.new
      (rootItem (.vec beforeTy) twoObj).events) (t := str "[{\"x\":1,\"u\":[]},{\"x\":2,\"u\":[]}]") (by decide +kernel)
    exact ⟨w, h, isObj_eq (by decide +kernel)⟩

/-- A class before … -/
def firstTy : Ty := .record .object false (.cons (str "id") false (.int .i16) (.cons (str "tag") false .str
  (.cons (str "at") false (.arr 2 (.int .i32)) .nil)))

/-- … and after it has lost `tag`, keeps a sequence in place of the array, in front, a pointer to a wider `id`, and has
a new member -/
def laterTy : Ty := .record .object false (.cons (str "at") false (.vec (.int .i32)) (.cons (str "note") true .str
  (.cons (str "id") false (.ptr .unique (.int .i64)) .nil)))

def firstObj : Obj := .many [.int (-7), .str (str "t"), .many [.int 1, .int 2]]
def laterOld : Obj := .many [.many [], .str (str "none"), .null]
def laterObj : Obj := .many [.many [.int 1, .int 2], .str (str "none"), .ref (.int (-7))]

private theorem later_ok : laterTy.Ok ∧ firstTy.Ok := by
  constructor <;> simp only [laterTy, firstTy, Ty.Ok, Fields.Ok, Fields.Named, Fields.names] <;> repeat' apply And.intro
  all_goals first | trivial | (left; decide +kernel)

/-- All hypotheses of `version_later` and of the theorems on formats are met, and both ways give what is meant. -/
theorem version_example : laterTy.Ok ∧ firstTy.Ok ∧ Storable firstTy firstObj ∧ WT laterTy laterOld ∧
    Newer laterTy firstTy ∧ LosesValues laterTy firstTy ∧ ReadAs laterTy laterOld laterObj firstTy firstObj ∧
    PSrl.ItemOk (rootItem firstTy firstObj) ∧ PMsgPack.ItemOk (rootItem firstTy firstObj) ∧
    JsonItem env0 false (rootItem firstTy firstObj) ∧ (rootItem firstTy firstObj).depth ≤ 129 := by
  refine ⟨later_ok.1, later_ok.2, ?_, ?_, ?_, ?_, ?_, ?_, ?_, ?_, ?_⟩
  · simp [firstTy, firstObj, Storable, StorableL, Ty.isScope, IntTy.lo, IntTy.hi, IntTy.signed, IntTy.bits]
  · simp [laterTy, laterOld, WT, WTL]
  · exact ⟨false, _, rfl, .inl ⟨.arr 2 (.int .i32), .inr (.inr (.inl ⟨rfl, rfl⟩)), .int .i32, .inr ⟨2, rfl⟩, .i32, rfl,
      by decide, by decide⟩, .inr ⟨rfl, by decide +kernel⟩,
      .inl ⟨.int .i16, .inl ⟨rfl, rfl⟩, .inr ⟨by decide, .i16, rfl, by decide, by decide⟩⟩, trivial⟩
  · intro st fs hfs name t ht hsc
    obtain ⟨-, -, rfl⟩ := Ty.record.inj hfs
    rcases ht with ⟨rfl, rfl⟩ | ⟨rfl, rfl⟩ | ⟨rfl, rfl⟩ | h
    · cases hsc
    · cases hsc
    · exact .inl ⟨rfl, rfl, fun e _ => trivial⟩
    · exact h.elim
  · have hi : ∀ k : Int, IntTy.i32.lo ≤ k → k ≤ IntTy.i32.hi → ReadAs (.int .i32) (dflt (.int .i32)) (.int k) (.int .i32) (.int k) :=
      fun k h1 h2 => ⟨k, .i32, rfl, .same _ _, h1, h2⟩
    refine ⟨false, _, _, _, _, .same _ _, rfl, rfl, _, _, _, _, rfl, rfl,
      .inl ⟨.arr 2 (.int .i32), _, .there _ _ _ _ _ _ _ _ _ (.there _ _ _ _ _ _ _ _ _ (.here _ _ _ _ _ _)), .int .i32, _, _,
        .inr ⟨2, .same _ _⟩, rfl,
        .cons _ _ _ _ (hi 1 (by decide) (by decide)) (.cons _ _ _ _ (hi 2 (by decide) (by decide)) .nil)⟩, ?_⟩
    refine ⟨_, _, _, _, rfl, rfl, .inr ⟨rfl, by decide +kernel, rfl⟩, _, _, _, _, rfl, rfl,
      .inl ⟨.int .i16, _, .here _ _ _ _ _ _, .inr ⟨.int (-7), rfl, fun h => (by cases h), -7, .i16, rfl, .same _ _,
        by decide, by decide⟩⟩, rfl, rfl⟩
  · simp only [rootItem, firstTy, firstObj, Ty.isScope, if_true, toItem, fieldItems, List.map, PSrl.ItemOk, PSrl.ItemsOk]
    decide +kernel
  · simp only [rootItem, firstTy, firstObj, Ty.isScope, if_true, toItem, fieldItems, List.map, PMsgPack.ItemOk, PMsgPack.ItemsOk]
    decide +kernel
  · simp only [rootItem, firstTy, firstObj, Ty.isScope, if_true, toItem, fieldItems, List.map, JsonItem, JsonItems, PJson.NameOk, JsonVal]
    repeat' apply And.intro
    all_goals decide +kernel
  · decide +kernel

/-- A class with a float and an integer before … -/
def numsTy : Ty := .record .object false (.cons (str "w") false .float (.cons (str "n") false (.int .i32) .nil))
/-- … and after both have become doubles -/
def widerTy : Ty := .record .object false (.cons (str "n") false .double (.cons (str "w") false .double .nil))

/-- 0.5 and 3 -/
def numsObj : Obj := .many [.float 0x3F000000, .int 3]
def widerObj : Obj := .many [.double 0x4008000000000000, .double 0x3FE0000000000000]

/-- C81: numbers that are floating point numbers with more bits in the later version are the same numbers. -/
theorem version_numbers : Newer widerTy numsTy ∧ Storable numsTy numsObj ∧
    ReadAs widerTy (.many [.double 0, .double 0]) widerObj numsTy numsObj ∧
    (∃ st bs, PSrl.writeAll PSrl.St.init (rootItem numsTy numsObj).events = .ok (st, bs) ∧
      direct env0 (PSrl.read ⟨some 0, 4096⟩) 100 widerTy (.many [.double 0, .double 0]) (PSrl.St.init, bs) = .ok widerObj) ∧
    ∃ x bs, PMsgPack.writeAll ([], []) (rootItem numsTy numsObj).events = .ok (x, bs) ∧
      direct env0 (PMsgPack.read ⟨some 0, 4096⟩) 100 widerTy (.many [.double 0, .double 0]) ([], bs) = .ok widerObj := by
  refine ⟨⟨false, _, rfl, .inl ⟨.int .i32, .inr (.inl ⟨rfl, rfl⟩), .inr (.inr ⟨.i32, rfl, by decide⟩)⟩,
    .inl ⟨.float, .inl ⟨rfl, rfl⟩, .inr (.inl rfl)⟩, trivial⟩, ?_, ?_, ?_, ?_⟩
  · simp only [numsTy, numsObj, Storable, StorableL]
    refine ⟨by unfold Quiet; decide +kernel, ?_⟩
    decide +kernel
  · exact ⟨false, _, _, _, _, .same _ _, rfl, rfl, _, _, _, _, rfl, rfl,
      .inl ⟨.int .i32, .int 3, .there _ _ _ _ _ _ _ _ _ (.here _ _ _ _ _ _), _, rfl,
        .inr (.inr ⟨3, .i32, .same _ _, by decide +kernel, by decide⟩)⟩, _, _, _, _, rfl, rfl,
      .inl ⟨.float, .float 0x3F000000, .here _ _ _ _ _ _, _, rfl, .inr (.inl ⟨_, .same _ _, by decide +kernel⟩)⟩, rfl, rfl⟩
  · exact wrote_eq (f := fun bs => direct env0 (PSrl.read ⟨some 0, 4096⟩) 100 widerTy (.many [.double 0, .double 0])
      (PSrl.St.init, bs)) (by decide +kernel)
  · exact wrote_eq (f := fun bs => direct env0 (PMsgPack.read ⟨some 0, 4096⟩) 100 widerTy (.many [.double 0, .double 0])
      ([], bs)) (by decide +kernel)

/-- What the theorems give for it, for JSON -/
example : ∃ bs w, PJson.writeAll env0.dtoa true PJson.Wr.new (rootItem firstTy firstObj).events = .ok (bs, w) ∧
    direct env0 jread 100 laterTy laterOld (PJson.Rd.new, bs) = .ok laterObj := by
  obtain ⟨h1, h2, h3, h4, h5, h6, h7, -, -, h8, h9⟩ := version_example
  obtain ⟨bs, w, h10, h11⟩ := version_json_partial ⟨some 0, 4096⟩ (by show 4096 < 2 ^ 63; decide) env0 true _ _ _ _ _ h1 h2 h3 h7 h8 h9
  refine ⟨bs, w, h10, ?_⟩
  have := (h11 [] 100 (by decide +kernel)).2 h4 ((version_later _ _ _ _ h1 h2 h5 h3 h4).2 h6)
  rwa [List.append_nil] at this

end Srl.Props
