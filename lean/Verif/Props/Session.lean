import Verif.Lemmas.Session

/-! # C73: one tree for several documents, and documents in several pieces -/

namespace Srl.Props
open Typed Doc

/-- C73 with the format Srl, for all programs of calls that read (`Allowed`): whatever was done with the tree before, failed
calls included, unpacking and loading give what was stored (`Right`). From a loaded tree any item can be pasted any number of
times. Items of one document can be unpacked in several calls. Missing: items asked for twice without loading, and calls
after the parser is gone; see `asked_again`, `parser_is_gone`. -/
theorem one_tree_srl_partial (m : Mem) (hm : m.Sane) (env : Env) (fuel : Nat) {doc : PSrl.St × Bytes → Option (Fields × List Obj)}
    (hdoc : ∀ s fs xs, doc s = some (fs, xs) → CanStore fuel fs xs ∧ PSrl.ItemOk (rootItem (.record .object false fs) (.many xs)) ∧
      (rootItem (.record .object false fs) (.many xs)).events.length < 2 ^ 64 ∧
      ∃ st bs rest, PSrl.writeAll PSrl.St.init (rootItem (.record .object false fs) (.many xs)).events = .ok (st, bs) ∧
        s = (PSrl.St.init, bs ++ rest)) (left : Nat → Sess (PSrl.St × Bytes)) (t : Sess (PSrl.St × Bytes))
    (cs : List (Call (PSrl.St × Bytes))) (ha : Allowed doc .unknown cs) :
    Right doc .unknown cs (Sess.run env (PSrl.read m) fuel left 0 t cs) := by
  refine step_right env (fun s fs xs hd => ?_) left cs 0 .unknown t trivial ha
  obtain ⟨⟨h1, h2, h3, h4, h5⟩, hc, hsize, st, bs, rest, hw, rfl⟩ := hdoc s fs xs hd
  obtain ⟨st', ⟨bs', h6, h7⟩, -, -⟩ := PSrl.codes_item hm (rootItem (.record .object false fs) (.many xs)) PSrl.St.init hc
    (by simpa [PSrl.St.init] using hsize)
  rw [hw] at h6
  cases h6
  have he := h7 rest
  rw [show PSrl.inObject PSrl.St.init = false from rfl, normItem_eq] at he
  exact ⟨h1, h2, h3, h4, ⟨_, _, keeps_srl, he⟩, h5⟩

/-- C73 with the format MessagePack -/
theorem one_tree_msgpack_partial (m : Mem) (hm : m.Sane) (env : Env) (fuel : Nat)
    {doc : List PMsgPack.RScope × Bytes → Option (Fields × List Obj)}
    (hdoc : ∀ s fs xs, doc s = some (fs, xs) → CanStore fuel fs xs ∧ PMsgPack.ItemOk (rootItem (.record .object false fs) (.many xs)) ∧
      ∃ x bs rest, PMsgPack.writeAll ([], []) (rootItem (.record .object false fs) (.many xs)).events = .ok (x, bs) ∧
        s = ([], bs ++ rest)) (left : Nat → Sess (List PMsgPack.RScope × Bytes)) (t : Sess (List PMsgPack.RScope × Bytes))
    (cs : List (Call (List PMsgPack.RScope × Bytes))) (ha : Allowed doc .unknown cs) :
    Right doc .unknown cs (Sess.run env (PMsgPack.read m) fuel left 0 t cs) := by
  refine step_right env (fun s fs xs hd => ?_) left cs 0 .unknown t trivial ha
  obtain ⟨⟨h1, h2, h3, h4, h5⟩, hc, x, bs, rest, hw, rfl⟩ := hdoc s fs xs hd
  rw [PMsgPack.writeAll_item (rootItem (.record .object false fs) (.many xs)) [] []] at hw
  cases hw
  have he := PMsgPack.emits_item hm _ [] _ rest (by simp [PMsgPack.Open])
    (PMsgPack.writeItem_enc (rootItem (.record .object false fs) (.many xs)) false hc)
  exact ⟨h1, h2, h3, h4, ⟨_, _, keeps_msgpack, he⟩, h5⟩

/-- C73 with JSON, in both layouts. Missing besides is what `restore_store_json_partial` lacks. -/
theorem one_tree_json_partial (m : Mem) (hm : m.Sane) (env : Env) (fuel : Nat) {doc : PJson.Rd × Bytes → Option (Fields × List Obj)}
    (hdoc : ∀ s fs xs, doc s = some (fs, xs) → CanStore fuel fs xs ∧ JsonItem env false (rootItem (.record .object false fs) (.many xs)) ∧
      ∃ compact bs w rest, PJson.writeAll env.dtoa compact PJson.Wr.new (rootItem (.record .object false fs) (.many xs)).events
        = .ok (bs, w) ∧ s = (PJson.Rd.new, bs ++ rest)) (left : Nat → Sess (PJson.Rd × Bytes)) (t : Sess (PJson.Rd × Bytes))
    (cs : List (Call (PJson.Rd × Bytes))) (ha : Allowed doc .unknown cs) :
    Right doc .unknown cs (Sess.run env (PJson.read m env.strtod) fuel left 0 t cs) := by
  refine step_right env (fun s fs xs hd => ?_) left cs 0 .unknown t trivial ha
  obtain ⟨⟨h1, h2, h3, h4, h5⟩, hc, compact, bs, w, rest, hw, rfl⟩ := hdoc s fs xs hd
  have hj := json_item m env (.record .object false fs) (.many xs) [] false (by simpa [Storable] using h3) (by
    simpa only [rootItem, Ty.isScope, if_true] using hc)
  have hroot : rootItem (.record .object false fs) (.many xs) = .scope [] .object (fieldItems fs xs) := by
    simp [rootItem, Ty.isScope, toItem]
  simp only [toItem, PJson.ItemOk] at hj
  obtain ⟨bs', h6, h7⟩ := PJson.emits_doc hm env.strtod env.dtoa compact (nvKept env) [] .object (fieldItems fs xs) hj.2
  rw [← hroot] at h6 h7
  rw [hw] at h6
  cases h6
  obtain ⟨r', h8⟩ := h7 rest PJson.Rd.new rfl
  exact ⟨h1, h2, h3, h4, ⟨_, _, keeps_json env, h8⟩, h5⟩

/-! ## Cases -/

private def sessEnv : Env := ⟨fun _ => none, fun _ => []⟩
private def sessRead : PJson.Rd × Bytes → Res (Event × PJson.Rd × Bytes) := PJson.read ⟨some 0, 4096⟩ sessEnv.strtod
private def sessText : Bytes := str "{\"a\":{\"x\":1},\"v\":[2,3],\"b\":true}"
private def sessDoc (s : PJson.Rd × Bytes) : Option (Fields × List Obj) :=
  if s.2 = sessText then some (packFields, packObjs) else none

/-- The document is unpacked in three pieces, after something else was done with the tree; then it is loaded, and `a` and `b`
are pasted twice. -/
private def sessCalls : List (Call (PJson.Rd × Bytes)) :=
  [.other, .unpack (PJson.Rd.new, sessText) true [(str "v", .obj (.vec (.int .i8)) (.many []))],
   .paste [(str "b", .union)], .paste [(str "a", .obj xTy (.many [.int 0]))],
   .load (PJson.Rd.new, sessText) false, .paste [(str "b", .obj .bool (.bool false)), (str "a", .union), (str "b", .union)],
   .paste [(str "a", .obj xTy (.many [.int 0]))]]

/-- The text is what is written, and the calls are covered by the theorem. -/
example : (match PJson.writeAll sessEnv.dtoa true PJson.Wr.new (rootItem (.record .object false packFields) (.many packObjs)).events with
      | .ok (bs, _) => decide (bs = sessText)
      | _ => false) = true ∧ Allowed sessDoc .unknown sessCalls := by
  refine ⟨by decide +kernel, ?_⟩
  have hv : Request packFields packObjs (str "v", .obj (.vec (.int .i8)) (.many [])) :=
    ⟨by simp [WT], _, .inr (.inl ⟨rfl, rfl, rfl⟩)⟩
  have hb : Request packFields packObjs (str "b", .union) := by
    show str "b" ∈ packFields.names
    decide +kernel
  have hb' : Request packFields packObjs (str "b", .obj .bool (.bool false)) := ⟨by simp [WT], _, .inr (.inr (.inl ⟨rfl, rfl, rfl⟩))⟩
  have ha : Request packFields packObjs (str "a", .obj xTy (.many [.int 0])) :=
    ⟨by simp [xTy, WT, WTL, IntTy.lo, IntTy.hi, IntTy.signed, IntTy.bits], _, .inl ⟨rfl, rfl, rfl⟩⟩
  have ha' : Request packFields packObjs (str "a", .union) := by
    show str "a" ∈ packFields.names
    decide +kernel
  have hdoc : sessDoc (PJson.Rd.new, sessText) = some (packFields, packObjs) := by simp [sessDoc]
  have ht : Timely packFields.names false [] [(str "v", .obj (.vec (.int .i8)) (.many [])), (str "b", .union),
      (str "a", .obj xTy (.many [.int 0]))] :=
    ⟨by simp, by simp, fun _ => ⟨str "b", by simp, .inr ⟨[str "a", str "v"], [], rfl, by simp⟩⟩, trivial⟩
  refine ⟨trivial, ⟨_, _, hdoc, by simpa using hv, by simp, ⟨by simp, trivial⟩⟩, ?_⟩
  simp only [Holding.next, hdoc, if_true]
  refine ⟨⟨by simp only [List.cons_append, List.nil_append, List.forall_mem_cons]; exact ⟨hv, hb, by simp⟩, by decide +kernel,
    by simp, by simp, trivial⟩, ⟨by
      simp only [Holding.next, List.cons_append, List.nil_append, List.forall_mem_cons]; exact ⟨hv, hb, ha, by simp⟩,
      by decide +kernel, ht⟩, ⟨_, _, hdoc⟩, ?_⟩
  simp only [Holding.next, hdoc]
  refine ⟨?_, ?_, trivial⟩
  · simp only [List.forall_mem_cons]; exact ⟨hb', ha', hb, by simp⟩
  · simp only [List.forall_mem_cons]; exact ⟨ha, by simp⟩

/-- Which of the calls returned -/
private def returned (rs : List (Res (List Got))) : List (Option Nat) := rs.map fun r => match r with
  | .ok gs => some gs.length
  | .err => some 1000
  | _ => none

private def sessLeft : Nat → Sess (PJson.Rd × Bytes) := fun _ => ⟨.fresh .object, none⟩

example : returned (Sess.run sessEnv sessRead 100 sessLeft 0 (sessLeft 0) sessCalls) =
    [some 1000, some 1, some 1, some 1, some 0, some 3, some 1] := by decide +kernel

/-- C73 does not hold: an item is asked for again after unpacking it; while it is found again in a loaded tree. -/
theorem asked_again : returned (Sess.run sessEnv sessRead 100 sessLeft 0 (sessLeft 0)
      [.unpack (PJson.Rd.new, sessText) true [(str "b", .obj .bool (.bool false))], .paste [(str "b", .obj .bool (.bool false))]]) =
      [some 1, some 1000] ∧
    returned (Sess.run sessEnv sessRead 100 sessLeft 0 (sessLeft 0)
      [.load (PJson.Rd.new, sessText) true, .paste [(str "b", .obj .bool (.bool false))], .paste [(str "b", .obj .bool (.bool false))]]) =
      [some 0, some 1, some 1] := by decide +kernel

/-- C73 does not hold: a further item is asked for after the parser, a temporary object, is gone. -/
theorem parser_is_gone : returned (Sess.run sessEnv sessRead 100 sessLeft 0 (sessLeft 0)
      [.unpack (PJson.Rd.new, sessText) false [(str "v", .obj (.vec (.int .i8)) (.many []))], .paste [(str "b", .obj .bool (.bool false))]]) =
      [some 1, none] := by decide +kernel

/-- What `tree.root()` holds after unpacking `v`: not the document, but what was passed. -/
theorem unpacked_root_is_rest : (match Sess.step sessEnv sessRead 100 (sessLeft 0)
      (.unpack (PJson.Rd.new, sessText) true [(str "v", .obj (.vec (.int .i8)) (.many []))]) with
    | .ok (_, t) => (t.root.values.length, t.root.nodes.map (·.1))
    | _ => (100, [])) = (0, [str "a"]) := by decide +kernel

end Srl.Props
