import Verif.Lemmas.SharedSafe
import Verif.Props.Safe
import Verif.Props.Shared

/-! # C55 and C56 – restoring shared pointers from untrusted documents -/

namespace Srl.Props
open Shared
open Typed (Env Obj ValuesOk Reached reads_of_emits)

private theorem both {σ : Type} {cfg : HTable.Cfg Nat} {env : Env} {C : Nat → GTy} {c0 : Nat} {bin : Bool}
    {read : σ → Res (Event × σ)} {s0 : σ} {P : σ → Prop} {μ : σ → Nat} (hC : (C c0).OneClass c0 bin)
    (hv : Clean env bin read s0) (hin : ∀ s, Gives (read s) fun y => TokIn y.1.tok)
    (hr : ∀ s, P s → Sound (read s) fun x => P x.2 ∧ μ x.2 < μ s) (ty : GTy) (old : Obj)
    (hs : ty.isScope = true) (h1 : ty.OneClass c0 bin) (hw : WT ty old) (hp : P s0) (fuel : Nat)
    (hf : μ s0 ≤ fuel) :
    Defined (restore cfg env C read fuel ty old s0) ∧ Defined (loadUnwrap cfg env C read fuel ty old s0) := by
  have hR := reads_of_emits (values_of_clean hv hin) hr
  have hp' : P s0 ∧ Reached read s0 s0 := ⟨hp, [], .nil _⟩
  exact ⟨.of (restore_good hR hC fuel ty old s0 hs h1 hw hp' hf),
    .of (loadUnwrap_good hR hC fuel ty old s0 hs h1 hw hp' hf)⟩

/-- C55 and C56 for MessagePack, as far as they hold: graphs of shared objects, all pointers to one class,
are restored from any bytes without poisonous values, or an exception is thrown, also if keys are missing,
repeated, used before their objects or inside them. Missing: pointers to more than one class (see
`shared_type_confusion`). -/
theorem msgpack_shared_safe_partial (cfg : HTable.Cfg Nat) (env : Env) (C : Nat → GTy) (c0 : Nat) (bin : Bool)
    (hC : (C c0).OneClass c0 bin) (m : Mem) (hm : m.Sane) (s : Bytes) (ty : GTy) (hs : ty.isScope = true)
    (h1 : ty.OneClass c0 bin) (old : Obj) (hw : WT ty old) (hv : Clean env bin (PMsgPack.read m) ([], s)) (fuel : Nat)
    (hf : 2 * s.length ≤ fuel) :
    Defined (restore cfg env C (PMsgPack.read m) fuel ty old ([], s)) ∧
      Defined (loadUnwrap cfg env C (PMsgPack.read m) fuel ty old ([], s)) :=
  both (P := fun _ => True) (μ := PMsgPack.measure) hC hv (PMsgPack.read_in m) (msgpack_sound hm) ty old hs h1 hw
    trivial fuel (by simpa [PMsgPack.measure] using hf)

/-- The same for the Srl format. -/
theorem srl_shared_safe_partial (cfg : HTable.Cfg Nat) (env : Env) (C : Nat → GTy) (c0 : Nat) (bin : Bool)
    (hC : (C c0).OneClass c0 bin) (m : Mem) (hm : m.Sane) (hp : m.past ≠ none) (s : Bytes)
    (hn : ∀ pre w post, s = pre ++ w ++ post → w.length = 9 → ∃ b ∈ w, b.toNat < 128) (ty : GTy)
    (hs : ty.isScope = true) (h1 : ty.OneClass c0 bin) (old : Obj) (hw : WT ty old)
    (hv : Clean env bin (PSrl.read m) (PSrl.St.init, s)) (fuel : Nat) (hf : s.length ≤ fuel) :
    Defined (restore cfg env C (PSrl.read m) fuel ty old (PSrl.St.init, s)) ∧
      Defined (loadUnwrap cfg env C (PSrl.read m) fuel ty old (PSrl.St.init, s)) :=
  both (P := fun x => NoRun x.2) (μ := fun x => x.2.length) hC hv (PSrl.read_in m) (srl_sound hm hp) ty old hs h1
    hw (show NoRun s from hn) fuel hf

/-- The same for JSON. -/
theorem json_shared_safe_partial (cfg : HTable.Cfg Nat) (env : Env) (C : Nat → GTy) (c0 : Nat) (bin : Bool)
    (hC : (C c0).OneClass c0 bin) (m : Mem) (hm : m.Sane) (hp : m.past ≠ none) (s : Bytes)
    (hu : ∀ a d1 d2 d3 d4 b, s = a ++ 92 :: 117 :: d1 :: d2 :: d3 :: d4 :: b → d3 = 48 ∧ d4 < 56)
    (r : PJson.Rd) (ty : GTy) (hs : ty.isScope = true) (h1 : ty.OneClass c0 bin) (old : Obj) (hw : WT ty old)
    (hv : Clean env bin (PJson.read m env.strtod) (r.clear, s)) (fuel : Nat) (hf : s.length ≤ fuel) :
    Defined (restore cfg env C (PJson.read m env.strtod) fuel ty old (r.clear, s)) ∧
      Defined (loadUnwrap cfg env C (PJson.read m env.strtod) fuel ty old (r.clear, s)) :=
  both (P := fun x => PJson.UOk x.2) (μ := fun x => x.2.length) hC hv (PJson.read_in m _)
    (json_sound hm hp env.strtod) ty old hs h1 hw (show PJson.UOk s from hu) fuel hf

/-! A case: a list of nodes with a member `next`. The document uses key 0 for three objects, one inside the
other; the innermost has no object at all. -/

private def nodes : Nat → GTy
  | _ => .record (.cons (str "next") (.shared false 0) .nil)

private def doc : Bytes :=
  str "[{\"srl_shared_key\":0,\"srl_shared_value\":{\"next\":{\"srl_shared_key\":0,\"srl_shared_value\":{\"next\":{\"srl_shared_key\":0}}}}}]"

example : (nodes 0).OneClass 0 false := by simp [nodes, GTy.OneClass, GFields.OneClass]

example : (GTy.vec (.shared false 0)).OneClass 0 false ∧ WT (GTy.vec (.shared false 0)) (.many []) := by
  simp [GTy.OneClass, GTy.isScope, WT]

example : Clean ⟨fun _ => none, fun _ => []⟩ false (PJson.read ⟨some 0, 4096⟩ fun _ => none) (PJson.Rd.new.clear, doc) :=
  clean_of_run (env := ⟨fun _ => none, fun _ => []⟩) 40 (by decide +kernel)

example : (restore ⟨fun k => k.toUInt64, fun n => n⟩ ⟨fun _ => none, fun _ => []⟩ nodes
    (PJson.read ⟨some 0, 4096⟩ fun _ => none) 200 (.vec (.shared false 0)) (.many []) (PJson.Rd.new.clear, doc)).isErr = true := by
  decide +kernel

end Srl.Props
