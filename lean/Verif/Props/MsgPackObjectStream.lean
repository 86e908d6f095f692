import Verif.Props.MsgPackObject
import Verif.Props.Versions
import Verif.Props.Stream

/-! # C81 and C82 with streams (MessagePack) -/

namespace Srl.Props
open Typed Doc Srl.Stream

private def mem0 : Mem := ⟨some 0, 0⟩
private theorem mem0_sane : mem0.Sane := by show 0 < 2 ^ 63; decide
private theorem mem0_past : mem0.past ≠ none := by decide

private theorem loaded {env : Env} {ty : Ty} {old o : Obj} {b : Bytes} {fuel : Nat} (hf : 2 * b.length < fuel)
    (h : loadUnwrap env (PMsgPack.read mem0) fuel ty old ([], b) = .ok o) (cap : Nat) (hc : b.length + 2 ^ 32 ≤ cap)
    (s : SIn) : ∃ root, PMsgPack.loadS cap s b = .ok root ∧ unwrap env ty old root = .ok o := by
  unfold loadUnwrap at h
  rw [msgpack_load_budget mem0 b fuel hf, Res.bind_eq_ok] at h
  obtain ⟨⟨root, st⟩, h1, h2⟩ := h
  refine ⟨root, ?_, h2⟩
  rw [msgpack_stream_load mem0 mem0_sane mem0_past cap s b hc, h1]
  rfl

/-- C82 with a stream: wherever the buffer has to be refilled and whatever it held before -/
theorem msgpack_object_stream_partial (env : Env) (ty : Ty) (hok : ty.Ok) (hs : ty.isScope = true) (old o : Obj) (i : Item)
    (b : Bytes) (h : MsgPack.Format false false i b) (hd : i.depth ≤ 129) (ho : ItemFor ty old o i) (cap : Nat)
    (hc : b.length + 2 ^ 32 ≤ cap) (s : SIn) :
    (∃ root, PMsgPack.loadS cap s b = .ok root ∧ unwrap env ty old root = .ok o) ∧
      (WT ty old → KnownItem ty i → ∀ fuel, i.events.length ≤ fuel →
        opened cap s b (fun s => direct env (PMsgPack.readS cap) fuel ty old ([], s)) = .ok o) := by
  have key := fun fuel hf => msgpack_object_partial mem0 mem0_sane env ty hok hs old o i b [] h hd ho fuel hf
  simp only [List.append_nil] at key
  refine ⟨loaded (fuel := max (2 * b.length + 1) i.events.length) (by omega) (key _ (by omega)).1 cap hc s,
    fun hw hk fuel hf => ?_⟩
  exact (msgpack_stream_restore mem0 mem0_sane mem0_past cap s b hc env fuel ty old).trans ((key fuel hf).2 hw hk)

/-- C81 with MessagePack in a stream -/
theorem version_msgpack_stream_partial (env : Env) (ty' ty : Ty) (old o' o : Obj) (hok' : ty'.Ok) (hok : ty.Ok)
    (ho : Storable ty o) (h : ReadAs ty' old o' ty o) (hc : PMsgPack.ItemOk (rootItem ty o))
    (hd : (rootItem ty o).depth ≤ 129) :
    ∃ x b, PMsgPack.writeAll ([], []) (rootItem ty o).events = .ok (x, b) ∧
      ∀ cap, b.length + 2 ^ 32 ≤ cap → ∀ s,
        (∃ root, PMsgPack.loadS cap s b = .ok root ∧ unwrap env ty' old root = .ok o') ∧
        (WT ty' old → Placed ty' ty o → ∀ fuel, (rootItem ty o).events.length ≤ fuel →
          opened cap s b (fun s => direct env (PMsgPack.readS cap) fuel ty' old ([], s)) = .ok o') := by
  obtain ⟨x, b, h1, h2⟩ := version_msgpack_partial mem0 mem0_sane env ty' ty old o' o hok' hok ho h hc hd
  have key := fun fuel hf => h2 [] fuel hf
  simp only [List.append_nil] at key
  refine ⟨x, b, h1, fun cap hcap s => ⟨loaded (fuel := max (2 * b.length + 1) (rootItem ty o).events.length) (by omega)
    (key _ (by omega)).1 cap hcap s, fun hw hp fuel hf => ?_⟩⟩
  exact (msgpack_stream_restore mem0 mem0_sane mem0_past cap s b hcap env fuel ty' old).trans ((key fuel hf).2 hw hp)

/-- The hypotheses are met by the examples of C81 and C82. -/
example : (∃ root, PMsgPack.loadS (2 ^ 33) SIn.new mixedBytes = .ok root ∧ unwrap env0 mixedTy mixedOld root = .ok mixedObj) ∧
    opened (2 ^ 33) SIn.new mixedBytes (fun s => direct env0 (PMsgPack.readS (2 ^ 33)) 100 mixedTy mixedOld ([], s)) =
      .ok mixedObj := by
  obtain ⟨h1, h2, h3, h4, h5, h6, h7, h8⟩ := msgpack_object_example
  obtain ⟨g1, g2⟩ := msgpack_object_stream_partial env0 _ h1 h2 _ _ _ _ h4 h5 h6 (2 ^ 33) (by decide) SIn.new
  exact ⟨g1, g2 h3 h7 100 h8⟩

end Srl.Props
