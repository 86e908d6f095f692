import Verif.Lemmas.OutFail
import Verif.Props.Out

/-! # Streams that fail: C71 -/

namespace Srl.Props

open Heap (Hp Sys)
open Out (Op)
open OutFail (Behaviour Dev toDevice)

private theorem run_sim {β : Behaviour} {plain : Prop} {pre : Bytes} (sys : Sys) : ∀ (ops : List Op) {f : OutFail.FSt} {o o' : Out.St}
    {ts ts' : List Out.Ticket}, OutFail.Sim β plain pre f o → (plain → ∀ op ∈ ops, ¬ IsFill op) →
    Out.run sys o ts ops = .ok (o', ts') →
    (OutFail.run β sys f ts ops = .err ∧ β.throws = true ∧ ¬((∀ i, β.fate i = none) ∧ (β.seekable = true ∨ plain))) ∨
      ∃ g, OutFail.run β sys f ts ops = .ok (g, ts') ∧ OutFail.Sim β plain pre g o'
  | [], f, o, o', ts, ts', h, _, he => by
    cases he
    exact .inr ⟨f, rfl, h⟩
  | .write b :: ops, f, o, o', ts, ts', h, hp, he => by
    simp only [Out.run, Res.bind_eq_ok] at he
    obtain ⟨o1, h1, h2⟩ := he
    rcases OutFail.write_sim h h1 with ⟨h3, h4⟩ | ⟨g, h3, h4⟩
    · exact .inl ⟨by simp only [OutFail.run, h3]; rfl, h4⟩
    · simp only [OutFail.run, h3, Res.ok_bind]
      exact run_sim sys ops h4 (fun x op ho => hp x op (List.mem_cons_of_mem _ ho)) h2
  | .reserve n :: ops, f, o, o', ts, ts', h, hp, he => by
    simp only [Out.run, Res.bind_eq_ok] at he
    obtain ⟨⟨o1, t⟩, h1, h2⟩ := he
    rcases OutFail.reserve_sim h h1 with ⟨h3, h4⟩ | ⟨g, h3, h4⟩
    · exact .inl ⟨by simp only [OutFail.run, h3]; rfl, h4⟩
    · simp only [OutFail.run, h3, Res.ok_bind]
      exact run_sim sys ops h4 (fun x op ho => hp x op (List.mem_cons_of_mem _ ho)) h2
  | .fill i k b :: ops, f, o, o', ts, ts', h, hp, he => by
    simp only [Out.run] at he
    simp only [OutFail.run]
    split at he
    · cases he
    · rename_i t ht
      simp only [Res.bind_eq_ok] at he
      obtain ⟨o1, h1, h2⟩ := he
      simp only [ht]
      rcases OutFail.fill_sim (fun x => hp x (.fill i k b) (by simp) trivial) h h1 with ⟨h3, h4⟩ | ⟨g, h3, h4⟩
      · exact .inl ⟨by simp only [h3]; rfl, h4⟩
      · simp only [h3, Res.ok_bind]
        exact run_sim sys ops h4 (fun x op ho => hp x op (List.mem_cons_of_mem _ ho)) h2

private theorem device_sim {β : Behaviour} {sys : Sys} {h : Hp} {live : List (Nat × Nat)} (u : Use sys h live) (ops : List Op)
    {res : Bytes} (he : expected [] [] ops = some res) (hs : ∀ op ∈ ops, OpSmall op) (pre : Bytes)
    (hf : pre = [] ∨ ∀ op ∈ ops, ¬ IsFill op) :
    (toDevice β sys h ops ⟨⟨pre, pre.length⟩, true, 0⟩ = .err ∧ β.throws = true ∧
      ¬((∀ i, β.fate i = none) ∧ (β.seekable = true ∨ ∀ op ∈ ops, ¬ IsFill op))) ∨
    ∃ d, toDevice β sys h ops ⟨⟨pre, pre.length⟩, true, 0⟩ = .ok d ∧
      (d.good = true → d.stream.contents = pre ++ res) ∧ (β.throws = true → d.good = true) ∧
      ((∀ i, β.fate i = none) → (β.seekable = true ∨ ∀ op ∈ ops, ¬ IsFill op) → d.good = true) ∧
      ((∀ op ∈ ops, ¬ IsFill op) → ∃ k, d.stream.contents = pre ++ res.take k) := by
  have hp := out_stream_partial u ops he hs pre hf
  simp only [Out.toStream, Res.bind_eq_ok] at hp
  obtain ⟨⟨o, ts⟩, h1, o', h2, h3⟩ := hp
  have ho := Res.ok.inj h3
  have h0 : OutFail.Sim β (∀ op ∈ ops, ¬ IsFill op) pre (Out.set h true ⟨[], 0⟩, ⟨⟨pre, pre.length⟩, true, 0⟩)
      (Out.set h true ⟨pre, pre.length⟩) :=
    ⟨rfl, rfl, fun _ => rfl, fun _ => rfl, fun _ _ => rfl, fun _ => rfl,
      fun _ => ⟨pre.length, Nat.le_refl _, by simp [Out.set]⟩, fun _ => ⟨[], by simp [Out.set]⟩⟩
  simp only [toDevice]
  rcases run_sim sys ops h0 (fun x => x) h1 with ⟨h3, h4⟩ | ⟨g, h3, h4⟩
  · exact .inl ⟨by simp only [h3]; rfl, h4⟩
  simp only [h3, Res.ok_bind]
  rcases OutFail.writeToStream_sim h4 h2 with ⟨h5, h6⟩ | ⟨⟨p, d⟩, h5, h6⟩
  · exact .inl ⟨by simp only [h5]; rfl, h6⟩
  simp only [h5, Res.ok_bind]
  have hpart : (∀ op ∈ ops, ¬ IsFill op) → ∃ k, d.stream.contents = pre ++ res.take k := by
    intro hpl
    obtain ⟨k, hk, hc⟩ := h6.part hpl
    refine ⟨k - pre.length, ?_⟩
    simp only [ho] at hc
    rw [hc, List.take_append, List.take_of_length_le hk]
  cases hg : d.good with
  | false =>
    refine .inr ⟨d, by simp [Dev.flush, hg], by simp [hg], fun x => ?_, fun x y => ?_, hpart⟩
    · simpa [hg] using h6.thrown x
    · simpa [hg] using h6.fine x y
  | true =>
    have hst := h6.good hg
    simp only [ho] at hst
    cases hfa : (β.fate d.count).isSome with
    | false => exact .inr ⟨{ d with good := true, count := d.count + 1 }, by simp [Dev.flush, hg, hfa], fun _ => by rw [hst], fun _ => rfl, fun _ _ => rfl, hpart⟩
    | true =>
      have hn : (∀ i, β.fate i = none) → False := by
        intro hx
        rw [hx] at hfa
        cases hfa
      cases ht : β.throws with
      | true => exact .inl ⟨by simp [Dev.flush, hg, hfa, OutFail.fail, ht], rfl, fun x => hn x.1⟩
      | false =>
        exact .inr ⟨{ d with good := false, count := d.count + 1 }, by simp [Dev.flush, hg, hfa, OutFail.fail, ht], by simp, by simp, fun x _ => (hn x).elim, hpart⟩

/-! ## C71: a document that was not delivered to a stream can be told -/

/-- C71: whatever operations a stream fails in, an output of any sequence of operations ends, and if the stream is good
afterwards it holds what was written; one that throws when it fails makes the call throw otherwise. Missing: streams that
do not throw, where the call returns as if nothing had happened (`failed_output_returns`), and streams with contents to
which reservations are written (C27). -/
theorem failing_streams_partial {sys : Sys} {h : Hp} {live : List (Nat × Nat)} (u : Use sys h live) (ops : List Op) {res : Bytes}
    (he : expected [] [] ops = some res) (hs : ∀ op ∈ ops, OpSmall op) (pre : Bytes)
    (hf : pre = [] ∨ ∀ op ∈ ops, ¬ IsFill op) (β : Behaviour) :
    (β.throws = false → ∃ d, toDevice β sys h ops ⟨⟨pre, pre.length⟩, true, 0⟩ = .ok d ∧
      (d.good = true → d.stream.contents = pre ++ res)) ∧
    (β.throws = true → toDevice β sys h ops ⟨⟨pre, pre.length⟩, true, 0⟩ = .err ∨
      ∃ d, toDevice β sys h ops ⟨⟨pre, pre.length⟩, true, 0⟩ = .ok d ∧ d.stream.contents = pre ++ res) := by
  rcases device_sim (β := β) u ops he hs pre hf with ⟨h1, h2, -⟩ | ⟨d, h1, h2, h3, -⟩
  · exact ⟨fun h => by simp [h] at h2, fun _ => .inl h1⟩
  · exact ⟨fun _ => ⟨d, h1, h2⟩, fun h => .inr ⟨d, h1, h2 (h3 h)⟩⟩

/-- C71: a stream that does not fail is good afterwards. If it cannot be moved in, that is so for output without filled
reservations, as the formats Srl and JSON have it. -/
theorem working_streams_partial {sys : Sys} {h : Hp} {live : List (Nat × Nat)} (u : Use sys h live) (ops : List Op) {res : Bytes}
    (he : expected [] [] ops = some res) (hs : ∀ op ∈ ops, OpSmall op) (pre : Bytes)
    (hf : pre = [] ∨ ∀ op ∈ ops, ¬ IsFill op) (β : Behaviour) (hβ : ∀ i, β.fate i = none)
    (hm : β.seekable = true ∨ ∀ op ∈ ops, ¬ IsFill op) :
    ∃ d, toDevice β sys h ops ⟨⟨pre, pre.length⟩, true, 0⟩ = .ok d ∧ d.good = true ∧ d.stream.contents = pre ++ res := by
  rcases device_sim (β := β) u ops he hs pre hf with ⟨h1, -, h2⟩ | ⟨d, h1, h2, -, h3, -⟩
  · exact absurd ⟨hβ, hm⟩ h2
  · exact ⟨d, h1, h3 hβ hm, h2 (h3 hβ hm)⟩

/-- C71: without filled reservations, what a stream that fails has received is the beginning of the document, and nothing
of what it held before is changed. -/
theorem failed_stream_holds_beginning {sys : Sys} {h : Hp} {live : List (Nat × Nat)} (u : Use sys h live) (ops : List Op)
    {res : Bytes} (he : expected [] [] ops = some res) (hs : ∀ op ∈ ops, OpSmall op) (pre : Bytes)
    (hf : ∀ op ∈ ops, ¬ IsFill op) (β : Behaviour) {d : Dev}
    (hd : toDevice β sys h ops ⟨⟨pre, pre.length⟩, true, 0⟩ = .ok d) : ∃ k, d.stream.contents = pre ++ res.take k := by
  rcases device_sim (β := β) u ops he hs pre (.inr hf) with ⟨h1, -⟩ | ⟨d', h1, -, -, -, h2⟩
  · rw [h1] at hd
    cases hd
  · rw [h1] at hd
    cases hd
    exact h2 hf

/-- C71 does not hold: a stream takes three bytes of five and fails; the call returns. -/
theorem failed_output_returns : (match toDevice ⟨fun i => if i = 0 then some 3 else none, true, false⟩ bump (Heap.new fun _ => 0)
      [.write [1, 2], .write [3, 4, 5]] ⟨⟨[], 0⟩, true, 0⟩ with
    | .ok d => some (d.good, d.stream.contents)
    | _ => none) = some (false, [1, 2, 3]) := by decide +kernel

/-- C71 does not hold: a pipe that takes everything. Filling a reservation that was passed on (as MessagePack does with
the size of a scope) makes it fail, and the rest of the document is lost. -/
theorem output_to_pipe_is_lost : (match toDevice ⟨fun _ => none, false, false⟩ bump (Heap.new fun _ => 0)
      [.reserve 1, .write (List.replicate 1024 1), .fill 0 0 [7], .write [8]] ⟨⟨[], 0⟩, true, 0⟩ with
    | .ok d => some (d.good, d.stream.contents)
    | _ => none) = some (false, [0]) := by decide +kernel

/-! ## Examples -/

/-- A stream that fails in its second operation, after two bytes; the hypotheses on the output are shown in
`Props/Out.lean`. -/
example : (toDevice ⟨fun i => if i = 1 then some 2 else none, true, true⟩ bump (Heap.new fun _ => 0)
    [.write (List.replicate 1024 1), .write [3, 4, 5]] ⟨⟨[], 0⟩, true, 0⟩).isErr = true := by decide +kernel

example : (match toDevice ⟨fun _ => none, false, true⟩ bump (Heap.new fun _ => 0) [.write [1, 2], .write [3]]
      ⟨⟨[9], 1⟩, true, 0⟩ with
    | .ok d => some (d.good, d.stream.contents)
    | _ => none) = some (true, [9, 1, 2, 3]) := by decide +kernel

end Srl.Props
