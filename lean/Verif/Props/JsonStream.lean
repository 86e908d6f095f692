import Verif.Lemmas.JsonInStream
import Verif.Props.StreamJson
import Verif.Props.JsonObject

/-! # C79 and C80 with streams -/

namespace Srl.Props
open Rfc8259 Typed Doc PJson Srl.Stream

private def mem0 : Mem := ⟨some 0, 0⟩
private theorem mem0_sane : mem0.Sane := by show 0 < 2 ^ 63; decide
private theorem mem0_harmless : Harmless mem0 := ⟨0, rfl, by decide, by decide⟩

/-- C79 with a stream: what it says of texts in memory holds of texts in streams, wherever the buffer has to be
refilled and whatever it held before, if numbers have at most 800 characters and at most 200 tabs and line ends follow
each other. What is missing: longer ones (`json_stream_long_literal`, `json_stream_blank_lines`), and what C79 says is
missing. -/
theorem json_input_stream_partial (strtod : Bytes → Option UInt64) (hr : Rfc8259.Rounds strtod) (t : Bytes) (x : Json)
    (h : DocumentOf false (fun t neg v => Readable t neg v ∧ t.length ≤ 800) t x) (hx : x.isScope = true)
    (hd : x.depth ≤ 129) (hruns : Runs t) (cap : Nat) (hc : t.length + 1024 ≤ cap) (old : SIn) :
    ∃ root, PJson.loadS cap strtod old t = .ok root ∧ NodeRead x root.node := by
  have h' : DocumentOf false Readable t x := documentOf_imp (fun _ _ _ h => h.1) h
  obtain ⟨root, r', ws, h1, h2, h3⟩ := json_input_partial mem0 mem0_sane strtod hr t x h' hx hd Rd.new []
  rw [List.append_nil] at h2
  refine ⟨root, json_stream_accepts_partial mem0 mem0_sane mem0_harmless strtod cap old t hc
    (document_below mem0_sane strtod (fun t neg v hn => ?_) h hx hruns _) root ?_, h3⟩
  · obtain ⟨w, h4, -⟩ := number_read strtod hr hn.1
    exact ⟨hn.1.1, hn.2, w, h4⟩
  · show value (loadWith mem0 strtod Rd.new t) = _
    rw [h2]
    rfl

/-- C80 with a stream, likewise -/
theorem json_object_stream_partial (env : Env) (hr : Rfc8259.Rounds env.strtod) (ty : Ty) (hok : ty.Ok)
    (hs : ty.isScope = true) (old o' : Obj) (t : Bytes) (x : Json)
    (h : DocumentOf false (fun t neg v => ReadableExactly t neg v ∧ t.length ≤ 800) t x)
    (hd : x.depth ≤ 129) (ho : ObjFor ty old o' x) (hruns : Runs t) (cap : Nat) (hc : t.length + 1024 ≤ cap) (s : SIn)
    (fuel : Nat) (hf : t.length < fuel) :
    ∃ o, ObjFor ty old o x ∧
      (∃ root, PJson.loadS cap env.strtod s t = .ok root ∧ unwrap env ty old root = .ok o) ∧
      (WT ty old → Known ty x → opened cap s t (fun s => direct env (PJson.readS cap env.strtod) fuel ty old (Rd.new, s)) =
        .ok o) := by
  have h' : DocumentOf false ReadableExactly t x := documentOf_imp (fun _ _ _ h => h.1) h
  have hx : x.isScope = true := (objFor_kind ty _ _ _ ho).trans hs
  have hl : LiteralsShort env.strtod mem0 t :=
    document_below mem0_sane env.strtod (fun t neg v hn => by
      obtain ⟨w, h4, -⟩ := number_read env.strtod hr hn.1.1
      exact ⟨hn.1.1.1, hn.2, w, h4⟩) h hx hruns _
  obtain ⟨o, h1, h2, h3⟩ := json_object_partial mem0 mem0_sane env hr ty hok hs old o' t [] x h' hd ho Rd.new fuel
    (by rw [List.append_nil]; exact hf)
  rw [List.append_nil] at h2 h3
  refine ⟨o, h1, ?_, fun hw hk => json_stream_restores_partial mem0 mem0_sane mem0_harmless env cap s t hc hl fuel ty old o
    (h3 hw hk)⟩
  have hmono := load_mono (PJson.read mem0 env.strtod) (t.length + 1) fuel (Rd.new, t)
    (loadWith_nofuel env.strtod mem0_sane Rd.new t) (by omega)
  unfold loadUnwrap at h2
  rw [show (Rd.new.clear, t) = (Rd.new, t) from rfl, hmono, Res.bind_eq_ok] at h2
  obtain ⟨⟨root, st⟩, h4, h5⟩ := h2
  refine ⟨root, json_stream_accepts_partial mem0 mem0_sane mem0_harmless env.strtod cap s t hc hl root ?_, h5⟩
  show value (Doc.load (PJson.read mem0 env.strtod) (t.length + 1) (Rd.new, t)) = _
  rw [h4]
  rfl

/-! ### Violation and example -/

private def blankLines : Bytes := str "[" ++ List.replicate 1022 32 ++ str "5" ++ List.replicate 1023 10 ++ str ",7]"

@[irreducible] private def st0 : SIn := ⟨[91], 0, 1, some 0, false, blankLines.drop 1⟩
@[irreducible] private def st1 : SIn :=
  ⟨[91] ++ (List.replicate 1022 32 ++ [53]), 1, 1024, none, false, List.replicate 1023 10 ++ str ",7]"⟩
@[irreducible] private def st2 : SIn :=
  ⟨[91] ++ (List.replicate 1022 32 ++ [53]), 1023, 1024, some 1023, false, List.replicate 1023 10 ++ str ",7]"⟩
@[irreducible] private def st3 : SIn :=
  ⟨(List.replicate 32 32 ++ [53]) ++ (List.replicate 1022 10 ++ [10]), 33, 1056, none, false, str ",7]"⟩
@[irreducible] private def st4 : SIn :=
  ⟨(List.replicate 32 32 ++ [53]) ++ (List.replicate 1022 10 ++ [10]), 1055, 1056, none, false, str ",7]"⟩
@[irreducible] private def st5 : SIn :=
  ⟨List.replicate 32 10 ++ [10] ++ str ",7]" ++ (List.replicate 1019 10 ++ [10]), 33, 36, some 32, false, []⟩

private theorem st1_buf : st1.buf = [91] ++ (List.replicate 1022 32 ++ [53]) := by unfold st1; rfl
private theorem st1_pos : st1.pos = ([91] : Bytes).length := by unfold st1; rfl
private theorem st3_buf : st3.buf = (List.replicate 32 32 ++ [53]) ++ (List.replicate 1022 10 ++ [10]) := by unfold st3; rfl
private theorem st3_pos : st3.pos = (List.replicate 32 32 ++ [53] : Bytes).length := by unfold st3; rfl

private theorem go0 : SIn.set (2 ^ 33) SIn.new blankLines = .ok st0 := by decide +kernel
private theorem go1 : Stream.move (2 ^ 33) 1 st0 = .ok st1 := by decide +kernel
private theorem go2 : Stream.move (2 ^ 33) 1 st2 = .ok st3 := by decide +kernel
private theorem go4 : Stream.move (2 ^ 33) 1 st4 = .ok st5 := by decide +kernel

private theorem go6 (strtod : Bytes → Option UInt64) : readS (2 ^ 33) strtod (⟨[.array], 0, 0⟩, st1) = .ub := by
  have h1 : moveUntilS (2 ^ 33) (fun b => !isBlank b) (1022 + (1028 + 1)) st1 = .ok (0 + 1022, { st2 with anchor := none }) :=
    run_then (x := 32) (pre := [91]) (post := [53]) (by decide) st1_buf st1_pos (by decide +kernel) (by decide +kernel)
      (stop_here (b := 53) (by decide +kernel) (by decide))
  have h2 : moveUntilS (2 ^ 33) isLitEnd (1022 + (4 + 1 + 1) + 1) st2 = .ok (0 + 1 + 1022 + 1, st5) :=
    step_then (b := 53) (by decide +kernel) (by decide) go2
      (run_then (x := 10) (pre := List.replicate 32 32 ++ [53]) (post := [10]) (by decide) st3_buf st3_pos
        (by decide +kernel) (s' := st4) (by decide +kernel)
        (step_then (b := 10) (by decide +kernel) (by decide) go4 (stop_here (b := 44) (by decide +kernel) (by decide))))
  exact readS_lost (c := 53) (by decide) (by decide +kernel) h1 (by decide +kernel) (by decide +kernel) (by decide +kernel) h2 (by decide +kernel)

/-- Negation of C79 with a stream: line ends behind a number make the library look for the number in front of the
buffer. -/
theorem json_stream_blank_lines : ∃ t : Bytes,
    DocumentOf false (fun t neg v => Readable t neg v ∧ t.length ≤ 800) t (.arr [.num false 5, .num false 7]) ∧
    ∀ strtod, PJson.loadS (2 ^ 33) strtod SIn.new t = .ub := by
  refine ⟨blankLines, ?_, fun strtod => loadS_second go0 (readS_open (by decide +kernel) go1) rfl (go6 strtod)⟩
  have n5 : Readable [53] false 5 ∧ ([53] : Bytes).length ≤ 800 := by
    have := (digit_readable 53 (by decide)).1
    exact ⟨by simpa using this, by decide⟩
  have n7 : Readable [55] false 7 ∧ ([55] : Bytes).length ≤ 800 := by
    have := (digit_readable 55 (by decide)).1
    exact ⟨by simpa using this, by decide⟩
  have w1 : Ws (List.replicate 1022 32) := fun b hb => .inl (List.mem_replicate.mp hb).2
  have w2 : Ws (List.replicate 1023 10) := fun b hb => .inr (.inr (.inl (List.mem_replicate.mp hb).2))
  have w0 : Ws [] := fun b hb => by cases hb
  have a := Text.arr (uni := false) (N := fun t neg v => Readable t neg v ∧ t.length ≤ 800) _ _
    (.more (List.replicate 1022 32) _ (List.replicate 1023 10) _ _ _ w1 (.num _ _ _ n5) w2
      (.one [] _ [] _ w0 (.num _ _ _ n7) w0))
  exact ⟨[], _, [], by decide +kernel, w0, a, w0⟩

/-- Texts of up to 200 bytes have no longer runs. -/
theorem runs_small {t : Bytes} (h : t.length ≤ 200) : Runs t := by
  rintro x w y rfl -
  simp only [List.length_append] at h
  omega

/-- Not vacuous, for `json_input_stream_partial` and, with vectors of integers, `json_object_stream_partial` -/
example : ∃ (t : Bytes) (x : Json) (o : Obj), t = str "[5 ,\n7]" ∧
    DocumentOf false (fun t neg v => ReadableExactly t neg v ∧ t.length ≤ 800) t x ∧
    x.isScope = true ∧ x.depth ≤ 129 ∧ Runs t ∧ ObjFor (.vec (.int .i32)) (.many []) o x ∧
    WT (.vec (.int .i32)) (.many []) ∧ Known (.vec (.int .i32)) x ∧ o = .many [.int (5 : ℕ), .int (7 : ℕ)] := by
  have n5 : ReadableExactly [53] false (5 : ℕ) ∧ ([53] : Bytes).length ≤ 800 :=
    ⟨digit_readable 53 (by decide), by decide⟩
  have n7 : ReadableExactly [55] false (7 : ℕ) ∧ ([55] : Bytes).length ≤ 800 :=
    ⟨digit_readable 55 (by decide), by decide⟩
  have w0 : Ws [] := fun b hb => by cases hb
  have w1 : Ws [32] := by unfold Ws; decide +kernel
  have w2 : Ws [10] := by unfold Ws; decide +kernel
  have a := Text.arr (uni := false) (N := fun t neg v => ReadableExactly t neg v ∧ t.length ≤ 800) _ _
    (.more [] _ [32] _ _ _ w0 (.num _ _ _ n5) w1 (.one [10] _ [] _ w2 (.num _ _ _ n7) w0))
  refine ⟨_, _, _, rfl, ⟨[], _, [], by decide +kernel, w0, a, w0⟩, rfl, by decide, runs_small (by decide +kernel),
    ⟨_, _, rfl, rfl, .cons _ _ _ _ ⟨_, _, _, rfl, rfl, by simp [signed], by decide, by decide⟩
      (.cons _ _ _ _ ⟨_, _, _, rfl, rfl, by simp [signed], by decide, by decide⟩ .nil)⟩, ?_, ?_, rfl⟩
  · simp [WT]
  · simp [Known]

end Srl.Props
