import Verif.Lemmas.StreamJsonDoc
import Verif.Lemmas.StreamRun
import Verif.Props.Stream
import Verif.Props.PJson

/-! # C28 – streams and memory, JSON -/

namespace Srl.Props
open Srl.Stream Doc PJson

private theorem json_open (cap : Nat) (old : SIn) (src : Bytes) (hc : src.length + 1024 ≤ cap) :
    ∃ s, SIn.set cap old src = .ok s ∧
      ∃ c, Inv s c src ∧ Ahead s ∧ c.length + src.length + 1024 ≤ cap := by
  obtain ⟨s, h1, h2, h3⟩ := set_inv cap old src (by omega)
  exact ⟨s, h1, [], h2, h3, by simpa using hc⟩

private theorem opened_json {α : Type} {cap : Nat} {old : SIn} {src : Bytes} {f : SIn → Res α} {s : SIn}
    (h : SIn.set cap old src = .ok s) : opened cap old src f = f s := by
  unfold opened
  rw [h]

private theorem rel_value_json {α σ τ : Type} {E : Lax} {R : σ → τ → Prop} {r : Res (α × σ)} {r' : Res (α × τ)}
    (h : Rel E (With R) r r') : Rel E Eq (value r) (value r') :=
  h.bind fun _ _ h => h.1

private theorem rel_ok_json {α : Type} {a : α} {r r' : Res α} (h : Rel ⟨True, True⟩ Eq r r') (hr : r = .ok a) :
    r' = .ok a := by
  subst hr
  cases r' with
  | ok b => cases h; rfl
  | _ => exact h.elim

/-- Specification: no literal that the reader comes across has 1024 bytes or more before its end. -/
def LiteralsShort (strtod : Bytes → Option UInt64) (m : Mem) (src : Bytes) : Prop :=
  LitsBelow strtod m ⟨none, false⟩ Rd.new src

private theorem mem_takeWhile_holds {p : UInt8 → Bool} {b : UInt8} : ∀ {l : Bytes}, b ∈ l.takeWhile p → p b = true
  | [], h => by cases h
  | a :: l, h => by
    rw [List.takeWhile_cons] at h
    split at h
    · rcases List.mem_cons.mp h with rfl | h
      · assumption
      · exact mem_takeWhile_holds h
    · cases h

/-- It suffices that there are never 1024 bytes in a row without an end (comma, space, bracket or brace), … -/
theorem literalsShort_dense (strtod : Bytes → Option UInt64) (m : Mem) (hm : m.Sane) (src : Bytes)
    (h : ∀ x w y, src = x ++ w ++ y → w.length = 1024 → ∃ b ∈ w, isLitEnd b = true) :
    LiteralsShort strtod m src := by
  intro st' rd' r' hr b t hs _ hn
  obtain ⟨x, hx⟩ := reach_suffix strtod hm hr
  obtain ⟨y, hy⟩ := skip_suffix hs
  apply Decidable.byContradiction
  intro hlt
  have hle : 1024 ≤ ((b :: t).takeWhile (fun b => !isLitEnd b)).length := Nat.le_of_not_lt hlt
  obtain ⟨c, hc, he⟩ := h (x ++ y) (((b :: t).takeWhile (fun b => !isLitEnd b)).take 1024) ((b :: t).drop 1024) (by
    have h1 : ((b :: t).takeWhile (fun b => !isLitEnd b)).take 1024 = (b :: t).take 1024 := by
      obtain ⟨z, hz⟩ : ((b :: t).takeWhile (fun b => !isLitEnd b)) <+: (b :: t) := List.takeWhile_prefix _
      conv => rhs; rw [← hz]
      rw [List.take_append_of_le_length hle]
    rw [h1, List.append_assoc, List.take_append_drop, hx, hy, List.append_assoc])
    (by rw [List.length_take]; omega)
  have := mem_takeWhile_holds (List.mem_of_mem_take hc)
  simp [he] at this

/-- … and for sources of up to 1024 bytes it always holds. -/
theorem literalsShort_small (strtod : Bytes → Option UInt64) (m : Mem) (hm : m.Sane) (src : Bytes)
    (h : src.length ≤ 1024) : LiteralsShort strtod m src :=
  litsBelow_small strtod hm h

/-- C28 for JSON: what can be loaded from memory can be loaded from a stream, with the same result – wherever
the buffer has to be refilled, whatever it held before. Literals must be shorter than 1024 bytes (see
`json_stream_long_literal`); the byte behind the source in memory, which the reader looks at, must not be a
bracket or brace. -/
theorem json_stream_accepts_partial (m : Mem) (hm : m.Sane) (hp : Harmless m) (strtod : Bytes → Option UInt64)
    (cap : Nat) (old : SIn) (src : Bytes) (hc : src.length + 1024 ≤ cap) (hl : LiteralsShort strtod m src) (r : Root)
    (h : value (PJson.load m strtod src) = .ok r) : PJson.loadS cap strtod old src = .ok r := by
  obtain ⟨s, h1, h2⟩ := json_open cap old src hc
  unfold PJson.loadS
  rw [opened_json h1]
  have hmono := load_mono (PJson.read m strtod) (src.length + 1) (src.length + 2) (Rd.new, src)
    (loadWith_nofuel strtod hm Rd.new src) (by omega)
  have h3 : value (Doc.load (PJson.read m strtod) (src.length + 2) (Rd.new, src)) = .ok r := by
    rw [hmono]; exact h
  exact rel_ok_json (rel_value_json (load_rel (reading_stream_accepts (cap := cap) strtod hm hp trivial) _ (Rd.new, src)
    (Rd.new, s) ⟨rfl, h2, hl⟩)) h3

/-- … what can be restored from memory can be restored from a stream … -/
theorem json_stream_restores_partial (m : Mem) (hm : m.Sane) (hp : Harmless m) (env : Typed.Env)
    (cap : Nat) (old : SIn) (src : Bytes) (hc : src.length + 1024 ≤ cap) (hl : LiteralsShort env.strtod m src)
    (fuel : Nat) (ty : Typed.Ty) (o o' : Typed.Obj)
    (h : value (Typed.restore env (PJson.read m env.strtod) fuel ty o (Rd.new, src)) = .ok o') :
    opened cap old src (fun s => value (Typed.restore env (PJson.readS cap env.strtod) fuel ty o (Rd.new, s))) =
      .ok o' := by
  obtain ⟨s, h1, h2⟩ := json_open cap old src hc
  rw [opened_json h1]
  exact rel_ok_json (rel_value_json (Typed.restore_rel env (reading_stream_accepts (cap := cap) env.strtod hm hp trivial)
    _ _ _ (Rd.new, src) (Rd.new, s) ⟨rfl, h2, hl⟩)) h

/-- … also with shared pointers. -/
theorem json_stream_shared_partial (m : Mem) (hm : m.Sane) (hp : Harmless m) (cfg : HTable.Cfg Nat) (env : Typed.Env)
    (C : Nat → Shared.GTy) (cap : Nat) (old : SIn) (src : Bytes) (hc : src.length + 1024 ≤ cap)
    (hl : LiteralsShort env.strtod m src) (fuel : Nat) (ty : Shared.GTy) (o : Typed.Obj)
    (x : Typed.Obj × List (Nat × Typed.Obj))
    (h : Shared.restore cfg env C (PJson.read m env.strtod) fuel ty o (Rd.new, src) = .ok x) :
    opened cap old src (fun s => Shared.restore cfg env C (PJson.readS cap env.strtod) fuel ty o (Rd.new, s)) =
      .ok x := by
  obtain ⟨s, h1, h2⟩ := json_open cap old src hc
  rw [opened_json h1]
  exact rel_ok_json (Shared.restore_rel cfg env C (reading_stream_accepts (cap := cap) env.strtod hm hp trivial)
    _ _ _ (Rd.new, src) (Rd.new, s) ⟨rfl, h2, hl⟩) h

/-- Specification: as `LiteralsShort`, and a literal without an end, at the end of the source, has at most 33
bytes. -/
def LiteralsEnd (strtod : Bytes → Option UInt64) (m : Mem) (src : Bytes) : Prop :=
  ShortLits strtod m ⟨none, false⟩ Rd.new src

/-- So it is for sources of up to 1024 bytes with a comma, space, bracket or brace among the last 34. -/
theorem literalsEnd_small (strtod : Bytes → Option UInt64) (m : Mem) (hm : m.Sane) (x y : Bytes) (e : UInt8)
    (h : (x ++ e :: y).length ≤ 1024) (he : isLitEnd e = true) (hy : y.length ≤ 33) :
    LiteralsEnd strtod m (x ++ e :: y) :=
  shortLits_small strtod hm h he hy

/-- C28 for JSON, documents that are accepted or not: then loading from a stream gives what loading from memory
gives, be it a tree, an error or undefined behaviour. -/
theorem json_stream_load_partial (m : Mem) (hm : m.Sane) (hp : Harmless m) (strtod : Bytes → Option UInt64)
    (cap : Nat) (old : SIn) (src : Bytes) (hc : src.length + 1024 ≤ cap) (hl : LiteralsEnd strtod m src) :
    PJson.loadS cap strtod old src = value (PJson.load m strtod src) := by
  obtain ⟨s, h1, h2⟩ := json_open cap old src hc
  unfold PJson.loadS
  rw [opened_json h1]
  have halike : Alike (JSide strtod cap m) (JOver cap) (PJson.read m strtod) (PJson.readS cap strtod) :=
    ⟨fun t => readS_over (cap := cap) strtod, fun x y => readS_inv (cap := cap) strtod hm hp x y⟩
  have hnf := loadWith_nofuel strtod hm Rd.new src
  rcases load_alike halike (src.length + 1) (Rd.new, src) (Rd.new, s) ⟨rfl, h2, hl⟩ hnf with
    ⟨a, x, y, k1, k2, -⟩ | ⟨k1, k2⟩ | ⟨k1, k2⟩
  · have k1' : PJson.load m strtod src = .ok (a, x) := k1
    rw [k1', k2]; rfl
  · have k1' : PJson.load m strtod src = .ub := k1
    rw [k1', k2]; rfl
  · have k1' : PJson.load m strtod src = .err := k1
    rw [k1', k2]; rfl

/-- C28 and C03: what has been saved as JSON is read back from a stream, provided that texts of doubles have at
most 800 bytes. -/
theorem json_stream_roundtrip_partial (dtoa : UInt64 → Bytes) (strtod : Bytes → Option UInt64)
    (hd : ∀ d, (dtoa d).length ≤ 800) (compact : Bool) (name : Bytes) (n : Node)
    (hn : PJson.NodeOk dtoa strtod n) (hdepth : n.depth ≤ 128) :
    ∃ bs, save dtoa compact name n = .ok bs ∧ ∀ cap old, bs.length + 1024 ≤ cap →
      ∃ r, PJson.loadS cap strtod old bs = .ok r ∧ SameNodeBy JsonSame n r.node := by
  have hm : (⟨some 0, 0⟩ : Mem).Sane := by show 0 < 2 ^ 63; decide
  have hp : Harmless ⟨some 0, 0⟩ := ⟨0, rfl, by decide, by decide⟩
  obtain ⟨bs, h1, h2⟩ := json_roundtrip_partial ⟨some 0, 0⟩ hm dtoa strtod compact name n hn hdepth
  refine ⟨bs, h1, fun cap old hc => ?_⟩
  obtain ⟨r, st, h3, h4⟩ := h2 [] Rd.new
  rw [List.append_nil] at h3
  refine ⟨r, json_stream_accepts_partial ⟨some 0, 0⟩ hm hp strtod cap old bs hc
    (below_saved hm hd hn hdepth h1) r ?_, h4⟩
  have h3' : PJson.load ⟨some 0, 0⟩ strtod bs = .ok (r, st, []) := h3
  rw [h3']
  rfl

/-! ### Examples -/

/-- The integers in an array -/
private def ints : Res Root → Option (List Int)
  | .ok ⟨_, .mk .array vs []⟩ => vs.mapM fun p => match p.2 with | .int _ v => some v | _ => none
  | _ => none

private def noFp : Bytes → Option UInt64 := fun _ => none

private def acrossSrc : Bytes := str "[1," ++ (List.replicate 1019 32 ++ str "5678 , 9]")

private theorem acrossSrc_short : LiteralsShort noFp ⟨some 0, 4096⟩ acrossSrc := by
  refine literalsShort_dense _ _ (by show 4096 < 2 ^ 63; decide) _ fun x w y h hw => ⟨32, ?_, by decide⟩
  have hl : acrossSrc.length = 1031 := by decide +kernel
  have h1 := congrArg List.length h
  have h2 : acrossSrc[10]? = some 32 := by decide +kernel
  rw [List.length_append, List.length_append] at h1
  rw [h, List.append_assoc, List.getElem?_append_right (by omega), List.getElem?_append_left (by omega)] at h2
  exact List.mem_of_getElem? h2

/-- Not vacuous: the second number lies across the first 1024 bytes. -/
example : ints (PJson.loadS 4096 noFp SIn.new acrossSrc) = some [1, 5678, 9] := by
  have h : ints (value (PJson.load ⟨some 0, 4096⟩ noFp acrossSrc)) = some [1, 5678, 9] := by decide +kernel
  cases hr : value (PJson.load ⟨some 0, 4096⟩ noFp acrossSrc) with
  | ok r =>
    rw [json_stream_accepts_partial ⟨some 0, 4096⟩ (by show 4096 < 2 ^ 63; decide) ⟨0, rfl, by decide, by decide⟩ noFp
      4096 SIn.new acrossSrc (by decide +kernel) acrossSrc_short r hr, ← hr]
    exact h
  | _ => rw [hr] at h; cases h

example : LiteralsShort noFp ⟨some 0, 4096⟩ (str "[1, 2, 3]") :=
  literalsShort_small _ _ (by show 4096 < 2 ^ 63; decide) _ (by decide)

/-- Not vacuous: a literal at the end of the source, where the buffer still holds the `]` of another document. -/
example : LiteralsEnd noFp ⟨some 0, 4096⟩ (str "[12") ∧
    value (PJson.load ⟨some 0, 4096⟩ noFp (str "[12")) = .err ∧
    PJson.loadS 4096 noFp ⟨str "[12]", 4, 4, none, false, []⟩ (str "[12") = .err :=
  ⟨shortLits_dense _ (by show 4096 < 2 ^ 63; decide) (fun x t h => .inl (by
      have h1 := congrArg List.length h
      have h2 : (str "[12").length = 3 := by decide +kernel
      have h3 := PJson.takeWhile_length_le (p := fun b => !isLitEnd b) t
      rw [List.length_append] at h1
      omega)),
    Res.eq_err (by decide +kernel), Res.eq_err (by decide +kernel)⟩

private def longLiteral : Bytes := str "[" ++ List.replicate 1022 32 ++ List.replicate 1023 48 ++ str "5,7]"

/-- The stream after the bracket, where the literal begins, after its first digit, before its last digit, and
behind it -/
@[irreducible] private def at0 : SIn := ⟨[91], 0, 1, some 0, false, longLiteral.drop 1⟩
@[irreducible] private def at1 : SIn :=
  ⟨[91] ++ (List.replicate 1022 32 ++ [48]), 1, 1024, none, false, List.replicate 1022 48 ++ str "5,7]"⟩
@[irreducible] private def at2 : SIn :=
  ⟨[91] ++ (List.replicate 1022 32 ++ [48]), 1023, 1024, some 1023, false, List.replicate 1022 48 ++ str "5,7]"⟩
@[irreducible] private def at3 : SIn :=
  ⟨(List.replicate 32 32 ++ [48]) ++ (List.replicate 1022 48 ++ [53]), 33, 1056, none, false, str ",7]"⟩
@[irreducible] private def at4 : SIn :=
  ⟨(List.replicate 32 32 ++ [48]) ++ (List.replicate 1022 48 ++ [53]), 1055, 1056, none, false, str ",7]"⟩
@[irreducible] private def at5 : SIn :=
  ⟨List.replicate 32 48 ++ [53] ++ str ",7]" ++ (List.replicate 1019 48 ++ [53]), 33, 36, some 32, false, []⟩

private theorem at1_buf : at1.buf = [91] ++ (List.replicate 1022 32 ++ [48]) := by unfold at1; rfl
private theorem at1_pos : at1.pos = ([91] : Bytes).length := by unfold at1; rfl
private theorem at3_buf : at3.buf = (List.replicate 32 32 ++ [48]) ++ (List.replicate 1022 48 ++ [53]) := by unfold at3; rfl
private theorem at3_pos : at3.pos = (List.replicate 32 32 ++ [48] : Bytes).length := by unfold at3; rfl

private theorem step0 : SIn.set (2 ^ 33) SIn.new longLiteral = .ok at0 := by decide +kernel
private theorem step1 : readS (2 ^ 33) noFp (Rd.new, at0) = .ok (⟨[], .scope .array⟩, ⟨[.array], 0, 0⟩, at1) := by
  decide +kernel
private theorem step2 : Stream.move (2 ^ 33) 1 at2 = .ok at3 := by decide +kernel
private theorem step4 : Stream.move (2 ^ 33) 1 at4 = .ok at5 := by decide +kernel

private theorem read2 : readS (2 ^ 33) noFp (⟨[.array], 0, 0⟩, at1) = .ub := by
  have h1 : moveUntilS (2 ^ 33) (fun b => !isBlank b) (1022 + (1028 + 1)) at1 = .ok (0 + 1022, { at2 with anchor := none }) :=
    run_then (x := 32) (pre := [91]) (post := [48]) (by decide) at1_buf at1_pos (by decide +kernel) (by decide +kernel)
      (stop_here (b := 48) (by decide +kernel) (by decide))
  have h2 : moveUntilS (2 ^ 33) isLitEnd (1022 + (4 + 1 + 1) + 1) at2 = .ok (0 + 1 + 1022 + 1, at5) :=
    step_then (b := 48) (by decide +kernel) (by decide) step2
      (run_then (x := 48) (pre := List.replicate 32 32 ++ [48]) (post := [53]) (by decide) at3_buf at3_pos
        (by decide +kernel) (s' := at4) (by decide +kernel)
        (step_then (b := 53) (by decide +kernel) (by decide) step4 (stop_here (b := 44) (by decide +kernel) (by decide))))
  exact readS_lost (c := 48) (by decide) (by decide +kernel) h1 (by decide +kernel) (by decide +kernel) (by decide +kernel) h2 (by decide +kernel)

/-- C28 fails: a number of 1024 digits. From memory it is loaded; from a stream, the library looks for its
first digits in front of the buffer. -/
theorem json_stream_long_literal :
    ints (value (PJson.load ⟨some 0, 4096⟩ noFp longLiteral)) = some [5, 7] ∧
    PJson.loadS (2 ^ 33) noFp SIn.new longLiteral = .ub :=
  ⟨by decide +kernel, loadS_second step0 step1 rfl read2⟩

end Srl.Props
