import Verif.Model.Stream
import Verif.Model.PJson

/-! # Reading JSON from streams (src/lib/PJson.cpp, include/Srl/In.hpp)

The parts of `PJson::read` that use the source, again, with a source that is a stream. Lack of memory is
`fuel`, as in `Stream.reading`. -/

namespace Srl.Stream

/-- Lack of memory as `fuel` -/
def SRes.res {α : Type} : SRes α → Res α
  | .ok a => .ok a
  | .err => .err
  | .ub => .ub
  | .fuel => .fuel
  | .alloc => .fuel

/-- `In::try_peek` (In.hpp:91-94) -/
def tryPeek (cap steps : Nat) (s : SIn) : SRes (Bool × SIn) :=
  if s.pos + steps < s.stop then .ok (true, s) else tryFetch cap steps 1024 s

/-- `*(In::pointer() + i)` -/
def curAt (i : Nat) (s : SIn) : SRes UInt8 :=
  match s.buf[s.pos + i]? with
  | some b => .ok b
  | none => .ub

/-- Number of bytes not yet read -/
def SIn.left (s : SIn) : Nat := s.stop - s.pos + s.src.length

end Srl.Stream

namespace Srl.PJson

open Srl.Stream (SIn)

/-- `In::move_until` (In.hpp:43-57) with a test for single characters: the number of steps. The counter
has 32 bits in the code, here it does not overflow. -/
def moveUntilS (cap : Nat) (p : UInt8 → Bool) : Nat → SIn → Res (Nat × SIn)
  | 0, _ => .fuel
  | fuel + 1, s => do
    let b ← (Stream.cur s).res
    if p b then .ok (0, s)
    else do
      let s ← (Stream.move cap 1 s).res
      let (n, s) ← moveUntilS cap p fuel s
      .ok (n + 1, s)

/-- `In::is_at_token` for two characters (In.hpp:72-76) with `Aux::comp` (Aux.h:38-41) -/
def atTwoS (x y : UInt8) (s : SIn) : Res Bool := do
  let b ← (Stream.cur s).res
  if b = x then do
    let b ← (Stream.curAt 1 s).res
    .ok (b == y)
  else .ok false

/-- `move_until(error, "*/")` (PJson.cpp:86, In.hpp:43-57, 72-76) -/
def moveUntilCloseS (cap : Nat) : Nat → SIn → Res SIn
  | 0, _ => .fuel
  | fuel + 1, s => do
    let (t, s) ← (Stream.tryPeek cap 2 s).res
    let at2 ← if t then atTwoS 42 47 s else .ok false
    if at2 then .ok s
    else do
      let s ← (Stream.move cap 1 s).res
      moveUntilCloseS cap fuel s

/-- `In::read_block_until` (In.hpp:27-35) -/
def readUntilS (cap : Nat) (p : UInt8 → Bool) (s : SIn) : Res (Bytes × SIn) := do
  let (n, s) ← moveUntilS cap p (s.left + 2) { s with anchor := some s.pos }
  let b ← (Stream.back n s).res
  .ok (b, { s with anchor := none })

/-- `uc_literal` (PJson.cpp:16-24) -/
def ucLiteralS (cap : Nat) (c : Cap) (idx : Nat) (s : SIn) : Res (Bytes × Cap × SIn) := do
  let (block, s) ← (Stream.readBlock cap 6 s).res
  let hex ← Hex.decodeTo 2 (block.drop 2)
  let (t, c) ← convUnit c idx ((hex.getD 0 0).toNat + 256 * (hex.getD 1 0).toNat)
  .ok (t, c, s)

/-- `In::read_substitue` as called by `read_unescape` (In.hpp:110-165, PJson.cpp:39-47). `end - pos - 1` is
computed modulo `2^64`. -/
def readStringS (cap : Nat) : Nat → Cap → Nat → SIn → Res (Bytes × Cap × SIn)
  | 0, _, _, _ => .fuel
  | fuel + 1, c, steps, s => do
    let s ← (Stream.peek cap 0 s).res
    let b ← (Stream.cur s).res
    if b = 34 then .ok ([], c, s)
    else do
      let c := c.grow steps
      let (t, s) ← (Stream.tryPeek cap 2 s).res
      let left := if t then 2 else (2 ^ 64 + s.stop - s.pos - 1) % 2 ^ 64
      let b ← (Stream.cur s).res
      let e ← (if 2 ≤ left ∧ b = 92 then do
          let e ← (Stream.curAt 1 s).res
          .ok (some e)
        else .ok none)
      match e.bind unescapeByte, e with
      | some r, _ => do
        let (bs, c, s) ← readStringS cap fuel c (steps + 1) { s with pos := s.pos + 2 }
        .ok (r :: bs, c, s)
      | none, some 117 => do
        let (t, c, s) ← ucLiteralS cap c steps s
        let (bs, c, s) ← readStringS cap fuel c (steps + t.length) s
        .ok (t ++ bs, c, s)
      | none, _ => do
        let (bs, c, s) ← readStringS cap fuel c (steps + 1) { s with pos := s.pos + 1 }
        .ok (b :: bs, c, s)

/-- `skip_comment` (PJson.cpp:77-94) -/
def skipCommentS (cap : Nat) (s : SIn) : Res SIn := do
  let (t, s) ← (Stream.tryPeek cap 1 s).res
  if t then do
    let n ← (Stream.curAt 1 s).res
    if n = 42 then moveUntilCloseS cap (s.left + 2) s
    else if n = 47 then do
      let (_, s) ← moveUntilS cap (fun b => b == 10 || b == 13) (s.left + 2) s
      .ok s
    else .ok s
  else .ok s

/-- `process_quote` and `process_string` (PJson.cpp:253-281) -/
def processQuoteS (cap : Nat) (r : Rd) (st : State) (s : SIn) : Res (Step × Rd × SIn) :=
  match r.stack with
  | [] => .err
  | top :: _ => do
    let s ← (Stream.move cap 1 s).res
    let size := if st.name.isSome then r.valCap else r.nameCap
    let (b, c, s) ← readStringS cap (s.left + 2) ⟨size, size⟩ 0 s
    let r := if st.name.isSome then { r with valCap := c.size } else { r with nameCap := c.size }
    if st.readingValue ∨ top = .array then .ok (.done (.val (.str b)), r, s)
    else if st.name.isSome then .err
    else .ok (.more ⟨some b, st.readingValue⟩, r, s)

/-- `process_char` and `process_literal` (PJson.cpp:283-317) -/
def processCharS (cap : Nat) (strtod : Bytes → Option UInt64) (st : State) (c : UInt8) (s : SIn) :
    Res (Step × SIn × Bool) :=
  if isLit c then do
    let (block, s) ← readUntilS cap isLitEnd s
    match IntStr.strToType strtod (block.contains 46) block with
    | none => .err
    | some v => do
      let e ← (Stream.cur s).res
      .ok (.done (.val v), s, !(e == 125 || e == 93))
  else .ok (.more st, s, true)

/-- Skipping before a token (PJson.cpp:190-196) -/
def skipS (cap : Nat) (r : Rd) (st : State) (s : SIn) : Res SIn := do
  let (_, s) ← moveUntilS cap (if !st.readingValue && r.stack.head? != some .array then isDelim
    else fun b => !isBlank b) (s.left + 2) s
  .ok s

/-- The `switch` of `PJson::read` and the move after it (PJson.cpp:198-222) -/
def dispatchS (cap : Nat) (strtod : Bytes → Option UInt64) (r : Rd) (st : State) (s : SIn) :
    Res (Step × Rd × SIn) := do
  let c ← (Stream.cur s).res
  if c = 34 then do
    let (x, r, s) ← processQuoteS cap r st s
    let s ← (Stream.move cap 1 s).res
    .ok (x, r, s)
  else if c = 58 then
    if st.readingValue then .err
    else do
      let s ← (Stream.move cap 1 s).res
      .ok (.more { st with readingValue := true }, r, s)
  else if c = 123 ∨ c = 125 ∨ c = 91 ∨ c = 93 then do
    let (x, r) ← processBracket r c
    let s ← (Stream.move cap 1 s).res
    .ok (x, r, s)
  else if c = 47 then do
    let s ← skipCommentS cap s
    let s ← (Stream.move cap 1 s).res
    .ok (.more st, r, s)
  else do
    let (x, s, mv) ← processCharS cap strtod st c s
    if mv then do
      let s ← (Stream.move cap 1 s).res
      .ok (x, r, s)
    else .ok (x, r, s)

/-- One round of the loop in `PJson::read` (PJson.cpp:187-223) -/
def roundS (cap : Nat) (strtod : Bytes → Option UInt64) (r : Rd) (st : State) (s : SIn) :
    Res (Step × Rd × SIn) := do
  let s ← skipS cap r st s
  dispatchS cap strtod r st s

/-- The loop of `PJson::read` -/
def loopS (cap : Nat) (strtod : Bytes → Option UInt64) : Nat → State → Rd × SIn → Res (Event × Rd × SIn)
  | 0, _, _ => .fuel
  | fuel + 1, st, (r, s) => do
    let (x, r, s) ← roundS cap strtod r st s
    match x with
    | .more st => loopS cap strtod fuel st (r, s)
    | .done t => .ok (⟨st.name.getD [], t⟩, r, s)

/-- `PJson::read` (PJson.cpp:184-226) -/
def readS (cap : Nat) (strtod : Bytes → Option UInt64) (x : Rd × SIn) : Res (Event × Rd × SIn) :=
  loopS cap strtod (x.2.left + 2) ⟨none, false⟩ x

/-- `Tree::read_source` with a `PJson` and a stream -/
def loadS (cap : Nat) (strtod : Bytes → Option UInt64) (old : SIn) (src : Bytes) : Res Root :=
  Stream.opened cap old src fun s => do
    let (r, _) ← Doc.load (readS cap strtod) (src.length + 2) (Rd.new, s)
    .ok r

end Srl.PJson
