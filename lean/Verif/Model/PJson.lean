import Verif.Model.In
import Verif.Model.Doc
import Verif.Model.Hex
import Verif.Model.Base64
import Verif.Model.IntStr

/-! # The JSON format (src/lib/PJson.cpp, include/Srl/PJson.h)

Sources and strings are taken to be shorter than 4 GiB (the step counters of `In::move_until` and
`In::read_substitue`, In.hpp:49 and 116, have 32 bits). `strtod` and `dtoa` (the library
`src/lib/fpconv`) are parameters: the C function applied to the whole text, and the text produced
for a double. -/

namespace Srl.PJson

/-! ## Writing -/

/-- `conv_type` for floating point numbers (ToolsStrConv.cpp:132-147). Casting 2^63 to `int64_t`
is undefined. -/
def fpToStr (dtoa : UInt64 → Bytes) (d : UInt64) : Res Bytes :=
  match Fp.num64 d with
  | .fin v =>
    if v % Fp.one = 0 ∧ v ≤ (2 ^ 63 : Int) * Fp.one ∧ v ≥ -(2 ^ 63 : Int) * Fp.one then
      if v = (2 ^ 63 : Int) * Fp.one then .ub else IntStr.intToStr .i64 (Fp.trunc v)
    else .ok (dtoa d)
  | _ => .ok (dtoa d)

/-- `Tools::type_to_str` (ToolsStrConv.cpp:250-258) on scalars; `none` for other values. -/
def scalarText (dtoa : UInt64 → Bytes) : Val → Option (Res Bytes)
  | .bool b => some (.ok (if b then str "true" else str "false"))
  | .int t v => some (IntStr.intToStr t v)
  | .fp32 f => some (fpToStr dtoa (Fp.widen f))
  | .fp64 d => some (fpToStr dtoa d)
  | .null => some (.ok (str "null"))
  | .str _ => none
  | .bin _ => none

/-- The pairs of `write_escape` (PJson.cpp:31-37). -/
def escapeByte (b : UInt8) : Bytes :=
  if b = 34 then [92, 34]
  else if b = 92 then [92, 92]
  else if b = 47 then [92, 47]
  else if b = 10 then [92, 110]
  else if b = 9 then [92, 116]
  else if b = 13 then [92, 114]
  else if b = 8 then [92, 98]
  else if b = 12 then [92, 102]
  else [b]

/-- `write_escape` / `Out::write_substitute` (PJson.cpp:31-37, Out.hpp:91-110) -/
def escape (s : Bytes) : Bytes := s.flatMap escapeByte

/-- State of the writing parser: `scope_stack` (its top is `scope_type`) and `scope_closed`. -/
structure Wr where
  stack : List ScopeTy
  closed : Bool

/-- After `PJson::clear` (PJson.cpp:332-337). -/
def Wr.new : Wr := ⟨[], true⟩

/-- `PJson::insert_spacing` (PJson.cpp:155-175) -/
def spacing (compact : Bool) (w : Wr) (isEnd : Bool) : Bytes :=
  (if !w.closed && !isEnd then [44] else []) ++
  (if compact then []
   else (if w.stack.length > 0 then [10] else []) ++
    List.replicate (if isEnd then w.stack.length - 1 else w.stack.length) 9)

/-- The name part of `PJson::write` (PJson.cpp:106-116): names are written as they are. -/
def nameText (compact : Bool) (w : Wr) (isEnd : Bool) (name : Bytes) : Bytes :=
  if w.stack.head? = some .object ∧ isEnd = false then
    34 :: (name ++ [34, 58]) ++ (if compact then [] else [32])
  else []

/-- Text of a value: `Environment::conv_type` (Environment.cpp:196-218) followed by the last part of
`PJson::write` (PJson.cpp:146-152). -/
def valText (dtoa : UInt64 → Bytes) (v : Val) : Res Bytes :=
  match v with
  | .str s => .ok (34 :: (escape s ++ [34]))
  | .bin s => .ok (34 :: (Base64.encode s ++ [34]))
  | v => match scalarText dtoa v with
    | some t => t
    | none => .ok []

/-- `PJson::write` (PJson.cpp:99-153): the bytes written and the new state. A scope end without an
open scope pops an empty stack: undefined. -/
def write (dtoa : UInt64 → Bytes) (compact : Bool) (w : Wr) (e : Event) : Res (Bytes × Wr) :=
  match e.tok with
  | .scope t =>
    .ok (spacing compact w false ++ nameText compact w false e.name ++
      [if t = .array then 91 else 123], ⟨t :: w.stack, true⟩)
  | .scopeEnd =>
    match w.stack with
    | [] => .ub
    | t :: rest =>
      .ok (spacing compact w true ++ [if t = .array then 93 else 125], ⟨rest, false⟩)
  | .val v => do
    let t ← valText dtoa v
    .ok (spacing compact w false ++ nameText compact w false e.name ++ t, ⟨w.stack, false⟩)

/-- Successive calls of `PJson::write`. -/
def writeAll (dtoa : UInt64 → Bytes) (compact : Bool) : Wr → List Event → Res (Bytes × Wr)
  | w, [] => .ok ([], w)
  | w, e :: es => do
    let (b, w) ← write dtoa compact w e
    let (bs, w) ← writeAll dtoa compact w es
    .ok (b ++ bs, w)

/-- `Tree::to_source` for this format (Tree.cpp:52-69). -/
def save (dtoa : UInt64 → Bytes) (compact : Bool) (name : Bytes) (n : Node) : Res Bytes := do
  let (bs, _) ← writeAll dtoa compact Wr.new (n.events name)
  .ok bs

/-! ## Reading -/

/-- `In::move_until` (In.hpp:43-57) with a test for single characters. Behind the last byte the
test looks at the byte past the end. -/
def moveUntil (m : Mem) (p : UInt8 → Bool) : Bytes → Res Bytes
  | [] => do
    let b ← In.cur m []
    if p b then .ok [] else .err
  | b :: s => if p b then .ok (b :: s) else moveUntil m p s

/-- `move_until(error, "*/")` (PJson.cpp:86) -/
def moveUntilClose (m : Mem) : Bytes → Res Bytes
  | 42 :: 47 :: s => .ok (42 :: 47 :: s)
  | [] => .err
  | _ :: s => moveUntilClose m s

/-- Tokens of `move_until` in `PJson::read` (PJson.cpp:192) -/
def isDelim (b : UInt8) : Bool :=
  b == 34 || b == 58 || b == 123 || b == 91 || b == 125 || b == 93 || b == 47

/-- Tokens of `move_while` (PJson.cpp:195) -/
def isBlank (b : UInt8) : Bool := b == 32 || b == 44 || b == 10 || b == 9 || b == 13

/-- Tokens ending a literal (PJson.cpp:293) -/
def isLitEnd (b : UInt8) : Bool := b == 44 || b == 32 || b == 125 || b == 93

/-- `LitTable` (PJson.cpp:60-73): what a literal may start with -/
def isLit (b : UInt8) : Bool :=
  (48 ≤ b && b ≤ 57) || (str "truefalsTFnN+.-Ei").contains b

/-- Two-character escapes of `read_unescape` (PJson.cpp:41-44) besides `\u` -/
def unescapeByte (c : UInt8) : Option UInt8 :=
  if c = 34 then some 34
  else if c = 39 then some 39
  else if c = 92 then some 92
  else if c = 47 then some 47
  else if c = 110 then some 10
  else if c = 116 then some 9
  else if c = 114 then some 13
  else if c = 98 then some 8
  else if c = 102 then some 12
  else none

/-- What `iconv` makes of one UTF-16 code unit converting to UTF-8; a lone surrogate is an
incomplete or invalid sequence, for which `conv_charset` throws (ToolsStrConv.cpp:361-375). -/
def utf8OfUnit (u : Nat) : Res Bytes :=
  if u < 0x80 then .ok [UInt8.ofNat u]
  else if u < 0x800 then .ok [UInt8.ofNat (0xC0 + u / 64), UInt8.ofNat (0x80 + u % 64)]
  else if 0xD800 ≤ u ∧ u < 0xE000 then .err
  else .ok [UInt8.ofNat (0xE0 + u / 4096), UInt8.ofNat (0x80 + u / 64 % 64),
    UInt8.ofNat (0x80 + u % 64)]

/-- Sizes of a string buffer: `bufsz` (In.hpp:117) and `buffer.size()`. -/
structure Cap where
  bufsz : Nat
  size : Nat
  deriving DecidableEq, Repr

/-- In.hpp:121-124: make room for one byte at index `steps` -/
def Cap.grow (c : Cap) (steps : Nat) : Cap :=
  if steps + 1 > c.bufsz then ⟨c.bufsz + (steps + 10), c.bufsz + (steps + 10)⟩ else c

/-- `Tools::conv_charset` (ToolsStrConv.cpp:301-390) for one UTF-16 code unit into `buffer` at
`idx`. Two bytes are reserved. If the character needs three and the buffer ends there, `iconv`
reports `E2BIG` without output, the buffer is enlarged by 8 bytes, and conversion resumes at
`buffer_index + converted` with `converted = current - left_out = buffer_index`, that is at
`2 * idx` — outside the buffer if `2 * idx + 3 > idx + 10`. (Otherwise the bytes at `idx` are not
the converted ones. This does not happen: a buffer has 0 or at least 10 bytes. The model calls
both cases undefined.) -/
def convUnit (c : Cap) (idx : Nat) (u : Nat) : Res (Bytes × Cap) := do
  let t ← utf8OfUnit u
  let size := max c.size (idx + 2)
  if idx + t.length > size then .ub else .ok (t, ⟨c.bufsz, size⟩)

/-- `uc_literal` (PJson.cpp:16-24) -/
def ucLiteral (m : Mem) (c : Cap) (idx : Nat) (s : Bytes) : Res (Bytes × Cap × Bytes) := do
  let (block, s) ← In.readBlock m 6 s
  let hex ← Hex.decodeTo 2 (block.drop 2)
  -- the two bytes are taken as UTF-16LE
  let (t, c) ← convUnit c idx ((hex.getD 0 0).toNat + 256 * (hex.getD 1 0).toNat)
  .ok (t, c, s)

/-- `In::read_substitue` as called by `read_unescape` (In.hpp:110-165, PJson.cpp:39-47): the bytes
read from here on, stopping at the closing quote. `steps` bytes are in the buffer already.
Standing behind the last byte: the byte there is examined and maybe copied; whatever it is, the
next step fails, unless it is a quote — then the `move` following in `PJson::read` fails. -/
def readString (m : Mem) : Nat → Cap → Nat → Bytes → Res (Bytes × Cap × Bytes)
  | 0, _, _, _ => .fuel
  | _ + 1, _, _, [] => match m.past with
    | none => .ub
    | some _ => .err
  | fuel + 1, c, steps, b :: s =>
    if b = 34 then .ok ([], c, b :: s)
    else
      let c := c.grow steps
      match b, s with
      | 92, e :: s' =>
        match unescapeByte e with
        | some r => do
          let (bs, c, s) ← readString m fuel c (steps + 1) s'
          .ok (r :: bs, c, s)
        | none =>
          if e = 117 then do
            let (t, c, s) ← ucLiteral m c steps (b :: s)
            let (bs, c, s) ← readString m fuel c (steps + t.length) s
            .ok (t ++ bs, c, s)
          else do
            let (bs, c, s) ← readString m fuel c (steps + 1) s
            .ok (b :: bs, c, s)
      | _, _ => do
        let (bs, c, s) ← readString m fuel c (steps + 1) s
        .ok (b :: bs, c, s)

/-- State of the reading parser: `scope_stack` and the sizes of the two buffers, which live as long
as the parser (PJson.h:23-29). -/
structure Rd where
  stack : List ScopeTy
  nameCap : Nat
  valCap : Nat
  deriving DecidableEq, Repr

/-- A new parser. -/
def Rd.new : Rd := ⟨[], 0, 0⟩

/-- `PJson::clear` (PJson.cpp:332-337) -/
def Rd.clear (r : Rd) : Rd := ⟨[], r.nameCap, r.valCap⟩

/-- `PJson::State` (PJson.h:31-38) without the value; `name = none`: not processed. -/
structure State where
  name : Option Bytes
  readingValue : Bool

/-- Outcome of one round of the loop in `PJson::read`. -/
inductive Step where
  | more (st : State)
  | done (t : Tok)

/-- `skip_comment` (PJson.cpp:77-94), standing on a slash. -/
def skipComment (m : Mem) (s : Bytes) : Res Bytes :=
  if In.tryPeek 1 s then do
    let n ← In.cur m (s.drop 1)
    if n = 42 then moveUntilClose m s
    else if n = 47 then moveUntil m (fun b => b == 10 || b == 13) s
    else .ok s
  else .ok s

/-- `process_quote` and `process_string` (PJson.cpp:253-281) -/
def processQuote (m : Mem) (r : Rd) (st : State) (s : Bytes) : Res (Step × Rd × Bytes) :=
  match r.stack with
  | [] => .err
  | top :: _ => do
    let s ← In.move m 1 s
    let cap := if st.name.isSome then r.valCap else r.nameCap
    let (b, c, s) ← readString m (s.length + 1) ⟨cap, cap⟩ 0 s
    let r := if st.name.isSome then { r with valCap := c.size } else { r with nameCap := c.size }
    if st.readingValue ∨ top = .array then .ok (.done (.val (.str b)), r, s)
    else if st.name.isSome then .err
    else .ok (.more ⟨some b, st.readingValue⟩, r, s)

/-- `process_bracket` (PJson.cpp:228-251): the kind of a closing bracket is not looked at. -/
def processBracket (r : Rd) (c : UInt8) : Res (Step × Rd) :=
  if c = 123 then .ok (.done (.scope .object), { r with stack := .object :: r.stack })
  else if c = 91 then .ok (.done (.scope .array), { r with stack := .array :: r.stack })
  else match r.stack with
    | [] => .err
    | _ :: rest => .ok (.done .scopeEnd, { r with stack := rest })

/-- `process_char` and `process_literal` (PJson.cpp:283-317). The last component: `out_move`. -/
def processChar (m : Mem) (strtod : Bytes → Option UInt64) (st : State) (c : UInt8) (s : Bytes) :
    Res (Step × Bytes × Bool) :=
  if isLit c then do
    let s' ← moveUntil m isLitEnd s
    let block := s.take (s.length - s'.length)
    match IntStr.strToType strtod (block.contains 46) block with
    | none => .err
    | some v => do
      let e ← In.cur m s'
      .ok (.done (.val v), s', !(e == 125 || e == 93))
  else .ok (.more st, s, true)

/-- Skipping before a token (PJson.cpp:190-196) -/
def skip (m : Mem) (r : Rd) (st : State) (s : Bytes) : Res Bytes :=
  if !st.readingValue && r.stack.head? != some .array then moveUntil m isDelim s
  else moveUntil m (fun b => !isBlank b) s

/-- The `switch` of `PJson::read` and the move after it (PJson.cpp:198-222) -/
def dispatch (m : Mem) (strtod : Bytes → Option UInt64) (r : Rd) (st : State) (s : Bytes) :
    Res (Step × Rd × Bytes) := do
  let c ← In.cur m s
  if c = 34 then do
    let (x, r, s) ← processQuote m r st s
    let s ← In.move m 1 s
    .ok (x, r, s)
  else if c = 58 then
    if st.readingValue then .err
    else do
      let s ← In.move m 1 s
      .ok (.more { st with readingValue := true }, r, s)
  else if c = 123 ∨ c = 125 ∨ c = 91 ∨ c = 93 then do
    let (x, r) ← processBracket r c
    let s ← In.move m 1 s
    .ok (x, r, s)
  else if c = 47 then do
    let s ← skipComment m s
    let s ← In.move m 1 s
    .ok (.more st, r, s)
  else do
    let (x, s, mv) ← processChar m strtod st c s
    if mv then do
      let s ← In.move m 1 s
      .ok (x, r, s)
    else .ok (x, r, s)

/-- One round of the loop in `PJson::read` (PJson.cpp:187-223). -/
def round (m : Mem) (strtod : Bytes → Option UInt64) (r : Rd) (st : State) (s : Bytes) :
    Res (Step × Rd × Bytes) := do
  let s ← skip m r st s
  dispatch m strtod r st s

/-- The loop of `PJson::read`. -/
def loop (m : Mem) (strtod : Bytes → Option UInt64) : Nat → State → Rd × Bytes →
    Res (Event × Rd × Bytes)
  | 0, _, _ => .fuel
  | fuel + 1, st, (r, s) => do
    let (x, r, s) ← round m strtod r st s
    match x with
    | .more st => loop m strtod fuel st (r, s)
    | .done t => .ok (⟨st.name.getD [], t⟩, r, s)

/-- `PJson::read` (PJson.cpp:184-226) -/
def read (m : Mem) (strtod : Bytes → Option UInt64) (x : Rd × Bytes) : Res (Event × Rd × Bytes) :=
  loop m strtod (x.2.length + 1) ⟨none, false⟩ x

/-- Loading a tree with a parser whose state is `r` (Tree.cpp:30-50; `set_input` clears the parser,
Environment.cpp:150-155). -/
def loadWith (m : Mem) (strtod : Bytes → Option UInt64) (r : Rd) (s : Bytes) :
    Res (Root × Rd × Bytes) :=
  Doc.load (read m strtod) (s.length + 1) (r.clear, s)

/-- Loading a tree with a new parser. -/
def load (m : Mem) (strtod : Bytes → Option UInt64) (s : Bytes) : Res (Root × Rd × Bytes) :=
  loadWith m strtod Rd.new s

end Srl.PJson
