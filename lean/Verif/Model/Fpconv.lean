import Verif.Basic

/-! # Doubles as text (src/lib/fpconv/fpconv.c, src/lib/fpconv/powers.h)

Numbers of type `uint64_t` are natural numbers below `2^64`, with wrap-around written out; those of type `int`
are integers, which here stay below 2000. Shifting by a negative number or by 64 and more, and accesses outside
of `digits`, `dest`, `tens` and `powers_ten` are undefined. -/

namespace Srl.Fpconv

/-- `Fp` (powers.h:11-14): the number `frac * 2^exp` -/
structure Fp where
  frac : Nat
  exp : Int
  deriving DecidableEq, Repr

/-- `powers_ten` (powers.h:16-61) -/
def powersTen : List (Nat × Int) := [
  (18054884314459144840, -1220), (13451937075301367670, -1193), (10022474136428063862, -1166), (14934650266808366570, -1140),
  (11127181549972568877, -1113), (16580792590934885855, -1087), (12353653155963782858, -1060), (18408377700990114895, -1034),
  (13715310171984221708, -1007), (10218702384817765436, -980), (15227053142812498563, -954), (11345038669416679861, -927),
  (16905424996341287883, -901), (12595523146049147757, -874), (9384396036005875287, -847), (13983839803942852151, -821),
  (10418772551374772303, -794), (15525180923007089351, -768), (11567161174868858868, -741), (17236413322193710309, -715),
  (12842128665889583758, -688), (9568131466127621947, -661), (14257626930069360058, -635), (10622759856335341974, -608),
  (15829145694278690180, -582), (11793632577567316726, -555), (17573882009934360870, -529), (13093562431584567480, -502),
  (9755464219737475723, -475), (14536774485912137811, -449), (10830740992659433045, -422), (16139061738043178685, -396),
  (12024538023802026127, -369), (17917957937422433684, -343), (13349918974505688015, -316), (9946464728195732843, -289),
  (14821387422376473014, -263), (11042794154864902060, -236), (16455045573212060422, -210), (12259964326927110867, -183),
  (18268770466636286478, -157), (13611294676837538539, -130), (10141204801825835212, -103), (15111572745182864684, -77),
  (11258999068426240000, -50), (16777216000000000000, -24), (12500000000000000000, 3), (9313225746154785156, 30),
  (13877787807814456755, 56), (10339757656912845936, 83), (15407439555097886824, 109), (11479437019748901445, 136),
  (17105694144590052135, 162), (12744735289059618216, 189), (9495567745759798747, 216), (14149498560666738074, 242),
  (10542197943230523224, 269), (15709099088952724970, 295), (11704190886730495818, 322), (17440603504673385349, 348),
  (12994262207056124023, 375), (9681479787123295682, 402), (14426529090290212157, 428), (10748601772107342003, 455),
  (16016664761464807395, 481), (11933345169920330789, 508), (17782069995880619868, 534), (13248674568444952270, 561),
  (9871031767461413346, 588), (14708983551653345445, 614), (10959046745042015199, 641), (16330252207878254650, 667),
  (12166986024289022870, 694), (18130221999122236476, 720), (13508068024458167312, 747), (10064294952495520794, 774),
  (14996968138956309548, 800), (11173611982879273257, 827), (16649979327439178909, 853), (12405201291620119593, 880),
  (9242595204427927429, 907), (13772540099066387757, 933), (10261342003245940623, 960), (15290591125556738113, 986),
  (11392378155556871081, 1013), (16975966327722178521, 1039), (12648080533535911531, 1066)
]

/-- The loop of `find_cachedpow10` (powers.h:70-88): the power and its decimal exponent `k` -/
def findLoop (exp : Int) : Nat → Int → Res (Fp × Int)
  | 0, _ => .fuel
  | fuel + 1, idx =>
    if idx < 0 then .ub
    else match powersTen[idx.toNat]? with
      | none => .ub
      | some (f, e) =>
        let current := exp + e + 64
        if current < -60 then findLoop exp fuel (idx + 1)
        else if current > -32 then findLoop exp fuel (idx - 1)
        else .ok (⟨f, e⟩, -348 + idx * 8)

/-- `find_cachedpow10` (powers.h:63-89). The product with `0.30102999566398114` is computed exactly; the one of
doubles differs by less than `10^-12`, and no product with a number up to 1300 but zero is that near to an integer. -/
def findCached (exp : Int) : Res (Fp × Int) :=
  let approx := (-(exp + 87) * 30102999566398114).tdiv 100000000000000000
  findLoop exp 100 ((approx + 348).tdiv 8)

/-- `tens` (fpconv.c:16-24) -/
def tens : List Nat := [
  10000000000000000000, 1000000000000000000, 100000000000000000,
  10000000000000000, 1000000000000000, 100000000000000,
  10000000000000, 1000000000000, 100000000000,
  10000000000, 1000000000, 100000000,
  10000000, 1000000, 100000,
  10000, 1000, 100,
  10, 1
]

/-- `hiddenbit` (fpconv.c:9) -/
def hidden : Nat := 2 ^ 52

/-- `a << n` for `uint64_t` -/
def shl (a : Nat) (n : Int) : Res Nat :=
  if n < 0 ∨ 64 ≤ n then .ub else .ok (a * 2 ^ n.toNat % 2 ^ 64)

/-- `build_fp` (fpconv.c:36-53) -/
def build (bits : UInt64) : Fp :=
  let frac : Nat := bits.toNat % 2 ^ 52
  let exp : Nat := bits.toNat / 2 ^ 52 % 2048
  if exp ≠ 0 then ⟨frac + hidden, (exp : Int) - 1075⟩ else ⟨frac, -1074⟩

/-- The loops in `normalize` and `get_normalized_boundaries` (fpconv.c:57-60, 72-75): shift until bit `b` is set.
For zero it does not end. -/
def shiftTo (b : Nat) : Nat → Fp → Res Fp
  | 0, _ => .fuel
  | fuel + 1, x =>
    if x.frac.testBit b then .ok x else shiftTo b fuel ⟨x.frac * 2 % 2 ^ 64, x.exp - 1⟩

/-- `normalize` (fpconv.c:55-65) -/
def normalize (x : Fp) : Res Fp := do
  let x ← shiftTo 52 64 x
  let f ← shl x.frac 11
  .ok ⟨f, x.exp - 11⟩

/-- `get_normalized_boundaries` (fpconv.c:67-92): `lower` and `upper` -/
def boundaries (x : Fp) : Res (Fp × Fp) := do
  let upper ← shiftTo 53 64 ⟨(x.frac * 2 % 2 ^ 64 + 1) % 2 ^ 64, x.exp - 1⟩
  let uf ← shl upper.frac 10
  let ue := upper.exp - 10
  let ls : Int := if x.frac = hidden then 2 else 1
  let lf ← shl x.frac ls
  let le := x.exp - ls
  let lf ← shl ((lf + 2 ^ 64 - 1) % 2 ^ 64) (le - ue)
  .ok (⟨lf, ue⟩, ⟨uf, ue⟩)

/-- `multiply` (fpconv.c:94-113) -/
def multiply (a b : Fp) : Fp :=
  let ahbl := a.frac / 2 ^ 32 * (b.frac % 2 ^ 32) % 2 ^ 64
  let albh := a.frac % 2 ^ 32 * (b.frac / 2 ^ 32) % 2 ^ 64
  let albl := a.frac % 2 ^ 32 * (b.frac % 2 ^ 32) % 2 ^ 64
  let ahbh := a.frac / 2 ^ 32 * (b.frac / 2 ^ 32) % 2 ^ 64
  let tmp := (ahbl % 2 ^ 32 + albh % 2 ^ 32 + albl / 2 ^ 32 + 2 ^ 31) % 2 ^ 64
  ⟨(ahbh + ahbl / 2 ^ 32 + albh / 2 ^ 32 + tmp / 2 ^ 32) % 2 ^ 64, a.exp + b.exp + 64⟩

/-- Subtraction of `uint64_t` -/
def sub (a b : Nat) : Nat := (a + 2 ^ 64 - b) % 2 ^ 64

/-- `round_digit` (fpconv.c:115-123). `digits` has the last digit first. -/
def roundDigit (delta kappa frac : Nat) : Nat → Nat → Bytes → Res Bytes
  | 0, _, _ => .fuel
  | fuel + 1, rem, digits =>
    if rem < frac ∧ sub delta rem ≥ kappa ∧
        ((rem + kappa) % 2 ^ 64 < frac ∨ sub frac rem > sub ((rem + kappa) % 2 ^ 64) frac) then
      match digits with
      | [] => .ub
      | d :: ds => roundDigit delta kappa frac fuel ((rem + kappa) % 2 ^ 64) ((d - 1) :: ds)
    else .ok digits

/-- Appending to `digits`, an array of 18 (fpconv.c:326), unless it is a leading zero (fpconv.c:148-150, 174-176) -/
def putDigit (digits : Bytes) (digit : Nat) : Res Bytes :=
  if digit ≠ 0 ∨ digits ≠ [] then
    if digits.length < 18 then .ok (UInt8.ofNat (digit + 48) :: digits) else .ub
  else .ok digits

/-- The second loop of `generate_digits` (fpconv.c:164-187). `e` is `-one.exp`, `unit` the index in `tens`. -/
def loop2 (e wfrac : Nat) : Nat → Nat → Nat → Int → Bytes → Int → Res (Bytes × Int)
  | unit, part2, delta, kappa, digits, K => do
    let part2 := part2 * 10 % 2 ^ 64
    let delta := delta * 10 % 2 ^ 64
    let kappa := kappa - 1
    let digit := part2 / 2 ^ e % 2 ^ 32
    let digits ← putDigit digits digit
    let part2 := part2 % 2 ^ e
    if part2 < delta then
      match tens[unit]? with
      | none => .ub
      | some t => do
        let digits ← roundDigit delta (2 ^ e) (wfrac * t % 2 ^ 64) 20 part2 digits
        .ok (digits, K + kappa)
    else
      match unit with
      | 0 => .ub
      | unit + 1 => loop2 e wfrac unit part2 delta kappa digits K

/-- The first loop of `generate_digits` (fpconv.c:142-162), and the second one. `divp` is the index in `tens`. -/
def loop1 (e wfrac delta part2 : Nat) : Nat → Nat → Nat → Bytes → Int → Res (Bytes × Int)
  | 0, _, _, digits, K => loop2 e wfrac 18 part2 delta 0 digits K
  | kappa + 1, divp, part1, digits, K =>
    match tens[divp]? with
    | none => .ub
    | some div => do
      let digit := part1 / div % 2 ^ 32
      let digits ← putDigit digits digit
      let part1 := sub part1 (digit * div % 2 ^ 64)
      let p ← shl part1 e
      let tmp := (p + part2) % 2 ^ 64
      if tmp ≤ delta then do
        let unit ← shl div e
        let digits ← roundDigit delta unit wfrac 20 tmp digits
        .ok (digits, K + kappa)
      else loop1 e wfrac delta part2 kappa (divp + 1) part1 digits K

/-- `generate_digits` (fpconv.c:125-188): the digits, last first, and `K` -/
def generate (x upper lower : Fp) (K : Int) : Res (Bytes × Int) := do
  let wfrac := sub upper.frac x.frac
  let delta := sub upper.frac lower.frac
  let one ← shl 1 (-upper.exp)
  let e := (-upper.exp).toNat
  let part1 := upper.frac / 2 ^ e
  let part2 := upper.frac % one
  loop1 e wfrac delta part2 10 10 part1 [] K

/-- `grisu2` (fpconv.c:190-212): the digits, first one first, and `K` -/
def grisu2 (bits : UInt64) : Res (Bytes × Int) := do
  let w := build bits
  let (lower, upper) ← boundaries w
  let w ← normalize w
  let (cp, k) ← findCached upper.exp
  let w := multiply w cp
  let upper := multiply upper cp
  let lower := multiply lower cp
  let (digits, K) ← generate w ⟨sub upper.frac 1, upper.exp⟩ ⟨(lower.frac + 1) % 2 ^ 64, lower.exp⟩ (-k)
  .ok (digits.reverse, K)

/-- The exponent in scientific notation (fpconv.c:273-291) -/
def exponent (exp : Nat) : Bytes :=
  let cent := exp / 100
  let c := if exp > 99 then [UInt8.ofNat (cent + 48)] else []
  let exp' := if exp > 99 then exp - cent * 100 else exp
  let d := if exp' > 9 then [UInt8.ofNat (exp' / 10 + 48)]
    else if exp > 99 then [48] else []
  c ++ d ++ [UInt8.ofNat (exp' % 10 + 48)]

/-- `emit_digits` (fpconv.c:214-294): the text written to `dest` -/
def emit (digits : Bytes) (K : Int) (neg : Bool) : Bytes :=
  let n := digits.length
  let exp := (K + n - 1).natAbs
  let zeros := if neg then 6 else 7
  if K ≥ 0 ∧ exp < n + zeros then digits ++ List.replicate K.toNat 48
  else if K < 0 ∧ (K > -7 ∨ exp < 4) then
    let offset : Int := n - K.natAbs
    if offset ≤ 0 then 48 :: 46 :: (List.replicate (-offset).toNat 48 ++ digits)
    else digits.take offset.toNat ++ 46 :: digits.drop offset.toNat
  else
    let n := min n (if neg then 17 else 18)
    digits.take 1 ++ (if n > 1 then 46 :: (digits.drop 1).take (n - 1) else []) ++
      [101, if K + n - 1 < 0 then 45 else 43] ++ exponent exp

/-- `filter_special` (fpconv.c:296-320) -/
def special (bits : UInt64) : Option Bytes :=
  let n := bits.toNat % 2 ^ 63
  if n = 0 then some [48]
  else if n / 2 ^ 52 % 2048 = 2047 then some (if n % 2 ^ 52 ≠ 0 then str "nan" else str "inf")
  else none

/-- `fpconv_dtoa` (fpconv.c:322-348). More than 24 bytes would be written outside of `dest`. -/
def dtoa (bits : UInt64) : Res Bytes :=
  let neg : Bool := bits.toNat ≥ 2 ^ 63
  let sign := if neg then [45] else []
  match special bits with
  | some t => .ok (sign ++ t)
  | none => do
    let (digits, K) ← grisu2 bits
    if digits = [] then .ub
    else
      let text := sign ++ emit digits K neg
      if text.length ≤ 24 then .ok text else .ub

end Srl.Fpconv
