import Verif.Lemmas.FpconvJson
import Verif.Props.PJson
import Verif.Props.StreamJson

/-! # C59: doubles as text; C03 for doubles

The specification of decimal texts and of a correct `strtod` is in `Verif/Props/Decimal.lean`. -/

namespace Srl.Props
open Doc Dec

/-- Specification: neither infinite nor NaN -/
def Finite (d : UInt64) : Prop := ∃ v, Fp.num64 d = .fin v

/-- C59: formatting a double is defined for every bit pattern, and the text has at most the 24 bytes the
library makes room for. -/
theorem double_text_fits (d : UInt64) : ∃ t, Fpconv.dtoa d = .ok t ∧ t.length ≤ 24 := Fpconv.dtoa_some d

/-- C59: the text of a finite double reads back as the same double, bit for bit, with any `strtod` that rounds
correctly. -/
theorem double_text_roundtrip (strtod : Bytes → Option UInt64) (hr : Rounds strtod) (d : UInt64) (h : Finite d) :
    ∃ t, Fpconv.dtoa d = .ok t ∧ strtod t = some d := by
  obtain ⟨v, hv⟩ := h
  obtain ⟨t, h1, -, h2⟩ := Fpconv.dtoa_rounds strtod hr d (Fpconv.num64_fin hv).1
  exact ⟨t, h1, h2⟩

/-- C59: what the text of a finite double says: a decimal number with the double's sign, nearer to it than to any
other double. -/
theorem double_text_value (d : UInt64) (h : Finite d) :
    ∃ t v, Fpconv.dtoa d = .ok t ∧ Dec.decimal t = some ((Fp.split64 d).1, v) ∧
      Nearest v (Fp.split64 d).2 ∧ ∀ n, Nearest v n → n = (Fp.split64 d).2 := by
  obtain ⟨w, hw⟩ := h
  have h1 := (Fpconv.num64_fin hw).1
  have key : ∀ {t v}, Fpconv.dtoa d = .ok t → Dec.decimal t = some ((Fp.split64 d).1, v) →
      (∀ n, Nearest v n → n = (Fp.split64 d).2) →
      ∃ t v, Fpconv.dtoa d = .ok t ∧ Dec.decimal t = some ((Fp.split64 d).1, v) ∧
      Nearest v (Fp.split64 d).2 ∧ ∀ n, Nearest v n → n = (Fp.split64 d).2 := by
    intro t v k1 k2 k3
    obtain ⟨n, hn⟩ := nearest_some v
    exact ⟨t, v, k1, k2, by rw [← k3 n hn]; exact hn, k3⟩
  by_cases h0 : (Fp.split64 d).2 = 0
  · have hu := Fpconv.decimal_sign (Fp.split64 d).1 [48] _ Fpconv.unsigned_zero
      ⟨48, [], rfl, by decide⟩
    refine key (Fpconv.dtoa_zero d h0) hu fun n hn => ?_
    have hn0 : ((Dec.num [48] : Nat) : ℚ) = 0 := by simp [Dec.num]
    rw [hn0] at hn
    rw [h0]
    have hz : dbl 0 = 0 := by simp [dbl, Fp.mag]
    have h01 := dbl_lt (show 0 < 1 by decide)
    exact nearest_eq (by decide) (.inl rfl) (by simp only [Nat.zero_add]; linarith) hn
  · obtain ⟨ds, K, t, sh, hd, hne, hl, ht, hlen, hv1, hv2, -⟩ := Fpconv.dtoa_eq d (by omega) h1
    rw [Fpconv.below_dbl] at hv1
    rw [Fpconv.above_dbl] at hv2
    exact key ht (Fpconv.decimal_sign _ t _ (Fpconv.shape_value sh hd hne) (Fpconv.shape_head sh hd hne))
      fun n hn => nearest_eq h1 (.inr hv1) hv2 hn

/-- C59: different finite doubles have different texts. -/
theorem double_text_injective (a b : UInt64) (ha : Finite a) (hb : Finite b)
    (h : Fpconv.dtoa a = Fpconv.dtoa b) : a = b := by
  obtain ⟨strtod, hr⟩ := rounds_some
  obtain ⟨t, h1, h2⟩ := double_text_roundtrip strtod hr a ha
  obtain ⟨u, h3, h4⟩ := double_text_roundtrip strtod hr b hb
  rw [h1, h3] at h
  cases h
  rw [h2] at h4
  injection h4

/-- C59: zeros keep their sign; infinities and NaN have names. -/
theorem double_text_special :
    Fpconv.dtoa 0 = .ok (str "0") ∧ Fpconv.dtoa 0x8000000000000000 = .ok (str "-0") ∧
    (∀ neg, Fpconv.dtoa (Fp.join64 neg Fp.inf64) = .ok ((if neg then [45] else []) ++ str "inf")) ∧
    ∀ d, Fp.num64 d = .nan → Fpconv.dtoa d = .ok (str "nan") ∨ Fpconv.dtoa d = .ok (str "-nan") := by
  refine ⟨by decide +kernel, by decide +kernel, Fpconv.dtoa_inf, fun d h => ?_⟩
  have hi : Fp.inf64 = 2047 * 2 ^ 52 := rfl
  have hlt := Fp.split64_lt d
  have hgt : (Fp.split64 d).2 > Fp.inf64 := by
    unfold Fp.num64 at h
    simp only at h
    split at h
    · assumption
    split at h <;> cases h
  simp only [Fp.split64] at hgt hlt
  unfold Fpconv.dtoa Fpconv.special
  simp only
  rw [if_neg (by omega), if_pos (by omega), if_pos (by omega)]
  by_cases hs : d.toNat ≥ 2 ^ 63
  · right; rw [decide_eq_true hs]; rfl
  · left; rw [decide_eq_false hs]; rfl

/-- Not vacuous: a function like `strtod` exists (`Dec.rounds_some`), and so do finite doubles. -/
example : (∃ strtod, Rounds strtod) ∧ Finite 0x3FB999999999999A ∧
    Fpconv.dtoa 0x3FB999999999999A = .ok (str "0.1") ∧ Fpconv.dtoa 1 = .ok (str "5e-324") ∧
    Fpconv.dtoa 0xFFEFFFFFFFFFFFFF = .ok (str "-1.7976931348623157e+308") ∧
    (str "-1.7976931348623157e+308").length = 24 :=
  ⟨rounds_some, ⟨_, rfl⟩, by decide +kernel, by decide +kernel, by decide +kernel, by decide +kernel⟩

/-- … and the specification of texts says what it should. -/
example : Dec.decimal (str "0.1") = some (false, 1 / 10) ∧ Dec.decimal (str "-12.5e+3") = some (true, 12500) ∧
    Dec.decimal (str "1e-2") = some (false, 1 / 100) ∧ Dec.decimal (str "1.") = some (false, 1) ∧
    Dec.decimal (str "abc") = none ∧ Dec.decimal (str "1e5") = none := by
  refine ⟨?_, ?_, ?_, ?_, ?_, ?_⟩ <;> decide +kernel

/-! ## C03: doubles in JSON -/

/-- Specification: the values JSON keeps: integers but `-2^63`, and all floating point numbers but NaN and the
integers from `2^63` up to `2^80`, positive or negative. -/
def JsonKept : Val → Prop
  | .int t v => t.lo ≤ v ∧ v ≤ t.hi ∧ v ≠ -2 ^ 63
  | .fp32 f => Fpconv.JsonDouble (Fp.widen f)
  | .fp64 d => Fpconv.JsonDouble d
  | _ => True

mutual
private theorem nodeAll_mono {P Q : Val → Prop} {R : Bytes → Prop} (h : ∀ v, P v → Q v) :
    ∀ n : Node, PJson.NodeAll P R n → PJson.NodeAll Q R n
  | .mk t vs ns, hn => by
    simp only [PJson.NodeAll] at hn ⊢
    exact ⟨fun p hp => h _ (hn.1 p hp), hn.2.1, nodesAll_mono h _ ns hn.2.2⟩
private theorem nodesAll_mono {P Q : Val → Prop} {R : Bytes → Prop} (h : ∀ v, P v → Q v) :
    ∀ (b : Bool) (ns : List (Bytes × Node)), PJson.NodesAll P R b ns → PJson.NodesAll Q R b ns
  | _, [], _ => by simp [PJson.NodesAll]
  | b, (name, n) :: ns, hn => by
    simp only [PJson.NodesAll] at hn ⊢
    exact ⟨hn.1, nodeAll_mono h n hn.2.1, nodesAll_mono h b ns hn.2.2⟩
end

/-- With the library's own formatting and a correct `strtod`, these values are read back. -/
theorem jsonKept_ok (strtod : Bytes → Option UInt64) (hr : Rounds strtod) (v : Val) (h : JsonKept v) :
    PJson.ValOk Fpconv.text strtod v := by
  cases v with
  | int t v => exact h
  | fp32 f => exact Fpconv.fpOk strtod hr _ h
  | fp64 d => exact Fpconv.fpOk strtod hr _ h
  | bool b => trivial
  | null => trivial
  | str s => trivial
  | bin b => trivial

/-- C03: JSON documents are read back, with doubles formatted by `fpconv_dtoa` and read by any correctly rounding
`strtod`. What is missing from C03: names with quotes or backslashes, the integer `-2^63`, NaN, and doubles with
integral values between `2^63` and `2^80` (see `json_double_wrong`, `json_double_concrete`). -/
theorem json_doubles_partial (m : Mem) (hm : m.Sane) (strtod : Bytes → Option UInt64) (hr : Rounds strtod)
    (compact : Bool) (name : Bytes) (n : Node) (hn : PJson.NodeAll JsonKept PJson.NameOk n) (hdepth : n.depth ≤ 128) :
    ∃ bs, PJson.save Fpconv.text compact name n = .ok bs ∧ ∀ rest r, ∃ root r',
      PJson.loadWith m strtod r (bs ++ rest) = .ok (root, r', rest) ∧ SameNodeBy JsonSame n root.node :=
  json_roundtrip_partial m hm Fpconv.text strtod compact name n (nodeAll_mono (jsonKept_ok strtod hr) n hn) hdepth

/-- C28 and C03: … also from a stream. -/
theorem json_doubles_stream_partial (strtod : Bytes → Option UInt64) (hr : Rounds strtod)
    (compact : Bool) (name : Bytes) (n : Node) (hn : PJson.NodeAll JsonKept PJson.NameOk n) (hdepth : n.depth ≤ 128) :
    ∃ bs, PJson.save Fpconv.text compact name n = .ok bs ∧ ∀ cap old, bs.length + 1024 ≤ cap →
      ∃ r, PJson.loadS cap strtod old bs = .ok r ∧ SameNodeBy JsonSame n r.node :=
  json_stream_roundtrip_partial Fpconv.text strtod (fun d => by
    obtain ⟨t, h1, h2⟩ := Fpconv.dtoa_some d
    unfold Fpconv.text
    rw [h1]
    exact Nat.le_trans h2 (by decide)) compact name n (nodeAll_mono (jsonKept_ok strtod hr) n hn) hdepth

/-- Not vacuous: a tree with a tenth, the largest double, the smallest one and infinity. -/
example : PJson.NodeAll JsonKept PJson.NameOk (.mk .object [(str "a", .fp64 0x3FB999999999999A),
    (str "b", .fp64 0x7FEFFFFFFFFFFFFF), (str "c", .fp64 1), (str "d", .fp64 0xFFF0000000000000)] []) := by
  have h1 : ∀ d ∈ [0x3FB999999999999A, (0x7FEFFFFFFFFFFFFF : UInt64), 1, 0xFFF0000000000000],
      (match Fp.num64 d with
        | .fin v => decide (v % Fp.one ≠ 0 ∨ (-2 ^ 63 * (Fp.one : Int) < v ∧ v < 2 ^ 63 * (Fp.one : Int)) ∨
            v ≤ -2 ^ 80 * (Fp.one : Int) ∨ 2 ^ 80 * (Fp.one : Int) ≤ v)
        | .inf _ => true
        | .nan => false) = true := by decide +kernel
  have h2 : ∀ d ∈ [0x3FB999999999999A, (0x7FEFFFFFFFFFFFFF : UInt64), 1, 0xFFF0000000000000],
      Fpconv.JsonDouble d := by
    intro d hd
    have := h1 d hd
    unfold Fpconv.JsonDouble
    split
    · rename_i v hv; rw [hv] at this; simpa using this
    · trivial
    · rename_i hv; rw [hv] at this; simp at this
  simp only [PJson.NodeAll, PJson.NodesAll, List.forall_mem_cons, JsonKept]
  refine ⟨⟨h2 _ (by simp), h2 _ (by simp), h2 _ (by simp), h2 _ (by simp), ?_⟩, ?_, trivial⟩
  · simp
  · intro _
    refine ⟨?_, ?_, ?_, ?_, ?_⟩ <;> first | (unfold PJson.NameOk; decide +kernel) | (intro p hp; cases hp)

/-- C03 fails: the double 3.0000000000001e19 is written as digits only, and comes back as the integer
11553255926291448384. (The hypothesis of `json_double_wrong` holds for the library's formatting.) -/
theorem json_double_concrete (m : Mem) (hm : m.Sane) (strtod : Bytes → Option UInt64) (compact : Bool) :
    ∃ bs r', PJson.save Fpconv.text compact [] (.mk .array [([], .fp64 0x43FA055690D9DC74)] []) = .ok bs ∧
      PJson.load m strtod bs = .ok (⟨[], .mk .array [([], .int .u64 11553255926291448384)] []⟩, r', []) ∧
      ¬ JsonSame (.fp64 0x43FA055690D9DC74) (.int .u64 11553255926291448384) :=
  json_double_wrong m hm Fpconv.text strtod compact (by decide +kernel)

end Srl.Props
