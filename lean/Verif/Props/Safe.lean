import Verif.Lemmas.Range
import Verif.Lemmas.FpGap
import Verif.Props.Apply
import Verif.Props.Base64
import Verif.Props.Fp
import Verif.Props.IntStr

/-! # C56 – restoring from untrusted documents -/

namespace Srl.Props
open Typed Apply

/-- Specification: numbers some integer type of the library cannot be assigned although the range check
lets them pass – NaN, `2^63` and `2^64`. -/
def EscapesCheck : Fp.Num → Prop
  | .nan => True
  | .inf _ => False
  | .fin v => v = (2 ^ 63 : Nat) * Fp.one ∨ v = (2 ^ 64 : Nat) * Fp.one

/-- Specification: values some type of the library cannot be restored from without undefined behaviour:
the numbers above, also as text; `-2^63`, which cannot be turned into text; and texts that cannot be decoded,
if binaries are restored at all. -/
def Poison (strtod : Bytes → Option UInt64) (bin : Bool) : Val → Prop
  | .int _ v => v = -2 ^ 63
  | .fp32 f => EscapesCheck (Fp.num32 f) ∨ Fp.num32 f = .fin (-(2 ^ 63 : Nat) * Fp.one)
  | .fp64 d => EscapesCheck (Fp.num64 d) ∨ Fp.num64 d = .fin (-(2 ^ 63 : Nat) * Fp.one)
  | .str s =>
    (match IntStr.strToType strtod false s with
    | some (.fp32 f) => EscapesCheck (Fp.num32 f)
    | some (.fp64 d) => EscapesCheck (Fp.num64 d)
    | _ => False) ∨ (bin = true ∧ B64Undefined s)
  | _ => False

private theorem hole {t : IntTy} {x : Fp.Num}
    (hx : (∃ d, x = Fp.num64 d) ∨ ∃ f, x = Fp.num32 f) (h : fpUnwrapHole t x) :
    EscapesCheck x ∧ (x ≠ .nan → x = .fin ((2 ^ (if t.signed then 63 else 64) : Nat) * Fp.one)) := by
  rcases h with rfl | ⟨v, rfl, hb, h1, h2⟩
  · exact ⟨trivial, fun h => absurd rfl h⟩
  · have key : ∀ k : Nat, 53 < k → ((2 ^ k - 1 : Nat) : Int) * Fp.one < v →
        v ≤ ((2 ^ k : Nat) : Int) * Fp.one → v = ((2 ^ k : Nat) : Int) * Fp.one := by
      intro k hk h1 h2
      rcases hx with ⟨d, hd⟩ | ⟨f, hf⟩
      · exact Fp.num64_gap d v k hk hd.symm h1 h2
      · exact Fp.num32_gap f v k hk hf.symm h1 h2
    cases t with
    | i64 =>
      have := key 63 (by decide) h1 h2
      exact ⟨.inl this, fun _ => congrArg Fp.Num.fin this⟩
    | u64 =>
      have := key 64 (by decide) h1 h2
      exact ⟨.inr this, fun _ => congrArg Fp.Num.fin this⟩
    | _ => cases hb

private theorem one_pos : (0 : Int) < Fp.one := by
  have : 0 < Fp.one := by unfold Fp.one; exact Nat.two_pow_pos _
  omega

private theorem specSound (t : IntTy) (x : Fp.Num) : Sound (fpUnwrapSpec t x) fun _ => True := by
  unfold fpUnwrapSpec
  split
  · split <;> trivial
  · trivial

private theorem nan_ub (t : IntTy) : applyFp (.int t) .nan = .ub := rfl

private theorem big_ub (t : IntTy) (ht : t.bits = 64) :
    applyFp (.int t) (.fin ((t.hi + 1) * Fp.one)) = .ub := by
  have h1 := one_pos
  have h0 : 0 ≤ t.hi := by cases t <;> decide
  have hL : t.lo ≤ 0 := by cases t <;> decide
  have e1 : Fp.ltInt (.fin ((t.hi + 1) * Fp.one)) (Target.int t).lo = false := by
    refine decide_eq_false ?_
    refine Int.not_lt.mpr (Int.mul_le_mul_of_nonneg_right ?_ (by omega))
    show t.lo ≤ _
    omega
  have e2 : Fp.gtInt (.fin ((t.hi + 1) * Fp.one)) (maxAsDouble (.int t)) = false := by
    refine decide_eq_false ?_
    have : maxAsDouble (.int t) = t.hi + 1 := if_pos ht
    rw [this]
    exact Int.lt_irrefl _
  have e3 : Fp.trunc ((t.hi + 1) * Fp.one) = t.hi + 1 := by
    unfold Fp.trunc
    exact Int.mul_tdiv_cancel _ (by omega)
  unfold applyFp
  rw [e1, e2]
  simp only [Bool.or_self, Bool.false_eq_true, if_false, castFp, e3]
  rw [if_neg (by omega)]

/-- C14, exactly: which numbers are converted to which integer types although the result is undefined. -/
theorem fp_unwrap_undefined_iff (t : IntTy) (d : UInt64) :
    applyFp (.int t) (Fp.num64 d) = .ub ↔
      Fp.num64 d = .nan ∨ (t = .i64 ∧ Fp.num64 d = .fin ((2 ^ 63 : Nat) * Fp.one)) ∨
        (t = .u64 ∧ Fp.num64 d = .fin ((2 ^ 64 : Nat) * Fp.one)) := by
  constructor
  · intro h
    by_cases hh : fpUnwrapHole t (Fp.num64 d)
    · have h2 := (hole (.inl ⟨d, rfl⟩) hh).2
      rcases hh with hn | ⟨v, hv, hb, -, -⟩
      · exact .inl hn
      · have h3 := h2 (by rw [hv]; simp)
        cases t with
        | i64 => exact .inr (.inl ⟨rfl, h3⟩)
        | u64 => exact .inr (.inr ⟨rfl, h3⟩)
        | _ => cases hb
    · rw [fp_unwrap_partial t _ hh] at h
      have := specSound t (Fp.num64 d)
      rw [h] at this
      exact this.elim
  · rintro (h | ⟨rfl, h⟩ | ⟨rfl, h⟩)
    · rw [h]; exact nan_ub t
    · rw [h]; exact big_ub .i64 rfl
    · rw [h]; exact big_ub .u64 rfl

example : applyFp (.int .i64) (Fp.num64 0x43E0000000000000) = .ub := by decide +kernel

/-! ## Conversions -/

private theorem applyFp_sound (T : Target) {x : Fp.Num}
    (hx : (∃ d, x = Fp.num64 d) ∨ ∃ f, x = Fp.num32 f) (h : ¬ EscapesCheck x) :
    Sound (applyFp T x) fun _ => True := by
  cases T with
  | bool =>
    unfold applyFp
    split
    · trivial
    · cases x <;> trivial
  | int t =>
    rw [fp_unwrap_partial t x fun hh => h (hole hx hh).1]
    exact specSound t x

private theorem apply_sound (T : Target) (v : Val)
    (h : match v with
      | .fp32 f => ¬ EscapesCheck (Fp.num32 f)
      | .fp64 d => ¬ EscapesCheck (Fp.num64 d)
      | _ => True) : Sound (apply T v) fun _ => True := by
  cases v with
  | fp32 f => exact applyFp_sound T (.inr ⟨f, rfl⟩) h
  | fp64 d => exact applyFp_sound T (.inl ⟨d, rfl⟩) h
  | int t i =>
    simp only [apply]
    repeat' split
    all_goals trivial
  | _ => trivial

private theorem paste_sound (strtod : Bytes → Option UInt64) (bin : Bool) (T : Target) (v : Val)
    (h : ¬ Poison strtod bin v) : Sound (Apply.paste strtod T v) fun _ => True := by
  cases v with
  | fp32 f => exact apply_sound T (.fp32 f) fun hh => h (.inl hh)
  | fp64 d => exact apply_sound T (.fp64 d) fun hh => h (.inl hh)
  | int t i => exact apply_sound T (.int t i) trivial
  | bool b => exact apply_sound T (.bool b) trivial
  | null => exact apply_sound T .null trivial
  | bin b => trivial
  | str s =>
    simp only [Apply.paste]
    simp only [Poison, not_or] at h
    replace h := h.1
    cases hs : IntStr.strToType strtod false s with
    | none => trivial
    | some w =>
      rw [hs] at h
      refine apply_sound T w ?_
      cases w <;> first | exact h | trivial

theorem toFloat_sound (v : Val) : Sound (Apply.toFloat v) fun _ => True := by
  cases v <;> try trivial
  simp only [Apply.toFloat]
  split <;> trivial

theorem toDouble_sound (v : Val) : Sound (Apply.toDouble v) fun _ => True := by
  cases v <;> trivial

theorem pasteFp_sound {α : Type} (strtod : Bytes → Option UInt64) (conv : Val → Res α)
    (h : ∀ v, Sound (conv v) fun _ => True) (v : Val) : Sound (Apply.pasteFp strtod conv v) fun _ => True := by
  cases v with
  | bin b => trivial
  | str s =>
    simp only [Apply.pasteFp]
    split
    · exact h _
    · trivial
  | _ => exact h _

private theorem fpText_sound (dtoa : UInt64 → Bytes) (d : UInt64) (h : ¬ EscapesCheck (Fp.num64 d))
    (h' : Fp.num64 d ≠ .fin (-(2 ^ 63 : Nat) * Fp.one)) :
    Sound (PJson.fpToStr dtoa d) fun _ => True := by
  have h1 := one_pos
  unfold PJson.fpToStr
  split
  · rename_i v hv
    rw [hv] at h h'
    simp only [EscapesCheck, not_or, ne_eq, Fp.Num.fin.injEq] at h h'
    rw [show ((2 ^ 63 : Nat) : Int) = 2 ^ 63 from rfl] at h h'
    split
    · rename_i hc
      obtain ⟨hc1, hc2, hc3⟩ := hc
      rw [if_neg h.1]
      have hv : v = v / Fp.one * Fp.one := by
        have := Int.mul_ediv_add_emod v Fp.one
        rw [hc1, Int.mul_comm] at this
        omega
      have ht : Fp.trunc v = v / Fp.one := by
        unfold Fp.trunc
        rw [hv, Int.mul_tdiv_cancel _ (by omega), Int.mul_ediv_cancel _ (by omega)]
      rw [ht]
      have e1 : v / Fp.one ≤ 2 ^ 63 := Int.le_of_mul_le_mul_right (by rw [← hv]; exact hc2) h1
      have e2 : -2 ^ 63 ≤ v / Fp.one := Int.le_of_mul_le_mul_right (by rw [← hv]; exact hc3) h1
      have e3 : v / Fp.one ≠ 2 ^ 63 := fun h3 => h.1 (by rw [hv, h3])
      have e4 : v / Fp.one ≠ -2 ^ 63 := fun h3 => h' (by rw [hv, h3])
      obtain ⟨s, hs, -⟩ := int_to_text .i64 (v / Fp.one) (by show (-9223372036854775808 : Int) ≤ _; omega)
        (by show _ ≤ (9223372036854775807 : Int); omega) e4
      rw [hs]
      trivial
    · trivial
  · trivial

/-- Which values can be restored as any type whatever, or any type without binaries: all but the poisonous
ones. -/
theorem conversion_defined_iff (env : Env) (bin : Bool) (v : Val) (hv : ValIn v) :
    (∀ ty old, ty.Bin bin → Sound (pasteVal env ty old v) fun _ => True) ↔ ¬ Poison env.strtod bin v := by
  constructor
  · intro h hp
    have hint : ∀ t, Apply.paste env.strtod (.int t) v ≠ .ub := by
      intro t h1
      have := h (.int t) (.int 0) trivial
      simp only [pasteVal, h1] at this
      exact this
    have htext : ∀ r, PJson.scalarText env.dtoa v = some r → v ≠ .null → r ≠ .ub := by
      intro r h1 h2 h3
      subst h3
      have := h .str (.str []) trivial
      cases v with
      | null => exact h2 rfl
      | str s => cases h1
      | bin s => cases h1
      | _ =>
        simp only [pasteVal, h1] at this
        exact this
    have esc : ∀ x, (∀ t, applyFp (.int t) x ≠ .ub) → ¬ EscapesCheck x := by
      intro x h1 h2
      cases x with
      | nan => exact h1 .i8 (nan_ub _)
      | inf n => exact h2
      | fin w =>
        rcases h2 with h2 | h2
        · exact h1 .i64 (by rw [h2]; exact big_ub .i64 rfl)
        · exact h1 .u64 (by rw [h2]; exact big_ub .u64 rfl)
    have low : ∀ d, Fp.num64 d = .fin (-(2 ^ 63 : Nat) * Fp.one) → PJson.fpToStr env.dtoa d = .ub := by
      intro d hd
      have h1 := one_pos
      rw [show ((2 ^ 63 : Nat) : Int) = 2 ^ 63 from rfl] at hd
      have e1 : -2 ^ 63 * (Fp.one : Int) ≤ 2 ^ 63 * Fp.one := Int.mul_le_mul_of_nonneg_right (by decide) (by omega)
      have e2 : -2 ^ 63 * (Fp.one : Int) ≠ 2 ^ 63 * Fp.one := fun h =>
        absurd (Int.eq_of_mul_eq_mul_right (by omega) h) (by decide)
      have e3 : Fp.trunc (-2 ^ 63 * (Fp.one : Int)) = -2 ^ 63 := by
        unfold Fp.trunc
        exact Int.mul_tdiv_cancel _ (by omega)
      unfold PJson.fpToStr
      rw [hd]
      simp only
      rw [if_pos ⟨Int.mul_emod_left _ _, e1, Int.le_refl _⟩, if_neg e2, e3]
      rfl
    cases v with
    | int t i =>
      refine htext _ rfl (by simp) ?_
      unfold IntStr.intToStr
      cases hp
      have ht : t.signed = true := by
        obtain ⟨h1, -⟩ := hv
        cases t <;> first | rfl | (exfalso; revert h1; decide)
      simp [ht]
    | fp32 f =>
      rcases hp with hp | hp
      · exact esc _ (fun t => hint t) hp
      · refine htext _ rfl (by simp) (low _ ?_)
        rw [widen_exact f (by rw [hp]; simp), hp]
    | fp64 d =>
      rcases hp with hp | hp
      · exact esc _ (fun t => hint t) hp
      · exact htext _ rfl (by simp) (low _ hp)
    | str s =>
      simp only [Poison] at hp
      rcases hp with hp | ⟨rfl, hp⟩
      case inr =>
        have := h .bytes (.str []) rfl
        simp only [pasteVal, ((base64_undefined_iff s).2).mpr hp] at this
        exact this
      simp only [Apply.paste] at hint
      cases hs : IntStr.strToType env.strtod false s with
      | none => rw [hs] at hp; exact hp
      | some w =>
        rw [hs] at hp hint
        cases w with
        | fp32 f => exact esc _ (fun t => hint t) hp
        | fp64 d => exact esc _ (fun t => hint t) hp
        | _ => exact hp
    | _ => exact hp
  · intro h ty
    induction ty using Ty.rec (motive_2 := fun _ => True) with
    | bool =>
      intro old hb
      exact (paste_sound env.strtod bin .bool v h).bind fun _ _ => trivial
    | int t =>
      intro old hb
      exact (paste_sound env.strtod bin (.int t) v h).bind fun _ _ => trivial
    | float =>
      intro old hb
      exact (pasteFp_sound env.strtod _ toFloat_sound v).bind fun _ _ => trivial
    | double =>
      intro old hb
      exact (pasteFp_sound env.strtod _ toDouble_sound v).bind fun _ _ => trivial
    | str =>
      intro old hb
      cases v with
      | null => trivial
      | str s => trivial
      | bin s => trivial
      | bool b => trivial
      | int t i =>
        obtain ⟨s, hs, -⟩ := int_to_text t i hv.1 hv.2 h
        simp only [pasteVal, PJson.scalarText, hs]
        trivial
      | fp32 f =>
        simp only [Poison, not_or] at h
        simp only [pasteVal, PJson.scalarText]
        have hn : Fp.num32 f ≠ .nan := fun hn => h.1 (by rw [hn]; trivial)
        refine (fpText_sound env.dtoa (Fp.widen f) ?_ ?_).bind fun _ _ => trivial
        · rw [widen_exact f hn]; exact h.1
        · rw [widen_exact f hn]; exact h.2
      | fp64 d =>
        simp only [Poison, not_or] at h
        simp only [pasteVal, PJson.scalarText]
        exact (fpText_sound env.dtoa d h.1 h.2).bind fun _ _ => trivial
    | bytes =>
      intro old hb
      cases v with
      | str s =>
        have hu := base64_undefined_iff s
        simp only [Poison, not_or] at h
        simp only [pasteVal]
        cases hr : Base64.restoreBinary s with
        | ok b => trivial
        | err => trivial
        | ub => exact absurd ⟨hb, hu.2.mp hr⟩ h.2
        | fuel => exact absurd hr hu.1
      | _ => trivial
    | sorted k c => intro old hb; trivial
    | ptr k e ih =>
      intro old hb
      simp only [pasteVal]
      split
      · trivial
      · exact (ih (dflt e) hb).bind fun _ _ => trivial
    | vec e => intro old hb; trivial
    | named e => intro old hb; trivial
    | arr k e => intro old hb; trivial
    | record a b c => intro old hb; trivial
    | nil => trivial
    | cons => trivial

/-- Each of the exceptions matters: texts and numbers that are poisonous, and types for which they are. -/
theorem poison_examples :
    pasteVal ⟨fun _ => some 0x7FF8000000000000, fun _ => []⟩ (.int .u8) (.int 0) (.str (str "nan")) = .ub ∧
    pasteVal ⟨fun _ => none, fun _ => []⟩ .str (.str []) (.int .i64 (-2 ^ 63)) = .ub ∧
    pasteVal ⟨fun _ => none, fun _ => []⟩ .str (.str []) (.fp32 0xDF000000) = .ub ∧
    pasteVal ⟨fun _ => none, fun _ => []⟩ .bytes (.str []) (.str [195, 164, 195, 164]) = .ub := by
  refine ⟨?_, ?_, ?_, ?_⟩
  · have : (Apply.paste (fun _ => some 0x7FF8000000000000) (.int .u8) (.str (str "nan"))) = .ub := by
      decide +kernel
    simp only [pasteVal, this]
    rfl
  · rfl
  · have : PJson.fpToStr (fun _ => []) (Fp.widen 0xDF000000) = .ub := by decide +kernel
    simp only [pasteVal, PJson.scalarText, this]
    rfl
  · have : Base64.restoreBinary [195, 164, 195, 164] = .ub := by decide
    simp only [pasteVal, this]
    rfl

/-! ## Documents -/

/-- C56 fails: a NaN in a document, restored as a sequence of small integers. -/
theorem restore_poison_undefined :
    restore ⟨fun _ => none, fun _ => []⟩ (PMsgPack.read ⟨none, 4096⟩) 40 (.vec (.int .u8)) (.many [])
      ([], [0x91, 0xCB, 0x7F, 0xF8, 0, 0, 0, 0, 0, 0]) = .ub := Res.eq_ub (by decide +kernel)

/-- No value of the document is poisonous. The values are those that come before the first error, whatever
is behind it. -/
def Clean {σ : Type} (env : Env) (bin : Bool) (read : σ → Res (Event × σ)) (s0 : σ) : Prop :=
  ∀ evs s, Doc.Emits read s0 evs s → ∀ e ∈ evs, ∀ v, e.tok = .val v → ¬ Poison env.strtod bin v

/-- A value or an exception. -/
def Defined {α : Type} (r : Res α) : Prop := (∃ a, r = .ok a) ∨ r = .err

theorem Defined.of {α : Type} {r : Res α} {Q : α → Prop} (h : Sound r Q) : Defined r := by
  cases r with
  | ok a => exact .inl ⟨a, rfl⟩
  | err => exact .inr rfl
  | ub => exact h.elim
  | fuel => exact h.elim

/-- What is read from a clean document can be restored as any type. -/
theorem values_of_clean {σ : Type} {env : Env} {bin : Bool} {read : σ → Res (Event × σ)} {s0 : σ}
    (hv : Clean env bin read s0) (hin : ∀ s, Gives (read s) fun y => TokIn y.1.tok) : ValuesOk env bin read s0 := by
  intro evs s he e hm v hv'
  have hin' : ∀ (evs : List Event) (s s' : σ), Doc.Emits read s evs s' → ∀ e ∈ evs, TokIn e.tok := by
    intro evs
    induction evs with
    | nil => intro _ _ _ e h; cases h
    | cons a evs ih =>
      intro s s' h e hm
      obtain ⟨s1, h1, h2⟩ := h.cons_inv
      rcases List.mem_cons.mp hm with rfl | hm
      · exact hin s _ h1
      · exact ih _ _ h2 e hm
  exact (conversion_defined_iff env bin v (hin' evs _ _ he e hm v hv')).mpr (hv evs s he e hm v hv')

theorem msgpack_sound {m : Mem} (hm : m.Sane) (x : List PMsgPack.RScope × Bytes) (_ : True) :
    Sound (PMsgPack.read m x) fun y => True ∧ PMsgPack.measure y.2 < PMsgPack.measure x := by
  obtain ⟨h1, h2, h3⟩ := PMsgPack.read_fine m x
  cases h : PMsgPack.read m x with
  | ok y => exact ⟨trivial, h3 _ _ h⟩
  | err => trivial
  | ub => exact h2 hm h
  | fuel => exact h1 h

theorem srl_sound {m : Mem} (hm : m.Sane) (hp : m.past ≠ none) (x : PSrl.St × Bytes) (hx : NoRun x.2) :
    Sound (PSrl.read m x) fun y => NoRun y.2.2 ∧ y.2.2.length < x.2.length := by
  obtain ⟨h1, h2⟩ := PSrl.read_noRun hp hm x hx
  cases h : PSrl.read m x with
  | ok y => exact ⟨h2 _ _ h, PSrl.read_progress m x _ _ h⟩
  | err => trivial
  | ub => exact h1 h
  | fuel => exact PSrl.read_ne_fuel m x h

theorem json_sound {m : Mem} (hm : m.Sane) (hp : m.past ≠ none) (strtod : Bytes → Option UInt64)
    (x : PJson.Rd × Bytes) (hx : PJson.UOk x.2) :
    Sound (PJson.read m strtod x) fun y => PJson.UOk y.2.2 ∧ y.2.2.length < x.2.length := by
  obtain ⟨h1, h2⟩ := PJson.read_progress strtod hm x
  cases h : PJson.read m strtod x with
  | ok y =>
    obtain ⟨e, r', t⟩ := y
    obtain ⟨z, hz, hy⟩ := h1 _ _ _ h
    refine ⟨PJson.UOk.suffix (x := z) (by rw [← hy]; exact hx), ?_⟩
    show t.length < x.2.length
    rw [hy, List.length_append]
    have := List.length_pos_iff.mpr hz
    omega
  | err => trivial
  | ub => exact PJson.loop_safe hm hp _ _ _ _ _ hx h
  | fuel => exact h2 h

private theorem both {σ : Type} {env : Env} {bin : Bool} {read : σ → Res (Event × σ)} {s0 : σ} {P : σ → Prop}
    {μ : σ → Nat} (hv : Clean env bin read s0) (hin : ∀ s, Gives (read s) fun y => TokIn y.1.tok)
    (hr : ∀ s, P s → Sound (read s) fun x => P x.2 ∧ μ x.2 < μ s) (ty : Ty) (hb : ty.Bin bin)
    (old : Obj) (hw : WT ty old) (hp : P s0) (fuel : Nat) (hf : μ s0 ≤ fuel) :
    Defined (restore env read fuel ty old s0) ∧ Defined (loadUnwrap env read fuel ty old s0) := by
  have hR := reads_of_emits (values_of_clean hv hin) hr
  have hp' : P s0 ∧ Reached read s0 s0 := ⟨hp, [], .nil _⟩
  exact ⟨.of (restore_good hR fuel ty old s0 hb hw hp' hf), .of (loadUnwrap_good hR fuel ty old s0 hb hw hp' hf)⟩

/-- C56 for MessagePack, as far as it holds: an object of any type and any content is restored from any
bytes without poisonous values, or an exception is thrown; likewise if the document is loaded first. -/
theorem msgpack_restore_safe_partial (env : Env) (bin : Bool) (m : Mem) (hm : m.Sane) (s : Bytes) (ty : Ty)
    (hb : ty.Bin bin) (old : Obj) (hw : WT ty old) (hv : Clean env bin (PMsgPack.read m) ([], s)) (fuel : Nat) (hf : 2 * s.length ≤ fuel) :
    Defined (restore env (PMsgPack.read m) fuel ty old ([], s)) ∧
      Defined (loadUnwrap env (PMsgPack.read m) fuel ty old ([], s)) :=
  both (P := fun _ => True) (μ := PMsgPack.measure) hv (PMsgPack.read_in m) (msgpack_sound hm) ty hb old hw trivial
    fuel (by simpa [PMsgPack.measure] using hf)

/-- C56 for the Srl format, as far as it holds: likewise, if moreover the byte behind the source can be
read and the source does not have nine consecutive bytes above 127. -/
theorem srl_restore_safe_partial (env : Env) (bin : Bool) (m : Mem) (hm : m.Sane) (hp : m.past ≠ none) (s : Bytes)
    (hs : ∀ pre w post, s = pre ++ w ++ post → w.length = 9 → ∃ b ∈ w, b.toNat < 128) (ty : Ty)
    (hb : ty.Bin bin) (old : Obj) (hw : WT ty old) (hv : Clean env bin (PSrl.read m) (PSrl.St.init, s)) (fuel : Nat) (hf : s.length ≤ fuel) :
    Defined (restore env (PSrl.read m) fuel ty old (PSrl.St.init, s)) ∧
      Defined (loadUnwrap env (PSrl.read m) fuel ty old (PSrl.St.init, s)) :=
  both (P := fun x => NoRun x.2) (μ := fun x => x.2.length) hv (PSrl.read_in m) (srl_sound hm hp) ty hb old hw
    (show NoRun s from hs) fuel hf

/-- C56 for JSON, as far as it holds: likewise, if moreover the byte behind the text can be read and no
`\uXXYY` has `YY` above 07; whatever the parser was used for before. -/
theorem json_restore_safe_partial (env : Env) (bin : Bool) (m : Mem) (hm : m.Sane) (hp : m.past ≠ none) (s : Bytes)
    (hu : ∀ a d1 d2 d3 d4 b, s = a ++ 92 :: 117 :: d1 :: d2 :: d3 :: d4 :: b → d3 = 48 ∧ d4 < 56)
    (r : PJson.Rd) (ty : Ty) (hb : ty.Bin bin) (old : Obj) (hw : WT ty old)
    (hv : Clean env bin (PJson.read m env.strtod) (r.clear, s)) (fuel : Nat) (hf : s.length ≤ fuel) :
    Defined (restore env (PJson.read m env.strtod) fuel ty old (r.clear, s)) ∧
      Defined (loadUnwrap env (PJson.read m env.strtod) fuel ty old (r.clear, s)) :=
  both (P := fun x => PJson.UOk x.2) (μ := fun x => x.2.length) hv (PJson.read_in m _)
    (json_sound hm hp env.strtod) ty hb old hw (show PJson.UOk s from hu) fuel hf

/-! Documents that meet the hypotheses. -/

/-- Reading a source to its end meets no poisonous value (this test knows integers and texts only). -/
def cleanRun {σ : Type} (strtod : Bytes → Option UInt64) (read : σ → Res (Event × σ)) : Nat → σ → Bool
  | 0, _ => false
  | n + 1, s =>
    match read s with
    | .ok (e, s') =>
      (match e.tok with
        | .val (.int _ v) => v != -2 ^ 63
        | .val (.str t) => match IntStr.strToType strtod false t with
          | some (.fp32 _) => false
          | some (.fp64 _) => false
          | _ => true
        | .val (.fp32 _) => false
        | .val (.fp64 _) => false
        | _ => true) && cleanRun strtod read n s'
    | _ => true

theorem clean_of_run {σ : Type} {env : Env} {read : σ → Res (Event × σ)} : ∀ (n : Nat) {s : σ},
    cleanRun env.strtod read n s = true → Clean env false read s := by
  intro n
  induction n with
  | zero => intro s h; cases h
  | succ n ih =>
    intro s h evs s' he e hm v hv
    cases evs with
    | nil => cases hm
    | cons a evs =>
      obtain ⟨s1, h1, h2⟩ := he.cons_inv
      rw [cleanRun, h1] at h
      simp only [Bool.and_eq_true] at h
      rcases List.mem_cons.mp hm with rfl | hm
      · have h := h.1
        rw [hv] at h
        intro hp
        cases v with
        | int t i => simp at h; exact h hp
        | str t =>
          simp only at h
          simp only [Poison, Bool.false_eq_true, false_and, or_false] at hp
          cases hs : IntStr.strToType env.strtod false t with
          | none => rw [hs] at hp; exact hp
          | some w =>
            rw [hs] at hp h
            cases w with
            | fp32 f => cases h
            | fp64 d => cases h
            | _ => exact hp
        | fp32 f => cases h
        | fp64 d => cases h
        | _ => exact hp
      · exact ih h.2 evs s' h2 e hm v hv

/-- A document that is cut off and does not suit the type. -/
example : Clean ⟨fun _ => none, fun _ => []⟩ false (PMsgPack.read ⟨none, 4096⟩)
    ([], [0x83, 0xA1, 97, 0x2A, 0xA1, 98, 0x92, 0xC0, 0xA2, 52, 50, 0xA1]) :=
  clean_of_run 20 (by decide +kernel)

example : Clean ⟨fun _ => none, fun _ => []⟩ false (PSrl.read ⟨some 0, 4096⟩)
    (PSrl.St.init, [64, 1, 1, 97, 5, 64, 0, 0, 7]) :=
  clean_of_run 20 (by decide +kernel)

example : Clean ⟨fun _ => none, fun _ => []⟩ false (PJson.read ⟨some 0, 4096⟩ fun _ => none)
    (PJson.Rd.new, str "{\"a\":[1,true,\"x\"],\"b\":[") :=
  clean_of_run (env := ⟨fun _ => none, fun _ => []⟩) 40 (by decide +kernel)

end Srl.Props
