import Verif.Lemmas.TypedSafe
import Verif.Lemmas.PMsgPackCut
import Verif.Lemmas.PSrlCut
import Verif.Lemmas.PJsonSafe

/-! Integers of a loaded document are in the range of their type. -/

namespace Srl

def ValIn : Val → Prop
  | .int t v => t.lo ≤ v ∧ v ≤ t.hi
  | _ => True

/-- … and doubles are as `Value` keeps them. -/
def ValAs : Val → Prop
  | .int t v => t.lo ≤ v ∧ v ≤ t.hi
  | .fp64 d => Fp.ofDouble d = .fp64 d
  | _ => True

theorem ValAs.within {v : Val} (h : ValAs v) : ValIn v := by
  cases v <;> first | trivial | exact h

theorem valAs_ofDouble (d : UInt64) : ValAs (Fp.ofDouble d) := by
  cases h : Fp.ofDouble d with
  | fp64 e =>
    have : e = d := by
      unfold Fp.ofDouble at h
      split at h <;> cases h
      rfl
    subst this
    exact h
  | int => unfold Fp.ofDouble at h; split at h <;> cases h
  | _ => trivial

/-- A value token is in range. -/
def TokIn (t : Tok) : Prop := ∀ v, t = .val v → ValIn v

def TokAs (t : Tok) : Prop := ∀ v, t = .val v → ValAs v

theorem TokAs.within {t : Tok} (h : TokAs t) : TokIn t := fun v e => (h v e).within

theorem tokAs_val {v : Val} (h : ValAs v) : TokAs (.val v) := fun _ e => by cases e; exact h
theorem tokAs_scope {t : ScopeTy} : TokAs (.scope t) := fun _ e => by cases e
theorem tokAs_end : TokAs .scopeEnd := fun _ e => by cases e

/-- … and integers are not `-2^63`. -/
def ValKeep : Val → Prop
  | .int t v => t.lo ≤ v ∧ v ≤ t.hi ∧ v ≠ -2 ^ 63
  | .fp64 d => Fp.ofDouble d = .fp64 d
  | _ => True

theorem ValKeep.as {v : Val} (h : ValKeep v) : ValAs v := by
  cases v <;> first | trivial | exact ⟨h.1, h.2.1⟩ | exact h

theorem valKeep_ofDouble (d : UInt64) : ValKeep (Fp.ofDouble d) := by
  have := valAs_ofDouble d
  cases h : Fp.ofDouble d with
  | fp64 e => rw [h] at this; exact this
  | int => unfold Fp.ofDouble at h; split at h <;> cases h
  | _ => trivial

def TokKeep (t : Tok) : Prop := ∀ v, t = .val v → ValKeep v

theorem TokKeep.as {t : Tok} (h : TokKeep t) : TokAs t := fun v e => (h v e).as

theorem tokKeep_val {v : Val} (h : ValKeep v) : TokKeep (.val v) := fun _ e => by cases e; exact h
theorem tokKeep_scope {t : ScopeTy} : TokKeep (.scope t) := fun _ e => by cases e
theorem tokKeep_end : TokKeep .scopeEnd := fun _ e => by cases e

/-- Whatever is returned, if something is. -/
def Gives {α : Type} (r : Res α) (Q : α → Prop) : Prop := ∀ a, r = .ok a → Q a

theorem Gives.bind {α β : Type} {r : Res α} {f : α → Res β} {R : β → Prop}
    (hf : ∀ a, r = .ok a → Gives (f a) R) : Gives (r >>= f) R := by
  intro b h
  rw [Res.bind_eq_ok] at h
  obtain ⟨a, h1, h2⟩ := h
  exact hf a h1 b h2

theorem gives_ok {α : Type} {a : α} {Q : α → Prop} (h : Q a) : Gives (.ok a) Q := fun _ e => by cases e; exact h
theorem gives_err {α : Type} {Q : α → Prop} : Gives (.err : Res α) Q := fun _ e => by cases e
theorem gives_ub {α : Type} {Q : α → Prop} : Gives (.ub : Res α) Q := fun _ e => by cases e
theorem gives_fuel {α : Type} {Q : α → Prop} : Gives (.fuel : Res α) Q := fun _ e => by cases e

namespace PMsgPack

theorem gives_ite {α : Type} {c : Prop} [Decidable c] {x y : Res α} {Q : α → Prop} (h1 : Gives x Q)
    (h2 : Gives y Q) : Gives (if c then x else y) Q := by
  split
  · exact h1
  · exact h2

theorem readInt_as (m : Mem) (t : IntTy) (s : Bytes) : Gives (readInt m t s) fun x => ValAs x.1 := by
  unfold readInt readBe
  refine Gives.bind fun a h => ?_
  rw [Res.bind_eq_ok] at h
  obtain ⟨⟨b, s1⟩, h1, h2⟩ := h
  cases h2
  refine gives_ok ?_
  have hlen : b.length = t.bits / 8 := by
    unfold In.readBlock In.move at h1
    split at h1
    · cases h1
    split at h1
    · cases h1
    · rename_i hl
      simp only [Res.ok_bind, Res.pure_eq, Res.ok.injEq, Prod.mk.injEq] at h1
      rw [← h1.1, List.length_take]
      omega
  have hb := beNat_lt b
  rw [hlen] at hb
  simp only [ValAs]
  generalize beNat b = n at hb
  cases t <;> simp [ofTwos, IntTy.lo, IntTy.hi, IntTy.bits, IntTy.signed] at hb ⊢ <;> (try split) <;> omega

theorem fixnum_as : ∀ p : UInt8, ValAs (.int .i32 (fixnum p)) := by
  intro p
  have : ∀ p : UInt8, (-32 : Int) ≤ fixnum p ∧ fixnum p ≤ 127 := by decide +kernel
  have := this p
  show (-2147483648 : Int) ≤ _ ∧ _ ≤ (2147483647 : Int)
  omega

theorem readScalar_as (m : Mem) (p : UInt8) (s : Bytes) : Gives (readScalar m p s) fun x => ValAs x.1 := by
  unfold readScalar readNum
  have hi := fun t => readInt_as m t s
  exact gives_ite (gives_ok trivial) (gives_ite
    (gives_ite (Gives.bind fun a _ => gives_ok trivial)
      (gives_ite (Gives.bind fun a _ => gives_ok (valAs_ofDouble _))
        (gives_ite (hi _) (gives_ite (hi _) (gives_ite (hi _) (gives_ite (hi _) (gives_ite (hi _)
          (gives_ite (hi _) (gives_ite (hi _) (gives_ite (hi _) gives_err))))))))))
    (gives_ite (gives_ok trivial) (gives_ok (fixnum_as _))))

theorem readItem_as (m : Mem) (stack : List RScope) (name s : Bytes) :
    Gives (readItem m stack name s) fun x => TokAs x.1.tok := by
  unfold readItem
  refine Gives.bind fun a _ => ?_
  unfold readPrefixed
  simp only
  repeat' split
  · exact Gives.bind fun a _ => gives_ok tokAs_scope
  · exact Gives.bind fun a _ => gives_ok (tokAs_val trivial)
  · exact Gives.bind fun a h => gives_ok (tokAs_val (readScalar_as _ _ _ a h))
  · exact Gives.bind fun a _ => gives_ok (tokAs_val trivial)
  · exact gives_err

theorem read_as (m : Mem) (x : List RScope × Bytes) : Gives (read m x) fun y => TokAs y.1.tok := by
  unfold read
  split
  · exact readItem_as _ _ _ _
  · split
    · exact gives_ok tokAs_end
    · simp only
      split
      · exact readItem_as _ _ _ _
      · refine Gives.bind fun a _ => ?_
        refine Gives.bind fun b _ => ?_
        exact readItem_as _ _ _ _

theorem read_in (m : Mem) (x : List RScope × Bytes) : Gives (read m x) fun y => TokIn y.1.tok :=
  fun y h => (read_as m x y h).within

end PMsgPack

namespace Vlq

theorem decode_lt (m : Mem) (s : Bytes) : Gives (decode m s) fun x => x.1 < 2 ^ 64 := by
  have hl : ∀ (s : Bytes) (b : UInt8) (o k : Nat), o < 2 ^ 64 →
      Gives (decLoop m b o k s) fun x => x.1 < 2 ^ 64 := by
    intro s
    induction s with
    | nil =>
      intro b o k ho
      rw [decLoop]
      split
      · exact gives_ok ho
      · exact Gives.bind fun _ _ => gives_err
    | cons c s ih =>
      intro b o k ho
      rw [decLoop]
      split
      · exact gives_ok ho
      · refine Gives.bind fun b' _ => ?_
        split
        · exact gives_ub
        · exact ih _ _ _ (Nat.or_lt_two_pow ho (Nat.mod_lt _ (by decide)))
  unfold decode
  refine Gives.bind fun b _ => ?_
  refine Gives.bind fun x hx => ?_
  have hb : (127 &&& b).toNat < 2 ^ 64 := Nat.lt_trans (UInt8.toNat_lt _) (by decide)
  have := hl s b _ 7 hb x hx
  simp only
  split
  · exact gives_err
  · exact Gives.bind fun _ _ => gives_ok this

end Vlq

namespace PSrl

theorem readNum_keep (m : Mem) (flag : UInt8) (s : Bytes) : Gives (readNum m flag s) fun x => ValKeep x.1 := by
  unfold readNum
  split
  · exact gives_ok trivial
  split
  · exact Gives.bind fun a _ => gives_ok trivial
  split
  · exact Gives.bind fun a _ => gives_ok (valKeep_ofDouble _)
  refine Gives.bind fun a h => ?_
  have ha := Vlq.decode_lt m s a h
  simp only
  split
  · split
    · exact gives_ub
    · rename_i hn
      refine gives_ok ?_
      simp only [ValKeep, IntTy.lo, IntTy.hi, IntTy.bits, IntTy.signed]
      unfold toI64 at hn ⊢
      split at hn <;> rename_i hc <;> simp only [hc, if_true, if_false] <;> simp at hn ⊢ <;> omega
  · refine gives_ok ?_
    simp only [ValKeep, IntTy.lo, IntTy.hi, IntTy.bits, IntTy.signed]
    simp
    omega

theorem read_keep (m : Mem) (x : St × Bytes) : Gives (read m x) fun y => TokKeep y.1.tok := by
  unfold read
  refine Gives.bind fun a _ => ?_
  unfold readRest
  simp only
  split
  · split
    · exact gives_err
    · exact gives_ok tokKeep_end
  split
  · exact gives_ok tokKeep_scope
  split
  · exact Gives.bind fun b h => gives_ok (tokKeep_val (readNum_keep _ _ _ b h))
  split
  · refine Gives.bind fun b _ => Gives.bind fun c _ => gives_ok (tokKeep_val ?_)
    split <;> trivial
  split
  · exact gives_ok (tokKeep_val trivial)
  · exact gives_err

theorem read_as (m : Mem) (x : St × Bytes) : Gives (read m x) fun y => TokAs y.1.tok :=
  fun y h => (read_keep m x y h).as

theorem read_in (m : Mem) (x : St × Bytes) : Gives (read m x) fun y => TokIn y.1.tok :=
  fun y h => (read_keep m x y h).as.within

end PSrl

namespace IntStr

theorem digitLoop_lt : ∀ (s : Bytes) (v w : Nat), v < 2 ^ 64 → digitLoop s v = some w → w < 2 ^ 64
  | [], v, w, hv, h => by
    simp only [digitLoop, Option.some.injEq] at h
    omega
  | c :: s, v, w, hv, h => by
    rw [digitLoop] at h
    split at h
    · cases h
    · simp only at h
      split at h
      · cases h
      · exact digitLoop_lt s _ w (Nat.mod_lt _ (by decide)) h

theorem strToInt_in {s : Bytes} {i : Nat} {neg : Bool} (h : strToInt s = some (i, neg)) :
    i < 2 ^ 64 ∧ (neg = true → i < 2 ^ 63) := by
  unfold strToInt at h
  split at h
  · cases h
  · split at h
    · split at h
      · rename_i v hv hle
        cases h
        exact ⟨by omega, fun _ => by omega⟩
      · cases h
    · cases h
  · split at h
    · rename_i v hv
      cases h
      exact ⟨digitLoop_lt _ 0 _ (by decide) hv, by simp⟩
    · cases h

theorem strToType_keep (strtod : Bytes → Option UInt64) (hint : Bool) (s : Bytes) (v : Val)
    (h : strToType strtod hint s = some v) : ValKeep v := by
  unfold strToType at h
  simp only at h
  split at h
  · cases h
  split at h
  · cases h; trivial
  split at h
  · cases h; trivial
  split at h
  · cases h; trivial
  split at h
  · rename_i i hi
    cases h
    have : strToInt (trimSpace s) = some (i, true) := by
      cases hint
      · simpa using hi
      · simp at hi
    have := (strToInt_in this).2 rfl
    show (-9223372036854775808 : Int) ≤ _ ∧ _ ≤ (9223372036854775807 : Int) ∧ _ ≠ (-9223372036854775808 : Int)
    omega
  · rename_i i hi
    cases h
    have : strToInt (trimSpace s) = some (i, false) := by
      cases hint
      · simpa using hi
      · simp at hi
    have := strToInt_in this
    simp only [ValKeep, IntTy.lo, IntTy.hi, IntTy.bits, IntTy.signed]
    simp
    omega
  · cases hd : strtod (trimSpace s) with
    | none => rw [hd] at h; cases h
    | some d =>
      rw [hd] at h
      cases h
      exact valKeep_ofDouble d

theorem strToType_in (strtod : Bytes → Option UInt64) (hint : Bool) (s : Bytes) (v : Val)
    (h : strToType strtod hint s = some v) : ValIn v := (strToType_keep strtod hint s v h).as.within

end IntStr

namespace PJson

def StepKeep : Step → Prop
  | .done t => TokKeep t
  | .more _ => True

theorem dispatch_keep (m : Mem) (strtod : Bytes → Option UInt64) (r : Rd) (st : State) (s : Bytes) :
    Gives (dispatch m strtod r st s) fun x => StepKeep x.1 := by
  unfold dispatch
  refine Gives.bind fun c _ => ?_
  split
  · refine Gives.bind fun a ha => ?_
    have : StepKeep a.1 := by
      revert ha a
      show Gives _ _
      unfold processQuote
      split
      · exact gives_err
      · refine Gives.bind fun b _ => Gives.bind fun c _ => ?_
        simp only
        split
        · exact gives_ok (tokKeep_val trivial)
        split
        · exact gives_err
        · exact gives_ok trivial
    exact Gives.bind fun b _ => gives_ok this
  split
  · split
    · exact gives_err
    · exact Gives.bind fun _ _ => gives_ok trivial
  split
  · refine Gives.bind fun a ha => ?_
    have : StepKeep a.1 := by
      revert ha a
      show Gives _ _
      unfold processBracket
      split
      · exact gives_ok tokKeep_scope
      split
      · exact gives_ok tokKeep_scope
      split
      · exact gives_err
      · exact gives_ok tokKeep_end
    exact Gives.bind fun b _ => gives_ok this
  split
  · exact Gives.bind fun _ _ => Gives.bind fun _ _ => gives_ok trivial
  · refine Gives.bind fun a ha => ?_
    have : StepKeep a.1 := by
      revert ha a
      show Gives _ _
      unfold processChar
      split
      · refine Gives.bind fun s' _ => ?_
        simp only
        split
        · exact gives_err
        · rename_i v hv
          exact Gives.bind fun e _ => gives_ok (tokKeep_val (IntStr.strToType_keep _ _ _ _ hv))
      · exact gives_ok trivial
    simp only
    split
    · exact Gives.bind fun b _ => gives_ok this
    · exact gives_ok this

theorem loop_keep (m : Mem) (strtod : Bytes → Option UInt64) : ∀ (fuel : Nat) (st : State) (x : Rd × Bytes),
    Gives (loop m strtod fuel st x) fun y => TokKeep y.1.tok := by
  intro fuel
  induction fuel with
  | zero => intro st x; exact gives_fuel
  | succ fuel ih =>
    rintro st ⟨r, s⟩
    rw [loop]
    refine Gives.bind fun a ha => ?_
    have : StepKeep a.1 := by
      revert ha a
      show Gives _ _
      unfold round
      exact Gives.bind fun s' _ => dispatch_keep _ _ _ _ _
    obtain ⟨x, r', s'⟩ := a
    cases x with
    | more st' => exact ih _ _
    | done t => exact gives_ok this

theorem read_keep (m : Mem) (strtod : Bytes → Option UInt64) (x : Rd × Bytes) :
    Gives (read m strtod x) fun y => TokKeep y.1.tok := loop_keep _ _ _ _ _

theorem read_as (m : Mem) (strtod : Bytes → Option UInt64) (x : Rd × Bytes) :
    Gives (read m strtod x) fun y => TokAs y.1.tok := fun y h => (read_keep m strtod x y h).as

theorem read_in (m : Mem) (strtod : Bytes → Option UInt64) (x : Rd × Bytes) :
    Gives (read m strtod x) fun y => TokIn y.1.tok := fun y h => (read_keep m strtod x y h).as.within

end PJson
end Srl
