import Verif.Model.PMsgPack
import Verif.Lemmas.In
import Verif.Lemmas.Norm

namespace Srl.PMsgPack
open Doc

/-! ## Numbers -/

@[simp] theorem beBytes_length (n v : Nat) : (beBytes n v).length = n := by simp [beBytes]

theorem beNat_beBytes (n v : Nat) (h : v < 256 ^ n) : beNat (beBytes n v) = v := by
  simp [beNat, beBytes, leNat_leBytes n v h]

theorem beNat_lt (b : Bytes) : beNat b < 256 ^ b.length := by
  have := leNat_lt b.reverse
  simpa [beNat] using this

theorem twos_lt (t : IntTy) (v : Int) : twos t v < 256 ^ (t.bits / 8) := by
  unfold twos
  cases t <;> simp [IntTy.bits] <;> omega

theorem ofTwos_twos (t : IntTy) (v : Int) (h1 : t.lo ≤ v) (h2 : v ≤ t.hi) :
    ofTwos t (twos t v) = v := by
  unfold ofTwos twos
  unfold IntTy.lo at h1
  unfold IntTy.hi at h2
  cases t <;> simp [IntTy.bits, IntTy.signed] at h1 h2 ⊢ <;> (try split) <;> omega

/-! ## The format as the code understands it

`be = true`: lengths of strings and binaries in big endian byte order, as the MessagePack
specification demands; `be = false`: in native order, as the code does. -/

def lenBytes (be : Bool) (n v : Nat) : Bytes := if be then beBytes n v else leBytes n v

@[simp] theorem lenBytes_length (be : Bool) (n v : Nat) : (lenBytes be n v).length = n := by
  unfold lenBytes; split <;> simp

/-- Strings. -/
def EncStr (be : Bool) (s b : Bytes) : Prop :=
  (s.length < 32 ∧ b = UInt8.ofNat (0xA0 + s.length) :: s) ∨
  (s.length < 2 ^ 8 ∧ b = 0xD9 :: UInt8.ofNat s.length :: s) ∨
  (s.length < 2 ^ 16 ∧ b = 0xDA :: lenBytes be 2 s.length ++ s) ∨
  (s.length < 2 ^ 32 ∧ b = 0xDB :: lenBytes be 4 s.length ++ s)

/-- Binary data. -/
def EncBin (be : Bool) (s b : Bytes) : Prop :=
  (s.length < 2 ^ 8 ∧ b = 0xC4 :: UInt8.ofNat s.length :: s) ∨
  (s.length < 2 ^ 16 ∧ b = 0xC5 :: lenBytes be 2 s.length ++ s) ∨
  (s.length < 2 ^ 32 ∧ b = 0xC6 :: lenBytes be 4 s.length ++ s)

/-- Values; for numbers the value is the one delivered: short integers are `int32_t`. -/
def EncVal (be : Bool) : Val → Bytes → Prop
  | .null, b => b = [0xC0]
  | .bool v, b => b = [if v then 0xC3 else 0xC2]
  | .int t v, b =>
    (t = .i32 ∧ 0 ≤ v ∧ v < 128 ∧ b = [UInt8.ofNat v.toNat]) ∨
    (t = .i32 ∧ -32 ≤ v ∧ v < 0 ∧ b = [UInt8.ofNat (256 + v).toNat]) ∨
    (t.lo ≤ v ∧ v ≤ t.hi ∧ b = intPrefix t :: beBytes (t.bits / 8) (twos t v))
  | .fp32 f, b => b = 0xCA :: beBytes 4 f.toNat ∨
    ∃ d, Fp.ofDouble d = .fp32 f ∧ b = 0xCB :: beBytes 8 d.toNat
  | .fp64 d, b => ∃ d', Fp.ofDouble d' = .fp64 d ∧ b = 0xCB :: beBytes 8 d'.toNat
  | .str s, b => EncStr be s b
  | .bin s, b => EncBin be s b

/-- First bytes of a scope with `n` elements. -/
def EncHead (t : ScopeTy) (n : Nat) (b : Bytes) : Prop :=
  match t with
  | .object =>
    (n < 16 ∧ b = [UInt8.ofNat (0x80 + n)]) ∨ (n < 2 ^ 16 ∧ b = 0xDE :: beBytes 2 n) ∨
      (n < 2 ^ 32 ∧ b = 0xDF :: beBytes 4 n)
  | .array =>
    (n < 16 ∧ b = [UInt8.ofNat (0x90 + n)]) ∨ (n < 2 ^ 16 ∧ b = 0xDC :: beBytes 2 n) ∨
      (n < 2 ^ 32 ∧ b = 0xDD :: beBytes 4 n)

/-- Keys: strings in objects, nothing elsewhere. -/
def EncKey (be named : Bool) (n k : Bytes) : Prop :=
  if named then EncStr be n k else n = [] ∧ k = []

mutual
def Enc (be named : Bool) : Item → Bytes → Prop
  | .val n v, b => ∃ k w, EncKey be named n k ∧ EncVal be v w ∧ b = k ++ w
  | .scope n t kids, b => ∃ k h w, EncKey be named n k ∧ EncHead t kids.length h ∧
      EncL be (t == .object) kids w ∧ b = k ++ (h ++ w)
def EncL (be named : Bool) : List Item → Bytes → Prop
  | [], b => b = []
  | i :: is, b => ∃ b1 b2, Enc be named i b1 ∧ EncL be named is b2 ∧ b = b1 ++ b2
end

/-! ## Reading -/

theorem readLe_eq {m : Mem} (hm : m.Sane) (n v : Nat) (h : v < 256 ^ n) (rest : Bytes) :
    readLe m n (leBytes n v ++ rest) = .ok (v, rest) := by
  unfold readLe
  rw [In.readBlock_append hm (by simp)]
  simp [leNat_leBytes n v h]

theorem readBe_eq {m : Mem} (hm : m.Sane) (n v : Nat) (h : v < 256 ^ n) (rest : Bytes) :
    readBe m n (beBytes n v ++ rest) = .ok (v, rest) := by
  unfold readBe
  rw [In.readBlock_append hm (by simp)]
  simp [beNat_beBytes n v h]

theorem readInt_eq {m : Mem} (hm : m.Sane) (t : IntTy) (v : Int) (h1 : t.lo ≤ v) (h2 : v ≤ t.hi)
    (rest : Bytes) :
    readInt m t (beBytes (t.bits / 8) (twos t v) ++ rest) = .ok (.int t v, rest) := by
  unfold readInt
  rw [readBe_eq hm _ _ (twos_lt t v)]
  simp [ofTwos_twos t v h1 h2]

theorem readBlock_one {m : Mem} (hm : m.Sane) (p : UInt8) (s : Bytes) :
    In.readBlock m 1 (p :: s) = .ok ([p], s) := by
  have := In.readBlock_append hm (a := [p]) (s := s) (n := 1) rfl
  simpa using this

theorem readItem_cons {m : Mem} (hm : m.Sane) (stack : List RScope) (name : Bytes) (p : UInt8)
    (s : Bytes) : readItem m stack name (p :: s) = readPrefixed m stack name p s := by
  unfold readItem
  rw [readBlock_one hm]
  rfl

theorem strFix : ∀ n : Fin 32, isStr (UInt8.ofNat (0xA0 + n.val)) = true ∧
    isScope (UInt8.ofNat (0xA0 + n.val)) = false ∧
    (0xA0 ≤ UInt8.ofNat (0xA0 + n.val) ∧ UInt8.ofNat (0xA0 + n.val) ≤ 0xBF) ∧
    (UInt8.ofNat (0xA0 + n.val) &&& 0x1F).toNat = n.val := by decide +kernel

theorem byte_len (n : Nat) (h : n < 2 ^ 8) : [UInt8.ofNat n] = leBytes 1 n := by
  simp [leBytes, Nat.mod_eq_of_lt (show n < 256 from h)]

/-- Reading a string, with its first byte already taken. -/
theorem readStr_eq {m : Mem} (hm : m.Sane) (s b : Bytes) (h : EncStr false s b) (rest : Bytes) :
    ∃ p w, b = p :: w ∧ isStr p = true ∧ isScope p = false ∧
      readStr m p (w ++ rest) = .ok (s, rest) := by
  rcases h with ⟨hl, rfl⟩ | ⟨hl, rfl⟩ | ⟨hl, rfl⟩ | ⟨hl, rfl⟩
  · obtain ⟨h1, h2, h3, h4⟩ := strFix ⟨s.length, hl⟩
    refine ⟨_, _, rfl, h1, h2, ?_⟩
    unfold readStr
    simp only at h3 h4
    rw [if_pos h3]
    simp only [Res.ok_bind, h4]
    exact In.readBlock_append hm rfl
  · refine ⟨_, _, rfl, by decide, by decide, ?_⟩
    unfold readStr
    rw [if_neg (by decide), if_pos rfl]
    have := readLe_eq hm 1 s.length (by omega) (s ++ rest)
    rw [← byte_len _ hl] at this
    rw [List.cons_append, ← List.singleton_append, this]
    exact In.readBlock_append hm rfl
  · refine ⟨0xDA, lenBytes false 2 s.length ++ s, rfl, by decide, by decide, ?_⟩
    unfold readStr
    rw [if_neg (by decide), if_neg (by decide), if_pos rfl, List.append_assoc]
    simp only [lenBytes, Bool.false_eq_true, if_false]
    rw [readLe_eq hm 2 s.length (by omega)]
    exact In.readBlock_append hm rfl
  · refine ⟨0xDB, lenBytes false 4 s.length ++ s, rfl, by decide, by decide, ?_⟩
    unfold readStr
    rw [if_neg (by decide), if_neg (by decide), if_neg (by decide), List.append_assoc]
    simp only [lenBytes, Bool.false_eq_true, if_false]
    rw [readLe_eq hm 4 s.length (by omega)]
    exact In.readBlock_append hm rfl

theorem readBin_eq {m : Mem} (hm : m.Sane) (s b : Bytes) (h : EncBin false s b) (rest : Bytes) :
    ∃ p w, b = p :: w ∧ isScope p = false ∧ isStr p = false ∧ isScalar p = false ∧ isBin p = true ∧
      readBin m p (w ++ rest) = .ok (s, rest) := by
  rcases h with ⟨hl, rfl⟩ | ⟨hl, rfl⟩ | ⟨hl, rfl⟩
  · refine ⟨_, _, rfl, by decide, by decide, by decide, by decide, ?_⟩
    unfold readBin
    rw [if_pos rfl]
    have := readLe_eq hm 1 s.length (by omega) (s ++ rest)
    rw [← byte_len _ hl] at this
    rw [List.cons_append, ← List.singleton_append, this]
    exact In.readBlock_append hm rfl
  · refine ⟨0xC5, lenBytes false 2 s.length ++ s, rfl, by decide, by decide, by decide, by decide, ?_⟩
    unfold readBin
    rw [if_neg (by decide), if_pos rfl, List.append_assoc]
    simp only [lenBytes, Bool.false_eq_true, if_false]
    rw [readLe_eq hm 2 s.length (by omega)]
    exact In.readBlock_append hm rfl
  · refine ⟨0xC6, lenBytes false 4 s.length ++ s, rfl, by decide, by decide, by decide, by decide, ?_⟩
    unfold readBin
    rw [if_neg (by decide), if_neg (by decide), List.append_assoc]
    simp only [lenBytes, Bool.false_eq_true, if_false]
    rw [readLe_eq hm 4 s.length (by omega)]
    exact In.readBlock_append hm rfl

theorem posFix : ∀ n : Fin 128, isScope (UInt8.ofNat n.val) = false ∧
    isStr (UInt8.ofNat n.val) = false ∧ isScalar (UInt8.ofNat n.val) = true ∧
    ¬(UInt8.ofNat n.val = 0xC2 ∨ UInt8.ofNat n.val = 0xC3) ∧
    ¬(0xCA ≤ UInt8.ofNat n.val ∧ UInt8.ofNat n.val ≤ 0xD3) ∧
    ¬ UInt8.ofNat n.val = 0xC0 ∧ fixnum (UInt8.ofNat n.val) = n.val := by decide +kernel

theorem negFix : ∀ n : Fin 32, isScope (UInt8.ofNat (224 + n.val)) = false ∧
    isStr (UInt8.ofNat (224 + n.val)) = false ∧ isScalar (UInt8.ofNat (224 + n.val)) = true ∧
    ¬(UInt8.ofNat (224 + n.val) = 0xC2 ∨ UInt8.ofNat (224 + n.val) = 0xC3) ∧
    ¬(0xCA ≤ UInt8.ofNat (224 + n.val) ∧ UInt8.ofNat (224 + n.val) ≤ 0xD3) ∧
    ¬ UInt8.ofNat (224 + n.val) = 0xC0 ∧
    fixnum (UInt8.ofNat (224 + n.val)) = (n.val : Int) - 32 := by decide +kernel

/-- Reading a value. -/
theorem readVal_eq {m : Mem} (hm : m.Sane) (stack : List RScope) (name : Bytes) (v : Val) (b : Bytes)
    (h : EncVal false v b) (rest : Bytes) :
    readItem m stack name (b ++ rest) = .ok (⟨name, .val v⟩, (stack, rest)) := by
  cases v with
  | null =>
    simp only [EncVal] at h; subst h
    rw [List.singleton_append, readItem_cons hm]
    rfl
  | bool v =>
    simp only [EncVal] at h; subst h
    rw [List.singleton_append, readItem_cons hm]
    cases v <;> rfl
  | int t v =>
    rcases h with ⟨rfl, h1, h2, rfl⟩ | ⟨rfl, h1, h2, rfl⟩ | ⟨h1, h2, rfl⟩
    · have := posFix ⟨v.toNat, by omega⟩
      simp only at this
      obtain ⟨a, b, c, d, e, f, g⟩ := this
      rw [List.singleton_append, readItem_cons hm]
      unfold readPrefixed readScalar
      simp only [a, b, c, if_neg d, if_neg e, if_neg f, g, Res.ok_bind]
      simp [Int.toNat_of_nonneg h1]
    · have := negFix ⟨(32 + v).toNat, by omega⟩
      simp only at this
      rw [show (256 + v).toNat = 224 + (32 + v).toNat by omega]
      obtain ⟨a, b, c, d, e, f, g⟩ := this
      rw [List.singleton_append, readItem_cons hm]
      unfold readPrefixed readScalar
      simp only [a, b, c, if_neg d, if_neg e, if_neg f, g, Res.ok_bind]
      simp; omega
    · rw [List.cons_append, readItem_cons hm]
      have := readInt_eq hm t v h1 h2 rest
      unfold readPrefixed readScalar readNum
      cases t <;> simp [intPrefix, isScope, isStr, isScalar] <;> rw [this] <;> rfl
  | fp32 f =>
    rcases h with rfl | ⟨d, hd, rfl⟩
    · rw [List.cons_append, readItem_cons hm]
      have := readBe_eq hm 4 f.toNat (by have := f.toNat_lt; omega) rest
      unfold readPrefixed readScalar readNum
      simp [isScope, isStr, isScalar, this]
    · rw [List.cons_append, readItem_cons hm]
      have := readBe_eq hm 8 d.toNat (by have := d.toNat_lt; omega) rest
      unfold readPrefixed readScalar readNum
      simp [isScope, isStr, isScalar, this, hd]
  | fp64 d =>
    obtain ⟨d', hd, rfl⟩ := h
    rw [List.cons_append, readItem_cons hm]
    have := readBe_eq hm 8 d'.toNat (by have := d'.toNat_lt; omega) rest
    unfold readPrefixed readScalar readNum
    simp [isScope, isStr, isScalar, this, hd]
  | str s =>
    obtain ⟨p, w, rfl, h1, h2, h3⟩ := readStr_eq hm s b h rest
    rw [List.cons_append, readItem_cons hm]
    simp [readPrefixed, h1, h2, h3]
  | bin s =>
    obtain ⟨p, w, rfl, h1, h2, h3, h4, h5⟩ := readBin_eq hm s b h rest
    rw [List.cons_append, readItem_cons hm]
    simp [readPrefixed, h1, h2, h3, h4, h5]

theorem fixScope : ∀ n : Fin 16,
    (isScope (UInt8.ofNat (0x80 + n.val)) = true ∧ ¬ (UInt8.ofNat (0x80 + n.val) &&& 0x40 ≠ 0) ∧
      ¬ (UInt8.ofNat (0x80 + n.val) &&& 0x10 ≠ 0) ∧
      (0x0F &&& UInt8.ofNat (0x80 + n.val)).toNat = n.val) ∧
    (isScope (UInt8.ofNat (0x90 + n.val)) = true ∧ ¬ (UInt8.ofNat (0x90 + n.val) &&& 0x40 ≠ 0) ∧
      UInt8.ofNat (0x90 + n.val) &&& 0x10 ≠ 0 ∧
      (0x0F &&& UInt8.ofNat (0x90 + n.val)).toNat = n.val) := by decide +kernel

theorem readHead_eq {m : Mem} (hm : m.Sane) (stack : List RScope) (name : Bytes) (t : ScopeTy)
    (n : Nat) (b : Bytes) (h : EncHead t n b) (rest : Bytes) :
    readItem m stack name (b ++ rest) = .ok (⟨name, .scope t⟩, (⟨t, n⟩ :: stack, rest)) := by
  cases t with
  | object =>
    rcases h with ⟨h, rfl⟩ | ⟨h, rfl⟩ | ⟨h, rfl⟩
    · obtain ⟨⟨h1, h2, h3, h4⟩, _⟩ := fixScope ⟨n, h⟩
      simp only at h1 h2 h3 h4
      rw [List.singleton_append, readItem_cons hm]
      unfold readPrefixed readScopeInfo
      rw [if_pos h1, if_neg h2, if_neg h3, h4]; rfl
    · rw [List.cons_append, readItem_cons hm]
      have := readBe_eq hm 2 n (by omega) rest
      unfold readPrefixed readScopeInfo
      rw [if_pos (by decide), if_pos (by decide), if_neg (by decide), if_pos (by decide), this]; rfl
    · rw [List.cons_append, readItem_cons hm]
      have := readBe_eq hm 4 n (by omega) rest
      unfold readPrefixed readScopeInfo
      rw [if_pos (by decide), if_pos (by decide), if_pos (by decide), if_pos (by decide), this]; rfl
  | array =>
    rcases h with ⟨h, rfl⟩ | ⟨h, rfl⟩ | ⟨h, rfl⟩
    · obtain ⟨_, h1, h2, h3, h4⟩ := fixScope ⟨n, h⟩
      simp only at h1 h2 h3 h4
      rw [List.singleton_append, readItem_cons hm]
      unfold readPrefixed readScopeInfo
      rw [if_pos h1, if_neg h2, if_pos h3, h4]; rfl
    · rw [List.cons_append, readItem_cons hm]
      have := readBe_eq hm 2 n (by omega) rest
      unfold readPrefixed readScopeInfo
      rw [if_pos (by decide), if_pos (by decide), if_neg (by decide), if_neg (by decide), this]; rfl
    · rw [List.cons_append, readItem_cons hm]
      have := readBe_eq hm 4 n (by omega) rest
      unfold readPrefixed readScopeInfo
      rw [if_pos (by decide), if_pos (by decide), if_pos (by decide), if_neg (by decide), this]; rfl

/-- What the stack becomes when an element of the innermost scope is read. -/
def pop1 : List RScope → List RScope
  | [] => []
  | sc :: stack => ⟨sc.type, sc.elements - 1⟩ :: stack

def named : List RScope → Bool
  | [] => false
  | sc :: _ => sc.type == .object

/-- An element is expected. -/
def Open : List RScope → Prop
  | [] => True
  | sc :: _ => 1 ≤ sc.elements

/-- Reading an element: first the key, in objects. -/
theorem read_key {m : Mem} (hm : m.Sane) (stack : List RScope) (n k : Bytes) (ho : Open stack)
    (hk : EncKey false (named stack) n k) (s : Bytes) :
    read m (stack, k ++ s) = readItem m (pop1 stack) n s := by
  cases stack with
  | nil =>
    obtain ⟨rfl, rfl⟩ := hk
    rfl
  | cons sc stack =>
    obtain ⟨t, e⟩ := sc
    simp only [Open] at ho
    cases t with
    | array =>
      obtain ⟨rfl, rfl⟩ := hk
      simp only [read, if_neg (show ¬ e < 1 by omega), pop1, List.nil_append]
    | object =>
      obtain ⟨p, w, rfl, h1, h2, h3⟩ := readStr_eq hm n k hk s
      simp only [read, if_neg (show ¬ e < 1 by omega), pop1]
      rw [List.cons_append, readBlock_one hm]
      simp [h1, h3]

mutual
/-- Reading an encoded item. -/
theorem emits_item {m : Mem} (hm : m.Sane) : ∀ (i : Item) (stack : List RScope) (b rest : Bytes),
    Open stack → Enc false (named stack) i b →
      Emits (read m) (stack, b ++ rest) i.events (pop1 stack, rest)
  | .val n v, stack, b, rest, ho, ⟨k, w, hk, hw, hb⟩ => by
    subst hb
    refine .cons ?_ (.nil _)
    rw [List.append_assoc, read_key hm stack n k ho hk, readVal_eq hm _ _ _ _ hw]
  | .scope n t kids, stack, b, rest, ho, ⟨k, h, w, hk, hh, hw, hb⟩ => by
    subst hb
    simp only [Item.events]
    refine .cons (s1 := (⟨t, kids.length⟩ :: pop1 stack, w ++ rest)) ?_ ?_
    · rw [List.append_assoc, read_key hm stack n k ho hk, List.append_assoc, readHead_eq hm _ _ _ _ _ hh]
    · refine emits_append.mpr ⟨_, emits_items hm kids t kids.length (pop1 stack) w rest
        (Nat.le_refl _) hw, ?_⟩
      refine .cons ?_ (.nil _)
      simp [read]
theorem emits_items {m : Mem} (hm : m.Sane) : ∀ (is : List Item) (t : ScopeTy) (e : Nat)
    (stack : List RScope) (b rest : Bytes), is.length ≤ e → EncL false (t == .object) is b →
      Emits (read m) (⟨t, e⟩ :: stack, b ++ rest) (Item.eventsL is)
        (⟨t, e - is.length⟩ :: stack, rest)
  | [], t, e, stack, b, rest, _, hb => by
    simp only [EncL] at hb
    subst hb
    exact .nil _
  | i :: is, t, e, stack, b, rest, he, ⟨b1, b2, h1, h2, hb⟩ => by
    subst hb
    simp only [Item.eventsL, List.length_cons] at he ⊢
    rw [List.append_assoc]
    refine emits_append.mpr ⟨_, emits_item hm i (⟨t, e⟩ :: stack) b1 _ (by simp [Open]; omega) h1, ?_⟩
    rw [show e - (is.length + 1) = e - 1 - is.length by omega]
    exact emits_items hm is t (e - 1) stack b2 rest (by omega) h2
end

/-! ## Writing -/

/-- Values the format can carry: integers in the range of their type, doubles as `Value` keeps
them, blocks below 4 GiB. -/
def ValOk : Val → Prop
  | .int t v => t.lo ≤ v ∧ v ≤ t.hi
  | .fp64 d => Fp.ofDouble d = .fp64 d
  | .str s => s.length < 2 ^ 32
  | .bin s => s.length < 2 ^ 32
  | _ => True

instance : DecidablePred ValOk := fun v => by cases v <;> unfold ValOk <;> infer_instance

/-- Integers from −31 to 127 come back as `int32_t`. -/
def normVal : Val → Val
  | .int t v => .int (if -31 ≤ v ∧ v ≤ 127 then .i32 else t) v
  | v => v

mutual
def ItemOk : Item → Prop
  | .val n v => n.length < 2 ^ 32 ∧ ValOk v
  | .scope n _ kids => n.length < 2 ^ 32 ∧ kids.length < 2 ^ 32 ∧ ItemsOk kids
def ItemsOk : List Item → Prop
  | [] => True
  | i :: is => ItemOk i ∧ ItemsOk is
end

theorem or_A0 : ∀ n : Fin 32, 0xA0 ||| UInt8.ofNat n.val = UInt8.ofNat (0xA0 + n.val) := by
  decide +kernel

theorem or_E0 : ∀ n : Fin 32,
    0xE0 ||| UInt8.ofNat (twos .i8 ((n.val : Int) - 32)) = UInt8.ofNat (256 + ((n.val : Int) - 32)).toNat := by
  decide +kernel

theorem writeStr_enc (s : Bytes) (h : s.length < 2 ^ 32) : EncStr false s (writeStr s) := by
  unfold writeStr EncStr lenBytes
  simp only [Bool.false_eq_true, if_false]
  split
  · rename_i h1
    left
    exact ⟨by omega, by rw [← or_A0 ⟨s.length, by omega⟩]⟩
  · split
    · right; left; exact ⟨by omega, rfl⟩
    · split
      · right; right; left; exact ⟨by omega, rfl⟩
      · right; right; right; exact ⟨h, rfl⟩

theorem writeBin_enc (s : Bytes) (h : s.length < 2 ^ 32) : EncBin false s (writeBin s) := by
  unfold writeBin EncBin lenBytes
  simp only [Bool.false_eq_true, if_false]
  split
  · left; exact ⟨by omega, rfl⟩
  · split
    · right; left; exact ⟨by omega, rfl⟩
    · right; right; exact ⟨h, rfl⟩

theorem lo_unsigned (t : IntTy) (h : t.signed = false) : t.lo = 0 := by
  unfold IntTy.lo; rw [h]; rfl

theorem writeVal_enc (v : Val) (h : ValOk v) : EncVal false (normVal v) (writeVal v) := by
  cases v with
  | null => rfl
  | bool b => cases b <;> rfl
  | int t v =>
    obtain ⟨h1, h2⟩ := h
    simp only [normVal, writeVal, writeInt, EncVal]
    by_cases hp : 0 ≤ v ∧ v ≤ 0x7F
    · rw [if_pos hp, if_pos (by omega)]
      left
      exact ⟨rfl, by omega, by omega, rfl⟩
    · rw [if_neg hp]
      by_cases hn : t.signed = true ∧ ¬(v > -1 ∨ v < -31)
      · rw [if_pos hn, if_pos (by omega)]
        right; left
        refine ⟨rfl, by omega, by omega, ?_⟩
        have := or_E0 ⟨(32 + v).toNat, by omega⟩
        simp only at this
        rw [show (((32 + v).toNat : Nat) : Int) - 32 = v by omega] at this
        rw [this]
      · have hns : ¬ (-31 ≤ v ∧ v ≤ 127) := by
          rintro ⟨a, b⟩
          have hs : t.signed = true := by
            cases hs : t.signed with
            | true => rfl
            | false => have := lo_unsigned t hs; omega
          exact hn ⟨hs, by omega⟩
        rw [if_neg hn, if_neg hns]
        right; right
        exact ⟨h1, h2, rfl⟩
  | fp32 f => left; rfl
  | fp64 d => exact ⟨d, h, rfl⟩
  | str s => exact writeStr_enc s h
  | bin s => exact writeBin_enc s h

/-- First bytes of a scope as written: always the 32-bit form. -/
def writeHead (t : ScopeTy) (n : Nat) : Bytes :=
  (match t with | .object => 0xDF | .array => 0xDD) :: beBytes 4 (n % 2 ^ 32)

def writeKey (named : Bool) (n : Bytes) : Bytes := if named then writeStr n else []

mutual
/-- What is written for an item. -/
def writeItem (named : Bool) : Item → Bytes
  | .val n v => writeKey named n ++ writeVal v
  | .scope n t kids => writeKey named n ++ (writeHead t kids.length ++ writeItems (t == .object) kids)
def writeItems (named : Bool) : List Item → Bytes
  | [] => []
  | i :: is => writeItem named i ++ writeItems named is
end

def push1 : List WScope → List WScope
  | [] => []
  | sc :: stack => { sc with elements := (sc.elements + 1) % 2 ^ 32 } :: stack

def wnamed : List WScope → Bool
  | [] => false
  | sc :: _ => sc.type == .object

theorem writeAll_append (x : List WScope × Bytes) (a b : List Event) :
    writeAll x (a ++ b) = (do let y ← writeAll x a; writeAll y b) := by
  induction a generalizing x with
  | nil => rfl
  | cons e a ih =>
    simp only [List.cons_append, writeAll]
    cases write x e with
    | ok y => simp [ih]
    | _ => rfl

theorem write_val (stack : List WScope) (out n : Bytes) (v : Val) :
    write (stack, out) ⟨n, .val v⟩ =
      .ok (push1 stack, out ++ (writeKey (wnamed stack) n ++ writeVal v)) := by
  cases stack with
  | nil => simp [write, push1, wnamed, writeKey]
  | cons sc stack =>
    obtain ⟨t, e, k⟩ := sc
    cases t <;> simp [write, push1, wnamed, writeKey]

theorem write_scope (stack : List WScope) (out n : Bytes) (t : ScopeTy) :
    write (stack, out) ⟨n, .scope t⟩ =
      .ok (⟨t, 0, (out ++ writeKey (wnamed stack) n).length + 1⟩ :: push1 stack,
        (out ++ writeKey (wnamed stack) n) ++ writeHead t 0) := by
  cases stack with
  | nil => cases t <;> simp [write, push1, wnamed, writeKey, writeHead, beBytes, leBytes]
  | cons sc stack =>
    obtain ⟨u, e, k⟩ := sc
    cases u <;> cases t <;> simp [write, push1, wnamed, writeKey, writeHead, beBytes, leBytes]

theorem patch_head (a w : Bytes) (t : ScopeTy) (n : Nat) :
    patch (a ++ writeHead t 0 ++ w) (a.length + 1) (beBytes 4 (n % 2 ^ 32)) =
      a ++ (writeHead t n ++ w) := by
  have key : ∀ (p : UInt8) (z y : Bytes), z.length = y.length →
      patch (a ++ p :: z ++ w) (a.length + 1) y = a ++ (p :: y ++ w) := by
    intro p z y h
    unfold patch
    have e1 : a ++ p :: z ++ w = (a ++ [p]) ++ (z ++ w) := by simp
    have e2 : a.length + 1 = (a ++ [p]).length := by simp
    rw [e1, e2, List.take_left, ← h]
    rw [show (a ++ [p]).length + z.length = ((a ++ [p]) ++ z).length by simp; omega,
      ← List.append_assoc (a ++ [p]), List.drop_left]
    simp
  exact key _ _ _ (by simp)

mutual
theorem writeAll_item : ∀ (i : Item) (stack : List WScope) (out : Bytes),
    writeAll (stack, out) i.events =
      .ok (push1 stack, out ++ writeItem (wnamed stack) i)
  | .val n v, stack, out => by
    simp only [Item.events, writeAll, write_val, writeItem, Res.ok_bind]
  | .scope n t kids, stack, out => by
    simp only [Item.events, writeAll, write_scope, Res.ok_bind, writeAll_append]
    rw [writeAll_items kids t 0 _ (push1 stack)]
    simp only [Res.ok_bind, write]
    rw [show (0 + kids.length) % 2 ^ 32 = kids.length % 2 ^ 32 by simp, patch_head, writeItem]
    simp
theorem writeAll_items : ∀ (is : List Item) (t : ScopeTy) (e k : Nat) (stack : List WScope)
    (out : Bytes),
    writeAll (⟨t, e % 2 ^ 32, k⟩ :: stack, out) (Item.eventsL is) =
      .ok (⟨t, (e + is.length) % 2 ^ 32, k⟩ :: stack, out ++ writeItems (t == .object) is)
  | [], t, e, k, stack, out => by simp [Item.eventsL, writeAll, writeItems]
  | i :: is, t, e, k, stack, out => by
    simp only [Item.eventsL, writeAll_append, writeItems, List.length_cons]
    rw [writeAll_item i]
    simp only [Res.ok_bind, push1, wnamed]
    rw [show (e % 2 ^ 32 + 1) % 2 ^ 32 = (e + 1) % 2 ^ 32 by omega,
      writeAll_items is t (e + 1) k stack]
    simp only [List.append_assoc]
    rw [show e + 1 + is.length = e + (is.length + 1) by omega]
end

theorem writeHead_enc (t : ScopeTy) (n : Nat) (h : n < 2 ^ 32) : EncHead t n (writeHead t n) := by
  unfold writeHead EncHead
  rw [Nat.mod_eq_of_lt h]
  cases t <;> exact Or.inr (Or.inr ⟨h, rfl⟩)

theorem writeKey_enc (named : Bool) (n : Bytes) (h : n.length < 2 ^ 32) :
    EncKey false named (if named then n else []) (writeKey named n) := by
  unfold EncKey writeKey
  cases named
  · simp
  · simp [writeStr_enc n h]

mutual
theorem writeItem_enc : ∀ (i : Item) (named : Bool), ItemOk i →
    Enc false named (Norm.item normVal named i) (writeItem named i)
  | .val n v, named, ⟨h1, h2⟩ => by
    simp only [Norm.item, Enc, writeItem]
    exact ⟨_, _, writeKey_enc named n h1, writeVal_enc v h2, rfl⟩
  | .scope n t kids, named, ⟨h1, h2, h3⟩ => by
    simp only [Norm.item, Enc, writeItem, Norm.length_items]
    exact ⟨_, _, _, writeKey_enc named n h1, writeHead_enc t _ h2, writeItems_enc kids _ h3, rfl⟩
theorem writeItems_enc : ∀ (is : List Item) (named : Bool), ItemsOk is →
    EncL false named (Norm.items normVal named is) (writeItems named is)
  | [], named, _ => by simp [Norm.items, EncL, writeItems]
  | i :: is, named, ⟨h1, h2⟩ => by
    simp only [Norm.items, EncL, writeItems]
    exact ⟨_, _, writeItem_enc i named h1, writeItems_enc is named h2, rfl⟩
end

/-! ## What is written does not depend on what is normalised away -/

theorem writeVal_norm (v : Val) (h : ValOk v) : writeVal (normVal v) = writeVal v := by
  cases v with
  | int t v =>
    obtain ⟨h1, h2⟩ := h
    simp only [normVal, writeVal, writeInt]
    by_cases hp : 0 ≤ v ∧ v ≤ 0x7F
    · simp [hp]
    · rw [if_neg hp, if_neg hp]
      by_cases hv : -31 ≤ v ∧ v ≤ 127
      · have hs : t.signed = true := by
          cases hs : t.signed with
          | true => rfl
          | false => have := lo_unsigned t hs; omega
        rw [if_pos hv, if_pos ⟨rfl, by omega⟩, if_pos ⟨hs, by omega⟩]
      · rw [if_neg hv]
  | _ => rfl

mutual
theorem writeItem_norm : ∀ (i : Item) (named : Bool), ItemOk i →
    writeItem named (Norm.item normVal named i) = writeItem named i
  | .val n v, named, ⟨h1, h2⟩ => by
    simp only [Norm.item, writeItem, writeVal_norm v h2, writeKey]
    cases named <;> simp
  | .scope n t kids, named, ⟨h1, h2, h3⟩ => by
    simp only [Norm.item, writeItem, Norm.length_items, writeItems_norm kids _ h3, writeKey]
    cases named <;> simp
theorem writeItems_norm : ∀ (is : List Item) (named : Bool), ItemsOk is →
    writeItems named (Norm.items normVal named is) = writeItems named is
  | [], _, _ => rfl
  | i :: is, named, ⟨h1, h2⟩ => by
    simp only [Norm.items, writeItems, writeItem_norm i named h1, writeItems_norm is named h2]
end

end Srl.PMsgPack
