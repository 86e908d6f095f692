import Verif.Model.PSrl
import Verif.Lemmas.Doc
import Verif.Lemmas.Vlq

namespace Srl.PSrl

/-! ## Specification side: what a document written in the Srl format means -/

/-- Values the format can carry: integers in the range of their type other than `INT64_MIN`,
doubles that do not fit a `float` (others are kept as `float` by `Value`, Value.hpp:19-25), and
blocks below 4 GiB (`PackedBlock::size` has 32 bits). -/
def ValOk : Val → Prop
  | .int t v => t.lo ≤ v ∧ v ≤ t.hi ∧ v ≠ -(2 ^ 63 : Nat)
  | .fp64 d => Fp.ofDouble d = .fp64 d
  | .str s => s.length < 2 ^ 32
  | .bin s => s.length < 2 ^ 32
  | _ => True

instance : DecidablePred ValOk := fun v => by cases v <;> unfold ValOk <;> infer_instance

/-- Integers come back as the widest type of their sign. Nothing else changes. -/
def normVal : Val → Val
  | .int _ v => .int (if v < 0 then .i64 else .u64) v
  | v => v

mutual
/-- The document that comes back: names are kept in objects only. -/
def normItem (named : Bool) : Item → Item
  | .val n v => .val (if named then n else []) (normVal v)
  | .scope n t kids => .scope (if named then n else []) t (normItems (t == .object) kids)
def normItems (named : Bool) : List Item → List Item
  | [] => []
  | i :: is => normItem named i :: normItems named is
end

mutual
def ItemOk : Item → Prop
  | .val n v => n.length < 2 ^ 32 ∧ ValOk v
  | .scope n _ kids => n.length < 2 ^ 32 ∧ ItemsOk kids
def ItemsOk : List Item → Prop
  | [] => True
  | i :: is => ItemOk i ∧ ItemsOk is
end

/-! ## One token -/

def TokOk : Tok → Prop
  | .val v => ValOk v
  | _ => True

theorem indexOf_some {name : Bytes} {ns : List Bytes} {i : Nat} (h : indexOf name ns = some i) :
    ns[i]? = some name := by
  induction ns generalizing i with
  | nil => cases h
  | cons n ns ih =>
    unfold indexOf at h
    split at h
    · cases h; simp_all
    · cases hi : indexOf name ns with
      | none => rw [hi] at h; cases h
      | some j => rw [hi] at h; cases h; simpa using ih hi

theorem indexOf_lt {name : Bytes} {ns : List Bytes} {i : Nat} (h : indexOf name ns = some i) :
    i < ns.length := by
  have := indexOf_some h
  exact (List.getElem?_eq_some_iff.mp this).1

/-- The name that comes back. -/
def normName (st : St) (name : Bytes) : Bytes := if st.stack.head? = some .object then name else []

theorem flag_head (flag : UInt8) (h : flag &&& 6 = 0) :
    flag &&& fNamed = 0 ∧ (flag ||| fNamed) &&& fNamed ≠ 0 ∧
    (flag ||| fNamed) &&& fIndexed = 0 ∧ ((flag ||| fNamed) ||| fIndexed) &&& fNamed ≠ 0 ∧
    ((flag ||| fNamed) ||| fIndexed) &&& fIndexed ≠ 0 := by
  revert flag; unfold fNamed fIndexed; decide +kernel

theorem readHead_cons {m : Mem} (hm : m.Sane) (st : St) (F : UInt8) (s : Bytes) :
    readHead m st (F :: s) =
      if F &&& fNamed = 0 ∨ st.stack.head? ≠ some .object then .ok (F, [], st.names, s)
      else if F &&& fIndexed ≠ 0 then do
        let (index, s) ← Vlq.decode m s
        match st.names[index]? with
        | none => .err
        | some name => .ok (F, name, st.names, s)
      else (do
        let (size, s) ← Vlq.decode m s
        let (name, s) ← In.readBlock m size s
        .ok (F, name, st.names ++ [name], s)) := by
  unfold readHead
  rw [show F :: s = [F] ++ s from rfl, In.readBlock_append hm (by rfl)]
  rfl

/-- The head: what was written is read, with flag bits 1 and 2 set as needed. -/
theorem readHead_writeHead {m : Mem} (hm : m.Sane) (st : St) (flag : UInt8) (name : Bytes)
    (hf : flag &&& 6 = 0) (hn : name.length < 2 ^ 32) (hns : st.names.length < 2 ^ 64) :
    ∃ flag' names' h, writeHead st flag name = .ok (names', h) ∧
      (flag' = flag ∨ flag' = flag ||| fNamed ∨ flag' = (flag ||| fNamed) ||| fIndexed) ∧
      names'.length ≤ st.names.length + 1 ∧
      ∀ rest, readHead m st (h ++ rest) = .ok (flag', normName st name, names', rest) := by
  obtain ⟨h1, h2, h3, h4, h5⟩ := flag_head flag hf
  unfold writeHead normName
  split
  · rename_i hc
    refine ⟨flag, _, _, rfl, Or.inl rfl, by omega, fun rest => ?_⟩
    rw [List.singleton_append, readHead_cons hm, if_pos (Or.inl h1)]
    congr 2
    split
    · rename_i ho
      rcases hc with hc | hc
      · cases name
        · rfl
        · simp at hc
      · exact absurd ho hc
    · rfl
  · rename_i hc
    have hobj : st.stack.head? = some .object := by
      by_cases h : st.stack.head? = some .object
      · exact h
      · exact absurd (Or.inr h) hc
    simp only [hobj, if_true]
    cases hi : indexOf name st.names with
    | some i =>
      have hlt := indexOf_lt hi
      simp only [Vlq.encode_eq i (by omega)]
      refine ⟨_, _, _, rfl, Or.inr (Or.inr rfl), by omega, fun rest => ?_⟩
      rw [List.cons_append, readHead_cons hm, if_neg (by simp [h4, hobj]), if_pos h5, Vlq.decode_bytes hm i (by omega)]
      simp only [Res.ok_bind]
      rw [indexOf_some hi]
    | none =>
      simp only [Vlq.encode_eq name.length (by omega)]
      refine ⟨_, _, _, rfl, Or.inr (Or.inl rfl), by simp, fun rest => ?_⟩
      rw [List.cons_append, List.append_assoc, readHead_cons hm, if_neg (by simp [h2, hobj]), if_neg (by simp [h3]), Vlq.decode_bytes hm _ (by omega)]
      simp only [Res.ok_bind]
      rw [In.readBlock_append hm rfl]
      rfl

/-- The three ways a flag may be extended by the head. -/
def Ext (flag flag' : UInt8) : Prop :=
  flag' = flag ∨ flag' = flag ||| fNamed ∨ flag' = (flag ||| fNamed) ||| fIndexed

instance (a b : UInt8) : Decidable (Ext a b) := by unfold Ext; infer_instance

theorem flagOf_low (t : Tok) : flagOf t &&& 6 = 0 := by
  rcases t with v | t | _
  · cases v <;> simp only [flagOf] <;> try decide
    · split <;> decide
    · split <;> decide
  · cases t <;> decide
  · decide

theorem ext_num (flag flag' : UInt8) (h : Ext flag flag') (h1 : flag &&& fNum ≠ 0) :
    flag' ≠ 0 ∧ flag' &&& fNum ≠ 0 ∧ flag' &&& (fTrue ||| fFalse) = flag &&& (fTrue ||| fFalse) ∧
    flag' &&& fTrue = flag &&& fTrue ∧
    flag' &&& fFP32 = flag &&& fFP32 ∧ flag' &&& fFP64 = flag &&& fFP64 ∧
    flag' &&& fSigned = flag &&& fSigned := by
  rcases h with h | h | h <;> rw [h] <;> clear h flag' <;> revert flag <;> decide +kernel

theorem ext_other (flag flag' : UInt8) (h : Ext flag flag') (h1 : flag &&& fNum = 0)
    (h2 : flag &&& 248 ≠ 0) :
    flag' ≠ 0 ∧ flag' &&& fNum = 0 ∧ flag' &&& (fObject ||| fArray) = flag &&& (fObject ||| fArray) ∧
    flag' &&& fObject = flag &&& fObject ∧ flag' &&& (fBinary ||| fString) = flag &&& (fBinary ||| fString) ∧
    flag' &&& fBinary = flag &&& fBinary ∧ flag' &&& fNull = flag &&& fNull := by
  rcases h with h | h | h <;> rw [h] <;> clear h flag' <;> revert flag <;> decide +kernel

theorem toI64_of_lt (n : Nat) (h : n < 2 ^ 63) : toI64 n = n := by
  unfold toI64; rw [if_pos h]

theorem IntTy.hi_lt (t : IntTy) : t.hi < (2 ^ 64 : Nat) := by cases t <;> decide
theorem IntTy.lo_ge (t : IntTy) : -(2 ^ 63 : Nat) ≤ t.lo := by cases t <;> decide
theorem IntTy.lo_unsigned (t : IntTy) (h : t.signed = false) : t.lo = 0 := by
  simp [IntTy.lo, h]

theorem readRest_scope (m : Mem) (stack : List ScopeTy) (t : ScopeTy) (flag' : UInt8)
    (h : Ext (flagOf (.scope t)) flag') (name : Bytes) (names : List Bytes) (s : Bytes) :
    readRest m stack flag' name names s = .ok (⟨name, .scope t⟩, (⟨t :: stack, names⟩, s)) := by
  cases t
  · obtain ⟨h0, h1, h2, h3, h4, h5, h6⟩ := ext_other _ _ h (by decide) (by decide)
    unfold readRest
    rw [if_neg h0, if_pos ⟨h1, by rw [h2]; decide⟩, if_pos (by rw [h3]; decide)]
  · obtain ⟨h0, h1, h2, h3, h4, h5, h6⟩ := ext_other _ _ h (by decide) (by decide)
    unfold readRest
    rw [if_neg h0, if_pos ⟨h1, by rw [h2]; decide⟩, if_neg (by rw [h3]; decide)]

/-- Reading the body that was written for a value. -/
theorem readRest_writeBody {m : Mem} (hm : m.Sane) (stack : List ScopeTy) (v : Val) (hv : ValOk v)
    (flag' : UInt8) (h : Ext (flagOf (.val v)) flag') :
    ∃ b, writeBody v = .ok b ∧ ∀ name names rest,
      readRest m stack flag' name names (b ++ rest) =
        .ok (⟨name, .val (normVal v)⟩, (⟨stack, names⟩, rest)) := by
  cases v with
  | null =>
    simp only [flagOf] at h
    obtain ⟨h0, h1, h2, h3, h4, h5, h6⟩ := ext_other _ _ h (by decide) (by decide)
    refine ⟨_, rfl, fun name names rest => ?_⟩
    unfold readRest
    rw [if_neg h0, if_neg (fun hh => hh.2 (by rw [h2]; decide)), if_neg (by simp [h1]), if_neg (by rw [h4]; decide),
      if_pos (by rw [h6]; decide)]
    rfl
  | bool b =>
    refine ⟨_, rfl, fun name names rest => ?_⟩
    cases b
    all_goals
      simp only [flagOf] at h
      obtain ⟨h0, h1, h2, h3, h4, h5, h6⟩ := ext_num _ _ h (by decide)
      unfold readRest
      rw [if_neg h0, if_neg (by simp [h1]), if_pos h1]
      unfold readNum
      rw [if_pos (by rw [h2]; decide), h3]
      rfl
  | fp32 f =>
    refine ⟨_, rfl, fun name names rest => ?_⟩
    simp only [flagOf] at h
    obtain ⟨h0, h1, h2, h3, h4, h5, h6⟩ := ext_num _ _ h (by decide)
    unfold readRest
    rw [if_neg h0, if_neg (by simp [h1]), if_pos h1]
    unfold readNum
    rw [if_neg (by rw [h2]; decide), if_pos (by rw [h4]; decide), In.readBlock_append hm (by simp)]
    simp only [Res.ok_bind]
    rw [leNat_leBytes 4 _ (by have := f.toNat_lt; omega)]
    simp [normVal]
  | fp64 d =>
    refine ⟨_, rfl, fun name names rest => ?_⟩
    simp only [flagOf] at h
    obtain ⟨h0, h1, h2, h3, h4, h5, h6⟩ := ext_num _ _ h (by decide)
    unfold readRest
    rw [if_neg h0, if_neg (by simp [h1]), if_pos h1]
    unfold readNum
    rw [if_neg (by rw [h2]; decide), if_neg (by rw [h4]; decide), if_pos (by rw [h5]; decide),
      In.readBlock_append hm (by simp)]
    simp only [Res.ok_bind]
    rw [leNat_leBytes 8 _ (by have := d.toNat_lt; omega), UInt64.ofNat_toNat, hv]
    rfl
  | str s =>
    have hl : s.length < 2 ^ 32 := hv
    simp only [flagOf] at h
    obtain ⟨h0, h1, h2, h3, h4, h5, h6⟩ := ext_other _ _ h (by decide) (by decide)
    refine ⟨Vlq.bytes s.length ++ s, ?_, fun name names rest => ?_⟩
    · simp only [writeBody]; rw [Vlq.encode_eq _ (by omega)]; rfl
    unfold readRest
    rw [if_neg h0, if_neg (fun hh => hh.2 (by rw [h2]; decide)), if_neg (by simp [h1]), if_pos (by rw [h4]; decide),
      List.append_assoc, Vlq.decode_bytes hm _ (by omega)]
    simp only [Res.ok_bind]
    rw [In.readBlock_append hm rfl]
    simp only [Res.ok_bind]
    rw [if_neg (by rw [h5]; decide), Nat.mod_eq_of_lt hl, List.take_length]
    rfl
  | bin s =>
    have hl : s.length < 2 ^ 32 := hv
    simp only [flagOf] at h
    obtain ⟨h0, h1, h2, h3, h4, h5, h6⟩ := ext_other _ _ h (by decide) (by decide)
    refine ⟨Vlq.bytes s.length ++ s, ?_, fun name names rest => ?_⟩
    · simp only [writeBody]; rw [Vlq.encode_eq _ (by omega)]; rfl
    unfold readRest
    rw [if_neg h0, if_neg (fun hh => hh.2 (by rw [h2]; decide)), if_neg (by simp [h1]), if_pos (by rw [h4]; decide),
      List.append_assoc, Vlq.decode_bytes hm _ (by omega)]
    simp only [Res.ok_bind]
    rw [In.readBlock_append hm rfl]
    simp only [Res.ok_bind]
    rw [if_pos (by rw [h5]; decide), Nat.mod_eq_of_lt hl, List.take_length]
    rfl
  | int t v =>
    obtain ⟨hlo, hhi, hmin⟩ := hv
    have hhi' := IntTy.hi_lt t
    have hlo' := IntTy.lo_ge t
    simp only [flagOf] at h
    by_cases hneg : v < 0
    · have hs : t.signed = true := by
        cases hs : t.signed with
        | true => rfl
        | false => have := IntTy.lo_unsigned t hs; omega
      rw [if_pos (by simp [hs, hneg])] at h
      obtain ⟨h0, h1, h2, h3, h4, h5, h6⟩ := ext_num _ _ h (by decide)
      refine ⟨Vlq.bytes (-v).toNat, ?_, fun name names rest => ?_⟩
      · simp only [writeBody]
        rw [if_pos ⟨hs, hneg⟩, if_neg hmin, Vlq.encode_eq _ (by omega)]
      unfold readRest
      rw [if_neg h0, if_neg (by simp [h1]), if_pos h1]
      unfold readNum
      rw [if_neg (by rw [h2]; decide), if_neg (by rw [h4]; decide), if_neg (by rw [h5]; decide),
        Vlq.decode_bytes hm _ (by omega)]
      simp only [Res.ok_bind]
      rw [if_pos (by rw [h6]; decide), toI64_of_lt _ (by omega), if_neg (by omega)]
      simp only [Res.ok_bind, normVal, if_pos hneg]
      rw [show -((-v).toNat : Int) = v by omega]
    · rw [if_neg (by simp; omega)] at h
      obtain ⟨h0, h1, h2, h3, h4, h5, h6⟩ := ext_num _ _ h (by decide)
      refine ⟨Vlq.bytes v.toNat, ?_, fun name names rest => ?_⟩
      · simp only [writeBody]
        rw [if_neg (by omega), Vlq.encode_eq _ (by omega)]
      unfold readRest
      rw [if_neg h0, if_neg (by simp [h1]), if_pos h1]
      unfold readNum
      rw [if_neg (by rw [h2]; decide), if_neg (by rw [h4]; decide), if_neg (by rw [h5]; decide),
        Vlq.decode_bytes hm _ (by omega)]
      simp only [Res.ok_bind]
      rw [if_neg (by rw [h6]; decide)]
      simp only [Res.ok_bind, normVal, if_neg hneg]
      rw [show (v.toNat : Int) = v by omega]

/-- The token that comes back. -/
def normTok : Tok → Tok
  | .val v => .val (normVal v)
  | t => t

def normEvent (st : St) (e : Event) : Event :=
  match e.tok with
  | .scopeEnd => ⟨[], .scopeEnd⟩
  | t => ⟨normName st e.name, normTok t⟩

/-- What happens to the stack of scopes. -/
def next (stack : List ScopeTy) : Tok → List ScopeTy
  | .val _ => stack
  | .scope t => t :: stack
  | .scopeEnd => stack.tail

/-- One token: it can be written, and what was written reads as that token and leaves the reader
in the state of the writer. -/
theorem read_write {m : Mem} (hm : m.Sane) (st : St) (e : Event) (he : TokOk e.tok)
    (hn : e.name.length < 2 ^ 32) (hns : st.names.length < 2 ^ 64)
    (hst : e.tok = .scopeEnd → st.stack ≠ []) :
    ∃ st' b, write st e = .ok (st', b) ∧ st'.stack = next st.stack e.tok ∧
      st'.names.length ≤ st.names.length + 1 ∧
      ∀ rest, read m (st, b ++ rest) = .ok (normEvent st e, (st', rest)) := by
  obtain ⟨name, tok⟩ := e
  cases tok with
  | scopeEnd =>
    cases hs : st.stack with
    | nil => exact absurd hs (hst rfl)
    | cons t stack =>
      refine ⟨⟨stack, st.names⟩, [0], ?_, ?_, by simp, fun rest => ?_⟩
      · simp [write, hs]
      · simp [next]
      · simp only [read, List.singleton_append]
        rw [readHead_cons hm, if_pos (Or.inl (by decide))]
        simp [readRest, hs, normEvent]
  | scope t =>
    obtain ⟨flag', names', h, h1, h2, h3, h4⟩ :=
      readHead_writeHead hm st (flagOf (.scope t)) name (flagOf_low _) hn hns
    refine ⟨⟨t :: st.stack, names'⟩, h, ?_, rfl, h3, fun rest => ?_⟩
    · simp [write, h1]
    · simp only [read, h4, Res.ok_bind]
      rw [readRest_scope m _ t flag' h2]
      rfl
  | val v =>
    obtain ⟨flag', names', h, h1, h2, h3, h4⟩ :=
      readHead_writeHead hm st (flagOf (.val v)) name (flagOf_low _) hn hns
    obtain ⟨b, h5, h6⟩ := readRest_writeBody hm st.stack v he flag' h2
    refine ⟨⟨st.stack, names'⟩, h ++ b, ?_, rfl, h3, fun rest => ?_⟩
    · simp [write, h1, h5]
    · simp only [read, List.append_assoc, h4, Res.ok_bind, h6]
      rfl

/-! ## Documents -/

open Doc

/-- The reader gives `es'` on what the writer writes for `es`, for every continuation. -/
def Codes (m : Mem) (st : St) (es es' : List Event) (st' : St) : Prop :=
  ∃ b, writeAll st es = .ok (st', b) ∧ ∀ rest, Emits (read m) (st, b ++ rest) es' (st', rest)

theorem Codes.nil (m : Mem) (st : St) : Codes m st [] [] st :=
  ⟨[], rfl, fun _ => .nil _⟩

theorem writeAll_append {st : St} {a b : List Event} :
    writeAll st (a ++ b) = (do
      let (st, x) ← writeAll st a
      let (st, y) ← writeAll st b
      .ok (st, x ++ y)) := by
  induction a generalizing st with
  | nil =>
    simp only [List.nil_append, writeAll, Res.ok_bind]
    cases writeAll st b <;> rfl
  | cons e a ih =>
    simp only [List.cons_append, writeAll]
    cases write st e with
    | ok x =>
      simp only [Res.ok_bind, ih]
      cases writeAll x.1 a with
      | ok y =>
        simp only [Res.ok_bind]
        cases writeAll y.1 b with
        | ok z => simp
        | _ => rfl
      | _ => rfl
    | _ => rfl

theorem Codes.append {m : Mem} {st st1 st2 : St} {a a' b b' : List Event}
    (h1 : Codes m st a a' st1) (h2 : Codes m st1 b b' st2) : Codes m st (a ++ b) (a' ++ b') st2 := by
  obtain ⟨x, hx, ex⟩ := h1
  obtain ⟨y, hy, ey⟩ := h2
  refine ⟨x ++ y, ?_, fun rest => ?_⟩
  · rw [writeAll_append, hx]; simp only [Res.ok_bind, hy]
  · rw [List.append_assoc]
    exact emits_append.mpr ⟨_, ex _, ey _⟩

theorem codes_one {m : Mem} (hm : m.Sane) (st : St) (e : Event) (he : TokOk e.tok)
    (hn : e.name.length < 2 ^ 32) (hns : st.names.length < 2 ^ 64)
    (hst : e.tok = .scopeEnd → st.stack ≠ []) :
    ∃ st', Codes m st [e] [normEvent st e] st' ∧ st'.stack = next st.stack e.tok ∧
      st'.names.length ≤ st.names.length + 1 := by
  obtain ⟨st', b, h1, h2, h3, h4⟩ := read_write hm st e he hn hns hst
  refine ⟨st', ⟨b, ?_, fun rest => ?_⟩, h2, h3⟩
  · simp [writeAll, h1]
  · exact .cons (h4 rest) (.nil _)

def inObject (st : St) : Bool := st.stack.head? == some .object

theorem normName_eq (st : St) (n : Bytes) : normName st n = if inObject st then n else [] := by
  unfold normName inObject; simp

theorem inObject_eq {st st' : St} (h : st'.stack = st.stack) : inObject st' = inObject st := by
  unfold inObject; rw [h]

mutual
theorem codes_item {m : Mem} (hm : m.Sane) : ∀ (i : Item) (st : St), ItemOk i →
    st.names.length + i.events.length < 2 ^ 64 →
    ∃ st', Codes m st i.events (normItem (inObject st) i).events st' ∧ st'.stack = st.stack ∧
      st'.names.length ≤ st.names.length + i.events.length
  | .val n v, st, hi, hl => by
    obtain ⟨hn, hv⟩ := hi
    obtain ⟨st', h1, h2, h3⟩ := codes_one hm st ⟨n, .val v⟩ hv hn (by omega) (by simp)
    refine ⟨st', ?_, h2, by simpa [Item.events] using h3⟩
    simpa [Item.events, normItem, normEvent, normName_eq, normTok] using h1
  | .scope n t kids, st, hi, hl => by
    obtain ⟨hn, hk⟩ := hi
    simp only [Item.events, List.length_cons, List.length_append, List.length_nil] at hl
    obtain ⟨st1, h1, h2, h3⟩ := codes_one hm st ⟨n, .scope t⟩ trivial hn (by omega) (by simp)
    obtain ⟨st2, k1, k2, k3⟩ := codes_items hm kids st1 hk (by omega)
    have hs2 : st2.stack = t :: st.stack := by rw [k2, h2]; rfl
    obtain ⟨st3, e1, e2, e3⟩ := codes_one hm st2 ⟨[], .scopeEnd⟩ trivial (by simp)
      (by omega) (by simp [hs2])
    refine ⟨st3, ?_, ?_, ?_⟩
    · have := (h1.append k1).append e1
      have hb : inObject st1 = (t == .object) := by
        unfold inObject; rw [h2]; cases t <;> rfl
      rw [hb] at this
      simpa [Item.events, normItem, normEvent, normName_eq, normTok] using this
    · rw [e2, hs2]; rfl
    · simp only [Item.events, List.length_cons, List.length_append, List.length_nil]; omega
theorem codes_items {m : Mem} (hm : m.Sane) : ∀ (is : List Item) (st : St), ItemsOk is →
    st.names.length + (Item.eventsL is).length < 2 ^ 64 →
    ∃ st', Codes m st (Item.eventsL is) (Item.eventsL (normItems (inObject st) is)) st' ∧
      st'.stack = st.stack ∧ st'.names.length ≤ st.names.length + (Item.eventsL is).length
  | [], st, _, _ => ⟨st, by simpa [Item.eventsL, normItems] using Codes.nil m st, rfl, by omega⟩
  | i :: is, st, hi, hl => by
    obtain ⟨hi, his⟩ := hi
    simp only [Item.eventsL, List.length_append] at hl
    obtain ⟨st1, h1, h2, h3⟩ := codes_item hm i st hi (by omega)
    obtain ⟨st2, k1, k2, k3⟩ := codes_items hm is st1 his (by omega)
    refine ⟨st2, ?_, by rw [k2, h2], ?_⟩
    · have := h1.append k1
      rw [inObject_eq h2] at this
      simpa [Item.eventsL, normItems] using this
    · simp only [Item.eventsL, List.length_append]; omega
end

end Srl.PSrl
