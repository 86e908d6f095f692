import Verif.Lemmas.JsonLaxRead

/-! Lemmas about the texts the JSON reader takes: texts of the grammar are read; documents. -/

namespace Srl.Lax
open Rfc8259 PJson Doc

variable {m : Mem} (strtod : Bytes → Option UInt64)

/-- Rounds that are the same -/
theorem reads_same {st : State} {r : Rd} {s s' : Bytes} {y : Event × Rd × Bytes}
    (h : round m strtod r st s = round m strtod r st s') (k : Reads m strtod st r s' y) : Reads m strtod st r s y := by
  cases k with
  | done _ _ _ _ _ _ k => exact .done _ _ _ _ _ _ (h.trans k)
  | more _ _ _ _ _ _ _ k k' => exact .more _ _ _ _ _ _ _ (h.trans k) k'

theorem token_nonempty {word : Bytes → Option Val} {top : Option ScopeTy} {n : Option Bytes} {c : Bool} {e : Event}
    {t : Bytes} : ¬ Token word top n c [] e t := by
  intro h
  cases h

variable (hm : m.Sane)
include hm

theorem round_junk (r : Rd) (st : State) (b : UInt8) (s : Bytes) (h1 : b ∉ marks)
    (h2 : st.readingValue = false ∧ r.stack.head? ≠ some .array ∨ b ∉ starts) {y : Event × Rd × Bytes}
    (k : Reads m strtod st r s y) : Reads m strtod st r (b :: s) y := by
  have hd : isDelim b = false := by
    cases h : isDelim b with
    | false => rfl
    | true => exact absurd ((mem_marks b).mpr h) h1
  by_cases hl : st.readingValue = false ∧ r.stack.head? ≠ some .array
  · refine reads_same strtod ?_ k
    have hf : (!st.readingValue && r.stack.head? != some .array) = true := by simp [hl]
    unfold round skip
    rw [if_pos hf, if_pos hf]
    conv => lhs; rw [moveUntil, if_neg (by simp [hd])]
  · have hb : isLit b = false := by
      cases h : isLit b with
      | false => rfl
      | true => exact absurd ((mem_starts b).mpr h) (h2.resolve_left hl)
    have hf : ¬(!st.readingValue && r.stack.head? != some .array) = true := by
      simpa using hl
    by_cases hk : isBlank b = true
    · refine reads_same strtod ?_ k
      unfold round skip
      rw [if_neg hf, if_neg hf]
      conv => lhs; rw [moveUntil, if_neg (by simp [hk])]
    · refine .more _ st _ r _ s _ ?_ k
      have hno : b ≠ 34 ∧ b ≠ 58 ∧ b ≠ 123 ∧ b ≠ 91 ∧ b ≠ 125 ∧ b ≠ 93 ∧ b ≠ 47 := by
        simp only [isDelim, Bool.or_eq_false_iff, beq_eq_false_iff_ne] at hd
        tauto
      obtain ⟨n1, n2, n3, n4, n5, n6, n7⟩ := hno
      unfold round skip
      rw [if_neg hf, moveUntil_hit _ _ _ _ (by simp [hk])]
      simp only [Res.ok_bind, dispatch, In.cur, if_neg n1, if_neg n2, n3, n4, n5, n6, or_self, if_false, if_neg n7,
        processChar, hb, Bool.false_eq_true, if_true, move_one hm]

theorem round_close (x u s : Bytes) (h : 47 :: 42 :: s = x ++ 42 :: 47 :: u)
    (hx : ∀ y z, x ≠ y ++ 42 :: 47 :: z) (r : Rd) (st : State) :
    round m strtod r st (47 :: 42 :: s) = .ok (.more st, r, 47 :: u) := by
  apply round_slash hm strtod r st (42 :: s) (47 :: u) 42
  unfold skipComment
  rw [if_pos (by simp [In.tryPeek])]
  simp only [List.drop_succ_cons, List.drop_zero, In.cur, Res.ok_bind, if_true]
  rw [h]
  exact until_close x u hx

theorem round_string (r : Rd) (st : State) (q v s : Bytes) (hq : Chars q v) (hu : UOk (q ++ 34 :: s)) (top : ScopeTy)
    (stk : List ScopeTy) (hs : r.stack = top :: stk) :
    ((st.readingValue = true ∨ top = .array) → ∃ r', r'.stack = r.stack ∧
      round m strtod r st (34 :: (q ++ 34 :: s)) = .ok (.done (.val (.str v)), r', s)) ∧
    (st = ⟨none, false⟩ → top = .object → ∃ r', r'.stack = r.stack ∧
      round m strtod r st (34 :: (q ++ 34 :: s)) = .ok (.more ⟨some v, false⟩, r', s)) := by
  obtain ⟨c', hc'⟩ := chars_read hm hq s ((q ++ 34 :: s).length + 1)
    ⟨if st.name.isSome then r.valCap else r.nameCap, if st.name.isSome then r.valCap else r.nameCap⟩ 0 hu
    (by rw [List.length_append]; omega)
  unfold round
  rw [skip_delim m r st 34 _ (by decide)]
  simp only [Res.ok_bind, dispatch, In.cur, if_true, processQuote, hs, move_one hm, hc']
  refine ⟨fun h => ?_, ?_⟩
  · simp only [if_pos h, Res.ok_bind, move_one hm]
    refine ⟨_, ?_, rfl⟩
    split <;> rfl
  · rintro rfl rfl
    simp only [Bool.false_eq_true, reduceCtorEq, or_self, if_false, Option.isSome_none, Res.ok_bind, move_one hm]
    exact ⟨_, rfl, rfl⟩

theorem round_word (r : Rd) (st : State) (b : UInt8) (w : Bytes) (l : UInt8) (s : Bytes) (v : Val)
    (hc : st.readingValue = true ∨ r.stack.head? = some .array) (hb : b ∈ starts) (hw : ∀ b ∈ w, b ∉ ends)
    (hl : l ∈ ends) (hv : wordOf strtod (b :: w) = some v) :
    round m strtod r st (b :: (w ++ l :: s)) =
      .ok (.done (.val v), r, if l = 44 ∨ l = 32 then s else l :: s) := by
  have hlit := (mem_starts b).mp hb
  obtain ⟨h1, h2, h3, h4, h5, h6, h7, h8⟩ := lit_not_delim b hlit
  have hskip : skip m r st (b :: (w ++ l :: s)) = .ok (b :: (w ++ l :: s)) := by
    unfold skip
    rw [if_neg (by rcases hc with hc | hc <;> simp [hc])]
    exact moveUntil_hit _ _ _ _ (by simp [h8])
  have hend := (mem_ends l).mp hl
  have hmv : moveUntil m isLitEnd (b :: (w ++ l :: s)) = .ok (l :: s) := by
    rw [show b :: (w ++ l :: s) = (b :: w) ++ l :: s from rfl, moveUntil_skip, moveUntil_hit _ _ _ _ hend]
    intro x hx
    rcases List.mem_cons.mp hx with rfl | hx
    · exact lit_no_end _ hlit
    · have := hw x hx
      rw [mem_ends] at this
      simpa using this
  have hblock : (b :: (w ++ l :: s)).take ((b :: (w ++ l :: s)).length - (l :: s).length) = b :: w := by
    rw [show b :: (w ++ l :: s) = (b :: w) ++ l :: s from rfl, List.length_append, Nat.add_sub_cancel, List.take_left]
  unfold round
  rw [hskip]
  simp only [wordOf] at hv
  simp only [Res.ok_bind, dispatch, In.cur, if_neg h1, if_neg h2, h3, h4, h5, h6, or_self, if_false,
    if_neg h7, processChar, if_pos hlit, hmv, hblock, hv]
  simp only [isLitEnd, Bool.or_eq_true, beq_iff_eq] at hend
  rcases hend with ((rfl | rfl) | rfl) | rfl
  · simp [move_one hm]
  · simp [move_one hm]
  · simp
  · simp

/-- Tokens of the grammar are read. -/
theorem token_reads {top : Option ScopeTy} {n : Option Bytes} {c : Bool} {s : Bytes} {e : Event} {t : Bytes}
    (h : Token (wordOf strtod) top n c s e t) : UOk s → ∀ r : Rd, r.stack.head? = top →
    ∃ r', Reads m strtod ⟨n, c⟩ r s (e, r', t) ∧ r'.stack = after e.tok r.stack := by
  induction h with
  | junk n c b s e t h1 h2 _ ih =>
    intro hu r hr
    obtain ⟨r', k1, k2⟩ := ih (UOk.suffix (x := [b]) hu) r hr
    exact ⟨r', round_junk strtod hm r ⟨n, c⟩ b s h1 (by rw [hr]; exact h2) k1, k2⟩
  | slash n c s e t h1 h2 h3 ih =>
    intro hu r hr
    obtain ⟨r', k1, k2⟩ := ih (UOk.suffix (x := [47]) hu) r hr
    cases s with
    | nil => exact absurd h3 token_nonempty
    | cons b s =>
      exact ⟨r', .more _ _ _ _ _ _ _ (round_slash hm strtod r _ _ _ 47 (skip_no_comment b s (by simpa using h1)
        (by simpa using h2))) k1, k2⟩
  | line n c x l s e t h1 h2 _ ih =>
    intro hu r hr
    obtain ⟨r', k1, k2⟩ := ih (UOk.suffix (x := 47 :: 47 :: (x ++ [l])) (by simpa using hu)) r hr
    exact ⟨r', .more _ _ _ _ _ _ _ (round_slash hm strtod r _ _ _ l (skip_line x l s h1 h2)) k1, k2⟩
  | block n c s x u e t h1 h2 _ ih =>
    intro hu r hr
    obtain ⟨r', k1, k2⟩ := ih (UOk.suffix (x := x ++ [42]) (by rw [h1] at hu; simpa using hu)) r hr
    exact ⟨r', .more _ _ _ _ _ _ _ (round_close strtod hm x u s h1 h2 r _) k1, k2⟩
  | colon n s e t _ ih =>
    intro hu r hr
    obtain ⟨r', k1, k2⟩ := ih (UOk.suffix (x := [58]) hu) r hr
    refine ⟨r', .more _ _ _ r _ s _ ?_ k1, k2⟩
    unfold round
    rw [skip_delim m r _ 58 _ (by decide)]
    simp [dispatch, In.cur, move_one hm]
  | name q k s e t h1 h2 _ ih =>
    intro hu r hr
    have hu' : UOk (q ++ 34 :: s) := UOk.suffix (x := [34]) hu
    subst h1
    cases hs : r.stack with
    | nil => rw [hs] at hr; cases hr
    | cons top stk =>
      obtain rfl : top = .object := by rw [hs] at hr; simpa using hr
      obtain ⟨r1, g1, g2⟩ := (round_string strtod hm r ⟨none, false⟩ q k s h2 hu' _ stk hs).2 rfl rfl
      obtain ⟨r', k1, k2⟩ := ih (UOk.suffix (x := q ++ [34]) (by simpa using hu')) r1 (by rw [g1]; exact hr)
      exact ⟨r', .more _ _ _ _ _ _ _ g2 k1, by rw [k2, g1, hs]⟩
  | str n c q v s h1 h2 =>
    intro hu r hr
    have hu' : UOk (q ++ 34 :: s) := UOk.suffix (x := [34]) hu
    cases hs : r.stack with
    | nil => rw [hs] at hr; subst hr; simp at h1
    | cons top' stk =>
      obtain ⟨r1, g1, g2⟩ := (round_string strtod hm r ⟨n, c⟩ q v s h2 hu' _ stk hs).1 (by
        rw [hs] at hr
        subst hr
        rcases h1 with h1 | ⟨h1, _⟩
        · exact .inr (by simpa using h1)
        · exact .inl h1)
      exact ⟨r1, .done _ _ _ _ _ _ g2, by rw [g1, hs]; rfl⟩
  | word n c b w l s v h1 h2 h3 h4 h5 =>
    intro hu r hr
    exact ⟨r, .done _ _ _ _ _ _ (round_word strtod hm r ⟨n, c⟩ b w l s v (by rw [hr]; exact h1) h2 h3 h4 h5), rfl⟩
  | opened n c k s =>
    intro hu r hr
    cases k with
    | array =>
      refine ⟨{ r with stack := .array :: r.stack }, .done ⟨n, c⟩ _ _ _ _ _ ?_, rfl⟩
      unfold round
      rw [skip_delim m r _ _ _ (by decide)]
      simp [dispatch, In.cur, processBracket, move_one hm]
    | object =>
      refine ⟨{ r with stack := .object :: r.stack }, .done ⟨n, c⟩ _ _ _ _ _ ?_, rfl⟩
      unfold round
      rw [skip_delim m r _ _ _ (by decide)]
      simp [dispatch, In.cur, processBracket, move_one hm]
  | closed n c b s h1 h2 =>
    intro hu r hr
    cases hs : r.stack with
    | nil => rw [hs] at hr; subst hr; simp at h1
    | cons top' stk =>
      refine ⟨{ r with stack := stk }, .done ⟨n, c⟩ _ _ _ _ _ ?_, rfl⟩
      unfold round
      rw [skip_delim m r _ _ _ (by rcases h2 with rfl | rfl <;> decide)]
      rcases h2 with rfl | rfl <;> simp [dispatch, In.cur, processBracket, hs, move_one hm]

/-! ### Scopes and documents -/

theorem read_token {r r' : Rd} {s t : Bytes} {e : Event} (h : PJson.read m strtod (r, s) = .ok (e, r', t)) :
    (t = [] ∧ ∃ v, e.tok = .val v) ∨
    (Token (wordOf strtod) r.stack.head? none false s e t ∧ r'.stack = after e.tok r.stack) :=
  loop_token strtod hm _ _ _ _ _ _ _ h

theorem readScope_scope : ∀ (fuel d : Nat) (r : Rd) (s : Bytes) (vs : List (Bytes × Val)) (ns : List (Bytes × Node))
    (r' : Rd) (t : Bytes), readScope (PJson.read m strtod) fuel d (r, s) = .ok ((vs, ns), r', t) →
    ∀ ty, r.stack.head? = some ty → d ≤ maxDepth → ∃ is, Scope (wordOf strtod) ty s is t ∧
      vs = Props.keptValues is ∧ ns = Props.keptNodes is ∧ Props.nesting is + d ≤ maxDepth ∧
      r'.stack = r.stack.tail := by
  intro fuel
  induction fuel with
  | zero => intro d r s vs ns r' t h; cases h
  | succ fuel ih =>
    intro d r s vs ns r' t h ty hty hd
    simp only [readScope, Res.bind_eq_ok] at h
    obtain ⟨⟨e, r1, s1⟩, h1, h⟩ := h
    obtain ⟨n, tok⟩ := e
    cases tok with
    | scopeEnd =>
      cases h
      rcases read_token strtod hm h1 with ⟨_, v, hv⟩ | ⟨h2, h3⟩
      · cases hv
      · rw [hty] at h2
        exact ⟨[], .nil _ n _ _ h2, by rw [Props.keptValues], by rw [Props.keptNodes], by simpa [Props.nesting] using hd, h3⟩
    | val v =>
      simp only [Res.bind_eq_ok] at h
      obtain ⟨⟨⟨vs1, ns1⟩, r2, s2⟩, h2, h⟩ := h
      cases h
      rcases read_token strtod hm h1 with ⟨rfl, _⟩ | ⟨h3, h4⟩
      · have := readScope_nil strtod hm fuel d r1
        rw [h2] at this
        rcases this with this | this
        · exact absurd rfl (this.not_ok _)
        · cases this
      · simp only [after] at h4
        obtain ⟨is, g1, g2, g3, g4, g5⟩ := ih d r1 s1 _ _ _ _ h2 ty (by rw [h4]; exact hty) hd
        rw [hty] at h3
        exact ⟨.val n v :: is, .val _ _ _ _ _ _ _ h3 g1, by rw [Props.keptValues, g2], by rw [Props.keptNodes, g3],
          by rw [Props.nesting]; exact g4, by rw [g5, h4]⟩
    | scope k =>
      dsimp only at h
      split at h
      · cases h
      · next hdd =>
        simp only [Res.bind_eq_ok] at h
        obtain ⟨⟨⟨vs1, ns1⟩, r2, s2⟩, h2, ⟨⟨vs2, ns2⟩, r3, s3⟩, h3, h⟩ := h
        cases h
        rcases read_token strtod hm h1 with ⟨_, v, hv⟩ | ⟨h4, h5⟩
        · cases hv
        · simp only [after] at h5
          obtain ⟨is, g1, g2, g3, g4, g5⟩ := ih (d + 1) r1 s1 _ _ _ _ h2 k (by rw [h5]; rfl) (by omega)
          rw [h5] at g5
          simp only [List.tail_cons] at g5
          obtain ⟨js, f1, f2, f3, f4, f5⟩ := ih d r2 s2 _ _ _ _ h3 ty (by rw [g5]; exact hty) hd
          rw [hty] at h4
          exact ⟨.scope n k is :: js, .scope _ _ _ _ _ _ _ _ _ h4 g1 f1, by rw [Props.keptValues, f2],
            by rw [Props.keptNodes, f3, g2, g3], by rw [Props.nesting]; omega, by rw [f5, g5]⟩

/-- Accepted texts are documents of the grammar. -/
theorem load_document {old r : Rd} {s : Bytes} {root : Root} {t : Bytes}
    (h : loadWith m strtod old s = .ok (root, r, t)) :
    ∃ k is, Document (wordOf strtod) s k is t ∧ Props.nesting is ≤ maxDepth ∧
      root.node = .mk k (Props.keptValues is) (Props.keptNodes is) := by
  simp only [loadWith, Doc.load, Res.bind_eq_ok] at h
  obtain ⟨⟨⟨n, tok⟩, r1, s1⟩, h1, h⟩ := h
  cases tok with
  | scopeEnd => cases h
  | val v => cases h
  | scope k =>
    simp only [Res.bind_eq_ok] at h
    obtain ⟨⟨⟨vs, ns⟩, r2, s2⟩, h2, h⟩ := h
    cases h
    rcases read_token strtod hm h1 with ⟨_, v, hv⟩ | ⟨h3, h4⟩
    · cases hv
    · simp only [after] at h4
      obtain ⟨is, g1, g2, g3, g4, _⟩ := readScope_scope strtod hm _ 0 _ _ _ _ _ _ h2 k (by rw [h4]; rfl) (by decide)
      exact ⟨k, is, ⟨n, s1, h3, g1⟩, g4, by rw [g2, g3]⟩

theorem token_read {top : Option ScopeTy} {s : Bytes} {e : Event} {t : Bytes}
    (h : Token (wordOf strtod) top none false s e t) (hu : UOk s) (r : Rd) (hr : r.stack.head? = top) :
    ∃ r', PJson.read m strtod (r, s) = .ok (e, r', t) ∧ r'.stack = after e.tok r.stack ∧
      t.length < s.length ∧ UOk t := by
  obtain ⟨r', h1, h2⟩ := token_reads strtod hm h hu r hr
  have h3 := reads_read hm strtod h1
  obtain ⟨y, hy, rfl⟩ := (loop_progress strtod hm _ _ _ _).1 _ _ _ h3
  refine ⟨r', h3, h2, ?_, hu.suffix⟩
  rw [List.length_append]
  have := List.length_pos_iff.mpr hy
  omega

theorem scope_read {ty : ScopeTy} {s : Bytes} {is : List Item} {t : Bytes} (h : Scope (wordOf strtod) ty s is t) :
    UOk s → ∀ (r : Rd) (d fuel : Nat), r.stack.head? = some ty → s.length < fuel →
    Props.nesting is + d ≤ maxDepth → ∃ r', readScope (PJson.read m strtod) fuel d (r, s) =
      .ok ((Props.keptValues is, Props.keptNodes is), r', t) ∧ r'.stack = r.stack.tail ∧ t.length < s.length ∧
      UOk t := by
  induction h with
  | nil ty n s t h =>
    intro hu r d fuel hr hf _
    obtain ⟨r1, h1, h2, h3, h4⟩ := token_read strtod hm h hu r hr
    cases fuel with
    | zero => simp at hf
    | succ fuel =>
      refine ⟨r1, ?_, h2, h3, h4⟩
      rw [readScope, h1]
      simp only [Res.ok_bind, Props.keptValues, Props.keptNodes]
  | val ty n v is s u t h _ ih =>
    intro hu r d fuel hr hf hd
    obtain ⟨r1, h1, h2, h3, h4⟩ := token_read strtod hm h hu r hr
    simp only [after] at h2
    cases fuel with
    | zero => simp at hf
    | succ fuel =>
      obtain ⟨r2, g1, g2, g3, g4⟩ := ih h4 r1 d fuel (by rw [h2]; exact hr) (by omega) (by
        rw [Props.nesting] at hd; exact hd)
      refine ⟨r2, ?_, by rw [g2, h2], by omega, g4⟩
      rw [readScope, h1]
      simp only [Res.ok_bind, g1, Props.keptValues, Props.keptNodes]
  | scope ty k n is js s u w t h _ _ ih1 ih2 =>
    intro hu r d fuel hr hf hd
    obtain ⟨r1, h1, h2, h3, h4⟩ := token_read strtod hm h hu r hr
    simp only [after] at h2
    rw [Props.nesting] at hd
    cases fuel with
    | zero => simp at hf
    | succ fuel =>
      obtain ⟨r2, g1, g2, g3, g4⟩ := ih1 h4 r1 (d + 1) fuel (by rw [h2]; rfl) (by omega) (by omega)
      rw [h2] at g2
      simp only [List.tail_cons] at g2
      obtain ⟨r3, f1, f2, f3, f4⟩ := ih2 g4 r2 d fuel (by rw [g2]; exact hr) (by omega) (by omega)
      refine ⟨r3, ?_, by rw [f2, g2], by omega, f4⟩
      rw [readScope, h1]
      simp only [Res.ok_bind]
      rw [if_neg (by omega)]
      simp only [g1, f1, Res.ok_bind, Props.keptValues, Props.keptNodes]

/-- Documents of the grammar are accepted. -/
theorem document_load (old : Rd) {s : Bytes} {k : ScopeTy} {is : List Item} {t : Bytes}
    (h : Document (wordOf strtod) s k is t) (hu : UOk s) (hd : Props.nesting is ≤ maxDepth) :
    ∃ n r, loadWith m strtod old s =
      .ok (⟨n, .mk k (Props.keptValues is) (Props.keptNodes is)⟩, r, t) := by
  obtain ⟨n, u, h1, h2⟩ := h
  obtain ⟨r1, g1, g2, g3, g4⟩ := token_read strtod hm h1 hu old.clear rfl
  simp only [after] at g2
  obtain ⟨r2, f1, _⟩ := scope_read strtod hm h2 g4 r1 0 (s.length + 1) (by rw [g2]; rfl) (by omega) (by omega)
  refine ⟨n, r2, ?_⟩
  unfold loadWith Doc.load
  rw [g1]
  simp only [Res.ok_bind, f1]

end Srl.Lax
