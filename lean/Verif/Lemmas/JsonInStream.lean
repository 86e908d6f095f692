import Verif.Lemmas.JsonIn
import Verif.Lemmas.StreamJsonDoc

/-! Texts that follow the grammar of RFC 8259 have short literals if their numbers are short and there are few tabs and
line ends in a row. -/

namespace Srl.Rfc8259
open Dec PJson Doc

theorem Runs.suffix {x y : Bytes} (h : Runs (x ++ y)) : Runs y := by
  intro a w b hb hw
  exact h (x ++ a) w b (by rw [hb, List.append_assoc]) hw

theorem Runs.drop {c : UInt8} {y : Bytes} (h : Runs (c :: y)) : Runs y := Runs.suffix (x := [c]) h

section
variable {uni : Bool} {N N' : Bytes → Bool → ℚ → Prop} (hN : ∀ t neg v, N t neg v → N' t neg v)
include hN

mutual
theorem text_imp : ∀ {t : Bytes} {x : Json}, Text uni N t x → Text uni N' t x
  | _, _, .null => .null
  | _, _, .true => .true
  | _, _, .false => .false
  | _, _, .num _ _ _ h => .num _ _ _ (hN _ _ _ h)
  | _, _, .str _ _ h => .str _ _ h
  | _, _, .arr0 _ h => .arr0 _ h
  | _, _, .arr _ _ h => .arr _ _ (elems_imp h)
  | _, _, .obj0 _ h => .obj0 _ h
  | _, _, .obj _ _ h => .obj _ _ (members_imp h)
theorem elems_imp : ∀ {t : Bytes} {xs : List Json}, Elems uni N t xs → Elems uni N' t xs
  | _, _, .one _ _ _ _ h1 h2 h3 => .one _ _ _ _ h1 (text_imp h2) h3
  | _, _, .more _ _ _ _ _ _ h1 h2 h3 h4 => .more _ _ _ _ _ _ h1 (text_imp h2) h3 (elems_imp h4)
theorem members_imp : ∀ {t : Bytes} {ms : List (Bytes × Json)}, Members uni N t ms → Members uni N' t ms
  | _, _, .one _ _ _ _ _ _ _ _ h1 h2 h3 h4 h5 h6 => .one _ _ _ _ _ _ _ _ h1 h2 h3 h4 (text_imp h5) h6
  | _, _, .more _ _ _ _ _ _ _ _ _ _ h1 h2 h3 h4 h5 h6 h7 =>
    .more _ _ _ _ _ _ _ _ _ _ h1 h2 h3 h4 (text_imp h5) h6 (members_imp h7)
end

/-- With further kinds of numbers -/
theorem documentOf_imp {t : Bytes} {x : Json} (h : DocumentOf uni N t x) : DocumentOf uni N' t x := by
  obtain ⟨a, u, b, h1, h2, h3, h4⟩ := h
  exact ⟨a, u, b, h1, h2, text_imp hN h3, h4⟩

end

variable {m : Mem} (hm : m.Sane) (strtod : Bytes → Option UInt64)
include hm

theorem below_literal (r : Rd) (st : State) (top : ScopeTy) (stk : List ScopeTy)
    (hs : r.stack = top :: stk) (hv : st.readingValue = true ∨ top = .array) (t tail : Bytes) (w : Val)
    (ht : LitOk t) (hlen : t.length ≤ 800) (htail : Tail tail) (hruns : Runs tail)
    (hw : IntStr.strToType strtod (t.contains 46) t = some w)
    (hnext : ∀ r' R, r'.stack = r.stack → R.dropWhile isBlank = tail.dropWhile isBlank →
      LitsBelow strtod m ⟨none, false⟩ r' R) : LitsBelow strtod m st r (t ++ tail) := by
  obtain ⟨R, h5, h6⟩ := literal_round hm strtod r st top stk hs hv t tail w ht htail hw
  obtain ⟨ws, c, rest, rfl, hws, hc⟩ := tail_end htail
  have hwl : ws.length ≤ 200 := hruns [] ws (c :: rest) rfl hws
  cases t with
  | nil => simp [LitOk, isLit, Srl.str] at ht
  | cons b t =>
    have hskip : skip m r st (b :: (t ++ (ws ++ c :: rest))) = .ok (b :: (t ++ (ws ++ c :: rest))) := by
      unfold skip
      rw [if_neg (by rcases hv with hv | hv <;> simp [hv, hs])]
      exact moveUntil_hit _ _ _ _ (by simp [(lit_not_delim b ht.1).2.2.2.2.2.2.2])
    rw [List.cons_append] at h5 ⊢
    refine .step ?_ (fun st2 rd2 r2 k => ?_) (fun tok rd2 r2 k => ?_)
    · intro b' t' hk _ _
      rw [hskip] at hk
      cases hk
      have : (b :: (t ++ (ws ++ c :: rest))).takeWhile (fun b => !isLitEnd b) = b :: t ++ ws := by
        rw [← List.cons_append, ← List.append_assoc]
        refine takeWhile_prefix (fun x hx => ?_) (by rcases hc with rfl | rfl | rfl | rfl <;> rfl)
        rcases List.mem_append.mp hx with hx | hx
        · simp [(ht.2 x hx).1]
        · rcases hws x hx with rfl | rfl | rfl <;> rfl
      rw [this, List.length_append]
      simp only [List.length_cons] at hlen ⊢
      omega
    · rw [h5] at k
      cases k
    · rw [h5] at k
      cases k
      exact hnext _ _ rfl h6

theorem below_close (r : Rd) (t : ScopeTy) (stk : List ScopeTy) (c : UInt8) (rest s : Bytes)
    (hs : r.stack = t :: stk) (hc : c = 93 ∨ c = 125)
    (h : s.dropWhile isBlank = (c :: rest).dropWhile isBlank)
    (hnext : ∀ r' : Rd, r'.stack = stk → LitsBelow strtod m ⟨none, false⟩ r' rest) :
    LitsBelow strtod m ⟨none, false⟩ r s :=
  .blank h (.done (by rcases hc with rfl | rfl <;> decide) (round_close hm strtod r ⟨none, false⟩ t stk c rest hs hc)
    (hnext _ rfl))

theorem below_key (r : Rd) (stk : List ScopeTy) (hs : r.stack = .object :: stk) (k n b c body s : Bytes)
    (hk : Chars false k n) (hb : Ws b) (hc : Ws c)
    (h : s.dropWhile isBlank = (34 :: (k ++ 34 :: (b ++ 58 :: (c ++ body)))).dropWhile isBlank)
    (hnext : ∀ r1 : Rd, r1.stack = r.stack → LitsBelow strtod m ⟨some n, true⟩ r1 body) :
    LitsBelow strtod m ⟨none, false⟩ r s := by
  obtain ⟨r1, h1, h2⟩ := round_name hm strtod r k n (b ++ 58 :: (c ++ body)) stk hs (chars_read m hk)
  exact .blank h (.more (by decide) h2 (.blank (drop_ws _ hb) (.more (by decide) (round_colon hm strtod r1 (some n) _)
    (.blank (drop_ws _ hc) (hnext _ h1)))))

variable {N : Bytes → Bool → ℚ → Prop}
  (hN : ∀ t neg v, N t neg v → Number t neg v ∧ t.length ≤ 800 ∧ ∃ w, IntStr.strToType strtod (t.contains 46) t = some w)
include hN

mutual
theorem text_below : ∀ {t : Bytes} {x : Json}, Text false N t x → ∀ (r : Rd) (st : State) (tail : Bytes),
    Runs (t ++ tail) → (x.isScope = true ∨ ∃ top stk, r.stack = top :: stk ∧ (st.readingValue = true ∨ top = .array) ∧
      Tail tail) →
    (∀ r' R, r'.stack = r.stack → R.dropWhile isBlank = tail.dropWhile isBlank →
      LitsBelow strtod m ⟨none, false⟩ r' R) → LitsBelow strtod m st r (t ++ tail)
  | _, _, .null, r, st, tail, hr, h, hn => by
    obtain ⟨top, stk, h1, h2, h3⟩ := h.resolve_left (by simp [Json.isScope])
    exact below_literal hm strtod r st top stk h1 h2 (str "null") tail .null
      ⟨by decide +kernel, by decide +kernel⟩ (by decide) h3 hr.suffix rfl hn
  | _, _, .true, r, st, tail, hr, h, hn => by
    obtain ⟨top, stk, h1, h2, h3⟩ := h.resolve_left (by simp [Json.isScope])
    exact below_literal hm strtod r st top stk h1 h2 (str "true") tail (.bool true)
      ⟨by decide +kernel, by decide +kernel⟩ (by decide) h3 hr.suffix rfl hn
  | _, _, .false, r, st, tail, hr, h, hn => by
    obtain ⟨top, stk, h1, h2, h3⟩ := h.resolve_left (by simp [Json.isScope])
    exact below_literal hm strtod r st top stk h1 h2 (str "false") tail (.bool false)
      ⟨by decide +kernel, by decide +kernel⟩ (by decide) h3 hr.suffix rfl hn
  | _, _, .num t neg v hv, r, st, tail, hr, h, hn => by
    obtain ⟨top, stk, h1, h2, h3⟩ := h.resolve_left (by simp [Json.isScope])
    obtain ⟨hv, hl, w, hw⟩ := hN t neg v hv
    exact below_literal hm strtod r st top stk h1 h2 t tail w (number_litOk hv) hl h3 hr.suffix hw hn
  | _, _, .str t s hc, r, st, tail, hr, h, hn => by
    obtain ⟨top, stk, h1, h2, h3⟩ := h.resolve_left (by simp [Json.isScope])
    obtain ⟨r', h4, h5⟩ := round_string hm strtod r st t s tail top stk h1 (chars_read m hc) h2
    have : 34 :: (t ++ [34]) ++ tail = 34 :: (t ++ 34 :: tail) := by simp
    rw [this]
    exact .done (by decide) h5 (hn _ _ h4 rfl)
  | _, _, .arr0 w hw, r, st, tail, hr, h, hn => by
    have : 91 :: (w ++ [93]) ++ tail = 91 :: (w ++ 93 :: tail) := by simp
    rw [this]
    exact .done (by decide) (round_open hm strtod r st .array (w ++ 93 :: tail)) (below_close hm strtod _ .array r.stack 93
      tail _ rfl (.inl rfl) (drop_ws _ hw) fun r' h' => hn r' _ h' rfl)
  | _, _, .arr t xs he, r, st, tail, hr, h, hn => by
    have : 91 :: (t ++ [93]) ++ tail = 91 :: (t ++ 93 :: tail) := by simp
    rw [this] at hr ⊢
    exact .done (by decide) (round_open hm strtod r st .array (t ++ 93 :: tail)) (elems_below he _ r.stack rfl tail _
      hr.drop rfl fun r' h' => hn r' _ h' rfl)
  | _, _, .obj0 w hw, r, st, tail, hr, h, hn => by
    have : 123 :: (w ++ [125]) ++ tail = 123 :: (w ++ 125 :: tail) := by simp
    rw [this]
    exact .done (by decide) (round_open hm strtod r st .object (w ++ 125 :: tail)) (below_close hm strtod _ .object r.stack
      125 tail _ rfl (.inr rfl) (drop_ws _ hw) fun r' h' => hn r' _ h' rfl)
  | _, _, .obj t ms he, r, st, tail, hr, h, hn => by
    have : 123 :: (t ++ [125]) ++ tail = 123 :: (t ++ 125 :: tail) := by simp
    rw [this] at hr ⊢
    exact .done (by decide) (round_open hm strtod r st .object (t ++ 125 :: tail)) (members_below he _ r.stack rfl tail _
      hr.drop rfl fun r' h' => hn r' _ h' rfl)
theorem elems_below : ∀ {u : Bytes} {xs : List Json}, Elems false N u xs → ∀ (r : Rd)
    (stk : List ScopeTy), r.stack = .array :: stk → ∀ rest s : Bytes, Runs (u ++ 93 :: rest) →
    s.dropWhile isBlank = (u ++ 93 :: rest).dropWhile isBlank →
    (∀ r' : Rd, r'.stack = stk → LitsBelow strtod m ⟨none, false⟩ r' rest) → LitsBelow strtod m ⟨none, false⟩ r s
  | _, _, .one a t b x ha ht hb, r, stk, hstk, rest, s, hr, hs, hn => by
    have e : a ++ (t ++ b) ++ 93 :: rest = a ++ (t ++ (b ++ 93 :: rest)) := by simp
    rw [e] at hr hs
    exact .blank (hs.trans (drop_ws _ ha)) (text_below ht r ⟨none, false⟩ (b ++ 93 :: rest) hr.suffix
      (.inr ⟨_, _, hstk, .inr rfl, b, 93, rest, rfl, hb, .inr (.inl rfl)⟩) fun r' R h1 h2 =>
      below_close hm strtod r' .array stk 93 rest R (h1.trans hstk) (.inl rfl) (h2.trans (drop_ws _ hb)) hn)
  | _, _, .more a t b u x xs ha ht hb hu, r, stk, hstk, rest, s, hr, hs, hn => by
    have e : a ++ (t ++ (b ++ 44 :: u)) ++ 93 :: rest = a ++ (t ++ (b ++ 44 :: (u ++ 93 :: rest))) := by simp
    rw [e] at hr hs
    exact .blank (hs.trans (drop_ws _ ha)) (text_below ht r ⟨none, false⟩ _ hr.suffix
      (.inr ⟨_, _, hstk, .inr rfl, tail_comma _ hb⟩) fun r' R h1 h2 =>
      elems_below hu r' stk (h1.trans hstk) rest R hr.suffix.suffix.suffix.drop
        ((h2.trans (drop_ws _ hb)).trans (drop_comma _)) hn)
theorem members_below : ∀ {u : Bytes} {ms : List (Bytes × Json)}, Members false N u ms → ∀ (r : Rd)
    (stk : List ScopeTy), r.stack = .object :: stk → ∀ rest s : Bytes, Runs (u ++ 125 :: rest) →
    s.dropWhile isBlank = (u ++ 125 :: rest).dropWhile isBlank →
    (∀ r' : Rd, r'.stack = stk → LitsBelow strtod m ⟨none, false⟩ r' rest) → LitsBelow strtod m ⟨none, false⟩ r s
  | _, _, .one a k n b c t d x ha hk hb hc ht hd, r, stk, hstk, rest, s, hr, hs, hn => by
    have e : ∀ v, 34 :: (k ++ 34 :: (b ++ 58 :: (c ++ v))) = (34 :: (k ++ 34 :: (b ++ 58 :: c))) ++ v := by simp
    have hs' : s.dropWhile isBlank =
        (34 :: (k ++ 34 :: (b ++ 58 :: (c ++ (t ++ (d ++ 125 :: rest)))))).dropWhile isBlank := by
      rw [hs, List.append_assoc, drop_ws _ ha]
      simp
    have hr' : Runs (t ++ (d ++ 125 :: rest)) := by
      refine Runs.suffix (x := a ++ (34 :: (k ++ 34 :: (b ++ 58 :: c)))) ?_
      simpa using hr
    exact below_key hm strtod r stk hstk k n b c _ s hk hb hc hs' fun r1 f2 =>
      text_below ht r1 ⟨some n, true⟩ (d ++ 125 :: rest) hr'
        (.inr ⟨_, _, f2.trans hstk, .inl rfl, d, 125, rest, rfl, hd, .inr (.inr rfl)⟩) fun r' R h1 h2 =>
        below_close hm strtod r' .object stk 125 rest R ((h1.trans f2).trans hstk) (.inr rfl)
          (h2.trans (drop_ws _ hd)) hn
  | _, _, .more a k n b c t d u x ms ha hk hb hc ht hd hu, r, stk, hstk, rest, s, hr, hs, hn => by
    have hs' : s.dropWhile isBlank =
        (34 :: (k ++ 34 :: (b ++ 58 :: (c ++ (t ++ (d ++ 44 :: (u ++ 125 :: rest))))))).dropWhile isBlank := by
      rw [hs, List.append_assoc, drop_ws _ ha]
      simp
    have hr' : Runs (t ++ (d ++ 44 :: (u ++ 125 :: rest))) := by
      refine Runs.suffix (x := a ++ (34 :: (k ++ 34 :: (b ++ 58 :: c)))) ?_
      simpa using hr
    exact below_key hm strtod r stk hstk k n b c _ s hk hb hc hs' fun r1 f2 =>
      text_below ht r1 ⟨some n, true⟩ _ hr' (.inr ⟨_, _, f2.trans hstk, .inl rfl, tail_comma _ hd⟩) fun r' R h1 h2 =>
        members_below hu r' stk ((h1.trans f2).trans hstk) rest R hr'.suffix.suffix.drop
          ((h2.trans (drop_ws _ hd)).trans (drop_comma _)) hn
end

/-- Whole documents -/
theorem document_below {t : Bytes} {x : Json} (h : DocumentOf false N t x) (hx : x.isScope = true) (hruns : Runs t)
    (r : Rd) : LitsBelow strtod m ⟨none, false⟩ r t := by
  obtain ⟨a, u, b, rfl, ha, hu, hb⟩ := h
  refine .blank (drop_ws _ ha) (text_below hm strtod hN hu r ⟨none, false⟩ b hruns.suffix (.inl hx)
    fun r' R _ h2 => .blank (h2.trans ?_) (litsBelow_nil hm _ _))
  have := drop_ws [] hb
  rwa [List.append_nil] at this

end Srl.Rfc8259
