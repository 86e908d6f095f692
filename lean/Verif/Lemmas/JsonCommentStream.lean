import Verif.Lemmas.JsonComment
import Verif.Lemmas.JsonInStream

/-! JSON texts with comments have short literals if their numbers are short and there are few tabs and line ends in a
row. -/

namespace Srl.Rfc8259
open Dec PJson Doc

section
variable {apart uni : Bool} {N N' : Bytes → Bool → ℚ → Prop} (hN : ∀ t neg v, N t neg v → N' t neg v)
include hN

mutual
theorem ctext_imp : ∀ {t : Bytes} {x : Json}, CText apart uni N t x → CText apart uni N' t x
  | _, _, .null => .null
  | _, _, .true => .true
  | _, _, .false => .false
  | _, _, .num _ _ _ h => .num _ _ _ (hN _ _ _ h)
  | _, _, .str _ _ h => .str _ _ h
  | _, _, .arr0 _ h => .arr0 _ h
  | _, _, .arr _ _ h => .arr _ _ (celems_imp h)
  | _, _, .obj0 _ h => .obj0 _ h
  | _, _, .obj _ _ h => .obj _ _ (cmembers_imp h)
theorem celems_imp : ∀ {t : Bytes} {xs : List Json}, CElems apart uni N t xs → CElems apart uni N' t xs
  | _, _, .one _ _ _ _ h1 h2 h3 => .one _ _ _ _ h1 (ctext_imp h2) h3
  | _, _, .more _ _ _ _ _ _ h1 h2 h3 h4 => .more _ _ _ _ _ _ h1 (ctext_imp h2) h3 (celems_imp h4)
theorem cmembers_imp : ∀ {t : Bytes} {ms : List (Bytes × Json)}, CMembers apart uni N t ms → CMembers apart uni N' t ms
  | _, _, .one _ _ _ _ _ _ _ _ h1 h2 h3 h4 h5 h6 => .one _ _ _ _ _ _ _ _ h1 h2 h3 h4 (ctext_imp h5) h6
  | _, _, .more _ _ _ _ _ _ _ _ _ _ h1 h2 h3 h4 h5 h6 h7 =>
    .more _ _ _ _ _ _ _ _ _ _ h1 h2 h3 h4 (ctext_imp h5) h6 (cmembers_imp h7)
end

/-- With further kinds of numbers -/
theorem cdocumentOf_imp {t : Bytes} {x : Json} (h : CDocumentOf apart uni N t x) : CDocumentOf apart uni N' t x := by
  obtain ⟨a, u, b, h1, h2, h3, h4⟩ := h
  exact ⟨a, u, b, h1, h2, ctext_imp hN h3, h4⟩

end

variable {m : Mem} (hm : m.Sane) (strtod : Bytes → Option UInt64)

/-- If literals reached from `s'` are short, those reached from `s` are. -/
def LikeB (m : Mem) (strtod : Bytes → Option UInt64) (s s' : Bytes) : Prop :=
  ∀ st r, LitsBelow strtod m st r s' → LitsBelow strtod m st r s

theorem likeB_trans {s t u : Bytes} (h : LikeB m strtod s t) (h' : LikeB m strtod t u) : LikeB m strtod s u :=
  fun st r k => h st r (h' st r k)

theorem likeB_blank {s s' : Bytes} (h : s.dropWhile isBlank = s'.dropWhile isBlank) : LikeB m strtod s s' :=
  fun _ _ k => .blank h k

include hm

theorem likeB_gap {a : Bytes} (ha : Gap true a) (v : Bytes) (hv : Plainly v ∨ v = [] ∧ m.past = some 0) :
    LikeB m strtod (a ++ v) v := by
  induction ha with
  | nil => exact fun _ _ h => h
  | blank b t hb _ ih =>
    refine likeB_trans strtod (likeB_blank strtod ?_) ih
    rw [List.cons_append, List.dropWhile_cons, if_pos (by rcases hb with rfl | rfl | rfl | rfl <;> decide)]
  | line c e t hc he _ ih =>
    refine likeB_trans strtod (fun st r h => ?_) ih
    have : 47 :: 47 :: (c ++ e :: t) ++ v = 47 :: 47 :: (c ++ e :: (t ++ v)) := by simp
    rw [this]
    exact .more (by decide) (round_slash hm strtod r st _ _ _ (skip_line c e _ hc he)) h
  | block c t hc hs ht ih =>
    refine likeB_trans strtod (fun st r h => ?_) ih
    have : 47 :: 42 :: (c ++ 42 :: 47 :: t) ++ v = 47 :: 42 :: (c ++ 42 :: 47 :: (t ++ v)) := by simp
    rw [this]
    have hnext : Plainly (t ++ v) ∨ t ++ v = [] ∧ m.past = some 0 := by
      obtain ⟨-, h2⟩ := hs rfl
      cases ht with
      | nil => exact hv
      | blank b t hb _ => exact .inl ⟨b, t ++ v, rfl, by rcases hb with rfl | rfl | rfl | rfl <;> decide⟩
      | line => exact absurd rfl h2
      | block => exact absurd rfl h2
    refine .more (by decide) (round_slash hm strtod r st _ _ _ (skip_block c _ hc (hs rfl).1)) ?_
    rcases hnext with ⟨b, u, h1, h2, h3⟩ | ⟨h1, h2⟩
    · rw [h1] at h ⊢
      exact .more (by decide) (round_slash hm strtod r st _ _ _ (skip_no_comment b u h3 h2)) h
    · rw [h1] at h ⊢
      refine .more (by decide) (round_slash hm strtod r st _ _ 47 ?_) h
      unfold skipComment
      rw [if_pos (by simp [In.tryPeek])]
      simp [In.cur, h2]

theorem below_word (r : Rd) (st : State) (top : ScopeTy) (stk : List ScopeTy)
    (hs : r.stack = top :: stk) (hv : st.readingValue = true ∨ top = .array) (t tail : Bytes) (w : Val)
    (ht : LitOk t) (hlen : t.length ≤ 800) (htail : WordEnd tail) (hruns : Runs tail)
    (hw : IntStr.strToType strtod (t.contains 46) t = some w)
    (hnext : ∀ r' R, r'.stack = r.stack → LikeB m strtod R tail →
      LitsBelow strtod m ⟨none, false⟩ r' R) : LitsBelow strtod m st r (t ++ tail) := by
  obtain ⟨R, h5, h6⟩ := word_round hm strtod r st top stk hs hv t tail w ht htail hw
  obtain ⟨ws, c, rest, rfl, hws, hc⟩ := htail
  have hwl : ws.length ≤ 200 := hruns [] ws (c :: rest) rfl hws
  cases t with
  | nil => simp [LitOk, isLit, Srl.str] at ht
  | cons b t =>
    have hskip : skip m r st (b :: (t ++ (ws ++ c :: rest))) = .ok (b :: (t ++ (ws ++ c :: rest))) := by
      unfold skip
      rw [if_neg (by rcases hv with hv | hv <;> simp [hv, hs])]
      exact moveUntil_hit _ _ _ _ (by simp [(lit_not_delim b ht.1).2.2.2.2.2.2.2])
    rw [List.cons_append] at h5 ⊢
    refine .step ?_ (fun st2 rd2 r2 k => ?_) (fun tok rd2 r2 k => ?_)
    · intro b' t' hk _ _
      rw [hskip] at hk
      cases hk
      have : (b :: (t ++ (ws ++ c :: rest))).takeWhile (fun b => !isLitEnd b) = b :: t ++ ws := by
        rw [← List.cons_append, ← List.append_assoc]
        refine takeWhile_prefix (fun x hx => ?_) (by rcases hc with rfl | rfl | rfl | rfl <;> rfl)
        rcases List.mem_append.mp hx with hx | hx
        · simp [(ht.2 x hx).1]
        · rcases hws x hx with rfl | rfl | rfl <;> rfl
      rw [this, List.length_append]
      simp only [List.length_cons] at hlen ⊢
      omega
    · rw [h5] at k
      cases k
    · rw [h5] at k
      cases k
      exact hnext _ _ rfl (likeB_blank strtod h6)

theorem below_end (r : Rd) (t : ScopeTy) (stk : List ScopeTy) (c : UInt8) (rest s : Bytes)
    (hs : r.stack = t :: stk) (hc : c = 93 ∨ c = 125) (h : LikeB m strtod s (c :: rest))
    (hnext : ∀ r' : Rd, r'.stack = stk → LitsBelow strtod m ⟨none, false⟩ r' rest) :
    LitsBelow strtod m ⟨none, false⟩ r s :=
  h _ _ (.done (by rcases hc with rfl | rfl <;> decide) (round_close hm strtod r ⟨none, false⟩ t stk c rest hs hc)
    (hnext _ rfl))

theorem below_ckey (r : Rd) (stk : List ScopeTy) (hs : r.stack = .object :: stk) (k n b c body s : Bytes)
    (hk : Chars false k n) (hb : Gap true b) (hc : Gap true c) (hbody : Plainly body)
    (h : LikeB m strtod s (34 :: (k ++ 34 :: (b ++ 58 :: (c ++ body)))))
    (hnext : ∀ r1 : Rd, r1.stack = r.stack → LitsBelow strtod m ⟨some n, true⟩ r1 body) :
    LitsBelow strtod m ⟨none, false⟩ r s := by
  obtain ⟨r1, h1, h2⟩ := round_name hm strtod r k n (b ++ 58 :: (c ++ body)) stk hs (chars_read m hk)
  exact h _ _ (.more (by decide) h2 (likeB_gap hm strtod hb _ (.inl ⟨58, _, rfl, by decide, by decide⟩) _ _
    (.more (by decide) (round_colon hm strtod r1 (some n) _) (likeB_gap hm strtod hc _ (.inl hbody) _ _ (hnext _ h1)))))

variable {N : Bytes → Bool → ℚ → Prop}
  (hN : ∀ t neg v, N t neg v → Number t neg v ∧ t.length ≤ 800 ∧ ∃ w, IntStr.strToType strtod (t.contains 46) t = some w)
include hN

omit hm in
theorem text_start {apart uni : Bool} {t : Bytes} {x : Json} (h : CText apart uni N t x) : Plainly t :=
  text_first (P := fun _ _ _ => True) strtod (fun t neg v h => ⟨(hN t neg v h).1, (hN t neg v h).2.2.imp fun _ h => ⟨h, trivial⟩⟩) h

mutual
theorem ctext_below : ∀ {t : Bytes} {x : Json}, CText true false N t x → ∀ (r : Rd) (st : State) (tail : Bytes),
    Runs (t ++ tail) → (x.isScope = true ∨ ∃ top stk, r.stack = top :: stk ∧ (st.readingValue = true ∨ top = .array) ∧
      (x.isWord = true → WordEnd tail)) →
    (∀ r' R, r'.stack = r.stack → LikeB m strtod R tail →
      LitsBelow strtod m ⟨none, false⟩ r' R) → LitsBelow strtod m st r (t ++ tail)
  | _, _, .null, r, st, tail, hr, h, hn => by
    obtain ⟨top, stk, h1, h2, h3⟩ := h.resolve_left (by simp [Json.isScope])
    exact below_word hm strtod r st top stk h1 h2 (str "null") tail .null
      ⟨by decide +kernel, by decide +kernel⟩ (by decide) (h3 rfl) hr.suffix rfl hn
  | _, _, .true, r, st, tail, hr, h, hn => by
    obtain ⟨top, stk, h1, h2, h3⟩ := h.resolve_left (by simp [Json.isScope])
    exact below_word hm strtod r st top stk h1 h2 (str "true") tail (.bool true)
      ⟨by decide +kernel, by decide +kernel⟩ (by decide) (h3 rfl) hr.suffix rfl hn
  | _, _, .false, r, st, tail, hr, h, hn => by
    obtain ⟨top, stk, h1, h2, h3⟩ := h.resolve_left (by simp [Json.isScope])
    exact below_word hm strtod r st top stk h1 h2 (str "false") tail (.bool false)
      ⟨by decide +kernel, by decide +kernel⟩ (by decide) (h3 rfl) hr.suffix rfl hn
  | _, _, .num t neg v hv, r, st, tail, hr, h, hn => by
    obtain ⟨top, stk, h1, h2, h3⟩ := h.resolve_left (by simp [Json.isScope])
    obtain ⟨hv, hl, w, hw⟩ := hN t neg v hv
    exact below_word hm strtod r st top stk h1 h2 t tail w (number_litOk hv) hl (h3 rfl) hr.suffix hw hn
  | _, _, .str t s hc, r, st, tail, hr, h, hn => by
    obtain ⟨top, stk, h1, h2, h3⟩ := h.resolve_left (by simp [Json.isScope])
    obtain ⟨r', h4, h5⟩ := round_string hm strtod r st t s tail top stk h1 (chars_read m hc) h2
    have : 34 :: (t ++ [34]) ++ tail = 34 :: (t ++ 34 :: tail) := by simp
    rw [this]
    exact .done (by decide) h5 (hn _ _ h4 fun _ _ h => h)
  | _, _, .arr0 w hw, r, st, tail, hr, h, hn => by
    have : 91 :: (w ++ [93]) ++ tail = 91 :: (w ++ 93 :: tail) := by simp
    rw [this]
    exact .done (by decide) (round_open hm strtod r st .array (w ++ 93 :: tail)) (below_end hm strtod _ .array r.stack 93
      tail _ rfl (.inl rfl) (likeB_gap hm strtod hw _ (.inl ⟨93, _, rfl, by decide, by decide⟩)) fun r' h' => hn r' _ h' fun _ _ h => h)
  | _, _, .arr t xs he, r, st, tail, hr, h, hn => by
    have : 91 :: (t ++ [93]) ++ tail = 91 :: (t ++ 93 :: tail) := by simp
    rw [this] at hr ⊢
    exact .done (by decide) (round_open hm strtod r st .array (t ++ 93 :: tail)) (celems_below he _ r.stack rfl tail _
      hr.drop (fun _ _ h => h) fun r' h' => hn r' _ h' fun _ _ h => h)
  | _, _, .obj0 w hw, r, st, tail, hr, h, hn => by
    have : 123 :: (w ++ [125]) ++ tail = 123 :: (w ++ 125 :: tail) := by simp
    rw [this]
    exact .done (by decide) (round_open hm strtod r st .object (w ++ 125 :: tail)) (below_end hm strtod _ .object r.stack
      125 tail _ rfl (.inr rfl) (likeB_gap hm strtod hw _ (.inl ⟨125, _, rfl, by decide, by decide⟩)) fun r' h' => hn r' _ h' fun _ _ h => h)
  | _, _, .obj t ms he, r, st, tail, hr, h, hn => by
    have : 123 :: (t ++ [125]) ++ tail = 123 :: (t ++ 125 :: tail) := by simp
    rw [this] at hr ⊢
    exact .done (by decide) (round_open hm strtod r st .object (t ++ 125 :: tail)) (cmembers_below he _ r.stack rfl tail _
      hr.drop (fun _ _ h => h) fun r' h' => hn r' _ h' fun _ _ h => h)
theorem celems_below : ∀ {u : Bytes} {xs : List Json}, CElems true false N u xs → ∀ (r : Rd)
    (stk : List ScopeTy), r.stack = .array :: stk → ∀ rest s : Bytes, Runs (u ++ 93 :: rest) →
    LikeB m strtod s (u ++ 93 :: rest) →
    (∀ r' : Rd, r'.stack = stk → LitsBelow strtod m ⟨none, false⟩ r' rest) → LitsBelow strtod m ⟨none, false⟩ r s
  | _, _, .one a t b x ha ht hb, r, stk, hstk, rest, s, hr, hs, hn => by
    have e : a ++ (t ++ b) ++ 93 :: rest = a ++ (t ++ (b ++ 93 :: rest)) := by simp
    rw [e] at hr hs
    exact hs _ _ (likeB_gap hm strtod ha _ (.inl (plainly_append (text_start strtod hN ht) _)) _ _ (ctext_below ht r ⟨none, false⟩ (b ++ 93 :: rest) hr.suffix
      (.inr ⟨_, _, hstk, .inr rfl, wordEnd_of hb 93 rest (.inr (.inl rfl))⟩) fun r' R h1 h2 =>
      below_end hm strtod r' .array stk 93 rest R (h1.trans hstk) (.inl rfl) (likeB_trans strtod h2
        (likeB_gap hm strtod hb.1 _ (.inl ⟨93, _, rfl, by decide, by decide⟩))) hn))
  | _, _, .more a t b u x xs ha ht hb hu, r, stk, hstk, rest, s, hr, hs, hn => by
    have e : a ++ (t ++ (b ++ 44 :: u)) ++ 93 :: rest = a ++ (t ++ (b ++ 44 :: (u ++ 93 :: rest))) := by simp
    rw [e] at hr hs
    exact hs _ _ (likeB_gap hm strtod ha _ (.inl (plainly_append (text_start strtod hN ht) _)) _ _ (ctext_below ht r ⟨none, false⟩ _ hr.suffix
      (.inr ⟨_, _, hstk, .inr rfl, wordEnd_of hb 44 _ (.inl rfl)⟩) fun r' R h1 h2 =>
      celems_below hu r' stk (h1.trans hstk) rest R hr.suffix.suffix.suffix.drop
        (likeB_trans strtod (likeB_trans strtod h2 (likeB_gap hm strtod hb.1 _ (.inl ⟨44, _, rfl, by decide, by decide⟩)))
          (likeB_blank strtod (drop_comma _))) hn))
theorem cmembers_below : ∀ {u : Bytes} {ms : List (Bytes × Json)}, CMembers true false N u ms → ∀ (r : Rd)
    (stk : List ScopeTy), r.stack = .object :: stk → ∀ rest s : Bytes, Runs (u ++ 125 :: rest) →
    LikeB m strtod s (u ++ 125 :: rest) →
    (∀ r' : Rd, r'.stack = stk → LitsBelow strtod m ⟨none, false⟩ r' rest) → LitsBelow strtod m ⟨none, false⟩ r s
  | _, _, .one a k n b c t d x ha hk hb hc ht hd, r, stk, hstk, rest, s, hr, hs, hn => by
    have hs' : LikeB m strtod s (34 :: (k ++ 34 :: (b ++ 58 :: (c ++ (t ++ (d ++ 125 :: rest)))))) := by
      have e : a ++ 34 :: (k ++ 34 :: (b ++ 58 :: (c ++ (t ++ d)))) ++ 125 :: rest =
          a ++ 34 :: (k ++ 34 :: (b ++ 58 :: (c ++ (t ++ (d ++ 125 :: rest))))) := by simp
      rw [e] at hs
      exact likeB_trans strtod hs (likeB_gap hm strtod ha _ (.inl ⟨34, _, rfl, by decide, by decide⟩))
    have hr' : Runs (t ++ (d ++ 125 :: rest)) := by
      refine Runs.suffix (x := a ++ (34 :: (k ++ 34 :: (b ++ 58 :: c)))) ?_
      simpa using hr
    exact below_ckey hm strtod r stk hstk k n b c _ s hk hb hc
      (plainly_append (text_start strtod hN ht) _) hs' fun r1 f2 =>
      ctext_below ht r1 ⟨some n, true⟩ (d ++ 125 :: rest) hr'
        (.inr ⟨_, _, f2.trans hstk, .inl rfl, wordEnd_of hd 125 rest (.inr (.inr rfl))⟩) fun r' R h1 h2 =>
        below_end hm strtod r' .object stk 125 rest R ((h1.trans f2).trans hstk) (.inr rfl)
          (likeB_trans strtod h2 (likeB_gap hm strtod hd.1 _ (.inl ⟨125, _, rfl, by decide, by decide⟩))) hn
  | _, _, .more a k n b c t d u x ms ha hk hb hc ht hd hu, r, stk, hstk, rest, s, hr, hs, hn => by
    have hs' : LikeB m strtod s (34 :: (k ++ 34 :: (b ++ 58 :: (c ++ (t ++ (d ++ 44 :: (u ++ 125 :: rest))))))) := by
      have e : a ++ 34 :: (k ++ 34 :: (b ++ 58 :: (c ++ (t ++ (d ++ 44 :: u))))) ++ 125 :: rest =
          a ++ 34 :: (k ++ 34 :: (b ++ 58 :: (c ++ (t ++ (d ++ 44 :: (u ++ 125 :: rest)))))) := by simp
      rw [e] at hs
      exact likeB_trans strtod hs (likeB_gap hm strtod ha _ (.inl ⟨34, _, rfl, by decide, by decide⟩))
    have hr' : Runs (t ++ (d ++ 44 :: (u ++ 125 :: rest))) := by
      refine Runs.suffix (x := a ++ (34 :: (k ++ 34 :: (b ++ 58 :: c)))) ?_
      simpa using hr
    exact below_ckey hm strtod r stk hstk k n b c _ s hk hb hc
      (plainly_append (text_start strtod hN ht) _) hs' fun r1 f2 =>
      ctext_below ht r1 ⟨some n, true⟩ _ hr' (.inr ⟨_, _, f2.trans hstk, .inl rfl, wordEnd_of hd 44 _ (.inl rfl)⟩) fun r' R h1 h2 =>
        cmembers_below hu r' stk ((h1.trans f2).trans hstk) rest R hr'.suffix.suffix.drop
          (likeB_trans strtod (likeB_trans strtod h2 (likeB_gap hm strtod hd.1 _ (.inl ⟨44, _, rfl, by decide, by decide⟩)))
            (likeB_blank strtod (drop_comma _))) hn
end

/-- Whole documents -/
theorem cdocument_below (hp : m.past = some 0) {t : Bytes} {x : Json} (h : CDocumentOf true false N t x)
    (hx : x.isScope = true) (hruns : Runs t) (r : Rd) : LitsBelow strtod m ⟨none, false⟩ r t := by
  obtain ⟨a, u, b, rfl, ha, hu, hb⟩ := h
  refine likeB_gap hm strtod ha _ (.inl (plainly_append (text_start strtod hN hu) _)) _ _
    (ctext_below hm strtod hN hu r ⟨none, false⟩ b hruns.suffix (.inl hx) fun r' R _ h2 => h2 _ _ ?_)
  have := likeB_gap hm strtod hb [] (.inr ⟨rfl, hp⟩) ⟨none, false⟩ r' (litsBelow_nil hm _ _)
  rwa [List.append_nil] at this

end Srl.Rfc8259
