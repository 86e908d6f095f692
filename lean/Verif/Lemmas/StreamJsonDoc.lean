import Verif.Lemmas.StreamJson
import Verif.Lemmas.PJsonTree

/-! Reading JSON from a stream: documents that are accepted, in particular documents that were saved. -/

namespace Srl.PJson

open Srl.Stream Doc

variable {cap : Nat}

section
variable (strtod : Bytes → Option UInt64)

/-! ### What memory accepts -/

/-- A literal with an end is shorter than 1024 bytes. -/
def LitBelow (r : Bytes) : Prop :=
  let n := (r.takeWhile (fun b => !isLitEnd b)).length
  n < r.length → n < 1024

/-- So are all that can be reached. -/
def LitsBelow (m : Mem) (st : State) (rd : Rd) (r : Bytes) : Prop :=
  ∀ st' rd' r', Reach strtod m st rd r st' rd' r' → ∀ b t, skip m rd' st' r' = .ok (b :: t) → isLit b = true →
    LitBelow (b :: t)

theorem takeWhile_all {p : UInt8 → Bool} : ∀ {l : Bytes}, l.length ≤ (l.takeWhile p).length → ∀ x ∈ l, p x = true
  | [], _, x, hx => by cases hx
  | a :: l, h, x, hx => by
    rw [List.takeWhile_cons] at h
    by_cases ha : p a = true
    · rw [if_pos ha] at h
      simp only [List.length_cons] at h
      rcases List.mem_cons.mp hx with rfl | hx
      · exact ha
      · exact takeWhile_all (by omega) x hx
    · rw [if_neg ha] at h
      simp at h

theorem takeWhile_length_le {p : UInt8 → Bool} : ∀ (l : Bytes), (l.takeWhile p).length ≤ l.length
  | [] => by simp
  | a :: l => by
    have := takeWhile_length_le (p := p) l
    rw [List.takeWhile_cons]
    split <;> simp only [List.length_cons, List.length_nil] <;> omega

/-- A literal without an end is not accepted. -/
theorem dispatch_unended {m : Mem} (hm : m.Sane) (hp : Harmless m) {rd : Rd} {st : State} {b : UInt8} {t : Bytes}
    (hb : isLit b = true) (h : ∀ x ∈ b :: t, isLitEnd x = false) : dispatch m strtod rd st (b :: t) = .err := by
  obtain ⟨past, hp1, hp2, hp3⟩ := hp
  have hcur : In.cur m [] = .ok past := by unfold In.cur; rw [hp1]
  obtain ⟨c1, c2, c3, c4, c5, c6, c7, -⟩ := lit_not_delim b hb
  unfold dispatch
  simp only [In.cur, Res.ok_bind, if_neg c1, if_neg c2]
  rw [if_neg (by simp [c3, c4, c5, c6]), if_neg c7]
  unfold processChar
  simp only [if_pos hb]
  have e : moveUntil m isLitEnd (b :: t) = moveUntil m isLitEnd [] := by
    have := moveUntil_skip m isLitEnd (b :: t) [] h
    rwa [List.append_nil] at this
  rw [e, moveUntil, hcur]
  simp only [Res.ok_bind]
  split
  · simp only [Res.ok_bind, List.length_nil, Nat.sub_zero, List.take_length, hcur]
    cases IntStr.strToType strtod ((b :: t).contains 46) (b :: t) with
    | none => rfl
    | some v =>
      have : (!(past == 125 || past == 93)) = true := by simp [hp2, hp3]
      simp only [Res.ok_bind, this, if_true, PJson.move_nil hm, Res.err_bind]
  · rfl

theorem loopS_accepts {m : Mem} (hm : m.Sane) (hp : Harmless m) : ∀ (fuel : Nat) (st : State) (rd : Rd) (s : SIn)
    (c r : Bytes), Inv s c r → Ahead s → c.length + r.length + 1024 ≤ cap → r.length < fuel →
    LitsBelow strtod m st rd r → ∀ e rd' t, loop m strtod fuel st (rd, r) = .ok (e, rd', t) →
    ∃ s' c', loopS cap strtod (fuel + 1) st (rd, s) = .ok (e, rd', s') ∧ Inv s' c' t ∧ Ahead s' ∧
      c'.length + t.length = c.length + r.length ∧ LitsBelow strtod m ⟨none, false⟩ rd' t := by
  intro fuel
  induction fuel with
  | zero => intro st rd s c r _ _ _ h; omega
  | succ fuel ih =>
    intro st rd s c r h ha hc hf hl e rd2 t2 hok
    rw [loop] at hok
    rw [loopS]
    obtain ⟨-, hprog, -⟩ := round_ext strtod hm hm rd st r []
    have hshort : ∀ b t, skip m rd st r = .ok (b :: t) → isLit b = true → ShortLit (b :: t) := by
      intro b t hs hb
      have h1 := hl st rd r (.refl _ _ _) b t hs hb
      have h2 := takeWhile_length_le (p := fun b => !isLitEnd b) (b :: t)
      by_cases h3 : ((b :: t).takeWhile (fun b => !isLitEnd b)).length < (b :: t).length
      · exact .inr ⟨h1 h3, h3⟩
      · exfalso
        have h4 := takeWhile_all (p := fun b => !isLitEnd b) (l := b :: t) (by omega)
        have : round m strtod rd st r = .err := by
          unfold round
          rw [hs]
          exact dispatch_unended strtod hm hp hb (fun x hx => by simpa using h4 x hx)
        rw [this] at hok
        cases hok
    rcases roundS_inv (cap := cap) strtod hm hp h ha hc hshort with
      ⟨a, rd', t, s', c', k1, k2, k3, k4, k5⟩ | ⟨k1, k2⟩ | ⟨k1, k2⟩
    · obtain ⟨y, hy, hr⟩ := hprog _ _ _ k1
      have : 0 < y.length := List.length_pos_iff.mpr hy
      have hlen := congrArg List.length hr
      rw [List.length_append] at hlen
      rw [k1] at hok
      rw [k2]
      cases a with
      | more st' =>
        obtain ⟨s2, c2, j1, j2, j3, j4, j5⟩ := ih st' rd' s' c' t k3 k4 (by omega) (by omega)
          (fun st2 rd2 r2 h2 => hl st2 rd2 r2 (.more k1 h2)) e rd2 t2 hok
        exact ⟨s2, c2, j1, j2, j3, by omega, j5⟩
      | done tok =>
        cases hok
        exact ⟨s', c', rfl, k3, k4, k5, fun st2 rd2 r2 h2 => hl st2 rd2 r2 (.done k1 h2)⟩
    · rw [k1] at hok
      cases hok
    · rcases k1 with k1 | ⟨st', rd', k1⟩
      · rw [k1] at hok
        cases hok
      · exfalso
        rw [k1] at hok
        simp only [Res.ok_bind] at hok
        rcases loop_nil strtod hm fuel st' rd' with k | k
        · exact k.not_ok _ hok
        · rw [k] at hok; cases hok

/-- Sources that correspond, as far as memory accepts them -/
def JSideA (cap : Nat) (m : Mem) (x : Rd × Bytes) (y : Rd × SIn) : Prop :=
  x.1 = y.1 ∧ (∃ c, Inv y.2 c x.2 ∧ Ahead y.2 ∧ c.length + x.2.length + 1024 ≤ cap) ∧
  LitsBelow strtod m ⟨none, false⟩ x.1 x.2

theorem reading_stream_accepts {m : Mem} (hm : m.Sane) (hp : Harmless m) {E : Lax} (hE : E.any) :
    Reading E (JSideA strtod cap m) (read m strtod) (readS cap strtod) := by
  rintro ⟨rd, r⟩ ⟨rd', s⟩ ⟨h1, ⟨c, h2, h3, h4⟩, h5⟩
  simp only at h1 h2 h3 h4 h5
  subst h1
  have hl : s.left = r.length := h2.left
  cases hr : read m strtod (rd, r) with
  | ok x =>
    obtain ⟨e, rd', t⟩ := x
    obtain ⟨s', c', k1, k2, k3, k4, k5⟩ := loopS_accepts strtod hm hp (r.length + 1) ⟨none, false⟩ rd s c r h2 h3 h4
      (by omega) h5 e rd' t hr
    have : readS cap strtod (rd, s) = .ok (e, rd', s') := by
      unfold readS
      simp only [hl]
      exact k1
    rw [this]
    exact ⟨rfl, rfl, ⟨c', k2, k3, by simp only; omega⟩, k5⟩
  | _ => exact Rel.of_any _ (fun a e => nomatch e) hE

/-! ### Where literals are short -/

theorem reach_suffix {m : Mem} (hm : m.Sane) {st st' : State} {rd rd' : Rd} {r r' : Bytes}
    (h : Reach strtod m st rd r st' rd' r') : ∃ x, r = x ++ r' := by
  induction h with
  | refl => exact ⟨[], rfl⟩
  | more h1 _ ih =>
    obtain ⟨y, -, hy⟩ := (round_ext strtod hm hm _ _ _ []).2.1 _ _ _ h1
    obtain ⟨x, hx⟩ := ih
    exact ⟨y ++ x, by rw [hy, hx, List.append_assoc]⟩
  | done h1 _ ih =>
    obtain ⟨y, -, hy⟩ := (round_ext strtod hm hm _ _ _ []).2.1 _ _ _ h1
    obtain ⟨x, hx⟩ := ih
    exact ⟨y ++ x, by rw [hy, hx, List.append_assoc]⟩

theorem litsBelow_small {m : Mem} (hm : m.Sane) {st : State} {rd : Rd} {r : Bytes} (h : r.length ≤ 1024) :
    LitsBelow strtod m st rd r := by
  intro st' rd' r' hr b t hs _ hn
  obtain ⟨x, hx⟩ := reach_suffix strtod hm hr
  obtain ⟨y, hy⟩ := skip_suffix hs
  have h1 := congrArg List.length hx
  have h2 := congrArg List.length hy
  simp only [List.length_append] at h1 h2
  omega

/-- Every part of the source that has no terminator is short, and there is one near the end. -/
theorem shortLits_dense {m : Mem} (hm : m.Sane) {st : State} {rd : Rd} {r : Bytes}
    (h : ∀ x t, r = x ++ t → ShortLit t) : ShortLits strtod m st rd r := by
  intro st' rd' r' hr b t hs _
  obtain ⟨x, hx⟩ := reach_suffix strtod hm hr
  obtain ⟨y, hy⟩ := skip_suffix hs
  exact h (x ++ y) (b :: t) (by rw [hx, hy, List.append_assoc])

theorem mem_takeWhile {p : UInt8 → Bool} : ∀ {l x y : Bytes} {e : UInt8}, l = x ++ e :: y → p e = false →
    (l.takeWhile p).length ≤ x.length
  | _, [], y, e, h, he => by
    rw [h, List.nil_append, List.takeWhile_cons, if_neg (by simp [he])]
    simp
  | _, a :: x, y, e, h, he => by
    subst h
    rw [List.cons_append, List.takeWhile_cons]
    split
    · have := mem_takeWhile (p := p) (l := x ++ e :: y) rfl he
      simp only [List.length_cons]
      omega
    · simp

theorem shortLits_small {m : Mem} (hm : m.Sane) {st : State} {rd : Rd} {x y : Bytes} {e : UInt8}
    (h : (x ++ e :: y).length ≤ 1024) (he : isLitEnd e = true) (hy : y.length ≤ 33) :
    ShortLits strtod m st rd (x ++ e :: y) := by
  refine shortLits_dense strtod hm fun u t ht => ?_
  show _ ∨ _
  have hlen := congrArg List.length ht
  simp only [List.length_append] at hlen h
  have hle := takeWhile_length_le (p := fun b => !isLitEnd b) t
  by_cases hu : u.length ≤ x.length
  · right
    obtain ⟨z, hz⟩ : ∃ z, x = u ++ z := by
      refine ⟨x.drop u.length, ?_⟩
      have := congrArg (List.take u.length) ht
      rw [List.take_append_of_le_length hu, List.take_left] at this
      conv => rhs; lhs; rw [← this]
      rw [List.take_append_drop]
    subst hz
    rw [List.append_assoc] at ht
    have ht2 := (List.append_inj ht rfl).2
    have h2 := mem_takeWhile (p := fun b => !isLitEnd b) ht2.symm (by simp [he])
    have h3 := congrArg List.length ht2
    simp only [List.length_append, List.length_cons] at h3 h
    omega
  · left
    simp only [List.length_cons] at hlen
    omega

/-! ### Documents that were saved -/

theorem skip_blank (m : Mem) (rd : Rd) (st : State) (s : Bytes) :
    skip m rd st s = skip m rd st (s.dropWhile isBlank) := by
  obtain ⟨x, hx, hb⟩ := dropWhile_split isBlank s
  have h1 : moveUntil m isDelim s = moveUntil m isDelim (s.dropWhile isBlank) := by
    conv => lhs; rw [hx]
    exact moveUntil_skip _ _ _ _ fun b h => blank_not_delim b (hb b h)
  have h2 : moveUntil m (fun b => !isBlank b) s =
      moveUntil m (fun b => !isBlank b) (s.dropWhile isBlank) := by
    conv => lhs; rw [hx]
    exact moveUntil_skip _ _ _ _ fun b h => by simp [hb b h]
  unfold skip
  rw [h1, h2]

variable {m : Mem} {strtod}

/-- By what happens next -/
theorem LitsBelow.step {st : State} {rd : Rd} {r : Bytes}
    (h1 : ∀ b t, skip m rd st r = .ok (b :: t) → isLit b = true → LitBelow (b :: t))
    (h2 : ∀ st' rd' r', round m strtod rd st r = .ok (.more st', rd', r') → LitsBelow strtod m st' rd' r')
    (h3 : ∀ tok rd' r', round m strtod rd st r = .ok (.done tok, rd', r') →
      LitsBelow strtod m ⟨none, false⟩ rd' r') : LitsBelow strtod m st rd r := by
  intro st' rd' r' hr
  cases hr with
  | refl => exact h1
  | more k1 k2 => exact h2 _ _ _ k1 _ _ _ k2
  | done k1 k2 => exact h3 _ _ _ k1 _ _ _ k2

theorem LitsBelow.blank {st : State} {rd : Rd} {r r' : Bytes} (hr : r.dropWhile isBlank = r'.dropWhile isBlank)
    (h : LitsBelow strtod m st rd r') : LitsBelow strtod m st rd r := by
  have e1 : skip m rd st r = skip m rd st r' := by rw [skip_blank, hr, ← skip_blank]
  have e2 : round m strtod rd st r = round m strtod rd st r' := by rw [round_blank, hr, ← round_blank]
  refine .step ?_ ?_ ?_
  · rw [e1]; exact h st rd r' (.refl _ _ _)
  · rw [e2]; exact fun st' rd' t k st2 rd2 r2 h2 => h st2 rd2 r2 (.more k h2)
  · rw [e2]; exact fun tok rd' t k st2 rd2 r2 h2 => h st2 rd2 r2 (.done k h2)

theorem delim_not_lit : ∀ b : UInt8, isDelim b = true → isLit b = false := by decide +kernel

theorem LitsBelow.more {st st' : State} {rd rd' : Rd} {b : UInt8} {r r' : Bytes} (hb : isDelim b = true)
    (hr : round m strtod rd st (b :: r) = .ok (.more st', rd', r')) (h : LitsBelow strtod m st' rd' r') :
    LitsBelow strtod m st rd (b :: r) := by
  refine .step ?_ ?_ ?_
  · intro b' t hs hl
    rw [skip_delim m rd st b r hb] at hs
    cases hs
    rw [delim_not_lit b hb] at hl
    cases hl
  · intro st2 rd2 r2 k
    rw [hr] at k
    cases k
    exact h
  · intro tok rd2 r2 k
    rw [hr] at k
    cases k

theorem LitsBelow.done {st : State} {rd rd' : Rd} {tok : Tok} {b : UInt8} {r r' : Bytes} (hb : isDelim b = true)
    (hr : round m strtod rd st (b :: r) = .ok (.done tok, rd', r')) (h : LitsBelow strtod m ⟨none, false⟩ rd' r') :
    LitsBelow strtod m st rd (b :: r) := by
  refine .step ?_ ?_ ?_
  · intro b' t hs hl
    rw [skip_delim m rd st b r hb] at hs
    cases hs
    rw [delim_not_lit b hb] at hl
    cases hl
  · intro st2 rd2 r2 k
    rw [hr] at k
    cases k
  · intro tok rd2 r2 k
    rw [hr] at k
    cases k
    exact h

theorem litsBelow_nil (hm : m.Sane) (st : State) (rd : Rd) : LitsBelow strtod m st rd [] := by
  have hn := round_nil strtod hm rd st
  refine .step ?_ (fun _ _ _ k => absurd k (hn.not_ok _)) (fun _ _ _ k => absurd k (hn.not_ok _))
  intro b t hs
  obtain ⟨x, hx⟩ := skip_suffix hs
  have := (List.append_eq_nil_iff.mp hx.symm).2
  cases this

/-- Up to the point where the value of a token starts -/
theorem below_name (hm : m.Sane) (w : Wr) (r : Rd) (hr : r.stack = w.stack) (compact : Bool) (name body s : Bytes)
    (hname : w.stack.head? = some .object → NameOk name) (b : UInt8)
    (hs : s.dropWhile isBlank =
      (spacing compact w false ++ (nameText compact w false name ++ b :: body)).dropWhile isBlank)
    (h : ∀ st r1, r1.stack = r.stack → (st.readingValue = true ∨ w.stack.head? ≠ some .object) →
      LitsBelow strtod m st r1 (b :: body)) : LitsBelow strtod m ⟨none, false⟩ r s := by
  rw [dropWhile_skip _ _ _ (spacing_blank compact w false)] at hs
  by_cases ho : w.stack.head? = some .object
  · have hn : nameText compact w false name ++ b :: body =
        34 :: (name ++ 34 :: 58 :: ((if compact then [] else [32]) ++ b :: body)) := by
      simp [nameText, ho]
    rw [hn] at hs
    have hs2 : r.stack = .object :: w.stack.tail := by
      rw [hr]
      cases hw : w.stack with
      | nil => rw [hw] at ho; cases ho
      | cons a l => rw [hw] at ho; simp only [List.head?_cons, Option.some.injEq] at ho; rw [ho]; rfl
    obtain ⟨r1, h1, h2⟩ := round_name hm strtod r name name
      (58 :: ((if compact then [] else [32]) ++ b :: body)) w.stack.tail hs2
      (quoted_name name (hname ho))
    have hsp : ((if compact then [] else [(32 : UInt8)]) ++ b :: body).dropWhile isBlank =
        (b :: body).dropWhile isBlank := by
      apply dropWhile_skip
      intro x hx
      split at hx
      · cases hx
      · simp only [List.mem_singleton] at hx; rw [hx]; rfl
    exact .blank hs (.more (by decide) h2 (.more (by decide) (round_colon hm strtod r1 (some name) _)
      (.blank hsp (h _ r1 h1 (.inl rfl)))))
  · have hn : nameText compact w false name = [] := by simp [nameText, ho]
    rw [hn, List.nil_append] at hs
    exact .blank hs (h _ r rfl (.inr ho))

/-- Texts of literals are short, the bytes up to the next token are few. -/
def TextShort (dtoa : UInt64 → Bytes) (e : Event) : Prop :=
  ∀ v t, e.tok = .val v → valText dtoa v = .ok t → LitOk t → t.length ≤ 800

theorem takeWhile_prefix {p : UInt8 → Bool} {x y : Bytes} {c : UInt8} (hx : ∀ b ∈ x, p b = true) (hc : p c = false) :
    (x ++ c :: y).takeWhile p = x := by
  induction x with
  | nil => rw [List.nil_append, List.takeWhile_cons, if_neg (by simp [hc])]
  | cons a x ih =>
    rw [List.cons_append, List.takeWhile_cons, if_pos (hx a List.mem_cons_self),
      ih fun b hb => hx b (List.mem_cons_of_mem _ hb)]

theorem below_event (hm : m.Sane) {dtoa : UInt64 → Bytes} {compact : Bool} {nv : Val → Val} {w w' : Wr} {e : Event}
    {bs : Bytes} (h : write dtoa compact w e = .ok (bs, w'))
    (hok : EventOk m dtoa strtod nv w e) (tail : Bytes)
    (htail : w'.stack ≠ [] → w'.closed = false → ∃ ws c rest, tail = ws ++ c :: rest ∧ (∀ x ∈ ws, x = 10 ∨ x = 9) ∧
      (c = 44 ∨ c = 93 ∨ c = 125) ∧ ws.length ≤ 200)
    (r : Rd) (hr : r.stack = w.stack)
    (s : Bytes) (hs : s.dropWhile isBlank = (bs ++ tail).dropWhile isBlank) (hshort : TextShort dtoa e)
    (hnext : ∀ r' R, r'.stack = w'.stack → R.dropWhile isBlank = tail.dropWhile isBlank →
      LitsBelow strtod m ⟨none, false⟩ r' R) : LitsBelow strtod m ⟨none, false⟩ r s := by
  obtain ⟨name, tok⟩ := e
  cases tok with
  | scope t =>
    simp only [write] at h
    cases h
    refine below_name hm w r hr compact name tail s
      (fun ho => hok.1 ho (by simp)) (if t = .array then 91 else 123)
      (by rw [hs]; simp [List.append_assoc]) fun st r1 h2 _ => ?_
    exact .done (by cases t <;> decide) (round_open hm strtod r1 st t tail) (hnext _ _ (by simp [h2, hr]) rfl)
  | scopeEnd =>
    simp only [write] at h
    split at h
    · cases h
    · next t rest hw =>
      cases h
      rw [List.append_assoc, dropWhile_skip _ _ _ (spacing_blank compact w true)] at hs
      exact .blank hs (.done (by cases t <;> decide) (round_close hm strtod r ⟨none, false⟩ t rest
        (if t = .array then 93 else 125) tail (by rw [hr, hw]) (by cases t <;> simp)) (hnext _ _ rfl rfl))
  | val v =>
    simp only [write] at h
    rw [Res.bind_eq_ok] at h
    obtain ⟨t, ht, h⟩ := h
    cases h
    obtain ⟨hne, t', ht', hcase⟩ := hok.2
    rw [ht] at ht'
    cases ht'
    obtain ⟨top, stk, hw⟩ : ∃ top stk, w.stack = top :: stk := by
      cases hw : w.stack with
      | nil => exact absurd hw hne
      | cons a l => exact ⟨a, l, rfl⟩
    have hval : ∀ st : State, st.readingValue = true ∨ w.stack.head? ≠ some .object →
        st.readingValue = true ∨ top = .array := by
      intro st hst
      rcases hst with hst | hst
      · exact Or.inl hst
      · right
        cases top with
        | array => rfl
        | object => rw [hw] at hst; exact absurd rfl hst
    rcases hcase with ⟨text, content, rfl, hv, hq⟩ | ⟨hl, hv⟩
    · refine below_name hm w r hr compact name
        (text ++ 34 :: tail) s (fun ho => hok.1 ho (by simp)) 34
        (by rw [hs]; simp [List.append_assoc]) fun st r1 h2 h4 => ?_
      obtain ⟨r2, h5, h6⟩ := round_string hm strtod r1 st text content tail top stk
        (by rw [h2, hr, hw]) hq (hval st h4)
      exact .done (by decide) h6 (hnext _ _ (by rw [h5, h2, hr]) rfl)
    · have hlen := hshort v t rfl ht hl
      cases t with
      | nil => simp [LitOk, isLit, str] at hl
      | cons b t =>
        obtain ⟨ws, c, rest, rfl, hws, hc, hwl⟩ := htail hne rfl
        refine below_name hm w r hr compact name
          (t ++ (ws ++ c :: rest)) s (fun ho => hok.1 ho (by simp)) b
          (by rw [hs]; simp [List.append_assoc]) fun st r1 h2 h4 => ?_
        have h5 := round_literal hm strtod r1 st top stk (by rw [h2, hr, hw]) (hval st h4) b t ws c
          rest (nv v) hl.1 (fun x hx => (hl.2 x hx).1) hws hc
          (by
            show IntStr.strToType strtod (((b :: t) ++ ws).contains 46) ((b :: t) ++ ws) = _
            rw [contains_ws _ _ hws, strToType_ws strtod _ _ _ hl hws, hv])
        rw [List.cons_append] at h5
        have hskip : skip m r1 st (b :: (t ++ (ws ++ c :: rest))) = .ok (b :: (t ++ (ws ++ c :: rest))) := by
          unfold skip
          rw [if_neg (by rcases hval st h4 with hv | hv <;> simp [hv, h2, hr, hw])]
          exact moveUntil_hit _ _ _ _ (by simp [(lit_not_delim b hl.1).2.2.2.2.2.2.2])
        refine .step ?_ (fun st2 rd2 r2 k => ?_) (fun tok rd2 r2 k => ?_)
        · intro b' t' hk _ _
          rw [hskip] at hk
          cases hk
          have : (b :: (t ++ (ws ++ c :: rest))).takeWhile (fun b => !isLitEnd b) = b :: t ++ ws := by
            rw [← List.cons_append, ← List.append_assoc]
            refine takeWhile_prefix (fun x hx => ?_) (by rcases hc with rfl | rfl | rfl <;> rfl)
            rcases List.mem_append.mp hx with hx | hx
            · simp [(hl.2 x hx).1]
            · rcases hws x hx with rfl | rfl <;> rfl
          rw [this, List.length_append]
          simp only [List.length_cons] at hlen ⊢
          omega
        · rw [h5] at k
          cases k
        · rw [h5] at k
          cases k
          exact hnext _ _ (by rw [h2, hr]) (tail_drop hws)

/-- Never more than 150 scopes are open. -/
def EventsShort (dtoa : UInt64 → Bytes) : Wr → List Event → Prop
  | _, [] => True
  | w, e :: es => TextShort dtoa e ∧ w.stack.length ≤ 150 ∧ EventsShort dtoa (next w e) es

theorem spacing_tail {compact : Bool} {w : Wr} {e : Event} {dtoa : UInt64 → Bytes} {bs : Bytes} {w' : Wr}
    (h : write dtoa compact w e = .ok (bs, w')) (hc : w.closed = false) (hd : w.stack.length ≤ 150) (x : Bytes) :
    ∃ ws c rest, bs ++ x = ws ++ c :: rest ∧ (∀ x ∈ ws, x = 10 ∨ x = 9) ∧ (c = 44 ∨ c = 93 ∨ c = 125) ∧
      ws.length ≤ 200 := by
  have hcomma : ∀ y, ∃ ws c rest, spacing compact w false ++ y = ws ++ c :: rest ∧ (∀ x ∈ ws, x = 10 ∨ x = 9) ∧
      (c = 44 ∨ c = 93 ∨ c = 125) ∧ ws.length ≤ 200 := by
    intro y
    unfold spacing
    rw [hc]
    exact ⟨[], 44, _, rfl, by simp, .inl rfl, by simp⟩
  obtain ⟨name, tok⟩ := e
  cases tok with
  | scope t =>
    simp only [write] at h
    cases h
    simp only [List.append_assoc]
    exact hcomma _
  | val v =>
    simp only [write, Res.bind_eq_ok] at h
    obtain ⟨t, _, h⟩ := h
    cases h
    simp only [List.append_assoc]
    exact hcomma _
  | scopeEnd =>
    simp only [write] at h
    split at h
    · cases h
    · next t rest hw =>
      cases h
      refine ⟨spacing compact w true, if t = .array then 93 else 125, x, by simp, ?_, by cases t <;> simp, ?_⟩
      · intro b hb
        unfold spacing at hb
        simp only [Bool.not_true, Bool.and_false, Bool.false_eq_true, if_false, List.nil_append] at hb
        split at hb
        · cases hb
        · rcases List.mem_append.mp hb with hb | hb
          · split at hb
            · exact .inl (by simpa using hb)
            · cases hb
          · exact .inr (List.eq_of_mem_replicate hb)
      · unfold spacing
        simp only [Bool.not_true, Bool.and_false, Bool.false_eq_true, if_false, List.nil_append]
        split
        · simp
        · simp only [if_true, List.length_append, List.length_replicate]
          split <;> simp only [List.length_cons, List.length_nil] <;> omega

theorem below_events (hm : m.Sane) {dtoa : UInt64 → Bytes} {compact : Bool} {nv : Val → Val} (es : List Event) :
    ∀ (w w' : Wr) (bs : Bytes), writeAll dtoa compact w es = .ok (bs, w') →
      EventsOk m dtoa strtod nv w es → EventsShort dtoa w es → (w'.stack ≠ [] → False) →
      ∀ (r : Rd), r.stack = w.stack → ∀ (s : Bytes), s.dropWhile isBlank = bs.dropWhile isBlank →
      LitsBelow strtod m ⟨none, false⟩ r s := by
  induction es with
  | nil =>
    intro w w' bs h _ _ _ r hr s hs
    simp only [writeAll] at h
    cases h
    exact .blank hs (litsBelow_nil hm _ _)
  | cons e es ih =>
    intro w w' bs h hok hsh hw' r hr s hs
    simp only [writeAll, Res.bind_eq_ok] at h
    obtain ⟨⟨b1, w1⟩, h1, ⟨b2, w2⟩, h2, h⟩ := h
    cases h
    have hn := write_next h1
    obtain ⟨k1, k2, k3⟩ := hsh
    have hok2 := hok.2
    rw [← hn] at hok2 k3
    refine below_event hm h1 hok.1 b2 ?_ r hr s hs k1 fun r' R hr' hR => ih w1 _ b2 h2 hok2 k3 hw' r' hr' R hR
    intro hne hcl
    cases es with
    | nil =>
      simp only [writeAll] at h2
      cases h2
      exact (hw' hne).elim
    | cons e2 es2 =>
      simp only [writeAll, Res.bind_eq_ok] at h2
      obtain ⟨⟨b3, w3⟩, h3, ⟨b4, w4⟩, h4, h⟩ := h2
      cases h
      exact spacing_tail h3 hcl k3.2.1 _

mutual
theorem eventsShort_item {dtoa : UInt64 → Bytes} : ∀ (i : Item) (w : Wr) (es : List Event),
    (∀ e ∈ i.events, TextShort dtoa e) → w.stack.length + i.depth ≤ 150 →
    EventsShort dtoa ⟨w.stack, false⟩ es → EventsShort dtoa w (i.events ++ es)
  | .val n v, w, es, h1, h2, h3 => by
    simp only [Item.depth] at h2
    exact ⟨h1 _ (by simp [Item.events]), by omega, h3⟩
  | .scope n t kids, w, es, h1, h2, h3 => by
    simp only [Item.depth] at h2
    simp only [Item.events, List.cons_append, List.append_assoc, List.nil_append]
    refine ⟨h1 _ (by simp [Item.events]), by omega, ?_⟩
    refine eventsShort_items kids ⟨t :: w.stack, true⟩ _ (fun e he => h1 e (by simp [Item.events, he]))
      (by simp only [List.length_cons]; omega) fun b => ?_
    exact ⟨fun v t h => (by cases h), by simp only [List.length_cons]; omega, h3⟩
theorem eventsShort_items {dtoa : UInt64 → Bytes} : ∀ (is : List Item) (w : Wr) (es : List Event),
    (∀ e ∈ Item.eventsL is, TextShort dtoa e) → w.stack.length + Item.depthL is ≤ 150 →
    (∀ b, EventsShort dtoa ⟨w.stack, b⟩ es) → EventsShort dtoa w (Item.eventsL is ++ es)
  | [], w, es, _, _, h3 => h3 w.closed
  | i :: is, w, es, h1, h2, h3 => by
    simp only [Item.depthL] at h2
    simp only [Item.eventsL, List.append_assoc]
    exact eventsShort_item i w _ (fun e he => h1 e (by simp [Item.eventsL, he])) (by omega)
      (eventsShort_items is ⟨w.stack, false⟩ es (fun e he => h1 e (by simp [Item.eventsL, he]))
        (by show w.stack.length + _ ≤ _; omega) h3)
end

theorem putDigits_length : ∀ (room val : Nat) (acc out : Bytes) (k : Nat),
    IntStr.putDigits room val acc = .ok (k, out) → out.length ≤ room + acc.length
  | 0, val, acc, out, k, h => by
    rw [IntStr.putDigits] at h
    split at h
    · cases h
    · cases h; omega
  | room + 1, val, acc, out, k, h => by
    rw [IntStr.putDigits] at h
    split at h
    · have := putDigits_length room _ _ _ _ h
      simp only [List.length_cons] at this
      omega
    · cases h; omega

theorem intToStr_length {t : IntTy} {v : Int} {s : Bytes} (h : IntStr.intToStr t v = .ok s) : s.length ≤ 30 := by
  have hf : ∀ neg val, IntStr.format t neg val = .ok s → s.length ≤ 30 := by
    intro neg val h
    unfold IntStr.format at h
    split at h
    · cases h; simp
    · rw [Res.bind_eq_ok] at h
      obtain ⟨⟨room, acc⟩, h1, h⟩ := h
      have h2 := putDigits_length _ _ _ _ _ h1
      have h3 : IntStr.bufferSize t ≤ 21 := by cases t <;> decide
      simp only [List.length_nil] at h2
      simp only at h
      split at h
      · split at h
        · first | (cases h; done) | (cases h; simp only [List.length_cons]; omega)
        · first | (cases h; done) | (cases h; simp only [List.length_cons]; omega)
      · cases h; omega
  unfold IntStr.intToStr at h
  simp only at h
  split at h
  · cases h
  · exact hf _ _ h

theorem fpToStr_length {dtoa : UInt64 → Bytes} {d : UInt64} {s : Bytes} (hd : (dtoa d).length ≤ 800)
    (h : fpToStr dtoa d = .ok s) : s.length ≤ 800 := by
  unfold fpToStr at h
  split at h
  · split at h
    · split at h
      · cases h
      · have := intToStr_length h; omega
    · cases h; exact hd
  · cases h; exact hd

theorem textShort_of {dtoa : UInt64 → Bytes} (hd : ∀ d, (dtoa d).length ≤ 800) (e : Event) : TextShort dtoa e := by
  intro v t _ ht hl
  have hq : ∀ x : Bytes, ¬ LitOk (34 :: x) := by
    intro x hx
    have := hx.1
    revert this
    simp only [List.headD_cons]
    decide
  cases v with
  | str s => cases ht; exact absurd hl (hq _)
  | bin s => cases ht; exact absurd hl (hq _)
  | bool b => cases ht; cases b <;> decide
  | null => cases ht; decide
  | int ty a => have := intToStr_length (t := ty) (v := a) (s := t) ht; omega
  | fp32 f => exact fpToStr_length (hd _) (s := t) ht
  | fp64 d => exact fpToStr_length (hd _) (s := t) ht

theorem writeAll_nexts {dtoa : UInt64 → Bytes} {compact : Bool} : ∀ (es : List Event) (w w' : Wr) (bs : Bytes),
    writeAll dtoa compact w es = .ok (bs, w') → w' = nexts w es
  | [], w, w', bs, h => by
    simp only [writeAll, Res.ok.injEq, Prod.mk.injEq] at h
    exact h.2.symm
  | e :: es, w, w', bs, h => by
    simp only [writeAll, Res.bind_eq_ok] at h
    obtain ⟨⟨b1, w1⟩, h1, ⟨b2, w2⟩, h2, h⟩ := h
    cases h
    rw [nexts, ← write_next h1]
    exact writeAll_nexts es w1 _ b2 h2

/-- What has been saved has no long literals. -/
theorem below_saved (hm : m.Sane) {dtoa : UInt64 → Bytes} (hd : ∀ d, (dtoa d).length ≤ 800) {compact : Bool}
    {name : Bytes} {n : Node} (hn : NodeOk dtoa strtod n) (hdepth : n.depth ≤ 128) {bs : Bytes}
    (h : save dtoa compact name n = .ok bs) : LitsBelow strtod m ⟨none, false⟩ Rd.new bs := by
  unfold save at h
  rw [Res.bind_eq_ok] at h
  obtain ⟨⟨b, w'⟩, h1, h⟩ := h
  simp only [Res.ok.injEq] at h
  subst h
  rw [Node.events_eq] at h1
  have hd2 := Node.depth_toItem name n
  have hi := itemOk_node m dtoa strtod false name n (fun h => by cases h) hn
  obtain ⟨t, vs, ns⟩ := n
  have hw : w' = ⟨[], false⟩ := by
    have := writeAll_nexts _ _ _ _ h1
    rw [nexts_item] at this
    exact this
  refine below_events (nv := nvJson dtoa strtod) hm _ Wr.new w' b h1 ?_ ?_ (fun h => h (by rw [hw])) Rd.new rfl b rfl
  · simp only [Node.toItem, ItemOk] at hi
    simp only [Node.toItem, Item.events, EventsOk, eventsOk_append]
    refine ⟨⟨fun ho _ => (by cases ho), trivial⟩, ?_, ?_⟩
    · apply eventsOk_items
      · simp [next]
      · cases t <;> exact hi.2
    · exact ⟨⟨fun _ h => absurd rfl h, trivial⟩, trivial⟩
  · have := eventsShort_item (dtoa := dtoa) ((Node.mk t vs ns).toItem name) Wr.new []
      (fun e _ => textShort_of hd e) (by simp only [Wr.new, List.length_nil]; omega) trivial
    rwa [List.append_nil] at this

end

end Srl.PJson
