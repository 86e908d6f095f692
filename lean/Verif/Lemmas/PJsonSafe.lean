import Verif.Lemmas.PJsonCut

/-! Lemmas about the JSON format: input on which nothing undefined happens. -/

namespace Srl.PJson
open Doc

/-- No escape `\uXXYY` with `YY` above 07 (the code reads it as the code unit `YYXX`, which below
0x800 needs at most the two bytes that are reserved). -/
def UOk (s : Bytes) : Prop :=
  ∀ a d1 d2 d3 d4 b, s = a ++ 92 :: 117 :: d1 :: d2 :: d3 :: d4 :: b → d3 = 48 ∧ d4 < 56

theorem UOk.suffix {x s : Bytes} (h : UOk (x ++ s)) : UOk s :=
  fun a d1 d2 d3 d4 b hs => h (x ++ a) d1 d2 d3 d4 b (by rw [hs, List.append_assoc])

theorem conv_lt : ∀ c : UInt8, c < 56 → ∀ x, Hex.conv c = .ok x → x < 8 := by
  intro c hc x hx
  have : ∀ c : UInt8, c < 56 → Hex.conv c = .ok (c - 48) ∧ c - 48 < 8 ∨ Hex.conv c = .err := by
    decide +kernel
  rcases this c hc with ⟨h1, h2⟩ | h1
  · rw [h1] at hx; cases hx; exact h2
  · rw [h1] at hx; cases hx

theorem conv_cases (c : UInt8) : (∃ x, Hex.conv c = .ok x) ∨ Hex.conv c = .err := by
  unfold Hex.conv
  repeat' split
  all_goals simp

theorem utf8_short (u : Nat) (h : u < 2048) : ∃ t, utf8OfUnit u = .ok t ∧ t.length ≤ 2 := by
  unfold utf8OfUnit
  by_cases h1 : u < 128
  · exact ⟨_, if_pos h1, by simp⟩
  · rw [if_neg h1]
    exact ⟨_, if_pos h, by simp⟩

theorem ucConv_safe (c : Cap) (idx : Nat) (d1 d2 d4 : UInt8) (h : d4 < 56) :
    ucConv c idx [92, 117, d1, d2, 48, d4] ≠ .ub := by
  unfold ucConv
  have hd : Hex.decodeTo 2 (([92, 117, d1, d2, 48, d4] : Bytes).drop 2) =
      Hex.loop [d1, d2, 48, d4] := by simp [Hex.decodeTo]
  rw [hd]
  simp only [Hex.loop]
  have h48 : Hex.conv 48 = .ok 0 := rfl
  rw [h48]
  rcases conv_cases d1 with ⟨x1, h1⟩ | h1 <;> rw [h1] <;>
    simp only [Res.ok_bind, Res.err_bind, ne_eq, reduceCtorEq, not_false_eq_true]
  rcases conv_cases d2 with ⟨x2, h2⟩ | h2 <;> rw [h2] <;>
    simp only [Res.ok_bind, Res.err_bind, reduceCtorEq, not_false_eq_true]
  rcases conv_cases d4 with ⟨x4, h4⟩ | h4 <;> rw [h4] <;>
    simp only [Res.ok_bind, Res.err_bind, reduceCtorEq, not_false_eq_true, Res.pure_eq]
  have hx := conv_lt d4 h x4 h4
  have hl : (((0 : UInt8) <<< 4) ||| x4).toNat < 8 := by
    have : ∀ x : UInt8, x < 8 → (((0 : UInt8) <<< 4) ||| x).toNat < 8 := by decide +kernel
    exact this x4 hx
  unfold convUnit
  simp only [List.getD_cons_zero, List.getD_cons_succ]
  have hb : ((x1 <<< 4) ||| x2).toNat < 256 := UInt8.toNat_lt _
  obtain ⟨t, ht, hlen⟩ := utf8_short
    (((x1 <<< 4) ||| x2).toNat + 256 * (((0 : UInt8) <<< 4) ||| x4).toNat) (by omega)
  rw [ht]
  simp only [Res.ok_bind]
  rw [if_neg (by omega)]
  simp

section
variable {m : Mem} (hm : m.Sane) (hp : m.past ≠ none)

include hm hp

theorem readString_safe : ∀ (fuel : Nat) (c : Cap) (steps : Nat) (s : Bytes), UOk s →
    readString m fuel c steps s ≠ .ub := by
  intro fuel
  induction fuel with
  | zero => intro c steps s _ h; cases h
  | succ fuel ih =>
    intro c steps s hu
    have hb : ∀ {α β : Type} (x : Res α) (f : α → β), x ≠ .ub →
        (do let a ← x; Res.ok (f a)) ≠ .ub := by
      intro α β x f hx
      cases x with
      | ub => exact absurd rfl hx
      | ok a => simp
      | err => simp
      | fuel => simp
    cases s with
    | nil => exact fun h => hp ((readString_nil m fuel c steps).past h)
    | cons b s =>
      have hs : UOk s := UOk.suffix (x := [b]) hu
      cases at_any b s with
      | close => simp [readString]
      | plain _ _ h1 h2 =>
        rw [readString_plain m fuel c steps b s h1 h2]
        exact hb _ (fun p => (b :: p.1, p.2.1, p.2.2)) (ih _ _ s hs)
      | last =>
        rw [readString_last]
        exact hb _ (fun p => (92 :: p.1, p.2.1, p.2.2)) (ih _ _ [] hs)
      | escaped e r u he =>
        rw [readString_escaped m fuel c steps e r u he]
        exact hb _ (fun p => (r :: p.1, p.2.1, p.2.2)) (ih _ _ u (UOk.suffix (x := [e]) hs))
      | uc u =>
        rw [readString_uc]
        rcases readBlock_six hm (92 :: 117 :: u) with hr | ⟨z, v, hz1, hz2, hz3⟩
        · have : ucLiteral m (c.grow steps) steps (92 :: 117 :: u) = .err := by
            unfold ucLiteral; rw [hr]; rfl
          rw [this]; simp
        · rw [ucLiteral_block hz3]
          match z, hz1 with
          | [z1, z2, z3, z4, z5, z6], _ =>
            simp only [List.cons_append, List.nil_append, List.cons.injEq] at hz2
            obtain ⟨rfl, rfl, rfl⟩ := hz2
            obtain ⟨rfl, h6⟩ := hu [] z3 z4 z5 z6 v rfl
            cases hc : ucConv (c.grow steps) steps [92, 117, z3, z4, 48, z6] with
            | ub => exact absurd hc (ucConv_safe _ _ _ _ _ h6)
            | ok p =>
              obtain ⟨t, c2⟩ := p
              simp only [Res.ok_bind]
              exact hb _ (fun p => (t ++ p.1, p.2.1, p.2.2))
                (ih _ _ v (UOk.suffix (x := [92, 117, z3, z4, 48, z6]) hu))
            | err => simp
            | fuel => simp
      | odd e u h1 h2 =>
        rw [readString_odd m fuel c steps e u h1 h2]
        exact hb _ (fun p => (92 :: p.1, p.2.1, p.2.2)) (ih _ _ (e :: u) hs)

variable (strtod : Bytes → Option UInt64)

theorem dispatch_safe (r : Rd) (st : State) (c : UInt8) (s : Bytes) (hu : UOk s) :
    dispatch m strtod r st (c :: s) ≠ .ub := by
  have hcur : ∀ t, ∃ b, In.cur m t = .ok b := by
    intro t
    cases t with
    | cons b t => exact ⟨b, rfl⟩
    | nil =>
      rcases cur_nil_cases m with ⟨h, -⟩ | ⟨b, -, h⟩
      · exact absurd h hp
      · exact ⟨b, h⟩
  have hmove : ∀ t, In.move m 1 t ≠ .ub := by
    intro t
    cases t with
    | nil => rw [move_nil hm]; simp
    | cons b t => rw [move_one hm]; simp
  have hb : ∀ {α β : Type} (x : Res α) (f : α → Res β), x ≠ .ub → (∀ a, f a ≠ .ub) →
      (x >>= f) ≠ .ub := by
    intro α β x f hx hf
    cases x with
    | ub => exact absurd rfl hx
    | ok a => exact hf a
    | err => simp
    | fuel => simp
  have huntil : ∀ (p : UInt8 → Bool) t, moveUntil m p t ≠ .ub := by
    intro p t h
    rcases moveUntil_bad (m := m) (p := p) t with ⟨u, h2⟩ | h2
    · rw [h2] at h; cases h
    · exact hp (h2.past h)
  unfold dispatch
  simp only [In.cur, Res.ok_bind]
  by_cases c1 : c = 34
  · rw [if_pos c1]
    refine hb _ _ ?_ fun p => hb _ _ (hmove _) fun _ => (by simp)
    unfold processQuote
    cases r.stack with
    | nil => simp
    | cons top stk =>
      simp only [move_one hm, Res.ok_bind]
      refine hb _ _ (readString_safe hm hp _ _ _ s hu) fun p => ?_
      repeat' split
      all_goals simp
  rw [if_neg c1]
  by_cases c2 : c = 58
  · rw [if_pos c2]
    split
    · simp
    · exact hb _ _ (hmove _) fun _ => (by simp)
  rw [if_neg c2]
  by_cases c3 : c = 123 ∨ c = 125 ∨ c = 91 ∨ c = 93
  · rw [if_pos c3]
    refine hb _ _ ?_ fun p => hb _ _ (hmove _) fun _ => (by simp)
    unfold processBracket
    repeat' split
    all_goals simp
  rw [if_neg c3]
  by_cases c4 : c = 47
  · rw [if_pos c4]
    refine hb _ _ ?_ fun p => hb _ _ (hmove _) fun _ => (by simp)
    unfold skipComment
    split
    · obtain ⟨b, hbb⟩ := hcur ((c :: s).drop 1)
      rw [hbb]
      simp only [Res.ok_bind]
      split
      · rcases moveUntilClose_suffix m (c :: s) with h | ⟨_, _, _, h, _⟩ <;> rw [h] <;> simp
      · split
        · exact huntil _ _
        · simp
    · simp
  rw [if_neg c4]
  refine hb _ _ ?_ fun p => ?_
  · unfold processChar
    split
    · refine hb _ _ (huntil _ _) fun t => ?_
      simp only
      split
      · simp
      · obtain ⟨b, hbb⟩ := hcur t
        rw [hbb]
        simp
    · simp
  · split
    · exact hb _ _ (hmove _) fun _ => (by simp)
    · simp

theorem round_safe (r : Rd) (st : State) (s : Bytes) (hu : UOk s) :
    round m strtod r st s ≠ .ub := by
  unfold round
  rcases skip_bad m r st s with ⟨t, h⟩ | h
  · rw [h, Res.ok_bind]
    cases t with
    | nil => exact fun hd => hp ((dispatch_nil strtod hm r st).past hd)
    | cons c t =>
      obtain ⟨x, hx⟩ := skip_suffix h
      exact dispatch_safe hm hp strtod r st c t (UOk.suffix (x := x ++ [c]) (by
        rw [List.append_assoc, List.singleton_append, ← hx]; exact hu))
  · exact fun hd => hp ((h.bind _).past hd)

theorem loop_safe : ∀ (fuel : Nat) (st : State) (r : Rd) (s : Bytes), UOk s →
    loop m strtod fuel st (r, s) ≠ .ub := by
  intro fuel
  induction fuel with
  | zero => intro st r s _ h; cases h
  | succ fuel ih =>
    intro st r s hu
    rw [loop]
    have h1 := round_safe hm hp strtod r st s hu
    have h2 := (round_ext strtod hm hm r st s []).2.1
    cases h : round m strtod r st s with
    | ub => exact absurd h h1
    | err => simp
    | fuel => simp
    | ok p =>
      obtain ⟨x, r1, t⟩ := p
      obtain ⟨y, -, hy⟩ := h2 _ _ _ h
      simp only [Res.ok_bind]
      cases x with
      | done tok => simp
      | more st' => exact ih st' r1 t (UOk.suffix (x := y) (by rw [← hy]; exact hu))

theorem loadWith_safe (r : Rd) (s : Bytes) (hu : UOk s) : loadWith m strtod r s ≠ .ub := by
  unfold loadWith
  refine load_safe (read m strtod) (fun x => UOk x.2) ?_ ?_ _ _ hu
  · intro x hx
    exact loop_safe hm hp strtod _ _ _ _ hx
  · intro x e x' hx h
    obtain ⟨r', t⟩ := x'
    obtain ⟨y, -, hy⟩ := (read_progress strtod hm x).1 _ _ _ h
    exact UOk.suffix (x := y) (by rw [← hy]; exact hx)

end

end Srl.PJson
