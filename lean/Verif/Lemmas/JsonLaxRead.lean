import Verif.Lemmas.JsonLax

/-! Lemmas about the texts the JSON reader takes: what is read is in the grammar. -/

namespace Srl.Lax
open Rfc8259 PJson Doc

theorem mem_marks : ∀ b : UInt8, b ∈ marks ↔ isDelim b = true := by decide +kernel
theorem mem_starts : ∀ b : UInt8, b ∈ starts ↔ isLit b = true := by decide +kernel
theorem mem_ends : ∀ b : UInt8, b ∈ ends ↔ isLitEnd b = true := by decide +kernel
theorem blank_junk : ∀ b : UInt8, isBlank b = true → b ∉ marks ∧ b ∉ starts := by decide +kernel

/-- What words mean -/
abbrev wordOf (strtod : Bytes → Option UInt64) (w : Bytes) : Option Val := IntStr.strToType strtod (w.contains 46) w

/-- The open scopes after a token -/
def after : Tok → List ScopeTy → List ScopeTy
  | .scope k, st => k :: st
  | .scopeEnd, st => st.tail
  | .val _, st => st

theorem moveUntil_split {m : Mem} {p : UInt8 → Bool} {s t : Bytes} (h : moveUntil m p s = .ok t) :
    ∃ x, s = x ++ t ∧ ∀ b ∈ x, p b = false := by
  induction s with
  | nil =>
    rw [moveUntil, Res.bind_eq_ok] at h
    obtain ⟨b, _, h⟩ := h
    split at h
    · cases h; exact ⟨[], rfl, by simp⟩
    · cases h
  | cons b s ih =>
    rw [moveUntil] at h
    split at h
    · cases h; exact ⟨[], rfl, by simp⟩
    · next hb =>
      obtain ⟨x, rfl, hx⟩ := ih h
      refine ⟨b :: x, rfl, ?_⟩
      intro c hc
      rcases List.mem_cons.mp hc with rfl | hc
      · simpa using hb
      · exact hx c hc

variable {m : Mem} (strtod : Bytes → Option UInt64)

theorem token_junk {top : Option ScopeTy} {n : Option Bytes} {c : Bool} {e : Event} {s t : Bytes} : ∀ x : Bytes,
    (∀ b ∈ x, b ∉ marks ∧ (c = false ∧ top ≠ some .array ∨ b ∉ starts)) →
    Token (wordOf strtod) top n c s e t → Token (wordOf strtod) top n c (x ++ s) e t
  | [], _, h => h
  | b :: x, hx, h => .junk _ _ _ _ _ _ (hx b (by simp)).1 (hx b (by simp)).2
      (token_junk x (fun c hc => hx c (by simp [hc])) h)

/-- What is passed over in front of a token -/
theorem skip_token {r : Rd} {st : State} {s u : Bytes} (h : skip m r st s = .ok u) :
    (∀ e t, Token (wordOf strtod) r.stack.head? st.name st.readingValue u e t →
      Token (wordOf strtod) r.stack.head? st.name st.readingValue s e t) ∧
    (∀ b v, u = b :: v → isDelim b = true ∨ st.readingValue = true ∨ r.stack.head? = some .array) := by
  unfold skip at h
  split at h
  · next hf =>
    simp only [Bool.and_eq_true, Bool.not_eq_true', bne_iff_ne, ne_eq] at hf
    obtain ⟨x, rfl, hx⟩ := moveUntil_split h
    refine ⟨fun e t => token_junk strtod x fun b hb => ⟨?_, .inl hf⟩, ?_⟩
    · rw [mem_marks, hx b hb]; decide
    · rintro b v rfl
      exact .inl (moveUntil_at h)
  · next hf =>
    obtain ⟨x, rfl, hx⟩ := moveUntil_split h
    refine ⟨fun e t => token_junk strtod x fun b hb => ?_, ?_⟩
    · have := blank_junk b (by simpa using hx b hb)
      exact ⟨this.1, .inr this.2⟩
    · intro b v _
      right
      simp only [Bool.and_eq_true, Bool.not_eq_true', bne_iff_ne, ne_eq, not_and, not_not] at hf
      cases hv : st.readingValue with
      | true => exact .inl rfl
      | false => exact .inr (hf hv)

variable (hm : m.Sane)
include hm

/-- A comment, or a slash that begins none -/
theorem comment_token {s u v : Bytes} (h : skipComment m (47 :: s) = .ok u) (hv : In.move m 1 u = .ok v) :
    ∀ top n c e t, v ≠ [] → Token (wordOf strtod) top n c v e t → Token (wordOf strtod) top n c (47 :: s) e t := by
  intro top n c e t hne ht
  obtain ⟨b, rfl⟩ := move_suffix hv
  unfold skipComment at h
  rw [if_pos (by simp [In.tryPeek])] at h
  simp only [List.drop_succ_cons, List.drop_zero] at h
  cases s with
  | nil =>
    rcases cur_nil_cases m with ⟨_, h2⟩ | ⟨x, _, h2⟩
    · rw [h2] at h; cases h
    · rw [h2] at h
      simp only [Res.ok_bind] at h
      split at h
      · cases h
      · split at h
        · obtain ⟨y, hy, hno⟩ := moveUntil_split h
          match y, hy with
          | [], hy => simp only [List.nil_append, List.cons.injEq] at hy; exact absurd hy.2.symm hne
          | _ :: y, hy =>
            simp only [List.cons_append, List.cons.injEq] at hy
            have := hy.2
            simp at this
        · cases h; exact absurd rfl hne
  | cons x s =>
    simp only [In.cur, Res.ok_bind] at h
    split at h
    · next hx =>
      subst hx
      obtain ⟨y, w, h1, h2⟩ : ∃ y w, 47 :: 42 :: s = y ++ 42 :: 47 :: w ∧
          moveUntilClose m (47 :: 42 :: s) = .ok (42 :: 47 :: w) ∧ (∀ p q, y ≠ p ++ 42 :: 47 :: q) := by
        clear ht hne hv
        generalize 47 :: 42 :: s = z at h ⊢
        induction z with
        | nil => cases h
        | cons a z ih =>
          by_cases ha : a = 42 ∧ ∃ w, z = 47 :: w
          · obtain ⟨rfl, w, rfl⟩ := ha
            refine ⟨[], w, rfl, rfl, ?_⟩
            intro p q hp
            simp at hp
          · have hstep : moveUntilClose m (a :: z) = moveUntilClose m z := by
              rw [moveUntilClose]
              intro w h1 h2
              exact ha ⟨h1, w, h2⟩
            rw [hstep] at h ⊢
            obtain ⟨y, w, rfl, h2, h3⟩ := ih h
            refine ⟨a :: y, w, rfl, h2, ?_⟩
            intro p q hp
            cases p with
            | nil =>
              simp only [List.nil_append, List.cons.injEq] at hp
              obtain ⟨rfl, rfl⟩ := hp
              exact ha ⟨rfl, q ++ 42 :: 47 :: w, rfl⟩
            | cons p' p =>
              simp only [List.cons_append, List.cons.injEq] at hp
              exact h3 p q hp.2
      rw [h2.1] at h
      cases h
      exact .block _ _ _ y w _ _ h1 h2.2 ht
    · split at h
      · next hx =>
        subst hx
        obtain ⟨y, hy, hno⟩ := moveUntil_split h
        have hb := moveUntil_at h
        simp only [Bool.or_eq_true, beq_iff_eq] at hb
        match y, hy with
        | [], hy =>
          simp only [List.nil_append, List.cons.injEq] at hy
          obtain ⟨rfl, _⟩ := hy
          exact absurd hb (by decide)
        | [_], hy =>
          simp only [List.cons_append, List.nil_append, List.cons.injEq] at hy
          obtain ⟨_, rfl, _⟩ := hy
          exact absurd hb (by decide)
        | y1 :: y2 :: y, hy =>
          simp only [List.cons_append, List.cons.injEq] at hy
          obtain ⟨rfl, rfl, rfl⟩ := hy
          refine .line _ _ y b v _ _ (fun c hc => ?_) hb ht
          have := hno c (by simp [hc])
          simpa using this
      · next h1 h2 =>
        cases h
        exact .slash _ _ _ _ _ (by simpa using h1) (by simpa using h2) ht

/-- What is read is a token of the grammar, unless it is a word at the very end. -/
theorem loop_token : ∀ (fuel : Nat) (st : State) (r : Rd) (s : Bytes) (e : Event) (r' : Rd) (t : Bytes),
    loop m strtod fuel st (r, s) = .ok (e, r', t) → (t = [] ∧ ∃ v, e.tok = .val v) ∨
    (Token (wordOf strtod) r.stack.head? st.name st.readingValue s e t ∧ r'.stack = after e.tok r.stack) := by
  intro fuel
  induction fuel with
  | zero => intro st r s e r' t h; cases h
  | succ fuel ih =>
    intro st r s e r' t h
    simp only [loop, round, Res.bind_eq_ok] at h
    obtain ⟨⟨x, r1, s1⟩, ⟨u, h1, h2⟩, h⟩ := h
    obtain ⟨k1, k2⟩ := skip_token strtod h1
    suffices H : (t = [] ∧ ∃ v, e.tok = .val v) ∨
        (Token (wordOf strtod) r.stack.head? st.name st.readingValue u e t ∧ r'.stack = after e.tok r.stack) from
      H.imp_right fun H => ⟨k1 _ _ H.1, H.2⟩
    clear k1 h1
    cases u with
    | nil => exact absurd h2 ((dispatch_nil strtod hm r st).not_ok _)
    | cons b u =>
      specialize k2 b u rfl
      -- what happens after a round that finds no token
      have hmore : ∀ st', x = .more st' → r1.stack = r.stack → s1 ≠ [] ∧ ((t = [] ∧ ∃ v, e.tok = .val v) ∨
          (Token (wordOf strtod) r.stack.head? st'.name st'.readingValue s1 e t ∧ r'.stack = after e.tok r.stack)) := by
        rintro st' rfl hr
        dsimp only at h
        refine ⟨?_, ?_⟩
        · rintro rfl
          have := loop_nil strtod hm fuel st' r1
          rw [h] at this
          rcases this with this | this
          · exact this.not_ok _ rfl
          · cases this
        · have := ih _ _ _ _ _ _ h
          rwa [hr] at this
      unfold dispatch at h2
      simp only [In.cur, Res.ok_bind] at h2
      split at h2
      · next hb =>
        subst hb
        simp only [processQuote, Res.bind_eq_ok] at h2
        cases hs : r.stack with
        | nil => rw [hs] at h2; obtain ⟨_, h2, _⟩ := h2; cases h2
        | cons top stk =>
          rw [hs] at h2
          simp only [move_one hm, Res.ok_bind, Res.bind_eq_ok] at h2
          obtain ⟨⟨x', r2, s2⟩, ⟨⟨v, c, s3⟩, h3, h4⟩, s4, h5, h6⟩ := h2
          cases h6
          obtain ⟨q, y, hq, hu, rfl⟩ := readString_chars hm _ _ _ _ _ _ _ h3
          subst hu
          dsimp only at h4
          split at h4
          · next hv =>
            cases h4
            simp only [move_one hm] at h5
            cases h5
            dsimp only at h
            cases h
            refine .inr ⟨.str _ _ _ _ _ ?_ hq, ?_⟩
            · rcases hv with hv | rfl
              · exact .inr ⟨hv, by simp⟩
              · exact .inl rfl
            · simp only [after]
              split <;> simp [hs]
          · next hv =>
            rw [not_or] at hv
            split at h4
            · cases h4
            · next hn =>
              cases h4
              simp only [move_one hm] at h5
              cases h5
              have hn : st.name = none := by simpa using hn
              have hc : st.readingValue = false := by simpa using hv.1
              have hto : top = .object := by
                cases top with
                | object => rfl
                | array => exact absurd rfl hv.2
              obtain ⟨_, hh | ⟨hh, hh'⟩⟩ := hmore _ rfl (by simp [hs])
              · exact .inl hh
              · right
                rw [hs] at hh hh'
                dsimp only at hh
                rw [hn, hc] at *
                exact ⟨.name _ _ _ _ _ (by rw [hto]; rfl) hq hh, hh'⟩
      · split at h2
        · next hb =>
          subst hb
          split at h2
          · cases h2
          · next hc =>
            simp only [move_one hm, Res.ok_bind] at h2
            cases h2
            obtain ⟨_, hh | ⟨hh, hh'⟩⟩ := hmore _ rfl rfl
            · exact .inl hh
            · right
              have hc : st.readingValue = false := by simpa using hc
              rw [hc]
              exact ⟨.colon _ _ _ _ hh, hh'⟩
        · split at h2
          · next hb =>
            simp only [Res.bind_eq_ok] at h2
            obtain ⟨⟨x', r2⟩, h3, s2, h4, h5⟩ := h2
            cases h5
            rw [move_one hm] at h4
            cases h4
            unfold processBracket at h3
            right
            split at h3
            · next hb => cases h3; dsimp only at h; cases h; subst hb; exact ⟨.opened _ _ .object _, rfl⟩
            · split at h3
              · next hb => cases h3; dsimp only at h; cases h; subst hb; exact ⟨.opened _ _ .array _, rfl⟩
              · next c1 c2 =>
                cases hs : r.stack with
                | nil => rw [hs] at h3; cases h3
                | cons top stk =>
                  rw [hs] at h3
                  cases h3
                  dsimp only at h
                  cases h
                  exact ⟨.closed _ _ _ _ (by simp) (by rcases hb with hb | hb | hb | hb <;> simp_all), rfl⟩
          · split at h2
            · next hb =>
              subst hb
              simp only [Res.bind_eq_ok] at h2
              obtain ⟨s2, h3, s3, h4, h5⟩ := h2
              cases h5
              obtain ⟨hne, hh | ⟨hh, hh'⟩⟩ := hmore _ rfl rfl
              · exact .inl hh
              · exact .inr ⟨comment_token strtod hm h3 h4 _ _ _ _ _ hne hh, hh'⟩
            · next c1 c2 c3 c4 =>
              have hnd : isDelim b = false := by
                simp only [isDelim, Bool.or_eq_false_iff, beq_eq_false_iff_ne]
                tauto
              simp only [Res.bind_eq_ok] at h2
              obtain ⟨⟨x', s2, mv⟩, h3, h4⟩ := h2
              unfold processChar at h3
              split at h3
              · next hl =>
                simp only [Res.bind_eq_ok] at h3
                obtain ⟨s3, h5, h6⟩ := h3
                split at h6
                · cases h6
                · next v hv =>
                  simp only [Res.bind_eq_ok] at h6
                  obtain ⟨l, h7, h8⟩ := h6
                  cases h8
                  obtain ⟨y, hy, hno⟩ := moveUntil_split h5
                  cases s2 with
                  | nil =>
                    dsimp only at h4
                    split at h4
                    · rw [move_nil hm] at h4; cases h4
                    · cases h4; dsimp only at h; cases h; exact .inl ⟨rfl, v, rfl⟩
                  | cons l' s2 =>
                    obtain rfl : l' = l := by cases h7; rfl
                    have hend := moveUntil_at h5
                    cases y with
                    | nil =>
                      simp only [List.nil_append, List.cons.injEq] at hy
                      obtain ⟨rfl, _⟩ := hy
                      rw [lit_no_end _ hl] at hend
                      cases hend
                    | cons b' y =>
                      obtain ⟨rfl, rfl⟩ : b = b' ∧ u = y ++ l' :: s2 := by simpa using hy
                      have hblock : (b :: (y ++ l' :: s2)).take ((b :: (y ++ l' :: s2)).length -
                          (l' :: s2).length) = b :: y := by
                        rw [show b :: (y ++ l' :: s2) = (b :: y) ++ l' :: s2 from rfl, List.length_append,
                          Nat.add_sub_cancel, List.take_left]
                      rw [hblock] at hv
                      have htok := Token.word (word := wordOf strtod) (top := r.stack.head?) st.name st.readingValue b y
                        l' s2 v (by rcases k2 with k2 | k2
                                    · rw [hnd] at k2; cases k2
                                    · exact k2) ((mem_starts b).mpr hl)
                        (fun c hc => by rw [mem_ends, hno c (by simp [hc])]; decide) ((mem_ends l').mpr hend) hv
                      right
                      simp only [isLitEnd, Bool.or_eq_true, beq_iff_eq] at hend
                      rcases hend with ((rfl | rfl) | rfl) | rfl
                      · simp only [move_one hm, Res.ok_bind] at h4
                        cases h4; dsimp only at h; cases h
                        exact ⟨htok, rfl⟩
                      · simp only [move_one hm, Res.ok_bind] at h4
                        cases h4; dsimp only at h; cases h
                        exact ⟨htok, rfl⟩
                      · cases h4; dsimp only at h; cases h
                        exact ⟨htok, rfl⟩
                      · cases h4; dsimp only at h; cases h
                        exact ⟨htok, rfl⟩
              · next hl =>
                cases h3
                simp only [if_true, move_one hm, Res.ok_bind] at h4
                cases h4
                obtain ⟨_, hh | ⟨hh, hh'⟩⟩ := hmore _ rfl rfl
                · exact .inl hh
                · exact .inr ⟨.junk _ _ _ _ _ _ (by rw [mem_marks, hnd]; decide)
                    (.inr (by rw [mem_starts]; exact hl)) hh, hh'⟩

end Srl.Lax
