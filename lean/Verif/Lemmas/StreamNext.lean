import Verif.Lemmas.StreamDoc
import Verif.Lemmas.StreamJsonDoc

/-! How far ahead of a document the stream is read. -/

namespace Srl.Stream
variable {α β : Type}

/-- What holds of a result, if there is one -/
def Ends (P : α → Prop) : Res α → Prop
  | .ok a => P a
  | _ => True

theorem Ends.bind {Q : α → Prop} {P : β → Prop} {x : Res α} {f : α → Res β} (hx : Ends Q x)
    (hf : ∀ a, Q a → Ends P (f a)) : Ends P (x >>= f) := by
  cases x with
  | ok a => exact hf a hx
  | _ => trivial

theorem Ends.bind_any {P : β → Prop} {x : Res α} {f : α → Res β} (hf : ∀ a, Ends P (f a)) : Ends P (x >>= f) := by
  cases x with
  | ok a => exact hf a
  | _ => trivial

theorem Ends.of_ok {P : α → Prop} {x : Res α} {a : α} (h : Ends P x) (hx : x = .ok a) : P a := by
  subst hx; exact h

/-- The buffer holds at most `max n 1024` bytes more than have been asked for; if the whole source of length `total` has not
more, the stream is used up, or just one byte has been taken from it. -/
def Look' (n total : Nat) (s : SIn) : Prop :=
  s.stop - s.pos ≤ max n 1024 ∧ (total ≤ 1024 → s.src = [] ∨ (s.stop - s.pos ≤ 1 ∧ s.src.length + 1 = total))

abbrev Look (total : Nat) (s : SIn) : Prop := Look' 0 total s

theorem Look'.small {n total : Nat} {s : SIn} (hn : n ≤ 1024) (h : Look' n total s) : Look total s :=
  ⟨by have := h.1; omega, h.2⟩

theorem Look'.large {n total : Nat} {s : SIn} (h : Look total s) : Look' n total s :=
  ⟨by have := h.1; omega, h.2⟩

theorem Look'.bump {n total k : Nat} {s : SIn} (h : Look' n total s) : Look' n total { s with pos := s.pos + k } :=
  ⟨by have := h.1; simp only; omega, fun ht => (h.2 ht).imp_right fun ⟨a, b⟩ => ⟨by simp only; omega, b⟩⟩

theorem Look'.step {n total : Nat} {s : SIn} (h : Look' n total s) : Look total { s with pos := s.pos + n } :=
  ⟨by have := h.1; simp only; omega, fun ht => (h.2 ht).imp_right fun ⟨a, b⟩ => ⟨by simp only; omega, b⟩⟩

theorem Look'.anchor {n total : Nat} {s : SIn} (a : Option Nat) (h : Look' n total s) :
    Look' n total { s with anchor := a } := h

theorem fetch_look {cap n total : Nat} {s s' : SIn} {b : Bool} (h : Look total s)
    (hf : tryFetch cap n 1024 s = .ok (b, s')) : Look' n total s' := by
  unfold tryFetch at hf
  split at hf
  · cases hf; exact h.large
  split at hf
  · cases hf
  rename_i hl
  simp only at hf
  split at hf
  · cases hf
  have key : s'.src = s.src.drop (max n 1024 - (s.stop - s.pos)) ∧
      s'.stop - s'.pos ≤ max n 1024 := by
    split at hf <;> cases hf <;> simp only [List.length_take] <;> refine ⟨trivial, ?_⟩ <;> omega
  refine ⟨key.2, fun ht => ?_⟩
  left
  rw [key.1]
  rcases h.2 ht with h1 | ⟨h1, h2⟩
  · rw [h1, List.drop_nil]
  · exact List.drop_eq_nil_of_le (by omega)

theorem peek_look {cap n total : Nat} {s s' : SIn} (h : Look total s) (hp : peek cap n s = .ok s') : Look' n total s' := by
  unfold peek at hp
  split at hp
  · cases hp
  split at hp
  · cases hf : tryFetch cap n 1024 s with
    | ok x =>
      obtain ⟨b, t⟩ := x
      rw [hf, SRes.ok_bind] at hp
      cases b with
      | true => cases hp; exact fetch_look h hf
      | false => cases hp
    | _ => rw [hf] at hp; cases hp
  · cases hp; exact h.large

theorem move_look {cap n total : Nat} {s s' : SIn} (h : Look total s) (hp : move cap n s = .ok s') : Look total s' := by
  unfold move at hp
  cases hf : peek cap n s with
  | ok x => rw [hf] at hp; cases hp; exact (peek_look h hf).step
  | _ => rw [hf] at hp; cases hp

theorem block_look {cap n total : Nat} {s s' : SIn} {b : Bytes} (h : Look total s)
    (hp : readBlock cap n s = .ok (b, s')) : Look total s' := by
  unfold readBlock at hp
  cases hf : move cap n { s with anchor := some s.pos } with
  | ok x =>
    rw [hf, SRes.ok_bind] at hp
    have := move_look (h.anchor _) hf
    cases hb : back n x with
    | ok y => rw [hb] at hp; cases hp; exact this.anchor _
    | _ => rw [hb] at hp; cases hp
  | _ => rw [hf] at hp; cases hp

theorem set_look {cap : Nat} {old s : SIn} {src : Bytes} (h : SIn.set cap old src = .ok s) : Look src.length s := by
  unfold SIn.set tryFetch at h
  simp only [Bool.false_eq_true, if_false, Nat.sub_self, Nat.not_lt_zero, false_or] at h
  split at h
  · cases h
  have key : s.src = src.drop 1 ∧ s.stop - s.pos ≤ 1 := by
    split at h <;> cases h <;> simp only [List.length_take] <;> refine ⟨by simp, ?_⟩ <;> omega
  refine ⟨by omega, fun ht => ?_⟩
  rw [key.1]
  cases src with
  | nil => left; rfl
  | cons b r => right; simp; omega

/-- Programs read ahead as far at most. -/
theorem prog_look {cap total : Nat} : ∀ (p : Prog α) (s s' : SIn) (a : α), Look total s → p.stream cap s = .ok (a, s') →
    Look total s'
  | .done (.ok _), s, s', a, h, hp => by cases hp; exact h
  | .done .err, s, s', a, h, hp => by cases hp
  | .done .ub, s, s', a, h, hp => by cases hp
  | .done .fuel, s, s', a, h, hp => by cases hp
  | .block n k, s, s', a, h, hp => by
    simp only [Prog.stream] at hp
    cases hb : Stream.readBlock cap n s with
    | ok x => rw [hb] at hp; exact prog_look (k x.1) x.2 s' a (block_look h hb) hp
    | _ => rw [hb] at hp; cases hp
  | .move n k, s, s', a, h, hp => by
    simp only [Prog.stream] at hp
    cases hb : Stream.move cap n s with
    | ok x => rw [hb] at hp; exact prog_look k x s' a (move_look h hb) hp
    | _ => rw [hb] at hp; cases hp
  | .cur k, s, s', a, h, hp => by
    simp only [Prog.stream] at hp
    cases hb : Stream.cur s with
    | ok x => rw [hb] at hp; exact prog_look (k x) s s' a h hp
    | _ => rw [hb] at hp; cases hp

/-- What readers keep is kept by loading and restoring. -/
theorem reading_self {τ : Type} {P : τ → Prop} {read : τ → Res (Event × τ)}
    (h : ∀ t, P t → Ends (fun x => P x.2) (read t)) :
    Srl.Reading ⟨False, False⟩ (fun s t => s = t ∧ P t) read read := by
  rintro s _ ⟨rfl, hp⟩
  have := h s hp
  cases hr : read s with
  | ok x => rw [hr] at this; exact ⟨rfl, rfl, this⟩
  | _ => trivial

theorem load_look {τ : Type} {P : τ → Prop} {read : τ → Res (Event × τ)}
    (h : ∀ t, P t → Ends (fun x => P x.2) (read t)) (fuel : Nat) (t : τ) (ht : P t) :
    Ends (fun x => P x.2) (Doc.load read fuel t) := by
  have := Doc.load_rel (reading_self h) fuel t t ⟨rfl, ht⟩
  cases hr : Doc.load read fuel t with
  | ok x => rw [hr] at this; exact this.2.2
  | _ => trivial

theorem reading_look {ε σ : Type} {cap total : Nat} (p : Prog (ε × σ)) (s : SIn) (h : Look total s) :
    Ends (fun x => Look total x.2.2) (reading (p.stream cap s)) := by
  cases hp : p.stream cap s with
  | ok x => exact prog_look p s x.2 x.1 h hp
  | _ => trivial

end Srl.Stream

namespace Srl.PMsgPack
open Stream

theorem readS_look {cap total : Nat} (x : List RScope × SIn) (h : Look total x.2) :
    Ends (fun y => Look total y.2.2) (readS cap x) := reading_look _ _ h

end Srl.PMsgPack

namespace Srl.PSrl
open Stream

theorem readS_look {cap total : Nat} (x : St × SIn) (h : Look total x.2) :
    Ends (fun y => Look total y.2.2) (readS cap x) := reading_look _ _ h

end Srl.PSrl

namespace Srl.PJson
open Stream
variable {cap total : Nat}

private theorem ends_res {α : Type} {P : α → Prop} {x : SRes α} (h : ∀ a, x = .ok a → P a) : Ends P x.res := by
  cases x with
  | ok a => exact h a rfl
  | _ => trivial

private theorem move_ends (n : Nat) {s : SIn} (h : Look total s) : Ends (Look total) (Stream.move cap n s).res :=
  ends_res fun _ hp => move_look h hp

private theorem try_ends {n : Nat} (hn : n ≤ 1024) {s : SIn} (h : Look total s) :
    Ends (fun x => Look total x.2) (Stream.tryPeek cap n s).res :=
  ends_res fun x hp => by
    unfold tryPeek at hp
    split at hp
    · cases hp; exact h
    · exact (fetch_look h hp).small hn

theorem moveUntilS_look (p : UInt8 → Bool) : ∀ (fuel : Nat) (s : SIn), Look total s →
    Ends (fun x => Look total x.2) (moveUntilS cap p fuel s)
  | 0, _, _ => trivial
  | fuel + 1, s, h => by
    rw [moveUntilS]
    refine Ends.bind_any fun b => ?_
    split
    · exact h
    · refine (move_ends 1 h).bind fun s h => ?_
      refine (moveUntilS_look p fuel s h).bind ?_
      rintro ⟨n, s⟩ h
      exact h

theorem moveUntilCloseS_look : ∀ (fuel : Nat) (s : SIn), Look total s →
    Ends (Look total) (moveUntilCloseS cap fuel s)
  | 0, _, _ => trivial
  | fuel + 1, s, h => by
    rw [moveUntilCloseS]
    refine (try_ends (n := 2) (by decide) h).bind ?_
    rintro ⟨t, s⟩ h
    have key : ∀ b : Bool, Ends (Look total) (if b = true then Res.ok s else do
        let s ← (Stream.move cap 1 s).res
        moveUntilCloseS cap fuel s) := by
      intro b
      split
      · exact h
      · exact (move_ends 1 h).bind fun s h => moveUntilCloseS_look fuel s h
    simp only
    split
    · exact Ends.bind_any key
    · exact Ends.bind_any key

theorem readUntilS_look (p : UInt8 → Bool) (s : SIn) (h : Look total s) :
    Ends (fun x => Look total x.2) (readUntilS cap p s) := by
  unfold readUntilS
  refine (moveUntilS_look p _ _ (h.anchor _)).bind ?_
  rintro ⟨n, s⟩ h
  exact Ends.bind_any fun b => h.anchor _

theorem ucLiteralS_look (c : Cap) (idx : Nat) (s : SIn) (h : Look total s) :
    Ends (fun x => Look total x.2.2) (ucLiteralS cap c idx s) := by
  unfold ucLiteralS
  refine (ends_res (P := fun x => Look total x.2) fun x hp => block_look h hp).bind ?_
  rintro ⟨b, s⟩ h
  refine Ends.bind_any fun hex => Ends.bind_any ?_
  rintro ⟨t, c⟩
  exact h

theorem readStringS_look : ∀ (fuel : Nat) (c : Cap) (steps : Nat) (s : SIn), Look total s →
    Ends (fun x => Look total x.2.2) (readStringS cap fuel c steps s)
  | 0, _, _, _, _ => trivial
  | fuel + 1, c, steps, s, h => by
    rw [readStringS]
    refine (ends_res (P := Look total) fun x hp => peek_look h hp).bind fun s h => ?_
    refine Ends.bind_any fun b => ?_
    split
    · exact h
    simp only
    refine (try_ends (n := 2) (by decide) h).bind ?_
    rintro ⟨t, s⟩ h
    refine Ends.bind_any fun b => Ends.bind_any fun e => ?_
    split
    · refine (readStringS_look fuel _ _ _ h.bump).bind ?_
      rintro ⟨bs, c, s⟩ h
      exact h
    · refine (ucLiteralS_look _ _ s h).bind ?_
      rintro ⟨t, c, s⟩ h
      refine (readStringS_look fuel _ _ _ h).bind ?_
      rintro ⟨bs, c, s⟩ h
      exact h
    · refine (readStringS_look fuel _ _ _ h.bump).bind ?_
      rintro ⟨bs, c, s⟩ h
      exact h

theorem skipCommentS_look (s : SIn) (h : Look total s) : Ends (Look total) (skipCommentS cap s) := by
  unfold skipCommentS
  refine (try_ends (n := 1) (by decide) h).bind ?_
  rintro ⟨t, s⟩ h
  simp only
  split
  · refine Ends.bind_any fun n => ?_
    split
    · exact moveUntilCloseS_look _ s h
    · split
      · refine (moveUntilS_look _ _ s h).bind ?_
        rintro ⟨n, s⟩ h
        exact h
      · exact h
  · exact h

theorem processQuoteS_look (r : Rd) (st : State) (s : SIn) (h : Look total s) :
    Ends (fun x => Look total x.2.2) (processQuoteS cap r st s) := by
  unfold processQuoteS
  split
  · trivial
  · refine (move_ends 1 h).bind fun s h => ?_
    simp only
    refine (readStringS_look _ _ _ s h).bind ?_
    rintro ⟨b, c, s⟩ h
    simp only
    split
    · exact h
    · split
      · trivial
      · exact h

theorem processCharS_look (strtod : Bytes → Option UInt64) (st : State) (c : UInt8) (s : SIn) (h : Look total s) :
    Ends (fun x => Look total x.2.1) (processCharS cap strtod st c s) := by
  unfold processCharS
  split
  · refine (readUntilS_look _ s h).bind ?_
    rintro ⟨b, s⟩ h
    simp only
    split
    · trivial
    · exact Ends.bind_any fun e => h
  · exact h

theorem dispatchS_look (strtod : Bytes → Option UInt64) (r : Rd) (st : State) (s : SIn) (h : Look total s) :
    Ends (fun x => Look total x.2.2) (dispatchS cap strtod r st s) := by
  unfold dispatchS
  refine Ends.bind_any fun c => ?_
  split
  · refine (processQuoteS_look r st s h).bind ?_
    rintro ⟨x, r, s⟩ h
    exact (move_ends 1 h).bind fun s h => h
  split
  · split
    · trivial
    · exact (move_ends 1 h).bind fun s h => h
  split
  · refine Ends.bind_any ?_
    rintro ⟨x, r⟩
    exact (move_ends 1 h).bind fun s h => h
  split
  · refine (skipCommentS_look s h).bind fun s h => ?_
    exact (move_ends 1 h).bind fun s h => h
  · refine (processCharS_look strtod st c s h).bind ?_
    rintro ⟨x, s, mv⟩ h
    simp only
    split
    · exact (move_ends 1 h).bind fun s h => h
    · exact h

theorem loopS_look (strtod : Bytes → Option UInt64) : ∀ (fuel : Nat) (st : State) (r : Rd) (s : SIn), Look total s →
    Ends (fun x => Look total x.2.2) (loopS cap strtod fuel st (r, s))
  | 0, _, _, _, _ => trivial
  | fuel + 1, st, r, s, h => by
    rw [loopS]
    have hr : Ends (fun x : Step × Rd × SIn => Look total x.2.2) (roundS cap strtod r st s) := by
      unfold roundS
      refine Ends.bind (Q := Look total) ?_ fun s h => dispatchS_look strtod r st s h
      unfold skipS
      refine (moveUntilS_look _ _ s h).bind ?_
      rintro ⟨n, s⟩ h
      exact h
    refine hr.bind ?_
    rintro ⟨x, r, s⟩ h
    simp only
    split
    · exact loopS_look strtod fuel _ r s h
    · exact h

theorem readS_look (strtod : Bytes → Option UInt64) (x : Rd × SIn) (h : Look total x.2) :
    Ends (fun y => Look total y.2.2) (readS cap strtod x) := loopS_look strtod _ _ _ _ h

end Srl.PJson
