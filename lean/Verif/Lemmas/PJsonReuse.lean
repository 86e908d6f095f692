import Verif.Lemmas.PJsonSafe

/-! Lemmas about the JSON format: the sizes of the buffers do not matter, unless something undefined
happens. -/

namespace Srl.PJson
open Doc

/-- Same outcome, up to a relation between the states of the parsers, or something undefined. -/
inductive Agree {α β : Type} (E : β → β → Prop) : Res (α × β × Bytes) → Res (α × β × Bytes) → Prop
  | left (y) : Agree E .ub y
  | right (x) : Agree E x .ub
  | ok (a : α) (b b' : β) (t : Bytes) : E b b' → Agree E (.ok (a, b, t)) (.ok (a, b', t))
  | err : Agree E .err .err
  | fuel : Agree E .fuel .fuel

theorem Agree.bind {α β γ δ : Type} {E : β → β → Prop} {F : δ → δ → Prop}
    {x y : Res (α × β × Bytes)} {f g : α × β × Bytes → Res (γ × δ × Bytes)} (h : Agree E x y)
    (hf : ∀ a b b' t, E b b' → Agree F (f (a, b, t)) (g (a, b', t))) :
    Agree F (x >>= f) (y >>= g) := by
  cases h with
  | left => exact .left _
  | right => exact .right _
  | ok a b b' t h => exact hf a b b' t h
  | err => exact .err
  | fuel => exact .fuel

theorem Agree.bind_same {α β γ : Type} {E : β → β → Prop}
    (x : Res γ) {f g : γ → Res (α × β × Bytes)}
    (hf : ∀ a, Agree E (f a) (g a)) : Agree E (x >>= f) (x >>= g) := by
  cases x with
  | ub => exact .left _
  | ok a => exact hf a
  | err => exact .err
  | fuel => exact .fuel

def AnyCap : Cap → Cap → Prop := fun _ _ => True

def SameStack (r r' : Rd) : Prop := r.stack = r'.stack

variable {m : Mem}

theorem ucLiteral_agree (c c' : Cap) (idx : Nat) (s : Bytes) :
    Agree AnyCap (ucLiteral m c idx s) (ucLiteral m c' idx s) := by
  unfold ucLiteral
  refine Agree.bind_same _ fun p => Agree.bind_same _ fun hex => ?_
  unfold convUnit
  cases utf8OfUnit ((hex.getD 0 0).toNat + 256 * (hex.getD 1 0).toNat) with
  | ub => exact .left _
  | err => exact .err
  | fuel => exact .fuel
  | ok t =>
    simp only [Res.ok_bind]
    by_cases h1 : idx + t.length > max c.size (idx + 2)
    · rw [if_pos h1]; exact .left _
    by_cases h2 : idx + t.length > max c'.size (idx + 2)
    · rw [if_pos h2]; exact .right _
    rw [if_neg h1, if_neg h2]
    exact .ok _ _ _ _ trivial

theorem readString_agree : ∀ (fuel : Nat) (c c' : Cap) (steps : Nat) (s : Bytes),
    Agree AnyCap (readString m fuel c steps s) (readString m fuel c' steps s) := by
  intro fuel
  induction fuel with
  | zero => intro c c' steps s; exact .fuel
  | succ fuel ih =>
    intro c c' steps s
    cases s with
    | nil =>
      rw [readString, readString]
      cases m.past with
      | none => exact .left _
      | some _ => exact .err
    | cons b s =>
      cases at_any b s with
      | close => simp only [readString, if_true]; exact .ok _ _ _ _ trivial
      | plain _ _ h1 h2 =>
        rw [readString_plain m fuel c steps b s h1 h2, readString_plain m fuel c' steps b s h1 h2]
        exact (ih _ _ _ _).bind fun _ _ _ _ _ => .ok _ _ _ _ trivial
      | last =>
        rw [readString_last, readString_last]
        exact (ih _ _ _ _).bind fun _ _ _ _ _ => .ok _ _ _ _ trivial
      | escaped e r u he =>
        rw [readString_escaped m fuel c steps e r u he, readString_escaped m fuel c' steps e r u he]
        exact (ih _ _ _ _).bind fun _ _ _ _ _ => .ok _ _ _ _ trivial
      | uc u =>
        rw [readString_uc, readString_uc]
        refine (ucLiteral_agree _ _ _ _).bind fun a b b' t _ => ?_
        exact (ih _ _ _ _).bind fun _ _ _ _ _ => .ok _ _ _ _ trivial
      | odd e u h1 h2 =>
        rw [readString_odd m fuel c steps e u h1 h2, readString_odd m fuel c' steps e u h1 h2]
        exact (ih _ _ _ _).bind fun _ _ _ _ _ => .ok _ _ _ _ trivial

variable (strtod : Bytes → Option UInt64)

theorem processQuote_agree (r r' : Rd) (hr : SameStack r r') (st : State) (s : Bytes) :
    Agree SameStack (processQuote m r st s) (processQuote m r' st s) := by
  have hr : r.stack = r'.stack := hr
  unfold processQuote
  rw [← hr]
  cases hs : r.stack with
  | nil => exact .err
  | cons top stk =>
    refine Agree.bind_same _ fun s1 => ?_
    refine (readString_agree _ _ _ _ _).bind fun b c c' t _ => ?_
    simp only
    split
    · exact .ok _ _ _ _ (by show Rd.stack _ = Rd.stack _; split <;> rfl)
    · split
      · exact .err
      · exact .ok _ _ _ _ (by show Rd.stack _ = Rd.stack _; rfl)

theorem dispatch_agree (r r' : Rd) (hr : SameStack r r') (st : State) (s : Bytes) :
    Agree SameStack (dispatch m strtod r st s) (dispatch m strtod r' st s) := by
  unfold dispatch
  refine Agree.bind_same _ fun c => ?_
  split
  · refine (processQuote_agree r r' hr st s).bind fun x r1 r2 t h => ?_
    exact Agree.bind_same _ fun t => .ok _ _ _ _ h
  split
  · split
    · exact .err
    · exact Agree.bind_same _ fun t => .ok _ _ _ _ hr
  split
  · have hr2 : r.stack = r'.stack := hr
    unfold processBracket
    split
    · exact Agree.bind_same _ fun t => .ok _ _ _ _ (by show _ :: _ = _ :: _; rw [hr2])
    split
    · exact Agree.bind_same _ fun t => .ok _ _ _ _ (by show _ :: _ = _ :: _; rw [hr2])
    rw [← hr2]
    cases hs : r.stack with
    | nil => exact .err
    | cons a l =>
      simp only [Res.ok_bind]
      exact Agree.bind_same _ fun t => .ok _ _ _ _ (by show l = l; rfl)
  split
  · refine Agree.bind_same _ fun t => ?_
    exact Agree.bind_same _ fun t => .ok _ _ _ _ hr
  · refine Agree.bind_same _ fun p => ?_
    obtain ⟨x, t, mv⟩ := p
    simp only
    split
    · exact Agree.bind_same _ fun t => .ok _ _ _ _ hr
    · exact .ok _ _ _ _ hr

theorem loop_agree : ∀ (fuel : Nat) (st : State) (r r' : Rd) (s : Bytes), SameStack r r' →
    Agree SameStack (loop m strtod fuel st (r, s)) (loop m strtod fuel st (r', s)) := by
  intro fuel
  induction fuel with
  | zero => intro st r r' s _; exact .fuel
  | succ fuel ih =>
    intro st r r' s hr
    rw [loop, loop]
    have h1 : Agree SameStack (round m strtod r st s) (round m strtod r' st s) := by
      have hr2 : r.stack = r'.stack := hr
      unfold round skip
      rw [← hr2]
      exact Agree.bind_same _ fun t => dispatch_agree strtod r r' hr st t
    refine h1.bind fun x r1 r2 t h => ?_
    cases x with
    | more st' => exact ih st' r1 r2 t h
    | done tok => exact .ok _ _ _ _ h

theorem readScope_agree : ∀ (fuel d : Nat) (r r' : Rd) (s : Bytes), SameStack r r' →
    Agree SameStack (readScope (read m strtod) fuel d (r, s))
      (readScope (read m strtod) fuel d (r', s)) := by
  intro fuel
  induction fuel with
  | zero => intro d r r' s _; exact .fuel
  | succ fuel ih =>
    intro d r r' s hr
    rw [readScope, readScope]
    refine (loop_agree strtod _ _ r r' s hr).bind fun e r1 r2 t h => ?_
    obtain ⟨n, tok⟩ := e
    cases tok with
    | scopeEnd => exact .ok _ _ _ _ h
    | val v => exact (ih d r1 r2 t h).bind fun _ _ _ _ h => .ok _ _ _ _ h
    | scope ty =>
      simp only
      split
      · exact .err
      · refine (ih (d + 1) r1 r2 t h).bind fun c r3 r4 t2 h2 => ?_
        exact (ih d r3 r4 t2 h2).bind fun _ _ _ _ h => .ok _ _ _ _ h

theorem loadWith_agree (r r' : Rd) (s : Bytes) :
    Agree SameStack (loadWith m strtod r s) (loadWith m strtod r' s) := by
  unfold loadWith Doc.load
  refine (loop_agree strtod _ _ r.clear r'.clear s rfl).bind fun e r1 r2 t h => ?_
  obtain ⟨n, tok⟩ := e
  cases tok with
  | scopeEnd => exact .err
  | val v => exact .err
  | scope ty => exact (readScope_agree strtod _ _ r1 r2 t h).bind fun _ _ _ _ h => .ok _ _ _ _ h

end Srl.PJson
