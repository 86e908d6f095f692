import Verif.Lemmas.PJson
import Verif.Model.StreamJson

/-! # Runs of equal bytes in the buffer of a stream, for witnesses that would be slow to compute -/

namespace Srl.PJson
open Stream

theorem move_buffered (cap : Nat) (s : SIn) (h : s.pos + 1 < s.stop) :
    Stream.move cap 1 s = .ok { s with pos := s.pos + 1 } := by
  unfold Stream.move Stream.peek
  rw [if_neg (by decide), if_neg (by omega)]
  rfl

/-- `move_until` over `w` equal bytes that are in the buffer -/
theorem moveUntilS_run (cap : Nat) (p : UInt8 → Bool) (x : UInt8) (hx : p x = false) (post : Bytes) :
    ∀ (w fuel : Nat) (pre : Bytes) (s : SIn), s.buf = pre ++ (List.replicate w x ++ post) → s.pos = pre.length →
      s.pos + w < s.stop →
      moveUntilS cap p (w + fuel) s =
        (moveUntilS cap p fuel { s with pos := s.pos + w }).bind fun y => .ok (y.1 + w, y.2)
  | 0, fuel, _, s, _, _, _ => by
    rw [Nat.zero_add]
    show _ = (moveUntilS cap p fuel s).bind _
    cases moveUntilS cap p fuel s <;> rfl
  | w + 1, fuel, pre, s, hb, hp, hs => by
    have hcur : Stream.cur s = .ok x := by
      unfold Stream.cur
      rw [hb, hp, List.getElem?_append_right (Nat.le_refl _), Nat.sub_self]
      rfl
    have ih := moveUntilS_run cap p x hx post w fuel (pre ++ [x]) { s with pos := s.pos + 1 }
      (by rw [hb, List.replicate_succ]; simp) (by simp [hp]) (by show s.pos + 1 + w < s.stop; omega)
    have he : w + 1 + fuel = (w + fuel) + 1 := by omega
    rw [he, moveUntilS, hcur]
    simp only [SRes.res, Res.ok_bind, hx, Bool.false_eq_true, if_false]
    rw [move_buffered cap s (by omega)]
    simp only [Res.ok_bind]
    rw [ih]
    have h3 : ({ s with pos := s.pos + (w + 1) } : SIn) = { s with pos := s.pos + 1 + w } := by
      rw [Nat.add_assoc, Nat.add_comm 1 w]
    rw [h3]
    show Res.bind (Res.bind _ _) _ = _
    cases moveUntilS cap p fuel { s with pos := s.pos + 1 + w } with
    | ok y => show Res.ok (y.1 + w + 1, y.2) = Res.ok (y.1 + (w + 1), y.2); rw [Nat.add_assoc]
    | _ => rfl

/-- The same, where the rest is known -/
theorem run_then {cap : Nat} {p : UInt8 → Bool} {x : UInt8} {pre post : Bytes} {w fuel n : Nat} {s s' s'' : SIn}
    (hx : p x = false) (hb : s.buf = pre ++ (List.replicate w x ++ post)) (hp : s.pos = pre.length)
    (hs : s.pos + w < s.stop) (he : { s with pos := s.pos + w } = s')
    (h : moveUntilS cap p fuel s' = .ok (n, s'')) : moveUntilS cap p (w + fuel) s = .ok (n + w, s'') := by
  rw [moveUntilS_run cap p x hx post w fuel pre s hb hp hs, he, h]
  rfl

theorem step_then {cap : Nat} {p : UInt8 → Bool} {b : UInt8} {fuel n : Nat} {s s' s'' : SIn} (hc : Stream.cur s = .ok b)
    (hp : p b = false) (hm : Stream.move cap 1 s = .ok s') (h : moveUntilS cap p fuel s' = .ok (n, s'')) :
    moveUntilS cap p (fuel + 1) s = .ok (n + 1, s'') := by
  rw [moveUntilS, hc]
  simp only [SRes.res, Res.ok_bind, hp, Bool.false_eq_true, if_false]
  rw [hm]
  simp only [Res.ok_bind]
  rw [h]
  rfl

theorem stop_here {cap : Nat} {p : UInt8 → Bool} {b : UInt8} {fuel : Nat} {s : SIn} (hc : Stream.cur s = .ok b)
    (hp : p b = true) : moveUntilS cap p (fuel + 1) s = .ok (0, s) := by
  rw [moveUntilS, hc]
  simp only [SRes.res, Res.ok_bind, hp, if_true]

/-- A literal that is not in the buffer any more -/
theorem readS_lost {cap k1 k2 n1 n2 : Nat} {strtod : Bytes → Option UInt64} {s1 s2 s3 s4 : SIn} {c : UInt8}
    (hlit : isLit c = true)
    (hl : s1.left + 2 = k1) (h1 : moveUntilS cap (fun b => !isBlank b) k1 s1 = .ok (n1, s2))
    (hc : Stream.cur s2 = .ok c) (ha : { s2 with anchor := some s2.pos } = s3) (hk : s2.left + 2 = k2)
    (h2 : moveUntilS cap isLitEnd k2 s3 = .ok (n2, s4)) (hb : s4.pos < n2) :
    readS cap strtod (⟨[.array], 0, 0⟩, s1) = .ub := by
  have hu : readUntilS cap isLitEnd s2 = .ub := by
    unfold readUntilS
    rw [ha, hk, h2]
    simp only [Res.ok_bind]
    unfold Stream.back
    rw [if_pos (.inl hb)]
    rfl
  have hsk : skipS cap ⟨[.array], 0, 0⟩ ⟨none, false⟩ s1 = .ok s2 := by
    unfold skipS
    have e : (if (!(⟨none, false⟩ : State).readingValue && (⟨[.array], 0, 0⟩ : Rd).stack.head? != some .array) = true
      then isDelim else fun b => !isBlank b) = fun b => !isBlank b := rfl
    rw [e, hl, h1]
    rfl
  obtain ⟨n1, n2, n3, n4, n5, n6, n7, -⟩ := lit_not_delim c hlit
  unfold readS
  have e2 : s1.left + 2 = (s1.left + 1) + 1 := rfl
  simp only
  rw [e2, loopS]
  unfold roundS
  rw [hsk]
  simp only [Res.ok_bind]
  unfold dispatchS
  rw [hc]
  simp only [SRes.res, Res.ok_bind]
  rw [if_neg n1, if_neg n2, if_neg (by simp [n3, n4, n5, n6]), if_neg n7]
  unfold processCharS
  rw [if_pos hlit, hu]
  rfl

/-- The bracket at the start of an array -/
theorem readS_open {cap : Nat} {strtod : Bytes → Option UInt64} {s s' : SIn} (hc : Stream.cur s = .ok 91)
    (hm : Stream.move cap 1 s = .ok s') :
    readS cap strtod (Rd.new, s) = .ok (⟨[], .scope .array⟩, ⟨[.array], 0, 0⟩, s') := by
  have hsk : skipS cap Rd.new ⟨none, false⟩ s = .ok s := by
    unfold skipS
    rw [stop_here hc (by decide)]
    rfl
  unfold readS
  have e2 : s.left + 2 = (s.left + 1) + 1 := rfl
  simp only
  rw [e2, loopS]
  unfold roundS
  rw [hsk]
  simp only [Res.ok_bind]
  unfold dispatchS
  rw [hc]
  simp only [SRes.res, Res.ok_bind]
  rw [if_neg (by decide), if_neg (by decide), if_pos (by decide), hm]
  rfl

/-- Undefined at the second token -/
theorem loadS_second {cap : Nat} {strtod : Bytes → Option UInt64} {old s : SIn} {src : Bytes} {e : Event} {t : ScopeTy}
    {x : Rd × SIn} (h0 : SIn.set cap old src = .ok s) (h1 : readS cap strtod (Rd.new, s) = .ok (e, x))
    (he : e.tok = .scope t) (h2 : readS cap strtod x = .ub) : loadS cap strtod old src = .ub := by
  unfold loadS opened
  rw [h0]
  simp only
  unfold Doc.load
  rw [h1]
  simp only [Res.ok_bind, he]
  rw [Doc.readScope, h2]
  rfl

end Srl.PJson
