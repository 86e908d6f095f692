import Verif.Lemmas.MemoryFormats

/-! What tokens of JSON texts take from the source, and how large the buffers of the parser get (C84). -/

namespace Srl.Props.Room
open Typed Doc PJson

theorem grow_size (c : Cap) (steps : Nat) : (c.grow steps).size ≤ max c.size (2 * steps + 10) := by
  unfold Cap.grow
  split
  · simp only; omega
  · omega

theorem utf8_length {u : Nat} {t : Bytes} (h : utf8OfUnit u = .ok t) : t.length ≤ 3 := by
  unfold utf8OfUnit at h
  split at h
  · cases h; simp
  split at h
  · cases h; simp
  split at h
  · cases h
  · cases h; simp

theorem uc_takes {m : Mem} {c c' : Cap} {idx : Nat} {s t t' : Bytes} (h : ucLiteral m c idx s = .ok (t, c', t')) :
    t.length ≤ 3 ∧ 6 + t'.length = s.length ∧ c'.size ≤ max c.size (2 * idx + 10) := by
  unfold ucLiteral at h
  simp only [Res.bind_eq_ok] at h
  obtain ⟨⟨b, s1⟩, h1, hex, h2, ⟨t1, c1⟩, h3, h⟩ := h
  have e := block_takes h1
  unfold convUnit at h3
  simp only [Res.bind_eq_ok] at h3
  obtain ⟨t2, h4, h3⟩ := h3
  split at h3
  · cases h3
  · cases h3
    cases h
    exact ⟨utf8_length h4, e, by simp only; omega⟩

theorem string_takes {m : Mem} : ∀ (fuel : Nat) (c : Cap) (steps : Nat) (s b : Bytes) (c' : Cap) (t : Bytes),
    readString m fuel c steps s = .ok (b, c', t) →
    b.length + t.length ≤ s.length ∧ c'.size ≤ max c.size (2 * (steps + s.length) + 10) := by
  intro fuel
  induction fuel with
  | zero => intro c steps s bs c' t h; cases h
  | succ fuel ih =>
    intro c steps s bs c' t h
    have hg := grow_size c steps
    cases s with
    | nil => exact absurd h ((readString_nil m fuel c steps).not_ok _)
    | cons b s =>
      cases at_any b s with
      | close => simp only [readString, if_true] at h; cases h; simp; omega
      | plain _ _ h1 h2 =>
        rw [readString_plain m fuel c steps b s h1 h2, Res.bind_eq_ok] at h
        obtain ⟨⟨bs2, c2, s2⟩, h3, h⟩ := h
        cases h
        obtain ⟨x, y⟩ := ih _ _ _ _ _ _ h3
        simp only [List.length_cons] at *; omega
      | last =>
        rw [readString_last, Res.bind_eq_ok] at h
        obtain ⟨⟨bs2, c2, s2⟩, h3, h⟩ := h
        cases h
        obtain ⟨x, y⟩ := ih _ _ _ _ _ _ h3
        simp only [List.length_cons] at *; omega
      | escaped e r u he =>
        rw [readString_escaped m fuel c steps e r u he, Res.bind_eq_ok] at h
        obtain ⟨⟨bs2, c2, s2⟩, h3, h⟩ := h
        cases h
        obtain ⟨x, y⟩ := ih _ _ _ _ _ _ h3
        simp only [List.length_cons] at *; omega
      | uc u =>
        rw [readString_uc, Res.bind_eq_ok] at h
        obtain ⟨⟨t1, c1, s1⟩, h1, h⟩ := h
        simp only [Res.bind_eq_ok] at h
        obtain ⟨⟨bs2, c2, s2⟩, h3, h⟩ := h
        cases h
        obtain ⟨x, y⟩ := ih _ _ _ _ _ _ h3
        obtain ⟨u1, u2, u3⟩ := uc_takes h1
        simp only [List.length_cons, List.length_append] at *; omega
      | odd e u h1 h2 =>
        rw [readString_odd m fuel c steps e u h1 h2, Res.bind_eq_ok] at h
        obtain ⟨⟨bs2, c2, s2⟩, h3, h⟩ := h
        cases h
        obtain ⟨x, y⟩ := ih _ _ _ _ _ _ h3
        simp only [List.length_cons] at *; omega

/-- What the outcome of a round of the loop counts for, with a name read before -/
def stepGain (st : State) : Step → Nat
  | .more st' => (st'.name.getD []).length
  | .done t => gain true ⟨st.name.getD [], t⟩

/-- The buffers of a parser grow with the source only. -/
def Buffers (r : Rd) (n : Nat) (r' : Rd) : Prop :=
  r'.nameCap ≤ max r.nameCap (2 * n + 10) ∧ r'.valCap ≤ max r.valCap (2 * n + 10)

theorem Buffers.refl (r : Rd) (n : Nat) : Buffers r n r := by unfold Buffers; omega

theorem Buffers.trans {r r1 r2 : Rd} {n n1 : Nat} (h1 : Buffers r n r1) (h2 : Buffers r1 n1 r2) (hn : n1 ≤ n) :
    Buffers r n r2 := by unfold Buffers at *; omega

theorem strToType_bytes {strtod : Bytes → Option UInt64} {hint : Bool} {s : Bytes} {v : Val}
    (h : IntStr.strToType strtod hint s = some v) : valBytes v = 0 := by
  unfold IntStr.strToType at h
  simp only at h
  split at h
  · cases h
  iterate 3 (split at h; · cases h; rfl)
  split at h
  · cases h; rfl
  · cases h; rfl
  · simp only [Option.map_eq_some_iff] at h
    obtain ⟨d, -, rfl⟩ := h
    unfold Fp.ofDouble; split <;> rfl

theorem move_takes {m : Mem} {n : Nat} {s t : Bytes} (h : In.move m n s = .ok t) : n + t.length = s.length := by
  obtain ⟨h1, h2⟩ := In.move_eq_ok h
  subst h2; simp only [List.length_drop]; omega

theorem dispatch_gain {m : Mem} {strtod : Bytes → Option UInt64} {r r' : Rd} {st : State} {s t : Bytes} {x : Step}
    (h : dispatch m strtod r st s = .ok (x, r', t)) (ht : t.length + 1 ≤ s.length) :
    stepGain st x + t.length ≤ (st.name.getD []).length + s.length ∧ Buffers r s.length r' := by
  unfold dispatch at h
  rw [Res.bind_eq_ok] at h
  obtain ⟨c, hc, h⟩ := h
  split at h
  · simp only [Res.bind_eq_ok] at h
    obtain ⟨⟨x1, r1, s1⟩, h1, s2, h2, h⟩ := h
    have e2 := move_takes h2
    cases h
    unfold processQuote at h1
    split at h1
    · cases h1
    · simp only [Res.bind_eq_ok] at h1
      obtain ⟨s3, h3, ⟨b, cp, s4⟩, h4, h1⟩ := h1
      have e3 := move_takes h3
      obtain ⟨e4, e5⟩ := string_takes _ _ _ _ _ _ _ h4
      have hb : Buffers r s.length (if st.name.isSome = true then { r with valCap := cp.size }
          else { r with nameCap := cp.size }) := by
        unfold Buffers
        by_cases hn : st.name.isSome = true <;> simp only [hn, if_true, Bool.false_eq_true, if_false] at e5 ⊢ <;> omega
      split at h1
      · cases h1
        refine ⟨?_, hb⟩
        simp only [stepGain, gain, nameBytes, if_true, valBytes] at *; omega
      · split at h1
        · cases h1
        · cases h1
          rename_i hnone
          refine ⟨?_, by simpa only [if_neg hnone] using hb⟩
          simp only [stepGain, Option.getD_some] at *; omega
  split at h
  · split at h
    · cases h
    · rw [Res.bind_eq_ok] at h
      obtain ⟨s1, h1, h⟩ := h
      cases h
      exact ⟨by simp only [stepGain]; omega, Buffers.refl _ _⟩
  split at h
  · simp only [Res.bind_eq_ok] at h
    obtain ⟨⟨x1, r1⟩, h1, s2, h2, h⟩ := h
    cases h
    unfold processBracket at h1
    split at h1
    · cases h1
      exact ⟨by simp only [stepGain, gain, nameBytes, if_true]; omega, by unfold Buffers; simp only; omega⟩
    · split at h1
      · cases h1
        exact ⟨by simp only [stepGain, gain, nameBytes, if_true]; omega, by unfold Buffers; simp only; omega⟩
      · split at h1
        · cases h1
        · cases h1
          exact ⟨by simp only [stepGain, gain]; omega, by unfold Buffers; simp only; omega⟩
  split at h
  · simp only [Res.bind_eq_ok] at h
    obtain ⟨s1, h1, s2, h2, h⟩ := h
    cases h
    exact ⟨by simp only [stepGain]; omega, Buffers.refl _ _⟩
  · rw [Res.bind_eq_ok] at h
    obtain ⟨⟨x1, s1, mv⟩, h1, h⟩ := h
    have key : stepGain st x1 ≤ 1 + (st.name.getD []).length := by
      unfold processChar at h1
      split at h1
      · rw [Res.bind_eq_ok] at h1
        obtain ⟨s2, h2, h1⟩ := h1
        simp only at h1
        split at h1
        · cases h1
        · rename_i v hv
          rw [Res.bind_eq_ok] at h1
          obtain ⟨c2, h3, h1⟩ := h1
          cases h1
          have := strToType_bytes hv
          simp only [stepGain, gain, nameBytes, if_true]; omega
      · cases h1; simp only [stepGain]; omega
    have hx : x = x1 ∧ r' = r := by
      simp only at h
      split at h
      · rw [Res.bind_eq_ok] at h
        obtain ⟨s2, h2, h⟩ := h
        cases h; exact ⟨rfl, rfl⟩
      · cases h; exact ⟨rfl, rfl⟩
    obtain ⟨rfl, rfl⟩ := hx
    exact ⟨by omega, Buffers.refl _ _⟩

theorem round_gain {m : Mem} (hm : m.Sane) {strtod : Bytes → Option UInt64} {r r' : Rd} {st : State} {s t : Bytes}
    {x : Step} (h : round m strtod r st s = .ok (x, r', t)) :
    stepGain st x + t.length ≤ (st.name.getD []).length + s.length ∧ Buffers r s.length r' := by
  unfold round at h
  rw [Res.bind_eq_ok] at h
  obtain ⟨s1, h1, h⟩ := h
  obtain ⟨y, hy⟩ := skip_suffix h1
  have hl : s1.length ≤ s.length := by rw [hy]; simp
  have ht : t.length + 1 ≤ s1.length := by
    cases s1 with
    | nil => exact absurd h ((dispatch_nil strtod hm r st).not_ok _)
    | cons c u =>
      obtain ⟨-, h2, -⟩ := dispatch_ext strtod hm hm r st c u []
      obtain ⟨z, hz⟩ := h2 _ _ _ h
      rw [hz, List.length_cons, List.length_append]
      omega
  obtain ⟨a, b⟩ := dispatch_gain h ht
  exact ⟨by omega, Buffers.trans (Buffers.refl _ _) b hl |>.trans (Buffers.refl _ 0) (by omega)⟩

theorem loop_gain {m : Mem} (hm : m.Sane) {strtod : Bytes → Option UInt64} :
    ∀ (fuel : Nat) (st : State) (r : Rd) (s : Bytes) (e : Event) (r' : Rd) (t : Bytes),
      loop m strtod fuel st (r, s) = .ok (e, r', t) →
      gain true e + t.length ≤ (st.name.getD []).length + s.length ∧ Buffers r s.length r' ∧ t.length ≤ s.length
  | 0, _, _, _, _, _, _, h => by cases h
  | fuel + 1, st, r, s, e, r', t, h => by
    have hl : t.length ≤ s.length := by
      obtain ⟨y, -, hy⟩ := (loop_progress strtod hm (fuel + 1) st r s).1 _ _ _ h
      rw [hy]; simp
    rw [loop, Res.bind_eq_ok] at h
    obtain ⟨⟨x, r1, s1⟩, h1, h⟩ := h
    obtain ⟨a, b⟩ := round_gain hm h1
    cases x with
    | done tok => cases h; exact ⟨a, b, hl⟩
    | more st' =>
      obtain ⟨c, d, -⟩ := loop_gain hm fuel _ _ _ _ _ _ h
      have : s1.length ≤ s.length := by
        obtain ⟨-, h2, -⟩ := round_ext strtod hm hm r st s []
        obtain ⟨y, -, hy⟩ := h2 _ _ _ h1
        rw [hy]; simp
      exact ⟨by simp only [stepGain] at a; omega, b.trans d this, hl⟩

theorem json_pays {m : Mem} (hm : m.Sane) (strtod : Bytes → Option UInt64) :
    Pays true (PJson.read m strtod) (fun x => x.2.length) := by
  rintro ⟨r, s⟩ e ⟨r', s'⟩ h
  have := (loop_gain hm _ _ _ _ _ _ _ h).1
  simpa using this

/-- The buffers at the end of a scope -/
theorem scope_buffers {m : Mem} (hm : m.Sane) {strtod : Bytes → Option UInt64} :
    ∀ (fuel depth : Nat) (r : Rd) (s : Bytes) (c : Content) (r' : Rd) (t : Bytes),
      readScope (PJson.read m strtod) fuel depth (r, s) = .ok (c, r', t) → Buffers r s.length r' ∧ t.length ≤ s.length
  | 0, _, _, _, _, _, _, h => by cases h
  | fuel + 1, depth, r, s, c, r', t, h => by
    rw [readScope, Res.bind_eq_ok] at h
    obtain ⟨⟨⟨nm, tok⟩, r1, s1⟩, h1, h⟩ := h
    obtain ⟨-, a, b⟩ := loop_gain hm _ _ _ _ _ _ _ h1
    cases tok with
    | scopeEnd => cases h; exact ⟨a, b⟩
    | val v =>
      simp only [Res.bind_eq_ok] at h
      obtain ⟨⟨⟨vs1, ns1⟩, r2, s2⟩, h2, h⟩ := h
      cases h
      obtain ⟨d, e⟩ := scope_buffers hm fuel _ _ _ _ _ _ h2
      exact ⟨a.trans d b, Nat.le_trans e b⟩
    | scope ty =>
      simp only at h
      split at h
      · cases h
      · simp only [Res.bind_eq_ok] at h
        obtain ⟨⟨⟨vs1, ns1⟩, r2, s2⟩, h2, ⟨⟨vs2, ns2⟩, r3, s3⟩, h3, h⟩ := h
        cases h
        obtain ⟨d, e⟩ := scope_buffers hm fuel _ _ _ _ _ _ h2
        obtain ⟨f, g⟩ := scope_buffers hm fuel _ _ _ _ _ _ h3
        exact ⟨(a.trans d b).trans f (Nat.le_trans e b), Nat.le_trans g (Nat.le_trans e b)⟩

end Srl.Props.Room
