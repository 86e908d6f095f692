import Verif.Lemmas.MemoryRead
import Verif.Lemmas.PSrlCut
import Verif.Lemmas.PMsgPackCut
import Verif.Lemmas.PJsonCut

/-! What tokens of the formats take from the source (C84). -/

namespace Srl.Props.Room
open Typed Doc

variable {σ : Type}

theorem block_length {m : Mem} {n : Nat} {s x t : Bytes} (h : In.readBlock m n s = .ok (x, t)) :
    x.length + t.length = s.length := by
  obtain ⟨_, h2, h3⟩ := In.readBlock_eq_ok h
  subst h2 h3
  simp only [List.length_take, List.length_drop]; omega

theorem block_takes {m : Mem} {n : Nat} {s x t : Bytes} (h : In.readBlock m n s = .ok (x, t)) :
    n + t.length = s.length := by
  obtain ⟨h1, _, h3⟩ := In.readBlock_eq_ok h
  subst h3
  simp only [List.length_drop]; omega

/-! ## Srl -/

/-- What is left of the source, with the names read so far -/
def srlRoom (x : PSrl.St × Bytes) : Nat := total x.1.names + x.2.length

theorem total_append (xs ys : List Bytes) : total (xs ++ ys) = total xs + total ys := by simp [total]

theorem head_room {m : Mem} {st : PSrl.St} {s t name : Bytes} {flag : UInt8} {ns : List Bytes}
    (h : PSrl.readHead m st s = .ok (flag, name, ns, t)) :
    1 + total ns + t.length ≤ total st.names + s.length ∧ (∃ new, ns = st.names ++ new) ∧ (name = [] ∨ name ∈ ns) := by
  unfold PSrl.readHead at h
  rw [Res.bind_eq_ok] at h
  obtain ⟨⟨b, s1⟩, h1, h⟩ := h
  have e := block_takes h1
  simp only at h
  split at h
  · cases h; exact ⟨by omega, ⟨[], by simp⟩, Or.inl rfl⟩
  · split at h
    · rw [Res.bind_eq_ok] at h
      obtain ⟨⟨i, s2⟩, h2, h⟩ := h
      have e2 := Vlq.decode_suffix _ _ _ _ h2
      simp only at h
      split at h
      · cases h
      · rename_i nm hn
        cases h
        exact ⟨by omega, ⟨[], by simp⟩, Or.inr (List.mem_of_getElem? hn)⟩
    · simp only [Res.bind_eq_ok] at h
      obtain ⟨⟨i, s2⟩, h2, ⟨nm, s3⟩, h3, h⟩ := h
      have e2 := Vlq.decode_suffix _ _ _ _ h2
      have e3 := block_length h3
      dsimp only at e3
      cases h
      refine ⟨?_, ⟨_, rfl⟩, Or.inr (by simp)⟩
      have e4 : total [nm] = nm.length := by simp [total]
      dsimp only; rw [total_append, e4]; omega

theorem srl_pays (m : Mem) : Pays false (PSrl.read m) srlRoom := by
  rintro ⟨st, s⟩ e ⟨st', s'⟩ h
  unfold PSrl.read at h
  rw [Res.bind_eq_ok] at h
  obtain ⟨⟨flag, name, ns, t⟩, h1, h⟩ := h
  obtain ⟨g, -, -⟩ := head_room h1
  simp only [srlRoom] at *
  unfold PSrl.readRest at h
  split at h
  · split at h
    · cases h
    · cases h; simp only [gain]; omega
  · split at h
    · cases h; simp only [gain, nameBytes]; simp; omega
    · split at h
      · rw [Res.bind_eq_ok] at h
        obtain ⟨⟨v, t1⟩, h2, h⟩ := h
        cases h
        have key : valBytes v = 0 ∧ s'.length ≤ t.length := by
          unfold PSrl.readNum at h2
          split at h2
          · cases h2; exact ⟨rfl, Nat.le_refl _⟩
          · split at h2
            · rw [Res.bind_eq_ok] at h2
              obtain ⟨⟨b, t2⟩, h3, h2⟩ := h2
              have := block_takes h3
              cases h2; exact ⟨rfl, by omega⟩
            · split at h2
              · rw [Res.bind_eq_ok] at h2
                obtain ⟨⟨b, t2⟩, h3, h2⟩ := h2
                have := block_takes h3
                cases h2
                refine ⟨?_, by omega⟩
                unfold Fp.ofDouble; split <;> rfl
              · rw [Res.bind_eq_ok] at h2
                obtain ⟨⟨b, t2⟩, h3, h2⟩ := h2
                have := Vlq.decode_suffix _ _ _ _ h3
                simp only at h2
                split at h2
                · split at h2
                  · cases h2
                  · cases h2; exact ⟨rfl, by omega⟩
                · cases h2; exact ⟨rfl, by omega⟩
        simp only [gain, nameBytes]; simp; omega
      · split at h
        · simp only [Res.bind_eq_ok] at h
          obtain ⟨⟨n, t1⟩, h2, ⟨b, t2⟩, h3, h⟩ := h
          cases h
          have e2 := Vlq.decode_suffix _ _ _ _ h2
          have e3 := block_length h3
          dsimp only at e3
          have e4 : valBytes (if flag &&& PSrl.fBinary ≠ 0 then Val.bin (b.take (n % 2 ^ 32))
              else Val.str (b.take (n % 2 ^ 32))) ≤ b.length := by
            split <;> (simp only [valBytes, List.length_take]; omega)
          simp only [gain, nameBytes]; simp at e4 ⊢; omega
        · split at h
          · cases h; simp only [gain, nameBytes, valBytes]; simp; omega
          · cases h

/-- Reading adds to the names only, and tokens have a name among them. -/
theorem srl_names {m : Mem} {x y : PSrl.St × Bytes} {e : Event} (h : PSrl.read m x = .ok (e, y)) :
    (∃ new, y.1.names = x.1.names ++ new) ∧ (e.name = [] ∨ e.name ∈ y.1.names) := by
  unfold PSrl.read at h
  rw [Res.bind_eq_ok] at h
  obtain ⟨⟨flag, name, ns, t⟩, h1, h⟩ := h
  obtain ⟨-, g1, g2⟩ := head_room h1
  unfold PSrl.readRest at h
  dsimp only at h
  split at h
  · split at h
    · cases h
    · cases h; exact ⟨g1, Or.inl rfl⟩
  · split at h
    · cases h; exact ⟨g1, g2⟩
    · split at h
      · rw [Res.bind_eq_ok] at h
        obtain ⟨_, _, h⟩ := h
        cases h; exact ⟨g1, g2⟩
      · split at h
        · simp only [Res.bind_eq_ok] at h
          obtain ⟨_, _, _, _, h⟩ := h
          cases h; exact ⟨g1, g2⟩
        · split at h
          · cases h; exact ⟨g1, g2⟩
          · cases h

/-- The names in the content of a node -/
def contentNames (vs : List (Bytes × Val)) (ns : List (Bytes × Node)) : List Bytes := vs.map (·.1) ++ namesL ns

theorem srl_scope_names {m : Mem} : ∀ (fuel depth : Nat) (x : PSrl.St × Bytes) (vs : List (Bytes × Val))
    (ns : List (Bytes × Node)) (y : PSrl.St × Bytes), readScope (PSrl.read m) fuel depth x = .ok ((vs, ns), y) →
    (∃ new, y.1.names = x.1.names ++ new) ∧ ∀ nm ∈ contentNames vs ns, nm = [] ∨ nm ∈ y.1.names
  | 0, _, _, _, _, _, h => by cases h
  | fuel + 1, depth, x, vs, ns, y, h => by
    rw [readScope, Res.bind_eq_ok] at h
    obtain ⟨⟨⟨nm, tok⟩, x1⟩, h1, h⟩ := h
    obtain ⟨⟨new, e⟩, hnm⟩ := srl_names h1
    have grow : ∀ {l l' new : List Bytes} {z : Bytes}, l' = l ++ new → (z = [] ∨ z ∈ l) → (z = [] ∨ z ∈ l') :=
      fun he hz => hz.imp id (fun hz => by rw [he]; exact List.mem_append_left _ hz)
    cases tok with
    | scopeEnd => cases h; exact ⟨⟨new, e⟩, by simp [contentNames, namesL]⟩
    | val v =>
      simp only [Res.bind_eq_ok] at h
      obtain ⟨⟨⟨vs1, ns1⟩, x2⟩, h2, h⟩ := h
      cases h
      obtain ⟨⟨new2, e2⟩, k⟩ := srl_scope_names fuel _ _ _ _ _ h2
      refine ⟨⟨new ++ new2, by rw [e2, e, List.append_assoc]⟩, fun z hz => ?_⟩
      simp only [contentNames, List.map_cons, List.cons_append, List.mem_cons] at hz
      rcases hz with hz | hz
      · subst hz; exact grow e2 hnm
      · exact k z hz
    | scope t =>
      simp only at h
      split at h
      · cases h
      · simp only [Res.bind_eq_ok] at h
        obtain ⟨⟨⟨vs1, ns1⟩, x2⟩, h2, ⟨⟨vs2, ns2⟩, x3⟩, h3, h⟩ := h
        cases h
        obtain ⟨⟨new2, e2⟩, k2⟩ := srl_scope_names fuel _ _ _ _ _ h2
        obtain ⟨⟨new3, e3⟩, k3⟩ := srl_scope_names fuel _ _ _ _ _ h3
        refine ⟨⟨new ++ new2 ++ new3, by rw [e3, e2, e]; simp only [List.append_assoc]⟩, fun z hz => ?_⟩
        simp only [contentNames, namesL, names, List.mem_append, List.mem_cons] at hz
        simp only [contentNames, List.mem_append] at k2 k3
        rcases hz with hz | (hz | hz) | hz
        · exact k3 z (Or.inl hz)
        · subst hz; exact grow e3 (grow e2 hnm)
        · exact grow e3 (k2 z hz)
        · exact k3 z (Or.inr hz)

/-! ## MessagePack -/

theorem le_takes {m : Mem} {n v : Nat} {s t : Bytes} (h : PMsgPack.readLe m n s = .ok (v, t)) :
    t.length ≤ s.length := by
  unfold PMsgPack.readLe at h
  rw [Res.bind_eq_ok] at h
  obtain ⟨⟨b, t1⟩, h1, h⟩ := h
  have := block_takes h1
  cases h; omega

theorem be_takes {m : Mem} {n v : Nat} {s t : Bytes} (h : PMsgPack.readBe m n s = .ok (v, t)) :
    t.length ≤ s.length := by
  unfold PMsgPack.readBe at h
  rw [Res.bind_eq_ok] at h
  obtain ⟨⟨b, t1⟩, h1, h⟩ := h
  have := block_takes h1
  cases h; omega

theorem int_takes {m : Mem} {ty : IntTy} {v : Val} {s t : Bytes} (h : PMsgPack.readInt m ty s = .ok (v, t)) :
    valBytes v = 0 ∧ t.length ≤ s.length := by
  unfold PMsgPack.readInt at h
  rw [Res.bind_eq_ok] at h
  obtain ⟨⟨b, t1⟩, h1, h⟩ := h
  have := be_takes h1
  cases h; exact ⟨rfl, this⟩

theorem num_takes {m : Mem} {p : UInt8} {v : Val} {s t : Bytes} (h : PMsgPack.readNum m p s = .ok (v, t)) :
    valBytes v = 0 ∧ t.length ≤ s.length := by
  unfold PMsgPack.readNum at h
  split at h
  · rw [Res.bind_eq_ok] at h
    obtain ⟨⟨b, t1⟩, h1, h⟩ := h
    have := be_takes h1
    cases h; exact ⟨rfl, this⟩
  split at h
  · rw [Res.bind_eq_ok] at h
    obtain ⟨⟨b, t1⟩, h1, h⟩ := h
    have := be_takes h1
    cases h
    refine ⟨?_, this⟩
    unfold Fp.ofDouble; split <;> rfl
  iterate 8 (split at h; · exact int_takes h)
  cases h

theorem scalar_takes {m : Mem} {p : UInt8} {v : Val} {s t : Bytes} (h : PMsgPack.readScalar m p s = .ok (v, t)) :
    valBytes v = 0 ∧ t.length ≤ s.length := by
  unfold PMsgPack.readScalar at h
  split at h
  · cases h; exact ⟨rfl, Nat.le_refl _⟩
  split at h
  · exact num_takes h
  split at h <;> (cases h; exact ⟨rfl, Nat.le_refl _⟩)

theorem str_takes {m : Mem} {p : UInt8} {b s t : Bytes} (h : PMsgPack.readStr m p s = .ok (b, t)) :
    b.length + t.length ≤ s.length := by
  have h' : (∃ n s1, s1.length ≤ s.length ∧ In.readBlock m n s1 = .ok (b, t)) := by
    unfold PMsgPack.readStr at h
    split at h
    · exact ⟨_, _, Nat.le_refl _, h⟩
    split at h
    · rw [Res.bind_eq_ok] at h
      obtain ⟨⟨n, s1⟩, h1, h⟩ := h
      exact ⟨n, s1, le_takes h1, h⟩
    split at h <;>
    · rw [Res.bind_eq_ok] at h
      obtain ⟨⟨n, s1⟩, h1, h⟩ := h
      exact ⟨n, s1, le_takes h1, h⟩
  obtain ⟨n, s1, h1, h2⟩ := h'
  have := block_length h2
  omega

theorem bin_takes {m : Mem} {p : UInt8} {b s t : Bytes} (h : PMsgPack.readBin m p s = .ok (b, t)) :
    b.length + t.length ≤ s.length := by
  have h' : (∃ n s1, s1.length ≤ s.length ∧ In.readBlock m n s1 = .ok (b, t)) := by
    unfold PMsgPack.readBin at h
    split at h
    · rw [Res.bind_eq_ok] at h
      obtain ⟨⟨n, s1⟩, h1, h⟩ := h
      exact ⟨n, s1, le_takes h1, h⟩
    split at h <;>
    · rw [Res.bind_eq_ok] at h
      obtain ⟨⟨n, s1⟩, h1, h⟩ := h
      exact ⟨n, s1, le_takes h1, h⟩
  obtain ⟨n, s1, h1, h2⟩ := h'
  have := block_length h2
  omega

theorem item_takes {m : Mem} {stack stack' : List PMsgPack.RScope} {name s t : Bytes} {e : Event}
    (h : PMsgPack.readItem m stack name s = .ok (e, (stack', t))) :
    gain true e + t.length ≤ name.length + s.length := by
  unfold PMsgPack.readItem at h
  rw [Res.bind_eq_ok] at h
  obtain ⟨⟨b, s1⟩, h1, h⟩ := h
  have := block_takes h1
  unfold PMsgPack.readPrefixed at h
  dsimp only at h
  split at h
  · rw [Res.bind_eq_ok] at h
    obtain ⟨⟨⟨ty, n⟩, s2⟩, h2, h⟩ := h
    cases h
    have : s2.length ≤ s1.length := by
      unfold PMsgPack.readScopeInfo at h2
      split at h2
      · rw [Res.bind_eq_ok] at h2
        obtain ⟨⟨x, s3⟩, h3, h2⟩ := h2
        have := be_takes h3
        cases h2; exact this
      · cases h2; exact Nat.le_refl _
    simp only [gain, nameBytes, if_true]; omega
  split at h
  · rw [Res.bind_eq_ok] at h
    obtain ⟨⟨x, s2⟩, h2, h⟩ := h
    cases h
    have := str_takes h2
    simp only [gain, nameBytes, if_true, valBytes]; omega
  split at h
  · rw [Res.bind_eq_ok] at h
    obtain ⟨⟨x, s2⟩, h2, h⟩ := h
    cases h
    have := scalar_takes h2
    simp only [gain, nameBytes, if_true]; omega
  split at h
  · rw [Res.bind_eq_ok] at h
    obtain ⟨⟨x, s2⟩, h2, h⟩ := h
    cases h
    have := bin_takes h2
    simp only [gain, nameBytes, if_true, valBytes]; omega
  · cases h

theorem msgpack_pays (m : Mem) : Pays true (PMsgPack.read m) (fun x => x.2.length) := by
  rintro ⟨stack, s⟩ e ⟨stack', s'⟩ h
  unfold PMsgPack.read at h
  cases stack with
  | nil => have := item_takes h; simpa using this
  | cons sc stack =>
    simp only at h
    split at h
    · cases h; simp [gain]
    · split at h
      · have := item_takes h; simpa using this
      · rw [Res.bind_eq_ok] at h
        obtain ⟨⟨b, s1⟩, h1, h⟩ := h
        have e1 := block_takes h1
        simp only at h
        split at h
        · rw [Res.bind_eq_ok] at h
          obtain ⟨⟨name, s2⟩, h2, h⟩ := h
          have := str_takes h2
          have := item_takes h
          dsimp only at *; omega
        · have := item_takes h
          simp only [List.length_nil] at this
          dsimp only at *; omega

end Srl.Props.Room
