import Verif.Lemmas.StreamParsers
import Verif.Lemmas.Relate
import Verif.Lemmas.PSrlDoc

/-! Documents on streams -/

namespace Srl

open Srl.Stream Doc

/-- Parser states are equal, the stream has left what the memory source has left. -/
def Side {σ : Type} (total : Nat) (x : σ × Bytes) (y : σ × SIn) : Prop :=
  x.1 = y.1 ∧ ∃ c, Inv y.2 c x.2 ∧ c.length + x.2.length = total

theorem side_read {σ : Type} {E : Lax} {total cap N : Nat} {r : Res (Event × (σ × Bytes))}
    {r' : SRes ((Event × σ) × SIn)} (hc : total + 1024 ≤ cap) (hE : cap < total + N → E.mem)
    (h : Exhausted cap N total (rot r) r' ∨ Agree total (rot r) r') :
    Rel E (With (Side total)) r (Stream.reading r') := by
  rcases h with ⟨rfl, h | ⟨h1, h2⟩⟩ | h
  · omega
  · cases r with
    | ok x => cases h1
    | err => exact .inl (hE h2)
    | ub => cases h1
    | fuel => cases h1
  · cases r with
    | ok x =>
      obtain ⟨e, st, t⟩ := x
      cases r' with
      | ok y =>
        obtain ⟨⟨e', st'⟩, s⟩ := y
        obtain ⟨h1, h2⟩ := h
        cases h1
        exact ⟨rfl, rfl, h2⟩
      | _ => exact h.elim
    | err => cases r' <;> first | exact h.elim | trivial
    | ub => cases r' <;> first | exact h.elim | trivial
    | fuel => cases r' <;> first | exact h.elim | trivial

theorem side_open {σ : Type} (cap : Nat) (old : SIn) (src : Bytes) (st : σ) (hc : 0 < cap) :
    ∃ s, SIn.set cap old src = .ok s ∧ Side src.length (st, src) (st, s) := by
  obtain ⟨s, h1, h2, -⟩ := set_inv cap old src hc
  exact ⟨s, h1, rfl, [], h2, by simp⟩

namespace PMsgPack

theorem reading_stream {m : Mem} (hm : m.Sane) (hp : m.past ≠ none) {cap total : Nat} {E : Lax}
    (hc : total + 1024 ≤ cap) (hE : cap < total + 2 ^ 32 → E.mem) :
    Reading E (Side total) (read m) (readS cap) := by
  rintro ⟨st, r⟩ ⟨st', s⟩ ⟨h1, c, h2, h3⟩
  cases h1
  refine side_read hc hE ?_
  have := agrees hm hp (cap := cap) (N := 2 ^ 32) (by decide) (readP st) s c r false (small_read st r false) h2
    (fun h => nomatch h)
  rw [readP_mem m] at this
  have e : c.length + r.length = total := h3
  rw [e] at this
  exact this

end PMsgPack

namespace PSrl

/-- Every field name that can be read from here is shorter than 1024 bytes. -/
def ShortNames (m : Mem) (x : St × Bytes) : Prop :=
  ∀ es st s flag name names t, Emits (read m) x es (st, s) → readHead m st s = .ok (flag, name, names, t) →
    name.length < 1024

theorem reading_stream {m : Mem} (hm : m.Sane) (hp : m.past ≠ none) {cap total : Nat} {E : Lax}
    (hc : total + 1024 ≤ cap) (hE : cap < total + 2 ^ 63 → E.mem) :
    Reading E (fun x y => Side total x y ∧ NoRun x.2 ∧ ShortNames m x) (read m) (readS cap) := by
  rintro ⟨st, r⟩ ⟨st', s⟩ ⟨⟨h1, c, h2, h3⟩, hn, hs⟩
  cases h1
  have := agrees hm hp (cap := cap) (Nat.le_refl _) (readP st) s c r false
    (readP_fair hm hp st r hn (fun f n ns t h => hs [] st r f n ns t (.nil _) h) false) h2
    (fun h => nomatch h)
  rw [readP_mem hm] at this
  have e : c.length + r.length = total := h3
  rw [e] at this
  have := side_read hc hE this
  cases hr : read m (st, r) with
  | ok x =>
    rw [hr] at this
    revert this
    show Rel _ _ (.ok x) (readS cap (st, s)) → Rel _ _ (.ok x) (readS cap (st, s))
    cases readS cap (st, s) with
    | ok y =>
      intro this
      refine ⟨this.1, this.2, (read_noRun hp hm (st, r) hn).2 _ _ hr, ?_⟩
      intro es st' s' f n ns t he hh
      exact hs (x.1 :: es) st' s' f n ns t (.cons hr he) hh
    | _ => exact fun h => h
  | _ =>
    rw [hr] at this
    revert this
    show Rel _ _ _ (readS cap (st, s)) → Rel _ _ _ (readS cap (st, s))
    cases readS cap (st, s) <;> exact fun h => h

/-- As long as the source is accepted and the names are short. -/
theorem reading_stream_ok {m : Mem} (hm : m.Sane) (hp : m.past ≠ none) {cap total : Nat} {E : Lax}
    (hc : total + 1024 ≤ cap) (ht : total < 2 ^ 63) (hE : E.any) :
    Reading E (fun x y => Side total x y ∧ ∀ es z, Emits (read m) x es z → ∀ e ∈ es, e.name.length < 1024)
      (read m) (readS cap) := by
  rintro ⟨st, r⟩ ⟨st', s⟩ ⟨⟨h1, c, h2, h3⟩, hs⟩
  cases h1
  cases hr : read m (st, r) with
  | ok x =>
    have e : c.length + r.length = total := h3
    have hf := readP_fair_ok hm st r (by omega) hr (hs [x.1] x.2 (.cons hr (.nil _)) _ (by simp)) false
    have := agrees hm hp (cap := cap) (Nat.le_refl _) (readP st) s c r false hf h2 (fun h => nomatch h)
    rw [readP_mem hm, e] at this
    have := side_read (E := ⟨True, True⟩) hc (fun _ => trivial) this
    rw [hr] at this
    revert this
    show Rel _ _ (.ok x) (readS cap (st, s)) → Rel _ _ (.ok x) (readS cap (st, s))
    cases readS cap (st, s) with
    | ok y =>
      intro this
      exact ⟨this.1, this.2, fun es z he e hm => hs (x.1 :: es) z (.cons hr he) e (by simp [hm])⟩
    | _ => exact fun h => h.elim
  | _ => exact Rel.of_any _ (fun a e => nomatch e) hE

theorem readRest_names {m : Mem} {stack : List ScopeTy} {flag : UInt8} {name : Bytes} {names : List Bytes}
    {s : Bytes} {x : Event × (St × Bytes)} (h : readRest m stack flag name names s = .ok x) :
    x.2.1.names = names := by
  unfold readRest at h
  split at h
  · split at h
    · cases h
    · cases h; rfl
  · split at h
    · cases h; rfl
    · split at h
      · rw [Res.bind_eq_ok] at h
        obtain ⟨_, -, h⟩ := h
        cases h; rfl
      · split at h
        · simp only [Res.bind_eq_ok] at h
          obtain ⟨_, -, _, -, h⟩ := h
          cases h; rfl
        · split at h
          · cases h; rfl
          · cases h

/-- A name is one that was read before or part of the source. -/
theorem readHead_lengths {m : Mem} {L : Nat} {st : St} {s n t : Bytes} {f : UInt8} {ns : List Bytes}
    (hst : ∀ x ∈ st.names, x.length < L) (hs : s.length < L) (h : readHead m st s = .ok (f, n, ns, t)) :
    n.length < L ∧ ∀ x ∈ ns, x.length < L := by
  unfold readHead at h
  rw [Res.bind_eq_ok] at h
  obtain ⟨⟨b, s1⟩, h1, h⟩ := h
  have hs1 : s1.length ≤ s.length := by
    rw [(In.readBlock_eq_ok h1).2.2, List.length_drop]; omega
  simp only at h
  split at h
  · simp only [Res.ok.injEq, Prod.mk.injEq] at h
    rw [← h.2.1, ← h.2.2.1]
    exact ⟨by simp; omega, hst⟩
  · split at h
    · rw [Res.bind_eq_ok] at h
      obtain ⟨y, -, h⟩ := h
      split at h
      · cases h
      · rename_i nm hnm
        simp only [Res.ok.injEq, Prod.mk.injEq] at h
        rw [← h.2.1, ← h.2.2.1]
        exact ⟨hst _ (List.mem_of_getElem? hnm), hst⟩
    · simp only [Res.bind_eq_ok] at h
      obtain ⟨⟨k, s2⟩, h2, ⟨nm, s3⟩, h3, h⟩ := h
      simp only [Res.ok.injEq, Prod.mk.injEq] at h
      have := Vlq.decode_suffix _ _ _ _ h2
      have hl : nm.length < L := by
        rw [(In.readBlock_eq_ok h3).2.1, List.length_take]
        show min k s2.length < L
        omega
      rw [← h.2.1, ← h.2.2.1]
      refine ⟨hl, fun x hx => ?_⟩
      rcases List.mem_append.mp hx with hx | hx
      · exact hst x hx
      · simp only [List.mem_singleton] at hx
        rw [hx]
        exact hl

/-- Short sources have short names. -/
theorem shortNames_small {m : Mem} {x : St × Bytes} (hst : ∀ n ∈ x.1.names, n.length < 1024)
    (hs : x.2.length < 1024) : ShortNames m x := by
  intro es st s f n ns t he
  have : ∀ (x y : St × Bytes) (es : List Event), Emits (read m) x es y → (∀ n ∈ x.1.names, n.length < 1024) →
      x.2.length < 1024 → (∀ n ∈ y.1.names, n.length < 1024) ∧ y.2.length < 1024 := by
    intro x y es he
    induction he with
    | nil => exact fun h1 h2 => ⟨h1, h2⟩
    | @cons s e s' es s'' h1 h2 ih =>
      intro h3 h4
      have h5 := read_progress _ _ _ _ h1
      unfold read at h1
      rw [Res.bind_eq_ok] at h1
      obtain ⟨⟨f, n, ns, t⟩, h6, h7⟩ := h1
      have h8 := readRest_names h7
      exact ih (h8 ▸ (readHead_lengths h3 h4 h6).2) (by omega)
  have := this _ _ _ he hst hs
  intro h
  exact (readHead_lengths this.1 this.2 h).1

end PSrl
end Srl
