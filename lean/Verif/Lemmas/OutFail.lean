import Verif.Model.OutFail
import Verif.Lemmas.Out

/-! # Streams that fail against streams that do not -/

namespace Srl.OutFail

open Heap (Hp Sys)
open Out (Stream Ticket St copy Op)

/-- The output is the same as without failures but for the stream. `plain`: reservations are not filled. -/
structure Sim (β : Behaviour) (plain : Prop) (pre : Bytes) (f : FSt) (o : St) : Prop where
  same : f.1 = { o with stream := f.1.stream }
  streams : o.streaming = true
  good : f.2.good = true → f.2.stream = o.stream
  thrown : β.throws = true → f.2.good = true
  fine : (∀ i, β.fate i = none) → β.seekable = true ∨ plain → f.2.good = true
  atEnd : plain → o.stream.pos = o.stream.contents.length
  part : plain → ∃ k, pre.length ≤ k ∧ f.2.stream.contents = o.stream.contents.take k
  front : plain → ∃ r, o.stream.contents = pre ++ r

/-- What a step gives against one without failures. -/
def Fine (β : Behaviour) (plain : Prop) (pre : Bytes) (r : Res FSt) (o : St) : Prop :=
  (r = .err ∧ β.throws = true ∧ ¬((∀ i, β.fate i = none) ∧ (β.seekable = true ∨ plain))) ∨
    ∃ f, r = .ok f ∧ Sim β plain pre f o

variable {β : Behaviour} {plain : Prop} {pre : Bytes}

theorem Fine.bind {r : Res FSt} {o o' : St} {g : FSt → Res FSt} (h : Fine β plain pre r o)
    (hg : ∀ f, Sim β plain pre f o → Fine β plain pre (g f) o') : Fine β plain pre (r >>= g) o' := by
  rcases h with ⟨rfl, h⟩ | ⟨f, rfl, h⟩
  · exact .inl ⟨rfl, h⟩
  · simpa using hg f h

theorem take_append_pre {a b : Bytes} {k : Nat} (h : k ≤ a.length) : (a ++ b).take k = a.take k :=
  List.take_append_of_le_length h

/-- Writes at the end of a stream. -/
theorem write_end {s s' : Stream} {b : Bytes} (h : s.pos = s.contents.length) (hw : s.write b = .ok s') :
    s'.contents = s.contents ++ b ∧ s'.pos = s'.contents.length := by
  unfold Stream.write at hw
  rw [if_neg (by omega)] at hw
  cases hw
  simp [h]

theorem writeToStream_sim {f : FSt} {o o' : St} (h : Sim β plain pre f o) (he : Out.writeToStream o = .ok o') :
    Fine β plain pre (writeToStream β f) o' := by
  obtain ⟨p, d⟩ := f
  have hp := h.same
  simp only at hp
  unfold Out.writeToStream at he
  unfold writeToStream
  have h1 : p.start = o.start := by rw [hp]
  simp only [h1]
  cases hs : o.start with
  | none =>
    rw [hs] at he
    cases he
    exact .inr ⟨_, rfl, h⟩
  | some a =>
    rw [hs] at he
    simp only [Res.bind_eq_ok, Res.ok.injEq] at he
    obtain ⟨s, hw, rfl⟩ := he
    have h2 : Out.peek p.heap.mem a (p.cap - p.left) = Out.peek o.heap.mem a (o.cap - o.left) := by rw [hp]
    simp only [h2]
    generalize Out.peek o.heap.mem a (o.cap - o.left) = b at hw
    have hsame : ∀ st, ({ p with left := p.cap, crr := a, flushed := p.flushed + 1, start := some a } : St) =
        { ({ o with stream := st, left := o.cap, crr := a, flushed := o.flushed + 1, start := some a } : St) with
          stream := p.stream } := by
      intro st
      rw [hp]
    have hlt : plain → ∀ k, pre.length ≤ k → ∀ c, c = o.stream.contents.take k →
        ∃ k, pre.length ≤ k ∧ c = s.contents.take k := by
      intro hpl k hk c hc
      have := (write_end (h.atEnd hpl) hw).1
      rw [this]
      obtain ⟨r, hr⟩ := h.front hpl
      refine ⟨min k o.stream.contents.length, ?_, ?_⟩
      · rw [hr, List.length_append]; omega
      · rw [hc, take_append_pre (by omega)]
        by_cases hkl : k ≤ o.stream.contents.length
        · rw [Nat.min_eq_left hkl]
        · rw [Nat.min_eq_right (by omega), List.take_length, List.take_of_length_le (by omega)]
    have hfr : plain → ∃ r, s.contents = pre ++ r := by
      intro hpl
      obtain ⟨r, hr⟩ := h.front hpl
      exact ⟨r ++ b, by rw [(write_end (h.atEnd hpl) hw).1, hr, List.append_assoc]⟩
    have hend : plain → s.pos = s.contents.length := fun hpl => (write_end (h.atEnd hpl) hw).2
    unfold Dev.write
    cases hg : d.good with
    | false =>
      have ht : β.throws = false := by
        cases ht : β.throws with
        | false => rfl
        | true => exact absurd (h.thrown ht) (by simp [hg])
      refine .inr ⟨_, by simp [fail, ht]; rfl, ⟨hsame _, h.streams, by simp, by simp [ht], ?_, hend, ?_, hfr⟩⟩
      · intro h1 h2
        exact absurd (h.fine h1 h2) (by simp [hg])
      · intro hpl
        obtain ⟨k, hk, hc⟩ := h.part hpl
        exact hlt hpl k hk _ hc
    | true =>
      have hst := h.good hg
      simp only at hst
      cases hfa : β.fate d.count with
      | none =>
        refine .inr ⟨_, by simp [hst, hw]; rfl, ⟨hsame _, h.streams, by simp, fun _ => rfl, fun _ _ => rfl, hend, ?_, hfr⟩⟩
        intro hpl
        obtain ⟨r, hr⟩ := hfr hpl
        exact ⟨s.contents.length, by rw [hr, List.length_append]; omega, by rw [List.take_length]⟩
      | some k =>
        have hnf : ¬((∀ i, β.fate i = none) ∧ (β.seekable = true ∨ plain)) := by
          intro hx
          rw [hx.1] at hfa
          cases hfa
        have hw2 : ∃ s2, o.stream.write (b.take k) = .ok s2 := by
          unfold Stream.write at hw ⊢
          split at hw
          · cases hw
          · rename_i hle
            rw [if_neg hle]
            exact ⟨_, rfl⟩
        obtain ⟨s2, hw2⟩ := hw2
        cases ht : β.throws with
        | true => exact .inl ⟨by simp [hst, hw2, fail, ht], ht, hnf⟩
        | false =>
          refine .inr ⟨_, by simp [hst, hw2, fail, ht]; rfl,
            ⟨hsame _, h.streams, by simp, by simp [ht], fun h1 h2 => absurd ⟨h1, h2⟩ hnf, hend, ?_, hfr⟩⟩
          intro hpl
          have h3 := (write_end (h.atEnd hpl) hw2).1
          have h4 := (write_end (h.atEnd hpl) hw).1
          obtain ⟨r, hr⟩ := h.front hpl
          refine ⟨o.stream.contents.length + k, by rw [hr, List.length_append]; omega, ?_⟩
          simp only [h3, h4, List.take_append, Nat.add_sub_cancel_left]
          rw [List.take_of_length_le (l := o.stream.contents) (by omega)]

theorem makeRoom_sim {sys : Sys} {f : FSt} {o o' : St} {n : Nat} (h : Sim β plain pre f o)
    (he : Out.makeRoom sys o n = .ok o') : Fine β plain pre (makeRoom β sys f n) o' := by
  unfold Out.makeRoom at he
  rw [Res.bind_eq_ok] at he
  obtain ⟨o1, h1, h2⟩ := he
  unfold makeRoom
  have hl : f.1.left = o.left := by rw [h.same]
  refine Fine.bind (o := o1) ?_ ?_
  · rw [hl]
    split at h1
    · rename_i hlt
      rw [if_pos hlt]
      exact writeToStream_sim h h1
    · rename_i hlt
      rw [if_neg hlt]
      cases h1
      exact .inr ⟨_, rfl, h⟩
  · intro g hg
    have hc : g.1.cap = o1.cap := by rw [hg.same]
    rw [hc]
    split at h2
    · rename_i hlt
      rw [if_pos hlt]
      unfold Out.incCap at h2 ⊢
      rw [Res.bind_eq_ok] at h2
      obtain ⟨⟨hp, a⟩, h3, h4⟩ := h2
      have hh : g.1.heap = o1.heap := by rw [hg.same]
      simp only [hh, h3, Res.ok_bind]
      cases h4
      refine .inr ⟨_, rfl, ⟨?_, hg.streams, hg.good, hg.thrown, hg.fine, hg.atEnd, hg.part, hg.front⟩⟩
      simp only
      rw [hg.same]
    · rename_i hlt
      rw [if_neg hlt]
      cases h2
      exact .inr ⟨_, rfl, hg⟩

theorem alloc_sim {sys : Sys} {f : FSt} {o o' : St} {n a : Nat} (h : Sim β plain pre f o)
    (he : Out.alloc sys o n = .ok (o', a)) :
    (alloc β sys f n = .err ∧ β.throws = true ∧ ¬((∀ i, β.fate i = none) ∧ (β.seekable = true ∨ plain))) ∨
      ∃ g, alloc β sys f n = .ok (g, a) ∧ Sim β plain pre g o' := by
  unfold Out.alloc at he
  simp only at he
  rw [if_neg (by simp [h.streams]), Res.bind_eq_ok] at he
  obtain ⟨o1, h1, h2⟩ := he
  have h0 : Sim β plain pre ({ f.1 with total := f.1.total + n }, f.2) { o with total := o.total + n } :=
    ⟨by simp only; rw [h.same], h.streams, h.good, h.thrown, h.fine, h.atEnd, h.part, h.front⟩
  unfold alloc
  rcases makeRoom_sim h0 h1 with ⟨h3, h4⟩ | ⟨g, h3, h4⟩
  · exact .inl ⟨by rw [h3]; rfl, h4⟩
  · rw [h3]
    cases h2
    have e : g.1.crr = o1.crr := by rw [h4.same]
    refine .inr ⟨({ g.1 with left := g.1.left - n, crr := g.1.crr + n }, g.2), by simp only [Res.ok_bind, e], ⟨?_, h4.streams, h4.good, h4.thrown,
      h4.fine, h4.atEnd, h4.part, h4.front⟩⟩
    simp only
    rw [h4.same]

theorem copy_sim {f : FSt} {o : St} (a : Nat) (b : Bytes) (h : Sim β plain pre f o) :
    Sim β plain pre (copy f.1 a b, f.2) (copy o a b) :=
  ⟨by simp only [copy]; rw [h.same], h.streams, h.good, h.thrown, h.fine, h.atEnd, h.part, h.front⟩

theorem write_sim {sys : Sys} {f : FSt} {o o' : St} {b : Bytes} (h : Sim β plain pre f o)
    (he : Out.write sys o b = .ok o') : Fine β plain pre (write β sys f b) o' := by
  unfold Out.write at he
  rw [Res.bind_eq_ok] at he
  obtain ⟨⟨o1, a⟩, h1, h2⟩ := he
  unfold write
  rcases alloc_sim h h1 with ⟨h3, h4⟩ | ⟨g, h3, h4⟩
  · exact .inl ⟨by rw [h3]; rfl, h4⟩
  · cases h2
    exact .inr ⟨_, by rw [h3]; rfl, copy_sim a b h4⟩

theorem reserve_sim {sys : Sys} {f : FSt} {o o' : St} {n : Nat} {t : Ticket} (h : Sim β plain pre f o)
    (he : Out.reserve sys o n = .ok (o', t)) :
    (reserve β sys f n = .err ∧ β.throws = true ∧ ¬((∀ i, β.fate i = none) ∧ (β.seekable = true ∨ plain))) ∨
      ∃ g, reserve β sys f n = .ok (g, t) ∧ Sim β plain pre g o' := by
  unfold Out.reserve at he
  simp only [Res.bind_eq_ok] at he
  obtain ⟨⟨o1, a⟩, h1, h2⟩ := he
  unfold reserve
  rcases alloc_sim h h1 with ⟨h3, h4⟩ | ⟨g, h3, h4⟩
  · exact .inl ⟨by simp only [h3]; rfl, h4⟩
  · simp only [Res.ok.injEq, Prod.mk.injEq] at h2
    obtain ⟨rfl, rfl⟩ := h2
    refine .inr ⟨_, ?_, copy_sim a (List.replicate n 0) h4⟩
    have e1 : f.1.total = o.total := by rw [h.same]
    have e2 : g.1.flushed = o1.flushed := by rw [h4.same]
    simp only [h3, Res.ok_bind, e1, e2]

/-- Moving and writing once the stream has failed -/
theorem after_failure (hth : β.throws = false) {d : Dev} (hg : d.good = false) (b : Bytes) (p : Nat) :
    ∃ d', (do let d ← d.write β b; d.seek β p) = .ok d' ∧ d'.good = false := by
  refine ⟨{ d with good := false, count := d.count + 1 }, ?_, rfl⟩
  simp [Dev.write, hg, fail, hth, Dev.seek]

theorem fill_sim {f : FSt} {o o' : St} {t : Ticket} {b : Bytes} {k : Nat} (hpl : ¬ plain) (h : Sim β plain pre f o)
    (he : Out.fill o t b k = .ok o') : Fine β plain pre (fill β f t b k) o' := by
  obtain ⟨p, d⟩ := f
  have hp := h.same
  simp only at hp
  have e1 : p.flushed = o.flushed := by rw [hp]
  unfold Out.fill at he
  unfold fill
  split at he
  · cases he
  · rename_i hsz
    rw [if_neg hsz]
    rw [show (!o.streaming || t.seg == o.flushed) = (t.seg == o.flushed) by simp [h.streams]] at he
    simp only [e1]
    split at he
    · rename_i hs
      rw [if_pos hs]
      cases he
      exact .inr ⟨_, rfl, copy_sim _ b h⟩
    · rename_i hs
      rw [if_neg hs]
      rw [Res.bind_eq_ok] at he
      obtain ⟨s, hw, he⟩ := he
      cases he
      have hsame : ∀ st, p = { ({ o with stream := st } : St) with stream := p.stream } := fun st => hp
      -- a failure somewhere on the way
      have bad : ∀ d' : Dev, d'.good = false → β.throws = false →
          (((∀ i, β.fate i = none) → β.seekable = true ∨ plain → False)) →
          Sim β plain pre (p, d') { o with stream := { s with pos := o.stream.pos } } := fun d' hg ht hn =>
        ⟨hsame _, h.streams, by simp [hg], by simp [ht], fun h1 h2 => (hn h1 h2).elim, fun hp => absurd hp hpl,
          fun hp => absurd hp hpl, fun hp => absurd hp hpl⟩
      cases hg : d.good with
      | false =>
        have ht : β.throws = false := by
          cases ht : β.throws with
          | false => rfl
          | true => exact absurd (h.thrown ht) (by simp [hg])
        refine .inr ⟨(p, { d with good := false, count := d.count + 1 }), ?_, bad _ rfl ht ?_⟩
        · simp [Dev.seek, Dev.write, hg, fail, ht]
        · intro h1 h2
          exact absurd (h.fine h1 h2) (by simp [hg])
      | true =>
        have hst := h.good hg
        simp only at hst
        by_cases hse : (!β.seekable || (β.fate d.count).isSome) = true
        · -- the first move fails
          have hn : ¬((∀ i, β.fate i = none) ∧ (β.seekable = true ∨ plain)) := by
            rintro ⟨h1, h2⟩
            simp [h1, h2.resolve_right hpl] at hse
          cases ht : β.throws with
          | true => exact .inl ⟨by simp only [Dev.seek, hg, hse, fail, ht]; rfl, ht, hn⟩
          | false =>
            obtain ⟨d', h1, h2⟩ := after_failure (β := β) ht (d := { d with good := false, count := d.count + 1 }) rfl b
              d.stream.pos
            refine .inr ⟨(p, d'), ?_, bad _ h2 ht fun a b => hn ⟨a, b⟩⟩
            simp only [Res.bind_eq_ok] at h1
            obtain ⟨d1, h3, h4⟩ := h1
            have : d.seek β (t.pos + k) = .ok { d with good := false, count := d.count + 1 } := by
              simp only [Dev.seek, hg, hse, fail, ht]; rfl
            simp only [this, Res.ok_bind, h3, h4]
        · have hk : β.seekable = true := by
            cases hk : β.seekable with
            | true => rfl
            | false => simp [hk] at hse
          have e2 : d.seek β (t.pos + k) =
              .ok { d with stream := { d.stream with pos := t.pos + k }, count := d.count + 1 } := by
            simp only [Dev.seek, hg, hse]; rfl
          simp only [e2, Res.ok_bind]
          have hw2 : Stream.write { d.stream with pos := t.pos + k } b = .ok s := by rw [hst]; exact hw
          unfold Dev.write
          simp only [hg, Bool.not_true, Bool.false_eq_true, if_false]
          cases hfa : β.fate (d.count + 1) with
          | some j =>
            have hn : ¬((∀ i, β.fate i = none) ∧ (β.seekable = true ∨ plain)) := by
              rintro ⟨h1, -⟩
              rw [h1] at hfa
              cases hfa
            have hw3 : ∃ s2, Stream.write { d.stream with pos := t.pos + k } (b.take j) = .ok s2 := by
              unfold Stream.write at hw2 ⊢
              split at hw2
              · cases hw2
              · rename_i hle
                rw [if_neg hle]
                exact ⟨_, rfl⟩
            obtain ⟨s2, hw3⟩ := hw3
            simp only [hw3, Res.ok_bind]
            cases ht : β.throws with
            | true => exact .inl ⟨by simp [fail, ht], ht, hn⟩
            | false => exact .inr ⟨_, by simp [fail, ht, Dev.seek]; rfl, bad _ rfl ht fun a b => hn ⟨a, b⟩⟩
          | none =>
            simp only [hw2, Res.ok_bind]
            cases hfb : (β.fate (d.count + 1 + 1)).isSome with
            | true =>
              have hn : ¬((∀ i, β.fate i = none) ∧ (β.seekable = true ∨ plain)) := by
                rintro ⟨h1, -⟩
                rw [h1] at hfb
                cases hfb
              cases ht : β.throws with
              | true => exact .inl ⟨by simp [Dev.seek, hg, hfb, fail, ht], ht, hn⟩
              | false =>
                exact .inr ⟨_, by simp [Dev.seek, hg, hfb, fail, ht]; rfl, bad _ rfl ht fun a b => hn ⟨a, b⟩⟩
            | false =>
              refine .inr ⟨_, by simp [Dev.seek, hg, hfb, hk]; rfl, ⟨hsame _, h.streams, ?_, fun _ => rfl, fun _ _ => rfl,
                fun hp => absurd hp hpl, fun hp => absurd hp hpl, fun hp => absurd hp hpl⟩⟩
              intro _
              simp only [hst]

end Srl.OutFail
