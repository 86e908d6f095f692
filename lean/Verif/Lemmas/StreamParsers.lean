import Verif.Lemmas.Stream
import Verif.Lemmas.Range
import Verif.Lemmas.PSrlCut
import Verif.Lemmas.PMsgPackCut

/-! The parsers as programs: on a memory source they do what the parsers do, and they keep to what `Fair`
asks for. -/

namespace Srl

open Srl.Stream

/-- Results of `read` with parser state and source apart. -/
def rot {σ : Type} : Res (Event × (σ × Bytes)) → Res ((Event × σ) × Bytes)
  | .ok (e, (st, t)) => .ok ((e, st), t)
  | .err => .err
  | .ub => .ub
  | .fuel => .fuel

theorem done_ok_mem {α : Type} (m : Mem) (x : α) (s : Bytes) : (Prog.done (.ok x)).mem m s = .ok (x, s) := rfl
theorem done_err_mem {α : Type} (m : Mem) (s : Bytes) : (Prog.done .err : Prog α).mem m s = .err := rfl
theorem done_ub_mem {α : Type} (m : Mem) (s : Bytes) : (Prog.done .ub : Prog α).mem m s = .ub := rfl
theorem block_mem {α : Type} (m : Mem) (n : Nat) (k : Bytes → Prog α) (s : Bytes) :
    (Prog.block n k).mem m s = (In.readBlock m n s >>= fun x => (k x.1).mem m x.2) := rfl
theorem move_mem {α : Type} (m : Mem) (n : Nat) (k : Prog α) (s : Bytes) :
    (Prog.move n k).mem m s = (In.move m n s >>= fun s => k.mem m s) := rfl
theorem cur_mem {α : Type} (m : Mem) (k : UInt8 → Prog α) (s : Bytes) :
    (Prog.cur k).mem m s = (In.cur m s >>= fun b => (k b).mem m s) := rfl
theorem bind_mem {α β : Type} (m : Mem) (p : Prog α) (f : α → Prog β) (s : Bytes) :
    (p.bind f).mem m s = (p.mem m s >>= fun x => (f x.1).mem m x.2) := mem_bind m p s

namespace Vlq

theorem decLoopP_mem {m : Mem} (hm : m.Sane) : ∀ (s : Bytes) (f : Nat) (b : UInt8) (out sh : Nat),
    sh + 7 * f = 77 → 1 ≤ f →
    (decLoopP f b out sh).mem m s = (decLoop m b out sh s >>= fun x =>
      if x.2.1 > 10 * 7 then .err else In.move m 1 x.2.2 >>= fun t => .ok (x.1, t))
  | s, f + 1, b, out, sh, h, _ => by
    have hmv : ∀ c t, In.move m 1 (c :: t) = .ok t := fun c t => by
      rw [mem_move hm (by decide)]; rfl
    cases s with
    | nil =>
      rw [decLoopP, decLoop]
      by_cases hb : b &&& 128 = 0
      · rw [if_pos hb, if_pos hb]
        simp only [Res.ok_bind]
        split
        · rfl
        · rfl
      · rw [if_neg hb, if_neg hb]
        simp only [move_mem, mem_move hm (by decide : 1 < 2 ^ 63)]
        rfl
    | cons c s =>
      rw [decLoopP, decLoop]
      by_cases hb : b &&& 128 = 0
      · rw [if_pos hb, if_pos hb]
        simp only [Res.ok_bind]
        split
        · rfl
        · rfl
      · rw [if_neg hb, if_neg hb]
        simp only [move_mem, cur_mem, hmv, Res.ok_bind]
        cases In.cur m s with
        | ok b' =>
          simp only [Res.ok_bind]
          split
          · rfl
          · exact decLoopP_mem hm s f b' _ _ (by omega) (by omega)
        | _ => rfl

theorem decodeP_mem {m : Mem} (hm : m.Sane) (s : Bytes) : decodeP.mem m s = decode m s := by
  unfold decodeP decode
  rw [cur_mem]
  cases In.cur m s with
  | ok b =>
    simp only [Res.ok_bind]
    rw [decLoopP_mem hm s 10 b _ 7 (by decide) (by decide)]
    rfl
  | _ => rfl

theorem decLoopP_end {N : Nat} (hN : 1 < N) (f : Nat) (b : UInt8) (out sh : Nat)
    (h : sh + 7 * f = 77) (hf : 1 ≤ f) : AtEnd N (decLoopP f b out sh) .err := by
  cases f with
  | zero => omega
  | succ f =>
    rw [decLoopP]
    by_cases hb : b &&& 128 = 0
    · rw [if_pos hb]
      by_cases hs : sh > 10 * 7
      · rw [if_pos hs]; exact rfl
      · rw [if_neg hs]; exact ⟨Nat.le_refl _, hN, rfl⟩
    · rw [if_neg hb]; exact ⟨Nat.le_refl _, hN, rfl⟩

theorem decLoopP_fair {N : Nat} (hN : 1 < N) : ∀ (f : Nat) (b : UInt8) (out sh : Nat) (r : Bytes) (a : Bool),
    sh + 7 * f = 77 → 1 ≤ f → Fair N (fun _ t a => a = true ∧ ∃ k, t = r.drop k) (decLoopP f b out sh) r a
  | f + 1, b, out, sh, r, a, h, _ => by
    rw [decLoopP]
    split
    · split
      · exact fun y e => (nomatch e)
      · exact ⟨hN, fun _ y e => ⟨rfl, 1, rfl⟩⟩
    · refine ⟨hN, fun _ => ?_⟩
      generalize hr : r.drop 1 = r'
      cases r' with
      | nil =>
        refine ⟨rfl, if sh ≥ 64 then .ub else .err, ?_, fun b' => ?_⟩
        · intro y; split <;> exact fun e => (nomatch e)
        · split
          · exact rfl
          · exact decLoopP_end hN f b' _ _ (by omega) (by omega)
      | cons b' r' =>
        refine ⟨rfl, ?_⟩
        split
        · exact fun y e => (nomatch e)
        · refine (decLoopP_fair hN f b' _ _ _ true (by omega) (by omega)).mono ?_
          rintro y t a ⟨h1, k, h2⟩
          exact ⟨h1, k + 1, by rw [h2, ← hr, List.drop_drop, Nat.add_comm]⟩

theorem decodeP_fair {N : Nat} (hN : 1 < N) (r : Bytes) :
    Fair N (fun _ t a => a = true ∧ ∃ k, t = r.drop k) decodeP r true := by
  cases r with
  | nil =>
    exact ⟨rfl, .err, fun y e => (nomatch e), fun b => decLoopP_end hN 10 b _ 7 (by decide) (by decide)⟩
  | cons b r => exact ⟨rfl, decLoopP_fair hN 10 b _ 7 _ true (by decide) (by decide)⟩

/-- With a source free of long runs the numbers have less than 64 bits. -/
theorem decodeP_noRun {m : Mem} (hm : m.Sane) (hp : m.past ≠ none) (r : Bytes) (h : NoRun r) :
    Fair (2 ^ 63) (fun y t a => a = true ∧ y < 2 ^ 63 ∧ NoRun t) decodeP r true := by
  refine ((decodeP_fair (by decide) r).with_mem hm (Nat.le_refl _)).mono ?_
  rintro y t a ⟨⟨h1, k, h2⟩, h3⟩
  rw [decodeP_mem hm] at h3
  exact ⟨h1, ((decode_noRun hp hm r h).2 _ _ h3).1, h2 ▸ h.drop k⟩

end Vlq

namespace PSrl

theorem readHeadP_mem {m : Mem} (hm : m.Sane) (st : St) (s : Bytes) :
    (readHeadP st).mem m s = (readHead m st s >>= fun x => .ok ((x.1, x.2.1, x.2.2.1), x.2.2.2)) := by
  unfold readHeadP readHead
  rw [block_mem]
  cases In.readBlock m 1 s with
  | ok x =>
    simp only [Res.ok_bind]
    split
    · rfl
    · split
      · rw [bind_mem, Vlq.decodeP_mem hm]
        cases Vlq.decode m x.2 with
        | ok y =>
          simp only [Res.ok_bind]
          cases st.names[y.1]? <;> rfl
        | _ => rfl
      · rw [bind_mem, Vlq.decodeP_mem hm]
        cases Vlq.decode m x.2 with
        | ok y =>
          simp only [Res.ok_bind, block_mem]
          cases In.readBlock m y.1 y.2 <;> rfl
        | _ => rfl
  | _ => rfl

theorem readNumP_mem {m : Mem} (hm : m.Sane) (flag : UInt8) (s : Bytes) :
    (readNumP flag).mem m s = readNum m flag s := by
  unfold readNumP readNum
  split
  · rfl
  · split
    · rw [block_mem]
      cases In.readBlock m 4 s <;> rfl
    · split
      · rw [block_mem]
        cases In.readBlock m 8 s <;> rfl
      · rw [bind_mem, Vlq.decodeP_mem hm]
        cases Vlq.decode m s with
        | ok y =>
          simp only [Res.ok_bind]
          split
          · split <;> rfl
          · rfl
        | _ => rfl

theorem readRestP_mem {m : Mem} (hm : m.Sane) (stack : List ScopeTy) (flag : UInt8) (name : Bytes)
    (names : List Bytes) (s : Bytes) :
    (readRestP stack flag name names).mem m s = rot (readRest m stack flag name names s) := by
  unfold readRestP readRest
  split
  · cases stack <;> rfl
  · split
    · rfl
    · split
      · rw [bind_mem, readNumP_mem hm]
        cases readNum m flag s <;> rfl
      · split
        · rw [bind_mem, Vlq.decodeP_mem hm]
          cases Vlq.decode m s with
          | ok y =>
            simp only [Res.ok_bind, block_mem]
            cases In.readBlock m y.1 y.2 <;> rfl
          | _ => rfl
        · split <;> rfl

theorem readP_mem {m : Mem} (hm : m.Sane) (st : St) (s : Bytes) :
    (readP st).mem m s = rot (read m (st, s)) := by
  unfold readP read
  rw [bind_mem, readHeadP_mem hm]
  cases readHead m st s with
  | ok x =>
    simp only [Res.ok_bind]
    rw [readRestP_mem hm]
  | _ => rfl

theorem readHeadP_fair {m : Mem} (hm : m.Sane) (hp : m.past ≠ none) (st : St) (s : Bytes) (h : NoRun s)
    (hn : ∀ f n ns t, readHead m st s = .ok (f, n, ns, t) → n.length < 1024) (a : Bool) :
    Fair (2 ^ 63) (fun _ t a => a = true ∧ NoRun t) (readHeadP st) s a := by
  have key := readHeadP_mem hm st s
  have : Fair (2 ^ 63) (fun x t a => (x.2.1.length < 1024 → a = true) ∧ NoRun t) (readHeadP st) s a := by
    refine ⟨by decide, fun _ => ?_⟩
    have h1 : NoRun (s.drop 1) := h.drop 1
    simp only
    split
    · intro y e
      exact ⟨fun _ => rfl, h1⟩
    · split
      · refine Fair.bind _ _ _ ((Vlq.decodeP_noRun hm hp _ h1).mono ?_)
        rintro y t a ⟨h2, h3, h4⟩
        split
        · exact fun y e => (nomatch e)
        · exact fun y e => ⟨fun _ => h2, h4⟩
      · refine Fair.bind _ _ _ ((Vlq.decodeP_noRun hm hp _ h1).mono ?_)
        rintro y t a ⟨h2, h3, h4⟩
        refine ⟨h3, fun hl z e => ?_⟩
        cases e
        refine ⟨fun hz => ?_, h4.drop y⟩
        simp only [List.length_take] at hz
        exact decide_eq_true (by omega)
  refine (this.with_mem hm (Nat.le_refl _)).mono ?_
  rintro x t a ⟨⟨h1, h2⟩, h3⟩
  refine ⟨h1 ?_, h2⟩
  rw [key] at h3
  cases hh : readHead m st s with
  | ok y =>
    rw [hh] at h3
    simp only [Res.ok_bind, Res.ok.injEq, Prod.mk.injEq] at h3
    have := hn _ _ _ _ hh
    rw [← h3.1]
    exact this
  | _ => rw [hh] at h3; cases h3

theorem readNumP_fair {m : Mem} (hm : m.Sane) (hp : m.past ≠ none) (flag : UInt8) (s : Bytes) (h : NoRun s) :
    Fair (2 ^ 63) (fun _ _ _ => True) (readNumP flag) s true := by
  unfold readNumP
  split
  · exact fun y e => trivial
  · split
    · exact ⟨by decide, fun _ y e => trivial⟩
    · split
      · exact ⟨by decide, fun _ y e => trivial⟩
      · refine Fair.bind _ _ _ ((Vlq.decodeP_noRun hm hp _ h).mono ?_)
        intro y t a _
        split
        · split
          · exact fun y e => trivial
          · exact fun y e => trivial
        · exact fun y e => trivial

theorem readRestP_fair {m : Mem} (hm : m.Sane) (hp : m.past ≠ none) (stack : List ScopeTy) (flag : UInt8)
    (name : Bytes) (names : List Bytes) (s : Bytes) (h : NoRun s) :
    Fair (2 ^ 63) (fun _ _ _ => True) (readRestP stack flag name names) s true := by
  unfold readRestP
  split
  · cases stack <;> exact fun y e => trivial
  · split
    · exact fun y e => trivial
    · split
      · refine Fair.bind _ _ _ ((readNumP_fair hm hp flag s h).mono ?_)
        exact fun _ _ _ _ y e => trivial
      · split
        · refine Fair.bind _ _ _ ((Vlq.decodeP_noRun hm hp _ h).mono ?_)
          rintro y t a ⟨h1, h2, h3⟩
          exact ⟨h2, fun _ y e => trivial⟩
        · split
          · exact fun y e => trivial
          · exact fun y e => trivial

theorem readP_fair {m : Mem} (hm : m.Sane) (hp : m.past ≠ none) (st : St) (s : Bytes) (h : NoRun s)
    (hn : ∀ f n ns t, readHead m st s = .ok (f, n, ns, t) → n.length < 1024) (a : Bool) :
    Fair (2 ^ 63) (fun _ _ _ => True) (readP st) s a := by
  unfold readP
  refine Fair.bind _ _ _ ((readHeadP_fair hm hp st s h hn a).mono ?_)
  rintro x t a ⟨rfl, h2⟩
  exact readRestP_fair hm hp _ _ _ _ _ h2

/-! Sources that are accepted -/

theorem readHeadP_fair_ok {m : Mem} (hm : m.Sane) (st : St) (s : Bytes) (hl : s.length < 2 ^ 63)
    {f : UInt8} {n : Bytes} {ns : List Bytes} {t : Bytes} (h : readHead m st s = .ok (f, n, ns, t))
    (hn : n.length < 1024) (a : Bool) :
    Fair (2 ^ 63) (fun x t' a => a = true ∧ x = (f, n, ns) ∧ t' = t) (readHeadP st) s a := by
  have key := readHeadP_mem hm st s
  rw [h] at key
  have : Fair (2 ^ 63) (fun x _ a => x.2.1.length < 1024 → a = true) (readHeadP st) s a := by
    refine ⟨by decide, fun h1 => ?_⟩
    unfold readHead at h
    rw [In.readBlock_ok hm (by omega)] at h
    simp only [Res.ok_bind] at h
    simp only
    split
    · exact fun y e _ => rfl
    · rename_i hc
      rw [if_neg hc] at h
      split
      · refine Fair.bind _ _ _ ((Vlq.decodeP_fair (by decide) _).mono ?_)
        rintro y t a ⟨h2, h3⟩
        split
        · exact fun y e => (nomatch e)
        · exact fun y e _ => h2
      · rename_i hi
        rw [if_neg hi] at h
        refine Fair.bind _ _ _ (((Vlq.decodeP_fair (by decide) _).with_mem hm (Nat.le_refl _)).mono ?_)
        rintro y t a ⟨⟨h2, k, h3⟩, h4⟩
        rw [Vlq.decodeP_mem hm] at h4
        rw [h4] at h
        simp only [Res.ok_bind, Res.bind_eq_ok] at h
        obtain ⟨z, hz, -⟩ := h
        have := (In.readBlock_eq_ok hz).1
        rw [h3, List.length_drop, List.length_drop] at this
        refine ⟨by omega, fun hl z e hz => ?_⟩
        cases e
        simp only [List.length_take] at hz
        exact decide_eq_true (by omega)
  refine (this.with_mem hm (Nat.le_refl _)).mono ?_
  rintro x t' a ⟨h1, h3⟩
  rw [key] at h3
  simp only [Res.ok_bind, Res.ok.injEq, Prod.mk.injEq] at h3
  obtain ⟨rfl, rfl⟩ := h3
  exact ⟨h1 hn, rfl, rfl⟩

theorem readNumP_fair_any (flag : UInt8) (s : Bytes) :
    Fair (2 ^ 63) (fun _ _ _ => True) (readNumP flag) s true := by
  unfold readNumP
  split
  · exact fun y e => trivial
  · split
    · exact ⟨by decide, fun _ y e => trivial⟩
    · split
      · exact ⟨by decide, fun _ y e => trivial⟩
      · refine Fair.bind _ _ _ ((Vlq.decodeP_fair (by decide) _).mono ?_)
        intro y t a _
        split
        · split
          · exact fun y e => trivial
          · exact fun y e => trivial
        · exact fun y e => trivial

theorem readRestP_fair_ok {m : Mem} (hm : m.Sane) (stack : List ScopeTy) (flag : UInt8)
    (name : Bytes) (names : List Bytes) (s : Bytes) (hl : s.length < 2 ^ 63) {x : Event × (St × Bytes)}
    (h : readRest m stack flag name names s = .ok x) :
    Fair (2 ^ 63) (fun _ _ _ => True) (readRestP stack flag name names) s true := by
  unfold readRest at h
  unfold readRestP
  split
  · cases stack <;> exact fun y e => trivial
  · rename_i h1
    rw [if_neg h1] at h
    split
    · exact fun y e => trivial
    · rename_i h2
      rw [if_neg h2] at h
      split
      · refine Fair.bind _ _ _ ((readNumP_fair_any flag s).mono ?_)
        exact fun _ _ _ _ y e => trivial
      · rename_i h3
        rw [if_neg h3] at h
        split
        · rename_i h4
          rw [if_pos h4] at h
          refine Fair.bind _ _ _ (((Vlq.decodeP_fair (by decide) _).with_mem hm (Nat.le_refl _)).mono ?_)
          rintro y t a ⟨⟨h2, k, h3⟩, h4⟩
          rw [Vlq.decodeP_mem hm] at h4
          rw [h4] at h
          simp only [Res.ok_bind, Res.bind_eq_ok] at h
          obtain ⟨z, hz, -⟩ := h
          have := (In.readBlock_eq_ok hz).1
          rw [h3, List.length_drop] at this
          exact ⟨by omega, fun _ y e => trivial⟩
        · split
          · exact fun y e => trivial
          · exact fun y e => trivial

/-- A token carries the name that was read, unless it ends a scope. -/
theorem readRest_name {m : Mem} {stack : List ScopeTy} {flag : UInt8} {name : Bytes} {names : List Bytes}
    {s : Bytes} {x : Event × (St × Bytes)} (h : readRest m stack flag name names s = .ok x) :
    x.1.name = name ∨ flag = 0 := by
  unfold readRest at h
  split at h
  · rename_i hf
    exact .inr hf
  · left
    split at h
    · cases h; rfl
    · split at h
      · rw [Res.bind_eq_ok] at h
        obtain ⟨_, -, h⟩ := h
        cases h; rfl
      · split at h
        · rw [Res.bind_eq_ok] at h
          obtain ⟨_, -, h⟩ := h
          rw [Res.bind_eq_ok] at h
          obtain ⟨_, -, h⟩ := h
          cases h; rfl
        · split at h
          · cases h; rfl
          · cases h

theorem readHead_zero {m : Mem} {st : St} {s n t : Bytes} {ns : List Bytes}
    (h : readHead m st s = .ok (0, n, ns, t)) : n = [] := by
  unfold readHead at h
  rw [Res.bind_eq_ok] at h
  obtain ⟨x, -, h⟩ := h
  simp only at h
  split at h
  · simp only [Res.ok.injEq, Prod.mk.injEq] at h
    exact h.2.1.symm
  · rename_i hc
    simp only [not_or] at hc
    split at h
    · rw [Res.bind_eq_ok] at h
      obtain ⟨y, -, h⟩ := h
      split at h
      · cases h
      · simp only [Res.ok.injEq, Prod.mk.injEq] at h
        rw [h.1] at hc
        exact absurd (by decide) hc.1
    · simp only [Res.bind_eq_ok] at h
      obtain ⟨y, -, z, -, h⟩ := h
      simp only [Res.ok.injEq, Prod.mk.injEq] at h
      rw [h.1] at hc
      exact absurd (by decide) hc.1

theorem readP_fair_ok {m : Mem} (hm : m.Sane) (st : St) (s : Bytes) (hl : s.length < 2 ^ 63)
    {x : Event × (St × Bytes)} (h : read m (st, s) = .ok x) (hn : x.1.name.length < 1024) (a : Bool) :
    Fair (2 ^ 63) (fun _ _ _ => True) (readP st) s a := by
  unfold read at h
  rw [Res.bind_eq_ok] at h
  obtain ⟨⟨f, n, ns, t⟩, h1, h2⟩ := h
  simp only at h1 h2
  have hn' : n.length < 1024 := by
    rcases readRest_name h2 with e | e
    · rw [← e]; exact hn
    · subst e
      rw [readHead_zero h1]
      decide
  have ht := readHead_progress h1
  unfold readP
  refine Fair.bind _ _ _ ((readHeadP_fair_ok hm st s hl h1 hn' a).mono ?_)
  rintro y t' a ⟨rfl, rfl, rfl⟩
  exact readRestP_fair_ok hm _ _ _ _ _ (by omega) h2

end PSrl

namespace PMsgPack

theorem readLeP_mem (m : Mem) (n : Nat) (s : Bytes) : (readLeP n).mem m s = readLe m n s := by
  unfold readLeP readLe
  rw [block_mem]
  cases In.readBlock m n s <;> rfl

theorem readBeP_mem (m : Mem) (n : Nat) (s : Bytes) : (readBeP n).mem m s = readBe m n s := by
  unfold readBeP readBe
  rw [block_mem]
  cases In.readBlock m n s <;> rfl

theorem readIntP_mem (m : Mem) (t : IntTy) (s : Bytes) : (readIntP t).mem m s = readInt m t s := by
  unfold readIntP readInt
  rw [bind_mem, readBeP_mem]
  rfl

theorem mem_ite {α : Type} {c : Prop} [Decidable c] (m : Mem) {p q : Prog α} {s : Bytes} {x y : Res (α × Bytes)}
    (h1 : p.mem m s = x) (h2 : q.mem m s = y) : (if c then p else q).mem m s = if c then x else y := by
  split
  · exact h1
  · exact h2

theorem readNumP_mem (m : Mem) (p : UInt8) (s : Bytes) : (readNumP p).mem m s = readNum m p s := by
  unfold readNumP readNum
  refine mem_ite m (by rw [bind_mem, readBeP_mem]; rfl) ?_
  refine mem_ite m (by rw [bind_mem, readBeP_mem]; rfl) ?_
  exact mem_ite m (readIntP_mem _ _ _) (mem_ite m (readIntP_mem _ _ _) (mem_ite m (readIntP_mem _ _ _)
    (mem_ite m (readIntP_mem _ _ _) (mem_ite m (readIntP_mem _ _ _) (mem_ite m (readIntP_mem _ _ _)
    (mem_ite m (readIntP_mem _ _ _) (mem_ite m (readIntP_mem _ _ _) rfl)))))))

theorem readScalarP_mem (m : Mem) (p : UInt8) (s : Bytes) : (readScalarP p).mem m s = readScalar m p s :=
  mem_ite m rfl (mem_ite m (readNumP_mem m p s) (mem_ite m rfl rfl))

theorem block_id_mem (m : Mem) (n : Nat) (s : Bytes) :
    (Prog.block n fun b => .done (.ok b)).mem m s = In.readBlock m n s := by
  rw [block_mem]
  cases In.readBlock m n s <;> rfl

theorem readStrP_mem (m : Mem) (p : UInt8) (s : Bytes) : (readStrP p).mem m s = readStr m p s := by
  unfold readStrP readStr
  rw [bind_mem]
  simp only [block_id_mem]
  congr 1
  exact mem_ite m rfl (mem_ite m (readLeP_mem ..) (mem_ite m (readLeP_mem ..) (readLeP_mem ..)))

theorem readBinP_mem (m : Mem) (p : UInt8) (s : Bytes) : (readBinP p).mem m s = readBin m p s := by
  unfold readBinP readBin
  rw [bind_mem]
  simp only [block_id_mem]
  congr 1
  exact mem_ite m (readLeP_mem ..) (mem_ite m (readLeP_mem ..) (readLeP_mem ..))

theorem readScopeInfoP_mem (m : Mem) (p : UInt8) (s : Bytes) :
    (readScopeInfoP p).mem m s = readScopeInfo m p s :=
  mem_ite m (by rw [bind_mem, readBeP_mem]; rfl) rfl

theorem readPrefixedP_mem (m : Mem) (stack : List RScope) (name : Bytes) (p : UInt8) (s : Bytes) :
    (readPrefixedP stack name p).mem m s = rot (readPrefixed m stack name p s) := by
  unfold readPrefixedP readPrefixed
  split
  · rw [bind_mem, readScopeInfoP_mem]
    cases readScopeInfo m p s <;> rfl
  · split
    · rw [bind_mem, readStrP_mem]
      cases readStr m p s <;> rfl
    · split
      · rw [bind_mem, readScalarP_mem]
        cases readScalar m p s <;> rfl
      · split
        · rw [bind_mem, readBinP_mem]
          cases readBin m p s <;> rfl
        · rfl

theorem readItemP_mem (m : Mem) (stack : List RScope) (name s : Bytes) :
    (readItemP stack name).mem m s = rot (readItem m stack name s) := by
  unfold readItemP readItem
  rw [block_mem]
  cases In.readBlock m 1 s with
  | ok x => exact readPrefixedP_mem _ _ _ _ _
  | _ => rfl

theorem readP_mem (m : Mem) (st : List RScope) (s : Bytes) : (readP st).mem m s = rot (read m (st, s)) := by
  cases st with
  | nil => exact readItemP_mem _ _ _ _
  | cons sc st =>
    unfold readP read
    simp only
    split
    · rfl
    · obtain ⟨ty, el⟩ := sc
      cases ty
      case array => exact readItemP_mem _ _ _ _
      case object =>
        simp only
        rw [block_mem]
        cases In.readBlock m 1 s with
        | ok x =>
          simp only [Res.ok_bind]
          rw [bind_mem]
          have : (if isStr (x.1.headD 0) = true then readStrP (x.1.headD 0) else Prog.done (.ok [])).mem m x.2 =
              if isStr (x.1.headD 0) = true then readStr m (x.1.headD 0) x.2 else .ok ([], x.2) :=
            mem_ite m (readStrP_mem ..) rfl
          rw [this]
          generalize (if isStr (x.1.headD 0) = true then readStr m (x.1.headD 0) x.2 else .ok ([], x.2)) = y
          cases y with
          | ok y => exact readItemP_mem _ _ _ _
          | _ => rfl
        | _ => rfl

/-- Programs that only ask for less than 4 GiB. -/
def Small {α : Type} (p : Prog α) (Q : α → Prop := fun _ => True) : Prop :=
  ∀ r a, Fair (2 ^ 32) (fun y _ _ => Q y) p r a

theorem Small.done {α : Type} {x : Res α} {Q : α → Prop} (h : ∀ y, x = .ok y → Q y) : Small (.done x) Q :=
  fun _ _ => h

theorem Small.bind {α β : Type} {p : Prog α} {f : α → Prog β} {Q : α → Prop} {R : β → Prop} (h : Small p Q)
    (hf : ∀ y, Q y → Small (f y) R) : Small (p.bind f) R :=
  fun r a => Fair.bind _ _ _ ((h r a).mono fun y r a hq => hf y hq r a)

theorem Small.ite {α : Type} {c : Prop} [Decidable c] {p q : Prog α} {Q : α → Prop} (h1 : Small p Q)
    (h2 : Small q Q) : Small (if c then p else q) Q := by
  split
  · exact h1
  · exact h2

theorem small_block {α : Type} {n : Nat} {k : Bytes → Prog α} {Q : α → Prop} (hn : n < 2 ^ 32)
    (hk : ∀ b, b.length = n → Small (k b) Q) : Small (.block n k) Q :=
  fun r _ => ⟨hn, fun h => hk _ (by rw [List.length_take]; omega) _ _⟩

theorem small_le {n : Nat} (hn : n ≤ 4) : Small (readLeP n) (· < 2 ^ 32) := by
  refine small_block (by omega) fun b hb => .done fun y e => ?_
  cases e
  have := leNat_lt b
  rw [hb] at this
  exact Nat.lt_of_lt_of_le this (by
    rw [show 2 ^ 32 = 256 ^ 4 from rfl]
    exact Nat.pow_le_pow_right (by decide) hn)

theorem small_be {n : Nat} (hn : n < 2 ^ 32) : Small (readBeP n) :=
  small_block hn fun _ _ => .done fun _ _ => trivial

theorem small_int (t : IntTy) : Small (readIntP t) :=
  (small_be (by cases t <;> decide)).bind fun _ _ => .done fun _ _ => trivial

theorem small_num (p : UInt8) : Small (readNumP p) :=
  .ite ((small_be (by decide)).bind fun _ _ => .done fun _ _ => trivial) <|
  .ite ((small_be (by decide)).bind fun _ _ => .done fun _ _ => trivial) <|
  .ite (small_int _) <| .ite (small_int _) <| .ite (small_int _) <| .ite (small_int _) <|
  .ite (small_int _) <| .ite (small_int _) <| .ite (small_int _) <| .ite (small_int _) <|
  .done fun _ e => (nomatch e)

theorem small_scalar (p : UInt8) : Small (readScalarP p) :=
  .ite (.done fun _ _ => trivial) <| .ite (small_num p) <|
  .ite (.done fun _ _ => trivial) <| .done fun _ _ => trivial

theorem small_str (p : UInt8) : Small (readStrP p) := by
  refine Small.bind (Q := (· < 2 ^ 32)) ?_ fun n hn => small_block hn fun _ _ => .done fun _ _ => trivial
  refine .ite (.done fun y e => ?_) (.ite (small_le (by decide)) (.ite (small_le (by decide)) (small_le (by decide))))
  cases e
  exact Nat.lt_trans (UInt8.toNat_lt _) (by decide)

theorem small_bin (p : UInt8) : Small (readBinP p) := by
  refine Small.bind (Q := (· < 2 ^ 32)) ?_ fun n hn => small_block hn fun _ _ => .done fun _ _ => trivial
  exact .ite (small_le (by decide)) (.ite (small_le (by decide)) (small_le (by decide)))

theorem small_scopeInfo (p : UInt8) : Small (readScopeInfoP p) := by
  refine .ite (Small.bind (small_be ?_) fun _ _ => .done fun _ _ => trivial) (.done fun _ _ => trivial)
  split <;> decide

theorem small_prefixed (stack : List RScope) (name : Bytes) (p : UInt8) : Small (readPrefixedP stack name p) :=
  .ite ((small_scopeInfo p).bind fun _ _ => .done fun _ _ => trivial) <|
  .ite ((small_str p).bind fun _ _ => .done fun _ _ => trivial) <|
  .ite ((small_scalar p).bind fun _ _ => .done fun _ _ => trivial) <|
  .ite ((small_bin p).bind fun _ _ => .done fun _ _ => trivial) <|
  .done fun _ e => (nomatch e)

theorem small_item (stack : List RScope) (name : Bytes) : Small (readItemP stack name) :=
  small_block (by decide) fun _ _ => small_prefixed _ _ _

theorem small_read (st : List RScope) : Small (readP st) := by
  cases st with
  | nil => exact small_item _ _
  | cons sc st =>
    unfold readP
    refine .ite (.done fun _ _ => trivial) ?_
    simp only
    split
    · exact small_item _ _
    · refine small_block (by decide) fun b _ => Small.bind (Q := fun _ => True) ?_ fun _ _ => small_item _ _
      exact .ite (small_str _) (.done fun _ _ => trivial)

end PMsgPack
end Srl
