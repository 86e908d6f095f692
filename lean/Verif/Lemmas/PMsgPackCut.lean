import Verif.Lemmas.PMsgPack
import Verif.Lemmas.PSrlCut

/-! Reading prefixes and extensions of a source; progress; freedom from undefined behaviour. -/

namespace Srl

open Doc

/-- What `f` reads `f'` reads as well, unless it fails; for arbitrary resulting states. -/
def SimG {α τ : Type} (a b : Prop) (R : Bytes → Bytes → Prop) (S : τ → τ → Prop)
    (f f' : Bytes → Res (α × τ)) : Prop :=
  ∀ s s' x t, R s s' → f s = .ok (x, t) →
    (∃ t', S t t' ∧ f' s' = .ok (x, t')) ∨ Fails a b (f' s')

theorem SimG.bind {α β τ : Type} {a b : Prop} {R : Bytes → Bytes → Prop} {S : τ → τ → Prop}
    {f f' : Bytes → Res (α × Bytes)} {g g' : α → Bytes → Res (β × τ)}
    (h1 : Sim a b R f f') (h2 : ∀ x, SimG a b R S (g x) (g' x)) :
    SimG a b R S (fun s => (do let (x, s) ← f s; g x s)) (fun s => (do let (x, s) ← f' s; g' x s)) := by
  intro s s' y t hR h
  simp only [Res.bind_eq_ok] at h
  obtain ⟨⟨x, s1⟩, hf, hg⟩ := h
  rcases h1 s s' x s1 hR hf with ⟨t', hR', hf'⟩ | hf'
  · rcases h2 x s1 t' y t hR' hg with ⟨t2, hS, hg'⟩ | hg'
    · left; exact ⟨t2, hS, by simp [hf', hg']⟩
    · right; simpa [hf'] using hg'
  · right; exact hf'.bind _

theorem SimG.pure {α τ : Type} {a b : Prop} {R : Bytes → Bytes → Prop} {S : τ → τ → Prop} (x : α)
    (k : Bytes → τ) (hk : ∀ s s', R s s' → S (k s) (k s')) :
    SimG a b R S (fun s => .ok (x, k s)) (fun s => .ok (x, k s)) := by
  intro s s' y t hR h
  simp only [Res.ok.injEq, Prod.mk.injEq] at h
  left; exact ⟨k s', by rw [← h.2]; exact hk _ _ hR, by rw [h.1]⟩

theorem SimG.err {α τ : Type} {a b : Prop} {R : Bytes → Bytes → Prop} {S : τ → τ → Prop} :
    SimG (α := α) a b R S (fun _ => .err) (fun _ => .err) := by
  intro s s' y t hR h; cases h

theorem Sim.bind {α β : Type} {a b : Prop} {R : Bytes → Bytes → Prop}
    {f f' : Bytes → Res (α × Bytes)} {g g' : α → Bytes → Res (β × Bytes)}
    (h1 : Sim a b R f f') (h2 : ∀ x, Sim a b R (g x) (g' x)) :
    Sim a b R (fun s => (do let (x, s) ← f s; g x s)) (fun s => (do let (x, s) ← f' s; g' x s)) :=
  SimG.bind (S := R) h1 h2

theorem Sim.pure {α : Type} {a b : Prop} {R : Bytes → Bytes → Prop} (x : α) :
    Sim a b R (fun s => .ok (x, s)) (fun s => .ok (x, s)) :=
  SimG.pure (S := R) x (fun s => s) (fun _ _ h => h)

/-- `f` neither runs out of steps nor, under the condition `a`, has undefined behaviour; its result
satisfies `Q` and it takes at least `k` bytes. -/
def Safe {α : Type} (a : Prop) (f : Bytes → Res (α × Bytes)) (Q : α → Prop) (k : Nat) : Prop :=
  ∀ s, f s ≠ .fuel ∧ (a → f s ≠ .ub) ∧ ∀ x t, f s = .ok (x, t) → Q x ∧ t.length + k ≤ s.length

theorem Safe.bind {α β : Type} {a : Prop} {f : Bytes → Res (α × Bytes)} {Q : α → Prop} {k l : Nat}
    {g : α → Bytes → Res (β × Bytes)} {Q' : β → Prop} (h1 : Safe a f Q k)
    (h2 : ∀ x, Q x → Safe a (g x) Q' l) :
    Safe a (fun s => (do let (x, s) ← f s; g x s)) Q' (k + l) := by
  intro s
  obtain ⟨f1, f2, f3⟩ := h1 s
  cases hf : f s with
  | ok y =>
    obtain ⟨x, t⟩ := y
    obtain ⟨q, hl⟩ := f3 x t hf
    obtain ⟨g1, g2, g3⟩ := h2 x q t
    simp only [hf, Res.ok_bind]
    refine ⟨g1, g2, fun y u h => ?_⟩
    obtain ⟨q', hl'⟩ := g3 y u h
    exact ⟨q', by omega⟩
  | err => simp [hf]
  | fuel => exact absurd hf f1
  | ub => simp only [hf, Res.ub_bind]; exact ⟨by simp, fun ha => absurd hf (f2 ha), by simp⟩

theorem Safe.pure {α : Type} {a : Prop} {Q : α → Prop} (x : α) (h : Q x) :
    Safe a (fun s => .ok (x, s)) Q 0 := by
  intro s
  refine ⟨by simp, by simp, fun y t hh => ?_⟩
  simp only [Res.ok.injEq, Prod.mk.injEq] at hh
  exact ⟨hh.1 ▸ h, by rw [hh.2]; simp⟩

theorem Safe.mono {α : Type} {a : Prop} {f : Bytes → Res (α × Bytes)} {Q Q' : α → Prop} {k l : Nat}
    (h : Safe a f Q k) (hk : l ≤ k) (hQ : ∀ x, Q x → Q' x) : Safe a f Q' l := by
  intro s
  obtain ⟨h1, h2, h3⟩ := h s
  refine ⟨h1, h2, fun x t hh => ?_⟩
  obtain ⟨q, hl⟩ := h3 x t hh
  exact ⟨hQ x q, by omega⟩

theorem Safe.err {α : Type} {a : Prop} {Q : α → Prop} {k : Nat} :
    Safe (α := α) a (fun _ => .err) Q k := by
  intro s; simp

theorem readBlock_safe (m : Mem) (n : Nat) (hn : n ≤ 2 ^ 63) :
    Safe m.Sane (In.readBlock m n) (fun b => b.length = n) n := by
  intro s
  refine ⟨In.readBlock_ne_fuel m n s, fun hm => In.readBlock_ne_ub hm hn s, fun x t h => ?_⟩
  obtain ⟨h1, h2, h3⟩ := In.readBlock_eq_ok h
  subst h2 h3
  simp only [List.length_take, List.length_drop]
  omega

namespace PMsgPack

theorem readLe_safe (m : Mem) (n : Nat) (hn : n ≤ 2 ^ 63) :
    Safe m.Sane (readLe m n) (fun v => v < 256 ^ n) n := by
  have := Safe.bind (readBlock_safe m n hn) (g := fun b s => .ok (leNat b, s))
    (Q' := fun v => v < 256 ^ n) (l := 0) (fun x hx => Safe.pure _ (hx ▸ leNat_lt x))
  exact this

theorem readBe_safe (m : Mem) (n : Nat) (hn : n ≤ 2 ^ 63) :
    Safe m.Sane (readBe m n) (fun v => v < 256 ^ n) n := by
  have := Safe.bind (readBlock_safe m n hn) (g := fun b s => .ok (beNat b, s))
    (Q' := fun v => v < 256 ^ n) (l := 0) (fun x hx => Safe.pure _ (hx ▸ beNat_lt x))
  exact this

theorem safe_ite {α : Type} {a : Prop} {f g : Bytes → Res (α × Bytes)} {Q : α → Prop} {k : Nat}
    (c : Prop) [Decidable c] (h1 : Safe a f Q k) (h2 : Safe a g Q k) :
    Safe a (fun s => if c then f s else g s) Q k := by
  by_cases h : c <;> simp [h, h1, h2]

theorem sim_ite {α : Type} {a b : Prop} {R : Bytes → Bytes → Prop} {f g f' g' : Bytes → Res (α × Bytes)}
    (c : Prop) [Decidable c] (h1 : Sim a b R f f') (h2 : Sim a b R g g') :
    Sim a b R (fun s => if c then f s else g s) (fun s => if c then f' s else g' s) := by
  by_cases h : c <;> simp [h, h1, h2]

theorem simG_ite {α τ : Type} {a b : Prop} {R : Bytes → Bytes → Prop} {S : τ → τ → Prop}
    {f g f' g' : Bytes → Res (α × τ)}
    (c : Prop) [Decidable c] (h1 : SimG a b R S f f') (h2 : SimG a b R S g g') :
    SimG a b R S (fun s => if c then f s else g s) (fun s => if c then f' s else g' s) := by
  by_cases h : c <;> simp [h, h1, h2]

theorem readInt_safe (m : Mem) (t : IntTy) : Safe m.Sane (readInt m t) (fun _ => True) 0 := by
  have hb : t.bits / 8 ≤ 2 ^ 63 := by cases t <;> simp [IntTy.bits]
  have := Safe.bind (readBe_safe m (t.bits / 8) hb) (g := fun n s => .ok (Val.int t (ofTwos t n), s))
    (Q' := fun _ => True) (l := 0) (fun x _ => Safe.pure (Val.int t (ofTwos t x)) trivial)
  exact this.mono (Nat.zero_le _) (fun _ h => h)

theorem readNum_safe (m : Mem) (p : UInt8) : Safe m.Sane (readNum m p) (fun _ => True) 0 := by
  have h32 : Safe m.Sane (fun s => (do let (n, s) ← readBe m 4 s; .ok (Val.fp32 (UInt32.ofNat n), s)))
      (fun _ => True) 0 :=
    (Safe.bind (readBe_safe m 4 (by decide)) (l := 0) (Q' := fun _ => True)
      (fun x _ => Safe.pure (Val.fp32 (UInt32.ofNat x)) trivial)).mono
      (Nat.zero_le _) (fun _ h => h)
  have h64 : Safe m.Sane (fun s => (do let (n, s) ← readBe m 8 s; .ok (Fp.ofDouble (UInt64.ofNat n), s)))
      (fun _ => True) 0 :=
    (Safe.bind (readBe_safe m 8 (by decide)) (l := 0) (Q' := fun _ => True)
      (fun x _ => Safe.pure (Fp.ofDouble (UInt64.ofNat x)) trivial)).mono
      (Nat.zero_le _) (fun _ h => h)
  exact safe_ite _ h32 (safe_ite _ h64 (safe_ite _ (readInt_safe m _) (safe_ite _ (readInt_safe m _)
    (safe_ite _ (readInt_safe m _) (safe_ite _ (readInt_safe m _) (safe_ite _ (readInt_safe m _)
      (safe_ite _ (readInt_safe m _) (safe_ite _ (readInt_safe m _) (safe_ite _ (readInt_safe m _)
        Safe.err)))))))))

theorem readScalar_safe (m : Mem) (p : UInt8) : Safe m.Sane (readScalar m p) (fun _ => True) 0 :=
  safe_ite _ (Safe.pure _ trivial) (safe_ite _ (readNum_safe m p) (safe_ite _ (Safe.pure _ trivial)
    (Safe.pure _ trivial)))

theorem readStr_safe (m : Mem) (p : UInt8) : Safe m.Sane (readStr m p) (fun _ => True) 0 := by
  have hsz : Safe m.Sane (fun s => if 0xA0 ≤ p ∧ p ≤ 0xBF then .ok ((p &&& 0x1F).toNat, s)
      else if p = 0xD9 then readLe m 1 s else if p = 0xDA then readLe m 2 s else readLe m 4 s)
      (fun n => n ≤ 2 ^ 63) 0 := by
    refine safe_ite _ (Safe.pure _ ?_) (safe_ite _ ?_ (safe_ite _ ?_ ?_))
    · have := (p &&& 0x1F).toNat_lt; omega
    · exact (readLe_safe m 1 (by decide)).mono (Nat.zero_le _) (fun x h => by omega)
    · exact (readLe_safe m 2 (by decide)).mono (Nat.zero_le _) (fun x h => by omega)
    · exact (readLe_safe m 4 (by decide)).mono (Nat.zero_le _) (fun x h => by omega)
  have := Safe.bind hsz (g := fun n s => In.readBlock m n s) (Q' := fun _ => True) (l := 0)
    (fun n hn => (readBlock_safe m n hn).mono (Nat.zero_le _) (fun _ _ => trivial))
  exact this

theorem readBin_safe (m : Mem) (p : UInt8) : Safe m.Sane (readBin m p) (fun _ => True) 0 := by
  have hsz : Safe m.Sane (fun s => if p = 0xC4 then readLe m 1 s else if p = 0xC5 then readLe m 2 s
      else readLe m 4 s) (fun n => n ≤ 2 ^ 63) 0 := by
    refine safe_ite _ ?_ (safe_ite _ ?_ ?_)
    · exact (readLe_safe m 1 (by decide)).mono (Nat.zero_le _) (fun x h => by omega)
    · exact (readLe_safe m 2 (by decide)).mono (Nat.zero_le _) (fun x h => by omega)
    · exact (readLe_safe m 4 (by decide)).mono (Nat.zero_le _) (fun x h => by omega)
  have := Safe.bind hsz (g := fun n s => In.readBlock m n s) (Q' := fun _ => True) (l := 0)
    (fun n hn => (readBlock_safe m n hn).mono (Nat.zero_le _) (fun _ _ => trivial))
  exact this

theorem readScopeInfo_safe (m : Mem) (p : UInt8) :
    Safe m.Sane (readScopeInfo m p) (fun _ => True) 0 := by
  refine safe_ite _ ?_ (Safe.pure _ trivial)
  exact (Safe.bind (readBe_safe m _ (by split <;> decide)) (l := 0)
    (fun x _ => Safe.pure _ trivial)).mono (Nat.zero_le _) (fun _ h => h)

/-- Outcome of reading one token. -/
def Fine (a : Prop) (n l : Nat) (r : Res (Event × (List RScope × Bytes))) : Prop :=
  r ≠ .fuel ∧ (a → r ≠ .ub) ∧
    ∀ e stack t, r = .ok (e, (stack, t)) → stack.length ≤ n + 1 ∧ t.length ≤ l

theorem fine_bind {α : Type} {a : Prop} {n : Nat} {f : Bytes → Res (α × Bytes)} {Q : α → Prop}
    (h : Safe a f Q 0) (e : α → Event) (st : α → List RScope) (hst : ∀ x, (st x).length ≤ n + 1)
    (s : Bytes) :
    Fine a n s.length (do let (x, s) ← f s; .ok (e x, (st x, s))) := by
  obtain ⟨h1, h2, h3⟩ := h s
  cases hf : f s with
  | ok y =>
    obtain ⟨x, t⟩ := y
    refine ⟨by simp, by simp, fun e' stack t' hh => ?_⟩
    simp only [Res.ok_bind, Res.ok.injEq, Prod.mk.injEq] at hh
    have := (h3 x t hf).2
    rw [← hh.2.1, ← hh.2.2]
    exact ⟨hst x, by omega⟩
  | err => exact ⟨by simp, by simp, by simp⟩
  | fuel => exact absurd hf h1
  | ub => exact ⟨by simp, fun ha => absurd hf (h2 ha), by simp⟩

theorem readPrefixed_fine (m : Mem) (stack : List RScope) (name : Bytes) (p : UInt8) (s : Bytes) :
    Fine m.Sane stack.length s.length (readPrefixed m stack name p s) := by
  unfold readPrefixed
  split
  · exact fine_bind (readScopeInfo_safe m p) (fun x => ⟨name, .scope x.1⟩)
      (fun x => ⟨x.1, x.2⟩ :: stack) (fun x => by simp) s
  · split
    · exact fine_bind (readStr_safe m p) (fun x => ⟨name, .val (.str x)⟩)
        (fun x => stack) (fun x => by simp) s
    · split
      · exact fine_bind (readScalar_safe m p) (fun x => ⟨name, .val x⟩)
          (fun x => stack) (fun x => by simp) s
      · split
        · exact fine_bind (readBin_safe m p) (fun x => ⟨name, .val (.bin x)⟩)
            (fun x => stack) (fun x => by simp) s
        · exact ⟨by simp, by simp, by simp⟩

theorem Fine.mono {a : Prop} {n l l' : Nat} {r : Res (Event × (List RScope × Bytes))}
    (h : Fine a n l r) (hl : l ≤ l') : Fine a n l' r :=
  ⟨h.1, h.2.1, fun e st t hh => ⟨(h.2.2 e st t hh).1, Nat.le_trans (h.2.2 e st t hh).2 hl⟩⟩

theorem Fine.after {α : Type} {a : Prop} {n k : Nat} {f : Bytes → Res (α × Bytes)} {Q : α → Prop}
    (hf : Safe a f Q k) {g : α → Bytes → Res (Event × (List RScope × Bytes))} {j : Nat}
    (hg : ∀ x s, Fine a n (s.length - j) (g x s)) (s : Bytes) :
    Fine a n (s.length - k - j) (do let (x, s) ← f s; g x s) := by
  obtain ⟨h1, h2, h3⟩ := hf s
  cases h : f s with
  | ok y =>
    obtain ⟨x, t⟩ := y
    have := (h3 x t h).2
    simp only [Res.ok_bind]
    exact (hg x t).mono (by omega)
  | err => exact ⟨by simp, by simp, by simp⟩
  | fuel => exact absurd h h1
  | ub => exact ⟨by simp, fun ha => absurd h (h2 ha), by simp⟩

theorem readItem_fine (m : Mem) (stack : List RScope) (name : Bytes) (s : Bytes) :
    Fine m.Sane stack.length (s.length - 1) (readItem m stack name s) :=
  Fine.after (j := 0) (readBlock_safe m 1 (by decide))
    (fun b s => (readPrefixed_fine m stack name (b.headD 0) s).mono (by omega)) s

/-- Every token takes a byte, or ends a scope. -/
theorem readItem_pos {m : Mem} {stack : List RScope} {name s : Bytes} {x}
    (h : readItem m stack name s = .ok x) : 1 ≤ s.length := by
  unfold readItem at h
  rw [Res.bind_eq_ok] at h
  obtain ⟨⟨b, t⟩, hb, _⟩ := h
  exact (In.readBlock_eq_ok hb).1

def measure (x : List RScope × Bytes) : Nat := 2 * x.2.length + x.1.length

theorem read_fine (m : Mem) (x : List RScope × Bytes) :
    read m x ≠ .fuel ∧ (m.Sane → read m x ≠ .ub) ∧
      ∀ e y, read m x = .ok (e, y) → measure y < measure x := by
  obtain ⟨stack, s⟩ := x
  cases stack with
  | nil =>
    obtain ⟨h1, h2, h3⟩ := readItem_fine m [] [] s
    refine ⟨h1, h2, fun e y h => ?_⟩
    obtain ⟨st, t⟩ := y
    have hp := readItem_pos (h : readItem m [] [] s = _)
    have := h3 e st t h
    simp only [measure, List.length_nil] at this ⊢
    omega
  | cons sc stack =>
    simp only [read]
    split
    · refine ⟨by simp, by simp, fun e y h => ?_⟩
      simp only [Res.ok.injEq, Prod.mk.injEq] at h
      rw [← h.2]
      simp [measure]
    · cases hty : sc.type with
      | array =>
        obtain ⟨h1, h2, h3⟩ := readItem_fine m ({ sc with elements := sc.elements - 1 } :: stack) [] s
        rw [hty] at h1 h2 h3
        refine ⟨h1, h2, fun e y h => ?_⟩
        obtain ⟨st, t⟩ := y
        have hp := readItem_pos h
        have := h3 e st t h
        simp only [measure, List.length_cons] at this ⊢
        omega
      | object =>
        have hn : ∀ (p : UInt8), Safe m.Sane
            (fun s => if isStr p = true then readStr m p s else .ok ([], s)) (fun _ => True) 0 :=
          fun p => safe_ite _ (readStr_safe m p) (Safe.pure _ trivial)
        have hg : ∀ (b : Bytes) (s : Bytes), Fine m.Sane (stack.length + 1) (s.length - 1)
            (do
              let (name, s) ← (if isStr (b.headD 0) = true then readStr m (b.headD 0) s else .ok ([], s))
              readItem m (⟨.object, sc.elements - 1⟩ :: stack) name s) := by
          intro b s
          exact Fine.after (n := stack.length + 1) (k := 0) (hn (b.headD 0))
            (fun name s => readItem_fine m (⟨.object, sc.elements - 1⟩ :: stack) name s) s
        have hall := Fine.after (readBlock_safe m 1 (by decide)) hg s
        obtain ⟨h1, h2, h3⟩ := hall
        refine ⟨h1, h2, fun e y h => ?_⟩
        obtain ⟨st, t⟩ := y
        have hp : 1 ≤ s.length := by
          rw [Res.bind_eq_ok] at h
          obtain ⟨⟨b, t⟩, hb, _⟩ := h
          exact (In.readBlock_eq_ok hb).1
        have := h3 e st t h
        simp only [measure, List.length_cons] at this ⊢
        omega

/-! ## Cutting and extending -/

/-- States with the same stack and related unread bytes. -/
def Lift (R : Bytes → Bytes → Prop) (x y : List RScope × Bytes) : Prop := x.1 = y.1 ∧ R x.2 y.2

section
variable {m m' : Mem} {a b : Prop} {R : Bytes → Bytes → Prop}
  (hB : ∀ n, Sim a b R (In.readBlock m n) (In.readBlock m' n))
include hB

theorem readLe_sim (n : Nat) : Sim a b R (readLe m n) (readLe m' n) :=
  Sim.bind (hB n) (fun x => Sim.pure (leNat x))

theorem readBe_sim (n : Nat) : Sim a b R (readBe m n) (readBe m' n) :=
  Sim.bind (hB n) (fun x => Sim.pure (beNat x))

theorem readInt_sim (t : IntTy) : Sim a b R (readInt m t) (readInt m' t) :=
  Sim.bind (readBe_sim hB (t.bits / 8)) (fun x => Sim.pure (Val.int t (ofTwos t x)))

theorem readNum_sim (p : UInt8) : Sim a b R (readNum m p) (readNum m' p) := by
  have h32 := Sim.bind (readBe_sim hB 4) (fun x => Sim.pure (Val.fp32 (UInt32.ofNat x)))
  have h64 := Sim.bind (readBe_sim hB 8) (fun x => Sim.pure (Fp.ofDouble (UInt64.ofNat x)))
  exact sim_ite _ h32 (sim_ite _ h64 (sim_ite _ (readInt_sim hB _) (sim_ite _ (readInt_sim hB _)
    (sim_ite _ (readInt_sim hB _) (sim_ite _ (readInt_sim hB _) (sim_ite _ (readInt_sim hB _)
      (sim_ite _ (readInt_sim hB _) (sim_ite _ (readInt_sim hB _) (sim_ite _ (readInt_sim hB _)
        (SimG.err (S := R)))))))))))

theorem readScalar_sim (p : UInt8) : Sim a b R (readScalar m p) (readScalar m' p) :=
  sim_ite _ (Sim.pure _) (sim_ite _ (readNum_sim hB p) (sim_ite _ (Sim.pure _) (Sim.pure _)))

theorem readStr_sim (p : UInt8) : Sim a b R (readStr m p) (readStr m' p) :=
  Sim.bind (sim_ite _ (Sim.pure _) (sim_ite _ (readLe_sim hB 1) (sim_ite _ (readLe_sim hB 2)
    (readLe_sim hB 4)))) (fun n => hB n)

theorem readBin_sim (p : UInt8) : Sim a b R (readBin m p) (readBin m' p) :=
  Sim.bind (sim_ite _ (readLe_sim hB 1) (sim_ite _ (readLe_sim hB 2) (readLe_sim hB 4)))
    (fun n => hB n)

theorem readScopeInfo_sim (p : UInt8) : Sim a b R (readScopeInfo m p) (readScopeInfo m' p) :=
  sim_ite _ (Sim.bind (readBe_sim hB _) (fun x => Sim.pure (_, x))) (Sim.pure _)

theorem readPrefixed_sim (stack : List RScope) (name : Bytes) (p : UInt8) :
    SimG a b R (Lift R) (readPrefixed m stack name p) (readPrefixed m' stack name p) := by
  have fin : ∀ (e : Event) (st : List RScope), SimG a b R (Lift R)
      (fun s => .ok (e, (st, s))) (fun s => .ok (e, (st, s))) :=
    fun e st => SimG.pure (S := Lift R) e (fun s => (st, s)) (fun _ _ h => ⟨rfl, h⟩)
  exact simG_ite _ (SimG.bind (readScopeInfo_sim hB p) (fun x => fin ⟨name, .scope x.1⟩ (⟨x.1, x.2⟩ :: stack)))
    (simG_ite _ (SimG.bind (readStr_sim hB p) (fun x => fin ⟨name, .val (.str x)⟩ stack))
    (simG_ite _ (SimG.bind (readScalar_sim hB p) (fun x => fin ⟨name, .val x⟩ stack))
    (simG_ite _ (SimG.bind (readBin_sim hB p) (fun x => fin ⟨name, .val (.bin x)⟩ stack)) SimG.err)))

theorem readItem_sim (stack : List RScope) (name : Bytes) :
    SimG a b R (Lift R) (readItem m stack name) (readItem m' stack name) :=
  SimG.bind (hB 1) (fun x => readPrefixed_sim hB stack name (x.headD 0))

theorem read_sim : CutRel a b (Lift R) (read m) (read m') := by
  rintro ⟨stack, s⟩ ⟨stack', s'⟩ e t ⟨hst, hR⟩ h
  simp only at hst hR
  subst hst
  cases stack with
  | nil => exact readItem_sim hB [] [] s s' e t hR h
  | cons sc stack =>
    simp only [read] at h ⊢
    split at h
    · rename_i hlt
      rw [if_pos hlt]
      simp only [Res.ok.injEq, Prod.mk.injEq] at h
      left; exact ⟨(stack, s'), ⟨by rw [← h.2], by rw [← h.2]; exact hR⟩, by rw [h.1]⟩
    · rename_i hlt
      rw [if_neg hlt]
      cases hty : sc.type with
      | array =>
        rw [hty] at h
        exact readItem_sim hB _ [] s s' e t hR h
      | object =>
        rw [hty] at h
        exact SimG.bind (S := Lift R) (hB 1) (fun x => SimG.bind
          (sim_ite (isStr (x.headD 0) = true) (readStr_sim hB (x.headD 0)) (Sim.pure []))
          (fun name => readItem_sim hB (⟨.object, sc.elements - 1⟩ :: stack) name)) s s' e t hR h

end

/-! ## Documents -/

theorem load_ne_fuel (m : Mem) (s : Bytes) : load m s ≠ .fuel :=
  load_fuel (read m) measure (fun x e y h => (read_fine m x).2.2 e y h)
    (fun x => (read_fine m x).1) _ _ (by simp [measure])

theorem load_eq_fuel (m : Mem) (s : Bytes) (f : Nat) (h : 2 * s.length < f) :
    Doc.load (read m) f ([], s) = load m s :=
  load_mono (read m) _ f _ (load_ne_fuel m s) h

/-- Loading an encoded document. -/
theorem load_enc {m : Mem} (hm : m.Sane) (n : Node) (b rest : Bytes)
    (h : Enc false false (n.toItem []) b) :
    load m (b ++ rest) = if n.depth ≤ maxDepth then .ok (⟨[], n⟩, ([], rest)) else .err := by
  have he := emits_item hm (n.toItem []) [] b rest trivial h
  obtain ⟨t, vs, ns⟩ := n
  simp only [Node.toItem] at he
  have hl := fun F hF => load_item (read m) _ _ _ F _ _ he hF
  have hl := hl (max (_ + 1) (2 * (b ++ rest).length + 1))
    (Nat.lt_of_lt_of_le (Nat.lt_succ_self _) (Nat.le_max_left _ _))
  rw [load_eq_fuel m _ _ (Nat.lt_of_lt_of_le (Nat.lt_succ_self _) (Nat.le_max_right _ _))] at hl
  rw [hl, Node.depthL_vals, Node.depthL_toItems, Item.contentL_vals, Node.contentL_toItems]
  simp only [Node.depth, List.append_nil]
  rfl

mutual
/-- Nodes the format can carry. -/
def NodeOk : Node → Prop
  | .mk _ vs ns => vs.length + ns.length < 2 ^ 32 ∧
      (∀ p ∈ vs, p.1.length < 2 ^ 32 ∧ ValOk p.2) ∧ NodesOk ns
def NodesOk : List (Bytes × Node) → Prop
  | [] => True
  | (name, n) :: ns => name.length < 2 ^ 32 ∧ NodeOk n ∧ NodesOk ns
end

theorem itemsOk_append (a b : List Item) : ItemsOk (a ++ b) ↔ ItemsOk a ∧ ItemsOk b := by
  induction a with
  | nil => simp [ItemsOk]
  | cons i a ih => simp [ItemsOk, ih, and_assoc]

theorem itemsOk_vals (vs : List (Bytes × Val)) :
    ItemsOk (vs.map (fun p => Item.val p.1 p.2)) ↔ ∀ p ∈ vs, p.1.length < 2 ^ 32 ∧ ValOk p.2 := by
  induction vs with
  | nil => simp [ItemsOk]
  | cons p vs ih => simp [ItemsOk, ItemOk, ih]

mutual
theorem itemOk_toItem : ∀ (name : Bytes) (n : Node), name.length < 2 ^ 32 → NodeOk n →
    ItemOk (n.toItem name)
  | name, .mk t vs ns, hn, ⟨h0, h1, h2⟩ => by
    simp only [Node.toItem, ItemOk, List.length_append, List.length_map, Node.length_toItems]
    exact ⟨hn, h0, (itemsOk_append _ _).mpr ⟨(itemsOk_vals vs).mpr h1, itemsOk_toItems ns h2⟩⟩
theorem itemsOk_toItems : ∀ (ns : List (Bytes × Node)), NodesOk ns → ItemsOk (Node.toItems ns)
  | [], _ => by simp [Node.toItems, ItemsOk]
  | (name, n) :: ns, ⟨h1, h2, h3⟩ => by
    simp only [Node.toItems, ItemsOk]
    exact ⟨itemOk_toItem name n h1 h2, itemsOk_toItems ns h3⟩
end

theorem save_eq (name : Bytes) (n : Node) : save name n = .ok (writeItem false (n.toItem name)) := by
  unfold save
  rw [Node.events_eq, writeAll_item]
  simp [wnamed]

theorem save_enc (name : Bytes) (n : Node) (hname : name.length < 2 ^ 32) (hn : NodeOk n) :
    ∃ bs, save name n = .ok bs ∧ Enc false false ((Norm.node normVal n).toItem []) bs := by
  refine ⟨_, save_eq name n, ?_⟩
  have := writeItem_enc _ false (itemOk_toItem name n hname hn)
  rwa [Norm.item_toItem] at this

theorem save_norm (name : Bytes) (n : Node) (hname : name.length < 2 ^ 32) (hn : NodeOk n) :
    save [] (Norm.node normVal n) = save name n := by
  rw [save_eq, save_eq]
  have := writeItem_norm _ false (itemOk_toItem name n hname hn)
  rw [Norm.item_toItem] at this
  exact congrArg _ this

end PMsgPack
end Srl
