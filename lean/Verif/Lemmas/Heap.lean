import Verif.Model.Heap

/-! # Helper lemmas about the heap -/

namespace Srl.Heap

/-- `x` lies in the block `r` (address, size). -/
def In (x : Nat) (r : Nat × Nat) : Prop := r.1 ≤ x ∧ x < r.1 + r.2

/-- Two blocks share no byte. -/
def Apart (r s : Nat × Nat) : Prop := ∀ x, In x r → ¬ In x s

theorem Apart.symm {r s : Nat × Nat} (h : Apart r s) : Apart s r := fun x a b => h x b a

/-- The block `r` lies in one of `bs`. -/
def Inside (bs : List (Nat × Nat)) (r : Nat × Nat) : Prop :=
  ∃ b ∈ bs, b.1 ≤ r.1 ∧ r.1 + r.2 ≤ b.1 + b.2

def Seg.region (s : Seg) : Nat × Nat := (s.data, s.size)

/-- What is left of the current segment. -/
def Hp.rest (h : Hp) : List (Nat × Nat) :=
  match h.used with
  | [] => []
  | s :: _ => [(s.ptr, s.left)]

/-- All memory that is either handed out (`live`) or can still be handed out. -/
def Hp.regions (h : Hp) (live : List (Nat × Nat)) : List (Nat × Nat) :=
  h.rest ++ (h.free.map Seg.region ++ live)

structure Inv (h : Hp) (live : List (Nat × Nat)) : Prop where
  cap : ∃ k, k ≤ 18 ∧ h.cap = 2 ^ k
  left : ∀ s ∈ h.used, s.left ≤ s.size
  free : ∀ s ∈ h.free, s.left = s.size
  apart : (h.regions live).Pairwise Apart
  inside : ∀ r ∈ h.regions live, Inside h.owned r
  owned : h.owned.Pairwise Apart
  small : ∀ b ∈ h.owned, b.2 < 2 ^ 32

theorem pairwise_perm {l l' : List (Nat × Nat)} (hp : l.Perm l') (h : l.Pairwise Apart) :
    l'.Pairwise Apart := (hp.pairwise_iff fun h => h.symm).mp h

/-- Replacing the first region by parts of it that are apart. -/
theorem pairwise_split {r : Nat × Nat} {l ps : List (Nat × Nat)} (h : (r :: l).Pairwise Apart)
    (hps : ps.Pairwise Apart) (hin : ∀ p ∈ ps, ∀ x, In x p → In x r) : (ps ++ l).Pairwise Apart := by
  obtain ⟨h1, h2⟩ := List.pairwise_cons.mp h
  refine List.pairwise_append.mpr ⟨hps, h2, ?_⟩
  intro p hp q hq x hx
  exact h1 q hq x (hin p hp x hx)

theorem Inside.mono {bs bs' : List (Nat × Nat)} {r : Nat × Nat} (h : Inside bs r)
    (hs : ∀ b ∈ bs, b ∈ bs') : Inside bs' r := by
  obtain ⟨b, hb, h⟩ := h; exact ⟨b, hs b hb, h⟩

theorem Inside.part {bs : List (Nat × Nat)} {r p : Nat × Nat} (h : Inside bs r)
    (h1 : r.1 ≤ p.1) (h2 : p.1 + p.2 ≤ r.1 + r.2) : Inside bs p := by
  obtain ⟨b, hb, h3, h4⟩ := h; exact ⟨b, hb, by omega, by omega⟩

theorem Inside.small {bs : List (Nat × Nat)} {r : Nat × Nat} (h : Inside bs r)
    (hs : ∀ b ∈ bs, b.2 < 2 ^ 32) : r.2 < 2 ^ 32 := by
  obtain ⟨b, hb, h3, h4⟩ := h
  have := hs b hb
  omega

/-! ## Returning memory -/

theorem put_spec {h : Hp} {a n : Nat} (hn : n < 2 ^ 32) :
    (put h a n).free.map Seg.region = h.free.map Seg.region ++ [(a, n)] := by
  simp [put, Seg.region, Nat.mod_eq_of_lt hn]

theorem put_inv {h : Hp} {live : List (Nat × Nat)} {r : Nat × Nat} (hi : Inv h live)
    (hr : r ∈ live) : Inv (put h r.1 r.2) (live.erase r) := by
  have hmem : r ∈ h.regions live := by simp [Hp.regions, hr]
  have hn : r.2 < 2 ^ 32 := (hi.inside r hmem).small hi.small
  have hp : ((put h r.1 r.2).regions (live.erase r)).Perm (h.regions live) := by
    unfold Hp.regions
    rw [put_spec hn]
    refine List.Perm.append_left _ ?_
    rw [List.append_assoc]
    refine List.Perm.append_left _ ?_
    exact (List.perm_cons_erase hr).symm
  constructor
  · exact hi.cap
  · exact hi.left
  · intro s hs
    simp only [put, List.mem_append, List.mem_singleton] at hs
    rcases hs with hs | rfl
    · exact hi.free s hs
    · rfl
  · exact pairwise_perm hp.symm hi.apart
  · intro x hx; exact hi.inside x (hp.mem_iff.mp hx)
  · exact hi.owned
  · exact hi.small

/-- The heap with no current segment left (between `put_mem` and the choice of a new segment). -/
structure Inv' (h : Hp) (live : List (Nat × Nat)) : Prop where
  cap : ∃ k, k ≤ 18 ∧ h.cap = 2 ^ k
  left : ∀ s ∈ h.used, s.left ≤ s.size
  free : ∀ s ∈ h.free, s.left = s.size
  apart : (h.free.map Seg.region ++ live).Pairwise Apart
  inside : ∀ r ∈ h.free.map Seg.region ++ live, Inside h.owned r
  owned : h.owned.Pairwise Apart
  small : ∀ b ∈ h.owned, b.2 < 2 ^ 32

theorem putRest_inv {h : Hp} {live : List (Nat × Nat)} (hi : Inv h live) :
    Inv' (putRest h) live ∧ (putRest h).owned = h.owned ∧ (putRest h).used = h.used ∧
      ∀ x, (∀ r ∈ h.rest, ¬ In x r) → (putRest h).mem x = h.mem x := by
  have hreg := hi.apart
  have hins := hi.inside
  unfold Hp.regions at hreg hins
  cases hu : h.used with
  | nil =>
    have : putRest h = h := by simp [putRest, hu]
    rw [this]
    refine ⟨⟨hi.cap, hi.left, hi.free, ?_, ?_, hi.owned, hi.small⟩, rfl, hu, fun _ _ => rfl⟩
    · exact (List.pairwise_append.mp hreg).2.1
    · intro r hr; exact hins r (List.mem_append_right _ hr)
  | cons s used =>
    have hrest : h.rest = [(s.ptr, s.left)] := by simp [Hp.rest, hu]
    rw [hrest] at hreg hins
    by_cases hl : s.left > 0
    · have : putRest h = put h s.ptr s.left := by simp [putRest, hu, hl]
      rw [this]
      have hn : s.left < 2 ^ 32 := (hins (s.ptr, s.left) (by simp)).small hi.small
      have hp : ((put h s.ptr s.left).free.map Seg.region ++ live).Perm
          ([(s.ptr, s.left)] ++ (h.free.map Seg.region ++ live)) := by
        rw [put_spec hn, List.append_assoc]
        exact List.perm_middle
      refine ⟨⟨hi.cap, hi.left, ?_, ?_, ?_, hi.owned, hi.small⟩, rfl, hu, ?_⟩
      · intro x hx
        simp only [put, List.mem_append, List.mem_singleton] at hx
        rcases hx with hx | rfl
        · exact hi.free x hx
        · rfl
      · exact pairwise_perm hp.symm hreg
      · intro r hr; exact hins r (hp.mem_iff.mp hr)
      · intro x hx
        have := hx (s.ptr, s.left) (by simp [hrest])
        show zero h.mem s.ptr s.left x = h.mem x
        unfold zero
        rw [if_neg (by simpa [In] using this)]
    · have : putRest h = h := by simp [putRest, hu, hl]
      rw [this]
      refine ⟨⟨hi.cap, hi.left, hi.free, ?_, ?_, hi.owned, hi.small⟩, rfl, hu, fun _ _ => rfl⟩
      · exact (List.pairwise_append.mp hreg).2.1
      · intro r hr; exact hins r (List.mem_append_right _ hr)

/-! ## New segments -/

theorem findRm_spec {p : Seg → Bool} {l : List Seg} {s : Seg} {l' : List Seg}
    (h : findRm p l = some (s, l')) : p s = true ∧ l.Perm (s :: l') := by
  induction l generalizing l' with
  | nil => cases h
  | cons x l ih =>
    rw [findRm] at h
    by_cases hp : p x = true
    · rw [if_pos hp] at h
      cases h
      exact ⟨hp, List.Perm.refl _⟩
    · rw [if_neg hp] at h
      obtain ⟨⟨y, m⟩, h1, h2⟩ := Option.map_eq_some_iff.mp h
      cases h2
      obtain ⟨g1, g2⟩ := ih h1
      exact ⟨g1, (g2.cons x).trans (List.Perm.swap s x m)⟩

theorem capLoop_ok (fuel n cap : Nat) (k : Nat) (hm : k ≤ 18) (hk : cap = 2 ^ k)
    (hf : k + fuel ≥ 19) : ∃ c, capLoop fuel n cap = .ok c ∧ ∃ k, k ≤ 18 ∧ c = 2 ^ k := by
  induction fuel generalizing cap k with
  | zero => omega
  | succ fuel ih =>
    rw [capLoop]
    by_cases hc : cap < n ∧ cap < maxCap
    · rw [if_pos hc]
      have h2 : (2 : Nat) ^ k < 2 ^ 18 := by rw [← hk]; exact hc.2
      have h3 : k < 18 := (Nat.pow_lt_pow_iff_right (by omega)).mp h2
      exact ih (cap * 2) (k + 1) h3 (by rw [hk, Nat.pow_succ]) (by omega)
    · rw [if_neg hc]; exact ⟨cap, rfl, k, hm, hk⟩

theorem nextCap_ok {cap : Nat} (n : Nat) (h : ∃ k, k ≤ 18 ∧ cap = 2 ^ k) :
    ∃ c, nextCap cap n = .ok c ∧ ∃ k, k ≤ 18 ∧ c = 2 ^ k := by
  obtain ⟨k, hk, rfl⟩ := h
  unfold nextCap
  have hpos : ¬ (2 : Nat) ^ k < 1 := by have := Nat.two_pow_pos k; omega
  obtain ⟨k', h', e⟩ : ∃ k', k' ≤ 18 ∧
      (if (2 : Nat) ^ k < 1 then 1 else if 2 ^ k * 2 < maxCap then 2 ^ k * 2 else maxCap) = 2 ^ k' := by
    rw [if_neg hpos]
    by_cases h2 : 2 ^ k * 2 < maxCap
    · rw [if_pos h2]
      have h3 : (2 : Nat) ^ (k + 1) < 2 ^ 18 := by rw [Nat.pow_succ]; exact h2
      exact ⟨k + 1, Nat.le_of_lt ((Nat.pow_lt_pow_iff_right (by omega)).mp h3), by rw [Nat.pow_succ]⟩
    · rw [if_neg h2]; exact ⟨18, by omega, rfl⟩
  rw [e]
  simp only
  split
  · exact capLoop_ok 20 n _ k' h' rfl (by omega)
  · exact ⟨_, rfl, k', h', rfl⟩

/-- Requests the heap can serve: sizes below 4 GiB, alignment of ordinary types. -/
def Req (n align : Nat) : Prop := n + 16 < 2 ^ 32 ∧ align ∈ [1, 2, 4, 8, 16]

/-- A current segment with enough room. -/
def Room (h : Hp) (n align : Nat) : Prop :=
  ∃ s used, h.used = s :: used ∧
    n + (if s.ptr % align ≠ 0 then align - s.ptr % align else 0) ≤ s.left

theorem pad_lt (p : Nat) {align : Nat} (ha : 0 < align) :
    (if p % align ≠ 0 then align - p % align else 0) ≤ align - 1 := by
  have := Nat.mod_lt p ha
  split <;> omega

theorem pad_aligned (p : Nat) {align : Nat} (ha : 0 < align) :
    (p + (if p % align ≠ 0 then align - p % align else 0)) % align = 0 := by
  have h := Nat.mod_lt p ha
  split
  · have h1 := Nat.div_add_mod p align
    have : p + (align - p % align) = align * (p / align + 1) := by
      rw [Nat.mul_add]; omega
    rw [this]; exact Nat.mul_mod_right _ _
  · rename_i hz
    rw [Nat.add_zero]; omega

theorem Req.pos {n align : Nat} (h : Req n align) : 0 < align := by
  have := h.2
  simp at this
  omega

theorem Req.dvd {n align : Nat} (h : Req n align) {a : Nat} (ha : a % 16 = 0) : a % align = 0 := by
  have := h.2
  simp at this
  rcases this with rfl | rfl | rfl | rfl | rfl <;> omega

theorem alloc_spec (sys : Sys) {h : Hp} {live : List (Nat × Nat)} (hi : Inv h live) {n align : Nat}
    (hq : Req n align) :
    ∃ h', alloc sys h n align = .ok h' ∧ Inv h' live ∧ Room h' n align ∧
      (∀ x, (∀ r ∈ h.rest, ¬ In x r) → h'.mem x = h.mem x) ∧
      (∀ b ∈ h.owned, b ∈ h'.owned) ∧
      ∃ s, h'.used = s :: h.used ∧ s.left = s.size := by
  obtain ⟨hj, ho, hu, hm⟩ := putRest_inv hi
  unfold alloc
  simp only
  cases hf : findRm (fits n align) (putRest h).free with
  | some x =>
    obtain ⟨s, free⟩ := x
    obtain ⟨hfit, hp⟩ := findRm_spec hf
    have hsl : s.left = s.size := hj.free s (hp.mem_iff.mpr List.mem_cons_self)
    have hptr : s.ptr = s.data := by unfold Seg.ptr; omega
    refine ⟨_, rfl, ?_, ?_, hm, by rw [ho]; exact fun _ h => h, s, by rw [hu], hsl⟩
    · have hpr : ((putRest h).free.map Seg.region ++ live).Perm
          ([(s.ptr, s.left)] ++ (free.map Seg.region ++ live)) := by
        have := (hp.map Seg.region).append_right live
        rw [hptr, hsl]
        exact this
      constructor
      · exact hj.cap
      · intro x hx
        rcases List.mem_cons.mp hx with rfl | hx
        · omega
        · exact hj.left x hx
      · intro x hx; exact hj.free x (hp.mem_iff.mpr (List.mem_cons_of_mem _ hx))
      · exact pairwise_perm hpr hj.apart
      · intro r hr; exact hj.inside r (hpr.mem_iff.mpr hr)
      · exact hj.owned
      · exact hj.small
    · refine ⟨s, _, rfl, ?_⟩
      have hpl := pad_lt s.ptr hq.pos
      simp only [fits, Bool.or_eq_true, Bool.and_eq_true, decide_eq_true_eq, beq_iff_eq] at hfit
      rw [hsl]
      rcases hfit with h1 | ⟨h1, h2⟩
      · have := hq.pos
        omega
      · rw [hptr, if_neg (by omega)]; omega
  | none =>
    obtain ⟨c, hc, k, hk, rfl⟩ := nextCap_ok n hj.cap
    rw [hc, Res.ok_bind]
    have hck : (2 : Nat) ^ k ≤ 2 ^ 18 := Nat.pow_le_pow_right (by omega) hk
    generalize hsz : (if 2 ^ k > n then 2 ^ k else n) = size
    have hn := hq.1
    have hsz1 : n ≤ size ∧ size < 2 ^ 32 := by rw [← hsz]; split <;> omega
    have hmod : size % 2 ^ 32 = size := Nat.mod_eq_of_lt hsz1.2
    have hap := sys.apart (putRest h).owned size
    have hal := sys.aligned (putRest h).owned size
    generalize sys.alloc (putRest h).owned size = data at hap hal
    rw [hmod]
    have hnew : ∀ b ∈ (putRest h).owned, Apart (data, size) b := by
      intro b hb x h1 h2
      have := hap b hb
      simp only [In] at h1 h2
      omega
    have hptr : Seg.ptr ⟨data, size, size⟩ = data := by simp [Seg.ptr]
    refine ⟨_, rfl, ?_, ?_, hm, ?_, _, by rw [hu], rfl⟩
    · constructor
      · exact ⟨k, hk, rfl⟩
      · intro x hx
        rcases List.mem_cons.mp hx with rfl | hx
        · exact Nat.le_refl _
        · exact hj.left x hx
      · exact hj.free
      · show ([(Seg.ptr ⟨data, size, size⟩, size)] ++ ((putRest h).free.map Seg.region ++ live)).Pairwise _
        rw [hptr]
        refine List.pairwise_cons.mpr ⟨?_, hj.apart⟩
        intro r hr x h1 h2
        obtain ⟨b, hb, h3, h4⟩ := hj.inside r hr
        refine hnew b hb x h1 ?_
        simp only [In] at h2 ⊢
        omega
      · intro r hr
        have hr' : r = (data, size) ∨ r ∈ (putRest h).free.map Seg.region ++ live := by
          have : r ∈ [(Seg.ptr ⟨data, size, size⟩, size)] ++
              ((putRest h).free.map Seg.region ++ live) := hr
          rw [hptr] at this
          exact List.mem_cons.mp this
        rcases hr' with rfl | hr'
        · exact ⟨(data, size), by simp, Nat.le_refl _, Nat.le_refl _⟩
        · exact (hj.inside r hr').mono fun b hb => List.mem_append_left _ hb
      · refine List.pairwise_append.mpr ⟨hj.owned, by simp, ?_⟩
        intro a ha b hb
        simp only [List.mem_singleton] at hb
        subst hb
        exact (hnew a ha).symm
      · intro b hb
        rcases List.mem_append.mp hb with hb | hb
        · exact hj.small b hb
        · simp only [List.mem_singleton] at hb
          subst hb
          exact hsz1.2
    · refine ⟨_, _, rfl, ?_⟩
      rw [hptr, if_neg (by have := hq.dvd hal; omega)]
      simpa using hsz1.1
    · intro b hb
      exact List.mem_append_left _ (by rw [ho]; exact hb)

theorem take_spec {h : Hp} {live : List (Nat × Nat)} (hi : Inv h live) {n align : Nat}
    (ha : 0 < align) (hr : Room h n align) :
    ∃ h' a, take h n align = .ok (h', a) ∧ Inv h' ((a, n) :: live) ∧ a % align = 0 ∧
      h'.mem = h.mem ∧ h'.owned = h.owned ∧
      ∃ s used, h.used = s :: used ∧ ∃ o, o ≤ align - 1 ∧ n + o ≤ s.left ∧ a = s.ptr + o ∧
        h'.used = { s with left := s.left - (n + o) } :: used := by
  obtain ⟨s, used, hu, hroom⟩ := hr
  unfold take
  rw [hu]
  simp only
  have hpa := pad_aligned s.ptr ha
  have hpl := pad_lt s.ptr ha
  generalize (if s.ptr % align ≠ 0 then align - s.ptr % align else 0) = o at hroom hpa hpl
  rw [if_neg (by omega)]
  have hls : s.left ≤ s.size := hi.left s (by rw [hu]; simp)
  have hptr' : Seg.ptr { s with left := s.left - (n + o) } = s.ptr + (n + o) := by
    simp only [Seg.ptr]; omega
  refine ⟨_, _, rfl, ?_, hpa, rfl, rfl, s, used, rfl, o, hpl, hroom, rfl, rfl⟩
  have hrest : h.rest = [(s.ptr, s.left)] := by simp [Hp.rest, hu]
  have hreg := hi.apart
  have hins := hi.inside
  unfold Hp.regions at hreg hins
  rw [hrest] at hreg hins
  have hsplit : ([(s.ptr + (n + o), s.left - (n + o)), (s.ptr + o, n)] ++
      (h.free.map Seg.region ++ live)).Pairwise Apart := by
    refine pairwise_split hreg ?_ ?_
    · simp only [List.pairwise_cons, List.mem_singleton, forall_eq, List.not_mem_nil,
        false_implies, implies_true, and_true, List.Pairwise.nil]
      intro x h1 h2
      simp only [In] at h1 h2
      omega
    · intro p hp x hx
      simp only [List.mem_cons, List.not_mem_nil, or_false] at hp
      simp only [In] at hx ⊢
      rcases hp with rfl | rfl <;> simp only at hx <;> omega
  have hperm : ([(s.ptr + (n + o), s.left - (n + o)), (s.ptr + o, n)] ++
      (h.free.map Seg.region ++ live)).Perm
      ([(s.ptr + (n + o), s.left - (n + o))] ++
        (h.free.map Seg.region ++ ((s.ptr + o, n) :: live))) := by
    refine List.Perm.cons _ ?_
    show ((s.ptr + o, n) :: (h.free.map Seg.region ++ live)).Perm
      (h.free.map Seg.region ++ (s.ptr + o, n) :: live)
    exact List.perm_middle.symm
  constructor
  · exact hi.cap
  · intro x hx
    rcases List.mem_cons.mp hx with rfl | hx
    · simp only; omega
    · exact hi.left x (by rw [hu]; exact List.mem_cons_of_mem _ hx)
  · exact hi.free
  · show ([(Seg.ptr { s with left := s.left - (n + o) }, s.left - (n + o))] ++ _).Pairwise Apart
    rw [hptr']
    exact pairwise_perm hperm hsplit
  · intro r hr
    have hr : r ∈ [(Seg.ptr { s with left := s.left - (n + o) }, s.left - (n + o))] ++
        (h.free.map Seg.region ++ ((s.ptr + o, n) :: live)) := hr
    rw [hptr'] at hr
    have hr := hperm.mem_iff.mpr hr
    have h0 := hins (s.ptr, s.left) (by simp)
    rcases List.mem_append.mp hr with hr | hr
    · simp only [List.mem_cons, List.not_mem_nil, or_false] at hr
      rcases hr with rfl | rfl
      · exact h0.part (by simp only; omega) (by simp only; omega)
      · exact h0.part (by simp only; omega) (by simp only; omega)
    · exact hins r (List.mem_append_right _ hr)
  · exact hi.owned
  · exact hi.small

/-- What an allocation does. -/
theorem get_spec (sys : Sys) {h : Hp} {live : List (Nat × Nat)} (hi : Inv h live) {n align : Nat}
    (hq : Req n align) :
    ∃ h' a, get sys h n align = .ok (h', a) ∧ Inv h' ((a, n) :: live) ∧ a % align = 0 ∧
      (∀ x, (∀ r ∈ h.rest, ¬ In x r) → h'.mem x = h.mem x) ∧
      (∀ b ∈ h.owned, b ∈ h'.owned) ∧
      ∃ s used o, (h.used = s :: used ∨ (used = h.used ∧ s.left = s.size)) ∧
        o ≤ align - 1 ∧ n + o ≤ s.left ∧ s.left ≤ s.size ∧ a = s.ptr + o ∧
        h'.used = { s with left := s.left - (n + o) } :: used := by
  have viaAlloc : ∃ h1, alloc sys h n align = .ok h1 ∧ ∃ h' a, take h1 n align = .ok (h', a) ∧
      Inv h' ((a, n) :: live) ∧ a % align = 0 ∧
      (∀ x, (∀ r ∈ h.rest, ¬ In x r) → h'.mem x = h.mem x) ∧
      (∀ b ∈ h.owned, b ∈ h'.owned) ∧
      ∃ s used o, (h.used = s :: used ∨ (used = h.used ∧ s.left = s.size)) ∧
        o ≤ align - 1 ∧ n + o ≤ s.left ∧ s.left ≤ s.size ∧ a = s.ptr + o ∧
        h'.used = { s with left := s.left - (n + o) } :: used := by
    obtain ⟨h1, e1, i1, r1, m1, o1, s1, u1, l1⟩ := alloc_spec sys hi hq
    obtain ⟨h', a, e2, i2, al, m2, o2, s, used, u2, o, p1, p2, p3, p4⟩ := take_spec i1 hq.pos r1
    rw [u1] at u2
    cases u2
    exact ⟨h1, e1, h', a, e2, i2, al, fun x hx => by rw [m2]; exact m1 x hx,
      fun b hb => by rw [o2]; exact o1 b hb, s1, h.used, o, Or.inr ⟨rfl, l1⟩, p1, p2, by omega,
      p3, p4⟩
  unfold get
  cases hu : h.used with
  | nil =>
    obtain ⟨h1, e1, h', a, e2, rest⟩ := viaAlloc
    rw [hu] at rest
    exact ⟨h', a, by simp only [e1, Res.ok_bind, e2], rest⟩
  | cons s used =>
    simp only
    by_cases hl : s.left < n + align - 1
    · rw [if_pos hl]
      obtain ⟨h1, e1, h', a, e2, rest⟩ := viaAlloc
      rw [hu] at rest
      exact ⟨h', a, by simp only [e1, Res.ok_bind, e2], rest⟩
    · rw [if_neg hl]
      have hpl := pad_lt s.ptr hq.pos
      have := hq.pos
      have hroom : Room h n align := ⟨s, used, hu, by omega⟩
      obtain ⟨h', a, e2, i2, al, m2, o2, s', used', u2, o, p1, p2, p3, p4⟩ :=
        take_spec hi hq.pos hroom
      rw [hu] at u2
      cases u2
      exact ⟨h', a, e2, i2, al, fun x _ => by rw [m2], fun b hb => by rw [o2]; exact hb,
        s, used, o, Or.inl rfl, p1, p2, hi.left s (by rw [hu]; simp), p3, p4⟩

/-! ## Clearing -/

theorem insertSized_perm (s : Seg) (l : List Seg) : (insertSized s l).Perm (s :: l) := by
  induction l with
  | nil => exact List.Perm.refl _
  | cons x l ih =>
    rw [insertSized]
    split
    · exact List.Perm.refl _
    · exact (ih.cons x).trans (List.Perm.swap s x l)

theorem clear_perm (bs : List (Nat × Nat)) : ∀ l : List Seg,
    (bs.foldl (fun l b => insertSized ⟨b.1, b.2 % 2 ^ 32, b.2 % 2 ^ 32⟩ l) l).Perm
      (bs.map (fun b => ⟨b.1, b.2 % 2 ^ 32, b.2 % 2 ^ 32⟩) ++ l) := by
  induction bs with
  | nil => intro l; exact List.Perm.refl _
  | cons b bs ih =>
    intro l
    refine (ih _).trans ?_
    refine ((insertSized_perm _ l).append_left _).trans ?_
    exact List.perm_middle

theorem clear_inv {h : Hp} {live : List (Nat × Nat)} (hi : Inv h live) : Inv (clear h) [] := by
  have hp := clear_perm h.owned []
  rw [List.append_nil] at hp
  have hreg : ((clear h).regions []).Perm h.owned := by
    show ([] ++ ((clear h).free.map Seg.region ++ [])).Perm h.owned
    rw [List.nil_append, List.append_nil]
    refine (hp.map Seg.region).trans ?_
    rw [List.map_map]
    have : h.owned.map (Seg.region ∘ fun b => (⟨b.1, b.2 % 2 ^ 32, b.2 % 2 ^ 32⟩ : Seg)) =
        h.owned := by
      conv => rhs; rw [← List.map_id h.owned]
      refine List.map_congr_left ?_
      intro b hb
      simp [Seg.region, Nat.mod_eq_of_lt (hi.small b hb)]
    rw [this]
  constructor
  · exact hi.cap
  · intro s hs; cases hs
  · intro s hs
    have := hp.mem_iff.mp hs
    obtain ⟨b, -, rfl⟩ := List.mem_map.mp this
    rfl
  · exact pairwise_perm hreg.symm hi.owned
  · intro r hr
    exact ⟨r, hreg.mem_iff.mp hr, Nat.le_refl _, Nat.le_refl _⟩
  · exact hi.owned
  · exact hi.small

theorem zeroed (bs : List (Nat × Nat)) (x : Nat) : ∀ m : Nat → UInt8,
    (m x = 0 ∨ ∃ b ∈ bs, In x b) → (∀ b ∈ bs, b.2 < 2 ^ 32) →
      bs.foldl (fun m b => zero m b.1 (b.2 % 2 ^ 32)) m x = 0 := by
  induction bs with
  | nil => intro m h _; simpa using h
  | cons b bs ih =>
    intro m h hs
    have hb := hs b (by simp)
    refine ih _ ?_ fun c hc => hs c (by simp [hc])
    show zero m b.1 (b.2 % 2 ^ 32) x = 0 ∨ _
    unfold zero
    rw [Nat.mod_eq_of_lt hb]
    by_cases hx : b.1 ≤ x ∧ x < b.1 + b.2
    · rw [if_pos hx]; exact Or.inl rfl
    · rw [if_neg hx]
      rcases h with h | ⟨c, hc, hin⟩
      · exact Or.inl h
      · rcases List.mem_cons.mp hc with rfl | hc
        · exact absurd hin hx
        · exact Or.inr ⟨c, hc, hin⟩

theorem new_inv (mem : Nat → UInt8) : Inv (new mem) [] := by
  constructor
  · exact ⟨8, by omega, rfl⟩
  · intro s hs; cases hs
  · intro s hs; cases hs
  · exact List.Pairwise.nil
  · intro r hr; cases hr
  · exact List.Pairwise.nil
  · intro b hb; cases hb

end Srl.Heap
