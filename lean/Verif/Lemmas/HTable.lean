import Verif.Model.HTable

/-! # Helper lemmas about the hash table -/

namespace Srl.HTable

variable {K V : Type}

/-- Entries in the order of the table. -/
def Tbl.es (t : Tbl K V) : List (Entry K V) := (t.table.getD []).flatten

/-- Every entry is in its bucket. -/
def Home (cap : Nat) (tb : List (List (Entry K V))) : Prop :=
  ∀ i c, tb[i]? = some c → ∀ e ∈ c, bucket cap e.hash = i

structure Inv (cfg : Cfg K) (t : Tbl K V) : Prop where
  len : ∀ tb, t.table = some tb → tb.length = t.cap ∧ 0 < t.cap
  home : ∀ tb, t.table = some tb → Home t.cap tb
  hash : ∀ e ∈ t.es, e.hash = cfg.hash e.key
  cnt : t.elements = t.es.length
  keys : (t.es.map (·.key)).Nodup
  addrs : (t.es.map (·.addr) ++ t.cache).Nodup
  fresh : ∀ a ∈ t.es.map (·.addr) ++ t.cache, a < t.fresh
  lim0 : t.limit = 0 → t.elements = 0
  lim1 : t.limit ≠ 0 → t.table ≠ none

theorem bucket_lt {cap : Nat} (h : 0 < cap) (x : UInt64) : bucket cap x < cap :=
  Nat.mod_lt _ h

theorem split_at {α : Type} {l : List α} {i : Nat} {c : α} (h : l[i]? = some c) :
    ∃ l1 l2, l = l1 ++ c :: l2 ∧ l1.length = i := by
  obtain ⟨hi, hc⟩ := List.getElem?_eq_some_iff.mp h
  refine ⟨l.take i, l.drop (i + 1), ?_, by simp; omega⟩
  rw [← hc, List.getElem_cons_drop, List.take_append_drop]

theorem modify_split {α : Type} (l1 l2 : List α) (c : α) (f : α → α) :
    (l1 ++ c :: l2).modify l1.length f = l1 ++ f c :: l2 := by
  induction l1 with
  | nil => rfl
  | cons x l1 ih => simp [ih]

theorem set_split {α : Type} (l1 l2 : List α) (c c' : α) :
    (l1 ++ c :: l2).set l1.length c' = l1 ++ c' :: l2 := by
  induction l1 with
  | nil => rfl
  | cons x l1 ih => simp [ih]

theorem home_replace {cap : Nat} {l1 l2 : List (List (Entry K V))} {c c' : List (Entry K V)}
    (h : Home cap (l1 ++ c :: l2)) (hc : ∀ e ∈ c', bucket cap e.hash = l1.length) :
    Home cap (l1 ++ c' :: l2) := by
  intro i x hx e he
  by_cases hi : i = l1.length
  · subst hi
    simp at hx; subst hx
    exact hc e he
  · refine h i x ?_ e he
    rw [List.getElem?_append] at hx ⊢
    split at hx
    · rename_i h1; rw [if_pos h1]; exact hx
    · rename_i h1
      rw [if_neg h1]
      have : ∃ j, i - l1.length = j + 1 := ⟨i - l1.length - 1, by omega⟩
      obtain ⟨j, hj⟩ := this
      rw [hj] at hx ⊢
      simpa using hx

theorem home_mem {cap : Nat} {l1 l2 : List (List (Entry K V))} {c : List (Entry K V)}
    (h : Home cap (l1 ++ c :: l2)) : ∀ e ∈ c, bucket cap e.hash = l1.length :=
  h l1.length c (by simp)

theorem home_other {cap : Nat} {tb : List (List (Entry K V))} (h : Home cap tb) {e : Entry K V}
    (he : e ∈ tb.flatten) {c : List (Entry K V)} (hc : tb[bucket cap e.hash]? = some c) : e ∈ c := by
  obtain ⟨c', hc', hec⟩ := List.mem_flatten.mp he
  obtain ⟨i, hi⟩ := List.mem_iff_getElem?.mp hc'
  have := h i c' hi e hec
  rw [this, hi] at hc
  cases hc
  exact hec

theorem flatten_eq_nil {α : Type} {l : List (List α)} (h : l.flatten.length = 0) :
    ∀ c ∈ l, c = [] := by
  intro c hc
  have := List.eq_nil_of_length_eq_zero h
  exact (List.flatten_eq_nil_iff.mp this) c hc

/-! ## Redistribution -/

theorem relink_perm {cap : Nat} (hcap : 0 < cap) (nt : List (List (Entry K V))) (e : Entry K V)
    (hl : nt.length = cap) (hh : Home cap nt) :
    (relink cap nt e).length = cap ∧ Home cap (relink cap nt e) ∧
      (relink cap nt e).flatten.Perm (nt.flatten ++ [e]) := by
  have hb := bucket_lt hcap e.hash
  obtain ⟨c, hc⟩ : ∃ c, nt[bucket cap e.hash]? = some c :=
    ⟨_, List.getElem?_eq_getElem (by omega)⟩
  obtain ⟨l1, l2, rfl, h1⟩ := split_at hc
  have : relink cap (l1 ++ c :: l2) e = l1 ++ (c ++ [e]) :: l2 := by
    rw [relink, ← h1]; exact modify_split l1 l2 c _
  rw [this]
  refine ⟨by simpa using hl, home_replace hh ?_, ?_⟩
  · intro x hx
    rcases List.mem_append.mp hx with hx | hx
    · exact home_mem hh x hx
    · simp at hx; subst hx; exact h1.symm
  · simp only [List.flatten_append, List.flatten_cons, List.append_assoc]
    refine List.Perm.append_left _ (List.Perm.append_left _ ?_)
    exact List.perm_append_comm

theorem relink_all {cap : Nat} (hcap : 0 < cap) (es : List (Entry K V)) :
    ∀ nt : List (List (Entry K V)), nt.length = cap → Home cap nt →
      (es.foldl (relink cap) nt).length = cap ∧ Home cap (es.foldl (relink cap) nt) ∧
        (es.foldl (relink cap) nt).flatten.Perm (nt.flatten ++ es) := by
  induction es with
  | nil => intro nt hl hh; exact ⟨hl, hh, by simp⟩
  | cons e es ih =>
    intro nt hl hh
    obtain ⟨h1, h2, h3⟩ := relink_perm hcap nt e hl hh
    obtain ⟨g1, g2, g3⟩ := ih _ h1 h2
    refine ⟨g1, g2, g3.trans ?_⟩
    have := h3.append_right es
    simpa using this

theorem home_empty (cap : Nat) : Home cap (List.replicate cap ([] : List (Entry K V))) := by
  intro i c hc e he
  rw [List.getElem?_replicate] at hc
  split at hc
  · cases hc; cases he
  · cases hc

theorem flatten_replicate_nil (n : Nat) :
    (List.replicate n ([] : List (Entry K V))).flatten = [] := by
  simp

theorem redistribute_spec {cfg : Cfg K} {t : Tbl K V} (h : Inv cfg t) :
    ∃ t', redistribute cfg t = .ok t' ∧ Inv cfg t' ∧ t'.es.Perm t.es ∧ t'.table ≠ none ∧
      t'.limit ≠ 0 ∧ t'.cache = t.cache ∧ t'.fresh = t.fresh := by
  by_cases hl : t.limit = 0
  · have he := h.lim0 hl
    have hes : t.es = [] := List.eq_nil_of_length_eq_zero (by rw [← h.cnt, he])
    refine ⟨{ setCapacity cfg t t.cap with
      table := some (List.replicate (setCapacity cfg t t.cap).cap []) },
      by rw [redistribute, if_pos hl], ?_, ?_, by simp, ?_, rfl, rfl⟩
    · constructor
      · intro tb htb
        simp [setCapacity] at htb
        subst htb
        simp [setCapacity]; omega
      · intro tb htb
        simp only [setCapacity, Option.some.injEq] at htb
        subst htb
        exact home_empty _
      · intro e he; simp [Tbl.es] at he
      · simp [Tbl.es, setCapacity, he]
      · simp [Tbl.es]
      · have := h.addrs; rw [hes] at this; simpa [Tbl.es, setCapacity] using this
      · have := h.fresh; rw [hes] at this; simpa [Tbl.es, setCapacity] using this
      · intro h0; simp [setCapacity] at h0
      · simp
    · rw [hes]; simp [Tbl.es]
    · simp [setCapacity]
  · obtain ⟨tb, htb⟩ : ∃ tb, t.table = some tb := by
      cases ht : t.table with
      | none => exact absurd ht (h.lim1 hl)
      | some tb => exact ⟨tb, rfl⟩
    have hcap := (h.len tb htb).2
    have hc2 : 0 < (setCapacity cfg t (t.cap * 2)).cap := by simp [setCapacity]; omega
    obtain ⟨g1, g2, g3⟩ := relink_all hc2 tb.flatten (List.replicate _ []) (by simp) (home_empty _)
    rw [flatten_replicate_nil, List.nil_append] at g3
    have hes : t.es = tb.flatten := by simp [Tbl.es, htb]
    refine ⟨{ setCapacity cfg t (t.cap * 2) with
      table := some (tb.flatten.foldl (relink (setCapacity cfg t (t.cap * 2)).cap)
        (List.replicate (setCapacity cfg t (t.cap * 2)).cap [])) },
      by rw [redistribute, if_neg hl, htb], ?_, ?_, by simp, ?_, rfl, rfl⟩
    · constructor
      · intro tb' h'; cases h'; exact ⟨g1, hc2⟩
      · intro tb' h'; cases h'; exact g2
      · intro e he
        refine h.hash e ?_
        rw [hes]; exact g3.mem_iff.mp (by simpa [Tbl.es] using he)
      · show t.elements = _
        rw [h.cnt, hes]
        exact g3.length_eq.symm
      · refine (List.Perm.nodup_iff (g3.map _)).mpr ?_
        rw [← hes]; exact h.keys
      · refine (List.Perm.nodup_iff ((g3.map _).append_right _)).mpr ?_
        rw [← hes]; exact h.addrs
      · intro a ha
        refine h.fresh a ?_
        rw [hes]
        exact ((g3.map _).append_right _).mem_iff.mp ha
      · intro h0; simp [setCapacity] at h0
      · simp
    · rw [hes]; exact g3
    · simp [setCapacity]

/-! ## Looking at one chain -/

variable [DecidableEq K]

theorem hit_iff {cfg : Cfg K} {e : Entry K V} {k : K} (h : e.hash = cfg.hash e.key) :
    hit (cfg.hash k) k e = true ↔ e.key = k := by
  simp only [hit, Bool.and_eq_true, beq_iff_eq]
  constructor
  · exact fun x => x.2
  · intro x; exact ⟨by rw [h, x], x⟩

theorem chain_cases {cfg : Cfg K} {c : List (Entry K V)} (k : K)
    (h : ∀ e ∈ c, e.hash = cfg.hash e.key) :
    (c.find? (hit (cfg.hash k) k) = none ∧ unlink (cfg.hash k) k c = none ∧
        (∀ f, putVal (cfg.hash k) k f c = c) ∧ ∀ e ∈ c, e.key ≠ k) ∨
    (∃ c1 e c2, c = c1 ++ e :: c2 ∧ e.key = k ∧ c.find? (hit (cfg.hash k) k) = some e ∧
        unlink (cfg.hash k) k c = some (e, c1 ++ c2) ∧
        ∀ f, putVal (cfg.hash k) k f c = c1 ++ { e with val := f e.val } :: c2) := by
  induction c with
  | nil => left; simp [unlink, putVal]
  | cons e c ih =>
    have ihh := ih (fun x hx => h x (List.mem_cons_of_mem _ hx))
    have he := h e (List.mem_cons_self)
    by_cases hk : e.key = k
    · right
      have hit' := (hit_iff (k := k) he).mpr hk
      exact ⟨[], e, c, rfl, hk, by simp [hit'], by simp [unlink, hit'], by simp [putVal, hit']⟩
    · have hit' : hit (cfg.hash k) k e = false := by
        rw [Bool.eq_false_iff]; exact fun x => hk ((hit_iff he).mp x)
      rcases ihh with ⟨a, b, p, d⟩ | ⟨c1, e', c2, rfl, hk', a, b, p⟩
      · left
        refine ⟨by simp [hit', a], by simp [unlink, hit', b], by simp [putVal, hit', p], ?_⟩
        intro x hx
        rcases List.mem_cons.mp hx with rfl | hx
        · exact hk
        · exact d x hx
      · right
        refine ⟨e :: c1, e', c2, rfl, hk', ?_, ?_, ?_⟩
        · rw [List.find?_cons, hit']; exact a
        · rw [unlink, hit']
          simp [b]
        · intro f; simp [putVal, hit', p]

omit [DecidableEq K] in
/-- The chain an operation on a key looks at. -/
theorem chain_at {cfg : Cfg K} {t : Tbl K V} (h : Inv cfg t) (ht : t.table ≠ none) (k : K) :
    ∃ l1 c l2, t.table = some (l1 ++ c :: l2) ∧ bucket t.cap (cfg.hash k) = l1.length ∧
      at_ t (bucket t.cap (cfg.hash k)) = .ok c ∧
      (∀ e ∈ c, e.hash = cfg.hash e.key) ∧
      (∀ e ∈ t.es, e.key = k → e ∈ c) := by
  obtain ⟨tb, htb⟩ : ∃ tb, t.table = some tb := Option.ne_none_iff_exists'.mp ht
  obtain ⟨hl, hcap⟩ := h.len tb htb
  have hb := bucket_lt hcap (cfg.hash k)
  obtain ⟨c, hc⟩ : ∃ c, tb[bucket t.cap (cfg.hash k)]? = some c :=
    ⟨_, List.getElem?_eq_getElem (by omega)⟩
  have hes : t.es = tb.flatten := by simp [Tbl.es, htb]
  obtain ⟨l1, l2, h1, h2⟩ := split_at hc
  refine ⟨l1, c, l2, by rw [htb, h1], h2.symm, ?_, ?_, ?_⟩
  · simp [at_, htb, hc]
  · intro e he
    refine h.hash e ?_
    rw [hes, h1]
    simp [he]
  · intro e he hk
    have hh := h.hash e he
    rw [hk] at hh
    refine home_other (h.home tb htb) (hes ▸ he) ?_
    rw [hh]; exact hc

omit [DecidableEq K] in
theorem table_of_elements {cfg : Cfg K} {t : Tbl K V} (h : Inv cfg t) (he : ¬ t.elements < 1) :
    t.table ≠ none := by
  refine h.lim1 ?_
  intro hl
  have := h.lim0 hl
  omega

/-! ## Replacing a chain -/

omit [DecidableEq K] in
theorem es_split {t : Tbl K V} {l1 l2 : List (List (Entry K V))} {c : List (Entry K V)}
    (h : t.table = some (l1 ++ c :: l2)) : t.es = l1.flatten ++ (c ++ l2.flatten) := by
  simp [Tbl.es, h]

omit [DecidableEq K] in
theorem forLoop_eq (f : K → V → V) (elems : Nat) (tb : List (List (Entry K V))) :
    ∀ n, elems = n + tb.flatten.length →
      forLoop f elems n tb =
        (tb.map (·.map fun e => { e with val := f e.key e.val }), tb.flatten) := by
  induction tb with
  | nil => intro n _; rfl
  | cons c tb ih =>
    intro n hn
    simp only [List.flatten_cons, List.length_append] at hn
    rw [forLoop]
    by_cases h : n + c.length ≥ elems
    · rw [if_pos h]
      have h0 : tb.flatten.length = 0 := by omega
      have hnil := flatten_eq_nil h0
      have : tb.map (·.map fun e => { e with val := f e.key e.val }) = tb := by
        conv => rhs; rw [← List.map_id tb]
        refine List.map_congr_left ?_
        intro x hx; rw [hnil x hx]; rfl
      simp only [List.map_cons, this, List.flatten_cons, List.eq_nil_of_length_eq_zero h0,
        List.append_nil]
    · rw [if_neg h, ih (n + c.length) (by omega)]
      simp

omit [DecidableEq K] in
theorem rmLoop_eq (p : K → V → Bool) (elems : Nat) (tb : List (List (Entry K V))) :
    ∀ n, elems = n + tb.flatten.length →
      rmLoop p elems n tb =
        (tb.map (·.filter fun e => !p e.key e.val), tb.flatten.filter fun e => p e.key e.val,
          tb.flatten) := by
  induction tb with
  | nil => intro n _; rfl
  | cons c tb ih =>
    intro n hn
    simp only [List.flatten_cons, List.length_append] at hn
    rw [rmLoop]
    by_cases h : n + c.length ≥ elems
    · rw [if_pos h]
      have h0 : tb.flatten.length = 0 := by omega
      have hnil := flatten_eq_nil h0
      have : tb.map (·.filter fun e => !p e.key e.val) = tb := by
        conv => rhs; rw [← List.map_id tb]
        refine List.map_congr_left ?_
        intro x hx; rw [hnil x hx]; rfl
      simp only [List.map_cons, this, List.flatten_cons, List.eq_nil_of_length_eq_zero h0,
        List.append_nil]
    · rw [if_neg h, ih (n + c.length) (by omega)]
      simp

omit [DecidableEq K] in
theorem nextFrom_cases (tb : List (List (Entry K V))) :
    (nextFrom tb = none ∧ tb.flatten = []) ∨
    ∃ e c tb', nextFrom tb = some (e :: c, tb') ∧ tb.flatten = e :: c ++ tb'.flatten := by
  induction tb with
  | nil => left; exact ⟨rfl, rfl⟩
  | cons c tb ih =>
    cases c with
    | nil => simpa [nextFrom] using ih
    | cons e c => right; exact ⟨e, c, tb, rfl, rfl⟩

omit [DecidableEq K] in
theorem iterLoop_eq (n : Nat) : ∀ (e : Entry K V) (c : List (Entry K V)) (tb : List (List (Entry K V))),
    (e :: c ++ tb.flatten).length ≤ n →
      iterLoop n (some (e :: c, tb)) = .ok (e :: c ++ tb.flatten) := by
  induction n with
  | zero => intro e c tb h; simp at h
  | succ n ih =>
    intro e c tb h
    rw [iterLoop]
    cases c with
    | cons e' c =>
      have : next (e :: e' :: c, tb) = some (e' :: c, tb) := rfl
      rw [this, ih e' c tb (by simp at h ⊢; omega)]
      rfl
    | nil =>
      have : next ([e], tb) = nextFrom tb := rfl
      rw [this]
      rcases nextFrom_cases tb with ⟨h1, h2⟩ | ⟨e', c', tb', h1, h2⟩
      · rw [h1, h2, iterLoop]; rfl
      · rw [h1, h2, ih e' c' tb' (by rw [h2] at h; simp at h ⊢; omega)]
        rfl

omit [DecidableEq K] in
theorem iterate_eq {cfg : Cfg K} {t : Tbl K V} (h : Inv cfg t) : iterate t = .ok t.es := by
  rw [iterate, begin]
  cases ht : t.table with
  | none => simp [Tbl.es, ht, iterLoop]
  | some tb =>
    have hes : t.es = tb.flatten := by simp [Tbl.es, ht]
    have hcnt := h.cnt
    rw [hes] at hcnt ⊢
    simp only
    rcases nextFrom_cases tb with ⟨h1, h2⟩ | ⟨e', c', tb', h1, h2⟩
    · rw [h1, h2, iterLoop]
    · rw [h2] at hcnt ⊢
      rw [h1]
      exact iterLoop_eq _ _ _ _ (by omega)

end Srl.HTable
