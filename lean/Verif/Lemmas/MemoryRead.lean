import Verif.Lemmas.MemoryObj

/-! How much objects hold that are restored while a document is read (C84). -/

namespace Srl.Props.Room
open Typed Doc

variable {σ : Type} {own : Bool} {read : σ → Res (Event × σ)} {μ : σ → Nat} (hp : Pays own read μ)
include hp

theorem vecNodes_weight {total C : Nat} {f : Bytes × LNode → σ → Res (Obj × σ)}
    (hf : ∀ c s y s', f c s = .ok (y, s') → μ s' ≤ μ s ∧
      weight y + C * μ s' ≤ C * (held own c.2 + nameBytes own c.1 + μ s)) :
    ∀ (fuel : Nat) (n : LNode) (s : σ) (ys : List Obj) (n' : LNode) (s' : σ),
      vecNodes read total f fuel n s = .ok (ys, n', s') →
      μ s' ≤ μ s ∧ held own n' + μ s' ≤ held own n + μ s ∧
      weights ys + C * (held own n' + μ s') ≤ C * (held own n + μ s)
  | 0, _, _, _, _, _, h => by cases h
  | fuel + 1, n, s, ys, n', s', h => by
    rw [vecNodes, Res.bind_eq_ok] at h
    obtain ⟨⟨c, n1, s1⟩, h1, h⟩ := h
    obtain ⟨a, b⟩ := consumeNode_paid hp h1
    simp only at h
    split at h
    · cases h
      have := Nat.mul_le_mul_left C (show held own n' + μ s' ≤ held own n + μ s by omega)
      simp only [weights]
      omega
    · cases c with
      | none => cases h
      | some c =>
        simp only [Res.bind_eq_ok] at h
        obtain ⟨⟨y, s2⟩, h2, ⟨ys1, n2, s3⟩, h3, h⟩ := h
        cases h
        obtain ⟨p, q⟩ := hf _ _ _ _ h2
        obtain ⟨u, v, w⟩ := vecNodes_weight hf fuel _ _ _ _ _ h3
        simp only [Option.elim] at b
        have e := Nat.mul_le_mul_left C b
        simp only [weights, Nat.mul_add] at *
        omega

theorem vecValues_weight {total C : Nat} {f : Bytes × Val → Res Obj}
    (hf : ∀ c y, f c = .ok y → weight y ≤ C * itemV own c) :
    ∀ (fuel : Nat) (n : LNode) (s : σ) (ys : List Obj) (n' : LNode) (s' : σ),
      vecValues read total f fuel n s = .ok (ys, n', s') →
      μ s' ≤ μ s ∧ held own n' + μ s' ≤ held own n + μ s ∧
      weights ys + C * (held own n' + μ s') ≤ C * (held own n + μ s)
  | 0, _, _, _, _, _, h => by cases h
  | fuel + 1, n, s, ys, n', s', h => by
    rw [vecValues, Res.bind_eq_ok] at h
    obtain ⟨⟨c, n1, s1⟩, h1, h⟩ := h
    obtain ⟨a, b⟩ := consumeValue_paid hp h1
    simp only at h
    split at h
    · cases h
      have := Nat.mul_le_mul_left C (show held own n' + μ s' ≤ held own n + μ s by omega)
      simp only [weights]
      omega
    · cases c with
      | none => cases h
      | some c =>
        simp only [Res.bind_eq_ok] at h
        obtain ⟨y, h2, ⟨ys1, n2, s3⟩, h3, h⟩ := h
        cases h
        have q := hf _ _ h2
        obtain ⟨u, v, w⟩ := vecValues_weight hf fuel _ _ _ _ _ h3
        simp only [Option.elim] at b
        have e := Nat.mul_le_mul_left C b
        simp only [weights, Nat.mul_add] at *
        omega

theorem arrNodes_weight {total C : Nat} {f : Obj → LNode → σ → Res (Obj × σ)}
    (hf : ∀ o c s y s', f o c s = .ok (y, s') → μ s' ≤ μ s ∧
      weight y + C * μ s' ≤ weight o + C * (held own c + μ s)) :
    ∀ (os : List Obj) (n : LNode) (s : σ) (ys : List Obj) (n' : LNode) (s' : σ),
      arrNodes read total f os n s = .ok (ys, n', s') →
      μ s' ≤ μ s ∧ held own n' + μ s' ≤ held own n + μ s ∧
      weights ys + C * (held own n' + μ s') ≤ weights os + C * (held own n + μ s)
  | [], n, s, ys, n', s', h => by rw [arrNodes] at h; cases h; simp
  | o :: os, n, s, ys, n', s', h => by
    rw [arrNodes] at h
    split at h
    · cases h
    · rw [Res.bind_eq_ok] at h
      obtain ⟨⟨c, n1, s1⟩, h1, h⟩ := h
      obtain ⟨a, b⟩ := consumeNode_paid hp h1
      cases c with
      | none => cases h
      | some c =>
        simp only [Res.bind_eq_ok] at h
        obtain ⟨⟨y, s2⟩, h2, ⟨ys1, n2, s3⟩, h3, h⟩ := h
        cases h
        obtain ⟨p, q⟩ := hf _ _ _ _ _ h2
        obtain ⟨u, v, w⟩ := arrNodes_weight hf os _ _ _ _ _ h3
        simp only [Option.elim] at b
        have e := Nat.mul_le_mul_left C b
        simp only [weights, Nat.mul_add] at *
        omega

theorem arrValues_weight {total C : Nat} {f : Obj → Val → Res Obj}
    (hf : ∀ o v y, f o v = .ok y → weight y ≤ weight o + C * (1 + valBytes v)) :
    ∀ (os : List Obj) (n : LNode) (s : σ) (ys : List Obj) (n' : LNode) (s' : σ),
      arrValues read total f os n s = .ok (ys, n', s') →
      μ s' ≤ μ s ∧ held own n' + μ s' ≤ held own n + μ s ∧
      weights ys + C * (held own n' + μ s') ≤ weights os + C * (held own n + μ s)
  | [], n, s, ys, n', s', h => by rw [arrValues] at h; cases h; simp
  | o :: os, n, s, ys, n', s', h => by
    rw [arrValues] at h
    split at h
    · cases h
    · rw [Res.bind_eq_ok] at h
      obtain ⟨⟨c, n1, s1⟩, h1, h⟩ := h
      obtain ⟨a, b⟩ := consumeValue_paid hp h1
      cases c with
      | none => cases h
      | some c =>
        simp only [Res.bind_eq_ok] at h
        obtain ⟨y, h2, ⟨ys1, n2, s3⟩, h3, h⟩ := h
        cases h
        have q := hf _ _ _ h2
        obtain ⟨u, v, w⟩ := arrValues_weight hf os _ _ _ _ _ h3
        simp only [Option.elim, itemV] at b
        have e := Nat.mul_le_mul_left C b
        simp only [weights, Nat.mul_add] at *
        omega

omit hp in
/-- What is known of a node that is read to its end -/
theorem parsed_weight {env : Env} (hd : ∀ d, (env.dtoa d).length ≤ 24) {ty : Ty} {old o : Obj} {n n' : LNode} {s s' : σ}
    (hn : own = true ∨ noTables ty)
    (h : (do let o ← pasteNode env ty old (.mk n.type n.values n.nodes); .ok (o, n, s)) = Res.ok (o, n', s')) :
    μ s' ≤ μ s ∧ held own n' + μ s' ≤ held own n + μ s ∧
      weight o + factor ty * μ s' ≤ weight old + factor ty * (held own n + μ s) := by
  rw [Res.bind_eq_ok] at h
  obtain ⟨x, h1, h⟩ := h
  cases h
  have := pasteNode_weight (own := own) hd ty _ _ _ hn h1
  rw [size_eq] at this
  simp only [held, Nat.mul_add] at *
  omega

omit hp in
/-- From all there is to a sequence -/
theorem seq_weight {C : Nat} {ys : List Obj} {old : Obj} {n n' : LNode} {s s' : σ}
    (h : μ s' ≤ μ s ∧ held own n' + μ s' ≤ held own n + μ s ∧
      weights ys + C * (held own n' + μ s') ≤ C * (held own n + μ s)) :
    μ s' ≤ μ s ∧ held own n' + μ s' ≤ held own n + μ s ∧
      weight (.many ys) + (1 + C) * μ s' ≤ weight old + (1 + C) * (held own n + μ s) := by
  obtain ⟨a, b, c⟩ := h
  have hold := weight_pos old
  refine ⟨a, b, ?_⟩
  simp only [weight, Nat.add_mul, Nat.mul_add] at *
  omega

mutual
theorem paste_weight {env : Env} (hd : ∀ d, (env.dtoa d).length ≤ 24) {fuel : Nat} :
    ∀ (ty : Ty) (old : Obj) (n : LNode) (s : σ) (o : Obj) (n' : LNode) (s' : σ), (own = true ∨ noTables ty) →
      paste env read fuel ty old n s = .ok (o, n', s') →
      μ s' ≤ μ s ∧ held own n' + μ s' ≤ held own n + μ s ∧
        weight o + factor ty * μ s' ≤ weight old + factor ty * (held own n + μ s)
  | .vec e, old, n, s, o, n', s', hn, h => by
    have hn' : own = true ∨ noTables e := by simpa only [noTables] using hn
    rw [paste] at h
    split at h
    · exact parsed_weight hd hn h
    · have e1 : factor (.vec e) = 1 + (weight (dflt e) + factor e) := by rw [factor]; omega
      rw [e1]
      split at h
      · rw [Res.bind_eq_ok] at h
        obtain ⟨⟨ys, n1, s1⟩, h1, h⟩ := h
        cases h
        refine seq_weight (vecNodes_weight hp (fun c s y s' hc => ?_) _ _ _ _ _ _ h1)
        simp only [Res.bind_eq_ok] at hc
        obtain ⟨⟨y1, c1, s2⟩, h2, s3, h3, hc⟩ := hc
        cases hc
        obtain ⟨a, b, d⟩ := paste_weight hd e _ _ _ _ _ _ hn' h2
        have g : μ s' ≤ μ s2 := finish_paid hp h3
        dsimp only
        refine ⟨by omega, ?_⟩
        have u : weight (dflt e) ≤ weight (dflt e) * held own c.2 := le_mul (held_pos _ _)
        have v : (weight (dflt e) + factor e) * μ s' ≤ weight (dflt e) * μ s + factor e * μ s2 := by
          rw [Nat.add_mul]
          exact Nat.add_le_add (Nat.mul_le_mul_left _ (by omega)) (Nat.mul_le_mul_left _ g)
        simp only [Nat.add_mul, Nat.mul_add] at *
        omega
      · rw [Res.bind_eq_ok] at h
        obtain ⟨⟨ys, n1, s1⟩, h1, h⟩ := h
        cases h
        exact seq_weight (vecValues_weight hp (fun c y hc => elem_le (pasteVal_weight hd e _ _ _ hc) (by omega)
          (itemV_le own c)) _ _ _ _ _ _ h1)
  | .named e, old, n, s, o, n', s', hn, h => by
    have hown : own = true := by simpa only [noTables, or_false] using hn
    rw [paste] at h
    split at h
    · cases h
    split at h
    · exact parsed_weight hd hn h
    · have e1 : factor (.named e) = 1 + (3 + weight (dflt e) + factor e) := by rw [factor]; omega
      rw [e1]
      split at h
      · rw [Res.bind_eq_ok] at h
        obtain ⟨⟨ys, n1, s1⟩, h1, h⟩ := h
        cases h
        refine seq_weight (vecNodes_weight hp (fun c s y s' hc => ?_) _ _ _ _ _ _ h1)
        simp only [Res.bind_eq_ok] at hc
        obtain ⟨⟨y1, c1, s2⟩, h2, s3, h3, hc⟩ := hc
        cases hc
        obtain ⟨a, b, d⟩ := paste_weight hd e _ _ _ _ _ _ (Or.inl hown) h2
        have g : μ s' ≤ μ s2 := finish_paid hp h3
        dsimp only
        refine ⟨by omega, ?_⟩
        have u : weight (dflt e) ≤ weight (dflt e) * held own c.2 := le_mul (held_pos _ _)
        have v : (weight (dflt e) + factor e) * μ s' ≤ weight (dflt e) * μ s + factor e * μ s2 := by
          rw [Nat.add_mul]
          exact Nat.add_le_add (Nat.mul_le_mul_left _ (by omega)) (Nat.mul_le_mul_left _ g)
        have w := held_pos own c.2
        have x : nameBytes own c.1 = c.1.length := by simp [nameBytes, hown]
        simp only [weight, weights, x, Nat.add_mul, Nat.mul_add] at *
        omega
      · rw [Res.bind_eq_ok] at h
        obtain ⟨⟨ys, n1, s1⟩, h1, h⟩ := h
        cases h
        refine seq_weight (vecValues_weight hp (fun c y hc => ?_) _ _ _ _ _ _ h1)
        rw [Res.bind_eq_ok] at hc
        obtain ⟨z, hz, hc⟩ := hc
        cases hc
        exact entry_le (pasteVal_weight hd e _ _ _ hz) (by omega)
          (by simp only [itemV, nameBytes, hown, if_true]; omega)
  | .arr k e, .many os, n, s, o, n', s', hn, h => by
    have hn' : own = true ∨ noTables e := by simpa only [noTables] using hn
    rw [paste] at h
    split at h
    · exact parsed_weight hd hn h
    · rw [show factor (.arr k e) = factor e by rw [factor]]
      split at h
      · rw [Res.bind_eq_ok] at h
        obtain ⟨⟨ys, n1, s1⟩, h1, h⟩ := h
        cases h
        obtain ⟨a, b, c⟩ := arrNodes_weight hp (C := factor e) (fun o c s y s' hc => by
          simp only [Res.bind_eq_ok] at hc
          obtain ⟨⟨y1, c1, s2⟩, h2, s3, h3, hc⟩ := hc
          cases hc
          obtain ⟨a, b, d⟩ := paste_weight hd e _ _ _ _ _ _ hn' h2
          have g : μ s' ≤ μ s2 := finish_paid hp h3
          dsimp only
          have g2 := Nat.mul_le_mul_left (factor e) g
          refine ⟨by omega, by omega⟩) _ _ _ _ _ _ h1
        refine ⟨a, b, ?_⟩
        simp only [weight, Nat.mul_add] at *
        omega
      · rw [Res.bind_eq_ok] at h
        obtain ⟨⟨ys, n1, s1⟩, h1, h⟩ := h
        cases h
        obtain ⟨a, b, c⟩ := arrValues_weight hp (C := factor e) (fun o v y hc => pasteVal_weight hd e _ _ _ hc)
          _ _ _ _ _ _ h1
        refine ⟨a, b, ?_⟩
        simp only [weight, Nat.mul_add] at *
        omega
  | .record t strict fs, .many os, n, s, o, n', s', hn, h => by
    have hn' : own = true ∨ noTablesL fs := by simpa only [noTables] using hn
    rw [paste] at h
    split at h
    · cases h
    · rw [Res.bind_eq_ok] at h
      obtain ⟨⟨ys, n1, s1⟩, h1, h⟩ := h
      cases h
      obtain ⟨a, b, c⟩ := pasteMembers_weight hd fs _ _ _ _ _ _ _ _ hn' h1
      refine ⟨a, b, ?_⟩
      simp only [weight, factor] at *
      omega
  | .ptr k e, old, n, s, o, n', s', hn, h => by
    have hn' : own = true ∨ noTables e := by simpa only [noTables] using hn
    rw [paste, Res.bind_eq_ok] at h
    obtain ⟨⟨x, n1, s1⟩, h1, h⟩ := h
    cases h
    obtain ⟨a, b, c⟩ := paste_weight hd e _ _ _ _ _ _ hn' h1
    refine ⟨a, b, ?_⟩
    have d := held_pos own n
    have u : weight (dflt e) ≤ weight (dflt e) * held own n := le_mul d
    have v := Nat.mul_le_mul_left (weight (dflt e)) a
    simp only [weight, factor, Nat.add_mul, Nat.mul_add] at *
    omega
  | .sorted b c, old, n, s, o, n', s', hn, h => by
    have hn' : own = true ∨ noTables c := by simpa only [noTables] using hn
    rw [paste, Res.bind_eq_ok] at h
    obtain ⟨⟨x, n1, s1⟩, h1, h⟩ := h
    cases h
    obtain ⟨a, b', d⟩ := paste_weight hd c _ _ _ _ _ _ hn' h1
    refine ⟨a, b', ?_⟩
    have g := collect_weight b x
    have u : weight (dflt c) ≤ weight (dflt c) * held own n := le_mul (held_pos own n)
    have v := Nat.mul_le_mul_left (weight (dflt c)) a
    simp only [factor, Nat.add_mul, Nat.mul_add] at *
    omega
  | .bool, _, _, _, _, _, _, _, h | .int _, _, _, _, _, _, _, _, h | .float, _, _, _, _, _, _, _, h
  | .double, _, _, _, _, _, _, _, h | .str, _, _, _, _, _, _, _, h | .bytes, _, _, _, _, _, _, _, h => by
    simp [paste] at h
  | .arr _ _, .bool _, _, _, _, _, _, _, h | .arr _ _, .int _, _, _, _, _, _, _, h | .arr _ _, .float _, _, _, _, _, _, _, h
  | .arr _ _, .double _, _, _, _, _, _, _, h | .arr _ _, .str _, _, _, _, _, _, _, h | .arr _ _, .null, _, _, _, _, _, _, h
  | .arr _ _, .ref _, _, _, _, _, _, _, h => by simp [paste] at h
  | .record _ _ _, .bool _, _, _, _, _, _, _, h | .record _ _ _, .int _, _, _, _, _, _, _, h
  | .record _ _ _, .float _, _, _, _, _, _, _, h | .record _ _ _, .double _, _, _, _, _, _, _, h
  | .record _ _ _, .str _, _, _, _, _, _, _, h | .record _ _ _, .null, _, _, _, _, _, _, h
  | .record _ _ _, .ref _, _, _, _, _, _, _, h => by simp [paste] at h
theorem pasteMembers_weight {env : Env} (hd : ∀ d, (env.dtoa d).length ≤ 24) {fuel : Nat} :
    ∀ (fs : Fields) (os : List Obj) (ni vi : Nat) (n : LNode) (s : σ) (ys : List Obj) (n' : LNode) (s' : σ),
      (own = true ∨ noTablesL fs) → pasteMembers env read fuel fs os ni vi n s = .ok (ys, n', s') →
      μ s' ≤ μ s ∧ held own n' + μ s' ≤ held own n + μ s ∧
        weights ys + factors fs * μ s' ≤ weights os + factors fs * (held own n + μ s)
  | .nil, os, _, _, n, s, ys, n', s', _, h => by rw [pasteMembers] at h; cases h; simp [weights, factors]
  | .cons _ _ _ _, [], _, _, _, _, _, _, _, _, h => by rw [pasteMembers] at h; cases h
  | .cons name opt ty rest, o :: os, ni, vi, n, s, ys, n', s', hn, h => by
    have hn1 : own = true ∨ noTables ty := by simp only [noTablesL] at hn; exact hn.imp id And.left
    have hn2 : own = true ∨ noTablesL rest := by simp only [noTablesL] at hn; exact hn.imp id And.right
    have main : ∃ here n0 s0, (μ s0 ≤ μ s ∧ held own n0 + μ s0 ≤ held own n + μ s) ∧
        ((if here = false then do
            let (ys, n, s) ← pasteMembers env read fuel rest os ni vi n0 s0
            .ok (o :: ys, n, s)
          else if ty.isScope then
            if n0.parsed then do
              let c ← lookup (.of name ni) n0.nodes
              let y ← pasteNode env ty o c
              let (ys, n, s) ← pasteMembers env read fuel rest os (ni + 1) vi n0 s0
              .ok (y :: ys, n, s)
            else do
              let (c, n, s) ← consumeNode read fuel (.of name ni) n0 s0
              match c with
              | none => .err
              | some (_, c) => do
                let (y, c, s) ← paste env read fuel ty o c s
                let s ← finish read fuel c s
                let (ys, n, s) ← pasteMembers env read fuel rest os (ni + 1) vi n s
                .ok (y :: ys, n, s)
          else
            if n0.parsed then do
              let v ← lookup (.of name vi) n0.values
              let y ← pasteVal env ty o v
              let (ys, n, s) ← pasteMembers env read fuel rest os ni (vi + 1) n0 s0
              .ok (y :: ys, n, s)
            else do
              let (c, n, s) ← consumeValue read fuel (.of name vi) n0 s0
              match c with
              | none => .err
              | some (_, v) => do
                let y ← pasteVal env ty o v
                let (ys, n, s) ← pasteMembers env read fuel rest os ni (vi + 1) n s
                .ok (y :: ys, n, s)) = Res.ok (ys, n', s')) := by
      rw [pasteMembers] at h
      split at h
      · rw [Res.bind_eq_ok] at h
        obtain ⟨⟨here, n0, s0⟩, h0, h⟩ := h
        exact ⟨here, n0, s0, has_paid hp h0, h⟩
      · exact ⟨true, n, s, ⟨Nat.le_refl _, Nat.le_refl _⟩, h⟩
    clear h
    obtain ⟨here, n0, s0, ⟨a, b⟩, h⟩ := main
    have bF := Nat.mul_le_mul_left (factors rest) b
    have bK := Nat.mul_le_mul_left (factor ty) b
    split at h
    · simp only [Res.bind_eq_ok] at h
      obtain ⟨⟨ys1, n1, s1⟩, h1, h⟩ := h
      cases h
      try dsimp only
      obtain ⟨u, v, w⟩ := pasteMembers_weight hd rest _ _ _ _ _ _ _ _ hn2 h1
      have x := Nat.mul_le_mul_left (factor ty) (show μ s1 ≤ held own n + μ s by omega)
      refine ⟨by omega, by omega, ?_⟩
      simp only [weights, factors, Nat.add_mul] at *
      omega
    · split at h
      · split at h
        · simp only [Res.bind_eq_ok] at h
          obtain ⟨c, h0, y, h1, ⟨ys1, n1, s1⟩, h2, h⟩ := h
          cases h
          try dsimp only
          obtain ⟨u, v, w⟩ := pasteMembers_weight hd rest _ _ _ _ _ _ _ _ hn2 h2
          have p := pasteNode_weight (own := own) hd ty _ _ _ hn1 h1
          obtain ⟨nm, hm⟩ := Shared.lookup_mem h0
          have q : size own c + μ s1 ≤ held own n0 + μ s0 := by
            have := Nat.le_trans (itemN_le own (nm, c)) (Nat.le_trans (sum_mem _ hm)
              (content_nodes own n0.values n0.nodes))
            simp only [held] at *; omega
          have q := Nat.mul_le_mul_left (factor ty) q
          refine ⟨by omega, by omega, ?_⟩
          simp only [weights, factors, Nat.add_mul, Nat.mul_add] at *
          omega
        · simp only [Res.bind_eq_ok] at h
          obtain ⟨⟨c, n1, s1⟩, h0, h⟩ := h
          obtain ⟨e, g⟩ := consumeNode_paid hp h0
          cases c with
          | none => cases h
          | some c =>
            simp only [Res.bind_eq_ok] at h
            obtain ⟨⟨y, c1, s2⟩, h1, s3, h2, ⟨ys1, n2, s4⟩, h3, h⟩ := h
            cases h
            try dsimp only
            obtain ⟨i, j, k⟩ := paste_weight hd ty _ _ _ _ _ _ hn1 h1
            have l : μ s3 ≤ μ s2 := finish_paid hp h2
            obtain ⟨u, v, w⟩ := pasteMembers_weight hd rest _ _ _ _ _ _ _ _ hn2 h3
            simp only [Option.elim] at g
            have q := Nat.mul_le_mul_left (factor ty) (show μ s4 ≤ μ s2 by omega)
            have r := Nat.mul_le_mul_left (factor ty) (show held own c.2 + μ s1 ≤ held own n0 + μ s0 by omega)
            have t := Nat.mul_le_mul_left (factors rest) (show held own n1 + μ s3 ≤ held own n0 + μ s0 by omega)
            refine ⟨by omega, by omega, ?_⟩
            simp only [weights, factors, Nat.add_mul, Nat.mul_add] at *
            omega
      · split at h
        · simp only [Res.bind_eq_ok] at h
          obtain ⟨c, h0, y, h1, ⟨ys1, n1, s1⟩, h2, h⟩ := h
          cases h
          try dsimp only
          obtain ⟨u, v, w⟩ := pasteMembers_weight hd rest _ _ _ _ _ _ _ _ hn2 h2
          have p := pasteVal_weight hd ty _ _ _ h1
          obtain ⟨nm, hm⟩ := Shared.lookup_mem h0
          have q : 1 + valBytes c + μ s1 ≤ held own n0 + μ s0 := by
            have := Nat.le_trans (itemV_le own (nm, c)) (Nat.le_trans (sum_mem _ hm)
              (content_values own n0.values n0.nodes))
            simp only [held] at *; omega
          have q := Nat.mul_le_mul_left (factor ty) q
          refine ⟨by omega, by omega, ?_⟩
          simp only [weights, factors, Nat.add_mul, Nat.mul_add] at *
          omega
        · simp only [Res.bind_eq_ok] at h
          obtain ⟨⟨c, n1, s1⟩, h0, h⟩ := h
          obtain ⟨e, g⟩ := consumeValue_paid hp h0
          cases c with
          | none => cases h
          | some c =>
            simp only [Res.bind_eq_ok] at h
            obtain ⟨y, h1, ⟨ys1, n2, s4⟩, h3, h⟩ := h
            cases h
            try dsimp only
            have k := pasteVal_weight hd ty _ _ _ h1
            obtain ⟨u, v, w⟩ := pasteMembers_weight hd rest _ _ _ _ _ _ _ _ hn2 h3
            simp only [Option.elim, itemV] at g
            have q := Nat.mul_le_mul_left (factor ty)
              (show 1 + valBytes c.2 + μ s4 ≤ held own n0 + μ s0 by omega)
            have t := Nat.mul_le_mul_left (factors rest) (show held own n1 + μ s1 ≤ held own n0 + μ s0 by omega)
            refine ⟨by omega, by omega, ?_⟩
            simp only [weights, factors, Nat.add_mul, Nat.mul_add] at *
            omega
end

theorem restore_weight {env : Env} (hd : ∀ d, (env.dtoa d).length ≤ 24) {fuel : Nat} {ty : Ty} {old o : Obj} {s s' : σ}
    (hn : own = true ∨ noTables ty) (h : restore env read fuel ty old s = .ok (o, s')) :
    weight o + factor ty * μ s' ≤ weight old + factor ty * μ s := by
  rw [restore, Res.bind_eq_ok] at h
  obtain ⟨⟨⟨nm, tok⟩, s1⟩, h1, h⟩ := h
  have g := hp _ _ _ h1
  cases tok with
  | val v => cases h
  | scopeEnd => cases h
  | scope t =>
    simp only [gain] at g
    simp only at h
    split at h
    · rw [Res.bind_eq_ok] at h
      obtain ⟨⟨o1, n1, s2⟩, h2, h⟩ := h
      cases h
      try dsimp only
      obtain ⟨a, b, c⟩ := paste_weight hp hd ty _ _ _ _ _ _ hn h2
      have e : held own (LNode.fresh t) = 1 := rfl
      rw [e] at c
      have := Nat.mul_le_mul_left (factor ty) (show 1 + μ s1 ≤ μ s by omega)
      omega
    · simp only [Res.bind_eq_ok] at h
      obtain ⟨⟨c, n1, s2⟩, h2, h⟩ := h
      obtain ⟨a, b⟩ := consumeValue_paid hp h2
      cases c with
      | none => cases h
      | some c =>
        simp only [Res.bind_eq_ok] at h
        obtain ⟨o1, h3, h⟩ := h
        cases h
        try dsimp only
        have := pasteVal_weight hd ty _ _ _ h3
        have e : held own (LNode.fresh t) = 1 := rfl
        simp only [Option.elim, itemV, e] at b
        have i := held_pos own n1
        have := Nat.mul_le_mul_left (factor ty) (show 1 + valBytes c.2 + μ s' ≤ μ s by omega)
        simp only [Nat.mul_add] at *
        omega

theorem unwrap_weight {env : Env} (hd : ∀ d, (env.dtoa d).length ≤ 24) {fuel : Nat} {ty : Ty} {old o : Obj} {s : σ}
    (hn : own = true ∨ noTables ty) (h : loadUnwrap env read fuel ty old s = .ok o) :
    weight o ≤ weight old + factor ty * μ s := by
  rw [loadUnwrap, Res.bind_eq_ok] at h
  obtain ⟨⟨r, s1⟩, h1, h⟩ := h
  have g := load_paid hp h1
  simp only [unwrap] at h
  split at h
  · have := pasteNode_weight (own := own) hd ty _ _ _ hn h
    have := Nat.mul_le_mul_left (factor ty) (show size own r.node ≤ μ s by omega)
    omega
  · obtain ⟨nm, t, vs, ns⟩ := r
    simp only [Res.bind_eq_ok] at h
    obtain ⟨v, h2, h⟩ := h
    have := pasteVal_weight hd ty _ _ _ h
    obtain ⟨nm, hm⟩ := Shared.lookup_mem h2
    have c : 1 + valBytes v ≤ _ := Nat.le_trans (itemV_le own (nm, v)) (Nat.le_trans (sum_mem _ hm) (content_values own vs ns))
    rw [size_eq] at g
    have := Nat.mul_le_mul_left (factor ty) (show 1 + valBytes v ≤ μ s by omega)
    omega

end Srl.Props.Room
