import Verif.Lemmas.Memory

/-! How much objects hold that are restored (C84). -/

namespace Srl.Props.Room
open Typed Doc

variable {σ : Type}

theorem weight_pos : ∀ o : Obj, 1 ≤ weight o
  | .bool _ | .int _ | .float _ | .double _ | .null => by simp [weight]
  | .str _ | .many _ | .ref _ => by simp only [weight]; omega

theorem weights_append (xs ys : List Obj) : weights (xs ++ ys) = weights xs + weights ys := by
  induction xs with
  | nil => simp [weights]
  | cons x xs ih => simp only [List.cons_append, weights, ih]; omega

theorem emplace_weight (b : Order) (x : Obj) (ys : List Obj) : weights (emplace b x ys) ≤ weight x + weights ys := by
  induction ys with
  | nil => simp [emplace, weights]
  | cons y ys ih =>
    rw [emplace]
    split
    · simp [weights]
    · split <;> simp only [weights] <;> omega
    · simp only [weights]; omega

theorem collect_weight (b : Order) (o : Obj) : weight (collect b o) ≤ weight o := by
  cases o with
  | many xs =>
    have : ∀ (xs acc : List Obj), weights (xs.foldl (fun acc x => emplace b x acc) acc) ≤ weights acc + weights xs := by
      intro xs
      induction xs with
      | nil => intro acc; simp [weights]
      | cons x xs ih =>
        intro acc
        have h1 := ih (emplace b x acc)
        have h2 := emplace_weight b x acc
        simp only [List.foldl_cons, weights]
        omega
    have := this xs []
    simp only [collect, weight, weights] at *
    omega
  | _ => exact Nat.le_refl _

/-! ## Values -/

theorem putDigits_length : ∀ (room val : Nat) (acc : Bytes) (r : Nat) (t : Bytes),
    IntStr.putDigits room val acc = .ok (r, t) → t.length ≤ room + acc.length
  | 0, val, acc, r, t, h => by
    rw [IntStr.putDigits] at h
    split at h
    · cases h
    · cases h; omega
  | room + 1, val, acc, r, t, h => by
    rw [IntStr.putDigits] at h
    split at h
    · have := putDigits_length room _ _ _ _ h
      simp only [List.length_cons] at this
      omega
    · cases h; omega

theorem intToStr_length {t : IntTy} {v : Int} {s : Bytes} (h : IntStr.intToStr t v = .ok s) : s.length ≤ 30 := by
  rw [IntStr.intToStr] at h
  split at h
  · cases h
  · rw [IntStr.format] at h
    split at h
    · cases h; simp
    · rw [Res.bind_eq_ok] at h
      obtain ⟨⟨room, acc⟩, h1, h⟩ := h
      have h2 := putDigits_length _ _ _ _ _ h1
      have h3 : IntStr.bufferSize t ≤ 21 := by cases t <;> decide
      simp only [List.length_nil] at h2
      simp only at h
      split at h
      · split at h
        · cases h
        · cases h; simp only [List.length_cons]; omega
      · cases h; omega

theorem fpToStr_length {dtoa : UInt64 → Bytes} (hd : ∀ d, (dtoa d).length ≤ 24) {d : UInt64} {s : Bytes}
    (h : PJson.fpToStr dtoa d = .ok s) : s.length ≤ 30 := by
  have := hd d
  rw [PJson.fpToStr] at h
  split at h
  · split at h
    · split at h
      · cases h
      · exact intToStr_length h
    · cases h; omega
  · cases h; omega

theorem restoreBinary_length {s t : Bytes} (h : Base64.restoreBinary s = .ok t) : t.length ≤ s.length := by
  rw [Base64.restoreBinary] at h
  split at h
  · cases h; simp
  · have h1 : t.length ≤ Base64.decodedSize s := by
      unfold Base64.decode Base64.decodeTo at h
      first
        | exact Nat.le_of_eq (Base64.decLoop_length _ _ _ h)
        | (split at h
           · cases h
           · exact Nat.le_of_eq (Base64.decLoop_length _ _ _ h))
    have h2 : Base64.decodedSize s ≤ s.length := by
      unfold Base64.decodedSize
      split
      · omega
      · simp only; omega
    omega

theorem pasteVal_weight {env : Env} (hd : ∀ d, (env.dtoa d).length ≤ 24) :
    ∀ (ty : Ty) (old : Obj) (v : Val) (o : Obj), pasteVal env ty old v = .ok o →
      weight o ≤ weight old + factor ty * (1 + valBytes v)
  | .bool, old, v, o, h => by
    simp only [pasteVal, Res.bind_eq_ok] at h
    obtain ⟨_, _, h⟩ := h; cases h
    have := weight_pos old; simp only [weight]; omega
  | .int _, old, v, o, h => by
    simp only [pasteVal, Res.bind_eq_ok] at h
    obtain ⟨_, _, h⟩ := h; cases h
    have := weight_pos old; simp only [weight]; omega
  | .float, old, v, o, h => by
    simp only [pasteVal, Res.bind_eq_ok] at h
    obtain ⟨_, _, h⟩ := h; cases h
    have := weight_pos old; simp only [weight]; omega
  | .double, old, v, o, h => by
    simp only [pasteVal, Res.bind_eq_ok] at h
    obtain ⟨_, _, h⟩ := h; cases h
    have := weight_pos old; simp only [weight]; omega
  | .str, old, v, o, h => by
    have txt : ∀ t : Bytes, t.length ≤ 30 → weight (.str t) ≤ weight old + factor .str * (1 + valBytes v) := by
      intro t ht
      simp only [weight, factor]; omega
    cases v with
    | null => simp only [pasteVal] at h; cases h; omega
    | str s => simp only [pasteVal] at h; cases h; simp only [weight, factor, valBytes]; omega
    | bin s => simp only [pasteVal] at h; cases h
    | bool b =>
      simp only [pasteVal, PJson.scalarText, Res.ok_bind] at h
      cases h
      exact txt _ (by cases b <;> decide)
    | int t i =>
      simp only [pasteVal, PJson.scalarText, Res.bind_eq_ok] at h
      obtain ⟨s, h1, h⟩ := h; cases h
      exact txt _ (intToStr_length h1)
    | fp32 f =>
      simp only [pasteVal, PJson.scalarText, Res.bind_eq_ok] at h
      obtain ⟨s, h1, h⟩ := h; cases h
      exact txt _ (fpToStr_length hd h1)
    | fp64 f =>
      simp only [pasteVal, PJson.scalarText, Res.bind_eq_ok] at h
      obtain ⟨s, h1, h⟩ := h; cases h
      exact txt _ (fpToStr_length hd h1)
  | .bytes, old, v, o, h => by
    have := weight_pos old
    cases v with
    | bin s => simp only [pasteVal] at h; cases h; simp only [weight, factor, valBytes]; omega
    | str s =>
      simp only [pasteVal, Res.bind_eq_ok] at h
      obtain ⟨t, h1, h⟩ := h
      cases h
      have := restoreBinary_length h1
      simp only [weight, factor, valBytes]; omega
    | _ => simp only [pasteVal] at h; cases h
  | .ptr k e, old, v, o, h => by
    have := weight_pos old
    rw [pasteVal] at h
    split at h
    · cases h; simp only [weight]; omega
    · rw [Res.bind_eq_ok] at h
      obtain ⟨s, h1, h⟩ := h
      cases h
      have := pasteVal_weight hd e _ _ _ h1
      simp only [weight, factor, Nat.mul_add, Nat.add_mul] at *
      omega
  | .vec _, _, _, _, h => by simp [pasteVal] at h
  | .named _, _, _, _, h => by simp [pasteVal] at h
  | .arr _ _, _, _, _, h => by simp [pasteVal] at h
  | .record _ _ _, _, _, _, h => by simp [pasteVal] at h
  | .sorted _ _, _, _, _, h => by simp [pasteVal] at h

/-! ## Nodes read to their end -/

theorem mapRes_weight {α : Type} {f : α → Res Obj} {w : α → Nat} {C : Nat} :
    ∀ (xs : List α) (ys : List Obj), (∀ x ∈ xs, ∀ y, f x = .ok y → weight y ≤ C * w x) → mapRes f xs = .ok ys →
      weights ys ≤ C * (xs.map w).sum
  | [], _, _, h => by cases h; simp [weights]
  | x :: xs, ys, hf, h => by
    simp only [mapRes, Res.bind_eq_ok] at h
    obtain ⟨y, h1, ys1, h2, h⟩ := h
    cases h
    have a := hf x (by simp) _ h1
    have b := mapRes_weight xs ys1 (fun z hz => hf z (by simp [hz])) h2
    simp only [weights, List.map_cons, List.sum_cons, Nat.mul_add]
    omega

theorem zipRes_weight {α : Type} {f : Obj → α → Res Obj} {w : α → Nat} {C : Nat} :
    ∀ (xs : List α) (os ys : List Obj), (∀ o, ∀ x ∈ xs, ∀ y, f o x = .ok y → weight y ≤ weight o + C * w x) →
      zipRes f os xs = .ok ys → weights ys ≤ weights os + C * (xs.map w).sum
  | [], _, _, _, h => by rw [zipRes] at h; cases h; simp
  | x :: xs, [], ys, hf, h => by cases h
  | x :: xs, o :: os, ys, hf, h => by
    simp only [zipRes, Res.bind_eq_ok] at h
    obtain ⟨y, h1, ys1, h2, h⟩ := h
    cases h
    have a := hf o x (by simp) _ h1
    have b := zipRes_weight xs os ys1 (fun o z hz => hf o z (by simp [hz])) h2
    simp only [weights, List.map_cons, List.sum_cons, Nat.mul_add]
    omega

theorem sum_mem {α : Type} (w : α → Nat) {x : α} : ∀ {xs : List α}, x ∈ xs → w x ≤ (xs.map w).sum
  | y :: ys, h => by
    rw [List.mem_cons] at h
    simp only [List.map_cons, List.sum_cons]
    rcases h with h | h
    · subst h; omega
    · have := sum_mem w h; omega

theorem size_pos (own : Bool) (n : Node) : 1 ≤ size own n := by
  cases n; rw [size_eq]; omega

/-- `C * 1 ≤ C * k` -/
theorem le_mul {C k : Nat} (h : 1 ≤ k) : C ≤ C * k := by
  have := Nat.mul_le_mul_left C h; omega

theorem itemN_le (own : Bool) (p : Bytes × Node) : size own p.2 ≤ itemN own p := by unfold itemN; omega

theorem itemV_le (own : Bool) (p : Bytes × Val) : 1 + valBytes p.2 ≤ itemV own p := by unfold itemV; omega

theorem content_values (own : Bool) (vs : List (Bytes × Val)) (ns : List (Bytes × Node)) :
    (vs.map (itemV own)).sum ≤ content own vs ns := by unfold content; omega

theorem content_nodes (own : Bool) (vs : List (Bytes × Val)) (ns : List (Bytes × Node)) :
    (ns.map (itemN own)).sum ≤ content own vs ns := by unfold content; omega

/-- Weight of an element -/
theorem elem_le {y d K a b : Nat} (h : y ≤ d + K * a) (ha : 1 ≤ a) (hb : a ≤ b) : y ≤ (d + K) * b := by
  have h1 := Nat.mul_le_mul_left K hb
  have h2 : d ≤ d * b := le_mul (by omega)
  rw [Nat.add_mul]; omega

/-- Weight of an entry of a table -/
theorem entry_le {y d K a b l : Nat} (h : y ≤ d + K * a) (ha : 1 ≤ a) (hb : a + l ≤ b) :
    1 + (1 + l + (y + 0)) ≤ (3 + d + K) * b := by
  have h1 : y ≤ (d + K) * b := elem_le h ha (by omega)
  have e : (3 + d + K) * b = 3 * b + (d + K) * b := by rw [Nat.add_assoc, Nat.add_mul]
  rw [e]; omega

variable {own : Bool}

mutual
theorem pasteNode_weight {env : Env} (hd : ∀ d, (env.dtoa d).length ≤ 24) :
    ∀ (ty : Ty) (old : Obj) (n : Node) (o : Obj), (own = true ∨ noTables ty) → pasteNode env ty old n = .ok o →
      weight o ≤ weight old + factor ty * size own n
  | .vec e, old, .mk t vs ns, o, hn, h => by
    have hn' : own = true ∨ noTables e := by simpa only [noTables] using hn
    have hold := weight_pos old
    have key : ∃ ys, o = .many ys ∧ weights ys ≤ (weight (dflt e) + factor e) * content own vs ns := by
      rw [pasteNode] at h
      split at h <;> (rw [Res.bind_eq_ok] at h; obtain ⟨ys, h1, h⟩ := h; cases h; refine ⟨ys, rfl, ?_⟩)
      · refine Nat.le_trans (mapRes_weight (w := itemN own) _ _ (fun p hp y hy => ?_) h1)
          (Nat.mul_le_mul_left _ (content_nodes own vs ns))
        exact elem_le (pasteNode_weight hd e _ _ _ hn' hy) (size_pos _ _) (itemN_le _ _)
      · refine Nat.le_trans (mapRes_weight (w := itemV own) _ _ (fun p hp y hy => ?_) h1)
          (Nat.mul_le_mul_left _ (content_values own vs ns))
        exact elem_le (pasteVal_weight hd e _ _ _ hy) (by omega) (itemV_le _ _)
    obtain ⟨ys, rfl, key⟩ := key
    rw [size_eq]
    simp only [weight, factor, Nat.mul_add, Nat.add_mul] at *
    omega
  | .named e, old, .mk t vs ns, o, hn, h => by
    have hown : own = true := by simpa only [noTables, or_false] using hn
    have hold := weight_pos old
    rw [pasteNode] at h
    split at h
    · cases h
    have key : ∃ ys, o = .many ys ∧ weights ys ≤ (3 + weight (dflt e) + factor e) * content own vs ns := by
      simp only at h
      split at h <;> (rw [Res.bind_eq_ok] at h; obtain ⟨ys, h1, h⟩ := h; cases h; refine ⟨ys, rfl, ?_⟩)
      · refine Nat.le_trans (mapRes_weight (w := itemN own) _ _ (fun p hp y hy => ?_) h1)
          (Nat.mul_le_mul_left _ (content_nodes own vs ns))
        rw [Res.bind_eq_ok] at hy
        obtain ⟨z, hz, hy⟩ := hy
        cases hy
        exact entry_le (pasteNode_weight hd e _ _ _ (Or.inl hown) hz) (size_pos own _)
          (by simp only [itemN, nameBytes, hown, if_true]; omega)
      · refine Nat.le_trans (mapRes_weight (w := itemV own) _ _ (fun p hp y hy => ?_) h1)
          (Nat.mul_le_mul_left _ (content_values own vs ns))
        rw [Res.bind_eq_ok] at hy
        obtain ⟨z, hz, hy⟩ := hy
        cases hy
        exact entry_le (pasteVal_weight hd e _ _ _ hz) (by omega)
          (by simp only [itemV, nameBytes, hown, if_true]; omega)
    obtain ⟨ys, rfl, key⟩ := key
    rw [size_eq]
    simp only [weight, factor, Nat.mul_add, Nat.add_mul] at *
    omega
  | .arr k e, .many os, .mk t vs ns, o, hn, h => by
    have hn' : own = true ∨ noTables e := by simpa only [noTables] using hn
    rw [pasteNode] at h
    rw [size_eq]
    split at h
    · split at h
      · cases h
      · rw [Res.bind_eq_ok] at h
        obtain ⟨ys, h1, h⟩ := h
        cases h
        have a := zipRes_weight (w := itemN own) _ _ _ (fun o p hp y hy => Nat.le_trans (pasteNode_weight hd e _ _ _ hn' hy)
          (Nat.add_le_add_left (Nat.mul_le_mul_left _ (itemN_le own p)) _)) h1
        have b := Nat.mul_le_mul_left (factor e) (content_nodes own vs ns)
        simp only [weight, factor, Nat.mul_add] at *
        omega
    · split at h
      · cases h
      · rw [Res.bind_eq_ok] at h
        obtain ⟨ys, h1, h⟩ := h
        cases h
        have a := zipRes_weight (w := itemV own) _ _ _ (fun o p hp y hy => Nat.le_trans (pasteVal_weight hd e _ _ _ hy)
          (Nat.add_le_add_left (Nat.mul_le_mul_left _ (itemV_le own p)) _)) h1
        have b := Nat.mul_le_mul_left (factor e) (content_values own vs ns)
        simp only [weight, factor, Nat.mul_add] at *
        omega
  | .record t strict fs, .many os, .mk _ vs ns, o, hn, h => by
    have hn' : own = true ∨ noTablesL fs := by simpa only [noTables] using hn
    rw [pasteNode] at h
    split at h
    · cases h
    · rw [Res.bind_eq_ok] at h
      obtain ⟨ys, h1, h⟩ := h
      cases h
      have a := pasteFields_weight hd fs _ _ _ _ _ _ hn' h1
      have b : factors fs * content own vs ns ≤ factors fs * (1 + content own vs ns) :=
        Nat.mul_le_mul_left _ (by omega)
      rw [size_eq]
      simp only [weight, factor] at *
      omega
  | .ptr k e, old, n, o, hn, h => by
    have hn' : own = true ∨ noTables e := by simpa only [noTables] using hn
    rw [pasteNode, Res.bind_eq_ok] at h
    obtain ⟨x, h1, h⟩ := h
    cases h
    have a := pasteNode_weight hd e _ _ _ hn' h1
    have b := size_pos own n
    have c : weight (dflt e) ≤ weight (dflt e) * size own n := le_mul b
    simp only [weight, factor, Nat.add_mul] at *
    omega
  | .sorted b c, old, n, o, hn, h => by
    have hn' : own = true ∨ noTables c := by simpa only [noTables] using hn
    rw [pasteNode, Res.bind_eq_ok] at h
    obtain ⟨x, h1, h⟩ := h
    cases h
    have a := pasteNode_weight hd c _ _ _ hn' h1
    have d := collect_weight b x
    have c : weight (dflt c) ≤ weight (dflt c) * size own n := le_mul (size_pos own n)
    simp only [factor, Nat.add_mul] at *
    omega
  | .bool, _, _, _, _, h | .int _, _, _, _, _, h | .float, _, _, _, _, h | .double, _, _, _, _, h
  | .str, _, _, _, _, h | .bytes, _, _, _, _, h => by simp [pasteNode] at h
  | .arr _ _, .bool _, _, _, _, h | .arr _ _, .int _, _, _, _, h | .arr _ _, .float _, _, _, _, h
  | .arr _ _, .double _, _, _, _, h | .arr _ _, .str _, _, _, _, h | .arr _ _, .null, _, _, _, h
  | .arr _ _, .ref _, _, _, _, h => by simp [pasteNode] at h
  | .record _ _ _, .bool _, _, _, _, h | .record _ _ _, .int _, _, _, _, h | .record _ _ _, .float _, _, _, _, h
  | .record _ _ _, .double _, _, _, _, h | .record _ _ _, .str _, _, _, _, h | .record _ _ _, .null, _, _, _, h
  | .record _ _ _, .ref _, _, _, _, h => by simp [pasteNode] at h
theorem pasteFields_weight {env : Env} (hd : ∀ d, (env.dtoa d).length ≤ 24) :
    ∀ (fs : Fields) (os : List Obj) (ni vi : Nat) (vs : List (Bytes × Val)) (ns : List (Bytes × Node))
      (ys : List Obj), (own = true ∨ noTablesL fs) → pasteFields env fs os ni vi vs ns = .ok ys →
      weights ys ≤ weights os + factors fs * content own vs ns
  | .nil, os, _, _, _, _, ys, _, h => by rw [pasteFields] at h; cases h; simp [weights]
  | .cons _ _ _ _, [], _, _, _, _, ys, _, h => by rw [pasteFields] at h; cases h
  | .cons name opt ty rest, o :: os, ni, vi, vs, ns, ys, hn, h => by
    have hn1 : own = true ∨ noTables ty := by simp only [noTablesL] at hn; exact hn.imp id And.left
    have hn2 : own = true ∨ noTablesL rest := by simp only [noTablesL] at hn; exact hn.imp id And.right
    rw [pasteFields] at h
    split at h
    · split at h
      · rw [Res.bind_eq_ok] at h
        obtain ⟨ys1, h1, h⟩ := h
        cases h
        have := pasteFields_weight hd rest _ _ _ _ _ _ hn2 h1
        simp only [weights, factors, Nat.add_mul] at *
        omega
      · simp only [Res.bind_eq_ok] at h
        obtain ⟨n, h0, y, h1, ys1, h2, h⟩ := h
        cases h
        have a := pasteFields_weight hd rest _ _ _ _ _ _ hn2 h2
        have b := pasteNode_weight hd ty _ _ _ hn1 h1
        obtain ⟨nm, hm⟩ := Shared.lookup_mem h0
        have c : size own n ≤ content own vs ns := Nat.le_trans (itemN_le own (nm, n))
          (Nat.le_trans (sum_mem _ hm) (content_nodes own vs ns))
        have d := Nat.mul_le_mul_left (factor ty) c
        simp only [weights, factors, Nat.add_mul] at *
        omega
    · split at h
      · rw [Res.bind_eq_ok] at h
        obtain ⟨ys1, h1, h⟩ := h
        cases h
        have := pasteFields_weight hd rest _ _ _ _ _ _ hn2 h1
        simp only [weights, factors, Nat.add_mul] at *
        omega
      · simp only [Res.bind_eq_ok] at h
        obtain ⟨n, h0, y, h1, ys1, h2, h⟩ := h
        cases h
        have a := pasteFields_weight hd rest _ _ _ _ _ _ hn2 h2
        have b := pasteVal_weight hd ty _ _ _ h1
        obtain ⟨nm, hm⟩ := Shared.lookup_mem h0
        have c : 1 + valBytes n ≤ content own vs ns := Nat.le_trans (itemV_le own (nm, n))
          (Nat.le_trans (sum_mem _ hm) (content_values own vs ns))
        have d := Nat.mul_le_mul_left (factor ty) c
        simp only [weights, factors, Nat.add_mul] at *
        omega
end

end Srl.Props.Room
