import Verif.Lemmas.MemoryObj
import Verif.Lemmas.MemoryFormats
import Verif.Lemmas.PMsgPack
import Verif.Lemmas.PJsonDoc
import Verif.Lemmas.Base64

/-! How many bytes are written for a tree (C94). -/

namespace Srl.Saved
open Props.Room

/-- `a` for each value, node and byte, `c` for each end -/
def weighed (own : Bool) (a c : Nat) (e : Event) : Nat :=
  match e.tok with
  | .scopeEnd => c
  | _ => a * gain own e

private theorem values_sum (own : Bool) (a c : Nat) : ∀ vs : List (Bytes × Val),
    ((vs.map fun p => (⟨p.1, .val p.2⟩ : Event)).map (weighed own a c)).sum =
      a * (vs.map fun p => 1 + valBytes p.2 + nameBytes own p.1).sum
  | [] => rfl
  | v :: vs => by
    rw [List.map_cons, List.map_cons, List.sum_cons, values_sum own a c vs, List.map_cons, List.sum_cons, Nat.mul_add]
    rfl

mutual
theorem events_sum (own : Bool) (a c : Nat) : ∀ (n : Node) (name : Bytes),
    ((n.events name).map (weighed own a c)).sum ≤ (a + c) * (nameBytes own name + size own n)
  | .mk t vs ns, name => by
    have h1 := values_sum own a c vs
    have h2 := eventsL_sum own a c ns
    rw [Node.events, List.map_cons, List.sum_cons, List.map_append, List.map_append, List.sum_append, List.sum_append, h1,
      size]
    have h3 : weighed own a c ⟨name, .scope t⟩ = a * (1 + nameBytes own name) := rfl
    have h4 : (([⟨[], .scopeEnd⟩] : List Event).map (weighed own a c)).sum = c := by simp [weighed]
    rw [h3, h4]
    simp only [Nat.add_mul, Nat.mul_add] at *
    omega
theorem eventsL_sum (own : Bool) (a c : Nat) : ∀ (ns : List (Bytes × Node)),
    ((Node.eventsL ns).map (weighed own a c)).sum ≤ (a + c) * sizes own ns
  | [] => by simp [Node.eventsL]
  | (name, n) :: ns => by
    have h1 := events_sum own a c n name
    have h2 := eventsL_sum own a c ns
    rw [Node.eventsL, List.map_append, List.sum_append, sizes, Nat.mul_add]
    omega
end

mutual
theorem events_names : ∀ (n : Node) (name : Bytes), ∀ e ∈ n.events name, e.name = [] ∨ e.name ∈ name :: names n
  | .mk t vs ns, name => by
    intro e he
    rw [Node.events] at he
    simp only [List.mem_cons, List.mem_append, List.mem_map, List.not_mem_nil, or_false] at he
    rw [names]
    rcases he with rfl | (⟨p, hp, rfl⟩ | he) | rfl
    · exact .inr (List.mem_cons_self ..)
    · exact .inr (List.mem_cons_of_mem _ (List.mem_append_left _ (List.mem_map.mpr ⟨p, hp, rfl⟩)))
    · rcases eventsL_names ns e he with h | h
      · exact .inl h
      · exact .inr (List.mem_cons_of_mem _ (List.mem_append_right _ h))
    · exact .inl rfl
theorem eventsL_names : ∀ (ns : List (Bytes × Node)), ∀ e ∈ Node.eventsL ns, e.name = [] ∨ e.name ∈ namesL ns
  | [], e, he => by simp [Node.eventsL] at he
  | (name, n) :: ns, e, he => by
    rw [Node.eventsL, List.mem_append] at he
    rw [namesL]
    rcases he with he | he
    · rcases events_names n name e he with h | h
      · exact .inl h
      · exact .inr (List.mem_append_left _ h)
    · rcases eventsL_names ns e he with h | h
      · exact .inl h
      · exact .inr (List.mem_append_right _ h)
end

/-! ## MessagePack -/

theorem writeStr_length (b : Bytes) : (PMsgPack.writeStr b).length ≤ 5 + b.length := by
  unfold PMsgPack.writeStr
  split
  · simp; omega
  split
  · simp; omega
  split <;> simp [leBytes_length] <;> omega

theorem writeVal_length (v : Val) : (PMsgPack.writeVal v).length ≤ 9 + valBytes v := by
  cases v with
  | str s => have := writeStr_length s; simp only [PMsgPack.writeVal, valBytes]; omega
  | bin s =>
    simp only [PMsgPack.writeVal, valBytes, PMsgPack.writeBin]
    split
    · simp; omega
    split <;> simp [leBytes_length] <;> omega
  | int t v =>
    simp only [PMsgPack.writeVal, valBytes, PMsgPack.writeInt]
    split
    · simp
    split
    · simp
    · cases t <;> simp [PMsgPack.beBytes, leBytes_length, IntTy.bits]
  | _ => simp [PMsgPack.writeVal, valBytes, PMsgPack.beBytes, leBytes_length]

theorem patch_length (out : Bytes) (pos : Nat) (b : Bytes) (h : pos + b.length ≤ out.length) :
    (PMsgPack.patch out pos b).length = out.length := by
  simp only [PMsgPack.patch, List.length_append, List.length_take, List.length_drop]
  omega

/-- The places kept for the numbers of elements are in the output. -/
def Tickets (x : List PMsgPack.WScope × Bytes) : Prop := ∀ sc ∈ x.1, sc.ticket + 4 ≤ x.2.length

theorem msgpack_write {x y : List PMsgPack.WScope × Bytes} {e : Event} (hx : Tickets x) (h : PMsgPack.write x e = .ok y) :
    Tickets y ∧ y.2.length ≤ x.2.length + weighed true 14 0 e := by
  obtain ⟨stack, out⟩ := x
  obtain ⟨name, tok⟩ := e
  have key : ∀ b, (PMsgPack.writeKey b name).length ≤ 5 + name.length := fun b => by
    have := writeStr_length name
    unfold PMsgPack.writeKey
    split <;> simp <;> omega
  have push : ∀ sc ∈ PMsgPack.push1 stack, sc.ticket + 4 ≤ out.length := by
    intro sc hs
    cases stack with
    | nil => simp [PMsgPack.push1] at hs
    | cons a st =>
      simp only [PMsgPack.push1, List.mem_cons] at hs
      rcases hs with rfl | hs
      · exact hx a (List.mem_cons_self ..)
      · exact hx sc (List.mem_cons_of_mem _ hs)
  cases tok with
  | val v =>
    rw [PMsgPack.write_val] at h
    cases h
    have := writeVal_length v
    have := key (PMsgPack.wnamed stack)
    refine ⟨fun sc hs => ?_, ?_⟩
    · have := push sc hs
      simp only [List.length_append]; omega
    · simp only [weighed, gain, nameBytes, List.length_append, if_true]; omega
  | scope t =>
    rw [PMsgPack.write_scope] at h
    cases h
    have := key (PMsgPack.wnamed stack)
    have hl : (PMsgPack.writeHead t 0).length = 5 := by
      cases t <;> simp [PMsgPack.writeHead, PMsgPack.beBytes, leBytes_length]
    refine ⟨fun sc hs => ?_, ?_⟩
    · simp only [List.length_append, hl]
      rcases List.mem_cons.mp hs with rfl | hs
      · simp only [List.length_append]; omega
      · have := push sc hs; omega
    · simp only [weighed, gain, nameBytes, List.length_append, if_true, hl]; omega
  | scopeEnd =>
    cases stack with
    | nil => cases h
    | cons sc st =>
      cases h
      have h1 := hx sc (List.mem_cons_self ..)
      have h2 := patch_length out sc.ticket (PMsgPack.beBytes 4 sc.elements)
        (by simp only [PMsgPack.beBytes, List.length_reverse, leBytes_length]; exact h1)
      refine ⟨fun s hs => ?_, ?_⟩
      · rw [h2]; exact hx s (List.mem_cons_of_mem _ hs)
      · rw [h2]; simp [weighed]

theorem msgpack_writeAll : ∀ (es : List Event) (x y : List PMsgPack.WScope × Bytes), Tickets x →
    PMsgPack.writeAll x es = .ok y → y.2.length ≤ x.2.length + (es.map (weighed true 14 0)).sum
  | [], x, y, _, h => by cases h; simp
  | e :: es, x, y, hx, h => by
    rw [PMsgPack.writeAll, Res.bind_eq_ok] at h
    obtain ⟨z, h1, h2⟩ := h
    obtain ⟨a, b⟩ := msgpack_write hx h1
    have := msgpack_writeAll es z y a h2
    rw [List.map_cons, List.sum_cons]
    omega

/-! ## Srl -/

theorem vlq_length : ∀ (room n : Nat) (b : Bytes), Vlq.encLoop room n = .ok b → b.length ≤ room
  | 0, _, _, h => by cases h
  | room + 1, n, b, h => by
    rw [Vlq.encLoop] at h
    split at h
    · rw [Res.bind_eq_ok] at h
      obtain ⟨t, h1, h2⟩ := h
      have := vlq_length room _ _ h1
      cases h2
      simp only [List.length_cons]; omega
    · cases h; simp

theorem indexOf_none {name : Bytes} : ∀ {ns : List Bytes}, PSrl.indexOf name ns = none → name ∉ ns
  | [], _ => by simp
  | n :: ns, h => by
    rw [PSrl.indexOf] at h
    split at h
    · cases h
    · rename_i hn
      have := indexOf_none (Option.map_eq_none_iff.mp h)
      simp only [List.mem_cons, not_or]
      exact ⟨fun e => hn e.symm, this⟩

theorem srl_head {st : PSrl.St} {flag : UInt8} {name h : Bytes} {ns : List Bytes} (hn : st.names.Nodup)
    (hw : PSrl.writeHead st flag name = .ok (ns, h)) :
    h.length + total st.names ≤ 11 + total ns ∧ ns.Nodup ∧ ∀ x ∈ ns, x ∈ st.names ∨ (x = name ∧ x ≠ []) := by
  rw [PSrl.writeHead] at hw
  split at hw
  · cases hw
    exact ⟨by simp, hn, fun x hx => .inl hx⟩
  · rename_i hc
    dsimp only at hw
    split at hw
    · rw [Res.bind_eq_ok] at hw
      obtain ⟨t, h1, h2⟩ := hw
      have := vlq_length _ _ _ h1
      cases h2
      exact ⟨by simp only [List.length_cons]; omega, hn, fun x hx => .inl hx⟩
    · rename_i hi
      rw [Res.bind_eq_ok] at hw
      obtain ⟨t, h1, h2⟩ := hw
      have := vlq_length _ _ _ h1
      cases h2
      have hnot := indexOf_none hi
      refine ⟨?_, ?_, ?_⟩
      · rw [total_append]
        simp only [List.length_cons, List.length_append, total, List.map_cons, List.map_nil, List.sum_cons, List.sum_nil]
        omega
      · rw [List.nodup_append]
        refine ⟨hn, by simp, ?_⟩
        intro a ha b hb
        simp only [List.mem_singleton] at hb
        subst hb
        exact fun e => hnot (e ▸ ha)
      · intro x hx
        rcases List.mem_append.mp hx with hx | hx
        · exact .inl hx
        · simp only [List.mem_singleton] at hx
          subst hx
          refine .inr ⟨rfl, fun e => hc (.inl ?_)⟩
          simp [e]

theorem srl_body {v : Val} {b : Bytes} (h : PSrl.writeBody v = .ok b) : b.length ≤ 10 + valBytes v := by
  cases v with
  | null => cases h; simp
  | bool _ => cases h; simp
  | fp32 f => cases h; simp [leBytes_length, valBytes]
  | fp64 f => cases h; simp [leBytes_length, valBytes]
  | int t v =>
    rw [PSrl.writeBody] at h
    split at h
    · split at h
      · cases h
      · have := vlq_length _ _ _ h; omega
    · have := vlq_length _ _ _ h; omega
  | str s | bin s =>
    rw [PSrl.writeBody, Res.bind_eq_ok] at h
    obtain ⟨t, h1, h2⟩ := h
    have := vlq_length _ _ _ h1
    cases h2
    simp only [valBytes, List.length_append]; omega

theorem srl_write {st st' : PSrl.St} {e : Event} {b : Bytes} (hn : st.names.Nodup) (h : PSrl.write st e = .ok (st', b)) :
    b.length + total st.names ≤ weighed false 21 1 e + total st'.names ∧ st'.names.Nodup ∧
      ∀ x ∈ st'.names, x ∈ st.names ∨ (x = e.name ∧ x ≠ []) := by
  obtain ⟨name, tok⟩ := e
  cases tok with
  | scopeEnd =>
    unfold PSrl.write at h
    dsimp only at h
    split at h
    · cases h
    · cases h; exact ⟨by simp [weighed], hn, fun x hx => .inl hx⟩
  | scope t =>
    simp only [PSrl.write, Res.bind_eq_ok] at h
    obtain ⟨⟨ns, w⟩, h1, h2⟩ := h
    cases h2
    obtain ⟨a, b, c⟩ := srl_head hn h1
    refine ⟨?_, b, c⟩
    simp only [weighed, gain, nameBytes]; simp; omega
  | val v =>
    simp only [PSrl.write, Res.bind_eq_ok] at h
    obtain ⟨⟨ns, w⟩, h1, t, h2, h3⟩ := h
    cases h3
    obtain ⟨a, b, c⟩ := srl_head hn h1
    have := srl_body h2
    refine ⟨?_, b, c⟩
    simp only [weighed, gain, nameBytes, List.length_append]; simp; omega

theorem srl_writeAll : ∀ (es : List Event) (st st' : PSrl.St) (b : Bytes), st.names.Nodup →
    PSrl.writeAll st es = .ok (st', b) →
    b.length + total st.names ≤ (es.map (weighed false 21 1)).sum + total st'.names ∧ st'.names.Nodup ∧
      ∀ x ∈ st'.names, x ∈ st.names ∨ ((∃ e ∈ es, x = e.name) ∧ x ≠ [])
  | [], st, st', b, hn, h => by cases h; exact ⟨by simp, hn, fun x hx => .inl hx⟩
  | e :: es, st, st', b, hn, h => by
    simp only [PSrl.writeAll, Res.bind_eq_ok] at h
    obtain ⟨⟨s1, b1⟩, h1, ⟨s2, b2⟩, h2, h3⟩ := h
    cases h3
    obtain ⟨p1, p2, p3⟩ := srl_write hn h1
    obtain ⟨q1, q2, q3⟩ := srl_writeAll es _ _ _ p2 h2
    refine ⟨?_, q2, fun x hx => ?_⟩
    · simp only [List.length_append, List.map_cons, List.sum_cons]; omega
    · rcases q3 x hx with h | ⟨⟨e', he', rfl⟩, hx⟩
      · rcases p3 x h with h | ⟨rfl, hx⟩
        · exact .inl h
        · exact .inr ⟨⟨e, List.mem_cons_self .., rfl⟩, hx⟩
      · exact .inr ⟨⟨e', List.mem_cons_of_mem _ he', rfl⟩, hx⟩

/-- Different texts of a list have no more bytes than the list. -/
theorem total_subset : ∀ (xs ys : List Bytes), xs.Nodup → (∀ x ∈ xs, x ∈ ys) → total xs ≤ total ys
  | [], ys, _, _ => by simp [total]
  | x :: xs, ys, hn, hs => by
    obtain ⟨a, b, rfl⟩ := List.append_of_mem (hs x (List.mem_cons_self ..))
    rw [List.nodup_cons] at hn
    have := total_subset xs (a ++ b) hn.2 fun y hy => by
      have h1 := hs y (List.mem_cons_of_mem _ hy)
      have h2 : y ≠ x := fun e => hn.1 (e ▸ hy)
      simp only [List.mem_append, List.mem_cons] at h1 ⊢
      rcases h1 with h | h | h
      · exact .inl h
      · exact absurd h h2
      · exact .inr h
    rw [total_append] at *
    have e : ∀ ys, total (x :: ys) = x.length + total ys := fun ys => by simp [total]
    rw [e, e]
    omega

/-! ## JSON -/

theorem escape_length (s : Bytes) : (PJson.escape s).length ≤ 2 * s.length := by
  have h : ∀ b : UInt8, (PJson.escapeByte b).length ≤ 2 := fun b => by
    unfold PJson.escapeByte
    repeat' split
    all_goals simp
  induction s with
  | nil => simp [PJson.escape]
  | cons b s ih =>
    have := h b
    simp only [PJson.escape, List.flatMap_cons, List.length_append, List.length_cons] at *
    omega

theorem base64_length (s : Bytes) : (Base64.encode s).length ≤ 2 * s.length + 2 := by
  have h1 := Base64.encLoop_length s
  have h : (Base64.encode s).length = (Base64.encLoop s).length := by
    simp only [Base64.encode]
    split <;> split <;> simp
  omega

theorem valText_length {dtoa : UInt64 → Bytes} (hd : ∀ d, (dtoa d).length ≤ 24) {v : Val} {t : Bytes}
    (h : PJson.valText dtoa v = .ok t) : t.length ≤ 30 + 2 * valBytes v := by
  cases v with
  | str s => cases h; have := escape_length s; simp [valBytes]; omega
  | bin s => cases h; have := base64_length s; simp [valBytes]; omega
  | bool b => cases h; cases b <;> simp [valBytes, str]
  | null => cases h; simp [valBytes, str]
  | int t v => have := Props.Room.intToStr_length h; omega
  | fp32 f => have := fpToStr_length hd h; omega
  | fp64 d => have := fpToStr_length hd h; omega

/-- What line ends and tabs take, at most, with `k` scopes open -/
def pad (compact : Bool) (k : Nat) : Nat := if compact then 0 else 1 + k

theorem pad_mono (compact : Bool) {j k : Nat} (h : j ≤ k) : pad compact j ≤ pad compact k := by
  unfold pad; split <;> omega

theorem spacing_length (compact : Bool) (w : PJson.Wr) (isEnd : Bool) :
    (PJson.spacing compact w isEnd).length ≤ (if isEnd then 0 else 1) + pad compact w.stack.length := by
  unfold PJson.spacing pad
  cases compact <;> cases isEnd <;> cases w.closed <;> simp <;> split <;> simp <;> omega

theorem nameText_length (compact : Bool) (w : PJson.Wr) (isEnd : Bool) (name : Bytes) :
    (PJson.nameText compact w isEnd name).length ≤ 4 + name.length := by
  unfold PJson.nameText
  split
  · cases compact <;> simp <;> omega
  · simp

section
variable {dtoa : UInt64 → Bytes} (hd : ∀ d, (dtoa d).length ≤ 24) (compact : Bool)
include hd

theorem json_values : ∀ (vs : List (Bytes × Val)) (w w' : PJson.Wr) (b : Bytes),
    PJson.writeAll dtoa compact w (vs.map fun p => ⟨p.1, .val p.2⟩) = .ok (b, w') →
    w'.stack = w.stack ∧ b.length ≤ (35 + pad compact w.stack.length) * (vs.map fun p => 1 + valBytes p.2 + nameBytes true p.1).sum
  | [], w, w', b, h => by cases h; simp
  | v :: vs, w, w', b, h => by
    simp only [List.map_cons, PJson.writeAll, PJson.write, Res.bind_eq_ok] at h
    obtain ⟨⟨b1, w1⟩, ⟨t, h0, h1⟩, ⟨b2, w2⟩, h2, h3⟩ := h
    cases h1; cases h3
    obtain ⟨p, q⟩ := json_values vs _ _ _ h2
    have a1 := valText_length hd h0
    have a2 := spacing_length compact w false
    have a3 := nameText_length compact w false v.1
    refine ⟨p, ?_⟩
    simp only [List.length_append, List.map_cons, List.sum_cons, Bool.false_eq_true, if_false, nameBytes, if_true] at *
    have a4 : 35 + pad compact w.stack.length + 2 * valBytes v.2 + v.1.length ≤
        (35 + pad compact w.stack.length) * (1 + valBytes v.2 + v.1.length) := by
      simp only [Nat.mul_add, Nat.mul_one]
      have b1 := Nat.mul_le_mul_right (valBytes v.2) (show 2 ≤ 35 + pad compact w.stack.length by omega)
      have b2 := Nat.mul_le_mul_right v.1.length (show 1 ≤ 35 + pad compact w.stack.length by omega)
      omega
    rw [Nat.mul_add]
    omega

mutual
theorem json_node : ∀ (n : Node) (name : Bytes) (w w' : PJson.Wr) (b : Bytes),
    PJson.writeAll dtoa compact w (n.events name) = .ok (b, w') →
    w'.stack = w.stack ∧ b.length ≤ (36 + 2 * pad compact (w.stack.length + n.depth + 1)) * (name.length + size true n)
  | .mk t vs ns, name, w, w', b, h => by
    simp only [Node.events, PJson.writeAll, PJson.writeAll_append, PJson.write, Res.ok_bind, Res.bind_eq_ok] at h
    obtain ⟨⟨b2, w2⟩, ⟨⟨b3, w3⟩, ⟨⟨b4, w4⟩, h4, ⟨b5, w5⟩, h5, h3⟩, ⟨b6, w6⟩, h6, h2⟩, h1⟩ := h
    cases h3; cases h2; cases h1
    dsimp only at h5 h6 ⊢
    obtain ⟨p1, p2⟩ := json_values hd compact vs _ _ _ h4
    obtain ⟨q1, q2⟩ := json_nodes ns _ _ _ h5
    dsimp only at p1 p2
    have hs : w5.stack = t :: w.stack := q1.trans p1
    rw [hs] at h6
    obtain ⟨⟨b7, w7⟩, h7, h8⟩ := h6
    cases h7; cases h8
    have a1 := spacing_length compact w false
    have a2 := nameText_length compact w false name
    have a3 := spacing_length compact w5 true
    rw [hs] at a3
    rw [p1] at q2
    simp only [List.length_cons] at p2 q2 a3
    refine ⟨rfl, ?_⟩
    rw [Node.depth, size]
    obtain ⟨P, hP⟩ : ∃ P, P = pad compact (w.stack.length + Node.depthL ns + 1) := ⟨_, rfl⟩
    have e : w.stack.length + 1 + Node.depthL ns = w.stack.length + Node.depthL ns + 1 := by omega
    rw [e] at q2
    have m1 := pad_mono compact (show w.stack.length + 1 ≤ w.stack.length + Node.depthL ns + 1 by omega)
    have m2 := pad_mono compact (show w.stack.length ≤ w.stack.length + Node.depthL ns + 1 by omega)
    rw [← hP] at q2 m1 m2 ⊢
    have k1 := Nat.mul_le_mul_right (vs.map fun p => 1 + valBytes p.2 + nameBytes true p.1).sum
      (show 35 + pad compact (w.stack.length + 1) ≤ 36 + 2 * P by omega)
    have k2 := Nat.mul_le_mul_right name.length (show 1 ≤ 36 + 2 * P by omega)
    simp only [List.length_append, List.length_cons, List.length_nil, Nat.mul_add, Bool.false_eq_true, if_false, if_true] at *
    omega
theorem json_nodes : ∀ (ns : List (Bytes × Node)) (w w' : PJson.Wr) (b : Bytes),
    PJson.writeAll dtoa compact w (Node.eventsL ns) = .ok (b, w') →
    w'.stack = w.stack ∧ b.length ≤ (36 + 2 * pad compact (w.stack.length + Node.depthL ns)) * sizes true ns
  | [], w, w', b, h => by cases h; simp
  | (name, n) :: ns, w, w', b, h => by
    rw [Node.eventsL, PJson.writeAll_append] at h
    simp only [Res.bind_eq_ok] at h
    obtain ⟨⟨b1, w1⟩, h1, ⟨b2, w2⟩, h2, h3⟩ := h
    cases h3
    obtain ⟨p1, p2⟩ := json_node n name _ _ _ h1
    obtain ⟨q1, q2⟩ := json_nodes ns _ _ _ h2
    refine ⟨q1.trans p1, ?_⟩
    rw [p1] at q2
    rw [Node.depthL, sizes]
    have m1 := pad_mono compact (show w.stack.length + n.depth + 1 ≤ w.stack.length + max (n.depth + 1) (Node.depthL ns) by omega)
    have m2 := pad_mono compact (show w.stack.length + Node.depthL ns ≤ w.stack.length + max (n.depth + 1) (Node.depthL ns) by omega)
    have k1 := Nat.mul_le_mul_right (name.length + size true n) (show 36 + 2 * pad compact (w.stack.length + n.depth + 1) ≤ 36 + 2 * pad compact (w.stack.length + max (n.depth + 1) (Node.depthL ns)) by omega)
    have k2 := Nat.mul_le_mul_right (sizes true ns) (show 36 + 2 * pad compact (w.stack.length + Node.depthL ns) ≤ 36 + 2 * pad compact (w.stack.length + max (n.depth + 1) (Node.depthL ns)) by omega)
    simp only [nameBytes, if_true, List.length_append, Nat.mul_add] at *
    omega
end

end

end Srl.Saved
