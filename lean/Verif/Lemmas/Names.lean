import Verif.Model.Names
import Verif.Lemmas.PSrlDoc

/-! Writing the Srl format with pointers to names. -/

namespace Srl.Names

open PSrl (indexOf normName normEvent)

/-- The entries of the table are the names, with pointers as they were passed. -/
def Good (hash : Bytes → UInt64) (old : List (Ref × Bytes)) : Nat → List Entry → List Bytes → Prop
  | _, [], [] => True
  | k, e :: es, n :: ns => e.hash = hash n ∧ e.index = k ∧ (e.key, n) ∈ old ∧ Good hash old (k + 1) es ns
  | _, _, _ => False

variable {hash : Bytes → UInt64} {old : List (Ref × Bytes)}

theorem Good.length : ∀ {es : List Entry} {ns : List Bytes} {k : Nat}, Good hash old k es ns → es.length = ns.length
  | [], [], _, _ => rfl
  | _ :: _, _ :: _, _, h => by
    simp only [List.length_cons]
    rw [h.2.2.2.length]
  | [], _ :: _, _, h => h.elim
  | _ :: _, [], _, h => h.elim

theorem Good.mono {p : Ref × Bytes} : ∀ {es : List Entry} {ns : List Bytes} {k : Nat}, Good hash old k es ns →
    Good hash (old ++ [p]) k es ns
  | [], [], _, _ => trivial
  | _ :: _, _ :: _, _, h => ⟨h.1, h.2.1, List.mem_append_left _ h.2.2.1, h.2.2.2.mono⟩
  | [], _ :: _, _, h => h.elim
  | _ :: _, [], _, h => h.elim

theorem Good.snoc {r : Ref} {n : Bytes} : ∀ {es : List Entry} {ns : List Bytes} {k : Nat}, Good hash old k es ns →
    (r, n) ∈ old → Good hash old k (es ++ [⟨hash n, r, k + es.length⟩]) (ns ++ [n])
  | [], [], _, _, hr => ⟨rfl, rfl, hr, trivial⟩
  | _ :: es, _ :: _, k, h, hr => by
    refine ⟨h.1, h.2.1, h.2.2.1, ?_⟩
    have := h.2.2.2.snoc hr
    rw [List.length_cons, show k + (es.length + 1) = k + 1 + es.length by omega]
    exact this
  | [], _ :: _, _, h, _ => h.elim
  | _ :: _, [], _, h, _ => h.elim

theorem deref_size {μ : Memory} {r : Ref} {n : Bytes} (h : deref μ r = .ok n) : n.length = r.size := by
  unfold deref at h
  split at h
  · cases h; simp_all
  · split at h
    · cases h
    · split at h
      · cases h
      · cases h
        rw [List.length_take]
        omega

theorem deref_nil {μ : Memory} {r : Ref} (h : r.size = 0) : deref μ r = .ok [] := by
  unfold deref
  rw [if_pos h]

/-! ### Names that are kept -/

theorem find_kept {μ : Memory} {key : Ref} {name : Bytes} (hd : deref μ key = .ok name)
    (hk : ∀ p ∈ old, hash p.2 = hash name → deref μ p.1 = .ok p.2) :
    ∀ {es : List Entry} {ns : List Bytes} {k : Nat}, Good hash old k es ns →
    find μ (hash name) key es = .ok ((indexOf name ns).map (· + k))
  | [], [], _, _ => rfl
  | e :: es, n :: ns, k, h => by
    obtain ⟨h1, h2, h3, h4⟩ := h
    rw [find, indexOf]
    have ih := find_kept hd hk h4
    have e1 : (Option.map (· + (k + 1)) (indexOf name ns)) =
        Option.map (· + k) ((indexOf name ns).map (· + 1)) := by
      rw [Option.map_map]
      congr 1
      funext i
      simp only [Function.comp]
      omega
    by_cases hh : hash n = hash name
    · rw [if_pos (h1.trans hh)]
      have hn := hk _ h3 hh
      simp only at hn
      have hsame : same μ e.key key = .ok (n == name) := by
        unfold same
        have s1 := deref_size hn
        have s2 := deref_size hd
        by_cases hs : e.key.size = key.size
        · rw [if_pos hs]
          by_cases ha : e.key.addr = key.addr
          · have : e.key = key := by
              cases hk1 : e.key
              cases hk2 : key
              simp_all
            rw [this, hd] at hn
            cases hn
            rw [if_pos ha]
            simp
          · rw [if_neg ha, hn, hd]; rfl
        · rw [if_neg hs]
          have : n ≠ name := by
            intro e
            rw [e] at s1
            omega
          simp [this]
      rw [hsame]
      simp only [Res.ok_bind, beq_iff_eq]
      by_cases hnn : n = name
      · rw [if_pos hnn, if_pos hnn, h2]
        simp
      · rw [if_neg hnn, if_neg hnn, ih, e1]
    · have : e.hash ≠ hash name := by rw [h1]; exact hh
      rw [if_neg this, if_neg (fun h => hh (by rw [h])), ih, e1]
  | [], _ :: _, _, h => h.elim
  | _ :: _, [], _, h => h.elim

/-- One call -/
theorem write_kept {st : St} {pst : PSrl.St} {c : Call} {name : Bytes} (hs : st.stack = pst.stack)
    (hg : Good hash old 0 st.entries pst.names) (hd : deref c.mem c.name = .ok name)
    (hk : ∀ p ∈ old, hash p.2 = hash name → deref c.mem p.1 = .ok p.2) :
    match PSrl.write pst ⟨name, c.tok⟩ with
    | .ok (pst', b) => ∃ st', write hash st c = .ok (st', b) ∧ st'.stack = pst'.stack ∧
        Good hash (old ++ [(c.name, name)]) 0 st'.entries pst'.names
    | .err => write hash st c = .err
    | .ub => write hash st c = .ub
    | .fuel => write hash st c = .fuel := by
  have hh : ∀ flag, match PSrl.writeHead pst flag name with
      | .ok (ns, b) => ∃ es, writeHead hash c.mem st flag c.name = .ok (es, b) ∧
          Good hash (old ++ [(c.name, name)]) 0 es ns
      | .err => writeHead hash c.mem st flag c.name = .err
      | .ub => writeHead hash c.mem st flag c.name = .ub
      | .fuel => writeHead hash c.mem st flag c.name = .fuel := by
    intro flag
    have hsz := deref_size hd
    unfold PSrl.writeHead writeHead
    rw [hs, ← hsz]
    by_cases hc : name.length < 1 ∨ pst.stack.head? ≠ some .object
    · rw [if_pos hc, if_pos hc]
      exact ⟨_, rfl, hg.mono⟩
    · rw [if_neg hc, if_neg hc, hd]
      simp only [Res.ok_bind, find_kept hd hk hg, Nat.add_zero, Option.map_id']
      cases indexOf name pst.names with
      | some i =>
        simp only
        cases Vlq.encode i with
        | ok b => exact ⟨_, rfl, hg.mono⟩
        | _ => rfl
      | none =>
        simp only
        cases Vlq.encode name.length with
        | ok b =>
          refine ⟨_, rfl, ?_⟩
          have := (hg.mono (p := (c.name, name))).snoc (r := c.name) (n := name) (by simp)
          rwa [Nat.zero_add] at this
        | _ => rfl
  unfold PSrl.write write
  cases htok : c.tok with
  | scopeEnd =>
    simp only
    rw [hs]
    cases pst.stack with
    | nil => rfl
    | cons t stack => exact ⟨_, rfl, rfl, hg.mono⟩
  | scope t =>
    simp only
    have := hh (PSrl.flagOf (.scope t))
    revert this
    cases PSrl.writeHead pst (PSrl.flagOf (.scope t)) name with
    | ok x =>
      rintro ⟨es, h1, h2⟩
      simp only [Res.ok_bind, h1]
      exact ⟨_, rfl, by simp [hs], h2⟩
    | _ => intro h; simp only [h]; rfl
  | val v =>
    simp only
    have := hh (PSrl.flagOf (.val v))
    revert this
    cases PSrl.writeHead pst (PSrl.flagOf (.val v)) name with
    | ok x =>
      rintro ⟨es, h1, h2⟩
      simp only [Res.ok_bind, h1]
      cases PSrl.writeBody v with
      | ok b => exact ⟨_, rfl, hs, h2⟩
      | _ => rfl
    | _ => intro h; simp only [h]; rfl

/-- Names at the moment of the call, and as far as they matter later -/
def Kept (hash : Bytes → UInt64) : List (Ref × Bytes) → List Call → List Bytes → Prop
  | _, [], [] => True
  | old, c :: cs, n :: ns => deref c.mem c.name = .ok n ∧
      (∀ p ∈ old, hash p.2 = hash n → deref c.mem p.1 = .ok p.2) ∧ Kept hash (old ++ [(c.name, n)]) cs ns
  | _, _, _ => False

/-- The tokens with their names -/
def events : List Call → List Bytes → List Event
  | c :: cs, n :: ns => ⟨n, c.tok⟩ :: events cs ns
  | _, _ => []

def output {σ : Type} (r : Res (σ × Bytes)) : Res Bytes := do
  let (_, b) ← r
  .ok b

theorem writeAll_kept : ∀ (cs : List Call) (ns : List Bytes) (old : List (Ref × Bytes)) (st : St) (pst : PSrl.St),
    st.stack = pst.stack → Good hash old 0 st.entries pst.names → Kept hash old cs ns →
    output (writeAll hash st cs) = output (PSrl.writeAll pst (events cs ns))
  | [], [], _, _, _, _, _, _ => rfl
  | c :: cs, n :: ns, old, st, pst, hs, hg, hk => by
    obtain ⟨h1, h2, h3⟩ := hk
    have hw := write_kept hs hg h1 h2
    rw [writeAll, events, PSrl.writeAll]
    revert hw
    cases PSrl.write pst ⟨n, c.tok⟩ with
    | ok x =>
      rintro ⟨st', h4, h5, h6⟩
      have ih := writeAll_kept cs ns _ st' x.1 h5 h6 h3
      simp only [h4, Res.ok_bind]
      revert ih
      unfold output
      cases writeAll hash st' cs <;> cases PSrl.writeAll x.1 (events cs ns) <;> intro ih <;>
        first | rfl | (cases ih; done) | (simp only [Res.ok_bind, Res.ok.injEq] at ih ⊢; rw [ih])
    | _ => intro h; rw [h]; rfl
  | [], _ :: _, _, _, _, _, _, h => h.elim
  | _ :: _, [], _, _, _, _, _, h => h.elim

/-! ### Memory that stays readable -/

theorem find_live {μ : Memory} {key : Ref} {name : Bytes} (hd : deref μ key = .ok name)
    (hk : ∀ p ∈ old, hash p.2 = hash name → p.2.length = name.length → p.2 = name ∧ ∃ x, deref μ p.1 = .ok x)
    (hsz : ∀ p ∈ old, p.2.length = p.1.size) :
    ∀ {es : List Entry} {ns : List Bytes} {k : Nat}, Good hash old k es ns →
    ∃ r, find μ (hash name) key es = .ok r ∧ ∀ i, r = some i → ∃ j, i = j + k ∧ ns[j]? = some name
  | [], [], _, _ => ⟨none, rfl, fun i h => nomatch h⟩
  | e :: es, n :: ns, k, h => by
    obtain ⟨h1, h2, h3, h4⟩ := h
    obtain ⟨r, ih1, ih2⟩ := find_live hd hk hsz h4
    have hlater : ∀ i, r = some i → ∃ j, i = j + k ∧ (n :: ns)[j]? = some name := by
      intro i hi
      obtain ⟨j, j1, j2⟩ := ih2 i hi
      exact ⟨j + 1, by omega, by simpa using j2⟩
    rw [find]
    by_cases hh : hash n = hash name
    · rw [if_pos (h1.trans hh)]
      have s1 := hsz _ h3
      have s2 := deref_size hd
      simp only at s1
      unfold same
      by_cases hs : e.key.size = key.size
      · obtain ⟨k1, x, k2⟩ := hk _ h3 hh (by simp only; omega)
        simp only at k1 k2
        rw [if_pos hs]
        by_cases ha : e.key.addr = key.addr
        · rw [if_pos ha]
          exact ⟨_, rfl, fun i hi => ⟨0, by cases hi; omega, by simp [k1]⟩⟩
        · rw [if_neg ha, k2, hd]
          simp only [Res.ok_bind]
          by_cases hx : (x == name) = true
          · rw [if_pos hx]
            exact ⟨_, rfl, fun i hi => ⟨0, by cases hi; omega, by simp [k1]⟩⟩
          · rw [if_neg hx]
            exact ⟨r, ih1, hlater⟩
      · rw [if_neg hs]
        simp only [Res.ok_bind]
        exact ⟨r, ih1, hlater⟩
    · have : e.hash ≠ hash name := by rw [h1]; exact hh
      rw [if_neg this]
      exact ⟨r, ih1, hlater⟩
  | [], _ :: _, _, h => h.elim
  | _ :: _, [], _, h => h.elim

/-- One call: what was written is read as this token, with the name as it was then. -/
theorem read_live {m : Mem} (hm : m.Sane) {st : St} {pst : PSrl.St} {c : Call} {name : Bytes}
    (hs : st.stack = pst.stack) (hg : Good hash old 0 st.entries pst.names) (hd : deref c.mem c.name = .ok name)
    (hk : ∀ p ∈ old, hash p.2 = hash name → p.2.length = name.length → p.2 = name ∧ ∃ x, deref c.mem p.1 = .ok x)
    (hsz : ∀ p ∈ old, p.2.length = p.1.size)
    (he : PSrl.TokOk c.tok) (hn : name.length < 2 ^ 32) (hns : pst.names.length < 2 ^ 64)
    (hst : c.tok = .scopeEnd → pst.stack ≠ []) :
    ∃ st' pst' b, write hash st c = .ok (st', b) ∧ st'.stack = pst'.stack ∧
      Good hash (old ++ [(c.name, name)]) 0 st'.entries pst'.names ∧
      pst'.stack = PSrl.next pst.stack c.tok ∧ pst'.names.length ≤ pst.names.length + 1 ∧
      ∀ rest, PSrl.read m (pst, b ++ rest) = .ok (normEvent pst ⟨name, c.tok⟩, (pst', rest)) := by
  have hh : ∀ flag, flag &&& 6 = 0 → ∃ es ns b flag', writeHead hash c.mem st flag c.name = .ok (es, b) ∧
      Good hash (old ++ [(c.name, name)]) 0 es ns ∧ ns.length ≤ pst.names.length + 1 ∧
      (flag' = flag ∨ flag' = flag ||| PSrl.fNamed ∨ flag' = (flag ||| PSrl.fNamed) ||| PSrl.fIndexed) ∧
      ∀ rest, PSrl.readHead m pst (b ++ rest) = .ok (flag', normName pst name, ns, rest) := by
    intro flag hf
    obtain ⟨h1, h2, h3, h4, h5⟩ := PSrl.flag_head flag hf
    have hl := hg.length
    have hsz := deref_size hd
    unfold writeHead normName
    rw [hs, ← hsz]
    by_cases hc : name.length < 1 ∨ pst.stack.head? ≠ some .object
    · rw [if_pos hc]
      refine ⟨_, _, _, flag, rfl, hg.mono, by omega, .inl rfl, fun rest => ?_⟩
      rw [List.singleton_append, PSrl.readHead_cons hm, if_pos (.inl h1)]
      congr 2
      split
      · rename_i ho
        rcases hc with hc | hc
        · cases name
          · rfl
          · simp at hc
        · exact absurd ho hc
      · rfl
    · have hobj : pst.stack.head? = some .object := by
        by_cases h : pst.stack.head? = some .object
        · exact h
        · exact absurd (.inr h) hc
      rw [if_neg hc, hd]
      obtain ⟨r, hr1, hr2⟩ := find_live hd hk ‹_› hg
      simp only [Res.ok_bind, hr1, hobj, if_true]
      cases r with
      | some i =>
        obtain ⟨j, hj, hj2⟩ := hr2 i rfl
        rw [Nat.add_zero] at hj
        subst hj
        have hlt := (List.getElem?_eq_some_iff.mp hj2).1
        simp only [Vlq.encode_eq i (by omega)]
        refine ⟨_, pst.names, _, _, rfl, hg.mono, by omega, .inr (.inr rfl), fun rest => ?_⟩
        rw [List.cons_append, PSrl.readHead_cons hm, if_neg (by simp [h4, hobj]), if_pos h5,
          Vlq.decode_bytes hm i (by omega)]
        simp only [Res.ok_bind]
        rw [hj2]
      | none =>
        simp only [Vlq.encode_eq name.length (by omega)]
        refine ⟨_, pst.names ++ [name], _, _, rfl, ?_, by simp, .inr (.inl rfl), fun rest => ?_⟩
        · have := (hg.mono (p := (c.name, name))).snoc (r := c.name) (n := name) (by simp)
          rwa [Nat.zero_add] at this
        · rw [List.cons_append, List.append_assoc, PSrl.readHead_cons hm, if_neg (by simp [h2, hobj]),
            if_neg (by simp [h3]), Vlq.decode_bytes hm _ (by omega)]
          simp only [Res.ok_bind]
          rw [In.readBlock_append hm rfl]
          rfl
  obtain ⟨μ, key, tok⟩ := c
  unfold write
  cases tok with
  | scopeEnd =>
    simp only
    cases hs2 : pst.stack with
    | nil => exact absurd hs2 (hst rfl)
    | cons t stack =>
      rw [hs, hs2]
      refine ⟨_, ⟨stack, pst.names⟩, _, rfl, rfl, hg.mono, rfl, by simp, fun rest => ?_⟩
      simp only [PSrl.read, List.singleton_append]
      rw [PSrl.readHead_cons hm, if_pos (.inl (by decide))]
      simp [PSrl.readRest, hs2, normEvent]
  | scope t =>
    obtain ⟨es, ns, b, flag', k1, k2, k3, k4, k5⟩ := hh (PSrl.flagOf (.scope t)) (PSrl.flagOf_low _)
    simp only at k1
    simp only [k1, Res.ok_bind]
    refine ⟨_, ⟨t :: pst.stack, ns⟩, _, rfl, by simp [hs], k2, rfl, k3, fun rest => ?_⟩
    simp only [PSrl.read, k5, Res.ok_bind]
    rw [PSrl.readRest_scope m _ t flag' k4]
    rfl
  | val v =>
    obtain ⟨es, ns, b, flag', k1, k2, k3, k4, k5⟩ := hh (PSrl.flagOf (.val v)) (PSrl.flagOf_low _)
    obtain ⟨b2, k6, k7⟩ := PSrl.readRest_writeBody hm pst.stack v he flag' k4
    simp only at k1
    simp only [k1, Res.ok_bind, k6]
    refine ⟨_, ⟨pst.stack, ns⟩, _, rfl, hs, k2, rfl, k3, fun rest => ?_⟩
    simp only [PSrl.read, List.append_assoc, k5, Res.ok_bind, k7]
    rfl

/-- Names at the moment of the call; later their memory can be read, whatever it holds then. -/
def Live (hash : Bytes → UInt64) : List (Ref × Bytes) → List Call → List Bytes → Prop
  | _, [], [] => True
  | old, c :: cs, n :: ns => deref c.mem c.name = .ok n ∧
      (∀ p ∈ old, hash p.2 = hash n → p.2.length = n.length → p.2 = n ∧ ∃ x, deref c.mem p.1 = .ok x) ∧
      Live hash (old ++ [(c.name, n)]) cs ns
  | _, _, _ => False

/-- What the reader makes of tokens -/
def normEvents : PSrl.St → List Event → List Event
  | _, [] => []
  | st, e :: es => normEvent st e :: normEvents ⟨PSrl.next st.stack e.tok, []⟩ es

theorem normEvents_stack (es : List Event) : ∀ {st st' : PSrl.St}, st.stack = st'.stack →
    normEvents st es = normEvents st' es := by
  induction es with
  | nil => intro st st' _; rfl
  | cons e es ih =>
    intro st st' h
    simp only [normEvents]
    rw [h]
    congr 1
    unfold normEvent normName
    rw [h]

/-- No scope is closed that was not opened. -/
def Closes : List ScopeTy → List Event → Prop
  | _, [] => True
  | stack, e :: es => (e.tok = .scopeEnd → stack ≠ []) ∧ Closes (PSrl.next stack e.tok) es

theorem writeAll_live {m : Mem} (hm : m.Sane) : ∀ (cs : List Call) (ns : List Bytes) (old : List (Ref × Bytes))
    (st : St) (pst : PSrl.St), st.stack = pst.stack → Good hash old 0 st.entries pst.names → Live hash old cs ns →
    (∀ p ∈ old, p.2.length = p.1.size) →
    (∀ e ∈ events cs ns, PSrl.TokOk e.tok ∧ e.name.length < 2 ^ 32) → pst.names.length + cs.length < 2 ^ 64 →
    Closes pst.stack (events cs ns) →
    ∃ st' pst' b, writeAll hash st cs = .ok (st', b) ∧
      ∀ rest, Doc.Emits (PSrl.read m) (pst, b ++ rest) (normEvents pst (events cs ns)) (pst', rest)
  | [], [], _, st, pst, _, _, _, _, _, _, _ => ⟨st, pst, [], rfl, fun _ => .nil _⟩
  | c :: cs, n :: ns, old, st, pst, hs, hg, hk, hsz, hok, hlen, hcl => by
    obtain ⟨h1, h2, h3⟩ := hk
    simp only [events, List.mem_cons, forall_eq_or_imp] at hok
    simp only [events] at hcl
    simp only [List.length_cons] at hlen
    obtain ⟨st1, pst1, b1, k1, k2, k3, k4, k5, k6⟩ := read_live hm hs hg h1 h2 hsz hok.1.1 hok.1.2 (by omega) hcl.1
    obtain ⟨st2, pst2, b2, j1, j2⟩ := writeAll_live hm cs ns _ st1 pst1 k2 k3 h3
      (by
        intro p hp
        rcases List.mem_append.mp hp with hp | hp
        · exact hsz p hp
        · simp only [List.mem_singleton] at hp
          rw [hp]
          exact deref_size h1)
      hok.2 (by omega) (by rw [k4]; exact hcl.2)
    refine ⟨st2, pst2, b1 ++ b2, ?_, fun rest => ?_⟩
    · rw [writeAll, k1]
      simp only [Res.ok_bind, j1]
    · simp only [events, normEvents]
      rw [List.append_assoc]
      refine .cons (k6 _) ?_
      rw [normEvents_stack _ (st' := pst1) k4.symm]
      exact j2 rest
  | [], _ :: _, _, _, _, _, _, h, _, _, _, _ => h.elim
  | _ :: _, [], _, _, _, _, _, h, _, _, _, _ => h.elim

/-! ### Documents -/

open Doc
open PSrl (normItem normItems inObject)

mutual
theorem normEvents_item : ∀ (i : Item) (st : PSrl.St) (es : List Event),
    normEvents st (i.events ++ es) = (normItem (inObject st) i).events ++ normEvents st es
  | .val n v, st, es => by
    simp only [Item.events, normItem, List.singleton_append, normEvents, normEvent, PSrl.normName_eq, PSrl.normTok]
    congr 1
    exact normEvents_stack es rfl
  | .scope n t kids, st, es => by
    simp only [Item.events, normItem, List.cons_append, List.append_assoc, List.nil_append, normEvents, normEvent,
      PSrl.normName_eq, PSrl.normTok]
    congr 1
    rw [normEvents_items kids, normEvents]
    have hb : inObject ⟨PSrl.next st.stack (.scope t), []⟩ = (t == .object) := by cases t <;> rfl
    rw [hb]
    congr 2
    exact normEvents_stack es rfl
theorem normEvents_items : ∀ (is : List Item) (st : PSrl.St) (es : List Event),
    normEvents st (Item.eventsL is ++ es) = Item.eventsL (normItems (inObject st) is) ++ normEvents st es
  | [], st, es => rfl
  | i :: is, st, es => by
    simp only [Item.eventsL, normItems, List.append_assoc]
    rw [normEvents_item i, normEvents_items is]
end

mutual
theorem closes_item : ∀ (i : Item) (st : List ScopeTy) (es : List Event), Closes st es → Closes st (i.events ++ es)
  | .val n v, st, es, h => ⟨fun h => (by cases h), h⟩
  | .scope n t kids, st, es, h => by
    simp only [Item.events, List.cons_append, List.append_assoc, List.nil_append]
    exact ⟨fun h => (by cases h), closes_items kids _ _ ⟨fun _ h => (by cases h), h⟩⟩
theorem closes_items : ∀ (is : List Item) (st : List ScopeTy) (es : List Event), Closes st es →
    Closes st (Item.eventsL is ++ es)
  | [], st, es, h => h
  | i :: is, st, es, h => by
    simp only [Item.eventsL, List.append_assoc]
    exact closes_item i st _ (closes_items is st es h)
end

mutual
theorem tokens_item : ∀ (i : Item), PSrl.ItemOk i → ∀ e ∈ i.events, PSrl.TokOk e.tok ∧ e.name.length < 2 ^ 32
  | .val n v, h, e, he => by
    simp only [Item.events, List.mem_singleton] at he
    subst he
    exact ⟨h.2, h.1⟩
  | .scope n t kids, h, e, he => by
    simp only [Item.events, List.mem_cons, List.mem_append, List.not_mem_nil, or_false] at he
    rcases he with rfl | he | rfl
    · exact ⟨trivial, h.1⟩
    · exact tokens_items kids h.2 e he
    · exact ⟨trivial, by simp⟩
theorem tokens_items : ∀ (is : List Item), PSrl.ItemsOk is → ∀ e ∈ Item.eventsL is,
    PSrl.TokOk e.tok ∧ e.name.length < 2 ^ 32
  | [], _, e, he => by cases he
  | i :: is, h, e, he => by
    simp only [Item.eventsL, List.mem_append] at he
    rcases he with he | he
    · exact tokens_item i h.1 e he
    · exact tokens_items is h.2 e he
end

/-! ### Names that are converted -/

theorem live_calls : ∀ (ws : List Wide) (b : Buffer) (old : List (Ref × Bytes)),
    (∀ p ∈ old, p.1.addr = b.addr ∧ p.2.length = p.1.size ∧ p.1.size ≤ b.size) →
    (∀ w ∈ ws, w.name.length ≤ w.reserve ∧ w.reserve ≤ b.cap) →
    (∀ p ∈ old, ∀ w ∈ ws, hash p.2 = hash w.name → p.2.length = w.name.length → p.2 = w.name) →
    (∀ v ∈ ws, ∀ w ∈ ws, hash v.name = hash w.name → v.name.length = w.name.length → v.name = w.name) →
    Live hash old (calls b ws) (ws.map (·.name))
  | [], b, old, _, _, _, _ => trivial
  | w :: ws, b, old, ho, hw, hc, hd => by
    obtain ⟨h1, h2⟩ := hw w List.mem_cons_self
    obtain ⟨b', hb', k1, k2, k3, k4⟩ : ∃ b', (if b.size < w.reserve then b.resize w.reserve else b) = b' ∧
        b'.addr = b.addr ∧ b'.cap = b.cap ∧ b.size ≤ b'.size ∧ w.reserve ≤ b'.size := by
      by_cases hs : b.size < w.reserve
      · refine ⟨_, rfl, ?_, ?_, ?_, ?_⟩ <;>
          simp only [if_pos hs, Buffer.resize, if_neg (Nat.not_lt.mpr h2)] <;> omega
      · exact ⟨b, if_neg hs, rfl, rfl, Nat.le_refl _, Nat.le_of_not_lt hs⟩
    simp only [calls, convert, hb', List.map_cons]
    have hread : ∀ size, size ≤ b'.size → ∃ x, deref (fun a => if a = b'.addr then
        some (w.name ++ List.replicate (b'.size - w.name.length) 0) else none) ⟨b'.addr, size⟩ = .ok x := by
      intro size hsz
      unfold deref
      split
      · exact ⟨_, rfl⟩
      · simp only [if_true]
        rw [if_neg (by rw [List.length_append, List.length_replicate]; omega)]
        exact ⟨_, rfl⟩
    refine ⟨?_, ?_, live_calls ws b' _ ?_ ?_ ?_ ?_⟩
    · unfold deref
      split
      · rename_i h0
        simp only at h0
        rw [List.length_eq_zero_iff.mp h0]
      · simp only [if_true]
        rw [if_neg (by rw [List.length_append]; omega), List.take_left]
    · intro p hp e1 e2
      refine ⟨hc p hp w List.mem_cons_self e1 e2, ?_⟩
      obtain ⟨j1, j2, j3⟩ := ho p hp
      have := hread p.1.size (by omega)
      rwa [show (⟨b'.addr, p.1.size⟩ : Ref) = p.1 by rw [k1, ← j1]] at this
    · intro p hp
      rcases List.mem_append.mp hp with hp | hp
      · obtain ⟨j1, j2, j3⟩ := ho p hp
        exact ⟨by omega, j2, by omega⟩
      · simp only [List.mem_singleton] at hp
        rw [hp]
        exact ⟨rfl, rfl, by simp only; omega⟩
    · intro v hv
      rw [k2]
      exact hw v (List.mem_cons_of_mem _ hv)
    · intro p hp v hv
      rcases List.mem_append.mp hp with hp | hp
      · exact hc p hp v (List.mem_cons_of_mem _ hv)
      · simp only [List.mem_singleton] at hp
        rw [hp]
        exact hd w List.mem_cons_self v (List.mem_cons_of_mem _ hv)
    · exact fun v hv u hu => hd v (List.mem_cons_of_mem _ hv) u (List.mem_cons_of_mem _ hu)

end Srl.Names
