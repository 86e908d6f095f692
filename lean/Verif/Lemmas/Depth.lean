import Verif.Props.DepthSpec
import Verif.Lemmas.SharedRestore

/-! How deep calls of `Paste` are nested (C77). -/

namespace Srl.Shared
open Typed Doc

variable {σ : Type}

/-- The members of a class: their names and types. -/
def GFields.toList : GFields → List (Bytes × GTy)
  | .nil => []
  | .cons nm ty rest => (nm, ty) :: rest.toList

theorem eachNode_congr {f g : LNode → σ × Objs → Res (Obj × LNode × σ × Objs)} :
    ∀ (ns : List (Bytes × Node)), (∀ x ∈ ns, ∀ s, f (whole x.2) s = g (whole x.2) s) → ∀ s,
      eachNode f ns s = eachNode g ns s
  | [], _, _ => rfl
  | x :: ns, h, s => by
    simp only [eachNode, h x (by simp)]
    congr 1
    funext y
    rw [eachNode_congr ns (fun z hz => h z (by simp [hz]))]

theorem eachMember_congr {h h' : Bytes → GTy → Obj → LNode → σ × Objs → Res (Obj × LNode × σ × Objs)} :
    ∀ (fs : GFields), (∀ nm ty, (nm, ty) ∈ fs.toList → h nm ty = h' nm ty) →
      eachMember h fs = eachMember h' fs
  | .nil, _ => by funext os n s; rfl
  | .cons nm ty rest, e => by
    funext os n s
    cases os with
    | nil => rfl
    | cons o os =>
      simp only [eachMember]
      rw [e nm ty (by simp [GFields.toList]),
        eachMember_congr rest (fun nm ty hm => e nm ty (by simp [GFields.toList, hm]))]

/-- Members restored from a node that is read to its end leave it as it is. -/
theorem eachMember_same {h h' : Bytes → GTy → Obj → LNode → σ × Objs → Res (Obj × LNode × σ × Objs)}
    (n : LNode) (e : ∀ nm ty o s, h nm ty o n s = h' nm ty o n s)
    (same : ∀ nm ty o s y n' s', h' nm ty o n s = .ok (y, n', s') → n' = n) :
    ∀ (fs : GFields) (os : List Obj) (s : σ × Objs), eachMember h fs os n s = eachMember h' fs os n s
  | .nil, _, _ => rfl
  | .cons nm ty rest, [], _ => rfl
  | .cons nm ty rest, o :: os, s => by
    simp only [eachMember, e]
    cases hh : h' nm ty o n s with
    | ok x =>
      obtain ⟨y, n', s'⟩ := x
      cases same _ _ _ _ _ _ _ hh
      simp only [Res.ok_bind]
      rw [eachMember_same n e same rest os s']
    | err => rfl
    | ub => rfl
    | fuel => rfl

theorem pasteField_same {read : σ → Res (Event × σ)} {total : Nat} {scope : Bool} {sel : Sel}
    {f : LNode → σ × Objs → Res (Obj × LNode × σ × Objs)} {g : Val → Res Obj} {n n' : LNode}
    (hn : n.parsed = true) {s s' : σ × Objs} {y : Obj}
    (h : pasteField read total scope sel f g n s = .ok (y, n', s')) : n' = n := by
  unfold pasteField at h
  cases scope
  · simp only [Bool.false_eq_true, if_false, hn, if_true, Res.bind_eq_ok, Res.ok.injEq,
      Prod.mk.injEq] at h
    obtain ⟨_, _, _, _, _, h, _⟩ := h
    exact h.symm
  · simp only [hn, if_true, Res.bind_eq_ok, Res.ok.injEq, Prod.mk.injEq] at h
    obtain ⟨_, _, _, _, _, h, _⟩ := h
    exact h.symm

theorem lookup_mem {α : Type} {sel : Sel} {xs : List (Bytes × α)} {x : α} (h : lookup sel xs = .ok x) :
    ∃ nm, (nm, x) ∈ xs := by
  cases sel with
  | name n =>
    simp only [lookup] at h
    induction xs with
    | nil => simp [findName] at h
    | cons y xs ih =>
      simp only [findName] at h
      split at h
      · rename_i z hz
        split at hz
        · cases hz; cases h; exact ⟨y.1, by simp⟩
        · obtain ⟨nm, hm⟩ := ih (by rw [hz]; exact h)
          exact ⟨nm, by simp [hm]⟩
      · cases h
  | index i =>
    simp only [lookup] at h
    split at h
    · rename_i y hy
      cases h
      exact ⟨y.1, List.mem_of_getElem? hy⟩
    · cases h

/-- In a node read to its end a field is restored from one of its nodes. -/
theorem pasteField_congr {read : σ → Res (Event × σ)} {total : Nat} {scope : Bool} {sel : Sel}
    {f f' : LNode → σ × Objs → Res (Obj × LNode × σ × Objs)} {g : Val → Res Obj} {n : LNode}
    (hn : n.parsed = true) (h : ∀ x ∈ n.nodes, ∀ s, f (whole x.2) s = f' (whole x.2) s) (s : σ × Objs) :
    pasteField read total scope sel f g n s = pasteField read total scope sel f' g n s := by
  unfold pasteField
  cases scope
  · simp only [Bool.false_eq_true, if_false, hn, if_true]
  · simp only [hn, if_true]
    cases hl : lookup sel n.nodes with
    | ok c =>
      obtain ⟨nm, hm⟩ := lookup_mem hl
      simp only [Res.ok_bind]
      rw [h _ hm]
    | err => rfl
    | ub => rfl
    | fuel => rfl

theorem depth_whole (n : Node) : Node.depthL (whole n).nodes = n.depth := by
  cases n; rfl

theorem depth_mem : ∀ {ns : List (Bytes × Node)} {x : Bytes × Node}, x ∈ ns →
    x.2.depth < Node.depthL ns
  | (nm, y) :: ns, x, h => by
    simp only [Node.depthL]
    rcases List.mem_cons.mp h with rfl | h
    · simp only; omega
    · have := depth_mem h; omega

/-- Restoring from a node read to its end: a call for each scope it contains is enough. -/
theorem paste_parsed (cfg : HTable.Cfg Nat) (env : Env) (C : Nat → GTy) (read : σ → Res (Event × σ))
    (total : Nat) : ∀ (f f' : Nat) (ty : GTy) (old : Obj) (n : LNode) (s : σ × Objs),
      n.parsed = true → Node.depthL n.nodes < f → Node.depthL n.nodes < f' →
      paste cfg env C read total f ty old n s = paste cfg env C read total f' ty old n s
  | 0, _, _, _, _, _, _, h, _ => by omega
  | _, 0, _, _, _, _, _, _, h => by omega
  | f + 1, f' + 1, ty, old, n, s, hn, h1, h2 => by
    have ih : ∀ x ∈ n.nodes, ∀ ty old s, paste cfg env C read total f ty old (whole x.2) s
        = paste cfg env C read total f' ty old (whole x.2) s := by
      intro x hx ty old s
      have := depth_mem hx
      refine paste_parsed cfg env C read total f f' ty old _ s ?_ ?_ ?_
      · cases x.2; rfl
      · rw [depth_whole]; omega
      · rw [depth_whole]; omega
    cases ty with
    | plain ty => simp only [paste]
    | vec e =>
      simp only [paste, hn, if_true]
      rw [eachNode_congr n.nodes (fun x hx s => ih x hx e (dfltG e) s)]
    | record fs =>
      cases old with
      | many os =>
        simp only [paste]
        rw [eachMember_same n (fun nm ty o s => pasteField_congr hn (fun x hx s => ih x hx ty o s) s)
          (fun nm ty o s y n' s' h => pasteField_same hn h)]
      | _ => simp only [paste]
    | shared w c =>
      simp only [paste]
      cases hk : pasteField read total false (.name keyName) (fun _ _ => Res.ub)
          (pasteVal env (.int .u64) (.int 0)) n s with
      | ok x =>
        obtain ⟨k, n', s'⟩ := x
        cases pasteField_same hn hk
        simp only [Res.ok_bind]
        rw [pasteField_congr hn (fun x hx s => ih x hx (C c) (dfltG (C c)) s)]
      | err => rfl
      | ub => rfl
      | fuel => rfl

/-! ## Types that do not contain themselves -/

/-- Restoring objects of this type nests no more than `D` calls, whatever is read. -/
def Bounded (C : Nat → GTy) (D : Nat) (ty : GTy) : Prop :=
  ∀ (σ : Type) (cfg : HTable.Cfg Nat) (env : Env) (read : σ → Res (Event × σ)) (total d : Nat), D ≤ d →
    paste cfg env C read total d ty = paste cfg env C read total D ty

theorem Bounded.mono {C : Nat → GTy} {D D' : Nat} {ty : GTy} (h : Bounded C D ty) (hd : D ≤ D') :
    Bounded C D' ty := fun σ cfg env read total d hd' => by
  rw [h σ cfg env read total d (by omega), h σ cfg env read total D' hd]

mutual
theorem bounded_ty (C : Nat → GTy) : ∀ (ty : GTy),
    (∀ c ∈ GTy.leads ty, ∃ D, Bounded C D (C c)) → ∃ D, Bounded C D ty
  | .plain ty, _ => by
    refine ⟨1, fun σ cfg env read total d hd => ?_⟩
    obtain ⟨d, rfl⟩ : ∃ k, d = k + 1 := ⟨d - 1, by omega⟩
    funext old n s
    simp only [paste]
  | .vec e, h => by
    obtain ⟨D, hD⟩ := bounded_ty C e (by simpa [GTy.leads] using h)
    refine ⟨D + 1, fun σ cfg env read total d hd => ?_⟩
    obtain ⟨d, rfl⟩ : ∃ k, d = k + 1 := ⟨d - 1, by omega⟩
    funext old n s
    simp only [paste]
    rw [hD σ cfg env read total d (by omega)]
  | .record fs, h => by
    obtain ⟨D, hD⟩ := bounded_fields C fs (by simpa [GTy.leads] using h)
    refine ⟨D + 1, fun σ cfg env read total d hd => ?_⟩
    obtain ⟨d, rfl⟩ : ∃ k, d = k + 1 := ⟨d - 1, by omega⟩
    funext old n s
    cases old with
    | many os =>
      simp only [paste]
      rw [eachMember_congr fs (fun nm ty hm => by
        funext o
        rw [hD nm ty hm σ cfg env read total d (by omega)])]
    | _ => simp only [paste]
  | .shared w c, h => by
    obtain ⟨D, hD⟩ := h c (by simp [GTy.leads])
    refine ⟨D + 1, fun σ cfg env read total d hd => ?_⟩
    obtain ⟨d, rfl⟩ : ∃ k, d = k + 1 := ⟨d - 1, by omega⟩
    funext old n s
    simp only [paste]
    rw [hD σ cfg env read total d (by omega)]
theorem bounded_fields (C : Nat → GTy) : ∀ (fs : GFields),
    (∀ c ∈ GFields.leads fs, ∃ D, Bounded C D (C c)) →
      ∃ D, ∀ nm ty, (nm, ty) ∈ fs.toList → Bounded C D ty
  | .nil, _ => ⟨0, by simp [GFields.toList]⟩
  | .cons nm ty rest, h => by
    obtain ⟨D1, h1⟩ := bounded_ty C ty (fun c hc => h c (by simp [GFields.leads, hc]))
    obtain ⟨D2, h2⟩ := bounded_fields C rest (fun c hc => h c (by simp [GFields.leads, hc]))
    refine ⟨max D1 D2, fun nm' ty' hm => ?_⟩
    simp only [GFields.toList, List.mem_cons, Prod.mk.injEq] at hm
    rcases hm with ⟨-, rfl⟩ | hm
    · exact h1.mono (by omega)
    · exact (h2 nm' ty' hm).mono (by omega)
end

theorem bounded_all {C : Nat → GTy} (h : Props.NotRecursive C) (ty : GTy) : ∃ D, Bounded C D ty := by
  obtain ⟨rank, h⟩ := h
  have key : ∀ r c, rank c < r → ∃ D, Bounded C D (C c) := by
    intro r
    induction r with
    | zero => intro c hc; omega
    | succ r ih =>
      intro c hc
      exact bounded_ty C (C c) (fun c' hc' => ih c' (by have := h c c' hc'; omega))
  exact bounded_ty C ty (fun c _ => key (rank c + 1) c (by omega))

end Srl.Shared

/-! ## Chains of objects -/

namespace Srl.Shared
open Typed Doc

variable {σ : Type}

/-- The object with the one at address `a` as its only kid, the last one without. -/
def person (N a : Nat) : Obj := .many [.many (if a < N then [addr a] else [])]

/-- At address `a` the object whose kid is at `a + 1`; `N` objects in all. -/
def chain (N : Nat) : Graph where
  cls _ := 0
  obj a := person N (a + 1)

/-- The content of an object stored with `n` further objects behind it, the first of which has the key
`k`. -/
def deep : Nat → Nat → List Item
  | _, 0 => [.scope kidsName .array []]
  | k, n + 1 => [.scope kidsName .array [.scope [] .object
      [.val keyName (.int .u64 k), .scope valueName .object (deep (k + 1) n)]]]

theorem deep_depth : ∀ k n, Item.depthL (deep k n) = 3 * n + 1
  | _, 0 => rfl
  | k, n + 1 => by
    have := deep_depth (k + 1) n
    simp only [deep, Item.depthL, Item.depth, this]
    omega

theorem deep_length : ∀ k n, (Item.eventsL (deep k n)).length = 7 * n + 2
  | _, 0 => rfl
  | k, n + 1 => by
    have := deep_length (k + 1) n
    simp only [deep, Item.eventsL, Item.events, List.length_append, List.length_cons, List.length_nil,
      this]
    omega

/-- What is stored for the object with the kid at address `a`. -/
theorem chain_doc (N : Nat) : ∀ (n a : Nat) (nm : Bytes) (it : Item) (seen' : List Nat), a + n = N →
    DocI (fun _ => personTy) (chain N) (List.range a) personTy nm (person N a) it seen' →
    it = .scope nm .object (deep a n)
  | n, a, nm, it, seen', hn, h => by
    cases h with
    | record h =>
      cases h with
      | cons h1 h2 =>
        cases h2
        cases h1 with
        | vec h1 =>
          cases n with
          | zero =>
            rw [if_neg (by omega)] at h1
            cases h1
            rfl
          | succ n =>
            rw [if_pos (by omega)] at h1
            cases h1 with
            | cons h1 h2 =>
              cases h2
              generalize hc : (0 : Nat) = c at h1
              cases h1 with
              | known hk _ =>
                have := List.mem_of_getElem? hk
                simp at this
              | new hk _ h1 =>
                rw [← List.range_succ] at h1
                have := chain_doc N n (a + 1) _ _ _ (by omega) h1
                subst this
                simp [deep]

/-! ### Restoring them needs three calls for each object -/

theorem record_fuel {cfg : HTable.Cfg Nat} {env : Env} {C : Nat → GTy} {read : σ → Res (Event × σ)}
    {total d : Nat} {nm : Bytes} {ty : GTy} {o : Obj} {os : List Obj} {s s1 : σ} {st : Objs} {t : ScopeTy}
    (ht : 0 < total) (hs : ty.isScope = true) (hr : read s = .ok (⟨nm, .scope t⟩, s1))
    (h : paste cfg env C read total d ty o (.fresh t) (s1, st) = .fuel) :
    paste cfg env C read total (d + 1) (.record (.cons nm ty .nil)) (.many (o :: os)) (.fresh .object) (s, st)
      = .fuel := by
  obtain ⟨total, rfl⟩ : ∃ k, total = k + 1 := ⟨total - 1, by omega⟩
  have hc : consumeNode read (total + 1) (.name nm) (.fresh .object) s
      = .ok (some (nm, .fresh t), .fresh .object, s1) := by
    simp [consumeNode, takeOut, LNode.fresh, seekNode, hr, Sel.hits]
  simp only [paste, eachMember, pasteField, hs, if_true]
  rw [if_neg (by simp [LNode.fresh])]
  simp only [hc, Res.ok_bind, h, Res.fuel_bind]

theorem vec_fuel {cfg : HTable.Cfg Nat} {env : Env} {C : Nat → GTy} {read : σ → Res (Event × σ)}
    {total d : Nat} {nm : Bytes} {e : GTy} {old : Obj} {s s1 : σ} {st : Objs} {t : ScopeTy}
    (ht : 0 < total) (hr : read s = .ok (⟨nm, .scope t⟩, s1))
    (h : paste cfg env C read total d e (dfltG e) (.fresh t) (s1, st) = .fuel) :
    paste cfg env C read total (d + 1) (.vec e) old (.fresh .array) (s, st) = .fuel := by
  obtain ⟨total, rfl⟩ : ∃ k, total = k + 1 := ⟨total - 1, by omega⟩
  have hc : consumeNode read (total + 1) (.index 0) (.fresh .array) s
      = .ok (some (nm, .fresh t), .fresh .array, s1) := by
    simp [consumeNode, takeOut, LNode.fresh, seekNode, hr, Sel.hits]
  simp only [paste]
  rw [if_neg (by simp [LNode.fresh])]
  simp only [nextNodes, hc, Res.ok_bind]
  rw [if_neg (by simp [LNode.fresh])]
  simp only [h, Res.fuel_bind]

theorem shared_fuel {cfg : HTable.Cfg Nat} {env : Env} {C : Nat → GTy} {read : σ → Res (Event × σ)}
    {total d c k : Nat} {w : Bool} {v : Val} {old : Obj} {s s1 s2 : σ} {t : ScopeTy}
    (ht : 0 < total) (hC : (C c).isScope = true) (h1 : read s = .ok (⟨keyName, .val v⟩, s1))
    (hv : pasteVal env (.int .u64) (.int 0) v = .ok (.int (.ofNat k)))
    (h2 : read s1 = .ok (⟨valueName, .scope t⟩, s2))
    (h : paste cfg env C read total d (C c) (dfltG (C c)) (.fresh t) (s2, Objs.new) = .fuel) :
    paste cfg env C read total (d + 1) (.shared w c) old (.fresh .object) (s, Objs.new) = .fuel := by
  obtain ⟨total, rfl⟩ : ∃ k, total = k + 1 := ⟨total - 1, by omega⟩
  have hk : consumeValue read (total + 1) (.name keyName) (.fresh .object) s
      = .ok (some (keyName, v), .fresh .object, s1) := by
    simp [consumeValue, takeOut, LNode.fresh, seekValue, h1, Sel.hits]
  have hc : consumeNode read (total + 1) (.name valueName) (.fresh .object) s1
      = .ok (some (valueName, .fresh t), .fresh .object, s2) := by
    simp [consumeNode, takeOut, LNode.fresh, seekNode, h2, Sel.hits]
  have hg : HTable.get cfg Objs.new.table k = .ok none := by
    obtain ⟨r, h1, h2⟩ := tab_get (tab_new cfg 16) k
    rw [show Objs.new.table = HTable.new 16 from rfl, h1]
    cases r with
    | none => rfl
    | some _ => simp at h2
  simp only [paste, pasteField, Bool.false_eq_true, if_false, hC, if_true]
  rw [if_neg (by simp [LNode.fresh])]
  simp only [hk, Res.ok_bind, hv, hg]
  rw [if_neg (by simp [LNode.fresh])]
  simp only [hc, Res.ok_bind, h, Res.fuel_bind]

theorem chain_fuel {nv : Val → Val} (hk : Keeps nv) (cfg : HTable.Cfg Nat) (env : Env)
    (read : σ → Res (Event × σ)) (total : Nat) (ht : 0 < total) :
    ∀ (n k d : Nat) (o : Obj) (os : List Obj) (s s' : σ) (more : List Event), d ≤ 3 * n → k + n ≤ 2 ^ 64 →
      Emits read s (Item.eventsL (Norm.items nv true (deep k n)) ++ more) s' →
      paste cfg env (fun _ => personTy) read total d personTy (.many (o :: os)) (.fresh .object) (s, Objs.new)
        = .fuel
  | _, _, 0, _, _, _, _, _, _, _, _ => rfl
  | 0, _, d + 1, _, _, _, _, _, h, _, _ => by omega
  | n + 1, k, d + 1, o, os, s, s', more, h, hb, he => by
    obtain ⟨t', e1, e2, e3⟩ := hk.int .u64 k (by simp [IntTy.lo, IntTy.signed]) (by
      simp only [IntTy.hi, IntTy.signed, IntTy.bits]; simp; omega)
    have hv : pasteVal env (.int .u64) (.int 0) (.int t' k) = .ok (.int (.ofNat k)) := by
      simp only [pasteVal]
      rw [int_paste env.strtod .u64 t' k (by simp [IntTy.lo, IntTy.signed]) (by
        simp only [IntTy.hi, IntTy.signed, IntTy.bits]; simp; omega) e2 e3]
      rfl
    simp only [deep, Norm.items, Norm.item, if_true, e1, Item.eventsL, Item.events, List.cons_append,
      List.nil_append, List.append_assoc, show (ScopeTy.object == ScopeTy.object) = true from rfl,
      show (ScopeTy.array == ScopeTy.object) = false from rfl, Bool.false_eq_true, if_false] at he
    obtain ⟨s1, r1, he⟩ := he.cons_inv
    obtain ⟨s2, r2, he⟩ := he.cons_inv
    obtain ⟨s3, r3, he⟩ := he.cons_inv
    obtain ⟨s4, r4, he⟩ := he.cons_inv
    refine record_fuel ht rfl r1 ?_
    cases d with
    | zero => rfl
    | succ d =>
      refine vec_fuel ht r2 ?_
      cases d with
      | zero => rfl
      | succ d =>
        exact shared_fuel ht rfl r3 hv r4
          (chain_fuel hk cfg env read total ht n (k + 1) d _ _ s4 s' _ (by omega) (by omega) he)

theorem chain_ok (N : Nat) (hN : N < 2 ^ 64) : (chain N).Ok (fun _ => personTy) (List.range N) := by
  refine ⟨fun _ => ⟨by decide +kernel, by decide +kernel, ?_⟩, fun a _ => ?_, fun a _ => ?_, by simpa using hN⟩
  · simp [GFields.Ok, GTy.Ok, GTy.isScope]
  · refine ⟨_, rfl, _, _, rfl, ⟨_, rfl, fun x hx => ?_⟩, rfl⟩
    split at hx
    · exact ⟨a + 1, by simpa using hx⟩
    · cases hx
  · intro r hr
    simp only [chain, personTy, person, refs, refsL, List.append_nil] at hr
    split at hr
    · simp only [addr, List.flatMap_cons, List.flatMap_nil, List.append_nil, refs, List.mem_singleton] at hr
      subst hr
      simp [chain]
      assumption
    · cases hr

theorem chain_acyclic (N : Nat) : (chain N).Acyclic (fun _ => personTy) := by
  refine ⟨fun a => N - a, fun a r hr => ?_⟩
  simp only [chain, personTy, person, refs, refsL, List.append_nil] at hr
  split at hr
  · simp only [addr, List.flatMap_cons, List.flatMap_nil, List.append_nil, refs, List.mem_singleton] at hr
    subst hr
    simp only
    omega
  · cases hr

end Srl.Shared
