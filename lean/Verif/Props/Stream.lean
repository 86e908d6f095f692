import Verif.Lemmas.StreamDoc
import Verif.Props.PSrl

/-! # C28 – streams and memory -/

namespace Srl.Props
open Srl.Stream Doc

/-! ## Operations on the source -/

/-- Programs that read blocks and skip, of sizes below `bound`, depending on what they have read. -/
def Plain {α : Type} (bound : Nat) : Prog α → Prop
  | .done _ => True
  | .block n k => n < bound ∧ ∀ b, Plain bound (k b)
  | .move n k => n < bound ∧ Plain bound k
  | .cur _ => False

private theorem plain_fair {α : Type} {N : Nat} : ∀ (p : Prog α) (r : Bytes) (a : Bool), Plain N p →
    Fair N (fun _ _ _ => True) p r a := by
  intro p
  induction p with
  | done x => exact fun r a h y e => trivial
  | block n k ih => exact fun r a h => ⟨h.1, fun _ => ih _ _ _ (h.2 _)⟩
  | move n k ih => exact fun r a h => ⟨h.1, fun _ => ih _ _ h.2⟩
  | cur k ih => exact fun r a h => h.elim

/-- The result of a program on a stream, without what is left -/
def streamed {α : Type} (cap : Nat) (old : SIn) (src : Bytes) (p : Prog α) : SRes α :=
  (SIn.set cap old src).bind fun s => (p.stream cap s).bind fun x => .ok x.1

/-- C28, reading blocks and skipping: any sequence of these operations gives the same bytes and the same
failures on a stream as in memory – wherever the buffer has to be refilled, whatever it held before –,
provided there is memory for the source and the largest block asked for. -/
theorem stream_operations {α : Type} (m : Mem) (hm : m.Sane) (bound cap : Nat) (hb : bound ≤ 2 ^ 63) (old : SIn)
    (src : Bytes) (hc : src.length + 1024 ≤ cap) (hc' : src.length + bound ≤ cap) (p : Prog α) (hp : Plain bound p) :
    streamed cap old src p = match p.mem ⟨some 0, m.lim⟩ src with
      | .ok (a, _) => .ok a
      | .err => .err
      | .ub => .ub
      | .fuel => .fuel := by
  obtain ⟨s, h1, h2, -⟩ := set_inv cap old src (by omega)
  unfold streamed
  rw [h1]
  simp only [SRes.ok_bind]
  have hm' : (⟨some 0, m.lim⟩ : Mem).Sane := hm
  rcases agrees hm' (fun h => nomatch h) (cap := cap) hb p s [] src false (plain_fair p src false hp) h2
      (fun h => nomatch h) with ⟨-, h | ⟨-, h⟩⟩ | h
  · simp only [List.length_nil] at h; omega
  · simp only [List.length_nil] at h; omega
  · revert h
    cases p.mem ⟨some 0, m.lim⟩ src with
    | ok x =>
      obtain ⟨a, t⟩ := x
      cases p.stream cap s with
      | ok y => exact fun h => by rw [h.1]; rfl
      | _ => exact fun h => h.elim
    | _ => cases p.stream cap s <;> first | exact fun h => h.elim | exact fun _ => rfl

private def three : Prog (Bytes × Bytes) :=
  .block 2 fun a => .move 1100 (.block 3 fun b => .done (.ok (a, b)))

example : Plain 2000 three ∧
    streamed 10000 SIn.new (List.replicate 1101 7 ++ [1, 2, 3, 4]) three = .ok ([7, 7], [2, 3, 4]) :=
  ⟨⟨by decide, fun _ => ⟨by decide, by decide, fun _ => trivial⟩⟩, by decide +kernel⟩

/-! ## MessagePack -/

/-- The object alone -/
def value {α σ : Type} (r : Res (α × σ)) : Res α := do
  let (a, _) ← r
  .ok a

private theorem rel_value {α σ τ : Type} {E : Lax} {R : σ → τ → Prop} {r : Res (α × σ)} {r' : Res (α × τ)}
    (h : Rel E (With R) r r') : Rel E Eq (value r) (value r') :=
  h.bind fun _ _ h => h.1

private theorem rel_strict {α : Type} {r r' : Res α} (h : Rel ⟨False, False⟩ Eq r r') : r' = r := by
  cases r <;> cases r' <;> first | exact h.elim | rfl | (cases h; rfl) | (exact (h.elim id id).elim)

private theorem opened_eq {α : Type} {cap : Nat} {old : SIn} {src : Bytes} {f : SIn → Res α} {s : SIn}
    (h : SIn.set cap old src = .ok s) : opened cap old src f = f s := by
  unfold opened
  rw [h]

/-- C28 for MessagePack: loading any document from a stream gives what loading it from memory gives, be it a
tree or an error. Whatever source the tree has read before (`old`); there must be memory for the document
and 4 GiB. -/
theorem msgpack_stream_load (m : Mem) (hm : m.Sane) (hp : m.past ≠ none) (cap : Nat) (old : SIn) (src : Bytes)
    (hc : src.length + 2 ^ 32 ≤ cap) : PMsgPack.loadS cap old src = value (PMsgPack.load m src) := by
  obtain ⟨s, h1, h2⟩ := side_open cap old src ([] : List PMsgPack.RScope) (by omega)
  unfold PMsgPack.loadS
  rw [opened_eq h1]
  exact rel_strict (rel_value (load_rel (PMsgPack.reading_stream hm hp (by omega) (fun h => by omega)) _ _ _ h2))

/-- … and so does restoring an object of any type. -/
theorem msgpack_stream_restore (m : Mem) (hm : m.Sane) (hp : m.past ≠ none) (cap : Nat) (old : SIn) (src : Bytes)
    (hc : src.length + 2 ^ 32 ≤ cap) (env : Typed.Env) (fuel : Nat) (ty : Typed.Ty) (o : Typed.Obj) :
    opened cap old src (fun s => value (Typed.restore env (PMsgPack.readS cap) fuel ty o ([], s))) =
      value (Typed.restore env (PMsgPack.read m) fuel ty o ([], src)) := by
  obtain ⟨s, h1, h2⟩ := side_open cap old src ([] : List PMsgPack.RScope) (by omega)
  rw [opened_eq h1]
  exact rel_strict (rel_value (Typed.restore_rel env
    (PMsgPack.reading_stream hm hp (by omega) (fun h => by omega)) _ _ _ _ _ h2))

/-- … and restoring objects with shared pointers. -/
theorem msgpack_stream_shared (m : Mem) (hm : m.Sane) (hp : m.past ≠ none) (cap : Nat) (old : SIn) (src : Bytes)
    (hc : src.length + 2 ^ 32 ≤ cap) (cfg : HTable.Cfg Nat) (env : Typed.Env) (C : Nat → Shared.GTy) (fuel : Nat)
    (ty : Shared.GTy) (o : Typed.Obj) :
    opened cap old src (fun s => Shared.restore cfg env C (PMsgPack.readS cap) fuel ty o ([], s)) =
      Shared.restore cfg env C (PMsgPack.read m) fuel ty o ([], src) := by
  obtain ⟨s, h1, h2⟩ := side_open cap old src ([] : List PMsgPack.RScope) (by omega)
  rw [opened_eq h1]
  exact rel_strict (Shared.restore_rel cfg env C
    (PMsgPack.reading_stream hm hp (by omega) (fun h => by omega)) _ _ _ _ _ h2)

/-- Whether a root is an object with one field: its name, and its value if it is an integer -/
private def oneField : Res Root → Option (Bytes × Int)
  | .ok ⟨_, .mk .object [(n, .int _ v)] []⟩ => some (n, v)
  | _ => none

/-- Not vacuous: a name of 1500 bytes, so that the buffer is refilled twice. -/
example : oneField (PMsgPack.loadS (2 ^ 33) SIn.new ([0x81, 0xDA, 0xDC, 5] ++ List.replicate 1500 97 ++ [5])) =
    some (List.replicate 1500 97, 5) := by decide +kernel

/-- C28 fails if there is less memory: a document of six bytes announces a string of almost 4 GiB. In memory
this is an error; from a stream the library first makes room for the string, and where that does not succeed
the exception is not one of the library. -/
theorem stream_announced_size :
    PMsgPack.load ⟨some 0, 4096⟩ [0x91, 0xDB, 255, 255, 255, 255] = .err ∧
    ((PMsgPack.readP [⟨.array, 1⟩]).stream (2 ^ 30) ⟨[0x91, 0xDB, 255, 255, 255, 255], 1, 6, none, false, []⟩) =
      .alloc := ⟨Res.eq_err (by decide +kernel), by decide +kernel⟩

/-! ## Srl -/

/-- Specification: all names in a document as it is read from memory are shorter than 1024 bytes. -/
def NamesShort (m : Mem) (src : Bytes) : Prop :=
  ∀ es x, Emits (PSrl.read m) (PSrl.St.init, src) es x → ∀ e ∈ es, e.name.length < 1024

private theorem rel_ok {α : Type} {a : α} {r r' : Res α} (h : Rel ⟨True, True⟩ Eq r r') (hr : r = .ok a) :
    r' = .ok a := by
  subst hr
  cases r' with
  | ok b => cases h; rfl
  | _ => exact h.elim

private theorem rel_err {α : Type} {r r' : Res α} (h : Rel ⟨True, False⟩ Eq r r') :
    r' = r ∨ (r = .err ∧ r' = .fuel) := by
  cases r <;> cases r' <;>
    first | exact h.elim | exact .inl rfl | (cases h; exact .inl rfl) | exact .inr ⟨rfl, rfl⟩

/-- C28 for the Srl format, documents that are accepted: what can be loaded from memory can be loaded from a
stream, with the same result. Names must be shorter than 1024 bytes (see `stream_long_name`). -/
theorem srl_stream_accepts_partial (m : Mem) (hm : m.Sane) (hp : m.past ≠ none) (cap : Nat) (old : SIn) (src : Bytes)
    (hc : src.length + 1024 ≤ cap) (hl : src.length < 2 ^ 63) (hn : NamesShort m src) (r : Root)
    (h : value (PSrl.load m src) = .ok r) : PSrl.loadS cap old src = .ok r := by
  obtain ⟨s, h1, h2⟩ := side_open cap old src PSrl.St.init (by omega)
  unfold PSrl.loadS
  rw [opened_eq h1]
  exact rel_ok (rel_value (load_rel (PSrl.reading_stream_ok hm hp hc hl trivial) _ _ _ ⟨h2, hn⟩)) h

/-- … and what can be restored from memory can be restored from a stream. -/
theorem srl_stream_restores_partial (m : Mem) (hm : m.Sane) (hp : m.past ≠ none) (cap : Nat) (old : SIn) (src : Bytes)
    (hc : src.length + 1024 ≤ cap) (hl : src.length < 2 ^ 63) (hn : NamesShort m src) (env : Typed.Env)
    (fuel : Nat) (ty : Typed.Ty) (o o' : Typed.Obj)
    (h : value (Typed.restore env (PSrl.read m) fuel ty o (PSrl.St.init, src)) = .ok o') :
    opened cap old src (fun s => value (Typed.restore env (PSrl.readS cap) fuel ty o (PSrl.St.init, s))) =
      .ok o' := by
  obtain ⟨s, h1, h2⟩ := side_open cap old src PSrl.St.init (by omega)
  rw [opened_eq h1]
  exact rel_ok (rel_value (Typed.restore_rel env (PSrl.reading_stream_ok hm hp hc hl trivial) _ _ _ _ _ ⟨h2, hn⟩)) h

/-- … also with shared pointers. -/
theorem srl_stream_shared_partial (m : Mem) (hm : m.Sane) (hp : m.past ≠ none) (cap : Nat) (old : SIn) (src : Bytes)
    (hc : src.length + 1024 ≤ cap) (hl : src.length < 2 ^ 63) (hn : NamesShort m src) (cfg : HTable.Cfg Nat)
    (env : Typed.Env) (C : Nat → Shared.GTy) (fuel : Nat) (ty : Shared.GTy) (o : Typed.Obj)
    (x : Typed.Obj × List (Nat × Typed.Obj))
    (h : Shared.restore cfg env C (PSrl.read m) fuel ty o (PSrl.St.init, src) = .ok x) :
    opened cap old src (fun s => Shared.restore cfg env C (PSrl.readS cap) fuel ty o (PSrl.St.init, s)) = .ok x := by
  obtain ⟨s, h1, h2⟩ := side_open cap old src PSrl.St.init (by omega)
  rw [opened_eq h1]
  exact rel_ok (Shared.restore_rel cfg env C (PSrl.reading_stream_ok hm hp hc hl trivial) _ _ _ _ _ ⟨h2, hn⟩) h

/-- Documents that are rejected: unless lengths of `2^63` and more can occur – nine bytes above 127 in a row –
the stream is rejected as well, or memory runs out. -/
theorem srl_stream_rejects_partial (m : Mem) (hm : m.Sane) (hp : m.past ≠ none) (cap : Nat) (old : SIn) (src : Bytes)
    (hc : src.length + 1024 ≤ cap) (hr : NoRun src) (hn : PSrl.ShortNames m (PSrl.St.init, src)) :
    PSrl.loadS cap old src = value (PSrl.load m src) ∨
      (value (PSrl.load m src) = .err ∧ PSrl.loadS cap old src = .fuel) := by
  obtain ⟨s, h1, h2⟩ := side_open cap old src PSrl.St.init (by omega)
  unfold PSrl.loadS
  rw [opened_eq h1]
  exact rel_err (rel_value (load_rel (PSrl.reading_stream hm hp hc (fun _ => trivial)) _ _ _ ⟨h2, hr, hn⟩))

/-- In particular for all documents shorter than 1024 bytes. -/
theorem srl_stream_short_partial (m : Mem) (hm : m.Sane) (hp : m.past ≠ none) (cap : Nat) (old : SIn) (src : Bytes)
    (hl : src.length < 1024) (hc : 2048 ≤ cap) (hr : NoRun src) :
    PSrl.loadS cap old src = value (PSrl.load m src) ∨
      (value (PSrl.load m src) = .err ∧ PSrl.loadS cap old src = .fuel) :=
  srl_stream_rejects_partial m hm hp cap old src (by omega) hr
    (PSrl.shortNames_small (by simp [PSrl.St.init]) hl)

/-- Not vacuous: an object that ends within a name. -/
example : NoRun [64, 3, 5, 97, 98] ∧ value (PSrl.load ⟨some 0, 4096⟩ [64, 3, 5, 97, 98]) = .err ∧
    PSrl.loadS 2048 SIn.new [64, 3, 5, 97, 98] = .err :=
  ⟨fun pre w post h hw => absurd (congrArg List.length h) (by simp; omega), Res.eq_err (by decide +kernel), Res.eq_err (by decide +kernel)⟩

/-! ### What is saved -/

private theorem emits_prefix {σ : Type} {read : σ → Res (Event × σ)} {s t x : σ} {es : List Event}
    (h : Emits read s es t) (hend : ∀ y, read t ≠ .ok y) : ∀ es', Emits read s es' x → ∀ e ∈ es', e ∈ es := by
  induction h with
  | nil s =>
    intro es' h' e he
    cases h' with
    | nil => cases he
    | cons h1 _ => exact absurd h1 (hend _)
  | cons h1 h2 ih =>
    intro es' h' e he
    cases h' with
    | nil => cases he
    | cons h3 h4 =>
      rw [h1] at h3
      cases h3
      rcases List.mem_cons.mp he with rfl | he
      · exact List.mem_cons_self
      · exact List.mem_cons_of_mem _ (ih hend _ h4 e he)

mutual
private theorem norm_names : ∀ (b : Bool) (i : Item), (∀ e ∈ i.events, e.name.length < 1024) →
    ∀ e ∈ (PSrl.normItem b i).events, e.name.length < 1024
  | b, .val n v, h => by
    simp only [PSrl.normItem, Item.events, List.mem_singleton, forall_eq] at h ⊢
    split
    · exact h
    · simp
  | b, .scope n t ks, h => by
    simp only [PSrl.normItem, Item.events, List.mem_cons, List.mem_append, List.not_mem_nil,
      or_false] at h ⊢
    have ih := norms_names (t == .object) ks fun e he => h e (.inr (.inl he))
    intro e he
    rcases he with rfl | he | rfl
    · simp only
      split
      · exact h ⟨n, .scope t⟩ (.inl rfl)
      · simp
    · exact ih e he
    · simp
private theorem norms_names : ∀ (b : Bool) (is : List Item), (∀ e ∈ Item.eventsL is, e.name.length < 1024) →
    ∀ e ∈ Item.eventsL (PSrl.normItems b is), e.name.length < 1024
  | _, [], _ => by simp [PSrl.normItems, Item.eventsL]
  | b, i :: is, h => by
    simp only [PSrl.normItems, Item.eventsL, List.mem_append] at h ⊢
    intro e he
    rcases he with he | he
    · exact norm_names b i (fun e he => h e (.inl he)) e he
    · exact norms_names b is (fun e he => h e (.inr he)) e he
end

/-- C28 and C01: what has been saved in the Srl format is read back from a stream, if names are shorter than
1024 bytes. -/
theorem srl_stream_roundtrip_partial (name : Bytes) (n : Node)
    (hname : name.length < 2 ^ 32) (hn : PSrl.NodeOk n) (hsize : (n.events name).length < 2 ^ 64)
    (hdepth : n.depth ≤ 128) (hs : ∀ e ∈ n.events name, e.name.length < 1024) :
    ∃ bs, PSrl.save name n = .ok bs ∧ ∀ cap old, bs.length + 1024 ≤ cap → bs.length < 2 ^ 63 →
      ∃ r, PSrl.loadS cap old bs = .ok r ∧ SameNode n r.node := by
  have hm : (⟨some 0, 0⟩ : Mem).Sane := by show 0 < 2 ^ 63; decide
  obtain ⟨bs, h1, h2⟩ := srl_roundtrip ⟨some 0, 0⟩ hm name n hname hn hsize hdepth
  refine ⟨bs, h1, fun cap old hc hl => ?_⟩
  obtain ⟨r, st, h3, h4⟩ := h2 []
  rw [List.append_nil] at h3
  refine ⟨r, srl_stream_accepts_partial ⟨some 0, 0⟩ hm (fun h => nomatch h) cap old bs hc hl ?_ r ?_, h4⟩
  · rw [Node.events_eq] at hsize hs
    obtain ⟨st', ⟨bs', h5, h6⟩, -, h7⟩ := PSrl.codes_item hm (n.toItem name) PSrl.St.init
      (PSrl.itemOk_toItem name n hname hn) (by simpa [PSrl.St.init] using hsize)
    unfold PSrl.save at h1
    rw [Node.events_eq, h5] at h1
    cases h1
    intro es x he
    have h6 := h6 []
    rw [List.append_nil] at h6
    have := emits_prefix h6 (by
      rintro ⟨e, y⟩ h
      have := PSrl.read_progress _ _ _ _ h
      simp at this) es he
    exact fun e hm => norm_names _ _ hs e (this e hm)
  · rw [h3]
    rfl

/-- Not vacuous: the same kind of document as below, with names of 1023 bytes. -/
example : oneField (PSrl.loadS (2 ^ 33) SIn.new ([64, 3, 255, 7] ++ List.replicate 1023 97 ++ [5, 0])) =
    some (List.replicate 1023 97, 5) := by decide +kernel

/-- C28 fails: an object with one field, its name 1024 bytes long, its value 5. From memory it is loaded;
from a stream, the integer is read behind the end of the buffer … -/
theorem stream_long_name :
    let src := [64, 3, 128, 8] ++ List.replicate 1024 97 ++ [5, 0]
    PSrl.save [] (.mk .object [(List.replicate 1024 97, .int .u8 5)] []) = .ok src ∧
    oneField (value (PSrl.load ⟨some 0, 4096⟩ src)) = some (List.replicate 1024 97, 5) ∧
    PSrl.loadS (2 ^ 33) SIn.new src = .ub :=
  ⟨by decide +kernel, by decide +kernel, Res.eq_ub (by decide +kernel)⟩

/-- … or, if a longer document was loaded before, from what the buffer happens to hold: without any error
the value is another one. -/
theorem stream_long_name_wrong :
    oneField (PSrl.loadS (2 ^ 33) ⟨List.replicate 3000 7, 3000, 3000, none, false, []⟩
      ([64, 3, 128, 8] ++ List.replicate 1024 97 ++ [5, 0])) = some (List.replicate 1024 97, 7) := by
  decide +kernel

/-- C28 fails: a document of eleven bytes announces a string of `2^62` bytes. In memory this is an error; from
a stream it exhausts any memory. -/
theorem srl_stream_announced_size :
    PSrl.load ⟨some 0, 4096⟩ [128, 32, 128, 128, 128, 128, 128, 128, 128, 128, 64] = .err ∧
    ((PSrl.readP ⟨[.array], []⟩).stream (2 ^ 48)
      ⟨[128, 32, 128, 128, 128, 128, 128, 128, 128, 128, 64], 1, 11, none, false, []⟩) = .alloc :=
  ⟨Res.eq_err (by decide +kernel), by decide +kernel⟩

end Srl.Props
