import Verif.Lemmas.Views
import Verif.Lemmas.OwnRun

/-! # C72: restored `Srl::String`s show the text that was stored -/

namespace Srl.Props
open Own

/-- C72: what is read of members of type `Srl::String` after `Tree::restore`, as long as the source is not changed and the
tree is neither cleared nor destroyed, whatever is done to other memory (`AllSeen`): the text stored under the name, with
two exceptions. A text of one to eight bytes is gone if a value behind it was restored before. A text which the parser had
to unescape or to copy is whatever is in the memory of the parser then. Missing: those two, see `short_text_is_gone`,
`unescaped_text_is_overwritten` and `unescaped_text_is_gone`. -/
theorem restored_text_partial {isStr : Nat → Bool} {m : Mem} {b off len e : Nat} {d : Bytes} {root : Piece × ScopeTy}
    {rn : Bytes} {fs : List Field} {names : List Bytes} (temporary : Bool) (he : ∃ v, m.env e = .ok v)
    (hs : m.read (.ext (.buf b) off len) = .ok d) (hroot : Spec.piece d root.1 = some rn) (hw : WellFormed d fs)
    (hnd : (valNames d fs).Nodup) (hn : names.Nodup)
    (hq : ∀ n ∈ names, ∃ kind data txt, Stored d fs n kind data txt ∧ isStr kind = true ∧ ∀ x, data ≠ .num x) :
    ∃ vs m', restoreViews isStr m e (.ext (.buf b) off len) root fs names temporary = .ok (vs, m') ∧
      ∀ m'', m''.bufs b = m'.bufs b → TreeHeld e m' m'' → AllSeen d fs m'' [] names vs := by
  obtain ⟨vs, m', h1, -, h2⟩ := restoreViews_ok temporary he hs hroot hw hnd hn hq
  exact ⟨vs, m', h1, h2⟩

/-- Without exceptions: the members are restored in the order of the document and every text is in the source as it is. -/
theorem restored_text_in_order {isStr : Nat → Bool} {m : Mem} {b off len e : Nat} {d : Bytes} {root : Piece × ScopeTy}
    {rn : Bytes} {fs : List Field} {names : List Bytes} (temporary : Bool) (he : ∃ v, m.env e = .ok v)
    (hs : m.read (.ext (.buf b) off len) = .ok d) (hroot : Spec.piece d root.1 = some rn) (hw : WellFormed d fs)
    (hnd : (valNames d fs).Nodup) (hn : names.Sublist (valNames d fs))
    (hq : ∀ n ∈ names, ∃ kind o l txt, Stored d fs n kind (.src o l) txt ∧ isStr kind = true) :
    ∃ vs m', restoreViews isStr m e (.ext (.buf b) off len) root fs names temporary = .ok (vs, m') ∧
      ∀ m'', m''.bufs b = m'.bufs b → TreeHeld e m' m'' → AllText d fs m'' names vs := by
  obtain ⟨vs, m', h1, -, h2⟩ := restoreViews_ok temporary he hs hroot hw hnd (hn.nodup hnd) (fun n h => by
    obtain ⟨k, o, l, t, h3, h4⟩ := hq n h
    exact ⟨k, _, t, h3, h4, fun _ hx => by cases hx⟩)
  refine ⟨vs, m', h1, fun m'' hb hk => allText_of_order hnd (h2 m'' hb hk) (by simpa using hn) ?_⟩
  intro n h kind data txt hst
  obtain ⟨k, o, l, t, h3, -⟩ := hq n h
  obtain ⟨-, rfl, -⟩ := stored_unique hnd h3 hst
  exact ⟨o, l, rfl⟩

/-- Without exceptions: the members are restored in any order and every text is in the source as it is, and longer than
eight bytes or empty. -/
theorem restored_long_text {isStr : Nat → Bool} {m : Mem} {b off len e : Nat} {d : Bytes} {root : Piece × ScopeTy}
    {rn : Bytes} {fs : List Field} {names : List Bytes} (temporary : Bool) (he : ∃ v, m.env e = .ok v)
    (hs : m.read (.ext (.buf b) off len) = .ok d) (hroot : Spec.piece d root.1 = some rn) (hw : WellFormed d fs)
    (hnd : (valNames d fs).Nodup) (hn : names.Nodup)
    (hq : ∀ n ∈ names, ∃ kind o l txt, Stored d fs n kind (.src o l) txt ∧ isStr kind = true ∧ (txt = [] ∨ 8 < txt.length)) :
    ∃ vs m', restoreViews isStr m e (.ext (.buf b) off len) root fs names temporary = .ok (vs, m') ∧
      ∀ m'', m''.bufs b = m'.bufs b → TreeHeld e m' m'' → AllText d fs m'' names vs := by
  obtain ⟨vs, m', h1, -, h2⟩ := restoreViews_ok temporary he hs hroot hw hnd hn (fun n h => by
    obtain ⟨k, o, l, t, h3, h4, -⟩ := hq n h
    exact ⟨k, _, t, h3, h4, fun _ hx => by cases hx⟩)
  refine ⟨vs, m', h1, fun m'' hb hk => allText_of_long (h2 m'' hb hk) ?_⟩
  intro n h kind data txt hst
  obtain ⟨k, o, l, t, h3, -, h5⟩ := hq n h
  obtain ⟨-, rfl, rfl⟩ := stored_unique hnd h3 hst
  exact ⟨⟨o, l, rfl⟩, h5⟩

/-- A member that is not stored in the document, or not as a text, ends the restore with an exception, whatever members are
in front of it and behind it. -/
theorem restored_text_missing {isStr : Nat → Bool} {m : Mem} {b off len e : Nat} {d : Bytes} {root : Piece × ScopeTy}
    {rn : Bytes} {fs : List Field} {names more : List Bytes} {bad : Bytes} (temporary : Bool) (he : ∃ v, m.env e = .ok v)
    (hs : m.read (.ext (.buf b) off len) = .ok d) (hroot : Spec.piece d root.1 = some rn) (hw : WellFormed d fs)
    (hnd : (valNames d fs).Nodup) (hn : (names ++ [bad]).Nodup)
    (hq : ∀ n ∈ names, ∃ kind data txt, Stored d fs n kind data txt ∧ isStr kind = true)
    (hbad : bad ∉ valNames d fs ∨ ∃ kind data txt, Stored d fs bad kind data txt ∧ isStr kind = false) :
    restoreViews isStr m e (.ext (.buf b) off len) root fs (names ++ bad :: more) temporary = .err :=
  restoreViews_err temporary he hs hroot hw hnd hn hq hbad

/-- Members of type `String` pasted from a tree that was built, loaded, copied or moved by any program of C68: they show
the value until the tree is cleared or destroyed, whatever is done to the source, the parser and other trees. -/
theorem text_of_loaded_tree (ops : List Op) (hp : ∀ op ∈ ops, op.Plain) {outs : List Out} {w : Spec.World}
    (h : Spec.run ops Spec.init = some (outs, w)) : ∃ s, run ops St.init = .ok (outs, s) ∧
      ∀ t e n, s.trees t = some (e, n) → ∀ v ∈ n.values, ∃ d, s.mem.read v.block = .ok d ∧
        ∀ m', TreeHeld e s.mem m' → (viewIn e n.gen v.block).read m' = .ok d := by
  obtain ⟨s, h1, hs⟩ := run_ok Sim.init hp h
  refine ⟨s, h1, fun t e n ht v hv => ?_⟩
  obtain ⟨g, hg⟩ := hs.trees t e n ht
  obtain ⟨hl, ho, hgen, d, hr⟩ := good_value hg hv
  exact ⟨d, hr, fun m' hk => by rw [hgen]; exact viewIn_ok hl ho hr hk⟩

/-! ## Cases -/

/-- A tree and a source, a parser without memory of its own -/
private def mem : Mem :=
  ⟨fun i => if i = 0 then some ((List.range 20).map UInt8.ofNat) else none, none, none, [⟨true, 0, [], []⟩]⟩

private def isText (k : Nat) : Bool := k == 7

/-- The texts are 10 11 12 13, and 0 1 … 9; the names are 14 and 15. -/
private def doc : List Field := [.val (.src 14 1) 7 (.src 10 4), .scope (.src 16 1) .array [], .val (.src 15 1) 7 (.src 0 10)]

private def source : Block := .ext (.buf 0) 0 20

private theorem doc_ok : WellFormed ((List.range 20).map UInt8.ofNat) doc ∧
    valNames ((List.range 20).map UInt8.ofNat) doc = [[14], [15]] ∧
    Stored ((List.range 20).map UInt8.ofNat) doc [14] 7 (.src 10 4) [10, 11, 12, 13] ∧
    Stored ((List.range 20).map UInt8.ofNat) doc [15] 7 (.src 0 10) [0, 1, 2, 3, 4, 5, 6, 7, 8, 9] := by
  refine ⟨⟨_, rfl⟩, by decide, ⟨.src 14 1, by simp [doc], by decide, by decide⟩, ⟨.src 15 1, by simp [doc], by decide, by decide⟩⟩

/-- The hypotheses of `restored_text_in_order` are met. -/
example : ∃ vs m', restoreViews isText mem 0 source (.src 0 0, .object) doc [[14], [15]] true = .ok (vs, m') ∧
    ∀ m'', m''.bufs 0 = m'.bufs 0 → TreeHeld 0 m' m'' → AllText ((List.range 20).map UInt8.ofNat) doc m'' [[14], [15]] vs :=
  restored_text_in_order true ⟨_, rfl⟩ (by decide +kernel) (rn := []) (by decide) doc_ok.1 (by rw [doc_ok.2.1]; decide)
    (by rw [doc_ok.2.1]; exact List.Sublist.refl _) (by
      simp only [List.mem_cons, List.not_mem_nil, or_false]
      rintro n (rfl | rfl)
      · exact ⟨_, _, _, _, doc_ok.2.2.1, rfl⟩
      · exact ⟨_, _, _, _, doc_ok.2.2.2, rfl⟩)

/-- Those of `restored_text_partial` are met in the other order. -/
example : ∃ vs m', restoreViews isText mem 0 source (.src 0 0, .object) doc [[15], [14]] true = .ok (vs, m') ∧
    ∀ m'', m''.bufs 0 = m'.bufs 0 → TreeHeld 0 m' m'' → AllSeen ((List.range 20).map UInt8.ofNat) doc m'' [] [[15], [14]] vs :=
  restored_text_partial true ⟨_, rfl⟩ (by decide +kernel) (rn := []) (by decide) doc_ok.1 (by rw [doc_ok.2.1]; decide)
    (by decide) (by
      simp only [List.mem_cons, List.not_mem_nil, or_false]
      rintro n (rfl | rfl)
      · exact ⟨_, _, _, doc_ok.2.2.2, rfl, by simp⟩
      · exact ⟨_, _, _, doc_ok.2.2.1, rfl, by simp⟩)

/-- Those of `restored_text_missing` are met by a name of which there is no value and by a value that is no text. -/
example : restoreViews isText mem 0 source (.src 0 0, .object) doc [[15], [16], [14]] true = .err :=
  restored_text_missing (names := [[15]]) true ⟨_, rfl⟩ (by decide +kernel) (rn := []) (by decide) doc_ok.1
    (by rw [doc_ok.2.1]; decide) (by decide) (by
      simp only [List.mem_cons, List.not_mem_nil, or_false]
      rintro n rfl
      exact ⟨_, _, _, doc_ok.2.2.2, rfl⟩) (.inl (by rw [doc_ok.2.1]; decide))

example : restoreViews (· == 8) mem 0 source (.src 0 0, .object) doc [[15]] true = .err :=
  restored_text_missing (names := []) true ⟨_, rfl⟩ (by decide +kernel) (rn := []) (by decide) doc_ok.1
    (by rw [doc_ok.2.1]; decide) (by decide) (by simp) (.inr ⟨_, _, _, doc_ok.2.2.2, rfl⟩)

/-- `text_of_loaded_tree` applies to a tree with a short and a long value, loaded from a buffer that is given up. -/
private def loading : List Op :=
  [.write 0 ((List.range 20).map UInt8.ofNat), .load 0 (.buf 0 0 20) (some (.src 0 0, .object)) doc true, .free 0]

example : ∃ w, Spec.run loading Spec.init = some ([.done, .done, .done], w) ∧ ∃ s, run loading St.init = .ok ([.done, .done, .done], s) ∧
    ∃ e n, s.trees 0 = some (e, n) ∧ n.values.map (fun v => (viewIn e n.gen v.block).read s.mem) =
      [.ok [10, 11, 12, 13], .ok [0, 1, 2, 3, 4, 5, 6, 7, 8, 9]] := ⟨_, rfl, _, rfl, _, _, rfl, by decide +kernel⟩

/-- What the members show, one after the other, in the memory the restore leaves -/
private def shown (r : Res (List View × Mem)) : Res (List (Res Bytes)) := do
  let (vs, m) ← r
  .ok (vs.map (View.read m))

example : shown (restoreViews isText mem 0 source (.src 0 0, .object) doc [[14], [15]] true) =
    .ok [.ok [10, 11, 12, 13], .ok [0, 1, 2, 3, 4, 5, 6, 7, 8, 9]] := by decide +kernel

/-- The second member is restored first: the first one points to what was a `Value` on the stack. -/
theorem short_text_is_gone : shown (restoreViews isText mem 0 source (.src 0 0, .object) doc [[15], [14]] true) =
    .ok [.ok [0, 1, 2, 3, 4, 5, 6, 7, 8, 9], .ub] := by decide +kernel

/-- Long texts can be restored in any order. -/
example : shown (restoreViews isText mem 0 source (.src 0 0, .object)
      [.val (.src 14 1) 7 (.src 1 9), .val (.src 15 1) 7 (.src 0 10)] [[15], [14]] true) =
    .ok [.ok [0, 1, 2, 3, 4, 5, 6, 7, 8, 9], .ok [1, 2, 3, 4, 5, 6, 7, 8, 9]] := by decide +kernel

/-- Two texts with escapes, as in JSON, and a parser that is kept by the user: both members show the second. -/
theorem unescaped_text_is_overwritten : shown (restoreViews isText mem 0 source (.src 0 0, .object)
      [.val (.src 14 1) 7 (.scratch [97, 10]), .val (.src 15 1) 7 (.scratch [98, 10])] [[14], [15]] false) =
    .ok [.ok [98, 10], .ok [98, 10]] := by decide +kernel

/-- The same with a parser that is not kept: nothing can be read. -/
theorem unescaped_text_is_gone : shown (restoreViews isText mem 0 source (.src 0 0, .object)
      [.val (.src 14 1) 7 (.scratch [97, 10])] [[14]] true) = .ok [.ub] := by decide +kernel

end Srl.Props
