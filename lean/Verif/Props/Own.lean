import Verif.Lemmas.OwnRun

/-! # C68: trees own their content -/

namespace Srl.Props
open Own

/-- C68: a program that gives up no buffer before it passes it, and that uses no node it holds after the
tree of the node was cleared, loaded again or destroyed (`Spec.run` is not `none`), has no undefined
behaviour and sees just the content that the specification gives: inserting, loading and copying take what
they are given at the time of the call, and nothing the program does later to its buffers, to the parser or
to other trees changes it. Missing: programs that assign to a root, move a tree to itself, load a tree from
bytes that the tree itself (or a node held) contains, or write a node they hold by value; see
`assigned_root_dangles`, `moved_to_itself`, `loaded_from_itself` and `written_without_name`. -/
theorem trees_own_their_content_partial (ops : List Op) (hp : ∀ op ∈ ops, op.Plain) {outs : List Out}
    {w : Spec.World} (h : Spec.run ops Spec.init = some (outs, w)) : ∃ s, run ops St.init = .ok (outs, s) := by
  obtain ⟨s, h1, _⟩ := run_ok Sim.init hp h
  exact ⟨s, h1⟩

/-- The program goes on from any state that other calls have led to. -/
theorem trees_own_their_content_after_partial (ops ops' : List Op) (hp : ∀ op ∈ ops, op.Plain)
    (hp' : ∀ op ∈ ops', op.Plain) {outs outs' : List Out} {w w' : Spec.World}
    (h : Spec.run ops Spec.init = some (outs, w)) (h' : Spec.run ops' w = some (outs', w')) :
    ∃ s s', run ops St.init = .ok (outs, s) ∧ run ops' s = .ok (outs', s') := by
  obtain ⟨s, h1, hs⟩ := run_ok Sim.init hp h
  obtain ⟨s', h2, _⟩ := run_ok hs hp' h'
  exact ⟨s, s', h1, h2⟩

private def long : Bytes := [1, 2, 3, 4, 5, 6, 7, 8, 9, 10]

/-- A tree is filled from a buffer (with a value of ten bytes, which is not kept in the value itself), the
buffer is overwritten and given up, a node is copied to another tree under a new name, a value of the first
tree is inserted there as well, the first tree is destroyed, the second one moved; a third one is loaded with
a name and a value that the parser unescapes in its own memory. -/
private def program : List Op :=
  [.write 0 (long ++ [97, 98]),
   .insertNode (.tree 0) [] (.buf 0 10 2) .array,
   .insert (.tree 0) [0] (.buf 0 11 1) 7 (.buf 0 0 10),
   .write 0 [0, 0, 0, 0, 0, 0, 0, 0, 0, 0, 99, 0],
   .copyNode (.tree 1) [] (.buf 0 10 1) (.tree 0) [0],
   .insert (.tree 1) [] (.name (.tree 0) [0]) 7 (.data (.tree 0) [0] 0),
   .free 0,
   .hold 0 (.tree 1) [0],
   .drop 0,
   .move 1 2,
   .view (.tree 2) [],
   .view (.held 0) [],
   .save (.tree 2) [],
   .write 1 [100, 101],
   .load 3 (.buf 1 0 2) (some (.src 0 0, .object))
     [.val (.scratch [110]) 7 (.scratch long), .val (.src 0 1) 7 (.scratch [5, 5, 5, 5, 5, 5, 5, 5, 5])] true,
   .free 1,
   .view (.tree 3) []]

private def second : ANode := .mk .object [] [([97, 98], 7, long)] [.mk .array [99] [([98], 7, long)] []]

/-- The hypotheses are met and what is seen is what was given. -/
example : (∀ op ∈ program, op.Plain) ∧ ∃ w s, Spec.run program Spec.init = some
      ([.done, .done, .done, .done, .done, .done, .done, .done, .done, .done, .node second,
        .node (.mk .array [99] [([98], 7, long)] []), .saved second, .done, .done, .done,
        .node (.mk .object [] [([110], 7, long), ([100], 7, [5, 5, 5, 5, 5, 5, 5, 5, 5])] [])], w) ∧
    run program St.init = .ok
      ([.done, .done, .done, .done, .done, .done, .done, .done, .done, .done, .node second,
        .node (.mk .array [99] [([98], 7, long)] []), .saved second, .done, .done, .done,
        .node (.mk .object [] [([110], 7, long), ([100], 7, [5, 5, 5, 5, 5, 5, 5, 5, 5])] [])], s) := by
  have hp : ∀ op ∈ program, op.Plain := by
    intro op h
    simp only [program, List.mem_cons, List.not_mem_nil, or_false] at h
    rcases h with rfl | rfl | rfl | rfl | rfl | rfl | rfl | rfl | rfl | rfl | rfl | rfl | rfl | rfl | rfl | rfl | rfl <;>
      simp [Op.Plain]
  refine ⟨hp, _, ?_, rfl, ?_⟩
  rotate_left
  · exact (trees_own_their_content_partial program hp rfl).choose_spec

/-- The specification is no excuse: programs that use what they have given up are told apart. -/
example : Spec.run [.write 0 long, .free 0, .insert (.tree 0) [] (.buf 0 0 1) 7 (.buf 0 0 9)] Spec.init = none := rfl
example : Spec.run [.hold 0 (.tree 0) [], .clear 0, .view (.held 0) []] Spec.init = none := rfl

/-- The root of a tree is assigned from another tree, as `Tree::root()` and the assignment of nodes allow:
the nodes are shared, not copied, and the content is gone with the other tree. -/
private def assigned : List Op :=
  [.write 0 long, .insert (.tree 0) [] (.buf 0 0 1) 7 (.buf 0 0 10), .assign 1 (.tree 0) [], .drop 0,
   .view (.tree 1) []]

theorem assigned_root_dangles : run assigned St.init = .ub ∧ ∃ w, Spec.run assigned Spec.init =
    some ([.done, .done, .done, .done, .node (.mk .object [] [([1], 7, long)] [])], w) :=
  ⟨Res.eq_ub (by rfl), _, rfl⟩

/-- A tree is moved to itself (`t = std::move(t)`), which leaves it without root. -/
private def selfMove : List Op :=
  [.write 0 long, .insert (.tree 0) [] (.buf 0 0 1) 7 (.buf 0 0 10), .move 0 0, .view (.tree 0) []]

theorem moved_to_itself : run selfMove St.init = .ub ∧ ∃ w, Spec.run selfMove Spec.init =
    some ([.done, .done, .done, .node (.mk .object [] [([1], 7, long)] [])], w) :=
  ⟨Res.eq_ub (by rfl), _, rfl⟩

/-- A document that is a value of a tree is loaded into that tree: it is cleared before it is read. -/
private def selfLoad : List Op :=
  [.write 0 long, .insert (.tree 0) [] (.buf 0 0 1) 7 (.buf 0 0 10),
   .load 0 (.data (.tree 0) [] 0) (some (.src 0 0, .object)) [.val (.src 0 1) 7 (.src 1 9)] true,
   .view (.tree 0) []]

theorem loaded_from_itself : run selfLoad St.init = .ub ∧ ∃ w, Spec.run selfLoad Spec.init =
    some ([.done, .done, .done, .node (.mk .object [] [([1], 7, [2, 3, 4, 5, 6, 7, 8, 9, 10])] [])], w) :=
  ⟨Res.eq_ub (by rfl), _, rfl⟩

/-- A node made with `Node(tree)` is filled and written: it has no name, not even the empty one. It can be
read, and its copy in a tree can be written. -/
private def unnamed : List Op :=
  [.write 0 long, .declare 0 0, .insert (.held 0) [] (.buf 0 0 1) 7 (.buf 0 0 10), .view (.held 0) [],
   .copyNode (.tree 0) [] (.buf 0 0 0) (.held 0) [], .save (.tree 0) [0]]

theorem written_without_name :
    (∃ s, run unnamed St.init = .ok
      ([.done, .done, .done, .node (.mk .object [] [([1], 7, long)] []), .done,
        .saved (.mk .object [] [([1], 7, long)] [])], s)) ∧
    run (unnamed ++ [.save (.held 0) []]) St.init = .ub ∧
    ∃ outs w, Spec.run (unnamed ++ [.save (.held 0) []]) Spec.init =
      some (outs ++ [.saved (.mk .object [] [([1], 7, long)] [])], w) :=
  ⟨⟨_, rfl⟩, Res.eq_ub (by rfl), [_, _, _, _, _, _], _, rfl⟩

end Srl.Props
