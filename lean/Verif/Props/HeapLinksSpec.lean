import Verif.Model.HeapLinks
import Verif.Props.Heap

/-! Specification for C75 and C76: the life of heaps -/

namespace Srl.Props

open HeapLinks

/-- Specification: which heaps exist after an operation; `none` if it is not one a correct program
does. Heaps are not copied. -/
def existing (a : Nat → Bool) : Op → Option (Nat → Bool)
  | .create i => if a i then none else some fun k => k == i || a k
  | .get i _ _ _ => if a i then some a else none
  | .put i _ _ => if a i then some a else none
  | .clear i => if a i then some a else none
  | .construct i j => if ¬ a i ∧ a j then some fun k => k == i || a k else none
  | .assign i j => if a i ∧ a j then some a else none
  | .copy _ _ => none
  | .destroy i => if a i then some fun k => k != i && a k else none

/-- Specification: the same for a sequence -/
def existings (a : Nat → Bool) : List Op → Option (Nat → Bool)
  | [] => some a
  | o :: os => do existings (← existing a o) os

/-- Specification: sizes and alignments as in `Request` -/
def Sized : Op → Prop
  | .get _ n align _ => Request n align
  | _ => True

/-- Specification: the blocks obtained from each heap and not returned, and the heaps from which
memory has been refused since they were cleared. -/
structure Track where
  live : Nat → List (Nat × Nat)
  bad : Nat → Bool

def Track.set (t : Track) (i : Nat) (live : List (Nat × Nat)) (bad : Bool) : Track :=
  ⟨fun k => if k = i then live else t.live k, fun k => if k = i then bad else t.bad k⟩

/-- Specification: correct use of several heaps. A heap from which memory was refused is cleared,
destroyed or assigned to before something is obtained from it. -/
inductive Run (sys : Heap.Sys) : State → Track → Prop
  | start (mem) : Run sys (start mem) ⟨fun _ => [], fun _ => false⟩
  | create {s s' t i} : Run sys s t → exec sys s (.create i) = .ok (s', none) →
      Run sys s' (t.set i [] false)
  | get {s s' t i n align refused a} : Run sys s t → t.bad i = false → 0 < n → Request n align →
      exec sys s (.get i n align refused) = .ok (s', some a) →
      Run sys s' (t.set i ((a, n) :: t.live i) false)
  | refused {s s' t i n align} : Run sys s t → t.bad i = false → 0 < n → Request n align →
      exec sys s (.get i n align true) = .ok (s', none) → Run sys s' (t.set i (t.live i) true)
  | put {s s' t i b} : Run sys s t → b ∈ t.live i → exec sys s (.put i b.1 b.2) = .ok (s', none) →
      Run sys s' (t.set i ((t.live i).erase b) (t.bad i))
  | clear {s s' t i} : Run sys s t → exec sys s (.clear i) = .ok (s', none) →
      Run sys s' (t.set i [] false)
  | construct {s s' t i j} : Run sys s t → exec sys s (.construct i j) = .ok (s', none) →
      Run sys s' ((t.set i (t.live j) (t.bad j)).set j [] false)
  | assign {s s' t i j} : Run sys s t → exec sys s (.assign i j) = .ok (s', none) →
      Run sys s' ((t.set i (t.live j) (t.bad j)).set j [] false)
  | destroy {s s' t i} : Run sys s t → exec sys s (.destroy i) = .ok (s', none) →
      Run sys s' (t.set i [] false)
  | write {s t mem} : Run sys s t →
      (∀ x, (∀ i, ∀ b ∈ t.live i, ¬ ByteOf x b) → mem x = s.w.mem x) →
      Run sys { s with w := { s.w with mem := mem } } t

/-- Specification: the operation ends the life of the block `b` of heap `k`. -/
def Ends (o : Op) (k : Nat) (b : Nat × Nat) : Prop :=
  match o with
  | .put i a n => k = i ∧ b = (a, n)
  | .clear i => k = i
  | .assign i _ => k = i
  | .destroy i => k = i
  | _ => False

/-- Specification: an operation allowed by `Run` -/
def Allowed (t : Track) : Op → Prop
  | .get i n align _ => t.bad i = false ∧ 0 < n ∧ Request n align
  | .put i a n => (a, n) ∈ t.live i
  | .copy _ _ => False
  | _ => True

/-- Specification: what an operation returns. A block is only refused if the system does, and it
is aligned as asked for. -/
def Answer (r : Option Nat) : Op → Prop
  | .get _ _ align refused => (r = none → refused = true) ∧ ∀ a, r = some a → a % align = 0
  | _ => r = none

end Srl.Props
