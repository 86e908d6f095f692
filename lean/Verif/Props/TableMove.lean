import Verif.Lemmas.TableMoveRun

/-! # C69 – hash tables can be moved -/

namespace Srl.Props

open HTable (Cfg Ans)
open TableMove (MOp MTrace Rules)

variable {K V : Type}

/-- C69. Whatever the hash function, the load factor and the numbers of buckets: a program that
works on any number of tables, moves them and lets them end gets the answers of finite maps that
are handed over by moving, and has no undefined behaviour, if it keeps the rules
(`TableMove.Rules.ok`).

Missing: programs that iterate over a table moved from, or clear or end it while the other table
is in use, or clear a table moved into. Without the rules the claim is false, see
`moved_from_table_ends`, `moved_from_table_is_cleared`, `moved_from_table_is_iterated` and
`moved_into_table_is_cleared`. -/
theorem moved_tables_partial [DecidableEq K] (cfg : Cfg K) (buckets : Nat → Nat)
    (os : List (MOp K V)) (h : (Rules.mk [] [] []).keeps os = true) :
    ∃ as, TableMove.answers cfg buckets os = .ok as ∧ MTrace (fun _ _ => none) os as := by
  obtain ⟨w, as, h1, h2⟩ := TableMove.run_sim os (TableMove.start_sim cfg buckets) h
  exact ⟨as, by simp only [TableMove.answers, h1, Res.ok_bind], h2⟩

/-- Example: numbers are their own hash. -/
def sameHash : Cfg Nat := ⟨fun k => k.toUInt64, fun _ => 0⟩

/-- Table 0 is filled until it grows, moved to table 1, filled again, and table 1 moved on to 2,
which has held something before; then table 1 ends. -/
private def exMoves : List (MOp Nat Nat) :=
  (List.range 12).map (fun i => .on 0 (.insert i (i * i))) ++
  [.move 0 1, .on 0 (.get 3), .on 0 .size, .on 1 (.get 3), .on 1 (.extract 4), .on 0 (.insert 3 7),
   .on 0 .iterate, .on 1 (.upsert 20 5), .on 2 (.insert 1 1), .move 1 2, .on 2 (.get 20),
   .on 2 (.get 4), .on 2 .size, .on 2 (.removeIf fun k _ => k ≥ 2), .on 2 .iterate, .on 1 .size,
   .renew 3 0, .move 0 3, .on 3 .iterate]

example : (Rules.mk [] [] []).keeps exMoves = true := by decide +kernel

example : TableMove.answers sameHash (fun i => i) exMoves = .ok
    ((List.range 12).map (fun i => .entry false i (i * i)) ++
     [.none, .found none, .num 0, .found (some (3, 9)), .value (some 16), .entry false 12 7,
      .seen [(3, 7)], .entry false 4 5, .entry false 13 1, .none, .found (some (4, 5)),
      .found none, .num 12,
      .seen [(0, 0), (2, 4), (6, 36), (8, 64), (10, 100), (20, 5), (1, 1), (3, 9), (5, 25), (7, 49),
             (9, 81), (11, 121)],
      .seen [(0, 0), (1, 1)], .num 0, .none, .none, .seen [(3, 7)]]) := by
  decide +kernel

/-- The rules are needed: after `b = std::move(a)` and the end of `a`, looking up in `b` reads
memory that has been released. This is what happens when a vector of classes with tables grows. -/
theorem moved_from_table_ends : TableMove.answers (K := Nat) (V := Nat) sameHash (fun _ => 64)
    [.on 0 (.insert 1 2), .move 0 1, .renew 0 64, .on 1 (.get 1)] = .ub := by
  decide +kernel

/-- The same if `a` is used again and cleared. -/
theorem moved_from_table_is_cleared : TableMove.answers (K := Nat) (V := Nat) sameHash (fun _ => 64)
    [.on 0 (.insert 1 2), .move 0 1, .on 0 (.insert 3 4), .on 0 .clear, .on 1 (.get 1)] = .ub := by
  decide +kernel

/-- Clearing `b` destroys its entries and leaves them in its array, where the iterators find
them. -/
theorem moved_into_table_is_cleared : TableMove.answers (K := Nat) (V := Nat) sameHash (fun _ => 64)
    [.on 0 (.insert 1 2), .move 0 1, .on 1 .clear, .on 1 .iterate] = .ub := by
  decide +kernel

private theorem size_same [DecidableEq K] {m x : Map K V} {a : Ans K V}
    (h : Allows m .size a x) : x = m := by
  cases h; rfl

/-- Iterating over `a` shows the entries of `b`, although `a` says it has none. -/
theorem moved_from_table_is_iterated :
    let os : List (MOp Nat Nat) := [.on 0 (.insert 1 2), .move 0 1, .on 0 .size, .on 0 .iterate]
    let xs : List (Ans Nat Nat) := [.entry false 0 2, .none, .num 0, .seen [(1, 2)]]
    TableMove.answers sameHash (fun _ => 64) os = .ok xs ∧ ¬ MTrace (fun _ _ => none) os xs := by
  refine ⟨by decide +kernel, ?_⟩
  intro h
  cases h with
  | cons h1 h =>
    cases h with
    | cons h2 h =>
      cases h2
      cases h with
      | cons h3 h =>
        cases h3 with
        | on h3 =>
          have e := size_same h3
          subst e
          cases h with
          | cons h4 h =>
            cases h4 with
            | on h4 =>
              cases h4 with
              | iterate h4 =>
                obtain ⟨a, ha⟩ := (h4.2 1 2).mp (by simp)
                simp [TableMove.Maps.put] at ha

end Srl.Props
