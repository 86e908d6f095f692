import Verif.Props.IntStr
import Verif.Props.Apply
import Verif.Lemmas.Byte

/-! # C13, C17 – unwrapping text, binary data and null as an integer -/

namespace Srl.Props
open IntStr Apply

/-- Specification: white space as in `isspace` of the C locale. -/
def IsBlank (s : Bytes) : Prop := ∀ c ∈ s, c ∈ [(9 : UInt8), 10, 11, 12, 13, 32]

private theorem isSpace_iff (c : UInt8) : isSpace c = true ↔ c ∈ [(9 : UInt8), 10, 11, 12, 13, 32] := by
  revert c; decide +kernel

private theorem dropWhile_blank (p s : Bytes) (h : IsBlank p) (hs : ∀ c ∈ s.head?, isSpace c = false) :
    (p ++ s).dropWhile isSpace = s := by
  induction p with
  | nil =>
    cases s with
    | nil => rfl
    | cons c s => simp [hs c rfl]
  | cons c p ih =>
    have hc : isSpace c = true := (isSpace_iff c).mpr (h c (by simp))
    simp only [List.cons_append, List.dropWhile_cons, hc, if_true]
    exact ih fun x hx => h x (by simp [hx])

private theorem trim_blank (p s q : Bytes) (hp : IsBlank p) (hq : IsBlank q)
    (h1 : ∀ c ∈ s.head?, isSpace c = false) (h2 : ∀ c ∈ s.reverse.head?, isSpace c = false)
    (hne : s ≠ []) : trimSpace (p ++ s ++ q) = s := by
  unfold trimSpace
  rw [List.append_assoc, dropWhile_blank p (s ++ q) hp ?_, List.reverse_append,
    dropWhile_blank q.reverse s.reverse ?_ h2, List.reverse_reverse]
  · intro c hc; exact hq c (by simpa using hc)
  · intro c hc
    cases s with
    | nil => exact absurd rfl hne
    | cons x s => exact h1 c (by simpa using hc)

private theorem digit_not_space (c : UInt8) (h : 48 ≤ c.toNat ∧ c.toNat ≤ 57) : isSpace c = false := by
  have key : ∀ c : UInt8, (48 ≤ c.toNat ∧ c.toNat ≤ 57) → isSpace c = false := by decide +kernel
  exact key c h

private theorem trim_decimal {v : Int} {s : Bytes} (h : IsDecimalOf v s) (p q : Bytes)
    (hp : IsBlank p) (hq : IsBlank q) : trimSpace (p ++ s ++ q) = s := by
  obtain ⟨ds, rfl, ⟨hne, hd⟩, -⟩ := h
  have hhead : ∀ c ∈ ((if v < 0 then [45] else []) ++ ds).head?, isSpace c = false := by
    intro c hc
    by_cases hv : v < 0
    · simp only [if_pos hv, List.cons_append, List.nil_append, List.head?_cons, Option.mem_def,
        Option.some.injEq] at hc
      subst hc; decide
    · simp only [if_neg hv, List.nil_append] at hc
      exact digit_not_space c (hd c (List.mem_of_mem_head? hc))
  have hlast : ∀ c ∈ ((if v < 0 then [45] else []) ++ ds).reverse.head?, isSpace c = false := by
    intro c hc
    rw [List.reverse_append] at hc
    have hne' : ds.reverse ≠ [] := by simpa using hne
    obtain ⟨x, xs, hx⟩ := List.exists_cons_of_ne_nil hne'
    rw [hx] at hc
    simp only [List.cons_append, List.head?_cons, Option.mem_def, Option.some.injEq] at hc
    subst hc
    exact digit_not_space x (hd x (by
      have : x ∈ ds.reverse := by rw [hx]; simp
      simpa using this))
  exact trim_blank p _ q hp hq hhead hlast (by simp [hne])

private theorem strToType_trim (strtod : Bytes → Option UInt64) (s t : Bytes)
    (h : trimSpace s = trimSpace t) : strToType strtod false s = strToType strtod false t := by
  unfold strToType
  rw [h]

/-- C17: the decimal notation of an integer that 64 bits can hold, with any white space around
it, is read as that integer. -/
theorem int_text_blank (strtod : Bytes → Option UInt64) (v : Int) (s p q : Bytes)
    (h : IsDecimalOf v s) (h1 : -2 ^ 63 < v) (h2 : v < 2 ^ 64) (hp : IsBlank p) (hq : IsBlank q) :
    strToType strtod false (p ++ s ++ q) = some (.int (if v < 0 then .i64 else .u64) v) := by
  rw [strToType_trim strtod (p ++ s ++ q) s]
  · obtain ⟨ds, rfl, hd, hv, -⟩ := h
    obtain ⟨p1, p2⟩ := int_text_exact_partial strtod ds hd
    by_cases hneg : v < 0
    · rw [if_pos hneg, if_pos hneg, List.singleton_append, p2 (by omega)]
      congr 2; omega
    · rw [if_neg hneg, if_neg hneg, List.nil_append, p1 (by omega)]
      congr 2; omega
  · rw [trim_decimal h p q hp hq]
    have := trim_decimal h [] [] (by intro c h; cases h) (by intro c h; cases h)
    simpa using this.symm

/-- C13: unwrapping such a text as an integer type gives the integer if the type can hold it and
throws otherwise. -/
theorem text_unwrap_exact (strtod : Bytes → Option UInt64) (T : Target) (v : Int) (s p q : Bytes)
    (h : IsDecimalOf v s) (h1 : -2 ^ 63 < v) (h2 : v < 2 ^ 64) (hp : IsBlank p) (hq : IsBlank q) :
    paste strtod T (.str (p ++ s ++ q)) =
      if (targetRange T).1 ≤ v ∧ v ≤ (targetRange T).2 then .ok v else .err := by
  have hi := int_unwrap_exact strtod T (if v < 0 then .i64 else .u64) v
    (by split <;> simp only [targetRange] <;> omega) (by split <;> simp only [targetRange] <;> omega)
  rw [← hi]
  simp only [paste]
  rw [int_text_blank strtod v s p q h h1 h2 hp hq]

/-- C13: binary data is never unwrapped as a number; null is unwrapped as zero. -/
theorem other_unwrap (strtod : Bytes → Option UInt64) (T : Target) :
    (∀ b, paste strtod T (.bin b) = .err) ∧ paste strtod T .null = .ok 0 :=
  ⟨fun _ => rfl, rfl⟩

example : paste (fun _ => none) (.int .i8) (.str (str " -128\n")) = .ok (-128) ∧
    paste (fun _ => none) (.int .i8) (.str (str "\t128 ")) = .err := by decide +kernel
example : IsDecimalOf (-128) (str "-128") ∧ IsBlank (str "\t ") :=
  ⟨⟨str "128", rfl, ⟨by decide, by decide +kernel⟩, by decide, by decide⟩,
    by unfold IsBlank; decide +kernel⟩

end Srl.Props
