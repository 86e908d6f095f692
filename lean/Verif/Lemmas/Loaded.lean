import Verif.Lemmas.Range
import Verif.Lemmas.Load
import Verif.Lemmas.MemoryFormats

/-! What is known of the values in a tree that was loaded. -/

namespace Srl.Doc

mutual
/-- All values, at any depth -/
def AllVals (P : Val → Prop) : Node → Prop
  | .mk _ vs ns => (∀ p ∈ vs, P p.2) ∧ AllValsL P ns
def AllValsL (P : Val → Prop) : List (Bytes × Node) → Prop
  | [] => True
  | (_, n) :: ns => AllVals P n ∧ AllValsL P ns
end

variable {σ : Type} {read : σ → Res (Event × σ)} {P : Val → Prop}

theorem scope_vals (hp : ∀ s, Gives (read s) fun y => ∀ v, y.1.tok = .val v → P v) :
    ∀ (fuel depth : Nat) (s : σ) (vs : List (Bytes × Val)) (ns : List (Bytes × Node)) (s' : σ),
    readScope read fuel depth s = .ok ((vs, ns), s') → (∀ p ∈ vs, P p.2) ∧ AllValsL P ns
  | 0, _, _, _, _, _, h => by cases h
  | fuel + 1, depth, s, vs, ns, s', h => by
    rw [readScope, Res.bind_eq_ok] at h
    obtain ⟨⟨⟨nm, tok⟩, s1⟩, h1, h⟩ := h
    have g := hp _ _ h1
    cases tok with
    | scopeEnd => cases h; exact ⟨fun p hp => (by cases hp), trivial⟩
    | val v =>
      simp only [Res.bind_eq_ok] at h
      obtain ⟨⟨⟨vs1, ns1⟩, s2⟩, h2, h⟩ := h
      cases h
      have := scope_vals hp fuel depth s1 _ _ _ h2
      refine ⟨fun p hp => ?_, this.2⟩
      rcases List.mem_cons.mp hp with rfl | hp
      · exact g v rfl
      · exact this.1 p hp
    | scope t =>
      simp only at h
      split at h
      · cases h
      · simp only [Res.bind_eq_ok] at h
        obtain ⟨⟨⟨vs1, ns1⟩, s2⟩, h2, ⟨⟨vs2, ns2⟩, s3⟩, h3, h⟩ := h
        cases h
        have i1 := scope_vals hp fuel _ s1 _ _ _ h2
        have i2 := scope_vals hp fuel _ s2 _ _ _ h3
        exact ⟨i2.1, ⟨i1.1, i1.2⟩, i2.2⟩

theorem load_vals (hp : ∀ s, Gives (read s) fun y => ∀ v, y.1.tok = .val v → P v) {fuel : Nat} {s s' : σ} {r : Root}
    (h : load read fuel s = .ok (r, s')) : AllVals P r.node := by
  rw [load, Res.bind_eq_ok] at h
  obtain ⟨⟨⟨n, tok⟩, s1⟩, hr, h⟩ := h
  cases tok with
  | scope t =>
    simp only [Res.bind_eq_ok] at h
    obtain ⟨⟨⟨vs, ns⟩, s2⟩, h1, h⟩ := h
    cases h
    exact scope_vals hp _ _ _ _ _ _ h1
  | _ => cases h

end Srl.Doc
