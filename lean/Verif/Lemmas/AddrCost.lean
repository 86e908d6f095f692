import Verif.Model.AddrCost
import Verif.Lemmas.KeyCost
import Verif.Lemmas.Shared
import Verif.Props.AddrTimeSpec

/-! # Helper lemmas about what is done for the addresses of shared pointers -/

namespace Srl.AddrCost
open HTable Props KeyCost Shared
open Cost (chain look getSteps relinkSteps redistributeSteps insertSteps chain_eq look_le look_miss insert_keeps)

theorem insertAll_append : ∀ (xs ys : List Nat) (t t1 t2 : Seen) (k1 k2 : Nat), insertAll t xs = .ok (t1, k1) →
    insertAll t1 ys = .ok (t2, k2) → insertAll t (xs ++ ys) = .ok (t2, k1 + k2)
  | [], ys, t, t1, t2, k1, k2, h1, h2 => by
    cases h1
    rw [List.nil_append, h2, Nat.zero_add]
  | x :: xs, ys, t, t1, t2, k1, k2, h1, h2 => by
    simp only [insertAll, Res.bind_eq_ok] at h1
    obtain ⟨⟨_, _, t3⟩, g1, ⟨t4, k⟩, g2, g3⟩ := h1
    cases g3
    simp only [List.cons_append, insertAll, g1, Res.ok_bind, insertAll_append xs ys t3 t4 t2 k k2 g2 h2, Nat.add_assoc]

theorem insertShared_eq {t t' : Seen} {a : Nat} {x : Bool × Nat × Nat} (h : HTable.insert keys t a t.elements = .ok (t', x)) :
    insertShared keys t a = .ok (x.1, x.2.2, t') := by
  obtain ⟨_, _, _⟩ := x
  rw [insertShared, h]; rfl

theorem addrPlace_eq {y : Nat} (j : Nat) (h : y < 2 ^ 64) : bucket (16 * 2 ^ j) (keys.hash y) = addrPlace (16 * 2 ^ j) y := by
  rw [bucket_key h, addrPlace]
  congr 1
  split <;> split <;> first | rfl | omega

/-- Addresses that are spread -/
theorem insertAll_spread {c L : Nat} (all : List Nat) (hL : AddressesSpread L all) (h64 : ∀ a ∈ all, a < 2 ^ 64) :
    ∀ (as b : List Nat) (t : Seen) (m : Map Nat Nat), all = b ++ as → Good c t m → Keys (· ∈ b) t →
    (∀ y ∈ b, m y ≠ none) →
    ∃ t' m' k, insertAll t as = .ok (t', k) ∧ Good c t' m' ∧ t'.elements ≤ t.elements + as.length ∧
      k + pot L t ≤ L * as.length + pot L t'
  | [], b, t, m, he, hg, hk, hm => ⟨t, m, 0, rfl, hg, by simp, by simp⟩
  | a :: as, b, t, m, he, hg, hk, hm => by
    have htake : all.take b.length = b := by rw [he, List.take_left]
    have hfew : Few (· ∈ b) t.elements L := by
      intro j p ys hj hn hy
      refine hL b.length j p ys ?_ hn ?_
      · intro zs hz1 hz2
        rw [htake] at hz2
        have := (elements_ge hg hz1 fun z hz => hm z (hz2 z hz)).1
        omega
      · intro y h
        obtain ⟨h1, h2⟩ := hy y h
        rw [htake]
        exact ⟨h1, by rw [← addrPlace_eq j (h64 y (by rw [he]; simp [h1]))]; exact h2⟩
    obtain ⟨t', m', x, k1, k2, k3, k4, k5, k6, k7⟩ := insert_good (P := (· ∈ b ++ [a])) hfew hk hg
      (fun e h => List.mem_append_left _ (hk e h)) a (by simp) t.elements
    obtain ⟨t2, m2, k, g1, g2, g3, g4⟩ := insertAll_spread all hL h64 as (b ++ [a]) t' m' (by rw [he]; simp) k2 k3
      (fun y hy => by
        rcases List.mem_append.mp hy with h | h
        · exact k6 y (hm y h)
        · rw [List.mem_singleton.mp h]; exact k7)
    refine ⟨t2, m2, insertSteps keys t a + k, by simp only [insertAll, insertShared_eq k1, Res.ok_bind, g1], g2,
      by rw [List.length_cons]; omega, ?_⟩
    rw [List.length_cons, Nat.mul_succ]
    omega

/-! ## Addresses that share a place -/

/-- The first place, in all tables with up to `S` places -/
def First (S y : Nat) : Prop := ∀ j, 16 * 2 ^ j ≤ S → bucket (16 * 2 ^ j) (keys.hash y) = 0

theorem insertAll_same {c S : Nat} : ∀ (xs : List Nat) (t t' : Seen) (m : Map Nat Nat) (k : Nat), Good c t m →
    Keys (First S) t → xs.Nodup → (∀ x ∈ xs, First S x ∧ m x = none) → c + 2 * (t.elements + xs.length) ≤ S →
    insertAll t xs = .ok (t', k) → 2 * (t.elements * xs.length) + xs.length * (xs.length - 1) ≤ 2 * k
  | [], _, _, _, _, _, _, _, _, _, _ => by simp
  | x :: xs, t, t', m, k, hg, hk, hn, hx, hc, hs => by
    obtain ⟨x2, x3⟩ := hx x (by simp)
    rw [List.length_cons] at hc
    obtain ⟨tn, y, ad, w, k1, k2, k3⟩ := insert_spec hg.inv hg.abs false x t.elements
    simp only [insertAll, insertShared_eq (show HTable.insert keys t x t.elements = _ from k1), Res.ok_bind, Res.bind_eq_ok] at hs
    obtain ⟨⟨t2, b⟩, s2, s3⟩ := hs
    cases s3
    rcases k3 with ⟨rfl, -, -, -, k4⟩ | ⟨-, -, k4, -⟩ | ⟨-, k4, -⟩
    · have kp := put_keys hg.inv k2 hg.abs k4 x3
      have ke : tn.elements = t.elements + 1 := by
        have := kp.length_eq
        simp only [List.length_map, List.length_cons] at this
        rw [k2.cnt, hg.inv.cnt, this]
      obtain ⟨t1, g1, g2, g4, g5, g6, g7', g7⟩ : ∃ t1, grow keys t = .ok t1 ∧ Good c t1 m ∧ Keys (First S) t1 ∧
          t1.table ≠ none ∧ t1.limit ≠ 0 ∧ t1.elements = t.elements ∧ t1.elements < t1.cap := by
        have hfew : Few (fun y => y ∈ t.es.map (·.key) ∧ First S y) t.elements t.es.length := by
          intro j b ys _ hys h
          have := hys.length_le_of_subset fun y hy => ((h y hy).1).1
          simpa using this
        obtain ⟨t1, g1, g2, g3, g4, g5, g6, g7, -⟩ := grow_good hfew hg fun e he =>
          ⟨List.mem_map_of_mem (f := (·.key)) he, hk e he⟩
        exact ⟨t1, g1, g2, fun e he => (g3 e he).2, g4, g5, g6, g7⟩
      obtain ⟨kc, kl⟩ := insert_keeps g1 k1
      have hgn : Good c tn (Map.put m x (some (ad, t.elements))) := by
        rcases g2.room with ⟨r1, -⟩ | ⟨r1, r2, r3, r4⟩
        · exact absurd r1 g6
        exact ⟨k2, k4, hg.start, .inr ⟨by rw [kc, kl, r1], by omega, by rw [kc]; exact r3, by rw [kc, ke]; omega⟩⟩
      have hkn : Keys (First S) tn := by
        intro e he
        have := kp.mem_iff.mp (List.mem_map_of_mem (f := (·.key)) he)
        rcases List.mem_cons.mp this with h1 | h1
        · rw [h1]; exact x2
        · obtain ⟨y, hy, hye⟩ := List.mem_map.mp h1
          rw [← hye]; exact hk y hy
      have ih := insertAll_same xs tn _ _ b hgn hkn (List.nodup_cons.mp hn).2 (fun y hy => by
        obtain ⟨y2, y3⟩ := hx y (by simp [hy])
        refine ⟨y2, ?_⟩
        rw [Map.put, if_neg (by rintro rfl; exact (List.nodup_cons.mp hn).1 hy)]
        exact y3) (by rw [ke]; omega) s2
      have hins : t.elements ≤ insertSteps keys t x := by
        have hle := cap_le g2
        rcases g2.room with ⟨r1, -⟩ | ⟨-, -, ⟨j, r3⟩, -⟩
        · exact absurd r1 g6
        obtain ⟨l1, l2, h1, h2⟩ := chain_eq g2.inv g5 x
        have at0 : ∀ y, First S y → bucket t1.cap (keys.hash y) = 0 := fun y hy => by rw [r3]; exact hy j (by omega)
        have hm : look (keys.hash x) x (chain t1 (keys.hash x)) = t1.elements := by
          rw [look_miss, chain_all g2.inv g5 x fun e he => (at0 _ (g4 e he)).trans (at0 _ x2).symm]
          intro e he hke
          have hm : e ∈ t1.es := by rw [es_split h1]; simp [he]
          have := (g2.abs x e.addr e.val).mpr ⟨e, hm, hke, rfl, rfl⟩
          rw [x3] at this; cases this
        rw [insertSteps, g1]
        simp only [hm]
        omega
      rw [ke, Nat.add_mul, Nat.one_mul] at ih
      rw [List.length_cons, Nat.add_sub_cancel]
      have e1 : t.elements * (xs.length + 1) = t.elements * xs.length + t.elements := Nat.mul_succ _ _
      have e2 : (xs.length + 1) * xs.length = xs.length * xs.length + xs.length := Nat.succ_mul _ _
      dsimp only at ih ⊢
      have e : xs.length * xs.length = xs.length * (xs.length - 1) + xs.length := by
        cases xs.length with
        | zero => rfl
        | succ n => rw [Nat.add_sub_cancel, Nat.mul_succ]
      omega
    · rw [x3] at k4; cases k4
    · cases k4

end Srl.AddrCost
