import Verif.Model.BitWrap
import Verif.Props.Base64

/-! # C63 – vectors of numbers stored as binary data -/

namespace Srl.Props
open BitWrap

/-- How such a vector is written: as binary data, or in JSON as base64 text. -/
def WrittenAs (bytes : Bytes) (v : Val) : Prop := v = .bin bytes ∨ v = .str (b64Spec bytes)

private theorem resize_data (grow : Nat → Nat) (k n : Nat) (v : Vec) :
    (v.resize grow k n).data.length = n * k := by
  simp only [Vec.resize, List.length_append, List.length_take, List.length_replicate]
  omega

private theorem resize_cap (grow : Nat → Nat) (hg : ∀ n, n ≤ grow n) (k n : Nat) (v : Vec) :
    n * k ≤ (v.resize grow k n).cap := by
  simp only [Vec.resize]
  split
  · assumption
  · exact hg _

private theorem written_size (bytes : Bytes) (val : Val) (hw : WrittenAs bytes val) :
    need val = .ok bytes.length ∧ contentOf val = .ok bytes := by
  rcases hw with rfl | rfl
  · exact ⟨rfl, rfl⟩
  · have h1 := base64_decoded_size bytes
    have h2 := base64_roundtrip bytes
    rw [base64_encode_spec] at h1 h2
    exact ⟨congrArg Res.ok h1, h2⟩

/-- What is known of a restored vector: its elements are the given bytes, and it has memory for them. -/
def Holds (bytes : Bytes) (r : Res Vec) : Prop := ∃ v, r = .ok v ∧ v.data = bytes ∧ bytes.length ≤ v.cap

private theorem paste_holds (grow : Nat → Nat) (hg : ∀ n, n ≤ grow n) (k : Nat) (old : Vec) (bytes : Bytes)
    (val : Val) (h1 : need val = .ok bytes.length) (h2 : bytes ≠ [] → contentOf val = .ok bytes)
    (hk : k ∣ bytes.length) : Holds bytes (paste grow k old val) := by
  have hd := resize_data grow k (bytes.length / k) old
  have hc := resize_cap grow hg k (bytes.length / k) old
  rw [Nat.div_mul_cancel hk] at hd hc
  simp only [paste, h1, Res.ok_bind]
  by_cases h0 : bytes.length = 0
  · rw [if_pos h0]
    refine ⟨_, rfl, ?_, hc⟩
    exact (List.eq_nil_of_length_eq_zero (hd.trans h0)).trans (List.eq_nil_of_length_eq_zero h0).symm
  · rw [if_neg h0, if_neg (by omega), if_neg (by omega), h2 (fun h => h0 (by rw [h]; rfl))]
    exact ⟨_, rfl, by rw [hd]; exact List.take_length, hc⟩

/-- C63: a vector of numbers of any size, stored as binary data and written as such or as base64 text, is restored into
any other vector, whatever that held and however it obtains memory. -/
theorem vecwrap_roundtrip (grow : Nat → Nat) (hg : ∀ n, n ≤ grow n) (k count : Nat) (v old : Vec)
    (hv : v.data.length = count * k) (bytes : Bytes) (hi : insert v = .bin bytes)
    (val : Val) (hw : WrittenAs bytes val) : Holds v.data (paste grow k old val) := by
  cases hi
  have h := written_size _ _ hw
  exact paste_holds grow hg k old _ val h.1 (fun _ => h.2) ⟨count, by rw [hv, Nat.mul_comm]⟩

/-- Three numbers of two bytes, restored into a vector that held five -/
example : Holds [1, 0, 2, 0, 255, 255]
    (paste (2 * ·) 2 ⟨[9, 9, 9, 9, 9, 9, 9, 9, 9, 9], 16⟩ (.str (str "AQACAP//"))) :=
  vecwrap_roundtrip (2 * ·) (fun _ => by omega) 2 3 ⟨[1, 0, 2, 0, 255, 255], 6⟩ _ (by decide) _ rfl _
    (.inr (by decide +kernel))

/-- C63: binary data from elsewhere, restored into an empty vector. A length that is a multiple of the size of the
elements gives these elements. A shorter length than one element is refused. Any other length makes the library write
behind the memory of the vector. -/
theorem vecwrap_restored (k : Nat) (hk : 0 < k) (s : Bytes) :
    (k ∣ s.length → Holds s (paste id k ⟨[], 0⟩ (.bin s))) ∧
    (0 < s.length → s.length < k → paste id k ⟨[], 0⟩ (.bin s) = .err) ∧
    (k < s.length → ¬ k ∣ s.length → paste id k ⟨[], 0⟩ (.bin s) = .ub) := by
  refine ⟨paste_holds id (fun _ => Nat.le_refl _) k _ s _ rfl (fun _ => rfl), ?_, ?_⟩
  · intro h0 hl
    simp only [paste, need, Res.ok_bind, Vec.resize, Nat.div_eq_of_lt hl, Nat.zero_mul, Nat.le_refl, if_true]
    rw [if_neg (by omega)]
  · intro hl hd
    have h1 : 1 ≤ s.length / k := (Nat.le_div_iff_mul_le hk).mpr (by omega)
    have h2 : s.length / k * k ≤ s.length := Nat.div_mul_le_self _ _
    have h3 : s.length / k * k ≠ s.length := fun h => hd ⟨s.length / k, by rw [Nat.mul_comm]; exact h.symm⟩
    have h4 : 1 * k ≤ s.length / k * k := Nat.mul_le_mul_right k h1
    simp only [paste, need, Res.ok_bind, Vec.resize, id]
    rw [if_neg (show ¬ s.length = 0 by omega), if_neg (show ¬ s.length / k * k ≤ 0 by omega),
      if_neg (show ¬ s.length / k * k = 0 by omega), if_pos (show s.length / k * k < s.length by omega)]

example : Holds [1, 2, 3, 4, 5, 6, 7, 8] (paste id 4 ⟨[], 0⟩ (.bin [1, 2, 3, 4, 5, 6, 7, 8])) :=
  (vecwrap_restored 4 (by decide) _).1 (by decide)
example : paste id 4 ⟨[], 0⟩ (.bin [1, 2, 3]) = .err := (vecwrap_restored 4 (by decide) _).2.1 (by decide) (by decide)

/-- C63 does not hold in general: five bytes restored into a vector of numbers of four bytes -/
theorem vecwrap_writes_outside : (paste id 4 ⟨[], 0⟩ (.bin [1, 2, 3, 4, 5])).isUb = true := by
  rw [(vecwrap_restored 4 (by decide) [1, 2, 3, 4, 5]).2.2 (by decide) (by decide)]
  rfl

/-- C63 for values from elsewhere that fit: if the size of the data a text stands for is a multiple of the size of the
elements, the vector receives what a plain binary member would receive, and restoring is undefined only for texts that
are undefined there too. Other sizes are missing, see `vecwrap_writes_outside`; for data written as binary see
`vecwrap_fits`. -/
theorem vecwrap_text_partial (grow : Nat → Nat) (hg : ∀ n, n ≤ grow n) (k : Nat) (old : Vec) (s : Bytes)
    (hk : k ∣ Base64.decodedSize s) :
    (∀ bytes, Base64.restoreBinary s = .ok bytes → Holds bytes (paste grow k old (.str s))) ∧
    (Base64.restoreBinary s = .err → paste grow k old (.str s) = .err) ∧
    (paste grow k old (.str s) = .ub → B64Undefined s) := by
  have hc := resize_cap grow hg k (Base64.decodedSize s / k) old
  rw [Nat.div_mul_cancel hk] at hc
  have hlen : ∀ bytes, Base64.restoreBinary s = .ok bytes → bytes.length = Base64.decodedSize s := by
    intro bytes h
    unfold Base64.restoreBinary at h
    split at h
    · rename_i h0
      cases h
      exact h0.symm
    · unfold Base64.decode Base64.decodeTo at h
      split at h
      · cases h
      · exact Base64.decLoop_length _ _ _ h
  have hcon : Base64.decodedSize s ≠ 0 → contentOf (.str s) = Base64.restoreBinary s := by
    intro h0
    unfold Base64.restoreBinary
    rw [if_neg h0]
    rfl
  have hp : Base64.decodedSize s ≠ 0 → paste grow k old (.str s) = (do
      let bs ← Base64.restoreBinary s
      .ok { old.resize grow k (Base64.decodedSize s / k) with
        data := bs.take (old.resize grow k (Base64.decodedSize s / k)).data.length }) := by
    intro h0
    simp only [paste, need, Res.ok_bind]
    rw [if_neg h0, if_neg (by omega), if_neg (by omega), hcon h0]
  refine ⟨fun bytes h => ?_, fun h => ?_, fun h => ?_⟩
  · have hl := hlen bytes h
    refine paste_holds grow hg k old bytes _ (by rw [hl]; rfl) (fun hne => ?_) (hl ▸ hk)
    rw [hcon (fun h0 => hne (List.eq_nil_of_length_eq_zero (hl.trans h0))), h]
  · rw [hp (fun h0 => by unfold Base64.restoreBinary at h; rw [if_pos h0] at h; cases h), h]
    rfl
  · refine (base64_undefined_iff s).2.mp ?_
    by_cases h0 : Base64.decodedSize s = 0
    · simp only [paste, need, Res.ok_bind, if_pos h0] at h
      cases h
    · rw [hp h0] at h
      cases hr : Base64.restoreBinary s with
      | ub => rfl
      | ok _ => rw [hr] at h; cases h
      | err => rw [hr] at h; cases h
      | fuel => rw [hr] at h; cases h

example : paste id 3 ⟨[], 0⟩ (.str (str "AQA?")) = .err := by
  refine (vecwrap_text_partial id (fun _ => Nat.le_refl _) 3 ⟨[], 0⟩ (str "AQA?") ?_).2.1 ?_ <;> decide +kernel

/-- C63, the same for binary data: any previous contents, any way to obtain memory. -/
theorem vecwrap_fits (grow : Nat → Nat) (hg : ∀ n, n ≤ grow n) (k : Nat) (old : Vec) (s : Bytes)
    (hk : k ∣ s.length) : Holds s (paste grow k old (.bin s)) :=
  paste_holds grow hg k old s _ rfl (fun _ => rfl) hk

/-- Elements of one byte always fit. -/
example (old : Vec) (s : Bytes) : Holds s (paste id 1 old (.bin s)) :=
  vecwrap_fits id (fun _ => Nat.le_refl _) 1 old s (Nat.one_dvd _)

/-- C63: all other values are refused. -/
theorem vecwrap_refuses (grow : Nat → Nat) (k : Nat) (old : Vec) (val : Val)
    (h1 : ∀ s, val ≠ .str s) (h2 : ∀ s, val ≠ .bin s) : paste grow k old val = .err := by
  cases val with
  | str s => exact absurd rfl (h1 s)
  | bin s => exact absurd rfl (h2 s)
  | _ => rfl

end Srl.Props
