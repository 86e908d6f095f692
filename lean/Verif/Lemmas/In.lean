import Verif.Model.In

namespace Srl.In

theorem move_ok {m : Mem} (hm : m.Sane) {n : Nat} {s : Bytes} (h : n ≤ s.length) :
    move m n s = .ok (s.drop n) := by
  unfold move
  unfold Mem.Sane at hm
  rw [if_neg (by omega), if_neg (by omega)]

theorem move_append {m : Mem} (hm : m.Sane) {a s : Bytes} :
    move m a.length (a ++ s) = .ok s := by
  rw [move_ok hm (by simp)]; simp

@[simp] theorem move_one {m : Mem} (hm : m.Sane) {a : UInt8} {s : Bytes} :
    move m 1 (a :: s) = .ok s := by
  rw [move_ok hm (by simp)]; rfl

theorem move_err {m : Mem} (hm : m.Sane) {n : Nat} (hn : n ≤ 2 ^ 63) {s : Bytes}
    (h : s.length < n) : move m n s = .err := by
  unfold move
  unfold Mem.Sane at hm
  rw [if_neg (by omega), if_pos (by omega)]

theorem readBlock_append {m : Mem} (hm : m.Sane) {a s : Bytes} {n : Nat} (hn : n = a.length) :
    readBlock m n (a ++ s) = .ok (a, s) := by
  subst hn; unfold readBlock; rw [move_append hm]; simp

theorem readBlock_ok {m : Mem} (hm : m.Sane) {s : Bytes} {n : Nat} (hn : n ≤ s.length) :
    readBlock m n s = .ok (s.take n, s.drop n) := by
  unfold readBlock; rw [move_ok hm hn]; rfl

theorem readBlock_err {m : Mem} (hm : m.Sane) {s : Bytes} {n : Nat} (hn : n ≤ 2 ^ 63)
    (h : s.length < n) : readBlock m n s = .err := by
  unfold readBlock; rw [move_err hm hn h]; rfl

@[simp] theorem cur_cons (m : Mem) (b : UInt8) (s : Bytes) : cur m (b :: s) = .ok b := rfl

end Srl.In
