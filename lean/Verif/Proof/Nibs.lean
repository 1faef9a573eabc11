import Verif.Model.Machine
/-
Hash paths: the list of the 16 nibbles of a hash, lowest first.
-/
namespace Contrie

/-- The 16 nibbles of a hash, lowest first. -/
def nibs (h : BitVec 64) : List (Fin 16) := (List.range 16).map (fun d => bitsAt h (LEVEL_BITS * d))

@[simp] theorem nibs_length (h : BitVec 64) : (nibs h).length = 16 := by simp [nibs]

theorem nibs_getElem? (h : BitVec 64) {d : Nat} (hd : d < 16) :
    (nibs h)[d]? = some (bitsAt h (LEVEL_BITS * d)) := by
  simp [nibs, hd]

theorem nibs_getElem (h : BitVec 64) {d : Nat} (hd : d < (nibs h).length) :
    (nibs h)[d] = bitsAt h (LEVEL_BITS * d) := by
  simp [nibs]

theorem pathTo_eq_take (h : BitVec 64) {d : Nat} (hd : d ≤ 16) :
    pathTo h (LEVEL_BITS * d) = (nibs h).take d := by
  unfold pathTo nibs
  rw [← List.map_take, List.take_range]
  have : LEVEL_BITS * d / LEVEL_BITS = d := by simp [LEVEL_BITS]
  rw [this, Nat.min_eq_left hd]

/-- The prefix of length `d` of the path of a hash. -/
def pre (h : BitVec 64) (d : Nat) : List (Fin 16) := (nibs h).take d

theorem pre_length (h : BitVec 64) {d : Nat} (hd : d ≤ 16) : (pre h d).length = d := by
  simp [pre]; omega

theorem pre_succ (h : BitVec 64) {d : Nat} (hd : d < 16) :
    pre h (d + 1) = pre h d ++ [bitsAt h (LEVEL_BITS * d)] := by
  unfold pre
  rw [List.take_add_one, nibs_getElem? h hd]; rfl

theorem pre_zero (h : BitVec 64) : pre h 0 = [] := rfl

theorem pre_prefix (h : BitVec 64) (d : Nat) : pre h d <+: nibs h := List.take_prefix _ _

theorem pre_of_prefix {h : BitVec 64} {q : List (Fin 16)} (hq : q <+: nibs h) : q = pre h q.length :=
  List.prefix_iff_eq_take.mp hq

theorem prefix_length_le {h : BitVec 64} {q : List (Fin 16)} (hq : q <+: nibs h) : q.length ≤ 16 := by
  have := hq.length_le; simpa using this

/-- `get` shifts the hash step by step, the other operations shift the original hash by a growing amount. -/
theorem bitsAt_shift (h : BitVec 64) (d : Nat) : bitsAt (h >>> (LEVEL_BITS * d)) 0 = bitsAt h (LEVEL_BITS * d) := by
  simp [bitsAt]

theorem shift_succ (h : BitVec 64) (d : Nat) :
    (h >>> (LEVEL_BITS * d)) >>> LEVEL_BITS = h >>> (LEVEL_BITS * (d + 1)) := by
  rw [← BitVec.shiftRight_add]; rfl

end Contrie
