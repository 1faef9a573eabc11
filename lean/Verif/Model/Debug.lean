import Verif.Model.Machine
/-
`src/raw/debug.rs`: the consistency check `assert_pruned`, and the shape that `PrintShape` prints.
-/
namespace Contrie
variable {P : Type}

/-- What a cell adds to `data_cnt` of its node, `src/raw/debug.rs:42`. -/
def Mem.dataCnt (m : Mem P) (w : Word) : Nat :=
  match w.ptr with
  | none => 0
  | some a => if w.data then match m.deref a with
      | some (.data l) => l.length
      | _ => 0
    else 0

/-- Does a cell set `seen_inner`, `src/raw/debug.rs:45`. -/
def Word.isInner (w : Word) : Prop := w.ptr ≠ none ∧ w.data = false

/-- `handle_ptr` and `check_node` of `assert_pruned`, `src/raw/debug.rs:27-60`: `HandlePtr m w` says that
`handle_ptr` called on a cell containing `w` returns (no assertion fails, the recursion ends). -/
inductive HandlePtr (m : Mem P) : Word → Prop
  /-- `src/raw/debug.rs:35,37-38` -/
  | null {w : Word} (hc : w.cond = false) (hp : w.ptr = none) : HandlePtr m w
  /-- `src/raw/debug.rs:35,39-42` -/
  | data {w : Word} {a : Nat} {l : List P} (hc : w.cond = false) (hp : w.ptr = some a) (hd : w.data = true)
      (hm : m.deref a = some (.data l)) (hl : l ≠ []) : HandlePtr m w
  /-- `src/raw/debug.rs:35,43-47` and `check_node`, `:49-60` -/
  | inner {w : Word} {a : Nat} {c : Fin 16 → Word} {p : List (Fin 16)} (hc : w.cond = false) (hp : w.ptr = some a)
      (hd : w.data = false) (hm : m.deref a = some (.inner c p)) (hsub : ∀ i, HandlePtr m (c i))
      (hcnt : 1 < ((List.finRange 16).map (fun i => m.dataCnt (c i))).sum ∨ ∃ i, (c i).isInner) : HandlePtr m w

/-- `assert_pruned` does not panic, `src/raw/debug.rs:26-63`. -/
def Mem.AssertPruned (m : Mem P) : Prop := HandlePtr m m.root

/-- A trie without addresses: what `print_shape_ptr` prints (`src/raw/debug.rs:65-88`) except the addresses and flags. -/
inductive Shape (P : Type) where
  | null
  | leaf (items : List P)
  | node (children : Fin 16 → Shape P)

/-- What hangs below a cell containing `w`. -/
inductive HasShape (m : Mem P) : Word → Shape P → Prop
  | null {w : Word} (hp : w.ptr = none) : HasShape m w .null
  | leaf {w : Word} {a : Nat} {l : List P} (hp : w.ptr = some a) (hd : w.data = true)
      (hm : m.deref a = some (.data l)) : HasShape m w (.leaf l)
  | node {w : Word} {a : Nat} {c : Fin 16 → Word} {p : List (Fin 16)} {ch : Fin 16 → Shape P} (hp : w.ptr = some a)
      (hd : w.data = false) (hm : m.deref a = some (.inner c p)) (hsub : ∀ i, HasShape m (c i) (ch i)) :
      HasShape m w (.node ch)

/-- There is at most one shape. -/
theorem HasShape.unique {m : Mem P} {w : Word} {T T' : Shape P} (h : HasShape m w T) (h' : HasShape m w T') : T = T' := by
  induction h generalizing T' with
  | null hp => cases h' with
    | null => rfl
    | leaf hp' => rw [hp] at hp'; cases hp'
    | node hp' => rw [hp] at hp'; cases hp'
  | leaf hp hd hm => cases h' with
    | null hp' => rw [hp] at hp'; cases hp'
    | leaf hp' hd' hm' => rw [hp] at hp'; cases hp'; rw [hm] at hm'; cases hm'; rfl
    | node hp' hd' => rw [hd] at hd'; cases hd'
  | node hp hd hm hsub ih => cases h' with
    | null hp' => rw [hp] at hp'; cases hp'
    | leaf hp' hd' => rw [hd] at hd'; cases hd'
    | node hp' hd' hm' hsub' =>
      rw [hp] at hp'; cases hp'; rw [hm] at hm'; cases hm'
      congr 1
      funext i
      exact ih i (hsub' i)

end Contrie
