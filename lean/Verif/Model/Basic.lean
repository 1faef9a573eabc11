/-
Basic vocabulary of the model: configuration, hash bits, tagged words, nodes.
-/
namespace Contrie

/-- `src/raw/mod.rs:188` -/
def LEVEL_BITS : Nat := 4
/-- `src/raw/mod.rs:189` -/
def LEVEL_MASK : BitVec 64 := 0b1111
/-- `src/raw/mod.rs:190` -/
def LEVEL_CELLS : Nat := 16
/-- `src/raw/mod.rs:191`: `mem::size_of::<u64>() * 8 / LEVEL_BITS` -/
def MAX_LEVELS : Nat := 8 * 8 / LEVEL_BITS
/-- `mem::size_of_val(&hash) * 8` of `src/raw/mod.rs:594`: number of bits of the hash. -/
def HASH_BITS : Nat := 8 * 8

/-- A user configuration: `src/raw/config.rs:15-22` (`Payload: Borrow<Key>`, `Key: Hash + Eq`) together
with the hash builder of `src/raw/mod.rs:351,382-389` (`Raw::hash`).
Simplification: key equality is Lean's `=` and `hash` is a function, i.e. `Eq`/`Hash`/`Borrow` obey
their contracts; `Clone` of a payload yields an equal payload. -/
structure Config (K P : Type) where
  /-- `<Payload as Borrow<Key>>::borrow` -/
  key : P → K
  /-- `Raw::hash`, `src/raw/mod.rs:382-389` -/
  hash : K → BitVec 64

/-- `(hash >> shift) & LEVEL_MASK` as an index into the array of cells;
`src/raw/mod.rs:604`, `:648`, `:792` (and `:677` with shift 0). -/
def bitsAt (h : BitVec 64) (shift : Nat) : Fin 16 :=
  ⟨((h >>> shift) &&& LEVEL_MASK).toNat, by
    have h1 : ((h >>> shift) &&& LEVEL_MASK).toNat ≤ LEVEL_MASK.toNat := by
      rw [BitVec.toNat_and]; exact Nat.and_le_right
    have h2 : LEVEL_MASK.toNat = 15 := by decide
    omega⟩

/-- A tagged pointer `Shared<Inner>`; `src/raw/mod.rs:193-223`. `ptr = none` is null.
`cond`/`data` are the tag bits `CONDEMNED`/`DATA`. (The packing into one machine word is the subject of
`Verif/Model/Tagged.lean`.) -/
structure Word where
  ptr : Option Nat
  cond : Bool
  data : Bool
deriving DecidableEq, Repr

/-- `Shared::null()` / `Atomic::null()` -/
def Word.null : Word := ⟨none, false, false⟩

/-- `w.with_tag(nf(w) & !CONDEMNED)`, `src/raw/mod.rs:448-449` -/
def Word.erase (w : Word) : Word := { w with cond := false }

/-- The word after `fetch_or(CONDEMNED)`, `src/raw/mod.rs:445` -/
def Word.condemn (w : Word) : Word := { w with cond := true }

/-- Heap nodes: `Inner` (`src/raw/mod.rs:257`) and `Data` (`src/raw/mod.rs:270`, a `SmallVec`, here a list).
`path` is a ghost field: the hash prefix at which the inner node was created; no step reads it
except to copy it. -/
inductive Node (P : Type) where
  | inner (cells : Fin 16 → Word) (path : List (Fin 16))
  | data (items : List P)

/-- A memory location holding an `Atomic<Inner>`: the root (`src/raw/mod.rs:352`) or a cell of an inner
node (`src/raw/mod.rs:257`). -/
inductive Loc where
  | root
  | slot (a : Nat) (i : Fin 16)
deriving DecidableEq, Repr

/-- Point update of a function. -/
def upd {α β : Type} [DecidableEq α] (f : α → β) (a : α) (b : β) : α → β :=
  fun x => if x = a then b else f x

@[simp] theorem upd_same {α β : Type} [DecidableEq α] (f : α → β) (a : α) (b : β) : upd f a b a = b := by
  simp [upd]

theorem upd_other {α β : Type} [DecidableEq α] (f : α → β) {a x : α} (b : β) (h : x ≠ a) :
    upd f a b x = f x := by
  simp [upd, h]

/-- `src/existing_or_new.rs:11-16` -/
inductive ExistingOrNew (T : Type) where
  | existing (v : T)
  | new (v : T)
deriving DecidableEq, Repr

/-- `ExistingOrNew::into_inner`, `src/existing_or_new.rs:20-25` -/
def ExistingOrNew.intoInner {T : Type} : ExistingOrNew T → T
  | .existing v => v
  | .new v => v

/-- `ExistingOrNew::map`, `src/existing_or_new.rs:31-36` -/
def ExistingOrNew.map {T U : Type} (f : T → U) : ExistingOrNew T → ExistingOrNew U
  | .existing v => .existing (f v)
  | .new v => .new (f v)

/-- `ExistingOrNew::is_new`, `src/existing_or_new.rs:39-44` -/
def ExistingOrNew.isNew {T : Type} : ExistingOrNew T → Bool
  | .new _ => true
  | .existing _ => false

/-- `Deref::deref`, `src/existing_or_new.rs:47-55` -/
def ExistingOrNew.deref {T : Type} : ExistingOrNew T → T
  | .existing v => v
  | .new v => v

/-- An assignment `*self = v` through `DerefMut::deref_mut`, `src/existing_or_new.rs:57-64`. -/
def ExistingOrNew.assign {T : Type} (v : T) : ExistingOrNew T → ExistingOrNew T
  | .existing _ => .existing v
  | .new _ => .new v

end Contrie
