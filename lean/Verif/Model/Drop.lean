import Verif.Model.Machine
/-
`impl Drop for Raw`, `src/raw/mod.rs:850-885`.
-/
namespace Contrie
variable {P : Type}

/-- The types of nodes: `Inner` (`src/raw/mod.rs:257`) and `Data` (`src/raw/mod.rs:270`). They have different layouts (and different destructors). -/
inductive Kind where
  | inner | data
deriving DecidableEq, Repr

/-- What happens to memory during a drop. -/
inductive Release (P : Type) where
  /-- the block at `a` is given back to the allocator with the layout of the type `as` -/
  | dealloc (a : Nat) (as : Kind)
  /-- the destructor of an element runs -/
  | destruct (p : P)
deriving DecidableEq, Repr

/-- The blocks given back. -/
def released (l : List (Release P)) : List Nat := l.filterMap (fun x => match x with | .dealloc a _ => some a | _ => none)

/-- The elements destructed. -/
def destructed (l : List (Release P)) : List P := l.filterMap (fun x => match x with | .destruct p => some p | _ => none)

/-- The type a node was allocated with: `Owned::new(inner)` (`src/raw/mod.rs:480`, `:606`) or `Box::new(data)` (`src/raw/mod.rs:239`). -/
def Node.kind : Node P → Kind
  | .inner _ _ => .inner
  | .data _ => .data

/-- `drop_data`, `src/raw/mod.rs:244-251`: `drop(ptr.into_owned())`, where `ptr` is a `Shared<Inner>`: in spite of its name and its
comment it does not cast the pointer, so it drops a `Box<Inner>`: the block is given back as an `Inner` (whose cells have no
destructor).
`fix = true` is not the code at hand but the obvious repair: cast to `Data` first (as in `src/raw/mod.rs:545`), then drop: the elements are
destructed, the block is given back as `Data`. -/
def dropData (fix : Bool) (a : Nat) (items : List P) : List (Release P) :=
  if fix then items.map .destruct ++ [.dealloc a .data] else [.dealloc a .inner]

/-- The node is gone. -/
def Mem.destroy (m : Mem P) (a : Nat) : Mem P := { m with freed := upd m.freed a true }

/-- The loop `for sub in &owned.0 { drop_recursive(sub) }`, `src/raw/mod.rs:876-878`, over the cells `is` of node `a`; `rec` is `drop_recursive`. -/
def Mem.dropCells (rec : Mem P → Word → Option (Mem P × List (Release P))) (a : Nat) (m : Mem P) :
    List (Fin 16) → Option (Mem P × List (Release P))
  | [] => some (m, [])
  | i :: is => match m.read (.slot a i) with
    | none => none
    | some w => match rec m w with
      | none => none
      | some (m1, l1) => match Mem.dropCells rec a m1 is with
        | none => none
        | some (m2, l2) => some (m2, l1 ++ l2)

/-- The body of `drop_recursive`, `src/raw/mod.rs:862-881`, called on a cell that contains `w`. -/
def Mem.dropNode (fix : Bool) (rec : Mem P → Word → Option (Mem P × List (Release P))) (m : Mem P) (w : Word) : Option (Mem P × List (Release P)) :=
  match w.ptr with
  | none => some (m, [])
  | some a =>
    if w.data then
      match m.deref a with
      | some (.data items) => some (m.destroy a, dropData fix a items)
      | _ => none
    else
      match m.dropCells rec a (List.finRange 16) with
      | none => none
      | some (m1, l1) => match m1.deref a with
        | some (.inner _ _) => some (m1.destroy a, l1 ++ [.dealloc a .inner])
        | _ => none

/-- `drop_recursive`, `src/raw/mod.rs:861-883`. Returns the memory afterwards and what was released, in order; `none` if memory that is already
gone is accessed (or released again), or if the recursion is deeper than `fuel` (Lean wants to see that it ends). -/
def Mem.dropRec (fix : Bool) : Nat → Mem P → Word → Option (Mem P × List (Release P))
  | 0, m, w => m.dropNode fix (fun _ _ => none) w
  | fuel + 1, m, w => m.dropNode fix (Mem.dropRec fix fuel) w

/-- `drop`, `src/raw/mod.rs:884` -/
def Mem.drop (fix : Bool) (m : Mem P) : Option (Mem P × List (Release P)) := Mem.dropRec fix (MAX_LEVELS + 1) m m.root

end Contrie
