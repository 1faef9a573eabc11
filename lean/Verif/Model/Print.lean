import Verif.Model.Wild
import Verif.Model.Debug
/-
`PrintShape` (`src/raw/debug.rs:65-116`): printing the structure of a trie, pointers and flags included, while it is in use.

The printer is not one of the calls of `Verif/Model/Machine.lean`; it is an observer of an execution: it takes a guard (`src/raw/debug.rs:94`), so there is a pinned session, and
it loads one cell after the other. Loads may return old values, as those of the calls do under weak memory (`Verif/Model/Coherent.lean`): any value the
cell has had since the last one the session knows of. The printer has a view of its own, which starts with what the session knew in the beginning;
what the session learns from others meanwhile is ignored (so that more is possible here than in reality).
-/
namespace Contrie
variable {K P : Type}

/-- What is written. `word w`: `{:?}/{:?}` of the pointer and the flags, `src/raw/debug.rs:71`; `items`: `{:?}` of a data node, `:77`; `opening`, `idx`, `closing`: `(`, ` {:X}:`, ` )`, `:80-85`. -/
inductive Tok (P : Type) where
  | word (w : Word)
  | items (l : List P)
  | opening
  | idx (i : Fin 16)
  | closing

/-- What remains to be done: to write something, or to print what is in a cell (a call of `print_shape_ptr`, `src/raw/debug.rs:65`). -/
inductive Todo (P : Type) where
  | text (x : Tok P)
  | cell (ℓ : Loc)

/-- The loop over the cells of inner node `a`, and what follows it, `src/raw/debug.rs:81-85`. -/
def loopOver (a : Nat) : List (Todo P) :=
  (List.finRange 16).flatMap (fun i => [.text (.idx i), .cell (.slot a i)]) ++ [.text .closing]

/-- `print_shape_ptr` after the load of `w`, `src/raw/debug.rs:70-87`: what it writes, and what then remains to be done. -/
def printWord (m : Mem P) (w : Word) : Except Failure (List (Tok P) × List (Todo P)) :=
  match w.ptr with
  | none => .ok ([.word w], [])
  | some a =>
    if w.data then
      match m.loadData w with
      | .error f => .error f
      | .ok items => .ok ([.word w, .items items], [])
    else match m.deref a with
      | some (.inner _ _) => .ok ([.word w, .opening], loopOver a)
      | _ => .error .badAccess

/-- A printer. `view`: the instants before which it cannot see the cells any more. `loads`: the number of loads so far. -/
structure Printer (P : Type) where
  todo : List (Todo P)
  out : List (Tok P)
  view : Loc → Nat
  loads : Nat
  failed : Option Failure

/-- What a load of `w` from cell `ℓ`, as of instant `τ`, leads to if the memory is `m`. -/
def Printer.load (x : Printer P) (m : Mem P) (rest : List (Todo P)) (ℓ : Loc) (w : Word) (τ : Nat) : Printer P :=
  match printWord m w with
  | .error f => { x with failed := some f }
  | .ok (out, todo) => ⟨todo ++ rest, x.out ++ out, upd x.view ℓ τ, x.loads + 1, x.failed⟩

/-- A printer started at instant `s`, knowing `V`, may at instant `n` have got as far as this. `mem i` is the memory at instant `i`. -/
inductive Prints (mem : Nat → Mem P) (s : Nat) (V : Loc → Nat) : Nat → Printer P → Prop
  /-- `src/raw/debug.rs:95` -/
  | start : Prints mem s V s ⟨[.cell .root], [], V, 0, none⟩
  /-- others do something -/
  | wait {n : Nat} {x : Printer P} (h : Prints mem s V n x) : Prints mem s V (n + 1) x
  /-- it writes something -/
  | write {n : Nat} {x : Printer P} {k : Tok P} {rest : List (Todo P)} (h : Prints mem s V n x) (hf : x.failed = none) (ht : x.todo = .text k :: rest) :
      Prints mem s V n { x with todo := rest, out := x.out ++ [k] }
  /-- it loads a cell, `src/raw/debug.rs:69`, of a node that is not there -/
  | crash {n : Nat} {x : Printer P} {ℓ : Loc} {rest : List (Todo P)} (h : Prints mem s V n x) (hf : x.failed = none) (ht : x.todo = .cell ℓ :: rest)
      (hm : (mem n).read ℓ = none) : Prints mem s V n { x with failed := some .badAccess }
  /-- it loads a cell, `src/raw/debug.rs:69`, and sees what was there at instant `τ` -/
  | load {n τ : Nat} {x : Printer P} {ℓ : Loc} {w : Word} {rest : List (Todo P)} (h : Prints mem s V n x) (hf : x.failed = none) (ht : x.todo = .cell ℓ :: rest)
      (hm : (mem n).read ℓ ≠ none) (hτ : τ ≤ n) (hv : x.view ℓ ≤ τ) (hw : (mem τ).read ℓ = some w) : Prints mem s V n (x.load (mem n) rest ℓ w τ)

/-- The elements that appear in the output. -/
def printed (out : List (Tok P)) : List P := out.flatMap (fun x => match x with | .items l => l | _ => [])

/-- `print_shape` (`src/raw/debug.rs:90-96`) called at instant `s` by session `t`, which has taken a guard and keeps it, has got as far as `x` at instant `n`. Weak memory, and misbehaving user code. -/
structure WExec.PrintsShape (E : WExec K P) (t s n : Nat) (x : Printer P) : Prop where
  le : n ≤ E.len
  guard : ∃ p, ∀ i, s ≤ i → i ≤ n → ((E.st i).thr t).pin = some p
  run : Prints (fun i => (E.st i).m) s ((E.st s).thr t).view n x

/-- The same, with user code that behaves. -/
structure CExec.PrintsShape [DecidableEq K] {cfg : Config K P} (E : CExec cfg) (t s n : Nat) (x : Printer P) : Prop where
  le : n ≤ E.len
  guard : ∃ p, ∀ i, s ≤ i → i ≤ n → ((E.st i).thr t).pin = some p
  run : Prints (fun i => (E.st i).m) s ((E.st s).thr t).view n x

/-- Call `x` returned, and session `t` knew of it at instant `s` (the return happens before). -/
def CExec.Knows [DecidableEq K] {cfg : Config K P} (E : CExec cfg) (t s x : Nat) : Prop :=
  ∃ t' j r weak τ, j < E.len ∧ E.lab j = .tick t' weak τ ∧ E.ev j = some (.res x r) ∧ HB E.lab E.len (t', j + 1) (t, s)

/-- What the output of a complete run looks like: the text of a tree. -/
inductive PTree (P : Type) where
  | null (w : Word)
  | leaf (w : Word) (items : List P)
  | node (w : Word) (sub : Fin 16 → PTree P)

/-- The text of a tree. -/
def PTree.toks : PTree P → List (Tok P)
  | .null w => [.word w]
  | .leaf w l => [.word w, .items l]
  | .node w sub => [.word w, .opening] ++ (List.finRange 16).flatMap (fun i => .idx i :: (sub i).toks) ++ [.closing]

/-- The tree without pointers and flags; cf. `Shape` (`Verif/Model/Debug.lean`). -/
def PTree.shape : PTree P → Shape P
  | .null _ => .null
  | .leaf _ l => .leaf l
  | .node _ sub => .node (fun i => (sub i).shape)

/-- The tree that hangs below a cell containing `w`, pointers and flags included; cf. `HasShape` (`Verif/Model/Debug.lean`). -/
inductive PTree.Shows (m : Mem P) : Word → PTree P → Prop
  | null {w : Word} (hp : w.ptr = none) : PTree.Shows m w (.null w)
  | leaf {w : Word} {a : Nat} {l : List P} (hp : w.ptr = some a) (hd : w.data = true) (hm : m.deref a = some (.data l)) : PTree.Shows m w (.leaf w l)
  | node {w : Word} {a : Nat} {c : Fin 16 → Word} {p : List (Fin 16)} {sub : Fin 16 → PTree P} (hp : w.ptr = some a) (hd : w.data = false)
      (hm : m.deref a = some (.inner c p)) (hsub : ∀ i, PTree.Shows m (c i) (sub i)) : PTree.Shows m w (.node w sub)

theorem PTree.Shows.hasShape {m : Mem P} {w : Word} {T : PTree P} (h : T.Shows m w) : HasShape m w T.shape := by
  induction h with
  | null hp => exact .null hp
  | leaf hp hd hm => exact .leaf hp hd hm
  | node hp hd hm hsub ih => exact .node hp hd hm ih

end Contrie
