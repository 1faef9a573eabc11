import Verif.Model.Basic
/-
Tagged pointers: how an address and the flags share one machine word (64 bits).
The functions of crossbeam-epoch (`src/atomic.rs` of that crate: `low_bits`, `compose_tag`, `decompose_tag`) are outside the
repository; they are modelled from their documentation.
-/
namespace Contrie

/-- `NodeFlags::CONDEMNED`, `src/raw/mod.rs:204` -/
def CONDEMNED : BitVec 64 := 0b01
/-- `NodeFlags::DATA`, `src/raw/mod.rs:216` -/
def DATA : BitVec 64 := 0b10
/-- `NodeFlags::all().bits()`, `src/raw/mod.rs:199-217` -/
def ALL_FLAGS : BitVec 64 := CONDEMNED ||| DATA

/-- crossbeam's `low_bits::<T>()` for a type aligned to `2 ^ n`: the bits of an address that are always zero. -/
def lowBits (n : Nat) : BitVec 64 := BitVec.ofNat 64 (2 ^ n - 1)

/-- crossbeam's `compose_tag`, used by `with_tag` (`src/raw/mod.rs:240`, `:449`). -/
def composeTag (n : Nat) (ptr tag : BitVec 64) : BitVec 64 := (ptr &&& ~~~ lowBits n) ||| (tag &&& lowBits n)

/-- crossbeam's `Shared::tag`, used by `nf` (`src/raw/mod.rs:222`) and `src/raw/mod.rs:489`. -/
def tagOf (n : Nat) (w : BitVec 64) : BitVec 64 := w &&& lowBits n

/-- crossbeam's `Shared::as_raw` (`src/raw/mod.rs:231`); also what `as_ref`/`deref` look at. -/
def rawOf (n : Nat) (w : BitVec 64) : BitVec 64 := w &&& ~~~ lowBits n

/-- crossbeam's `Shared::is_null`. -/
def isNull (n : Nat) (w : BitVec 64) : Bool := rawOf n w == 0

/-- crossbeam's `Atomic::fetch_or(val)`: the word stored (`src/raw/mod.rs:445`). -/
def fetchOr (n : Nat) (w val : BitVec 64) : BitVec 64 := w ||| (val &&& lowBits n)

/-- A set of flags, i.e. the bits of a `NodeFlags` value (`src/raw/mod.rs:194-217`). -/
structure Flags where
  cond : Bool
  data : Bool
deriving DecidableEq, Repr

/-- `NodeFlags::bits()` -/
def Flags.bits (f : Flags) : BitVec 64 :=
  (if f.cond then CONDEMNED else 0) ||| (if f.data then DATA else 0)

/-- `NodeFlags::from_bits`: `None` if an unknown bit is set. -/
def Flags.fromBits (b : BitVec 64) : Option Flags :=
  if b &&& ~~~ ALL_FLAGS = 0 then some ⟨b &&& CONDEMNED != 0, b &&& DATA != 0⟩ else none

/-- `nf`, `src/raw/mod.rs:221-223`; `none` is the panic "Invalid node flags". -/
def nf (n : Nat) (w : BitVec 64) : Option Flags := Flags.fromBits (tagOf n w)

/-- The address of the node a tagged pointer leads to; null is address 0. -/
def Word.addr (addr : Nat → BitVec 64) (w : Word) : BitVec 64 :=
  match w.ptr with
  | none => 0
  | some a => addr a

/-- The machine word for a tagged pointer, for nodes aligned to `2 ^ n` that live at the addresses `addr`. -/
def Word.pack (n : Nat) (addr : Nat → BitVec 64) (w : Word) : BitVec 64 :=
  composeTag n (w.addr addr) (Flags.bits ⟨w.cond, w.data⟩)

end Contrie
