import Verif.Model.Client
/-
`fmt::Debug` of the wrapper types: `src/map.rs:327-343`, `src/clonemap.rs:262-270`, `src/set.rs:151-160`, on top of the builders `fmt::DebugMap` and
`fmt::DebugSet` of the standard library (their documented behaviour without the `#` flag). Simplification: the text of an element is a function of the element
(no interior mutability), and the text is put together when the pass of the iterator is complete; that is the same as after each `next`, since the elements
do not change.
-/
namespace Contrie
variable {K O V T σ : Type}

/-- `core::fmt::Write`: a state and a function that tries to append a string; `false`: `Err(fmt::Error)`. -/
structure Writer (σ : Type) where
  write : σ → String → σ × Bool

/-- A `String` as writer: always succeeds. -/
def Writer.string : Writer String := ⟨fun s x => (s ++ x, true)⟩

/-- A buffer of bounded size (as `&mut [u8]`, a disk): what does not fit is refused. -/
def Writer.bounded (cap : Nat) : Writer String := ⟨fun s x => if (s ++ x).length ≤ cap then (s ++ x, true) else (s, false)⟩

/-- The strings one after the other, stopping at the first error (`write_str(..)?; write_str(..)?; ...`). A user's `Debug` implementation is given by the
strings it writes. -/
def Writer.writeAll (w : Writer σ) : σ → List String → σ × Bool
  | s, [] => (s, true)
  | s, x :: xs => match w.write s x with
    | (s', true) => w.writeAll s' xs
    | (s', false) => (s', false)

/-- `fmt::DebugMap`/`fmt::DebugInner` (standard library): the writer, the result so far (`true`: `Ok(())`), and whether an entry has been written. -/
structure Builder (σ : Type) where
  out : σ
  ok : Bool
  hasFields : Bool

/-- `Formatter::debug_map`, `Formatter::debug_set`: writes the opening brace. -/
def Builder.new (w : Writer σ) (s : σ) : Builder σ :=
  let r := w.writeAll s ["{"]
  ⟨r.1, r.2, false⟩

/-- `self.result = self.result.and_then(|_| ...)`, `self.has_fields = true` -/
def Builder.put (w : Writer σ) (b : Builder σ) (xs : List String) : Builder σ :=
  if b.ok then
    let r := w.writeAll b.out (if b.hasFields then ", " :: xs else xs)
    ⟨r.1, r.2, true⟩
  else { b with hasFields := true }

/-- `DebugMap::entry`: the key, a colon, the value. -/
def Builder.entry (w : Writer σ) (b : Builder σ) (k v : List String) : Builder σ := b.put w (k ++ ": " :: v)

/-- `DebugSet::entry` -/
def Builder.setEntry (w : Writer σ) (b : Builder σ) (x : List String) : Builder σ := b.put w x

/-- `DebugMap::finish`, `DebugSet::finish`: the closing brace. -/
def Builder.finish (w : Writer σ) (b : Builder σ) : σ × Bool :=
  if b.ok then w.writeAll b.out ["}"] else (b.out, false)

/-- `<ConMap as Debug>::fmt`, `src/map.rs:332-342`: `let mut d = fmt.debug_map(); for n in self { d.entry(n.key(), &n.value()); } d.finish()`. The loop goes on
after an error of the writer (`entry` swallows it until `finish`). -/
def ConMap.debug (sk : O → List String) (sv : V → List String) (w : Writer σ) (s : σ) (m : Nat) : Prog K (Arc O V) (σ × Bool) :=
  (ConMap.iter m).bind (fun l => .ret ((l.foldl (fun d n => d.entry w (sk n.key) (sv n.val)) (Builder.new w s)).finish w))

/-- `<CloneConMap as Debug>::fmt`, `src/clonemap.rs:267-269`: `fmt.debug_map().entries(self.iter()).finish()`; `entries` calls `entry` for each item. -/
def CloneConMap.debug (sk : O → List String) (sv : V → List String) (w : Writer σ) (s : σ) (m : Nat) : Prog K (O × V) (σ × Bool) :=
  (CloneConMap.iter m).bind (fun l => .ret ((l.foldl (fun d n => d.entry w (sk n.1) (sv n.2)) (Builder.new w s)).finish w))

/-- `<ConSet as Debug>::fmt`, `src/set.rs:155-157`: `fmt.debug_set().entries(self.iter()).finish()` -/
def ConSet.debug (st : T → List String) (w : Writer σ) (s : σ) (m : Nat) : Prog K T (σ × Bool) :=
  (ConSet.iter m).bind (fun l => .ret ((l.foldl (fun d n => d.setEntry w (st n)) (Builder.new w s)).finish w))

end Contrie
