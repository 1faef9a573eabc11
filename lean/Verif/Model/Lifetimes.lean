import Verif.Model.Wild
import Verif.Model.Drop
import Verif.Proof.WildLive
/-
Lifetimes: the signatures of the functions of `src/raw` that return references, or things that contain references, and what they let safe code do.

A borrow ends before the thing borrowed from may be dropped (or moved, or changed); a value whose type mentions a lifetime is used only while that lifetime lasts. So, by its signature, what a
function returns keeps certain of its arguments from being dropped: those whose lifetime outlives the one in the type of the result. That the compiler enforces this is assumed; what it is good for is proved.

The machine is that of `Verif/Model/Wild.lean`: weak memory, arbitrary user code, many threads. A session stands for a guard in the user's hands (`crossbeam_epoch::pin()`), or for an iterator, which has a guard of its own
(`src/raw/iterator.rs:68`); both end with `unpin` (or by unwinding).
-/
namespace Contrie
variable {K P : Type}

/-- The names of lifetimes in the signatures; `x` is the elided one of `Iter::next`. -/
inductive Lt where
  | s | p | r | m | a | x
deriving DecidableEq, Repr

/-- What may be borrowed: a map, a guard, an iterator. -/
inductive Owner where
  | map | guard | iter
deriving DecidableEq, Repr

/-- The functions in question. -/
inductive Fn where
  | get | insert | getOrInsertWith | remove | iterNew | iterNext
deriving DecidableEq, Repr

/-- What holds the guard under which a function's results were found. -/
def Fn.holder : Fn → Owner
  | .iterNew => .iter
  | .iterNext => .iter
  | _ => .guard

/-- A signature, as far as lifetimes are concerned. `args`: what the lifetimes in the types of the arguments are borrows of; `bounds`: `(x, y)` for `'x: 'y`; `result`: the lifetime in the type of the result. -/
structure Sig where
  args : List (Owner × Lt)
  bounds : List (Lt × Lt)
  result : Lt

/-- By these bounds, the first lifetime is at least as long as the second. -/
inductive Outlives (b : List (Lt × Lt)) : Lt → Lt → Prop
  | refl (l : Lt) : Outlives b l l
  | step {l l' l'' : Lt} (h : (l, l') ∈ b) (h' : Outlives b l' l'') : Outlives b l l''

/-- The borrow of this argument lasts as long as the result is in use. -/
def Sig.Ties (g : Sig) (o : Owner) : Prop := ∃ l, (o, l) ∈ g.args ∧ Outlives g.bounds l g.result

/-- The signatures of the code.
* `get`, `src/raw/mod.rs:657-660`: `get<'r, 's, 'p>(&'s self, .., pin: &'p Guard) -> Option<&'r C::Payload> where 's: 'r, 'p: 's`
* `insert`, `:392-399`, `get_or_insert_with`, `:687-695`, `remove`, `:708-711`: the same, but `where 's: 'r, 'p: 'r`
* `Iter::new`, `src/raw/iterator.rs:66`: `new<'m: 'a>(map: &'m Raw<C, S>) -> Iter<'a, C, S>`
* `Iter::next`, `src/raw/iterator.rs:83`: `next(&'x mut self) -> Option<&'x C::Payload>`, where `Self` is `Iter<'a, C, S>`: a borrow of something lasts no longer than what it contains, `'a: 'x`. What `'a` is a borrow of is up to `Iter::new`. -/
def codeSigs : Fn → Sig
  | .get => ⟨[(.map, .s), (.guard, .p)], [(.s, .r), (.p, .s)], .r⟩
  | .insert => ⟨[(.map, .s), (.guard, .p)], [(.s, .r), (.p, .r)], .r⟩
  | .getOrInsertWith => ⟨[(.map, .s), (.guard, .p)], [(.s, .r), (.p, .r)], .r⟩
  | .remove => ⟨[(.map, .s), (.guard, .p)], [(.s, .r), (.p, .r)], .r⟩
  | .iterNew => ⟨[(.map, .m)], [(.m, .a)], .a⟩
  | .iterNext => ⟨[(.iter, .x), (.map, .a)], [(.a, .x)], .x⟩

/-- What the results of a function keep from being dropped, if these are the signatures. An iterator borrows from the map only if `Iter::new` says so. -/
def Keeps (sigs : Fn → Sig) : Fn → Owner → Prop
  | .iterNext, .map => (sigs .iterNext).Ties .map ∧ (sigs .iterNew).Ties .map
  | f, o => (sigs f).Ties o

/-- A reference to an element: the session it is from, the function it was returned by, when. -/
structure Ref (P : Type) where
  fn : Fn
  t : Nat
  born : Nat
  elem : P

/-- The function that is called by a request; an iteration is many calls of `Iter::next`. -/
def Req.fn : Req K P → Option Fn
  | .op (.get _) => some .get
  | .op (.insert _) => some .insert
  | .op (.getOrInsert _ _) => some .getOrInsertWith
  | .op (.remove _) => some .remove
  | .isEmpty => none
  | .iter => some .iterNext

/-- Elements a result has references to; cf. `Res.elements` (the list that an iteration ends with in the model stands for references handed out before). -/
def Res.refers : Res P → List P
  | .op (.opt r) => r.toList
  | .op (.eon (.existing p)) => [p]
  | .op (.eon (.new p)) => [p]
  | .bool _ => []
  | .list _ => []

/-- Elements an iteration in progress has handed out. -/
def PC.handed : PC K P → List P
  | .iterNext _ out => out
  | _ => []

/-- The reference is one that was handed out: returned by a call, in step `born`, or by `Iter::next`, not later than at instant `born`. -/
def WExec.HandedOut (E : WExec K P) (r : Ref P) : Prop :=
  r.born < E.len ∧ ∃ c, ((E.st r.born).thr r.t).run = some c ∧ c.req.fn = some r.fn ∧
    match r.fn with
    | .iterNext => r.elem ∈ c.pc.handed
    | _ => ∃ weak τ res, E.lab r.born = .tick r.t weak τ ∧ E.ev r.born = some (.res c.inv res) ∧ r.elem ∈ res.refers

/-- The life of a map and what users do with references. `dropped`: the step in which the map is dropped, if it is (`src/raw/mod.rs:850-885`; nothing else happens in that step). `uses n r`: at
instant `n` somebody looks at the element `r` refers to. `fix`: cf. `dropData`. -/
structure Life (K P : Type) where
  E : WExec K P
  fix : Bool
  dropped : Option Nat
  uses : Nat → Ref P → Prop
  dropStep : ∀ d, dropped = some d → E.lab d = .idle

namespace Life
variable (L : Life K P)

/-- The map was not dropped before instant `n`. -/
def MapAlive (n : Nat) : Prop := ∀ d, L.dropped = some d → n ≤ d

/-- The memory of node `a` was given back before instant `n`: by the collector, or when the map was dropped. -/
def Gone (n a : Nat) : Prop :=
  (L.E.st n).m.freed a = true ∨ ∃ d m l, L.dropped = some d ∧ d < n ∧ (L.E.st d).m.drop L.fix = some (m, l) ∧ a ∈ released l

/-- The compiler accepts the program, the signatures being `sigs`.
* references are used while all lasts that their signature ties them to: the map, the guard or the iterator they are from;
* calls, being made on a borrowed map, are made and executed before the map is dropped;
* iterators are used while the map lasts if their signature says so. -/
structure Accepted (sigs : Fn → Sig) : Prop where
  uses : ∀ n r, L.uses n r → r.born < n ∧ n ≤ L.E.len ∧ L.E.HandedOut r ∧ (Keeps sigs r.fn .map → L.MapAlive n) ∧
    (Keeps sigs r.fn r.fn.holder → L.E.KeepsGuard r.t r.born n)
  calls : ∀ n t r, n < L.E.len → L.E.lab n = .call t r → L.MapAlive n
  steps : ∀ n t weak τ c, n < L.E.len → L.E.lab n = .tick t weak τ → ((L.E.st n).thr t).run = some c →
    ((∀ lv out, c.pc ≠ .iterNext lv out) ∨ Keeps sigs .iterNew .map) → L.MapAlive n

end Life

/-- The node a call at this point reads: the one with the cell it accesses, or the one its iterator is at. -/
def PC.reads : PC K P → Option Nat
  | .iterNext [] _ => none
  | .iterNext ((w, _) :: _) _ => w.ptr
  | pc => match pc.access .code with
    | some (.slot a _, _) => some a
    | _ => none

/-- Does a call at this point access the cell in the map itself? -/
def PC.readsRoot (pc : PC K P) : Prop := ∃ o, pc.access .code = some (.root, o)

/-- Nothing is accessed after its memory was given back: neither by users, through references (there is a node the element was in when the reference was handed out and that is still there, with its content), nor by calls. -/
structure Life.Safe (L : Life K P) : Prop where
  uses : ∀ n r, L.uses n r → ∃ a items, r.elem ∈ items ∧ (L.E.st (r.born + 1)).m.deref a = some (.data items) ∧
    (L.E.st n).m.mem a = some (.data items) ∧ ¬ L.Gone n a
  steps : ∀ n t weak τ c, n < L.E.len → L.E.lab n = .tick t weak τ → ((L.E.st n).thr t).run = some c →
    (∀ a, c.pc.reads = some a → ¬ L.Gone n a) ∧ (c.pc.readsRoot → L.MapAlive n)

/-- What signatures have to say, at least. -/
structure Enough (sigs : Fn → Sig) : Prop where
  get : Keeps sigs .get .map ∧ Keeps sigs .get .guard
  getOrInsertWith : Keeps sigs .getOrInsertWith .map ∧ Keeps sigs .getOrInsertWith .guard
  insert : Keeps sigs .insert .guard
  remove : Keeps sigs .remove .guard
  iterNew : Keeps sigs .iterNew .map
  iterNext : Keeps sigs .iterNext .map ∧ Keeps sigs .iterNext .iter

end Contrie
