import Verif.Model.Exec
/-
Programs that use the raw trie: the wrappers `ConMap` (`src/map.rs`), `CloneConMap` (`src/clonemap.rs`) and `ConSet` (`src/set.rs`).
Each method of a wrapper is a short program that makes calls to one or two raw tries. The guard a wrapper takes for every call
(`crossbeam_epoch::pin()`) is taken by `pin`/`unpin` steps between the calls of the program.
-/
namespace Contrie

/-- A program: return a value, or make the request `r` to map number `m` and go on depending on the result.
`wrong`: the result has the wrong type (the type checker of Rust excludes it; there is no rule to execute it). -/
inductive Prog (K P α : Type) where
  | ret (a : α)
  | call (m : Nat) (r : Req K P) (k : Res P → Prog K P α)
  | wrong

variable {K P α β : Type}

/-- One program after the other. -/
def Prog.bind : Prog K P α → (α → Prog K P β) → Prog K P β
  | .ret a, f => f a
  | .call m r k, f => .call m r (fun x => (k x).bind f)
  | .wrong, _ => .wrong

/-- `for x in l { f(x); }` -/
def Prog.forEach (f : α → Prog K P β) : List α → Prog K P Unit
  | [] => .ret ()
  | a :: l => (f a).bind (fun _ => forEach f l)

/-- All of the programs, one after the other, collecting the results. -/
def Prog.all : List (Prog K P α) → Prog K P (List α)
  | [] => .ret []
  | p :: ps => p.bind (fun a => (all ps).bind (fun as => .ret (a :: as)))

/-- A call whose result is an `Option<&Payload>`. -/
def Prog.opt (m : Nat) (o : Op K P) (f : Option P → α) : Prog K P α :=
  .call m (.op o) (fun x => match x with | .op (.opt r) => .ret (f r) | _ => .wrong)

/-- A call whose result is an `ExistingOrNew<&Payload>`. -/
def Prog.eon (m : Nat) (o : Op K P) (f : ExistingOrNew P → α) : Prog K P α :=
  .call m (.op o) (fun x => match x with | .op (.eon r) => .ret (f r) | _ => .wrong)

/-- `Raw::is_empty`, `src/raw/mod.rs:833-842` -/
def Prog.isEmpty (m : Nat) (f : Bool → α) : Prog K P α :=
  .call m .isEmpty (fun x => match x with | .bool b => .ret (f b) | _ => .wrong)

/-- A whole pass of the iterator, `src/raw/iterator.rs:66-109`. -/
def Prog.iter (m : Nat) (f : List P → α) : Prog K P α :=
  .call m .iter (fun x => match x with | .list l => .ret (f l) | _ => .wrong)

/-! ### ConMap -/

/-- `Arc<Element<K, V>>` (`src/map.rs:24-27`): a handle to an element on the heap. `addr` is the identity of the element (what `Arc::ptr_eq`
compares). `O` is the type of key objects; two objects can be equal as keys without being the same object, see `keyOf` below. -/
structure Arc (O V : Type) where
  addr : Nat
  key : O
  val : V
deriving DecidableEq, Repr

namespace ConMap
variable {O V : Type}

/-- `<MapPayload as Borrow<K>>::borrow`, `src/map.rs:56-60`, up to equality of keys: `eqv` maps a key object to its class with respect to the
`Eq` of the key type (so `x == y` iff `eqv x = eqv y`); `K` are the classes. -/
def keyOf (eqv : O → K) (e : Arc O V) : K := eqv e.key

/-- `ConMap::insert_element`, `src/map.rs:246-251`; `Arc::clone` of the old element is the same handle -/
def insertElement (m : Nat) (e : Arc O V) : Prog K (Arc O V) (Option (Arc O V)) :=
  .opt m (.insert e) (fun r => r)

/-- `ConMap::insert`, `src/map.rs:181-183`; `addr`: the address chosen by `Arc::new` -/
def insert (m : Nat) (addr : Nat) (key : O) (value : V) : Prog K (Arc O V) (Option (Arc O V)) :=
  insertElement m ⟨addr, key, value⟩

/-- `ConMap::get_or_insert_with_element`, `src/map.rs:260-273`. Simplification: the closure gets the class of the key (a `&Q` equal to the key). -/
def getOrInsertWithElement (m : Nat) (key : K) (create : K → Arc O V) : Prog K (Arc O V) (ExistingOrNew (Arc O V)) :=
  .eon m (.getOrInsert key create) (fun r => r.map id)

/-- `ConMap::get_or_insert_with`, `src/map.rs:204-212`. (In the commit at hand `key` is passed where a reference is expected; the
intention - the key object given is used both to look up and for the new element - is clear.) -/
def getOrInsertWith (eqv : O → K) (m : Nat) (addr : Nat) (key : O) (create : Unit → V) : Prog K (Arc O V) (ExistingOrNew (Arc O V)) :=
  getOrInsertWithElement m (eqv key) (fun _ => ⟨addr, key, create ()⟩)

/-- `ConMap::get_or_insert`, `src/map.rs:189-191` -/
def getOrInsert (eqv : O → K) (m : Nat) (addr : Nat) (key : O) (value : V) : Prog K (Arc O V) (ExistingOrNew (Arc O V)) :=
  getOrInsertWith eqv m addr key (fun _ => value)

/-- `ConMap::get_or_insert_default`, `src/map.rs:218-223` -/
def getOrInsertDefault [Inhabited V] (eqv : O → K) (m : Nat) (addr : Nat) (key : O) : Prog K (Arc O V) (ExistingOrNew (Arc O V)) :=
  getOrInsertWith eqv m addr key (fun _ => default)

/-- `ConMap::get`, `src/map.rs:276-283` -/
def get (m : Nat) (key : K) : Prog K (Arc O V) (Option (Arc O V)) := .opt m (.get key) (fun r => r)

/-- `ConMap::remove`, `src/map.rs:286-293` -/
def remove (m : Nat) (key : K) : Prog K (Arc O V) (Option (Arc O V)) := .opt m (.remove key) (fun r => r)

/-- `ConMap::is_empty`, `src/map.rs:305-307` -/
def isEmpty (m : Nat) : Prog K (Arc O V) Bool := .isEmpty m (fun b => b)

/-- `ConMap::iter`, `src/map.rs:310-314`, and all the calls of `next`, `:91-93` -/
def iter (m : Nat) : Prog K (Arc O V) (List (Arc O V)) := .iter m (fun l => l)

/-- `Extend<Arc<Element<K, V>>>`, `src/map.rs:378-385`, `:407-413` -/
def extendElements (m : Nat) (l : List (Arc O V)) : Prog K (Arc O V) Unit := .forEach (insertElement m) l

/-- `Extend<(K, V)>`, `src/map.rs:393-398`, `:421-427`; the items come with the addresses `Arc::new` chooses -/
def extend (m : Nat) (l : List (Nat × O × V)) : Prog K (Arc O V) Unit :=
  extendElements m (l.map (fun x => ⟨x.1, x.2.1, x.2.2⟩))

/-- `FromIterator<Arc<Element<K, V>>>`, `src/map.rs:435-442`; `m` is the new map -/
def fromElements (m : Nat) (l : List (Arc O V)) : Prog K (Arc O V) Unit := extendElements m l

/-- `FromIterator<(K, V)>`, `src/map.rs:449-456`; `m` is the new map -/
def fromIter (m : Nat) (l : List (Nat × O × V)) : Prog K (Arc O V) Unit := extend m l

/-- `Clone::clone`, `src/map.rs:352-357`: `new.extend(self)`. Simplification: the pass over the old map comes before the insertions into the
new one instead of being interleaved with them (the two maps share no memory); interleaved: `World.RunsLoop` in `Verif/Model/Clone.lean`. -/
def clone (src dst : Nat) : Prog K (Arc O V) Unit := (iter src).bind (fun l => extendElements dst l)

end ConMap

/-! ### CloneConMap -/

namespace CloneConMap
variable {O V : Type}

/-- `<CloneMapPayload as Borrow<K>>::borrow`, `src/clonemap.rs:20-25`, up to equality of keys -/
def keyOf (eqv : O → K) (e : O × V) : K := eqv e.1

/-- `CloneConMap::insert`, `src/clonemap.rs:138-143` -/
def insert (m : Nat) (key : O) (value : V) : Prog K (O × V) (Option (O × V)) :=
  .opt m (.insert (key, value)) (fun r => r)

/-- `CloneConMap::get_or_insert_with`, `src/clonemap.rs:166-182` -/
def getOrInsertWith (eqv : O → K) (m : Nat) (key : O) (create : Unit → V) : Prog K (O × V) (ExistingOrNew (O × V)) :=
  .eon m (.getOrInsert (eqv key) (fun _ => (key, create ()))) (fun r => r.map id)

/-- `CloneConMap::get_or_insert`, `src/clonemap.rs:149-151` -/
def getOrInsert (eqv : O → K) (m : Nat) (key : O) (value : V) : Prog K (O × V) (ExistingOrNew (O × V)) :=
  getOrInsertWith eqv m key (fun _ => value)

/-- `CloneConMap::get_or_insert_default`, `src/clonemap.rs:189-194` -/
def getOrInsertDefault [Inhabited V] (eqv : O → K) (m : Nat) (key : O) : Prog K (O × V) (ExistingOrNew (O × V)) :=
  getOrInsertWith eqv m key (fun _ => default)

/-- `CloneConMap::get`, `src/clonemap.rs:211-218` -/
def get (m : Nat) (key : K) : Prog K (O × V) (Option (O × V)) := .opt m (.get key) (fun r => r)

/-- `CloneConMap::remove`, `src/clonemap.rs:221-228` -/
def remove (m : Nat) (key : K) : Prog K (O × V) (Option (O × V)) := .opt m (.remove key) (fun r => r)

/-- `CloneConMap::is_empty`, `src/clonemap.rs:241-243` -/
def isEmpty (m : Nat) : Prog K (O × V) Bool := .isEmpty m (fun b => b)

/-- `CloneConMap::iter`, `src/clonemap.rs:246-250`, and all the calls of `next`, `:55-57` -/
def iter (m : Nat) : Prog K (O × V) (List (O × V)) := .iter m (fun l => l)

/-- `Extend<(K, V)>`, `src/clonemap.rs:305-312`, `:321-327` -/
def extend (m : Nat) (l : List (O × V)) : Prog K (O × V) Unit := .forEach (fun x => insert m x.1 x.2) l

/-- `FromIterator<(K, V)>`, `src/clonemap.rs:335-342`; `m` is the new map -/
def fromIter (m : Nat) (l : List (O × V)) : Prog K (O × V) Unit := extend m l

/-- `Clone::clone`, `src/clonemap.rs:279-284`; the same simplification as in `ConMap.clone` -/
def clone (src dst : Nat) : Prog K (O × V) Unit := (iter src).bind (fun l => extend dst l)

end CloneConMap

/-! ### ConSet -/

namespace ConSet
variable {T : Type}

/-- `ConSet::insert`, `src/set.rs:95-98`. The key of a value is its class with respect to the `Eq` of the value type
(`src/raw/config.rs:26-33`: payload and key are the same thing). -/
def insert (m : Nat) (value : T) : Prog K T (Option T) := .opt m (.insert value) (fun r => r)

/-- `ConSet::get`, `src/set.rs:103-110` -/
def get (m : Nat) (key : K) : Prog K T (Option T) := .opt m (.get key) (fun r => r)

/-- `ConSet::contains`, `src/set.rs:116-123` -/
def contains (m : Nat) (key : K) : Prog K T Bool := .opt m (.get key) (fun r => r.isSome)

/-- `ConSet::remove`, `src/set.rs:126-133` -/
def remove (m : Nat) (key : K) : Prog K T (Option T) := .opt m (.remove key) (fun r => r)

/-- `ConSet::is_empty`, `src/set.rs:139-141` -/
def isEmpty (m : Nat) : Prog K T Bool := .isEmpty m (fun b => b)

/-- `ConSet::iter`, `src/set.rs:167-171`, and all the calls of `next`, `:190-192` -/
def iter (m : Nat) : Prog K T (List T) := .iter m (fun l => l)

/-- `Extend<T>`, `src/set.rs:212-219`, `:227-233` -/
def extend (m : Nat) (l : List T) : Prog K T Unit := .forEach (insert m) l

/-- `FromIterator<T>`, `src/set.rs:240-247`; `m` is the new set -/
def fromIter (m : Nat) (l : List T) : Prog K T Unit := extend m l

end ConSet

/-! ### Executing programs -/

variable [DecidableEq K]

/-- A world with several maps (numbered) that have the same types of keys and payloads, but possibly different hash functions: an execution for each of
them, interleaved in all possible ways (in each instant at most one of them makes a step). The maps share no nodes (`Raw` owns its nodes). -/
structure World (key : P → K) where
  hash : Nat → K → BitVec 64
  ex : (m : Nat) → Exec ⟨key, hash m⟩
  sole : ∀ i m m', (ex m).lab i ≠ .idle → (ex m').lab i ≠ .idle → m = m'

/-- Between the instants `i` and `j`, session `t` starts no call. -/
def World.Quiet {key : P → K} (W : World key) (t i j : Nat) : Prop :=
  ∀ n, i ≤ n → n < j → ∀ m r, (W.ex m).lab n ≠ .call t r

/-- Between the instants `i` and `j`, nobody but session `t` makes a step of an update of map `m` (lookups, iterations and `is_empty` of others may go on, other
maps may be updated, and there may be updates of map `m` that others have been stopped in the middle of), and session `t` itself is not in the middle of a call
on this map at the beginning. -/
structure World.Undisturbed {key : P → K} (W : World key) (m t i j : Nat) : Prop where
  idle : (((W.ex m).st i).thr t).run = none
  alone : ∀ n, i ≤ n → n < j → ∀ t' w c, (W.ex m).lab n = .tick t' w → (((W.ex m).st n).thr t').run = some c → c.req.isUpdate = true → t' = t

/-- Between the instants `i` and `j`, nobody but session `t` is in the middle of an update of map `m`. -/
def World.NoneElse {key : P → K} (W : World key) (m t i j : Nat) : Prop :=
  ∀ n, i ≤ n → n ≤ j → ∀ t' c, (((W.ex m).st n).thr t').run = some c → c.req.isUpdate = true → t' = t

/-- Between the instants `i` and `j`, session `t` executes the program and obtains the value `a`; the calls it makes in this time are those of the program.
Other sessions may do anything meanwhile. -/
inductive World.Runs {key : P → K} (W : World key) (t : Nat) : Prog K P α → Nat → Nat → α → Prop
  | ret {i j : Nat} {a : α} (h : i ≤ j) (hq : W.Quiet t i j) : W.Runs t (.ret a) i j a
  | call {m i id j j' : Nat} {r : Req K P} {x : Res P} {k : Res P → Prog K P α} {a : α}
      (h1 : i ≤ id) (hq1 : W.Quiet t i id) (hc : (W.ex m).lab id = .call t r)
      (h2 : id < j) (hq2 : W.Quiet t (id + 1) (j + 1)) (hr : (W.ex m).ev j = some (.res id x))
      (hk : W.Runs t (k x) (j + 1) j' a) : W.Runs t (.call m r k) i j' a

end Contrie
