/-
Which types may be sent to, or shared with, other threads: the rules by which the compiler derives the marker traits `Send` and `Sync`, and the type definitions of the crate.

Both are auto traits: a struct, enum, tuple or array has the trait if all the types it is made of have it, where cycles are allowed (the traits are coinductive). Exceptions are the types with
explicit (positive or negative) implementations; the crate has none, the ones of the libraries it uses are stated here.
-/
namespace Contrie

/-- `Send`: values may be moved to (and dropped in) another thread. `Sync`: references may be given to another thread. -/
inductive Tr where
  | send
  | sync
deriving DecidableEq, Repr

/-- The types that occur in type definitions of the crate. Lifetimes are left out. -/
inductive Ty where
  /-- a type parameter -/
  | param (i : Nat)
  /-- `usize` etc. -/
  | plain
  /-- `crossbeam_epoch::Guard` (it contains a raw pointer) -/
  | guard
  /-- `crossbeam_epoch::Atomic<T>` -/
  | atomic (t : Ty)
  /-- `crossbeam_epoch::Shared<'g, T>` (it contains a `PhantomData<*const T>`) -/
  | shared (t : Ty)
  /-- `std::sync::Arc<T>` -/
  | arc (t : Ty)
  /-- `PhantomData<T>` -/
  | phantom (t : Ty)
  /-- `&T` -/
  | ref (t : Ty)
  /-- `[T; N]`, and `ArrayVec<[T; N]>` -/
  | array (t : Ty)
  /-- `(A, B)` -/
  | pair (a b : Ty)
  /-- `Inner`, `src/raw/mod.rs:256-257` -/
  | inner
  /-- `Raw<C, S>`, `src/raw/mod.rs:350-354`; of `C` only the payload type counts -/
  | raw (payload s : Ty)
  /-- `raw::iterator::Level`, `src/raw/iterator.rs:17-20` -/
  | level
  /-- `raw::iterator::Iter<'a, C, S>`, `src/raw/iterator.rs:52-59` -/
  | rawIter (payload s : Ty)
  /-- `Element<K, V>`, `src/map.rs:24-27` -/
  | element (k v : Ty)
  /-- `MapPayload<K, V>`, `src/map.rs:48` -/
  | mapPayload (k v : Ty)
  /-- `ConMap<K, V, S>`, `src/map.rs:151-158`, with `MapConfig`, `:64-71` -/
  | conMap (k v s : Ty)
  /-- `map::Iter`, `src/map.rs:76-83` -/
  | mapIter (k v s : Ty)
  /-- `CloneMapPayload<K, V>`, `src/clonemap.rs:18` -/
  | cloneMapPayload (k v : Ty)
  /-- `CloneConMap<K, V, S>`, `src/clonemap.rs:110-116`, with `CloneMapConfig`, `:27-36` -/
  | cloneConMap (k v s : Ty)
  /-- `clonemap::Iter`, `src/clonemap.rs:41-47` -/
  | cloneMapIter (k v s : Ty)
  /-- `ConSet<T, S>`, `src/set.rs:63-68`, with `Trivial`, `src/raw/config.rs:27-35` -/
  | conSet (t s : Ty)
  /-- `set::Iter`, `src/set.rs:177-182` -/
  | setIter (t s : Ty)
  /-- `ExistingOrNew<T>`, `src/existing_or_new.rs:11-16` -/
  | existingOrNew (t : Ty)
deriving DecidableEq, Repr

/-- The fields of the structs (and of the variants of the enum) of the crate. -/
def Ty.fields : Ty → Option (List Ty)
  /- `struct Inner([Atomic<Inner>; LEVEL_CELLS]);` -/
  | .inner => some [.array (.atomic .inner)]
  /- `hash_builder: S, root: Atomic<Inner>, _data: PhantomData<C::Payload>` -/
  | .raw p s => some [s, .atomic .inner, .phantom p]
  /- `ptr: Shared<'a, Inner>, idx: usize` -/
  | .level => some [.shared .inner, .plain]
  /- `pin: Guard, levels: ArrayVec<[Level<'a>; MAX_LEVELS + 1]>, _map: PhantomData<&'a Raw<C, S>>` -/
  | .rawIter p s => some [.guard, .array .level, .phantom (.ref (.raw p s))]
  /- `key: K, value: V` -/
  | .element k v => some [k, v]
  /- `struct MapPayload<K, V: ?Sized>(Arc<Element<K, V>>);` -/
  | .mapPayload k v => some [.arc (.element k v)]
  /- `raw: Raw<MapConfig<K, V>, S>`, where `Payload = MapPayload<K, V>` -/
  | .conMap k v s => some [.raw (.mapPayload k v) s]
  | .mapIter k v s => some [.rawIter (.mapPayload k v) s]
  /- `struct CloneMapPayload<K, V>((K, V));` -/
  | .cloneMapPayload k v => some [.pair k v]
  /- `raw: Raw<CloneMapConfig<K, V>, S>`, where `Payload = CloneMapPayload<K, V>` -/
  | .cloneConMap k v s => some [.raw (.cloneMapPayload k v) s]
  | .cloneMapIter k v s => some [.rawIter (.cloneMapPayload k v) s]
  /- `raw: Raw<TrivialConfig<T>, S>`, where `Payload = T` -/
  | .conSet t s => some [.raw t s]
  | .setIter t s => some [.rawIter t s]
  /- `Existing(T), New(T)` -/
  | .existingOrNew t => some [t, t]
  | _ => none

/-- What has to hold for a type to have a trait; `none`: it never has it. (Type parameters are dealt with in `Has`.) -/
def Ty.needs (tr : Tr) : Ty → Option (List (Tr × Ty))
  | .param _ => none
  | .plain => some []
  | .guard => none
  /- crossbeam: `unsafe impl<T: Send + Sync> Send for Atomic<T> {}`, `unsafe impl<T: Send + Sync> Sync for Atomic<T> {}` -/
  | .atomic t => some [(.send, t), (.sync, t)]
  | .shared _ => none
  /- std: `unsafe impl<T: ?Sized + Sync + Send> Send for Arc<T> {}`, the same for `Sync` -/
  | .arc t => some [(.send, t), (.sync, t)]
  | .phantom t => some [(tr, t)]
  /- std: `unsafe impl<T: ?Sized + Sync> Send for &T {}`; `Sync` is derived -/
  | .ref t => some [(.sync, t)]
  | .array t => some [(tr, t)]
  | .pair a b => some [(tr, a), (tr, b)]
  | t => t.fields.map (fun l => l.map (fun x => (tr, x)))

/-- Type `t` has trait `tr`, if the type parameters have the traits `env` says. (The greatest relation closed under the rules.) -/
def Has (env : Nat → Tr → Prop) (tr : Tr) (t : Ty) : Prop :=
  ∃ R : Tr → Ty → Prop, R tr t ∧ ∀ tr t, R tr t → (∃ i, t = .param i ∧ env i tr) ∨ ∃ l, t.needs tr = some l ∧ ∀ x ∈ l, R x.1 x.2

end Contrie
