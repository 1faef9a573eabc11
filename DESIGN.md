# Formal model of vorner/contrie in Lean 4 - design

## 1. What the repository is

`contrie` is a lock-free hash trie (`src/raw/mod.rs`, `src/raw/iterator.rs`) with three thin wrappers
(`ConMap`, `CloneConMap`, `ConSet`). Everything interesting is in `raw`:
`get`, `traverse` (= `insert` and `get_or_insert_with`), `remove`, `prune`, `is_empty`, `Drop`, and the
iterator.

Remark: the pinned commit is a work-in-progress refactoring that does not type-check as it stands
(`TraverseState::<C, fn(..)->..>::Created` has a missing type argument; `ConMap::get_or_insert_with` passes a `K`
where `&Q` is wanted). We model the evident meaning: the closure gets the key and builds the payload.

## 2. Models (`lean/Verif/Model`)

| file | models | how |
|------|--------|-----|
| `Basic` | constants, flags, words, nodes, `ExistingOrNew` | data types |
| `Machine` | `get`, `insert`, `get_or_insert_with`, `traverse`, `remove`, `prune`, `is_empty`, `Iter` | executable small-step machine, unboundedly many sessions; one step = one atomic access (load, CAS, weak CAS incl. spurious failure, fetch_or) plus the local computation up to the next access. Further steps: pin, unpin, call, abort of a call at any point (unwinding), destruction of a retired node by the collector. Every assertion, `expect`, `unreachable!`, fixed capacity, over-shift, access to a wrong-kind or destroyed node is an explicit failure state |
| `Exec` | executions | infinite sequences of labelled steps from the empty trie (idle steps make finite ones a special case) |
| `Debug` | `assert_pruned`, shapes printed by `PrintShape` | inductive predicates |
| `Tagged` | tag bits in a machine word | `BitVec 64` |
| `Client` | every method of `ConMap`, `CloneConMap`, `ConSet` (incl. `extend`, `from_iter`, `clone`, `par_extend`) | programs over the raw machine, run by the sessions of the machine |
| `Drop` | `impl Drop for Raw` | recursive function over the heap; flag `fix` = the repaired `drop_data` |
| `Hostile` | the machine with user code that obeys no contract | the steps that compare or hash keys take the answers from an arbitrary oracle, fresh at every step; the assertion that can then fail unwinds; everything else is shared with `Machine` |
| `Weak` | the same `tick` functions under weak memory | view machine: each location keeps every message ever written, a load may return any of them; knowledge of initialised nodes travels with release/acquire/consume |
| `Coherent` | the same `tick` functions under weak memory, with coherence and reclamation | each session has a view (for each location the instant before which it cannot look any more); a load may see its location as it was at any instant since; stores are read-modify-writes and act on the present; `sync` steps join views; the collector obeys the happens-before form of crossbeam-epoch's contract |
| `Wild` | `Coherent` and `Hostile` together | the memory of the former, the user code of the latter |
| `Endless` | endless executions of `Wild` and of `Coherent` | as there, without a last step |
| `Ledger` | ownership of elements: `TraverseState`, the data nodes made by `traverse` and `remove`, `drop_data`, unwinding, the collector | for every step of `Wild` the list of elements handed over, cloned, destructed, forgotten in it |
| `Late` | `TraverseState::payload` as a program of its own: `get_or_insert_with` while its closure runs | the closure's step of `Machine` split in two (load; return of the closure); a closure's own calls are calls of other sessions, so closures may nest |
| `Reuse` | allocator: `Owned::new` may return the address of a destroyed node | before every step the allocator offers any address that is not in use; the same `step` |
| `ReuseWeak` | the same under weak memory | `Reuse` and `Coherent` together |
| `Handles` | `Arc` in `MapPayload` and in the results of `ConMap`; several maps that share elements | reference count = sum of what users and maps do with handles; each map is an execution of `Wild` with its `Ledger` |
| `ClientWeak` | programs using several maps, on weak memory | as `Client`, each map an execution of `Coherent`, synchronisation common to all of them |
| `Fine` | the same functions as `Machine`, `Owned::new`/`into_shared`/`defer_destroy` where they stand in the code | an access and what the code does after it (reading the data node found, handing the unlinked node over, dropping an unpublished node, building the next node, returning) are two steps, anything can happen in between, unwinding too; allocator as in `Reuse` |
| `FineWeak` | the same under weak memory | `Fine` and `Coherent` together; simplification: the node to be published is created with the access, and memory is not reused |
| `Lifetimes` | the lifetimes in the signatures of `Raw` and `Iter`, the drop of a map, uses of references | signatures as data (argument lifetimes, outlives bounds, result lifetime); a program is an execution of `Wild` with the instants at which references are used and the map is dropped; the borrow checker as a condition on programs |
| `Cloning`, `CloningWeak` | the user's `Clone` of elements, at every place where the map clones | the steps of `Hostile`, lawful comparisons as in `Borrow`, any results of `Clone` with the same key |
| `Borrow`, `BorrowWeak` | own keys and borrowed forms of them, the user's `Eq`, `Hash`, `Borrow` | the steps of `Hostile`, answered by user code for the type of the call's argument; `Spec/UserKeys.lean` is the specification |
| `Print` | `PrintShape` (`src/raw/debug.rs:65-116`) in a trie in use | observer of an execution of `Wild` or `Coherent`; one step = one load or one write to the formatter |
| `Traits` | the type definitions of the crate (structs, enums), which of them are `Send`/`Sync` | auto trait rules of the compiler as a greatest fixpoint; the explicit implementations of `Atomic`, `Arc`, `Guard`, `Shared`, `&T` are assumed as documented; lifetimes left out |
| `Collectors` | the `&Guard` arguments of the raw interface | `Machine`, with a collector for each guard; a collector waits for its own guards only |
| `Clone` | `clone` of the wrappers as the loop of `extend` over the iterator of the source | two machines run in step |

Specifications (`lean/Verif/Spec`) do not mention tries or threads: plain map `K -> Option P` with its
operations (`Map`), Herlihy-Wing linearizability (`Linearizable`), sequential use (`Sequential`), wrapper calls
(`Wrappers`), canonical shape (`Shape`). Proof machinery is in `lean/Verif/Proof`, the property theorems in
`lean/Verif/Props`, each with concrete runs that satisfy its hypotheses.

## 3. Per property

| id | model | proof | result |
|----|-------|-------|--------|
| C01 | Machine | invariant: tree shape, frozen unlinked nodes, every unlinked node describes the map at the instant of its unlinking; linearization points: the successful CAS of an update, a hindsight point of a read; generic lemma to Herlihy-Wing | proved |
| C02 | Machine | same invariant, results of `get` | proved |
| C03, C04, C21 | histories | reasoning about legal sequential histories + C01 | proved |
| C05 | Machine | no step reaches a failure state (induction over executions) | proved |
| C06 | Machine | nodes held by a session were retired no earlier than its pin; `badAccess` unreachable (C05) and returned references live | proved |
| C07 | Machine | published = reachable xor retired, for every node at every instant | proved |
| C08 | Machine, Coherent | each step of `get` goes one level down; depth <= 16 | proved |
| C09, C10 | Machine, Coherent, Endless | well-founded measure of the work left; solo runs terminate | proved |
| C11-C14 | Machine | iterator invariant: position in depth-first order, hindsight for frozen nodes | proved |
| C15 | Machine | one load | proved |
| C16, C18, C33 | Machine, Debug | additional invariant for executions in which removals do not overlap with each other (insertions and readers may overlap with everything) and no update is abandoned | proved, more general than "sequential use" |
| C17 | Machine | FALSE: kernel-checked schedules; positive part for non-overlapping removals; `C17_pruned_since_partial`: the same from any pruned state on (the invariant can be entered wherever `assert_pruned` holds); `C17_zone_partial`: the same for any part of the trie by itself (hashes that begin with `g`), whatever removals elsewhere do; `C17_depth_partial`: removals that overlap but differ within the first `d` nibbles leave nothing behind deeper than `d` (invariant relative to `g`: below `g` the exceptions are explained by the only removal there; the node at `g` may be lost to a copy of its parent); `C17_zone_sharp`: the bound is exact | partial |
| C19, C20, C36 | Machine | solo termination + C01 specialised to non-overlapping calls | proved |
| C22 | Machine | state of `TraverseState`, counter of closure runs | proved |
| C23 | Machine | FALSE for closures returning an element of another key; positive theorem with the contract | partial |
| C24 | Machine | abort is a step of the machine, so all theorems quantify over it; this theorem says it explicitly | proved |
| C25-C29, C37 | Client | the programs of the wrappers run by sessions of the machine; induction over the input, C01 | proved |
| C30 | Basic | case analysis | proved |
| C31 | Drop | FALSE for the layout used and the destructors; positive part: every node released exactly once; the repaired function has the full property | partial |
| C32 | Tagged | bit-level | proved |
| C34 | Machine, Reuse | at every CAS the expected node has not been destroyed, whence comparing addresses is comparing nodes (`C34_no_aba`); the machine with an allocator that gives any free address simulates, under the map from nodes to addresses, the machine in which addresses are never reused (`C34_refines`), and both have the same histories | proved |
| C35 | Weak | knowledge invariant over executions | proved |
| C38 | Hostile, Drop | the part of the invariant of C05-C07 that does not mention keys, re-proved for arbitrary answers; `Machine` is a special case (`C38_honest_is_special_case`) | proved |
| C39 | Coherent | invariant with hindsight: whatever a session can see along a stale path was the content of the map for the key in question at an instant not before its view; updates linearize at their CAS, reads at the instant seen (`Spec/Causal`) | proved |
| C41 | Coherent | C39 and locality of linearizability (`Proof/Local`: a call that returned first can be moved to the front of its key's calls, across the other keys) | proved |
| C40 | Coherent | a node that can still be seen is not destroyed: retirement happens after unlinking in the retiring session, whence whoever it happens before cannot see the old pointer | proved |
| C42 | Machine, Hostile, Coherent | the pointer found leads to a node retired no earlier than the pin (C06, C38, C40); data nodes never change | proved |
| C43 | Wild, Drop | as C40, but data nodes may be anywhere: a node seen alive is followed on its way through the trie (a split moves it one level down, a prune one level up) until it is retired; `Coherent` is a special case | proved |
| C44 | Hostile, Endless | the measure of C09 without keys; under weak memory: what no load can increase settles first, then the memory, then (finitely many sessions, cells and instants) the views, and from then on every session works on an image of the memory that does not change | proved |
| C45 | Wild, Ledger, Drop | books of what is handed over, cloned, destructed, forgotten: every step balances with what calls own and what undestroyed nodes contain; the rest is arithmetic of multisets and C43 | proved |
| C46 | Ledger, Drop | false of the code: a data node whose publication fails is dropped as an `Inner` (`drop_data`), so its elements are forgotten, as are all elements in the map when it is dropped (`C46_refuted`, `C46_drop_as_coded`). Proved: what operations forget has never been in the map; with the cast added the property holds | partial |
| C47 | Coherent | what a call saw (invariant of C39) is not older than what happens before it, and what it was informed of does not change any more | proved |
| C48 | Machine, Debug | counting the nodes of the canonical shape (C33): every branching node has two elements below it, at most 16 are above one another; C07 for the rest of the memory; `C48_depth` (from `C17_depth_partial`): with overlapping removals that differ within the first `d` nibbles, at most 1 + 16 + ... + 16^d nodes more than the keys account for; `C48_leaves`: never more leaves than keys | proved |
| C49 | Late | simulation with prophecy: an execution in which closures take time is, in memory and results, one of Machine given in advance what the closures will return (a step depends on the closure only if it runs it); the claims of C01, C05, C06, C08, C09, C22, C44 carry over | proved |
| C50 | Fine | forward simulation by the machine of `Reuse`: its step is made at the access, the rest is invisible there (what the rest reads is protected by the guard and does not change; nodes not yet published are not there yet; what is unlinked is handed over a bit later, so the collector does less); results carry over, returns come later | proved |
| C51 | Machine | positions by following cells from the root; invariant: every cell a call remembers lies on the hash path of its key; a step changes only the cell it accesses | proved |
| C52 | Machine | every inner node was created for two keys colliding so far, both of them offered before; one access of a lookup per level; linked inner nodes injected into (key, depth) pairs | proved |
| C53 | Machine | every (cell, word) pair a call will compare with is still there or was changed by somebody else since the call began (the cells a call remembers have strictly increasing depths, so that it does not disturb itself); restarts come from condemned words only | proved |
| C54 | Machine | a natural number made of the remaining levels, the condemned nodes on the hash path (each costs one clean-up and one restart), the levels a leaf can still be pushed down, and out-of-date remembered pairs; every own step of a call running alone decreases it (`tick_cost`); the explicit bounds are its values at the start of a call | proved |
| C55 | Machine | invariant of the counting loop (which cells were read when, how many held a pointer), carried through `prune`; a step condemns only the cell `prune` is at, and a helping `prune` is at a node that is condemned already | proved |
| C56 | ReuseWeak | forward simulation by the machine of `Coherent` under the map from nodes to addresses; what a session can see at an address (views, freshness, contract of the collector in terms of happens-before) is what it can see of the node that is there | proved |
| C57 | Handles (on Ledger, Wild) | the count is a sum over the record of `Ledger`; conservation of elements (C45) per map, bookkeeping of the user's hand; a map clones only what it has or is being given, so a count of zero stays zero | proved |
| C58 | Print (on Wild, Coherent, Debug) | an observer of an execution; safety: each cell to be visited was reached from the root within the guard (the argument of C43); truth: per key exactly one cell to be visited lies on its hash path until its leaf is read, and that leaf is fresh (the argument of C39 for iterations); at rest: changes of cells are in the view of whoever knows the calls | proved |
| C59 | Machine | walk invariant of an insertion (and of a removal): the cells passed are not condemned; a node is first condemned only by the clean-up of a removal (C55), and then completely (all or none), so that nothing new is condemned while no removal runs; a pair remembered by the only removal is still in place, so its CAS succeeds or somebody has helped | proved |
| C60 | Format (on Client) | the program is one pass of the iterator (C11-C13) and a fold of the builder; induction over the entries: the builder has given the writer the pieces of the text so far, up to the first error | proved |
| C61 | Coherent, ClientWeak | simulation (`Proof/RaceFree`): in a race-free program all writes happen before each access, so every value a load may see is the present one; the run is an execution of `Machine`, and the claims about it (C01, C19, C25-C29) apply | proved |
| C62 | Coherent | from the causal linearization of C39: calls without effect can be left out of a legal run, and the rest is in real-time order; C03 and C04 need only a legal order of the completed calls | proved |
| C63 | Coherent | removals ordered by synchronisation: the invariant of C17 (one removal at a time, `OInv`) again on weak memory, with the knowledge each removal has of what has gone away (`Owned`); race-free programs: via C61 from `C17_pruned_partial`; a kernel-checked run of three unsynchronised removals, one after the other, that each see what the others removed | proved |
| C64 | Traits, Ledger (on Wild) | unfolding of the greatest fixpoint gives `Send`/`Sync` of each public type as an equivalence; books per session (`step_balance` for the acting session alone): what a call destructs was gained in its own session; a kernel-checked run of one session whose element the collector destructs | partial: false of the code, see finding 9 |
| C65 | Collectors | if all guards in force at a time are of one collector, a guard in force at the destruction and older than the retirement was in force, beside that of the retiring call, at the retirement: so it was waited for, and the run is one of `Machine`; otherwise refuted by a kernel-checked run | partial: false of the code, see finding 10 |
| C66 | ClientWeak | every raw call either took effect at an instant (`UpdOK`) or saw the key as it was at an instant not older than any change it was told of (`Saw`); a wrapper call is a program with one raw call; extend and clone by induction over the program, with the effects of one session's insertions in order | proved |
| C67 | FineWeak | simulation: the coarse weak-memory machine makes its step in the fine machine's access; memories are the same but for what is retired, sessions are the same except between an access and the rest (`Rel`, `Pend`); what an access has found is kept by the guard, so the rest computes the same | proved |
| C68 | Lifetimes (on Wild) | sufficiency: the result of a call is in a node seen under the guard (C43), which the collector leaves alone while the guard lasts and the drop of the map while the map is borrowed; what `insert` and `remove` return is retired (invariant of the call), so the drop does not touch it; necessity: for each bound a kernel-checked program | proved |
| C69 | Borrow, BorrowWeak (`Machine` and `Coherent` with the user's own comparisons and hashes of own keys and borrowed forms) | simulation: arguments are mapped to classes (the keys equal to them, and their hash), the steps commute with the mapping, the answers of lawful user code are those of the configuration on classes; then C01, C05, C11, C39, C41, and from the map on classes back to the list | proved |
| C70 | Cloning, CloningWeak (`Borrow`, `BorrowWeak` with the user's own `Clone`) | the machine commutes with any renaming of elements that user code does not notice; the run is lifted to elements that remember the inserted element they descend from; seen as what they are it is the run itself, seen as where they come from it is a run without cloning, to which C69 applies | proved |
| C71 | as C12, C13, C15; C69 and C70 for the user's own comparisons and clones | each finished iteration has, for every key, an instant at which it saw what the content was; the place is the prefix of the linearization of C01 up to this instant; order of instants gives order of places. Then along the simulations of C69 and C70. A kernel-checked run in which no single place would do for all keys | proved Under weak memory (`Spec/LooksWeak.lean`): place = the longest prefix of the causal order of C39 whose insertions the iteration had seen at the key (`readsAt`); monotone along happens-before. For synchronised programs (`Spec/LooksSync.lean`): the looks are woven into that order as virtual `get`s and Herlihy and Wing's locality is applied to both (`Proof/Weave.lean`); `is_empty` then key by key. At the granularity of the code (C67) the causal part is transferred along the simulation of C67, and the one for synchronised programs follows as before, the argument being about sequences of events (`Proof/LooksOrder.lean`, `Props/LooksFine.lean`). |

## 4. Findings about the code

1. **C17**: three overlapping removals can leave an empty condemned inner node in the quiescent map
   (`is_empty` stays `false` for ever, `assert_pruned` would panic); two are enough to leave an inner
   node with a single element. `C17_refuted`, `C17_two_removals_refuted` are schedules evaluated by the kernel.
2. **C31**: `drop_data` casts nothing: it drops a `Box<Inner>` where a `Data` was allocated. Wrong layout passed to
   the allocator, destructors of elements never run (also on the failed-CAS paths of `traverse`).
3. **C23**: `get_or_insert_with_element` with a closure returning an element for another key stores
   it where it cannot be found.
4. `is_empty` uses `epoch::unprotected()`; harmless, as it does not dereference.
5. **C35**: a split re-publishes a pointer obtained by `load_consume` inside a new private node. By the letter of
   C11 `consume` the dependency does not reach readers of the new node (`C35_letter_of_consume`); on hardware (and
   with crossbeam's `load_consume`, which is an acquire or a dependency-ordered load) it does. The
   flag `deep` of the model distinguishes the two.
6. **C38**: inconsistent `Eq` can put two elements into a data node above the last level; a later insertion then hits the assertion at
   `src/raw/mod.rs:595`. That is the only consequence outside of wrong answers.
7. **C39**: `get` alone is not linearizable under weak memory: `exStale_not_linearizable` is an execution in which a `get` returns `None`
   after an insertion that is over in real time (but is not synchronised with). With synchronisation it is exact (`C39_synchronised_get`).
   Two readers may see two insertions into different keys in different orders (IRIW, `exIriw`).
8. **C63**: on weak memory C17 fails without any overlap: `remove` unlinks with a Release CAS and then counts the other cells with Relaxed loads (`src/raw/mod.rs:805-816`), so unsynchronised removals may miss each other
   (store buffering). `C63_unsynchronised_refuted`: three removals in a row leave an empty node; `is_empty` is `false` even for a thread that has joined all others. x86 does not show it (the CAS is a full barrier), ARM may.
9. **C64**: nothing requires elements to be `Send`, but retired data nodes go to crossbeam's collector (`src/raw/mod.rs:545-546`, `:733-734`), which destructs them in whatever thread happens to pin (its
   documentation demands that they may be sent). So safe code can have an `Rc` dropped in another thread: `ConSet<Rc<_>>`, `ConMap<_, Rc<_>>`, used by a single thread. `C64_refuted`. In addition
   `ConSet<T>` and `CloneConMap<K, V>` are `Sync` for elements that are `Sync` but not `Send`, although inserting through a shared reference sends them. A bound `Payload: Send` (and, for `Sync`, `Send + Sync`) mends both.
10. **C65**: `Raw`'s methods take any `&Guard`, also one of another collector (`crossbeam_epoch::Collector::new().register().pin()`, safe code), and hand what they unlink to that collector, which does not wait for
   the guards of others: use after free (`C65_refuted`). `ConMap`, `CloneConMap`, `ConSet` always use the default collector and are not affected. (`crossbeam-skiplist`, e.g., checks the collector of the guards it is given.)
11. `insert` replaces the whole payload including the key object; `remove` on a null cell returns `None` even if the
   cell is condemned (correct: C01).

## 5. Trusted base

* Lean 4.33.0's kernel. Axioms: every theorem named in MANIFEST.json depends at most on `propext`,
  `Classical.choice`, `Quot.sound` (checked with `#print axioms`). No axioms of our own, no `native_decide`.
* C68: the compiler enforces lifetimes (a borrow is over before what it borrows from is dropped).
* The reading of the Rust code recorded, with lines, in the comments of the model.
* For everything except C35, C39-C47, C56-C58, C61-C63, C66-C71 (and the weak-memory parts of C08, C09, C10): sequential consistency of atomic accesses. For those: coherence per location, atomic read-modify-writes, no load
  returning a value that is stored later (all stores of the code are releases).
* crossbeam-epoch's contract: a node passed to `defer_destroy` is destroyed only when all guards that were alive
  then are dropped (C40, C43, C56: in terms of happens-before - retirement happens before every guard in force at or after the destruction). crossbeam's tagging functions as documented (C32).
* `Hash`, `Eq` and `Borrow` of the key type obey their contracts (not needed for C38, C43-C46, C68, which are about code that does not, and in which `Clone` may return anything, too):
  equality is an equivalence (Lean's `=` on the modelled key type `K` of equivalence classes; C69 proves that this makes no difference, nor do borrowed forms), the hash is a
  function of the key. Cloning a payload gives an equal payload (C70: with a clone that only has an equal key, the same holds but for the clones). Closures are functions of the key
  and take no time (how often they run: C22); in `Late` they take time, use the map and return what they like, and C49 proves that it makes no difference.

### Modelled

`src/raw/mod.rs` (all of `Raw` and its helper functions), `src/raw/iterator.rs`, `src/raw/debug.rs` (`assert_pruned`;
`PrintShape`), `src/existing_or_new.rs`, all methods of `src/map.rs`,
`src/clonemap.rs`, `src/set.rs` incl. `Extend`, `FromIterator`, `ParallelExtend`, `FromParallelIterator`, `Clone`, `Debug`; the type definitions, as far as `Send` and `Sync` are concerned; the signatures of `Raw` and `Iter`, as far as lifetimes are concerned.

### Simplified

* In `Machine` one step covers an atomic access and the local computation until the next one: reading the data node found, handing what a CAS unlinked to the collector, returning. Nodes are put into the
  heap at publication. Addresses are allocation identities, never reused. `Fine` does without all three simplifications (and `Reuse` without the last one); C34 and C50 prove that it makes no difference
  (C67 the same for `FineWeak`, on weak memory; C56 for addresses).
* `Fine`: what comes after an access is one step (it accesses nothing that others can change, and its parts are invisible to others but for `defer_destroy` and the return).
* The inner nodes carry a ghost path, calls carry ghost counters; no step decides anything by them.
* An OS thread holding several guards is several sessions. So is user code (`Eq`, `Hash`, closures) that uses the map while it is called by it.
* `clone` of the wrappers makes its pass over the source before its insertions in `Client`; in `Clone` (`C25_*_interleaved`) pass and insertions overlap in any way, which includes the alternation of the code. `Arc::new` gives arbitrary
  addresses; `&Q` arguments are keys of `K` (C69: it makes no difference); rayon is any distribution of the items over sessions, in any order.
* `Ledger`: the elements of a node and of a call are derived from its state; an unwinding destructs what the call owns plus any elements that had come into being in the step that panics.
* `Late`: which session belongs to which closure is not recorded (nothing depends on it); a closure that panics is `abort` of its call.
* `Weak`: no reclamation (crossbeam-epoch orders it with fences of its own). `Coherent` and the machines built on it have it.
* `ReuseWeak`: that nobody sees what was in the memory of a node before the node was published is a condition on executions (`fresh`); it is what C35 proves of the code's orderings, plus the allocator's own synchronisation.

### Not modelled

The `#` flag of `fmt::Debug` (pretty printing is done by the standard library), `Default`/`with_hasher` beyond the empty map, the hasher itself,
memory exhaustion, running times (numbers of nodes and of memory accesses: C48, C52-C54).
