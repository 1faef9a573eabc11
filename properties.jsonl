{"id": "C01", "title": "Linearizability of the concurrent map", "statement": "Every concurrent history of get / insert / get_or_insert_with / remove calls on one map is linearizable: each call appears to take effect atomically at some instant between its invocation and its return, and the results are those of a plain sequential key->element map that starts empty.", "quantifier": "all hash functions, any number of threads, all interleavings of the individual atomic memory accesses, all spurious CAS failures, all operation arguments", "why_tests_cant": "Tests sample a handful of schedules; a lost update needs a particular interleaving between marking, copying and swinging pointers.", "anchors": ["src/raw/mod.rs: Raw::insert, Raw::get, Raw::get_or_insert_with, Raw::remove, Raw::traverse, Raw::prune"]}
{"id": "C02", "title": "A lookup never misses a stable key and never invents a value", "statement": "If during the whole of a get(k) call key k is bound to element e (or is absent), get returns exactly e (or None). In general the element a get(k) returns was bound to k at some instant during the call, and None means k was absent at some instant during the call - also when the lookup runs through trie nodes that are replaced by other threads meanwhile.", "quantifier": "all schedules, all states in which the call starts", "why_tests_cant": "Depends on what other threads unlink while the lookup walks stale nodes.", "anchors": ["src/raw/mod.rs: Raw::get"]}
{"id": "C03", "title": "Exactly-once hand-back of elements", "statement": "If every inserted element is distinct, then each element is handed back (as the 'previous' result of insert or as the result of remove) at most once, no matter how many threads race for it, and only elements that were inserted are ever handed back.", "quantifier": "all concurrent histories", "why_tests_cant": "A double hand-back needs two racing CAS operations on one slot.", "anchors": ["src/raw/mod.rs: Raw::insert, Raw::remove"]}
{"id": "C04", "title": "Concurrent get_or_insert agree", "statement": "Among get_or_insert calls for one key on a map from which the key is not removed and into which it is not inserted by other means, at most one call returns New and all others return Existing with the very element that the New call inserted.", "quantifier": "all concurrent histories", "why_tests_cant": "Two threads must race on the same empty slot.", "anchors": ["src/raw/mod.rs: Raw::get_or_insert_with, Raw::traverse"]}
{"id": "C05", "title": "No internal panic", "statement": "No sequence of API calls, on any schedule, trips an internal assertion, expect or unreachable, overflows the fixed-size level stacks, shifts by 64 or more bits, or interprets a node of the wrong kind.", "quantifier": "all hash functions, all schedules, all call sequences, aborted calls included", "why_tests_cant": "The assertions guard states reachable only through rare races or 16-level-deep collisions.", "anchors": ["src/raw/mod.rs: nf, load_data, Raw::prune, Raw::traverse, Raw::remove", "src/raw/iterator.rs: Iter::next"]}
{"id": "C06", "title": "No access to reclaimed memory", "statement": "With an epoch collector that destroys a retired node only after every guard alive at the time of retirement is gone, no call ever touches a destroyed node, and the element references returned by raw operations stay valid until the guard they were obtained under is released.", "quantifier": "all schedules including all moments at which the collector runs, guards spanning several calls", "why_tests_cant": "Use-after-free needs a precise interleaving with the collector and may go unnoticed even then.", "anchors": ["src/raw/mod.rs: defer_destroy uses in traverse, remove, prune; Raw::get"]}
{"id": "C07", "title": "Every unlinked node is retired exactly once and nothing linked is retired", "statement": "At every instant each node ever published is either still reachable in the trie or has been handed to the collector, never both, and it is handed over at most once (no leak, no double free).", "quantifier": "all schedules, all instants", "why_tests_cant": "Leaks and double retirements are invisible to functional tests.", "anchors": ["src/raw/mod.rs: Raw::traverse (replace), Raw::remove (replace), Raw::prune"]}
{"id": "C08", "title": "Lookups are wait-free", "statement": "A get call finishes after at most 17 of its own atomic loads, whatever the other threads do, for every hash function.", "quantifier": "all schedules, all hash functions", "why_tests_cant": "No finite set of schedules bounds the worst case.", "anchors": ["src/raw/mod.rs: Raw::get", "src/lib.rs: crate docs"]}
{"id": "C09", "title": "Lock-freedom of modifications", "statement": "System-wide progress: if weak CAS fails spuriously only finitely often and only finitely many calls are started, then only finitely many steps can be taken before all running threads have returned or stopped being scheduled; threads can never keep each other retrying forever, and a thread stalled in the middle of a call cannot block the others.", "quantifier": "all infinite schedules", "why_tests_cant": "A liveness property over infinite executions.", "anchors": ["src/raw/mod.rs: Raw::traverse, Raw::remove, Raw::prune", "src/lib.rs: crate docs"]}
{"id": "C10", "title": "Uncontended calls always terminate", "statement": "From every reachable state - whatever half-finished work stalled or aborted threads left behind - a call that runs without interference (and without spurious CAS failures) returns.", "quantifier": "all reachable states, all calls", "why_tests_cant": "The leftover states are produced only by unlucky schedules.", "anchors": ["src/raw/mod.rs: Raw::traverse, Raw::remove, Raw::prune"]}
{"id": "C11", "title": "Iteration yields no key twice", "statement": "One pass of an iterator never yields two elements with equal keys, even if the map is modified (by any thread) during the pass.", "quantifier": "all schedules", "why_tests_cant": "The trie is restructured under the iterator's feet.", "anchors": ["src/raw/iterator.rs: Iter::new, Iter::next"]}
{"id": "C12", "title": "Iteration does not miss stable elements", "statement": "If a key stays bound to the same element from the creation of an iterator to its exhaustion, the iterator yields that element exactly once.", "quantifier": "all schedules", "why_tests_cant": "Nodes are split, contracted and copied while the iterator walks them.", "anchors": ["src/raw/iterator.rs: Iter::next"]}
{"id": "C13", "title": "Iteration yields only real elements", "statement": "Each element an iterator yields was bound to its key in the map at some instant between creation of the iterator and the moment of the yield.", "quantifier": "all schedules", "why_tests_cant": "as above", "anchors": ["src/raw/iterator.rs: Iter::next"]}
{"id": "C14", "title": "Iteration of an unmodified map is exact", "statement": "If the map is not modified during a pass, the pass terminates and yields exactly the elements of the map, each once. A pass terminates also while the map is being modified, without end, by others.", "quantifier": "all reachable maps", "why_tests_cant": "Requires all shapes of tries including 16-level collisions.", "anchors": ["src/raw/iterator.rs: Iter::next", "src/map.rs: ConMap::iter"]}
{"id": "C15", "title": "is_empty never lies positively", "statement": "When is_empty returns true, the map contained no element at the instant of its load.", "quantifier": "all schedules", "why_tests_cant": "Racy by design; a test cannot enumerate the races.", "anchors": ["src/raw/mod.rs: Raw::is_empty"]}
{"id": "C16", "title": "is_empty is exact in sequential use", "statement": "If calls do not overlap, is_empty returns true exactly when the map holds no element.", "quantifier": "all operation sequences, all hash functions", "why_tests_cant": "Relies on pruning being complete for every shape.", "anchors": ["src/raw/mod.rs: Raw::is_empty, Raw::remove, Raw::prune"]}
{"id": "C17", "title": "The trie is pruned whenever nobody is working on it", "statement": "When no call is in progress, no internal leftovers remain: no condemned pointers, no inner node holding fewer than two elements; in particular is_empty is exact at quiescence even after concurrent removals. (The comment on assert_pruned and the test remove_par rely on it.)", "quantifier": "all schedules, at all quiescent instants", "why_tests_cant": "Violations need a three-way race.", "anchors": ["src/raw/debug.rs: assert_pruned", "src/raw/mod.rs: Raw::remove, Raw::prune", "src/map.rs: tests::remove_par"]}
{"id": "C18", "title": "Pruned in sequential use", "statement": "If calls do not overlap, after every call the trie is in the fully pruned state checked by assert_pruned.", "quantifier": "all operation sequences, all hash functions", "why_tests_cant": "Shapes depend on arbitrary hash prefixes.", "anchors": ["src/raw/debug.rs: assert_pruned", "src/raw/mod.rs: Raw::remove, Raw::prune"]}
{"id": "C19", "title": "Sequential map semantics", "statement": "Any finite sequence of non-overlapping calls terminates and returns exactly what the same sequence returns on a plain key->element map (insert returns and replaces the previous element, remove returns the removed one, get the current one, get_or_insert the existing or new one).", "quantifier": "all operation sequences, all hash functions", "why_tests_cant": "Property tests sample short sequences and three hashers.", "anchors": ["src/raw/mod.rs: Raw::insert, Raw::get, Raw::get_or_insert_with, Raw::remove, Raw::traverse, Raw::prune", "src/tests/acts_like_map.rs"]}
{"id": "C20", "title": "Hash quality does not affect results", "statement": "Two maps that differ only in their hash function (even a constant one, so that all keys collide) return the same results for the same sequence of calls.", "quantifier": "all pairs of hash functions, all operation sequences", "why_tests_cant": "Infinitely many hash functions.", "anchors": ["src/raw/mod.rs: Raw::with_hasher, Raw::hash, Raw::traverse"]}
{"id": "C21", "title": "Distinct keys are independent", "statement": "The results of the calls on key k and the final binding of k are those of the calls on k alone: calls on other keys, even ones with the same hash, never change what is observed for k.", "quantifier": "all concurrent histories", "why_tests_cant": "Interaction happens only in colliding or contracted nodes under races.", "anchors": ["src/raw/mod.rs: Raw::insert, Raw::get, Raw::get_or_insert_with, Raw::remove, Raw::traverse, Raw::prune"]}
{"id": "C22", "title": "get_or_insert_with runs its closure at most once", "statement": "Per call the closure runs at most once, however often the call has to retry; if the call returns New, it has run exactly once and the returned element is its result; if the key is bound during the whole call the closure does not run at all.", "quantifier": "all schedules", "why_tests_cant": "Retries only happen under contention.", "anchors": ["src/raw/mod.rs: TraverseState::payload, Raw::traverse, Raw::get_or_insert_with"]}
{"id": "C23", "title": "The element created by the closure is findable under its key", "statement": "After get_or_insert_with_element(k, f) returned New(e), a get with the key of e finds e if nothing else touches the map - also if f returns an element whose key differs from k.", "quantifier": "all closures, all keys, all hash functions", "why_tests_cant": "Depends on arbitrary user closures.", "anchors": ["src/raw/mod.rs: TraverseState::key, Raw::get_or_insert_with", "src/map.rs: ConMap::get_or_insert_with_element"]}
{"id": "C24", "title": "Aborted and stalled calls are harmless", "statement": "If a thread stops for ever or unwinds (panic in user Hash, Eq, Clone or closure) at any point of any call, all other calls stay linearizable, no internal assertion fires and no memory is freed early.", "quantifier": "all schedules, all crash points", "why_tests_cant": "Crash points x schedules cannot be enumerated.", "anchors": ["src/raw/mod.rs: Raw::insert, Raw::get, Raw::get_or_insert_with, Raw::remove, Raw::traverse, Raw::prune", "src/raw/mod.rs: TraverseState::payload"]}
{"id": "C25", "title": "Clone copies the content", "statement": "Cloning a map that is not concurrently modified yields a map with exactly the same bindings (for ConMap the very same shared elements); later operations on either do not affect the other.", "quantifier": "all reachable maps", "why_tests_cant": "All shapes and contents.", "anchors": ["src/map.rs: Clone for ConMap", "src/clonemap.rs: Clone for CloneConMap"]}
{"id": "C26", "title": "Extend and FromIterator: last one wins", "statement": "extend / collect leave a key bound to the last element for that key in the input, keys not in the input keep their previous binding.", "quantifier": "all input sequences, all prior contents", "why_tests_cant": "Unbounded inputs.", "anchors": ["src/map.rs: Extend, FromIterator", "src/clonemap.rs: Extend, FromIterator", "src/set.rs: Extend, FromIterator"]}
{"id": "C27", "title": "Parallel extend", "statement": "par_extend / several threads extending the same map: afterwards every key of the input is bound to one of the input's elements for that key, all other keys are unchanged, whatever the schedule.", "quantifier": "all schedules, all inputs, all partitions of the input among threads", "why_tests_cant": "Schedules.", "anchors": ["src/map.rs: ParallelExtend", "src/clonemap.rs: ParallelExtend", "src/set.rs: ParallelExtend"]}
{"id": "C28", "title": "ConSet behaves like a set", "statement": "Any sequence of ConSet calls behaves like a mathematical set of values up to equality: contains tells membership, insert returns the previously stored equal value and stores the new one, get and remove return the stored value.", "quantifier": "all call sequences, all hash functions", "why_tests_cant": "Unbounded sequences.", "anchors": ["src/set.rs: ConSet"]}
{"id": "C29", "title": "CloneConMap and ConMap agree", "statement": "Any sequence of calls gives the same observable results on ConMap and on CloneConMap (up to the Arc wrapper), and both behave like a plain map; get_or_insert, get_or_insert_with and get_or_insert_default differ only in where the value comes from.", "quantifier": "all call sequences", "why_tests_cant": "Unbounded sequences.", "anchors": ["src/map.rs: ConMap", "src/clonemap.rs: CloneConMap"]}
{"id": "C30", "title": "ExistingOrNew is transparent", "statement": "into_inner, deref and map do not confuse the value, map preserves whether it was new, is_new tells exactly the New case.", "quantifier": "all values and functions", "why_tests_cant": "Parametric in T and F.", "anchors": ["src/existing_or_new.rs: ExistingOrNew"]}
{"id": "C31", "title": "Dropping a map releases everything exactly once", "statement": "Dropping a map releases every node of the trie exactly once, as the type it was allocated with, and runs the destructor of every element it still holds exactly once.", "quantifier": "all reachable quiescent maps", "why_tests_cant": "Leaks are not observable functionally; wrong-layout deallocation is undefined behaviour that may go unnoticed.", "anchors": ["src/raw/mod.rs: Drop for Raw, drop_data, owned_data"]}
{"id": "C32", "title": "Pointer tags never corrupt pointers", "statement": "For 4-aligned node addresses, the flag bits and the address stored in one machine word never disturb each other: setting/clearing flags keeps the address, reading the address ignores the flags, two tagged pointers are equal iff address and flags are, null is recognised regardless of flags.", "quantifier": "all addresses, all flag combinations", "why_tests_cant": "2^64 words.", "anchors": ["src/raw/mod.rs: NodeFlags, nf, owned_data, load_data"]}
{"id": "C33", "title": "Canonical shape (history independence)", "statement": "In sequential use the shape of the trie depends only on the set of keys it holds: branches are exactly as long as needed to tell different hashes apart, independent of the order and history of operations.", "quantifier": "all operation sequences, all hash functions", "why_tests_cant": "All histories.", "anchors": ["src/raw/mod.rs: module comment, Raw::traverse, Raw::remove", "src/lib.rs: 'The gist of the data structure'"]}
{"id": "C34", "title": "Reuse of memory by the allocator makes no difference", "statement": "The allocator may give the memory of a destroyed node to a new one. This changes nothing observable: comparing tagged machine addresses in CAS is as good as comparing node identities (whenever a call performs a CAS, the node it expects has not been destroyed, so a recycled address can never be mistaken for it), no stale pointer is ever followed, histories stay linearizable, no call fails, what references were returned to is not overwritten while the guard is kept, and progress is as without reuse.", "quantifier": "all schedules, all allocators that hand out any currently unused address", "why_tests_cant": "ABA needs allocator-specific timing.", "anchors": ["src/raw/mod.rs: compare_and_set uses, Owned::new / Box allocations, defer_destroy"]}
{"id": "C35", "title": "Publication under weak memory orderings", "statement": "Release on publishing and consume/acquire on reading suffice: a thread that obtains a pointer sees the fully initialised node on every architecture.", "quantifier": "all weak-memory executions", "why_tests_cant": "Needs weakly ordered hardware and luck.", "anchors": ["src/raw/mod.rs: 'Inter-thread synchronization of data' comment, load_consume, compare_and_set"]}
{"id": "C36", "title": "Wrapper calls terminate when undisturbed", "statement": "Every call of ConMap, CloneConMap and ConSet (including extend and clone) can be run to its end, from every reachable state in which the caller is idle and nobody else takes steps, and it then returns what the plain-map specification says.", "quantifier": "all reachable states, all wrapper calls, all lengths of extend's input", "why_tests_cant": "All reachable shapes and unbounded inputs.", "anchors": ["src/map.rs", "src/clonemap.rs", "src/set.rs"]}
{"id": "C37", "title": "Single-key wrapper calls are atomic", "statement": "Every single-key call of ConMap, CloneConMap and ConSet (insert, get, remove, contains, get_or_insert*) takes effect at one instant between call and return, and returns what a plain map with that instant's content returns, however many threads use the map at the same time.", "quantifier": "all schedules, all calls of other threads", "why_tests_cant": "Schedules.", "anchors": ["src/map.rs", "src/clonemap.rs", "src/set.rs"]}
{"id": "C38", "title": "Memory safety does not depend on user code", "statement": "Whatever the user's Hash, Eq, Borrow, Clone and closures do (inconsistent answers, changing answers, panics, re-entrant use of the map), no call accesses destroyed memory, goes out of bounds, releases a node twice or leaks a replaced one; returned references stay valid under their guard; dropping the map afterwards releases every remaining node once. The worst that can happen is the panic 'Collision node not deep enough'.", "quantifier": "all answers of user code at every single comparison and hashing, all panics, all schedules, all histories", "why_tests_cant": "The answers are arbitrary functions of time; undefined behaviour does not show in a test.", "anchors": ["src/raw/mod.rs: traverse, get, remove, prune, iter, Drop", "src/raw/mod.rs: unsafe blocks"]}
{"id": "C39", "title": "Causal consistency under weak memory", "statement": "With the memory orderings the code actually uses (loads may return stale values), every history of calls still has one legal sequential order containing all completed calls: insertions, successful removals and effective get_or_inserts are in real-time order; a call is never placed before a call on the same key that happens before it, nor behind a change invoked after it returned. is_empty answers true, and an iteration shows a key's value, only if the map was like that at such a position. A get that is synchronised with all updates of its key returns the present content. Without synchronisation nothing stronger holds: stale reads make histories non-linearizable.", "quantifier": "all schedules, all stale values each load may return, all synchronisation between threads, all calls", "why_tests_cant": "Staleness depends on hardware and schedule; x86 test machines hide most of it.", "anchors": ["src/raw/mod.rs: get, traverse, remove, prune, is_empty (load_consume, Ordering::Relaxed, Release)", "src/raw/iterator.rs: next"]}
{"id": "C40", "title": "Memory safety under weak memory, with reclamation", "statement": "With the memory orderings the code uses, and with retired nodes being destroyed as early as the epoch scheme allows, no call ever accesses a destroyed node, none panics, and returned or yielded references stay valid as long as the guard is kept.", "quantifier": "all schedules, all stale values of loads, all moments of destruction the epoch contract allows", "why_tests_cant": "Needs unlucky combinations of stale loads and reclamation; undefined behaviour does not show in a test.", "anchors": ["src/raw/mod.rs: traverse, get, remove, prune (defer_destroy)", "src/raw/iterator.rs"]}
{"id": "C41", "title": "Synchronised programs see a linearizable map on weak memory", "statement": "With the memory orderings the code actually uses: if, for any two calls on the same key of which one returns before the other is invoked, the program orders them by its own synchronisation (join, lock, channel, same thread), the history is linearizable just as under sequential consistency. Calls on different keys need no synchronisation.", "quantifier": "all schedules, all stale values of loads, all synchronisation patterns with the stated property", "why_tests_cant": "Quantifies over weak memory behaviours and over all synchronised programs.", "anchors": ["src/raw/mod.rs: get, traverse, remove, prune (orderings)"]}
{"id": "C42", "title": "What a call has found stays as found", "statement": "Once a call (get, insert, get_or_insert, remove, iteration step) has loaded a pointer from a cell of the map, the node it leads to stays what it was - not destroyed, the elements of a data node unchanged, an inner node at its place - for as long as the guard is kept. So it does not matter how slowly, in how many pieces, or how often the call or its caller examines the node.", "quantifier": "all schedules, all calls, all moments of examination under the guard, all moments of destruction the collector may choose; also with arbitrary user code and under weak memory", "why_tests_cant": "A change in the middle of an examination needs an unlucky schedule, and shows as a torn element or undefined behaviour only.", "anchors": ["src/raw/mod.rs: get, traverse, remove, load_data, Data", "src/raw/iterator.rs: next"]}
{"id": "C43", "title": "Memory safety rests neither on user code nor on strong memory", "statement": "Even on weak memory (loads return old values, threads learn from each other only by synchronising) and with Hash, Eq, Borrow, Clone and closures that answer arbitrarily and inconsistently or panic, no call accesses a destroyed, missing or wrong-kind node; the only panic of the library itself is the collision assertion; everything returned or yielded stays intact under the guard it was obtained with; a node is handed over for destruction exactly when it is unlinked, once; compare-and-set is not fooled by reused addresses; dropping the map afterwards releases each remaining node once.", "quantifier": "all schedules, all stale values of loads, all answers of user code at every single call, all panics, all moments of destruction the collector's contract allows", "why_tests_cant": "Combines weak memory behaviours, which hardware shows rarely if at all, with adversarial user code and the choices of the collector.", "anchors": ["src/raw/mod.rs: get, traverse, remove, prune, Drop", "src/raw/iterator.rs: next"]}
{"id": "C44", "title": "Progress rests neither on user code nor on strong memory", "statement": "Lock-freedom, termination of a call that runs alone, and the impossibility of calls keeping each other (or themselves) busy forever hold even if Hash, Eq, Borrow, Clone and closures answer arbitrarily, and on weak memory, without any assumption on when - or whether - stores of one thread become visible to another: in every endless execution in which finitely many threads keep taking steps inside calls and weak compare-exchanges fail spuriously only finitely often, calls end again and again. An iteration whose thread is scheduled again and again ends by itself, however many modifications are made meanwhile.", "quantifier": "all endless schedules, all stale values of loads coherence allows, all answers of user code at every single call", "why_tests_cant": "Absence of livelock is a statement about infinite executions; the adversary (scheduler, memory, user code) makes infinitely many choices.", "anchors": ["src/raw/mod.rs: get, traverse, remove, prune", "src/raw/iterator.rs: next"]}
{"id": "C45", "title": "No element is destructed twice, or too early", "statement": "Every element that was handed over to the map or made by Clone is, at every moment, in exactly one place: owned by one call in progress, or in one node that has not been destroyed, or destructed, or forgotten. So no element is destructed twice, and none is destructed while it is in the map, while somebody who got a reference to it keeps the guard, or while an iterator that yielded it is under its guard.", "quantifier": "all schedules, all stale values of loads, all answers of user code (including what Clone returns), all panics, all moments of destruction the collector's contract allows, all histories", "why_tests_cant": "Ownership is passed between calls, nodes and the collector by unsafe code; a double drop or a use after drop depends on which compare-exchange fails and when the collector runs.", "anchors": ["src/raw/mod.rs: traverse, TraverseState, remove, drop_data, get", "src/raw/iterator.rs: next"]}
{"id": "C46", "title": "No element is lost", "statement": "Every element that was handed over to the map or made by Clone is destructed exactly once by the time the map has been dropped and the collector has destroyed what was retired.", "quantifier": "all schedules (in particular all failed compare-exchanges), all stale values of loads, all answers of user code, all panics of user code, all histories", "why_tests_cant": "Leaks occur on paths that only contention or spurious failures of weak compare-exchange reach, and do not show in results.", "anchors": ["src/raw/mod.rs: drop_data, traverse, remove, Drop for Raw"]}
{"id": "C47", "title": "Fork-join programs see everything on weak memory", "statement": "On weak memory, a call whose thread has been told (by any synchronisation: join, channel, lock) of all calls that may have changed the map sees exactly the content of the map: a lookup of a key it was fully informed about returns its value, an iteration yields exactly the content, each key once, is_empty returns true only if nothing it was informed about is in the map. In particular, when threads insert without knowing of each other and are joined (par_extend, from_par_iter), an iteration afterwards yields one element for every inserted key, one of those inserted under it (the last one, if there is one). Without any synchronisation, what a lookup or iteration finds was still handed over under that key by a call invoked before, and no iteration yields a key twice.", "quantifier": "all schedules, all stale values of loads coherence allows, all patterns of synchronisation, all keys and hash functions", "why_tests_cant": "Stale reads are rare on most hardware, and the set of synchronisation patterns is infinite.", "anchors": ["src/raw/mod.rs: traverse, get, is_empty, iter", "src/raw/iterator.rs: next", "src/map.rs, src/set.rs: par_extend, from_par_iter"]}
{"id": "C48", "title": "The memory in use is proportional to the content", "statement": "Whatever was inserted and removed before: if removals did not overlap with each other and no update is in progress, a map with n keys consists of at most 8n branching nodes and n leaves; once the collector has destroyed what was handed over to it, these are all the nodes that exist. In particular a map that is empty again occupies no memory. (With overlapping removals branching nodes can stay in an empty map.)", "quantifier": "all schedules in which removals do not overlap with each other, all hash functions (including total collisions), all histories", "why_tests_cant": "A leak of nodes needs particular shapes and interleavings, and does not show in results.", "anchors": ["src/raw/mod.rs: traverse, remove, prune"]}
{"id": "C49", "title": "Closures may take time and use the map themselves", "statement": "The closure passed to get_or_insert_with (and its wrappers) may run for any time, wait for other threads, and itself call any operation of the same map, for the same key too, to any depth. The map stays linearizable (the call inserts, if at all, what the closure has returned, after it has returned), the closure is run at most once per call and only if the key was absent at some instant since the invocation, nothing panics, references stay valid, and nobody waits for a closure: other calls complete (lock-freedom, solo termination, wait-free lookups) even if closures never return.", "quantifier": "all schedules, all durations and results of closures (with the right key), all calls made during closures by any session, all nestings", "why_tests_cant": "The interleavings of a slow closure with everything else, and nested closures, are unboundedly many; a deadlock or a second run of the closure needs a particular one.", "anchors": ["src/raw/mod.rs: get_or_insert_with, traverse, TraverseState"]}
{"id": "C50", "title": "Nothing depends on what the code does between two atomic accesses happening at once", "statement": "A thread may be stopped, or unwound, anywhere between two accesses to shared memory: after it has loaded a pointer and before it looks at the node, after it has allocated a node and before it publishes it, after it has unlinked a node and before it hands it to the collector, after its update has taken effect and before it returns. Whatever others do meanwhile, and whichever free memory the allocator reuses: the map is linearizable, nothing panics, returned references stay valid while the guard is held, every node is exactly one of reachable, handed to the collector, private to one thread, or about to be handed over by one thread; calls are lock-free, return when left alone, and lookups are wait-free.", "quantifier": "all schedules of accesses and of the code between them, all choices of the allocator and of the collector, all points of unwinding", "why_tests_cant": "A thread is hardly ever stopped in these windows in a test, and the number of interleavings is unbounded.", "anchors": ["src/raw/mod.rs: traverse, remove, prune, get", "src/raw/iterator.rs: Iter::next"]}
{"id": "C51", "title": "An operation touches only the hash path of its key", "statement": "A lookup, insertion, get_or_insert_with or removal of key k reads and writes only the root and cells of inner nodes that hang at a position in the trie which the hash of k starts with; apart from the sweep over the sixteen cells of a node being cleared away, only the very cells selected by the hash. Two operations whose keys' hashes differ in the d-th group of four bits never touch the same node deeper than d. Inner nodes never move.", "quantifier": "all executions, all pairs of operations, all instants, all hash functions", "why_tests_cant": "Which memory an operation touches is invisible in its results; a test of disjointness would have to watch every access of every schedule.", "anchors": ["src/raw/mod.rs: get, traverse, remove, prune"]}
{"id": "C52", "title": "The trie is never deeper or larger than the hashes of the keys require", "statement": "There is an inner node at position q only if two different keys that were offered to the map before have hashes starting with q. Hence a lookup of k makes more than n+1 accesses only if two different offered keys share the first n groups of hash bits with k; if the first n groups of bits tell all offered keys apart, every lookup makes at most n+1 accesses. At every instant there are at most 16 inner nodes in the trie per offered key.", "quantifier": "all executions and instants, all hash functions, all sets of keys", "why_tests_cant": "Ranges over all schedules and all key sets; needless nodes do not change any result.", "anchors": ["src/raw/mod.rs: traverse (split), get, prune"]}
{"id": "C53", "title": "Work is repeated only for a reason", "statement": "A compare-and-set of an update fails (other than spuriously) only if, since the call began, an insertion, get_or_insert_with or removal of another session changed that very cell, for a key on whose hash path the cell lies; updates in disjoint parts of the trie do not disturb each other. An update starts over at the root, or clears away a node it came across, only after it read a condemned pointer there. As long as no removal was called, nothing is ever condemned and no call starts over.", "quantifier": "all executions, all calls, all instants", "why_tests_cant": "Retries do not show in results, and the claim is about every schedule.", "anchors": ["src/raw/mod.rs: traverse, remove, prune"]}
{"id": "C54", "title": "An undisturbed call makes a bounded number of memory accesses", "statement": "In every reachable state, whatever calls of other sessions were stopped in the middle forever and however many elements the collection holds, a call that runs alone (no spurious failures) returns within a constant number of accesses to shared memory: a lookup within 17; an insertion or get_or_insert_with within 69, and 40 more per inner node on the way to the key that others began to condemn (at most 16 such nodes); a removal within 565, and 40 more per such node. So no map operation that runs alone takes more than 1205 accesses. From the middle of a call, 42 more suffice. As long as no removal was called, an insertion that runs alone takes at most 69.", "quantifier": "all reachable states, all sessions, operations, hash functions and numbers of elements", "why_tests_cant": "Tests measure some runs; a bound for every state in which others were stopped at any point needs a measure that every step decreases.", "anchors": ["src/raw/mod.rs: get, traverse, remove, prune"]}
{"id": "C55", "title": "Only nearly empty nodes are cleared away", "statement": "The first condemned cell of an inner node is always the work of a removal that, since it was called, read all 16 cells of that node and found a pointer in at most one of them, and the node lies on the hash path of the key it removes; no insertion, lookup or iteration ever starts clearing a node away. Consequently an inner node below which two branches stay occupied (two present keys part there) is never condemned nor replaced by any removal called in the meantime, whatever else is inserted and removed.", "quantifier": "all executions, all inner nodes, all instants", "why_tests_cant": "Needless rebuilding of nodes does not change any result; the claim is about every schedule.", "anchors": ["src/raw/mod.rs: remove (counting loop), prune"]}
{"id": "C56", "title": "Reuse of memory makes no difference under weak memory, either", "statement": "On a machine with weak memory whose allocator may give the memory of a destroyed node to a new one at once, where a compare-and-set compares addresses only and stale pointers point to whatever is there now, every execution is, but for the addresses, an execution in which no address is ever used twice: same invocations and results at the same instants, same content, same happens-before. So histories are causally linearizable (and linearizable for programs that synchronise), no call fails, every access of a call goes to a live inner node, the node a compare-and-set expects is still in use, and returned references stay intact while the guard is held.", "quantifier": "all executions under weak memory, all schedules, all choices of the allocator and of the collector allowed by their contracts", "why_tests_cant": "ABA under weak memory needs a particular reuse of an address and a particular stale read at once; the claim is about all of them.", "anchors": ["src/raw/mod.rs: traverse, remove, prune, owned_data", "src/raw/iterator.rs: next"]}
{"id": "C57", "title": "Handles keep elements alive", "statement": "A ConMap stores and returns counted handles (Arc) to elements, and maps may share elements. However many maps there are and whatever happens in them, on weak memory and with any user-provided Hash and Eq: the reference count of an element is always the number of handles in users' hands and in the maps (plus those the code forgets, see C46), never less; an element is never destroyed while a user has a handle to it or a map contains it, even after it was removed from the map it was obtained from; whenever a method makes a handle out of a reference, or a call compares or clones elements it has come upon, the elements are alive; an element is destroyed at most once. With drop_data repaired, it is destroyed as soon as nobody has a handle, and when all maps are dropped exactly the user's handles are left.", "quantifier": "all numbers of maps, all executions of each of them, all interleavings with a user who creates, clones, hands over and drops handles in any way the ownership rules allow", "why_tests_cant": "A missing or additional decrement shows only if a particular interleaving of removal, reclamation and use of a handle occurs; the claim is about all of them.", "anchors": ["src/map.rs: MapPayload, ConMap::insert_element, get, remove, get_or_insert_with_element, Iter::next", "src/raw/mod.rs: traverse, remove, drop_data", "src/raw/iterator.rs"]}
{"id": "C58", "title": "Printing the structure of a trie in use", "statement": "raw::debug::PrintShape may be used at any time, while other threads insert, remove and iterate. However they behave, on weak memory and with any user-provided Hash and Eq, it never touches a destroyed node nor takes a node for one of the other kind, it needs at most 1+16+...+16^16 loads and never waits for anybody; what it prints is the well-formed text of a tree. With lawful Hash and Eq it prints for every key at most one element, and what it prints for a key is what the map contained at some moment that is not before any call the printing thread knew to have returned, and not after the printing. If it knows all calls that may have changed a key, it prints exactly the map's element for this key; if it knows all calls, the structure (pointers, flags, elements) is printed exactly as it is.", "quantifier": "all executions of any number of threads on weak memory, all moments the printing starts, all interleavings of its loads with the steps of others, all values a load may return; all tries", "why_tests_cant": "The printer walks a structure that changes under its feet; safety and truth must hold for every interleaving and every stale value, and for tries of any shape.", "anchors": ["src/raw/debug.rs: print_shape_ptr, print_shape, PrintShape"]}
{"id": "C59", "title": "Leftovers of overlapping removals heal", "statement": "Overlapping removals may leave condemned (half cleared away) inner nodes behind (see C17), and a removal that is abandoned or stopped may, too. They do not pile up: (1) an insertion (insert, get_or_insert_with) during which no removal is in progress leaves no condemned node on the path from the root to its key, whatever was there before and whoever else reads and inserts at the same time; it stays like this until a removal is called, and an update of the key that then runs alone costs no more than if nothing had ever been removed. (2) Even among abandoned or stopped removals, an insertion that runs alone leaves no condemned cell on the path to its key. (3) A removal that finds its key while no other removal is in progress leaves no condemned node on its path either (one that does not find it may). (4) While no removal is in progress nothing is condemned: condemned nodes only get fewer.", "quantifier": "all executions (any number of threads, any interleaving, any history of overlapping removals before), all keys", "why_tests_cant": "The leftovers arise only under particular races, and the claim is about every possible leftover structure and every schedule of the calls that meet it.", "anchors": ["src/raw/mod.rs: traverse (condemned branch), remove, prune"]}
{"id": "C60", "title": "Formatting a map or set in use", "statement": "Formatting a ConMap, CloneConMap or ConSet with {:?} may happen at any time. Whatever other threads do with it meanwhile, the text is a well-formed list of entries in braces (key: value, or just the value for a set, separated by commas); no key is printed twice, every entry printed was in the map at some moment during the formatting, and everything that was in the map all the time is printed. A map that is not modified meanwhile is printed exactly (an empty one as {}), ConMap and CloneConMap with the same content print the same entries. Formatting modifies nothing and terminates when it is not interfered with. If the writer refuses a string, nothing is written after it and the error is reported.", "quantifier": "all executions (any number of threads, any interleaving), all contents, all Debug implementations of keys and values, all writers, failing at any point", "why_tests_cant": "The formatting walks a structure that others change; and the writer may fail at any of the strings.", "anchors": ["src/map.rs: impl Debug for ConMap", "src/clonemap.rs: impl Debug for CloneConMap", "src/set.rs: impl Debug for ConSet"]}
{"id": "C61", "title": "Programs that use locks need not know about weak memory", "statement": "If a program orders every update of a map with respect to every other call on it by its own synchronisation (a reader-writer lock, joining threads, passing messages; lookups and iterations may overlap with each other), then on a processor with weak memory it behaves exactly as on sequentially consistent memory: the same steps, results and contents are those of an interleaving. Every call answers as a plain map with the content at its invocation would and leaves the content it should; in particular get finds what was inserted before, iteration is exact, is_empty is exact, a clone made under locks is an exact copy. This holds for the raw trie and for programs that use several maps or sets (ConMap, CloneConMap, ConSet), even if each has its own lock.", "quantifier": "all executions of the weak memory machine (any number of threads, any interleaving, any admissible stale value for each load) in which updates are ordered by happens-before with all other calls", "why_tests_cant": "Stale values are rarely seen on real hardware, and which synchronisation suffices can only be said about all executions.", "anchors": ["src/raw/mod.rs: Raw::insert, Raw::get_or_insert_with, Raw::get, Raw::remove, Raw::is_empty", "src/raw/iterator.rs: Iter", "src/map.rs: ConMap", "src/clonemap.rs: CloneConMap", "src/set.rs: ConSet"]}
{"id": "C62", "title": "Updates need no synchronisation on weak memory", "statement": "On a processor with weak memory, even if the threads of a program do not synchronise at all: the calls that change the map (insertions, removals that return something, get_or_inserts that return New) are linearizable, in real-time order, and lead to the present content; every element is handed back at most once, to one caller, and only if it was put in; no element is lost or duplicated (put in = handed back + still inside); racing get_or_inserts of a key agree on one winner and its element, and lookups find this element or nothing.", "quantifier": "all executions of the weak memory machine: any number of threads, any interleaving, any admissible stale value for each load", "why_tests_cant": "Stale values are rare on real hardware, and exactly-once is a claim about all interleavings.", "anchors": ["src/raw/mod.rs: Raw::insert, Raw::get_or_insert_with, Raw::remove, Raw::get"]}
{"id": "C63", "title": "Cleaning up after removals on weak memory", "statement": "On a processor with weak memory, the structure is as tidy as on a sequentially consistent one (no leftovers whenever no update is in progress, and a null root exactly if the map is empty) in programs whose removals are ordered by synchronisation (locks, joins, messages) with each other, and with get_or_inserts of the same key, and none of whose updates is abandoned; insertions, lookups and iterations need no synchronisation. Then is_empty is exact for a caller that knows of all updates. That removals do not overlap in time is not enough: remove counts what is left in a node with relaxed loads after its own compare-and-swap, so removals on unsynchronised threads may each still see what the others have removed; then an empty inner node stays, and is_empty answers false on an empty map, even to a thread that has joined all the others.", "quantifier": "all executions of the weak memory machine (any number of threads, any interleaving, any admissible stale value for each load)", "why_tests_cant": "Store buffering across the cells of a node needs particular hardware and timing; and the absence of leftovers is a claim about all executions.", "anchors": ["src/raw/mod.rs: Raw::remove, Raw::prune, Raw::is_empty", "src/raw/debug.rs: assert_pruned"]}
{"id": "C64", "title": "Elements that must not change threads", "statement": "The collections can be sent to or shared with other threads only if their elements can: ConMap if and only if keys and values are Send and Sync, CloneConMap and ConSet if and only if keys and values (elements) are Send (for Send) or Sync (for Sync), in each case together with the hasher builder; iterators never leave their thread. So in a program the compiler accepts, an element that is destructed in a thread other than the one it came into being in (handed over, made by a closure, or cloned) is of a type that is Send; and an element a call returns a reference to came into being in the same thread, or is of a type that may be sent or shared.", "quantifier": "all type arguments; all executions of the weak memory machine with arbitrary user code, all assignments of sessions to threads, any thread the collector may run in", "why_tests_cant": "Which thread runs a deferred destructor depends on which thread happens to pin at the right moment; compile-fail tests try a few type arguments and cannot see destructors run by the collector.", "anchors": ["src/raw/mod.rs: struct Raw, Raw::traverse (defer_destroy), Raw::remove (defer_destroy)", "src/map.rs: struct ConMap, MapPayload", "src/clonemap.rs: struct CloneConMap", "src/set.rs: struct ConSet", "src/raw/iterator.rs: struct Iter", "src/tests/compile_fail.rs"]}
{"id": "C65", "title": "Guards of any collector will do", "statement": "The methods of raw::Raw may be given any guard: whatever collectors the guards passed to the calls belong to, no call touches a destroyed node. (In particular, this holds if all guards in force at any one time belong to the same collector, as is always the case for ConMap, CloneConMap, ConSet and the iterators, which use the default one.)", "quantifier": "all executions of the machine, all assignments of guards to collectors, where each collector waits for its own guards only", "why_tests_cant": "A missing wait shows only if the collector runs in a small window; and the positive part is a claim about all schedules.", "anchors": ["src/raw/mod.rs: Raw::insert, Raw::get, Raw::get_or_insert_with, Raw::remove, Raw::prune", "src/raw/iterator.rs: Iter::new"]}
{"id": "C66", "title": "The collections on weak memory, without locks", "statement": "On a processor with weak memory, in programs whose threads need not synchronise at all: every single-key call of ConMap, CloneConMap and ConSet either takes effect at one instant during the call (insert always does), returning what a plain map with that instant's content returns, or changes nothing and returns what a plain map returns with the content of an instant before its return; if that instant lies before the call, then whatever has been done to the key since was done by calls the caller had not been told about by any synchronisation. A caller that was told of all earlier changes of the key (others may be changing it right now) sees atomic calls as on sequentially consistent memory. extend: last one wins; parallel extend: every key of the input ends up bound to one of the input's elements for it, other keys are untouched; a clone made by one who was told of all changes, while nobody starts a new one, is exact.", "quantifier": "all programs, all numbers of threads and maps, all schedules, all choices of old values by the memory system, all hash functions, all call arguments", "why_tests_cant": "Weak-memory behaviours depend on the processor and the compiler and hardly show up in tests on x86.", "anchors": ["src/map.rs: ConMap::insert, get, remove, get_or_insert*, Extend, Clone", "src/clonemap.rs: CloneConMap::insert, get, remove, get_or_insert*, Extend, Clone", "src/set.rs: ConSet::insert, get, contains, remove, Extend", "src/raw/mod.rs: Raw::insert, Raw::get, Raw::remove, Raw::get_or_insert_with"]}
{"id": "C67", "title": "Weak memory at the granularity of the code", "statement": "On a processor with weak memory, with other threads interleaved not only between the steps of a call but also between an atomic access and what the code does next (reading the data node a load has found, handing the node a compare-and-set has unlinked to the collector, returning): every history has a causal linearization that leads to the content of the map, and is linearizable if calls about the same key are synchronised; no call ever follows a pointer to a destroyed node; what a call returns references to stays intact under its guard; a node that is unlinked but not yet handed over is unreachable, intact and will be handed over by exactly one call.", "quantifier": "all executions: all schedules of arbitrarily many threads at this granularity, all choices of old values by the memory system, all moments of destruction the collector's contract allows, all hash functions and call arguments", "why_tests_cant": "The windows between an access and what follows it are a few instructions wide, and stale values hardly show up in tests on x86.", "anchors": ["src/raw/mod.rs: Raw::traverse, Raw::get, Raw::remove, Raw::prune, Raw::is_empty", "src/raw/iterator.rs: Iter::next"]}
{"id": "C68", "title": "References do not outlive what keeps them alive", "statement": "In every program that the compiler accepts, given the lifetimes in the signatures of the raw interface (get, insert, get_or_insert_with, remove, Iter::new, Iter::next), nothing is accessed after its memory was given back: a reference to an element is intact whenever it is used, no matter who has replaced or removed the element since, when guards, iterators and the map itself are dropped and what the collector does; no call and no iterator touches a map, or a node, that is gone. The signatures demand no less than needed: leaving out any one of these lifetime bounds (but for the bound by the map of what insert and remove return, which is not needed) admits a program with a use after free.", "quantifier": "all programs, threads and schedules, all weak-memory behaviours and user code, all moments at which references are used and guards, iterators and the map are dropped; all assignments of lifetime bounds to the six signatures", "why_tests_cant": "The compile-fail tests of the crate try three programs; that the bounds suffice is a statement about all programs, and iterator.rs extends lifetimes with transmute, so the compiler does not check them against the code.", "anchors": ["src/raw/mod.rs: Raw::get, Raw::insert, Raw::get_or_insert_with, Raw::remove, load_data, impl Drop for Raw", "src/raw/iterator.rs: extend_lifetime, Iter, Iter::new, Iter::next", "src/tests/compile_fail.rs: CantExtendBeyondDestroy, DoesntOutliveIterator"]}
{"id": "C69", "title": "Keys are what Eq says, in whatever form they are named", "statement": "Let Eq, Hash and Borrow of the key type and of all types it is looked up by obey the contracts of the standard library, and nothing more: different objects may be equal keys (and elements tell them apart), a borrowed form may be of any type. Then every concurrent history of get, insert, get_or_insert_with and remove, each call naming its key by an own key or by a borrowed form of any type, is linearizable with respect to a plain list of elements, on which everything is decided by the user's own comparison of an element with the argument of the call; the list never has two elements with equal keys, and a pass never yields two. Without fences: the same with calls about equal keys ordered by happens-before, and is_empty and iterations see the list as it was, for each argument, at some place that happens-before allows; and linearizable if the user's program synchronises calls about equal keys. If a borrowed form hashes differently, a lookup may miss an element that is there.", "quantifier": "all types and implementations of Eq, Hash and Borrow that obey the contracts, all programs, schedules and weak-memory behaviours", "why_tests_cant": "It quantifies over user types and over all schedules.", "anchors": ["src/raw/mod.rs: Raw::get, Raw::remove, Raw::get_or_insert_with, Raw::traverse, TraverseState::key, Raw::hash", "src/raw/config.rs: Config"]}
{"id": "C70", "title": "Cloning elements is invisible but for the clones", "statement": "The map clones elements when it replaces a node, and when it takes another attempt at an insertion (of a CloneConMap this calls the Clone of the user's keys and values). Let a clone have an equal key, and otherwise be what it likes, different each time. Then every concurrent history of get, insert, get_or_insert_with and remove is that of a plain list that holds the very elements inserted, but that each returned element may be a clone of a clone of ... the one the list returns; nothing fails; and a pass never yields two elements with equal keys. If clones are equal to their originals, the history is linearizable with respect to the list itself. Without fences: the same with calls about equal keys ordered by happens-before, and is_empty and iterations see the list as it was (up to cloning), for each argument, at some place that happens-before allows; and as above if the user's program synchronises calls about equal keys.", "quantifier": "all types and implementations of Eq, Hash, Borrow (lawful) and Clone (keeping the key), all programs, schedules, weak-memory behaviours and results of Clone", "why_tests_cant": "It quantifies over user types, over what Clone returns each time and over all schedules.", "anchors": ["src/raw/mod.rs: Raw::traverse, Raw::remove, TraverseState::payload", "src/clonemap.rs: CloneMapPayload"]}
{"id": "C71", "title": "An iteration is one lookup per key, in real time", "statement": "Every concurrent history of get, insert, get_or_insert_with and remove has a linearization into which the iterations and calls of is_empty of the same run fit: each finished iteration has, for every key, one place in it, between the calls that returned before the iteration was invoked and those invoked after it returned, and yields for this key exactly the element the map has at this place (or none); is_empty returning true has one place for all keys, where the map is empty; and the places of a call invoked after another one returned are not before those of the other. So, e.g., a key inserted before an iteration was invoked, and never removed, is yielded. The places of different keys may differ: an iteration may yield a late insertion and miss an earlier one. The same with the user's own comparisons (C69) and, up to cloning, the user's own Clone (C70). Without fences the same holds with the causal order of C39: if an iteration (or is_empty returning true) happens before another one, it does not look any key up later than the other. A key whose insertion happens before an iteration, and that nobody removes, is yielded. And for programs that synchronise (as in C41, also between iterations and calls about single keys) there is again a linearization in real time into which the iterations fit in real time. Both also hold at the granularity of the code (C67).", "quantifier": "all programs, schedules, keys, hash functions, iterations; all lawful Eq, Hash, Borrow and Clone; executions of the weak memory model", "why_tests_cant": "It quantifies over all schedules, and over what all iterations of a run see together.", "anchors": ["src/raw/iterator.rs: Iter::next, Iter::new", "src/raw/mod.rs: Raw::is_empty, Raw::get, Raw::insert, Raw::remove"]}
