import Verif.Model.Reuse
import Verif.Model.Weak
/-
The machine at the granularity of the code. In `Verif/Model/Machine.lean` one step is an atomic access and everything the code does between it and the next one: looking at the data node found, running
user code, building the next node, handing the unlinked node to the collector, returning. Here these are two steps of a session, with anything happening in between:

* the access: one load, compare-and-set or fetch_or;
* the rest: the contents of the data node the access has found a pointer to is read now; the node that a compare-and-set has unlinked is handed to the collector (`defer_destroy`) now; a node that could not
  be published is dropped now; if the next access is a compare-and-set, the node it is to publish is allocated and filled in now; the call returns now.

The allocator gives out any address not in use, as in `Verif/Model/Reuse.lean`.
-/
namespace Contrie
variable {K P : Type} [DecidableEq K]

/-- A session: as `Thread`; besides
* `own`: the node built for the compare-and-set to come (`owned_data`, `src/raw/mod.rs:236-240`; `Owned::new`, `:478`, `:607`);
* `got`: the access has been made; it has found this word, and it did (or did not) store something. -/
structure FThread (K P : Type) where
  th : Thread K P
  own : Option Nat
  got : Option (Word × Bool)

/-- A session that has done nothing yet. -/
def FThread.init : FThread K P := ⟨Thread.init, none, none⟩

/-- Shared memory (nodes not yet published are in it, too) and the sessions. The field `next` of the memory is not used. -/
structure FState (K P : Type) where
  m : Mem P
  thr : Nat → FThread K P

/-- Empty trie, nobody pinned. -/
def FState.init : FState K P := ⟨Mem.init, fun _ => FThread.init⟩

/-- The part of the state that `State` has, too. -/
def FState.plain (s : FState K P) : State K P := ⟨s.m, fun t => (s.thr t).th⟩

/-- Is it a data node? (the tag of the pointers to it) -/
def Node.isData : Node P → Bool
  | .data _ => true
  | .inner _ _ => false

/-- The place of an inner node in the trie (ghost, see `Node.inner`). -/
def Mem.pathOf (m : Mem P) (w : Word) : List (Fin 16) :=
  match w.ptr.bind m.deref with
  | some (.inner _ q) => q
  | _ => []

/-- The node that has to be built before the access: `with` of `replace` in `traverse` (`src/raw/mod.rs:582`, `:605-607`, `:624-632`), in `remove` (`:778-782`; nothing if no element is
left), the copy in `prune` (`:478`; nothing if it puts null or the only leaf in place). -/
def PC.builds (m : Mem P) : PC K P → Option (Node P)
  | .travCas _ _ _ _ _ _ _ new _ => some new
  | .remCas _ _ _ _ _ new _ => if new.isEmpty then none else some (.data new)
  | .pruneCas _ child acc _ => match acc.decide.1 with
    | .copy cells => some (.inner cells (m.pathOf child))
    | .word _ => none
  | _ => none

/-- The same, of the outcome of a step. -/
def Next.builds (m : Mem P) : Next K P → Option (Node P)
  | .goto pc _ => pc.builds m
  | _ => none

/-- What an iteration looks at in a step without an access to an inner node: the top of the stack, `src/raw/iterator.rs:84-91`. -/
def PC.top : PC K P → Word
  | .iterNext ((w, _) :: _) _ => w
  | _ => Word.null

/-- Does the access store, if it finds `w`? The compare-and-sets of `traverse` (`src/raw/mod.rs:536`, weak), `remove` (`:723`, weak), `prune` (`:496`), and its fetch_or (`:445`). -/
def PC.storesIf (weak : Bool) (w : Word) : PC K P → Bool
  | .travCas _ _ _ _ _ _ node _ _ => decide (w = node) && !weak
  | .remCas _ _ _ _ node _ _ => decide (w = node) && !weak
  | .prune .. => true
  | .pruneCas _ child _ _ => decide (w = child)
  | _ => false

/-- What the access stores. -/
def PC.newWord (own : Option Nat) (w : Word) : PC K P → Word
  | .travCas _ _ _ _ _ _ _ new _ => ⟨own, false, new.isData⟩
  | .remCas _ _ _ _ _ new _ => if new.isEmpty then Word.null else ⟨own, false, true⟩
  | .prune .. => w.condemn
  | .pruneCas _ _ acc _ => match acc.decide.1 with
    | .copy _ => ⟨own, false, false⟩
    | .word w' => w'
  | _ => w

/-- The access itself: what it found, and whether it stored. `none`: the cell is not there any more. -/
def PC.fineAccess (m : Mem P) (weak : Bool) (own : Option Nat) (pc : PC K P) : Option (Mem P × Word × Bool) :=
  match pc.access .code with
  | none => some (m, pc.top, false)
  | some (loc, _) => match m.read loc with
    | none => none
    | some w => if pc.storesIf weak w then some (m.write (pc.newWord own w) loc, w, true) else some (m, w, false)

/-- The node that has been unlinked if the access stored: `src/raw/mod.rs:543-550`, `:730-734`, `:500-503`. -/
def PC.unlinks : PC K P → Option Nat
  | .travCas _ _ _ _ _ _ node _ (.replace _) => node.ptr
  | .remCas _ _ _ _ node _ _ => node.ptr
  | .pruneCas _ child _ _ => child.ptr
  | _ => none

/-- What follows the access in `get`, `src/raw/mod.rs:668-681`; `w` is what the access has found, `m` the memory as it is now. -/
def fineGet (cfg : Config K P) (m : Mem P) (w : Word) (key : K) (hash : BitVec 64) : Next K P :=
  match w.ptr with
  | none => .ret (.op (.opt none)) []
  | some a =>
    if w.data then
      match m.loadData w with
      | .error f => .fail f
      | .ok items =>
        match items.find? (fun l => decide (cfg.key l = key)) with
        | none => .ret (.op (.opt none)) []
        | some p => .ret (.op (.opt (some p))) [a]
    else .goto (.get key (hash >>> LEVEL_BITS) (.slot a (bitsAt hash 0))) false

/-- What follows the load in `traverse`, `src/raw/mod.rs:562-653`. -/
def fineTrav (cfg : Config K P) (m : Mem P) (w : Word) (st : TState K P) (hash : BitVec 64) (mode : Mode)
    (shift : Nat) (cur : Loc) (parent : Option (Loc × Word)) : Next K P :=
  if w.cond then
    match parent with
    | none => .fail .condemnedRoot
    | some (p, child) => enterPrune p child (.trav st hash mode)
  else match w.ptr with
  | none => .goto (.travCas (.created st.payload) hash mode shift cur parent w (.data [st.payload]) .fresh) st.runsClosure
  | some a =>
    if w.data then
      match m.loadData w with
      | .error f => .fail f
      | .ok [] => .fail .emptyData
      | .ok (d0 :: rest) =>
        if cfg.key d0 ≠ st.key cfg ∧ shift < HASH_BITS then
          if (d0 :: rest).length ≠ 1 then .fail .shallowCollision
          else
            .goto (.travCas st hash mode shift cur parent w
              (.inner (upd (fun _ => Word.null) (bitsAt (cfg.hash (cfg.key d0)) shift) w) (pathTo hash shift)) .split) false
        else
          let found := (d0 :: rest).find? (fun l => decide (cfg.key l = st.key cfg))
          if found.isNone ∨ mode = .overwrite then
            .goto (.travCas (.created st.payload) hash mode shift cur parent w
              (.data ((d0 :: rest).filter (fun l => decide (cfg.key l ≠ st.key cfg)) ++ [st.payload])) (.replace found)) st.runsClosure
          else finishTrav mode (found.map .existing) [a]
    else
      if HASH_BITS ≤ shift then .fail .shiftOverflow
      else .goto (.trav st hash mode (shift + LEVEL_BITS) (.slot a (bitsAt hash shift)) (some (cur, w))) false

/-- The new element, for `get_or_insert_with`: it is read from the node just published, which may have been replaced by others meanwhile (`load_data`, then `&new[0]`, `src/raw/mod.rs:586-587`, or
`new.last().unwrap()`, `:635-636`; `pick` is the one or the other). -/
def fineNewest (m : Mem P) (own : Option Nat) (mode : Mode) (pick : List P → Option P) : Next K P :=
  match m.loadData ⟨own, false, true⟩ with
  | .error f => .fail f
  | .ok l => match pick l with
    | none => .fail .emptyData
    | some p => finishTrav mode (some (.new p)) own.toList

/-- What follows the compare-and-set in `traverse`, `src/raw/mod.rs:541-561` and the callers of `replace`: `:582-592`, `:611`, `:633-640`. `own`: the node that was to be published. -/
def fineTravCas (m : Mem P) (ok : Bool) (own : Option Nat) (st : TState K P) (hash : BitVec 64) (mode : Mode)
    (shift : Nat) (cur : Loc) (parent : Option (Loc × Word)) (node : Word) (kind : TKind P) : Next K P :=
  if ok then
    match kind with
    | .split => .goto (.trav st hash mode shift cur parent) false
    | .fresh =>
      match mode with
      | .overwrite => finishTrav mode none []
      | .ifMissing => fineNewest m own mode List.head?
    | .replace found =>
      match node.ptr with
      | none => .fail .badAccess
      | some old =>
        if node.data = false then .fail .retireNonData
        else
          match found, mode with
          | none, .ifMissing => fineNewest m own mode List.getLast?
          | some e, _ => finishTrav mode (some (.existing e)) [old]
          | none, .overwrite => finishTrav mode none []
  else .goto (.trav st hash mode shift cur parent) false

/-- What follows the load in `remove`, `src/raw/mod.rs:746-796`. -/
def fineRem (cfg : Config K P) (m : Mem P) (w : Word) (key : K) (shift : Nat) (cur : Loc) (levels : List (Loc × Word)) : Next K P :=
  match w.ptr with
  | none => .ret (.op (.opt none)) []
  | some a =>
    if w.cond then
      match levels with
      | [] => .fail .condemnedRoot
      | (p, child) :: _ => enterPrune p child (.rem key)
    else if w.data then
      match m.loadData w with
      | .error f => .fail f
      | .ok items =>
        match (items.filter (fun l => decide (cfg.key l = key))).getLast? with
        | none => .ret (.op (.opt none)) []
        | some deleted =>
          .goto (.remCas key shift cur levels w (items.filter (fun l => decide (cfg.key l ≠ key))) deleted) false
    else
      if MAX_LEVELS ≤ levels.length then .fail .levelsOverflow
      else if HASH_BITS ≤ shift then .fail .shiftOverflow
      else .goto (.rem key (shift + LEVEL_BITS) (.slot a (bitsAt (cfg.hash key) shift)) ((cur, w) :: levels)) false

/-- What follows the compare-and-set in `remove`, `src/raw/mod.rs:728-745`, `:777-804`. -/
def fineRemCas (ok : Bool) (key : K) (shift : Nat) (cur : Loc) (levels : List (Loc × Word)) (node : Word) (deleted : P) : Next K P :=
  if ok then
    match node.ptr with
    | none => .fail .badAccess
    | some old => if node.data = false then .fail .retireNonData else enterClean deleted old levels
  else .goto (.rem key shift cur levels) false

/-- What follows a load of the counting loop of `remove`, `src/raw/mod.rs:805-825`. -/
def fineCount (w : Word) (deleted : P) (ref : Nat) (parent : Loc) (child : Word) (rest : List (Loc × Word))
    (i : Fin 16) (cnt : Nat) : Next K P :=
  match child.ptr with
  | none => .fail .badPruneChild
  | some _ =>
    let cnt' := if w.ptr.isSome then cnt + 1 else cnt
    if h : i.val + 1 < 16 then .goto (.count deleted ref parent child rest ⟨i.val + 1, h⟩ cnt') false
    else if 1 < cnt' then .ret (.op (.opt (some deleted))) [ref]
    else enterPrune parent child (.clean deleted ref rest)

/-- What follows a fetch_or in `prune`, `src/raw/mod.rs:447-494`. -/
def finePrune (m : Mem P) (w : Word) (parent : Loc) (child : Word) (i : Fin 16) (acc : PAcc) (k : Cont K P) : Next K P :=
  match child.ptr with
  | none => .fail .badPruneChild
  | some _ =>
    match acc.push m i w with
    | .error f => .fail f
    | .ok acc' =>
      if h : i.val + 1 < 16 then .goto (.prune parent child ⟨i.val + 1, h⟩ acc' k) false
      else if child.cond ∨ child.data then .fail .condemnedChild
      else .goto (.pruneCas parent child acc' k) false

/-- What follows the compare-and-set in `prune`, `src/raw/mod.rs:498-507`. -/
def finePruneCas (ok : Bool) (child : Word) (acc : PAcc) (k : Cont K P) : Next K P :=
  match child.ptr with
  | none => .fail .badPruneChild
  | some _ => if ok then afterPrune acc.decide.2 k else afterPrune .casFail k

/-- What follows in a round of `Iter::next`, `src/raw/iterator.rs:84-108`. -/
def fineIterNext (m : Mem P) (w : Word) (levels : List (Word × Nat)) (out : List P) : Next K P :=
  match levels with
  | [] => .ret (.list out) []
  | (top, idx) :: rest =>
    match top.ptr with
    | none => .goto (.iterNext rest out) false
    | some _ =>
      if top.data then
        match m.loadData w with
        | .error f => .fail f
        | .ok items => match items[idx]? with
          | some p => .goto (.iterNext ((top, idx + 1) :: rest) (out ++ [p])) false
          | none => .goto (.iterNext rest out) false
      else if idx < 16 then
        if MAX_LEVELS + 1 ≤ levels.length then .fail .levelsOverflow
        else .goto (.iterNext ((w, 0) :: (top, idx + 1) :: rest) out) false
      else .goto (.iterNext rest out) false

/-- What follows the access. -/
def PC.fineNext (cfg : Config K P) (m : Mem P) (w : Word) (ok : Bool) (own : Option Nat) : PC K P → Next K P
  | .get key hash _ => fineGet cfg m w key hash
  | .isEmpty => .ret (.bool w.ptr.isNone) []
  | .iterNew => .goto (.iterNext [(w, 0)] []) false
  | .iterNext levels out => fineIterNext m w levels out
  | .trav st hash mode shift cur parent => fineTrav cfg m w st hash mode shift cur parent
  | .travCas st hash mode shift cur parent node _ kind => fineTravCas m ok own st hash mode shift cur parent node kind
  | .rem key shift cur levels => fineRem cfg m w key shift cur levels
  | .remCas key shift cur levels node _ deleted => fineRemCas ok key shift cur levels node deleted
  | .count deleted ref parent child rest i cnt => fineCount w deleted ref parent child rest i cnt
  | .prune parent child i acc k => finePrune m w parent child i acc k
  | .pruneCas _ child acc k => finePruneCas ok child acc k

/-- `Box::from_raw` of a node nobody else has seen, then drop (`src/raw/mod.rs:551-560`, `:736-740`, `:504-507`): the memory is given back.
(That `drop_data` has the wrong type there, and what it does to the elements, is the subject of C31 and C46, `Verif/Model/Ledger.lean`.) -/
def Mem.giveBack (m : Mem P) (o : Option Nat) : Mem P :=
  match o with
  | none => m
  | some a => { m with mem := upd m.mem a none }

/-- `defer_destroy` of what has been unlinked, if anything. -/
def Mem.handOver (m : Mem P) (o : Option Nat) : Mem P :=
  match o with
  | none => m
  | some a => m.retire a

/-- `Owned::new`: a node is created at address `a`, if there is one to create. -/
def Mem.create (m : Mem P) (a : Nat) (o : Option (Node P)) : Mem P :=
  match o with
  | none => m
  | some nd => { m with mem := upd m.mem a (some nd), retired := upd m.retired a none, freed := upd m.freed a false }

/-- The node only this session knows: the one built and not (yet) published. -/
def FThread.owned (f : FThread K P) : Option Nat :=
  match f.got with
  | some (_, true) => none
  | _ => f.own

/-- Has the session unlinked a node that it has not handed to the collector yet? Between the compare-and-set and `defer_destroy` no user code runs
(`src/raw/mod.rs:541-550`, `:728-734`, `:498-503`), so no unwinding can begin there. -/
def FThread.unlinked (f : FThread K P) : Option Nat :=
  match f.got, f.th.run with
  | some (_, true), some c => c.pc.unlinks
  | _, _ => none

/-- A step, when the allocator offers the address `a` (it matters only if the step allocates). `tick t weak`: the session makes its access, or, if that has been made, does the rest. -/
def fstep (cfg : Config K P) (s : FState K P) (a : Nat) (l : Label K P) : Option (FState K P × Option (Event K P)) :=
  if s.m.inUse a then none else
  match l with
  | .pin t =>
    let f := s.thr t
    match f.th.pin, f.th.failed with
    | none, none => some (⟨s.m.bump, upd s.thr t { f with th := { f.th with pin := some s.m.clock, refs := [] } }⟩, none)
    | _, _ => none
  | .unpin t =>
    let f := s.thr t
    match f.th.pin, f.th.run, f.th.failed with
    | some _, none, none => some (⟨s.m.bump, upd s.thr t { f with th := { f.th with pin := none, refs := [] } }⟩, none)
    | _, _, _ => none
  | .call t r =>
    let f := s.thr t
    match f.th.pin, f.th.run, f.th.failed with
    | some _, none, none =>
      some (⟨s.m.bump, upd s.thr t { f with th := { f.th with run := some ⟨s.m.clock, r, startPC cfg r, 0, 0⟩ } }⟩, some (.inv s.m.clock r))
    | _, _, _ => none
  | .tick t weak =>
    let f := s.thr t
    match f.th.run with
    | none => none
    | some c =>
      match f.got with
      | none =>
        match c.pc.fineAccess s.m weak f.own with
        | none => some (⟨s.m.bump, upd s.thr t { f with th := { f.th with run := none, failed := some .badAccess } }⟩, none)
        | some (m', w, ok) => some (⟨m'.bump, upd s.thr t { f with got := some (w, ok) }⟩, none)
      | some (w, ok) =>
        let n := c.pc.fineNext cfg s.m w ok f.own
        let m1 := if ok then s.m.handOver c.pc.unlinks else s.m.giveBack f.own
        let b := n.builds s.m
        some (⟨(m1.create a b).bump, upd s.thr t ⟨f.th.apply c n, b.map (fun _ => a), none⟩⟩, n.event c.inv)
  | .abort t =>
    let f := s.thr t
    match f.th.run, f.unlinked with
    | some _, none =>
      some (⟨(s.m.giveBack f.owned).bump, upd s.thr t ⟨{ f.th with pin := none, refs := [], run := none }, none, none⟩⟩, none)
    | _, _ => none
  | .free x => some (⟨{ s.m.bump with freed := upd s.m.freed x true }, s.thr⟩, none)
  | .idle => some (⟨s.m.bump, s.thr⟩, none)

/-- An execution at the granularity of the code: as `RExec`. -/
structure FExec (cfg : Config K P) where
  st : Nat → FState K P
  lab : Nat → Label K P
  addr : Nat → Nat
  ev : Nat → Option (Event K P)
  init : st 0 = FState.init
  step : ∀ i, fstep cfg (st i) (addr i) (lab i) = some (st (i + 1), ev i)
  enabled : ∀ i, (lab i).enabled (st i).plain
  wf : ∀ i, (lab i).WF cfg

end Contrie
