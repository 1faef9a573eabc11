import Verif.Model.Basic
import Verif.Spec.Map
/-
The concurrent machine: an executable small-step model of `src/raw/mod.rs` and `src/raw/iterator.rs`.
One `tick` is one atomic access of the code to shared memory (load, CAS, fetch_or) plus the local
computation up to the next access. Memory is sequentially consistent (simplification).
-/
namespace Contrie

/-- Everything that would be a panic, an out-of-contract memory access or an overflow in the code. -/
inductive Failure where
  /-- dereference of a destroyed / never allocated / wrong-kind node (undefined behaviour in the code) -/
  | badAccess
  /-- `load_data`'s assertion and expect, `src/raw/mod.rs:227-233` -/
  | badData
  /-- "Condemned the root!", `src/raw/mod.rs:570`, `:752` -/
  | condemnedRoot
  /-- "Empty data nodes must not be kept around", `src/raw/mod.rs:593` -/
  | emptyData
  /-- "Collision node not deep enough", `src/raw/mod.rs:595` -/
  | shallowCollision
  /-- `hash >> shift` with shift >= 64 (`src/raw/mod.rs:604`, `:648`, `:792`) -/
  | shiftOverflow
  /-- `assert!(flags.contains(DATA))` before `defer_destroy`, `src/raw/mod.rs:544`, `:731` -/
  | retireNonData
  /-- "Child passed to prune must not be data" / "Null child node passed to prune", `src/raw/mod.rs:423-427` -/
  | badPruneChild
  /-- "Attempt to replace condemned pointer or prune data node", `src/raw/mod.rs:487-491` -/
  | condemnedChild
  /-- `ArrayVec::push` beyond capacity, `src/raw/mod.rs:791`, `src/raw/iterator.rs:71`, `:104` -/
  | levelsOverflow
  /-- "Should have created one for me", `src/raw/mod.rs:704` -/
  | noneCreated
deriving DecidableEq, Repr

/-- Requests to the raw trie. -/
inductive Req (K P : Type) where
  | op (o : Op K P)
  | isEmpty
  | iter

/-- Results of requests. -/
inductive Res (P : Type) where
  | op (r : Ret P)
  | bool (b : Bool)
  | list (l : List P)

/-- Shared memory. `retired` maps a node handed to `defer_destroy` to the instant of the hand-over, `freed`
are the nodes the collector has destroyed. Addresses stand for allocation identities: they are never
reused (the justification of comparing machine addresses instead is property C34).
`clock` is a ghost counter of steps. -/
structure Mem (P : Type) where
  root : Word
  mem : Nat → Option (Node P)
  next : Nat
  retired : Nat → Option Nat
  freed : Nat → Bool
  clock : Nat

/-- `Raw::with_hasher`, `src/raw/mod.rs:362-379`: null root, nothing allocated. -/
def Mem.init {P : Type} : Mem P where
  root := Word.null
  mem := fun _ => none
  next := 0
  retired := fun _ => none
  freed := fun _ => false
  clock := 0

variable {K P : Type} [DecidableEq K]

/-- Dereference; destroyed memory is inaccessible. -/
def Mem.deref (m : Mem P) (a : Nat) : Option (Node P) :=
  if m.freed a then none else m.mem a

/-- Load of an `Atomic<Inner>`. -/
def Mem.read (m : Mem P) : Loc → Option Word
  | .root => some m.root
  | .slot a i => match m.deref a with
    | some (.inner cells _) => some (cells i)
    | _ => none

/-- Store into an `Atomic<Inner>` (only used by the successful CAS and fetch_or below). -/
def Mem.write (m : Mem P) (w : Word) : Loc → Mem P
  | .root => { m with root := w }
  | .slot a i => match m.mem a with
    | some (.inner cells path) => { m with mem := upd m.mem a (some (.inner (upd cells i w) path)) }
    | _ => m

/-- `Owned::new` / `Box::new`: allocate a node. -/
def Mem.alloc (m : Mem P) (n : Node P) : Mem P :=
  { m with mem := upd m.mem m.next (some n), next := m.next + 1 }

/-- `pin.defer_destroy(node)` -/
def Mem.retire (m : Mem P) (a : Nat) : Mem P :=
  { m with retired := upd m.retired a (some m.clock) }

/-- `load_data`, `src/raw/mod.rs:226-234`. Data nodes are immutable, therefore reading them is not a separate
atomic step. -/
def Mem.loadData (m : Mem P) (w : Word) : Except Failure (List P) :=
  if w.data = false then .error .badData
  else match w.ptr with
    | none => .error .badData
    | some a => match m.deref a with
      | some (.data items) => .ok items
      | _ => .error .badAccess

/-- `TraverseState`, `src/raw/mod.rs:272-276` (the temporary `Empty` state is never visible between accesses). -/
inductive TState (K P : Type) where
  | created (p : P)
  | future (k : K) (f : K → P)

/-- `TraverseState::key`, `src/raw/mod.rs:283-289` -/
def TState.key (cfg : Config K P) : TState K P → K
  | .created p => cfg.key p
  | .future k _ => k

/-- `TraverseState::payload`, `src/raw/mod.rs:290-302`: the payload; afterwards the state is `created` of it. -/
def TState.payload : TState K P → P
  | .created p => p
  | .future k f => f k

/-- Does `TraverseState::payload` run the user's closure? (`src/raw/mod.rs:294-298`) -/
def TState.runsClosure : TState K P → Bool
  | .created _ => false
  | .future _ _ => true

/-- `TraverseMode`, `src/raw/mod.rs:310-314` -/
inductive Mode where
  | overwrite
  | ifMissing
deriving DecidableEq, Repr

/-- Accumulator of the marking loop of `prune`, `src/raw/mod.rs:428-431`. -/
structure PAcc where
  allowContract : Bool
  childCnt : Nat
  lastLeaf : Option Word
  newChild : Fin 16 → Word

/-- `src/raw/mod.rs:428-431` -/
def PAcc.init : PAcc := ⟨true, 0, none, fun _ => Word.null⟩

/-- `PruneResult`, `src/raw/mod.rs:318-327` -/
inductive PruneResult where
  | null | singleton | copy | casFail
deriving DecidableEq, Repr

/-- What the thread does after `prune` returns. -/
inductive Cont (K P : Type) where
  /-- restart `traverse`, `src/raw/mod.rs:577-579` -/
  | trav (st : TState K P) (hash : BitVec 64) (mode : Mode)
  /-- restart `remove`, `src/raw/mod.rs:757-759` -/
  | rem (key : K)
  /-- next round of the clean-up loop of `remove`, `src/raw/mod.rs:800-825`;
  `rest` are the levels still to be visited, `ref` is the node holding the deleted payload -/
  | clean (deleted : P) (ref : Nat) (rest : List (Loc × Word))

/-- Which `replace` call of `traverse` a pending CAS belongs to. -/
inductive TKind (P : Type) where
  /-- `src/raw/mod.rs:582` -/
  | fresh
  /-- `src/raw/mod.rs:611` -/
  | split
  /-- `src/raw/mod.rs:633`, with the `result` of `:618-621` -/
  | replace (found : Option P)

/-- Program counters: the next atomic access and the local variables alive. -/
inductive PC (K P : Type) where
  /-- `get`, load at `src/raw/mod.rs:667` -/
  | get (key : K) (hash : BitVec 64) (cur : Loc)
  /-- `is_empty`, load at `src/raw/mod.rs:839` -/
  | isEmpty
  /-- `Iter::new`, load at `src/raw/iterator.rs:69` -/
  | iterNew
  /-- `Iter::next`, loop head `src/raw/iterator.rs:84`; `levels` top first; `out` = yielded so far -/
  | iterNext (levels : List (Word × Nat)) (out : List P)
  /-- `traverse`, load at `src/raw/mod.rs:530`; `hash` is computed once, `:525` -/
  | trav (st : TState K P) (hash : BitVec 64) (mode : Mode) (shift : Nat) (cur : Loc) (parent : Option (Loc × Word))
  /-- `traverse`, CAS at `src/raw/mod.rs:536` -/
  | travCas (st : TState K P) (hash : BitVec 64) (mode : Mode) (shift : Nat) (cur : Loc) (parent : Option (Loc × Word))
      (node : Word) (new : Node P) (kind : TKind P)
  /-- `remove`, load at `src/raw/mod.rs:720`; `levels` deepest first -/
  | rem (key : K) (shift : Nat) (cur : Loc) (levels : List (Loc × Word))
  /-- `remove`, CAS at `src/raw/mod.rs:723` -/
  | remCas (key : K) (shift : Nat) (cur : Loc) (levels : List (Loc × Word))
      (node : Word) (new : List P) (deleted : P)
  /-- counting loop of `remove`, load at `src/raw/mod.rs:808` of cell `i` -/
  | count (deleted : P) (ref : Nat) (parent : Loc) (child : Word) (rest : List (Loc × Word))
      (i : Fin 16) (cnt : Nat)
  /-- marking loop of `prune`, fetch_or at `src/raw/mod.rs:445` of cell `i` -/
  | prune (parent : Loc) (child : Word) (i : Fin 16) (acc : PAcc) (k : Cont K P)
  /-- CAS of `prune`, `src/raw/mod.rs:496` -/
  | pruneCas (parent : Loc) (child : Word) (acc : PAcc) (k : Cont K P)

/-- Result of a tick for the thread: go on, return (`refs`: nodes the returned reference points into), fail.
`ran`: the user closure ran during this tick. -/
inductive Next (K P : Type) where
  | goto (pc : PC K P) (ran : Bool)
  | ret (r : Res P) (refs : List Nat)
  | fail (f : Failure)

/-- Entry of `prune` up to the first fetch_or, `src/raw/mod.rs:423-431`. -/
def enterPrune (parent : Loc) (child : Word) (k : Cont K P) : Next K P :=
  if child.data then .fail .badPruneChild
  else match child.ptr with
    | none => .fail .badPruneChild
    | some _ => .goto (.prune parent child 0 PAcc.init k) false

/-- The clean-up loop of `remove`, `src/raw/mod.rs:799-828`, up to the first load of a round. -/
def enterClean (deleted : P) (ref : Nat) : List (Loc × Word) → Next K P
  | [] => .ret (.op (.opt (some deleted))) [ref]
  | (parent, child) :: rest => match child.ptr with
    | none => .fail .badPruneChild
    | some _ => .goto (.count deleted ref parent child rest 0 0) false

/-- Return of `prune` to its caller. -/
def afterPrune (r : PruneResult) : Cont K P → Next K P
  | .trav st hash mode => .goto (.trav st hash mode 0 .root none) false
  | .rem key => .goto (.rem key 0 .root []) false
  | .clean deleted ref rest =>
    if r = .copy then .ret (.op (.opt (some deleted))) [ref]
    else enterClean deleted ref rest

/-- `get`, one round of the loop, `src/raw/mod.rs:666-681`. -/
def tickGet (cfg : Config K P) (m : Mem P) (key : K) (hash : BitVec 64) (cur : Loc) : Next K P :=
  match m.read cur with
  | none => .fail .badAccess
  | some node =>
    match node.ptr with
    | none => .ret (.op (.opt none)) []
    | some a =>
      if node.data then
        match m.loadData node with
        | .error f => .fail f
        | .ok items =>
          match items.find? (fun l => decide (cfg.key l = key)) with
          | none => .ret (.op (.opt none)) []
          | some p => .ret (.op (.opt (some p))) [a]
      else .goto (.get key (hash >>> LEVEL_BITS) (.slot a (bitsAt hash 0))) false

/-- The value `traverse` returns (`Option<ExistingOrNew<&Payload>>`) seen through `insert`
(`src/raw/mod.rs:401-408`, mode `Overwrite`) or `get_or_insert_with` (`src/raw/mod.rs:703-704`, mode `IfMissing`). -/
def finishTrav (mode : Mode) (r : Option (ExistingOrNew P)) (refs : List Nat) : Next K P :=
  match mode with
  | .overwrite => .ret (.op (.opt (r.map ExistingOrNew.intoInner))) refs
  | .ifMissing => match r with
    | none => .fail .noneCreated
    | some e => .ret (.op (.eon e)) refs

/-- The ghost path of a node created by `traverse` at depth `shift / 4` for hash `h`. -/
def pathTo (h : BitVec 64) (shift : Nat) : List (Fin 16) :=
  (List.range (shift / LEVEL_BITS)).map (fun d => bitsAt h (LEVEL_BITS * d))

/-- `traverse`, from the load to the next access, `src/raw/mod.rs:529-653`. -/
def tickTrav (cfg : Config K P) (m : Mem P) (st : TState K P) (hash : BitVec 64) (mode : Mode)
    (shift : Nat) (cur : Loc) (parent : Option (Loc × Word)) : Next K P :=
  match m.read cur with
  | none => .fail .badAccess
  | some node =>
    if node.cond then
      -- src/raw/mod.rs:563-579
      match parent with
      | none => .fail .condemnedRoot
      | some (p, child) => enterPrune p child (.trav st hash mode)
    else match node.ptr with
    | none =>
      -- src/raw/mod.rs:580-582, data_owned (:303-307)
      .goto (.travCas (.created st.payload) hash mode shift cur parent node (.data [st.payload]) .fresh)
        st.runsClosure
    | some a =>
      if node.data then
        match m.loadData node with
        | .error f => .fail f
        | .ok [] => .fail .emptyData
        | .ok (d0 :: rest) =>
          if cfg.key d0 ≠ st.key cfg ∧ shift < HASH_BITS then
            -- src/raw/mod.rs:594-611
            if (d0 :: rest).length ≠ 1 then .fail .shallowCollision
            else
              .goto (.travCas st hash mode shift cur parent node
                (.inner (upd (fun _ => Word.null) (bitsAt (cfg.hash (cfg.key d0)) shift) node)
                  (pathTo hash shift)) .split) false
          else
            -- src/raw/mod.rs:612-643
            let found := (d0 :: rest).find? (fun l => decide (cfg.key l = st.key cfg))
            if found.isNone ∨ mode = .overwrite then
              .goto (.travCas (.created st.payload) hash mode shift cur parent node
                (.data ((d0 :: rest).filter (fun l => decide (cfg.key l ≠ st.key cfg)) ++ [st.payload]))
                (.replace found)) st.runsClosure
            else finishTrav mode (found.map .existing) [a]
      else
        -- src/raw/mod.rs:645-652
        if HASH_BITS ≤ shift then .fail .shiftOverflow
        else .goto (.trav st hash mode (shift + LEVEL_BITS) (.slot a (bitsAt hash shift))
          (some (cur, node))) false

/-- The element just pushed into the new data node: `&new[0]` of the one-element node (`src/raw/mod.rs:586-587`) and
`new.last().unwrap()` (`src/raw/mod.rs:635-636`). Both are applied to a list that was just built by pushing an element; the default `p` is
never used. -/
def Node.newest (p : P) : Node P → P
  | .data items => items.getLast?.getD p
  | .inner _ _ => p

@[simp] theorem Node.newest_one (p q : P) : (Node.data [q]).newest p = q := rfl

@[simp] theorem Node.newest_snoc (p q : P) (l : List P) : (Node.data (l ++ [q])).newest p = q := by simp [Node.newest]

/-- The CAS of `traverse` (`replace`, `src/raw/mod.rs:533-561`) and what follows it. `weak = true`: the weak CAS
fails spuriously. An unsuccessful CAS drops the new node, which was never visible to anyone: in the model the
node is only put into the heap when the CAS succeeds. -/
def tickTravCas (m : Mem P) (weak : Bool) (st : TState K P) (hash : BitVec 64) (mode : Mode)
    (shift : Nat) (cur : Loc) (parent : Option (Loc × Word)) (node : Word) (new : Node P) (kind : TKind P) : Mem P × Next K P :=
  match m.read cur with
  | none => (m, .fail .badAccess)
  | some w =>
    if w = node ∧ weak = false then
      let isData := match new with | .data _ => true | .inner _ _ => false
      let m1 := (m.alloc new).write ⟨some m.next, false, isData⟩ cur
      match kind with
      | .split => (m1, .goto (.trav st hash mode shift cur parent) false)
      | .fresh =>
        -- `delete_previous` is set, but node is null
        match mode with
        | .overwrite => (m1, finishTrav mode none [])
        | .ifMissing => (m1, finishTrav mode (some (.new (new.newest st.payload))) [m.next])
      | .replace found =>
        match node.ptr with
        | none => (m1, .fail .badAccess)
        | some old =>
          if node.data = false then (m1, .fail .retireNonData)
          else
            let m2 := m1.retire old
            match found, mode with
            | none, .ifMissing => (m2, finishTrav mode (some (.new (new.newest st.payload))) [m.next])
            | some e, _ => (m2, finishTrav mode (some (.existing e)) [old])
            | none, .overwrite => (m2, finishTrav mode none [])
    else (m, .goto (.trav st hash mode shift cur parent) false)

/-- `remove`, from the load to the next access, `src/raw/mod.rs:719-796`. The closure of `filter` keeps the last
match in `deleted`. -/
def tickRem (cfg : Config K P) (m : Mem P) (key : K) (shift : Nat) (cur : Loc) (levels : List (Loc × Word)) :
    Next K P :=
  match m.read cur with
  | none => .fail .badAccess
  | some node =>
    match node.ptr with
    | none => .ret (.op (.opt none)) []
    | some a =>
      if node.cond then
        match levels with
        | [] => .fail .condemnedRoot
        | (p, child) :: _ => enterPrune p child (.rem key)
      else if node.data then
        match m.loadData node with
        | .error f => .fail f
        | .ok items =>
          match (items.filter (fun l => decide (cfg.key l = key))).getLast? with
          | none => .ret (.op (.opt none)) []
          | some deleted =>
            .goto (.remCas key shift cur levels node
              (items.filter (fun l => decide (cfg.key l ≠ key))) deleted) false
      else
        if MAX_LEVELS ≤ levels.length then .fail .levelsOverflow
        else if HASH_BITS ≤ shift then .fail .shiftOverflow
        else .goto (.rem key (shift + LEVEL_BITS) (.slot a (bitsAt (cfg.hash key) shift))
          ((cur, node) :: levels)) false

/-- The CAS of `remove` (`replace`, `src/raw/mod.rs:722-745`, `:777-786`) and the entry to the clean-up. -/
def tickRemCas (m : Mem P) (weak : Bool) (key : K) (shift : Nat) (cur : Loc) (levels : List (Loc × Word))
    (node : Word) (new : List P) (deleted : P) : Mem P × Next K P :=
  match m.read cur with
  | none => (m, .fail .badAccess)
  | some w =>
    if w = node ∧ weak = false then
      let m1 := match new with
        | [] => m.write Word.null cur
        | _ :: _ => (m.alloc (.data new)).write ⟨some m.next, false, true⟩ cur
      match node.ptr with
      | none => (m1, .fail .badAccess)
      | some old =>
        if node.data = false then (m1, .fail .retireNonData)
        else (m1.retire old, enterClean deleted old levels)
    else (m, .goto (.rem key shift cur levels) false)

/-- One load of the counting loop of `remove`, `src/raw/mod.rs:805-816`. -/
def tickCount (m : Mem P) (deleted : P) (ref : Nat) (parent : Loc) (child : Word) (rest : List (Loc × Word))
    (i : Fin 16) (cnt : Nat) : Next K P :=
  match child.ptr with
  | none => .fail .badPruneChild
  | some a => match m.read (.slot a i) with
    | none => .fail .badAccess
    | some w =>
      let cnt' := if w.ptr.isSome then cnt + 1 else cnt
      if h : i.val + 1 < 16 then .goto (.count deleted ref parent child rest ⟨i.val + 1, h⟩ cnt') false
      else if 1 < cnt' then .ret (.op (.opt (some deleted))) [ref]
      else enterPrune parent child (.clean deleted ref rest)

/-- Body of the marking loop of `prune` after the fetch_or returned `gc`, `src/raw/mod.rs:448-463`. -/
def PAcc.push (m : Mem P) (acc : PAcc) (i : Fin 16) (gc : Word) : Except Failure PAcc :=
  let gc := gc.erase
  match gc.ptr with
  | none => .ok { acc with newChild := upd acc.newChild i gc }
  | some _ =>
    if gc.data then
      match m.loadData gc with
      | .error f => .error f
      | .ok items => .ok { acc with
          lastLeaf := some gc
          childCnt := acc.childCnt + items.length
          newChild := upd acc.newChild i gc }
    else .ok { acc with
          allowContract := false
          childCnt := acc.childCnt + 1
          newChild := upd acc.newChild i gc }

/-- One round of the marking loop of `prune`, `src/raw/mod.rs:436-464`; the check `:487-491` after the last one. -/
def tickPrune (m : Mem P) (parent : Loc) (child : Word) (i : Fin 16) (acc : PAcc) (k : Cont K P) :
    Mem P × Next K P :=
  match child.ptr with
  | none => (m, .fail .badPruneChild)
  | some a => match m.read (.slot a i) with
    | none => (m, .fail .badAccess)
    | some gc =>
      let m1 := m.write gc.condemn (.slot a i)
      match acc.push m1 i gc with
      | .error f => (m1, .fail f)
      | .ok acc' =>
        if h : i.val + 1 < 16 then (m1, .goto (.prune parent child ⟨i.val + 1, h⟩ acc' k) false)
        else if child.cond ∨ child.data then (m1, .fail .condemnedChild)
        else (m1, .goto (.pruneCas parent child acc' k) false)

/-- What `prune` puts into the parent. -/
inductive Insert where
  | word (w : Word)
  | copy (cells : Fin 16 → Word)

/-- The decision of `prune`, `src/raw/mod.rs:468-485`. -/
def PAcc.decide (acc : PAcc) : Insert × PruneResult :=
  match acc.allowContract, acc.childCnt, acc.lastLeaf with
  | true, 1, some leaf => (.word leaf, .singleton)
  | _, 0, none => (.word Word.null, .null)
  | _, _, _ => (.copy acc.newChild, .copy)

/-- The CAS of `prune` (a strong one) and its return, `src/raw/mod.rs:495-507`. -/
def tickPruneCas (m : Mem P) (parent : Loc) (child : Word) (acc : PAcc) (k : Cont K P) : Mem P × Next K P :=
  match child.ptr with
  | none => (m, .fail .badPruneChild)
  | some a => match m.read parent, m.deref a with
    | some w, some (.inner _ path) =>
      if w = child then
        let (ins, res) := acc.decide
        let m1 := match ins with
          | .word w' => m.write w' parent
          | .copy cells => (m.alloc (.inner cells path)).write ⟨some m.next, false, false⟩ parent
        (m1.retire a, afterPrune res k)
      else (m, afterPrune .casFail k)
    | _, _ => (m, .fail .badAccess)

/-- `Iter::new`, `src/raw/iterator.rs:66-77`. -/
def tickIterNew (m : Mem P) : Next K P := .goto (.iterNext [(m.root, 0)] []) false

/-- One round of the loop of `Iter::next`, `src/raw/iterator.rs:84-108`; `next` returning `None` ends the pass,
otherwise the pass goes on with another call of `next`. -/
def tickIterNext (m : Mem P) (levels : List (Word × Nat)) (out : List P) : Next K P :=
  match levels with
  | [] => .ret (.list out) []
  | (w, idx) :: rest =>
    match w.ptr with
    | none => .goto (.iterNext rest out) false
    | some a =>
      if w.data then
        match m.loadData w with
        | .error f => .fail f
        | .ok items => match items[idx]? with
          | some p => .goto (.iterNext ((w, idx + 1) :: rest) (out ++ [p])) false
          | none => .goto (.iterNext rest out) false
      else if h : idx < 16 then
        match m.read (.slot a ⟨idx, h⟩) with
        | none => .fail .badAccess
        | some w' =>
          if MAX_LEVELS + 1 ≤ levels.length then .fail .levelsOverflow
          else .goto (.iterNext ((w', 0) :: (w, idx + 1) :: rest) out) false
      else .goto (.iterNext rest out) false

/-- One atomic step of a thread inside a call. -/
def tick (cfg : Config K P) (m : Mem P) (weak : Bool) : PC K P → Mem P × Next K P
  | .get key hash cur => (m, tickGet cfg m key hash cur)
  | .isEmpty => (m, .ret (.bool m.root.ptr.isNone) [])
  | .iterNew => (m, tickIterNew m)
  | .iterNext levels out => (m, tickIterNext m levels out)
  | .trav st hash mode shift cur parent => (m, tickTrav cfg m st hash mode shift cur parent)
  | .travCas st hash mode shift cur parent node new kind =>
      tickTravCas m weak st hash mode shift cur parent node new kind
  | .rem key shift cur levels => (m, tickRem cfg m key shift cur levels)
  | .remCas key shift cur levels node new deleted =>
      tickRemCas m weak key shift cur levels node new deleted
  | .count deleted ref parent child rest i cnt => (m, tickCount m deleted ref parent child rest i cnt)
  | .prune parent child i acc k => tickPrune m parent child i acc k
  | .pruneCas parent child acc k => tickPruneCas m parent child acc k

/-- Beginning of a call: `get` (`src/raw/mod.rs:664-665`), `insert` (`:401-406`), `get_or_insert_with`
(`:699-703`), `remove` (`:715-718`), `is_empty`, `Iter::new`. -/
def startPC (cfg : Config K P) : Req K P → PC K P
  | .op (.get k) => .get k (cfg.hash k) .root
  | .op (.insert p) => .trav (.created p) (cfg.hash (cfg.key p)) .overwrite 0 .root none
  | .op (.getOrInsert k f) => .trav (.future k f) (cfg.hash k) .ifMissing 0 .root none
  | .op (.remove k) => .rem k 0 .root []
  | .isEmpty => .isEmpty
  | .iter => .iterNew

/-- A call in progress. `inv`: (ghost) instant of the invocation, also the identity of the call.
`calls`: (ghost) how often the user closure has run. `ticks`: (ghost) number of accesses to shared memory made. -/
structure Call (K P : Type) where
  inv : Nat
  req : Req K P
  pc : PC K P
  calls : Nat
  ticks : Nat

/-- A session: a guard (if pinned: since when), the references handed out under this guard (ghost), the call in
progress. An OS thread holding several guards (e.g. an iterator and a call) is several sessions. -/
structure Thread (K P : Type) where
  pin : Option Nat
  refs : List Nat
  run : Option (Call K P)
  failed : Option Failure

/-- A session that has done nothing yet. -/
def Thread.init : Thread K P := ⟨none, [], none, none⟩

/-- The whole machine: shared memory and an unbounded supply of sessions. -/
structure State (K P : Type) where
  m : Mem P
  thr : Nat → Thread K P

/-- Empty trie, nobody pinned. -/
def State.init : State K P := ⟨Mem.init, fun _ => Thread.init⟩

/-- What the scheduler can do next. -/
inductive Label (K P : Type) where
  /-- `crossbeam_epoch::pin()` -/
  | pin (t : Nat)
  /-- drop of the guard -/
  | unpin (t : Nat)
  /-- start of a call -/
  | call (t : Nat) (r : Req K P)
  /-- one atomic step of the call in progress; `weak`: a weak CAS fails spuriously -/
  | tick (t : Nat) (weak : Bool)
  /-- the call in progress unwinds (panic in user code) or is abandoned (an iterator dropped early);
  the guard is released by the unwinding -/
  | abort (t : Nat)
  /-- the collector destroys a node: allowed when all guards present at its retirement are gone
  (the contract of crossbeam-epoch) -/
  | free (a : Nat)
  /-- nothing happens -/
  | idle

/-- Observable events: invocation and return of a call (named by its invocation instant). -/
inductive Event (K P : Type) where
  | inv (id : Nat) (r : Req K P)
  | res (id : Nat) (r : Res P)

/-- Advance the ghost clock. -/
def Mem.bump (m : Mem P) : Mem P := { m with clock := m.clock + 1 }

/-- Effect of a tick's outcome on the session. -/
def Thread.apply (th : Thread K P) (c : Call K P) : Next K P → Thread K P
  | .goto pc ran => { th with run := some { c with
      pc := pc, calls := c.calls + (if ran then 1 else 0), ticks := c.ticks + 1 } }
  | .ret _ refs => { th with run := none, refs := refs ++ th.refs }
  | .fail f => { th with run := none, failed := some f }

/-- Event of a tick's outcome. -/
def Next.event (id : Nat) : Next K P → Option (Event K P)
  | .ret r _ => some (.res id r)
  | _ => none

/-- The step function of the machine; `none`: the label is not enabled. -/
def step (cfg : Config K P) (s : State K P) : Label K P → Option (State K P × Option (Event K P))
  | .pin t =>
    let th := s.thr t
    match th.pin, th.failed with
    | none, none => some (⟨s.m.bump, upd s.thr t { th with pin := some s.m.clock, refs := [] }⟩, none)
    | _, _ => none
  | .unpin t =>
    let th := s.thr t
    match th.pin, th.run, th.failed with
    | some _, none, none => some (⟨s.m.bump, upd s.thr t { th with pin := none, refs := [] }⟩, none)
    | _, _, _ => none
  | .call t r =>
    let th := s.thr t
    match th.pin, th.run, th.failed with
    | some _, none, none =>
      some (⟨s.m.bump, upd s.thr t { th with run := some ⟨s.m.clock, r, startPC cfg r, 0, 0⟩ }⟩,
        some (.inv s.m.clock r))
    | _, _, _ => none
  | .tick t weak =>
    let th := s.thr t
    match th.run with
    | none => none
    | some c =>
      let (m', n) := tick cfg s.m weak c.pc
      some (⟨m'.bump, upd s.thr t (th.apply c n)⟩, n.event c.inv)
  | .abort t =>
    let th := s.thr t
    match th.run with
    | none => none
    | some _ => some (⟨s.m.bump, upd s.thr t { th with pin := none, refs := [], run := none }⟩, none)
  | .free a => some (⟨{ s.m.bump with freed := upd s.m.freed a true }, s.thr⟩, none)
  | .idle => some (⟨s.m.bump, s.thr⟩, none)

/-- When may the collector act? Only for a retired node, and only when every guard that exists now was taken
after the node was retired. -/
def Label.enabled (s : State K P) : Label K P → Prop
  | .free a => ∃ τ, s.m.retired a = some τ ∧ ∀ t p, (s.thr t).pin = some p → τ < p
  | _ => True

end Contrie
