import Verif.Model.Machine
/-
The machine of `Verif/Model/Machine.lean` with misbehaving user code: `Hash`, `Eq` and `Borrow` of the key type obey no
contract at all, nor does `Clone` of the elements. Every comparison and every hashing is answered arbitrarily: differently for the same
arguments, neither symmetric nor transitive, inconsistent with the hash. Cloning an element gives any element. Closures may create elements of any key. User code may panic whenever it is called (label
`abort`). All of this is possible in safe Rust, so it must not lead to undefined behaviour.

The steps that do not call user code are the very functions of `Verif/Model/Machine.lean`.
-/
namespace Contrie
variable {K P : Type}

/-- The answers of user code during one step. -/
structure Answers (P : Type) where
  /-- `data[0].borrow().borrow() != state.key()`, `src/raw/mod.rs:593` -/
  differs : P → Bool
  /-- the `n`-th comparison `(*l).borrow().borrow() == key` in the loops at `src/raw/mod.rs:618-621` (`traverse`), `:672-674` (`get`),
  `:762-774` (`remove`) -/
  equal : Nat → P → Bool
  /-- the `n`-th comparison `(*l).borrow() != state.key()` in the loop at `src/raw/mod.rs:625-629` -/
  keep : Nat → P → Bool
  /-- `self.hash(data[0].borrow())`, `src/raw/mod.rs:603` -/
  hashOf : P → BitVec 64
  /-- `self.hash(key)` of `remove`, `src/raw/mod.rs:716`. The code hashes once per call; here the answer may even change from
  level to level. -/
  hash : BitVec 64
  /-- what the `n`-th call of `Clone::clone` of an element gives (`.cloned()` at `src/raw/mod.rs:628`, `:773`, `payload.clone()` at `:293`,
  `:296`) -/
  clone : Nat → P → P

/-- `Iterator::find` with the answers of the comparisons, the `n`-th one next. -/
def findAns (f : Nat → P → Bool) : Nat → List P → Option P
  | _, [] => none
  | n, x :: l => if f n x then some x else findAns f (n + 1) l

/-- `Iterator::filter` with the answers of the comparisons, the `n`-th one next. -/
def filterAns (f : Nat → P → Bool) : Nat → List P → List P
  | _, [] => []
  | n, x :: l => if f n x then x :: filterAns f (n + 1) l else filterAns f (n + 1) l

/-- `Iterator::cloned`, the `n`-th clone next. -/
def cloneAns (f : Nat → P → P) : Nat → List P → List P
  | _, [] => []
  | n, x :: l => f n x :: cloneAns f (n + 1) l

/-- `get`, one round of the loop, `src/raw/mod.rs:666-681`; cf. `tickGet`. -/
def hTickGet (o : Answers P) (m : Mem P) (key : K) (hash : BitVec 64) (cur : Loc) : Next K P :=
  match m.read cur with
  | none => .fail .badAccess
  | some node =>
    match node.ptr with
    | none => .ret (.op (.opt none)) []
    | some a =>
      if node.data then
        match m.loadData node with
        | .error f => .fail f
        | .ok items =>
          match findAns o.equal 0 items with
          | none => .ret (.op (.opt none)) []
          | some p => .ret (.op (.opt (some p))) [a]
      else .goto (.get key (hash >>> LEVEL_BITS) (.slot a (bitsAt hash 0))) false

/-- `traverse`, from the load to the next access, `src/raw/mod.rs:529-653`; cf. `tickTrav`. -/
def hTickTrav (o : Answers P) (m : Mem P) (st : TState K P) (hash : BitVec 64) (mode : Mode)
    (shift : Nat) (cur : Loc) (parent : Option (Loc × Word)) : Next K P :=
  match m.read cur with
  | none => .fail .badAccess
  | some node =>
    if node.cond then
      match parent with
      | none => .fail .condemnedRoot
      | some (p, child) => enterPrune p child (.trav st hash mode)
    else match node.ptr with
    | none =>
      .goto (.travCas (.created (o.clone 0 st.payload)) hash mode shift cur parent node (.data [st.payload]) .fresh)
        st.runsClosure
    | some a =>
      if node.data then
        match m.loadData node with
        | .error f => .fail f
        | .ok [] => .fail .emptyData
        | .ok (d0 :: rest) =>
          if o.differs d0 = true ∧ shift < HASH_BITS then
            if (d0 :: rest).length ≠ 1 then .fail .shallowCollision
            else
              .goto (.travCas st hash mode shift cur parent node
                (.inner (upd (fun _ => Word.null) (bitsAt (o.hashOf d0) shift) node)
                  (pathTo hash shift)) .split) false
          else
            let found := findAns o.equal 0 (d0 :: rest)
            if found.isNone ∨ mode = .overwrite then
              let kept := filterAns o.keep 0 (d0 :: rest)
              .goto (.travCas (.created (o.clone kept.length st.payload)) hash mode shift cur parent node
                (.data (cloneAns o.clone 0 kept ++ [st.payload]))
                (.replace found)) st.runsClosure
            else finishTrav mode (found.map .existing) [a]
      else
        if HASH_BITS ≤ shift then .fail .shiftOverflow
        else .goto (.trav st hash mode (shift + LEVEL_BITS) (.slot a (bitsAt hash shift))
          (some (cur, node))) false

/-- `remove`, from the load to the next access, `src/raw/mod.rs:719-796`; cf. `tickRem`. -/
def hTickRem (o : Answers P) (m : Mem P) (key : K) (shift : Nat) (cur : Loc) (levels : List (Loc × Word)) :
    Next K P :=
  match m.read cur with
  | none => .fail .badAccess
  | some node =>
    match node.ptr with
    | none => .ret (.op (.opt none)) []
    | some a =>
      if node.cond then
        match levels with
        | [] => .fail .condemnedRoot
        | (p, child) :: _ => enterPrune p child (.rem key)
      else if node.data then
        match m.loadData node with
        | .error f => .fail f
        | .ok items =>
          match (filterAns o.equal 0 items).getLast? with
          | none => .ret (.op (.opt none)) []
          | some deleted =>
            .goto (.remCas key shift cur levels node
              (cloneAns o.clone 0 (filterAns (fun n l => !o.equal n l) 0 items)) deleted) false
      else
        if MAX_LEVELS ≤ levels.length then .fail .levelsOverflow
        else if HASH_BITS ≤ shift then .fail .shiftOverflow
        else .goto (.rem key (shift + LEVEL_BITS) (.slot a (bitsAt o.hash shift))
          ((cur, node) :: levels)) false

/-- One atomic step of a thread inside a call; cf. `tick`. -/
def hTick (o : Answers P) (m : Mem P) (weak : Bool) : PC K P → Mem P × Next K P
  | .get key hash cur => (m, hTickGet o m key hash cur)
  | .isEmpty => (m, .ret (.bool m.root.ptr.isNone) [])
  | .iterNew => (m, tickIterNew m)
  | .iterNext levels out => (m, tickIterNext m levels out)
  | .trav st hash mode shift cur parent => (m, hTickTrav o m st hash mode shift cur parent)
  | .travCas st hash mode shift cur parent node new kind =>
      tickTravCas m weak st hash mode shift cur parent node new kind
  | .rem key shift cur levels => (m, hTickRem o m key shift cur levels)
  | .remCas key shift cur levels node new deleted =>
      tickRemCas m weak key shift cur levels node new deleted
  | .count deleted ref parent child rest i cnt => (m, tickCount m deleted ref parent child rest i cnt)
  | .prune parent child i acc k => tickPrune m parent child i acc k
  | .pruneCas parent child acc k => tickPruneCas m parent child acc k

/-- Beginning of a call; `h` is what hashing the key gives this time; cf. `startPC`. -/
def hStartPC (h : BitVec 64) : Req K P → PC K P
  | .op (.get k) => .get k h .root
  | .op (.insert p) => .trav (.created p) h .overwrite 0 .root none
  | .op (.getOrInsert k f) => .trav (.future k f) h .ifMissing 0 .root none
  | .op (.remove k) => .rem k 0 .root []
  | .isEmpty => .isEmpty
  | .iter => .iterNew

/-- What the scheduler and the user code can do next; cf. `Label`. -/
inductive HLabel (K P : Type) where
  | pin (t : Nat)
  | unpin (t : Nat)
  | call (t : Nat) (r : Req K P) (h : BitVec 64)
  | tick (t : Nat) (weak : Bool) (o : Answers P)
  | abort (t : Nat)
  | free (a : Nat)
  | idle

/-- Effect of a tick's outcome on the session. The assertion "Collision node not deep enough" (`src/raw/mod.rs:595`) unwinds: the call is over, the
guard is released; the panic may be caught, so the session may go on with other calls. Every other failure is recorded (and the
session is stuck). -/
def Thread.happly (th : Thread K P) (c : Call K P) : Next K P → Thread K P
  | .fail .shallowCollision => { th with pin := none, refs := [], run := none }
  | n => th.apply c n

/-- The step function of the machine; `none`: the label is not enabled; cf. `step`. -/
def hStep (s : State K P) : HLabel K P → Option (State K P)
  | .pin t =>
    let th := s.thr t
    match th.pin, th.failed with
    | none, none => some ⟨s.m.bump, upd s.thr t { th with pin := some s.m.clock, refs := [] }⟩
    | _, _ => none
  | .unpin t =>
    let th := s.thr t
    match th.pin, th.run, th.failed with
    | some _, none, none => some ⟨s.m.bump, upd s.thr t { th with pin := none, refs := [] }⟩
    | _, _, _ => none
  | .call t r h =>
    let th := s.thr t
    match th.pin, th.run, th.failed with
    | some _, none, none => some ⟨s.m.bump, upd s.thr t { th with run := some ⟨s.m.clock, r, hStartPC h r, 0, 0⟩ }⟩
    | _, _, _ => none
  | .tick t weak o =>
    let th := s.thr t
    match th.run with
    | none => none
    | some c =>
      let (m', n) := hTick o s.m weak c.pc
      some ⟨m'.bump, upd s.thr t (th.happly c n)⟩
  | .abort t =>
    let th := s.thr t
    match th.run with
    | none => none
    | some _ => some ⟨s.m.bump, upd s.thr t { th with pin := none, refs := [], run := none }⟩
  | .free a => some ⟨{ s.m.bump with freed := upd s.m.freed a true }, s.thr⟩
  | .idle => some ⟨s.m.bump, s.thr⟩

/-- The contract of the collector; cf. `Label.enabled`. -/
def HLabel.enabled (s : State K P) : HLabel K P → Prop
  | .free a => ∃ τ, s.m.retired a = some τ ∧ ∀ t p, (s.thr t).pin = some p → τ < p
  | _ => True

/-- An execution with misbehaving user code, in any interleaving, starting with the empty trie. -/
structure HExec (K P : Type) where
  st : Nat → State K P
  lab : Nat → HLabel K P
  init : st 0 = State.init
  step : ∀ i, hStep (st i) (lab i) = some (st (i + 1))
  enabled : ∀ i, (lab i).enabled (st i)

/-- The answers of user code that behaves: those the configuration gives when the key `k` is looked for. -/
def Answers.honest [DecidableEq K] (cfg : Config K P) (k : K) : Answers P where
  differs := fun p => decide (cfg.key p ≠ k)
  equal := fun _ p => decide (cfg.key p = k)
  keep := fun _ p => decide (cfg.key p ≠ k)
  hashOf := fun p => cfg.hash (cfg.key p)
  hash := cfg.hash k
  clone := fun _ p => p

end Contrie
