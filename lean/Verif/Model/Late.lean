import Verif.Model.Exec
/-
Closures that take time.

In `Verif/Model/Machine.lean` the closure given to `get_or_insert_with` is a function, and it is run within the step that found the key missing. In truth it is a
program: it takes time, other threads go on meanwhile, it may itself use the map (the closure is called between the load of a cell, `src/raw/mod.rs:530`, and
the compare-exchange, `:536`, no lock is held), and what it returns may depend on all of that. Here the step is split in two: the load, which begins the closure, and the
end of the closure, which says what it has returned.

Calls a closure makes are calls of other sessions (a session is a guard with a call in progress, not a thread; a thread inside a closure inside
a call holds two guards). Nothing is said about which sessions belong to which closure, so nesting to any depth is included.

All else is as in `Verif/Model/Machine.lean`. The function in a request `get_or_insert_with` only stands for some element with the right key; it is never run.
-/
namespace Contrie
variable {K P : Type}

/-- The state with another closure. -/
def TState.withClosure (f : K → P) : TState K P → TState K P
  | .created p => .created p
  | .future k _ => .future k f

/-- What is done after `prune`, with another closure. -/
def Cont.withClosure (f : K → P) : Cont K P → Cont K P
  | .trav st hash mode => .trav (st.withClosure f) hash mode
  | .rem key => .rem key
  | .clean deleted ref rest => .clean deleted ref rest

/-- The program point with another closure. -/
def PC.withClosure (f : K → P) : PC K P → PC K P
  | .trav st hash mode shift cur parent => .trav (st.withClosure f) hash mode shift cur parent
  | .travCas st hash mode shift cur parent node new kind => .travCas (st.withClosure f) hash mode shift cur parent node new kind
  | .prune parent child i acc k => .prune parent child i acc (k.withClosure f)
  | .pruneCas parent child acc k => .pruneCas parent child acc (k.withClosure f)
  | pc => pc

/-- The request with another closure. -/
def Req.withClosure (f : K → P) : Req K P → Req K P
  | .op (.getOrInsert k _) => .op (.getOrInsert k f)
  | r => r

/-- A call in progress. `closure = some m`: it is running the user's closure (`TraverseState::payload`, `src/raw/mod.rs:290-302`), `m` is the memory as it was at the
load before (of which the call has looked at one cell, and the data node it points to). -/
structure LCall (K P : Type) where
  call : Call K P
  closure : Option (Mem P)

/-- A session; cf. `Thread`. -/
structure LThread (K P : Type) where
  pin : Option Nat
  refs : List Nat
  run : Option (LCall K P)
  failed : Option Failure

/-- The whole machine; cf. `State`. -/
structure LState (K P : Type) where
  m : Mem P
  thr : Nat → LThread K P

/-- Empty trie, nobody pinned. -/
def LState.init : LState K P := ⟨Mem.init, fun _ => ⟨none, [], none, none⟩⟩

/-- What can happen next; cf. `Label`. -/
inductive LLabel (K P : Type) where
  | pin (t : Nat)
  | unpin (t : Nat)
  | call (t : Nat) (r : Req K P)
  | tick (t : Nat) (weak : Bool)
  /-- the closure of session `t`'s call returns `p` -/
  | closed (t : Nat) (p : P)
  | abort (t : Nat)
  | free (a : Nat)
  | idle

/-- Effect of a tick's outcome on the session: as `Thread.apply`, except that a closure begins (`goto _ true`) and does not end at once. `m`: the memory
the step has seen. -/
def LThread.apply (th : LThread K P) (m : Mem P) (c : Call K P) : Next K P → LThread K P
  | .goto _ true => { th with run := some ⟨c, some m⟩ }
  | .goto pc false => { th with run := some ⟨{ c with pc := pc, ticks := c.ticks + 1 }, none⟩ }
  | .ret _ refs => { th with run := none, refs := refs ++ th.refs }
  | .fail f => { th with run := none, failed := some f }

variable [DecidableEq K]

/-- Where a call goes on that had seen `m` and whose closure has returned `p`. -/
def Call.afterClosure (cfg : Config K P) (c : Call K P) (m : Mem P) (p : P) : Call K P :=
  match (tick cfg m false (c.pc.withClosure (fun _ => p))).2 with
  | .goto pc _ => { c with pc := pc, calls := c.calls + 1, ticks := c.ticks + 1 }
  | _ => c

/-- The step function of the machine; `none`: the label is not enabled; cf. `step`. -/
def lstep (cfg : Config K P) (s : LState K P) : LLabel K P → Option (LState K P × Option (Event K P))
  | .pin t =>
    let th := s.thr t
    match th.pin, th.failed with
    | none, none => some (⟨s.m.bump, upd s.thr t { th with pin := some s.m.clock, refs := [] }⟩, none)
    | _, _ => none
  | .unpin t =>
    let th := s.thr t
    match th.pin, th.run, th.failed with
    | some _, none, none => some (⟨s.m.bump, upd s.thr t { th with pin := none, refs := [] }⟩, none)
    | _, _, _ => none
  | .call t r =>
    let th := s.thr t
    match th.pin, th.run, th.failed with
    | some _, none, none =>
      some (⟨s.m.bump, upd s.thr t { th with run := some ⟨⟨s.m.clock, r, startPC cfg r, 0, 0⟩, none⟩ }⟩,
        some (.inv s.m.clock r))
    | _, _, _ => none
  | .tick t weak =>
    let th := s.thr t
    match th.run with
    | some ⟨c, none⟩ =>
      let (m', n) := tick cfg s.m weak c.pc
      some (⟨m'.bump, upd s.thr t (th.apply s.m c n)⟩, n.event c.inv)
    | _ => none
  | .closed t p =>
    let th := s.thr t
    match th.run with
    | some ⟨c, some m⟩ => some (⟨s.m.bump, upd s.thr t { th with run := some ⟨c.afterClosure cfg m p, none⟩ }⟩, none)
    | _ => none
  | .abort t =>
    let th := s.thr t
    match th.run with
    | none => none
    | some _ => some (⟨s.m.bump, upd s.thr t { th with pin := none, refs := [], run := none }⟩, none)
  | .free a => some (⟨{ s.m.bump with freed := upd s.m.freed a true }, s.thr⟩, none)
  | .idle => some (⟨s.m.bump, s.thr⟩, none)

/-- The contract of the collector; cf. `Label.enabled`. -/
def LLabel.enabled (s : LState K P) : LLabel K P → Prop
  | .free a => ∃ τ, s.m.retired a = some τ ∧ ∀ t p, (s.thr t).pin = some p → τ < p
  | _ => True

/-- The contract of the caller: what a closure returns has the key the call is about (and there is such an element); cf. `Label.WF`. -/
def LLabel.WF (cfg : Config K P) (s : LState K P) : LLabel K P → Prop
  | .call _ (.op o) => o.WF cfg.key
  | .closed t p => ∀ c m k f, (s.thr t).run = some ⟨c, m⟩ → c.req = .op (.getOrInsert k f) → cfg.key p = k
  | _ => True

/-- An execution; cf. `Exec`. -/
structure LExec (cfg : Config K P) where
  st : Nat → LState K P
  lab : Nat → LLabel K P
  ev : Nat → Option (Event K P)
  init : st 0 = LState.init
  step : ∀ i, lstep cfg (st i) (lab i) = some (st (i + 1), ev i)
  enabled : ∀ i, (lab i).enabled (st i)
  wf : ∀ i, (lab i).WF cfg (st i)

variable {cfg : Config K P}

/-- Call `id` is invoked with request `r` (at instant `id`). -/
def LExec.Invoked (E : LExec cfg) (id : Nat) (r : Req K P) : Prop := E.ev id = some (.inv id r)

/-- Call `id` returns `r` in step `j`. -/
def LExec.Returns (E : LExec cfg) (j id : Nat) (r : Res P) : Prop := E.ev j = some (.res id r)

/-- Call `id` begins to run its closure in step `i`. -/
def LExec.Begins (E : LExec cfg) (i id : Nat) : Prop :=
  ∃ t weak c m, E.lab i = .tick t weak ∧ ((E.st i).thr t).run = some ⟨c, none⟩ ∧ c.inv = id ∧ ((E.st (i + 1)).thr t).run = some ⟨c, some m⟩

/-- At instant `i` call `id`, of session `t`, is running its closure. -/
def LExec.InClosure (E : LExec cfg) (i t id : Nat) : Prop := ∃ c m, ((E.st i).thr t).run = some ⟨c, some m⟩ ∧ c.inv = id

/-- In step `i` the closure of call `id` returns `p`. -/
def LExec.Closes (E : LExec cfg) (i id : Nat) (p : P) : Prop := ∃ t, E.lab i = .closed t p ∧ E.InClosure i t id

end Contrie
