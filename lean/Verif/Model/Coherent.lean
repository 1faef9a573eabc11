import Verif.Model.Weak
/-
The machine under weak memory, with coherence and with reclamation.

The code is the same `tick` as in `Verif/Model/Machine.lean`; what changes is what loads return. A load need not return
the latest value of a location: it may return any value the location has had since the last value the session knows
of (its "view"): its own earlier accesses, and what it got to know by synchronising with other sessions. This is the
view machine of release/acquire memory with timestamps, the timestamps being the instants of the execution: a view
gives for every location an instant, and a load may look at the location as it was at any instant not before that.
A successful CAS and a fetch_or act on the latest value, as all the stores to the locations in question are
read-modify-writes (`src/raw/mod.rs:445`, `:496`, `:536`, `:723`); a failed CAS is just a load.

Sessions synchronise in `sync` steps: `sync t t' τ` makes session `t` know all that session `t'` knew at instant `τ`.
Any synchronisation of the user's program, of crossbeam-epoch, and that of the trie's own acquire loads can be described
by such steps; none is assumed to take place.

There is no load buffering (a load returning a value stored later): all the stores of the code are releases, a load
cannot be moved behind them.

What a node contains when it is published is taken to be visible to whoever finds a pointer to it; that is the
subject of `Verif/Model/Weak.lean`.
-/
namespace Contrie
variable {K P : Type} [DecidableEq K]

/-- A session. `pin`, `refs`, `run`, `failed`: as in `Verif/Model/Machine.lean`. `view`: the instants before which it
cannot see the locations any more. -/
structure CThread (K P : Type) where
  pin : Option Nat
  refs : List Nat
  run : Option (Call K P)
  failed : Option Failure
  view : Loc → Nat

/-- A session that has done nothing yet. -/
def CThread.init : CThread K P := ⟨none, [], none, none, fun _ => 0⟩

/-- The whole machine: shared memory, sessions, and what both were at earlier instants. -/
structure CState (K P : Type) where
  m : Mem P
  thr : Nat → CThread K P
  /-- the memory at earlier instants -/
  past : Nat → Mem P
  /-- the views of the sessions at earlier instants -/
  pastView : Nat → Nat → Loc → Nat

/-- Empty trie (`Raw::with_hasher`, `src/raw/mod.rs:362-379`), nobody pinned. -/
def CState.init : CState K P := ⟨Mem.init, fun _ => CThread.init, fun _ => Mem.init, fun _ _ _ => 0⟩

/-- The memory at an instant up to now. -/
def CState.memAt (s : CState K P) (τ : Nat) : Mem P := if τ = s.m.clock then s.m else s.past τ

/-- The view of a session at an instant up to now. -/
def CState.viewAt (s : CState K P) (τ : Nat) (t : Nat) : Loc → Nat :=
  if τ = s.m.clock then (s.thr t).view else s.pastView τ t

/-- What the scheduler can do next. -/
inductive CLabel (K P : Type) where
  /-- `crossbeam_epoch::pin()` -/
  | pin (t : Nat)
  /-- drop of the guard -/
  | unpin (t : Nat)
  /-- start of a call -/
  | call (t : Nat) (r : Req K P)
  /-- one access of the call in progress, which sees its location as it was at instant `τ`; `weak`: a weak CAS
  fails spuriously -/
  | tick (t : Nat) (weak : Bool) (τ : Nat)
  /-- the call in progress unwinds or is abandoned -/
  | abort (t : Nat)
  /-- `t` learns what `t'` knew at instant `τ` -/
  | sync (t t' τ : Nat)
  /-- the collector destroys a node -/
  | free (a : Nat)
  /-- nothing happens -/
  | idle

/-- Effect of a tick's outcome on the session. -/
def CThread.apply (th : CThread K P) (c : Call K P) : Next K P → CThread K P
  | .goto pc ran => { th with run := some { c with
      pc := pc, calls := c.calls + (if ran then 1 else 0), ticks := c.ticks + 1 } }
  | .ret _ refs => { th with run := none, refs := refs ++ th.refs }
  | .fail f => { th with run := none, failed := some f }

/-- Does the access of `pc` store something if the memory it sees is `m`? -/
def PC.writes (m : Mem P) (weak : Bool) (pc : PC K P) : Bool :=
  match pc.access .code with
  | none => false
  | some (loc, _) => match m.read loc with
    | none => false
    | some w => (pc.stores .code weak w).isSome

/-- The view after the access of `pc`, made at instant `now`, which saw memory `m`, its location as it was at `τ`. -/
def PC.look (m : Mem P) (weak : Bool) (τ now : Nat) (pc : PC K P) (view : Loc → Nat) : Loc → Nat :=
  match pc.access .code with
  | none => view
  | some (loc, _) => upd view loc (if pc.writes m weak then now + 1 else τ)

/-- Time passes: the memory becomes `m'`, session `t` becomes `th`. -/
def CState.next (s : CState K P) (m' : Mem P) (t : Nat) (th : CThread K P) : CState K P where
  m := m'.bump
  thr := upd s.thr t th
  past := upd s.past s.m.clock s.m
  pastView := upd s.pastView s.m.clock (fun t => (s.thr t).view)

/-- The memory with the value `w` at a location. -/
def Mem.see (m : Mem P) : Option (Loc × Word) → Mem P
  | none => m
  | some (loc, w) => m.write w loc

/-- The memory a call at `pc` sees in an access at instant `τ`: the location accessed has the value it had then. (All
else the step looks at is contents of data nodes, which never change. Destroyed nodes are inaccessible, no matter when
they were destroyed.) -/
def CState.seen (s : CState K P) (pc : PC K P) (τ : Nat) : Mem P :=
  s.m.see ((pc.access .code).bind (fun x => ((s.memAt τ).read x.1).map (fun w => (x.1, w))))

/-- The step function of the machine; `none`: the label is not enabled. -/
def cstep (cfg : Config K P) (s : CState K P) : CLabel K P → Option (CState K P × Option (Event K P))
  | .pin t =>
    let th := s.thr t
    match th.pin, th.failed with
    | none, none => some (s.next s.m t { th with pin := some s.m.clock, refs := [] }, none)
    | _, _ => none
  | .unpin t =>
    let th := s.thr t
    match th.pin, th.run, th.failed with
    | some _, none, none => some (s.next s.m t { th with pin := none, refs := [] }, none)
    | _, _, _ => none
  | .call t r =>
    let th := s.thr t
    match th.pin, th.run, th.failed with
    | some _, none, none =>
      some (s.next s.m t { th with run := some ⟨s.m.clock, r, startPC cfg r, 0, 0⟩ }, some (.inv s.m.clock r))
    | _, _, _ => none
  | .tick t weak τ =>
    let th := s.thr t
    match th.run with
    | none => none
    | some c =>
      let r := tick cfg (s.seen c.pc τ) weak c.pc
      some (s.next (if τ = s.m.clock then r.1 else s.m) t
        ({ th with view := c.pc.look (s.seen c.pc τ) weak τ s.m.clock th.view }.apply c r.2), r.2.event c.inv)
  | .abort t =>
    let th := s.thr t
    match th.run with
    | none => none
    | some _ => some (s.next s.m t { th with pin := none, refs := [], run := none }, none)
  | .sync t t' τ =>
    let th := s.thr t
    some (s.next s.m t { th with view := fun l => max (th.view l) (s.viewAt τ t' l) }, none)
  | .free a => some (s.next { s.m with freed := upd s.m.freed a true } 0 (s.thr 0), none)
  | .idle => some (s.next s.m 0 (s.thr 0), none)

/-- What may a step look at? The present, always. The past only for loads: of a location that existed then, and only
as far back as the session's view allows. -/
def CLabel.enabled (s : CState K P) : CLabel K P → Prop
  | .tick t weak τ => τ = s.m.clock ∨ τ < s.m.clock ∧ ∃ c loc o, (s.thr t).run = some c ∧
      c.pc.access .code = some (loc, o) ∧ (s.memAt τ).read loc ≠ none ∧ (s.thr t).view loc ≤ τ ∧
      c.pc.writes (s.seen c.pc τ) weak = false
  | .sync _ _ τ => τ ≤ s.m.clock
  | _ => True

/-- The contract the caller has to obey (only the closures of `get_or_insert_with` have one). -/
def CLabel.WF (cfg : Config K P) : CLabel K P → Prop
  | .call _ (.op o) => o.WF cfg.key
  | _ => True

/-- Happens-before in the first `n` steps, between points `(session, instant)`: the order of each session's own steps,
and synchronisation. -/
inductive HB (lab : Nat → CLabel K P) (n : Nat) : Nat × Nat → Nat × Nat → Prop
  | po (t : Nat) {i j : Nat} (h : i ≤ j) : HB lab n (t, i) (t, j)
  | sync {t t' τ j : Nat} (hj : j < n) (h : lab j = .sync t t' τ) : HB lab n (t', τ) (t, j + 1)
  | trans {x y z : Nat × Nat} (h : HB lab n x y) (h' : HB lab n y z) : HB lab n x z

/-- An execution of `len` steps, of arbitrarily many sessions, in any interleaving, starting with the empty trie.
`gc` is the contract of crossbeam-epoch: a node that was retired in step `r` by session `tr` is destroyed only if this
retirement happens before every guard in force then or later. -/
structure CExec (cfg : Config K P) where
  len : Nat
  st : Nat → CState K P
  lab : Nat → CLabel K P
  ev : Nat → Option (Event K P)
  init : st 0 = CState.init
  step : ∀ i, i < len → cstep cfg (st i) (lab i) = some (st (i + 1), ev i)
  enabled : ∀ i, i < len → (lab i).enabled (st i)
  wf : ∀ i, i < len → (lab i).WF cfg
  gc : ∀ i a, i < len → lab i = .free a → ∃ r tr weak τ, r < i ∧ lab r = .tick tr weak τ ∧
    (st r).m.retired a = none ∧ (st (r + 1)).m.retired a ≠ none ∧
    ∀ j t p, i ≤ j → j ≤ len → ((st j).thr t).pin = some p → HB lab len (tr, r + 1) (t, p + 1)

end Contrie
