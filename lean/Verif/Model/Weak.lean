import Verif.Model.Machine
/-
The machine under weak memory orderings.

The code is the same `tick` as in `Verif/Model/Machine.lean`; what changes is what the accesses to shared memory
return. Every location keeps all the values (messages) ever written to it, and a load - also the load of a CAS or
of a fetch_or - may return ANY of them: there is no coherence, no global order, no bound on staleness. This allows
more behaviour than any hardware or the C11 model does. A message carries the knowledge released with it: the set
of nodes whose initialisation is visible to whoever acquires the message. A thread that dereferences a pointer to a
node whose initialisation is not visible to it reads garbage: the failure `badAccess`.

Not modelled here: destruction of nodes (crossbeam-epoch orders it with its own fences; see
`Verif/Model/Machine.lean` for reclamation, under sequential consistency).
-/
namespace Contrie
variable {K P : Type} [DecidableEq K]

/-- What a load does with the knowledge released with the message it reads. -/
inductive LoadOrd where
  /-- `Ordering::Relaxed`: nothing -/
  | relaxed
  /-- `load_consume`: it is available for what is reached through the loaded pointer, as long as that pointer
  is held -/
  | consume
  /-- `Ordering::Acquire`: it is available from now on -/
  | acquire
deriving DecidableEq, Repr

/-- The orderings of all the accesses. -/
structure Orders where
  /-- load of `get` -/
  get : LoadOrd
  /-- load of `traverse` -/
  trav : LoadOrd
  /-- load of `remove` -/
  rem : LoadOrd
  /-- loads of the iterator -/
  iter : LoadOrd
  /-- loads of the counting loop of `remove` -/
  count : LoadOrd
  /-- load of `is_empty` -/
  empty : LoadOrd
  /-- the load half of the fetch_or of `prune` -/
  mark : LoadOrd
  /-- the load half of the CASes -/
  cas : LoadOrd
  /-- is the store half of the CAS of `traverse` / the CAS of `remove` / the CAS of `prune` / the fetch_or a release? -/
  travRel : Bool
  remRel : Bool
  pruneRel : Bool
  markRel : Bool
  /-- does a release store publish also consumed nodes which are reached through a freshly created node (hardware
  does: the load precedes the release store) or only the node the stored pointer itself was consumed from (the
  letter of C11's `memory_order_consume`)? -/
  deep : Bool

/-- The orderings in the code. get: `src/raw/mod.rs:667`; trav: `:530`; rem: `:720`; iter:
`src/raw/iterator.rs:69`, `:101`; count: `src/raw/mod.rs:808`; empty: `:840`; mark/markRel: `:445` (AcqRel);
cas and travRel/remRel/pruneRel: `:539`, `:726`, `:496` (Release on success, Relaxed on failure). -/
def Orders.code : Orders where
  get := .consume
  trav := .consume
  rem := .consume
  iter := .acquire
  count := .relaxed
  empty := .relaxed
  mark := .acquire
  cas := .relaxed
  travRel := true
  remRel := true
  pruneRel := true
  markRel := true
  deep := true

/-- A value written to a location and the knowledge released with it. -/
structure Msg where
  word : Word
  view : Nat → Prop

/-- Shared memory: contents of the nodes at their initialisation, the messages written to the locations since,
the next allocation. `clock` is a ghost counter of steps. -/
structure WMem (P : Type) where
  nodes : Nat → Option (Node P)
  msgs : Loc → Msg → Prop
  next : Nat
  clock : Nat

/-- `Raw::with_hasher`, `src/raw/mod.rs:362-379`. -/
def WMem.init : WMem P := ⟨fun _ => none, fun _ _ => False, 0, 0⟩

/-- The messages a load of a location can return: the value it was initialised with (that value is not released
by anybody), or anything written later. -/
def WMem.Readable (M : WMem P) (loc : Loc) (msg : Msg) : Prop :=
  M.msgs loc msg ∨ msg.view = (fun _ => False) ∧ match loc with
    | .root => msg.word = Word.null
    | .slot a i => ∃ c p, M.nodes a = some (.inner c p) ∧ msg.word = c i

/-- Nodes reached from a node through the pointers it was initialised with. -/
inductive WMem.Reach (M : WMem P) : Nat → Nat → Prop
  | refl (a : Nat) : Reach M a a
  | step (a : Nat) (c : Fin 16 → Word) (p : List (Fin 16)) (i : Fin 16) (b d : Nat)
      (h : M.nodes a = some (.inner c p)) (hp : (c i).ptr = some b) (hr : Reach M b d) : Reach M a d

/-- The node a location lies in. -/
def Loc.node : Loc → Option Nat
  | .root => none
  | .slot a _ => some a

/-- Does a continuation hold a pointer to node `a` in its local variables? -/
def Cont.Holds (a : Nat) : Cont K P → Prop
  | .trav .. => False
  | .rem .. => False
  | .clean _ ref rest => ref = a ∨ ∃ x ∈ rest, x.1.node = some a ∨ x.2.ptr = some a

/-- Does the thread hold a pointer to node `a` in its local variables? -/
def PC.Holds (a : Nat) : PC K P → Prop
  | .get _ _ cur => cur.node = some a
  | .isEmpty => False
  | .iterNew => False
  | .iterNext levels _ => ∃ x ∈ levels, x.1.ptr = some a
  | .trav _ _ _ _ cur parent => cur.node = some a ∨ ∃ x, parent = some x ∧ (x.1.node = some a ∨ x.2.ptr = some a)
  | .travCas _ _ _ _ cur parent node new _ =>
    (cur.node = some a ∨ ∃ x, parent = some x ∧ (x.1.node = some a ∨ x.2.ptr = some a)) ∨
    node.ptr = some a ∨ ∃ c p i, new = .inner c p ∧ (c i).ptr = some a
  | .rem _ _ cur levels => cur.node = some a ∨ ∃ x ∈ levels, x.1.node = some a ∨ x.2.ptr = some a
  | .remCas _ _ cur levels node _ _ =>
    (cur.node = some a ∨ ∃ x ∈ levels, x.1.node = some a ∨ x.2.ptr = some a) ∨ node.ptr = some a
  | .count _ ref parent child rest _ _ =>
    (ref = a ∨ ∃ x ∈ rest, x.1.node = some a ∨ x.2.ptr = some a) ∨ parent.node = some a ∨ child.ptr = some a
  | .prune parent child _ acc k => Cont.Holds a k ∨ (parent.node = some a ∨ child.ptr = some a) ∨
    (∃ i, (acc.newChild i).ptr = some a) ∨ ∃ w, acc.lastLeaf = some w ∧ w.ptr = some a
  | .pruneCas parent child acc k => Cont.Holds a k ∨ (parent.node = some a ∨ child.ptr = some a) ∨
    (∃ i, (acc.newChild i).ptr = some a) ∨ ∃ w, acc.lastLeaf = some w ∧ w.ptr = some a

/-- The location the next access goes to and the ordering of its load (`none`: a local step). -/
def PC.access (O : Orders) : PC K P → Option (Loc × LoadOrd)
  | .get _ _ cur => some (cur, O.get)
  | .isEmpty => some (.root, O.empty)
  | .iterNew => some (.root, O.iter)
  | .iterNext levels _ => match levels with
    | [] => none
    | (w, idx) :: _ => match w.ptr with
      | none => none
      | some a => if w.data then none else if h : idx < 16 then some (.slot a ⟨idx, h⟩, O.iter) else none
  | .trav _ _ _ _ cur _ => some (cur, O.trav)
  | .travCas _ _ _ _ cur _ _ _ _ => some (cur, O.cas)
  | .rem _ _ cur _ => some (cur, O.rem)
  | .remCas _ _ cur _ _ _ _ => some (cur, O.cas)
  | .count _ _ _ child _ i _ => child.ptr.map (fun a => (.slot a i, O.count))
  | .prune _ child i _ _ => child.ptr.map (fun a => (.slot a i, O.mark))
  | .pruneCas parent _ _ _ => some (parent, O.cas)

/-- Does the access store, having loaded `w`? And is the store a release? -/
def PC.stores (O : Orders) (weak : Bool) (w : Word) : PC K P → Option Bool
  | .travCas _ _ _ _ _ _ node _ _ => if w = node ∧ weak = false then some O.travRel else none
  | .remCas _ _ _ _ node _ _ => if w = node ∧ weak = false then some O.remRel else none
  | .prune .. => some O.markRel
  | .pruneCas _ child _ _ => if w = child then some O.pruneRel else none
  | _ => none

/-- A session under weak memory. `view`: the nodes whose initialisation it has acquired; `dep`: the nodes whose
initialisation is visible through the pointers it holds; `refs`: the nodes the references handed out point into. -/
structure WThread (K P : Type) where
  view : Nat → Prop
  dep : Nat → Prop
  refs : List Nat
  run : Option (Call K P)
  failed : Option Failure

/-- A session that has done nothing yet. -/
def WThread.init : WThread K P := ⟨fun _ => False, fun _ => False, [], none, none⟩

/-- Is the initialisation of node `a` visible to the session? -/
def WThread.Knows (th : WThread K P) (a : Nat) : Prop := th.view a ∨ th.dep a

/-- The whole machine. -/
structure WState (K P : Type) where
  m : WMem P
  thr : Nat → WThread K P

/-- Empty trie. -/
def WState.init : WState K P := ⟨WMem.init, fun _ => WThread.init⟩

open Classical in
/-- The memory as the session sees it in one step: the nodes it knows, and the value `w` its load returned. -/
noncomputable def WMem.seen (M : WMem P) (knows : Nat → Prop) (rd : Option (Loc × Word)) : Mem P :=
  let base : Mem P :=
    { root := Word.null, mem := fun a => if knows a then M.nodes a else none, next := M.next,
      retired := fun _ => none, freed := fun _ => false, clock := 0 }
  match rd with
  | none => base
  | some (loc, w) => base.write w loc

/-- The node created in a step of `tick` (which turned memory `m` into `m'`), if any. -/
def newNode (m m' : Mem P) : Option (Node P) := if m'.next = m.next then none else m'.mem m.next

/-- Shared memory after a step: a possible new node, a possible new message. -/
def WMem.after (M : WMem P) (new : Option (Node P)) (st : Option (Loc × Msg)) : WMem P where
  nodes := match new with
    | none => M.nodes
    | some n => upd M.nodes M.next (some n)
  msgs := fun loc msg => M.msgs loc msg ∨ st = some (loc, msg)
  next := if new.isSome then M.next + 1 else M.next
  clock := M.clock + 1

/-- What the session acquires by the load of a message. -/
def acquired (o : Option LoadOrd) (msg : Msg) : Nat → Prop := fun a => o = some .acquire ∧ msg.view a

/-- What the session sees through the pointer it loaded. -/
def consumed (o : Option LoadOrd) (msg : Msg) : Nat → Prop := fun a => o = some .consume ∧ msg.view a

/-- The pointers a tick's outcome leaves in the local variables or hands out. -/
def Next.Holds (a : Nat) : Next K P → Prop
  | .goto pc _ => pc.Holds a
  | .ret _ refs => a ∈ refs
  | .fail _ => False

/-- Effect of a tick's outcome on call and references. -/
def WThread.apply (th : WThread K P) (c : Call K P) : Next K P → WThread K P
  | .goto pc ran => { th with run := some { c with
      pc := pc, calls := c.calls + (if ran then 1 else 0), ticks := c.ticks + 1 } }
  | .ret _ refs => { th with run := none, refs := refs ++ th.refs }
  | .fail f => { th with run := none, failed := some f }

/-- Knowledge through pointers, including the node just created. (That the session would in fact remember a node it
has created for as long as it lives is not used.) -/
def withNew (dep : Nat → Prop) (new : Option (Node P)) (next : Nat) : Nat → Prop :=
  fun a => dep a ∨ new.isSome = true ∧ a = next

/-- What a store of `w` publishes: what the session has acquired, and what it sees through the stored pointer. -/
def WMem.released (O : Orders) (M' : WMem P) (view dep : Nat → Prop) (rel : Bool) (w : Word) : Nat → Prop :=
  fun a => rel = true ∧ (view a ∨ dep a ∧ ∃ b, w.ptr = some b ∧ (b = a ∨ O.deep = true) ∧ M'.Reach b a)

/-- The message written in a step, if any; `m'` is the memory `tick` has left. -/
def WMem.stored (O : Orders) (M' : WMem P) (view dep : Nat → Prop) (weak : Bool) (w : Word) (pc : PC K P) (m' : Mem P) :
    Option (Loc × Msg) :=
  match pc.access O, pc.stores O weak w with
  | some (loc, _), some rel => (m'.read loc).map (fun w' => (loc, ⟨w', M'.released O view dep rel w'⟩))
  | _, _ => none

/-- What remains visible through the pointers still held. -/
def WMem.kept (M' : WMem P) (dep : Nat → Prop) (n : Next K P) (refs : List Nat) : Nat → Prop :=
  fun a => dep a ∧ ∃ b, (n.Holds b ∨ b ∈ refs) ∧ M'.Reach b a

/-- The end of a step: session `t`, knowing `view` and `dep`, has done `r`, creating `new`. -/
def WState.finish (O : Orders) (s : WState K P) (t : Nat) (weak : Bool) (w : Word) (c : Call K P)
    (view dep : Nat → Prop) (r : Mem P × Next K P) (new : Option (Node P)) : WState K P where
  m := s.m.after new ((s.m.after new none).stored O view (withNew dep new s.m.next) weak w c.pc r.1)
  thr := upd s.thr t ({ s.thr t with
    view := view
    dep := (s.m.after new none).kept (withNew dep new s.m.next) r.2 (s.thr t).refs }.apply c r.2)

/-- The local computation and the store of an access of session `t`, whose load returned `w` and which knows `view`
and `dep` now. -/
noncomputable def WState.exec (cfg : Config K P) (O : Orders) (s : WState K P) (t : Nat) (weak : Bool) (w : Word)
    (c : Call K P) (view dep : Nat → Prop) : WState K P :=
  let seen := s.m.seen (fun a => view a ∨ dep a) ((c.pc.access O).map (fun x => (x.1, w)))
  let r := Contrie.tick cfg seen weak c.pc
  s.finish O t weak w c view dep r (newNode seen r.1)

/-- One access of session `t`, whose load returns `msg`. -/
noncomputable def WState.tick (cfg : Config K P) (O : Orders) (s : WState K P) (t : Nat) (weak : Bool) (msg : Msg)
    (c : Call K P) : WState K P :=
  let ord := (c.pc.access O).map Prod.snd
  s.exec cfg O t weak msg.word c (fun a => (s.thr t).view a ∨ acquired ord msg a)
    (fun a => (s.thr t).dep a ∨ consumed ord msg a)

/-- The steps of the machine. -/
inductive WStep (cfg : Config K P) (O : Orders) : WState K P → WState K P → Prop
  /-- start of a call -/
  | call (s : WState K P) (t : Nat) (r : Req K P) (hr : (s.thr t).run = none) (hf : (s.thr t).failed = none)
      (wf : ∀ o, r = .op o → o.WF cfg.key) :
      WStep cfg O s { s with thr := upd s.thr t { s.thr t with run := some ⟨0, r, startPC cfg r, 0, 0⟩ } }
  /-- one access of the call in progress; from a node the session does not know, it may load anything -/
  | tick (s : WState K P) (t : Nat) (weak : Bool) (msg : Msg) (c : Call K P) (hr : (s.thr t).run = some c)
      (hl : ∀ loc o, c.pc.access O = some (loc, o) →
        s.m.Readable loc msg ∨ ∃ a, loc.node = some a ∧ ¬ (s.thr t).Knows a) :
      WStep cfg O s (s.tick cfg O t weak msg c)
  /-- the call in progress unwinds or is abandoned; the references are given up -/
  | abort (s : WState K P) (t : Nat) (hf : (s.thr t).failed = none) :
      WStep cfg O s { s with thr := upd s.thr t { s.thr t with run := none, refs := [], dep := fun _ => False } }
  /-- any other synchronisation in the user's program: `t` acquires what `t'` has acquired -/
  | sync (s : WState K P) (t t' : Nat) :
      WStep cfg O s { s with thr := upd s.thr t { s.thr t with
        view := fun a => (s.thr t).view a ∨ (s.thr t').view a } }

/-- The states the machine can reach, in any number of steps of any number of sessions. -/
inductive WReachable (cfg : Config K P) (O : Orders) : WState K P → Prop
  | init : WReachable cfg O .init
  | step (s s' : WState K P) (h : WReachable cfg O s) (hs : WStep cfg O s s') : WReachable cfg O s'

end Contrie
