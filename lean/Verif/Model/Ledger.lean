import Verif.Model.Wild
import Verif.Model.Drop
/-
Who owns the elements: what every step of the machine of `Verif/Model/Wild.lean` does to the values of the payload type. (They may be anything, e.g.
reference counted pointers, buffers, or open files: what counts is that each of them is destructed once.)

Elements come into being in the user's code only: they are handed over as an argument of `insert`, returned by the closure of `get_or_insert_with`, or
returned by `Clone::clone`. After that they are moved (into data nodes, into local variables of calls), and in the end destructed -- or forgotten.
-/
namespace Contrie
variable {K P : Type}

/-- What can happen to an element. -/
inductive Act (P : Type) where
  /-- it is handed over by the caller (as an argument, or as the result of a closure) -/
  | take (p : P)
  /-- it is the result of a call of `Clone::clone` -/
  | clone (p : P)
  /-- its destructor is run -/
  | drop (p : P)
  /-- it is forgotten: the memory it is in is released, but the destructor is not run -/
  | leak (p : P)
deriving DecidableEq, Repr

/-- The elements the map was given or made. -/
def gained (l : List (Act P)) : List P := l.filterMap (fun x => match x with | .take p => some p | .clone p => some p | _ => none)

/-- The elements destructed. -/
def dropped (l : List (Act P)) : List P := l.filterMap (fun x => match x with | .drop p => some p | _ => none)

/-- The elements forgotten. -/
def leaked (l : List (Act P)) : List P := l.filterMap (fun x => match x with | .leak p => some p | _ => none)

/-- The element a `TraverseState` owns, `src/raw/mod.rs:272-276`: `Future` owns a closure only. -/
def TState.elems : TState K P → List P
  | .created p => [p]
  | .future _ _ => []

/-- `TraverseState::payload`, `src/raw/mod.rs:290-302`: a clone of the element stays in the state, the element itself is returned. `c` is what cloning it
gives. -/
def TState.payloadActs (c : P) : TState K P → List (Act P)
  | .created _ => [.clone c]
  | .future k f => [.take (f k), .clone c]

/-- `drop_data`, `src/raw/mod.rs:244-251`, applied to a data node that could not be published (`:555`, `:740`): it drops a `Box<Inner>`, so the elements are
forgotten. `fix`: the repaired version, which casts to `Data` first; cf. `dropData`. -/
def discard (fix : Bool) (l : List P) : List (Act P) := l.map (if fix then .drop else .leak)

/-- The elements of a node. -/
def Node.items : Node P → List P
  | .data items => items
  | .inner _ _ => []

/-- Elements that come into being in a step of `traverse` before the CAS, in this order; `src/raw/mod.rs:582` (`data_owned`, `:303-307`) and `:623-630`; cf.
`hTickTrav`. -/
def gainsTrav (o : Answers P) (m : Mem P) (st : TState K P) (mode : Mode) (shift : Nat) (cur : Loc) : List (Act P) :=
  match m.read cur with
  | none => []
  | some node =>
    if node.cond then []
    else match node.ptr with
    | none => st.payloadActs (o.clone 0 st.payload)
    | some _ =>
      if node.data then
        match m.loadData node with
        | .error _ => []
        | .ok [] => []
        | .ok (d0 :: rest) =>
          if o.differs d0 = true ∧ shift < HASH_BITS then []
          else if (findAns o.equal 0 (d0 :: rest)).isNone ∨ mode = .overwrite then
            let kept := filterAns o.keep 0 (d0 :: rest)
            (cloneAns o.clone 0 kept).map .clone ++ st.payloadActs (o.clone kept.length st.payload)
          else []
      else []

/-- Elements destructed in a step of `traverse` that does not get to a CAS: `state` goes out of scope, when the element was found (`src/raw/mod.rs:643`) or by the panic
of `src/raw/mod.rs:595`; cf. `hTickTrav`. -/
def lossesTrav (o : Answers P) (m : Mem P) (st : TState K P) (mode : Mode) (shift : Nat) (cur : Loc) : List (Act P) :=
  match m.read cur with
  | none => []
  | some node =>
    if node.cond then []
    else match node.ptr with
    | none => []
    | some _ =>
      if node.data then
        match m.loadData node with
        | .error _ => []
        | .ok [] => []
        | .ok (d0 :: rest) =>
          if o.differs d0 = true ∧ shift < HASH_BITS then
            if (d0 :: rest).length ≠ 1 then st.elems.map .drop else []
          else if (findAns o.equal 0 (d0 :: rest)).isNone ∨ mode = .overwrite then []
          else st.elems.map .drop
      else []

/-- Elements that go in the step of the CAS of `traverse`. If it succeeds, the new node is published, and `state` goes out of scope when the call returns
(`src/raw/mod.rs:584`, `:587`, `:643`), unless it was a split. If it fails, a new data node is discarded (`src/raw/mod.rs:549-557`); cf. `tickTravCas`. -/
def lossesTravCas (fix : Bool) (m : Mem P) (weak : Bool) (st : TState K P) (cur : Loc) (node : Word) (new : Node P) (kind : TKind P) :
    List (Act P) :=
  match m.read cur with
  | none => []
  | some w =>
    if w = node ∧ weak = false then
      match kind with
      | .split => []
      | _ => st.elems.map .drop
    else discard fix new.items

/-- The clones made in a step of `remove`, `src/raw/mod.rs:762-774`: all the elements of the data node but those that are removed; cf. `hTickRem`. -/
def clonesRem (o : Answers P) (m : Mem P) (cur : Loc) : List P :=
  match m.read cur with
  | none => []
  | some node =>
    match node.ptr with
    | none => []
    | some _ =>
      if node.cond then []
      else if node.data then
        match m.loadData node with
        | .error _ => []
        | .ok items => cloneAns o.clone 0 (filterAns (fun n l => !o.equal n l) 0 items)
      else []

/-- Is there nothing to remove in the data node? Then the clones, which nobody needs, are destructed at once (`new` goes out of scope,
`src/raw/mod.rs:788`); cf. `hTickRem`. -/
def absentRem (o : Answers P) (m : Mem P) (cur : Loc) : Bool :=
  match m.read cur with
  | none => true
  | some node => match m.loadData node with
    | .error _ => true
    | .ok items => (filterAns o.equal 0 items).getLast?.isNone

/-- Elements that go in the step of the CAS of `remove`: if it fails, a new data node is discarded (`src/raw/mod.rs:738-742`); cf. `tickRemCas`. -/
def lossesRemCas (fix : Bool) (m : Mem P) (weak : Bool) (cur : Loc) (node : Word) (new : List P) : List (Act P) :=
  match m.read cur with
  | none => []
  | some w => if w = node ∧ weak = false then [] else discard fix new

/-- Elements that come into being in a step of a call, in this order; cf. `hTick`. -/
def tickGains (o : Answers P) (m : Mem P) : PC K P → List (Act P)
  | .trav st _ mode shift cur _ => gainsTrav o m st mode shift cur
  | .rem _ _ cur _ => (clonesRem o m cur).map .clone
  | _ => []

/-- Elements that go in a step of a call; cf. `hTick`. -/
def tickLosses (fix : Bool) (o : Answers P) (m : Mem P) (weak : Bool) : PC K P → List (Act P)
  | .trav st _ mode shift cur _ => lossesTrav o m st mode shift cur
  | .travCas st _ _ _ cur _ node new kind => lossesTravCas fix m weak st cur node new kind
  | .rem _ _ cur _ => if absentRem o m cur then (clonesRem o m cur).map .drop else []
  | .remCas _ _ cur _ node new _ => lossesRemCas fix m weak cur node new
  | _ => []

/-- What a call that is going to restart after a pruning owns. -/
def Cont.elems : Cont K P → List P
  | .trav st _ _ => st.elems
  | _ => []

/-- The elements a call owns (in its local variables). References to elements, such as the `deleted` of `remove` or what an iterator has
yielded, do not count. -/
def PC.elems : PC K P → List P
  | .trav st _ _ _ _ _ => st.elems
  | .travCas st _ _ _ _ _ _ new _ => st.elems ++ new.items
  | .remCas _ _ _ _ _ new _ => new
  | .prune _ _ _ _ k => k.elems
  | .pruneCas _ _ _ k => k.elems
  | _ => []

/-- The unwinding of a call destructs what it owns. A data node about to be published is held as an `Owned<Inner>` or a `Shared<Inner>`, its elements are forgotten:
but at that point no user code is running that could panic. -/
def PC.unwind : PC K P → List (Act P)
  | .travCas st _ _ _ _ _ _ new _ => st.elems.map .drop ++ new.items.map .leak
  | .remCas _ _ _ _ _ new _ => new.map .leak
  | pc => pc.elems.map .drop

/-- Is user code being run at that point (so that it may panic), or an iterator in use (which may be abandoned)? -/
def PC.abandonable : PC K P → Bool
  | .travCas _ _ _ _ _ _ _ _ _ => false
  | .remCas _ _ _ _ _ _ _ => false
  | _ => true

/-- What is handed over when a call starts. -/
def Req.acts : Req K P → List (Act P)
  | .op (.insert p) => [.take p]
  | _ => []

/-- The elements in a node that was not destroyed. -/
def Mem.elems (m : Mem P) (a : Nat) : List P :=
  if m.freed a then [] else match m.mem a with
    | some n => n.items
    | none => []

/-- What a step does to elements.
`extra`: if user code panics in the step, the elements that had come into being in it before (the clones made so far, the element returned by the closure); the
unwinding destructs them. Simplification: any elements are allowed.
`free a`: the collector runs the destructor of the node, once; data nodes are handed over to it as `Data` (`src/raw/mod.rs:545-546`,
`:733-734`), so the elements are destructed. -/
def wacts (fix : Bool) (s : CState K P) (o : Answers P) (extra : List P) : CLabel K P → List (Act P)
  | .call _ r => r.acts
  | .tick t weak τ => match (s.thr t).run with
    | none => []
    | some c => tickGains o (s.seen c.pc τ) c.pc ++ tickLosses fix o (s.seen c.pc τ) weak c.pc
  | .abort t => match (s.thr t).run with
    | none => []
    | some c => extra.map .clone ++ extra.map .drop ++ c.pc.unwind
  | .free a => (s.m.elems a).map .drop
  | _ => []

/-- All that has happened to elements before instant `n`. -/
def WExec.acts (E : WExec K P) (fix : Bool) (extra : Nat → List P) (n : Nat) : List (Act P) :=
  (List.range n).flatMap (fun i => wacts fix (E.st i) (E.ans i) (extra i) (E.lab i))

/-- The elements owned by the call that session `t` is in. -/
def CState.owned (s : CState K P) (t : Nat) : List P := match (s.thr t).run with
  | none => []
  | some c => c.pc.elems

end Contrie
