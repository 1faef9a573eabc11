import Verif.Model.Hostile
import Verif.Model.Exec
/-
The machine of `Verif/Model/Machine.lean` with the user's own `Eq`, `Hash` and `Borrow`. There the key of an element and the argument of a call are
both keys, equality of keys is Lean's `=`. Here the arguments of the calls are what they are in the code: own keys or borrowed forms of them, of any type `Q`
with `Key: Borrow<Q>`; every comparison and every hashing is a call of user code, for the type at hand; equal keys may be different objects, with elements that tell them apart.

The steps are the very functions of `Verif/Model/Hostile.lean` (which differ from those of `Verif/Model/Machine.lean` in asking user code for every answer); what is
new is who answers.
-/
namespace Contrie

/-- The types of the user and his code for them. -/
structure UserKeys (P : Type) where
  /-- `Config::Key`, `src/raw/config.rs:20` -/
  Key : Type
  /-- names of the other types `Q` in use with `Key: Borrow<Q>` (`src/raw/mod.rs:662`, `:696`, `:713`) -/
  Form : Type
  /-- the types themselves -/
  Q : Form → Type
  /-- `Payload: Borrow<Key>`, `src/raw/config.rs:17` -/
  own : P → Key
  /-- `Key: Borrow<Q>` -/
  borrow : (f : Form) → Key → Q f
  /-- `PartialEq` of `Key` -/
  eqKey : Key → Key → Bool
  /-- `PartialEq` of `Q` -/
  eqForm : (f : Form) → Q f → Q f → Bool
  /-- `Hash` of `Key`, together with the hash builder (`Raw::hash`, `src/raw/mod.rs:382-389`) -/
  hashKey : Key → BitVec 64
  /-- `Hash` of `Q`, together with the hash builder (`Raw::hash`, `src/raw/mod.rs:382-389`) -/
  hashForm : (f : Form) → Q f → BitVec 64

/-- The contracts of `std::cmp::Eq`, `std::hash::Hash` and `std::borrow::Borrow`: equality is an equivalence relation, equal things have equal hashes, the
borrowed form compares and hashes as the key does. -/
structure UserKeys.Lawful {P : Type} (U : UserKeys P) : Prop where
  refl : ∀ a, U.eqKey a a = true
  symm : ∀ a b, U.eqKey a b = true → U.eqKey b a = true
  trans : ∀ a b c, U.eqKey a b = true → U.eqKey b c = true → U.eqKey a c = true
  reflForm : ∀ f q, U.eqForm f q q = true
  symmForm : ∀ f q r, U.eqForm f q r = true → U.eqForm f r q = true
  transForm : ∀ f q r s, U.eqForm f q r = true → U.eqForm f r s = true → U.eqForm f q s = true
  hash : ∀ a b, U.eqKey a b = true → U.hashKey a = U.hashKey b
  hashForm : ∀ f q r, U.eqForm f q r = true → U.hashForm f q = U.hashForm f r
  borrowEq : ∀ f a b, U.eqForm f (U.borrow f a) (U.borrow f b) = U.eqKey a b
  borrowHash : ∀ f a, U.hashForm f (U.borrow f a) = U.hashKey a

/-- The argument of a call: a key (`Q = Key`, by the blanket `impl Borrow<T> for T`), or a borrowed form. -/
inductive Arg {P : Type} (U : UserKeys P) where
  | own (k : U.Key)
  | form (f : U.Form) (q : U.Q f)

variable {P : Type}

/-- The comparison `(*l).borrow().borrow() == key` of an element with an argument, `src/raw/mod.rs:593`, `:620`, `:627`, `:674`, `:766`: the key of the element is
borrowed as the type of the argument and compared by this type's `PartialEq`. -/
def UserKeys.same (U : UserKeys P) (p : P) : Arg U → Bool
  | .own k => U.eqKey (U.own p) k
  | .form f q => U.eqForm f (U.borrow f (U.own p)) q

/-- Is key `a`, borrowed as the type of the argument, equal to the argument? (For the specification.) -/
def Arg.den {U : UserKeys P} (x : Arg U) (a : U.Key) : Bool :=
  match x with
  | .own k => U.eqKey a k
  | .form f q => U.eqForm f (U.borrow f a) q

/-- `self.hash(key)`, `src/raw/mod.rs:382-389`, called at `:525`, `:665`, `:716`: by the `Hash` of the type of the argument. -/
def UserKeys.hashArg (U : UserKeys P) : Arg U → BitVec 64
  | .own k => U.hashKey k
  | .form f q => U.hashForm f q

/-- The type `Q` of a call: that of its argument; `none`: the type of the keys. In `insert` it is the type of the keys (`src/raw/mod.rs:401-405`). -/
def Req.typ {U : UserKeys P} : Req (Arg U) P → Option U.Form
  | .op (.get (.form f _)) => some f
  | .op (.getOrInsert (.form f _) _) => some f
  | .op (.remove (.form f _)) => some f
  | _ => none

/-- `payload.borrow().borrow()` of `TraverseState::key`, `src/raw/mod.rs:286`: the key of an element as a `Q`. -/
def UserKeys.keyAs (U : UserKeys P) (p : P) : Option U.Form → Arg U
  | none => .own (U.own p)
  | some f => .form f (U.borrow f (U.own p))

/-- The key of an element as an argument of type `Key`. -/
def UserKeys.keyArg (U : UserKeys P) (p : P) : Arg U := .own (U.own p)

/-- `TraverseState::key`, `src/raw/mod.rs:283-289`; `q` is the type `Q` of the call. -/
def TState.arg (U : UserKeys P) (q : Option U.Form) : TState (Arg U) P → Arg U
  | .created p => U.keyAs p q
  | .future a _ => a

/-- The answers user code gives while the argument `a` is looked for. `Clone` of an element yields an equal element (in `Verif/Model/Cloning.lean`: any one with an equal key). -/
def UserKeys.answers (U : UserKeys P) (a : Arg U) : Answers P where
  differs := fun p => !U.same p a
  equal := fun _ p => U.same p a
  keep := fun _ p => !U.same p a
  hashOf := fun p => U.hashKey (U.own p)
  hash := U.hashArg a
  clone := fun _ p => p

/-- No user code is called in the other steps. -/
def Answers.silent : Answers P := ⟨fun _ => false, fun _ _ => false, fun _ _ => false, fun _ => 0, 0, fun _ p => p⟩

/-- The answers user code gives in the step at `pc` of a call whose type `Q` is `q`. -/
def PC.asks (U : UserKeys P) (q : Option U.Form) : PC (Arg U) P → Answers P
  | .get a _ _ => U.answers a
  | .trav st _ _ _ _ _ => U.answers (st.arg U q)
  | .rem a _ _ _ => U.answers a
  | _ => .silent

/-- What `self.hash(..)` gives at the beginning of a call: `src/raw/mod.rs:525`, `:665`, `:716`. -/
def UserKeys.hashReq (U : UserKeys P) : Req (Arg U) P → BitVec 64
  | .op (.get a) => U.hashArg a
  | .op (.insert p) => U.hashArg (U.keyArg p)
  | .op (.getOrInsert a _) => U.hashArg a
  | .op (.remove a) => U.hashArg a
  | .isEmpty => 0
  | .iter => 0

/-- One atomic step of a thread inside a call; cf. `tick`. -/
def bTick (U : UserKeys P) (q : Option U.Form) (m : Mem P) (weak : Bool) (pc : PC (Arg U) P) : Mem P × Next (Arg U) P := hTick (pc.asks U q) m weak pc

/-- The step function of the machine; `none`: the label is not enabled; cf. `step`. -/
def bStep (U : UserKeys P) (s : State (Arg U) P) : Label (Arg U) P → Option (State (Arg U) P × Option (Event (Arg U) P))
  | .pin t =>
    let th := s.thr t
    match th.pin, th.failed with
    | none, none => some (⟨s.m.bump, upd s.thr t { th with pin := some s.m.clock, refs := [] }⟩, none)
    | _, _ => none
  | .unpin t =>
    let th := s.thr t
    match th.pin, th.run, th.failed with
    | some _, none, none => some (⟨s.m.bump, upd s.thr t { th with pin := none, refs := [] }⟩, none)
    | _, _, _ => none
  | .call t r =>
    let th := s.thr t
    match th.pin, th.run, th.failed with
    | some _, none, none =>
      some (⟨s.m.bump, upd s.thr t { th with run := some ⟨s.m.clock, r, hStartPC (U.hashReq r) r, 0, 0⟩ }⟩, some (.inv s.m.clock r))
    | _, _, _ => none
  | .tick t weak =>
    let th := s.thr t
    match th.run with
    | none => none
    | some c =>
      let (m', n) := bTick U c.req.typ s.m weak c.pc
      some (⟨m'.bump, upd s.thr t (th.apply c n)⟩, n.event c.inv)
  | .abort t =>
    let th := s.thr t
    match th.run with
    | none => none
    | some _ => some (⟨s.m.bump, upd s.thr t { th with pin := none, refs := [], run := none }⟩, none)
  | .free a => some (⟨{ s.m.bump with freed := upd s.m.freed a true }, s.thr⟩, none)
  | .idle => some (⟨s.m.bump, s.thr⟩, none)

/-- The contract of the caller: the closure of `get_or_insert_with` creates an element whose key is equal to the key asked for. -/
def UserKeys.WF (U : UserKeys P) : Label (Arg U) P → Prop
  | .call _ (.op (.getOrInsert a f)) => U.same (f a) a = true
  | _ => True

/-- A finite run: the labels are executed one after the other; cf. `runList`. -/
def bRun (U : UserKeys P) : State (Arg U) P → List (Label (Arg U) P) → Option (State (Arg U) P × List (Event (Arg U) P))
  | s, [] => some (s, [])
  | s, l :: ls => match bStep U s l with
    | none => none
    | some (s', e) => match bRun U s' ls with
      | none => none
      | some (s'', es) => some (s'', e.toList ++ es)

/-- All steps of a finite run are possible and obey the contracts of the collector and of the caller; cf. `RunOK`. -/
def BRunOK (U : UserKeys P) : State (Arg U) P → List (Label (Arg U) P) → Prop
  | _, [] => True
  | s, l :: ls => l.enabled s ∧ U.WF l ∧ match bStep U s l with
    | none => False
    | some (s', _) => BRunOK U s' ls

end Contrie
