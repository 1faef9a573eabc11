import Verif.Model.Borrow
import Verif.Spec.UserKeys
import Verif.Props.Hostile
import Verif.Proof.Lin
/-
Classes of equal arguments, and the machine on them.
-/
namespace Contrie
open scoped List
variable {P : Type}

/-- A class of arguments: the keys equal to them, and their hash. (Arguments equal to no key are in a class with those of the same hash.) -/
def Cls (U : UserKeys P) : Type := (U.Key → Bool) × BitVec 64

noncomputable instance (U : UserKeys P) : DecidableEq (Cls U) := fun _ _ => Classical.propDecidable _

def Arg.cls {U : UserKeys P} (x : Arg U) : Cls U := (x.den, U.hashArg x)

def UserKeys.cfg (U : UserKeys P) : Config (Cls U) P where
  key := fun p => (U.keyArg p).cls
  hash := Prod.snd

theorem UserKeys.same_den (U : UserKeys P) (p : P) (x : Arg U) : U.same p x = x.den (U.own p) := by cases x <;> rfl

section
variable {U : UserKeys P} (hU : U.Lawful)
include hU

theorem den_congr {a b : U.Key} (h : U.eqKey a b = true) (x : Arg U) : x.den a = x.den b := by
  rw [Bool.eq_iff_iff]
  cases x with
  | own k => exact ⟨fun e => hU.trans _ _ _ (hU.symm _ _ h) e, fun e => hU.trans _ _ _ h e⟩
  | form f q =>
    have h1 : U.eqForm f (U.borrow f a) (U.borrow f b) = true := by rw [hU.borrowEq]; exact h
    exact ⟨fun e => hU.transForm _ _ _ _ (hU.symmForm _ _ _ h1) e, fun e => hU.transForm _ _ _ _ h1 e⟩

theorem cls_of_den {k : U.Key} {x : Arg U} (h : x.den k = true) : (Arg.own k).cls = x.cls := by
  have h1 : (Arg.own k : Arg U).den = x.den := by
    funext a
    rw [Bool.eq_iff_iff]
    cases x with
    | own k' => exact ⟨fun e => hU.trans _ _ _ e h, fun e => hU.trans _ _ _ e (hU.symm _ _ h)⟩
    | form f q =>
      constructor
      · intro e
        have h1 : U.eqForm f (U.borrow f a) (U.borrow f k) = true := by rw [hU.borrowEq]; exact e
        exact hU.transForm _ _ _ _ h1 h
      · intro e
        have : U.eqForm f (U.borrow f a) (U.borrow f k) = true := hU.transForm _ _ _ _ e (hU.symmForm _ _ _ h)
        rw [hU.borrowEq] at this
        exact this
  have h2 : U.hashArg (.own k) = U.hashArg x := by
    cases x with
    | own k' => exact hU.hash _ _ h
    | form f q => exact (hU.borrowHash f k).symm.trans (hU.hashForm _ _ _ h)
  exact Prod.ext h1 h2

theorem same_iff {p : P} {x : Arg U} : U.same p x = true ↔ U.cfg.key p = x.cls := by
  rw [U.same_den]
  constructor
  · exact cls_of_den hU
  · intro h
    have : (Arg.own (U.own p) : Arg U).den = x.den := congrArg Prod.fst h
    rw [← this]
    exact hU.refl _

theorem same_decide (p : P) (x : Arg U) : U.same p x = decide (U.cfg.key p = x.cls) := by
  rw [Bool.eq_iff_iff, same_iff hU]; simp

theorem cls_keyAs (p : P) (q : Option U.Form) : (U.keyAs p q).cls = U.cfg.key p := by
  cases q with
  | none => rfl
  | some f =>
    refine (cls_of_den hU ?_).symm
    show U.eqForm f (U.borrow f (U.own p)) (U.borrow f (U.own p)) = true
    exact hU.reflForm _ _

theorem answers_honest (x : Arg U) : U.answers x = Answers.honest U.cfg x.cls := by
  simp only [UserKeys.answers, Answers.honest, same_decide hU, decide_not]
  rfl
end

/-! ### Renaming the keys -/

section
variable {A B : Type} (c : A → B)

def TState.mapKey : TState A P → TState B P
  | .created p => .created p
  | .future k f => .future (c k) (fun _ => f k)

def Cont.mapKey : Cont A P → Cont B P
  | .trav st hash mode => .trav (st.mapKey c) hash mode
  | .rem key => .rem (c key)
  | .clean d r l => .clean d r l

def PC.mapKey : PC A P → PC B P
  | .get key hash cur => .get (c key) hash cur
  | .isEmpty => .isEmpty
  | .iterNew => .iterNew
  | .iterNext l o => .iterNext l o
  | .trav st hash mode shift cur parent => .trav (st.mapKey c) hash mode shift cur parent
  | .travCas st hash mode shift cur parent node new kind => .travCas (st.mapKey c) hash mode shift cur parent node new kind
  | .rem key shift cur levels => .rem (c key) shift cur levels
  | .remCas key shift cur levels node new deleted => .remCas (c key) shift cur levels node new deleted
  | .count d r p ch l i n => .count d r p ch l i n
  | .prune p ch i acc k => .prune p ch i acc (k.mapKey c)
  | .pruneCas p ch acc k => .pruneCas p ch acc (k.mapKey c)

def Op.mapKey : Op A P → Op B P
  | .get k => .get (c k)
  | .insert p => .insert p
  | .getOrInsert k f => .getOrInsert (c k) (fun _ => f k)
  | .remove k => .remove (c k)

def Req.mapKey : Req A P → Req B P
  | .op o => .op (o.mapKey c)
  | .isEmpty => .isEmpty
  | .iter => .iter

def Next.mapKey : Next A P → Next B P
  | .goto pc ran => .goto (pc.mapKey c) ran
  | .ret r l => .ret r l
  | .fail f => .fail f

def Call.mapKey (x : Call A P) : Call B P := ⟨x.inv, x.req.mapKey c, x.pc.mapKey c, x.calls, x.ticks⟩

def Thread.mapKey (x : Thread A P) : Thread B P := ⟨x.pin, x.refs, x.run.map (·.mapKey c), x.failed⟩

def State.mapKey (x : State A P) : State B P := ⟨x.m, fun t => (x.thr t).mapKey c⟩

def Label.mapKey : Label A P → Label B P
  | .pin t => .pin t
  | .unpin t => .unpin t
  | .call t r => .call t (r.mapKey c)
  | .tick t w => .tick t w
  | .abort t => .abort t
  | .free a => .free a
  | .idle => .idle

def Event.mapKey : Event A P → Event B P
  | .inv id r => .inv id (r.mapKey c)
  | .res id r => .res id r

def HEv.mapKey : HEv A P → HEv B P
  | .inv id o => .inv id (o.mapKey c)
  | .res id r => .res id r

theorem Next.mapKey_goto (pc : PC A P) (ran : Bool) : (Next.goto pc ran).mapKey c = .goto (pc.mapKey c) ran := rfl
theorem Next.mapKey_ret (r : Res P) (l : List Nat) : (Next.ret r l : Next A P).mapKey c = .ret r l := rfl
theorem Next.mapKey_fail (f : Failure) : (Next.fail f : Next A P).mapKey c = .fail f := rfl

@[simp] theorem TState.mapKey_payload (st : TState A P) : (st.mapKey c).payload = st.payload := by cases st <;> rfl
@[simp] theorem TState.mapKey_runs (st : TState A P) : (st.mapKey c).runsClosure = st.runsClosure := by cases st <;> rfl

@[simp] theorem enterPrune_mapKey (p : Loc) (ch : Word) (k : Cont A P) : enterPrune p ch (k.mapKey c) = (enterPrune p ch k).mapKey c := by
  unfold enterPrune
  split
  · rfl
  · split <;> rfl

@[simp] theorem enterClean_mapKey (d : P) (r : Nat) (l : List (Loc × Word)) :
    (enterClean d r l : Next A P).mapKey c = enterClean d r l := by
  cases l with
  | nil => rfl
  | cons x l =>
    simp only [enterClean]
    split <;> rfl

@[simp] theorem afterPrune_mapKey (r : PruneResult) (k : Cont A P) : afterPrune r (k.mapKey c) = (afterPrune r k).mapKey c := by
  cases k with
  | trav => rfl
  | rem => rfl
  | clean d ref rest =>
    simp only [Cont.mapKey, afterPrune]
    split
    · rfl
    · exact (enterClean_mapKey c d ref rest).symm

@[simp] theorem finishTrav_mapKey (mode : Mode) (r : Option (ExistingOrNew P)) (l : List Nat) :
    (finishTrav mode r l : Next A P).mapKey c = finishTrav mode r l := by
  cases mode <;> cases r <;> rfl

theorem hTickGet_mapKey (o : Answers P) (m : Mem P) (k : A) (h : BitVec 64) (cur : Loc) :
    hTickGet o m (c k) h cur = (hTickGet o m k h cur).mapKey c := by
  unfold hTickGet
  repeat' split
  all_goals rfl

theorem hTickRem_mapKey (o : Answers P) (m : Mem P) (k : A) (shift : Nat) (cur : Loc) (l : List (Loc × Word)) :
    hTickRem o m (c k) shift cur l = (hTickRem o m k shift cur l).mapKey c := by
  unfold hTickRem
  repeat' split
  all_goals first | rfl | exact enterPrune_mapKey c _ _ (.rem k)

theorem hTickTrav_mapKey (o : Answers P) (m : Mem P) (st : TState A P) (h : BitVec 64) (mode : Mode) (shift : Nat) (cur : Loc)
    (parent : Option (Loc × Word)) :
    hTickTrav o m (st.mapKey c) h mode shift cur parent = (hTickTrav o m st h mode shift cur parent).mapKey c := by
  unfold hTickTrav
  simp only [TState.mapKey_payload, TState.mapKey_runs]
  repeat' split
  all_goals first | rfl | exact enterPrune_mapKey c _ _ (.trav st h mode) | exact (finishTrav_mapKey c _ _ _).symm | simp_all [Next.mapKey, PC.mapKey, TState.mapKey]

theorem tickTravCas_mapKey (m : Mem P) (weak : Bool) (st : TState A P) (h : BitVec 64) (mode : Mode) (shift : Nat) (cur : Loc)
    (parent : Option (Loc × Word)) (node : Word) (new : Node P) (kind : TKind P) :
    tickTravCas m weak (st.mapKey c) h mode shift cur parent node new kind =
      Prod.map id (Next.mapKey c) (tickTravCas m weak st h mode shift cur parent node new kind) := by
  unfold tickTravCas
  simp only [TState.mapKey_payload]
  repeat' split
  all_goals first | rfl | simp_all only [Prod.map, id, Next.mapKey_goto, Next.mapKey_ret, Next.mapKey_fail, PC.mapKey, finishTrav_mapKey, enterClean_mapKey, enterPrune_mapKey, afterPrune_mapKey]

theorem tickRemCas_mapKey (m : Mem P) (weak : Bool) (k : A) (shift : Nat) (cur : Loc) (levels : List (Loc × Word))
    (node : Word) (new : List P) (deleted : P) :
    tickRemCas m weak (c k) shift cur levels node new deleted =
      Prod.map id (Next.mapKey c) (tickRemCas m weak k shift cur levels node new deleted) := by
  unfold tickRemCas
  repeat' split
  all_goals first | rfl | simp_all only [Prod.map, id, Next.mapKey_goto, Next.mapKey_ret, Next.mapKey_fail, PC.mapKey, finishTrav_mapKey, enterClean_mapKey, enterPrune_mapKey, afterPrune_mapKey]

theorem tickCount_mapKey (m : Mem P) (d : P) (r : Nat) (p : Loc) (ch : Word) (l : List (Loc × Word)) (i : Fin 16) (n : Nat) :
    (tickCount m d r p ch l i n : Next B P) = (tickCount m d r p ch l i n : Next A P).mapKey c := by
  unfold tickCount
  repeat' split
  all_goals first | rfl | skip
  all_goals (simp only []; split <;> first | rfl | exact enterPrune_mapKey c _ _ (.clean d r l))

theorem tickPrune_mapKey (m : Mem P) (p : Loc) (ch : Word) (i : Fin 16) (acc : PAcc) (k : Cont A P) :
    tickPrune m p ch i acc (k.mapKey c) = Prod.map id (Next.mapKey c) (tickPrune m p ch i acc k) := by
  unfold tickPrune
  split
  · rfl
  · split
    · rfl
    · simp only []
      generalize PAcc.push _ _ _ _ = e
      cases e with
      | error f => rfl
      | ok acc' =>
        simp only []
        split
        · rfl
        · split <;> rfl

theorem tickPruneCas_mapKey (m : Mem P) (p : Loc) (ch : Word) (acc : PAcc) (k : Cont A P) :
    tickPruneCas m p ch acc (k.mapKey c) = Prod.map id (Next.mapKey c) (tickPruneCas m p ch acc k) := by
  unfold tickPruneCas
  repeat' split
  all_goals first | rfl | simp_all only [Prod.map, id, Next.mapKey_goto, Next.mapKey_ret, Next.mapKey_fail, PC.mapKey, finishTrav_mapKey, enterClean_mapKey, enterPrune_mapKey, afterPrune_mapKey]

theorem tickIterNext_mapKey (m : Mem P) (l : List (Word × Nat)) (o : List P) :
    (tickIterNext m l o : Next B P) = (tickIterNext m l o : Next A P).mapKey c := by
  unfold tickIterNext
  repeat' split
  all_goals first | rfl | simp_all only [Next.mapKey_goto, Next.mapKey_ret, Next.mapKey_fail, PC.mapKey, enterClean_mapKey]

theorem hTick_mapKey (o : Answers P) (m : Mem P) (weak : Bool) (pc : PC A P) :
    hTick o m weak (pc.mapKey c) = Prod.map id (Next.mapKey c) (hTick o m weak pc) := by
  cases pc with
  | get k h cur => simp only [PC.mapKey, hTick, hTickGet_mapKey]; rfl
  | isEmpty => rfl
  | iterNew => rfl
  | iterNext l o => simp only [PC.mapKey, hTick, tickIterNext_mapKey (A := A) c]; rfl
  | trav => simp only [PC.mapKey, hTick, hTickTrav_mapKey]; rfl
  | travCas => simp only [PC.mapKey, hTick, tickTravCas_mapKey]
  | rem => simp only [PC.mapKey, hTick, hTickRem_mapKey]; rfl
  | remCas => simp only [PC.mapKey, hTick, tickRemCas_mapKey]
  | count => simp only [PC.mapKey, hTick, tickCount_mapKey (A := A) c]; rfl
  | prune => simp only [PC.mapKey, hTick, tickPrune_mapKey]
  | pruneCas => simp only [PC.mapKey, hTick, tickPruneCas_mapKey]

theorem Thread.mapKey_apply (th : Thread A P) (x : Call A P) (n : Next A P) :
    (th.apply x n).mapKey c = (th.mapKey c).apply (x.mapKey c) (n.mapKey c) := by
  cases n <;> rfl

theorem Next.mapKey_event (id : Nat) (n : Next A P) : (n.mapKey c).event id = (n.event id).map (Event.mapKey c) := by
  cases n <;> rfl

theorem State.mapKey_upd (m : Mem P) (thr : Nat → Thread A P) (t : Nat) (th : Thread A P) :
    State.mapKey c ⟨m, upd thr t th⟩ = ⟨m, upd (fun t => (thr t).mapKey c) t (th.mapKey c)⟩ := by
  simp only [State.mapKey, State.mk.injEq, true_and]
  funext x
  simp only [upd]
  split <;> rfl

theorem hStartPC_mapKey (h : BitVec 64) (r : Req A P) : hStartPC h (r.mapKey c) = (hStartPC h r).mapKey c := by
  cases r with
  | op o => cases o <;> rfl
  | _ => rfl

theorem Event.mapKey_hev (e : Event A P) : (e.mapKey c).hev = e.hev.map (HEv.mapKey c) := by
  cases e with
  | inv id r => cases r <;> rfl
  | res id r => cases r <;> rfl

theorem opHistory_mapKey (es : List (Event A P)) : opHistory (es.map (Event.mapKey c)) = (opHistory es).map (HEv.mapKey c) := by
  unfold opHistory
  induction es with
  | nil => rfl
  | cons e es ih =>
    simp only [List.map_cons, List.filterMap_cons, Event.mapKey_hev]
    cases e.hev with
    | none => simpa using ih
    | some x => simpa using ih

theorem Label.mapKey_enabled {s : State A P} {l : Label A P} (h : l.enabled s) : (l.mapKey c).enabled (s.mapKey c) := by
  cases l <;> first | exact h | trivial
end

end Contrie
