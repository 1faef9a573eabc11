import Verif.Model.Cloning
import Verif.Proof.Borrow
/-
Renaming the elements: the machine commutes with any function on elements that respects the answers of user code.
-/
namespace Contrie
open scoped List
variable {A P Q : Type} (π : P → Q)

def Node.mapP : Node P → Node Q
  | .inner c p => .inner c p
  | .data l => .data (l.map π)

def Mem.mapP (m : Mem P) : Mem Q := ⟨m.root, fun a => (m.mem a).map (Node.mapP π), m.next, m.retired, m.freed, m.clock⟩

def TState.mapP : TState A P → TState A Q
  | .created p => .created (π p)
  | .future k f => .future k (fun x => π (f x))

def Cont.mapP : Cont A P → Cont A Q
  | .trav st hash mode => .trav (st.mapP π) hash mode
  | .rem key => .rem key
  | .clean d r l => .clean (π d) r l

def TKind.mapP : TKind P → TKind Q
  | .fresh => .fresh
  | .split => .split
  | .replace f => .replace (f.map π)

def PC.mapP : PC A P → PC A Q
  | .get key hash cur => .get key hash cur
  | .isEmpty => .isEmpty
  | .iterNew => .iterNew
  | .iterNext l o => .iterNext l (o.map π)
  | .trav st hash mode shift cur parent => .trav (st.mapP π) hash mode shift cur parent
  | .travCas st hash mode shift cur parent node new kind => .travCas (st.mapP π) hash mode shift cur parent node (new.mapP π) (kind.mapP π)
  | .rem key shift cur levels => .rem key shift cur levels
  | .remCas key shift cur levels node new deleted => .remCas key shift cur levels node (new.map π) (π deleted)
  | .count d r p ch l i n => .count (π d) r p ch l i n
  | .prune p ch i acc k => .prune p ch i acc (k.mapP π)
  | .pruneCas p ch acc k => .pruneCas p ch acc (k.mapP π)

def Op.mapP : Op A P → Op A Q
  | .get k => .get k
  | .insert p => .insert (π p)
  | .getOrInsert k f => .getOrInsert k (fun x => π (f x))
  | .remove k => .remove k

def Req.mapP : Req A P → Req A Q
  | .op o => .op (o.mapP π)
  | .isEmpty => .isEmpty
  | .iter => .iter

def Ret.mapP : Ret P → Ret Q
  | .opt r => .opt (r.map π)
  | .eon r => .eon (r.map π)

def Res.mapP : Res P → Res Q
  | .op r => .op (r.mapP π)
  | .bool b => .bool b
  | .list l => .list (l.map π)

def Next.mapP : Next A P → Next A Q
  | .goto pc ran => .goto (pc.mapP π) ran
  | .ret r l => .ret (r.mapP π) l
  | .fail f => .fail f

def Call.mapP (x : Call A P) : Call A Q := ⟨x.inv, x.req.mapP π, x.pc.mapP π, x.calls, x.ticks⟩

def Thread.mapP (x : Thread A P) : Thread A Q := ⟨x.pin, x.refs, x.run.map (·.mapP π), x.failed⟩

def State.mapP (x : State A P) : State A Q := ⟨x.m.mapP π, fun t => (x.thr t).mapP π⟩

def Label.mapP : Label A P → Label A Q
  | .pin t => .pin t
  | .unpin t => .unpin t
  | .call t r => .call t (r.mapP π)
  | .tick t w => .tick t w
  | .abort t => .abort t
  | .free a => .free a
  | .idle => .idle

def Event.mapP : Event A P → Event A Q
  | .inv id r => .inv id (r.mapP π)
  | .res id r => .res id (r.mapP π)

def HEv.mapP : HEv A P → HEv A Q
  | .inv id o => .inv id (o.mapP π)
  | .res id r => .res id (r.mapP π)

/-- Both users answer alike. -/
structure Answers.Agree (o : Answers P) (o' : Answers Q) : Prop where
  differs : ∀ p, o'.differs (π p) = o.differs p
  equal : ∀ n p, o'.equal n (π p) = o.equal n p
  keep : ∀ n p, o'.keep n (π p) = o.keep n p
  hashOf : ∀ p, o'.hashOf (π p) = o.hashOf p
  hash : o'.hash = o.hash
  clone : ∀ n p, o'.clone n (π p) = π (o.clone n p)

/-! ### Memory -/

theorem Mem.mapP_deref (m : Mem P) (a : Nat) : (m.mapP π).deref a = (m.deref a).map (Node.mapP π) := by
  unfold Mem.deref
  show (if m.freed a = true then none else (m.mem a).map (Node.mapP π)) = _
  split <;> rfl

theorem Mem.mapP_read (m : Mem P) (l : Loc) : (m.mapP π).read l = m.read l := by
  cases l with
  | root => rfl
  | slot a i =>
    simp only [Mem.read, Mem.mapP_deref]
    cases m.deref a with
    | none => rfl
    | some n => cases n <;> rfl

theorem Mem.mapP_write (m : Mem P) (w : Word) (l : Loc) : (m.mapP π).write w l = (m.write w l).mapP π := by
  cases l with
  | root => rfl
  | slot a i =>
    simp only [Mem.write, Mem.mapP]
    cases h : m.mem a with
    | none => rfl
    | some n =>
      cases n with
      | data => rfl
      | inner c p =>
        simp only [Option.map_some, Node.mapP, Mem.mk.injEq, true_and, and_true]
        funext x
        by_cases hx : x = a <;> simp [upd, hx, Node.mapP]

theorem Mem.mapP_alloc (m : Mem P) (n : Node P) : (m.mapP π).alloc (n.mapP π) = (m.alloc n).mapP π := by
  simp only [Mem.alloc, Mem.mapP, Mem.mk.injEq, true_and, and_true]
  funext x
  by_cases hx : x = m.next <;> simp [upd, hx]

theorem Mem.mapP_retire (m : Mem P) (a : Nat) : (m.mapP π).retire a = (m.retire a).mapP π := rfl

theorem Mem.mapP_next (m : Mem P) : (m.mapP π).next = m.next := rfl

theorem Mem.mapP_loadData (m : Mem P) (w : Word) : (m.mapP π).loadData w = (m.loadData w).map (List.map π) := by
  unfold Mem.loadData
  split
  · rfl
  · cases w.ptr with
    | none => rfl
    | some a =>
      simp only [Mem.mapP_deref]
      cases m.deref a with
      | none => rfl
      | some n => cases n <;> rfl

theorem PAcc.push_mapP (m : Mem P) (acc : PAcc) (i : Fin 16) (gc : Word) : PAcc.push (m.mapP π) acc i gc = PAcc.push m acc i gc := by
  unfold PAcc.push
  simp only [Mem.mapP_loadData]
  split
  · rfl
  · split
    · cases m.loadData gc.erase with
      | error f => rfl
      | ok items => simp [Except.map]
    · rfl

/-! ### The answers in the loops -/

section
variable {π} {o : Answers P} {o' : Answers Q} (h : o.Agree π o')
include h

theorem findAns_mapP (n : Nat) (l : List P) : findAns o'.equal n (l.map π) = (findAns o.equal n l).map π := by
  induction l generalizing n with
  | nil => rfl
  | cons x l ih =>
    simp only [List.map_cons, findAns, h.equal, ih]
    split <;> rfl

theorem filterAns_keep_mapP (n : Nat) (l : List P) : filterAns o'.keep n (l.map π) = (filterAns o.keep n l).map π := by
  induction l generalizing n with
  | nil => rfl
  | cons x l ih =>
    simp only [List.map_cons, filterAns, h.keep, ih]
    split <;> rfl

theorem filterAns_equal_mapP (n : Nat) (l : List P) : filterAns o'.equal n (l.map π) = (filterAns o.equal n l).map π := by
  induction l generalizing n with
  | nil => rfl
  | cons x l ih =>
    simp only [List.map_cons, filterAns, h.equal, ih]
    split <;> rfl

theorem filterAns_not_mapP (n : Nat) (l : List P) :
    filterAns (fun n l => !o'.equal n l) n (l.map π) = (filterAns (fun n l => !o.equal n l) n l).map π := by
  induction l generalizing n with
  | nil => rfl
  | cons x l ih =>
    simp only [List.map_cons, filterAns, h.equal, ih]
    split <;> rfl

theorem cloneAns_mapP (n : Nat) (l : List P) : cloneAns o'.clone n (l.map π) = (cloneAns o.clone n l).map π := by
  induction l generalizing n with
  | nil => rfl
  | cons x l ih => simp only [List.map_cons, cloneAns, h.clone, ih]
end

/-! ### The steps -/

theorem Next.mapP_goto (pc : PC A P) (ran : Bool) : (Next.goto pc ran).mapP π = .goto (pc.mapP π) ran := rfl
theorem Next.mapP_ret (r : Res P) (l : List Nat) : (Next.ret r l : Next A P).mapP π = .ret (r.mapP π) l := rfl
theorem Next.mapP_fail (f : Failure) : (Next.fail f : Next A P).mapP π = .fail f := rfl

@[simp] theorem TState.mapP_payload (st : TState A P) : (st.mapP π).payload = π st.payload := by cases st <;> rfl
@[simp] theorem TState.mapP_runs (st : TState A P) : (st.mapP π).runsClosure = st.runsClosure := by cases st <;> rfl

theorem enterPrune_mapP (p : Loc) (ch : Word) (k : Cont A P) : enterPrune p ch (k.mapP π) = (enterPrune p ch k).mapP π := by
  unfold enterPrune
  split
  · rfl
  · split <;> rfl

theorem enterClean_mapP (d : P) (r : Nat) (l : List (Loc × Word)) :
    (enterClean (π d) r l : Next A Q) = (enterClean d r l : Next A P).mapP π := by
  cases l with
  | nil => rfl
  | cons x l =>
    simp only [enterClean]
    split <;> rfl

theorem afterPrune_mapP (r : PruneResult) (k : Cont A P) : afterPrune r (k.mapP π) = (afterPrune r k).mapP π := by
  cases k with
  | trav => rfl
  | rem => rfl
  | clean d ref rest =>
    simp only [Cont.mapP, afterPrune]
    split
    · rfl
    · exact enterClean_mapP π d ref rest

theorem finishTrav_mapP (mode : Mode) (r : Option (ExistingOrNew P)) (l : List Nat) :
    (finishTrav mode (r.map (ExistingOrNew.map π)) l : Next A Q) = (finishTrav mode r l : Next A P).mapP π := by
  cases mode with
  | ifMissing => cases r <;> rfl
  | overwrite =>
    cases r with
    | none => rfl
    | some e => cases e <;> rfl

theorem Node.newest_mapP (p : P) (n : Node P) : (n.mapP π).newest (π p) = π (n.newest p) := by
  cases n with
  | inner => rfl
  | data l =>
    simp only [Node.mapP, Node.newest, List.getLast?_map]
    cases l.getLast? <;> rfl

section
variable {π} {o : Answers P} {o' : Answers Q} (h : o.Agree π o')
include h

theorem hTickGet_mapP (m : Mem P) (k : A) (hash : BitVec 64) (cur : Loc) :
    hTickGet o' (m.mapP π) k hash cur = (hTickGet o m k hash cur).mapP π := by
  unfold hTickGet
  simp only [Mem.mapP_read, Mem.mapP_loadData]
  cases m.read cur with
  | none => rfl
  | some node =>
    simp only []
    cases node.ptr with
    | none => rfl
    | some a =>
      simp only []
      split
      · cases m.loadData node with
        | error f => rfl
        | ok items =>
          simp only [Except.map, findAns_mapP h]
          cases findAns o.equal 0 items <;> rfl
      · rfl

theorem hTickRem_mapP (m : Mem P) (k : A) (shift : Nat) (cur : Loc) (levels : List (Loc × Word)) :
    hTickRem o' (m.mapP π) k shift cur levels = (hTickRem o m k shift cur levels).mapP π := by
  unfold hTickRem
  simp only [Mem.mapP_read, Mem.mapP_loadData]
  cases m.read cur with
  | none => rfl
  | some node =>
    simp only []
    cases node.ptr with
    | none => rfl
    | some a =>
      simp only []
      split
      · cases levels with
        | nil => rfl
        | cons x l => exact enterPrune_mapP π x.1 x.2 (.rem k)
      · split
        · cases m.loadData node with
          | error f => rfl
          | ok items =>
            simp only [Except.map, filterAns_equal_mapP h, List.getLast?_map]
            cases (filterAns o.equal 0 items).getLast? with
            | none => rfl
            | some d =>
              simp only [Option.map_some, filterAns_not_mapP h, cloneAns_mapP h]
              rfl
        · rw [h.hash]
          split
          · rfl
          · split <;> rfl

theorem hTickTrav_mapP (m : Mem P) (st : TState A P) (hash : BitVec 64) (mode : Mode) (shift : Nat) (cur : Loc)
    (parent : Option (Loc × Word)) :
    hTickTrav o' (m.mapP π) (st.mapP π) hash mode shift cur parent = (hTickTrav o m st hash mode shift cur parent).mapP π := by
  unfold hTickTrav
  simp only [Mem.mapP_read, Mem.mapP_loadData, TState.mapP_payload, TState.mapP_runs]
  cases m.read cur with
  | none => rfl
  | some node =>
    simp only []
    split
    · cases parent with
      | none => rfl
      | some x => exact enterPrune_mapP π x.1 x.2 (.trav st hash mode)
    · cases node.ptr with
      | none => simp only [h.clone]; rfl
      | some a =>
        simp only []
        split
        · cases m.loadData node with
          | error f => rfl
          | ok items =>
            cases items with
            | nil => rfl
            | cons d0 rest =>
              simp only [Except.map, List.map_cons, h.differs]
              split
              · simp only [List.length_cons, List.length_map]
                split
                · rfl
                · rw [h.hashOf]; rfl
              · have e1 := findAns_mapP h 0 (d0 :: rest)
                have e2 := filterAns_keep_mapP h 0 (d0 :: rest)
                simp only [List.map_cons] at e1 e2
                simp only [e1, e2, Option.isNone_map, List.length_map, h.clone, cloneAns_mapP h]
                split
                · simp only [Next.mapP, PC.mapP, TState.mapP, Node.mapP, TKind.mapP, List.map_append, List.map_cons, List.map_nil]
                · have := finishTrav_mapP (A := A) π mode ((findAns o.equal 0 (d0 :: rest)).map .existing) [a]
                  rw [← this]
                  cases findAns o.equal 0 (d0 :: rest) <;> rfl
        · split <;> rfl
end

theorem tickTravCas_mapP (m : Mem P) (weak : Bool) (st : TState A P) (hash : BitVec 64) (mode : Mode) (shift : Nat) (cur : Loc)
    (parent : Option (Loc × Word)) (node : Word) (new : Node P) (kind : TKind P) :
    tickTravCas (m.mapP π) weak (st.mapP π) hash mode shift cur parent node (new.mapP π) (kind.mapP π) =
      Prod.map (Mem.mapP π) (Next.mapP π) (tickTravCas m weak st hash mode shift cur parent node new kind) := by
  unfold tickTravCas
  have e := Mem.mapP_alloc π m new
  simp only [Mem.mapP_read, TState.mapP_payload, e, Mem.mapP_next, Node.newest_mapP]
  have hw : ∀ (w : Word), ((m.alloc new).mapP π).write w cur = ((m.alloc new).write w cur).mapP π := fun w => Mem.mapP_write π _ w cur
  cases m.read cur with
  | none => rfl
  | some w =>
    simp only [hw]
    cases new <;> simp only [Node.mapP] <;>
    · split
      · cases kind with
        | split => rfl
        | fresh => cases mode <;> rfl
        | replace found =>
          simp only [TKind.mapP]
          cases node.ptr with
          | none => rfl
          | some old =>
            simp only []
            split
            · rfl
            · cases found <;> cases mode <;> rfl
      · rfl

theorem tickRemCas_mapP (m : Mem P) (weak : Bool) (k : A) (shift : Nat) (cur : Loc) (levels : List (Loc × Word))
    (node : Word) (new : List P) (deleted : P) :
    tickRemCas (m.mapP π) weak k shift cur levels node (new.map π) (π deleted) =
      Prod.map (Mem.mapP π) (Next.mapP π) (tickRemCas m weak k shift cur levels node new deleted) := by
  unfold tickRemCas
  simp only [Mem.mapP_read]
  cases m.read cur with
  | none => rfl
  | some w =>
    simp only []
    split
    · cases new with
      | nil =>
        simp only [List.map_nil, Mem.mapP_write]
        cases node.ptr with
        | none => rfl
        | some old =>
          simp only []
          split
          · rfl
          · simp only [Mem.mapP_retire, enterClean_mapP (A := A) π]; rfl
      | cons x l =>
        have e := Mem.mapP_alloc π m (.data (x :: l))
        simp only [Node.mapP, List.map_cons] at e
        simp only [List.map_cons, e, Mem.mapP_write, Mem.mapP_next]
        cases node.ptr with
        | none => rfl
        | some old =>
          simp only []
          split
          · rfl
          · simp only [Mem.mapP_retire, enterClean_mapP (A := A) π]; rfl
    · rfl

theorem tickCount_mapP (m : Mem P) (d : P) (r : Nat) (p : Loc) (ch : Word) (l : List (Loc × Word)) (i : Fin 16) (n : Nat) :
    (tickCount (m.mapP π) (π d) r p ch l i n : Next A Q) = (tickCount m d r p ch l i n : Next A P).mapP π := by
  unfold tickCount
  simp only [Mem.mapP_read]
  cases ch.ptr with
  | none => rfl
  | some a =>
    simp only []
    cases m.read (.slot a i) with
    | none => rfl
    | some w =>
      simp only []
      generalize (if w.ptr.isSome = true then n + 1 else n) = n'
      split
      · rfl
      · split
        · rfl
        · exact enterPrune_mapP (A := A) π p ch (.clean d r l)

theorem tickPrune_mapP (m : Mem P) (p : Loc) (ch : Word) (i : Fin 16) (acc : PAcc) (k : Cont A P) :
    tickPrune (m.mapP π) p ch i acc (k.mapP π) = Prod.map (Mem.mapP π) (Next.mapP π) (tickPrune m p ch i acc k) := by
  unfold tickPrune
  simp only [Mem.mapP_read]
  cases ch.ptr with
  | none => rfl
  | some a =>
    simp only []
    cases m.read (.slot a i) with
    | none => rfl
    | some gc =>
      simp only [Mem.mapP_write, PAcc.push_mapP]
      generalize PAcc.push _ _ _ _ = e
      cases e with
      | error f => rfl
      | ok acc' =>
        simp only []
        split
        · rfl
        · split <;> rfl

theorem tickPruneCas_mapP (m : Mem P) (p : Loc) (ch : Word) (acc : PAcc) (k : Cont A P) :
    tickPruneCas (m.mapP π) p ch acc (k.mapP π) = Prod.map (Mem.mapP π) (Next.mapP π) (tickPruneCas m p ch acc k) := by
  unfold tickPruneCas
  simp only [Mem.mapP_read, Mem.mapP_deref]
  cases ch.ptr with
  | none => rfl
  | some a =>
    simp only []
    cases m.read p with
    | none => rfl
    | some w =>
      cases m.deref a with
      | none => rfl
      | some n =>
        cases n with
        | data => rfl
        | inner cells path =>
          simp only [Option.map_some, Node.mapP]
          split
          · cases acc.decide with
            | mk ins res =>
              cases ins with
              | word w' => simp only [Mem.mapP_write, afterPrune_mapP]; rfl
              | copy cells =>
                have e := Mem.mapP_alloc π m (.inner cells path)
                simp only [Node.mapP] at e
                simp only [e, Mem.mapP_write, Mem.mapP_next, afterPrune_mapP]; rfl
          · simp only [afterPrune_mapP]; rfl

theorem tickIterNext_mapP (m : Mem P) (l : List (Word × Nat)) (out : List P) :
    (tickIterNext (m.mapP π) l (out.map π) : Next A Q) = (tickIterNext m l out : Next A P).mapP π := by
  unfold tickIterNext
  cases l with
  | nil => rfl
  | cons x rest =>
    obtain ⟨w, idx⟩ := x
    simp only [Mem.mapP_read, Mem.mapP_loadData]
    cases w.ptr with
    | none => rfl
    | some a =>
      simp only []
      split
      · cases m.loadData w with
        | error f => rfl
        | ok items =>
          simp only [Except.map, List.getElem?_map]
          cases items[idx]? with
          | none => rfl
          | some p => simp only [Option.map_some, Next.mapP, PC.mapP, List.map_append, List.map_cons, List.map_nil]
      · split
        · rename_i hi
          cases m.read (.slot a ⟨idx, hi⟩) with
          | none => rfl
          | some w' =>
            simp only []
            split <;> rfl
        · rfl

theorem hTick_mapP {o : Answers P} {o' : Answers Q} (h : o.Agree π o') (m : Mem P) (weak : Bool) (pc : PC A P) :
    hTick o' (m.mapP π) weak (pc.mapP π) = Prod.map (Mem.mapP π) (Next.mapP π) (hTick o m weak pc) := by
  cases pc with
  | get k hash cur => simp only [PC.mapP, hTick, hTickGet_mapP h]; rfl
  | isEmpty => rfl
  | iterNew => rfl
  | iterNext l out => simp only [PC.mapP, hTick, tickIterNext_mapP (A := A) π]; rfl
  | trav => simp only [PC.mapP, hTick, hTickTrav_mapP h]; rfl
  | travCas => simp only [PC.mapP, hTick, tickTravCas_mapP]
  | rem => simp only [PC.mapP, hTick, hTickRem_mapP h]; rfl
  | remCas => simp only [PC.mapP, hTick, tickRemCas_mapP]
  | count => simp only [PC.mapP, hTick, tickCount_mapP (A := A) π]; rfl
  | prune => simp only [PC.mapP, hTick, tickPrune_mapP]
  | pruneCas => simp only [PC.mapP, hTick, tickPruneCas_mapP]

theorem Thread.mapP_apply (th : Thread A P) (x : Call A P) (n : Next A P) :
    (th.apply x n).mapP π = (th.mapP π).apply (x.mapP π) (n.mapP π) := by
  cases n <;> rfl

theorem Next.mapP_event (id : Nat) (n : Next A P) : (n.mapP π).event id = (n.event id).map (Event.mapP π) := by
  cases n <;> rfl

theorem State.mapP_upd (m : Mem P) (thr : Nat → Thread A P) (t : Nat) (th : Thread A P) :
    State.mapP π ⟨m, upd thr t th⟩ = ⟨m.mapP π, upd (fun t => (thr t).mapP π) t (th.mapP π)⟩ := by
  simp only [State.mapP, State.mk.injEq, true_and]
  funext x
  simp only [upd]
  split <;> rfl

theorem hStartPC_mapP (h : BitVec 64) (r : Req A P) : hStartPC h (r.mapP π) = (hStartPC h r).mapP π := by
  cases r with
  | op o => cases o <;> rfl
  | _ => rfl

/-- The machine commutes with the renaming. -/
theorem oStep_mapP {ask : Call A P → Answers P} {ask' : Call A Q → Answers Q} {hr : Req A P → BitVec 64} {hr' : Req A Q → BitVec 64}
    (ha : ∀ c, (ask c).Agree π (ask' (c.mapP π))) (hh : ∀ r, hr' (r.mapP π) = hr r) (s : State A P) (l : Label A P) :
    oStep ask' hr' (s.mapP π) (l.mapP π) = (oStep ask hr s l).map (Prod.map (State.mapP π) (Option.map (Event.mapP π))) := by
  have hpin : ∀ t, ((s.mapP π).thr t).pin = (s.thr t).pin := fun _ => rfl
  have hfail : ∀ t, ((s.mapP π).thr t).failed = (s.thr t).failed := fun _ => rfl
  have hrun : ∀ t, ((s.mapP π).thr t).run = (s.thr t).run.map (·.mapP π) := fun _ => rfl
  cases l with
  | pin t =>
    simp only [Label.mapP, oStep, hpin, hfail]
    cases (s.thr t).pin <;> cases (s.thr t).failed <;> try rfl
    simp only [Option.map_some, Prod.map, State.mapP_upd]
    rfl
  | unpin t =>
    simp only [Label.mapP, oStep, hpin, hfail, hrun]
    cases (s.thr t).pin <;> cases (s.thr t).run <;> cases (s.thr t).failed <;> try rfl
    simp only [Option.map_some, Option.map_none, Prod.map, State.mapP_upd]
    rfl
  | call t r =>
    simp only [Label.mapP, oStep, hpin, hfail, hrun]
    cases (s.thr t).pin <;> cases (s.thr t).run <;> cases (s.thr t).failed <;> try rfl
    simp only [Option.map_some, Option.map_none, Prod.map, State.mapP_upd, hh, hStartPC_mapP]
    rfl
  | tick t weak =>
    simp only [Label.mapP, oStep, hrun]
    cases hc : (s.thr t).run with
    | none => rfl
    | some c =>
      have e := hTick_mapP π (ha c) s.m weak c.pc
      have e' : hTick (ask' (c.mapP π)) (s.mapP π).m weak (c.mapP π).pc = _ := e
      simp only [Option.map_some, e', Prod.map, State.mapP_upd, Thread.mapP_apply, Next.mapP_event]
      rfl
  | abort t =>
    simp only [Label.mapP, oStep, hrun]
    cases hc : (s.thr t).run with
    | none => rfl
    | some c =>
      simp only [Option.map_some, Prod.map, State.mapP_upd]
      rfl
  | free a => rfl
  | idle => rfl

end Contrie
