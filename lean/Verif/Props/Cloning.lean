import Verif.Proof.Cloning
import Verif.Props.Borrow
/-
C70 (elements may be cloned, and a clone need only have an equal key).
-/
namespace Contrie
open scoped List
variable {P : Type} {U : UserKeys P} {clones : P → P → Prop}

/-- **C70.** Whatever clones of elements are like, as long as a clone has an equal key, and whatever `Clone::clone` gives each time: every concurrent history is that of a list holding the
very elements inserted, but for the returned elements being clones of clones of ... those returned there; and nothing ever fails. -/
theorem C70_linearizable (hU : U.Lawful) (hc : ∀ p q, clones p q → U.eqKey (U.own p) (U.own q) = true)
    (ls : List (Label (Arg U) P × Clones clones)) (hok : KRunOK U clones State.init ls) :
    ∃ s es, kRun U clones State.init ls = some (s, es) ∧ WellFormed (opHistory es) ∧
      (∃ L l, IsCloneLinearization clones U.same U.keyArg (opHistory es) L l) ∧ ∀ t, (s.thr t).failed = none := by
  obtain ⟨h1, S, ES, h2, h3, h4⟩ := run_lift hU hc ls State.init hok
  obtain ⟨s0, es0, g1, g2, ⟨L, l, g3⟩, g4⟩ := C69_linearizable hU (ls.map Prod.fst) h1
  have h3' : bRun U State.init (ls.map Prod.fst) = _ := h3
  rw [h3'] at g1
  simp only [Option.some.injEq, Prod.mk.injEq] at g1
  obtain ⟨rfl, rfl⟩ := g1
  rw [opHistory_mapP] at g2 g3
  refine ⟨S.mapP Lineage.cur, _, h2, ?_, ⟨L, l, ?_⟩, fun t => g4 t⟩
  · rw [opHistory_mapP]; exact (g2.ofMapP Lineage.org).mapP Lineage.cur
  · rw [opHistory_mapP]
    refine clone_linearization ?_ g3
    intro id o hm
    obtain ⟨e, he, hv⟩ := List.mem_filterMap.mp hm
    have hv : e = .inv id (.op o) := by
      cases e with
      | inv id' r => cases r <;> simp [Event.hev] at hv ⊢; exact hv
      | res id' r => cases r <;> simp [Event.hev] at hv
    subst hv
    obtain ⟨r0, hr⟩ := h4 id _ he
    cases r0 with
    | op o0 =>
      simp only [Req.mapP, Req.op.injEq] at hr
      exact ⟨o0, hr⟩
    | _ => cases hr

/-- **C70**, iteration: no pass yields two elements with equal keys, cloned or not. -/
theorem C70_iteration (hU : U.Lawful) (hc : ∀ p q, clones p q → U.eqKey (U.own p) (U.own q) = true)
    (ls : List (Label (Arg U) P × Clones clones)) (hok : KRunOK U clones State.init ls) :
    ∃ s es, kRun U clones State.init ls = some (s, es) ∧
      ∀ id out, Event.res id (.list out) ∈ es → out.Pairwise (fun p q => U.same p (U.keyArg q) = false) := by
  obtain ⟨h1, S, ES, h2, h3, -⟩ := run_lift hU hc ls State.init hok
  obtain ⟨s0, es0, g1, g2⟩ := C69_iteration hU (ls.map Prod.fst) h1
  have h3' : bRun U State.init (ls.map Prod.fst) = _ := h3
  rw [h3'] at g1
  simp only [Option.some.injEq, Prod.mk.injEq] at g1
  obtain ⟨rfl, rfl⟩ := g1
  refine ⟨S.mapP Lineage.cur, _, h2, ?_⟩
  intro id out hm
  obtain ⟨e, he, hv⟩ := List.mem_map.mp hm
  cases e with
  | inv => cases hv
  | res id' r =>
    cases r with
    | list X =>
      simp only [Event.mapP, Res.mapP, Event.res.injEq, Res.list.injEq] at hv
      obtain ⟨rfl, rfl⟩ := hv
      have := g2 id' (X.map Lineage.org) (List.mem_map.mpr ⟨_, he, rfl⟩)
      rw [List.pairwise_map] at this ⊢
      refine this.imp ?_
      intro x y hxy
      rw [← hxy]
      refine (same_congr hU (x.2.eqKey hU hc) ?_).symm
      exact cls_congr hU (y.2.eqKey hU hc)
    | op r => simp [Event.mapP, Res.mapP] at hv
    | bool b => simp [Event.mapP, Res.mapP] at hv

/-- When a clone is equal to the original in all respects, the history is one of the list of elements itself. -/
theorem C70_faithful {A : Type} {same : P → A → Bool} {own : P → A} {h : List (HEv A P)} {L : List (SOp A P)} {l : List P}
    (hL : IsCloneLinearization (fun p q => p = q) same own h L l) : IsListLinearization same own h L l := by
  refine ⟨hL.invoked, hL.once, ?_, hL.realtime, hL.legal⟩
  have hd : ∀ {p q : P}, Descends (fun p q => p = q) p q → p = q := by
    intro p q hpq
    induction hpq with
    | refl => rfl
    | clone _ h ih => exact ih.trans h
  intro id o r hi hr
  obtain ⟨r0, h1, h2⟩ := hL.complete id o r hi hr
  have : r0 = r := by
    cases r0 with
    | opt x => cases r with
      | opt y => cases x <;> cases y <;> first | rfl | exact h2.elim | rw [hd h2]
      | eon y => cases x <;> exact h2.elim
    | eon x => cases r with
      | opt y => cases x <;> exact h2.elim
      | eon y => cases x <;> cases y <;> first | exact h2.elim | rw [hd h2]
  rw [← this]
  exact h1

/-! ### Examples -/

/-- An element is a number and a generation; the number is the key; numbers of the same parity have equal hashes. -/
def exGen : UserKeys (Nat × Nat) where
  Key := Nat
  Form := Empty
  Q := fun _ => Nat
  own := Prod.fst
  borrow := fun f => nomatch f
  eqKey := fun a b => a == b
  eqForm := fun f => nomatch f
  hashKey := fun k => BitVec.ofNat 64 (k % 2)
  hashForm := fun f => nomatch f

theorem exGen_lawful : exGen.Lawful where
  refl := fun (a : Nat) => beq_self_eq_true a
  symm := fun (a b : Nat) h => by
    have h : (a == b) = true := h
    show (b == a) = true
    rw [beq_iff_eq] at h ⊢; exact h.symm
  trans := fun (a b c : Nat) h h' => by
    have h : (a == b) = true := h
    have h' : (b == c) = true := h'
    show (a == c) = true
    rw [beq_iff_eq] at h h' ⊢; exact h.trans h'
  reflForm := fun f => nomatch f
  symmForm := fun f => nomatch f
  transForm := fun f => nomatch f
  hash := fun (a b : Nat) h => by
    have h : (a == b) = true := h
    rw [beq_iff_eq] at h
    subst h; rfl
  hashForm := fun f => nomatch f
  borrowEq := fun f => nomatch f
  borrowHash := fun f => nomatch f

/-- A clone is of the next generation. -/
def exNext (p q : Nat × Nat) : Prop := q = (p.1, p.2 + 1)

theorem exNext_key : ∀ p q, exNext p q → exGen.eqKey (exGen.own p) (exGen.own q) = true := by
  intro p q h
  have h : q = (p.1, p.2 + 1) := h
  subst h
  exact beq_self_eq_true p.1

def exClone : Clones exNext := fun _ p => ⟨(p.1, p.2 + 1), rfl⟩

/-- An executable check of `KRunOK` for runs without a collector. -/
def kRunOKb (U : UserKeys P) : State (Arg U) P → List (Label (Arg U) P × Clones clones) → Bool
  | _, [] => true
  | s, (l, cl) :: ls =>
    (match l with
      | .free _ => false
      | .call _ (.op (.getOrInsert a f)) => U.same (f a) a
      | _ => true) &&
    match oStep (fun c => { c.pc.asks U c.req.typ with clone := fun n p => (cl n p).1 }) U.hashReq s l with
    | none => false
    | some (s', _) => kRunOKb U s' ls

theorem kRunOK_of_check {ls : List (Label (Arg U) P × Clones clones)} : ∀ {s : State (Arg U) P}, kRunOKb U s ls = true → KRunOK U clones s ls := by
  induction ls with
  | nil => intro s _; trivial
  | cons x ls ih =>
    obtain ⟨l, cl⟩ := x
    intro s h
    simp only [kRunOKb, Bool.and_eq_true] at h
    obtain ⟨h1, h2⟩ := h
    refine ⟨?_, ?_, ?_⟩
    · cases l <;> first | trivial | cases h1
    · cases l with
      | call t r =>
        cases r with
        | op o => cases o <;> first | trivial | exact h1
        | _ => trivial
      | _ => trivial
    · cases hs : oStep (fun c => { c.pc.asks U c.req.typ with clone := fun n p => (cl n p).1 }) U.hashReq s l with
      | none => rw [hs] at h2; cases h2
      | some x => rw [hs] at h2; exact ih h2

/-- What the calls of a run return, in this order. -/
def kResults (U : UserKeys P) (ls : List (Label (Arg U) P × Clones clones)) : List (Option P) :=
  match kRun U clones State.init ls with
  | none => []
  | some (_, es) => es.filterMap (fun e => match e with
    | .res _ (.op (.opt r)) => some r
    | .res _ (.op (.eon r)) => some (some r.intoInner)
    | _ => none)

/-- Session 0 inserts 1, 3 and 5, whose hashes are equal, so that they live in one node, and looks up 1; session 1 begins to insert 3 anew; session 0 removes 5 first, so session 1 fails to
exchange the node and goes on with a clone of its element; session 0 looks up 3 and 1. -/
def exGenLabels : List (Label (Arg exGen) (Nat × Nat)) :=
  [.pin 0, .call 0 (.op (.insert (1, 0)))] ++ bTicks _ 0 2 ++ [.call 0 (.op (.insert (3, 0)))] ++ bTicks _ 0 50 ++
  [.call 0 (.op (.insert (5, 0)))] ++ bTicks _ 0 18 ++ [.call 0 (.op (.get (.own (1 : Nat))))] ++ bTicks _ 0 17 ++
  [.pin 1, .call 1 (.op (.insert (3, 0)))] ++ bTicks _ 1 17 ++ [.call 0 (.op (.remove (.own (5 : Nat))))] ++ bTicks _ 0 51 ++ bTicks _ 1 37 ++
  [.call 0 (.op (.get (.own (3 : Nat))))] ++ bTicks _ 0 17 ++ [.call 0 (.op (.get (.own (1 : Nat))))] ++ bTicks _ 0 17

/-- The same, every clone being of the next generation. -/
def exGens : List (Label (Arg exGen) (Nat × Nat) × Clones exNext) := exGenLabels.map (·, exClone)

set_option maxRecDepth 100000 in
theorem exGens_ok : KRunOK exGen exNext State.init exGens := kRunOK_of_check (by decide)

set_option maxRecDepth 100000 in
/-- The elements returned are clones of the elements inserted; how often they were cloned is seen in their second component. -/
example : kResults exGen exGens = [none, none, none, some (1, 2), some (5, 0), some (3, 2), some (3, 1), some (1, 4)] := by decide

/-- The theorems apply to it. -/
example : ∃ s es, kRun exGen exNext State.init exGens = some (s, es) ∧ WellFormed (opHistory es) ∧
    (∃ L l, IsCloneLinearization exNext exGen.same exGen.keyArg (opHistory es) L l) ∧ ∀ t, (s.thr t).failed = none :=
  C70_linearizable exGen_lawful exNext_key exGens exGens_ok

set_option maxRecDepth 100000 in
/-- A pass over the collection yields clones, too. -/
example : kRunOKb exGen State.init (exGens ++ (([.call 0 .iter] ++ bTicks exGen 0 517 : List (Label (Arg exGen) (Nat × Nat)))).map (·, exClone)) = true ∧
    (match kRun exGen exNext State.init (exGens ++ (([.call 0 .iter] ++ bTicks exGen 0 517 : List (Label (Arg exGen) (Nat × Nat)))).map (·, exClone)) with
    | none => []
    | some (_, es) => es.filterMap (fun e => match e with | Event.res _ (.list l) => some l | _ => none)) = [[(1, 4), (3, 1)]] := by decide

/-- The hypothesis matters: a clone with another key is not found again. -/
def exBadClone : Clones (P := Nat × Nat) (fun _ _ => True) := fun _ p => ⟨(p.1 + 10, p.2), trivial⟩

set_option maxRecDepth 100000 in
example : kResults exGen (([.pin 0, .call 0 (.op (.insert (1, 0)))] ++ bTicks _ 0 2 ++ [.call 0 (.op (.insert (3, 0)))] ++ bTicks _ 0 50 ++
    [.call 0 (.op (.get (.own (1 : Nat))))] ++ bTicks _ 0 17 : List (Label (Arg exGen) (Nat × Nat))).map (·, exBadClone)) = [none, none, none] := by decide

end Contrie
