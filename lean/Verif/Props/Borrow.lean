import Verif.Proof.BorrowSim
import Verif.Props.Iterate
/-
C69 (keys are compared by the user's own `Eq`, and may be looked up by any borrowed form).
-/
namespace Contrie
open scoped List
variable {P : Type} {U : UserKeys P}

/-- **C69.** Whatever the types of keys and of borrowed forms, with `Eq`, `Hash` and `Borrow` obeying the contracts of the standard library: every concurrent history is
linearizable with respect to a list of elements on which everything is decided by the user's own comparison of an element with the argument of the
call, in the type of this argument; and nothing ever fails. -/
theorem C69_linearizable (hU : U.Lawful) (ls : List (Label (Arg U) P)) (hok : BRunOK U State.init ls) :
    ∃ s es, bRun U State.init ls = some (s, es) ∧ WellFormed (opHistory es) ∧
      (∃ L l, IsListLinearization U.same U.keyArg (opHistory es) L l) ∧ ∀ t, (s.thr t).failed = none := by
  obtain ⟨h1, s, es, h2, h3, h4⟩ := run_sim hU ls State.init hok
  have h1' : RunOK U.cfg State.init (ls.map (Label.mapKey Arg.cls)) := h1
  obtain ⟨s1, es1, g1, g2, g3⟩ := C01_linearizable U.cfg _ h1'
  obtain ⟨s2, es2, k1, k2⟩ := C05_no_failure U.cfg _ h1'
  have h3' : runList U.cfg State.init (ls.map (Label.mapKey Arg.cls)) = some (s.cls, es.map (Event.mapKey Arg.cls)) := h3
  rw [h3'] at g1 k1
  simp only [Option.some.injEq, Prod.mk.injEq] at g1 k1
  obtain ⟨rfl, rfl⟩ := g1
  obtain ⟨rfl, -⟩ := k1
  rw [opHistory_mapKey] at g2 g3
  refine ⟨s, es, h2, g2.ofMapKey Arg.cls, linearization_list hU g2 ?_ g3, k2⟩
  intro id o hm t
  obtain ⟨e, he, hv⟩ := List.mem_filterMap.mp hm
  have hv : e = .inv id (.op o) := by
    cases e with
    | inv id' r => cases r <;> simp [Event.hev] at hv ⊢; exact hv
    | res id' r => cases r <;> simp [Event.hev] at hv
  subst hv
  obtain ⟨t', ht⟩ := h4 id o he
  cases o <;> exact ht

/-- **C69**, iteration: no pass yields two elements with equal keys (by the user's own comparison). -/
theorem C69_iteration (hU : U.Lawful) (ls : List (Label (Arg U) P)) (hok : BRunOK U State.init ls) :
    ∃ s es, bRun U State.init ls = some (s, es) ∧
      ∀ id out, Event.res id (.list out) ∈ es → out.Pairwise (fun p q => U.same p (U.keyArg q) = false) := by
  obtain ⟨h1, s, es, h2, h3, -⟩ := run_sim hU ls State.init hok
  refine ⟨s, es, h2, ?_⟩
  intro id out hm
  obtain ⟨E, hE, -⟩ := Exec.ofList (show RunOK U.cfg State.init (ls.map (Label.mapKey Arg.cls)) from h1)
  have h3' : runList U.cfg State.init (ls.map (Label.mapKey Arg.cls)) = some (s.cls, es.map (Event.mapKey Arg.cls)) := h3
  rw [h3'] at hE
  simp only [Option.some.injEq, Prod.mk.injEq] at hE
  have hm' : Event.res id (.list out) ∈ es.map (Event.mapKey Arg.cls) := List.mem_map.mpr ⟨_, hm, rfl⟩
  rw [hE.2] at hm'
  obtain ⟨j, -, hj⟩ := List.mem_filterMap.mp hm'
  have hr : E.Returns j id (.list out) := hj
  obtain ⟨t, c, refs, weak, -, -, -, g4, -, -, -, g8⟩ := E.res hr
  have hi : c.req = .iter := by
    simp only [RetOK] at g4
    obtain ⟨-, g4⟩ := g4
    cases hc : c.req with
    | iter => rfl
    | op o => rw [hc] at g4; obtain ⟨ret, h, -⟩ := g4; cases h
    | isEmpty => rw [hc] at g4; obtain ⟨b, h, -⟩ := g4; cases h
  rw [hi] at g8
  obtain ⟨out', ho, hn⟩ := C11_no_key_twice E g8 hr
  injection ho with ho
  subst ho
  rw [List.nodup_iff_pairwise_ne, List.pairwise_map] at hn
  refine hn.imp ?_
  intro p q hpq
  rw [Bool.eq_false_iff]
  intro h
  exact hpq ((same_iff hU).mp h)

/-- An argument that denotes the key of an element, in whatever form, is as good as this key itself: it finds and removes the same elements. -/
theorem C69_forms (hU : U.Lawful) {p : P} {a : Arg U} (h : U.same p a = true) (q : P) : U.same q a = U.same q (U.keyArg p) := by
  rw [same_decide hU, same_decide hU, ← (same_iff hU).mp h]
  rfl

/-- The list is that of a map: it never has two elements with equal keys. -/
theorem C69_list_is_map (hU : U.Lawful) {L : List (SOp (Arg U) P)} (hL : ∀ x ∈ L, ∀ t, U.WF (.call t (.op x.op))) {l l' : List P}
    (h : ListLegal U.same U.keyArg l L l') (hl : l.Pairwise (fun p q => U.same p (U.keyArg q) = false)) :
    l'.Pairwise (fun p q => U.same p (U.keyArg q) = false) := by
  induction h with
  | nil => exact hl
  | @cons l l1 l2 x L h _ ih =>
    refine ih (fun y hy => hL y (by simp [hy])) ?_
    obtain ⟨id, o, r⟩ := x
    cases o with
    | get a => simp only [listStep, Prod.mk.injEq] at h; rw [← h.1]; exact hl
    | insert p =>
      simp only [listStep, Prod.mk.injEq] at h
      rw [← h.1, List.pairwise_append]
      refine ⟨hl.sublist (List.filter_sublist), by simp, ?_⟩
      intro q hq p' hp'
      rw [List.mem_singleton] at hp'
      subst hp'
      simpa using (List.mem_filter.mp hq).2
    | remove a =>
      simp only [listStep, Prod.mk.injEq] at h
      rw [← h.1]
      exact hl.sublist (List.filter_sublist)
    | getOrInsert a f =>
      simp only [listStep] at h
      split at h
      · simp only [Prod.mk.injEq] at h; rw [← h.1]; exact hl
      · rename_i hn
        simp only [Prod.mk.injEq] at h
        rw [← h.1, List.pairwise_append]
        refine ⟨hl, by simp, ?_⟩
        intro q hq p' hp'
        rw [List.mem_singleton] at hp'
        subst hp'
        have h1 := List.find?_eq_none.mp hn q hq
        have h2 : U.same (f a) a = true := hL _ (List.mem_cons_self ..) 0
        rw [← C69_forms hU h2]
        simpa using h1

/-! ### Examples -/

/-- Keys are numbers with a spelling, which `Eq` and `Hash` ignore; an element is a key with a value. There are two borrowed forms: the number (`true`), and the number plus hundred (`false`). -/
def exUser : UserKeys ((Nat × Bool) × Nat) where
  Key := Nat × Bool
  Form := Bool
  Q := fun _ => Nat
  own := Prod.fst
  borrow := fun f k => if f then k.1 else k.1 + 100
  eqKey := fun a b => a.1 == b.1
  eqForm := fun _ q r => q == r
  hashKey := fun k => BitVec.ofNat 64 k.1
  hashForm := fun f q => BitVec.ofNat 64 (if f then q else q - 100)

theorem exUser_lawful : exUser.Lawful where
  refl := fun a => by simp [exUser]
  symm := fun a b h => by simp only [exUser, beq_iff_eq] at h ⊢; exact h.symm
  trans := fun a b c h h' => by simp only [exUser, beq_iff_eq] at h h' ⊢; exact h.trans h'
  reflForm := fun _ (q : Nat) => beq_self_eq_true q
  symmForm := fun _ (q r : Nat) h => by
    have h : (q == r) = true := h
    show (r == q) = true
    rw [beq_iff_eq] at h ⊢; exact h.symm
  transForm := fun _ (q r s : Nat) h h' => by
    have h : (q == r) = true := h
    have h' : (r == s) = true := h'
    show (q == s) = true
    rw [beq_iff_eq] at h h' ⊢; exact h.trans h'
  hash := fun a b h => by simp only [exUser, beq_iff_eq] at h ⊢; rw [h]
  hashForm := fun f (q r : Nat) h => by
    have h : (q == r) = true := h
    rw [beq_iff_eq] at h
    subst h; rfl
  borrowEq := fun f a b => by
    rw [Bool.eq_iff_iff]
    cases f <;> simp [exUser]
  borrowHash := fun f a => by cases f <;> simp [exUser]

/-- An executable check of `BRunOK` for runs without a collector. -/
def bRunOKb (U : UserKeys P) : State (Arg U) P → List (Label (Arg U) P) → Bool
  | _, [] => true
  | s, l :: ls =>
    (match l with
      | .free _ => false
      | .call _ (.op (.getOrInsert a f)) => U.same (f a) a
      | _ => true) &&
    match bStep U s l with
    | none => false
    | some (s', _) => bRunOKb U s' ls

theorem bRunOK_of_check {ls : List (Label (Arg U) P)} : ∀ {s : State (Arg U) P}, bRunOKb U s ls = true → BRunOK U s ls := by
  induction ls with
  | nil => intro s _; trivial
  | cons l ls ih =>
    intro s h
    simp only [bRunOKb, Bool.and_eq_true] at h
    obtain ⟨h1, h2⟩ := h
    refine ⟨?_, ?_, ?_⟩
    · cases l <;> first | trivial | cases h1
    · cases l with
      | call t r =>
        cases r with
        | op o => cases o <;> first | trivial | exact h1
        | _ => trivial
      | _ => trivial
    · cases hs : bStep U s l with
      | none => rw [hs] at h2; cases h2
      | some x => rw [hs] at h2; exact ih h2

/-- What the calls of a run return, in this order. -/
def bResults (U : UserKeys P) (ls : List (Label (Arg U) P)) : List (Option P) :=
  match bRun U State.init ls with
  | none => []
  | some (_, es) => es.filterMap (fun e => match e with
    | .res _ (.op (.opt r)) => some r
    | .res _ (.op (.eon r)) => some (some r.intoInner)
    | _ => none)

def bTicks (U : UserKeys P) (t n : Nat) : List (Label (Arg U) P) := List.replicate n (.tick t false)

/-- Session 0 inserts 7 (element 1), looks it up by its number, inserts 7 in another spelling (element 2), finds this as 107, inserts 23 (whose hash begins like that of 7) while session
1 inserts 23 in another spelling; session 1 removes it as 123 and looks up 23; session 0 iterates. -/
def exForms : List (Label (Arg exUser) ((Nat × Bool) × Nat)) :=
  [.pin 0, .call 0 (.op (.insert ((7, false), 1)))] ++ bTicks _ 0 2 ++
  [.call 0 (.op (.get (.form true (7 : Nat))))] ++ bTicks _ 0 1 ++
  [.call 0 (.op (.insert ((7, true), 2)))] ++ bTicks _ 0 2 ++
  [.call 0 (.op (.getOrInsert (.form false (107 : Nat)) (fun _ => ((7, false), 3))))] ++ bTicks _ 0 1 ++
  [.pin 1, .call 0 (.op (.insert ((23, false), 4))), .call 1 (.op (.insert ((23, true), 5)))] ++ bTicks _ 0 7 ++ bTicks _ 1 3 ++ bTicks _ 0 1 ++ bTicks _ 1 3 ++
  [.call 1 (.op (.remove (.form false (123 : Nat))))] ++ bTicks _ 1 70 ++
  [.call 1 (.op (.get (.own (23, false))))] ++ bTicks _ 1 1 ++ [.call 0 .iter] ++ bTicks _ 0 4

theorem exForms_ok : BRunOK exUser State.init exForms := bRunOK_of_check (by decide)

set_option maxRecDepth 20000 in
example : bResults exUser exForms = [none, some ((7, false), 1), some ((7, false), 1), some ((7, true), 2), none, some ((23, false), 4), some ((23, true), 5), none] := by decide

/-- The theorems apply to it. -/
example : ∃ s es, bRun exUser State.init exForms = some (s, es) ∧ WellFormed (opHistory es) ∧
    (∃ L l, IsListLinearization exUser.same exUser.keyArg (opHistory es) L l) ∧ ∀ t, (s.thr t).failed = none :=
  C69_linearizable exUser_lawful exForms exForms_ok

set_option maxRecDepth 20000 in
/-- The pass at the end yields what is left. -/
example : (match bRun exUser State.init exForms with
    | none => []
    | some (_, es) => es.filterMap (fun e => match e with | .res _ (.list l) => some l | _ => none)) = [[((7, true), 2)]] := by decide

/-- The contract of `Borrow` matters: the same types, but one of the borrowed forms hashes differently. -/
def exWrong : UserKeys ((Nat × Bool) × Nat) := { exUser with hashForm := fun _ (q : Nat) => BitVec.ofNat 64 q }

/-- Every law holds but `borrowHash`. -/
example : (∀ f a b, exWrong.eqForm f (exWrong.borrow f a) (exWrong.borrow f b) = exWrong.eqKey a b) ∧
    (∀ f q r, exWrong.eqForm f q r = true → exWrong.hashForm f q = exWrong.hashForm f r) ∧
    ¬ ∀ f a, exWrong.hashForm f (exWrong.borrow f a) = exWrong.hashKey a := by
  refine ⟨exUser_lawful.borrowEq, ?_, fun h => absurd (h false (7, false)) (by decide)⟩
  intro f (q : Nat) (r : Nat) h
  have h : (q == r) = true := h
  rw [beq_iff_eq] at h
  subst h; rfl

def exWrongRun : List (Label (Arg exWrong) ((Nat × Bool) × Nat)) :=
  [.pin 0, .call 0 (.op (.insert ((7, false), 1)))] ++ bTicks _ 0 2 ++ [.call 0 (.op (.insert ((8, false), 2)))] ++ bTicks _ 0 5 ++
  [.call 0 (.op (.get (.form false (107 : Nat))))] ++ bTicks _ 0 2

/-- Then the borrowed form does not find the element, though it is there and compares equal. -/
example : bResults exWrong exWrongRun = [none, none, none] ∧ exWrong.same ((7, false), 1) (.form false (107 : Nat)) = true ∧
    bRunOKb exWrong State.init exWrongRun = true := by decide

end Contrie
