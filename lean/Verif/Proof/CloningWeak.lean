import Verif.Model.CloningWeak
import Verif.Proof.Cloning
import Verif.Proof.BorrowWeak
/-
Cloning under weak memory: as in `Verif/Proof/Cloning.lean`.
-/
namespace Contrie
open scoped List
variable {A P Q : Type}

section
variable (π : P → Q)

def CThread.mapP (x : CThread A P) : CThread A Q := ⟨x.pin, x.refs, x.run.map (·.mapP π), x.failed, x.view⟩

def CState.mapP (x : CState A P) : CState A Q := ⟨x.m.mapP π, fun t => (x.thr t).mapP π, fun τ => (x.past τ).mapP π, x.pastView⟩

def CLabel.mapP : CLabel A P → CLabel A Q
  | .pin t => .pin t
  | .unpin t => .unpin t
  | .call t r => .call t (r.mapP π)
  | .tick t w τ => .tick t w τ
  | .abort t => .abort t
  | .sync t t' τ => .sync t t' τ
  | .free a => .free a
  | .idle => .idle

theorem PC.mapP_access (O : Orders) (pc : PC A P) : (pc.mapP π).access O = pc.access O := by cases pc <;> rfl

theorem PC.mapP_writes (m : Mem P) (weak : Bool) (pc : PC A P) : (pc.mapP π).writes (m.mapP π) weak = pc.writes m weak := by
  unfold PC.writes
  rw [PC.mapP_access]
  have : ∀ w, (pc.mapP π).stores .code weak w = pc.stores .code weak w := by intro w; cases pc <;> rfl
  simp only [this, Mem.mapP_read]

theorem PC.mapP_look (m : Mem P) (weak : Bool) (τ now : Nat) (pc : PC A P) (view : Loc → Nat) :
    (pc.mapP π).look (m.mapP π) weak τ now view = pc.look m weak τ now view := by
  unfold PC.look
  rw [PC.mapP_access, PC.mapP_writes]

theorem CState.mapP_memAt (s : CState A P) (τ : Nat) : (s.mapP π).memAt τ = (s.memAt τ).mapP π := by
  unfold CState.memAt
  show (if τ = s.m.clock then s.m.mapP π else (s.past τ).mapP π) = _
  split <;> rfl

theorem CState.mapP_seen (s : CState A P) (pc : PC A P) (τ : Nat) : (s.mapP π).seen (pc.mapP π) τ = (s.seen pc τ).mapP π := by
  unfold CState.seen
  rw [PC.mapP_access, CState.mapP_memAt]
  simp only [Mem.mapP_read]
  generalize (pc.access .code).bind _ = x
  cases x with
  | none => rfl
  | some x => exact Mem.mapP_write π s.m x.2 x.1

theorem CState.mapP_next (s : CState A P) (m : Mem P) (t : Nat) (th : CThread A P) :
    (s.next m t th).mapP π = (s.mapP π).next (m.mapP π) t (th.mapP π) := by
  unfold CState.next CState.mapP
  simp only [CState.mk.injEq]
  refine ⟨rfl, ?_, ?_, rfl⟩
  · funext x
    by_cases hx : x = t <;> simp [upd, hx]
  · funext x
    show (upd s.past s.m.clock s.m x).mapP π = upd (fun τ => (s.past τ).mapP π) s.m.clock (s.m.mapP π) x
    simp only [upd]
    split <;> rfl

theorem CThread.mapP_apply (th : CThread A P) (x : Call A P) (n : Next A P) :
    (th.apply x n).mapP π = (th.mapP π).apply (x.mapP π) (n.mapP π) := by
  cases n <;> rfl

theorem CLabel.mapP_enabled (s : CState A P) (l : CLabel A P) : (l.mapP π).enabled (s.mapP π) ↔ l.enabled s := by
  cases l with
  | tick t weak τ =>
    have hr : ∀ x : Call A P, (((s.mapP π).thr t).run) = ((s.thr t).run).map (·.mapP π) := fun _ => rfl
    constructor
    · rintro (h | ⟨h1, x, loc, o, h2, h3, h4, h5, h6⟩)
      · exact Or.inl h
      · have h2 : ((s.thr t).run).map (·.mapP π) = some x := h2
        cases hx : (s.thr t).run with
        | none => rw [hx] at h2; cases h2
        | some y =>
          rw [hx] at h2
          simp only [Option.map_some, Option.some.injEq] at h2
          subst h2
          refine Or.inr ⟨h1, y, loc, o, hx, ?_, ?_, h5, ?_⟩
          · exact (PC.mapP_access π .code y.pc).symm.trans h3
          · rwa [CState.mapP_memAt, Mem.mapP_read] at h4
          · have h6 : ((y.pc.mapP π).writes ((s.mapP π).seen (y.pc.mapP π) τ) weak) = false := h6
            rwa [CState.mapP_seen, PC.mapP_writes] at h6
    · rintro (h | ⟨h1, x, loc, o, h2, h3, h4, h5, h6⟩)
      · exact Or.inl h
      · refine Or.inr ⟨h1, x.mapP π, loc, o, ?_, ?_, ?_, h5, ?_⟩
        · show ((s.thr t).run).map _ = _
          rw [h2]; rfl
        · exact (PC.mapP_access π .code x.pc).trans h3
        · rwa [CState.mapP_memAt, Mem.mapP_read]
        · show ((x.pc.mapP π).writes ((s.mapP π).seen (x.pc.mapP π) τ) weak) = false
          rw [CState.mapP_seen, PC.mapP_writes]; exact h6
  | _ => exact Iff.rfl

/-- The machine commutes with the renaming. -/
theorem ocstep_mapP {ask : Call A P → Answers P} {ask' : Call A Q → Answers Q} {hr : Req A P → BitVec 64} {hr' : Req A Q → BitVec 64}
    (ha : ∀ c, (ask c).Agree π (ask' (c.mapP π))) (hh : ∀ r, hr' (r.mapP π) = hr r) (s : CState A P) (l : CLabel A P) :
    ocstep ask' hr' (s.mapP π) (l.mapP π) = (ocstep ask hr s l).map (Prod.map (CState.mapP π) (Option.map (Event.mapP π))) := by
  have hpin : ∀ t, ((s.mapP π).thr t).pin = (s.thr t).pin := fun _ => rfl
  have hfail : ∀ t, ((s.mapP π).thr t).failed = (s.thr t).failed := fun _ => rfl
  have hrun : ∀ t, ((s.mapP π).thr t).run = (s.thr t).run.map (·.mapP π) := fun _ => rfl
  cases l with
  | pin t =>
    simp only [CLabel.mapP, ocstep, hpin, hfail]
    cases (s.thr t).pin <;> cases (s.thr t).failed <;> try rfl
    simp only [Option.map_some, Prod.map, CState.mapP_next]
    rfl
  | unpin t =>
    simp only [CLabel.mapP, ocstep, hpin, hfail, hrun]
    cases (s.thr t).pin <;> cases (s.thr t).run <;> cases (s.thr t).failed <;> try rfl
    simp only [Option.map_some, Option.map_none, Prod.map, CState.mapP_next]
    rfl
  | call t r =>
    simp only [CLabel.mapP, ocstep, hpin, hfail, hrun]
    cases (s.thr t).pin <;> cases (s.thr t).run <;> cases (s.thr t).failed <;> try rfl
    simp only [Option.map_some, Option.map_none, Prod.map, CState.mapP_next, hh, hStartPC_mapP]
    rfl
  | tick t weak τ =>
    simp only [CLabel.mapP, ocstep, hrun]
    cases hc : (s.thr t).run with
    | none => rfl
    | some c =>
      have e1 : (c.mapP π).pc = c.pc.mapP π := rfl
      have e2 := CState.mapP_seen π s c.pc τ
      have e := hTick_mapP π (ha c) (s.seen c.pc τ) weak c.pc
      simp only [Option.map_some, e1, e2, e, Prod.map, CState.mapP_next, CThread.mapP_apply, Next.mapP_event, PC.mapP_look]
      have e3 : (if τ = s.m.clock then (hTick (ask c) (s.seen c.pc τ) weak c.pc).1 else s.m).mapP π =
          if τ = s.m.clock then (hTick (ask c) (s.seen c.pc τ) weak c.pc).1.mapP π else s.m.mapP π := by split <;> rfl
      rw [e3]
      rfl
  | abort t =>
    simp only [CLabel.mapP, ocstep, hrun]
    cases hc : (s.thr t).run with
    | none => rfl
    | some c =>
      simp only [Option.map_some, Prod.map, CState.mapP_next]
      rfl
  | sync t t' τ =>
    simp only [CLabel.mapP, ocstep, Option.map_some, Prod.map, CState.mapP_next]
    rfl
  | free a =>
    simp only [CLabel.mapP, ocstep, Option.map_some, Prod.map, CState.mapP_next]
    rfl
  | idle =>
    simp only [CLabel.mapP, ocstep, Option.map_some, Prod.map, CState.mapP_next]
    rfl
end

theorem CLabel.org_dup {clones : P → P → Prop} (l : CLabel A P) : (l.mapP (Lineage.dup (clones := clones))).mapP Lineage.org = l := by
  cases l with
  | call t r =>
    cases r with
    | op o => cases o <;> rfl
    | _ => rfl
  | _ => rfl

theorem CLabel.cur_dup {clones : P → P → Prop} (l : CLabel A P) : (l.mapP (Lineage.dup (clones := clones))).mapP Lineage.cur = l := by
  cases l with
  | call t r =>
    cases r with
    | op o => cases o <;> rfl
    | _ => rfl
  | _ => rfl

theorem ocstep_inv {ask : Call A P → Answers P} {hr : Req A P → BitVec 64} {s s' : CState A P} {l : CLabel A P} {id : Nat} {r : Req A P}
    (h : ocstep ask hr s l = some (s', some (.inv id r))) : ∃ t, l = .call t r := by
  cases l with
  | call t r' =>
    simp only [ocstep] at h
    split at h
    · simp only [Option.some.injEq, Prod.mk.injEq, Event.inv.injEq] at h
      exact ⟨t, by rw [h.2.2]⟩
    · cases h
  | tick t weak τ =>
    simp only [ocstep] at h
    split at h
    · cases h
    · simp only [Option.some.injEq, Prod.mk.injEq] at h
      obtain ⟨-, h⟩ := h
      generalize (hTick _ _ _ _).2 = n at h
      cases n <;> cases h
  | pin t => simp only [ocstep] at h; split at h <;> simp at h
  | unpin t => simp only [ocstep] at h; split at h <;> simp at h
  | abort t => simp only [ocstep] at h; split at h <;> simp at h
  | sync t t' τ => simp [ocstep] at h
  | free a => simp [ocstep] at h
  | idle => simp [ocstep] at h

section
variable {U : UserKeys P} {clones : P → P → Prop}

/-- Without cloning, the machine is that of `Verif/Model/BorrowWeak.lean`. -/
theorem ocstep_bcstep (U : UserKeys P) (s : CState (Arg U) P) (l : CLabel (Arg U) P) :
    ocstep (fun c => c.pc.asks U c.req.typ) U.hashReq s l = bcstep U s l := by
  cases l with
  | pin t => simp only [ocstep, bcstep]; cases (s.thr t).pin <;> cases (s.thr t).failed <;> rfl
  | unpin t => simp only [ocstep, bcstep]; cases (s.thr t).pin <;> cases (s.thr t).run <;> cases (s.thr t).failed <;> rfl
  | call t r => simp only [ocstep, bcstep]; cases (s.thr t).pin <;> cases (s.thr t).run <;> cases (s.thr t).failed <;> rfl
  | tick t weak τ => simp only [ocstep, bcstep]; cases (s.thr t).run <;> rfl
  | abort t => simp only [ocstep, bcstep]; cases (s.thr t).run <;> rfl
  | sync t t' τ => rfl
  | free a => rfl
  | idle => rfl

/-- One step of the execution on elements that remember. -/
def KCExec.liftStep (E : KCExec U clones) (S : CState (Arg U) (Lineage clones)) (i : Nat) :
    Option (CState (Arg U) (Lineage clones) × Option (Event (Arg U) (Lineage clones))) :=
  ocstep (histAsk U (E.cl i)) (fun r => U.hashReq (r.mapP Lineage.cur)) S ((E.lab i).mapP Lineage.dup)

/-- The states of the execution on elements that remember. -/
def KCExec.lift (E : KCExec U clones) : Nat → CState (Arg U) (Lineage clones)
  | 0 => CState.init
  | i + 1 => match E.liftStep (E.lift i) i with
    | some (S, _) => S
    | none => E.lift i

/-- The events of the execution on elements that remember. -/
def KCExec.liftEv (E : KCExec U clones) (i : Nat) : Option (Event (Arg U) (Lineage clones)) := (E.liftStep (E.lift i) i).bind Prod.snd

theorem KCExec.lift_step (E : KCExec U clones) {i : Nat} (hi : i < E.len) (h : (E.lift i).mapP Lineage.cur = E.st i) :
    E.liftStep (E.lift i) i = some (E.lift (i + 1), E.liftEv i) ∧ (E.lift (i + 1)).mapP Lineage.cur = E.st (i + 1) ∧
      (E.liftEv i).map (Event.mapP Lineage.cur) = E.ev i := by
  have e1 := ocstep_mapP Lineage.cur (ask := histAsk U (E.cl i)) (ask' := (E.cl i).asks U) (hr' := U.hashReq) (histAsk_cur U (E.cl i))
    (hr := fun r => U.hashReq (r.mapP Lineage.cur)) (fun _ => rfl) (E.lift i) ((E.lab i).mapP Lineage.dup)
  rw [CLabel.cur_dup, h, E.step i hi] at e1
  have e1 : some (E.st (i + 1), E.ev i) = (E.liftStep (E.lift i) i).map _ := e1
  cases hs : E.liftStep (E.lift i) i with
  | none => rw [hs] at e1; cases e1
  | some x =>
    have l1 : E.lift (i + 1) = x.1 := by simp only [KCExec.lift, hs]
    have l2 : E.liftEv i = x.2 := by simp only [KCExec.liftEv, hs, Option.bind_some]
    rw [hs] at e1
    simp only [Option.map_some, Prod.map, Option.some.injEq, Prod.mk.injEq] at e1
    rw [l1, l2]
    exact ⟨rfl, e1.1.symm, e1.2.symm⟩

theorem KCExec.lift_cur (E : KCExec U clones) : ∀ i, i ≤ E.len → (E.lift i).mapP Lineage.cur = E.st i
  | 0, _ => by rw [E.init]; rfl
  | i + 1, hi => (E.lift_step hi (E.lift_cur i (by omega))).2.1

theorem KCExec.lift_ev (E : KCExec U clones) {i : Nat} (hi : i < E.len) : (E.liftEv i).map (Event.mapP Lineage.cur) = E.ev i :=
  (E.lift_step hi (E.lift_cur i (by omega))).2.2

theorem KCExec.retired_org (E : KCExec U clones) {i : Nat} (hi : i ≤ E.len) : ((E.lift i).mapP Lineage.org).m.retired = (E.st i).m.retired := by
  rw [← E.lift_cur i hi]; rfl

theorem KCExec.pin_org (E : KCExec U clones) {i : Nat} (hi : i ≤ E.len) (t : Nat) : (((E.lift i).mapP Lineage.org).thr t).pin = ((E.st i).thr t).pin := by
  rw [← E.lift_cur i hi]; rfl

theorem KCExec.failed_org (E : KCExec U clones) {i : Nat} (hi : i ≤ E.len) (t : Nat) : (((E.lift i).mapP Lineage.org).thr t).failed = ((E.st i).thr t).failed := by
  rw [← E.lift_cur i hi]; rfl

/-- The execution without clones. -/
def KCExec.org (hU : U.Lawful) (hc : ∀ p q, clones p q → U.eqKey (U.own p) (U.own q) = true) (E : KCExec U clones) : BCExec U where
  len := E.len
  st := fun i => (E.lift i).mapP Lineage.org
  lab := E.lab
  ev := fun i => (E.liftEv i).map (Event.mapP Lineage.org)
  init := rfl
  step := by
    intro i hi
    have e2 := ocstep_mapP Lineage.org (ask' := fun c => c.pc.asks U c.req.typ) (histAsk_org hU hc (E.cl i)) (hr' := U.hashReq)
      (hr := fun r => U.hashReq (r.mapP Lineage.cur)) (hashReq_org hU hc) (E.lift i) ((E.lab i).mapP Lineage.dup)
    rw [CLabel.org_dup, ocstep_bcstep] at e2
    rw [e2]
    have := (E.lift_step hi (E.lift_cur i (by omega))).1
    unfold KCExec.liftStep at this
    rw [this]
    rfl
  enabled := by
    intro i hi
    have h := E.enabled i hi
    rw [← E.lift_cur i (by omega), ← CLabel.cur_dup (clones := clones) (E.lab i), CLabel.mapP_enabled] at h
    have h := (CLabel.mapP_enabled Lineage.org _ _).mpr h
    rwa [CLabel.org_dup] at h
  wf := E.wf
  gc := by
    intro i a hi h
    obtain ⟨r, tr, weak, τ, h1, h2, h3, h4, h5⟩ := E.gc i a hi h
    refine ⟨r, tr, weak, τ, h1, h2, ?_, ?_, ?_⟩
    · rw [E.retired_org (by omega)]; exact h3
    · rw [E.retired_org (by omega)]; exact h4
    · intro j t p g1 g2 g3
      rw [E.pin_org g2] at g3
      exact h5 j t p g1 g2 g3

/-- The history of the map operations until instant `n`. -/
def KCExec.history (E : KCExec U clones) (n : Nat) : List (HEv (Arg U) P) := (List.range n).filterMap (fun i => (E.ev i).bind Event.hev)

/-- Call `x` returns before call `y` is invoked, and its session synchronises with that of `y` in between. -/
def KCExec.Hb (E : KCExec U clones) (x y : Nat) : Prop :=
  ∃ t t' j r req weak τ, j < E.len ∧ E.lab j = .tick t weak τ ∧ E.ev j = some (.res x r) ∧
    y < E.len ∧ E.lab y = .call t' req ∧ HB E.lab E.len (t, j + 1) (t', y)

/-- The history on elements that remember. -/
def KCExec.lineage (E : KCExec U clones) (n : Nat) : List (HEv (Arg U) (Lineage clones)) :=
  (List.range n).filterMap (fun i => (E.liftEv i).bind Event.hev)

theorem filterMap_ext_mem {α β : Type} {f g : α → Option β} {l : List α} (h : ∀ x ∈ l, f x = g x) : l.filterMap f = l.filterMap g := by
  induction l with
  | nil => rfl
  | cons x l ih =>
    simp only [List.filterMap_cons, h x (by simp), ih (fun y hy => h y (by simp [hy]))]

theorem KCExec.history_cur (E : KCExec U clones) {n : Nat} (hn : n ≤ E.len) : E.history n = (E.lineage n).map (HEv.mapP Lineage.cur) := by
  unfold KCExec.history KCExec.lineage
  rw [List.map_filterMap]
  refine filterMap_ext_mem ?_
  intro i hi
  have hi : i < n := List.mem_range.mp hi
  rw [← E.lift_ev (by omega)]
  cases E.liftEv i with
  | none => rfl
  | some e => exact Event.mapP_hev _ e

theorem KCExec.history_org (hU : U.Lawful) (hc : ∀ p q, clones p q → U.eqKey (U.own p) (U.own q) = true) (E : KCExec U clones) (n : Nat) :
    (E.org hU hc).history n = (E.lineage n).map (HEv.mapP Lineage.org) := by
  unfold BCExec.history KCExec.lineage
  rw [List.map_filterMap]
  congr 1
  funext i
  show ((E.liftEv i).map (Event.mapP Lineage.org)).bind Event.hev = _
  cases E.liftEv i with
  | none => rfl
  | some e => exact Event.mapP_hev _ e

theorem Event.mapP_res {π : P → Q} {e : Event A P} {id : Nat} {r : Res Q} (h : e.mapP π = .res id r) : ∃ r', e = .res id r' := by
  cases e with
  | inv => cases h
  | res id' r' => simp only [Event.mapP, Event.res.injEq] at h; exact ⟨r', by rw [h.1]⟩

theorem KCExec.hb_org (hU : U.Lawful) (hc : ∀ p q, clones p q → U.eqKey (U.own p) (U.own q) = true) (E : KCExec U clones) (x y : Nat) :
    (E.org hU hc).Hb x y ↔ E.Hb x y := by
  constructor
  · rintro ⟨t, t', j, r, req, weak, τ, h1, h2, h3, h4, h5, h6⟩
    have h3 : (E.liftEv j).map (Event.mapP Lineage.org) = some (.res x r) := h3
    cases he : E.liftEv j with
    | none => rw [he] at h3; cases h3
    | some e =>
      rw [he] at h3
      simp only [Option.map_some, Option.some.injEq] at h3
      obtain ⟨r', rfl⟩ := Event.mapP_res h3
      exact ⟨t, t', j, _, req, weak, τ, h1, h2, by rw [← E.lift_ev h1, he]; rfl, h4, h5, h6⟩
  · rintro ⟨t, t', j, r, req, weak, τ, h1, h2, h3, h4, h5, h6⟩
    rw [← E.lift_ev h1] at h3
    cases he : E.liftEv j with
    | none => rw [he] at h3; cases h3
    | some e =>
      rw [he] at h3
      simp only [Option.map_some, Option.some.injEq] at h3
      obtain ⟨r', rfl⟩ := Event.mapP_res h3
      exact ⟨t, t', j, _, req, weak, τ, h1, h2, by show (E.liftEv j).map _ = _; rw [he]; rfl, h4, h5, h6⟩

theorem KCExec.lineage_inv (E : KCExec U clones) {n : Nat} (hn : n ≤ E.len) {id : Nat} {o : Op (Arg U) (Lineage clones)}
    (h : HEv.inv id o ∈ E.lineage n) : ∃ o0 : Op (Arg U) P, o = o0.mapP Lineage.dup := by
  obtain ⟨i, hi, he⟩ := List.mem_filterMap.mp h
  have hi : i < E.len := by have := List.mem_range.mp hi; omega
  have hs := (E.lift_step hi (E.lift_cur i (by omega))).1
  cases hev : E.liftEv i with
  | none => rw [hev] at he; cases he
  | some e =>
    rw [hev] at he hs
    have he : e = .inv id (.op o) := by
      cases e with
      | inv id' r => cases r <;> simp [Event.hev] at he ⊢; exact he
      | res id' r => cases r <;> simp [Event.hev] at he
    subst he
    obtain ⟨t, ht⟩ := ocstep_inv hs
    cases hl : E.lab i with
    | call t' r0 =>
      rw [hl] at ht
      simp only [CLabel.mapP, CLabel.call.injEq] at ht
      obtain ⟨-, ht⟩ := ht
      cases r0 with
      | op o0 => simp only [Req.mapP, Req.op.injEq] at ht; exact ⟨o0, ht.symm⟩
      | _ => cases ht
    | _ => rw [hl] at ht; cases ht

end
end Contrie
