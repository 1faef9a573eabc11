import Verif.Proof.MapPay
import Verif.Proof.BorrowSim
import Verif.Spec.Cloning
/-
A run in which elements are cloned, and the run in which they are not, are two views of one run on elements that remember where they come from.
-/
namespace Contrie
open scoped List
variable {A P Q : Type}

/-! ### Histories -/

section
variable (π : P → Q)

theorem Event.mapP_hev (e : Event A P) : (e.mapP π).hev = e.hev.map (HEv.mapP π) := by
  cases e with
  | inv id r => cases r <;> rfl
  | res id r => cases r <;> rfl

theorem opHistory_mapP (es : List (Event A P)) : opHistory (es.map (Event.mapP π)) = (opHistory es).map (HEv.mapP π) := by
  unfold opHistory
  induction es with
  | nil => rfl
  | cons e es ih =>
    simp only [List.map_cons, List.filterMap_cons, Event.mapP_hev]
    cases e.hev with
    | none => simpa using ih
    | some x => simpa using ih

theorem HEv.mapP_inv {x : HEv A P} {id : Nat} {o : Op A Q} (h : x.mapP π = .inv id o) : ∃ o', x = .inv id o' ∧ o = o'.mapP π := by
  cases x with
  | inv id' o' => simp only [HEv.mapP, HEv.inv.injEq] at h; obtain ⟨rfl, rfl⟩ := h; exact ⟨o', rfl, rfl⟩
  | res => cases h

theorem HEv.mapP_res {x : HEv A P} {id : Nat} {r : Ret Q} (h : x.mapP π = .res id r) : ∃ r', x = .res id r' ∧ r = r'.mapP π := by
  cases x with
  | res id' o' => simp only [HEv.mapP, HEv.res.injEq] at h; obtain ⟨rfl, rfl⟩ := h; exact ⟨o', rfl, rfl⟩
  | inv => cases h

theorem sublist_pair_map {h : List (HEv A P)} {x y : HEv A Q} (hs : [x, y] <+ h.map (HEv.mapP π)) :
    ∃ x' y', [x', y'] <+ h ∧ x'.mapP π = x ∧ y'.mapP π = y := by
  obtain ⟨l, hl, he⟩ := List.sublist_map_iff.mp hs
  match l, he, hl with
  | [], he, _ => cases he
  | [_], he, _ => simp at he
  | _ :: _ :: _ :: _, he, _ => simp at he
  | [x', y'], he, hl =>
    simp only [List.map_cons, List.map_nil, List.cons.injEq, and_true] at he
    exact ⟨x', y', hl, he.1.symm, he.2.symm⟩

theorem Before.mapP {h : List (HEv A P)} {a b : Nat} (hb : Before h a b) : Before (h.map (HEv.mapP π)) a b := by
  obtain ⟨r, o, h1⟩ := hb
  exact ⟨r.mapP π, o.mapP π, h1.map (HEv.mapP π)⟩

theorem Before.ofMapP {h : List (HEv A P)} {a b : Nat} (hb : Before (h.map (HEv.mapP π)) a b) : Before h a b := by
  obtain ⟨r, o, ho⟩ := hb
  obtain ⟨x, y, hl, hx, hy⟩ := sublist_pair_map π ho
  obtain ⟨r', rfl, -⟩ := HEv.mapP_res π hx
  obtain ⟨o', rfl, -⟩ := HEv.mapP_inv π hy
  exact ⟨r', o', hl⟩

theorem WellFormed.ofMapP {h : List (HEv A P)} (w : WellFormed (h.map (HEv.mapP π))) : WellFormed h where
  invOnce := by
    refine (List.pairwise_map.mp w.invOnce).imp ?_
    rintro x y hxy id o o' rfl rfl
    exact hxy id _ _ rfl rfl
  resOnce := by
    refine (List.pairwise_map.mp w.resOnce).imp ?_
    rintro x y hxy id o o' rfl rfl
    exact hxy id _ _ rfl rfl
  resAfter := by
    intro id r hm
    obtain ⟨o, ho⟩ := w.resAfter id _ (List.mem_map.mpr ⟨_, hm, rfl⟩)
    obtain ⟨x, y, hl, hx, hy⟩ := sublist_pair_map π ho
    obtain ⟨o', rfl, -⟩ := HEv.mapP_inv π hx
    obtain ⟨r', rfl, -⟩ := HEv.mapP_res π hy
    -- the response of a call is unique
    have hmem : HEv.res id r' ∈ h := hl.subset (by simp)
    have : r' = r := by
      have hp := List.pairwise_map.mp w.resOnce
      clear w ho hl hy
      induction h with
      | nil => cases hm
      | cons z h ih =>
        rw [List.pairwise_cons] at hp
        rcases List.mem_cons.mp hm with e1 | h1
        · rcases List.mem_cons.mp hmem with e2 | h2
          · rw [← e1] at e2; injection e2
          · exact (hp.1 _ h2 id _ _ (by rw [← e1]; rfl) rfl).elim
        · rcases List.mem_cons.mp hmem with e2 | h2
          · exact (hp.1 _ h1 id _ _ (by rw [← e2]; rfl) rfl).elim
          · exact ih h1 h2 hp.2
    subst this
    exact ⟨o', hl⟩

theorem WellFormed.mapP {h : List (HEv A P)} (w : WellFormed h) : WellFormed (h.map (HEv.mapP π)) where
  invOnce := by
    refine List.pairwise_map.mpr (w.invOnce.imp ?_)
    intro x y hxy id o o' hx hy
    obtain ⟨_, rfl, -⟩ := HEv.mapP_inv π hx
    obtain ⟨_, rfl, -⟩ := HEv.mapP_inv π hy
    exact hxy id _ _ rfl rfl
  resOnce := by
    refine List.pairwise_map.mpr (w.resOnce.imp ?_)
    intro x y hxy id o o' hx hy
    obtain ⟨_, rfl, -⟩ := HEv.mapP_res π hx
    obtain ⟨_, rfl, -⟩ := HEv.mapP_res π hy
    exact hxy id _ _ rfl rfl
  resAfter := by
    intro id r hm
    obtain ⟨x, hx, he⟩ := List.mem_map.mp hm
    obtain ⟨r', rfl, rfl⟩ := HEv.mapP_res π he
    obtain ⟨o, ho⟩ := w.resAfter id r' hx
    exact ⟨o.mapP π, ho.map (HEv.mapP π)⟩
end

/-! ### Elements that remember where they come from -/

/-- An element together with the inserted one it descends from. -/
def Lineage (clones : P → P → Prop) : Type := { x : P × P // Descends clones x.1 x.2 }

namespace Lineage
variable {clones : P → P → Prop}

def org (x : Lineage clones) : P := x.1.1
def cur (x : Lineage clones) : P := x.1.2
def dup (p : P) : Lineage clones := ⟨(p, p), .refl⟩
end Lineage

theorem Label.org_dup {clones : P → P → Prop} (l : Label A P) : (l.mapP (Lineage.dup (clones := clones))).mapP Lineage.org = l := by
  cases l with
  | call t r =>
    cases r with
    | op o => cases o <;> rfl
    | _ => rfl
  | _ => rfl

theorem Label.cur_dup {clones : P → P → Prop} (l : Label A P) : (l.mapP (Lineage.dup (clones := clones))).mapP Lineage.cur = l := by
  cases l with
  | call t r =>
    cases r with
    | op o => cases o <;> rfl
    | _ => rfl
  | _ => rfl

section
variable {U : UserKeys P} {clones : P → P → Prop}

theorem Descends.eqKey (hU : U.Lawful) (hc : ∀ p q, clones p q → U.eqKey (U.own p) (U.own q) = true) {p q : P} (h : Descends clones p q) :
    U.eqKey (U.own p) (U.own q) = true := by
  induction h with
  | refl => exact hU.refl _
  | clone _ h ih => exact hU.trans _ _ _ ih (hc _ _ h)

theorem cls_congr (hU : U.Lawful) {a b : U.Key} (h : U.eqKey a b = true) : (Arg.own a : Arg U).cls = (Arg.own b : Arg U).cls :=
  cls_of_den hU (x := .own b) h

theorem same_congr (hU : U.Lawful) {p q : P} (h : U.eqKey (U.own p) (U.own q) = true) {x y : Arg U} (hx : x.cls = y.cls) :
    U.same p x = U.same q y := by
  rw [same_decide hU, same_decide hU, hx]
  have : U.cfg.key p = U.cfg.key q := cls_congr hU h
  rw [this]

/-- The user's answers, for elements that remember. -/
def histAsk (U : UserKeys P) (cl : Clones clones) (c : Call (Arg U) (Lineage clones)) : Answers (Lineage clones) :=
  let o := (c.mapP Lineage.cur).pc.asks U (c.mapP Lineage.cur).req.typ
  { differs := fun x => o.differs x.cur
    equal := fun n x => o.equal n x.cur
    keep := fun n x => o.keep n x.cur
    hashOf := fun x => o.hashOf x.cur
    hash := o.hash
    clone := fun n x => ⟨(x.org, (cl n x.cur).1), x.2.clone (cl n x.cur).2⟩ }

theorem histAsk_cur (U : UserKeys P) (cl : Clones clones) (c : Call (Arg U) (Lineage clones)) :
    (histAsk U cl c).Agree Lineage.cur ({ (c.mapP Lineage.cur).pc.asks U (c.mapP Lineage.cur).req.typ with clone := fun n p => (cl n p).1 }) :=
  ⟨fun _ => rfl, fun _ _ => rfl, fun _ _ => rfl, fun _ => rfl, rfl, fun _ _ => rfl⟩

theorem Req.mapP_typ (π : Q → P) (r : Req (Arg U) Q) (s : Req (Arg U) P) (h : s = r.mapP π) (π' : Q → P) :
    s.typ = (r.mapP π').typ := by
  subst h
  cases r with
  | op o => cases o with
    | get a => cases a <;> rfl
    | getOrInsert a f => cases a <;> rfl
    | remove a => cases a <;> rfl
    | insert => rfl
  | _ => rfl

theorem answers_agree (hU : U.Lawful) (hc : ∀ p q, clones p q → U.eqKey (U.own p) (U.own q) = true) {x y : Arg U} (h : x.cls = y.cls)
    (cl : Clones clones) :
    Answers.Agree Lineage.org
      { differs := fun z => (U.answers y).differs (Lineage.cur z)
        equal := fun n z => (U.answers y).equal n (Lineage.cur z)
        keep := fun n z => (U.answers y).keep n (Lineage.cur z)
        hashOf := fun z => (U.answers y).hashOf (Lineage.cur z)
        hash := (U.answers y).hash
        clone := fun n (z : Lineage clones) => ⟨(z.org, (cl n z.cur).1), z.2.clone (cl n z.cur).2⟩ }
      (U.answers x) where
  differs := fun z => congrArg (!·) (same_congr hU (z.2.eqKey hU hc) h)
  equal := fun n z => same_congr hU (z.2.eqKey hU hc) h
  keep := fun n z => congrArg (!·) (same_congr hU (z.2.eqKey hU hc) h)
  hashOf := fun z => hU.hash _ _ (z.2.eqKey hU hc)
  hash := congrArg Prod.snd h
  clone := fun _ _ => rfl

theorem histAsk_org (hU : U.Lawful) (hc : ∀ p q, clones p q → U.eqKey (U.own p) (U.own q) = true) (cl : Clones clones)
    (c : Call (Arg U) (Lineage clones)) :
    (histAsk U cl c).Agree Lineage.org ((c.mapP Lineage.org).pc.asks U (c.mapP Lineage.org).req.typ) := by
  have ht : (c.mapP Lineage.org).req.typ = (c.mapP Lineage.cur).req.typ := Req.mapP_typ Lineage.org c.req _ rfl Lineage.cur
  rw [ht]
  obtain ⟨inv, req, pc, calls, ticks⟩ := c
  cases pc with
  | get a hash cur => exact answers_agree hU hc (x := a) (y := a) rfl cl
  | rem a _ _ _ => exact answers_agree hU hc (x := a) (y := a) rfl cl
  | trav st hash mode shift cur parent =>
    cases st with
    | future a f => exact answers_agree hU hc (x := a) (y := a) rfl cl
    | created p =>
      refine answers_agree hU hc (x := U.keyAs p.org _) (y := U.keyAs p.cur _) ?_ cl
      rw [cls_keyAs hU, cls_keyAs hU]
      exact cls_congr hU (p.2.eqKey hU hc)
  | _ => exact ⟨fun _ => rfl, fun _ _ => rfl, fun _ _ => rfl, fun _ => rfl, rfl, fun _ _ => rfl⟩

theorem hashReq_org (hU : U.Lawful) (hc : ∀ p q, clones p q → U.eqKey (U.own p) (U.own q) = true) (r : Req (Arg U) (Lineage clones)) :
    U.hashReq (r.mapP Lineage.org) = U.hashReq (r.mapP Lineage.cur) := by
  cases r with
  | op o =>
    cases o with
    | insert p => exact hU.hash _ _ (p.2.eqKey hU hc)
    | _ => rfl
  | _ => rfl

/-- Without cloning, the machine is that of `Verif/Model/Borrow.lean`. -/
theorem oStep_bStep (U : UserKeys P) (s : State (Arg U) P) (l : Label (Arg U) P) :
    oStep (fun c => c.pc.asks U c.req.typ) U.hashReq s l = bStep U s l := by
  cases l with
  | pin t => simp only [oStep, bStep]; cases (s.thr t).pin <;> cases (s.thr t).failed <;> rfl
  | unpin t => simp only [oStep, bStep]; cases (s.thr t).pin <;> cases (s.thr t).run <;> cases (s.thr t).failed <;> rfl
  | call t r => simp only [oStep, bStep]; cases (s.thr t).pin <;> cases (s.thr t).run <;> cases (s.thr t).failed <;> rfl
  | tick t weak => simp only [oStep, bStep]; cases (s.thr t).run <;> rfl
  | abort t => simp only [oStep, bStep]; cases (s.thr t).run <;> rfl
  | free a => rfl
  | idle => rfl

theorem oStep_inv {ask : Call A P → Answers P} {hr : Req A P → BitVec 64} {s s' : State A P} {l : Label A P} {id : Nat} {r : Req A P}
    (h : oStep ask hr s l = some (s', some (.inv id r))) : ∃ t, l = .call t r := by
  cases l with
  | call t r' =>
    simp only [oStep] at h
    split at h
    · simp only [Option.some.injEq, Prod.mk.injEq, Event.inv.injEq] at h
      exact ⟨t, by rw [h.2.2]⟩
    · cases h
  | tick t weak =>
    simp only [oStep] at h
    split at h
    · cases h
    · simp only [Option.some.injEq, Prod.mk.injEq] at h
      obtain ⟨-, h⟩ := h
      generalize (hTick _ _ _ _).2 = n at h
      cases n <;> cases h
  | pin t => simp only [oStep] at h; split at h <;> simp at h
  | unpin t => simp only [oStep] at h; split at h <;> simp at h
  | abort t => simp only [oStep] at h; split at h <;> simp at h
  | free a => simp [oStep] at h
  | idle => simp [oStep] at h

theorem Label.mapP_enabled {A P Q : Type} (π : P → Q) (s : State A P) (l : Label A P) : (l.mapP π).enabled (s.mapP π) ↔ l.enabled s := by
  cases l <;> exact Iff.rfl

/-- A run with clones and a run without are views of one run. -/
theorem run_lift (hU : U.Lawful) (hc : ∀ p q, clones p q → U.eqKey (U.own p) (U.own q) = true) (ls : List (Label (Arg U) P × Clones clones)) :
    ∀ S : State (Arg U) (Lineage clones), KRunOK U clones (S.mapP Lineage.cur) ls →
      BRunOK U (S.mapP Lineage.org) (ls.map Prod.fst) ∧
      ∃ (S' : State (Arg U) (Lineage clones)) (ES : List (Event (Arg U) (Lineage clones))), kRun U clones (S.mapP Lineage.cur) ls = some (S'.mapP Lineage.cur, ES.map (Event.mapP Lineage.cur)) ∧
        bRun U (S.mapP Lineage.org) (ls.map Prod.fst) = some (S'.mapP Lineage.org, ES.map (Event.mapP Lineage.org)) ∧
        ∀ id r, Event.inv id r ∈ ES → ∃ r0 : Req (Arg U) P, r = r0.mapP Lineage.dup := by
  induction ls with
  | nil => intro S _; exact ⟨trivial, S, [], rfl, rfl, by simp⟩
  | cons x ls ih =>
    obtain ⟨l, cl⟩ := x
    intro S h
    obtain ⟨h1, h2, h3⟩ := h
    have e1 := oStep_mapP Lineage.cur (ask := histAsk U cl)
      (ask' := fun c => { c.pc.asks U c.req.typ with clone := fun n p => (cl n p).1 }) (hr' := U.hashReq) (histAsk_cur U cl) (hr := fun r => U.hashReq (r.mapP Lineage.cur)) (fun _ => rfl) S (l.mapP Lineage.dup)
    have e2 := oStep_mapP Lineage.org (ask' := fun c => c.pc.asks U c.req.typ) (histAsk_org hU hc cl)
      (hr := fun r => U.hashReq (r.mapP Lineage.cur)) (hashReq_org hU hc) S (l.mapP Lineage.dup)
    rw [Label.cur_dup] at e1
    rw [Label.org_dup, oStep_bStep] at e2
    cases hs : oStep (histAsk U cl) (fun r => U.hashReq (r.mapP Lineage.cur)) S (l.mapP Lineage.dup) with
    | none =>
      rw [hs] at e1
      rw [show oStep _ _ _ _ = none from e1] at h3
      exact h3.elim
    | some y =>
      obtain ⟨S1, E⟩ := y
      rw [hs] at e1 e2
      simp only [Option.map_some, Prod.map] at e1 e2
      rw [show oStep _ _ _ _ = some _ from e1] at h3
      obtain ⟨g1, S', ES, g2, g3, g4⟩ := ih S1 h3
      refine ⟨⟨?_, h2, ?_⟩, S', E.toList ++ ES, ?_, ?_, ?_⟩
      · have := (Label.mapP_enabled Lineage.cur S (l.mapP Lineage.dup))
        rw [Label.cur_dup] at this
        have h1 := (Label.mapP_enabled Lineage.org S (l.mapP Lineage.dup)).mpr (this.mp h1)
        rwa [Label.org_dup] at h1
      · rw [e2]; exact g1
      · simp only [kRun]
        rw [show oStep _ _ _ _ = some _ from e1]
        simp only [g2, List.map_append]
        cases E <;> rfl
      · simp only [List.map_cons, bRun, e2, g3, List.map_append]
        cases E <;> rfl
      · intro id r hm
        rcases List.mem_append.mp hm with hm | hm
        · cases E with
          | none => simp at hm
          | some e =>
            simp only [Option.toList, List.mem_singleton] at hm
            subst hm
            obtain ⟨t, ht⟩ := oStep_inv hs
            cases l with
            | call t' r0 =>
              simp only [Label.mapP, Label.call.injEq] at ht
              exact ⟨r0, ht.2.symm⟩
            | _ => cases ht
        · exact g4 id r hm

theorem Ret.descends_hist (r : Ret (Lineage clones)) : (r.mapP Lineage.org).Descends clones (r.mapP Lineage.cur) := by
  cases r with
  | opt r => cases r with
    | none => trivial
    | some x => exact x.2
  | eon r => cases r with
    | existing x => exact x.2
    | new x => exact x.2

theorem inv_org_cur {H : List (HEv (Arg U) (Lineage clones))} (hH : ∀ id o, HEv.inv id o ∈ H → ∃ o0 : Op (Arg U) P, o = o0.mapP Lineage.dup)
    (id : Nat) (o : Op (Arg U) P) : HEv.inv id o ∈ H.map (HEv.mapP Lineage.org) ↔ HEv.inv id o ∈ H.map (HEv.mapP Lineage.cur) := by
  constructor <;>
  · intro hm
    obtain ⟨x, hx, he⟩ := List.mem_map.mp hm
    obtain ⟨o', rfl, rfl⟩ := HEv.mapP_inv _ he
    obtain ⟨o0, rfl⟩ := hH id o' hx
    refine List.mem_map.mpr ⟨_, hx, ?_⟩
    cases o0 <;> rfl

theorem clone_linearization {H : List (HEv (Arg U) (Lineage clones))} (hH : ∀ id o, HEv.inv id o ∈ H → ∃ o0 : Op (Arg U) P, o = o0.mapP Lineage.dup)
    {L : List (SOp (Arg U) P)} {l : List P} (hL : IsListLinearization U.same U.keyArg (H.map (HEv.mapP Lineage.org)) L l) :
    IsCloneLinearization clones U.same U.keyArg (H.map (HEv.mapP Lineage.cur)) L l := by
  refine ⟨fun x hx => (inv_org_cur hH _ _).mp (hL.invoked x hx), hL.once, ?_, ?_, hL.legal⟩
  · intro id o r hi hr
    obtain ⟨x, hx, he⟩ := List.mem_map.mp hr
    obtain ⟨r', rfl, rfl⟩ := HEv.mapP_res _ he
    exact ⟨_, hL.complete id o _ ((inv_org_cur hH _ _).mpr hi) (List.mem_map.mpr ⟨_, hx, rfl⟩), r'.descends_hist⟩
  · exact hL.realtime.imp fun h hb => h ((hb.ofMapP Lineage.cur).mapP Lineage.org)

theorem clone_causal {H : List (HEv (Arg U) (Lineage clones))} (hH : ∀ id o, HEv.inv id o ∈ H → ∃ o0 : Op (Arg U) P, o = o0.mapP Lineage.dup)
    {alike : Arg U → Arg U → Prop} {hb : Nat → Nat → Prop} {L : List (SOp (Arg U) P)} {l : List P}
    (hL : IsListCausalLinearization U.same U.keyArg alike (H.map (HEv.mapP Lineage.org)) hb L l) :
    IsCloneCausalLinearization clones U.same U.keyArg alike (H.map (HEv.mapP Lineage.cur)) hb L l := by
  refine ⟨fun x hx => (inv_org_cur hH _ _).mp (hL.invoked x hx), hL.once, ?_, ?_, hL.causal, hL.legal⟩
  · intro id o r hi hr
    obtain ⟨x, hx, he⟩ := List.mem_map.mp hr
    obtain ⟨r', rfl, rfl⟩ := HEv.mapP_res _ he
    exact ⟨_, hL.complete id o _ ((inv_org_cur hH _ _).mpr hi) (List.mem_map.mpr ⟨_, hx, rfl⟩), r'.descends_hist⟩
  · exact hL.realtime.imp fun h hu hb => h hu ((hb.ofMapP Lineage.cur).mapP Lineage.org)

/-- What a pass over elements that remember gives for an argument, in terms of what they were and what they are now. -/
theorem filter_lineage (hU : U.Lawful) (hc : ∀ p q, clones p q → U.eqKey (U.own p) (U.own q) = true) (a : Arg U) (X : List (Lineage clones)) {o : Option P}
    (h : (X.map Lineage.org).filter (fun p => U.same p a) = o.toList) :
    ∃ o', (X.map Lineage.cur).filter (fun p => U.same p a) = o'.toList ∧ (Ret.opt o).Descends clones (.opt o') := by
  have hs : ∀ x : Lineage clones, U.same x.cur a = U.same x.org a := fun x => (same_congr hU (x.2.eqKey hU hc) rfl).symm
  rw [List.filter_map] at h
  rw [List.filter_map]
  have hf : ((fun p => U.same p a) ∘ Lineage.cur : Lineage clones → Bool) = (fun p => U.same p a) ∘ Lineage.org := by
    funext x; exact hs x
  rw [hf]
  generalize X.filter ((fun p => U.same p a) ∘ Lineage.org) = Y at h ⊢
  cases o with
  | none =>
    have : Y = [] := List.map_eq_nil_iff.mp h
    subst this
    exact ⟨none, rfl, trivial⟩
  | some p =>
    obtain ⟨y, rfl, hy⟩ := List.map_eq_singleton_iff.mp h
    refine ⟨some y.cur, rfl, ?_⟩
    subst hy
    exact y.2

end
end Contrie
