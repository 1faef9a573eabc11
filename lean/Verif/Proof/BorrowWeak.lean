import Verif.Model.BorrowWeak
import Verif.Proof.BorrowSim
import Verif.Props.Synchronised
/-
The weak memory machine with the user's own comparisons runs as the one on classes of equal arguments does.
-/
namespace Contrie
open scoped List
variable {P : Type}

section
variable {A B : Type} (c : A → B)

def CThread.mapKey (x : CThread A P) : CThread B P := ⟨x.pin, x.refs, x.run.map (·.mapKey c), x.failed, x.view⟩

def CState.mapKey (x : CState A P) : CState B P := ⟨x.m, fun t => (x.thr t).mapKey c, x.past, x.pastView⟩

def CLabel.mapKey : CLabel A P → CLabel B P
  | .pin t => .pin t
  | .unpin t => .unpin t
  | .call t r => .call t (r.mapKey c)
  | .tick t w τ => .tick t w τ
  | .abort t => .abort t
  | .sync t t' τ => .sync t t' τ
  | .free a => .free a
  | .idle => .idle

theorem PC.mapKey_access (O : Orders) (pc : PC A P) : (pc.mapKey c).access O = pc.access O := by cases pc <;> rfl

theorem PC.mapKey_writes (m : Mem P) (weak : Bool) (pc : PC A P) : (pc.mapKey c).writes m weak = pc.writes m weak := by
  unfold PC.writes
  rw [PC.mapKey_access]
  have : ∀ w, (pc.mapKey c).stores .code weak w = pc.stores .code weak w := by intro w; cases pc <;> rfl
  simp only [this]

theorem PC.mapKey_look (m : Mem P) (weak : Bool) (τ now : Nat) (pc : PC A P) (view : Loc → Nat) :
    (pc.mapKey c).look m weak τ now view = pc.look m weak τ now view := by
  unfold PC.look
  rw [PC.mapKey_access, PC.mapKey_writes]

theorem CState.mapKey_seen (s : CState A P) (pc : PC A P) (τ : Nat) : (s.mapKey c).seen (pc.mapKey c) τ = s.seen pc τ := by
  unfold CState.seen
  rw [PC.mapKey_access]
  rfl

theorem CState.mapKey_viewAt (s : CState A P) (τ t : Nat) : (s.mapKey c).viewAt τ t = s.viewAt τ t := rfl

theorem CState.mapKey_next (s : CState A P) (m : Mem P) (t : Nat) (th : CThread A P) :
    (s.next m t th).mapKey c = (s.mapKey c).next m t (th.mapKey c) := by
  unfold CState.next CState.mapKey
  simp only [CState.mk.injEq, true_and]
  refine ⟨?_, ?_⟩
  · funext x
    by_cases hx : x = t <;> simp [upd, hx]
  · rfl

theorem CThread.mapKey_apply (th : CThread A P) (x : Call A P) (n : Next A P) :
    (th.apply x n).mapKey c = (th.mapKey c).apply (x.mapKey c) (n.mapKey c) := by
  cases n <;> rfl

theorem CLabel.mapKey_enabled {s : CState A P} {l : CLabel A P} (h : l.enabled s) : (l.mapKey c).enabled (s.mapKey c) := by
  cases l with
  | tick t weak τ =>
    rcases h with h | ⟨h1, x, loc, o, h2, h3, h4, h5, h6⟩
    · exact Or.inl h
    · refine Or.inr ⟨h1, x.mapKey c, loc, o, ?_, ?_, h4, h5, ?_⟩
      · show ((s.thr t).run).map _ = _
        rw [h2]; rfl
      · exact (PC.mapKey_access c .code x.pc).trans h3
      · show ((x.pc.mapKey c).writes ((s.mapKey c).seen (x.pc.mapKey c) τ) weak) = false
        rw [CState.mapKey_seen, PC.mapKey_writes]; exact h6
  | sync t t' τ => exact h
  | _ => trivial

theorem HB.mapKey {lab : Nat → CLabel A P} {n : Nat} {x y : Nat × Nat} (h : HB lab n x y) : HB (fun i => (lab i).mapKey c) n x y := by
  induction h with
  | po t h => exact .po t h
  | sync hj h => exact .sync hj (by rw [h]; rfl)
  | trans _ _ ih ih' => exact .trans ih ih'

theorem HB.ofMapKey {lab : Nat → CLabel A P} {n : Nat} {x y : Nat × Nat} (h : HB (fun i => (lab i).mapKey c) n x y) : HB lab n x y := by
  induction h with
  | po t h => exact .po t h
  | @sync t t' τ j hj h =>
    refine .sync hj ?_
    generalize lab j = l at h
    cases l <;> simp only [CLabel.mapKey, CLabel.sync.injEq, reduceCtorEq] at h ⊢
    exact h
  | trans _ _ ih ih' => exact .trans ih ih'
end

variable {U : UserKeys P}

theorem bcstep_sim (hU : U.Lawful) {s s' : CState (Arg U) P} {l : CLabel (Arg U) P} {e : Option (Event (Arg U) P)}
    (h : bcstep U s l = some (s', e)) :
    cstep U.cfg (s.mapKey Arg.cls) (l.mapKey Arg.cls) = some (s'.mapKey Arg.cls, e.map (Event.mapKey Arg.cls)) := by
  have hpin : ∀ t, ((s.mapKey Arg.cls).thr t).pin = (s.thr t).pin := fun _ => rfl
  have hfail : ∀ t, ((s.mapKey Arg.cls).thr t).failed = (s.thr t).failed := fun _ => rfl
  have hrun : ∀ t, ((s.mapKey Arg.cls).thr t).run = (s.thr t).run.map (·.mapKey Arg.cls) := fun _ => rfl
  cases l with
  | pin t =>
    simp only [bcstep] at h
    split at h
    · rename_i h1 h2
      simp only [Option.some.injEq, Prod.mk.injEq] at h
      obtain ⟨rfl, rfl⟩ := h
      simp only [CLabel.mapKey, cstep, hpin, hfail, h1, h2, CState.mapKey_next]
      rfl
    · cases h
  | unpin t =>
    simp only [bcstep] at h
    split at h
    · rename_i h1 h2 h3
      simp only [Option.some.injEq, Prod.mk.injEq] at h
      obtain ⟨rfl, rfl⟩ := h
      simp only [CLabel.mapKey, cstep, hpin, hfail, hrun, h1, h2, h3, CState.mapKey_next, Option.map_none]
      rfl
    · cases h
  | call t r =>
    simp only [bcstep] at h
    split at h
    · rename_i h1 h2 h3
      simp only [Option.some.injEq, Prod.mk.injEq] at h
      obtain ⟨rfl, rfl⟩ := h
      simp only [CLabel.mapKey, cstep, hpin, hfail, hrun, h1, h2, h3, CState.mapKey_next, Option.map_none, startPC_sim]
      rfl
    · cases h
  | tick t weak τ =>
    simp only [bcstep] at h
    split at h
    · cases h
    · rename_i c h1
      simp only [Option.some.injEq, Prod.mk.injEq] at h
      obtain ⟨rfl, rfl⟩ := h
      have ht := bTick_sim hU c.req.typ (s.seen c.pc τ) weak c.pc
      have hs := CState.mapKey_seen Arg.cls s c.pc τ
      simp only [CLabel.mapKey, cstep, hrun, h1, CState.mapKey_next, Option.map_some, CThread.mapKey_apply]
      have e1 : (c.mapKey Arg.cls).pc = c.pc.mapKey Arg.cls := rfl
      rw [e1, hs, ht, PC.mapKey_look]
      congr 2
      exact Next.mapKey_event _ _ _
  | abort t =>
    simp only [bcstep] at h
    split at h
    · cases h
    · rename_i c h1
      simp only [Option.some.injEq, Prod.mk.injEq] at h
      obtain ⟨rfl, rfl⟩ := h
      simp only [CLabel.mapKey, cstep, hrun, h1, CState.mapKey_next, Option.map_some]
      rfl
  | sync t t' τ =>
    simp only [bcstep, Option.some.injEq, Prod.mk.injEq] at h
    obtain ⟨rfl, rfl⟩ := h
    simp only [CLabel.mapKey, cstep, CState.mapKey_next]
    rfl
  | free a =>
    simp only [bcstep, Option.some.injEq, Prod.mk.injEq] at h
    obtain ⟨rfl, rfl⟩ := h
    simp only [CLabel.mapKey, cstep, CState.mapKey_next]
    rfl
  | idle =>
    simp only [bcstep, Option.some.injEq, Prod.mk.injEq] at h
    obtain ⟨rfl, rfl⟩ := h
    simp only [CLabel.mapKey, cstep, CState.mapKey_next]
    rfl

theorem cwf_sim (hU : U.Lawful) {l : CLabel (Arg U) P} (h : U.CWF l) : (l.mapKey Arg.cls).WF U.cfg := by
  cases l with
  | call t r =>
    cases r with
    | op o =>
      cases o with
      | getOrInsert a f => exact (same_iff hU).mp h
      | _ => trivial
    | _ => trivial
  | _ => trivial

theorem CLabel.mapKey_tick {A B : Type} {c : A → B} {l : CLabel A P} {t : Nat} {w : Bool} {τ : Nat} (h : l.mapKey c = .tick t w τ) :
    l = .tick t w τ := by
  cases l <;> simp only [CLabel.mapKey, CLabel.tick.injEq, reduceCtorEq] at h ⊢
  exact h

theorem CLabel.mapKey_free {A B : Type} {c : A → B} {l : CLabel A P} {a : Nat} (h : l.mapKey c = .free a) : l = .free a := by
  cases l <;> simp only [CLabel.mapKey, CLabel.free.injEq, reduceCtorEq] at h ⊢
  exact h

theorem CLabel.mapKey_call {A B : Type} {c : A → B} {l : CLabel A P} {t : Nat} {r : Req B P} (h : l.mapKey c = .call t r) :
    ∃ r', l = .call t r' ∧ r = r'.mapKey c := by
  cases l <;> simp only [CLabel.mapKey, CLabel.call.injEq, reduceCtorEq] at h
  obtain ⟨rfl, rfl⟩ := h
  exact ⟨_, rfl, rfl⟩

/-- The execution on classes. -/
def BCExec.cls (hU : U.Lawful) (E : BCExec U) : CExec U.cfg where
  len := E.len
  st := fun i => (E.st i).mapKey Arg.cls
  lab := fun i => (E.lab i).mapKey Arg.cls
  ev := fun i => (E.ev i).map (Event.mapKey Arg.cls)
  init := by rw [E.init]; rfl
  step := fun i hi => bcstep_sim hU (E.step i hi)
  enabled := fun i hi => CLabel.mapKey_enabled Arg.cls (E.enabled i hi)
  wf := fun i hi => cwf_sim hU (E.wf i hi)
  gc := by
    intro i a hi h
    obtain ⟨r, tr, weak, τ, h1, h2, h3, h4, h5⟩ := E.gc i a hi (CLabel.mapKey_free h)
    refine ⟨r, tr, weak, τ, h1, by rw [h2]; rfl, h3, h4, ?_⟩
    intro j t p g1 g2 g3
    exact (h5 j t p g1 g2 g3).mapKey Arg.cls

/-- The history of the map operations until instant `n`. -/
def BCExec.history (E : BCExec U) (n : Nat) : List (HEv (Arg U) P) := (List.range n).filterMap (fun i => (E.ev i).bind Event.hev)

/-- Call `x` returns before call `y` is invoked, and its session synchronises with that of `y` in between. -/
def BCExec.Hb (E : BCExec U) (x y : Nat) : Prop :=
  ∃ t t' j r req weak τ, j < E.len ∧ E.lab j = .tick t weak τ ∧ E.ev j = some (.res x r) ∧
    y < E.len ∧ E.lab y = .call t' req ∧ HB E.lab E.len (t, j + 1) (t', y)

theorem BCExec.cls_history (hU : U.Lawful) (E : BCExec U) (n : Nat) : (E.cls hU).history n = (E.history n).map (HEv.mapKey Arg.cls) := by
  unfold CExec.history BCExec.history
  rw [List.map_filterMap]
  congr 1
  funext i
  show ((E.ev i).map (Event.mapKey Arg.cls)).bind Event.hev = _
  cases E.ev i with
  | none => rfl
  | some e => exact Event.mapKey_hev _ e

theorem BCExec.cls_hb (hU : U.Lawful) (E : BCExec U) (x y : Nat) : (E.cls hU).Hb x y ↔ E.Hb x y := by
  constructor
  · rintro ⟨t, t', j, r, req, weak, τ, h1, h2, h3, h4, h5, h6⟩
    obtain ⟨req', h5', -⟩ := CLabel.mapKey_call h5
    refine ⟨t, t', j, r, req', weak, τ, h1, CLabel.mapKey_tick h2, ?_, h4, h5', h6.ofMapKey Arg.cls⟩
    have h3 : (E.ev j).map (Event.mapKey Arg.cls) = some (.res x r) := h3
    cases he : E.ev j with
    | none => rw [he] at h3; cases h3
    | some e =>
      rw [he] at h3
      simp only [Option.map_some, Option.some.injEq] at h3
      cases e with
      | inv => cases h3
      | res id r' => simp only [Event.mapKey, Event.res.injEq] at h3; obtain ⟨rfl, rfl⟩ := h3; rfl
  · rintro ⟨t, t', j, r, req, weak, τ, h1, h2, h3, h4, h5, h6⟩
    refine ⟨t, t', j, r, req.mapKey Arg.cls, weak, τ, h1, ?_, ?_, h4, ?_, h6.mapKey Arg.cls⟩
    · show (E.lab j).mapKey _ = _; rw [h2]; rfl
    · show (E.ev j).map _ = _; rw [h3]; rfl
    · show (E.lab y).mapKey _ = _; rw [h5]; rfl

/-- What a call in the history asks for obeys the contract. -/
theorem BCExec.history_wf (E : BCExec U) {n : Nat} (hn : n ≤ E.len) {id : Nat} {o : Op (Arg U) P} (h : HEv.inv id o ∈ E.history n) (t : Nat) :
    U.WF (.call t (.op o)) := by
  obtain ⟨i, hi, he⟩ := List.mem_filterMap.mp h
  have hi : i < E.len := by have := List.mem_range.mp hi; omega
  have hs := E.step i hi
  have hw := E.wf i hi
  cases hev : E.ev i with
  | none => rw [hev] at he; cases he
  | some e =>
    rw [hev] at he hs
    have he : e = .inv id (.op o) := by
      cases e with
      | inv id' r => cases r <;> simp [Event.hev] at he ⊢; exact he
      | res id' r => cases r <;> simp [Event.hev] at he
    subst he
    cases hl : E.lab i with
    | call t' r =>
      rw [hl] at hs hw
      simp only [bcstep] at hs
      split at hs
      · simp only [Option.some.injEq, Prod.mk.injEq, Event.inv.injEq] at hs
        obtain ⟨-, -, rfl⟩ := hs
        cases o <;> exact hw
      · cases hs
    | tick t' weak τ =>
      rw [hl] at hs
      simp only [bcstep] at hs
      split at hs
      · cases hs
      · simp only [Option.some.injEq, Prod.mk.injEq] at hs
        obtain ⟨-, hs⟩ := hs
        generalize (bTick U _ _ _ _).2 = n at hs
        cases n <;> simp [Next.event] at hs
    | pin t' => rw [hl] at hs; simp only [bcstep] at hs; split at hs <;> simp at hs
    | unpin t' => rw [hl] at hs; simp only [bcstep] at hs; split at hs <;> simp at hs
    | abort t' => rw [hl] at hs; simp only [bcstep] at hs; split at hs <;> simp at hs
    | sync t' t'' τ => rw [hl] at hs; simp [bcstep] at hs
    | free a => rw [hl] at hs; simp [bcstep] at hs
    | idle => rw [hl] at hs; simp [bcstep] at hs

/-- Some key is equal to both arguments. -/
def UserKeys.Alike (U : UserKeys P) (a b : Arg U) : Prop := ∃ k, a.den k = true ∧ b.den k = true

theorem Op.mapKey_key (o : Op (Arg U) P) : (o.mapKey Arg.cls).key U.cfg.key = (o.key U.keyArg).cls := by cases o <;> rfl

theorem SOp.mapKey_updates {A B : Type} {c : A → B} {x : SOp A P} : (x.mapKey c).Updates ↔ x.Updates := by
  obtain ⟨id, o, r⟩ := x
  cases o <;> cases r <;> first | exact Iff.rfl | (rename_i e; cases e <;> exact Iff.rfl)

theorem Alike.cls (hU : U.Lawful) {a b : Arg U} (h : U.Alike a b) : a.cls = b.cls := by
  obtain ⟨k, hx, hy⟩ := h
  rw [← cls_of_den hU hx, cls_of_den hU hy]

theorem causal_list (hU : U.Lawful) {h : List (HEv (Arg U) P)} (hw : WellFormed (h.map (HEv.mapKey Arg.cls)))
    (hwf : ∀ id o, HEv.inv id o ∈ h → ∀ t, U.WF (.call t (.op o))) {hb : Nat → Nat → Prop} {L : List (SOp (Cls U) P)} {m : AMap (Cls U) P}
    (hL : IsCausalLinearization U.cfg.key (h.map (HEv.mapKey Arg.cls)) hb L m) :
    ∃ L' l, L'.map (SOp.mapKey Arg.cls) = L ∧ IsListCausalLinearization U.same U.keyArg U.Alike h hb L' l := by
  obtain ⟨L', rfl, h2⟩ := lift_calls Arg.cls L hL.invoked
  have hleg : Legal U.cfg.key (U.view []) (L'.map (SOp.mapKey Arg.cls)) m := hL.legal
  obtain ⟨l, hll, -⟩ := hleg.toList hU (fun x hx => hwf _ _ (h2 x hx))
  refine ⟨L', l, rfl, h2, ?_, ?_, ?_, ?_, hll⟩
  · have := hL.once
    rw [List.map_map] at this
    exact this
  · intro id o r hi hr
    have := hL.complete id (o.mapKey Arg.cls) r (List.mem_map.mpr ⟨_, hi, rfl⟩) (mem_mapKey_res Arg.cls hr)
    obtain ⟨x, hx, he⟩ := List.mem_map.mp this
    obtain ⟨id', o', r'⟩ := x
    simp only [SOp.mapKey, SOp.mk.injEq] at he
    obtain ⟨rfl, -, rfl⟩ := he
    have := (hw.ofMapKey Arg.cls).inv_unique hi (h2 _ hx)
    subst this
    exact hx
  · refine (List.pairwise_map.mp hL.realtime).imp ?_
    intro x y hxy hu hb
    exact hxy (SOp.mapKey_updates.mpr hu) (hb.mapKey Arg.cls)
  · refine (List.pairwise_map.mp hL.causal).imp ?_
    intro x y hxy hal hb
    refine hxy ?_ hb
    show (x.op.mapKey Arg.cls).key U.cfg.key = (y.op.mapKey Arg.cls).key U.cfg.key
    rw [Op.mapKey_key, Op.mapKey_key, Alike.cls hU hal]

theorem glimpse_list (hU : U.Lawful) {hb : Nat → Nat → Prop} {L : List (SOp (Arg U) P)} (hL : ∀ x ∈ L, ∀ t, U.WF (.call t (.op x.op))) {id j : Nat}
    {keys : Cls U → Prop} {args : Arg U → Prop} (hk : ∀ a, args a → keys a.cls) {m : AMap (Cls U) P}
    (h : Glimpse U.cfg.key hb (L.map (SOp.mapKey Arg.cls)) id j keys m) : ∃ l, ListGlimpse U.same U.keyArg hb L id j args l ∧ U.view l = m := by
  obtain ⟨M1, M2, h1, h2, h3, h4, h5⟩ := h
  obtain ⟨L1, L2, rfl, rfl, rfl⟩ := List.map_eq_append_iff.mp h1
  obtain ⟨l, hl, hv⟩ := Legal.toList hU (l := []) (fun x hx => hL x (List.mem_append_left _ hx)) h2
  refine ⟨l, ⟨L1, L2, rfl, hl, ?_, ?_, ?_⟩, hv⟩
  · intro y hy ha
    refine h3 _ (List.mem_map_of_mem hy) ?_
    have := hk _ ha
    rw [← Op.mapKey_key] at this
    exact this
  · intro y hy ha
    refine h4 _ (List.mem_map_of_mem hy) ?_
    have := hk _ ha
    rw [← Op.mapKey_key] at this
    exact this
  · intro x hx hu
    exact h5 _ (List.mem_map_of_mem hx) (SOp.mapKey_updates.mpr hu)

theorem view_empty {l : List P} (h : U.view l = AMap.empty) : l = [] := by
  cases l with
  | nil => rfl
  | cons p l =>
    have := congrFun h (U.cfg.key p)
    simp [UserKeys.view, AMap.empty] at this

end Contrie
