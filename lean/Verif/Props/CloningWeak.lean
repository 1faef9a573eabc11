import Verif.Proof.CloningWeak
import Verif.Props.BorrowWeak
import Verif.Props.Cloning
/-
C70 under weak memory.
-/
namespace Contrie
open scoped List
variable {P : Type} {U : UserKeys P} {clones : P → P → Prop}

/-- **C70** under weak memory: what C39 says, up to cloning. `is_empty` returns `true` only if the list was empty somewhere in the order of calls; and an iteration gives for every argument what a
lookup might have returned, up to cloning. -/
theorem C70_causal (hU : U.Lawful) (hc : ∀ p q, clones p q → U.eqKey (U.own p) (U.own q) = true) (E : KCExec U clones) {n : Nat} (hn : n ≤ E.len) :
    WellFormed (E.history n) ∧
    (∃ L l, IsCloneCausalLinearization clones U.same U.keyArg U.Alike (E.history n) E.Hb L l ∧
      (∀ id j, j < n → E.ev j = some (.res id (.bool true)) → ListGlimpse U.same U.keyArg E.Hb L id j (fun _ => True) []) ∧
      (∀ id j out, j < n → E.ev j = some (.res id (.list out)) → ∀ a, ∃ m o,
        ListGlimpse U.same U.keyArg E.Hb L id j (U.Alike a) m ∧ out.filter (fun p => U.same p a) = o.toList ∧
        (Ret.opt (m.find? (fun p => U.same p a))).Descends clones (.opt o))) ∧
    ∀ t, ((E.st n).thr t).failed = none := by
  obtain ⟨h1, ⟨L, l, h2, h4, h5⟩, h3⟩ := C69_causal hU (E.org hU hc) (n := n) hn
  have hb : (E.org hU hc).Hb = E.Hb := by funext x y; exact propext (E.hb_org hU hc x y)
  rw [E.history_org hU hc, hb] at h2
  rw [E.history_org hU hc] at h1
  rw [hb] at h4 h5
  rw [E.history_cur hn]
  refine ⟨(h1.ofMapP Lineage.org).mapP Lineage.cur, ⟨L, l, clone_causal (fun id o h => E.lineage_inv hn h) h2, ?_, ?_⟩, fun t => by
    have := h3 t
    rwa [show ((E.org hU hc).st n) = (E.lift n).mapP Lineage.org from rfl, E.failed_org hn] at this⟩
  · intro id j hj hr
    refine h4 id j hj ?_
    rw [← E.lift_ev (Nat.lt_of_lt_of_le hj hn)] at hr
    obtain ⟨e, he, hv⟩ := Option.map_eq_some_iff.mp hr
    show (E.liftEv j).map _ = _
    rw [he]
    cases e with
    | inv => cases hv
    | res id' r =>
      cases r with
      | bool b =>
        simp only [Event.mapP, Res.mapP, Event.res.injEq, Res.bool.injEq] at hv
        obtain ⟨rfl, rfl⟩ := hv
        rfl
      | op r => simp [Event.mapP, Res.mapP] at hv
      | list X => simp [Event.mapP, Res.mapP] at hv
  · intro id j out hj hr a
    rw [← E.lift_ev (Nat.lt_of_lt_of_le hj hn)] at hr
    obtain ⟨e, he, hv⟩ := Option.map_eq_some_iff.mp hr
    cases e with
    | inv => cases hv
    | res id' r =>
      cases r with
      | list X =>
        simp only [Event.mapP, Res.mapP, Event.res.injEq, Res.list.injEq] at hv
        obtain ⟨rfl, rfl⟩ := hv
        have ho : (E.org hU hc).ev j = some (.res id' (.list (X.map Lineage.org))) := by
          show (E.liftEv j).map _ = _
          rw [he]; rfl
        obtain ⟨m, g1, g2⟩ := h5 id' j _ hj ho a
        obtain ⟨o, g3, g4⟩ := filter_lineage hU hc a X g2
        exact ⟨m, o, g1, g3, g4⟩
      | op r => simp [Event.mapP, Res.mapP] at hv
      | bool b => simp [Event.mapP, Res.mapP] at hv

/-- **C70** under weak memory: if the user's program synchronises the calls about one key, the history is that of a list, up to cloning. -/
theorem C70_synchronised (hU : U.Lawful) (hc : ∀ p q, clones p q → U.eqKey (U.own p) (U.own q) = true) (E : KCExec U clones) {n : Nat} (hn : n ≤ E.len)
    (hs : ∀ x y o o', HEv.inv x o ∈ E.history n → HEv.inv y o' ∈ E.history n → (∀ k, (o.key U.keyArg).den k = (o'.key U.keyArg).den k) →
      Before (E.history n) x y → E.Hb x y) : ∃ L l, IsCloneLinearization clones U.same U.keyArg (E.history n) L l := by
  have hH : ∀ id o, HEv.inv id o ∈ E.lineage n → ∃ o0 : Op (Arg U) P, o = o0.mapP Lineage.dup := fun id o h => E.lineage_inv hn h
  obtain ⟨L, l, h⟩ := C69_synchronised hU (E.org hU hc) (n := n) hn (by
    intro x y o o' hx hy hk hb
    rw [E.history_org hU hc] at hx hy hb
    rw [E.hb_org hU hc]
    rw [E.history_cur hn] at hs
    exact hs x y o o' ((inv_org_cur hH _ _).mp hx) ((inv_org_cur hH _ _).mp hy) hk ((hb.ofMapP Lineage.org).mapP Lineage.cur))
  rw [E.history_org hU hc] at h
  rw [E.history_cur hn]
  exact ⟨L, l, clone_linearization hH h⟩

/-! ### Example -/

/-- The states of a concrete run in which all clones are as `cl` says. -/
def kcst (U : UserKeys P) (cl : Clones clones) (ls : List (CLabel (Arg U) P)) : Nat → CState (Arg U) P
  | 0 => CState.init
  | i + 1 => match ocstep (cl.asks U) U.hashReq (kcst U cl ls i) (ls.getD i .idle) with
    | some (s, _) => s
    | none => kcst U cl ls i

/-- What is observable of step `i` of a concrete run. -/
def kcev (U : UserKeys P) (cl : Clones clones) (ls : List (CLabel (Arg U) P)) (i : Nat) : Option (Event (Arg U) P) :=
  match ocstep (cl.asks U) U.hashReq (kcst U cl ls i) (ls.getD i .idle) with
  | some (_, e) => e
  | none => none

/-- A run in which the collector does nothing, as an execution. -/
def KCExec.ofRun (U : UserKeys P) (cl : Clones clones) (ls : List (CLabel (Arg U) P))
    (h : (List.range ls.length).all (fun i => (ls.getD i .idle).enabledb (kcst U cl ls i) && (ls.getD i .idle).bwfb U &&
      (ocstep (cl.asks U) U.hashReq (kcst U cl ls i) (ls.getD i .idle)).isSome && (match ls.getD i .idle with | .free _ => false | _ => true)) = true) :
    KCExec U clones where
  len := ls.length
  st := kcst U cl ls
  lab := fun i => ls.getD i .idle
  cl := fun _ => cl
  ev := kcev U cl ls
  init := rfl
  step := by
    intro i hi
    have h := List.all_eq_true.mp h i (List.mem_range.mpr hi)
    simp only [Bool.and_eq_true] at h
    cases he : ocstep (cl.asks U) U.hashReq (kcst U cl ls i) (ls.getD i .idle) with
    | none => rw [he] at h; exact absurd h.1.2 (by simp)
    | some x => simp only [kcst, kcev, he]
  enabled := by
    intro i hi
    have h := List.all_eq_true.mp h i (List.mem_range.mpr hi)
    simp only [Bool.and_eq_true] at h
    haveI : DecidableEq (Arg U) := fun _ _ => Classical.propDecidable _
    exact enabled_of_check h.1.1.1
  wf := by
    intro i hi
    have h := List.all_eq_true.mp h i (List.mem_range.mpr hi)
    simp only [Bool.and_eq_true] at h
    have h := h.1.1.2
    generalize ls.getD i .idle = l at h
    cases l with
    | call t r =>
      cases r with
      | op o => cases o <;> first | trivial | exact h
      | _ => trivial
    | _ => trivial
  gc := by
    intro i a hi e
    have h := List.all_eq_true.mp h i (List.mem_range.mpr hi)
    simp only [Bool.and_eq_true] at h
    rw [e] at h
    exact absurd h.2 (by simp)

/-- Sessions 0 and 1 insert elements with key 1 at once; session 1 is late, and inserts a clone of its element in another attempt; session 0 sees the root as it was before that, session 1 does
not. -/
def exGensWeak : KCExec exGen exNext := .ofRun exGen exClone
  [.pin 0, .pin 1, .call 0 (.op (.insert (1, 0))), .call 1 (.op (.insert (1, 5))), .tick 0 false 4, .tick 1 false 5, .tick 0 false 6, .tick 1 false 7,
   .tick 1 false 8, .tick 1 false 9, .call 0 (.op (.get (.own (1 : Nat)))), .tick 0 false 8, .call 1 (.op (.get (.own (1 : Nat)))), .tick 1 false 13] (by decide)

example : exGensWeak.ev 9 = some (.res 3 (.op (.opt (some (1, 0))))) ∧ exGensWeak.ev 11 = some (.res 10 (.op (.opt (some (1, 0))))) ∧
    exGensWeak.ev 13 = some (.res 12 (.op (.opt (some (1, 6))))) := ⟨rfl, rfl, rfl⟩

example : ∃ L l, IsCloneCausalLinearization exNext exGen.same exGen.keyArg exGen.Alike (exGensWeak.history 14) exGensWeak.Hb L l := by
  obtain ⟨L, l, h, -⟩ := (C70_causal exGen_lawful exNext_key exGensWeak (n := 14) (by decide)).2.1
  exact ⟨L, l, h⟩

/-- The same, but both sessions iterate at the end: session 0 gets the element session 0 inserted, session 1 the clone. -/
def exPassesWeak : KCExec exGen exNext := .ofRun exGen exClone
  ([.pin 0, .pin 1, .call 0 (.op (.insert (1, 0))), .call 1 (.op (.insert (1, 5))), .tick 0 false 4, .tick 1 false 5, .tick 0 false 6, .tick 1 false 7,
   .tick 1 false 8, .tick 1 false 9, .call 0 .iter, .call 1 .iter, .tick 0 false 8, .tick 1 false 13] ++
   (List.range 6).map fun i => .tick (i % 2) false (i + 14)) (by decide)

example : exPassesWeak.ev 18 = some (.res 10 (.list [(1, 0)])) ∧ exPassesWeak.ev 19 = some (.res 11 (.list [(1, 6)])) := ⟨rfl, rfl⟩

/-- The list may at two places have been so that lookups give what the two passes gave, up to cloning. -/
example : ∃ L l, IsCloneCausalLinearization exNext exGen.same exGen.keyArg exGen.Alike (exPassesWeak.history 20) exPassesWeak.Hb L l ∧
    ∀ a, ∃ m o, ListGlimpse exGen.same exGen.keyArg exPassesWeak.Hb L 11 19 (exGen.Alike a) m ∧ [(1, 6)].filter (fun p => exGen.same p a) = o.toList ∧
      (Ret.opt (m.find? (fun p => exGen.same p a))).Descends exNext (.opt o) := by
  obtain ⟨L, l, h, -, h'⟩ := (C70_causal exGen_lawful exNext_key exPassesWeak (n := 20) (by decide)).2.1
  exact ⟨L, l, h, h' 11 19 [(1, 6)] (by decide) rfl⟩

/-- Session 1 waits for session 0 to be done. -/
def exGensSync : KCExec exGen exNext := .ofRun exGen exClone
  [.pin 0, .pin 1, .call 0 (.op (.insert (1, 0))), .tick 0 false 3, .tick 0 false 4, .sync 1 0 5, .call 1 (.op (.insert (1, 5))), .tick 1 false 7, .tick 1 false 8]
  (by decide)

/-- It meets the hypothesis of the theorem on synchronised programs. -/
example : ∃ L l, IsCloneLinearization exNext exGen.same exGen.keyArg (exGensSync.history 9) L l := by
  refine C70_synchronised exGen_lawful exNext_key exGensSync (n := 9) (by decide) ?_
  intro x y o o' hx hy _ hb
  have hh : exGensSync.history 9 = [.inv 2 (.insert (1, 0)), .res 2 (.opt none), .inv 6 (.insert (1, 5)), .res 6 (.opt (some (1, 0)))] := rfl
  rw [hh] at hx hy hb
  have hxy : x = 2 ∧ y = 6 := by
    obtain ⟨r, o, hb⟩ := hb
    simp only [List.mem_cons, List.not_mem_nil, or_false, HEv.inv.injEq, reduceCtorEq, false_or] at hx hy
    rcases hx with ⟨rfl, -⟩ | ⟨rfl, -⟩ <;> rcases hy with ⟨rfl, -⟩ | ⟨rfl, -⟩
    · have hb := (List.sublist_cons_iff.mp hb)
      rcases hb with hb | ⟨_, hb, -⟩
      · have := hb.subset (List.mem_cons_of_mem _ (List.mem_cons_self ..))
        simp at this
      · cases hb
    · exact ⟨rfl, rfl⟩
    · have := hb.subset (List.mem_cons_self ..)
      rcases List.sublist_cons_iff.mp hb with hb | ⟨_, hb, -⟩
      · have := hb.subset (List.mem_cons_of_mem _ (List.mem_cons_self ..))
        simp at this
      · cases hb
    · rcases List.sublist_cons_iff.mp hb with hb | ⟨_, hb, -⟩
      · rcases List.sublist_cons_iff.mp hb with hb | ⟨_, hb, -⟩
        · rcases List.sublist_cons_iff.mp hb with hb | ⟨_, hb, -⟩
          · have := hb.subset (List.mem_cons_of_mem _ (List.mem_cons_self ..))
            simp at this
          · cases hb
        · cases hb
      · cases hb
  obtain ⟨rfl, rfl⟩ := hxy
  exact ⟨0, 1, 4, .op (.opt none), .op (.insert (1, 5)), false, 4, by decide, rfl, rfl, by decide, rfl,
    .trans (.sync (t := 1) (t' := 0) (τ := 5) (j := 5) (by decide) rfl) (.po 1 (by decide))⟩

end Contrie
