import Verif.Proof.BorrowWeak
import Verif.Props.Borrow
/-
C69 under weak memory.
-/
namespace Contrie
open scoped List
variable {P : Type} {U : UserKeys P}

/-- **C69** under weak memory: what C39 says, with the user's own comparisons. `is_empty` returns `true` only if the list was empty somewhere in the order of calls; and an iteration gives for every
argument what a lookup might have returned. -/
theorem C69_causal (hU : U.Lawful) (E : BCExec U) {n : Nat} (hn : n ≤ E.len) : WellFormed (E.history n) ∧
    (∃ L l, IsListCausalLinearization U.same U.keyArg U.Alike (E.history n) E.Hb L l ∧
      (∀ id j, j < n → E.ev j = some (.res id (.bool true)) → ListGlimpse U.same U.keyArg E.Hb L id j (fun _ => True) []) ∧
      (∀ id j out, j < n → E.ev j = some (.res id (.list out)) → ∀ a, ∃ m,
        ListGlimpse U.same U.keyArg E.Hb L id j (U.Alike a) m ∧ out.filter (fun p => U.same p a) = (m.find? (fun p => U.same p a)).toList)) ∧
    ∀ t, ((E.st n).thr t).failed = none := by
  obtain ⟨h1, L, h2, h3, h4⟩ := C39_causal (E.cls hU) (n := n) hn
  have hb : (E.cls hU).Hb = E.Hb := by funext x y; exact propext (E.cls_hb hU x y)
  rw [E.cls_history hU, hb] at h2
  rw [E.cls_history hU] at h1
  rw [hb] at h3 h4
  obtain ⟨L', l, rfl, g⟩ := causal_list hU h1 (fun id o h t => E.history_wf hn h t) h2
  have hwf : ∀ x ∈ L', ∀ t, U.WF (.call t (.op x.op)) := fun x hx t => E.history_wf hn (g.invoked x hx) t
  refine ⟨h1.ofMapKey Arg.cls, ⟨L', l, g, ?_, ?_⟩, fun t => C40_no_failure (E.cls hU) (n := n) hn t⟩
  · intro id j hj hr
    have hr' : (E.cls hU).ev j = some (.res id (.bool true)) := by
      show (E.ev j).map _ = _
      rw [hr]; rfl
    obtain ⟨m, h5, h6⟩ := glimpse_list hU hwf (args := fun _ => True) (fun _ _ => trivial) (h3 id j hj hr')
    rw [view_empty h6] at h5
    exact h5
  · intro id j out hj hr a
    have hr' : (E.cls hU).ev j = some (.res id (.list out)) := by
      show (E.ev j).map _ = _
      rw [hr]; rfl
    obtain ⟨m, h5, h6⟩ := h4 id j out hj hr' a.cls
    obtain ⟨l, h7, rfl⟩ := glimpse_list hU hwf (args := U.Alike a) (fun b h => (Alike.cls hU h).symm) h5
    refine ⟨l, h7, ?_⟩
    rw [find_same hU, ← h6]
    simp only [same_decide hU]

/-- **C69** under weak memory: if the user's program synchronises the calls about one key (arguments equal to the same keys), in whatever form they name it, the history is linearizable. -/
theorem C69_synchronised (hU : U.Lawful) (E : BCExec U) {n : Nat} (hn : n ≤ E.len)
    (hs : ∀ x y o o', HEv.inv x o ∈ E.history n → HEv.inv y o' ∈ E.history n → (∀ k, (o.key U.keyArg).den k = (o'.key U.keyArg).den k) →
      Before (E.history n) x y → E.Hb x y) : ∃ L l, IsListLinearization U.same U.keyArg (E.history n) L l := by
  have hw : WellFormed ((E.cls hU).history n) := (C39_causal (E.cls hU) (n := n) hn).1
  have hh := E.cls_history hU n
  obtain ⟨L, hL⟩ := C41_synchronised_linearizable (E.cls hU) (n := n) hn (by
    intro x y o o' hx hy hk hb
    rw [hh] at hx hy
    obtain ⟨o1, hx1, rfl⟩ := mem_mapKey_inv Arg.cls hx
    obtain ⟨o2, hy1, rfl⟩ := mem_mapKey_inv Arg.cls hy
    rw [E.cls_hb]
    refine hs x y o1 o2 hx1 hy1 ?_ ?_
    · rw [Op.mapKey_key, Op.mapKey_key] at hk
      intro k
      have : (o1.key U.keyArg).den = (o2.key U.keyArg).den := congrArg Prod.fst hk
      rw [this]
    · rw [hh] at hb
      exact hb.ofMapKey Arg.cls)
  rw [hh] at hw hL
  exact linearization_list hU hw (fun id o h t => E.history_wf hn h t) ⟨L, _, hL⟩

/-! ### Example -/

/-- The states of a concrete run. -/
def bcst (U : UserKeys P) (ls : List (CLabel (Arg U) P)) : Nat → CState (Arg U) P
  | 0 => CState.init
  | i + 1 => match bcstep U (bcst U ls i) (ls.getD i .idle) with
    | some (s, _) => s
    | none => bcst U ls i

/-- What is observable of step `i` of a concrete run. -/
def bcev (U : UserKeys P) (ls : List (CLabel (Arg U) P)) (i : Nat) : Option (Event (Arg U) P) :=
  match bcstep U (bcst U ls i) (ls.getD i .idle) with
  | some (_, e) => e
  | none => none

def CLabel.bwfb (U : UserKeys P) : CLabel (Arg U) P → Bool
  | .call _ (.op (.getOrInsert a f)) => U.same (f a) a
  | _ => true

/-- A run in which the collector does nothing, as an execution. -/
def BCExec.ofRun (U : UserKeys P) (ls : List (CLabel (Arg U) P))
    (h : (List.range ls.length).all (fun i => (ls.getD i .idle).enabledb (bcst U ls i) && (ls.getD i .idle).bwfb U &&
      (bcstep U (bcst U ls i) (ls.getD i .idle)).isSome && (match ls.getD i .idle with | .free _ => false | _ => true)) = true) : BCExec U where
  len := ls.length
  st := bcst U ls
  lab := fun i => ls.getD i .idle
  ev := bcev U ls
  init := rfl
  step := by
    intro i hi
    have h := List.all_eq_true.mp h i (List.mem_range.mpr hi)
    simp only [Bool.and_eq_true] at h
    cases he : bcstep U (bcst U ls i) (ls.getD i .idle) with
    | none => rw [he] at h; exact absurd h.1.2 (by simp)
    | some x => simp only [bcst, bcev, he]
  enabled := by
    intro i hi
    have h := List.all_eq_true.mp h i (List.mem_range.mpr hi)
    simp only [Bool.and_eq_true] at h
    haveI : DecidableEq (Arg U) := fun _ _ => Classical.propDecidable _
    exact enabled_of_check h.1.1.1
  wf := by
    intro i hi
    have h := List.all_eq_true.mp h i (List.mem_range.mpr hi)
    simp only [Bool.and_eq_true] at h
    have h := h.1.1.2
    generalize ls.getD i .idle = l at h
    cases l with
    | call t r =>
      cases r with
      | op o => cases o <;> first | trivial | exact h
      | _ => trivial
    | _ => trivial
  gc := by
    intro i a hi e
    have h := List.all_eq_true.mp h i (List.mem_range.mpr hi)
    simp only [Bool.and_eq_true] at h
    rw [e] at h
    exact absurd h.2 (by simp)

/-- Session 0 inserts 7; session 1, synchronised, finds it as 107; session 2, which is not, does not. -/
def exFormsWeak : BCExec exUser := .ofRun exUser
  [.pin 0, .pin 1, .pin 2, .call 0 (.op (.insert ((7, false), 1))), .tick 0 false 4, .tick 0 false 5, .sync 1 0 6,
   .call 1 (.op (.get (.form false (107 : Nat)))), .tick 1 false 8, .call 2 (.op (.get (.form true (7 : Nat)))), .tick 2 false 0] (by decide)

example : exFormsWeak.ev 8 = some (.res 7 (.op (.opt (some ((7, false), 1))))) ∧ exFormsWeak.ev 10 = some (.res 9 (.op (.opt none))) := ⟨rfl, rfl⟩

example : ∃ L l, IsListCausalLinearization exUser.same exUser.keyArg exUser.Alike (exFormsWeak.history 11) exFormsWeak.Hb L l := by
  obtain ⟨L, l, h, -⟩ := (C69_causal exUser_lawful exFormsWeak (n := 11) (by decide)).2.1
  exact ⟨L, l, h⟩

/-- The first nine steps meet the hypothesis of the theorem on synchronised programs. -/
example : ∃ L l, IsListLinearization exUser.same exUser.keyArg (exFormsWeak.history 9) L l := by
  refine C69_synchronised exUser_lawful exFormsWeak (n := 9) (by decide) ?_
  intro x y o o' hx hy _ hb
  have hh : exFormsWeak.history 9 = [.inv 3 (.insert ((7, false), 1)), .res 3 (.opt none), .inv 7 (.get (.form false (107 : Nat))), .res 7 (.opt (some ((7, false), 1)))] := rfl
  rw [hh] at hx hy hb
  have hxy : x = 3 ∧ y = 7 := by
    obtain ⟨r, o, hb⟩ := hb
    simp only [List.mem_cons, List.not_mem_nil, or_false, HEv.inv.injEq, reduceCtorEq, false_or] at hx hy
    rcases hx with ⟨rfl, -⟩ | ⟨rfl, -⟩ <;> rcases hy with ⟨rfl, -⟩ | ⟨rfl, -⟩
    · have hb := (List.sublist_cons_iff.mp hb)
      rcases hb with hb | ⟨_, hb, -⟩
      · have := hb.subset (List.mem_cons_of_mem _ (List.mem_cons_self ..))
        simp at this
      · cases hb
    · exact ⟨rfl, rfl⟩
    · have := hb.subset (List.mem_cons_self ..)
      rcases List.sublist_cons_iff.mp hb with hb | ⟨_, hb, -⟩
      · have := hb.subset (List.mem_cons_of_mem _ (List.mem_cons_self ..))
        simp at this
      · cases hb
    · rcases List.sublist_cons_iff.mp hb with hb | ⟨_, hb, -⟩
      · rcases List.sublist_cons_iff.mp hb with hb | ⟨_, hb, -⟩
        · rcases List.sublist_cons_iff.mp hb with hb | ⟨_, hb, -⟩
          · have := hb.subset (List.mem_cons_of_mem _ (List.mem_cons_self ..))
            simp at this
          · cases hb
        · cases hb
      · cases hb
  obtain ⟨rfl, rfl⟩ := hxy
  exact ⟨0, 1, 5, .op (.opt none), .op (.get (.form false (107 : Nat))), false, 5, by decide, rfl, rfl, by decide, rfl,
    .trans (.sync (t := 1) (t' := 0) (τ := 6) (j := 6) (by decide) rfl) (.po 1 (by decide))⟩

end Contrie
