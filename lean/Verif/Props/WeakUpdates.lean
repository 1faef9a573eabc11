import Verif.Props.Coherent
import Verif.Props.Linear
/-
C62: what holds on weak memory although the program does not synchronise at all.
-/
set_option linter.unusedSectionVars false
namespace Contrie
open scoped List
variable {K P : Type} [DecidableEq K] {cfg : Config K P} (E : CExec cfg)

/-- The call an event belongs to. -/
def HEv.id : HEv K P → Nat
  | .inv id _ => id
  | .res id _ => id

open Classical in
/-- The part of a history that remains if the calls that returned without having changed anything are left out. -/
noncomputable def updatesOnly (h : List (HEv K P)) : List (HEv K P) :=
  h.filter (fun e => decide (¬ ∃ o r, HEv.inv e.id o ∈ h ∧ HEv.res e.id r ∈ h ∧ ¬ (⟨e.id, o, r⟩ : SOp K P).Updates))

theorem mem_updatesOnly {h : List (HEv K P)} {e : HEv K P} : e ∈ updatesOnly h ↔
    e ∈ h ∧ ∀ o r, HEv.inv e.id o ∈ h → HEv.res e.id r ∈ h → (⟨e.id, o, r⟩ : SOp K P).Updates := by
  classical
  simp only [updatesOnly, List.mem_filter, decide_eq_true_eq]
  constructor
  · rintro ⟨h1, h2⟩
    exact ⟨h1, fun o r h3 h4 => Classical.byContradiction (fun h5 => h2 ⟨o, r, h3, h4, h5⟩)⟩
  · rintro ⟨h1, h2⟩
    exact ⟨h1, fun ⟨o, r, h3, h4, h5⟩ => h5 (h2 o r h3 h4)⟩

/-- What does not update changes nothing. -/
theorem apply_no_update {key : P → K} {m m' : AMap K P} {x : SOp K P} (h : m.apply key x.op = (m', x.ret))
    (hu : ¬ x.Updates) : m' = m := by
  obtain ⟨id, o, r⟩ := x
  cases o with
  | get k => simp only [AMap.apply, Prod.mk.injEq] at h; exact h.1.symm
  | insert p => exact absurd trivial hu
  | getOrInsert k f =>
    simp only [AMap.apply] at h
    split at h
    · simp only [Prod.mk.injEq] at h; exact h.1.symm
    · simp only [Prod.mk.injEq] at h
      obtain ⟨-, h⟩ := h
      subst h
      exact absurd trivial hu
  | remove k =>
    simp only [AMap.apply, Prod.mk.injEq] at h
    obtain ⟨h1, h2⟩ := h
    subst h2
    cases hk : m k with
    | some p => rw [hk] at hu; exact absurd trivial hu
    | none =>
      rw [← h1]
      funext k'
      simp only [AMap.set]
      split
      · next e => rw [e, hk]
      · rfl

open Classical in
theorem Legal.updates {key : P → K} {m m' : AMap K P} {L : List (SOp K P)} (h : Legal key m L m') :
    Legal key m (L.filter (fun x => decide x.Updates)) m' := by
  induction h with
  | nil m => exact .nil m
  | @cons m m1 m2 x L h _ ih =>
    by_cases hu : x.Updates
    · rw [List.filter_cons_of_pos (by simpa using hu)]
      exact .cons h ih
    · rw [List.filter_cons_of_neg (by simpa using hu)]
      rw [← apply_no_update h hu]
      exact ih

theorem once_unique {L : List (SOp K P)} (h : (L.map SOp.id).Nodup) {x y : SOp K P} (hx : x ∈ L) (hy : y ∈ L) (e : x.id = y.id) : x = y := by
  induction L with
  | nil => cases hx
  | cons z L ih =>
    rw [List.map_cons, List.nodup_cons] at h
    rcases List.mem_cons.mp hx with e1 | hx' <;> rcases List.mem_cons.mp hy with e2 | hy'
    · rw [e1, e2]
    · subst e1; exact absurd (e ▸ List.mem_map_of_mem (f := SOp.id) hy') h.1
    · subst e2; exact absurd (e ▸ List.mem_map_of_mem (f := SOp.id) hx') h.1
    · exact ih h.2 hx' hy'

theorem CExec.history_wf {n : Nat} (hn : n ≤ E.len) : HistWF cfg.key (E.history n) := by
  intro id o h
  obtain ⟨h1, h2⟩ := (E.mem_history_inv hn).mp h
  obtain ⟨-, t, h3⟩ := E.ev_inv (by omega) h2
  have := E.wf id (by omega)
  rw [h3] at this
  exact this

/-- **C62.** On weak memory, and without any synchronisation by the program: the calls that change the map (insertions, removals that
remove something, `get_or_insert`s that insert) are linearizable, in the full sense: leave the calls that returned without a
change out of the history, and what remains is the history of an atomic map, in real-time order, leading to the present content. -/
theorem C62_updates_linearizable {n : Nat} (hn : n ≤ E.len) :
    ∃ L, IsLinearization cfg.key (updatesOnly (E.history n)) L (E.content n) := by
  classical
  obtain ⟨wf, L, h, -, -⟩ := C39_causal E hn
  refine ⟨L.filter (fun x => decide x.Updates), ?_, ?_, ?_, ?_, h.legal.updates⟩
  · intro x hx
    rw [List.mem_filter, decide_eq_true_eq] at hx
    refine mem_updatesOnly.mpr ⟨h.invoked x hx.1, ?_⟩
    intro o r h1 h2
    have h3 := h.complete _ _ _ h1 h2
    have := once_unique h.once h3 hx.1 rfl
    rw [this]; exact hx.2
  · exact h.once.sublist (List.filter_sublist.map _)
  · intro id o r h1 h2
    obtain ⟨h1, h3⟩ := mem_updatesOnly.mp h1
    obtain ⟨h2, -⟩ := mem_updatesOnly.mp h2
    rw [List.mem_filter, decide_eq_true_eq]
    exact ⟨h.complete _ _ _ h1 h2, h3 o r h1 h2⟩
  · rw [List.pairwise_filter]
    refine h.realtime.imp ?_
    intro x y hxy hx hy hb
    obtain ⟨r, o, hs⟩ := hb
    exact hxy (by simpa using hx) ⟨r, o, hs.trans List.filter_sublist⟩

/-- **C62**: what C03 says holds on weak memory, too: each element is handed back at most once, and only if it was offered. -/
theorem C62_hand_back_once {n : Nat} (hn : n ≤ E.len)
    (distinct : ∀ p id id' o o', HEv.inv id o ∈ E.history n → HEv.inv id' o' ∈ E.history n →
      o.offers p → o'.offers p → id = id') :
    (∀ p id id', HandedBack (E.history n) id p → HandedBack (E.history n) id' p → id = id') ∧
    (∀ p id, HandedBack (E.history n) id p → ∃ id' o, HEv.inv id' o ∈ E.history n ∧ o.offers p) := by
  obtain ⟨-, L, h, -, -⟩ := C39_causal E hn
  exact C03_of_legal h.invoked h.once h.complete h.legal (E.history_wf hn) distinct

/-- **C62**, conservation: no element is lost or duplicated on weak memory. -/
theorem C62_conservation {n : Nat} (hn : n ≤ E.len) :
    ∃ L, IsCausalLinearization cfg.key (E.history n) E.Hb L (E.content n) ∧
      ∀ p, insertions p L = handBacks p L + (E.content n).has cfg.key p := by
  obtain ⟨-, L, h, -, -⟩ := C39_causal E hn
  refine ⟨L, h, ?_⟩
  intro p
  have := h.legal.conserve (empty_keyed cfg.key) (fun x hx => E.history_wf hn _ _ (h.invoked x hx)) p
  have h0 : (AMap.empty : AMap K P).has cfg.key p = 0 := by simp [AMap.has, AMap.empty]
  rw [h0] at this
  exact this

/-- **C62**: what C04 says holds on weak memory, too: all `get_or_insert`s of a key agree on one winner and on its element, although the sessions
do not synchronise; `get`s find this element, or (perhaps because they read stale memory) nothing. -/
theorem C62_get_or_insert_agree {n : Nat} (hn : n ≤ E.len) (k : K)
    (honly : ∀ id o, HEv.inv id o ∈ E.history n → o.key cfg.key = k → (o = .get k ∨ ∃ f, o = .getOrInsert k f))
    (hsome : ∃ id g r, HEv.inv id (.getOrInsert k g) ∈ E.history n ∧ HEv.res id r ∈ E.history n) :
    ∃ winner f, HEv.inv winner (.getOrInsert k f) ∈ E.history n ∧
      (∀ id g r, HEv.inv id (.getOrInsert k g) ∈ E.history n → HEv.res id r ∈ E.history n →
      (id = winner ∧ r = .eon (.new (f k))) ∨ (id ≠ winner ∧ r = .eon (.existing (f k)))) ∧
      ∀ id r, HEv.inv id (.get k) ∈ E.history n → HEv.res id r ∈ E.history n → r = .opt none ∨ r = .opt (some (f k)) := by
  obtain ⟨-, L, h, -, -⟩ := C39_causal E hn
  exact C04_of_legal h.invoked h.once h.complete h.legal k honly hsome

/-! ### Examples -/

/-- Session 0 gets or inserts key 3. Session 1 does it later, but sees the root as it was at the beginning; its compare-and-swap fails, and then it sees what
session 0 did. Session 2 looks 3 up and reads stale memory. Session 1 looks 3 up. -/
def exWeakGoiRun : List (CLabel Nat (Nat × Nat)) :=
  [.pin 0, .pin 1, .pin 2, .call 0 (.op (.getOrInsert 3 (fun k => (k, 10)))), .tick 0 false 4, .tick 0 false 5,
   .call 1 (.op (.getOrInsert 3 (fun k => (k, 20)))), .tick 1 false 0, .tick 1 false 8, .tick 1 false 9,
   .call 2 (.op (.get 3)), .tick 2 false 0, .call 1 (.op (.get 3)), .tick 1 false 13]

def exWeakGoi : CExec exCfg :=
  .ofRun exCfg exWeakGoiRun (by decide) (fun i a hi e => absurd e (no_free (cfg := exCfg) (by decide) hi))

theorem exWeakGoi_history : exWeakGoi.history 14 =
    [.inv 3 (.getOrInsert 3 (fun k => (k, 10))), .res 3 (.eon (.new (3, 10))), .inv 6 (.getOrInsert 3 (fun k => (k, 20))),
     .res 6 (.eon (.existing (3, 10))), .inv 10 (.get 3), .res 10 (.opt none), .inv 12 (.get 3), .res 12 (.opt (some (3, 10)))] := by rfl

/-- Non-vacuity of `C62_get_or_insert_agree`: its hypotheses hold of this run, in which a later `get` returned nothing. -/
example : ∃ winner f, HEv.inv winner (.getOrInsert 3 f) ∈ exWeakGoi.history 14 ∧
      (∀ id g r, HEv.inv id (.getOrInsert 3 g) ∈ exWeakGoi.history 14 → HEv.res id r ∈ exWeakGoi.history 14 →
      (id = winner ∧ r = .eon (.new (f 3))) ∨ (id ≠ winner ∧ r = .eon (.existing (f 3)))) ∧
      ∀ id r, HEv.inv id (.get 3) ∈ exWeakGoi.history 14 → HEv.res id r ∈ exWeakGoi.history 14 → r = .opt none ∨ r = .opt (some (f 3)) := by
  refine C62_get_or_insert_agree exWeakGoi (n := 14) (by decide) 3 ?_ ?_
  · intro id o h _
    rw [exWeakGoi_history] at h
    simp only [List.mem_cons, HEv.inv.injEq, reduceCtorEq, List.not_mem_nil, or_false, false_or] at h
    rcases h with ⟨-, rfl⟩ | ⟨-, rfl⟩ | ⟨-, rfl⟩ | ⟨-, rfl⟩
    · exact Or.inr ⟨_, rfl⟩
    · exact Or.inr ⟨_, rfl⟩
    · exact Or.inl rfl
    · exact Or.inl rfl
  · rw [exWeakGoi_history]
    exact ⟨3, (fun k => (k, 10)), .eon (.new (3, 10)), by simp, by simp⟩

/-- Session 0 inserts (7, 1); session 1 tries to remove 7, but reads stale memory and finds nothing to remove; session 2 removes it. -/
def exWeakRemRun : List (CLabel Nat (Nat × Nat)) :=
  [.pin 0, .pin 1, .pin 2, .call 0 (.op (.insert (7, 1))), .tick 0 false 4, .tick 0 false 5,
   .call 1 (.op (.remove 7)), .tick 1 false 0, .call 2 (.op (.remove 7)), .tick 2 false 9, .tick 2 false 10]

def exWeakRem : CExec exCfg :=
  .ofRun exCfg exWeakRemRun (by decide) (fun i a hi e => absurd e (no_free (cfg := exCfg) (by decide) hi))

theorem exWeakRem_history : exWeakRem.history 11 =
    [.inv 3 (.insert (7, 1)), .res 3 (.opt none), .inv 6 (.remove 7), .res 6 (.opt none), .inv 8 (.remove 7), .res 8 (.opt (some (7, 1)))] := by rfl

/-- The part of this history that changes the map. The whole history is not linearizable: the removal 6, which found nothing, was invoked after
the insertion had returned, and returned before the removal 8 was invoked. -/
example : updatesOnly (exWeakRem.history 11) =
    [.inv 3 (.insert (7, 1)), .res 3 (.opt none), .inv 8 (.remove 7), .res 8 (.opt (some (7, 1)))] := by
  have key : ∀ e ∈ exWeakRem.history 11, (¬ ∃ o r, HEv.inv e.id o ∈ exWeakRem.history 11 ∧ HEv.res e.id r ∈ exWeakRem.history 11 ∧
      ¬ (⟨e.id, o, r⟩ : SOp Nat (Nat × Nat)).Updates) ↔ e.id ≠ 6 := by
    intro e he
    rw [exWeakRem_history] at he ⊢
    simp only [List.mem_cons, List.not_mem_nil, or_false] at he
    rcases he with rfl | rfl | rfl | rfl | rfl | rfl <;> simp [HEv.id, SOp.Updates]
  rw [updatesOnly, List.filter_congr (q := fun e => decide (e.id ≠ 6)) (fun e he => by simp only [key e he])]
  rfl

/-- Non-vacuity of `C62_hand_back_once`: each element is offered once, and one is handed back. -/
example : (∀ p id id' o o', HEv.inv id o ∈ exWeakRem.history 11 → HEv.inv id' o' ∈ exWeakRem.history 11 →
      o.offers p → o'.offers p → id = id') ∧ HandedBack (exWeakRem.history 11) 8 (7, 1) := by
  rw [exWeakRem_history]
  refine ⟨?_, by simp, Or.inr ⟨7, by simp⟩⟩
  intro p id id' o o' h h' ho ho'
  simp only [List.mem_cons, HEv.inv.injEq, reduceCtorEq, List.not_mem_nil, or_false, false_or] at h h'
  rcases h with ⟨rfl, rfl⟩ | ⟨rfl, rfl⟩ | ⟨rfl, rfl⟩ <;> rcases h' with ⟨rfl, rfl⟩ | ⟨rfl, rfl⟩ | ⟨rfl, rfl⟩ <;>
    simp [Op.offers] at ho ho' ⊢

end Contrie
