import Verif.Model.Traits
import Verif.Props.Ledger
/-
C64: elements that must not change threads. In Rust a type says by the marker traits `Send` and `Sync` whether its values may be moved to, or used by, other threads;
safe code can rely on it.

The types of the crate derive the traits from their elements (first part), so that collections of elements that are neither `Send` nor `Sync` (e.g. `Rc`) can be used by one
thread only. Calls destruct elements in the thread they came from only (second part). But the elements of nodes that were replaced or removed are destructed by the collector,
i.e. in any thread that happens to pin (`crossbeam_epoch` requires of what it is given that it may be sent to another thread; nothing in the crate ensures it): an element that
is not `Send` is destructed in a wrong thread, in a program that has no `unsafe` code and uses the collection in one thread only. The claim is refuted.
-/
set_option linter.unusedSectionVars false
namespace Contrie

/-! ### Which collections may be used by several threads -/

variable {env : Nat → Tr → Prop} {tr : Tr}

/-- A type has a trait if (and only if) the rules say so. -/
theorem has_iff {t : Ty} : Has env tr t ↔ (∃ i, t = .param i ∧ env i tr) ∨ ∃ l, t.needs tr = some l ∧ ∀ x ∈ l, Has env x.1 x.2 := by
  constructor
  · rintro ⟨R, h, hR⟩
    rcases hR tr t h with h1 | ⟨l, h1, h2⟩
    · exact Or.inl h1
    · exact Or.inr ⟨l, h1, fun x hx => ⟨R, h2 x hx, hR⟩⟩
  · intro h
    refine ⟨fun tr' t' => (tr' = tr ∧ t' = t) ∨ Has env tr' t', Or.inl ⟨rfl, rfl⟩, ?_⟩
    rintro tr' t' (⟨rfl, rfl⟩ | ⟨R, h1, hR⟩)
    · rcases h with h | ⟨l, h1, h2⟩
      · exact Or.inl h
      · exact Or.inr ⟨l, h1, fun x hx => Or.inr (h2 x hx)⟩
    · rcases hR tr' t' h1 with h2 | ⟨l, h2, h3⟩
      · exact Or.inl h2
      · exact Or.inr ⟨l, h2, fun x hx => Or.inr ⟨R, h3 x hx, hR⟩⟩

/-- The rule of a type that is not a parameter. -/
theorem has_of_needs {t : Ty} {l : List (Tr × Ty)} (h : t.needs tr = some l) : Has env tr t ↔ ∀ x ∈ l, Has env x.1 x.2 := by
  rw [has_iff]
  constructor
  · rintro (⟨i, rfl, -⟩ | ⟨l', h1, h2⟩)
    · cases h
    · rw [h] at h1; cases h1; exact h2
  · exact fun h2 => Or.inr ⟨l, h, h2⟩

theorem has_never {t : Ty} (h : t.needs tr = none) (hp : ∀ i, t ≠ .param i) : ¬ Has env tr t := by
  rw [has_iff]
  rintro (⟨i, e, -⟩ | ⟨l, h1, -⟩)
  · exact hp i e
  · rw [h] at h1; cases h1

@[simp] theorem has_param (i : Nat) : Has env tr (.param i) ↔ env i tr := by
  rw [has_iff]
  constructor
  · rintro (⟨j, e, h⟩ | ⟨l, h, -⟩)
    · cases e; exact h
    · cases h
  · exact fun h => Or.inl ⟨i, rfl, h⟩

/-- Nodes of the trie refer to nodes only, all accesses are atomic. -/
@[simp] theorem has_inner : Has env tr .inner := by
  refine ⟨fun _ t => t = .inner ∨ t = .array (.atomic .inner) ∨ t = .atomic .inner, Or.inl rfl, ?_⟩
  rintro tr t (rfl | rfl | rfl)
  · exact Or.inr ⟨_, rfl, by simp⟩
  · exact Or.inr ⟨_, rfl, by simp⟩
  · exact Or.inr ⟨_, rfl, by simp⟩

@[simp] theorem has_atomic (t : Ty) : Has env tr (.atomic t) ↔ Has env .send t ∧ Has env .sync t := by
  rw [has_of_needs (l := [(.send, t), (.sync, t)]) rfl]; simp

@[simp] theorem has_arc (t : Ty) : Has env tr (.arc t) ↔ Has env .send t ∧ Has env .sync t := by
  rw [has_of_needs (l := [(.send, t), (.sync, t)]) rfl]; simp

@[simp] theorem has_phantom (t : Ty) : Has env tr (.phantom t) ↔ Has env tr t := by
  rw [has_of_needs (l := [(tr, t)]) rfl]; simp

@[simp] theorem has_pair (a b : Ty) : Has env tr (.pair a b) ↔ Has env tr a ∧ Has env tr b := by
  rw [has_of_needs (l := [(tr, a), (tr, b)]) rfl]; simp

@[simp] theorem has_raw (p s : Ty) : Has env tr (.raw p s) ↔ Has env tr s ∧ Has env tr p := by
  rw [has_of_needs (l := [(tr, s), (tr, .atomic .inner), (tr, .phantom p)]) rfl]; simp

@[simp] theorem has_element (k v : Ty) : Has env tr (.element k v) ↔ Has env tr k ∧ Has env tr v := by
  rw [has_of_needs (l := [(tr, k), (tr, v)]) rfl]; simp

@[simp] theorem has_mapPayload (k v : Ty) :
    Has env tr (.mapPayload k v) ↔ (Has env .send k ∧ Has env .send v) ∧ Has env .sync k ∧ Has env .sync v := by
  rw [has_of_needs (l := [(tr, .arc (.element k v))]) rfl]; simp

@[simp] theorem has_cloneMapPayload (k v : Ty) : Has env tr (.cloneMapPayload k v) ↔ Has env tr k ∧ Has env tr v := by
  rw [has_of_needs (l := [(tr, .pair k v)]) rfl]; simp

/-- **C64.** `ConMap<K, V, S>` may be sent to (shared with) another thread if and only if keys and values may be both sent and shared, and the hasher builder may be sent
(shared). -/
theorem C64_con_map (k v s : Ty) : Has env tr (.conMap k v s) ↔
    Has env .send k ∧ Has env .sync k ∧ Has env .send v ∧ Has env .sync v ∧ Has env tr s := by
  rw [has_of_needs (l := [(tr, .raw (.mapPayload k v) s)]) rfl]
  simp only [List.mem_singleton, forall_eq, has_raw, has_mapPayload]
  constructor
  · rintro ⟨h1, ⟨h2, h3⟩, h4, h5⟩; exact ⟨h2, h4, h3, h5, h1⟩
  · rintro ⟨h2, h4, h3, h5, h1⟩; exact ⟨h1, ⟨h2, h3⟩, h4, h5⟩

/-- **C64.** `CloneConMap<K, V, S>` may be sent (shared) if and only if keys, values and the hasher builder may be. -/
theorem C64_clone_con_map (k v s : Ty) : Has env tr (.cloneConMap k v s) ↔ Has env tr k ∧ Has env tr v ∧ Has env tr s := by
  rw [has_of_needs (l := [(tr, .raw (.cloneMapPayload k v) s)]) rfl]
  simp only [List.mem_singleton, forall_eq, has_raw, has_cloneMapPayload]
  constructor
  · rintro ⟨h1, h2, h3⟩; exact ⟨h2, h3, h1⟩
  · rintro ⟨h2, h3, h1⟩; exact ⟨h1, h2, h3⟩

/-- **C64.** `ConSet<T, S>` may be sent (shared) if and only if elements and the hasher builder may be. -/
theorem C64_con_set (t s : Ty) : Has env tr (.conSet t s) ↔ Has env tr t ∧ Has env tr s := by
  rw [has_of_needs (l := [(tr, .raw t s)]) rfl]
  simp only [List.mem_singleton, forall_eq, has_raw]
  exact and_comm

/-- **C64.** Iterators never leave their thread (they contain a guard), whatever the elements are. -/
theorem C64_iterators (p k v s : Ty) : ¬ Has env tr (.rawIter p s) ∧ ¬ Has env tr (.mapIter k v s) ∧ ¬ Has env tr (.cloneMapIter k v s) ∧
    ¬ Has env tr (.setIter p s) := by
  have h0 : ∀ p, ¬ Has env tr (.rawIter p s) := by
    intro p
    rw [has_of_needs (l := [(tr, .guard), (tr, .array .level), (tr, .phantom (.ref (.raw p s)))]) rfl]
    intro h
    exact has_never (env := env) (tr := tr) (t := .guard) rfl (fun i => by simp) (h (tr, .guard) (by simp))
  refine ⟨h0 p, ?_, ?_, ?_⟩
  · rw [has_of_needs (l := [(tr, .rawIter (.mapPayload k v) s)]) rfl]
    simpa using h0 _
  · rw [has_of_needs (l := [(tr, .rawIter (.cloneMapPayload k v) s)]) rfl]
    simpa using h0 _
  · rw [has_of_needs (l := [(tr, .rawIter p s)]) rfl]
    simpa using h0 _

/-- **C64.** `ExistingOrNew<T>` goes where `T` goes. -/
theorem C64_existing_or_new (t : Ty) : Has env tr (.existingOrNew t) ↔ Has env tr t := by
  rw [has_of_needs (l := [(tr, t), (tr, t)]) rfl]; simp

/-- The collections, and what their elements are (the type of the values they own). -/
def Ty.elementType : Ty → Option Ty
  | .raw p _ => some p
  | .conMap k v _ => some (.arc (.element k v))
  | .cloneConMap k v _ => some (.pair k v)
  | .conSet t _ => some t
  | _ => none

/-- **C64.** A collection whose elements may not be sent (shared) may not be sent (shared). -/
theorem C64_collections {c e : Ty} (he : c.elementType = some e) (h : Has env tr c) : Has env tr e := by
  cases c <;> simp only [Ty.elementType, Option.some.injEq, reduceCtorEq] at he
  · subst he; exact ((has_raw _ _).1 h).2
  · subst he
    obtain ⟨h1, h2, h3, h4, -⟩ := (C64_con_map _ _ _).1 h
    simp [h1, h2, h3, h4]
  · subst he
    obtain ⟨h1, h2, -⟩ := (C64_clone_con_map _ _ _).1 h
    simp [h1, h2]
  · subst he; exact ((C64_con_set _ _).1 h).1

/-! ### Where elements are destructed -/

variable {K P : Type} [DecidableEq K] (E : WExec K P)

/-- The thread a step is in. `thread t`: the thread that session `t` belongs to. `coll i`: the thread that the collector makes use of at instant `i`. (Nothing happens to elements in
the remaining steps.) -/
def WExec.place (E : WExec K P) (thread coll : Nat → Nat) (i : Nat) : Nat :=
  match (E.lab i).actor with
  | some t => thread t
  | none => coll i

/-- The calls are such that the compiler accepts the program: if two threads use the collection, it has been sent to or shared with one of them. -/
def WExec.Accepted (E : WExec K P) (env : Nat → Tr → Prop) (c : Ty) (thread : Nat → Nat) : Prop :=
  ∀ i j t u r r', i < E.len → j < E.len → E.lab i = .call t r → E.lab j = .call u r' → thread t ≠ thread u → Has env .send c ∨ Has env .sync c

/-- What happens to elements in step `i`. -/
def WExec.stepActs (E : WExec K P) (fix : Bool) (extra : Nat → List P) (i : Nat) : List (Act P) := wacts fix (E.st i) (E.ans i) (extra i) (E.lab i)

/-- The property in full: an element that is destructed in a thread other than the one it came into being in may be sent to other threads. -/
def WExec.AtHome (E : WExec K P) (fix : Bool) (extra : Nat → List P) (place : Nat → Nat) (sendable : Prop) : Prop :=
  ∀ p i j, i < E.len → j < E.len → p ∈ gained (E.stepActs fix extra i) → p ∈ dropped (E.stepActs fix extra j) → place i ≠ place j → sendable

/-- Unless the collector destroys it, a node keeps its elements. -/
theorem WExec.elems_step {k a : Nat} (hk : k < E.len) (hl : E.lab k ≠ .free a) {p : P} (h : p ∈ (E.st k).m.elems a) : p ∈ (E.st (k + 1)).m.elems a := by
  have hf : (E.st k).m.freed a = false := by
    cases hx : (E.st k).m.freed a with
    | false => rfl
    | true => simp [Mem.elems, hx] at h
  have hf' : (E.st (k + 1)).m.freed a = false := by
    obtain ⟨m', t, th, h1, -, h3, -⟩ := wstep_next (E.step k hk)
    have hm : (E.st (k + 1)).m.freed = m'.freed := by rw [h1]; rfl
    rw [hm]
    rcases h3 with h3 | ⟨b, hb, h3⟩
    · rw [h3]; exact hf
    · rw [h3, upd_other _ _ (by rintro rfl; exact hl hb)]; exact hf
  simp only [Mem.elems, hf, hf'] at h ⊢
  cases hm : (E.st k).m.mem a with
  | none => simp [hm] at h
  | some nd =>
    cases nd with
    | inner c q => simp [hm, Node.items] at h
    | data items =>
      have := (E.winv (n := k + 1) (by omega)).hist.data (Nat.le_succ k) (Nat.le_refl _) hm
      have h' : (E.st (k + 1)).m.mem a = some (.data items) := this
      simpa [h', hm] using h

theorem WExec.gained_mono (fix : Bool) (extra : Nat → List P) {i n : Nat} (hi : i ≤ n) :
    (gained (E.acts fix extra i)).Sublist (gained (E.acts fix extra n)) := by
  obtain ⟨d, rfl⟩ := Nat.exists_eq_add_of_le hi
  clear hi
  induction d with
  | zero => exact List.Sublist.refl _
  | succ d ih => rw [Nat.add_succ, E.acts_succ, gained_append]; exact ih.trans (List.sublist_append_left _ _)

theorem WExec.mem_gained {fix : Bool} {extra : Nat → List P} {n : Nat} {p : P} :
    p ∈ gained (E.acts fix extra n) ↔ ∃ i, i < n ∧ p ∈ gained (E.stepActs fix extra i) := by
  induction n with
  | zero => simp [WExec.acts, gained]
  | succ n ih =>
    rw [E.acts_succ, gained_append, List.mem_append, ih]
    constructor
    · rintro (⟨i, h1, h2⟩ | h)
      · exact ⟨i, by omega, h2⟩
      · exact ⟨n, by omega, h⟩
    · rintro ⟨i, h1, h2⟩
      rcases Nat.lt_or_eq_of_le (Nat.le_of_lt_succ h1) with h | rfl
      · exact Or.inl ⟨i, h, h2⟩
      · exact Or.inr h2

theorem WExec.mem_dropped_step {fix : Bool} {extra : Nat → List P} {i n : Nat} {p : P} (hi : i < n) (hp : p ∈ dropped (E.stepActs fix extra i)) :
    p ∈ dropped (E.acts fix extra n) := by
  induction n with
  | zero => omega
  | succ n ih =>
    rw [E.acts_succ, dropped_append, List.mem_append]
    rcases Nat.lt_or_eq_of_le (Nat.le_of_lt_succ hi) with h | rfl
    · exact Or.inl (ih h)
    · exact Or.inr hp

theorem Mem.mem_stock {m : Mem P} {p : P} : p ∈ m.stock → ∃ a, p ∈ m.elems a := by
  intro h
  obtain ⟨a, -, ha⟩ := Multiset.mem_sum.1 h
  exact ⟨a, Multiset.mem_coe.1 ha⟩

/-- What goes, or is owned by the acting session after the step: where it was. -/
theorem WExec.step_from (fix : Bool) (extra : Nat → List P) {i t : Nat} (hi : i < E.len) (ha : (E.lab i).actor = some t) {p : P}
    (hp : p ∈ dropped (E.stepActs fix extra i) ∨ p ∈ (E.st (i + 1)).owned t) :
    p ∈ gained (E.stepActs fix extra i) ∨ p ∈ (E.st i).owned t ∨ ∃ a, p ∈ (E.st i).m.elems a := by
  have h := E.step_balance fix (extra i) hi (T := {t}) (fun u hu => by rw [ha] at hu; cases hu; simp)
  unfold Balance at h
  have h1 : p ∈ ((gained (E.stepActs fix extra i) : Multiset P) + ((E.st i).m.stock + (E.st i).purse {t})) := by
    rw [WExec.stepActs, h]
    rcases hp with hp | hp
    · exact Multiset.mem_add.2 (Or.inl (Multiset.mem_add.2 (Or.inl (Multiset.mem_coe.2 hp))))
    · refine Multiset.mem_add.2 (Or.inr (Multiset.mem_add.2 (Or.inr ?_)))
      simp only [CState.purse, Finset.sum_singleton]
      exact Multiset.mem_coe.2 hp
  simp only [CState.purse, Finset.sum_singleton, Multiset.mem_add, Multiset.mem_coe] at h1
  rcases h1 with h1 | h1 | h1
  · exact Or.inl h1
  · exact Or.inr (Or.inr (Mem.mem_stock h1))
  · exact Or.inr (Or.inl h1)

section identity
variable (fix : Bool) (extra : Nat → List P) {n : Nat} (hn : n ≤ E.len) (hid : (gained (E.acts fix extra n)).Nodup)
include hn hid

/-- What a call owns came into being in the session. -/
theorem WExec.owned_home {t : Nat} {p : P} (hp : p ∈ (E.st n).owned t) :
    ∃ j, j < n ∧ (E.lab j).actor = some t ∧ p ∈ gained (E.stepActs fix extra j) := by
  induction n with
  | zero => rw [E.init] at hp; cases hp
  | succ n ih =>
    have hid' := hid.sublist (E.gained_mono fix extra (Nat.le_succ n))
    by_cases ha : (E.lab n).actor = some t
    · rcases E.step_from fix extra (by omega) ha (Or.inr hp) with h | h | ⟨a, h⟩
      · exact ⟨n, by omega, ha, h⟩
      · obtain ⟨j, h1, h2⟩ := ih (by omega) hid' h
        exact ⟨j, by omega, h2⟩
      · have h' := E.elems_step (a := a) (by omega) (by intro e; rw [e] at ha; cases ha) h
        exact absurd h' ((C45_in_call E fix extra hn hid hp).2.2.1 a)
    · have : (E.st n).owned t = (E.st (n + 1)).owned t := by
        simp only [CState.owned]; rw [wstep_other (E.step n (by omega)) ha]
      obtain ⟨j, h1, h2⟩ := ih (by omega) hid' (this ▸ hp)
      exact ⟨j, by omega, h2⟩

end identity

/-- Steps in which nobody acts destruct what is in a node the collector destroys. -/
theorem WExec.dropped_nobody {fix : Bool} {extra : Nat → List P} {i : Nat} (ha : (E.lab i).actor = none) {p : P}
    (hp : p ∈ dropped (E.stepActs fix extra i)) : ∃ a, E.lab i = .free a ∧ p ∈ (E.st i).m.elems a := by
  cases hl : E.lab i with
  | free a =>
    simp only [WExec.stepActs, hl, wacts, dropped_drops] at hp
    exact ⟨a, rfl, hp⟩
  | call t r => rw [hl] at ha; cases ha
  | tick t weak τ => rw [hl] at ha; cases ha
  | abort t => rw [hl] at ha; cases ha
  | _ => simp [WExec.stepActs, hl, wacts, dropped] at hp

/-- **C64**, the part that holds. Whatever the user's code does: what a call destructs, came into being in the same session, hence in the same thread. Only the collector destructs
other elements, and these were in nodes that had been removed from the map. -/
theorem C64_destructed_at_home_partial (fix : Bool) (extra : Nat → List P) (thread coll : Nat → Nat) (hid : (gained (E.acts fix extra E.len)).Nodup)
    {i : Nat} (hi : i < E.len) {p : P} (hp : p ∈ dropped (E.stepActs fix extra i)) :
    (∃ j, j ≤ i ∧ p ∈ gained (E.stepActs fix extra j) ∧ (E.lab j).actor = (E.lab i).actor ∧ E.place thread coll j = E.place thread coll i) ∨
    ∃ a, E.lab i = .free a ∧ p ∈ (E.st i).m.elems a ∧ (E.st i).m.retired a ≠ none := by
  have hid' : (gained (E.acts fix extra (i + 1))).Nodup := hid.sublist (E.gained_mono fix extra hi)
  have hid'' : (gained (E.acts fix extra i)).Nodup := hid.sublist (E.gained_mono fix extra (Nat.le_of_lt hi))
  cases ha : (E.lab i).actor with
  | none =>
    obtain ⟨a, h1, h2⟩ := E.dropped_nobody ha hp
    refine Or.inr ⟨a, h1, h2, ?_⟩
    obtain ⟨r, tr, weak, τ, hr, -, -, h3, -⟩ := E.gc i a hi h1
    cases h4 : (E.st (r + 1)).m.retired a with
    | none => exact absurd h4 h3
    | some τ' =>
      have := (E.winv (Nat.le_of_lt hi)).hist.retired (x := r + 1) (y := i) (a := a) (τ := τ') (by omega) (Nat.le_refl _) h4
      have h5 : (E.st i).m.retired a = some τ' := this
      rw [h5]; simp
  | some t =>
    left
    rcases E.step_from fix extra hi ha (Or.inl hp) with h | h | ⟨a, h⟩
    · exact ⟨i, Nat.le_refl _, h, ha, rfl⟩
    · obtain ⟨j, h1, h2, h3⟩ := E.owned_home fix extra (Nat.le_of_lt hi) hid'' h
      exact ⟨j, Nat.le_of_lt h1, h3, h2, by simp only [WExec.place, h2, ha]⟩
    · have h' := E.elems_step (a := a) hi (by intro e; rw [e] at ha; cases ha) h
      exact absurd (E.mem_dropped_step (Nat.lt_succ_self i) hp) (C45_in_node E fix extra (n := i + 1) hi hid' h').1

/-- Elements come into being in calls only. -/
theorem WExec.gained_call {fix : Bool} {extra : Nat → List P} {i : Nat} (hi : i < E.len) {p : P} (hp : p ∈ gained (E.stepActs fix extra i)) :
    ∃ t j r, (E.lab i).actor = some t ∧ j ≤ i ∧ E.lab j = .call t r := by
  have run : ∀ t, ((E.st i).thr t).run ≠ none → ∃ j r, j ≤ i ∧ E.lab j = .call t r := by
    intro t h
    cases hc : ((E.st i).thr t).run with
    | none => exact absurd hc h
    | some c =>
      have := ((E.winv (Nat.le_of_lt hi)).sess t).run c hc
      exact ⟨c.inv, c.req, Nat.le_of_lt this.lt, this.lab⟩
  cases hl : E.lab i with
  | call t r => exact ⟨t, i, r, rfl, Nat.le_refl _, hl⟩
  | tick t weak τ =>
    obtain ⟨j, r, h⟩ := run t (by intro h; simp [WExec.stepActs, hl, wacts, h] at hp)
    exact ⟨t, j, r, rfl, h⟩
  | abort t =>
    obtain ⟨j, r, h⟩ := run t (by intro h; simp [WExec.stepActs, hl, wacts, h] at hp)
    exact ⟨t, j, r, rfl, h⟩
  | _ => simp [WExec.stepActs, hl, wacts] at hp

/-- **C64.** In an accepted program, an element that a call returns (a reference to) came into being in the same thread, or it may be sent to or shared with other threads. -/
theorem C64_returned (fix : Bool) (extra : Nat → List P) {thread : Nat → Nat} (coll : Nat → Nat) {c e : Ty} (he : c.elementType = some e)
    (hacc : E.Accepted env c thread) {j id t : Nat} {r : Res P} {weak : Bool} {τ : Nat} (hj : j < E.len) (hr : E.ev j = some (.res id r))
    (hl : E.lab j = .tick t weak τ) {p : P} (hp : p ∈ r.elements) :
    ∃ i, i ≤ j ∧ p ∈ gained (E.stepActs fix extra i) ∧ (E.place thread coll i = E.place thread coll j ∨ Has env .send e ∨ Has env .sync e) := by
  obtain ⟨a, items, h1, h2⟩ := C43_returned_references E hj hr hl hp
  have hpin : ((E.st (j + 1)).thr t).pin = ((E.st j).thr t).pin := by
    have hs := E.step j hj
    rw [hl] at hs
    cases hc : ((E.st j).thr t).run with
    | none => simp only [wstep, hc] at hs; cases hs
    | some c =>
      simp only [wstep, hc, Option.some.injEq, Prod.mk.injEq] at hs
      have he := hs.2
      rw [hr] at he
      have hnf : (hTick (E.ans j) ((E.st j).seen c.pc τ) weak c.pc).2 ≠ .fail .shallowCollision := by
        intro e; rw [e] at he; cases he
      rw [← hs.1]
      simp only [CState.next, upd_same]
      exact wapply_pin _ _ _ hnf
  have h3 := h2 (j + 1) (Nat.lt_succ_self j) hj (by
    intro k hk hk'
    rcases Nat.lt_or_eq_of_le hk' with h | rfl
    · rw [show k = j by omega]
    · exact hpin)
  have h4 : p ∈ (E.st (j + 1)).m.elems a := by
    simp only [Mem.deref] at h3
    split at h3
    · cases h3
    · next hf => simpa [Mem.elems, hf, h3, Node.items] using h1
  have h5 : p ∈ gained (E.acts fix extra (j + 1)) := by
    obtain ⟨T, hT⟩ := E.busy (n := j + 1) hj
    have h := C45_conservation E fix extra (n := j + 1) hj hT
    refine Multiset.mem_coe.1 (h ▸ Multiset.mem_add.2 (Or.inr (Multiset.mem_add.2 (Or.inr ?_))))
    exact Multiset.mem_sum.2 ⟨a, E.elems_lt hj h4, Multiset.mem_coe.2 h4⟩
  obtain ⟨i, hi, h6⟩ := E.mem_gained.1 h5
  refine ⟨i, Nat.le_of_lt_succ hi, h6, ?_⟩
  obtain ⟨u, i', r', h7, h8, h9⟩ := E.gained_call (by omega) h6
  cases hc : ((E.st j).thr t).run with
  | none => have hs := E.step j hj; rw [hl] at hs; simp only [wstep, hc] at hs; cases hs
  | some c' =>
    have hci := ((E.winv (Nat.le_of_lt hj)).sess t).run c' hc
    have hpl : E.place thread coll j = thread t := by simp only [WExec.place, hl, CLabel.actor]
    have hpl' : E.place thread coll i = thread u := by simp only [WExec.place, h7]
    by_cases hne : thread u = thread t
    · exact Or.inl (by rw [hpl, hpl', hne])
    · have := hci.lt
      rcases hacc i' c'.inv u t r' c'.req (by omega) (by omega) h9 hci.lab hne with h | h
      · exact Or.inr (Or.inl (C64_collections he h))
      · exact Or.inr (Or.inr (C64_collections he h))

/-! ### The collector -/

/-- One session: it inserts an element, removes it, and gives up its guard. Then the collector destroys the node. -/
def exRcRun : List (WLabel Nat (Nat × Nat)) :=
  [(.pin 0, noAnswers, 0), (.call 0 (.op (.insert (7, 1))), noAnswers, 7), (.tick 0 false 2, careful 7 100, 0), (.tick 0 false 3, noAnswers, 0),
   (.call 0 (.op (.remove 7)), noAnswers, 7), (.tick 0 false 5, careful 7 200, 0), (.tick 0 false 6, noAnswers, 0),
   (.unpin 0, noAnswers, 0), (.free 0, noAnswers, 0)]

set_option maxRecDepth 20000 in
def exRc : WExec Nat (Nat × Nat) := .ofRunGc exRcRun (by decide)

set_option maxRecDepth 20000 in
/-- **C64**, refuted. Whatever the collection, and whatever its elements are (also if they may be neither sent nor shared): there is a program that uses the collection in thread 0
only -- so the compiler accepts it -- in which an element that came into being in thread 0 is destructed in thread 1 (which need not know of the collection: it has a guard
of `crossbeam_epoch`, and the collector runs in it). -/
theorem C64_refuted (env : Nat → Tr → Prop) (c : Ty) (fix : Bool) :
    ∃ (E : WExec Nat (Nat × Nat)) (extra : Nat → List (Nat × Nat)) (coll : Nat → Nat), E.Accepted env c (fun _ => 0) ∧
      (gained (E.acts fix extra E.len)).Nodup ∧ ∀ sendable, E.AtHome fix extra (E.place (fun _ => 0) coll) sendable → sendable := by
  refine ⟨exRc, fun _ => [], fun _ => 1, fun i j t u r r' _ _ _ _ h => absurd rfl h, ?_, ?_⟩
  · cases fix <;> decide
  · intro sendable h
    refine h (7, 1) 1 8 (by decide) (by decide) ?_ ?_ (by decide)
    · cases fix <;> decide
    · cases fix <;> decide

/-! ### Concrete cases -/

/-- Parameter 0 is like `usize`, parameter 1 like `Rc<_>`, parameter 2 like `Cell<_>` (may be sent, not shared), parameter 3 like `MutexGuard` (may be shared, not sent). -/
def exTraits : Nat → Tr → Prop
  | 0, _ => True
  | 2, .send => True
  | 3, .sync => True
  | _, _ => False

/-- The two tests of `src/tests/compile_fail.rs:8-71`: `ConMap<usize, Rc<usize>>` may be neither sent nor shared, `ConMap<usize, Arc<usize>>` may be both. -/
example : (∀ tr, ¬ Has exTraits tr (.conMap (.param 0) (.param 1) (.param 0))) ∧ ∀ tr, Has exTraits tr (.conMap (.param 0) (.arc (.param 0)) (.param 0)) := by
  constructor
  · intro tr h
    exact (has_param 1).1 ((C64_con_map _ _ _).1 h).2.2.1
  · intro tr
    rw [C64_con_map]; simp [exTraits]

/-- Values that may be sent but not shared: `ConMap` may be neither sent nor shared, `CloneConMap` may be sent. -/
example : (∀ tr, ¬ Has exTraits tr (.conMap (.param 0) (.param 2) (.param 0))) ∧ Has exTraits .send (.cloneConMap (.param 0) (.param 2) (.param 0)) ∧
    ¬ Has exTraits .sync (.cloneConMap (.param 0) (.param 2) (.param 0)) := by
  refine ⟨fun tr h => ?_, ?_, fun h => ?_⟩
  · exact (has_param 2).1 ((C64_con_map _ _ _).1 h).2.2.2.1
  · rw [C64_clone_con_map]; simp [exTraits]
  · exact (has_param 2).1 ((C64_clone_con_map _ _ _).1 h).2.1

/-- Elements that may be shared but not sent: `ConSet` may be shared -- so that other threads can put elements into it, which is a way of sending them. -/
example : Has exTraits .sync (.conSet (.param 3) (.param 0)) ∧ ¬ Has exTraits .send (.param 3) := by
  rw [C64_con_set]; simp [exTraits]

set_option maxRecDepth 20000 in
/-- Non-vacuity of `C64_destructed_at_home_partial`: in `exOwn`, session 1 destructs the clone (7, 300), which it made; the collector (step 19) destructs (7, 1), which is
of session 0. -/
example : (gained (exOwn.acts false exExtra exOwn.len)).Nodup ∧ (7, 300) ∈ dropped (exOwn.stepActs false exExtra 9) ∧ (exOwn.lab 9).actor = some 1 ∧
    (7, 300) ∈ gained (exOwn.stepActs false exExtra 8) ∧ (exOwn.lab 8).actor = some 1 ∧
    (7, 1) ∈ dropped (exOwn.stepActs false exExtra 19) ∧ (7, 1) ∈ gained (exOwn.stepActs false exExtra 2) ∧ (exOwn.lab 2).actor = some 0 := by
  decide

set_option maxRecDepth 20000 in
/-- Non-vacuity of `C64_returned`: the set of `exOwn` is shared by two threads; `insert` in session 1 returns the element session 0 had inserted. -/
example : exOwn.Accepted exTraits (.conSet (.param 0) (.param 0)) id ∧
    (∃ id r weak τ, exOwn.ev 9 = some (.res id r) ∧ exOwn.lab 9 = .tick 1 weak τ ∧ (7, 1) ∈ r.elements) := by
  refine ⟨fun i j t u r r' _ _ _ _ _ => Or.inr (by rw [C64_con_set]; simp [exTraits]), ?_⟩
  exact ⟨_, _, _, _, rfl, rfl, by decide⟩

end Contrie
