import Verif.Props.Memory
/-
C11, C12, C13, C14 (iteration), C22 (the closure of get_or_insert_with).
-/
set_option linter.unusedSectionVars false
namespace Contrie
variable {K P : Type} [DecidableEq K] {cfg : Config K P} (E : Exec cfg)

theorem Exec.res_iter {id j : Nat} {r : Res P} (hi : E.Invoked id .iter) (hr : E.Returns j id r) :
    ∃ out, r = .list out ∧ (out.map cfg.key).Nodup ∧
      (∀ p ∈ out, ∃ τ, id ≤ τ ∧ τ ≤ j ∧ E.content τ (cfg.key p) = some p) ∧
      ∀ k, (∀ τ, id ≤ τ → τ ≤ j → E.content τ k ≠ none) → k ∈ out.map cfg.key := by
  obtain ⟨t, c, refs, weak, h1, h2, h3, h4, h5, h6, h7, h8⟩ := E.res hr
  have hreq : c.req = .iter := by
    rw [Exec.Invoked] at hi; rw [hi] at h8; injection h8 with h8; injection h8 with _ h8; exact h8.symm
  simp only [RetOK, hreq] at h4
  obtain ⟨-, out, rfl, -, a1, a2, a3⟩ := h4
  rw [E.clock, h3] at a2 a3
  refine ⟨out, rfl, a1, ?_, ?_⟩
  · intro p hp
    obtain ⟨τ, t1, t2, t3⟩ := a2 p hp
    exact ⟨τ, t1, by omega, t3⟩
  · intro k hk
    exact a3 k (fun τ t1 t2 => hk τ t1 (by omega))

/-- **C11.** A complete iteration yields a list with no key twice, whatever happens concurrently. -/
theorem C11_no_key_twice {id j : Nat} {r : Res P} (hi : E.Invoked id .iter) (hr : E.Returns j id r) :
    ∃ out, r = .list out ∧ (out.map cfg.key).Nodup := by
  obtain ⟨out, h1, h2, -⟩ := E.res_iter hi hr
  exact ⟨out, h1, h2⟩

/-- **C11** at every moment of an iteration (also of one that is never finished): no key has been yielded twice. -/
theorem C11_no_key_twice_so_far {i t : Nat} {c : Call K P} (h : E.Running i t c) : (c.yielded.map cfg.key).Nodup := by
  simp only [Call.yielded]
  split
  · next lv out hpc =>
    have := E.run_pcinv h
    simp only [PCInv, hpc] at this
    obtain ⟨-, -, qs, h⟩ := this
    exact h.nodup
  · simp

/-- **C12.** A key that is in the map during the whole iteration is yielded. -/
theorem C12_stable_key_yielded {id j : Nat} {out : List P} (hi : E.Invoked id .iter) (hr : E.Returns j id (.list out))
    {k : K} (hk : ∀ τ, id ≤ τ → τ ≤ j → E.content τ k ≠ none) : ∃ p ∈ out, cfg.key p = k := by
  obtain ⟨out', h1, h2, h3, h4⟩ := E.res_iter hi hr
  cases h1
  have := h4 k hk
  simpa using this

/-- **C12.** An element that is in the map during the whole iteration is yielded. -/
theorem C12_stable_element_yielded {id j : Nat} {out : List P} (hi : E.Invoked id .iter) (hr : E.Returns j id (.list out))
    {k : K} {p : P} (hk : ∀ τ, id ≤ τ → τ ≤ j → E.content τ k = some p) : p ∈ out := by
  obtain ⟨out', h1, h2, h3, h4⟩ := E.res_iter hi hr
  cases h1
  obtain ⟨q, hq, hqk⟩ := C12_stable_key_yielded E hi hr (k := k) (fun τ t1 t2 => by rw [hk τ t1 t2]; simp)
  obtain ⟨τ, t1, t2, t3⟩ := h3 q hq
  rw [hqk, hk τ t1 t2] at t3
  cases t3
  exact hq

/-- **C12.** An element that is in the map during the whole iteration is yielded exactly once: nothing else that is yielded has its key. -/
theorem C12_exactly_once {id j : Nat} {out : List P} (hi : E.Invoked id .iter) (hr : E.Returns j id (.list out))
    {k : K} {p : P} (hk : ∀ τ, id ≤ τ → τ ≤ j → E.content τ k = some p) :
    ∃ before after, out = before ++ p :: after ∧ ∀ q ∈ before ++ after, cfg.key q ≠ k := by
  have hp := C12_stable_element_yielded E hi hr hk
  obtain ⟨out', e, hnd⟩ := C11_no_key_twice E hi hr
  cases e
  have hle : id ≤ j := by
    obtain ⟨t, c, refs, weak, -, h2, h3, -⟩ := E.res hr
    obtain ⟨h4, -⟩ := E.run_inv j h2
    omega
  have hkey : cfg.key p = k := (E.content_offered (hk id (Nat.le_refl _) hle)).1
  obtain ⟨b, a, rfl⟩ := List.append_of_mem hp
  refine ⟨b, a, rfl, ?_⟩
  intro q hq e
  rw [List.map_append, List.map_cons, List.nodup_append] at hnd
  obtain ⟨-, h2, h3⟩ := hnd
  rw [List.nodup_cons] at h2
  rcases List.mem_append.1 hq with h | h
  · exact h3 _ (List.mem_map_of_mem h) _ (List.mem_cons_self) (by rw [e, hkey])
  · exact h2.1 (by rw [hkey, ← e]; exact List.mem_map_of_mem h)

/-- **C13.** Whatever is yielded was in the map, under its key, at some instant during the iteration. -/
theorem C13_yielded_was_present {id j : Nat} {out : List P} (hi : E.Invoked id .iter) (hr : E.Returns j id (.list out))
    {p : P} (hp : p ∈ out) : ∃ τ, id ≤ τ ∧ τ ≤ j ∧ E.content τ (cfg.key p) = some p := by
  obtain ⟨out', h1, h2, h3, h4⟩ := E.res_iter hi hr
  cases h1
  exact h3 p hp

/-- **C13** at every moment of an iteration. -/
theorem C13_yielded_was_present_so_far {i t : Nat} {c : Call K P} (h : E.Running i t c) {p : P} (hp : p ∈ c.yielded) :
    ∃ τ, c.inv ≤ τ ∧ τ ≤ i ∧ E.content τ (cfg.key p) = some p := by
  simp only [Call.yielded] at hp
  split at hp
  · next lv out hpc =>
    have := E.run_pcinv h
    simp only [PCInv, hpc] at this
    obtain ⟨-, -, qs, hit⟩ := this
    obtain ⟨τ, t1, t2, t3⟩ := hit.real p hp
    rw [E.clock] at t2
    exact ⟨τ, t1, t2, t3⟩
  · cases hp

/-- **C14.** If the content does not change during an iteration, the iteration yields exactly the content: every element
exactly once and nothing else. (Concurrent calls that do not change the content are allowed. Termination of iterations:
`C14_iteration_terminates` in `Verif/Props/Progress.lean`.) -/
theorem C14_unmodified_exact {id j : Nat} {r : Res P} (hi : E.Invoked id .iter) (hr : E.Returns j id r)
    (hconst : ∀ τ, id ≤ τ → τ ≤ j → E.content τ = E.content id) :
    ∃ out, r = .list out ∧ out.Nodup ∧ ∀ p, p ∈ out ↔ E.content id (cfg.key p) = some p := by
  obtain ⟨out, rfl, h2, h3, h4⟩ := E.res_iter hi hr
  refine ⟨out, rfl, List.Pairwise.of_map cfg.key (fun a b h e => h (by rw [e])) h2, ?_⟩
  intro p
  constructor
  · intro hp
    obtain ⟨τ, t1, t2, t3⟩ := h3 p hp
    rw [hconst τ t1 t2] at t3
    exact t3
  · intro hp
    exact C12_stable_element_yielded E hi hr (k := cfg.key p) (fun τ t1 t2 => by rw [hconst τ t1 t2]; exact hp)

/-- Session 0 fills the map with 7, 23 (sharing the first level) and 2; session 1 iterates; in the middle of it session 0
replaces the element under 23 and inserts 5. -/
def exIter : List (Label Nat (Nat × Nat)) :=
  [.pin 0, .pin 1, .call 0 (.op (.insert (7, 1)))] ++ ticks 0 2 ++ [.call 0 (.op (.insert (23, 2)))] ++ ticks 0 8 ++
  [.call 0 (.op (.insert (2, 3)))] ++ ticks 0 3 ++ [.call 1 .iter] ++ ticks 1 12 ++
  [.call 0 (.op (.insert (23, 4)))] ++ ticks 0 4 ++ [.call 0 (.op (.insert (5, 5)))] ++ ticks 0 3 ++ ticks 1 59

set_option maxRecDepth 10000 in
/-- C11, C12, C13: this iteration starts at instant 18, ends in step 98, and yields 2, 5, 7, 23 in this order. -/
example : ∃ E : Exec exCfg, E.Invoked 18 .iter ∧ E.Returns 98 18 (.list [(2, 3), (5, 5), (7, 1), (23, 4)]) := by
  obtain ⟨E, h1, h2, h3⟩ := Exec.ofCheck' (cfg := exCfg) 2 (ls := exIter) (by decide)
  refine ⟨E, ?_, ?_⟩
  · simp only [Exec.Invoked, h2]; rfl
  · simp only [Exec.Returns, h2]; rfl

/-! ### C22 -/

/-- **C22.** The closure given to `get_or_insert_with` runs at most once per call (`ClosureRuns i id`: in step `i`, on
behalf of call `id`). -/
theorem C22_closure_at_most_once {i j id : Nat} (h : E.ClosureRuns i id) (h' : E.ClosureRuns j id) : i = j :=
  E.closure_once h h'

/-- **C22.** It runs only in calls of `get_or_insert_with`, and only if the key was absent at some instant between the
invocation and the moment it runs. -/
theorem C22_closure_only_if_absent {i id : Nat} (h : E.ClosureRuns i id) :
    ∃ k f τ, E.Invoked id (.op (.getOrInsert k f)) ∧ id ≤ τ ∧ τ ≤ i ∧ E.content τ k = none := by
  obtain ⟨t, weak, c, pc, g1, g2, g3, g4⟩ := h
  obtain ⟨k, f, h1, -, τ, h2, h3, h4⟩ := tick_ran_absent ((E.inv i).ctx g2) (E.run_pcinv g2) g4
  obtain ⟨-, d2, -⟩ := E.run_inv i g2
  rw [g3, h1] at d2
  rw [E.clock] at h3
  exact ⟨k, f, τ, d2, by omega, h3, h4⟩

/-- **C22.** If the key is bound from the invocation on, the closure never runs. -/
theorem C22_bound_never_runs {id n : Nat} {k : K} {f : K → P} (hi : E.Invoked id (.op (.getOrInsert k f)))
    (hb : ∀ τ, id ≤ τ → τ ≤ n → E.content τ k ≠ none) (i : Nat) (hin : i ≤ n) : ¬ E.ClosureRuns i id := by
  intro h
  obtain ⟨k', f', τ, h1, h2, h3, h4⟩ := C22_closure_only_if_absent E h
  rw [Exec.Invoked] at hi h1
  rw [hi] at h1
  cases h1
  exact hb τ h2 (by omega) h4

/-- **C22.** If the call returns `New(p)`, the closure ran exactly once, during the call, and `p` is what it returned. -/
theorem C22_new_ran_once {id j : Nat} {k : K} {f : K → P} {p : P} (hi : E.Invoked id (.op (.getOrInsert k f)))
    (hr : E.Returns j id (.op (.eon (.new p)))) :
    p = f k ∧ ∃ i, id < i ∧ i < j ∧ E.ClosureRuns i id ∧ ∀ i', E.ClosureRuns i' id → i' = i := by
  obtain ⟨t, c, refs, weak, h1, h2, h3, h4, h5, h6, h7, h8⟩ := E.res hr
  have hreq : c.req = .op (.getOrInsert k f) := by
    rw [Exec.Invoked] at hi; rw [hi] at h8; injection h8 with h8; injection h8 with _ h8; exact h8.symm
  simp only [RetOK, hreq] at h4
  obtain ⟨-, ret, hret, -, -, -, hcalls⟩ := h4
  cases hret
  have hc := hcalls ⟨p, rfl⟩
  constructor
  · have happ : ∀ {a b : AMap K P}, a.apply cfg.key (.getOrInsert k f) = (b, .eon (.new p)) → p = f k := by
      intro a b h
      simp only [AMap.apply] at h
      split at h
      · simp at h
      · simp only [Prod.mk.injEq, Ret.eon.injEq, ExistingOrNew.new.injEq] at h; exact h.2.symm
    rcases E.res_op hi hr with ⟨-, ⟨τ, a1, a2, a3⟩ | ⟨a0, τ, a1, a2, a3⟩⟩
    · exact happ (E.A_some a3)
    · exact happ a3
  · obtain ⟨i, hij, hrun⟩ := (E.calls_pos_iff j t c h2).mp (by omega)
    rw [h3] at hrun
    refine ⟨i, ?_, hij, hrun, fun i' h' => E.closure_once h' hrun⟩
    obtain ⟨t', weak', c', pc', g1, g2, g3, g4⟩ := hrun
    have := (E.run_inv i g2).1
    omega

/-- Two racing `get_or_insert_with` on the same key; both run their closures, the first one loses. -/
def exClosure : List (Label Nat (Nat × Nat)) :=
  [.pin 0, .pin 1, .call 0 (.op (.getOrInsert 7 (fun k => (k, 1)))), .call 1 (.op (.getOrInsert 7 (fun k => (k, 2)))),
   .tick 0 false, .tick 1 false, .tick 1 false, .tick 0 false, .tick 0 false]

/-- C22: in step 4 the closure of call 2 runs, in step 5 that of call 3; call 3 returns `New`, call 2 then `Existing`. -/
example : ∃ E : Exec exCfg, E.ClosureRuns 4 2 ∧ E.ClosureRuns 5 3 ∧ E.Returns 6 3 (.op (.eon (.new (7, 2)))) ∧
    E.Returns 8 2 (.op (.eon (.existing (7, 2)))) := by
  obtain ⟨E, h1, h2, h3⟩ := Exec.ofCheck' (cfg := exCfg) 2 (ls := exClosure) (by decide)
  refine ⟨E, ?_, ?_, ?_, ?_⟩
  · simp only [Exec.ClosureRuns, h1, h3]; exact ⟨0, false, _, _, rfl, rfl, rfl, rfl⟩
  · simp only [Exec.ClosureRuns, h1, h3]; exact ⟨1, false, _, _, rfl, rfl, rfl, rfl⟩
  · simp only [Exec.Returns, h2]; rfl
  · simp only [Exec.Returns, h2]; rfl

end Contrie
