import Verif.Props.WrapperRuns
/-
C23: is an element created by the closure of `get_or_insert_with_element` findable under its own key?
-/
set_option linter.unusedSectionVars false
namespace Contrie
variable {K O V : Type} [DecidableEq K]

/-- `let r = map.get_or_insert_with_element(&k, f); let g = map.get(r.key()); (r, g)` -/
def ConMap.createAndFind (eqv : O → K) (m : Nat) (k : K) (f : K → Arc O V) : Prog K (Arc O V) (ExistingOrNew (Arc O V) × Option (Arc O V)) :=
  (ConMap.getOrInsertWithElement m k f).bind (fun r => (ConMap.get m (eqv r.deref.key)).bind (fun g => .ret (r, g)))

/-- **C23**, the part that holds: if all closures ever passed to the map build elements for the key they are asked for (the contract of `World`, see
`Label.WF`), and nobody else updates the map meanwhile, then `get` with the key of the element that `get_or_insert_with_element` returned finds that very
element (the same handle), be it new or old, and the closure's element is what a `New` contains.
Missing: the claim for closures that return an element with another key, which is false, see `C23_refuted`. -/
theorem C23_findable_partial {eqv : O → K} (W : World (ConMap.keyOf (V := V) eqv)) {t i j m : Nat} {k : K} {f : K → Arc O V}
    {r : ExistingOrNew (Arc O V)} {g : Option (Arc O V)} (h : W.Runs t (ConMap.createAndFind eqv m k f) i j (r, g)) (hu : W.Undisturbed m t i j) :
    g = some r.deref ∧ (W.content i m k = none → r = .new (f k)) ∧ (∀ p, W.content i m k = some p → r = .existing p) := by
  have hwf : eqv (f k).key = k := by
    cases h with
    | @call _ _ id _ _ _ _ _ _ _ _ hc => have := (W.ex m).wf id; rw [hc] at this; exact this
  obtain ⟨A, A', h1, h2, h3, h4⟩ := h.means_on (Prog.On.eon.bind (fun r => Prog.On.opt.bind (fun g => trivial))) hu (fun hx => by
    exfalso
    cases hx with
    | inl hx => cases hx
    | inr hx =>
      obtain ⟨x, hx⟩ := hx
      cases x with
      | op x =>
        cases x with
        | opt x => exact hx.elim
        | eon x =>
          rcases hx with hx | ⟨y, hy⟩
          · cases hx
          · cases y with
            | op y => cases y <;> exact hy.elim
            | bool => exact hy.elim
            | list => exact hy.elim
      | bool => exact hx.elim
      | list => exact hx.elim)
  obtain ⟨r', A1, g1, g2⟩ := h1.bind
  obtain ⟨y, B1, e1, e2, e3⟩ := g1.of_eon
  obtain ⟨g', A2, g3, g4⟩ := g2.bind
  obtain ⟨z, B2, e4, e5, e6⟩ := g3.of_opt
  obtain ⟨e7, e8⟩ := g4.of_ret
  simp only [Prod.mk.injEq] at e7
  obtain ⟨rfl, rfl⟩ := e7
  have ey : r = y := by rw [e2]; cases y <;> rfl
  subst ey
  simp only [AMap.apply, Prod.mk.injEq, Ret.opt.injEq] at e4
  rw [e5, ← e4.2, e3]
  rw [← h2]
  simp only [upd_same]
  cases hk : A m k with
  | some p =>
    simp only [AMap.apply, hk, Prod.mk.injEq, Ret.eon.injEq] at e1
    rw [← e1.2, ← e1.1]
    have := h4 m k p hk
    simp only [ConMap.keyOf] at this
    refine ⟨by simp only [ExistingOrNew.deref, this, hk], (fun e => by cases e), fun q e => by cases e; rfl⟩
  | none =>
    simp only [AMap.apply, hk, Prod.mk.injEq, Ret.eon.injEq] at e1
    rw [← e1.2, ← e1.1]
    refine ⟨by simp only [ExistingOrNew.deref, hwf, AMap.set, if_true], (fun _ => rfl), fun q e => by cases e⟩

/-- C23 applies: a run that creates an element in an empty map. -/
example : ∃ (W : World (ConMap.keyOf (V := String) (fun n : Nat => n % 10))) (j : Nat) (r : ExistingOrNew (Arc Nat String) × Option (Arc Nat String)),
    W.Runs 0 (ConMap.createAndFind (fun n => n % 10) 0 3 (fun _ => ⟨100, 13, "a"⟩)) 0 j r ∧ W.Undisturbed 0 0 0 j ∧ r = (.new ⟨100, 13, "a"⟩, some ⟨100, 13, "a"⟩) := by
  obtain ⟨W, j, rs, h1, h2, h3, h4, h5, h6⟩ := Prog.run_new
    (p := ConMap.createAndFind (fun n : Nat => n % 10) 0 3 (fun _ => (⟨100, 13, "a"⟩ : Arc Nat String)))
    (key := ConMap.keyOf (V := String) (fun n : Nat => n % 10))
    ((Prog.Typed.eon rfl).bind (fun _ => (Prog.Typed.opt trivial).bind (fun _ => trivial))) (fun _ k => BitVec.ofNat 64 k)
  refine ⟨W, j, rs, h2, h3 0, ?_⟩
  obtain ⟨r, g⟩ := rs
  obtain ⟨g1, g2, g3⟩ := C23_findable_partial W h2 (h3 0)
  have := g2 (h4 0 3)
  subst this
  rw [g1]; rfl

/-- A closure that is asked for key 1 and returns an element with key 2, in a map that contains elements with keys 3 and 4; then `get(2)`, `get(1)` and a
pass of the iterator. -/
def exForeign : List (Label Nat (Nat × Nat)) :=
  [.pin 0, .call 0 (.op (.insert (3, 0)))] ++ ticks 0 2 ++ [.call 0 (.op (.insert (4, 0)))] ++ ticks 0 5 ++
  [.call 0 (.op (.getOrInsert 1 (fun _ => (2, 5))))] ++ ticks 0 3 ++ [.call 0 (.op (.get 2))] ++ ticks 0 2 ++ [.call 0 (.op (.get 1))] ++ ticks 0 2 ++ [.call 0 .iter] ++ ticks 0 38

/-- **C23** is false for a closure that returns an element with a key other than the one it was asked for: in this run of a single session,
`get_or_insert_with(1, || (2, 5))` returns `New((2, 5))` (result of call 10), but `get(2)` right after it (call 14) does not find the element, nor does
`get(1)` (call 17), though the element is in the map: the iterator (call 20) yields it. (Nothing but the contract of the closure is violated in this run: no
call but the first one has a contract, and the collector does nothing.) -/
theorem C23_refuted : ∃ s es, runList exCfg State.init exForeign = some (s, es) ∧ (∀ l ∈ exForeign, ∀ s, l.enabled s) ∧
    (s.thr 0).failed = none ∧
    es[4]? = some (.inv 10 (.op (.getOrInsert 1 (fun _ => (2, 5))))) ∧ es[5]? = some (.res 10 (.op (.eon (.new (2, 5))))) ∧
    es[6]? = some (.inv 14 (.op (.get 2))) ∧ es[7]? = some (.res 14 (.op (.opt none))) ∧
    es[8]? = some (.inv 17 (.op (.get 1))) ∧ es[9]? = some (.res 17 (.op (.opt none))) ∧
    es[10]? = some (.inv 20 .iter) ∧ es[11]? = some (.res 20 (.list [(2, 5), (3, 0), (4, 0)])) := by
  refine ⟨_, _, rfl, ?_, rfl, rfl, rfl, rfl, rfl, rfl, rfl, rfl, rfl⟩
  intro l hl s
  cases l with
  | free a => exact absurd hl (by simp [exForeign, ticks])
  | _ => trivial

end Contrie
