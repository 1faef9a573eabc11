import Verif.Props.WrapperRuns
/-
C37: the calls of the wrapper types on single keys are atomic, whatever other sessions do meanwhile.
-/
set_option linter.unusedSectionVars false
namespace Contrie
variable {K P O V T α β : Type} [DecidableEq K]

/-- The program makes exactly one call, a map operation on map `m`. -/
def Prog.Single (m : Nat) : Prog K P α → Prop
  | .call m' (.op _) k => m' = m ∧ ∀ x, match k x with | .call _ _ _ => False | _ => True
  | _ => False

theorem World.Runs.atomic {key : P → K} {W : World key} {t i j m : Nat} {p : Prog K P α} {a : α} (h : W.Runs t p i j a) (hp : p.Single m) :
    ∃ τ A1, i ≤ τ ∧ τ < j ∧ p.Means key (W.content τ) a (upd (W.content τ) m A1) ∧ (A1 = W.content (τ + 1) m ∨ A1 = W.content τ m) := by
  cases h with
  | ret => exact hp.elim
  | @call m' _ id j1 _ r x k _ g1 q1 hc g2 q2 hev hk =>
    cases r with
    | isEmpty => exact hp.elim
    | iter => exact hp.elim
    | op o =>
      obtain ⟨rfl, hp⟩ := hp
      have hle := hk.le
      have hf := (W.ex m').fits ((W.ex m').invoked_of_call hc) hev
      have hret : k x = .ret a := by
        have := hp x
        cases hkx : k x with
        | ret b => rw [hkx] at hk; cases hk; rfl
        | call => rw [hkx] at this; exact this.elim
        | wrong => rw [hkx] at hk; cases hk
      cases x with
      | op ret =>
        obtain ⟨hlt, ⟨τ, b1, b2, b3⟩ | ⟨b0, τ, b1, b2, b3⟩⟩ := (W.ex m').res_op ((W.ex m').invoked_of_call hc) hev
        · refine ⟨τ, W.content (τ + 1) m', by omega, by omega, .call (x := .op ret) (A1 := W.content (τ + 1) m') ?_ ?_, Or.inl rfl⟩
          · exact (W.ex m').A_some b3
          · rw [hret]; exact .ret
        · refine ⟨τ, W.content τ m', by omega, by omega, .call (x := .op ret) (A1 := W.content τ m') ?_ ?_, Or.inr rfl⟩
          · exact b3
          · rw [hret]; exact .ret
      | bool b => cases o <;> exact hf.elim
      | list l => cases o <;> exact hf.elim

/-- The calls that work on a single key. -/
def MapCall.OneKey : MapCall K O V → Prop
  | .isEmpty => False
  | .iter => False
  | .extend _ => False
  | _ => True

def SetCall.OneKey : SetCall K T → Prop
  | .isEmpty => False
  | .iter => False
  | .extend _ => False
  | _ => True

theorem Prog.Single.opt {m : Nat} {o : Op K P} {f : Option P → α} {g : α → β} : ((Prog.opt m o f).bind (fun r => .ret (g r))).Single m :=
  ⟨rfl, fun x => by cases x with
    | op r => cases r <;> trivial
    | bool b => trivial
    | list l => trivial⟩

theorem Prog.Single.eon {m : Nat} {o : Op K P} {f : ExistingOrNew P → α} {g : α → β} : ((Prog.eon m o f).bind (fun r => .ret (g r))).Single m :=
  ⟨rfl, fun x => by cases x with
    | op r => cases r <;> trivial
    | bool b => trivial
    | list l => trivial⟩

/-- **C37** for `ConMap`: there is an instant `τ` during the call at which the call happens: it returns what it returns on a plain map with the content the map has at `τ`, and
in the step at `τ` the content of the map changes the way the call changes the plain map (or the call does not change the plain map at all). -/
theorem C37_conmap [Inhabited V] {eqv : O → K} (W : World (ConMap.keyOf (V := V) eqv)) {t i j m : Nat} {addr : Nat → Nat} {c : MapCall K O V}
    (hc : c.OneKey) {r : MapRet (Arc O V)} (h : W.Runs t (c.conMap eqv m addr) i j r) :
    ∃ τ M', i ≤ τ ∧ τ < j ∧ c.Spec eqv (fun n => Arc.mk (addr n)) (W.content τ m) r M' ∧ (M' = W.content (τ + 1) m ∨ M' = W.content τ m) := by
  have hs : (c.conMap eqv m addr).Single m := by
    cases c with
    | isEmpty | iter | extend => exact hc.elim
    | insert | get | remove => exact Prog.Single.opt
    | getOrInsert | getOrInsertWith | getOrInsertDefault => exact Prog.Single.eon
  obtain ⟨τ, A1, h1, h2, h3, h4⟩ := h.atomic hs
  have := (MapCall.conMap_means h3 (W.keyed τ m)).1
  rw [upd_same] at this
  exact ⟨τ, A1, h1, h2, this, h4⟩

/-- **C37** for `CloneConMap`. -/
theorem C37_cloneconmap [Inhabited V] {eqv : O → K} (W : World (CloneConMap.keyOf (V := V) eqv)) {t i j m : Nat} {c : MapCall K O V}
    (hc : c.OneKey) {r : MapRet (O × V)} (h : W.Runs t (c.cloneConMap eqv m) i j r) :
    ∃ τ M', i ≤ τ ∧ τ < j ∧ c.Spec eqv (fun _ => Prod.mk) (W.content τ m) r M' ∧ (M' = W.content (τ + 1) m ∨ M' = W.content τ m) := by
  have hs : (c.cloneConMap eqv m).Single m := by
    cases c with
    | isEmpty | iter | extend => exact hc.elim
    | insert | get | remove => exact Prog.Single.opt
    | getOrInsert | getOrInsertWith | getOrInsertDefault => exact Prog.Single.eon
  obtain ⟨τ, A1, h1, h2, h3, h4⟩ := h.atomic hs
  have := (MapCall.cloneConMap_means h3 (W.keyed τ m)).1
  rw [upd_same] at this
  exact ⟨τ, A1, h1, h2, this, h4⟩

/-- **C37** for `ConSet`. -/
theorem C37_conset {eqv : T → K} (W : World eqv) {t i j m : Nat} {c : SetCall K T} (hc : c.OneKey) {r : MapRet T} (h : W.Runs t (c.conSet m) i j r) :
    ∃ τ S', i ≤ τ ∧ τ < j ∧ c.Spec eqv (fun v => W.content τ m (eqv v) = some v) r S' ∧
      (S' = (fun v => W.content (τ + 1) m (eqv v) = some v) ∨ S' = (fun v => W.content τ m (eqv v) = some v)) := by
  have hs : (c.conSet m).Single m := by
    cases c with
    | isEmpty | iter | extend => exact hc.elim
    | insert | get | remove | contains => exact Prog.Single.opt
  obtain ⟨τ, A1, h1, h2, h3, h4⟩ := h.atomic hs
  have := (SetCall.conSet_means h3 (W.keyed τ m)).1
  rw [upd_same] at this
  exact ⟨τ, _, h1, h2, this, h4.imp (fun e => by rw [e]) (fun e => by rw [e])⟩

/-- C37 applies to calls that overlap: in the run `exPar`, session 0's call of `insert(7, 1)` overlaps both calls of session 1, and returns `(7, 2)`. -/
example : ∃ (W : World (CloneConMap.keyOf (V := Nat) (fun k : Nat => k))),
    W.Runs 0 ((MapCall.insert 7 1 : MapCall Nat Nat Nat).cloneConMap (fun k => k) 0) 2 19 (.opt (some (7, 2))) ∧
    W.Runs 1 ((MapCall.insert 7 2 : MapCall Nat Nat Nat).cloneConMap (fun k => k) 0) 3 7 (.opt none) := by
  obtain ⟨E, h1, h2, h3⟩ := Exec.ofCheck' (cfg := exPairs) 2 (ls := exPar) (by decide)
  obtain ⟨W, g1, g2, g3, g4, g5⟩ := World.ofExec (key := CloneConMap.keyOf (V := Nat) (fun k : Nat => k)) E
  have hlab : ∀ n, (W.ex 0).lab n = exPar.getD n .idle := fun n => by rw [g2, h3]
  have hev : ∀ n, (W.ex 0).ev n = evAt exPairs exPar n := fun n => by rw [g3, h2]
  have hq : ∀ t a b, b ≤ 19 → (List.range 19).all (fun n => !(decide (a ≤ n) && decide (n < b)) || match exPar.getD n .idle with
      | .call u _ => u != t
      | _ => true) = true → W.Quiet t a b := by
    intro t a b hb h n x y m r hl
    by_cases e : m = 0
    · subst e
      rw [hlab] at hl
      rw [List.all_eq_true] at h
      have := h n (by simp; omega)
      rw [hl] at this
      simp [x, y] at this
    · rw [g4 m e] at hl; cases hl
  refine ⟨W, ?_, ?_⟩
  · refine .call (id := 2) (j := 18) (x := .op (.opt (some (7, 2)))) (by omega) (hq _ _ _ (by omega) (by decide)) (by rw [hlab]; rfl) (by omega)
      (hq _ _ _ (by omega) (by decide)) (by rw [hev]; rfl) ?_
    exact .ret (by omega) (hq _ _ _ (by omega) (by decide))
  · refine .call (id := 3) (j := 6) (x := .op (.opt none)) (by omega) (hq _ _ _ (by omega) (by decide)) (by rw [hlab]; rfl) (by omega)
      (hq _ _ _ (by omega) (by decide)) (by rw [hev]; rfl) ?_
    exact .ret (by omega) (hq _ _ _ (by omega) (by decide))

end Contrie
