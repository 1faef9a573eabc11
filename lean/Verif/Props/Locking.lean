import Verif.Proof.RaceFree
import Verif.Model.ClientWeak
import Verif.Props.Coherent
import Verif.Props.WrapperRuns
/-
C61: programs that use locks need not know about weak memory.
-/
set_option linter.unusedSectionVars false
namespace Contrie
variable {K P : Type} [DecidableEq K] {cfg : Config K P}

/-! ### What it means to use locks -/

section
variable (E : CExec cfg)

/-- In step `j`, session `t` ends call `x`: it returns, or it unwinds. -/
def CExec.Ends (x t j : Nat) : Prop :=
  j < E.len ∧ (∃ c, ((E.st j).thr t).run = some c ∧ c.inv = x) ∧ ((E.st (j + 1)).thr t).run = none

/-- Call `x` ended, and by some synchronisation (the unlocking and locking of a mutex, a join, a message) whoever invoked call `y` knew. -/
def CExec.Precedes (x y : Nat) : Prop :=
  ∃ t t' r j, E.Ends x t j ∧ y < E.len ∧ E.lab y = .call t' r ∧ HB E.lab E.len (t, j + 1) (t', y)

/-- The program uses the map as one would use something that is not made for concurrent use, with a reader-writer lock, say: of any two calls, if one of them is an
update, one precedes the other. (Lookups, iterations, `is_empty` may overlap with each other.) -/
def CExec.RaceFree : Prop :=
  ∀ x y r r', x < E.len → y < E.len → x ≠ y → E.ev x = some (.inv x r) → E.ev y = some (.inv y r') → (r.isUpdate = true ∨ r'.isUpdate = true) →
    E.Precedes x y ∨ E.Precedes y x

end

/-! ### The proof -/

section
variable {E : CExec cfg}

theorem CExec.since {j t : Nat} (hj : j ≤ E.len) {c : Call K P} (h : ((E.st j).thr t).run = some c) {τ : Nat} (h1 : c.inv < τ) (h2 : τ ≤ j) :
    ∃ c', ((E.st τ).thr t).run = some c' ∧ c'.inv = c.inv := by
  induction j generalizing c with
  | zero => rw [E.init] at h; cases h
  | succ j ih =>
    by_cases e : τ = j + 1
    · subst e; exact ⟨c, h, rfl⟩
    · rcases cstep_run_full (E.step j (by omega)) h with ⟨e1, -⟩ | ⟨c0, pc, ran, weak, τ', e1, -, -, e2⟩ | ⟨r, -, e2, -⟩
      · exact ih (by omega) e1 h1 (by omega)
      · subst e2; exact ih (by omega) (c := c0) e1 h1 (by omega)
      · subst e2
        have := (E.base (n := j) (by omega)).clock
        simp only at h1
        omega

/-- A call that has ended is not in progress. -/
theorem CExec.Ends.over {x t j : Nat} (h : E.Ends x t j) {i t' : Nat} (hi : i ≤ E.len) (hj : j < i) {c : Call K P} (hc : ((E.st i).thr t').run = some c) :
    c.inv ≠ x := by
  obtain ⟨h1, ⟨c0, h2, h3⟩, h4⟩ := h
  intro e
  have a := ((E.cinv (n := j) (by omega)).sess t).run c0 h2
  have b := ((E.cinv hi).sess t').run c hc
  have ha := a.lab
  have hb := b.lab
  rw [h3] at ha
  rw [e, ha] at hb
  injection hb with hb
  subst hb
  have := a.lt
  obtain ⟨c', k1, -⟩ := CExec.since hi hc (τ := j + 1) (by omega) (by omega)
  rw [h4] at k1; cases k1

/-- The session of the calls in question. -/
theorem CExec.Ends.session {x t j t' : Nat} {r : Req K P} (h : E.Ends x t j) (hl : E.lab x = .call t' r) : t' = t ∧ x < j := by
  obtain ⟨h1, ⟨c0, h2, h3⟩, h4⟩ := h
  have a := ((E.cinv (n := j) (by omega)).sess t).run c0 h2
  have ha := a.lab
  have := a.lt
  rw [h3, hl] at ha
  injection ha with ha
  exact ⟨ha, by omega⟩

theorem CExec.Precedes.time {x y : Nat} (h : E.Precedes x y) : ∃ t j, E.Ends x t j ∧ j < y := by
  obtain ⟨t, t', r, j, h1, h2, h3, h4⟩ := h
  have := (E.hb h4 (by simp only; omega)).1
  simp only at this
  exact ⟨t, j, h1, by omega⟩

theorem CExec.run_ev {i t : Nat} (hi : i ≤ E.len) {c : Call K P} (hc : ((E.st i).thr t).run = some c) :
    c.inv < i ∧ E.lab c.inv = .call t c.req ∧ E.ev c.inv = some (.inv c.inv c.req) := by
  have a := ((E.cinv hi).sess t).run c hc
  have := a.lt
  exact ⟨a.lt, a.lab, E.ev_call (by omega) a.lab⟩

/-- An update is never in progress together with another call. -/
theorem CExec.RaceFree.apart (hf : E.RaceFree) {i t t' : Nat} (hi : i ≤ E.len) {c c' : Call K P} (hc : ((E.st i).thr t).run = some c)
    (hc' : ((E.st i).thr t').run = some c') (hu : c.req.isUpdate = true ∨ c'.req.isUpdate = true) : t = t' := by
  obtain ⟨a1, a2, a3⟩ := CExec.run_ev hi hc
  obtain ⟨b1, b2, b3⟩ := CExec.run_ev hi hc'
  by_cases e : c.inv = c'.inv
  · rw [e, b2] at a2; injection a2 with a2; exact a2.symm
  · rcases hf c.inv c'.inv _ _ (by omega) (by omega) e a3 b3 hu with h | h
    · obtain ⟨s, j, g1, g2⟩ := h.time
      exact absurd rfl (g1.over hi (by omega) hc)
    · obtain ⟨s, j, g1, g2⟩ := h.time
      exact absurd rfl (g1.over hi (by omega) hc')

theorem CExec.RaceFree.upToDate (hf : E.RaceFree) {i t : Nat} {weak : Bool} {τ : Nat} (hi : i < E.len) (hl : E.lab i = .tick t weak τ) : E.UpToDate t i := by
  intro r t' weak' τ' c' hr hl' hc' hu
  cases hc : ((E.st i).thr t).run with
  | none =>
    have hs := E.step i hi
    rw [hl] at hs
    simp only [cstep, hc] at hs
    cases hs
  | some c =>
    obtain ⟨a1, a2, a3⟩ := CExec.run_ev (by omega) hc
    obtain ⟨b1, b2, b3⟩ := CExec.run_ev (E := E) (i := r) (by omega) hc'
    by_cases et : t' = t
    · subst et; exact .po _ (by omega)
    · have hne : c'.inv ≠ c.inv := by
        intro e
        rw [e, a2] at b2; injection b2 with b2; exact et b2.symm
      rcases hf c'.inv c.inv _ _ (by omega) (by omega) hne b3 a3 (.inl hu) with ⟨s, s', q, j, h1, h2, h3, h4⟩ | h
      · obtain ⟨rfl, -⟩ := h1.session b2
        rw [a2] at h3
        injection h3 with h3
        subst h3
        have hrj : r ≤ j := by
          apply Classical.byContradiction
          intro hn
          exact h1.over (i := r) (by omega) (by omega) hc' rfl
        exact .trans (.po _ (by omega)) (.trans h4 (.po _ (by omega)))
      · obtain ⟨s, j, g1, g2⟩ := h.time
        exact absurd rfl (g1.over (i := i) (by omega) (by omega) hc)

end

/-! ### C61 -/

/-- **C61.** An execution on weak memory of a program that uses locks is an execution of the sequentially consistent machine: the same memory, the same
sessions, the same steps, the same invocations and results, at all instants. So all claims about executions of that machine hold for such programs on weak memory. -/
theorem C61_sequentially_consistent (E : CExec cfg) (hf : E.RaceFree) : ∃ E' : Exec cfg,
    (∀ i, i ≤ E.len → (E'.st i).m = (E.st i).m ∧ ∀ t, ((E'.st i).thr t).pin = ((E.st i).thr t).pin ∧ ((E'.st i).thr t).refs = ((E.st i).thr t).refs ∧
      ((E'.st i).thr t).run = ((E.st i).thr t).run ∧ ((E'.st i).thr t).failed = ((E.st i).thr t).failed) ∧
    (∀ i, i < E.len → E'.lab i = (E.lab i).strong ∧ E'.ev i = E.ev i) ∧ (∀ i, E.len ≤ i → E'.lab i = .idle ∧ E'.ev i = none) := by
  obtain ⟨E', h1, h2, h3⟩ := E.strong (fun i t weak τ hi hl => hf.upToDate hi hl)
  exact ⟨E', fun i hi => by rw [h1 i hi]; exact ⟨rfl, fun t => ⟨rfl, rfl, rfl, rfl⟩⟩, h2, h3⟩

/-- **C61.** For such programs the map is a plain map: every call is answered as by a plain map with the content at the invocation, and leaves the content it
should. (`is_empty`: if no update was cut off by a panic in user code.) -/
theorem C61_plain_map (E : CExec cfg) (hf : E.RaceFree) {id j t : Nat} {r : Req K P} {x : Res P} (hj : j < E.len) (hl : E.lab id = .call t r)
    (hr : E.ev j = some (.res id x))
    (hempty : r = .isEmpty → ∀ i t c, i < j → E.lab i = .abort t → ((E.st i).thr t).run = some c → c.req.isUpdate = false) :
    (E.content id).Answers cfg.key r x (E.content (j + 1)) := by
  obtain ⟨E', h1, h2, h3⟩ := E.strong (fun i t weak τ hi hl => hf.upToDate hi hl)
  obtain ⟨u, weak, τ, c0, g1, g2, g3, g4, g5, -⟩ := E.ret hj hr
  rw [hl] at g5
  injection g5 with g5 g6
  subst g5
  have hrun : ∀ i t, i ≤ E.len → ((E'.st i).thr t).run = ((E.st i).thr t).run := fun i t hi => by rw [h1 i hi]; rfl
  have hcont : ∀ i, i ≤ E.len → E'.content i = E.content i := fun i hi => by simp only [Exec.content, State.content, CExec.content, h1 i hi]; rfl
  have hl' : E'.lab id = .call t r := by rw [(h2 id (by omega)).1, hl]; rfl
  have hr' : E'.Returns j id x := by rw [Exec.Returns, (h2 j hj).2, hr]
  have h := E'.call_alone hl' hr' ?_ ?_
  · rwa [hcont id (by omega), hcont (j + 1) (by omega)] at h
  · intro n a1 a2 t' w c e1 e2 e3
    by_cases e : n = id
    · subst e; rw [hl'] at e1; cases e1
    · obtain ⟨c', k1, -, -⟩ := E'.busy hl' hr' (τ := n) (by omega) a2
      rw [hrun n _ (by omega)] at e2 k1
      exact hf.apart (by omega) e2 k1 (.inl e3)
  · intro he
    refine ⟨⟨?_, ?_⟩, ?_⟩
    · intro i hi t t' c c' e1 e2 e3 e4
      rw [hrun i _ (by omega)] at e1 e2
      exact hf.apart (by omega) e1 e2 (.inl (isRemove_upd e3))
    · intro i hi t c e1 e2
      rw [(h2 i (by omega)).1] at e1
      rw [hrun i _ (by omega)] at e2
      refine hempty he i t c hi ?_ e2
      cases hlab : E.lab i <;> rw [hlab] at e1 <;> simp only [CLabel.strong] at e1 <;> cases e1
      rfl
    · intro t' c e1 e2
      obtain ⟨c', k1, -, -⟩ := E'.busy hl' hr' (τ := j) (by omega) (Nat.le_refl _)
      rw [hrun j _ (by omega)] at e1 k1
      exact hf.apart (by omega) e1 k1 (.inl e2)

/-- **C61.** Between updates the content does not change. -/
theorem C61_still (E : CExec cfg) (hf : E.RaceFree) {i : Nat} (hi : i < E.len)
    (h : ∀ t c, ((E.st i).thr t).run = some c → c.req.isUpdate = false) : E.content (i + 1) = E.content i := by
  obtain ⟨E', h1, h2, h3⟩ := E.strong (fun i t weak τ hi hl => hf.upToDate hi hl)
  have hcont : ∀ i, i ≤ E.len → E'.content i = E.content i := fun i hi => by simp only [Exec.content, State.content, CExec.content, h1 i hi]; rfl
  rw [← hcont i (by omega), ← hcont (i + 1) (by omega)]
  refine E'.A_none ?_
  cases hw : E'.W i with
  | none => rfl
  | some lp =>
    obtain ⟨u, c, f1, f2, -, -, w, f3⟩ := E'.W_call hw
    have hup := E'.W_update hw f1 f2.symm
    rw [h1 i (by omega)] at f1
    rw [h u c f1] at hup; cases hup

/-! ### Several maps, and the wrappers -/

section
variable {key : P → K} {α O V T : Type}

/-- Content of the maps. -/
def CWorld.content (W : CWorld key) (i : Nat) : Nat → AMap K P := fun m => (W.ex m).content i

/-- **C61**, several maps: programs that use locks (not necessarily one for all the maps) are executed as on the sequentially consistent machine. So all claims about the
wrappers `ConMap`, `CloneConMap` and `ConSet` (C25 to C29, C36, C60) hold for them on weak memory. -/
theorem C61_world (W : CWorld key) (hf : ∀ m, (W.ex m).RaceFree) : ∃ W' : World key, W'.hash = W.hash ∧
    (∀ i m, i ≤ W.len → W'.content i m = W.content i m ∧ ∀ t, (((W'.ex m).st i).thr t).run = (((W.ex m).st i).thr t).run) ∧
    (∀ i m, i < W.len → (W'.ex m).lab i = ((W.ex m).lab i).strong ∧ (W'.ex m).ev i = (W.ex m).ev i) ∧
    (∀ (β : Type) t (p : Prog K P β) i j a, W.Runs t p i j a → W'.Runs t p i j a) := by
  have h := fun m => (W.ex m).strong (fun i t weak τ hi hl => (hf m).upToDate hi hl)
  choose ex h1 h2 h3 using h
  have hlab : ∀ i m, (ex m).lab i ≠ .idle → i < W.len ∧ (W.ex m).lab i ≠ .idle ∧ ∀ t t' τ, (W.ex m).lab i ≠ .sync t t' τ := by
    intro i m hne
    have hi : i < W.len := by
      apply Classical.byContradiction
      intro hn
      exact hne (h3 m i (by rw [W.same]; omega)).1
    rw [(h2 m i (by rw [W.same]; exact hi)).1] at hne
    refine ⟨hi, ?_, ?_⟩
    · intro e; rw [e] at hne; exact hne rfl
    · intro t t' τ e; rw [e] at hne; exact hne rfl
  refine ⟨⟨W.hash, ex, ?_⟩, rfl, ?_, ?_, ?_⟩
  · intro i m m' a b
    obtain ⟨a1, a2, a3⟩ := hlab i m a
    obtain ⟨b1, b2, b3⟩ := hlab i m' b
    rcases W.sole i m m' a1 a2 b2 with e | ⟨t, t', τ, e⟩
    · exact e
    · exact absurd e (a3 t t' τ)
  · intro i m hi
    have := h1 m i (by rw [W.same]; exact hi)
    refine ⟨?_, fun t => ?_⟩
    · simp only [World.content, Exec.content, State.content, CWorld.content, CExec.content, this]; rfl
    · show (((ex m).st i).thr t).run = _
      rw [this]; rfl
  · intro i m hi
    exact h2 m i (by rw [W.same]; exact hi)
  · intro β t p i j a hr
    have quiet : ∀ {t i j}, W.Quiet t i j → ∀ n, i ≤ n → n < j → ∀ m r, (ex m).lab n ≠ .call t r := by
      intro t i j hq n b1 b2 m r e
      have hn := (hlab n m (by rw [e]; simp)).1
      rw [(h2 m n (by rw [W.same]; exact hn)).1] at e
      have := hq n b1 b2 m r
      cases hl : (W.ex m).lab n <;> rw [hl] at e <;> simp only [CLabel.strong] at e <;> cases e
      exact this hl
    induction hr with
    | ret c1 c2 c3 => exact .ret c1 (quiet c3)
    | @call m i id j j' r x k a c1 c2 c3 c4 c5 c6 c7 c8 ih =>
      refine .call (m := m) c1 (quiet c2) ?_ c4 (quiet c6) ?_ ih
      · show (ex m).lab id = _
        rw [(h2 m id (by rw [W.same]; omega)).1, c3]; rfl
      · show (ex m).ev j = _
        rw [(h2 m j (by rw [W.same]; omega)).2, c7]

theorem CWorld.Runs.le {W : CWorld key} {t i j : Nat} {p : Prog K P α} {a : α} (h : W.Runs t p i j a) : i ≤ j ∧ j ≤ W.len := by
  induction h with
  | ret h hj => exact ⟨h, hj⟩
  | call h1 _ _ h2 _ _ _ _ ih => omega

/-- The hypotheses of the theorems about wrappers. -/
theorem CWorld.Locked.strong {W : CWorld key} {W' : World key} {m t i j : Nat} (hl : W.Locked m t i j) (hij : i ≤ j) (hj : j ≤ W.len)
    (h : ∀ i m, i ≤ W.len → W'.content i m = W.content i m ∧ ∀ t, (((W'.ex m).st i).thr t).run = (((W.ex m).st i).thr t).run) :
    W'.Undisturbed m t i j ∧ W'.NoneElse m t i j := by
  refine ⟨⟨?_, ?_⟩, ?_⟩
  · rw [(h i m (by omega)).2]; exact hl.idle
  · intro n a b t' w c _ hc hu
    rw [(h n m (by omega)).2] at hc
    exact hl.alone n a (by omega) t' c hc hu
  · intro n a b t' c hc hu
    rw [(h n m (by omega)).2] at hc
    exact hl.alone n a b t' c hc hu

/-- No update of map `m` was cut off by a panic in user code before instant `j`. -/
def CWorld.Finished (W : CWorld key) (m j : Nat) : Prop :=
  ∀ i t c, i < j → (W.ex m).lab i = .abort t → (((W.ex m).st i).thr t).run = some c → c.req.isUpdate = false

theorem CWorld.Finished.strong {W : CWorld key} {W' : World key} {m j : Nat} (hfin : W.Finished m j) (hj : j ≤ W.len) (hf : (W.ex m).RaceFree)
    (h : ∀ i m, i ≤ W.len → W'.content i m = W.content i m ∧ ∀ t, (((W'.ex m).st i).thr t).run = (((W.ex m).st i).thr t).run)
    (h' : ∀ i m, i < W.len → (W'.ex m).lab i = ((W.ex m).lab i).strong ∧ (W'.ex m).ev i = (W.ex m).ev i) : (W'.ex m).RemovalsAlone j := by
  refine ⟨?_, ?_⟩
  · intro i hi t t' c c' e1 e2 e3 e4
    rw [(h i m (by omega)).2] at e1 e2
    exact hf.apart (by rw [W.same]; omega) e1 e2 (.inl (isRemove_upd e3))
  · intro i hi t c e1 e2
    rw [(h' i m (by omega)).1] at e1
    rw [(h i m (by omega)).2] at e2
    refine hfin i t c hi ?_ e2
    cases hlab : (W.ex m).lab i <;> rw [hlab] at e1 <;> simp only [CLabel.strong] at e1 <;> cases e1
    rfl

/-- **C61** for `ConMap`: calls made under a lock return, on weak memory, too, what they return on a plain map. -/
theorem C61_conmap [Inhabited V] {eqv : O → K} (W : CWorld (ConMap.keyOf (V := V) eqv)) (hf : ∀ m, (W.ex m).RaceFree) {t i j m : Nat}
    (cs : List ((Nat → Nat) × MapCall K O V)) {rs : List (MapRet (Arc O V))}
    (h : W.Runs t (Prog.all (cs.map (fun c => c.2.conMap eqv m c.1))) i j rs) (hl : W.Locked m t i j)
    (hempty : (∃ addr, (addr, .isEmpty) ∈ cs) → W.Finished m j) :
    SpecSeq (fun M c r M' => c.2.Spec eqv (fun n => Arc.mk (c.1 n)) M r M') (W.content i m) cs rs (W.content j m) := by
  obtain ⟨W', -, g1, g2, g3⟩ := C61_world W hf
  obtain ⟨l1, l2⟩ := h.le
  obtain ⟨u1, u2⟩ := hl.strong l1 l2 g1
  rw [← (g1 i m (by omega)).1, ← (g1 j m l2).1]
  exact C29_conmap W' cs (g3 _ _ _ _ _ _ h) u1 (fun e => ⟨(hempty e).strong l2 (hf m) g1 g2, u2⟩)

/-- **C61** for `CloneConMap`. -/
theorem C61_cloneconmap [Inhabited V] {eqv : O → K} (W : CWorld (CloneConMap.keyOf (V := V) eqv)) (hf : ∀ m, (W.ex m).RaceFree) {t i j m : Nat}
    (cs : List (MapCall K O V)) {rs : List (MapRet (O × V))}
    (h : W.Runs t (Prog.all (cs.map (fun c => c.cloneConMap eqv m))) i j rs) (hl : W.Locked m t i j) (hempty : .isEmpty ∈ cs → W.Finished m j) :
    SpecSeq (fun M c r M' => c.Spec eqv (fun _ => Prod.mk) M r M') (W.content i m) cs rs (W.content j m) := by
  obtain ⟨W', -, g1, g2, g3⟩ := C61_world W hf
  obtain ⟨l1, l2⟩ := h.le
  obtain ⟨u1, u2⟩ := hl.strong l1 l2 g1
  rw [← (g1 i m (by omega)).1, ← (g1 j m l2).1]
  exact C29_cloneconmap W' cs (g3 _ _ _ _ _ _ h) u1 (fun e => ⟨(hempty e).strong l2 (hf m) g1 g2, u2⟩)

/-- **C61** for `ConSet`. -/
theorem C61_conset {eqv : T → K} (W : CWorld eqv) (hf : ∀ m, (W.ex m).RaceFree) {t i j m : Nat} (cs : List (SetCall K T)) {rs : List (MapRet T)}
    (h : W.Runs t (Prog.all (cs.map (SetCall.conSet m))) i j rs) (hl : W.Locked m t i j) (hempty : .isEmpty ∈ cs → W.Finished m j) :
    SpecSeq (fun S c r S' => c.Spec eqv S r S') (fun v => W.content i m (eqv v) = some v) cs rs (fun v => W.content j m (eqv v) = some v) := by
  obtain ⟨W', -, g1, g2, g3⟩ := C61_world W hf
  obtain ⟨l1, l2⟩ := h.le
  obtain ⟨u1, u2⟩ := hl.strong l1 l2 g1
  rw [← (g1 i m (by omega)).1, ← (g1 j m l2).1]
  exact C28_set W' cs (g3 _ _ _ _ _ _ h) u1 (fun e => ⟨(hempty e).strong l2 (hf m) g1 g2, u2⟩)

/-- **C61** for `clone`: made under locks for both maps, it is an exact copy. -/
theorem C61_conmap_clone {eqv : O → K} (W : CWorld (ConMap.keyOf (V := V) eqv)) (hf : ∀ m, (W.ex m).RaceFree) {t i j src dst : Nat} (hne : dst ≠ src)
    (h : W.Runs t (ConMap.clone src dst) i j ()) (hl : W.Locked src t i j) (hl' : W.Locked dst t i j) (hnew : ∀ k, W.content i dst k = none) :
    W.content j dst = W.content i src ∧ W.content j src = W.content i src := by
  obtain ⟨W', -, g1, g2, g3⟩ := C61_world W hf
  obtain ⟨l1, l2⟩ := h.le
  have h' := g3 _ _ _ _ _ _ h
  obtain ⟨u1, -⟩ := hl.strong l1 l2 g1
  obtain ⟨u2, -⟩ := hl'.strong l1 l2 g1
  rw [← (g1 i src (by omega)).1, ← (g1 j src l2).1, ← (g1 j dst l2).1]
  exact C25_conmap W' h' (fun k => by rw [(g1 i dst (by omega)).1]; exact hnew k) u2 (fun n a b => h'.unchanged (fun r h => ConMap.clone_calls hne h) u1 a b)

theorem C61_cloneconmap_clone {eqv : O → K} (W : CWorld (CloneConMap.keyOf (V := V) eqv)) (hf : ∀ m, (W.ex m).RaceFree) {t i j src dst : Nat} (hne : dst ≠ src)
    (h : W.Runs t (CloneConMap.clone src dst) i j ()) (hl : W.Locked src t i j) (hl' : W.Locked dst t i j) (hnew : ∀ k, W.content i dst k = none) :
    W.content j dst = W.content i src ∧ W.content j src = W.content i src := by
  obtain ⟨W', -, g1, g2, g3⟩ := C61_world W hf
  obtain ⟨l1, l2⟩ := h.le
  have h' := g3 _ _ _ _ _ _ h
  obtain ⟨u1, -⟩ := hl.strong l1 l2 g1
  obtain ⟨u2, -⟩ := hl'.strong l1 l2 g1
  rw [← (g1 i src (by omega)).1, ← (g1 j src l2).1, ← (g1 j dst l2).1]
  exact C25_cloneconmap W' h' (fun k => by rw [(g1 i dst (by omega)).1]; exact hnew k) u2 (fun n a b => h'.unchanged (fun r h => CloneConMap.clone_calls hne h) u1 a b)

end

/-! ### Non-vacuity -/

/-- Session 0 inserts (7, 1); then session 1 synchronises with it (it locks the mutex that session 0 unlocked), looks key 7 up, removes it and asks whether the map is empty.
(Session 1 sees the root as it was at instant 5 in step 7.) -/
def exLockRun : List (CLabel Nat (Nat × Nat)) :=
  [.pin 0, .pin 1, .call 0 (.op (.insert (7, 1))), .tick 0 false 3, .tick 0 false 4, .sync 1 0 5, .call 1 (.op (.get 7)), .tick 1 false 5,
   .call 1 (.op (.remove 7)), .tick 1 false 9, .tick 1 false 10, .call 1 .isEmpty, .tick 1 false 12]

def exLock : CExec exCfg :=
  .ofRun exCfg exLockRun (by decide) (fun i a hi e => absurd e (no_free (cfg := exCfg) (by decide) hi))

theorem exLock_inv : ∀ x r, x < 13 → exLock.ev x = some (.inv x r) → x = 2 ∨ x = 6 ∨ x = 8 ∨ x = 11 := by
  intro x r hx hev
  match x, hx with
  | 2, _ => simp
  | 6, _ => simp
  | 8, _ => simp
  | 11, _ => simp
  | 0, _ => cases hev
  | 1, _ => cases hev
  | 3, _ => cases hev
  | 4, _ => cases hev
  | 5, _ => cases hev
  | 7, _ => cases hev
  | 9, _ => cases hev
  | 10, _ => cases hev
  | 12, _ => cases hev

theorem exLock_raceFree : exLock.RaceFree := by
  have e2 : exLock.Ends 2 0 4 := ⟨by decide, ⟨_, rfl, rfl⟩, rfl⟩
  have e6 : exLock.Ends 6 1 7 := ⟨by decide, ⟨_, rfl, rfl⟩, rfl⟩
  have e8 : exLock.Ends 8 1 10 := ⟨by decide, ⟨_, rfl, rfl⟩, rfl⟩
  have hb : HB exLock.lab exLock.len (0, 5) (1, 6) := .sync (t := 1) (t' := 0) (τ := 5) (j := 5) (by decide) rfl
  have h26 : exLock.Precedes 2 6 := ⟨0, 1, _, 4, e2, by decide, rfl, hb⟩
  have h28 : exLock.Precedes 2 8 := ⟨0, 1, _, 4, e2, by decide, rfl, .trans hb (.po 1 (by decide))⟩
  have h2b : exLock.Precedes 2 11 := ⟨0, 1, _, 4, e2, by decide, rfl, .trans hb (.po 1 (by decide))⟩
  have h68 : exLock.Precedes 6 8 := ⟨1, 1, _, 7, e6, by decide, rfl, .po 1 (by decide)⟩
  have h6b : exLock.Precedes 6 11 := ⟨1, 1, _, 7, e6, by decide, rfl, .po 1 (by decide)⟩
  have h8b : exLock.Precedes 8 11 := ⟨1, 1, _, 10, e8, by decide, rfl, .po 1 (by decide)⟩
  intro x y r r' hx hy hne h1 h2 _
  rcases exLock_inv x r hx h1 with rfl | rfl | rfl | rfl <;> rcases exLock_inv y r' hy h2 with rfl | rfl | rfl | rfl
  · exact absurd rfl hne
  · exact .inl h26
  · exact .inl h28
  · exact .inl h2b
  · exact .inr h26
  · exact absurd rfl hne
  · exact .inl h68
  · exact .inl h6b
  · exact .inr h28
  · exact .inr h68
  · exact absurd rfl hne
  · exact .inl h8b
  · exact .inr h2b
  · exact .inr h6b
  · exact .inr h8b
  · exact absurd rfl hne

/-- C61 for this program: session 1 finds the element, takes it, and the map is empty. -/
example : ∃ E' : Exec exCfg, ∀ i, i < 13 → E'.ev i = exLock.ev i := by
  obtain ⟨E', -, h, -⟩ := C61_sequentially_consistent exLock exLock_raceFree
  exact ⟨E', fun i hi => (h i hi).2⟩

example : (exLock.content 6).Answers exCfg.key (.op (.get 7)) (.op (.opt (some (7, 1)))) (exLock.content 8) :=
  C61_plain_map exLock exLock_raceFree (id := 6) (j := 7) (by decide) rfl rfl (fun e => by cases e)

example : (exLock.content 11).Answers exCfg.key .isEmpty (.bool true) (exLock.content 13) := by
  refine C61_plain_map exLock exLock_raceFree (id := 11) (j := 12) (by decide) rfl rfl (fun _ i t c hi hl _ => ?_)
  match i, hi with
  | 0, _ => cases hl
  | 1, _ => cases hl
  | 2, _ => cases hl
  | 3, _ => cases hl
  | 4, _ => cases hl
  | 5, _ => cases hl
  | 6, _ => cases hl
  | 7, _ => cases hl
  | 8, _ => cases hl
  | 9, _ => cases hl
  | 10, _ => cases hl
  | 11, _ => cases hl

/-- The execution `exStale` of C39, whose results no plain map explains, is no such program: session 1 does not synchronise with session 0. -/
example : ¬ exStale.RaceFree := by
  intro hf
  have h := C61_plain_map exStale hf (id := 5) (j := 6) (t := 1) (r := .op (.get 7)) (x := .op (.opt none)) (by decide) rfl rfl (fun e => by cases e)
  obtain ⟨h1, -⟩ := h

/-- The maps no one uses in `exLock`. -/
def exLockOther : CExec exCfg :=
  .ofRun exCfg [.idle, .idle, .idle, .idle, .idle, .sync 1 0 5, .idle, .idle, .idle, .idle, .idle, .idle, .idle] (by decide)
    (fun i a hi e => absurd e (no_free (cfg := exCfg) (by decide) hi))

/-- The same program, seen as one that uses `CloneConMap` number 0. -/
def exLockWorld : CWorld (CloneConMap.keyOf (V := Nat) (fun n : Nat => n)) where
  hash := fun _ k => BitVec.ofNat 64 k
  len := 13
  ex := fun m => match m with
    | 0 => exLock
    | _ + 1 => exLockOther
  same := fun m => by cases m <;> rfl
  sole := by
    intro i m m' hi h1 h2
    have other : ∀ i, i < 13 → exLockOther.lab i ≠ .idle → i = 5 := by
      intro i hi h
      match i, hi with
      | 5, _ => rfl
      | 0, _ => exact absurd rfl h
      | 1, _ => exact absurd rfl h
      | 2, _ => exact absurd rfl h
      | 3, _ => exact absurd rfl h
      | 4, _ => exact absurd rfl h
      | 6, _ => exact absurd rfl h
      | 7, _ => exact absurd rfl h
      | 8, _ => exact absurd rfl h
      | 9, _ => exact absurd rfl h
      | 10, _ => exact absurd rfl h
      | 11, _ => exact absurd rfl h
      | 12, _ => exact absurd rfl h
    match m, m' with
    | 0, 0 => exact .inl rfl
    | 0, _ + 1 => have := other i hi h2; subst this; exact .inr ⟨1, 0, 5, rfl⟩
    | _ + 1, _ => have := other i hi h1; subst this; exact .inr ⟨1, 0, 5, rfl⟩
  sync := by
    intro i m m' t t' τ hi h
    have h5 : i = 5 := by
      match m with
      | 0 =>
        match i, hi with
        | 5, _ => rfl
        | 0, _ => cases h
        | 1, _ => cases h
        | 2, _ => cases h
        | 3, _ => cases h
        | 4, _ => cases h
        | 6, _ => cases h
        | 7, _ => cases h
        | 8, _ => cases h
        | 9, _ => cases h
        | 10, _ => cases h
        | 11, _ => cases h
        | 12, _ => cases h
      | _ + 1 =>
        match i, hi with
        | 5, _ => rfl
        | 0, _ => cases h
        | 1, _ => cases h
        | 2, _ => cases h
        | 3, _ => cases h
        | 4, _ => cases h
        | 6, _ => cases h
        | 7, _ => cases h
        | 8, _ => cases h
        | 9, _ => cases h
        | 10, _ => cases h
        | 11, _ => cases h
        | 12, _ => cases h
    subst h5
    cases m <;> cases m' <;> exact h

theorem exLockWorld_quiet : ∀ {i j}, j ≤ 13 → (∀ n, i ≤ n → n < j → n ≠ 6 ∧ n ≠ 8 ∧ n ≠ 11) → exLockWorld.Quiet 1 i j := by
  intro i j hj hn n h1 h2 m r e
  obtain ⟨n6, n8, nb⟩ := hn n h1 h2
  have hlt : n < 13 := by omega
  match m with
  | 0 =>
    match n, hlt with
    | 6, _ => exact n6 rfl
    | 8, _ => exact n8 rfl
    | 11, _ => exact nb rfl
    | 0, _ => cases e
    | 1, _ => cases e
    | 2, _ => cases e
    | 3, _ => cases e
    | 4, _ => cases e
    | 5, _ => cases e
    | 7, _ => cases e
    | 9, _ => cases e
    | 10, _ => cases e
    | 12, _ => cases e
  | _ + 1 =>
    match n, hlt with
    | 6, _ => exact n6 rfl
    | 8, _ => exact n8 rfl
    | 11, _ => exact nb rfl
    | 0, _ => cases e
    | 1, _ => cases e
    | 2, _ => cases e
    | 3, _ => cases e
    | 4, _ => cases e
    | 5, _ => cases e
    | 7, _ => cases e
    | 9, _ => cases e
    | 10, _ => cases e
    | 12, _ => cases e

/-- Session 1 executes `get(7)`, `remove(7)`, `is_empty()` of `CloneConMap`. -/
theorem exLockWorld_runs : exLockWorld.Runs 1 (Prog.all (([.get 7, .remove 7, .isEmpty] : List (MapCall Nat Nat Nat)).map (fun c => c.cloneConMap (fun n => n) 0))) 6 13
    ([.opt (some (7, 1)), .opt (some (7, 1)), .bool true] : List (MapRet (Nat × Nat))) := by
  refine .call (m := 0) (id := 6) (j := 7) (x := .op (.opt (some (7, 1)))) (Nat.le_refl _) (exLockWorld_quiet (by decide) (fun n h1 h2 => by omega)) rfl (by decide) (by decide)
    (exLockWorld_quiet (by decide) (fun n h1 h2 => by omega)) rfl ?_
  refine .call (m := 0) (id := 8) (j := 10) (x := .op (.opt (some (7, 1)))) (Nat.le_refl _) (exLockWorld_quiet (by decide) (fun n h1 h2 => by omega)) rfl (by decide) (by decide)
    (exLockWorld_quiet (by decide) (fun n h1 h2 => by omega)) rfl ?_
  refine .call (m := 0) (id := 11) (j := 12) (x := .bool true) (Nat.le_refl _) (exLockWorld_quiet (by decide) (fun n h1 h2 => by omega)) rfl (by decide) (by decide)
    (exLockWorld_quiet (by decide) (fun n h1 h2 => by omega)) rfl ?_
  exact .ret (Nat.le_refl _) (by decide) (exLockWorld_quiet (by decide) (fun n h1 h2 => by omega))

/-- Non-vacuity of C61 for the wrappers. -/
example : SpecSeq (fun M (c : MapCall Nat Nat Nat) r M' => c.Spec (fun n : Nat => n) (fun _ => Prod.mk) M r M') (exLockWorld.content 6 0) [.get 7, .remove 7, .isEmpty]
    [.opt (some (7, 1)), .opt (some (7, 1)), .bool true] (exLockWorld.content 13 0) := by
  refine C61_cloneconmap exLockWorld (fun m => ?_) _ exLockWorld_runs ⟨rfl, ?_⟩ (fun _ i t c hi hl _ => ?_)
  · match m with
    | 0 => exact exLock_raceFree
    | _ + 1 =>
      intro x y r r' hx hy _ h1 _
      have hlt : x < 13 := hx
      match x, hlt with
      | 0, _ => cases h1
      | 1, _ => cases h1
      | 2, _ => cases h1
      | 3, _ => cases h1
      | 4, _ => cases h1
      | 5, _ => cases h1
      | 6, _ => cases h1
      | 7, _ => cases h1
      | 8, _ => cases h1
      | 9, _ => cases h1
      | 10, _ => cases h1
      | 11, _ => cases h1
      | 12, _ => cases h1
  · intro n h1 h2 t' c hc hu
    match t' with
    | 1 => rfl
    | 0 =>
      match n, h1, h2 with
      | 6, _, _ => cases hc
      | 7, _, _ => cases hc
      | 8, _, _ => cases hc
      | 9, _, _ => cases hc
      | 10, _, _ => cases hc
      | 11, _, _ => cases hc
      | 12, _, _ => cases hc
      | 13, _, _ => cases hc
    | _ + 2 =>
      match n, h1, h2 with
      | 6, _, _ => cases hc
      | 7, _, _ => cases hc
      | 8, _, _ => cases hc
      | 9, _, _ => cases hc
      | 10, _, _ => cases hc
      | 11, _, _ => cases hc
      | 12, _, _ => cases hc
      | 13, _, _ => cases hc
  · match i, hi with
    | 0, _ => cases hl
    | 1, _ => cases hl
    | 2, _ => cases hl
    | 3, _ => cases hl
    | 4, _ => cases hl
    | 5, _ => cases hl
    | 6, _ => cases hl
    | 7, _ => cases hl
    | 8, _ => cases hl
    | 9, _ => cases hl
    | 10, _ => cases hl
    | 11, _ => cases hl
    | 12, _ => cases hl

end Contrie
