import Verif.Props.Extend
/-
C36: the calls of the wrapper types terminate when they are not interfered with. Concrete runs for C25 - C29.
-/
set_option linter.unusedSectionVars false
namespace Contrie
variable {K P O V T α β : Type} [DecidableEq K]

theorem World.quiet_idle {key : P → K} (W : World key) {t i j m : Nat} (hq : ∀ n, i ≤ n → n < j → ∀ r, (W.ex m).lab n ≠ .call t r)
    (hi : (((W.ex m).st i).thr t).run = none) {n : Nat} (h1 : i ≤ n) (h2 : n ≤ j) : (((W.ex m).st n).thr t).run = none := by
  induction n with
  | zero => rw [show i = 0 by omega] at hi; exact hi
  | succ n ih =>
    by_cases e : i = n + 1
    · rw [e] at hi; exact hi
    · cases hr : (((W.ex m).st (n + 1)).thr t).run with
      | none => rfl
      | some c =>
        rcases step_run ((W.ex m).step n) hr with ⟨c0, e1, -, -⟩ | ⟨-, -, e3⟩
        · rw [ih (by omega) (by omega)] at e1; cases e1
        · exact absurd e3 (hq n (by omega) (by omega) _)

/-- When a program is finished, the session is not in a call. -/
theorem World.Runs.idle_end {key : P → K} {W : World key} {t i j : Nat} {p : Prog K P α} {a : α} (h : W.Runs t p i j a) {m : Nat}
    (hi : (((W.ex m).st i).thr t).run = none) : (((W.ex m).st j).thr t).run = none := by
  induction h with
  | ret h hq => exact W.quiet_idle (fun n a b => hq n a b m) hi h (Nat.le_refl _)
  | @call m0 i id j j' r x k a g1 q1 hc g2 q2 hev hk ih =>
    refine ih ?_
    by_cases e : m = m0
    · subst e
      obtain ⟨t', c, refs, weak, k1, k2, k3, k4, k5, k6, k7, k8⟩ := (W.ex m).res hev
      obtain ⟨c', f1, f2, -⟩ := (W.ex m).busy hc hev (τ := j) g2 (Nat.le_refl _)
      have := ((W.ex m).inv j).inj t' t c c' k2 f1 (by rw [k3, f2])
      subst this; exact k6
    · have h1 := W.quiet_idle (fun n a b => q1 n a b m) hi g1 (Nat.le_refl _)
      refine W.quiet_idle (i := id) (j := j + 1) ?_ h1 (by omega) (Nat.le_refl _)
      intro n a b r' hl
      by_cases e' : n = id
      · subst e'
        exact e (W.sole n m m0 (by rw [hl]; simp) (by rw [hc]; simp))
      · exact q2 n (by omega) b m r' hl

/-- A program that makes no updating calls to map `m` leaves map `m` as it is: if nobody else makes a step of an update of it meanwhile, its content does not
change. -/
theorem World.Runs.unchanged {key : P → K} {W : World key} {t i j : Nat} {p : Prog K P α} {a : α} (h : W.Runs t p i j a) {m : Nat}
    (hp : ∀ r, p.Calls m r → r.isUpdate = false) (hu : W.Undisturbed m t i j) {n : Nat} (h1 : i ≤ n) (h2 : n ≤ j) : W.content n m = W.content i m := by
  refine C25_independent W h1 ?_
  intro n' a' b' t' w c hl hc
  cases hup : c.req.isUpdate with
  | false => rfl
  | true =>
    have := hu.alone n' (by omega) (by omega) t' w c hl hc hup
    subst this
    obtain ⟨e1, -, e3⟩ := (W.ex m).run_inv n' hc
    have hge : i ≤ c.inv := by
      by_cases hlt : i ≤ c.inv
      · exact hlt
      · obtain ⟨c', q1, -⟩ := (W.ex m).run_back hc (τ := i) (by omega) a'
        rw [hu.idle] at q1; cases q1
    rw [hp _ (h.calls hge (by omega) e3)] at hup; cases hup

theorem Prog.On.not_calls {m m' : Nat} (hm : m ≠ m') {p : Prog K P α} (hp : p.On m) {r : Req K P} : ¬ p.Calls m' r := by
  intro h
  induction p with
  | ret a => exact h
  | wrong => exact h
  | call m1 r' k ih =>
    rcases h with ⟨e, -⟩ | ⟨x, h⟩
    · exact hm (hp.1.symm.trans e)
    · exact ih x (hp.2 x) h

theorem Prog.Calls.iter {m m' : Nat} {f : List P → α} {r : Req K P} (h : (Prog.iter (K := K) m f).Calls m' r) : r.isUpdate = false := by
  rcases h with ⟨-, rfl⟩ | ⟨x, h⟩
  · rfl
  · cases x <;> exact h.elim

theorem ConMap.clone_calls {src dst : Nat} (hne : dst ≠ src) {r : Req K (Arc O V)} (h : (ConMap.clone (K := K) (O := O) (V := V) src dst).Calls src r) :
    r.isUpdate = false := by
  rcases Prog.Calls.bind h with h | ⟨l, h⟩
  · exact h.iter
  · exact absurd h (Prog.On.not_calls hne (Prog.On.forEach (fun _ => Prog.On.opt) l))

theorem CloneConMap.clone_calls {src dst : Nat} (hne : dst ≠ src) {r : Req K (O × V)} (h : (CloneConMap.clone (K := K) (O := O) (V := V) src dst).Calls src r) :
    r.isUpdate = false := by
  rcases Prog.Calls.bind h with h | ⟨l, h⟩
  · exact h.iter
  · exact absurd h (Prog.On.not_calls hne (Prog.On.forEach (fun _ => Prog.On.opt) l))

/-! ### C36 -/

/-- At instant `i`, the answer of `is_empty` means something: removals have not overlapped so far, and no update is unfinished (see C16, C17). -/
def Exec.Tidy {cfg : Config K P} (E : Exec cfg) (i : Nat) : Prop :=
  E.RemovalsAlone i ∧ ∀ t c, ((E.st i).thr t).run = some c → c.req.isUpdate = false

theorem World.Same.tidy {key : P → K} {W W' : World key} {i t m : Nat} (g1 : W.Same W' i) (g2 : W'.Solo t i) (h : (W.ex m).Tidy i) (j : Nat) :
    (W'.ex m).RemovalsAlone j ∧ W'.NoneElse m t i j := by
  have hno : ∀ t' c, (((W'.ex m).st i).thr t').run = some c → c.req.isUpdate = true → t' = t := by
    intro t' c hc hu
    rw [g1.st m i (Nat.le_refl _)] at hc
    rw [h.2 t' c hc] at hu; cases hu
  refine ⟨g2.serial hno ?_ j, g2.noneElse hno j⟩
  exact
    { alone := fun n hn u u' c c' => by rw [g1.st m n hn]; exact h.1.alone n hn u u' c c'
      finished := fun n hn u c => by rw [g1.st m n (by omega), g1.lab m n hn]; exact h.1.finished n hn u c }

theorem World.Same.content {key : P → K} {W W' : World key} {i n m : Nat} (g1 : W.Same W' i) (hn : n ≤ i) : W'.content n m = W.content n m := by
  have hh := g1.hash
  have hs := g1.st m n hn
  show ((W'.ex m).st n).content _ = ((W.ex m).st n).content _
  rw [hs, hh]

/-- **C36** for `ConMap`: in any state of any world - whatever stalled or aborted sessions left behind, be it in the middle of an update - a session that is not in
a call can make any sequence of calls, and if it runs alone (`Solo`: from then on only this session takes steps), all of them return, and what they return is what
they return on a plain map with the content the map has at the beginning. (For the answers of `is_empty`, see `Exec.Tidy`.) -/
theorem C36_conmap [Inhabited V] {eqv : O → K} (W : World (ConMap.keyOf (V := V) eqv)) (i t m : Nat) (hi : ∀ m, (((W.ex m).st i).thr t).run = none)
    (cs : List ((Nat → Nat) × MapCall K O V)) :
    ∃ W' j rs, W.Same W' i ∧ W'.Solo t i ∧ W'.Runs t (Prog.all (cs.map (fun c => c.2.conMap eqv m c.1))) i j rs ∧
      (((∃ addr, (addr, .isEmpty) ∈ cs) → (W.ex m).Tidy i) →
        SpecSeq (fun M c r M' => c.2.Spec eqv (fun n => Arc.mk (c.1 n)) M r M') (W.content i m) cs rs (W'.content j m)) := by
  obtain ⟨W', j, rs, g1, g2, g3⟩ := Prog.can_run (Prog.Typed.all (l := cs.map (fun c => c.2.conMap eqv m c.1)) (fun p hp => by
    obtain ⟨c, -, rfl⟩ := List.mem_map.1 hp; exact c.2.conMap_typed)) W i t hi
  refine ⟨W', j, rs, g1, g2, g3, fun ht => ?_⟩
  rw [← g1.content (Nat.le_refl _)]
  exact C29_conmap W' cs g3 (g2.undisturbed (fun m => by rw [g1.st m i (Nat.le_refl _)]; exact hi m) m j) (fun e => g1.tidy g2 (ht e) j)

theorem C36_cloneconmap [Inhabited V] {eqv : O → K} (W : World (CloneConMap.keyOf (V := V) eqv)) (i t m : Nat)
    (hi : ∀ m, (((W.ex m).st i).thr t).run = none) (cs : List (MapCall K O V)) :
    ∃ W' j rs, W.Same W' i ∧ W'.Solo t i ∧ W'.Runs t (Prog.all (cs.map (fun c => c.cloneConMap eqv m))) i j rs ∧
      ((.isEmpty ∈ cs → (W.ex m).Tidy i) →
        SpecSeq (fun M c r M' => c.Spec eqv (fun _ => Prod.mk) M r M') (W.content i m) cs rs (W'.content j m)) := by
  obtain ⟨W', j, rs, g1, g2, g3⟩ := Prog.can_run (Prog.Typed.all (l := cs.map (fun c => c.cloneConMap eqv m)) (fun p hp => by
    obtain ⟨c, -, rfl⟩ := List.mem_map.1 hp; exact c.cloneConMap_typed)) W i t hi
  refine ⟨W', j, rs, g1, g2, g3, fun ht => ?_⟩
  rw [← g1.content (Nat.le_refl _)]
  exact C29_cloneconmap W' cs g3 (g2.undisturbed (fun m => by rw [g1.st m i (Nat.le_refl _)]; exact hi m) m j) (fun e => g1.tidy g2 (ht e) j)

theorem C36_conset {eqv : T → K} (W : World eqv) (i t m : Nat) (hi : ∀ m, (((W.ex m).st i).thr t).run = none) (cs : List (SetCall K T)) :
    ∃ W' j rs, W.Same W' i ∧ W'.Solo t i ∧ W'.Runs t (Prog.all (cs.map (SetCall.conSet m))) i j rs ∧
      ((.isEmpty ∈ cs → (W.ex m).Tidy i) →
        SpecSeq (fun S c r S' => c.Spec eqv S r S') (fun v => W.content i m (eqv v) = some v) cs rs (fun v => W'.content j m (eqv v) = some v)) := by
  obtain ⟨W', j, rs, g1, g2, g3⟩ := Prog.can_run (Prog.Typed.all (l := cs.map (SetCall.conSet m)) (fun p hp => by
    obtain ⟨c, -, rfl⟩ := List.mem_map.1 hp; exact c.conSet_typed)) W i t hi
  refine ⟨W', j, rs, g1, g2, g3, fun ht => ?_⟩
  rw [← g1.content (Nat.le_refl _)]
  exact C28_set W' cs g3 (g2.undisturbed (fun m => by rw [g1.st m i (Nat.le_refl _)]; exact hi m) m j) (fun e => g1.tidy g2 (ht e) j)

theorem ConMap.clone_typed {eqv : O → K} {src dst : Nat} : (ConMap.clone (K := K) (O := O) (V := V) src dst).Typed (ConMap.keyOf eqv) :=
  Prog.Typed.iter.bind (fun _ => Prog.Typed.forEach (fun _ => Prog.Typed.opt trivial) _)

/-- **C36**: `clone`, alone, returns, and the clone is a copy of the map. -/
theorem C36_conmap_clone {eqv : O → K} (W : World (ConMap.keyOf (V := V) eqv)) (i t src dst : Nat) (hi : ∀ m, (((W.ex m).st i).thr t).run = none) :
    ∃ W' j, W.Same W' i ∧ W'.Solo t i ∧ W'.Runs t (ConMap.clone src dst) i j () ∧
      (dst ≠ src → (∀ k, W.content i dst k = none) → W'.content j dst = W.content i src ∧ W'.content j src = W.content i src) := by
  obtain ⟨W', j, a, g1, g2, g3⟩ := Prog.can_run (ConMap.clone_typed (src := src) (dst := dst)) W i t hi
  refine ⟨W', j, g1, g2, g3, fun hne hnew => ?_⟩
  have hu := g2.undisturbed (fun m => by rw [g1.st m i (Nat.le_refl _)]; exact hi m)
  rw [← g1.content (m := src) (Nat.le_refl _)]
  exact C25_conmap W' g3 (fun k => by rw [g1.content (Nat.le_refl _)]; exact hnew k) (hu dst j)
    (fun n x y => g3.unchanged (fun r h => ConMap.clone_calls hne h) (hu src j) x y)

theorem CloneConMap.clone_typed {eqv : O → K} {src dst : Nat} : (CloneConMap.clone (K := K) (O := O) (V := V) src dst).Typed (CloneConMap.keyOf eqv) :=
  Prog.Typed.iter.bind (fun _ => Prog.Typed.forEach (fun _ => Prog.Typed.opt trivial) _)

theorem C36_cloneconmap_clone {eqv : O → K} (W : World (CloneConMap.keyOf (V := V) eqv)) (i t src dst : Nat)
    (hi : ∀ m, (((W.ex m).st i).thr t).run = none) :
    ∃ W' j, W.Same W' i ∧ W'.Solo t i ∧ W'.Runs t (CloneConMap.clone src dst) i j () ∧
      (dst ≠ src → (∀ k, W.content i dst k = none) → W'.content j dst = W.content i src ∧ W'.content j src = W.content i src) := by
  obtain ⟨W', j, a, g1, g2, g3⟩ := Prog.can_run (CloneConMap.clone_typed (src := src) (dst := dst)) W i t hi
  refine ⟨W', j, g1, g2, g3, fun hne hnew => ?_⟩
  have hu := g2.undisturbed (fun m => by rw [g1.st m i (Nat.le_refl _)]; exact hi m)
  rw [← g1.content (m := src) (Nat.le_refl _)]
  exact C25_cloneconmap W' g3 (fun k => by rw [g1.content (Nat.le_refl _)]; exact hnew k) (hu dst j)
    (fun n x y => g3.unchanged (fun r h => CloneConMap.clone_calls hne h) (hu src j) x y)

/-! ### Concrete runs -/

/-- A program executed by session 0 in a new world. -/
theorem Prog.run_new {key : P → K} {p : Prog K P α} (hp : p.Typed key) (hash : Nat → K → BitVec 64) :
    ∃ (W : World key) (j : Nat) (a : α), W.hash = hash ∧ W.Runs 0 p 0 j a ∧ (∀ m, W.Undisturbed m 0 0 j) ∧ (∀ m k, W.content 0 m k = none) ∧
      (∀ m, (W.ex m).RemovalsAlone j ∧ W.NoneElse m 0 0 j) ∧ W.Solo 0 0 := by
  obtain ⟨W, h1, h2⟩ := World.start key hash
  obtain ⟨W', j, a, g1, g2, g3, g4, g5, -⟩ := p.run_alone hp W 0 0 (fun m => by rw [(W.ex m).init]; rfl)
    (fun m t' c hc => by rw [(W.ex m).init] at hc; cases hc) (fun _ m => (W.ex m).serial_init)
  refine ⟨W', j, a, by rw [g1.hash, h1], g3, g4, ?_, fun m => ⟨g2.serial (fun t' c hc => by rw [(W'.ex m).init] at hc; cases hc) (W'.ex m).serial_init j, g5 m⟩, g2⟩
  intro m k
  have : (W'.ex m).content 0 = AMap.empty := (W'.ex m).A_zero
  exact congrFun this k

/-- Calls of a map whose keys are numbers up to the last digit. -/
def exCalls : List (MapCall Nat Nat String) :=
  [.insert 13 "a", .insert 25 "b", .insert 3 "c", .getOrInsert 35 "d", .getOrInsertWith 7 (fun _ => "e"), .getOrInsertDefault 8, .remove 5, .get 5, .isEmpty,
   .extend [(1, "f"), (11, "g"), (17, "h")], .get 1, .get 7]

/-- C29 (`CloneConMap`), C36: this sequence of calls can be executed on a new map whose keys all have the same hash, and returns this. -/
example : ∃ (W : World (CloneConMap.keyOf (V := String) (fun n : Nat => n % 10))) (j : Nat) (rs : List (MapRet (Nat × String))),
    W.Runs 0 (Prog.all (exCalls.map (fun c => c.cloneConMap (fun n => n % 10) 0))) 0 j rs ∧ W.Undisturbed 0 0 0 j ∧ (W.ex 0).RemovalsAlone j ∧
      rs = [.opt none, .opt none, .opt (some (13, "a")), .eon (.existing (25, "b")), .eon (.new (7, "e")), .eon (.new (8, "")), .opt (some (25, "b")),
        .opt none, .bool false, .unit, .opt (some (11, "g")), .opt (some (17, "h"))] := by
  obtain ⟨W, j, rs, h1, h2, h3, h4, h5, h6⟩ := Prog.run_new (p := Prog.all (exCalls.map (fun c => c.cloneConMap (fun n => n % 10) 0)))
    (Prog.Typed.all (fun p hp => by obtain ⟨c, -, rfl⟩ := List.mem_map.1 hp; exact c.cloneConMap_typed)) (fun _ _ => 5)
  have hs := (h5 0).1
  refine ⟨W, j, rs, h2, h3 0, hs, ?_⟩
  have := C29_cloneconmap W exCalls h2 (h3 0) (fun _ => h5 0)
  have e : W.content 0 0 = fun _ => none := funext (h4 0)
  rw [e] at this
  unfold exCalls at this
  obtain _ | ⟨⟨rfl, rfl⟩, this⟩ := this
  obtain _ | ⟨⟨rfl, rfl⟩, this⟩ := this
  obtain _ | ⟨⟨rfl, rfl⟩, this⟩ := this
  obtain _ | ⟨c4, this⟩ := this
  simp [MapCall.Spec, GetOrInsertSpec, AMap.set] at c4
  obtain ⟨rfl, rfl⟩ := c4
  obtain _ | ⟨c5, this⟩ := this
  simp [MapCall.Spec, GetOrInsertSpec, AMap.set] at c5
  obtain ⟨rfl, rfl⟩ := c5
  obtain _ | ⟨c6, this⟩ := this
  simp [MapCall.Spec, GetOrInsertSpec, AMap.set] at c6
  obtain ⟨rfl, rfl⟩ := c6
  obtain _ | ⟨⟨rfl, rfl⟩, this⟩ := this
  obtain _ | ⟨⟨rfl, rfl⟩, this⟩ := this
  obtain _ | ⟨⟨rfl, b, rfl, hb⟩, this⟩ := this
  obtain _ | ⟨⟨rfl, c10⟩, this⟩ := this
  obtain _ | ⟨⟨rfl, rfl⟩, this⟩ := this
  obtain _ | ⟨⟨rfl, rfl⟩, this⟩ := this
  cases this
  have e1 := c10 1
  have e7 := c10 7
  have hb' : b = false := by
    cases b with
    | false => rfl
    | true => have := hb.1 rfl 3; simp [AMap.set] at this
  simp [List.zipIdx, List.filter] at e1 e7
  subst hb'
  rw [e1, e7]
  simp [AMap.set]

/-- C29 (`ConMap`): the same calls; so C29_agree applies to this run and the one above. -/
example : ∃ (W : World (ConMap.keyOf (V := String) (fun n : Nat => n % 10))) (j : Nat) (rs : List (MapRet (Arc Nat String))),
    W.Runs 0 (Prog.all ((exCalls.map (fun c => ((fun n => 100 + n : Nat → Nat), c))).map (fun c => c.2.conMap (fun n => n % 10) 0 c.1))) 0 j rs ∧
      W.Undisturbed 0 0 0 j ∧ (W.ex 0).RemovalsAlone j := by
  obtain ⟨W, j, rs, h1, h2, h3, h4, h5, h6⟩ := Prog.run_new
    (p := Prog.all ((exCalls.map (fun c => ((fun n => 100 + n : Nat → Nat), c))).map (fun c => c.2.conMap (fun n => n % 10) 0 c.1)))
    (Prog.Typed.all (fun p hp => by obtain ⟨c, -, rfl⟩ := List.mem_map.1 hp; exact c.2.conMap_typed)) (fun _ k => BitVec.ofNat 64 k)
  exact ⟨W, j, rs, h2, h3 0, (h5 0).1⟩

/-- C28: a sequence of calls of a set of numbers up to the last digit, with what it returns. -/
example : ∃ (W : World (fun n : Nat => n % 10)) (j : Nat) (rs : List (MapRet Nat)),
    W.Runs 0 (Prog.all ([.insert 13, .insert 3, .contains 3, .remove 3, .isEmpty].map (SetCall.conSet 0))) 0 j rs ∧
      W.Undisturbed 0 0 0 j ∧ (W.ex 0).RemovalsAlone j ∧ rs = [.opt none, .opt (some 13), .bool true, .opt (some 3), .bool true] := by
  obtain ⟨W, j, rs, h1, h2, h3, h4, h5, h6⟩ := Prog.run_new (key := fun n : Nat => n % 10)
    (p := Prog.all ([.insert 13, .insert 3, .contains 3, .remove 3, .isEmpty].map (SetCall.conSet 0)))
    (Prog.Typed.all (fun p hp => by obtain ⟨c, -, rfl⟩ := List.mem_map.1 hp; exact c.conSet_typed)) (fun _ _ => 5)
  have hs := (h5 0).1
  refine ⟨W, j, rs, h2, h3 0, hs, ?_⟩
  have := C28_set W _ h2 (h3 0) (fun _ => h5 0)
  have e : (fun v => W.content 0 0 (v % 10) = some v) = fun _ => False := by funext v; rw [h4]; simp
  rw [e] at this
  obtain _ | @⟨_, S1, _, _, _, _, _, ⟨⟨o1, rfl, a1⟩, b1⟩, this⟩ := this
  obtain _ | @⟨_, S2, _, _, _, _, _, ⟨⟨o2, rfl, a2⟩, b2⟩, this⟩ := this
  obtain _ | @⟨_, S3, _, _, _, _, _, ⟨⟨o3, rfl, a3⟩, b3⟩, this⟩ := this
  obtain _ | @⟨_, S4, _, _, _, _, _, ⟨⟨o4, rfl, a4⟩, b4⟩, this⟩ := this
  obtain _ | @⟨_, S5, _, _, _, _, _, ⟨⟨o5, rfl, a5⟩, b5⟩, this⟩ := this
  generalize hS6 : (fun v => W.content j 0 (v % 10) = some v) = S6 at this
  cases this
  have s1 : ∀ u, S1 u ↔ u = 13 := fun u => by rw [b1]; simp
  have s2 : ∀ u, S2 u ↔ u = 3 := by
    intro u
    rw [b2, s1]
    exact ⟨fun h => h.elim id (fun h => absurd (by rw [h.1]) h.2), Or.inl⟩
  have r1 : o1 = none := by
    cases o1 with
    | none => rfl
    | some u => exact ((a1 u).1 rfl).1.elim
  have r2 : o2 = some 13 := (a2 13).2 ⟨(s1 13).2 rfl, rfl⟩
  have r3 : o3 = true := a3.2 ⟨3, (s2 3).2 rfl, rfl⟩
  have r4 : o4 = some 3 := (a4 3).2 ⟨by rw [b3]; exact (s2 3).2 rfl, rfl⟩
  have r5 : o5 = true := a5.2 (fun u hu => by
    rw [b4, b3, s2] at hu
    obtain ⟨rfl, h⟩ := hu
    exact h rfl)
  rw [r1, r2, r3, r4, r5]

/-- C26, C25: a new map is extended and cloned. -/
example : ∃ (W : World (ConMap.keyOf (V := String) (fun n : Nat => n % 10))) (j1 j : Nat),
    W.Runs 0 (ConMap.extend 0 [(100, 3, "a"), (101, 14, "b"), (102, 13, "c")]) 0 j1 () ∧ W.Undisturbed 0 0 0 j1 ∧
      W.Runs 0 (ConMap.clone 0 1) j1 j () ∧ W.Undisturbed 1 0 j1 j ∧ (∀ k, W.content j1 1 k = none) ∧
      (∀ n, j1 ≤ n → n ≤ j → W.content n 0 = W.content j1 0) ∧ W.content j1 0 3 = some ⟨102, 13, "c"⟩ ∧ W.content j 1 3 = some ⟨102, 13, "c"⟩ := by
  obtain ⟨W, j, rs, h1, h2, h3, h4, h5, h6⟩ := Prog.run_new
    (p := (ConMap.extend 0 [(100, 3, "a"), (101, 14, "b"), (102, 13, "c")]).bind (fun _ => ConMap.clone 0 1))
    (key := ConMap.keyOf (V := String) (fun n : Nat => n % 10))
    ((Prog.Typed.forEach (fun _ => Prog.Typed.opt trivial) _).bind (fun _ => ConMap.clone_typed)) (fun _ k => BitVec.ofNat 64 k)
  obtain ⟨a, j1, g1, g2⟩ := h2.bind
  have l1 := g1.le
  have l2 := g2.le
  have u0 : W.Undisturbed 0 0 0 j1 := (h3 0).sub (h3 0).idle (Nat.le_refl _) l2
  have i1 := g1.idle_end (h3 1).idle
  have i0 := g1.idle_end (h3 0).idle
  have u1 : W.Undisturbed 1 0 j1 j := (h3 1).sub i1 l1 (Nat.le_refl _)
  have c1 : ∀ k, W.content j1 1 k = none := by
    intro k
    rw [g1.unchanged (m := 1) (fun r h => absurd h (Prog.On.not_calls (by decide : (0 : Nat) ≠ 1) (Prog.On.forEach (fun _ => Prog.On.opt) _)))
      ((h3 1).sub (h3 1).idle (Nat.le_refl _) l2) l1 (Nat.le_refl _)]
    exact h4 1 k
  have c0 : ∀ n, j1 ≤ n → n ≤ j → W.content n 0 = W.content j1 0 :=
    fun n a b => g2.unchanged (fun r h => ConMap.clone_calls (by decide) h) ((h3 0).sub i0 l1 (Nat.le_refl _)) a b
  have hc : W.content j1 0 3 = some ⟨102, 13, "c"⟩ := by
    rw [C26_conmap W g1 u0 3]
    simp [lastWith]
  refine ⟨W, j1, j, g1, u0, g2, u1, c1, c0, hc, ?_⟩
  rw [(C25_conmap W g2 c1 u1 c0).1]
  exact hc

/-- The world with one map. -/
theorem World.ofExec {key : P → K} {hash : K → BitVec 64} (E : Exec ⟨key, hash⟩) : ∃ W : World key, (W.ex 0).st = E.st ∧ (W.ex 0).lab = E.lab ∧
    (W.ex 0).ev = E.ev ∧ (∀ m, m ≠ 0 → ∀ n, (W.ex m).lab n = .idle) ∧ W.hash 0 = hash := by
  have : ∀ m, ∃ E' : Exec (⟨key, hash⟩ : Config K P), (m = 0 → E' = E) ∧ (m ≠ 0 → ∀ n, E'.lab n = .idle) := by
    intro m
    by_cases e : m = 0
    · exact ⟨E, fun _ => rfl, fun h => absurd e h⟩
    · obtain ⟨E', -, h1⟩ := Exec.ofList (cfg := (⟨key, hash⟩ : Config K P)) (ls := []) trivial
      exact ⟨E', fun h => absurd h e, fun _ n => by rw [h1]; simp⟩
  choose ex hex using this
  refine ⟨⟨fun _ => hash, ex, ?_⟩, congrArg Exec.st ((hex 0).1 rfl), congrArg Exec.lab ((hex 0).1 rfl), congrArg Exec.ev ((hex 0).1 rfl), fun m hm => (hex m).2 hm, rfl⟩
  intro i a b ha hb
  have : ∀ c, (ex c).lab i ≠ .idle → c = 0 := by
    intro c hc
    by_cases e : c = 0
    · exact e
    · exact absurd ((hex c).2 e i) hc
  rw [this a ha, this b hb]

/-- Two sessions extend the same map, with overlapping insertions for the same key. -/
def exPar : List (Label Nat (Nat × Nat)) :=
  [.pin 0, .pin 1, .call 0 (.op (.insert (7, 1))), .call 1 (.op (.insert (7, 2))), .tick 0 false, .tick 1 false, .tick 1 false,
   .call 1 (.op (.insert (8, 3))), .tick 0 false, .tick 0 false] ++ ticks 1 5 ++ ticks 0 4

/-- Keys are numbers. -/
def exPairs : Config Nat (Nat × Nat) := ⟨CloneConMap.keyOf (fun k => k), fun k => BitVec.ofNat 64 k⟩

set_option maxRecDepth 20000 in
/-- C27: session 0 inserts `(7,1)`, session 1 `(7,2)` and `(8,3)`; they overlap. -/
example : ∃ (W : World (CloneConMap.keyOf (V := Nat) (fun k : Nat => k))),
    (∀ x ∈ [(0, [(7, 1)]), (1, [(7, 2), (8, 3)])], W.Runs x.1 (CloneConMap.extend 0 x.2) 0 19 ()) ∧
    (∀ x ∈ [(0, [(7, 1)]), (1, [(7, 2), (8, 3)])], (((W.ex 0).st 0).thr x.1).run = none) ∧
    (∀ n, 0 ≤ n → n < 19 → ∀ t w c, (W.ex 0).lab n = .tick t w → (((W.ex 0).st n).thr t).run = some c → c.req.isUpdate = true →
      ∃ l, (t, l) ∈ [(0, [(7, 1)]), (1, [(7, 2), (8, 3)])]) := by
  obtain ⟨E, h1, h2, h3⟩ := Exec.ofCheck' (cfg := exPairs) 2 (ls := exPar) (by decide)
  obtain ⟨W, g1, g2, g3, g4, g5⟩ := World.ofExec (key := CloneConMap.keyOf (V := Nat) (fun k : Nat => k)) E
  have hlab : ∀ n, (W.ex 0).lab n = exPar.getD n .idle := fun n => by rw [g2, h3]
  have hev : ∀ n, (W.ex 0).ev n = evAt exPairs exPar n := fun n => by rw [g3, h2]
  have hcall : ∀ n t r m, (W.ex m).lab n = .call t r → (n = 2 ∧ t = 0) ∨ (n = 3 ∧ t = 1) ∨ (n = 7 ∧ t = 1) := by
    intro n t r m hl
    by_cases e : m = 0
    · subst e
      rw [hlab] at hl
      by_cases hn : n < 19
      · have : ∀ n, n < 19 → (match exPar.getD n .idle with
          | .call t _ => decide ((n = 2 ∧ t = 0) ∨ (n = 3 ∧ t = 1) ∨ (n = 7 ∧ t = 1))
          | _ => true) = true := by decide
        have := this n hn
        rw [hl] at this
        simpa using this
      · have hlen : exPar.length ≤ n := by
          have : exPar.length = 19 := rfl
          omega
        have : exPar.getD n .idle = .idle := by rw [List.getD, List.getElem?_eq_none hlen]; rfl
        rw [this] at hl; cases hl
    · rw [g4 m e] at hl; cases hl
  have hq : ∀ t a b, (∀ n, a ≤ n → n < b → ¬ ((n = 2 ∧ t = 0) ∨ (n = 3 ∧ t = 1) ∨ (n = 7 ∧ t = 1))) → W.Quiet t a b :=
    fun t a b h n x y m r hl => h n x y (hcall n t r m hl)
  refine ⟨W, ?_, ?_, ?_⟩
  · intro x hx
    simp only [List.mem_cons, List.not_mem_nil, or_false] at hx
    rcases hx with rfl | rfl
    · refine .call (id := 2) (j := 18) (x := .op (.opt (some (7, 2)))) (by omega) (hq 0 0 2 (by omega)) (by rw [hlab]; rfl) (by omega)
        (hq 0 3 19 (by omega)) (by rw [hev]; rfl) ?_
      exact .ret (by omega) (hq _ _ _ (by omega))
    · refine .call (id := 3) (j := 6) (x := .op (.opt none)) (by omega) (hq 1 0 3 (by omega)) (by rw [hlab]; rfl) (by omega)
        (hq 1 4 7 (by omega)) (by rw [hev]; rfl) ?_
      refine .call (id := 7) (j := 14) (x := .op (.opt none)) (by omega) (hq 1 7 7 (by omega)) (by rw [hlab]; rfl) (by omega)
        (hq 1 8 15 (by omega)) (by rw [hev]; rfl) ?_
      exact .ret (by omega) (hq _ _ _ (by omega))
  · intro x _
    rw [(W.ex 0).init]; rfl
  · intro n _ _ t w c _ hc _
    obtain ⟨-, -, e3⟩ := (W.ex 0).run_inv n hc
    rcases hcall _ _ _ _ e3 with ⟨-, rfl⟩ | ⟨-, rfl⟩ | ⟨-, rfl⟩
    · exact ⟨_, by simp; rfl⟩
    · exact ⟨[(7, 2), (8, 3)], by simp⟩
    · exact ⟨[(7, 2), (8, 3)], by simp⟩

set_option maxRecDepth 20000 in
/-- C36: two other sessions are stuck in the middle of insertions (of the same key); a third one does its work and gets the right answers. -/
example : ∃ (W : World (CloneConMap.keyOf (V := Nat) (fun k : Nat => k))) (j : Nat),
    (∃ c, (((W.ex 0).st 5).thr 0).run = some c ∧ c.req = .op (.insert (7, 1))) ∧ (∃ c, (((W.ex 0).st 5).thr 1).run = some c ∧ c.req = .op (.insert (7, 2))) ∧
    W.Solo 2 5 ∧ W.Runs 2 (Prog.all (([.insert 7 9, .get 7, .remove 7, .get 7] : List (MapCall Nat Nat Nat)).map (fun c => c.cloneConMap (fun k => k) 0))) 5 j
      [.opt none, .opt (some (7, 9)), .opt (some (7, 9)), .opt none] := by
  obtain ⟨E, h1, h2, h3⟩ := Exec.ofCheck' (cfg := exPairs) 2 (ls := exPar) (by decide)
  obtain ⟨W, g1, g2, g3, g4, g5⟩ := World.ofExec (key := CloneConMap.keyOf (V := Nat) (fun k : Nat => k)) E
  obtain ⟨W', j, rs, k1, k2, k3, k4⟩ := C36_cloneconmap W 5 2 0 (by
    intro m
    by_cases e : m = 0
    · subst e; rw [g1, h1]; decide
    · exact (W.ex m).idle_run (g4 m e) 5 2) [.insert 7 9, .get 7, .remove 7, .get 7]
  have hc : W.content 5 0 7 = none := by
    simp only [World.content, Exec.content, g1, h1, g5]
    decide
  refine ⟨W', j, ?_, ?_, k2, ?_⟩
  · rw [k1.st 0 5 (Nat.le_refl _), g1, h1]; exact ⟨_, rfl, rfl⟩
  · rw [k1.st 0 5 (Nat.le_refl _), g1, h1]; exact ⟨_, rfl, rfl⟩
  have hs := k4 (by simp)
  generalize W'.content j 0 = Mj at hs
  obtain _ | ⟨⟨rfl, e⟩, hs⟩ := hs
  obtain _ | ⟨⟨rfl, rfl⟩, hs⟩ := hs
  obtain _ | ⟨⟨rfl, rfl⟩, hs⟩ := hs
  obtain _ | ⟨⟨rfl, rfl⟩, hs⟩ := hs
  cases hs
  subst e
  simpa [AMap.set, hc] using k3

end Contrie
