import Verif.Proof.LateSim
import Verif.Props.Progress
import Verif.Props.Endless
/-
C49: the closure given to `get_or_insert_with` may take time and may use the map itself.

The machine is that of `Verif/Model/Late.lean`: a closure runs for as long as it likes (forever, if it likes), anybody may do anything meanwhile, in particular the
closure may make calls itself (through other sessions), and what it returns is not known before it returns.
-/
set_option linter.unusedSectionVars false
namespace Contrie
open scoped List
variable {K P : Type} [DecidableEq K] {cfg : Config K P}

/-- The content of the map at instant `i`. -/
def LExec.content (E : LExec cfg) (i : Nat) : AMap K P := (E.st i).m.abs cfg

/-- The operation `o`, if its closure returns what `r` says (`none`: never). -/
def Op.returning (o : Op K P) (r : Option P) : Op K P :=
  match o, r with
  | .getOrInsert k _, some p => .getOrInsert k (fun _ => p)
  | o, _ => o

/-- The history of the map operations until instant `n`, if the closure of call `id` returns what `F id` says. -/
def LExec.history (E : LExec cfg) (F : Nat → Option P) (n : Nat) : List (HEv K P) :=
  (List.range n).filterMap (fun i => match E.ev i with
    | some (.inv id (.op o)) => some (.inv id (o.returning (F id)))
    | some (.res id (.op r)) => some (.res id r)
    | _ => none)

theorem Req.resolve_op (o : Op K P) (r : Option P) : (Req.op o).resolve r = .op (o.returning r) := by
  cases r with
  | none => cases o <;> rfl
  | some p => cases o <;> rfl

theorem LExec.prompt_history (E : LExec cfg) (n : Nat) : E.prompt.history n = E.history E.returned n := by
  simp only [Exec.history, LExec.history]
  congr 1
  funext i
  simp only [LExec.prompt]
  cases E.ev i with
  | none => rfl
  | some e =>
    cases e with
    | inv id r =>
      simp only [Option.map, Event.image, Option.bind]
      cases r with
      | op o => rw [Req.resolve_op]; rfl
      | isEmpty => cases E.returned id <;> rfl
      | iter => cases E.returned id <;> rfl
    | res id r => cases r <;> rfl

theorem LExec.prompt_returns (E : LExec cfg) {j id : Nat} {r : Res P} : E.prompt.Returns j id r ↔ E.Returns j id r := by
  simp only [Exec.Returns, LExec.Returns, LExec.prompt]
  cases E.ev j with
  | none => simp
  | some e => cases e <;> simp [Event.image]

theorem LExec.prompt_invoked (E : LExec cfg) {id : Nat} {r : Req K P} (h : E.Invoked id r) : E.prompt.Invoked id (r.resolve (E.returned id)) := by
  simp only [LExec.Invoked] at h
  simp only [Exec.Invoked, LExec.prompt, h, Option.map, Event.image]

theorem LExec.invoked_of_prompt (E : LExec cfg) {id : Nat} {r : Req K P} (h : E.prompt.Invoked id r) : ∃ r', E.Invoked id r' ∧ r = r'.resolve (E.returned id) := by
  simp only [Exec.Invoked, LExec.prompt] at h
  cases he : E.ev id with
  | none => rw [he] at h; cases h
  | some e =>
    rw [he] at h
    cases e with
    | inv id' r' =>
      simp only [Option.map, Event.image, Option.some.injEq, Event.inv.injEq] at h
      obtain ⟨rfl, h⟩ := h
      exact ⟨r', he, h.symm⟩
    | res => simp [Event.image] at h

theorem LExec.prompt_tick (E : LExec cfg) {i t : Nat} {w : Bool} : E.prompt.lab i = .tick t w ↔ E.lab i = .tick t w := by
  show (E.lab i).image E.returned i = _ ↔ _
  cases E.lab i <;> simp [LLabel.image]

theorem LExec.prompt_abort (E : LExec cfg) {i t : Nat} : E.prompt.lab i = .abort t ↔ E.lab i = .abort t := by
  show (E.lab i).image E.returned i = _ ↔ _
  cases E.lab i <;> simp [LLabel.image]

theorem LExec.prompt_run (E : LExec cfg) {i t : Nat} : ((E.prompt.st i).thr t).run = none ↔ ((E.st i).thr t).run = none := by
  show ((E.st i).thr t).run.map _ = none ↔ _
  simp

/-- The call that returns in a step. -/
theorem LExec.res (E : LExec cfg) {j id : Nat} {r : Res P} (h : E.Returns j id r) : ∃ t w c refs, E.lab j = .tick t w ∧
    ((E.st j).thr t).run = some ⟨c, none⟩ ∧ c.inv = id ∧ (tick cfg (E.st j).m w c.pc).2 = .ret r refs := by
  have hs := E.step j
  simp only [LExec.Returns] at h
  cases hl : E.lab j with
  | tick t w =>
    rw [hl] at hs
    simp only [lstep] at hs
    split at hs
    · rename_i c hrun
      simp only [Option.some.injEq, Prod.mk.injEq] at hs
      rw [h] at hs
      refine ⟨t, w, c, ?_⟩
      cases hn : (tick cfg (E.st j).m w c.pc).2 with
      | goto pc ran => rw [hn] at hs; cases hs.2
      | fail e => rw [hn] at hs; cases hs.2
      | ret r' refs =>
        rw [hn] at hs
        simp only [Next.event, Option.some.injEq, Event.res.injEq] at hs
        obtain ⟨-, h1, h2⟩ := hs
        subst h2
        exact ⟨refs, rfl, hrun, h1, rfl⟩
    · cases hs
  | pin t => rw [hl] at hs; simp only [lstep] at hs; split at hs <;> simp [h] at hs
  | unpin t => rw [hl] at hs; simp only [lstep] at hs; split at hs <;> simp [h] at hs
  | call t r => rw [hl] at hs; simp only [lstep] at hs; split at hs <;> simp [h] at hs
  | closed t p => rw [hl] at hs; simp only [lstep] at hs; split at hs <;> simp [h] at hs
  | abort t => rw [hl] at hs; simp only [lstep] at hs; split at hs <;> simp [h] at hs
  | free a => rw [hl] at hs; simp [lstep, h] at hs
  | idle => rw [hl] at hs; simp [lstep, h] at hs

/-! ### Correctness -/

/-- **C49**, in general: every execution in which closures take time and do what they like is, in memory (at every instant), results and returning steps, an execution in which they are
functions that take no time, namely those that return what the closures have in fact returned. So all other claims about executions (iteration, memory, shape, progress) hold with such closures, too. -/
theorem C49_refines (E : LExec cfg) : ∃ (F : Nat → Option P) (E' : Exec cfg), (∀ id p, F id = some p ↔ ∃ i, E.Closes i id p) ∧
    (∀ i, (E'.st i).m = (E.st i).m) ∧ (∀ i t, (((E'.st i).thr t).pin = ((E.st i).thr t).pin ∧ ((E'.st i).thr t).refs = ((E.st i).thr t).refs) ∧
      (((E'.st i).thr t).run = none ↔ ((E.st i).thr t).run = none)) ∧
    (∀ j id r, E'.Returns j id r ↔ E.Returns j id r) ∧
    (∀ id o, E.Invoked id (.op o) → E'.Invoked id (.op (o.returning (F id)))) ∧ (∀ id, E.Invoked id .iter → E'.Invoked id .iter) ∧
    (∀ id, E.Invoked id .isEmpty → E'.Invoked id .isEmpty) := by
  refine ⟨E.returned, E.prompt, fun id p => ⟨E.closes_of_returned, fun ⟨i, h⟩ => E.returned_eq h⟩, fun i => rfl, fun i t => ⟨⟨rfl, rfl⟩, E.prompt_run⟩,
    fun j id r => E.prompt_returns, ?_, ?_, ?_⟩
  · intro id o h; have := E.prompt_invoked h; rwa [Req.resolve_op] at this
  · intro id h; have := E.prompt_invoked h; cases hr : E.returned id <;> rw [hr] at this <;> exact this
  · intro id h; have := E.prompt_invoked h; cases hr : E.returned id <;> rw [hr] at this <;> exact this

/-- **C49.** Linearizability: however long closures take and whatever they do, every history is well formed and has a linearization that ends in the present
content; the operation a call of `get_or_insert_with` stands for is the one whose closure returns what the closure of the call has returned (`F`). -/
theorem C49_linearizable (E : LExec cfg) : ∃ F : Nat → Option P, (∀ id p, F id = some p ↔ ∃ i, E.Closes i id p) ∧
    ∀ n, WellFormed (E.history F n) ∧ ∃ L, IsLinearization cfg.key (E.history F n) L (E.content n) := by
  refine ⟨E.returned, fun id p => ⟨E.closes_of_returned, fun ⟨i, h⟩ => E.returned_eq h⟩, fun n => ?_⟩
  rw [← E.prompt_history]
  exact C01_linearizable_content E.prompt n

/-- **C49.** A call of `get_or_insert_with` that returns `New(p)` has run its closure, between its invocation and its return, and `p` is what the closure has returned. -/
theorem C49_new (E : LExec cfg) {id j : Nat} {p : P} (hr : E.Returns j id (.op (.eon (.new p)))) :
    ∃ b i, id < b ∧ b < i ∧ i < j ∧ E.Begins b id ∧ E.Closes i id p := by
  have hr' := E.prompt_returns.mpr hr
  obtain ⟨t, c, refs, weak, h1, h2, h3, h4, h5, h6, h7, h8⟩ := E.prompt.res hr'
  obtain ⟨t', w', x, refs', g1, g2, g3, g4⟩ := E.res hr
  have ht : t' = t := by
    rw [E.prompt_tick, g1] at h1; injection h1
  subst ht
  have hc : c = (⟨x, none⟩ : LCall K P).image cfg E.returned := by
    have : ((E.st j).thr t').run.map (LCall.image cfg E.returned) = some c := h2
    rw [g2] at this
    simp only [Option.map, Option.some.injEq] at this
    exact this.symm
  have hcalls : x.calls = 1 ∧ ∃ k f, c.req = .op (.getOrInsert k f) := by
    have hcc : c.calls = x.calls := by rw [hc]; rfl
    cases hreq : c.req with
    | op o =>
      simp only [RetOK, hreq] at h4
      obtain ⟨-, ret, hret, -, -, ho⟩ := h4
      cases hret
      cases o with
      | getOrInsert k f => exact ⟨by rw [← hcc]; exact ho.2 ⟨p, rfl⟩, k, f, rfl⟩
      | get k =>
        exfalso
        rcases E.prompt.res_op (by rw [h8, hreq]) hr' with ⟨-, ⟨τ, -, -, a3⟩ | ⟨-, τ, -, -, a3⟩⟩
        · have := E.prompt.A_some a3; simp [AMap.apply] at this
        · simp [AMap.apply] at a3
      | insert q =>
        exfalso
        rcases E.prompt.res_op (by rw [h8, hreq]) hr' with ⟨-, ⟨τ, -, -, a3⟩ | ⟨-, τ, -, -, a3⟩⟩
        · have := E.prompt.A_some a3; simp [AMap.apply] at this
        · simp [AMap.apply] at a3
      | remove k =>
        exfalso
        rcases E.prompt.res_op (by rw [h8, hreq]) hr' with ⟨-, ⟨τ, -, -, a3⟩ | ⟨-, τ, -, -, a3⟩⟩
        · have := E.prompt.A_some a3; simp [AMap.apply] at this
        · simp [AMap.apply] at a3
    | isEmpty => simp only [RetOK, hreq] at h4; obtain ⟨-, b, hb, -⟩ := h4; cases hb
    | iter => simp only [RetOK, hreq] at h4; obtain ⟨-, b, hb, -⟩ := h4; cases hb
  obtain ⟨hcalls, k, f, hreq⟩ := hcalls
  have hok := E.callOK j t' _ g2
  obtain ⟨-, i, q, a1, a2, a3⟩ := hok.ran (by show x.calls ≠ 0; omega)
  simp only [g3] at a1 a3
  -- what the closure has returned is what was inserted
  have hq : q = p := by
    have hret := E.returned_eq a3
    have hinv : E.prompt.Invoked id (.op (.getOrInsert k f)) := by rw [← hreq]; exact h8
    obtain ⟨r', b1, b2⟩ := E.invoked_of_prompt hinv
    have hf : f = fun _ => q := by
      rw [hret] at b2
      cases r' with
      | op o =>
        rw [Req.resolve_op] at b2
        simp only [Req.op.injEq] at b2
        cases o with
        | getOrInsert k' f' =>
          simp only [Op.returning, Op.getOrInsert.injEq] at b2
          exact b2.2
        | _ => simp [Op.returning] at b2
      | isEmpty => simp [Req.resolve, Req.withClosure] at b2
      | iter => simp [Req.resolve, Req.withClosure] at b2
    obtain ⟨b3, -⟩ := C22_new_ran_once E.prompt hinv hr'
    rw [b3, hf]
  subst hq
  -- the closure had begun
  obtain ⟨b, b1, b2, b3⟩ := E.closes_begins a3
  exact ⟨b, i, b1, b2, a2, b3, a3⟩

/-- **C49.** The closure of a call is begun at most once, and returns at most once. -/
theorem C49_closure_once (E : LExec cfg) {i j id : Nat} : (E.Begins i id → E.Begins j id → i = j) ∧
    (∀ p q, E.Closes i id p → E.Closes j id q → i = j ∧ p = q) :=
  ⟨fun h h' => E.begins_unique h h', fun _ _ h h' => E.closes_unique h h'⟩

/-- An update of `get_or_insert_with` takes effect in the step in which the call returns. -/
theorem Exec.W_goi (E : Exec cfg) {i : Nat} {lp : LP K P} (h : E.W i = some lp) {k : K} {f : K → P} (ho : lp.op = .getOrInsert k f) :
    E.Returns i lp.id (.op lp.ret) := by
  obtain ⟨t, c, h1, h2, h3, -, weak, h5⟩ := E.W_call h
  have hs := E.step i
  rw [h5] at hs
  simp only [Contrie.step, h1, Option.some.injEq, Prod.mk.injEq] at hs
  simp only [Exec.W, h5, lpStep, h1, lpOf, h3, ho] at h
  cases hpc : c.pc with
  | travCas st hash mode shift cur parent node new kind =>
    rw [hpc] at h
    simp only at h
    split at h
    · rename_i r refs hn
      simp only [Option.some.injEq] at h
      simp only [Exec.Returns]
      rw [← hs.2, hpc, hn, h2, ← h]
      rfl
    · cases h
  | remCas key shift cur levels node new deleted =>
    have := E.run_pcinv h1
    rw [PCInv, hpc] at this
    have := this.1
    rw [h3, ho] at this
    cases this
  | _ => rw [hpc] at h; cases h

/-- **C49**, linearization points: there is an assignment `eff` of calls to steps such that the content changes only in the steps that have a call assigned, there exactly as this
call prescribes and with the result this call returns (if it ever returns); the step lies between invocation and return; no call is assigned to two steps. A
`get_or_insert_with` that inserts does so after its closure has returned, and it inserts what the closure has returned. -/
theorem C49_atomic_updates (E : LExec cfg) : ∃ (F : Nat → Option P) (eff : Nat → Option (SOp K P)), (∀ id p, F id = some p ↔ ∃ i, E.Closes i id p) ∧
    (∀ i, eff i = none → E.content (i + 1) = E.content i) ∧
    (∀ i x, eff i = some x → x.id < i ∧ (∃ o, E.Invoked x.id (.op o) ∧ x.op = o.returning (F x.id)) ∧
      (E.content i).apply cfg.key x.op = (E.content (i + 1), x.ret) ∧
      (∀ j r, E.Returns j x.id r → i ≤ j ∧ r = .op x.ret) ∧
      ∀ p, x.ret = .eon (.new p) → ∃ j, x.id < j ∧ j < i ∧ E.Closes j x.id p) ∧
    (∀ i i' x x', eff i = some x → eff i' = some x' → x.id = x'.id → i = i') := by
  refine ⟨E.returned, fun i => (E.prompt.W i).map (fun lp => ⟨lp.id, lp.op, lp.ret⟩),
    fun id p => ⟨E.closes_of_returned, fun ⟨i, h⟩ => E.returned_eq h⟩, ?_, ?_, ?_⟩
  · intro i h
    exact E.prompt.A_none (by simpa using h)
  · intro i x h
    obtain ⟨lp, hw, rfl⟩ := Option.map_eq_some_iff.mp h
    obtain ⟨h1, h2, h3⟩ := E.prompt.W_in hw
    have hA := E.prompt.A_some hw
    refine ⟨h1, ?_, hA, ?_, ?_⟩
    · obtain ⟨r, g1, g2⟩ := E.invoked_of_prompt h2
      cases r with
      | op o => rw [Req.resolve_op] at g2; simp only [Req.op.injEq] at g2; exact ⟨o, g1, g2⟩
      | isEmpty => cases he : E.returned lp.id <;> rw [he] at g2 <;> cases g2
      | iter => cases he : E.returned lp.id <;> rw [he] at g2 <;> cases g2
    · intro j r hr
      have hr := E.prompt_returns.mpr hr
      refine ⟨h3 j r hr, ?_⟩
      obtain ⟨t, c, refs, weak, g1, g2, g3, g4, g5, g6, g7, g8⟩ := E.prompt.res hr
      simp only at g8
      rw [h2] at g8
      have hreq : c.req = .op lp.op := by injection g8 with g8; injection g8 with _ g8; exact g8.symm
      simp only [RetOK, hreq] at g4
      obtain ⟨-, ret, rfl, -⟩ := g4
      rcases E.prompt.res_op h2 hr with ⟨-, ⟨τ, a1, a2, a3⟩ | ⟨a0, -⟩⟩
      · have := E.prompt.W_unique hw a3 rfl
        subst this
        rw [hw] at a3
        injection a3 with a3
        rw [a3]
      · exact absurd rfl (a0 i lp hw)
    · intro p hp
      simp only at hp
      have hop : ∃ k f, lp.op = .getOrInsert k f := by
        cases ho : lp.op with
        | getOrInsert k f => exact ⟨k, f, rfl⟩
        | get => rw [ho, hp] at hA; simp [AMap.apply] at hA
        | insert => rw [ho, hp] at hA; simp [AMap.apply] at hA
        | remove => rw [ho, hp] at hA; simp [AMap.apply] at hA
      obtain ⟨k, f, ho⟩ := hop
      have hr := E.prompt.W_goi hw ho
      rw [hp] at hr
      obtain ⟨b, j, a1, a2, a3, -, a5⟩ := C49_new E (E.prompt_returns.mp hr)
      exact ⟨j, by show lp.id < j; omega, a3, a5⟩
  · intro i i' x x' h h' he
    obtain ⟨lp, hw, rfl⟩ := Option.map_eq_some_iff.mp h
    obtain ⟨lp', hw', rfl⟩ := Option.map_eq_some_iff.mp h'
    exact E.prompt.W_unique hw hw' he

/-- **C49.** A closure is begun only by a call of `get_or_insert_with`, and only if the key was absent at some instant since the invocation. -/
theorem C49_closure_only_if_absent (E : LExec cfg) {i id : Nat} (h : E.Begins i id) :
    ∃ k f τ, E.Invoked id (.op (.getOrInsert k f)) ∧ id ≤ τ ∧ τ ≤ i ∧ E.content τ k = none := by
  obtain ⟨t, w, c, m, g0, g1, g2, g3⟩ := h
  have hrun : E.prompt.ClosureRuns i id := by
    rcases E.run_step i t g3 with ⟨h0, -, h1⟩ | ⟨r, h1, e⟩ | ⟨weak, c', pc, h1, h2, h3, e⟩ | ⟨weak, c', pc, h1, h2, h3, e⟩ | ⟨p, c', m', h1, h2, e⟩
    · exact absurd g0 (h0 w)
    · cases e
    · injection e with e1 e2
      subst e1
      obtain ⟨-, -, a3, -⟩ := tick_resolve (cfg := cfg) (E.returned c.inv) (E.st i).m weak c.pc (E.callOK i t _ g1).tidy
      obtain ⟨-, -, pc', a4, -⟩ := a3 pc h3
      refine ⟨t, weak, (⟨c, none⟩ : LCall K P).image cfg E.returned, pc', E.prompt_tick.mpr h1, ?_, g2, a4⟩
      show ((E.st i).thr t).run.map _ = _
      rw [g1]; rfl
    · cases e
    · cases e
  obtain ⟨k, f, τ, h1, h2, h3, h4⟩ := C22_closure_only_if_absent E.prompt hrun
  obtain ⟨r, b1, b2⟩ := E.invoked_of_prompt h1
  cases r with
  | op o =>
    rw [Req.resolve_op] at b2
    simp only [Req.op.injEq] at b2
    cases o with
    | getOrInsert k' f' =>
      refine ⟨k', f', τ, b1, h2, h3, ?_⟩
      have hk : k = k' := by
        cases hx : E.returned id with
        | none => rw [hx] at b2; simp only [Op.returning, Op.getOrInsert.injEq] at b2; exact b2.1
        | some p => rw [hx] at b2; simp only [Op.returning, Op.getOrInsert.injEq] at b2; exact b2.1
      rw [← hk]; exact h4
    | _ => simp [Op.returning] at b2
  | isEmpty => cases he : E.returned id <;> rw [he] at b2 <;> cases b2
  | iter => cases he : E.returned id <;> rw [he] at b2 <;> cases b2

/-! ### Safety -/

/-- **C49.** No call fails. -/
theorem C49_no_failure (E : LExec cfg) (i t : Nat) : ((E.st i).thr t).failed = none := ((E.prompt.inv i).thr t).noFail

/-- Session `t` keeps its guard from instant `i` until instant `n`. -/
def LExec.KeepsGuard (E : LExec cfg) (t i n : Nat) : Prop := ∀ j, i ≤ j → j < n → E.lab j ≠ .unpin t ∧ E.lab j ≠ .abort t

/-- **C49.** The elements a call returns references to stay intact for as long as the session keeps its guard, whatever closures do meanwhile. -/
theorem C49_returned_references (E : LExec cfg) {j id t : Nat} {r : Ret P} {weak : Bool} (hr : E.Returns j id (.op r)) (hl : E.lab j = .tick t weak)
    {p : P} (hp : p ∈ (Res.op r).elements) : ∃ a items, p ∈ items ∧
      ∀ n, j < n → E.KeepsGuard t (j + 1) n → (E.st n).m.deref a = some (.data items) := by
  obtain ⟨a, items, h1, h2⟩ := C06_returned_references E.prompt (E.prompt_returns.mpr hr) (E.prompt_tick.mpr hl) hp
  refine ⟨a, items, h1, fun n hn hk => h2 n hn ?_⟩
  intro i hi hin
  obtain ⟨k1, k2⟩ := hk i hi hin
  refine ⟨?_, fun e => k2 (E.prompt_abort.mp e)⟩
  show (E.lab i).image E.returned i ≠ _
  cases hx : E.lab i with
  | unpin t' => rw [hx] at k1; simpa [LLabel.image] using k1
  | _ => simp [LLabel.image]

/-! ### Progress -/

/-- **C49.** No lock is held while a closure runs: whatever other sessions are in the middle of, a session without a guard can take one, a session that holds a guard and is not in a call can
start any call, a call that is not running a closure can take its next step, and a closure can return. -/
theorem C49_never_blocked (E : LExec cfg) (i t : Nat) :
    (((E.st i).thr t).pin = none → (lstep cfg (E.st i) (.pin t)).isSome) ∧
    (∀ r p, ((E.st i).thr t).pin = some p → ((E.st i).thr t).run = none → (lstep cfg (E.st i) (.call t r)).isSome) ∧
    (∀ c w, ((E.st i).thr t).run = some ⟨c, none⟩ → (lstep cfg (E.st i) (.tick t w)).isSome) ∧
    (∀ c m p, ((E.st i).thr t).run = some ⟨c, some m⟩ → (lstep cfg (E.st i) (.closed t p)).isSome) := by
  have hf := C49_no_failure E i t
  refine ⟨fun h => ?_, fun r p h1 h2 => ?_, fun c w h => ?_, fun c m p h => ?_⟩
  · simp [lstep, h, hf]
  · simp [lstep, h1, h2, hf]
  · simp [lstep, h]
  · simp [lstep, h]

/-- **C49.** Nobody waits for a closure: if finitely many sessions (those below `N`) keep taking steps in calls forever (weak compare-exchanges not failing spuriously from some
point on), calls complete again and again, however many closures are running that never return. -/
theorem C49_lock_free (E : LExec cfg) (N : Nat) (hN : ∀ i t w, E.lab i = .tick t w → t < N)
    (hw : ∃ n, ∀ i, n ≤ i → ∀ t, E.lab i ≠ .tick t true)
    (hinf : ∀ n, ∃ i, n ≤ i ∧ ∃ t, E.lab i = .tick t false) :
    ∀ n, ∃ i, n ≤ i ∧ ((∃ id r, E.Returns i id r) ∨ ∃ t, E.lab i = .abort t) := by
  intro n
  obtain ⟨i, hi, h⟩ := C09_lock_free E.prompt N (fun i t w h => hN i t w (E.prompt_tick.mp h))
    (by obtain ⟨n, h⟩ := hw; exact ⟨n, fun i hi t e => h i hi t (E.prompt_tick.mp e)⟩)
    (fun n => by obtain ⟨i, h1, t, h2⟩ := hinf n; exact ⟨i, h1, t, E.prompt_tick.mpr h2⟩) n
  refine ⟨i, hi, ?_⟩
  rcases h with ⟨id, r, h⟩ | ⟨t, h⟩
  · exact Or.inl ⟨id, r, E.prompt_returns.mp h⟩
  · exact Or.inr ⟨t, E.prompt_abort.mp h⟩

/-- **C49.** Solo termination: a call that is in progress at instant `n`, whatever calls and closures of other sessions have been stopped half-way, and that is from then on the
only one that takes steps (and takes them, as long as it goes on; so its own closure, if it runs one, returns), comes to its end. -/
theorem C49_solo (E : LExec cfg) {n t : Nat} (hr : ((E.st n).thr t).run ≠ none)
    (hsolo : ∀ i, n ≤ i → ∀ u w, E.lab i = .tick u w → u = t ∧ w = false)
    (hgo : ∀ m, n ≤ m → (∀ i, n ≤ i → i ≤ m → ((E.st i).thr t).run ≠ none) → ∃ i, m ≤ i ∧ ∃ w, E.lab i = .tick t w) :
    ∃ i, n ≤ i ∧ ((E.st i).thr t).run ≠ none ∧ ((E.st (i + 1)).thr t).run = none := by
  obtain ⟨H, h1, h2⟩ := C38_honest_is_special_case E.prompt
  have hrun : ∀ i, ((H.st i).thr t).run = none ↔ ((E.st i).thr t).run = none := fun i => by rw [h1]; exact E.prompt_run
  obtain ⟨i, hi, g1, g2⟩ := C44_solo H (n := n) (t := t) (fun e => hr ((hrun n).mp e))
    (fun i hi u w o h => hsolo i hi u w (E.prompt_tick.mp ((h2 i u w).mp ⟨o, h⟩)))
    (fun m hm h => by
      obtain ⟨i, hi, w, hl⟩ := hgo m hm (fun i a b e => h i a b ((hrun i).mpr e))
      obtain ⟨o, ho⟩ := (h2 i t w).mpr (E.prompt_tick.mpr hl)
      exact ⟨i, hi, w, o, ho⟩)
  exact ⟨i, hi, fun e => g1 ((hrun i).mpr e), (hrun _).mp g2⟩

/-- Is this a step of session `t` in a call? -/
def LLabel.isTick (t : Nat) : LLabel K P → Bool
  | .tick t' _ => decide (t' = t)
  | _ => false

/-- Number of accesses to shared memory session `t` makes from instant `s` on and before instant `e`. -/
def LExec.accesses (E : LExec cfg) (t s e : Nat) : Nat := ((List.range e).filter (fun i => decide (s ≤ i) && (E.lab i).isTick t)).length

theorem LExec.prompt_accesses (E : LExec cfg) (t s e : Nat) : E.prompt.accesses t s e = E.accesses t s e := by
  simp only [Exec.accesses, LExec.accesses]
  congr 2
  funext i
  show (_ && ((E.lab i).image E.returned i).isTick t) = _
  cases E.lab i <;> rfl

/-- **C49.** Lookups stay wait-free: 17 accesses, whatever closures (and all else) do meanwhile. -/
theorem C49_get_wait_free (E : LExec cfg) {id t : Nat} {k : K} (h : E.lab id = .call t (.op (.get k))) :
    (∀ n, id < n → 17 ≤ E.accesses t id n →
      (∃ j r, id < j ∧ j < n ∧ E.Returns j id r) ∨ ∃ j, id < j ∧ j < n ∧ E.lab j = .abort t) ∧
    ∀ j r, E.Returns j id r → E.accesses t id (j + 1) ≤ 17 := by
  have h' : E.prompt.lab id = .call t (.op (.get k)) := by
    show (E.lab id).image E.returned id = _
    rw [h]
    simp only [LLabel.image, Req.resolve_op]
    cases E.returned id <;> rfl
  obtain ⟨h1, h2⟩ := C08_get_wait_free E.prompt h'
  constructor
  · intro n hn h17
    rcases h1 n hn (by rw [E.prompt_accesses]; exact h17) with ⟨j, r, a, b, c⟩ | ⟨j, a, b, c⟩
    · exact Or.inl ⟨j, r, a, b, E.prompt_returns.mp c⟩
    · exact Or.inr ⟨j, a, b, E.prompt_abort.mp c⟩
  · intro j r hr
    rw [← E.prompt_accesses]
    exact h2 j r (E.prompt_returns.mpr hr)

/-! ### A run -/

/-- State after the first `i` labels. -/
def lStAt (cfg : Config K P) (ls : List (LLabel K P)) : Nat → LState K P
  | 0 => LState.init
  | i + 1 => ((lstep cfg (lStAt cfg ls i) (ls.getD i .idle)).map (·.1)).getD LState.init

/-- Event of step `i`. -/
def lEvAt (cfg : Config K P) (ls : List (LLabel K P)) (i : Nat) : Option (Event K P) :=
  ((lstep cfg (lStAt cfg ls i) (ls.getD i .idle)).map (·.2)).getD none

/-- Contract of the caller, for evaluation. -/
def LLabel.wfb (cfg : Config K P) (s : LState K P) : LLabel K P → Bool
  | .call _ (.op (.getOrInsert k f)) => decide (cfg.key (f k) = k)
  | .closed t p => match (s.thr t).run with
    | some ⟨c, _⟩ => match c.req with
      | .op (.getOrInsert k _) => decide (cfg.key p = k)
      | _ => true
    | none => true
  | .free _ => false
  | _ => true

theorem LLabel.wfb_ok {s : LState K P} {l : LLabel K P} (h : l.wfb cfg s = true) : l.WF cfg s ∧ l.enabled s := by
  cases l with
  | call t r =>
    refine ⟨?_, trivial⟩
    cases r with
    | op o =>
      cases o with
      | getOrInsert k f => simp only [LLabel.wfb, decide_eq_true_eq] at h; exact h
      | _ => trivial
    | _ => trivial
  | closed t p =>
    refine ⟨?_, trivial⟩
    intro c m k f h1 h2
    simp only [LLabel.wfb, h1, h2] at h
    exact of_decide_eq_true h
  | free a => cases h
  | _ => exact ⟨trivial, trivial⟩

/-- The check: every label can be executed, and obeys its contract. -/
def lRunOKb (cfg : Config K P) (s : LState K P) : List (LLabel K P) → Bool
  | [] => true
  | l :: ls => l.wfb cfg s && match lstep cfg s l with
    | none => false
    | some (s', _) => lRunOKb cfg s' ls

theorem LExec.ofCheck {ls : List (LLabel K P)} (h : lRunOKb cfg LState.init ls = true) :
    ∃ E : LExec cfg, (∀ i, E.st i = lStAt cfg ls i) ∧ (∀ i, E.lab i = ls.getD i .idle) ∧ ∀ i, E.ev i = lEvAt cfg ls i := by
  have key : ∀ (ls : List (LLabel K P)) (s : LState K P), lRunOKb cfg s ls = true →
      ∀ i (f : Nat → LState K P), f 0 = s → (∀ j, f (j + 1) = ((lstep cfg (f j) (ls.getD j .idle)).map (·.1)).getD LState.init) →
      (∃ e, lstep cfg (f i) (ls.getD i .idle) = some (f (i + 1), e)) ∧ (ls.getD i .idle).WF cfg (f i) ∧ (ls.getD i .idle).enabled (f i) := by
    intro ls
    induction ls with
    | nil =>
      intro s _ i f _ hf
      have hi : ([] : List (LLabel K P)).getD i .idle = .idle := by simp
      have := hf i
      rw [hi] at this ⊢
      exact ⟨⟨none, by rw [this]; rfl⟩, trivial, trivial⟩
    | cons l ls ih =>
      intro s hs i f h0 hf
      simp only [lRunOKb, Bool.and_eq_true] at hs
      obtain ⟨h1, h2⟩ := hs
      split at h2
      · cases h2
      · next s' e hs' =>
        have h3 := hf 0
        rw [h0] at h3
        simp only [List.getD_cons_zero, hs', Option.map, Option.getD_some] at h3
        cases i with
        | zero =>
          simp only [List.getD_cons_zero, h0]
          exact ⟨⟨e, by rw [hs', h3]⟩, LLabel.wfb_ok h1⟩
        | succ i =>
          have := ih s' h2 i (fun j => f (j + 1)) h3 (by intro j; have := hf (j + 1); simpa using this)
          simpa using this
  refine ⟨⟨lStAt cfg ls, fun i => ls.getD i .idle, lEvAt cfg ls, rfl, ?_, ?_, ?_⟩, fun _ => rfl, fun _ => rfl, fun _ => rfl⟩
  · intro i
    obtain ⟨⟨e, he⟩, -⟩ := key ls _ h i (lStAt cfg ls) rfl (fun _ => rfl)
    have : lEvAt cfg ls i = e := by simp only [lEvAt, he]; rfl
    rw [this]; exact he
  · intro i; exact (key ls _ h i (lStAt cfg ls) rfl (fun _ => rfl)).2.2
  · intro i; exact (key ls _ h i (lStAt cfg ls) rfl (fun _ => rfl)).2.1

/-- Closures that use the map. Session 0 asks for key 7; its closure (through session 1) asks for key 7 itself; the closure of that one (through session 2)
inserts key 7, and looks it up; then both closures return, the inner one first. -/
def exNested : List (LLabel Nat (Nat × Nat)) :=
  [.pin 0, .call 0 (.op (.getOrInsert 7 (fun k => (k, 0)))), .tick 0 false,
   .pin 1, .call 1 (.op (.getOrInsert 7 (fun k => (k, 0)))), .tick 1 false,
   .pin 2, .call 2 (.op (.insert (7, 3))), .tick 2 false, .tick 2 false, .call 2 (.op (.get 7)), .tick 2 false, .unpin 2,
   .closed 1 (7, 2), .tick 1 false, .tick 1 false, .unpin 1,
   .closed 0 (7, 1), .tick 0 false, .tick 0 false,
   .call 0 (.op (.getOrInsert 8 (fun k => (k, 0)))), .tick 0 false, .tick 0 false, .tick 0 false, .tick 0 false, .closed 0 (8, 5), .tick 0 false]

set_option maxRecDepth 20000 in
/-- C49 applies to `exNested`: both closures find, when they have returned, that the innermost insertion has come first; the last call inserts what its closure returned. -/
example : ∃ E : LExec exCfg, E.Begins 2 1 ∧ E.Begins 5 4 ∧ E.InClosure 10 0 1 ∧ E.InClosure 10 1 4 ∧ E.Returns 11 10 (.op (.opt (some (7, 3)))) ∧
    E.Closes 13 4 (7, 2) ∧ E.Returns 15 4 (.op (.eon (.existing (7, 3)))) ∧ E.Closes 17 1 (7, 1) ∧ E.Returns 19 1 (.op (.eon (.existing (7, 3)))) ∧
    E.Closes 25 20 (8, 5) ∧ E.Returns 26 20 (.op (.eon (.new (8, 5)))) := by
  obtain ⟨E, h1, h2, h3⟩ := LExec.ofCheck (cfg := exCfg) (ls := exNested) (by decide)
  refine ⟨E, ?_⟩
  simp only [LExec.Begins, LExec.InClosure, LExec.Closes, LExec.Returns, h1, h2, h3]
  exact ⟨⟨0, false, _, _, rfl, rfl, rfl, rfl⟩, ⟨1, false, _, _, rfl, rfl, rfl, rfl⟩, ⟨_, _, rfl, rfl⟩, ⟨_, _, rfl, rfl⟩, rfl,
    ⟨1, rfl, _, _, rfl, rfl⟩, rfl, ⟨0, rfl, _, _, rfl, rfl⟩, rfl, ⟨0, rfl, _, _, rfl, rfl⟩, rfl⟩

end Contrie
