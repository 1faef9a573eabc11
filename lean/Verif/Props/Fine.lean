import Verif.Proof.FineRun
import Verif.Props.Reuse
/-
C50: the claims hold at the granularity of the code.

The machine is that of `Verif/Model/Fine.lean`: an access to shared memory and what the code does after it are separate steps, and anything can happen in between; nodes are allocated and filled in before
they are published, data nodes are read, unlinked nodes handed to the collector, unpublished nodes dropped and results returned after the access; the allocator reuses memory.
-/
set_option linter.unusedSectionVars false
namespace Contrie
open scoped List
variable {K P : Type} [DecidableEq K] {cfg : Config K P}

/-- The content of the map at instant `i`. -/
def FExec.content (F : FExec cfg) (i : Nat) : AMap K P := (F.st i).plain.content cfg

/-- Call `id` is invoked with request `r` (at instant `id`). -/
def FExec.Invoked (F : FExec cfg) (id : Nat) (r : Req K P) : Prop := F.ev id = some (.inv id r)

/-- Call `id` returns `r` in step `j`. -/
def FExec.Returns (F : FExec cfg) (j id : Nat) (r : Res P) : Prop := F.ev j = some (.res id r)

/-- Session `t` keeps its guard from instant `i` until instant `n`. -/
def FExec.KeepsGuard (F : FExec cfg) (t i n : Nat) : Prop := ∀ j, i ≤ j → j < n → F.lab j ≠ .unpin t ∧ F.lab j ≠ .abort t

/-- What is the same of a call. -/
def Call.gist (c : Call K P) : Nat × Req K P × Nat × Nat := (c.inv, c.req, c.calls, c.ticks)

/-- **C50.** Every execution at the granularity of the code is an execution of the machine with larger steps: the content is the same at every instant, the same calls are invoked at the same instants, the
guards are the same, and every result is that of a call that has returned there in the step of its last access, a bit earlier. So all claims about the results, the content and the references hold. -/
theorem C50_refines (F : FExec cfg) : ∃ E : Exec cfg, (∀ i, E.content i = F.content i) ∧ (∀ id r, E.Invoked id r ↔ F.Invoked id r) ∧
    (∀ j id r, F.Returns j id r → ∃ q, q < j ∧ E.Returns q id r) ∧ (∀ i t, ((E.st i).thr t).pin = ((F.st i).thr t).th.pin) ∧
    (∀ i t, ((F.st i).thr t).got = none → ((E.st i).thr t).run.map Call.gist = ((F.st i).thr t).th.run.map Call.gist) := by
  refine ⟨F.coarse.fresh, fun i => ?_, fun id r => F.coarse_ev.symm, ?_, ?_, ?_⟩
  · show (F.coarse.fresh.st i).m.abs cfg = (F.st i).m.abs cfg
    rw [F.content_eq i]
    exact (F.coarse.content_eq i).symm
  · intro j id r h
    obtain ⟨t, q, w, w', -, h1, -, h2, -⟩ := F.res h
    exact ⟨q, h1, h2⟩
  · intro i t
    rw [← ((F.rel i).thr t).pin, (F.coarse.rel i).thr t]
    rfl
  · intro i t hg
    rw [← F.coarse_run hg, (F.coarse.rel i).thr t]
    simp only [Thread.ren, Option.map_map]
    rfl

/-- **C50.** Linearizability, at the granularity of the code: the history until any instant has a linearization with the content at this instant as its outcome. -/
theorem C50_linearizable (F : FExec cfg) (n : Nat) : WellFormed (F.history n) ∧ ∃ L, IsLinearization cfg.key (F.history n) L (F.content n) := by
  obtain ⟨-, L, h⟩ := C01_linearizable_content F.coarse.fresh n
  obtain ⟨h1, h2⟩ := F.linearization h
  refine ⟨h1, L, ?_⟩
  have e : F.coarse.fresh.content n = F.content n := by
    show (F.coarse.fresh.st n).m.abs cfg = (F.st n).m.abs cfg
    rw [F.content_eq n]
    exact (F.coarse.content_eq n).symm
  rw [← e]
  exact h2

/-- **C50.** No call ever fails: whenever a pointer is followed, now or a while after it was loaded, what the code relies on is there. -/
theorem C50_no_failure (F : FExec cfg) (i t : Nat) : ((F.st i).thr t).th.failed = none := by
  rw [← ((F.rel i).thr t).failed]
  exact C34_no_failure F.coarse i t

/-- **C50.** What a call has returned a reference to stays where it is, untouched, for as long as the session keeps its guard. -/
theorem C50_returned_references (F : FExec cfg) {j id t : Nat} {r : Ret P} {weak : Bool} (hr : F.Returns j id (.op r)) (hl : F.lab j = .tick t weak)
    {p : P} (hp : p ∈ (Res.op r).elements) : ∃ x items, p ∈ items ∧ ∀ n, j ≤ n → F.KeepsGuard t (j + 1) n → (F.st n).m.deref x = some (.data items) := by
  obtain ⟨t', q, w, w', h1, h2, h3, h4, h5, -⟩ := F.res hr
  rw [hl] at h1
  injection h1 with e _
  subst e
  have hg : ((F.st q).thr t).got = none := by
    obtain ⟨t'', w'', c, k1, k2, k3⟩ := F.coarse_res h4
    obtain ⟨t3, c0, refs, weak3, m1, -⟩ := F.coarse.fresh.res (show F.coarse.fresh.ev q = some (.res id (.op r)) from h4)
    have m1 := (F.coarse.fresh_lab_iff q (by simp) (by simp)).mp m1
    obtain ⟨m2, m3⟩ := F.coarse_tick.mp m1
    rw [h3] at m2
    injection m2 with m2 _
    rw [m2]; exact m3
  obtain ⟨x, items, g1, g2⟩ := C34_returned_references F.coarse (r := r) h4 (F.coarse_tick.mpr ⟨h3, hg⟩) hp
  refine ⟨x, items, g1, fun n hn hk => ?_⟩
  refine (F.rel n).mem.sub.live x _ (g2 n (by omega) ?_).1
  intro i hi hi'
  have key : F.lab i ≠ .unpin t ∧ F.lab i ≠ .abort t := by
    by_cases hij : i ≤ j
    · have hgi := h5 i (by omega) hij
      constructor
      · intro e
        have hs := F.step i
        simp only [fstep, F.addr_free i, Bool.false_eq_true, ↓reduceIte, e] at hs
        split at hs
        · next hrn _ => exact hgi (((F.rel i).thr t).idle hrn).1
        · cases hs
      · intro e
        by_cases hij' : i = j
        · rw [hij', hl] at e; cases e
        · have hs := F.step i
          simp only [fstep, F.addr_free i, Bool.false_eq_true, ↓reduceIte, e] at hs
          split at hs
          · simp only [Option.some.injEq, Prod.mk.injEq] at hs
            refine h5 (i + 1) (by omega) (by omega) ?_
            rw [← hs.1]
            simp only [upd_same]
          · cases hs
    · exact hk i (by omega) hi'
  refine ⟨fun e => ?_, fun e => key.2 (F.coarse_abort e)⟩
  rcases F.coarse_unpin e with e | e
  · exact key.1 e
  · exact key.2 e

/-- **C50.** Every node that exists is exactly one of: reachable from the root; handed to the collector; built by exactly one session, which has not published it yet; unlinked by exactly one session, which is
about to hand it to the collector (in its next step). So nothing leaks and nothing is destroyed twice. -/
theorem C50_every_node_accounted (F : FExec cfg) (n a : Nat) (ha : (F.st n).m.deref a ≠ none) :
    ((Linked (F.st n).m a ∨ (F.st n).m.retired a ≠ none) ∨ (∃ t, ((F.st n).thr t).owned = some a) ∨ ∃ t, ((F.st n).thr t).unlinked = some a) ∧
    ¬ (Linked (F.st n).m a ∧ (F.st n).m.retired a ≠ none) ∧
    (∀ t, ((F.st n).thr t).owned = some a → ¬ Linked (F.st n).m a ∧ (F.st n).m.retired a = none ∧ ∀ t', ((F.st n).thr t').unlinked ≠ some a ∧
      (((F.st n).thr t').owned = some a → t' = t)) ∧
    (∀ t, ((F.st n).thr t).unlinked = some a → ¬ Linked (F.st n).m a ∧ (F.st n).m.retired a = none ∧ ∀ t', ((F.st n).thr t').unlinked = some a → t' = t) := by
  have h := F.rel n
  have hret : ∀ {a}, (F.coarse.st n).m.deref a ≠ none → ((F.coarse.st n).m.retired a ≠ none ↔ ¬ Linked (F.coarse.st n).m a) := fun hx => F.coarse.retired_iff hx
  have hunl : ∀ t, ((F.st n).thr t).unlinked = some a → ¬ Linked (F.coarse.st n).m a := fun t hu => by
    obtain ⟨k1, τ, k2⟩ := h.unlinked_live hu
    exact (hret k1).mp (by rw [k2]; simp)
  refine ⟨?_, ?_, ?_, ?_⟩
  · rcases h.mem.only a ha with hr | ho
    · by_cases hl : Linked (F.coarse.st n).m a
      · exact .inl (.inl ((F.linked_iff n a).mpr hl))
      · obtain ⟨τ, hτ⟩ := Option.ne_none_iff_exists'.mp ((hret hr).mpr hl)
        rcases h.mem.late a τ hr hτ with k | k
        · exact .inl (.inr k)
        · exact .inr (.inr k)
    · exact .inr (.inl ho)
  · rintro ⟨hl, hr⟩
    have hl := (F.linked_iff n a).mp hl
    have hlive := F.coarse.linked_live n a hl
    obtain ⟨τ, hτ⟩ := Option.ne_none_iff_exists'.mp hr
    obtain ⟨τ', -, k⟩ := h.mem.ret a τ hlive hτ
    exact (hret hlive).mp (by rw [k]; simp) hl
  · intro t ho
    obtain ⟨k1, k2, -⟩ := h.mem.ownd t a ho
    refine ⟨fun hl => F.coarse.linked_live n a ((F.linked_iff n a).mp hl) k1, k2, fun t' => ⟨fun hu => (h.unlinked_live hu).1 k1, fun ho' => h.mem.inj t' t a ho' ho⟩⟩
  · intro t hu
    exact ⟨fun hl => hunl t hu ((F.linked_iff n a).mp hl), h.mem.unret t a hu, fun t' hu' => h.mem.uinj t' t a hu' hu⟩

/-- **C50.** What is reachable from the root, what a session has built, and what it has unlinked exists: it has been neither destroyed nor given back. -/
theorem C50_nodes_exist (F : FExec cfg) (n a : Nat) (h : Linked (F.st n).m a ∨ (∃ t, ((F.st n).thr t).owned = some a) ∨ ∃ t, ((F.st n).thr t).unlinked = some a) :
    (F.st n).m.deref a ≠ none := by
  rcases h with h | ⟨t, h⟩ | ⟨t, h⟩
  · obtain ⟨nd, hnd⟩ := Option.ne_none_iff_exists'.mp (F.coarse.linked_live n a ((F.linked_iff n a).mp h))
    rw [(F.rel n).mem.sub.live a nd hnd]; simp
  · exact ((F.rel n).mem.ownd t a h).2.2
  · obtain ⟨nd, hnd⟩ := Option.ne_none_iff_exists'.mp ((F.rel n).unlinked_live h).1
    rw [(F.rel n).mem.sub.live a nd hnd]; simp

/-- **C50.** A session that is not in a call has no node of its own, and none to hand over: a call that has returned or was unwound leaves nothing behind. -/
theorem C50_no_leftovers (F : FExec cfg) (n t : Nat) (h : ((F.st n).thr t).th.run = none) : ((F.st n).thr t).owned = none ∧ ((F.st n).thr t).unlinked = none := by
  obtain ⟨h1, -, h2⟩ := ((F.rel n).thr t).idle h
  simp only [FThread.owned, FThread.unlinked, h1, h2, and_self]

/-! ### Progress -/

/-- **C50.** There is always memory for the next node (as long as the address space does not end), and a call in progress can always take its next step, whichever free address the allocator offers. -/
theorem C50_never_blocked (F : FExec cfg) (i : Nat) : (∃ x, (F.st i).m.inUse x = false) ∧
    ∀ x t c weak, (F.st i).m.inUse x = false → ((F.st i).thr t).th.run = some c → (fstep cfg (F.st i) x (.tick t weak)).isSome := by
  refine ⟨F.free_addr i, ?_⟩
  intro x t c weak hx hc
  simp only [fstep, hx, hc, Bool.false_eq_true, ↓reduceIte]
  split
  · split <;> rfl
  · rfl

/-- From some point on, only sessions make steps that make steps again and again. -/
theorem FExec.eventually (F : FExec cfg) (N : Nat) : ∃ b, ∀ t, t < N → ∀ i w, b ≤ i → F.lab i = .tick t w → ∀ n, ∃ i, n ≤ i ∧ ∃ w, F.lab i = .tick t w := by
  induction N with
  | zero => exact ⟨0, fun t h => by omega⟩
  | succ N ih =>
    obtain ⟨b, hb⟩ := ih
    by_cases hN : ∀ n, ∃ i, n ≤ i ∧ ∃ w, F.lab i = .tick N w
    · refine ⟨b, fun t ht i w hi hl => ?_⟩
      by_cases e : t = N
      · subst e; exact hN
      · exact hb t (by omega) i w hi hl
    · obtain ⟨b', hb'⟩ := Classical.not_forall.mp hN
      refine ⟨b + b', fun t ht i w hi hl => ?_⟩
      by_cases e : t = N
      · subst e; exact absurd ⟨i, by omega, w, hl⟩ hb'
      · exact hb t (by omega) i w (by omega) hl

/-- A session that makes steps again and again makes accesses again and again. -/
theorem FExec.accesses_again (F : FExec cfg) {t : Nat} (h : ∀ n, ∃ i, n ≤ i ∧ ∃ w, F.lab i = .tick t w) (n : Nat) : ∃ i, n ≤ i ∧ ∃ w, F.coarse.lab i = .tick t w := by
  obtain ⟨i, h1, w, h2⟩ := h n
  cases hg : ((F.st i).thr t).got with
  | none => exact ⟨i, h1, w, F.coarse_tick.mpr ⟨h2, hg⟩⟩
  | some x =>
    obtain ⟨c, -, ⟨g2, -⟩ | ⟨_, _, _, _, _, -, -, -, -, g⟩⟩ := F.step_tick h2
    · rw [hg] at g2; cases g2
    · by_contra hcon
      have key : ∀ k, ((F.st (i + 1 + k)).thr t).got = none := by
        intro k
        induction k with
        | zero => exact g
        | succ k ih => exact F.got_none ih (fun w hl => hcon ⟨i + 1 + k, by omega, w, F.coarse_tick.mpr ⟨hl, ih⟩⟩)
      obtain ⟨j, k1, w', k2⟩ := h (i + 1)
      refine hcon ⟨j, by omega, w', F.coarse_tick.mpr ⟨k2, ?_⟩⟩
      have := key (j - (i + 1))
      rwa [show i + 1 + (j - (i + 1)) = j by omega] at this

/-- **C50.** Lock-freedom, at the granularity of the code: if finitely many sessions make infinitely many steps (and compare-and-sets fail spuriously only finitely often), calls return, or are unwound, again
and again - wherever the others were stopped, be it between an access and what follows it. -/
theorem C50_lock_free (F : FExec cfg) (N : Nat) (hN : ∀ i t w, F.lab i = .tick t w → t < N) (hw : ∃ n, ∀ i, n ≤ i → ∀ t, F.lab i ≠ .tick t true)
    (hinf : ∀ n, ∃ i, n ≤ i ∧ ∃ t w, F.lab i = .tick t w) : ∀ n, ∃ i, n ≤ i ∧ ((∃ id r, F.Returns i id r) ∨ ∃ t, F.lab i = .abort t) := by
  obtain ⟨b, hb⟩ := F.eventually N
  have htk : ∀ {i t w}, F.coarse.lab i = .tick t w → F.lab i = .tick t w := fun h => (F.coarse_tick.mp h).1
  obtain ⟨n0, hw⟩ := hw
  have hcoarse := C34_lock_free F.coarse N (fun i t w h => hN i t w (htk h)) ⟨n0, fun i hi t e => hw i hi t (htk e)⟩ (by
    intro n
    obtain ⟨i, h1, t, w, h2⟩ := hinf (max n b)
    obtain ⟨j, k1, w', k2⟩ := F.accesses_again (hb t (hN i t w h2) i w (by omega) h2) (max n n0)
    refine ⟨j, by omega, t, ?_⟩
    cases w' with
    | true => exact absurd (htk k2) (hw j (by omega) t)
    | false => exact k2)
  intro n
  obtain ⟨q, h1, h2⟩ := hcoarse (max n b)
  rcases h2 with ⟨id, r, h2⟩ | ⟨t, h2⟩
  · obtain ⟨t, w, c, k1, k2, k3⟩ := F.coarse_res h2
    have hagain := hb t (hN q t w k1) q w (by omega) k1
    have hex : ∃ j, q < j ∧ (F.lab j).thread = some t := by
      obtain ⟨j, m1, w', m2⟩ := hagain (q + 1)
      exact ⟨j, by omega, by rw [m2]; rfl⟩
    classical
    have hj := Nat.find_spec hex
    have hmin : ∀ i, q < i → i < Nat.find hex → (F.lab i).thread ≠ some t := fun i g1 g2 e => Nat.find_min hex g2 ⟨g1, e⟩
    obtain ⟨m1, m2⟩ := k3 _ hj.1 hmin
    refine ⟨Nat.find hex, by omega, ?_⟩
    rcases F.running_lab m1 hj.2 with ⟨w', e⟩ | e
    · exact .inl ⟨id, r, m2 w' e⟩
    · exact .inr ⟨t, e⟩
  · exact ⟨q, by omega, .inr ⟨t, F.coarse_abort h2⟩⟩

/-- **C50.** Lookups are wait-free at the granularity of the code: whatever all other sessions do, a `get` has returned when its session has made 34 steps (17 accesses, and what follows each of them) since
the invocation, unless it was unwound. -/
theorem C50_get_wait_free (F : FExec cfg) {id t : Nat} {k : K} (h : F.lab id = .call t (.op (.get k))) :
    (∀ n, id < n → 34 ≤ F.steps t id n → (∃ j r, id < j ∧ j < n ∧ F.Returns j id r) ∨ ∃ j, id < j ∧ j < n ∧ F.lab j = .abort t) ∧
    ∀ j r, F.Returns j id r → F.steps t id (j + 1) ≤ 34 := by
  have hbound : ∀ n c, ((F.st n).thr t).th.run = some c → c.req = .op (.get k) → c.ticks ≤ 16 := by
    intro n
    induction n with
    | zero => intro c hc; rw [F.init] at hc; cases hc
    | succ n ih =>
      intro c hc hr
      cases hg : ((F.st (n + 1)).thr t).got with
      | none =>
        have e := F.coarse_run hg
        rw [(F.coarse.rel (n + 1)).thr t] at e
        have hc' := hc
        rw [← e] at hc'
        simp only [Thread.ren, Option.map_eq_some_iff] at hc'
        obtain ⟨c', k1, k2⟩ := hc'
        have := F.coarse.fresh.get_ticks (k := k) (show F.coarse.fresh.Running (n + 1) t c' from k1) (by rw [← hr, ← k2]; rfl)
        rw [← k2]; exact this
      | some x =>
        by_cases htick : ∃ w, F.lab n = .tick t w
        · obtain ⟨w, htick⟩ := htick
          obtain ⟨c', g1, ⟨-, -, w, ok, g4⟩ | ⟨_, _, _, _, _, -, -, -, -, g⟩⟩ := F.step_tick htick
          · rw [g4] at hc
            exact ih c hc hr
          · rw [hg] at g; cases g
        · by_cases hth : (F.lab n).thread = some t
          · cases hg' : ((F.st n).thr t).got with
            | none => rw [F.got_none hg' (fun w e => htick ⟨w, e⟩)] at hg; cases hg
            | some y =>
              obtain ⟨w, ok⟩ := y
              obtain ⟨c', p, q, nx, hp⟩ := ((F.rel n).thr t).2 w ok hg'
              rcases F.running_lab hp.run hth with e | e
              · exact absurd e htick
              · have hs := F.step n
                simp only [fstep, F.addr_free n, Bool.false_eq_true, ↓reduceIte, e] at hs
                split at hs
                · simp only [Option.some.injEq, Prod.mk.injEq] at hs
                  rw [← hs.1] at hc
                  simp only [upd_same] at hc
                  cases hc
                · cases hs
          · rw [fstep_thread (F.step n) hth] at hc
            exact ih c hc hr
  constructor
  · intro n hn h34
    rcases F.fate h n hn with ⟨c, h1, h2, h3⟩ | ⟨j, h1, h2, r, h3⟩ | ⟨j, h1⟩
    · have := hbound n c h1 h3
      obtain ⟨-, -, h4⟩ := F.run_inv n h1
      rw [← h2, h4] at h34
      split at h34 <;> omega
    · exact .inl ⟨j, r, h1, h2, h3⟩
    · exact .inr ⟨j, h1⟩
  · intro j r hr
    obtain ⟨t', q, w, w', h1, h2, h3, h4, h5, h6, h7, c, h8, h9⟩ := F.res hr
    obtain ⟨g1, g2, g3⟩ := F.run_inv j h8
    subst h9
    rw [h] at g2
    injection g2 with e1 e2
    subst e1
    have := hbound j c h8 e2.symm
    rw [F.steps_succ, g3]
    split <;> split <;> omega

/-! ### Running alone -/

/-- An address that is not in use. -/
noncomputable def soloAddr (s : FState K P) : Nat := open Classical in if h : ∃ x, s.m.inUse x = false then h.choose else 0

/-- Session `t` makes its next step, if it is in a call. -/
def soloLab (t : Nat) (s : FState K P) : Label K P := match (s.thr t).th.run with
  | none => .idle
  | some _ => .tick t false

/-- The states when session `t` alone makes steps. -/
noncomputable def soloSt (cfg : Config K P) (t : Nat) (s : FState K P) : Nat → FState K P
  | 0 => s
  | n + 1 => ((fstep cfg (soloSt cfg t s n) (soloAddr (soloSt cfg t s n)) (soloLab t (soloSt cfg t s n))).map Prod.fst).getD s

/-- Whatever has happened, session `t` can be left alone from instant `i` on. -/
theorem FExec.alone (F : FExec cfg) (i t : Nat) : ∃ F' : FExec cfg, (∀ j, j ≤ i → F'.st j = F.st j) ∧ (∀ j, j < i → F'.lab j = F.lab j ∧ F'.addr j = F.addr j ∧ F'.ev j = F.ev j) ∧
    ∀ j, i ≤ j → F'.lab j = soloLab t (F'.st j) := by
  let g := soloSt cfg t (F.st i)
  let st : Nat → FState K P := fun j => if j ≤ i then F.st j else g (j - i)
  let lab : Nat → Label K P := fun j => if j < i then F.lab j else soloLab t (g (j - i))
  let addr : Nat → Nat := fun j => if j < i then F.addr j else soloAddr (g (j - i))
  let ev : Nat → Option (Event K P) := fun j => if j < i then F.ev j else
    ((fstep cfg (g (j - i)) (soloAddr (g (j - i))) (soloLab t (g (j - i)))).map Prod.snd).getD none
  have hst : ∀ j, i ≤ j → st j = g (j - i) := by
    intro j hj
    by_cases e : j = i
    · subst e; simp only [st, Nat.le_refl, ↓reduceIte, Nat.sub_self]; rfl
    · simp only [st]; rw [if_neg (by omega)]
  have h0 : st 0 = FState.init := by simp only [st, Nat.zero_le, ↓reduceIte, F.init]
  have hstep : ∀ n j, j < n → fstep cfg (st j) (addr j) (lab j) = some (st (j + 1), ev j) ∧ (lab j).enabled (st j).plain ∧ (lab j).WF cfg := by
    intro n
    induction n with
    | zero => intro j hj; omega
    | succ n ih =>
      intro j hj
      by_cases e : j < n
      · exact ih j e
      · have e : j = n := by omega
        subst e
        by_cases hj : j < i
        · simp only [st, lab, addr, ev, show j ≤ i by omega, show j + 1 ≤ i by omega, hj, ↓reduceIte]
          exact ⟨F.step j, F.enabled j, F.wf j⟩
        · obtain ⟨G, k1, -⟩ := FExec.ofPrefix (cfg := cfg) j h0 ih
          have hex : ∃ x, (g (j - i)).m.inUse x = false := by
            have := G.free_addr j
            rw [k1 j (Nat.le_refl _), hst j (by omega)] at this
            exact this
          have hfree : (g (j - i)).m.inUse (soloAddr (g (j - i))) = false := by
            simp only [soloAddr, dif_pos hex]
            exact hex.choose_spec
          have hsome : (fstep cfg (g (j - i)) (soloAddr (g (j - i))) (soloLab t (g (j - i)))).isSome := by
            simp only [soloLab]
            cases hr : ((g (j - i)).thr t).th.run with
            | none => simp [fstep, hfree]
            | some c =>
              simp only [fstep, hfree, hr, Bool.false_eq_true, ↓reduceIte]
              split
              · split <;> rfl
              · rfl
          obtain ⟨⟨s', e'⟩, he⟩ := Option.isSome_iff_exists.mp hsome
          have hg : g (j - i + 1) = s' := by
            show ((fstep cfg (g (j - i)) (soloAddr (g (j - i))) (soloLab t (g (j - i)))).map Prod.fst).getD (F.st i) = s'
            rw [he]; rfl
          have hl : lab j = soloLab t (g (j - i)) := by simp only [lab, hj, ↓reduceIte]
          refine ⟨?_, ?_, ?_⟩
          · rw [hst j (by omega), hst (j + 1) (by omega), show j + 1 - i = j - i + 1 by omega, hg, hl]
            simp only [addr, ev, hj, ↓reduceIte, he]
            rfl
          · rw [hl]; simp only [soloLab]; split <;> trivial
          · rw [hl]; simp only [soloLab]; split <;> trivial
  refine ⟨⟨st, lab, addr, ev, h0, fun j => (hstep (j + 1) j (by omega)).1, fun j => (hstep (j + 1) j (by omega)).2.1, fun j => (hstep (j + 1) j (by omega)).2.2⟩, ?_, ?_, ?_⟩
  · intro j hj; simp only [st, hj, ↓reduceIte]
  · intro j hj; simp only [lab, addr, ev, hj, ↓reduceIte, and_self]
  · intro j hj
    show lab j = soloLab t (st j)
    rw [hst j hj]
    simp only [lab, show ¬ j < i by omega, ↓reduceIte]

/-- **C50.** A call that is left alone returns, wherever the other sessions were stopped (for instance between unlinking a node and handing it to the collector) and whichever addresses the allocator offers. -/
theorem C50_solo (F : FExec cfg) {i t : Nat} {c : Call K P} (hc : ((F.st i).thr t).th.run = some c) (hl : ∀ j, i ≤ j → ((F.st j).thr t).th.run ≠ none → F.lab j = .tick t false) :
    ∃ j r, i ≤ j ∧ F.Returns j c.inv r ∧ ∀ m, i ≤ m → m ≤ j → F.lab m = .tick t false := by
  have hrun : ∀ k, (∀ m r, i ≤ m → m < i + k → ¬ F.Returns m c.inv r) → ∃ c', ((F.st (i + k)).thr t).th.run = some c' ∧ c'.inv = c.inv := by
    intro k
    induction k with
    | zero => intro _; exact ⟨c, hc, rfl⟩
    | succ k ih =>
      intro hno
      obtain ⟨c1, k1, k2⟩ := ih (fun m r h1 h2 => hno m r h1 (by omega))
      have htick := hl (i + k) (by omega) (by rw [k1]; simp)
      obtain ⟨c', g1, ⟨g2, g3, w, ok, g4⟩ | ⟨w, ok, p, q, nx, g2, g3, g4, g5, g6⟩⟩ := F.step_tick htick
      · exact ⟨c1, by rw [show i + (k + 1) = i + k + 1 by omega, g4]; exact k1, k2⟩
      · rw [k1] at g1; cases g1
        cases nx with
        | goto pc ran => exact ⟨{ c1 with pc := pc, calls := c1.calls + (if ran then 1 else 0), ticks := c1.ticks + 1 }, by rw [show i + (k + 1) = i + k + 1 by omega, g5]; rfl, k2⟩
        | ret r refs => exact absurd (by rw [FExec.Returns, g4, ← k2]; rfl) (hno (i + k) r (by omega) (by omega))
        | fail f => exact g3.nok.elim
  have hex : ∃ j, i ≤ j ∧ ∃ r, F.Returns j c.inv r := by
    by_contra hcon
    have hno : ∀ m r, i ≤ m → ¬ F.Returns m c.inv r := fun m r h1 h2 => hcon ⟨m, h1, r, h2⟩
    have hall : ∀ j, i ≤ j → F.lab j = .tick t false := by
      intro j hj
      obtain ⟨c', k1, -⟩ := hrun (j - i) (fun m r h1 _ => hno m r h1)
      rw [show i + (j - i) = j by omega] at k1
      exact hl j hj (by rw [k1]; simp)
    have hpre : ∀ k, ∃ N, ∀ j t w, j < k → F.lab j = .tick t w → t < N := by
      intro k
      induction k with
      | zero => exact ⟨0, fun j t w h => by omega⟩
      | succ k ih =>
        obtain ⟨N, hN⟩ := ih
        cases hk : F.lab k with
        | tick t' w' =>
          refine ⟨N + t' + 1, fun j t w hj e => ?_⟩
          by_cases h : j = k
          · subst h; rw [hk] at e; injection e with e _; omega
          · have := hN j t w (by omega) e; omega
        | _ =>
          refine ⟨N, fun j t w hj e => ?_⟩
          by_cases h : j = k
          · subst h; rw [hk] at e; cases e
          · exact hN j t w (by omega) e
    obtain ⟨N, hN⟩ := hpre i
    obtain ⟨j, h1, h2⟩ := C50_lock_free F (N + t + 1) (by
        intro j t' w e
        by_cases hj : j < i
        · have := hN j t' w hj e; omega
        · rw [hall j (by omega)] at e; injection e with e _; omega)
      ⟨i, fun j hj t' e => by rw [hall j hj] at e; injection e with _ e; cases e⟩ (fun n => ⟨max n i, by omega, t, false, hall _ (by omega)⟩) i
    rcases h2 with ⟨id, r, h2⟩ | ⟨t', h2⟩
    · obtain ⟨t', q, w, w', g1, -, -, -, -, -, -, c', g2, g3⟩ := F.res h2
      rw [hall j h1] at g1
      injection g1 with g1 _
      subst g1
      obtain ⟨c2, k1, k2⟩ := hrun (j - i) (fun m r h1 _ => hno m r h1)
      rw [show i + (j - i) = j by omega, g2] at k1
      cases k1
      exact hno j r h1 (by rw [← k2, g3]; exact h2)
    · rw [hall j h1] at h2; cases h2
  classical
  obtain ⟨k1, r, k2⟩ := Nat.find_spec hex
  refine ⟨Nat.find hex, r, k1, k2, ?_⟩
  intro m h1 h2
  obtain ⟨c', g1, -⟩ := hrun (m - i) (fun m' r' a1 a2 a3 => Nat.find_min hex (m := m') (by omega) ⟨a1, r', a3⟩)
  rw [show i + (m - i) = m by omega] at g1
  exact hl m h1 (by rw [g1]; simp)

/-- **C50.** And it can be left alone: any execution can be continued from any instant at which session `t` is in a call so that only session `t` makes steps, until its call returns. -/
theorem C50_solo_termination (F : FExec cfg) {i t : Nat} {c : Call K P} (hc : ((F.st i).thr t).th.run = some c) :
    ∃ (F' : FExec cfg) (j : Nat) (r : Res P), (∀ m, m ≤ i → F'.st m = F.st m) ∧ (∀ m, m < i → F'.lab m = F.lab m ∧ F'.ev m = F.ev m) ∧
      i ≤ j ∧ (∀ m, i ≤ m → m ≤ j → F'.lab m = .tick t false) ∧ F'.Returns j c.inv r := by
  obtain ⟨F', h1, h2, h3⟩ := F.alone i t
  obtain ⟨j, r, k1, k2, k3⟩ := C50_solo F' (i := i) (t := t) (c := c) (by rw [h1 i (Nat.le_refl _)]; exact hc) (by
    intro j hj hr
    rw [h3 j hj, soloLab]
    cases hrun : ((F'.st j).thr t).th.run with
    | none => exact absurd hrun hr
    | some c' => rfl)
  exact ⟨F', j, r, h1, fun m hm => ⟨(h2 m hm).1, (h2 m hm).2.2⟩, k1, k3, k2⟩

/-! ### A concrete run -/

/-- The check: every label can be executed and obeys its contract, and the address offered is free. Only sessions below `N` are used. -/
def fRunOKb (cfg : Config K P) (N : Nat) : FState K P → List (Label K P × Nat) → Bool
  | _, [] => true
  | s, (l, x) :: ls => l.enabledb N s.plain && l.wfb cfg && (match l.thread with | none => true | some t => decide (t < N)) &&
    match fstep cfg s x l with
    | none => false
    | some (s', _) => fRunOKb cfg N s' ls

/-- State after `i` steps of a concrete run. -/
def fStAt (cfg : Config K P) (ls : List (Label K P × Nat)) : Nat → FState K P
  | 0 => FState.init
  | i + 1 => ((fstep cfg (fStAt cfg ls i) (ls.getD i (.idle, 0)).2 (ls.getD i (.idle, 0)).1).map (·.1)).getD FState.init

/-- What is observable of step `i` of a concrete run. -/
def fEvAt (cfg : Config K P) (ls : List (Label K P × Nat)) (i : Nat) : Option (Event K P) :=
  ((fstep cfg (fStAt cfg ls i) (ls.getD i (.idle, 0)).2 (ls.getD i (.idle, 0)).1).map (·.2)).getD none

theorem FExec.ofCheck (N : Nat) {ls : List (Label K P × Nat)} (h : fRunOKb cfg N FState.init ls = true) :
    ∃ F : FExec cfg, (∀ i, i ≤ ls.length → F.st i = fStAt cfg ls i) ∧ ∀ i, i < ls.length → F.lab i = (ls.getD i (.idle, 0)).1 ∧ F.ev i = fEvAt cfg ls i := by
  have key : ∀ (ls : List (Label K P × Nat)) (s : FState K P), (∀ t, N ≤ t → (s.thr t).th.pin = none) → fRunOKb cfg N s ls = true →
      ∀ i (f : Nat → FState K P), f 0 = s → (∀ j, f (j + 1) = ((fstep cfg (f j) (ls.getD j (.idle, 0)).2 (ls.getD j (.idle, 0)).1).map (·.1)).getD FState.init) → i < ls.length →
      (∃ e, fstep cfg (f i) (ls.getD i (.idle, 0)).2 (ls.getD i (.idle, 0)).1 = some (f (i + 1), e)) ∧ (ls.getD i (.idle, 0)).1.enabled (f i).plain ∧
        (ls.getD i (.idle, 0)).1.WF cfg := by
    intro ls
    induction ls with
    | nil => intro s _ _ i f _ _ hi; simp at hi
    | cons l ls ih =>
      intro s hpin hs i f h0 hf hi
      obtain ⟨l, x⟩ := l
      simp only [fRunOKb, Bool.and_eq_true] at hs
      obtain ⟨⟨⟨h1, h2⟩, h3⟩, h4⟩ := hs
      split at h4
      · cases h4
      · next s' e hs' =>
        have h5 := hf 0
        rw [h0] at h5
        simp only [List.getD_cons_zero, hs', Option.map, Option.getD_some] at h5
        cases i with
        | zero =>
          simp only [List.getD_cons_zero, h0]
          exact ⟨⟨e, by rw [hs', h5]⟩, reuse_enabled_of_check (s := s.plain) hpin h1, reuse_wf_of_check h2⟩
        | succ i =>
          have hpin' : ∀ t, N ≤ t → (s'.thr t).th.pin = none := by
            intro t ht
            rw [fstep_thread hs' (by
              intro e
              rw [e] at h3
              simp at h3
              omega)]
            exact hpin t ht
          have := ih s' hpin' h4 i (fun j => f (j + 1)) h5 (by intro j; have := hf (j + 1); simpa using this) (by simpa using hi)
          simpa using this
  have k := fun i hi => key ls _ (fun _ _ => rfl) h i (fStAt cfg ls) rfl (fun _ => rfl) hi
  obtain ⟨F, h1, h2⟩ := FExec.ofPrefix (cfg := cfg) (st := fStAt cfg ls) (lab := fun i => (ls.getD i (.idle, 0)).1) (addr := fun i => (ls.getD i (.idle, 0)).2) (ev := fEvAt cfg ls)
    ls.length rfl (by
      intro i hi
      obtain ⟨⟨e, he⟩, k2, k3⟩ := k i hi
      refine ⟨?_, k2, k3⟩
      have : fEvAt cfg ls i = e := by simp only [fEvAt, he]; rfl
      rw [this]; exact he)
  exact ⟨F, h1, fun i hi => ⟨(h2 i hi).1, (h2 i hi).2.2⟩⟩

/-- Session 0 inserts `(7,1)`: it loads the root, builds a node (at address 5), publishes it - and is stopped before it returns. Session 1 finds the element, removes it, and is stopped before it hands the
node to the collector. Session 0 returns, and inserts `(7,2)` (address 6; address 5 is still in use). Session 1 goes on: hands over the node, and returns the element. Then both let go of their guards, the
node is destroyed, and address 5 is used again for `(7,3)`. -/
def exFine : List (Label Nat (Nat × Nat) × Nat) :=
  [(.pin 0, 0), (.call 0 (.op (.insert (7, 1))), 0), (.tick 0 false, 0), (.tick 0 false, 5), (.tick 0 false, 0),
   (.pin 1, 0), (.call 1 (.op (.get 7)), 0), (.tick 1 false, 0), (.tick 1 false, 0),
   (.call 1 (.op (.remove 7)), 0), (.tick 1 false, 0), (.tick 1 false, 0), (.tick 1 false, 0),
   (.tick 0 false, 0), (.call 0 (.op (.insert (7, 2))), 0), (.tick 0 false, 0), (.tick 0 false, 6), (.tick 0 false, 0),
   (.tick 1 false, 0), (.tick 0 false, 0), (.unpin 0, 0), (.unpin 1, 0), (.free 5, 0),
   (.pin 0, 0), (.call 0 (.op (.insert (7, 3))), 0), (.tick 0 false, 0), (.tick 0 false, 5), (.tick 0 false, 0), (.tick 0 false, 0)]

set_option maxRecDepth 20000 in
/-- C50 applies to `exFine`: the `get` (call 6) returns the element before its insertion (call 1) has returned; at instant 13 the node at address 5 is neither linked nor handed over, and session 1 is about
to hand it over; at instant 17 the node at address 6 is session 0's own; at instant 19 the node at address 5 has been handed over; in the end there is another node there. -/
example : ∃ F : FExec exCfg, F.Returns 8 6 (.op (.opt (some (7, 1)))) ∧ F.Returns 13 1 (.op (.opt none)) ∧ F.Returns 18 9 (.op (.opt (some (7, 1)))) ∧
    F.Returns 19 14 (.op (.opt none)) ∧ F.Returns 28 24 (.op (.opt (some (7, 2)))) ∧
    ((F.st 13).m.root.ptr = none ∧ (F.st 13).m.retired 5 = none ∧ ((F.st 13).thr 1).unlinked = some 5) ∧ (((F.st 17).thr 0).owned = some 6 ∧ (F.st 17).m.root.ptr = none) ∧
    ((F.st 19).m.retired 5).isSome ∧ (F.st 27).m.deref 5 = some (.data [(7, 3)]) ∧ (F.st 4).m.deref 5 = some (.data [(7, 1)]) := by
  obtain ⟨F, h1, h2⟩ := FExec.ofCheck (cfg := exCfg) 2 (ls := exFine) (by decide)
  have hlen : exFine.length = 29 := rfl
  rw [hlen] at h1 h2
  refine ⟨F, ?_⟩
  simp only [FExec.Returns, (h2 8 (by omega)).2, (h2 13 (by omega)).2, (h2 18 (by omega)).2, (h2 19 (by omega)).2, (h2 28 (by omega)).2, h1 13 (by omega), h1 17 (by omega),
    h1 19 (by omega), h1 27 (by omega), h1 4 (by omega)]
  exact ⟨rfl, rfl, rfl, rfl, rfl, ⟨rfl, rfl, rfl⟩, ⟨rfl, rfl⟩, rfl, rfl, rfl⟩

end Contrie
