import Verif.Props.Linear
import Verif.Proof.Splice
/-
C02 (lookups are truthful), C08 (lookups are wait-free), C15 (is_empty), and the justification of `Exec.content`.
-/
set_option linter.unusedSectionVars false
namespace Contrie
variable {K P : Type} [DecidableEq K]

section
variable {cfg : Config K P} (E : Exec cfg)

/-- What became of a call: still running, returned, or unwound. -/
theorem Exec.fate {id t : Nat} {r : Req K P} (h : E.lab id = .call t r) (n : Nat) (hn : id < n) :
    (∃ c, E.Running n t c ∧ c.inv = id ∧ c.req = r) ∨ (∃ j, id < j ∧ j < n ∧ ∃ r, E.Returns j id r) ∨
    ∃ j, id < j ∧ j < n ∧ E.lab j = .abort t := by
  induction n with
  | zero => omega
  | succ n ih =>
    by_cases e : id = n
    · subst e
      have hs := E.step id
      rw [h] at hs
      exact Or.inl ⟨_, (step_call hs).1, E.clock id, rfl⟩
    · rcases ih (by omega) with ⟨c, h1, h2, h3⟩ | ⟨j, h1, h2, h3⟩ | ⟨j, h1, h2, h3⟩
      · simp only [Exec.Running] at h1
        by_cases htick : ∃ weak, E.lab n = .tick t weak
        · obtain ⟨weak, htick⟩ := htick
          have hs := E.step n
          rw [htick] at hs
          simp only [Contrie.step, h1, Option.some.injEq, Prod.mk.injEq] at hs
          have hf := ((E.inv (n + 1)).thr t).noFail
          cases hx : (tick cfg (E.st n).m weak c.pc).2 with
          | goto pc ran =>
            refine Or.inl ⟨{ c with pc := pc, calls := c.calls + (if ran then 1 else 0), ticks := c.ticks + 1 }, ?_, ?_, ?_⟩
            · simp only [Exec.Running, ← hs.1, upd_same, hx, Thread.apply]
            · exact h2
            · exact h3
          | ret r refs =>
            refine Or.inr (Or.inl ⟨n, by omega, by omega, r, ?_⟩)
            rw [Exec.Returns, ← hs.2, hx, ← h2]; rfl
          | fail f => rw [← hs.1] at hf; simp [hx, Thread.apply] at hf
        · by_cases habort : E.lab n = .abort t
          · exact Or.inr (Or.inr ⟨n, by omega, by omega, habort⟩)
          · exact Or.inl ⟨c, step_run_keep (E.step n) h1 (fun weak hw => htick ⟨weak, hw⟩) habort, h2, h3⟩
      · exact Or.inr (Or.inl ⟨j, h1, by omega, h3⟩)
      · exact Or.inr (Or.inr ⟨j, h1, by omega, h3⟩)

/-- An element in the map was put there by an earlier call. -/
theorem Exec.content_offered {i : Nat} {k : K} {p : P} (h : E.content i k = some p) :
    cfg.key p = k ∧ ∃ id o, id < i ∧ E.Invoked id (.op o) ∧ o.key cfg.key = k ∧ o.offers p := by
  induction i with
  | zero =>
    have : E.content 0 = AMap.empty := E.A_zero
    rw [this] at h; cases h
  | succ i ih =>
    cases hw : E.W i with
    | none =>
      have : E.content (i + 1) = E.content i := E.A_none hw
      rw [this] at h
      obtain ⟨h0, id, o, h1, h2⟩ := ih h
      exact ⟨h0, id, o, by omega, h2⟩
    | some lp =>
      have ha := E.A_some hw
      have hin := E.W_in hw
      by_cases hsame : E.content i k = some p
      · obtain ⟨h0, id, o, h1, h2⟩ := ih hsame
        exact ⟨h0, id, o, by omega, h2⟩
      · have hk : lp.op.key cfg.key = k := by
          by_cases e : lp.op.key cfg.key = k
          · exact e
          · exact absurd ((apply_other ha e).symm.trans h) hsame
        have hwf : lp.op.WF cfg.key := by
          obtain ⟨t, c, h1, h2, h3, -⟩ := E.W_call hw
          obtain ⟨-, -, hl⟩ := E.run_inv i h1
          have := E.wf c.inv
          rw [hl, h3] at this
          exact this
        have hoff : lp.op.offers p := by
          cases ho : lp.op with
          | get k' =>
            rw [ho] at ha; simp only [AMap.apply, Prod.mk.injEq] at ha
            exact absurd (by show E.A i k = some p; rw [ha.1]; exact h) hsame
          | insert p' =>
            rw [ho] at ha hk; simp only [AMap.apply, Prod.mk.injEq, Op.key] at ha hk
            rw [show E.content (i + 1) = E.A (i + 1) from rfl, ← ha.1, ← hk, AMap.set_same] at h
            cases h; exact Or.inl rfl
          | getOrInsert k' f =>
            rw [ho] at ha hk
            simp only [Op.key] at hk
            simp only [AMap.apply] at ha
            split at ha
            · simp only [Prod.mk.injEq] at ha; exact absurd (by show E.A i k = some p; rw [ha.1]; exact h) hsame
            · simp only [Prod.mk.injEq] at ha
              rw [show E.content (i + 1) = E.A (i + 1) from rfl, ← ha.1, ← hk, AMap.set_same] at h
              cases h; exact Or.inr ⟨k', f, rfl, rfl⟩
          | remove k' =>
            rw [ho] at ha hk; simp only [AMap.apply, Prod.mk.injEq, Op.key] at ha hk
            rw [show E.content (i + 1) = E.A (i + 1) from rfl, ← ha.1, ← hk, AMap.set_same] at h
            cases h
        refine ⟨?_, lp.id, lp.op, by omega, hin.2.1, hk, hoff⟩
        rcases hoff with ho | ⟨k', f, ho, hf⟩
        · rw [ho] at hk; exact hk
        · rw [ho] at hk hwf; rw [← hf]; exact hwf.trans hk

/-- **C02.** A lookup returns what the map held for the key at some instant between invocation and return. -/
theorem C02_get_truthful {id j : Nat} {k : K} {r : Res P} (hi : E.Invoked id (.op (.get k))) (hr : E.Returns j id r) :
    id < j ∧ ∃ τ, id ≤ τ ∧ τ ≤ j ∧ r = .op (.opt (E.content τ k)) := by
  obtain ⟨t, c, refs, weak, h1, h2, h3, h4, h5, h6, h7, h8⟩ := E.res hr
  have hreq : c.req = .op (.get k) := by
    rw [Exec.Invoked] at hi; rw [hi] at h8; injection h8 with h8; injection h8 with _ h8; exact h8.symm
  simp only [RetOK, hreq] at h4
  obtain ⟨-, ret, rfl, -⟩ := h4
  rcases E.res_op hi hr with ⟨hlt, ⟨τ, a1, a2, a3⟩ | ⟨a0, τ, a1, a2, a3⟩⟩
  · have := E.A_some a3
    simp only [AMap.apply, Prod.mk.injEq] at this
    exact ⟨hlt, τ, a1, a2, by rw [← this.2]; rfl⟩
  · simp only [AMap.apply, Prod.mk.injEq] at a3
    exact ⟨hlt, τ, a1, a2, by rw [← a3.2]; rfl⟩

/-- **C02**, never misses: a key bound at every instant of the lookup is found. -/
theorem C02_get_finds {id j : Nat} {k : K} {r : Res P} (hi : E.Invoked id (.op (.get k))) (hr : E.Returns j id r)
    (hb : ∀ τ, id ≤ τ → τ ≤ j → E.content τ k ≠ none) : ∃ p, cfg.key p = k ∧ r = .op (.opt (some p)) := by
  obtain ⟨-, τ, h1, h2, h3⟩ := C02_get_truthful E hi hr
  cases hc : E.content τ k with
  | none => exact absurd hc (hb τ h1 h2)
  | some p => exact ⟨p, (E.content_offered hc).1, by rw [h3, hc]⟩

/-- **C02**, never invents: what a lookup returns has the key asked for, and was offered to the map by an insertion
under this key that was invoked before the lookup returned. -/
theorem C02_get_never_invents {id j : Nat} {k : K} {p : P} (hi : E.Invoked id (.op (.get k)))
    (hr : E.Returns j id (.op (.opt (some p)))) :
    cfg.key p = k ∧ ∃ id' o, id' < j ∧ E.Invoked id' (.op o) ∧ o.key cfg.key = k ∧ o.offers p := by
  obtain ⟨-, τ, h1, h2, h3⟩ := C02_get_truthful E hi hr
  injection h3 with h3
  injection h3 with h3
  obtain ⟨h0, id', o, g1, g2⟩ := E.content_offered h3.symm
  exact ⟨h0, id', o, by omega, g2⟩

/-- **C02**, without reference to the content of the map: `insert(p)` has returned, and every other `insert`, `remove`
on the same key either returned before that `insert` started or starts after the lookup returned. Then the lookup
returns `p`. (Lookups, insertions and removals of other keys and `get_or_insert_with` of the same key may run
concurrently with all of this.) -/
theorem C02_get_sees_insert {ip jp id j : Nat} {p : P} {r rp : Res P} (hp : E.Invoked ip (.op (.insert p)))
    (hrp : E.Returns jp ip rp) (hi : E.Invoked id (.op (.get (cfg.key p)))) (hr : E.Returns j id r) (hlt : jp < id)
    (hother : ∀ id' o, id' ≠ ip → E.Invoked id' (.op o) → (o = .remove (cfg.key p) ∨ ∃ q, o = .insert q ∧ cfg.key q = cfg.key p) →
      (∃ j' r', E.Returns j' id' r' ∧ j' < ip) ∨ j < id') :
    r = .op (.opt (some p)) := by
  have hsee : ∃ τ0, ip ≤ τ0 ∧ τ0 ≤ jp + 1 ∧ E.content τ0 (cfg.key p) = some p ∧
      ∀ τ lp, τ0 ≤ τ → E.W τ = some lp → lp.id ≠ ip := by
    obtain ⟨t, c, refs, weak, h1, h2, h3, h4, h5, h6, h7, h8⟩ := E.res hrp
    have hreq : c.req = .op (.insert p) := by
      rw [Exec.Invoked] at hp; rw [hp] at h8; injection h8 with h8; injection h8 with _ h8; exact h8.symm
    simp only [RetOK, hreq] at h4
    obtain ⟨-, ret, rfl, -⟩ := h4
    rcases E.res_op hp hrp with ⟨hlt, ⟨τ, a1, a2, a3⟩ | ⟨a0, τ, a1, a2, a3⟩⟩
    · have := E.A_some a3
      simp only [AMap.apply, Prod.mk.injEq] at this
      refine ⟨τ + 1, by omega, by omega, ?_, ?_⟩
      · show E.A (τ + 1) _ = _
        rw [← this.1]; exact AMap.set_same _ _ _
      · intro τ' lp hτ hw he
        have := E.W_unique hw a3 he
        omega
    · simp only [AMap.apply, Prod.mk.injEq] at a3
      refine ⟨τ, by omega, by omega, ?_, fun τ' lp _ hw => a0 τ' lp hw⟩
      show E.A τ _ = _
      rw [← a3.1]; exact AMap.set_same _ _ _
  obtain ⟨τ0, b1, b2, b3, b4⟩ := hsee
  have hstay : ∀ n, τ0 + n ≤ j → E.content (τ0 + n) (cfg.key p) = some p := by
    intro n
    induction n with
    | zero => intro _; exact b3
    | succ n ih =>
      intro hn
      have ih := ih (by omega)
      cases hw : E.W (τ0 + n) with
      | none =>
        have : E.content (τ0 + n + 1) = E.content (τ0 + n) := E.A_none hw
        show E.content (τ0 + n + 1) _ = _
        rw [this]; exact ih
      | some lp =>
        have ha := E.A_some hw
        obtain ⟨w1, w2, w3⟩ := E.W_in hw
        show E.A (τ0 + n + 1) _ = _
        by_cases hk : lp.op.key cfg.key = cfg.key p
        · have hmod : ¬ (lp.op = .remove (cfg.key p) ∨ ∃ q, lp.op = .insert q ∧ cfg.key q = cfg.key p) := by
            intro hm
            rcases hother lp.id lp.op (b4 _ lp (by omega) hw) w2 hm with ⟨j', r', g1, g2⟩ | g
            · have := w3 j' r' g1; omega
            · omega
          cases ho : lp.op with
          | get k' => rw [ho] at ha; simp only [AMap.apply, Prod.mk.injEq] at ha; rw [← ha.1]; exact ih
          | insert q => exact absurd (Or.inr ⟨q, ho, by rw [ho] at hk; exact hk⟩) hmod
          | remove k' => exact absurd (Or.inl (by rw [ho] at hk ⊢; simp only [Op.key] at hk; rw [hk])) hmod
          | getOrInsert k' f =>
            rw [ho] at ha hk
            simp only [Op.key] at hk
            subst hk
            have ih' : E.A (τ0 + n) (cfg.key p) = some p := ih
            simp only [AMap.apply, ih', Prod.mk.injEq] at ha
            rw [← ha.1]; exact ih'
        · rw [apply_other ha hk]; exact ih
  obtain ⟨-, τ, h1, h2, h3⟩ := C02_get_truthful E hi hr
  have := hstay (τ - τ0) (by omega)
  rw [show τ0 + (τ - τ0) = τ by omega] at this
  rw [h3, this]

/-! ### C08 -/

/-- A lookup in progress has made at most 16 accesses to shared memory. -/
theorem Exec.get_ticks {i t : Nat} {c : Call K P} (h : E.Running i t c) {k : K} (hk : c.req = .op (.get k)) : c.ticks ≤ 16 := by
  have hi := E.run_pcinv h
  simp only [PCInv] at hi
  have hT : ∀ {mode st n}, ¬ TravReq cfg (.op (.get k)) mode st n := by intro mode st n h; cases h
  have hC : ∀ {m s n κ}, ¬ ContOK cfg m s (.op (.get k)) n κ := by
    intro m s n κ h
    cases κ with
    | trav => exact hT h.1
    | rem => cases h.1
    | clean => obtain ⟨⟨⟨_, h⟩, _⟩, _⟩ := h; cases h
  split at hi
  · obtain ⟨-, -, d, hd, ht, -⟩ := hi; omega
  all_goals rw [hk] at hi
  · cases hi.1
  · cases hi.1
  · cases hi.1
  · obtain ⟨d, -, h⟩ := hi; exact absurd h.req hT
  · obtain ⟨d, -, h, -⟩ := hi; exact absurd h.req hT
  · cases hi.1
  · cases hi.1
  · obtain ⟨⟨_, h⟩, -⟩ := hi; cases h
  · exact absurd hi.1 hC
  · exact absurd hi.1 hC

/-- **C08.** Lookups are wait-free: whatever all other sessions do, a `get` makes at most 17 accesses to shared memory
(the root and 16 levels) before it returns, and when its session has made 17 accesses since the invocation, it has
returned (unless it was unwound). -/
theorem C08_get_wait_free {id t : Nat} {k : K} (h : E.lab id = .call t (.op (.get k))) :
    (∀ n, id < n → 17 ≤ E.accesses t id n →
      (∃ j r, id < j ∧ j < n ∧ E.Returns j id r) ∨ ∃ j, id < j ∧ j < n ∧ E.lab j = .abort t) ∧
    ∀ j r, E.Returns j id r → E.accesses t id (j + 1) ≤ 17 := by
  constructor
  · intro n hn h17
    rcases E.fate h n hn with ⟨c, h1, h2, h3⟩ | ⟨j, h1, h2, r, h3⟩ | ⟨j, h1⟩
    · have := E.get_ticks h1 h3
      rw [E.ticks_eq n t c h1, h2] at this
      omega
    · exact Or.inl ⟨j, r, h1, h2, h3⟩
    · exact Or.inr ⟨j, h1⟩
  · intro j r hr
    obtain ⟨t', c, refs, weak, h1, h2, h3, h4, h5, h6, h7, h8⟩ := E.res hr
    obtain ⟨-, -, hl⟩ := E.run_inv j h2
    rw [h3, h] at hl
    injection hl with ht hq
    subst ht
    rw [Exec.accesses_succ]
    have := E.get_ticks h2 hq.symm
    rw [E.ticks_eq j t c h2, h3] at this
    split <;> omega

end

/-- Running alone, a `get` takes at most 17 steps from any point. -/
theorem Exec.solo_get {cfg : Config K P} (E : Exec cfg) {i t : Nat} {c : Call K P} (hc : E.Running i t c) {k : K}
    (hk : c.req = .op (.get k)) :
    ∃ n s' r, n ≤ 17 ∧ RunOK cfg (E.st i) (List.replicate n (.tick t false)) ∧
        runList cfg (E.st i) (List.replicate n (.tick t false)) = some (s', [.res c.inv r]) ∧ (s'.thr t).run = none := by
  refine Exec.solo_returns (t := t) (rq := .op (.get k)) (fun _ c => 16 - c.ticks) ?_ 17 E i c hk hc (by omega)
  intro E i c c' hq h1 h2 h3
  rcases step_run_full (E.step i) h3 with ⟨g1, g2⟩ | ⟨c0, pc, ran, weak, g1, g2, g3, rfl⟩ | ⟨r, g1, rfl, g2⟩
  · exact absurd h2 (g2 _)
  · rw [h1] at g1; cases g1
    have := E.get_ticks (i := i + 1) h3 hq
    simp only at this ⊢
    omega
  · rw [h2] at g1; cases g1

/-- A step that starts a call or is made by a call which is not an update leaves the content alone. -/
theorem Exec.content_step {cfg : Config K P} (E : Exec cfg) {i : Nat}
    (h : ∀ t weak c, E.lab i = .tick t weak → E.Running i t c → ∀ o, c.req = .op o → ∃ k, o = .get k) :
    E.content (i + 1) = E.content i := by
  cases hw : E.W i with
  | none => exact E.A_none hw
  | some lp =>
    obtain ⟨t, c, h1, h2, h3, h4, weak, h5⟩ := E.W_call hw
    obtain ⟨k, hk⟩ := h t weak c h5 h1 _ h3
    have := E.A_some hw
    rw [hk] at this
    simp only [AMap.apply, Prod.mk.injEq] at this
    exact this.1.symm

/-- The content of the map is exactly what lookups running alone find: in any reachable state, for any key, a session
that holds a guard and is not in a call gets `content i k` from `get(k)`, within 17 accesses. -/
theorem content_is_what_get_finds {cfg : Config K P} (E : Exec cfg) (i t : Nat) (k : K) {p : Nat}
    (hp : ((E.st i).thr t).pin = some p) (hr : ((E.st i).thr t).run = none) :
    ∃ n s', n ≤ 17 ∧
      runList cfg (E.st i) (.call t (.op (.get k)) :: List.replicate n (.tick t false)) =
        some (s', [.inv i (.op (.get k)), .res i (.op (.opt (E.content i k)))]) := by
  have hf := ((E.inv i).thr t).noFail
  have hok1 : RunOK cfg (E.st i) [.call t (.op (.get k))] := by
    refine ⟨trivial, trivial, ?_⟩
    simp only [Contrie.step, hp, hr, hf]
    trivial
  obtain ⟨E1, a1, a2, a3, a4⟩ := E.splice i hok1
  have hl1 : E1.lab i = .call t (.op (.get k)) := by simpa using a4 0
  have hs1 := E1.step i
  rw [hl1, a1 i (Nat.le_refl i)] at hs1
  have hs1' := hs1
  simp only [Contrie.step, hp, hr, hf, Option.some.injEq, Prod.mk.injEq] at hs1'
  have hrun : E1.Running (i + 1) t ⟨i, .op (.get k), startPC cfg (.op (.get k)), 0, 0⟩ := by
    simp only [Exec.Running, ← hs1'.1, upd_same, E.clock]
  have hev1 : E1.ev i = some (.inv i (.op (.get k))) := by rw [← hs1'.2, E.clock]
  obtain ⟨n, s', r, b1, b2, b3, b4⟩ := E1.solo_get hrun rfl
  have hrl : runList cfg (E.st i) (.call t (.op (.get k)) :: List.replicate n (.tick t false)) =
      some (s', [.inv i (.op (.get k)), .res i r]) := by
    rw [hev1] at hs1
    simp only [runList, hs1, b3]
    rfl
  obtain ⟨E2, c1, c2, c3, c4⟩ := E1.splice (i + 1) b2
  rw [b3] at c3
  injection c3 with c3
  have hlabs : ∀ j, i ≤ j → j < i + 1 + n → E2.lab j = .call t (.op (.get k)) ∨ E2.lab j = .tick t false := by
    intro j h1 h2
    by_cases e : j = i
    · subst e; rw [(c2 j (by omega)).1, hl1]; exact Or.inl rfl
    · have := c4 (j - (i + 1))
      rw [show i + 1 + (j - (i + 1)) = j by omega] at this
      rw [this]; simp only [List.getD_eq_getElem?_getD, List.getElem?_replicate, if_pos (show j - (i + 1) < n by omega)]; exact Or.inr rfl
  -- the return
  have hret : ∃ m, m < n ∧ E2.Returns (i + 1 + m) i r := by
    have h2 := congrArg Prod.snd c3
    simp only [List.length_replicate] at h2
    have : Event.res i r ∈ (List.range n).filterMap (fun j => E2.ev (i + 1 + j)) := by rw [← h2]; simp
    obtain ⟨m, hm, he⟩ := List.mem_filterMap.mp this
    exact ⟨m, by simpa using hm, he⟩
  obtain ⟨m, hm, hret⟩ := hret
  have hinv2 : E2.Invoked i (.op (.get k)) := by
    rw [Exec.Invoked, (c2 i (by omega)).2]; exact hev1
  -- the content does not change
  have hconst : ∀ j, i + j ≤ i + 1 + n → E2.content (i + j) = E.content i := by
    intro j
    induction j with
    | zero =>
      intro _
      show (E2.st (i + 0)).content cfg = _
      rw [c1 (i + 0) (by omega), a1 (i + 0) (by omega)]; rfl
    | succ j ih =>
      intro hj
      rw [← ih (by omega)]
      refine E2.content_step ?_
      intro t' weak c h1 h2 o ho
      change E2.lab (i + j) = _ at h1
      change E2.Running (i + j) _ _ at h2
      rcases hlabs (i + j) (by omega) (by omega) with h | h
      · rw [h] at h1; cases h1
      · rw [h] at h1; cases h1
        obtain ⟨d1, d2, d3⟩ := E2.run_inv _ h2
        by_cases hc : c.inv = i
        · rw [hc] at d2; rw [Exec.Invoked] at hinv2; rw [hinv2] at d2
          injection d2 with d2; injection d2 with _ d2; rw [← d2] at ho; cases ho; exact ⟨k, rfl⟩
        · by_cases hc2 : c.inv < i
          · -- session `t` was idle at `i`
            exfalso
            have hj1 : i + j = i ∨ i + 1 ≤ i + j := by omega
            rcases hj1 with hj1 | hj1
            · rw [hj1] at h; rw [(c2 i (by omega)).1, hl1] at h; cases h
            · have hg : E2.Gone (i + 1) c.inv := by
                intro t1 c1' hc1 he
                have hst : E2.st (i + 1) = E1.st (i + 1) := c1 (i + 1) (by omega)
                rw [hst] at hc1
                have := (E1.run_inv _ hc1).2.2
                rw [he, ← (c2 c.inv (by omega)).1, d3] at this
                injection this with this _
                subst this
                rw [hrun] at hc1
                cases hc1
                simp only at he
                omega
              exact hg.mono E2 (by omega) hj1 t c h2 rfl
          · exfalso
            rcases hlabs c.inv (by omega) (by omega) with h | h
            · rw [h] at d3
              have hlt : i < c.inv := by omega
              have := c4 (c.inv - (i + 1))
              rw [show i + 1 + (c.inv - (i + 1)) = c.inv by omega, h] at this
              simp only [List.getD_eq_getElem?_getD, List.getElem?_replicate, if_pos (show c.inv - (i + 1) < n by omega)] at this
              cases this
            · rw [h] at d3; cases d3
  obtain ⟨-, τ, t1, t2, t3⟩ := C02_get_truthful E2 hinv2 hret
  have := hconst (τ - i) (by omega)
  rw [show i + (τ - i) = τ by omega] at this
  rw [this] at t3
  exact ⟨n, s', b1, by rw [hrl, t3]⟩

/-! ### C15 -/

/-- **C15.** `is_empty` returns a boolean, and if it returns `true` then the map was empty at some instant between
its invocation and its return. -/
theorem C15_is_empty_true {cfg : Config K P} (E : Exec cfg) {id j : Nat} {r : Res P} (hi : E.Invoked id .isEmpty)
    (hr : E.Returns j id r) :
    ∃ b, r = .bool b ∧ (b = true → ∃ τ, id ≤ τ ∧ τ ≤ j ∧ ∀ k, E.content τ k = none) := by
  obtain ⟨t, c, refs, weak, h1, h2, h3, h4, h5, h6, h7, h8⟩ := E.res hr
  have hreq : c.req = .isEmpty := by
    rw [Exec.Invoked] at hi; rw [hi] at h8; injection h8 with h8; injection h8 with _ h8; exact h8.symm
  simp only [RetOK, hreq] at h4
  obtain ⟨-, b, rfl, -, h⟩ := h4
  refine ⟨b, rfl, fun hb => ?_⟩
  obtain ⟨τ, t1, t2, t3⟩ := h hb
  rw [E.clock] at t2
  exact ⟨τ, by omega, by omega, fun k => by show E.A τ k = none; rw [t3]; rfl⟩

/-! ### The hypotheses can be met -/

/-- Session 0 inserts (7,1), then (23,2), which has the same lowest four bits, so that the trie gets a second level;
session 1 looks up 7 while session 2 removes 23 and inserts (39,3), session 3 calls `is_empty` before and after. -/
def exLook : List (Label Nat (Nat × Nat)) :=
  [.pin 0, .pin 1, .pin 2, .pin 3, .call 3 .isEmpty, .tick 3 false, .call 0 (.op (.insert (7, 1)))] ++ ticks 0 2 ++
  [.call 0 (.op (.insert (23, 2)))] ++ ticks 0 8 ++
  [.call 1 (.op (.get 7)), .call 2 (.op (.remove 23)), .tick 1 false, .tick 2 false, .tick 1 false, .tick 1 false] ++
  ticks 2 3 ++ [.call 3 .isEmpty, .tick 3 false]

/-- All of C02, C08, C15 apply to this run: there `get(7)` is invoked at instant 18, after `insert((7,1))` (instants 6 to
8) has returned and while another session removes 23, and returns `Some((7,1))` in step 23; the first `is_empty` returns `true`. -/
example : ∃ E : Exec exCfg, E.Invoked 6 (.op (.insert (7, 1))) ∧ E.Returns 8 6 (.op (.opt none)) ∧
    E.lab 18 = .call 1 (.op (.get 7)) ∧ E.Invoked 18 (.op (.get 7)) ∧
    E.Returns 23 18 (.op (.opt (some (7, 1)))) ∧ E.Invoked 4 .isEmpty ∧ E.Returns 5 4 (.bool true) ∧
    E.Returns 28 27 (.bool false) ∧ E.content 18 7 = some (7, 1) ∧ E.content 18 23 = some (23, 2) ∧
    ((E.st 29).thr 2).run.isSome = true ∧ E.content 29 23 = none := by
  obtain ⟨E, h1, h2, h3⟩ := Exec.ofCheck' (cfg := exCfg) 4 (ls := exLook) (by decide)
  refine ⟨E, ?_, ?_, ?_, ?_, ?_, ?_, ?_, ?_, ?_, ?_, ?_, ?_⟩
  all_goals simp only [Exec.Invoked, Exec.Returns, Exec.content, h1, h2, h3]
  all_goals rfl

end Contrie
