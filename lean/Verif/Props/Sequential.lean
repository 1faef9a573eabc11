import Verif.Props.Serial
import Verif.Props.Progress
import Verif.Props.Iterate
import Verif.Spec.Sequential
/-
C19 (sequential use), C20 (the hash function does not matter).
-/
set_option linter.unusedSectionVars false
namespace Contrie
variable {K P : Type} [DecidableEq K] {cfg : Config K P}

/-- What is observable of the first `n` steps. -/
def Exec.events (E : Exec cfg) (n : Nat) : List (Event K P) := (List.range n).filterMap E.ev

theorem Exec.events_succ (E : Exec cfg) (n : Nat) : E.events (n + 1) = E.events n ++ (E.ev n).toList := by
  simp only [Exec.events, List.range_succ, List.filterMap_append]
  cases h : E.ev n <;> simp [List.filterMap, h]

theorem Exec.W_tick (E : Exec cfg) {i : Nat} (h : ∀ t c, ((E.st i).thr t).run ≠ some c) : E.W i = none := by
  cases hw : E.W i with
  | none => rfl
  | some lp => obtain ⟨t, c, h1, -⟩ := E.W_call hw; exact absurd h1 (h t c)

theorem seqEvents_snoc (L : List (Done K P)) (x : Done K P) :
    seqEvents (L ++ [x]) = (seqEvents L ++ [.inv x.id x.req]) ++ [.res x.id x.res] := by
  simp [seqEvents]

theorem seqEvents_even (L : List (Done K P)) : (seqEvents L).length = 2 * L.length := by
  induction L with
  | nil => rfl
  | cons x L ih => simp only [seqEvents, List.flatMap_cons, List.length_append, List.length_cons] at ih ⊢; simp; omega

/-- Only call `id` is in progress, if any. -/
def Exec.Only (E : Exec cfg) (n id : Nat) : Prop := ∀ t c, ((E.st n).thr t).run = some c → c.inv = id

theorem Exec.serial_init (E : Exec cfg) : E.RemovalsAlone 0 where
  alone := by
    intro i hi t t' c c' hc
    have : i = 0 := by omega
    subst this
    rw [E.init] at hc; cases hc
  finished := by intro i hi; omega

theorem Exec.serial_succ (E : Exec cfg) {n id : Nat} (h : E.RemovalsAlone n) (ho : E.Only (n + 1) id)
    (hf : ∀ t c, E.lab n = .abort t → ((E.st n).thr t).run = some c → c.req.isUpdate = false) : E.RemovalsAlone (n + 1) where
  alone := by
    intro i hi t t' c c' hc hc' hu hu'
    by_cases e : i = n + 1
    · subst e
      exact (E.inv (n + 1)).inj t t' c c' hc hc' (by rw [ho t c hc, ho t' c' hc'])
    · exact h.alone i (by omega) t t' c c' hc hc' hu hu'
  finished := by
    intro i hi t c hl hc
    by_cases e : i = n
    · subst e; exact hf t c hl hc
    · exact h.finished i (by omega) t c hl hc

/-- A call during which nothing but itself takes effect is answered as by a plain map. -/
theorem Exec.answers (E : Exec cfg) {id n : Nat} {r : Req K P} {x : Res P} (h3 : E.Invoked id r) (he : E.Returns n id x)
    (hWid : ∀ τ lp, id ≤ τ → τ ≤ n → E.W τ = some lp → lp.id = id)
    (hempty : r = .isEmpty → E.RemovalsAlone n ∧ E.NoUpdate n) :
    (E.content id).Answers cfg.key r x (E.content (n + 1)) := by
  rw [Exec.Returns] at he
  obtain ⟨t, c, refs, weak, g1, g2, g3, g4, g5, g6, g7, g8⟩ := E.res he
  -- constant while nothing is linearized
  have hconst : (∀ τ lp, id ≤ τ → τ ≤ n → E.W τ ≠ some lp) → ∀ τ, id ≤ τ → τ ≤ n + 1 → E.content τ = E.content id := by
    intro hw τ
    induction τ with
    | zero => intro a1 a2; rw [show id = 0 by omega]
    | succ τ iht =>
      intro a1 a2
      by_cases e : id = τ + 1
      · rw [e]
      · rw [← iht (by omega) (by omega)]
        refine E.A_none ?_
        cases hwt : E.W τ with
        | none => rfl
        | some lp => exact absurd hwt (hw τ lp (by omega) (by omega))
  have hnoop : (∀ o, r ≠ .op o) → ∀ τ lp, id ≤ τ → τ ≤ n → E.W τ ≠ some lp := by
    intro hx τ lp a1 a2 a3
    have e1 := (E.W_in a3).2.1
    rw [hWid τ lp a1 a2 a3] at e1
    rw [Exec.Invoked] at h3
    rw [h3] at e1
    injection e1 with e1
    injection e1 with _ e1
    exact hx _ e1
  cases r with
  | op o =>
    have hres : ∃ ret, x = .op ret := by
      have := g4.2
      have hcr : c.req = .op o := by
        rw [Exec.Invoked] at h3; rw [h3] at g8; injection g8 with g8; injection g8 with _ g8; exact g8.symm
      rw [hcr] at this
      obtain ⟨ret, e, -⟩ := this
      exact ⟨ret, e⟩
    obtain ⟨ret, rfl⟩ := hres
    simp only [AMap.Answers]
    obtain ⟨-, ⟨τ, a1, a2, a3⟩ | ⟨b0, τ, a1, a2, a3⟩⟩ := E.res_op h3 he
    · -- the update takes effect at τ
      have before : ∀ σ, id ≤ σ → σ ≤ τ → E.content σ = E.content id := by
        intro σ
        induction σ with
        | zero => intro s1 s2; rw [show id = 0 by omega]
        | succ σ ihs =>
          intro s1 s2
          by_cases e : id = σ + 1
          · rw [e]
          · rw [← ihs (by omega) (by omega)]
            refine E.A_none ?_
            cases hwt : E.W σ with
            | none => rfl
            | some lp =>
              have := E.W_unique hwt a3 (by rw [hWid σ lp (by omega) (by omega) hwt])
              omega
      have after : ∀ σ, τ + 1 ≤ σ → σ ≤ n + 1 → E.content σ = E.content (τ + 1) := by
        intro σ
        induction σ with
        | zero => intro s1 s2; omega
        | succ σ ihs =>
          intro s1 s2
          by_cases e : σ = τ
          · rw [e]
          · rw [← ihs (by omega) (by omega)]
            refine E.A_none ?_
            cases hwt : E.W σ with
            | none => rfl
            | some lp =>
              have := E.W_unique hwt a3 (by rw [hWid σ lp (by omega) (by omega) hwt])
              omega
      rw [after (n + 1) (by omega) (by omega), ← before τ a1 (by omega)]
      exact E.A_some a3
    · have hc := hconst (fun τ lp s1 s2 s3 => b0 τ lp s3 (hWid τ lp s1 s2 s3))
      have e1 := hc τ a1 (by omega)
      have e2 := hc (n + 1) (by omega) (by omega)
      have a3 : (E.content τ).apply cfg.key o = (E.content τ, ret) := a3
      rw [e1] at a3
      rw [e2, a3]
  | isEmpty =>
    have hc := hconst (hnoop (by intro o e; cases e))
    obtain ⟨hser, hnu⟩ := hempty rfl
    obtain ⟨b, hb, hiff⟩ := C16_is_empty_exact E h3 he hser hnu
    rw [hb]
    rw [hc n (by omega) (by omega)] at hiff
    exact ⟨hc (n + 1) (by omega) (by omega), hiff⟩
  | iter =>
    have hc := hconst (hnoop (by intro o e; cases e))
    obtain ⟨out, hout, -, hmem⟩ := C14_unmodified_exact E h3 he (fun τ s1 s2 => hc τ s1 (by omega))
    obtain ⟨out', hout', hnd⟩ := C11_no_key_twice E h3 he
    rw [hout] at hout' ⊢
    cases hout'
    exact ⟨hc (n + 1) (by omega) (by omega), hnd, hmem⟩

/-- The invariant of sequential use. -/
theorem Exec.sequential (E : Exec cfg) (n : Nat) :
    (∀ L : List (Done K P), E.events n = seqEvents L → (∀ t c, ((E.st n).thr t).run ≠ some c) ∧ E.RemovalsAlone n ∧
      SeqLegal cfg.key AMap.empty (L.map (fun x => (x.req, x.res))) (E.content n)) ∧
    (∀ (L : List (Done K P)) (id : Nat) (r : Req K P), E.events n = seqEvents L ++ [.inv id r] →
      E.Only n id ∧ id < n ∧ E.Invoked id r ∧ ((∃ t c, ((E.st n).thr t).run = some c) → E.RemovalsAlone n) ∧
      (∀ τ lp, id ≤ τ → τ < n → E.W τ = some lp → lp.id = id) ∧
      SeqLegal cfg.key AMap.empty (L.map (fun x => (x.req, x.res))) (E.content id)) := by
  induction n with
  | zero =>
    constructor
    · intro L hL
      have : L = [] := by
        have := congrArg List.length hL
        rw [seqEvents_even] at this
        simp [Exec.events] at this
        exact List.length_eq_zero_iff.mp (by omega)
      subst this
      refine ⟨?_, E.serial_init, ?_⟩
      · intro t c hc; rw [E.init] at hc; cases hc
      · have : E.content 0 = AMap.empty := E.A_zero
        rw [this]; exact .nil _
    · intro L id r h
      simp [Exec.events] at h
  | succ n ih =>
    obtain ⟨ih1, ih2⟩ := ih
    have hev := E.events_succ n
    have hst := E.step n
    cases he : E.ev n with
    | none =>
      rw [he] at hev
      simp only [Option.toList_none, List.append_nil] at hev
      -- a silent step starts no call
      have hrun : ∀ t c', ((E.st (n + 1)).thr t).run = some c' → ∃ c, ((E.st n).thr t).run = some c ∧ c.inv = c'.inv := by
        intro t c' hc'
        rcases step_run hst hc' with ⟨c0, e1, e2, e3⟩ | ⟨e1, e2, e3⟩
        · exact ⟨c0, e1, e2⟩
        · rw [he] at e2; cases e2
      rw [hev]
      constructor
      · intro L hL
        obtain ⟨h1, h2, h3⟩ := ih1 L hL
        have hq : ∀ t c, ((E.st (n + 1)).thr t).run ≠ some c := by
          intro t c hc
          obtain ⟨c0, e1, -⟩ := hrun t c hc
          exact h1 t c0 e1
        refine ⟨hq, E.serial_succ (id := 0) h2 (fun t c hc => absurd hc (hq t c)) (fun t c _ hc => absurd hc (h1 t c)), ?_⟩
        have : E.content (n + 1) = E.content n := E.A_none (E.W_tick h1)
        rw [this]; exact h3
      · intro L id r h
        obtain ⟨h1, h2, h3, h4, h5, h6⟩ := ih2 L id r h
        have hon : E.Only (n + 1) id := by
          intro t c hc
          obtain ⟨c0, e1, e2⟩ := hrun t c hc
          rw [← e2]; exact h1 t c0 e1
        refine ⟨hon, by omega, h3, ?_, ?_, h6⟩
        · rintro ⟨t, c, hc⟩
          obtain ⟨c0, e1, e2⟩ := hrun t c hc
          refine E.serial_succ (h4 ⟨t, c0, e1⟩) hon ?_
          intro t' c' hl hc'
          -- the only call in progress would be gone
          have : t' = t := (E.inv n).inj t' t c' c0 hc' e1 (by rw [h1 t' c' hc', h1 t c0 e1])
          subst this
          exfalso
          rw [hl] at hst
          simp only [Contrie.step, hc', Option.some.injEq, Prod.mk.injEq] at hst
          rw [← hst.1] at hc
          simp at hc
        · intro τ lp g1 g2 g3
          by_cases e : τ = n
          · subst e
            obtain ⟨t, c, f1, f2, -⟩ := E.W_call g3
            rw [f2]; exact h1 t c f1
          · exact h5 τ lp g1 (by omega) g3
    | some e =>
      rw [he] at hev
      simp only [Option.toList_some] at hev
      rw [hev]
      cases e with
      | inv id' r' =>
        constructor
        · intro L hL
          exfalso
          rcases List.eq_nil_or_concat L with rfl | ⟨L', x, rfl⟩
          · simp [seqEvents] at hL
          · rw [List.concat_eq_append, seqEvents_snoc] at hL
            have := List.append_inj_right' hL rfl
            simp at this
        · intro L id r h
          have h7 := List.append_inj_left' h rfl
          have h8 := List.append_inj_right' h rfl
          simp only [List.cons.injEq, Event.inv.injEq, and_true] at h8
          obtain ⟨rfl, rfl⟩ := h8
          have hid : id' = n := E.ev_inv he
          subst hid
          obtain ⟨h1, h2, h3⟩ := ih1 L h7
          have hon : E.Only (id' + 1) id' := by
            intro t c hc
            rcases step_run hst hc with ⟨c0, e1, e2, e3⟩ | ⟨e1, e2, e3⟩
            · exact absurd e1 (h1 t c0)
            · rw [e1, E.clock]
          refine ⟨hon, by omega, he, fun _ => E.serial_succ h2 hon (fun t c _ hc => absurd hc (h1 t c)), ?_, h3⟩
          intro τ lp g1 g2 g3
          have : τ = id' := by omega
          subst this
          rw [E.W_tick h1] at g3; cases g3
      | res id' x' =>
        constructor
        · intro L hL
          rcases List.eq_nil_or_concat L with rfl | ⟨L', x, rfl⟩
          · simp [seqEvents] at hL
          rw [List.concat_eq_append, seqEvents_snoc] at hL
          have h7 := List.append_inj_left' hL rfl
          have h8 := List.append_inj_right' hL rfl
          simp only [List.cons.injEq, Event.res.injEq, and_true] at h8
          obtain ⟨rfl, rfl⟩ := h8
          obtain ⟨h1, h2, h3, h4, h5, h6⟩ := ih2 L' _ _ h7
          obtain ⟨t, c, refs, weak, g1, g2, g3, g4, g5, g6, g7, g8⟩ := E.res he
          have hser := h4 ⟨t, c, g2⟩
          have hq : ∀ t c, ((E.st (n + 1)).thr t).run ≠ some c := by
            intro u c' hc'
            rcases step_run hst hc' with ⟨c0, e1, e2, e3⟩ | ⟨e1, e2, e3⟩
            · have : u = t := (E.inv n).inj u t c0 c e1 g2 (by rw [h1 u c0 e1, g3])
              subst this
              rw [g6] at hc'; cases hc'
            · rw [he] at e2; cases e2
          refine ⟨hq, E.serial_succ (id := 0) hser (fun t c hc => absurd hc (hq t c))
            (fun t c hl _ => by rw [g1] at hl; cases hl), ?_⟩
          rw [List.concat_eq_append, List.map_append]
          refine .snoc h6 ?_
          refine E.answers h3 he ?_ ?_
          · intro τ lp a1 a2 a3
            by_cases e : τ = n
            · subst e
              obtain ⟨u, c', f1, f2, -⟩ := E.W_call a3
              rw [f2]; exact h1 u c' f1
            · exact h5 τ lp a1 (by omega) a3
          · intro hreq
            rw [hreq] at h3
            refine ⟨hser, ?_⟩
            intro u c' hc'
            have : u = t := (E.inv n).inj u t c' c hc' g2 (by rw [h1 u c' hc', g3])
            subst this
            rw [g2] at hc'; cases hc'
            rw [Exec.Invoked] at h3; rw [h3] at g8
            injection g8 with g8; injection g8 with _ g8
            rw [← g8]; rfl
        · intro L id r h
          have := List.append_inj_right' h rfl
          simp at this

/-- **C19.** If the calls of a run do not overlap (by whatever sessions they are made, and whatever pinning, unpinning and
collecting happens in between), then each of them returns exactly what a plain map would return for the same sequence of requests: `insert`
the replaced element, `remove` the removed one, `get` the current one, `get_or_insert_with` the existing or the new one, `is_empty` whether the map
is empty, an iteration all elements. -/
theorem C19_sequential (cfg : Config K P) (ls : List (Label K P)) (hok : RunOK cfg State.init ls) {s : State K P}
    {L : List (Done K P)} (hrun : runList cfg State.init ls = some (s, seqEvents L)) :
    SeqLegal cfg.key AMap.empty (L.map (fun x => (x.req, x.res))) (s.content cfg) := by
  obtain ⟨E, h1, h2⟩ := Exec.ofList hok
  rw [hrun] at h1
  injection h1 with h1
  injection h1 with h1 h3
  have := ((E.sequential ls.length).1 L (by rw [h3]; rfl)).2.2
  rw [h1]
  exact this

/-- The labels of a session that makes the calls `rs` one after the other, the `i`-th of them taking `ns[i]` steps. -/
def soloLabels : List (Req K P) → List Nat → List (Label K P)
  | r :: rs, n :: ns => .call 0 r :: List.replicate n (.tick 0 false) ++ soloLabels rs ns
  | _, _ => []

theorem Exec.solo_all (rs : List (Req K P)) (hwf : ∀ o, Req.op o ∈ rs → o.WF cfg.key) : ∀ (E : Exec cfg) (i : Nat) {p : Nat},
    ((E.st i).thr 0).pin = some p → ((E.st i).thr 0).run = none → ∃ (ns : List Nat) (L : List (Done K P)) (s' : State K P),
      ns.length = rs.length ∧ L.map Done.req = rs ∧ RunOK cfg (E.st i) (soloLabels rs ns) ∧
      runList cfg (E.st i) (soloLabels rs ns) = some (s', seqEvents L) := by
  induction rs with
  | nil => intro E i p _ _; exact ⟨[], [], E.st i, rfl, rfl, trivial, rfl⟩
  | cons r rs ih =>
    intro E i p hp hr
    have hw : (Label.call 0 r : Label K P).WF cfg := by
      cases r with
      | op o => exact hwf o (by simp)
      | isEmpty => trivial
      | iter => trivial
    obtain ⟨n, s', x, h1, h2, h3⟩ := C10_solo_call E i 0 hp hr r hw
    obtain ⟨E', g1, g2, g3, g4⟩ := E.splice i h1
    rw [h2] at g3
    injection g3 with g3
    injection g3 with g3 g5
    have hpin : ∀ j, j ≤ n + 1 → ((E'.st (i + j)).thr 0).pin = some p := by
      intro j
      induction j with
      | zero => intro _; rw [Nat.add_zero, g1 i (Nat.le_refl i)]; exact hp
      | succ j ihj =>
        intro hj
        refine step_pin_keep (E'.step (i + j)) (ihj (by omega)) ?_ ?_
        all_goals
          rw [g4 j]
          cases j with
          | zero => simp
          | succ j =>
            simp only [List.getD_cons_succ]
            simp only [List.getD, List.getElem?_replicate]
            split <;> simp
    have hlen : (Label.call 0 r :: List.replicate n (Label.tick 0 false) : List (Label K P)).length = n + 1 := by simp
    rw [hlen] at g3
    rw [g3] at h3 h2
    obtain ⟨ns, L, s2, k1, k2, k3, k4⟩ := ih (fun o ho => hwf o (by simp [ho])) E' (i + (n + 1))
      (hpin (n + 1) (Nat.le_refl _)) h3
    refine ⟨n :: ns, ⟨i, r, x⟩ :: L, s2, by simp [k1], by simp [k2], ?_, ?_⟩
    · exact RunOK_append h1 h2 k3
    · have := runList_append h2 k4
      simpa [seqEvents, soloLabels] using this

/-- **C19**, termination: every finite sequence of requests can be made, one after the other; each call returns after finitely many steps.
(`C10_solo_call` says the same for a call in any reachable state.) -/
theorem C19_terminates (cfg : Config K P) (rs : List (Req K P)) (hwf : ∀ o, Req.op o ∈ rs → o.WF cfg.key) :
    ∃ (ns : List Nat) (L : List (Done K P)) (s : State K P), ns.length = rs.length ∧ L.map Done.req = rs ∧
      RunOK cfg State.init (.pin 0 :: soloLabels rs ns) ∧
      runList cfg State.init (.pin 0 :: soloLabels rs ns) = some (s, seqEvents L) := by
  have hok : RunOK cfg State.init [(.pin 0 : Label K P)] := ⟨trivial, trivial, trivial⟩
  obtain ⟨E, h1, h2⟩ := Exec.ofList hok
  have hr : runList cfg State.init [(.pin 0 : Label K P)] =
      some (⟨Mem.init.bump, upd (fun _ => Thread.init) 0 ⟨some 0, [], none, none⟩⟩, []) := rfl
  rw [hr] at h1
  injection h1 with h1
  injection h1 with h1 h3
  simp only [List.length_singleton] at h1
  have hp : ((E.st 1).thr 0).pin = some 0 := by rw [← h1]; rfl
  have hn : ((E.st 1).thr 0).run = none := by rw [← h1]; rfl
  obtain ⟨ns, L, s', k1, k2, k3, k4⟩ := E.solo_all rs hwf 1 hp hn
  rw [← h1] at k3 k4
  refine ⟨ns, L, s', k1, k2, ?_, ?_⟩
  · exact RunOK_append hok hr k3
  · have := runList_append hr k4
    simpa using this

/-- **C20.** Two maps that differ only in their hash function give the same answers to the same sequence of requests
(and end up with the same content): the same results, and iterations yield the same elements, possibly in a different order. -/
theorem C20_hash_irrelevant (key : P → K) (hash hash' : K → BitVec 64) (ls ls' : List (Label K P))
    (hok : RunOK ⟨key, hash⟩ State.init ls) (hok' : RunOK ⟨key, hash'⟩ State.init ls') {s s' : State K P} {L L' : List (Done K P)}
    (hrun : runList ⟨key, hash⟩ State.init ls = some (s, seqEvents L))
    (hrun' : runList ⟨key, hash'⟩ State.init ls' = some (s', seqEvents L')) (hreq : L.map Done.req = L'.map Done.req) :
    List.Forall₂ Res.Same (L.map Done.res) (L'.map Done.res) ∧ s.content ⟨key, hash⟩ = s'.content ⟨key, hash'⟩ := by
  have h1 := C19_sequential _ ls hok hrun
  have h2 := C19_sequential _ ls' hok' hrun'
  have := SeqLegal.same h1 h2 (by simpa [List.map_map, Function.comp_def] using hreq)
  simpa [List.map_map, Function.comp_def] using this

/-! ### The hypotheses can be met -/

/-- Seven requests, ... -/
def exReqs : List (Req Nat (Nat × Nat)) :=
  [.op (.insert (7, 1)), .op (.insert (23, 2)), .op (.insert (7, 3)), .op (.getOrInsert 5 (fun k => (k, 9))), .op (.remove 23),
   .isEmpty, .iter]
/-- ... and what they return with the identity as the hash function. -/
def exDone : List (Done Nat (Nat × Nat)) :=
  [⟨1, .op (.insert (7, 1)), .op (.opt none)⟩, ⟨4, .op (.insert (23, 2)), .op (.opt none)⟩,
   ⟨13, .op (.insert (7, 3)), .op (.opt (some (7, 1)))⟩,
   ⟨18, .op (.getOrInsert 5 (fun k => (k, 9))), .op (.eon (.new (5, 9)))⟩, ⟨22, .op (.remove 23), .op (.opt (some (23, 2)))⟩,
   ⟨76, .isEmpty, .bool false⟩, ⟨78, .iter, .list [(5, 9), (7, 3)]⟩]
set_option maxRecDepth 40000 in
/-- C19: this is a run. -/
example : RunOK exCfg State.init (.pin 0 :: soloLabels exReqs [2, 8, 4, 3, 53, 1, 37]) ∧
    (∃ s, runList exCfg State.init (.pin 0 :: soloLabels exReqs [2, 8, 4, 3, 53, 1, 37]) = some (s, seqEvents exDone)) ∧
    exDone.map Done.req = exReqs :=
  ⟨runOK_of_check 1 (by decide), ⟨_, rfl⟩, rfl⟩


/-- C20: for any two hash functions, such as the identity and a constant function, there are runs that satisfy the hypotheses. -/
example : ∃ (ls ls' : List (Label Nat (Nat × Nat))) (s s' : State Nat (Nat × Nat)) (L L' : List (Done Nat (Nat × Nat))),
    RunOK exCfg State.init ls ∧ RunOK exCollide State.init ls' ∧ runList exCfg State.init ls = some (s, seqEvents L) ∧
    runList exCollide State.init ls' = some (s', seqEvents L') ∧ L.map Done.req = exReqs ∧ L'.map Done.req = exReqs := by
  have hwf : ∀ o, Req.op o ∈ exReqs → o.WF Prod.fst := by
    intro o ho
    simp [exReqs] at ho
    rcases ho with rfl | rfl | rfl | rfl | rfl <;> first | trivial | rfl
  obtain ⟨ns, L, s, -, h2, h3, h4⟩ := C19_terminates exCfg exReqs hwf
  obtain ⟨ns', L', s', -, h2', h3', h4'⟩ := C19_terminates exCollide exReqs hwf
  exact ⟨_, _, s, s', L, L', h3, h3', h4, h4', h2, h2'⟩

end Contrie
