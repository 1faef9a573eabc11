import Verif.Props.Common
/-
C01 (linearizability), C03 (hand-back), C04 (get_or_insert agreement), C21 (independence of keys), C24 (crashes).
-/
set_option linter.unusedSectionVars false
namespace Contrie
open scoped List
variable {K P : Type} [DecidableEq K]

/-- **C01.** Every concurrent history of the map is well formed and linearizable. `ls` is an arbitrary schedule: any
number of sessions, any interleaving of single memory accesses, spurious CAS failures, calls that unwind, a collector
that destroys retired nodes at any moment its contract allows. -/
theorem C01_linearizable (cfg : Config K P) (ls : List (Label K P)) (hok : RunOK cfg State.init ls) :
    ∃ s es, runList cfg State.init ls = some (s, es) ∧
      WellFormed (opHistory es) ∧ Linearizable cfg.key (opHistory es) := by
  obtain ⟨E, h1, -⟩ := Exec.ofList hok
  refine ⟨_, _, h1, ?_, ?_⟩
  · rw [E.opHistory_ofList]; exact E.wellFormed _
  · rw [E.opHistory_ofList]; exact ⟨_, _, E.lin_isLinearization _⟩

/-- **C01**, stronger form: at every instant of every execution the calls so far have a linearization that ends in
the present content of the map. -/
theorem C01_linearizable_content {cfg : Config K P} (E : Exec cfg) (n : Nat) :
    WellFormed (E.history n) ∧ ∃ L, IsLinearization cfg.key (E.history n) L (E.content n) :=
  ⟨E.wellFormed n, _, E.lin_isLinearization n⟩

/-- **C01**, linearization points: there is an assignment `eff` of calls to steps such that the content changes only
in the steps that have a call assigned, there exactly as this call prescribes and with the result this call returns
(if it ever returns); the step lies between invocation and return; no call is assigned to two steps. -/
theorem C01_atomic_updates {cfg : Config K P} (E : Exec cfg) : ∃ eff : Nat → Option (SOp K P),
    (∀ i, eff i = none → E.content (i + 1) = E.content i) ∧
    (∀ i x, eff i = some x → x.id < i ∧ E.Invoked x.id (.op x.op) ∧
      (E.content i).apply cfg.key x.op = (E.content (i + 1), x.ret) ∧
      ∀ j r, E.Returns j x.id r → i ≤ j ∧ r = .op x.ret) ∧
    (∀ i i' x x', eff i = some x → eff i' = some x' → x.id = x'.id → i = i') := by
  refine ⟨fun i => (E.W i).map (fun lp => ⟨lp.id, lp.op, lp.ret⟩), ?_, ?_, ?_⟩
  · intro i h
    exact E.A_none (by simpa using h)
  · intro i x h
    obtain ⟨lp, hw, rfl⟩ := Option.map_eq_some_iff.mp h
    obtain ⟨h1, h2, h3⟩ := E.W_in hw
    refine ⟨h1, h2, E.A_some hw, ?_⟩
    intro j r' hr
    refine ⟨h3 j r' hr, ?_⟩
    obtain ⟨t, c, refs, weak, g1, g2, g3, g4, g5, g6, g7, g8⟩ := E.res hr
    simp only at g8
    rw [h2] at g8
    have hreq : c.req = .op lp.op := by injection g8 with g8; injection g8 with _ g8; exact g8.symm
    simp only [RetOK, hreq] at g4
    obtain ⟨-, ret, rfl, -⟩ := g4
    rcases E.res_op h2 hr with ⟨-, ⟨τ, a1, a2, a3⟩ | ⟨a0, -⟩⟩
    · have := E.W_unique hw a3 rfl
      subst this
      rw [hw] at a3
      injection a3 with a3
      rw [a3]
    · exact absurd rfl (a0 i lp hw)
  · intro i i' x x' h h' he
    obtain ⟨lp, hw, rfl⟩ := Option.map_eq_some_iff.mp h
    obtain ⟨lp', hw', rfl⟩ := Option.map_eq_some_iff.mp h'
    exact E.W_unique hw hw' he

/-- Non-vacuity of C01: the race of `exRace` is such a schedule. -/
example : ∃ s es, runList exCfg State.init exRace = some (s, es) ∧
    WellFormed (opHistory es) ∧ Linearizable exCfg.key (opHistory es) :=
  C01_linearizable exCfg exRace exRace_ok

/-! ### C03 -/

/-- Call `o` may put element `p` into the map. -/
def Op.offers (p : P) (o : Op K P) : Prop := o = .insert p ∨ ∃ k f, o = .getOrInsert k f ∧ f k = p

/-- In history `h`, call `id` hands element `p` back: it is an `insert` or a `remove` and returns `Some(p)`. -/
def HandedBack (h : List (HEv K P)) (id : Nat) (p : P) : Prop :=
  HEv.res id (.opt (some p)) ∈ h ∧ ((∃ q, HEv.inv id (.insert q) ∈ h) ∨ ∃ k, HEv.inv id (.remove k) ∈ h)

/-- All invoked operations of a history obey the contract of the closure. -/
def HistWF (key : P → K) (h : List (HEv K P)) : Prop := ∀ id o, HEv.inv id o ∈ h → o.WF key

theorem Exec.history_wf {cfg : Config K P} (E : Exec cfg) (n : Nat) : HistWF cfg.key (E.history n) := by
  intro id o h
  obtain ⟨h1, h2⟩ := E.mem_history_inv.mp h
  obtain ⟨-, t, h3⟩ := (E.stepOK id).inv id (.op o) h2
  have := E.wf id
  rw [h3] at this
  exact this

theorem legal_inserts_offer {key : P → K} {m m' : AMap K P} {L : List (SOp K P)} (h : Legal key m L m')
    {x : SOp K P} (hx : x ∈ L) {p : P} (hi : x.inserts p) : x.op.offers p := by
  induction h with
  | nil => cases hx
  | @cons m m1 m2 y L h _ ih =>
    rcases List.mem_cons.mp hx with e | hx'
    · subst e
      rcases hi with hi | hi
      · exact Or.inl hi
      · obtain ⟨id, o, r⟩ := x
        simp only at h hi
        subst hi
        cases o with
        | get k => simp [AMap.apply] at h
        | insert q => simp [AMap.apply] at h
        | getOrInsert k f =>
          simp only [AMap.apply] at h
          split at h
          · simp at h
          · simp at h
            exact Or.inr ⟨k, f, rfl, h.2⟩
        | remove k => simp [AMap.apply] at h
    · exact ih hx'

open Classical in
/-- The core of C03: it takes a legal order of the calls, no matter how this order is related to real time. -/
theorem C03_of_legal {key : P → K} {h : List (HEv K P)} {L : List (SOp K P)} {final : AMap K P}
    (invoked : ∀ x ∈ L, HEv.inv x.id x.op ∈ h) (once : (L.map SOp.id).Nodup)
    (complete : ∀ id o r, HEv.inv id o ∈ h → HEv.res id r ∈ h → ⟨id, o, r⟩ ∈ L) (legal : Legal key AMap.empty L final)
    (hwf : HistWF key h)
    (distinct : ∀ p id id' o o', HEv.inv id o ∈ h → HEv.inv id' o' ∈ h → o.offers p → o'.offers p → id = id') :
    (∀ p id id', HandedBack h id p → HandedBack h id' p → id = id') ∧
    (∀ p id, HandedBack h id p → ∃ id' o, HEv.inv id' o ∈ h ∧ o.offers p) := by
  have hwf' : ∀ x ∈ L, x.op.WF key := fun x hx => hwf _ _ (invoked x hx)
  have hcons := fun p => legal.conserve (empty_keyed key) hwf' p
  have hempty : ∀ p, (AMap.empty : AMap K P).has key p = 0 := by intro p; simp [AMap.has, AMap.empty]
  have find : ∀ p id, HandedBack h id p → ∃ x ∈ L, x.id = id ∧ x.handsBack p := by
    intro p id ⟨hr, ho⟩
    rcases ho with ⟨q, hq⟩ | ⟨k, hk⟩
    · exact ⟨_, complete _ _ _ hq hr, rfl, rfl, Or.inl ⟨q, rfl⟩⟩
    · exact ⟨_, complete _ _ _ hk hr, rfl, rfl, Or.inr ⟨k, rfl⟩⟩
  refine ⟨?_, ?_⟩
  · intro p id id' h1 h2
    obtain ⟨x, hx, rfl, hx2⟩ := find p id h1
    obtain ⟨y, hy, rfl, hy2⟩ := find p id' h2
    by_cases hne : x.id = y.id
    · exact hne
    exfalso
    have hxy : x ≠ y := fun e => hne (by rw [e])
    have h3 : 2 ≤ handBacks p L := two_le_countP hx hy hxy (by simpa using hx2) (by simpa using hy2)
    have h4 := hcons p
    rw [hempty] at h4
    have h5 : 2 ≤ insertions p L := by omega
    obtain ⟨a, ha, b, hb, h6, h7, h8⟩ := exists_two_of_countP SOp.id once h5
    simp only [decide_eq_true_eq] at h6 h7
    exact h8 (distinct p _ _ _ _ (invoked a ha) (invoked b hb) (legal_inserts_offer legal ha h6)
      (legal_inserts_offer legal hb h7))
  · intro p id h1
    obtain ⟨x, hx, -, hx2⟩ := find p id h1
    have h3 : 0 < handBacks p L := List.countP_pos_iff.mpr ⟨x, hx, by simpa using hx2⟩
    have h4 := hcons p
    rw [hempty] at h4
    obtain ⟨a, ha, h5⟩ := List.countP_pos_iff.mp (by omega : 0 < insertions p L)
    simp only [decide_eq_true_eq] at h5
    exact ⟨a.id, a.op, invoked a ha, legal_inserts_offer legal ha h5⟩

/-- **C03.** In every linearizable history (so, by C01, in every history of the map) in which each element is offered
by at most one call, each element is handed back at most once, and only elements that some call offered are handed
back. -/
theorem C03_spec {key : P → K} {h : List (HEv K P)} (hlin : Linearizable key h) (hwf : HistWF key h)
    (distinct : ∀ p id id' o o', HEv.inv id o ∈ h → HEv.inv id' o' ∈ h → o.offers p → o'.offers p → id = id') :
    (∀ p id id', HandedBack h id p → HandedBack h id' p → id = id') ∧
    (∀ p id, HandedBack h id p → ∃ id' o, HEv.inv id' o ∈ h ∧ o.offers p) := by
  obtain ⟨L, final, hL⟩ := hlin
  exact C03_of_legal hL.invoked hL.once hL.complete hL.legal hwf distinct

/-- **C03** for the map: at any instant of any execution. -/
theorem C03_hand_back_once {cfg : Config K P} (E : Exec cfg) (n : Nat)
    (distinct : ∀ p id id' o o', HEv.inv id o ∈ E.history n → HEv.inv id' o' ∈ E.history n →
      o.offers p → o'.offers p → id = id') :
    (∀ p id id', HandedBack (E.history n) id p → HandedBack (E.history n) id' p → id = id') ∧
    (∀ p id, HandedBack (E.history n) id p → ∃ id' o, HEv.inv id' o ∈ E.history n ∧ o.offers p) :=
  C03_spec ⟨_, _, E.lin_isLinearization n⟩ (E.history_wf n) distinct

/-- **C03**, conservation (no distinctness needed): at every instant there is a linearization in which, for every
element, the number of calls that put it in equals the number of calls that hand it back plus one if it is in the map
now. So no element is ever lost or duplicated. -/
theorem C03_conservation {cfg : Config K P} (E : Exec cfg) (n : Nat) :
    ∃ L, IsLinearization cfg.key (E.history n) L (E.content n) ∧
      ∀ p, insertions p L = handBacks p L + (E.content n).has cfg.key p := by
  refine ⟨_, E.lin_isLinearization n, ?_⟩
  intro p
  have hL := E.lin_isLinearization n
  have := hL.legal.conserve (empty_keyed cfg.key) (fun x hx => E.history_wf n _ _ (hL.invoked x hx)) p
  have h0 : (AMap.empty : AMap K P).has cfg.key p = 0 := by simp [AMap.has, AMap.empty]
  rw [h0] at this
  exact this

/-- Non-vacuity of C03: in the race of `exRace` both offered elements are handed back (7,2) to the first call,
(7,1) to the third one. -/
example : ∃ E : Exec exCfg, HandedBack (E.history 23) 4 (7, 2) ∧ HandedBack (E.history 23) 12 (7, 1) := by
  obtain ⟨E, h1, h2⟩ := Exec.ofList exRace_ok
  refine ⟨E, ?_⟩
  have h3 : E.history 23 = opHistory (exEvents exCfg exRace) := by
    have : exEvents exCfg exRace = (List.range 23).filterMap E.ev := by
      simp only [exEvents, h1]; rfl
    rw [this, E.opHistory_ofList]
  rw [h3]
  refine ⟨⟨?_, Or.inl ⟨(7, 1), ?_⟩⟩, ⟨?_, Or.inr ⟨7, ?_⟩⟩⟩
  · exact List.mem_of_getElem? (i := 3) rfl
  · exact List.mem_of_getElem? (i := 0) rfl
  · exact List.mem_of_getElem? (i := 7) rfl
  · exact List.mem_of_getElem? (i := 4) rfl

/-! ### C04 -/

/-- A legal run in which key `k` is only touched by `get` and `get_or_insert_with`. -/
theorem goi_spec {key : P → K} {m m' : AMap K P} {L : List (SOp K P)} (h : Legal key m L m') {k : K}
    (hk : ∀ x ∈ L, x.op.key key = k → (x.op = .get k ∨ ∃ f, x.op = .getOrInsert k f)) :
    (∀ e, m k = some e → m' k = some e ∧ ∀ x ∈ L, x.op.key key = k → x.ret = .opt (some e) ∨ x.ret = .eon (.existing e)) ∧
    (m k = none → m' k = none → ∀ x ∈ L, x.op.key key = k → x.ret = .opt none) ∧
    (∀ e, m k = none → m' k = some e → ∃ L1 x L2 f, L = L1 ++ x :: L2 ∧ x.op = .getOrInsert k f ∧ f k = e ∧
        x.ret = .eon (.new e) ∧ (∀ y ∈ L1, y.op.key key = k → y.ret = .opt none) ∧
        ∀ y ∈ L2, y.op.key key = k → y.ret = .opt (some e) ∨ y.ret = .eon (.existing e)) := by
  induction h with
  | nil m =>
    refine ⟨fun e he => ⟨he, by simp⟩, fun _ _ => by simp, fun e h1 h2 => ?_⟩
    rw [h1] at h2; cases h2
  | @cons m m1 m2 x L h _ ih =>
    obtain ⟨ih1, ih2, ih3⟩ := ih (fun y hy => hk y (by simp [hy]))
    by_cases hx : x.op.key key = k
    · rcases hk x (by simp) hx with ho | ⟨f, ho⟩
      · rw [ho] at h
        simp only [AMap.apply, Prod.mk.injEq] at h
        obtain ⟨rfl, hr⟩ := h
        refine ⟨?_, ?_, ?_⟩
        · intro e he
          obtain ⟨h1, h2⟩ := ih1 e he
          refine ⟨h1, ?_⟩
          intro y hy hyk
          rcases List.mem_cons.mp hy with e2 | hy'
          · subst e2; left; rw [← hr, he]
          · exact h2 y hy' hyk
        · intro h1 h2 y hy hyk
          rcases List.mem_cons.mp hy with e2 | hy'
          · subst e2; rw [← hr, h1]
          · exact ih2 h1 h2 y hy' hyk
        · intro e h1 h2
          obtain ⟨L1, z, L2, g, rfl, h3, h4, h5, h6, h7⟩ := ih3 e h1 h2
          refine ⟨x :: L1, z, L2, g, rfl, h3, h4, h5, ?_, h7⟩
          intro y hy hyk
          rcases List.mem_cons.mp hy with e2 | hy'
          · subst e2; rw [← hr, h1]
          · exact h6 y hy' hyk
      · rw [ho] at h
        simp only [AMap.apply] at h
        cases hm : m k with
        | some e0 =>
          rw [hm] at h
          simp only [Prod.mk.injEq] at h
          obtain ⟨rfl, hr⟩ := h
          refine ⟨?_, fun h => (by cases h), fun e h => (by cases h)⟩
          intro e he
          cases he
          obtain ⟨h1, h2⟩ := ih1 e0 hm
          refine ⟨h1, ?_⟩
          intro y hy hyk
          rcases List.mem_cons.mp hy with e2 | hy'
          · subst e2; right; exact hr.symm
          · exact h2 y hy' hyk
        | none =>
          rw [hm] at h
          simp only [Prod.mk.injEq] at h
          obtain ⟨rfl, hr⟩ := h
          obtain ⟨h1, h2⟩ := ih1 (f k) (AMap.set_same _ _ _)
          refine ⟨fun e h => (by cases h), ?_, ?_⟩
          · intro _ h3; rw [h1] at h3; cases h3
          · intro e _ h3
            rw [h1] at h3; cases h3
            exact ⟨[], x, L, f, rfl, ho, rfl, hr.symm, by simp, h2⟩
    · have e : m1 k = m k := apply_other h hx
      rw [e] at ih1 ih2 ih3
      have lift : ∀ {Q : SOp K P → Prop}, (∀ y ∈ L, y.op.key key = k → Q y) → ∀ y ∈ x :: L, y.op.key key = k → Q y := by
        intro Q hQ y hy hyk
        rcases List.mem_cons.mp hy with e2 | hy'
        · subst e2; exact absurd hyk hx
        · exact hQ y hy' hyk
      refine ⟨fun e he => ⟨(ih1 e he).1, lift (ih1 e he).2⟩, fun h1 h2 => lift (ih2 h1 h2), ?_⟩
      intro e h1 h2
      obtain ⟨L1, z, L2, g, rfl, h3, h4, h5, h6, h7⟩ := ih3 e h1 h2
      refine ⟨x :: L1, z, L2, g, rfl, h3, h4, h5, ?_, h7⟩
      intro y hy hyk
      rcases List.mem_cons.mp hy with e2 | hy'
      · subst e2; exact absurd hyk hx
      · exact h6 y hy' hyk

/-- The core of C04: it takes a legal order of the calls, no matter how this order is related to real time. -/
theorem C04_of_legal {key : P → K} {h : List (HEv K P)} {L : List (SOp K P)} {final : AMap K P}
    (invoked : ∀ x ∈ L, HEv.inv x.id x.op ∈ h) (once : (L.map SOp.id).Nodup)
    (complete : ∀ id o r, HEv.inv id o ∈ h → HEv.res id r ∈ h → ⟨id, o, r⟩ ∈ L) (legal : Legal key AMap.empty L final) (k : K)
    (honly : ∀ id o, HEv.inv id o ∈ h → o.key key = k → (o = .get k ∨ ∃ f, o = .getOrInsert k f))
    (hsome : ∃ id g r, HEv.inv id (.getOrInsert k g) ∈ h ∧ HEv.res id r ∈ h) :
    ∃ winner f, HEv.inv winner (.getOrInsert k f) ∈ h ∧
      (∀ id g r, HEv.inv id (.getOrInsert k g) ∈ h → HEv.res id r ∈ h →
      (id = winner ∧ r = .eon (.new (f k))) ∨ (id ≠ winner ∧ r = .eon (.existing (f k)))) ∧
      ∀ id r, HEv.inv id (.get k) ∈ h → HEv.res id r ∈ h → r = .opt none ∨ r = .opt (some (f k)) := by
  have h1 := goi_spec legal (k := k) (fun x hx => honly _ _ (invoked x hx))
  have hne : ∀ (id : Nat) (g : K → P) (r : Ret P) {m m' : AMap K P} {L : List (SOp K P)}, Legal key m L m' →
      (⟨id, .getOrInsert k g, r⟩ : SOp K P) ∈ L → ∃ z, r = .eon z := by
    intro id g r m m' L h hx
    induction h with
    | nil => cases hx
    | cons h _ ih =>
      rcases List.mem_cons.mp hx with e | hx'
      · subst e
        simp only [AMap.apply] at h
        split at h <;> (simp only [Prod.mk.injEq] at h; exact ⟨_, h.2.symm⟩)
      · exact ih hx'
  cases hf : final k with
  | none =>
    have h2 := h1.2.1 rfl hf
    obtain ⟨id, g, r, hi, hr⟩ := hsome
    have hx := complete _ _ _ hi hr
    obtain ⟨z, rfl⟩ := hne _ _ _ legal hx
    have := h2 _ hx rfl
    cases this
  | some e =>
    obtain ⟨L1, x, L2, f, hLL, h3, h4, h5, h6, h7⟩ := h1.2.2 e rfl hf
    have hxm : x ∈ L := by rw [hLL]; simp
    refine ⟨x.id, f, by rw [← h3]; exact invoked x hxm, ?_, ?_⟩
    rotate_left
    · intro id r hi hr
      have hx := complete _ _ _ hi hr
      rw [hLL] at hx
      rcases List.mem_append.mp hx with hx | hx
      · exact Or.inl (h6 _ hx rfl)
      · rcases List.mem_cons.mp hx with hx | hx
        · subst hx; cases h3
        · rcases h7 _ hx rfl with h8 | h8
          · right; rw [h4]; exact h8
          · have hg : ∀ {m m' : AMap K P} {L : List (SOp K P)}, Legal key m L m' → (⟨id, .get k, r⟩ : SOp K P) ∈ L → ∃ z, r = .opt z := by
              intro m m' L h hx
              induction h with
              | nil => cases hx
              | cons h _ ih =>
                rcases List.mem_cons.mp hx with e | hx'
                · subst e
                  simp only [AMap.apply, Prod.mk.injEq] at h
                  exact ⟨_, h.2.symm⟩
                · exact ih hx'
            obtain ⟨z, e⟩ := hg legal (by rw [hLL]; simp [hx])
            simp only at h8
            rw [e] at h8; cases h8
    intro id g r hi hr
    have hx := complete _ _ _ hi hr
    obtain ⟨z, rfl⟩ := hne _ _ _ legal hx
    have hnd := once
    rw [hLL, List.map_append, List.map_cons, List.nodup_append, List.nodup_cons] at hnd
    rw [hLL] at hx
    rcases List.mem_append.mp hx with hx | hx
    · have := h6 _ hx rfl; cases this
    · rcases List.mem_cons.mp hx with hx | hx
      · left
        subst hx
        simp only at h5
        exact ⟨rfl, by rw [h5, h4]⟩
      · right
        refine ⟨?_, ?_⟩
        · intro e2
          apply hnd.2.1.1
          rw [← e2]
          exact List.mem_map_of_mem (f := SOp.id) hx
        · rcases h7 _ hx rfl with h8 | h8
          · cases h8
          · rw [h4]; exact h8

/-- **C04.** If key `k` is only accessed by `get` and `get_or_insert_with` up to instant `n`, and some
`get_or_insert_with` call on `k` has completed, then there is one `winner` among the `get_or_insert_with` calls on `k`
such that every completed `get_or_insert_with` on `k` returned the element `f k` the winner's closure made: as `New` if
it is the winner, as `Existing` if not. And a `get` on `k` finds nothing, or this element. -/
theorem C04_get_or_insert_agree {cfg : Config K P} (E : Exec cfg) (n : Nat) (k : K)
    (honly : ∀ id o, HEv.inv id o ∈ E.history n → o.key cfg.key = k → (o = .get k ∨ ∃ f, o = .getOrInsert k f))
    (hsome : ∃ id g r, HEv.inv id (.getOrInsert k g) ∈ E.history n ∧ HEv.res id r ∈ E.history n) :
    ∃ winner f, HEv.inv winner (.getOrInsert k f) ∈ E.history n ∧
      (∀ id g r, HEv.inv id (.getOrInsert k g) ∈ E.history n → HEv.res id r ∈ E.history n →
      (id = winner ∧ r = .eon (.new (f k))) ∨ (id ≠ winner ∧ r = .eon (.existing (f k)))) ∧
      ∀ id r, HEv.inv id (.get k) ∈ E.history n → HEv.res id r ∈ E.history n → r = .opt none ∨ r = .opt (some (f k)) :=
  have hL := E.lin_isLinearization n
  C04_of_legal hL.invoked hL.once hL.complete hL.legal k honly hsome

/-- Schedule for the example: two sessions race with `get_or_insert` for key 3; session 1 wins. -/
def exGoi : List (Label Nat (Nat × Nat)) :=
  [.pin 0, .pin 1, .call 0 (.op (.getOrInsert 3 (fun k => (k, 10)))), .call 1 (.op (.getOrInsert 3 (fun k => (k, 20)))),
   .tick 0 false, .tick 1 false, .tick 1 false, .tick 0 false, .tick 0 false]

theorem exGoi_ok : RunOK exCfg State.init exGoi := runOK_of_check 2 (by decide)

/-- Non-vacuity of C04: call 3 wins with `New((3,20))`, call 2 gets `Existing((3,20))`. -/
example : (exEvents exCfg exGoi).map (fun e => match e with
    | .res id (.op (.eon r)) => some (id, r)
    | _ => none) = [none, none, some (3, .new (3, 20)), some (2, .existing (3, 20))] := by decide

/-! ### C21 -/

/-- The part of a history that concerns key `k`. -/
noncomputable def onKey (key : P → K) (k : K) (h : List (HEv K P)) : List (HEv K P) :=
  open Classical in
  h.filter (fun e => match e with
    | .inv _ o => decide (o.key key = k)
    | .res id _ => decide (∃ o, HEv.inv id o ∈ h ∧ o.key key = k))

/-- **C21.** For every key `k`: the calls on `k`, taken by themselves, form a linearizable history (of a map that
starts empty and sees no other calls), and the binding of `k` is the one that results from these calls alone. -/
theorem C21_keys_independent {cfg : Config K P} (E : Exec cfg) (n : Nat) (k : K) :
    ∃ L final, IsLinearization cfg.key (onKey cfg.key k (E.history n)) L final ∧ final k = E.content n k := by
  have hL := E.lin_isLinearization n
  obtain ⟨final, h1, h2⟩ := hL.legal.project k AMap.empty rfl
  refine ⟨_, final, ⟨?_, ?_, ?_, ?_, h1⟩, h2⟩
  · intro x hx
    obtain ⟨h3, h4⟩ := List.mem_filter.mp hx
    refine List.mem_filter.mpr ⟨hL.invoked x h3, ?_⟩
    simpa using h4
  · exact hL.once.sublist ((List.filter_sublist).map _)
  · intro id o r hi hr
    obtain ⟨h3, h4⟩ := List.mem_filter.mp hi
    obtain ⟨h5, -⟩ := List.mem_filter.mp hr
    exact List.mem_filter.mpr ⟨hL.complete id o r h3 h5, by simpa using h4⟩
  · refine (hL.realtime.sublist List.filter_sublist).imp ?_
    intro x y hb ⟨r, o, hs⟩
    exact hb ⟨r, o, hs.trans List.filter_sublist⟩

/-- Non-vacuity of C21: with a constant hash, keys 1 and 2 end up in the same node, 16 levels deep; nevertheless their
calls do not interfere. -/
def exKeys : List (Label Nat (Nat × Nat)) :=
  [.pin 0, .pin 1, .call 0 (.op (.insert (1, 10)))] ++ ticks 0 2 ++ [.call 1 (.op (.insert (2, 20)))] ++
  ticks 1 50 ++ [.call 0 (.op (.get 1)), .call 1 (.op (.get 2))] ++ ticks 0 17 ++ ticks 1 17

theorem exKeys_ok : RunOK exCollide State.init exKeys := runOK_of_check 2 (by decide)

example : resultsOf (exEvents exCollide exKeys) = [(2, none), (5, none), (56, some (1, 10)), (57, some (2, 20))] := by
  decide

/-! ### C24 -/

/-- **C24.** A call of any session can be cut off at any point where it is inside a call, and whatever happened before
and whatever happens afterwards: the whole history is linearizable (the cut-off call took effect completely or not at
all), no session ever runs into an internal failure, and no access to destroyed memory happens (that would be the
failure `badAccess`). -/
theorem C24_abort_harmless (cfg : Config K P) (before after : List (Label K P)) (t : Nat)
    (hok : RunOK cfg State.init (before ++ .abort t :: after)) :
    ∃ s es, runList cfg State.init (before ++ .abort t :: after) = some (s, es) ∧
      Linearizable cfg.key (opHistory es) ∧ ∀ t', (s.thr t').failed = none := by
  obtain ⟨E, h1, -⟩ := Exec.ofList hok
  refine ⟨_, _, h1, ?_, fun t' => ((E.inv _).thr t').noFail⟩
  rw [E.opHistory_ofList]; exact ⟨_, _, E.lin_isLinearization _⟩

/-- **C24**, every point is a possible crash point: whenever a session is inside a call, cutting it off is a step of
the machine. -/
theorem C24_abort_possible {cfg : Config K P} (E : Exec cfg) (i t : Nat) (c : Call K P) (h : E.Running i t c) :
    ∃ s, step cfg (E.st i) (.abort t) = some (s, none) ∧ (Label.abort t : Label K P).enabled (E.st i) ∧
      s.content cfg = E.content i := by
  simp only [Exec.Running] at h
  refine ⟨_, by simp only [step, h]; rfl, trivial, ?_⟩
  exact abs_mem rfl rfl

/-- Non-vacuity of C24: a removal cut off in the middle of its clean-up (after the
element was taken out and five cells were condemned); a later insert cleans up and succeeds. -/
def exAbort : List (Label Nat (Nat × Nat)) :=
  [.pin 0, .call 0 (.op (.insert (1, 10)))] ++ ticks 0 2 ++ [.call 0 (.op (.insert (2, 20)))] ++ ticks 0 5 ++
  [.call 0 (.op (.remove 1))] ++ ticks 0 24 ++ [.abort 0, .pin 1, .call 1 (.op (.insert (3, 30)))] ++ ticks 1 24

theorem exAbort_ok : RunOK exCfg State.init exAbort := runOK_of_check 2 (by decide)

example : resultsOf (exEvents exCfg exAbort) = [(1, none), (4, none), (37, none)] := by decide
end Contrie
