import Verif.Proof.LooksSyncUser
import Verif.Props.Synchronised
/-
C71 on weak memory, for programs that synchronise (C41).
-/
namespace Contrie
open scoped List
variable {K P : Type} [DecidableEq K] {cfg : Config K P}

/-- **C71** under weak memory, for programs that synchronise: suppose that whenever one call returns before another one is invoked, it happens before it - unless both are about single keys, and about
different ones. Then there is a linearization in real time, into which the iterations fit in real time: every finished iteration has for each key a place between its invocation and its
return, and gives for this key what the map contains there; `is_empty` returning `true` is like an iteration that yields nothing; and the places of a call invoked after another one returned are not before
those of the other one. -/
theorem C71_synchronised (E : CExec cfg) {n : Nat} (hn : n ≤ E.len)
    (hs : ∀ x y r r', E.ev x = some (.inv x r) → E.ev y = some (.inv y r') → (∀ o o', r = .op o → r' = .op o' → o.key cfg.key = o'.key cfg.key) →
      EvBefore (E.events n) x y → E.Hb x y) :
    ∃ L pos, IsLinearization cfg.key (E.history n) L (E.content n) ∧ KeywiseLooksFit cfg.key (E.events n) L pos :=
  E.looksSync hn hs

section
variable {P : Type} {U : UserKeys P} {clones : P → P → Prop}

/-- **C71** for programs that synchronise, with the user's own comparisons (nothing is cloned). -/
theorem C71_synchronised_user (hU : U.Lawful) (E : BCExec U) {n : Nat} (hn : n ≤ E.len)
    (hs : ∀ x y r r', E.ev x = some (.inv x r) → E.ev y = some (.inv y r') →
      (∀ o o', r = .op o → r' = .op o' → ∀ k, (o.key U.keyArg).den k = (o'.key U.keyArg).den k) → EvBefore (E.events n) x y → E.Hb x y) :
    ∃ L l pos, IsListLinearization U.same U.keyArg (E.history n) L l ∧ KeywiseListLooksFit (fun _ _ => False) U.same U.keyArg (E.events n) L pos := by
  have hw : WellFormed ((E.cls hU).history n) := (C39_causal (E.cls hU) (n := n) hn).1
  have hh := E.cls_history hU n
  have back : ∀ {x : Nat} {r : Req (Cls U) P}, (E.cls hU).ev x = some (.inv x r) → ∃ r0, r = r0.mapKey Arg.cls ∧ E.ev x = some (.inv x r0) := by
    intro x r h
    have h : (E.ev x).map (Event.mapKey Arg.cls) = some (.inv x r) := h
    obtain ⟨e, he, hv⟩ := Option.map_eq_some_iff.mp h
    cases e with
    | res => cases hv
    | inv id r0 =>
      simp only [Event.mapKey, Event.inv.injEq] at hv
      obtain ⟨rfl, rfl⟩ := hv
      exact ⟨r0, rfl, he⟩
  obtain ⟨L, pos, hL, h⟩ := C71_synchronised (E.cls hU) (n := n) hn (by
    intro x y r r' hx hy hk hb
    obtain ⟨r0, rfl, hx0⟩ := back hx
    obtain ⟨r1, rfl, hy0⟩ := back hy
    rw [E.cls_hb]
    refine hs x y r0 r1 hx0 hy0 ?_ ?_
    · rintro o o' rfl rfl k
      have hk := hk _ _ rfl rfl
      rw [Op.mapKey_key, Op.mapKey_key] at hk
      have : (o.key U.keyArg).den = (o'.key U.keyArg).den := congrArg Prod.fst hk
      rw [this]
    · rw [E.cls_events hU] at hb
      exact (evBefore_mapKey Arg.cls).mp hb)
  rw [hh] at hw hL
  rw [E.cls_events hU] at h
  obtain ⟨L', l, rfl, g⟩ := linearization_list_of hU hw (fun id o h t => E.history_wf hn h t) hL
  exact ⟨L', l, _, g, h.toList hU (fun x hx t => E.history_wf hn (g.invoked x hx) t)⟩

/-- **C71** for programs that synchronise, with the user's own comparisons and the user's own `Clone`. -/
theorem C71_synchronised_clones (hU : U.Lawful) (hc : ∀ p q, clones p q → U.eqKey (U.own p) (U.own q) = true) (E : KCExec U clones) {n : Nat} (hn : n ≤ E.len)
    (hs : ∀ x y r r', E.ev x = some (.inv x r) → E.ev y = some (.inv y r') →
      (∀ o o', r = .op o → r' = .op o' → ∀ k, (o.key U.keyArg).den k = (o'.key U.keyArg).den k) → EvBefore (E.events n) x y → E.Hb x y) :
    ∃ L l pos, IsCloneLinearization clones U.same U.keyArg (E.history n) L l ∧ KeywiseListLooksFit clones U.same U.keyArg (E.events n) L pos := by
  have hev : ∀ {a b}, EvBefore ((E.org hU hc).events n) a b ↔ EvBefore (E.events n) a b := by
    intro a b
    rw [E.events_org hU hc, E.events_cur hn, evBefore_mapP, evBefore_mapP]
  obtain ⟨L, l, pos, hL, h⟩ := C71_synchronised_user hU (E.org hU hc) (n := n) hn (by
    intro x y r r' hx hy hk hb
    rw [E.hb_org hU hc]
    rw [hev] at hb
    have hlt : ∀ {x r}, (E.org hU hc).ev x = some (.inv x r) → x < n → E.ev x = some (.inv x r) := fun h hx => E.org_inv hU hc (Nat.lt_of_lt_of_le hx hn) h
    have hxy : x < n ∧ y < n := by
      have hb' := hev.mpr hb
      rw [← evBefore_mapKey Arg.cls, ← BCExec.cls_events hU] at hb'
      obtain ⟨j', -, -, g1, g2, -, -⟩ := ((E.org hU hc).cls hU).evBefore_iff (n := n) hn |>.mp hb'
      have := ((E.org hU hc).cls hU).stop_lt (n := n) hn hb'
      have := ((E.org hU hc).cls hU).le_stop (n := n) hn x
      omega
    exact hs x y r r' (hlt hx hxy.1) (hlt hy hxy.2) hk hb)
  rw [E.history_org hU hc] at hL
  rw [E.events_org hU hc] at h
  rw [E.history_cur hn, E.events_cur hn]
  exact ⟨L, l, pos, clone_linearization (fun id o h => E.lineage_inv hn h) hL, h.upToCloning hU hc⟩
end

/-- **C71**, e.g.: on weak memory a key whose insertion happens before an iteration, and that no call removes, is yielded. -/
theorem C71_causal_inserted_is_yielded (E : CExec cfg) {n : Nat} (hn : n ≤ E.len) {x id j : Nat} {p : P} {out : List P} (hx : x < n) (hi : E.ev x = some (.inv x (.op (.insert p))))
    (hno : ∀ y, y < n → E.ev y ≠ some (.inv y (.op (.remove (cfg.key p))))) (hj : j < n) (hr : E.ev j = some (.res id (.list out))) (hb : E.Hb x id) :
    ∃ q ∈ out, cfg.key q = cfg.key p := by
  obtain ⟨-, L, H, -, h⟩ := C39_causal E hn
  obtain ⟨m, ⟨L1, L2, rfl, h1, h2, -, -⟩, h3⟩ := h id j out hj hr (cfg.key p)
  -- the insertion is in front of the look
  obtain ⟨i, r, i1, i2, i3, i4⟩ := hb.ret E
  have hidj : id < j := by
    obtain ⟨t, weak, τ, c, -, -, -, g4, -⟩ := E.ret (by omega) hr
    exact g4
  have hret : ∃ r', r = .op r' := by
    obtain ⟨t, weak, τ, c, g1, g2, g3, g4, g5, g6, g7⟩ := E.ret i1 i2
    have hreq : c.req = .op (.insert p) := by
      have := E.ev_call (by omega) g5
      rw [hi] at this
      simpa using this.symm
    simp only [CExec.OutOK, hreq] at g7
    obtain ⟨r', h, -⟩ := g7
    exact ⟨r', h⟩
  obtain ⟨r', rfl⟩ := hret
  have hmem := H.complete x (.insert p) r' ((E.mem_history_inv hn).mpr ⟨hx, hi⟩) ((E.mem_history_res hn).mpr ⟨i, by omega, i2⟩)
  have hmem1 : (⟨x, .insert p, r'⟩ : SOp K P) ∈ L1 := by
    rcases List.mem_append.mp hmem with hm | hm
    · exact hm
    · exact absurd hb (h2 _ hm rfl)
  -- and nothing removes the key again
  have keep : ∀ {L : List (SOp K P)} {a b : AMap K P}, Legal cfg.key a L b → (∀ y ∈ L, y.op ≠ .remove (cfg.key p)) →
      (a (cfg.key p) ≠ none ∨ ⟨x, .insert p, r'⟩ ∈ L) → b (cfg.key p) ≠ none := by
    intro L a b hl
    induction hl with
    | nil => rintro - (h | h); exacts [h, by cases h]
    | @cons a a1 b y L e _ ih =>
      intro hy ho
      refine ih (fun z hz => hy z (by simp [hz])) ?_
      have step : a (cfg.key p) ≠ none → a1 (cfg.key p) ≠ none := by
        intro ha
        have e1 : (a.apply cfg.key y.op).1 = a1 := by rw [e]
        rw [← e1]
        by_cases hk : y.op.key cfg.key = cfg.key p
        · cases hop : y.op with
          | get k => exact ha
          | insert q =>
            rw [hop] at hk
            have hk : cfg.key q = cfg.key p := hk
            simp [AMap.apply, AMap.set, hk]
          | remove k =>
            rw [hop] at hk
            have hk : k = cfg.key p := hk
            exact absurd (by rw [hop, hk]) (hy y (by simp))
          | getOrInsert k f =>
            rw [hop] at hk
            have hk : k = cfg.key p := hk
            subst hk
            simp only [AMap.apply]
            split
            · exact ha
            · simp [AMap.set]
        · rw [apply_off hk]; exact ha
      rcases ho with ha | hm
      · exact .inl (step ha)
      · rcases List.mem_cons.mp hm with rfl | hm
        · left
          have e1 : (a.apply cfg.key (.insert p)).1 = a1 := by rw [e]
          rw [← e1]
          simp [AMap.apply, AMap.set]
        · exact .inr hm
  have hm := keep h1 (fun y hy e => by
    have := (E.mem_history_inv hn).mp (H.invoked y (List.mem_append_left _ hy))
    rw [e] at this
    exact hno _ this.1 this.2) (.inr hmem1)
  cases hq : m (cfg.key p) with
  | none => exact absurd hq hm
  | some q =>
    rw [hq] at h3
    have : q ∈ out.filter (fun p' => decide (cfg.key p' = cfg.key p)) := by rw [h3]; simp
    obtain ⟨g1, g2⟩ := List.mem_filter.mp this
    exact ⟨q, g1, by simpa using g2⟩

/-! ### Example -/

/-- Session 0 inserts (7, 1); session 1, which synchronises with it, iterates; at the same time session 2 inserts (9, 1). The iteration, which returns after this insertion, sees an old value of the
root: it yields (7, 1) only. -/
def exIterSyncRun : List (CLabel Nat (Nat × Nat)) :=
  [.pin 0, .pin 1, .call 0 (.op (.insert (7, 1))), .tick 0 false 3, .tick 0 false 4, .sync 1 0 5, .pin 2, .call 2 (.op (.insert (9, 1))), .call 1 .iter,
   .tick 2 false 9, .tick 2 false 10, .tick 2 false 11, .tick 2 false 12, .tick 2 false 13, .tick 1 false 9, .tick 1 false 15, .tick 1 false 16, .tick 1 false 17]

def exIterSync : CExec exCfg :=
  .ofRun exCfg exIterSyncRun (by decide) (fun i a hi e => absurd e (no_free (cfg := exCfg) (by decide) hi))

theorem exIterSync_events : exIterSync.events 18 =
    [.inv 2 (.op (.insert (7, 1))), .res 2 (.op (.opt none)), .inv 7 (.op (.insert (9, 1))), .inv 8 .iter, .res 7 (.op (.opt none)), .res 8 (.list [(7, 1)])] := by rfl

theorem exIterSync_hb : exIterSync.Hb 2 8 :=
  ⟨0, 1, 4, .op (.opt none), .iter, false, 4, by decide, rfl, rfl, by decide, rfl,
    .trans (.sync (t := 1) (t' := 0) (τ := 5) (j := 5) (by decide) rfl) (.po 1 (by decide))⟩

/-- It meets the hypothesis: only (7, 1) was inserted before the iteration. -/
example : ∃ L pos, IsLinearization exCfg.key (exIterSync.history 18) L (exIterSync.content 18) ∧ KeywiseLooksFit exCfg.key (exIterSync.events 18) L pos := by
  refine C71_synchronised exIterSync (n := 18) (by decide) ?_
  intro x y r r' hx hy hk hb
  obtain ⟨j, a, b, h1, h2, h3, h4⟩ := (exIterSync.evBefore_iff (n := 18) (by decide)).mp hb
  have m1 : Event.inv x r ∈ exIterSync.events 18 := by
    have hj := exIterSync.le_stop (n := 18) (by decide) x
    have := exIterSync.stop_lt (n := 18) (by decide) hb
    exact List.mem_filterMap.mpr ⟨x, List.mem_range.mpr (by omega), hx⟩
  have m2 : Event.inv y r' ∈ exIterSync.events 18 := List.mem_filterMap.mpr ⟨y, List.mem_range.mpr h2, hy⟩
  have hlt : x < y := by
    have hj := exIterSync.le_stop (n := 18) (by decide) x
    have := exIterSync.stop_lt (n := 18) (by decide) hb
    omega
  have m3 : y = 8 → x = 7 → False := by
    rintro rfl rfl
    rw [exIterSync_events] at hb
    obtain ⟨u, v, hs⟩ := hb
    simp only [List.sublist_cons_iff] at hs
    simp at hs
    obtain ⟨r, ⟨-, rfl⟩, h | h⟩ := hs <;> simp at h
  rw [exIterSync_events] at m1 m2
  simp only [List.mem_cons, Event.inv.injEq, reduceCtorEq, List.not_mem_nil, or_false, false_or] at m1 m2
  rcases m1 with ⟨rfl, rfl⟩ | ⟨rfl, rfl⟩ | ⟨rfl, rfl⟩ <;> rcases m2 with ⟨rfl, rfl⟩ | ⟨rfl, rfl⟩ | ⟨rfl, rfl⟩ <;>
    first | omega | exact exIterSync_hb | exact absurd rfl (fun e => m3 e rfl) | exact absurd (hk _ _ rfl rfl) (by decide)

/-- The theorem says that (7, 1) has to be yielded. -/
example : ∃ q ∈ [((7, 1) : Nat × Nat)], q.1 = 7 :=
  C71_causal_inserted_is_yielded exIterSync (n := 18) (p := (7, 1)) (x := 2) (id := 8) (j := 17) (by decide) (by decide) rfl
    (fun y hy h => by
      have : Event.inv y (.op (.remove 7)) ∈ exIterSync.events 18 := List.mem_filterMap.mpr ⟨y, List.mem_range.mpr hy, h⟩
      rw [exIterSync_events] at this
      simp at this) (by decide) rfl exIterSync_hb

/-- The user's own comparisons: session 0 inserts 7; session 1, synchronised with it, iterates. -/
def exFormsIter : BCExec exUser := .ofRun exUser
  [.pin 0, .pin 1, .call 0 (.op (.insert ((7, false), 1))), .tick 0 false 3, .tick 0 false 4, .sync 1 0 5, .call 1 .iter, .tick 1 false 7, .tick 1 false 8, .tick 1 false 9,
   .tick 1 false 10] (by decide)

theorem exFormsIter_events : exFormsIter.events 11 =
    [.inv 2 (.op (.insert ((7, false), 1))), .res 2 (.op (.opt none)), .inv 6 .iter, .res 6 (.list [((7, false), 1)])] := rfl

example : ∃ L l pos, IsListLinearization exUser.same exUser.keyArg (exFormsIter.history 11) L l ∧
    KeywiseListLooksFit (fun _ _ => False) exUser.same exUser.keyArg (exFormsIter.events 11) L pos := by
  refine C71_synchronised_user exUser_lawful exFormsIter (n := 11) (by decide) ?_
  intro x y r r' hx hy _ hb
  have hxy : x = 2 ∧ y = 6 := by
    obtain ⟨u, v, hb⟩ := hb
    rw [exFormsIter_events] at hb
    simp only [List.sublist_cons_iff] at hb
    simp at hb
    obtain ⟨_, ⟨⟨rfl, -⟩, rfl⟩, hb⟩ := hb
    simp at hb
    exact ⟨rfl, hb.choose_spec.1.1.1⟩
  obtain ⟨rfl, rfl⟩ := hxy
  exact ⟨0, 1, 4, .op (.opt none), .iter, false, 4, by decide, rfl, rfl, by decide, rfl,
    .trans (.sync (t := 1) (t' := 0) (τ := 5) (j := 5) (by decide) rfl) (.po 1 (by decide))⟩

/-- The user's own `Clone`: sessions 0 and 1 insert elements with one key at the same time, session 1 has to try again with a clone; then session 0 synchronises with it and iterates: it gets the clone. -/
def exGensIter : KCExec exGen exNext := .ofRun exGen exClone
  [.pin 0, .pin 1, .call 0 (.op (.insert (1, 0))), .call 1 (.op (.insert (1, 5))), .tick 0 false 4, .tick 1 false 5, .tick 0 false 6, .tick 1 false 7,
   .tick 1 false 8, .tick 1 false 9, .sync 0 1 10, .call 0 .iter, .tick 0 false 12, .tick 0 false 13, .tick 0 false 14, .tick 0 false 15] (by decide)

theorem exGensIter_events : exGensIter.events 16 =
    [.inv 2 (.op (.insert (1, 0))), .inv 3 (.op (.insert (1, 5))), .res 2 (.op (.opt none)), .res 3 (.op (.opt (some (1, 0)))), .inv 11 .iter, .res 11 (.list [(1, 6)])] := rfl

example : ∃ L l pos, IsCloneLinearization exNext exGen.same exGen.keyArg (exGensIter.history 16) L l ∧
    KeywiseListLooksFit exNext exGen.same exGen.keyArg (exGensIter.events 16) L pos := by
  refine C71_synchronised_clones exGen_lawful exNext_key exGensIter (n := 16) (by decide) ?_
  intro x y r r' hx hy _ hb
  have hxy : (x = 2 ∨ x = 3) ∧ y = 11 := by
    obtain ⟨u, v, hb⟩ := hb
    rw [exGensIter_events] at hb
    simp only [List.sublist_cons_iff] at hb
    simp at hb
    rcases hb with ⟨_, ⟨⟨rfl, -⟩, rfl⟩, hb⟩ | ⟨_, ⟨⟨rfl, -⟩, rfl⟩, hb⟩ <;> simp at hb <;> exact ⟨by omega, hb.choose_spec.1.1.1⟩
  obtain ⟨rfl | rfl, rfl⟩ := hxy
  · exact ⟨0, 0, 6, .op (.opt none), .iter, false, 6, by decide, rfl, rfl, by decide, rfl, .po 0 (by decide)⟩
  · exact ⟨1, 0, 9, .op (.opt (some (1, 0))), .iter, false, 9, by decide, rfl, rfl, by decide, rfl,
      .trans (.sync (t := 0) (t' := 1) (τ := 10) (j := 10) (by decide) rfl) (.po 0 (by decide))⟩

end Contrie
