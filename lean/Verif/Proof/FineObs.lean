import Verif.Proof.FineSim
/-
What is observable of an execution of the fine machine, compared with the coarse one.
-/
set_option linter.unusedSectionVars false
set_option linter.unusedSimpArgs false
namespace Contrie
open scoped List
variable {K P : Type} [DecidableEq K] {cfg : Config K P}

/-! ### Steps -/

/-- What happens in step `n`, to session `t` if it is one of its own. -/
theorem FExec.step_tick (F : FExec cfg) {n t : Nat} {weak : Bool} (hl : F.lab n = .tick t weak) : ∃ c, ((F.st n).thr t).th.run = some c ∧
    ((((F.st n).thr t).got = none ∧ F.ev n = none ∧ ∃ w ok, ((F.st (n + 1)).thr t) = { (F.st n).thr t with got := some (w, ok) }) ∨
     (∃ w ok p q nx, ((F.st n).thr t).got = some (w, ok) ∧ Pending F n t (F.cSt n).m ((F.cSt n).thr t) w ok c p q nx ∧ F.ev n = nx.event c.inv ∧
        ((F.st (n + 1)).thr t).th = ((F.st n).thr t).th.apply c nx ∧ ((F.st (n + 1)).thr t).got = none)) := by
  have h : FRel F n (F.coarse.st n) := F.rel n
  have h' : FRel F (n + 1) (F.coarse.st (n + 1)) := F.rel (n + 1)
  have hfs := F.step n
  simp only [fstep, F.addr_free n, Bool.false_eq_true, ↓reduceIte, hl] at hfs
  cases hrun : ((F.st n).thr t).th.run with
  | none => simp [hrun] at hfs
  | some c =>
    refine ⟨c, rfl, ?_⟩
    simp only [hrun] at hfs
    cases hg : ((F.st n).thr t).got with
    | none =>
      left
      simp only [hg] at hfs
      cases ha : c.pc.fineAccess (F.st n).m weak ((F.st n).thr t).own with
      | none =>
        exfalso
        simp only [ha, Option.some.injEq, Prod.mk.injEq] at hfs
        have hf := C34_no_failure F.coarse (n + 1) t
        rw [(h'.thr t).failed, ← hfs.1] at hf
        simp only [upd_same] at hf
        cases hf
      | some x =>
        obtain ⟨m', w, ok⟩ := x
        simp only [ha, Option.some.injEq, Prod.mk.injEq] at hfs
        refine ⟨rfl, hfs.2.symm, w, ok, ?_⟩
        rw [← hfs.1]
        exact upd_same _ _ _
    | some x =>
      right
      obtain ⟨w, ok⟩ := x
      obtain ⟨c', p, q, nx, hp⟩ := (h.thr t).2 w ok hg
      have hcc := hp.run
      rw [hrun] at hcc
      cases hcc
      simp only [hg, h.rest_next hp, Option.some.injEq, Prod.mk.injEq] at hfs
      refine ⟨w, ok, p, q, nx, rfl, hp, hfs.2.symm, ?_, ?_⟩
      · rw [← hfs.1]; simp only [upd_same]
      · rw [← hfs.1]; simp only [upd_same]

theorem FExec.step_other (F : FExec cfg) {n : Nat} (hl : ∀ t w, F.lab n ≠ .tick t w) : (∃ t r, F.lab n = .call t r ∧ F.ev n = some (.inv n r)) ∨ F.ev n = none := by
  have h : FRel F n (F.coarse.st n) := F.rel n
  have hfs := F.step n
  simp only [fstep, F.addr_free n, Bool.false_eq_true, ↓reduceIte] at hfs
  cases hlab : F.lab n with
  | tick t w => exact absurd hlab (hl t w)
  | call t r =>
    left
    rw [hlab] at hfs
    simp only at hfs
    split at hfs
    · simp only [Option.some.injEq, Prod.mk.injEq] at hfs
      exact ⟨t, r, rfl, by rw [← hfs.2, h.clk]⟩
    · cases hfs
  | _ =>
    right
    rw [hlab] at hfs
    simp only at hfs
    repeat' (first | (simp only [Option.some.injEq, Prod.mk.injEq] at hfs; exact hfs.2.symm) | split at hfs | cases hfs)

theorem FExec.coarse_ev (F : FExec cfg) {n id : Nat} {r : Req K P} : F.ev n = some (.inv id r) ↔ F.coarse.ev n = some (.inv id r) := by
  have hrs := F.coarse.step n
  have hlab : F.coarse.lab n = F.coarseLab n (F.coarse.st n) := rfl
  constructor
  · intro h
    by_cases ht : ∃ t w, F.lab n = .tick t w
    · obtain ⟨t, w, hl⟩ := ht
      obtain ⟨c, -, ⟨-, e, -⟩ | ⟨_, _, _, _, nx, -, -, e, -⟩⟩ := F.step_tick hl
      · rw [e] at h; cases h
      · rw [e] at h
        cases nx <;> simp [Next.event] at h
    · rcases F.step_other (fun t w e => ht ⟨t, w, e⟩) with ⟨t, r', e1, e2⟩ | e
      · rw [h] at e2
        simp only [Option.some.injEq, Event.inv.injEq] at e2
        obtain ⟨rfl, rfl⟩ := e2
        simp only [FExec.coarseLab, e1] at hlab
        rw [hlab] at hrs
        simp only [rstep] at hrs
        split at hrs
        · cases hrs
        · simp only [Contrie.step] at hrs
          split at hrs
          · simp only [Option.some.injEq, Prod.mk.injEq] at hrs
            rw [← hrs.2, show ((F.coarse.st id).m.offer (F.coarse.addr id)).clock = id from F.coarse.clock id]
          · cases hrs
      · rw [e] at h; cases h
  · intro h
    obtain ⟨t, hcl⟩ : ∃ t, F.coarse.lab n = .call t r := by
      rw [h] at hrs
      simp only [rstep] at hrs
      split at hrs
      · cases hrs
      · cases hl : F.coarse.lab n with
        | call t r' =>
          rw [hl] at hrs
          simp only [Contrie.step] at hrs
          split at hrs
          · simp only [Option.some.injEq, Prod.mk.injEq, Event.inv.injEq] at hrs
            exact ⟨t, by rw [hrs.2.2]⟩
          · cases hrs
        | tick t w =>
          rw [hl] at hrs
          simp only [Contrie.step] at hrs
          split at hrs
          · cases hrs
          · simp only [Option.some.injEq, Prod.mk.injEq] at hrs
            cases hn : (tick cfg ((F.coarse.st n).m.offer (F.coarse.addr n)) w ‹Call K P›.pc).2 <;> rw [hn] at hrs <;> simp [Next.event] at hrs
        | _ =>
          rw [hl] at hrs
          simp only [Contrie.step] at hrs
          repeat' (first | (simp only [Option.some.injEq, Prod.mk.injEq] at hrs; cases hrs.2) | split at hrs | cases hrs)
    have hid : id = n := by
      have : F.coarse.fresh.ev n = some (.inv id r) := h
      exact F.coarse.fresh.ev_inv this
    subst hid
    have hfl : F.lab id = .call t r := by
      rw [hlab] at hcl
      simp only [FExec.coarseLab] at hcl
      cases hl : F.lab id with
      | call t' r' => rw [hl] at hcl; exact hcl
      | tick t' w => rw [hl] at hcl; simp only at hcl; split at hcl <;> cases hcl
      | abort t' => rw [hl] at hcl; simp only at hcl; split at hcl <;> cases hcl
      | free x => rw [hl] at hcl; simp only at hcl; split at hcl <;> cases hcl
      | _ => rw [hl] at hcl; cases hcl
    rcases F.step_other (n := id) (fun t' w e => by rw [hfl] at e; cases e) with ⟨t', r', e1, e2⟩ | e
    · rw [hfl] at e1; cases e1; exact e2
    · exfalso
      have hfs := F.step id
      simp only [fstep, F.addr_free id, Bool.false_eq_true, ↓reduceIte, hfl] at hfs
      split at hfs
      · simp only [Option.some.injEq, Prod.mk.injEq] at hfs; rw [e] at hfs; cases hfs.2
      · cases hfs

/-- A return of the fine execution: the coarse one has returned before, in the access. -/
theorem FExec.res (F : FExec cfg) {j id : Nat} {r : Res P} (h : F.ev j = some (.res id r)) : ∃ t q w w', F.lab j = .tick t w ∧ q < j ∧ F.lab q = .tick t w' ∧
    F.coarse.ev q = some (.res id r) ∧ (∀ i, q < i → i ≤ j → ((F.st i).thr t).got ≠ none) ∧ ((F.st (j + 1)).thr t).got = none ∧ ((F.st (j + 1)).thr t).th.run = none ∧
    ∃ c, ((F.st j).thr t).th.run = some c ∧ c.inv = id := by
  by_cases ht : ∃ t w, F.lab j = .tick t w
  · obtain ⟨t, w, hl⟩ := ht
    obtain ⟨c, hc, ⟨-, e, -⟩ | ⟨_, _, p, q, nx, hg, hp, e, hth, hg'⟩⟩ := F.step_tick hl
    · rw [e] at h; cases h
    · rw [e] at h
      obtain ⟨w', hq⟩ := hp.lab
      refine ⟨t, q, w, w', hl, hp.lt, hq, ?_, hp.between, hg', ?_, c, hc, ?_⟩
      · show F.cEv q = _
        rw [hp.ev, h]
      · rw [hth]
        cases nx with
        | ret r' refs => rfl
        | goto => cases h
        | fail => cases h
      · cases nx with
        | ret r' refs => simp only [Next.event, Option.some.injEq, Event.res.injEq] at h; exact h.1
        | goto => cases h
        | fail => cases h
  · rcases F.step_other (fun t w e => ht ⟨t, w, e⟩) with ⟨t, r', e1, e2⟩ | e
    · rw [h] at e2; cases e2
    · rw [e] at h; cases h

theorem FExec.res_unique (F : FExec cfg) {j j' id : Nat} {r r' : Res P} (h : F.ev j = some (.res id r)) (h' : F.ev j' = some (.res id r')) : j = j' := by
  have key : ∀ {j j' : Nat} {r r' : Res P}, F.ev j = some (.res id r) → F.ev j' = some (.res id r') → ¬ j < j' := by
    intro j j' r r' h h' hlt
    obtain ⟨t, q, w, w1, h1, h2, h3, h4, h5, h6, -⟩ := F.res h
    obtain ⟨t', q', w', w1', h1', h2', h3', h4', h5', h6', -⟩ := F.res h'
    have hq : q = q' := F.coarse.fresh.res_unique h4 h4'
    subst hq
    rw [h3] at h3'
    cases h3'
    exact h5' (j + 1) (by omega) (by omega) h6
  rcases Nat.lt_trichotomy j j' with g | g | g
  · exact absurd g (key h h')
  · exact g
  · exact absurd g (key h' h)

/-! ### Histories -/

/-- The history of the map operations until instant `n`. -/
def FExec.history (F : FExec cfg) (n : Nat) : List (HEv K P) := opHistory ((List.range n).filterMap F.ev)

theorem FExec.history_eq (F : FExec cfg) (n : Nat) : F.history n = (List.range n).filterMap (fun i => (F.ev i).bind Event.hev) := by
  simp only [FExec.history, opHistory, List.filterMap_filterMap]

theorem FExec.hev_inv (F : FExec cfg) {i id : Nat} {o : Op K P} : (F.ev i).bind Event.hev = some (.inv id o) ↔ i = id ∧ F.coarse.fresh.ev id = some (.inv id (.op o)) := by
  constructor
  · intro h
    obtain ⟨e, h1, h2⟩ := Option.bind_eq_some_iff.mp h
    rw [Contrie.hev_inv.mp h2] at h1
    have h3 := F.coarse_ev.mp h1
    have : id = i := F.coarse.fresh.ev_inv (show F.coarse.fresh.ev i = some (.inv id (.op o)) from h3)
    subst this
    exact ⟨rfl, h3⟩
  · rintro ⟨rfl, h⟩; rw [F.coarse_ev.mpr h]; rfl

theorem FExec.hev_res (F : FExec cfg) {i id : Nat} {r : Ret P} : (F.ev i).bind Event.hev = some (.res id r) ↔ F.ev i = some (.res id (.op r)) := by
  constructor
  · intro h
    obtain ⟨e, h1, h2⟩ := Option.bind_eq_some_iff.mp h
    rw [Contrie.hev_res.mp h2] at h1
    exact h1
  · intro h; rw [h]; rfl

/-- A linearization of the coarse history is one of the fine history. -/
theorem FExec.linearization (F : FExec cfg) {n : Nat} {L : List (SOp K P)} {m : AMap K P} (h : IsLinearization cfg.key (F.coarse.fresh.history n) L m) :
    WellFormed (F.history n) ∧ IsLinearization cfg.key (F.history n) L m := by
  rw [F.history_eq]
  have hinv : ∀ {id : Nat} {o : Op K P}, HEv.inv id o ∈ (List.range n).filterMap (fun i => (F.ev i).bind Event.hev) ↔ HEv.inv id o ∈ F.coarse.fresh.history n := by
    intro id o
    simp only [F.coarse.fresh.mem_history_inv, List.mem_filterMap, List.mem_range, F.hev_inv]
    constructor
    · rintro ⟨i, h1, rfl, h2⟩; exact ⟨h1, h2⟩
    · rintro ⟨h1, h2⟩; exact ⟨id, h1, rfl, h2⟩
  have hres : ∀ {id : Nat} {r : Ret P}, HEv.res id r ∈ (List.range n).filterMap (fun i => (F.ev i).bind Event.hev) → HEv.res id r ∈ F.coarse.fresh.history n := by
    intro id r hr
    simp only [F.coarse.fresh.mem_history_res, List.mem_filterMap, List.mem_range, F.hev_res] at hr ⊢
    obtain ⟨j, h1, h2⟩ := hr
    obtain ⟨t, q, w, w', -, g1, -, g2, -⟩ := F.res h2
    exact ⟨q, by omega, g2⟩
  constructor
  · constructor
    · rw [List.pairwise_iff_forall_sublist]
      intro a b hs id o o' h1 h2
      subst h1 h2
      obtain ⟨i, j, h1, h2, h3, h4⟩ := pair_sublist_filterMap_range.mp hs
      have := (F.hev_inv.mp h3).1
      have := (F.hev_inv.mp h4).1
      omega
    · rw [List.pairwise_iff_forall_sublist]
      intro a b hs id o o' h1 h2
      subst h1 h2
      obtain ⟨i, j, h1, h2, h3, h4⟩ := pair_sublist_filterMap_range.mp hs
      have := F.res_unique (F.hev_res.mp h3) (F.hev_res.mp h4)
      omega
    · intro id r hr
      simp only [List.mem_filterMap, List.mem_range, F.hev_res] at hr
      obtain ⟨j, h1, h2⟩ := hr
      obtain ⟨t, q, w, w', -, g1, -, g2, -⟩ := F.res h2
      have hm : HEv.res id r ∈ F.coarse.fresh.history n := F.coarse.fresh.mem_history_res.mpr ⟨q, by omega, g2⟩
      obtain ⟨o, ho⟩ := (F.coarse.fresh.wellFormed n).resAfter id r hm
      refine ⟨o, ?_⟩
      obtain ⟨i, i', k1, k2, k3, k4⟩ := pair_sublist_filterMap_range.mp ho
      obtain ⟨rfl, k3⟩ := F.coarse.fresh.hev_at_inv.mp k3
      have k4 := F.coarse.fresh.hev_at_res.mp k4
      have : i' = q := F.coarse.fresh.res_unique k4 g2
      exact pair_sublist_filterMap_range.mpr ⟨i, j, by omega, h1, F.hev_inv.mpr ⟨rfl, k3⟩, F.hev_res.mpr h2⟩
  · refine ⟨fun x hx => hinv.mpr (h.invoked x hx), h.once, fun id o r h1 h2 => h.complete id o r (hinv.mp h1) (hres h2), ?_, h.legal⟩
    refine h.realtime.imp ?_
    rintro x y hn ⟨r, o, hs⟩
    refine hn ?_
    obtain ⟨i, j, h1, h2, h3, h4⟩ := pair_sublist_filterMap_range.mp hs
    obtain ⟨e, h4'⟩ := F.hev_inv.mp h4
    subst e
    obtain ⟨t, q, w, w', -, g1, -, g2, -⟩ := F.res (F.hev_res.mp h3)
    exact F.coarse.fresh.before_history.mpr ⟨q, r, o, by omega, h2, g2, h4'⟩

/-! ### The content -/

theorem Sub.cellsOf {mr mf : Mem P} (h : Sub mr mf) {w : Word} (hl : ∀ a, w.ptr = some a → mr.deref a ≠ none) : mf.cellsOf w = mr.cellsOf w := by
  simp only [Mem.cellsOf]
  cases hp : w.ptr with
  | none => rfl
  | some a =>
    obtain ⟨n, hn⟩ := Option.ne_none_iff_exists'.mp (hl a hp)
    simp only [(deref_some.mp hn).2, (deref_some.mp (h.live a n hn)).2]

theorem Sub.leafVal {mr mf : Mem P} (h : Sub mr mf) (k : K) {w : Word} (hl : ∀ a, w.ptr = some a → mr.deref a ≠ none) : mf.leafVal cfg k w = mr.leafVal cfg k w := by
  simp only [Mem.leafVal]
  cases hp : w.ptr with
  | none => rfl
  | some a =>
    obtain ⟨n, hn⟩ := Option.ne_none_iff_exists'.mp (hl a hp)
    simp only [(deref_some.mp hn).2, (deref_some.mp (h.live a n hn)).2]

theorem Sub.look {mr mf : Mem P} (h : Sub mr mf) (k : K) (hlive : ∀ a, Linked mr a → mr.deref a ≠ none) :
    ∀ (ns : List (Fin 16)) (w : Word), (∀ a, w.ptr = some a → Linked mr a) → mf.look cfg k w ns = mr.look cfg k w ns := by
  intro ns
  induction ns with
  | nil => intro w hw; simp only [Mem.look, h.leafVal k (fun a ha => hlive a (hw a ha))]
  | cons n ns ih =>
    intro w hw
    simp only [Mem.look, h.leafVal k (fun a ha => hlive a (hw a ha)), h.cellsOf (fun a ha => hlive a (hw a ha))]
    cases mr.leafVal cfg k w with
    | some v => rfl
    | none =>
      simp only
      cases hc : mr.cellsOf w with
      | none => rfl
      | some c =>
        simp only
        refine ih (c n) ?_
        intro a ha
        simp only [Mem.cellsOf] at hc
        cases hp : w.ptr with
        | none => simp [hp] at hc
        | some b =>
          simp only [hp] at hc
          split at hc
          · cases hc
          · split at hc
            · next c' q' hm => cases hc; exact .cell (hw b hp) hm ha
            · cases hc

theorem RExec.linked_live (R : RExec cfg) (n a : Nat) (h : Linked (R.st n).m a) : (R.st n).m.deref a ≠ none := by
  have := (C34_linked_not_offered R n a h).1
  intro e
  simp [Mem.inUse, e] at this

theorem FExec.content_eq (F : FExec cfg) (n : Nat) : (F.st n).m.abs cfg = (F.coarse.st n).m.abs cfg := by
  have h := (F.rel n).mem.sub
  funext k
  simp only [Mem.abs]
  rw [h.root]
  exact h.look k (F.coarse.linked_live n) _ _ (fun a ha => .root ha)

/-! ### Who has which node -/

theorem FExec.linked_iff (F : FExec cfg) (n a : Nat) : Linked (F.st n).m a ↔ Linked (F.coarse.st n).m a := by
  have h := (F.rel n).mem.sub
  constructor
  · intro hl
    induction hl with
    | root hr => rw [h.root] at hr; exact .root hr
    | @cell a b c q i hb hm hp ih =>
      obtain ⟨nd, hnd⟩ := Option.ne_none_iff_exists'.mp (F.coarse.linked_live n b ih)
      have := (deref_some.mp (h.live b nd hnd)).2
      rw [hm] at this
      cases this
      exact .cell ih (deref_some.mp hnd).2 hp
  · intro hl
    induction hl with
    | root hr => rw [← h.root] at hr; exact .root hr
    | @cell a b c q i hb hm hp ih =>
      obtain ⟨nd, hnd⟩ := Option.ne_none_iff_exists'.mp (F.coarse.linked_live n b hb)
      have h1 := (deref_some.mp hnd).2
      rw [hm] at h1
      cases h1
      exact .cell ih (deref_some.mp (h.live b _ hnd)).2 hp

/-- A node in use is linked, or retired; not both. -/
theorem RExec.retired_iff (R : RExec cfg) {n x : Nat} (hx : (R.st n).m.deref x ≠ none) : (R.st n).m.retired x ≠ none ↔ ¬ Linked (R.st n).m x := by
  obtain ⟨a, ha, rfl⟩ := (R.rel n).mem.only x hx
  obtain ⟨nd, hnd⟩ := Option.ne_none_iff_exists'.mp ha
  rw [((R.rel n).mem.live a nd hnd).2, C07_retired_iff_unlinked R.fresh n a (by rw [(deref_some.mp hnd).2]; simp)]
  have key : ∀ x, Linked (R.st n).m x → ∃ a, Linked (R.fresh.st n).m a ∧ R.address a = x := by
    intro x h
    induction h with
    | @root y hy =>
      rw [(R.rel n).mem.root] at hy
      simp only [Word.ren_ptr, Option.map_eq_some_iff] at hy
      obtain ⟨a, ha, rfl⟩ := hy
      exact ⟨a, .root ha, rfl⟩
    | @cell y z c q j hz hm hp ih =>
      obtain ⟨b, hb, rfl⟩ := ih
      obtain ⟨nd, hnd⟩ := Option.ne_none_iff_exists'.mp (R.live n b hb)
      have h1 := (deref_some.mp ((R.rel n).mem.live b nd hnd).1).2
      rw [hm] at h1
      cases nd with
      | data l => simp [Node.ren] at h1
      | inner c' q' =>
        simp only [Node.ren, Option.some.injEq, Node.inner.injEq] at h1
        obtain ⟨rfl, rfl⟩ := h1
        simp only [Word.ren_ptr, Option.map_eq_some_iff] at hp
        obtain ⟨a, ha, rfl⟩ := hp
        exact ⟨a, .cell hb (deref_some.mp hnd).2 ha, rfl⟩
  have key' : ∀ a, Linked (R.fresh.st n).m a → Linked (R.st n).m (R.address a) := by
    intro a h
    induction h with
    | @root y hy => exact .root (by rw [(R.rel n).mem.root]; simp [hy])
    | @cell y z c q j hz hm hp ih =>
      obtain ⟨nd, hnd⟩ := Option.ne_none_iff_exists'.mp (R.live n z hz)
      have h1 := (deref_some.mp hnd).2
      rw [hm] at h1
      cases h1
      have := (deref_some.mp ((R.rel n).mem.live z _ hnd).1).2
      exact .cell (i := j) ih this (by simp [Word.ren, hp])
  refine not_congr ⟨key' a, fun h => ?_⟩
  obtain ⟨b, hb, e⟩ := key _ h
  rw [(R.rel n).mem.inj b a (R.live n b hb) ha e] at hb
  exact hb

end Contrie
