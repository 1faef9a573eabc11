import Verif.Proof.Borrow
/-
The machine with the user's own comparisons runs as the machine on classes of equal arguments does.
-/
namespace Contrie
open scoped List
variable {P : Type} {U : UserKeys P}

/-- The state of the machine on classes. -/
abbrev State.cls (s : State (Arg U) P) : State (Cls U) P := s.mapKey Arg.cls

theorem asks_honest (hU : U.Lawful) (q : Option U.Form) (pc : PC (Arg U) P) (k : Cls U)
    (h : (pc.mapKey Arg.cls).soughtKey U.cfg = some k) : pc.asks U q = Answers.honest U.cfg k := by
  cases pc with
  | get a hash cur => injection h with h; subst h; exact answers_honest hU a
  | rem a _ _ _ => injection h with h; subst h; exact answers_honest hU a
  | trav st hash mode shift cur parent =>
    injection h with h; subst h
    cases st with
    | created p =>
      show U.answers (U.keyAs p q) = Answers.honest U.cfg (U.cfg.key p)
      rw [answers_honest hU, cls_keyAs hU]
    | future a f => exact answers_honest hU a
  | _ => cases h

theorem bTick_sim (hU : U.Lawful) (q : Option U.Form) (m : Mem P) (weak : Bool) (pc : PC (Arg U) P) :
    tick U.cfg m weak (pc.mapKey Arg.cls) = Prod.map id (Next.mapKey Arg.cls) (bTick U q m weak pc) := by
  rw [bTick, ← hTick_mapKey]
  exact (hTick_honest U.cfg (pc.asks U q) m weak _ (asks_honest hU q pc)).symm

theorem startPC_sim (r : Req (Arg U) P) : startPC U.cfg (r.mapKey Arg.cls) = (hStartPC (U.hashReq r) r).mapKey Arg.cls := by
  cases r with
  | op o => cases o <;> rfl
  | _ => rfl

theorem bStep_sim (hU : U.Lawful) {s s' : State (Arg U) P} {l : Label (Arg U) P} {e : Option (Event (Arg U) P)}
    (h : bStep U s l = some (s', e)) : step U.cfg s.cls (l.mapKey Arg.cls) = some (s'.cls, e.map (Event.mapKey Arg.cls)) := by
  cases l with
  | pin t =>
    simp only [bStep] at h
    split at h
    · rename_i h1 h2
      simp only [Option.some.injEq, Prod.mk.injEq] at h
      obtain ⟨rfl, rfl⟩ := h
      simp only [Label.mapKey, step, State.mapKey, Thread.mapKey, h1, h2, Option.map_none]
      congr 2
      simp only [State.mk.injEq, true_and]
      funext x
      by_cases hx : x = t <;> simp [upd, hx, Call.mapKey]
    · cases h
  | unpin t =>
    simp only [bStep] at h
    split at h
    · rename_i h1 h2 h3
      simp only [Option.some.injEq, Prod.mk.injEq] at h
      obtain ⟨rfl, rfl⟩ := h
      simp only [Label.mapKey, step, State.mapKey, Thread.mapKey, h1, h2, h3, Option.map_none]
      congr 2
      simp only [State.mk.injEq, true_and]
      funext x
      by_cases hx : x = t <;> simp [upd, hx, Call.mapKey]
    · cases h
  | call t r =>
    simp only [bStep] at h
    split at h
    · rename_i h1 h2 h3
      simp only [Option.some.injEq, Prod.mk.injEq] at h
      obtain ⟨rfl, rfl⟩ := h
      simp only [Label.mapKey, step, State.mapKey, Thread.mapKey, h1, h2, h3, Option.map_none, Option.map_some, startPC_sim]
      congr 2
      simp only [State.mk.injEq, true_and]
      funext x
      by_cases hx : x = t <;> simp [upd, hx, Call.mapKey]
    · cases h
  | tick t weak =>
    simp only [bStep] at h
    split at h
    · cases h
    · rename_i c h1
      simp only [Option.some.injEq, Prod.mk.injEq] at h
      obtain ⟨rfl, rfl⟩ := h
      have ht := bTick_sim hU c.req.typ s.m weak c.pc
      simp only [Label.mapKey, step, State.mapKey, Thread.mapKey, h1, Option.map_some, Call.mapKey, ht]
      congr 2
      · have := State.mapKey_upd Arg.cls (bTick U c.req.typ s.m weak c.pc).1.bump s.thr t ((s.thr t).apply c (bTick U c.req.typ s.m weak c.pc).2)
        refine Eq.trans ?_ this.symm
        rw [Thread.mapKey_apply]
        simp only [Prod.map, id, Thread.mapKey, h1, Option.map_some]
        rfl
      · exact Next.mapKey_event _ _ _
  | abort t =>
    simp only [bStep] at h
    split at h
    · cases h
    · rename_i c h1
      simp only [Option.some.injEq, Prod.mk.injEq] at h
      obtain ⟨rfl, rfl⟩ := h
      simp only [Label.mapKey, step, State.mapKey, Thread.mapKey, h1, Option.map_none, Option.map_some]
      congr 2
      simp only [State.mk.injEq, true_and]
      funext x
      by_cases hx : x = t <;> simp [upd, hx, Call.mapKey]
  | free a =>
    simp only [bStep, Option.some.injEq, Prod.mk.injEq] at h
    obtain ⟨rfl, rfl⟩ := h
    rfl
  | idle =>
    simp only [bStep, Option.some.injEq, Prod.mk.injEq] at h
    obtain ⟨rfl, rfl⟩ := h
    rfl

theorem wf_sim (hU : U.Lawful) {l : Label (Arg U) P} (h : U.WF l) : (l.mapKey Arg.cls).WF U.cfg := by
  cases l with
  | call t r =>
    cases r with
    | op o =>
      cases o with
      | getOrInsert a f => exact (same_iff hU).mp h
      | _ => trivial
    | _ => trivial
  | _ => trivial

theorem run_sim (hU : U.Lawful) (ls : List (Label (Arg U) P)) : ∀ s : State (Arg U) P, BRunOK U s ls →
    RunOK U.cfg s.cls (ls.map (Label.mapKey Arg.cls)) ∧
    ∃ s' es, bRun U s ls = some (s', es) ∧ runList U.cfg s.cls (ls.map (Label.mapKey Arg.cls)) = some (s'.cls, es.map (Event.mapKey Arg.cls)) ∧
      ∀ id o, Event.inv id (.op o) ∈ es → ∃ t, U.WF (.call t (.op o)) := by
  induction ls with
  | nil => intro s _; exact ⟨trivial, s, [], rfl, rfl, by simp⟩
  | cons l ls ih =>
    intro s h
    obtain ⟨h1, h2, h3⟩ := h
    cases hs : bStep U s l with
    | none => rw [hs] at h3; exact h3.elim
    | some x =>
      obtain ⟨s1, e⟩ := x
      rw [hs] at h3
      obtain ⟨g1, s', es, g2, g3, g4⟩ := ih s1 h3
      have hs' := bStep_sim hU hs
      refine ⟨⟨Label.mapKey_enabled Arg.cls h1, wf_sim hU h2, ?_⟩, s', e.toList ++ es, ?_, ?_, ?_⟩
      · rw [hs']; exact g1
      · simp only [bRun, hs, g2]
      · simp only [List.map_cons, runList, hs', g3, List.map_append]
        cases e <;> rfl
      · intro id o hm
        rcases List.mem_append.mp hm with hm | hm
        · cases l with
          | call t r =>
            simp only [bStep] at hs
            split at hs
            · simp only [Option.some.injEq, Prod.mk.injEq] at hs
              obtain ⟨-, rfl⟩ := hs
              simp only [Option.toList, List.mem_singleton, Event.inv.injEq] at hm
              obtain ⟨-, rfl⟩ := hm
              exact ⟨t, h2⟩
            · cases hs
          | tick t weak =>
            simp only [bStep] at hs
            split at hs
            · cases hs
            · simp only [Option.some.injEq, Prod.mk.injEq] at hs
              obtain ⟨-, rfl⟩ := hs
              generalize (bTick U _ _ _ _).2 = n at hm
              cases n <;> simp [Next.event] at hm
          | pin t =>
            simp only [bStep] at hs
            split at hs
            · simp only [Option.some.injEq, Prod.mk.injEq] at hs; obtain ⟨-, rfl⟩ := hs; simp at hm
            · cases hs
          | unpin t =>
            simp only [bStep] at hs
            split at hs
            · simp only [Option.some.injEq, Prod.mk.injEq] at hs; obtain ⟨-, rfl⟩ := hs; simp at hm
            · cases hs
          | abort t =>
            simp only [bStep] at hs
            split at hs
            · cases hs
            · simp only [Option.some.injEq, Prod.mk.injEq] at hs; obtain ⟨-, rfl⟩ := hs; simp at hm
          | free a => simp only [bStep, Option.some.injEq, Prod.mk.injEq] at hs; obtain ⟨-, rfl⟩ := hs; simp at hm
          | idle => simp only [bStep, Option.some.injEq, Prod.mk.injEq] at hs; obtain ⟨-, rfl⟩ := hs; simp at hm
        · exact g4 id o hm

/-! ### From the map on classes to the list of elements -/

/-- The map on classes a list of elements is. -/
noncomputable def UserKeys.view (U : UserKeys P) (l : List P) : AMap (Cls U) P := fun u => l.find? (fun p => decide (U.cfg.key p = u))

theorem find_same (hU : U.Lawful) (l : List P) (x : Arg U) : l.find? (fun p => U.same p x) = U.view l x.cls := by
  simp only [UserKeys.view, same_decide hU]

theorem view_filter (l : List P) (u v : Cls U) :
    U.view (l.filter (fun p => !decide (U.cfg.key p = u))) v = if v = u then none else U.view l v := by
  unfold UserKeys.view
  induction l with
  | nil => simp
  | cons p l ih =>
    by_cases hv : v = u
    · subst hv
      simp only [if_true]
      rw [List.find?_eq_none]
      intro q hq
      have := (List.mem_filter.mp hq).2
      simpa using this
    · simp only [if_neg hv] at ih ⊢
      by_cases hp : U.cfg.key p = u
      · rw [List.filter_cons_of_neg (by simp [hp]), ih, List.find?_cons_of_neg]
        intro e
        have e : U.cfg.key p = v := by simpa using e
        exact hv (e.symm.trans hp)
      · rw [List.filter_cons_of_pos (by simp [hp])]
        simp only [List.find?_cons, ih]

theorem view_snoc (l : List P) (p : P) (v : Cls U) :
    U.view (l ++ [p]) v = (U.view l v).or (if v = U.cfg.key p then some p else none) := by
  unfold UserKeys.view
  rw [List.find?_append]
  congr 1
  by_cases h : v = U.cfg.key p
  · simp [h]
  · have : ¬ U.cfg.key p = v := fun e => h e.symm
    simp [h, this]

theorem listStep_view (hU : U.Lawful) (l : List P) (o : Op (Arg U) P) (ho : ∀ t, U.WF (.call t (.op o))) :
    (U.view l).apply U.cfg.key (o.mapKey Arg.cls) = (U.view (listStep U.same U.keyArg l o).1, (listStep U.same U.keyArg l o).2) := by
  have hset : ∀ (u : Cls U), (U.view l).set u none = U.view (l.filter (fun p => !decide (U.cfg.key p = u))) := by
    intro u; funext v; rw [view_filter]; rfl
  have hput : ∀ (p : P), (U.view l).set (U.cfg.key p) (some p) = U.view (l.filter (fun q => !decide (U.cfg.key q = U.cfg.key p)) ++ [p]) := by
    intro p; funext v
    rw [view_snoc, view_filter]
    simp only [AMap.set]
    by_cases h : v = U.cfg.key p <;> simp [h]
  cases o with
  | get a => simp only [Op.mapKey, AMap.apply, listStep, find_same hU]
  | insert p =>
    simp only [Op.mapKey, AMap.apply, listStep, same_decide hU]
    rw [hput]
    rfl
  | remove a =>
    simp only [Op.mapKey, AMap.apply, listStep, same_decide hU]
    rw [hset]
    rfl
  | getOrInsert a f =>
    have hk : U.cfg.key (f a) = a.cls := (same_iff hU).mp (ho 0)
    simp only [Op.mapKey, AMap.apply, listStep, find_same hU]
    cases hv : U.view l a.cls with
    | some e => rfl
    | none =>
      simp only [Prod.mk.injEq, and_true]
      funext v
      rw [view_snoc, hk]
      simp only [AMap.set]
      by_cases h : v = a.cls
      · subst h; simp [hv]
      · simp [h]

def SOp.mapKey {A B : Type} (c : A → B) (x : SOp A P) : SOp B P := ⟨x.id, x.op.mapKey c, x.ret⟩

theorem Legal.toList (hU : U.Lawful) {L : List (SOp (Arg U) P)} (hL : ∀ x ∈ L, ∀ t, U.WF (.call t (.op x.op))) :
    ∀ {l : List P} {m : AMap (Cls U) P}, Legal U.cfg.key (U.view l) (L.map (SOp.mapKey Arg.cls)) m →
      ∃ l', ListLegal U.same U.keyArg l L l' ∧ U.view l' = m := by
  induction L with
  | nil =>
    intro l m h
    cases h
    exact ⟨l, .nil l, rfl⟩
  | cons x L ih =>
    intro l m h
    cases h with
    | cons h1 h2 =>
      have hx := listStep_view hU l x.op (hL x (by simp))
      have h1' : (U.view l).apply U.cfg.key (x.op.mapKey Arg.cls) = _ := h1
      rw [hx] at h1'
      simp only [Prod.mk.injEq] at h1'
      obtain ⟨rfl, hr⟩ := h1'
      obtain ⟨l', h', hv⟩ := ih (fun y hy => hL y (by simp [hy])) h2
      exact ⟨l', .cons (by rw [← show (listStep U.same U.keyArg l x.op).2 = x.ret from hr]) h', hv⟩

section
variable {A B : Type} (c : A → B)

theorem mem_mapKey_inv {h : List (HEv A P)} {id : Nat} {o : Op B P} (hm : HEv.inv id o ∈ h.map (HEv.mapKey c)) :
    ∃ o', HEv.inv id o' ∈ h ∧ o = o'.mapKey c := by
  obtain ⟨e, he, h1⟩ := List.mem_map.mp hm
  cases e with
  | inv id' o' => simp only [HEv.mapKey, HEv.inv.injEq] at h1; obtain ⟨rfl, rfl⟩ := h1; exact ⟨o', he, rfl⟩
  | res => cases h1

theorem mem_mapKey_res {h : List (HEv A P)} {id : Nat} {r : Ret P} (hm : HEv.res id r ∈ h) : HEv.res id r ∈ h.map (HEv.mapKey c) :=
  List.mem_map.mpr ⟨_, hm, rfl⟩

theorem Before.mapKey {h : List (HEv A P)} {a b : Nat} (hb : Before h a b) : Before (h.map (HEv.mapKey c)) a b := by
  obtain ⟨r, o, h1⟩ := hb
  exact ⟨r, o.mapKey c, h1.map (HEv.mapKey c)⟩

theorem Before.ofMapKey {h : List (HEv A P)} {a b : Nat} (hb : Before (h.map (HEv.mapKey c)) a b) : Before h a b := by
  obtain ⟨r, o, ho⟩ := hb
  obtain ⟨l, hl, he⟩ := List.sublist_map_iff.mp ho
  match l, he, hl with
  | [], he, _ => cases he
  | [_], he, _ => simp at he
  | _ :: _ :: _ :: _, he, _ => simp at he
  | [x, y], he, hl =>
    simp only [List.map_cons, List.map_nil, List.cons.injEq, and_true] at he
    obtain ⟨h1, h2⟩ := he
    cases x with
    | res id r' =>
      cases y with
      | inv id' o' =>
        simp only [HEv.mapKey, HEv.inv.injEq, HEv.res.injEq] at h1 h2
        obtain ⟨rfl, rfl⟩ := h1
        obtain ⟨rfl, -⟩ := h2
        exact ⟨_, o', hl⟩
      | res => cases h2
    | inv => cases h1

theorem WellFormed.ofMapKey {h : List (HEv A P)} (w : WellFormed (h.map (HEv.mapKey c))) : WellFormed h where
  invOnce := by
    refine (List.pairwise_map.mp w.invOnce).imp ?_
    rintro x y hxy id o o' rfl rfl
    exact hxy id _ _ rfl rfl
  resOnce := by
    refine (List.pairwise_map.mp w.resOnce).imp ?_
    rintro x y hxy id o o' rfl rfl
    exact hxy id _ _ rfl rfl
  resAfter := by
    intro id r hm
    obtain ⟨o, ho⟩ := w.resAfter id r (mem_mapKey_res c hm)
    obtain ⟨l, hl, he⟩ := List.sublist_map_iff.mp ho
    match l, he, hl with
    | [], he, _ => cases he
    | [_], he, _ => simp at he
    | _ :: _ :: _ :: _, he, _ => simp at he
    | [x, y], he, hl =>
      simp only [List.map_cons, List.map_nil, List.cons.injEq, and_true] at he
      obtain ⟨h1, h2⟩ := he
      cases x with
      | inv id' o' =>
        cases y with
        | res id'' r' =>
          simp only [HEv.mapKey, HEv.inv.injEq, HEv.res.injEq] at h1 h2
          obtain ⟨rfl, -⟩ := h1
          obtain ⟨rfl, rfl⟩ := h2
          exact ⟨o', hl⟩
        | inv => cases h2
      | res => cases h1

theorem WellFormed.inv_unique {h : List (HEv A P)} (w : WellFormed h) {id : Nat} {o o' : Op A P} (h1 : HEv.inv id o ∈ h) (h2 : HEv.inv id o' ∈ h) :
    o = o' := by
  have hp := w.invOnce
  clear w
  induction h with
  | nil => cases h1
  | cons x h ih =>
    rw [List.pairwise_cons] at hp
    rcases List.mem_cons.mp h1 with e1 | h1
    · rcases List.mem_cons.mp h2 with e2 | h2
      · rw [← e1] at e2; injection e2 with _ e2; exact e2.symm
      · exact (hp.1 _ h2 id o o' e1.symm rfl).elim
    · rcases List.mem_cons.mp h2 with e2 | h2
      · exact (hp.1 _ h1 id o' o e2.symm rfl).elim
      · exact ih h1 h2 hp.2

/-- The calls of the classes' history, as calls of the original one. -/
theorem lift_calls {h : List (HEv A P)} (L : List (SOp B P)) (hL : ∀ x ∈ L, HEv.inv x.id x.op ∈ h.map (HEv.mapKey c)) :
    ∃ L' : List (SOp A P), L'.map (SOp.mapKey c) = L ∧ ∀ x ∈ L', HEv.inv x.id x.op ∈ h := by
  induction L with
  | nil => exact ⟨[], rfl, by simp⟩
  | cons x L ih =>
    obtain ⟨L', h1, h2⟩ := ih (fun y hy => hL y (by simp [hy]))
    obtain ⟨o, g1, g2⟩ := mem_mapKey_inv c (hL x (by simp))
    refine ⟨⟨x.id, o, x.ret⟩ :: L', ?_, ?_⟩
    · simp only [List.map_cons, h1, SOp.mapKey, ← g2]
    · intro y hy
      rcases List.mem_cons.mp hy with rfl | hy
      · exact g1
      · exact h2 y hy
end

theorem linearization_list_of (hU : U.Lawful) {h : List (HEv (Arg U) P)} (hw : WellFormed (h.map (HEv.mapKey Arg.cls)))
    (hwf : ∀ id o, HEv.inv id o ∈ h → ∀ t, U.WF (.call t (.op o))) {L : List (SOp (Cls U) P)} {m : AMap (Cls U) P}
    (hL : IsLinearization U.cfg.key (h.map (HEv.mapKey Arg.cls)) L m) :
    ∃ L' l, L'.map (SOp.mapKey Arg.cls) = L ∧ IsListLinearization U.same U.keyArg h L' l := by
  obtain ⟨L', rfl, h2⟩ := lift_calls Arg.cls L hL.invoked
  have hleg : Legal U.cfg.key (U.view []) (L'.map (SOp.mapKey Arg.cls)) m := hL.legal
  obtain ⟨l, hll, -⟩ := hleg.toList hU (fun x hx => hwf _ _ (h2 x hx))
  refine ⟨L', l, rfl, h2, ?_, ?_, ?_, hll⟩
  · have := hL.once
    rw [List.map_map] at this
    exact this
  · intro id o r hi hr
    have := hL.complete id (o.mapKey Arg.cls) r (List.mem_map.mpr ⟨_, hi, rfl⟩) (mem_mapKey_res Arg.cls hr)
    obtain ⟨x, hx, he⟩ := List.mem_map.mp this
    obtain ⟨id', o', r'⟩ := x
    simp only [SOp.mapKey, SOp.mk.injEq] at he
    obtain ⟨rfl, -, rfl⟩ := he
    have := (hw.ofMapKey Arg.cls).inv_unique hi (h2 _ hx)
    subst this
    exact hx
  · refine (List.pairwise_map.mp hL.realtime).imp ?_
    intro x y hxy hb
    exact hxy (hb.mapKey Arg.cls)

theorem linearization_list (hU : U.Lawful) {h : List (HEv (Arg U) P)} (hw : WellFormed (h.map (HEv.mapKey Arg.cls)))
    (hwf : ∀ id o, HEv.inv id o ∈ h → ∀ t, U.WF (.call t (.op o)))
    (hl : Linearizable U.cfg.key (h.map (HEv.mapKey Arg.cls))) : ∃ L l, IsListLinearization U.same U.keyArg h L l := by
  obtain ⟨L, m, hL⟩ := hl
  obtain ⟨L', l, -, h⟩ := linearization_list_of hU hw hwf hL
  exact ⟨L', l, h⟩

end Contrie
