import Verif.Proof.LooksUser
import Verif.Props.Linear
/-
C71 (an iteration is one lookup per key, in real time).
-/
namespace Contrie
open scoped List
variable {K P : Type} [DecidableEq K]

/-- **C71.** Every run has a linearization of the calls about single keys in which each finished iteration has, for every key, a place between its invocation and its return, and gives for this key
exactly what the map contains there; each `is_empty` that returned `true` has such a place where the map is empty; and the places of a call that was invoked after another one returned are not before those
of the other one. -/
theorem C71_iterations_fit (cfg : Config K P) (ls : List (Label K P)) (hok : RunOK cfg State.init ls) :
    ∃ s es, runList cfg State.init ls = some (s, es) ∧
      ∃ L m pos, IsLinearization cfg.key (opHistory es) L m ∧ LooksFit cfg.key es L pos := by
  obtain ⟨E, h1, -⟩ := Exec.ofList hok
  obtain ⟨pos, h⟩ := E.looksFit ls.length
  refine ⟨_, _, h1, E.lin ls.length, E.content ls.length, pos, ?_, h⟩
  rw [E.opHistory_ofList]
  exact E.lin_isLinearization _

section
variable {P : Type} {U : UserKeys P} {clones : P → P → Prop}

/-- **C71** with the user's own comparisons. -/
theorem C71_iterations_fit_user (hU : U.Lawful) (ls : List (Label (Arg U) P)) (hok : BRunOK U State.init ls) :
    ∃ s es, bRun U State.init ls = some (s, es) ∧
      ∃ L l pos, IsListLinearization U.same U.keyArg (opHistory es) L l ∧ ListLooksFit U.same U.keyArg es L pos := by
  obtain ⟨h1, s, es, h2, h3, h4⟩ := run_sim hU ls State.init hok
  have h1' : RunOK U.cfg State.init (ls.map (Label.mapKey Arg.cls)) := h1
  obtain ⟨E, g1, -⟩ := Exec.ofList h1'
  have h3' : runList U.cfg State.init (ls.map (Label.mapKey Arg.cls)) = some (s.cls, es.map (Event.mapKey Arg.cls)) := h3
  rw [h3'] at g1
  simp only [Option.some.injEq, Prod.mk.injEq] at g1
  obtain ⟨-, g1⟩ := g1
  obtain ⟨pos, h⟩ := E.looksFit (ls.map (Label.mapKey Arg.cls)).length
  have hw := E.wellFormed (ls.map (Label.mapKey Arg.cls)).length
  have hL := E.lin_isLinearization (ls.map (Label.mapKey Arg.cls)).length
  rw [← E.opHistory_ofList, ← g1, opHistory_mapKey] at hw hL
  rw [← g1] at h
  have hwf : ∀ id o, HEv.inv id o ∈ opHistory es → ∀ t, U.WF (.call t (.op o)) := by
    intro id o hm t
    obtain ⟨e, he, hv⟩ := List.mem_filterMap.mp hm
    have hv : e = .inv id (.op o) := by
      cases e with
      | inv id' r => cases r <;> simp [Event.hev] at hv ⊢; exact hv
      | res id' r => cases r <;> simp [Event.hev] at hv
    subst hv
    obtain ⟨t', ht⟩ := h4 id o he
    cases o <;> exact ht
  obtain ⟨L', l, e, hl⟩ := linearization_list_of hU hw hwf hL
  rw [← e] at h
  exact ⟨s, es, h2, L', l, _, hl, h.toList hU (fun x hx t => hwf _ _ (hl.invoked x hx) t)⟩

/-- **C71** with the user's own comparisons and the user's own `Clone`. -/
theorem C71_iterations_fit_clones (hU : U.Lawful) (hc : ∀ p q, clones p q → U.eqKey (U.own p) (U.own q) = true)
    (ls : List (Label (Arg U) P × Clones clones)) (hok : KRunOK U clones State.init ls) :
    ∃ s es, kRun U clones State.init ls = some (s, es) ∧
      ∃ L l pos, IsCloneLinearization clones U.same U.keyArg (opHistory es) L l ∧ CloneLooksFit clones U.same U.keyArg es L pos := by
  obtain ⟨h1, S, ES, h2, h3, h4⟩ := run_lift hU hc ls State.init hok
  obtain ⟨s0, es0, g1, L, l, pos, g2, g3⟩ := C71_iterations_fit_user hU (ls.map Prod.fst) h1
  have h3' : bRun U State.init (ls.map Prod.fst) = _ := h3
  rw [h3'] at g1
  simp only [Option.some.injEq, Prod.mk.injEq] at g1
  obtain ⟨rfl, rfl⟩ := g1
  rw [opHistory_mapP] at g2
  refine ⟨S.mapP Lineage.cur, _, h2, L, l, pos, ?_, g3.upToCloning hU hc⟩
  rw [opHistory_mapP]
  refine clone_linearization ?_ g2
  intro id o hm
  obtain ⟨e, he, hv⟩ := List.mem_filterMap.mp hm
  have hv : e = .inv id (.op o) := by
    cases e with
    | inv id' r => cases r <;> simp [Event.hev] at hv ⊢; exact hv
    | res id' r => cases r <;> simp [Event.hev] at hv
  subst hv
  obtain ⟨r0, hr⟩ := h4 id _ he
  cases r0 with
  | op o0 =>
    simp only [Req.mapP, Req.op.injEq] at hr
    exact ⟨o0, hr⟩
  | _ => cases hr
end

/-! ### Examples -/

/-- Session 0 inserts 7 and 3; session 1 asks if the map is empty and begins to iterate; when it has passed the place of 2, session 0 inserts 2 and then 5; session 1 goes on. -/
def exTorn : List (Label Nat (Nat × Nat)) :=
  [.pin 0, .pin 1, .call 1 .isEmpty, .tick 1 false, .call 0 (.op (.insert (7, 1)))] ++ ticks 0 2 ++ [.call 0 (.op (.insert (3, 2)))] ++ ticks 0 5 ++ [.call 1 .iter] ++ ticks 1 6 ++
  [.call 0 (.op (.insert (2, 3)))] ++ ticks 0 3 ++ [.call 0 (.op (.insert (5, 4)))] ++ ticks 0 3 ++ ticks 1 32

set_option maxRecDepth 20000 in
theorem exTorn_ok : RunOK exCfg State.init exTorn := runOK_of_check 2 (by decide)

/-- The observable events of a run: number of the call; `none`: it is invoked, `some out`: it returns (an iteration: `out`). -/
def passesOf (es : List (Event Nat (Nat × Nat))) : List (Nat × Option (List (Nat × Nat))) :=
  es.map (fun e => match e with
    | .inv id _ => (id, none)
    | .res id (.list l) => (id, some l)
    | .res id (.bool b) => (id, some (if b then [] else [(0, 0)]))
    | .res id (.op _) => (id, some []))

set_option maxRecDepth 20000 in
/-- The iteration (call 13) yields 5 but not 2, though the insertion of 2 (call 20) returned before that of 5 (call 24) was invoked: there is no single moment at which the map was like this, so that the places of
different keys must be allowed to differ. (Call 2, `is_empty`, returned `true`.) -/
example : passesOf (exEvents exCfg exTorn) = [(2, none), (2, some []), (4, none), (4, some []), (7, none), (7, some []), (13, none), (20, none), (20, some []), (24, none), (24, some []),
    (13, some [(3, 2), (5, 4), (7, 1)])] := by decide

/-- The theorem applies to it. -/
example : ∃ s es, runList exCfg State.init exTorn = some (s, es) ∧ ∃ L m pos, IsLinearization exCfg.key (opHistory es) L m ∧ LooksFit exCfg.key es L pos :=
  C71_iterations_fit exCfg exTorn exTorn_ok

/-- So it does to the run of C69 with its pass at the end, ... -/
example : ∃ s es, bRun exUser State.init exForms = some (s, es) ∧
    ∃ L l pos, IsListLinearization exUser.same exUser.keyArg (opHistory es) L l ∧ ListLooksFit exUser.same exUser.keyArg es L pos :=
  C71_iterations_fit_user exUser_lawful exForms exForms_ok

/-- ... and to that of C70. -/
example : ∃ s es, kRun exGen exNext State.init exGens = some (s, es) ∧
    ∃ L l pos, IsCloneLinearization exNext exGen.same exGen.keyArg (opHistory es) L l ∧ CloneLooksFit exNext exGen.same exGen.keyArg es L pos :=
  C71_iterations_fit_clones exGen_lawful exNext_key exGens exGens_ok

theorem bound_stays {key : P → K} {k : K} {m m' : AMap K P} {L : List (SOp K P)} (h : Legal key m L m') (hn : ∀ x ∈ L, x.op ≠ .remove k)
    (hb : m k ≠ none ∨ ∃ x ∈ L, ∃ p, x.op = .insert p ∧ key p = k) : m' k ≠ none := by
  induction h with
  | nil =>
    rcases hb with hb | ⟨x, hx, -⟩
    · exact hb
    · cases hx
  | @cons m m1 m2 x L h _ ih =>
    refine ih (fun y hy => hn y (List.mem_cons_of_mem _ hy)) ?_
    have hx := hn x (List.mem_cons_self ..)
    obtain ⟨id, o, r⟩ := x
    by_cases hi : m1 k ≠ none
    · exact Or.inl hi
    · have hi : m1 k = none := Classical.not_not.mp hi
      rcases hb with hb | ⟨y, hy, p, h1, h2⟩
      · exfalso
        cases o with
        | get k' => simp only [AMap.apply, Prod.mk.injEq] at h; rw [h.1] at hb; exact hb hi
        | insert p =>
          simp only [AMap.apply, Prod.mk.injEq] at h
          rw [← h.1] at hi
          simp only [AMap.set] at hi
          split at hi
          · cases hi
          · exact hb hi
        | getOrInsert k' f =>
          simp only [AMap.apply] at h
          split at h
          · simp only [Prod.mk.injEq] at h; rw [h.1] at hb; exact hb hi
          · simp only [Prod.mk.injEq] at h
            rw [← h.1] at hi
            simp only [AMap.set] at hi
            split at hi
            · cases hi
            · exact hb hi
        | remove k' =>
          simp only [AMap.apply, Prod.mk.injEq] at h
          rw [← h.1] at hi
          simp only [AMap.set] at hi
          split at hi
          · rename_i e; exact hx (by rw [e])
          · exact hb hi
      · rcases List.mem_cons.mp hy with rfl | hy
        · exfalso
          cases h1
          simp only [AMap.apply, Prod.mk.injEq] at h
          rw [← h.1] at hi
          simp [AMap.set, h2] at hi
        · exact Or.inr ⟨y, hy, p, h1, h2⟩

/-- A consequence, which shows what the specification is worth: if the insertion of a key returned before an iteration was invoked, and no removal of this key is ever invoked, then the iteration
yields this key. -/
theorem C71_inserted_is_yielded {key : P → K} {es : List (Event K P)} {L : List (SOp K P)} {m : AMap K P} {pos : Nat → K → Nat}
    (hL : IsLinearization key (opHistory es) L m) (hf : LooksFit key es L pos) {a id : Nat} {p : P} {r : Ret P} {out : List P}
    (hi : Event.inv a (.op (.insert p)) ∈ es) (hb : [Event.res a (.op r), Event.inv id .iter] <+ es) (hr : Event.res id (.list out) ∈ es)
    (hn : ∀ b, Event.inv b (.op (.remove (key p))) ∉ es) : ∃ q ∈ out, key q = key p := by
  have hin : (⟨a, .insert p, r⟩ : SOp K P) ∈ L :=
    hL.complete a _ r (List.mem_filterMap.mpr ⟨_, hi, rfl⟩) (List.mem_filterMap.mpr ⟨_, hb.subset (List.mem_cons_self ..), rfl⟩)
  obtain ⟨m', ⟨h1, -, h3⟩, h4⟩ := hf.iter id out (key p) hr
  rw [← List.take_append_drop (pos id (key p)) L] at hin
  have hin : (⟨a, .insert p, r⟩ : SOp K P) ∈ L.take (pos id (key p)) := by
    rcases List.mem_append.mp hin with h | h
    · exact h
    · exact absurd ⟨_, _, hb⟩ (h3 _ h)
  have hm : m' (key p) ≠ none := by
    refine bound_stays h1 ?_ (Or.inr ⟨_, hin, p, rfl, rfl⟩)
    intro x hx e
    have := hL.invoked x (List.mem_of_mem_take hx)
    rw [e] at this
    obtain ⟨ev, he, hv⟩ := List.mem_filterMap.mp this
    have hv : ev = .inv x.id (.op (.remove (key p))) := by
      cases ev with
      | inv id' r => cases r <;> simp [Event.hev] at hv ⊢; exact hv
      | res id' r => cases r <;> simp [Event.hev] at hv
    exact hn _ (hv ▸ he)
  obtain ⟨q, hq⟩ := Option.ne_none_iff_exists'.mp hm
  rw [hq] at h4
  have : q ∈ out.filter (fun p' => decide (key p' = key p)) := by rw [h4]; simp
  obtain ⟨g1, g2⟩ := List.mem_filter.mp this
  exact ⟨q, g1, by simpa using g2⟩

set_option maxRecDepth 20000 in
/-- The run above meets the hypotheses: 3 was inserted before the iteration, and nothing is ever removed. -/
example : ∃ es L m pos, IsLinearization exCfg.key (opHistory es) L m ∧ LooksFit exCfg.key es L pos ∧
    Event.inv 7 (.op (.insert (3, 2))) ∈ es ∧ [Event.res 7 (.op (.opt none)), Event.inv 13 .iter] <+ es ∧ Event.res 13 (.list [(3, 2), (5, 4), (7, 1)]) ∈ es ∧
    ∀ b, Event.inv b (.op (.remove (exCfg.key (3, 2)))) ∉ es := by
  obtain ⟨s, es, h, L, m, pos, hL, hf⟩ := C71_iterations_fit exCfg exTorn exTorn_ok
  have he : es = [.inv 2 .isEmpty, .res 2 (.bool true), .inv 4 (.op (.insert (7, 1))), .res 4 (.op (.opt none)), .inv 7 (.op (.insert (3, 2))), .res 7 (.op (.opt none)), .inv 13 .iter,
      .inv 20 (.op (.insert (2, 3))), .res 20 (.op (.opt none)), .inv 24 (.op (.insert (5, 4))), .res 24 (.op (.opt none)), .res 13 (.list [(3, 2), (5, 4), (7, 1)])] := by
    have h1 : (runList exCfg State.init exTorn).map Prod.snd = some es := by rw [h]; rfl
    exact (Option.some.inj (h1.symm.trans rfl))
  refine ⟨es, L, m, pos, hL, hf, ?_⟩
  subst he
  refine ⟨by simp, ?_, by simp, by simp⟩
  exact .cons _ (.cons _ (.cons _ (.cons _ (.cons _ (.cons_cons _ (.cons_cons _ (List.nil_sublist _)))))))

end Contrie
