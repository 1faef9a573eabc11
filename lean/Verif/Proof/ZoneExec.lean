import Verif.Proof.ZoneRem
import Verif.Proof.Tidy
/-
Executions in which removals of keys below `g` do not overlap: the invariant holds.
-/
set_option linter.unusedSectionVars false
open scoped List
namespace Contrie
variable {K P : Type} [DecidableEq K]

/-- The request is an update (an insertion or a removal) of key `k`. -/
def Req.Updates (cfg : Config K P) (r : Req K P) (k : K) : Prop := r.insKey cfg = some k ∨ r = .op (.remove k)

/-- Between the instants `s` and `n`, no two removals of keys whose hashes begin with `g` are in progress at the same time, and no update of such a key is
abandoned half way. Nothing is assumed about calls for other keys. -/
structure Exec.RemovalsAloneUnder {cfg : Config K P} (E : Exec cfg) (g : List (Fin 16)) (s n : Nat) : Prop where
  alone : ∀ i, s ≤ i → i ≤ n → ∀ t t' c c' k k', ((E.st i).thr t).run = some c → ((E.st i).thr t').run = some c' →
    c.req = .op (.remove k) → c'.req = .op (.remove k') → g <+: nibs (cfg.hash k) → g <+: nibs (cfg.hash k') → t = t'
  finished : ∀ i, s ≤ i → i < n → ∀ t c k, E.lab i = .abort t → ((E.st i).thr t).run = some c → c.req.Updates cfg k → ¬ g <+: nibs (cfg.hash k)

/-- At instant `n` no update of a key whose hash begins with `g` is in progress. -/
def Exec.NoUpdateUnder {cfg : Config K P} (E : Exec cfg) (g : List (Fin 16)) (n : Nat) : Prop :=
  ∀ t c k, ((E.st n).thr t).run = some c → c.req.Updates cfg k → ¬ g <+: nibs (cfg.hash k)

/-- `R` is the removal below `g` in progress (if any). -/
def State.RemIsZ (cfg : Config K P) (g : List (Fin 16)) (S : State K P) : Option (BitVec 64 × PC K P) → Prop
  | none => ∀ t c k, (S.thr t).run = some c → c.req = .op (.remove k) → ¬ g <+: nibs (cfg.hash k)
  | some (h, pc) => ∃ t c k, (S.thr t).run = some c ∧ c.req = .op (.remove k) ∧ g <+: nibs (cfg.hash k) ∧ h = cfg.hash k ∧ pc = c.pc

/-- The invariant of a state. -/
structure State.Zone (cfg : Config K P) (g : List (Fin 16)) (S : State K P) (R : Option (BitVec 64 × PC K P)) : Prop where
  is : S.RemIsZ cfg g R
  inv : ZInv cfg g S.m (S.ins cfg) R
  help : ∀ t c, (S.thr t).run = some c → HelpZPC g S.m R c.pc

theorem HelpZPC.reader {cfg : Config K P} {A : Nat → AMap K P} {m : Mem P} {g : List (Fin 16)} {R : Option (BitVec 64 × PC K P)} {c : Call K P}
    (hi : PCInv cfg A m c) (hu : c.req.isUpdate = false) : HelpZPC g m R c.pc := by
  unfold PCInv at hi
  cases hpc : c.pc with
  | prune p ch i acc k =>
    simp only [hpc] at hi
    exfalso
    cases k with
    | trav =>
      have := hi.1.1.insKey
      rw [(insKey_upd this).1] at hu; cases hu
    | rem => rw [hi.1.1] at hu; cases hu
    | clean => obtain ⟨⟨⟨⟨k, e⟩, -⟩, -⟩, -⟩ := hi; rw [e] at hu; cases hu
  | pruneCas p ch acc k =>
    simp only [hpc] at hi
    exfalso
    cases k with
    | trav =>
      have := hi.1.1.insKey
      rw [(insKey_upd this).1] at hu; cases hu
    | rem => rw [hi.1.1] at hu; cases hu
    | clean => obtain ⟨⟨⟨⟨k, e⟩, -⟩, -⟩, -⟩ := hi; rw [e] at hu; cases hu
  | _ => trivial

section
variable {cfg : Config K P} {A : Nat → AMap K P} {m : Mem P}
/-- A part of the trie that is tidy passes the check of `assert_pruned`, and has the canonical shape. -/
theorem tidyZ {g : List (Fin 16)} (hs : ZS cfg g m noEx (fun _ => False)) (h : MemInv cfg A m) (n : Nat) : ∀ (loc : Loc) (q : List (Fin 16)) (w : Word),
    16 - q.length ≤ n → BelowZ g q → m.At loc q w → LiveLoc m loc →
    HandlePtr m w.erase ∧ ∃ T, HasShape m w.erase T ∧ Canonical cfg (m.abs cfg) q T := by
  induction n with
  | zero =>
    intro loc q w hn hb0 hat hl
    have hlen := h.at_len hat
    have hq : q.length = 16 := by omega
    cases hb : w.ptr with
    | none =>
      refine ⟨.null rfl hb, .null, .null hb, ?_⟩
      intro k hk
      exact h.live_abs hat hl (hashStarts_iff.mp hk) (leafVal_null hb)
    | some b =>
      have hlive : m.retired b = none := h.live _ _ b (h.live_follow hat hl) hb
      cases hd : w.data with
      | false =>
        obtain ⟨c, h1⟩ := (h.at_ok hat).of_inner hb hd
        have := (h.nodeOK b c q h1).1
        omega
      | true =>
        obtain ⟨l, h1, h2⟩ := (h.at_ok hat).of_data hb hd
        have hder : m.deref b = some (.data l) := by rw [deref_live h hlive, h1]
        refine ⟨.data rfl hb hd hder h2.ne, .leaf l, .leaf hb hd hder, h2.ne, h2.nodup, Or.inr hq, ?_⟩
        intro p
        constructor
        · intro hp
          refine ⟨hashStarts_iff.mpr (h2.pre p hp), ?_⟩
          rw [h.live_abs hat hl (h2.pre p hp) (leafVal_data hb hd h1)]
          exact find_of_mem cfg.key h2.nodup hp
        · rintro ⟨g1, g2⟩
          obtain ⟨b', l', e1, e2, e3, e4, -⟩ := h.under_item hat hl (fun e => by have := e.2; rw [hd] at this; cases this)
            (hashStarts_iff.mp g1) g2
          rw [hb] at e1; cases e1; rw [h1] at e3; cases e3
          exact e4
  | succ n ih =>
    intro loc q w hn hb0 hat hl
    have hlen := h.at_len hat
    cases hb : w.ptr with
    | none =>
      refine ⟨.null rfl hb, .null, .null hb, ?_⟩
      intro k hk
      exact h.live_abs hat hl (hashStarts_iff.mp hk) (leafVal_null hb)
    | some b =>
      have hlive : m.retired b = none := h.live _ _ b (h.live_follow hat hl) hb
      cases hd : w.data with
      | true =>
        obtain ⟨l, h1, h2⟩ := (h.at_ok hat).of_data hb hd
        have hder : m.deref b = some (.data l) := by rw [deref_live h hlive, h1]
        refine ⟨.data rfl hb hd hder h2.ne, .leaf l, .leaf hb hd hder, h2.ne, h2.nodup, h2.short, ?_⟩
        intro p
        constructor
        · intro hp
          refine ⟨hashStarts_iff.mpr (h2.pre p hp), ?_⟩
          rw [h.live_abs hat hl (h2.pre p hp) (leafVal_data hb hd h1)]
          exact find_of_mem cfg.key h2.nodup hp
        · rintro ⟨g1, g2⟩
          obtain ⟨b', l', e1, e2, e3, e4, -⟩ := h.under_item hat hl (fun e => by have := e.2; rw [hd] at this; cases this)
            (hashStarts_iff.mp g1) g2
          rw [hb] at e1; cases e1; rw [h1] at e3; cases e3
          exact e4
      | false =>
        obtain ⟨c, h1⟩ := (h.at_ok hat).of_inner hb hd
        have hlt := (h.nodeOK b c q h1).1
        have hder : m.deref b = some (.inner c q) := by rw [deref_live h hlive, h1]
        have hati : ∀ i, m.At (.slot b i) (q ++ [i]) (c i) := fun i => ⟨c, q, h1, rfl, rfl⟩
        have hli : ∀ i, LiveLoc m (.slot b i) := fun i => hlive
        have hcl : ∀ i, (c i).cond = false := by
          intro i
          cases hc : (c i).cond with
          | false => rfl
          | true =>
            rcases hs.clean b c q i h1 hlive hb0.1 hc with e | ⟨e, -⟩
            · exact e.elim
            · rw [e] at hb0; exact absurd hb0.2 (Nat.lt_irrefl _)
        have hsub := fun i => ih (.slot b i) (q ++ [i]) (c i) (by simp; omega) (belowZ_cell.mpr hb0.1) (hati i) (hli i)
        have htwo : Two cfg (m.abs cfg) q := by
          rcases hs.two b c q h1 hlive hb0 with e | e
          · exact e
          · exact e.elim
        simp only [fun i => erase_of_clean (hcl i)] at hsub
        choose hh T hT hC using hsub
        refine ⟨.inner rfl hb hd hder hh ?_, .node T, .node hb hd hder hT, hlt, ?_, hC⟩
        · apply Classical.byContradiction
          intro hno
          simp only [not_or, not_exists] at hno
          obtain ⟨hno1, hno2⟩ := hno
          obtain ⟨k1, k2, hne, ⟨u1, v1⟩, ⟨u2, v2⟩⟩ := htwo
          obtain ⟨p1, v1⟩ := Option.ne_none_iff_exists'.mp v1
          obtain ⟨p2, v2⟩ := Option.ne_none_iff_exists'.mp v2
          obtain ⟨i1, u1⟩ := next_nib u1 hlt
          obtain ⟨i2, u2⟩ := next_nib u2 hlt
          obtain ⟨b1, l1, x1, x2, x3, x4, x5⟩ := h.under_item (hati i1) (hli i1) (hno2 i1) u1 v1
          obtain ⟨b2, l2, y1, y2, y3, y4, y5⟩ := h.under_item (hati i2) (hli i2) (hno2 i2) u2 v2
          have c1 : m.dataCnt (c i1) = l1.length := by
            have := h.live _ _ b1 (h.live_follow (hati i1) (hli i1)) x1
            simp [Mem.dataCnt, x1, x2, deref_live h this, x3]
          have c2 : m.dataCnt (c i2) = l2.length := by
            have := h.live _ _ b2 (h.live_follow (hati i2) (hli i2)) y1
            simp [Mem.dataCnt, y1, y2, deref_live h this, y3]
          apply hno1
          by_cases hi : i1 = i2
          · subst hi
            rw [x1] at y1; cases y1; rw [x3] at y3; cases y3
            refine sum_one (i := i1) ?_
            rw [c1]
            match l1, x4, y4 with
            | [], x4, _ => cases x4
            | [z], x4, y4 =>
              simp only [List.mem_singleton] at x4 y4
              exact absurd (by rw [← x5, ← y5, x4, y4]) hne
            | _ :: _ :: _, _, _ => simp
          · exact sum_two hi (by rw [c1]; exact List.length_pos_of_mem x4) (by rw [c2]; exact List.length_pos_of_mem y4)
        · obtain ⟨k1, k2, hne, ⟨u1, v1⟩, ⟨u2, v2⟩⟩ := htwo
          exact ⟨k1, k2, hne, hashStarts_iff.mpr u1, hashStarts_iff.mpr u2, v1, v2⟩


/-- Where a path below the root leads to. -/
theorem follow_cell (h : MemInv cfg A m) {q : List (Fin 16)} {w : Word} (hf : m.follow m.root q = some w) (hq : 0 < q.length) :
    ∃ a i w0, m.At (.slot a i) q w0 ∧ LiveLoc m (.slot a i) ∧ w = w0.erase := by
  obtain ⟨p, i, rfl⟩ : ∃ p i, q = p ++ [i] := by
    refine ⟨q.dropLast, q.getLast (by intro e; rw [e] at hq; cases hq), (List.dropLast_append_getLast _).symm⟩
  rw [follow_append] at hf
  cases hp : m.follow m.root p with
  | none => rw [hp] at hf; cases hf
  | some w1 =>
    rw [hp] at hf
    simp only at hf
    cases hc : m.cellsOf w1 with
    | none => rw [hc] at hf; cases hf
    | some c =>
      rw [hc] at hf
      simp only [Mem.follow, Option.some.injEq] at hf
      unfold Mem.cellsOf at hc
      split at hc
      · cases hc
      · next a e =>
        split at hc
        · cases hc
        · next hd =>
          split at hc
          · next c' p' hm =>
            cases hc
            have hok := h.path_ok hp
            obtain ⟨c2, hm2⟩ := hok.of_inner e (by simpa using hd)
            rw [hm] at hm2; cases hm2
            exact ⟨a, i, c i, ⟨c, p, hm, rfl, rfl⟩, h.live _ _ a hp e, hf.symm⟩
          · cases hc
end

namespace Exec
variable {cfg : Config K P} (E : Exec cfg) {g : List (Fin 16)}

theorem zone_since {s n : Nat} (h0 : ∃ R, (E.st s).Zone cfg g R) (hn : E.RemovalsAloneUnder g s n) :
    ∀ i, s ≤ i → i ≤ n → ∃ R, (E.st i).Zone cfg g R := by
  intro i hsi
  induction i, hsi using Nat.le_induction with
  | base => exact fun _ => h0
  | succ i hsi ih =>
    intro hi
    obtain ⟨R, his, hinv, hhelp⟩ := ih (by omega)
    have hs := E.step i
    have hevo := (E.stepOK i).evo
    by_cases htick : ∃ t w, E.lab i = .tick t w
    · obtain ⟨t, w, hl⟩ := htick
      rw [hl] at hs
      obtain ⟨c, h1, h2, h3, h4⟩ := step_tick hs
      have hoth : ∀ u, u ≠ t → ((E.st (i + 1)).thr u).run = ((E.st i).thr u).run := by
        intro u hu
        exact step_other hs (by simp [Label.actor]; exact fun e => hu e.symm)
      have hback : ∀ u c', ((E.st (i + 1)).thr u).run = some c' → ∃ c0, ((E.st i).thr u).run = some c0 ∧ c0.req = c'.req := by
        intro u c' hc'
        rcases step_run hs hc' with ⟨c0, e1, e2, e3⟩ | ⟨e1, e2, e3⟩
        · exact ⟨c0, e1, e3⟩
        · cases e3
      have hnf : ∀ f, (tick cfg (E.st i).m w c.pc).2 ≠ .fail f := by
        intro f hres
        have := ((E.inv (i + 1)).thr t).noFail
        rw [h3, hres] at this
        cases this
      have hgo : ∀ pc ran, (tick cfg (E.st i).m w c.pc).2 = .goto pc ran → ((E.st (i + 1)).thr t).run =
          some { c with pc := pc, calls := c.calls + (if ran then 1 else 0), ticks := c.ticks + 1 } := by
        intro pc ran e; rw [h3, e]; rfl
      have hret : ∀ r refs, (tick cfg (E.st i).m w c.pc).2 = .ret r refs → ((E.st (i + 1)).thr t).run = none := by
        intro r refs e; rw [h3, e]; rfl
      have x := (E.inv i).ctx h1
      have hlin := (((E.inv i).thr t).run c h1).2.2.2
      have hW : E.W (E.st i).m.clock = lpOf cfg (E.st i).m w c := by rw [E.clock]; simp [W, lpStep, hl, h1]
      -- the calls of the other sessions
      have hhelp' : ∀ R', Keep g (E.st (i + 1)).m R R' → ∀ u c', u ≠ t → ((E.st (i + 1)).thr u).run = some c' →
          HelpZPC g (E.st (i + 1)).m R' c'.pc := by
        intro R' hk u c' hu hc'
        rw [hoth u hu] at hc'
        exact (hhelp u c' hc').evo hevo hk
      -- a call that is not a removal below `g`
      have hother : ∀ ok : Prop, (∀ k, c.req = .op (.remove k) → ¬ g <+: nibs (cfg.hash k)) →
          ZOut cfg g (E.st (i + 1)).m ((E.st i).ins cfg) R ok (tick cfg (E.st i).m w c.pc).2 →
          (ok → ∀ k, c.req.insKey cfg = some k → (E.st (i + 1)).m.abs cfg k ≠ none) → ∃ R, (E.st (i + 1)).Zone cfg g R := by
        intro ok hne hnext hok
        have hisn : (E.st (i + 1)).RemIsZ cfg g R := by
          cases R with
          | none =>
            intro u c' k hc' hk
            obtain ⟨c0, e1, e2⟩ := hback u c' hc'
            exact his u c0 k e1 (by rw [e2]; exact hk)
          | some y =>
            obtain ⟨h, pc⟩ := y
            obtain ⟨u, c', k', e1, e2, e3, e4⟩ := his
            refine ⟨u, c', k', ?_, e2, e3, e4⟩
            rw [hoth u ?_]; exact e1
            intro e; subst e; rw [h1] at e1; cases e1; exact hne k' e2 e3
        cases hres : (tick cfg (E.st i).m w c.pc).2 with
        | goto pc ran =>
          rw [hres] at hnext
          have hrun := hgo pc ran hres
          refine ⟨R, hisn, ?_, ?_⟩
          · refine hnext.1.setI ?_
            rintro k' ⟨u, c', e1, e2⟩ -
            by_cases hu : u = t
            · subst hu; rw [h1] at e1; cases e1
              exact Or.inl ⟨u, _, hrun, e2⟩
            · exact Or.inl ⟨u, c', by rw [hoth u hu]; exact e1, e2⟩
          · intro u c' hc'
            by_cases hu : u = t
            · subst hu
              rw [hrun] at hc'; cases hc'
              exact hnext.2
            · exact hhelp' R Keep.refl u c' hu hc'
        | ret r refs =>
          rw [hres] at hnext
          have hrun := hret r refs hres
          refine ⟨R, hisn, ?_, ?_⟩
          · refine hnext.1.setI ?_
            rintro k' ⟨u, c', e1, e2⟩ -
            by_cases hu : u = t
            · subst hu; rw [h1] at e1; cases e1
              exact Or.inr (hok hnext.2 k' e2)
            · exact Or.inl ⟨u, c', by rw [hoth u hu]; exact e1, e2⟩
          · intro u c' hc'
            by_cases hu : u = t
            · subst hu; rw [hrun] at hc'; cases hc'
            · exact hhelp' R Keep.refl u c' hu hc'
        | fail f => exact absurd hres (hnf f)
      rcases Req.kinds cfg c.req with ⟨k1, k2, k3⟩ | ⟨k, k1, k2⟩ | ⟨k, k1⟩
      · -- a reader
        have hm : (E.st (i + 1)).m = (E.st i).m.bump := by rw [h2, tick_reader (E.run_pcinv h1) k1]
        refine hother True (by intro k e; rw [e] at k2; cases k2) ?_ (by intro _ k e; rw [k3] at e; cases e)
        rw [hm]
        cases hres : (tick cfg (E.st i).m w c.pc).2 with
        | goto pc ran =>
          refine ⟨hinv.bump, ?_⟩
          have h5 := E.run_pcinv (hgo pc ran hres)
          rw [← hm]
          exact HelpZPC.reader h5 k1
        | ret r refs => exact ⟨hinv.bump, trivial⟩
        | fail f => trivial
      · -- an insertion
        have hnext := zoneInsert (weak := w) x (E.run_pcinv h1) (E.helps i t c h1) k1 ⟨t, c, h1, k1⟩ hinv (hhelp t c h1)
        rw [← h2] at hnext
        refine hother _ (by intro k e; rw [e] at k2; cases k2) hnext ?_
        intro e k' hk'
        rw [k1] at hk'; cases hk'
        exact e
      · by_cases hg : g <+: nibs (cfg.hash k)
        · -- the removal
          have hR : R = some (cfg.hash k, c.pc) := by
            cases R with
            | none => exact absurd hg (his t c k h1 k1)
            | some y =>
              obtain ⟨h, pc⟩ := y
              obtain ⟨u, c', k', e1, e2, e3, e4, e5⟩ := his
              have := hn.alone i hsi (by omega) t u c c' k k' h1 e1 k1 e2 hg e3
              subst this
              rw [h1] at e1; cases e1
              rw [k1] at e2; cases e2
              rw [e4, e5]
          subst hR
          have hnext := zoneRemTick (W := E.W) (weak := w) x (E.run_pcinv h1) (E.helps i t c h1) hlin hW k1 hinv (hhelp t c h1)
          rw [← h2] at hnext
          have hins : ∀ k', (E.st i).ins cfg k' → (E.st (i + 1)).ins cfg k' := by
            rintro k' ⟨u, c', e1, e2⟩
            refine ⟨u, c', ?_, e2⟩
            rw [hoth u ?_]; exact e1
            intro e; subst e; rw [h1] at e1; cases e1; rw [k1] at e2; cases e2
          cases hres : (tick cfg (E.st i).m w c.pc).2 with
          | goto pc ran =>
            rw [hres] at hnext
            have hrun := hgo pc ran hres
            refine ⟨some (cfg.hash k, pc), ⟨t, _, k, hrun, k1, hg, rfl, rfl⟩, ZInv.setI hnext.1 (fun k' h _ => Or.inl (hins k' h)), ?_⟩
            intro u c' hc'
            by_cases hu : u = t
            · subst hu; rw [hrun] at hc'; cases hc'
              exact hnext.2.1
            · exact hhelp' _ hnext.2.2 u c' hu hc'
          | ret r refs =>
            rw [hres] at hnext
            have hrun := hret r refs hres
            refine ⟨none, ?_, ZInv.setI hnext.1 (fun k' h _ => Or.inl (hins k' h)), ?_⟩
            · intro u c' k' hc' hk' hg'
              obtain ⟨c0, e1, e2⟩ := hback u c' hc'
              have := hn.alone i hsi (by omega) u t c0 c k' k e1 h1 (by rw [e2]; exact hk') k1 hg' hg
              subst this
              rw [hrun] at hc'; cases hc'
            · intro u c' hc'
              by_cases hu : u = t
              · subst hu; rw [hrun] at hc'; cases hc'
              · exact hhelp' _ hnext.2 u c' hu hc'
          | fail f => exact absurd hres (hnf f)
        · -- another removal
          have hnext := zoneRemoval (W := E.W) (weak := w) x (E.run_pcinv h1) (E.helps i t c h1) hlin hW k1 hg
            (E.pairs_path i t c _ h1 k1) hinv (hhelp t c h1)
          rw [← h2] at hnext
          refine hother _ ?_ hnext ?_
          · intro k' e; rw [k1] at e; cases e; exact hg
          · intro _ k' e; rw [k1] at e; cases e
    · have hq := step_quiet hs (fun t w e => htick ⟨t, w, e⟩)
      -- updates in progress stay so
      have hkeep : ∀ u c' k, ((E.st i).thr u).run = some c' → c'.req.Updates cfg k → g <+: nibs (cfg.hash k) → ((E.st (i + 1)).thr u).run = some c' := by
        intro u c' k hc' hup hg
        refine step_run_keep hs hc' (fun w h => htick ⟨u, w, h⟩) ?_
        intro e
        exact hn.finished i hsi (by omega) u c' k e hc' hup hg
      have hback : ∀ u c', ((E.st (i + 1)).thr u).run = some c' → ((E.st i).thr u).run = some c' ∨
          ∃ r, E.lab i = .call u r ∧ c' = ⟨(E.st i).m.clock, r, startPC cfg r, 0, 0⟩ := by
        intro u c' hc'
        rcases step_run_full hs hc' with ⟨e1, -⟩ | ⟨c0, pc, ran, weak, e1, e2, -⟩ | ⟨r, e1, e2, -⟩
        · exact Or.inl e1
        · exact absurd ⟨u, weak, e2⟩ htick
        · exact Or.inr ⟨r, e1, e2⟩
      have hinv' : ∀ R', ZInv cfg g (E.st i).m ((E.st i).ins cfg) R' → ZInv cfg g (E.st (i + 1)).m ((E.st (i + 1)).ins cfg) R' := by
        intro R' h
        refine (h.same hq.1 hq.2.1 hq.2.2.2).setI ?_
        rintro k ⟨u, c', e1, e2⟩ hg
        exact Or.inl ⟨u, c', hkeep u c' k e1 (Or.inl e2) hg, e2⟩
      have hhelp' : ∀ R', Keep g (E.st (i + 1)).m R R' → ∀ u c', ((E.st (i + 1)).thr u).run = some c' → HelpZPC g (E.st (i + 1)).m R' c'.pc := by
        intro R' hR' u c' hc'
        rcases hback u c' hc' with e | ⟨r, e1, rfl⟩
        · exact (hhelp u c' e).evo hevo hR'
        · cases r with
          | isEmpty => trivial
          | iter => trivial
          | op o => cases o <;> trivial
      by_cases hcall : ∃ t k, E.lab i = .call t (.op (.remove k)) ∧ g <+: nibs (cfg.hash k)
      · obtain ⟨t, k, hl, hg⟩ := hcall
        have hs' := hs
        rw [hl] at hs'
        obtain ⟨g1, -, -, -, g5⟩ := step_call hs'
        have hR : R = none := by
          cases R with
          | none => rfl
          | some y =>
            exfalso
            obtain ⟨h, pc⟩ := y
            obtain ⟨u, c', k', e1, e2, e3, e4⟩ := his
            have := hkeep u c' k' e1 (Or.inr e2) e3
            have := hn.alone (i + 1) (by omega) hi u t c' _ k' k this g1 e2 rfl e3 hg
            subst this
            rw [g5] at e1; cases e1
        subst hR
        refine ⟨some (cfg.hash k, .rem k 0 .root []), ⟨t, _, k, g1, rfl, hg, rfl, rfl⟩, hinv' _ (hinv.startR hg), hhelp' _ ?_⟩
        rintro a c q - - - ⟨h, pc, e, -⟩; cases e
      · refine ⟨R, ?_, hinv' R hinv, hhelp' R Keep.refl⟩
        cases R with
        | none =>
          intro u c' k hc' hk hg
          rcases hback u c' hc' with e | ⟨r, e1, rfl⟩
          · exact his u c' k e hk hg
          · simp only at hk
            subst hk
            exact hcall ⟨u, k, e1, hg⟩
        | some y =>
          obtain ⟨h, pc⟩ := y
          obtain ⟨u, c', k', e1, e2, e3, e4⟩ := his
          exact ⟨u, c', k', hkeep u c' k' e1 (Or.inr e2) e3, e2, e3, e4⟩

theorem zone_init : ∃ R, (E.st 0).Zone cfg g R := by
  rw [E.init]
  refine ⟨none, ?_, ⟨⟨?_, ?_⟩, ?_⟩, ?_⟩
  · intro t c k h; cases h
  · intro a c p h; cases h
  · intro a c p i h; cases h
  · intro h pc e; cases e
  · intro t c h; cases h

/-- When no update below `g` is in progress, everything below `g` is tidy. -/
theorem quiet_of_zone {n : Nat} (h : ∃ R, (E.st n).Zone cfg g R) (hq : E.NoUpdateUnder g n) : ZS cfg g (E.st n).m noEx (fun _ => False) := by
  obtain ⟨R, his, hinv, -⟩ := h
  cases R with
  | some y =>
    obtain ⟨h, pc⟩ := y
    obtain ⟨t, c, k, e1, e2, e3, -⟩ := his
    exact absurd e3 (hq t c k e1 (Or.inr e2))
  | none =>
    refine hinv.s.change ?_ ?_
    · rintro a c p - - hb (e | ⟨k, ⟨t, c', e1, e2⟩, e3, -⟩ | ⟨h, pc, e, -⟩)
      · exact Or.inl e
      · exact absurd (hb.1.trans e3) (hq t c' k e1 (Or.inl e2))
      · cases e
    · rintro a c p - - - ⟨h, pc, e, -⟩; cases e

/-- What every pruner knows, in any execution. -/
theorem pruner (i : Nat) : ∀ t c, ((E.st i).thr t).run = some c → HelpZPC (List.replicate 17 0) (E.st i).m none c.pc := by
  have hno : ∀ h : BitVec 64, ¬ List.replicate 17 (0 : Fin 16) <+: nibs h := by
    intro h e
    have := e.length_le
    rw [nibs_length] at this
    simp at this
  obtain ⟨R, h1, h2, h3⟩ := E.zone_since (g := List.replicate 17 0) (s := 0) (n := i) E.zone_init
    ⟨fun _ _ _ _ _ _ _ k _ _ _ _ _ e => absurd e (hno _), fun _ _ _ _ _ k _ _ _ => hno _⟩ i (Nat.zero_le _) (Nat.le_refl _)
  cases R with
  | none => exact h3
  | some y =>
    obtain ⟨h, pc⟩ := y
    obtain ⟨t, c, k, -, -, e, -⟩ := h1
    exact absurd e (hno _)

theorem zone_of_quiet {s : Nat} (h : ZS cfg g (E.st s).m noEx (fun _ => False)) (hq : E.NoUpdateUnder g s) : ∃ R, (E.st s).Zone cfg g R := by
  refine ⟨none, ?_, ⟨h.change (fun a c p _ _ _ e => e.elim Or.inl False.elim) (fun a c p _ _ _ e => e.elim), fun h pc e => by cases e⟩, ?_⟩
  · intro t c k hc hk
    exact hq t c k hc (Or.inr hk)
  · intro t c hc
    have hp := E.pruner s t c hc
    have key : ∀ k o, c.req = .op o → o.key cfg.key = k → c.req.Updates cfg k → HelpZPC g (E.st s).m none c.pc := by
      intro k o ho hk hup
      have hpath := E.pairs_path s t c o hc ho
      rw [hk] at hpath
      have hng := hq t c k hc hup
      have hz : ∀ parent child n acc, (parent, child) ∈ c.pc.pairs → HelpZ (List.replicate 17 0) (E.st s).m (none : Option (BitVec 64 × PC K P)) child n acc →
          HelpZ g (E.st s).m (none : Option (BitVec 64 × PC K P)) child n acc := by
        rintro parent child n acc hmem ⟨a, cs, q, rfl, h2, -, h4, h5⟩
        obtain ⟨a', cs', q', e1, e2, e3⟩ := hpath _ hmem
        cases e1
        rw [h2] at e2; cases e2
        exact ⟨a, cs, q, rfl, h2, fun e => absurd (e.trans e3) hng, h4, h5⟩
      cases hpc : c.pc with
      | prune p ch i acc k => rw [hpc] at hp hz; exact hz p ch _ _ (by simp [PC.pairs]) hp
      | pruneCas p ch acc k => rw [hpc] at hp hz; exact hz p ch _ _ (by simp [PC.pairs]) hp
      | _ => trivial
    rcases Req.kinds cfg c.req with ⟨k1, -, -⟩ | ⟨k, k1, -⟩ | ⟨k, k1⟩
    · exact HelpZPC.reader (E.run_pcinv hc) k1
    · cases hr : c.req with
      | isEmpty => rw [hr] at k1; cases k1
      | iter => rw [hr] at k1; cases k1
      | op o =>
        refine key k o hr ?_ (Or.inl k1)
        rw [hr] at k1
        cases o <;> cases k1 <;> rfl
    · exact key k _ k1 rfl (Or.inr k1)

/-- Tidy below `g` once, tidy for ever, as long as removals below `g` do not overlap. -/
theorem zone_quiet {s n : Nat} (hsn : s ≤ n) (h : ZS cfg g (E.st s).m noEx (fun _ => False)) (hs : E.NoUpdateUnder g s) (hn : E.RemovalsAloneUnder g s n)
    (hq : E.NoUpdateUnder g n) : ZS cfg g (E.st n).m noEx (fun _ => False) :=
  E.quiet_of_zone (E.zone_since (E.zone_of_quiet h hs) hn n hsn (Nat.le_refl _)) hq

end Exec
end Contrie
