import Verif.Proof.LooksWeak
import Verif.Props.Looks
import Verif.Props.CloningWeak
/-
C71 under weak memory.
-/
namespace Contrie
open scoped List

/-- **C71** under weak memory: the order of calls of C39 has for every finished iteration and every key a place at which the iteration looked the key up; and if an iteration happens before another one, it did
not look up any key later than the other one. So for `is_empty` returning `true`. -/
theorem C71_causal {K P : Type} [DecidableEq K] {cfg : Config K P} (E : CExec cfg) {n : Nat} (hn : n ≤ E.len) :
    ∃ L pos, IsCausalLinearization cfg.key (E.history n) E.Hb L (E.content n) ∧ CausalLooksFit cfg.key E.ev n E.Hb L pos := by
  obtain ⟨pos, h⟩ := E.looksFit hn
  refine ⟨E.lin n, pos, ?_, h⟩
  rw [← E.A_content]
  exact E.lin_causal hn

variable {P : Type} {U : UserKeys P} {clones : P → P → Prop}

theorem glimpseAt_list (hU : U.Lawful) {hb : Nat → Nat → Prop} {L : List (SOp (Arg U) P)} (hL : ∀ x ∈ L, ∀ t, U.WF (.call t (.op x.op))) {p id j : Nat}
    {keys : Cls U → Prop} {args : Arg U → Prop} (hk : ∀ a, args a → keys a.cls) {m : AMap (Cls U) P}
    (h : GlimpseAt U.cfg.key hb (L.map (SOp.mapKey Arg.cls)) p id j keys m) : ∃ l, ListGlimpseAt U.same U.keyArg hb L p id j args l ∧ U.view l = m := by
  obtain ⟨h2, h3, h4, h5⟩ := h
  rw [← List.map_take] at h2 h4 h5
  rw [← List.map_drop] at h3
  obtain ⟨l, hl, hv⟩ := Legal.toList hU (l := []) (fun x hx => hL x (List.mem_of_mem_take hx)) h2
  refine ⟨l, ⟨hl, ?_, ?_, ?_⟩, hv⟩
  · intro y hy ha
    refine h3 _ (List.mem_map_of_mem hy) ?_
    have := hk _ ha
    rw [← Op.mapKey_key] at this
    exact this
  · intro y hy ha
    refine h4 _ (List.mem_map_of_mem hy) ?_
    have := hk _ ha
    rw [← Op.mapKey_key] at this
    exact this
  · intro x hx hu
    exact h5 _ (List.mem_map_of_mem hx) (SOp.mapKey_updates.mpr hu)

/-- **C71** under weak memory, with the user's own comparisons (nothing is cloned: `clones` never holds). -/
theorem C71_causal_user (hU : U.Lawful) (E : BCExec U) {n : Nat} (hn : n ≤ E.len) :
    ∃ L l pos, IsListCausalLinearization U.same U.keyArg U.Alike (E.history n) E.Hb L l ∧
      CausalListLooksFit (fun _ _ => False) U.same U.keyArg U.Alike E.ev n E.Hb L pos := by
  obtain ⟨L, pos, h2, h3⟩ := C71_causal (E.cls hU) (n := n) hn
  have h1 := (C39_causal (E.cls hU) (n := n) hn).1
  have hb : (E.cls hU).Hb = E.Hb := by funext x y; exact propext (E.cls_hb hU x y)
  rw [E.cls_history hU, hb] at h2
  rw [E.cls_history hU] at h1
  rw [hb] at h3
  obtain ⟨L', l, rfl, g⟩ := causal_list hU h1 (fun id o h t => E.history_wf hn h t) h2
  have hwf : ∀ x ∈ L', ∀ t, U.WF (.call t (.op x.op)) := fun x hx t => E.history_wf hn (g.invoked x hx) t
  have hev : ∀ {j id : Nat} {r : Res P}, E.ev j = some (.res id r) → (E.cls hU).ev j = some (.res id r) := by
    intro j id r hr
    show (E.ev j).map _ = _
    rw [hr]; rfl
  refine ⟨L', l, fun id a => pos id a.cls, g, ?_, ?_, ?_⟩
  · intro id j out a hj hr
    obtain ⟨m, h5, h6⟩ := h3.iter id j out a.cls hj (hev hr)
    obtain ⟨l, h7, rfl⟩ := glimpseAt_list hU hwf (args := U.Alike a) (fun b h => (Alike.cls hU h).symm) h5
    refine ⟨l, l.find? (fun p => U.same p a), h7, ?_, ?_⟩
    · rw [find_same hU, ← h6]
      simp only [same_decide hU]
    · cases l.find? (fun p => U.same p a) with
      | none => trivial
      | some p => exact .refl
  · intro id j hj hr
    obtain ⟨p, h5, h6⟩ := h3.empty id j hj (hev hr)
    obtain ⟨l, h7, h8⟩ := glimpseAt_list hU hwf (args := fun _ => True) (fun _ _ => trivial) h6
    rw [view_empty h8] at h7
    exact ⟨p, fun k => h5 k.cls, h7⟩
  · have looked : ∀ {id}, Looked E.ev n id → Looked (E.cls hU).ev n id := by
      rintro id ⟨j, hj, ⟨out, hr⟩ | hr⟩
      · exact ⟨j, hj, .inl ⟨out, hev hr⟩⟩
      · exact ⟨j, hj, .inr (hev hr)⟩
    exact fun a b k ha hb h => h3.order a b k.cls (looked ha) (looked hb) h

/-- **C71** under weak memory, with the user's own comparisons and the user's own `Clone`. -/
theorem C71_causal_clones (hU : U.Lawful) (hc : ∀ p q, clones p q → U.eqKey (U.own p) (U.own q) = true) (E : KCExec U clones) {n : Nat} (hn : n ≤ E.len) :
    ∃ L l pos, IsCloneCausalLinearization clones U.same U.keyArg U.Alike (E.history n) E.Hb L l ∧
      CausalListLooksFit clones U.same U.keyArg U.Alike E.ev n E.Hb L pos := by
  obtain ⟨L, l, pos, h2, h3⟩ := C71_causal_user hU (E.org hU hc) (n := n) hn
  have hb : (E.org hU hc).Hb = E.Hb := by funext x y; exact propext (E.hb_org hU hc x y)
  rw [E.history_org hU hc, hb] at h2
  rw [hb] at h3
  have hlist : ∀ {j id : Nat} {out : List P}, j < n → E.ev j = some (.res id (.list out)) →
      ∃ X : List (Lineage clones), out = X.map Lineage.cur ∧ (E.org hU hc).ev j = some (.res id (.list (X.map Lineage.org))) := by
    intro j id out hj hr
    rw [← E.lift_ev (Nat.lt_of_lt_of_le hj hn)] at hr
    obtain ⟨e, he, hv⟩ := Option.map_eq_some_iff.mp hr
    cases e with
    | inv => cases hv
    | res id' r =>
      cases r with
      | list X =>
        simp only [Event.mapP, Res.mapP, Event.res.injEq, Res.list.injEq] at hv
        obtain ⟨rfl, rfl⟩ := hv
        refine ⟨X, rfl, ?_⟩
        show (E.liftEv j).map _ = _
        rw [he]; rfl
      | op r => simp [Event.mapP, Res.mapP] at hv
      | bool b => simp [Event.mapP, Res.mapP] at hv
  have hbool : ∀ {j id : Nat}, j < n → E.ev j = some (.res id (.bool true)) → (E.org hU hc).ev j = some (.res id (.bool true)) := by
    intro j id hj hr
    rw [← E.lift_ev (Nat.lt_of_lt_of_le hj hn)] at hr
    obtain ⟨e, he, hv⟩ := Option.map_eq_some_iff.mp hr
    show (E.liftEv j).map _ = _
    rw [he]
    cases e with
    | inv => cases hv
    | res id' r =>
      cases r with
      | bool b =>
        simp only [Event.mapP, Res.mapP, Event.res.injEq, Res.bool.injEq] at hv
        obtain ⟨rfl, rfl⟩ := hv
        rfl
      | op r => simp [Event.mapP, Res.mapP] at hv
      | list X => simp [Event.mapP, Res.mapP] at hv
  rw [E.history_cur hn]
  refine ⟨L, l, pos, clone_causal (fun id o h => E.lineage_inv hn h) h2, ?_, ?_, ?_⟩
  · intro id j out a hj hr
    obtain ⟨X, rfl, ho⟩ := hlist hj hr
    obtain ⟨m, o, g1, g2, g3⟩ := h3.iter id j _ a hj ho
    obtain ⟨o', g4, g5⟩ := filter_lineage hU hc a X g2
    refine ⟨m, o', g1, g4, ?_⟩
    have : m.find? (fun p => U.same p a) = o := by
      generalize m.find? (fun p => U.same p a) = x at g3
      cases x <;> cases o <;> first | rfl | exact g3.elim | skip
      rename_i p q
      have hd : Descends (fun _ _ : P => False) p q := g3
      cases hd with
      | refl => rfl
      | clone _ h => exact h.elim
    rw [this]
    exact g5
  · exact fun id j hj hr => h3.empty id j hj (hbool hj hr)
  · have looked : ∀ {id}, Looked E.ev n id → Looked (E.org hU hc).ev n id := by
      rintro id ⟨j, hj, ⟨out, hr⟩ | hr⟩
      · obtain ⟨X, -, ho⟩ := hlist hj hr
        exact ⟨j, hj, .inl ⟨_, ho⟩⟩
      · exact ⟨j, hj, .inr (hbool hj hr)⟩
    exact fun a b k ha hb h => h3.order a b k (looked ha) (looked hb) h

/-! ### Example -/

/-- In the run of `exPassesWeak` session 0 gets what was there first and session 1 what came later, and the theorem applies to it. -/
example : ∃ L l pos, IsCloneCausalLinearization exNext exGen.same exGen.keyArg exGen.Alike (exPassesWeak.history 20) exPassesWeak.Hb L l ∧
    CausalListLooksFit exNext exGen.same exGen.keyArg exGen.Alike exPassesWeak.ev 20 exPassesWeak.Hb L pos :=
  C71_causal_clones exGen_lawful exNext_key exPassesWeak (n := 20) (by decide)

end Contrie
