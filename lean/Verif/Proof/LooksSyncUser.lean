import Verif.Proof.LooksSync
import Verif.Proof.LooksUser
import Verif.Props.CloningWeak
/-
Looks in programs that synchronise (`Verif/Spec/LooksSync.lean`), for the user's own comparisons, and up to cloning.
-/
namespace Contrie
open scoped List
variable {P : Type} {U : UserKeys P} {clones : P → P → Prop}

theorem KeywiseLooksFit.toList (hU : U.Lawful) {es : List (Event (Arg U) P)} {L : List (SOp (Arg U) P)} (hL : ∀ x ∈ L, ∀ t, U.WF (.call t (.op x.op)))
    {pos : Nat → Cls U → Nat} (h : KeywiseLooksFit U.cfg.key (es.map (Event.mapKey Arg.cls)) (L.map (SOp.mapKey Arg.cls)) pos) :
    KeywiseListLooksFit (fun _ _ => False) U.same U.keyArg es L (fun id a => pos id a.cls) where
  iter := by
    intro id out a hm
    obtain ⟨m, h1, h2⟩ := h.iter id out a.cls (List.mem_map.mpr ⟨_, hm, rfl⟩)
    obtain ⟨l, h3, rfl⟩ := h1.toList hU hL
    refine ⟨l, l.find? (fun p => U.same p a), h3, ?_, ?_⟩
    · rw [find_same hU, ← h2]
      simp only [same_decide hU]
    · cases l.find? (fun p => U.same p a) with
      | none => trivial
      | some p => exact .refl
  empty := by
    intro id a hm
    obtain ⟨m, h1, h2⟩ := h.empty id a.cls (List.mem_map.mpr ⟨_, hm, rfl⟩)
    obtain ⟨l, h3, rfl⟩ := h1.toList hU hL
    refine ⟨l, h3, ?_⟩
    rw [← find_same hU] at h2
    intro p hp
    simpa using List.find?_eq_none.mp h2 p hp
  order := by
    intro a b k k' ha hb hab
    have seen : ∀ {id}, Seen es id → Seen (es.map (Event.mapKey Arg.cls)) id := by
      rintro id (⟨out, hr⟩ | hr)
      · exact .inl ⟨out, List.mem_map.mpr ⟨_, hr, rfl⟩⟩
      · exact .inr (List.mem_map.mpr ⟨_, hr, rfl⟩)
    exact h.order a b _ _ (seen ha) (seen hb) ((evBefore_mapKey Arg.cls).mpr hab)

theorem KeywiseListLooksFit.upToCloning (hU : U.Lawful) (hc : ∀ p q, clones p q → U.eqKey (U.own p) (U.own q) = true) {ES : List (Event (Arg U) (Lineage clones))}
    {L : List (SOp (Arg U) P)} {pos : Nat → Arg U → Nat} (h : KeywiseListLooksFit (fun _ _ => False) U.same U.keyArg (ES.map (Event.mapP Lineage.org)) L pos) :
    KeywiseListLooksFit clones U.same U.keyArg (ES.map (Event.mapP Lineage.cur)) L pos where
  iter := by
    intro id out a hm
    obtain ⟨e, he, hv⟩ := List.mem_map.mp hm
    cases e with
    | inv => cases hv
    | res id' r =>
      cases r with
      | list X =>
        simp only [Event.mapP, Res.mapP, Event.res.injEq, Res.list.injEq] at hv
        obtain ⟨rfl, rfl⟩ := hv
        obtain ⟨l, o, h1, h2, h3⟩ := h.iter id' (X.map Lineage.org) a (List.mem_map.mpr ⟨_, he, rfl⟩)
        obtain ⟨o', h4, h5⟩ := filter_lineage hU hc a X h2
        refine ⟨l, o', h1.org, h4, ?_⟩
        have : l.find? (fun p => U.same p a) = o := by
          generalize l.find? (fun p => U.same p a) = x at h3
          cases x <;> cases o <;> first | rfl | exact h3.elim | skip
          rename_i p q
          have hd : Descends (fun _ _ : P => False) p q := h3
          cases hd with
          | refl => rfl
          | clone _ h => exact h.elim
        rw [this]
        exact h5
      | op r => simp [Event.mapP, Res.mapP] at hv
      | bool b => simp [Event.mapP, Res.mapP] at hv
  empty := by
    intro id a hm
    obtain ⟨e, he, hv⟩ := List.mem_map.mp hm
    cases e with
    | inv => cases hv
    | res id' r =>
      cases r with
      | bool b =>
        simp only [Event.mapP, Res.mapP, Event.res.injEq, Res.bool.injEq] at hv
        obtain ⟨rfl, rfl⟩ := hv
        obtain ⟨l, h1, h2⟩ := h.empty id' a (List.mem_map.mpr ⟨_, he, rfl⟩)
        exact ⟨l, h1.org, h2⟩
      | op r => simp [Event.mapP, Res.mapP] at hv
      | list X => simp [Event.mapP, Res.mapP] at hv
  order := by
    intro a b k k' ha hb hab
    have seen : ∀ {id}, Seen (ES.map (Event.mapP Lineage.cur)) id → Seen (ES.map (Event.mapP Lineage.org)) id := by
      rintro id (⟨out, hr⟩ | hr)
      · obtain ⟨e, he, hv⟩ := List.mem_map.mp hr
        cases e with
        | inv => cases hv
        | res id' r =>
          cases r with
          | list X =>
            simp only [Event.mapP, Event.res.injEq] at hv
            obtain ⟨rfl, -⟩ := hv
            exact .inl ⟨_, List.mem_map.mpr ⟨_, he, rfl⟩⟩
          | op r => simp [Event.mapP, Res.mapP] at hv
          | bool b => simp [Event.mapP, Res.mapP] at hv
      · obtain ⟨e, he, hv⟩ := List.mem_map.mp hr
        cases e with
        | inv => cases hv
        | res id' r =>
          cases r with
          | bool b =>
            simp only [Event.mapP, Res.mapP, Event.res.injEq, Res.bool.injEq] at hv
            obtain ⟨rfl, rfl⟩ := hv
            exact .inr (List.mem_map.mpr ⟨_, he, rfl⟩)
          | op r => simp [Event.mapP, Res.mapP] at hv
          | list X => simp [Event.mapP, Res.mapP] at hv
    refine h.order a b k k' (seen ha) (seen hb) ?_
    rw [evBefore_mapP] at hab ⊢; exact hab

/-- The events of the first `n` steps. -/
def BCExec.events (E : BCExec U) (n : Nat) : List (Event (Arg U) P) := (List.range n).filterMap E.ev

/-- The events of the first `n` steps. -/
def KCExec.events (E : KCExec U clones) (n : Nat) : List (Event (Arg U) P) := (List.range n).filterMap E.ev

theorem BCExec.cls_events (hU : U.Lawful) (E : BCExec U) (n : Nat) : (E.cls hU).events n = (E.events n).map (Event.mapKey Arg.cls) := by
  unfold CExec.events BCExec.events
  rw [List.map_filterMap]
  rfl

theorem KCExec.events_cur (E : KCExec U clones) {n : Nat} (hn : n ≤ E.len) : E.events n = ((List.range n).filterMap E.liftEv).map (Event.mapP Lineage.cur) := by
  unfold KCExec.events
  rw [List.map_filterMap]
  exact filterMap_ext_mem (fun x hx => (E.lift_ev (by have := List.mem_range.mp hx; omega)).symm)

theorem KCExec.events_org (hU : U.Lawful) (hc : ∀ p q, clones p q → U.eqKey (U.own p) (U.own q) = true) (E : KCExec U clones) (n : Nat) :
    (E.org hU hc).events n = ((List.range n).filterMap E.liftEv).map (Event.mapP Lineage.org) := by
  unfold BCExec.events
  rw [List.map_filterMap]
  rfl

/-- What is asked for is the same. -/
theorem KCExec.org_inv (hU : U.Lawful) (hc : ∀ p q, clones p q → U.eqKey (U.own p) (U.own q) = true) (E : KCExec U clones) {x : Nat} (hx : x < E.len) {r : Req (Arg U) P}
    (h : (E.org hU hc).ev x = some (.inv x r)) : E.ev x = some (.inv x r) := by
  have h : (E.liftEv x).map (Event.mapP Lineage.org) = some (.inv x r) := h
  rw [← E.lift_ev hx]
  obtain ⟨e, he, hv⟩ := Option.map_eq_some_iff.mp h
  rw [he]
  cases e with
  | res => cases hv
  | inv id R =>
    simp only [Event.mapP, Event.inv.injEq] at hv
    obtain ⟨rfl, rfl⟩ := hv
    cases R with
    | isEmpty => rfl
    | iter => rfl
    | op o =>
      have hm : HEv.inv id o ∈ E.lineage (id + 1) := List.mem_filterMap.mpr ⟨id, by simp, by rw [he]; rfl⟩
      obtain ⟨o0, rfl⟩ := E.lineage_inv (n := id + 1) hx hm
      cases o0 <;> rfl

end Contrie
