import Verif.Proof.Looks
import Verif.Props.Cloning
/-
Looks (`Verif/Spec/Looks.lean`) for the user's own comparisons, and up to cloning.
-/
namespace Contrie
open scoped List

section
variable {A B P Q : Type}

theorem evBefore_map {f : Event A P → Event B Q} (h1 : ∀ id r, ∃ r', f (.res id r) = .res id r') (h2 : ∀ id r, ∃ r', f (.inv id r) = .inv id r')
    {es : List (Event A P)} {a b : Nat} : EvBefore (es.map f) a b ↔ EvBefore es a b := by
  constructor
  · rintro ⟨r, o, ho⟩
    obtain ⟨l, hl, he⟩ := List.sublist_map_iff.mp ho
    match l, he, hl with
    | [], he, _ => cases he
    | [_], he, _ => simp at he
    | _ :: _ :: _ :: _, he, _ => simp at he
    | [x, y], he, hl =>
      simp only [List.map_cons, List.map_nil, List.cons.injEq, and_true] at he
      obtain ⟨g1, g2⟩ := he
      cases x with
      | res id r' =>
        obtain ⟨r1, e1⟩ := h1 id r'
        rw [e1] at g1
        cases y with
        | inv id' o' =>
          obtain ⟨r2, e2⟩ := h2 id' o'
          rw [e2] at g2
          simp only [Event.inv.injEq, Event.res.injEq] at g1 g2
          obtain ⟨rfl, -⟩ := g1
          obtain ⟨rfl, -⟩ := g2
          exact ⟨_, o', hl⟩
        | res id' r2 => obtain ⟨r2, e2⟩ := h1 id' r2; rw [e2] at g2; cases g2
      | inv id' r2 => obtain ⟨r2, e2⟩ := h2 id' r2; rw [e2] at g1; cases g1
  · rintro ⟨r, o, ho⟩
    obtain ⟨r1, e1⟩ := h1 a r
    obtain ⟨r2, e2⟩ := h2 b o
    have := ho.map f
    simp only [List.map_cons, List.map_nil, e1, e2] at this
    exact ⟨r1, r2, this⟩

theorem evBefore_mapKey (c : A → B) {es : List (Event A P)} {a b : Nat} : EvBefore (es.map (Event.mapKey c)) a b ↔ EvBefore es a b :=
  evBefore_map (fun _ _ => ⟨_, rfl⟩) (fun _ _ => ⟨_, rfl⟩)

theorem evBefore_mapP (π : P → Q) {es : List (Event A P)} {a b : Nat} : EvBefore (es.map (Event.mapP π)) a b ↔ EvBefore es a b :=
  evBefore_map (fun _ _ => ⟨_, rfl⟩) (fun _ _ => ⟨_, rfl⟩)
end

variable {P : Type} {U : UserKeys P} {clones : P → P → Prop}

theorem Look.toList (hU : U.Lawful) {es : List (Event (Arg U) P)} {L : List (SOp (Arg U) P)} (hL : ∀ x ∈ L, ∀ t, U.WF (.call t (.op x.op))) {n id : Nat}
    {m : AMap (Cls U) P} (h : Look U.cfg.key (es.map (Event.mapKey Arg.cls)) (L.map (SOp.mapKey Arg.cls)) n id m) :
    ∃ l, ListLook U.same U.keyArg es L n id l ∧ U.view l = m := by
  obtain ⟨h1, h2, h3⟩ := h
  rw [← List.map_take] at h1 h2
  rw [← List.map_drop] at h3
  obtain ⟨l, hl, hv⟩ := Legal.toList hU (l := []) (fun x hx => hL x (List.mem_of_mem_take hx)) h1
  refine ⟨l, ⟨hl, ?_, ?_⟩, hv⟩
  · intro x hx hb
    exact h2 _ (List.mem_map_of_mem hx) ((evBefore_mapKey Arg.cls).mpr hb)
  · intro x hx hb
    exact h3 _ (List.mem_map_of_mem hx) ((evBefore_mapKey Arg.cls).mpr hb)

theorem view_empty_iff {l : List P} (h : U.view l = AMap.empty) : l = [] := by
  cases l with
  | nil => rfl
  | cons p l =>
    have := congrFun h (U.cfg.key p)
    simp [UserKeys.view, AMap.empty] at this

theorem LooksFit.toList (hU : U.Lawful) {es : List (Event (Arg U) P)} {L : List (SOp (Arg U) P)} (hL : ∀ x ∈ L, ∀ t, U.WF (.call t (.op x.op)))
    {pos : Nat → Cls U → Nat} (h : LooksFit U.cfg.key (es.map (Event.mapKey Arg.cls)) (L.map (SOp.mapKey Arg.cls)) pos) :
    ListLooksFit U.same U.keyArg es L (fun id a => pos id a.cls) where
  iter := by
    intro id out a hm
    obtain ⟨m, h1, h2⟩ := h.iter id out a.cls (List.mem_map.mpr ⟨_, hm, rfl⟩)
    obtain ⟨l, h3, rfl⟩ := h1.toList hU hL
    refine ⟨l, h3, ?_⟩
    rw [find_same hU, ← h2]
    simp only [same_decide hU]
  empty := by
    intro id hm
    obtain ⟨n, h1, h2⟩ := h.empty id (List.mem_map.mpr ⟨_, hm, rfl⟩)
    obtain ⟨l, h3, h4⟩ := h2.toList hU hL
    rw [view_empty_iff h4] at h3
    exact ⟨n, fun k => h1 k.cls, h3⟩
  order := fun a b k k' hb => h.order a b _ _ ((evBefore_mapKey Arg.cls).mpr hb)

theorem ListLook.org {ES : List (Event (Arg U) (Lineage clones))} {L : List (SOp (Arg U) P)} {n id : Nat} {l : List P}
    (h : ListLook U.same U.keyArg (ES.map (Event.mapP Lineage.org)) L n id l) : ListLook U.same U.keyArg (ES.map (Event.mapP Lineage.cur)) L n id l := by
  obtain ⟨h1, h2, h3⟩ := h
  refine ⟨h1, fun x hx hb => h2 x hx ?_, fun x hx hb => h3 x hx ?_⟩
  · rw [evBefore_mapP] at hb ⊢; exact hb
  · rw [evBefore_mapP] at hb ⊢; exact hb

theorem ListLooksFit.upToCloning (hU : U.Lawful) (hc : ∀ p q, clones p q → U.eqKey (U.own p) (U.own q) = true) {ES : List (Event (Arg U) (Lineage clones))}
    {L : List (SOp (Arg U) P)} {pos : Nat → Arg U → Nat} (h : ListLooksFit U.same U.keyArg (ES.map (Event.mapP Lineage.org)) L pos) :
    CloneLooksFit clones U.same U.keyArg (ES.map (Event.mapP Lineage.cur)) L pos where
  iter := by
    intro id out a hm
    obtain ⟨e, he, hv⟩ := List.mem_map.mp hm
    cases e with
    | inv => cases hv
    | res id' r =>
      cases r with
      | list X =>
        simp only [Event.mapP, Res.mapP, Event.res.injEq, Res.list.injEq] at hv
        obtain ⟨rfl, rfl⟩ := hv
        obtain ⟨l, h1, h2⟩ := h.iter id' (X.map Lineage.org) a (List.mem_map.mpr ⟨_, he, rfl⟩)
        obtain ⟨o, h3, h4⟩ := filter_lineage hU hc a X h2
        exact ⟨l, o, h1.org, h3, h4⟩
      | op r => simp [Event.mapP, Res.mapP] at hv
      | bool b => simp [Event.mapP, Res.mapP] at hv
  empty := by
    intro id hm
    obtain ⟨e, he, hv⟩ := List.mem_map.mp hm
    cases e with
    | inv => cases hv
    | res id' r =>
      cases r with
      | bool b =>
        simp only [Event.mapP, Res.mapP, Event.res.injEq, Res.bool.injEq] at hv
        obtain ⟨rfl, rfl⟩ := hv
        obtain ⟨n, h1, h2⟩ := h.empty id' (List.mem_map.mpr ⟨_, he, rfl⟩)
        exact ⟨n, h1, h2.org⟩
      | op r => simp [Event.mapP, Res.mapP] at hv
      | list X => simp [Event.mapP, Res.mapP] at hv
  order := by
    intro a b k k' hb
    refine h.order a b k k' ?_
    rw [evBefore_mapP] at hb ⊢; exact hb

end Contrie
