import Verif.Spec.LooksSync
import Verif.Proof.Weave
import Verif.Proof.LooksWeak
import Mathlib.Tactic.Choose
/-
From looks that fit into a causal order of calls to looks that fit into a linearization in real time, for programs that synchronise; of any machine that produces events.
-/
set_option linter.unusedSectionVars false
namespace Contrie
open scoped List
variable {K P : Type} [DecidableEq K]

theorem Legal.untouched {key : P → K} {k : K} {m m' : AMap K P} {L : List (SOp K P)} (h : Legal key m L m') (hk : ∀ x ∈ L, x.op.key key ≠ k) : m' k = m k := by
  induction h with
  | nil => rfl
  | @cons m m1 m2 x L e _ ih =>
    rw [ih (fun x hx => hk x (by simp [hx])), ← apply_off (m := m) (hk x (by simp)), e]

theorem Legal.unique {key : P → K} {m m' m2 : AMap K P} {L : List (SOp K P)} (h : Legal key m L m') (h' : Legal key m L m2) : m' = m2 := by
  induction h with
  | nil => cases h'; rfl
  | cons e _ ih =>
    cases h' with
    | cons e' h' =>
      rw [e] at e'
      cases e'
      exact ih h'

/-- The events of the first `n` steps. -/
def eventsOf (ev : Nat → Option (Event K P)) (n : Nat) : List (Event K P) := (List.range n).filterMap ev

/-- Those about single keys. -/
def histOf (ev : Nat → Option (Event K P)) (n : Nat) : List (HEv K P) := (List.range n).filterMap (fun i => (ev i).bind Event.hev)

/-- What is true of the events of every machine: calls are named after the step in which they are invoked, return after it, and only once. -/
structure Timeline (ev : Nat → Option (Event K P)) (n : Nat) : Prop where
  inv_id : ∀ i id r, i < n → ev i = some (.inv id r) → i = id
  ret : ∀ j id r, j < n → ev j = some (.res id r) → id < j ∧ ∃ q, ev id = some (.inv id q) ∧ ∀ o, q = .op o → ∃ x, r = .op x
  once : ∀ i j id r r', i < n → j < n → ev i = some (.res id r) → ev j = some (.res id r') → i = j

open Classical in
/-- When call `id` returned. -/
noncomputable def stopOf (ev : Nat → Option (Event K P)) (n id : Nat) : Nat := if h : ∃ j, j < n ∧ ∃ r, ev j = some (.res id r) then h.choose else n + id

theorem mem_eventsOf_res {ev : Nat → Option (Event K P)} {n : Nat} {id : Nat} {r : Res P} : Event.res id r ∈ eventsOf ev n ↔ ∃ j, j < n ∧ ev j = some (.res id r) := by
  simp [eventsOf, List.mem_filterMap]

namespace Timeline
variable {ev : Nat → Option (Event K P)} {n : Nat} (T : Timeline ev n)
include T

theorem mem_hist_inv {id : Nat} {o : Op K P} : HEv.inv id o ∈ histOf ev n ↔ id < n ∧ ev id = some (.inv id (.op o)) := by
  simp only [histOf, List.mem_filterMap, List.mem_range]
  constructor
  · rintro ⟨i, h1, h2⟩
    obtain ⟨e, h3, h4⟩ := Option.bind_eq_some_iff.mp h2
    rw [hev_inv.mp h4] at h3
    have := T.inv_id _ _ _ h1 h3
    subst this
    exact ⟨h1, h3⟩
  · rintro ⟨h1, h2⟩
    exact ⟨id, h1, Option.bind_eq_some_iff.mpr ⟨_, h2, hev_inv.mpr rfl⟩⟩

theorem before_hist {a b : Nat} (h : Before (histOf ev n) a b) : ∃ j r o, j < b ∧ b < n ∧ ev j = some (.res a (.op r)) ∧ ev b = some (.inv b (.op o)) := by
  simp only [Before, histOf, pair_sublist_filterMap_range] at h
  obtain ⟨r, o, i, j, h1, h2, h3, h4⟩ := h
  obtain ⟨e, h5, h6⟩ := Option.bind_eq_some_iff.mp h3
  obtain ⟨e', h7, h8⟩ := Option.bind_eq_some_iff.mp h4
  rw [hev_res.mp h6] at h5
  rw [hev_inv.mp h8] at h7
  have := T.inv_id _ _ _ h2 h7
  subst this
  exact ⟨i, r, o, h1, h2, h5, h7⟩

theorem evBefore_iff {a b : Nat} : EvBefore (eventsOf ev n) a b ↔ ∃ j r r', j < b ∧ b < n ∧ ev j = some (.res a r) ∧ ev b = some (.inv b r') := by
  simp only [EvBefore, eventsOf, pair_sublist_filterMap_range]
  constructor
  · rintro ⟨r, r', i, j, h1, h2, h3, h4⟩
    have := T.inv_id _ _ _ h2 h4
    subst this
    exact ⟨i, r, r', h1, h2, h3, h4⟩
  · rintro ⟨j, r, r', h1, h2, h3, h4⟩
    exact ⟨r, r', j, b, h1, h2, h3, h4⟩

theorem le_stop (id : Nat) : id ≤ stopOf ev n id := by
  unfold stopOf
  split
  · next h =>
    obtain ⟨h1, r, h2⟩ := h.choose_spec
    have := (T.ret _ _ _ h1 h2).1
    omega
  · omega

omit T in
theorem stop_ret {a b : Nat} (hb : b < n) (h : stopOf ev n a < b) : ∃ j r, j < b ∧ ev j = some (.res a r) := by
  unfold stopOf at h
  split at h
  · next h' =>
    obtain ⟨h1, r, h2⟩ := h'.choose_spec
    exact ⟨_, r, h, h2⟩
  · omega

theorem stop_lt {a b : Nat} (h : EvBefore (eventsOf ev n) a b) : stopOf ev n a < b := by
  obtain ⟨j, r, r', h1, h2, h3, h4⟩ := T.evBefore_iff.mp h
  have hex : ∃ j, j < n ∧ ∃ r, ev j = some (.res a r) := ⟨j, by omega, r, h3⟩
  unfold stopOf
  rw [dif_pos hex]
  obtain ⟨g1, r1, g2⟩ := hex.choose_spec
  have := T.once _ _ _ _ _ g1 (by omega) g2 h3
  omega

/-- What the calls that look at several keys see at key `k`. -/
theorem lookAt {key : P → K} {hb : Nat → Nat → Prop} {L : List (SOp K P)} {pos : Nat → K → Nat} (h : CausalLooksFit key ev n hb L pos) (id : Nat) (k : K)
    (hl : Looked ev n id) : ∃ m, Legal key AMap.empty (L.take (pos id k)) m ∧
      (∀ y ∈ L.drop (pos id k), y.op.key key = k → ¬ hb y.id id) ∧ (∀ x ∈ L.take (pos id k), x.op.key key = k → ¬ hb id x.id) ∧
      (∀ j out, j < n → ev j = some (.res id (.list out)) → out.filter (fun p => decide (key p = k)) = (m k).toList) ∧
      (∀ j, j < n → ev j = some (.res id (.bool true)) → m k = none) := by
  obtain ⟨j, hj, ⟨out, hr⟩ | hr⟩ := hl
  · obtain ⟨m, ⟨h1, h2, h3, -⟩, h4⟩ := h.iter id j out k hj hr
    refine ⟨m, h1, h2, h3, ?_, ?_⟩
    · intro j' out' hj' hr'
      have := T.once _ _ _ _ _ (by omega) (by omega) hr hr'
      subst this
      rw [hr] at hr'
      cases hr'
      exact h4
    · intro j' hj' hr'
      have := T.once _ _ _ _ _ (by omega) (by omega) hr hr'
      subst this
      rw [hr] at hr'
      cases hr'
  · obtain ⟨p, hp, h1, h2, h3, -⟩ := h.empty id j hj hr
    rw [hp]
    refine ⟨_, h1, fun y hy _ => h2 y hy trivial, fun x hx _ => h3 x hx trivial, ?_, fun _ _ _ => rfl⟩
    intro j' out' hj' hr'
    have := T.once _ _ _ _ _ (by omega) (by omega) hr hr'
    subst this
    rw [hr] at hr'
    cases hr'

/-- Who looked is a call about no single key. -/
theorem looked_inv {id : Nat} (hl : Looked ev n id) : id < n ∧ ∃ r, ev id = some (.inv id r) ∧ ∀ o, r ≠ .op o := by
  obtain ⟨j, hj, h⟩ := hl
  have key : ∀ r, ev j = some (.res id r) → (∀ x, r ≠ .op x) → id < n ∧ ∃ r, ev id = some (.inv id r) ∧ ∀ o, r ≠ .op o := by
    intro r hr hx
    obtain ⟨h1, q, h2, h3⟩ := T.ret j id r hj hr
    refine ⟨by omega, q, h2, ?_⟩
    intro o ho
    obtain ⟨x, h⟩ := h3 o ho
    exact hx _ h
  rcases h with ⟨out, hr⟩ | hr
  · exact key _ hr (by simp)
  · exact key _ hr (by simp)

theorem stop_before {a b : Nat} {r : Req K P} (hb : b < n) (hr : ev b = some (.inv b r)) (h : stopOf ev n a < b) : EvBefore (eventsOf ev n) a b := by
  obtain ⟨j, x, h1, h2⟩ := stop_ret hb h
  exact T.evBefore_iff.mpr ⟨j, x, r, h1, hb, h2, hr⟩

open Classical in
theorem looksSync {key : P → K} {hb : Nat → Nat → Prop} {L : List (SOp K P)} {pos : Nat → K → Nat} {end_ : AMap K P}
    (wf : WellFormed (histOf ev n)) (H : IsCausalLinearization key (histOf ev n) hb L end_) (h : CausalLooksFit key ev n hb L pos)
    (hs : ∀ x y r r', ev x = some (.inv x r) → ev y = some (.inv y r') → (∀ o o', r = .op o → r' = .op o' → o.key key = o'.key key) → EvBefore (eventsOf ev n) x y → hb x y) :
    ∃ L pos, IsLinearization key (histOf ev n) L end_ ∧ KeywiseLooksFit key (eventsOf ev n) L pos := by
  rcases Classical.em (¬ Nonempty K) with hK | hK
  · have hK : ∀ k : K, False := fun k => hK ⟨k⟩
    obtain ⟨L', -, h'⟩ := H.linearizable wf (fun x y o o' => (hK (o.key key)).elim)
    exact ⟨L', pos, h', fun _ _ k => (hK k).elim, fun _ k => (hK k).elim, fun _ _ k => (hK k).elim⟩
  obtain ⟨k0⟩ := Classical.not_not.mp hK
  have hm : ∀ id k, ∃ m, Looked ev n id → Legal key AMap.empty (L.take (pos id k)) m ∧
      (∀ y ∈ L.drop (pos id k), y.op.key key = k → ¬ hb y.id id) ∧ (∀ x ∈ L.take (pos id k), x.op.key key = k → ¬ hb id x.id) ∧
      (∀ j out, j < n → ev j = some (.res id (.list out)) → out.filter (fun p => decide (key p = k)) = (m k).toList) ∧
      (∀ j, j < n → ev j = some (.res id (.bool true)) → m k = none) := by
    intro id k
    by_cases hl : Looked ev n id
    · obtain ⟨m, hm⟩ := T.lookAt h id k hl
      exact ⟨m, fun _ => hm⟩
    · exact ⟨AMap.empty, fun h => absurd h hl⟩
  choose M hM using hm
  let ks : List K := k0 :: L.map (fun x => x.op.key key)
  let it : Nat → K → WItem K P := fun id k => (⟨id, .get k, .opt (M id k k)⟩, false)
  let V : Nat → List (WItem K P) := fun j => (List.range n).flatMap (fun id => ks.filterMap (fun k =>
    if Looked ev n id ∧ min (pos id k) L.length = j then some (it id k) else none))
  have memV : ∀ {j x}, x ∈ V j → ∃ id k, id < n ∧ k ∈ ks ∧ Looked ev n id ∧ min (pos id k) L.length = j ∧ x = it id k := by
    intro j x hx
    obtain ⟨id, h1, h2⟩ := List.mem_flatMap.mp hx
    obtain ⟨k, h3, h4⟩ := List.mem_filterMap.mp h2
    split at h4
    · next hc => exact ⟨id, k, List.mem_range.mp h1, h3, hc.1, hc.2, by injection h4 with h4; exact h4.symm⟩
    · cases h4
  have Vmem : ∀ {id k}, k ∈ ks → Looked ev n id → it id k ∈ V (min (pos id k) L.length) := by
    intro id k hk hl
    refine List.mem_flatMap.mpr ⟨id, List.mem_range.mpr (T.looked_inv hl).1, List.mem_filterMap.mpr ⟨k, hk, ?_⟩⟩
    rw [if_pos ⟨hl, rfl⟩]
  have tk : ∀ p, L.take (min p L.length) = L.take p := by
    intro p
    rcases Nat.le_total p L.length with g | g
    · rw [Nat.min_eq_left g]
    · rw [Nat.min_eq_right g, List.take_length, List.take_of_length_le g]
  have dk : ∀ p, L.drop (min p L.length) = L.drop p := by
    intro p
    rcases Nat.le_total p L.length with g | g
    · rw [Nat.min_eq_left g]
    · rw [Nat.min_eq_right g, List.drop_length, List.drop_of_length_le g]
  have inv : ∀ x ∈ L, x.id < n ∧ ev x.id = some (.inv x.id (.op x.op)) := fun x hx => T.mem_hist_inv.mp (H.invoked x hx)
  -- rearrange
  have hpair : (weave V 0 L).Pairwise (fun x y => x.key key = y.key key → ¬ stopOf ev n y.1.id < x.1.id) := by
    refine weave_pairwise ?_ ?_ ?_ ?_ ?_
    · refine H.causal.imp_of_mem ?_
      intro x y hx hy hc hk hlt
      obtain ⟨a1, a2⟩ := inv x hx
      obtain ⟨b1, b2⟩ := inv y hy
      refine hc hk (hs _ _ _ _ b2 a2 ?_ (T.stop_before a1 a2 hlt))
      rintro o o' e e'
      cases e; cases e'
      exact hk.symm
    · intro j
      refine List.pairwise_flatMap.mpr ⟨?_, ?_⟩
      · intro id _
        rw [List.pairwise_iff_forall_sublist]
        intro x y hxy _
        have key : ∀ {z}, z ∈ ks.filterMap (fun k => if Looked ev n id ∧ min (pos id k) L.length = j then some (it id k) else none) → z.1.id = id := by
          intro z hz
          obtain ⟨k, -, h4⟩ := List.mem_filterMap.mp hz
          split at h4
          · injection h4 with h4; rw [← h4]
          · cases h4
        rw [key (hxy.subset (by simp)), key (hxy.subset (by simp))]
        have := T.le_stop id
        omega
      · refine List.pairwise_lt_range.imp ?_
        intro a b hab x hx y hy _
        have key : ∀ {id z}, z ∈ ks.filterMap (fun k => if Looked ev n id ∧ min (pos id k) L.length = j then some (it id k) else none) → z.1.id = id := by
          intro id z hz
          obtain ⟨k, -, h4⟩ := List.mem_filterMap.mp hz
          split at h4
          · injection h4 with h4; rw [← h4]
          · cases h4
        rw [key hx, key hy]
        have := T.le_stop b
        omega
    · intro j j' hj v hv w hw hk hlt
      obtain ⟨a, k, a1, a2, a3, a4, rfl⟩ := memV hv
      obtain ⟨b, k', b1, b2, b3, b4, rfl⟩ := memV hw
      have hk : k = k' := hk
      subst hk
      obtain ⟨-, r, a5, a6⟩ := T.looked_inv a3
      obtain ⟨-, r', b5, b6⟩ := T.looked_inv b3
      have := h.order b a k b3 a3 (hs _ _ _ _ b5 a5 (fun o _ e => absurd e (b6 o)) (T.stop_before a1 a5 hlt))
      omega
    · intro j v hv x hx hk hlt
      rw [Nat.zero_add] at hv
      obtain ⟨a, k, a1, a2, a3, rfl, rfl⟩ := memV hv
      rw [dk] at hx
      obtain ⟨-, r, a5, a6⟩ := T.looked_inv a3
      obtain ⟨b1, b2⟩ := inv x (List.mem_of_mem_drop hx)
      exact (hM a k a3).2.1 x hx hk.symm (hs _ _ _ _ b2 a5 (fun _ o e e' => absurd e' (a6 o)) (T.stop_before a1 a5 hlt))
    · intro j v hv x hx hk hlt
      rw [Nat.zero_add] at hv
      obtain ⟨a, k, a1, a2, a3, rfl, rfl⟩ := memV hv
      rw [tk] at hx
      obtain ⟨-, r, a5, a6⟩ := T.looked_inv a3
      obtain ⟨b1, b2⟩ := inv x (List.mem_of_mem_take hx)
      exact (hM a k a3).2.2.1 x hx hk (hs _ _ _ _ a5 b2 (fun o _ e => absurd e (a6 o)) (T.stop_before b1 b2 hlt))
  have hlegal : Legal key AMap.empty ((weave V 0 L).map Prod.fst) (end_) := by
    refine weave_legal H.legal ?_
    intro j mj hj _ x hx
    rw [Nat.zero_add] at hx
    obtain ⟨a, k, a1, a2, a3, rfl, rfl⟩ := memV hx
    rw [tk] at hj
    have := hj.unique (hM a k a3).1
    subst this
    exact ⟨rfl, k, rfl, rfl⟩
  have hVlook : ∀ j, ∀ x ∈ V j, x.2 = false := by
    intro j x hx
    obtain ⟨_, _, -, -, -, -, rfl⟩ := memV hx
    rfl
  obtain ⟨L2, p1, p2, p3⟩ := itemOrder (key := key) T.le_stop _ _ rfl hpair
  have hleg := p3 _ _ hlegal
  have hgets : ∀ x ∈ L2, x.2 = false → ∃ k, x.1.op = .get k := by
    intro x hx hf
    rcases of_mem_weave (p1.subset hx) with ⟨j, -, hx⟩ | ⟨y, -, rfl⟩
    · obtain ⟨_, k, -, -, -, -, rfl⟩ := memV hx
      exact ⟨k, rfl⟩
    · cases hf
  have hreal : ∀ x ∈ L2, x.2 = true → x.1 ∈ L := by
    intro x hx hf
    rcases of_mem_weave (p1.subset hx) with ⟨j, -, hx⟩ | ⟨y, hy, rfl⟩
    · rw [hVlook _ x hx] at hf; cases hf
    · exact hy
  have hperm : ((L2.filter Prod.snd).map Prod.fst).Perm L := by
    have := (p1.filter Prod.snd).map Prod.fst
    rw [weave_real hVlook, List.map_map] at this
    simpa [Function.comp_def] using this
  have hsplit : ∀ id k, ∃ A B, Looked ev n id → k ∈ ks → L2 = A ++ it id k :: B := by
    intro id k
    by_cases hl : Looked ev n id ∧ k ∈ ks
    · have : it id k ∈ L2 := p1.symm.subset (mem_weave (j := min (pos id k) L.length) (Nat.min_le_right _ _) (by rw [Nat.zero_add]; exact Vmem hl.2 hl.1))
      obtain ⟨A, B, e⟩ := List.append_of_mem this
      exact ⟨A, B, fun _ _ => e⟩
    · exact ⟨[], [], fun h1 h2 => absurd ⟨h1, h2⟩ hl⟩
  choose A B hAB using hsplit
  let rep : K → K := fun k => if k ∈ ks then k else k0
  have hrep : ∀ k, rep k ∈ ks := by
    intro k
    by_cases hk : k ∈ ks
    · simp only [rep, if_pos hk]; exact hk
    · simp only [rep, if_neg hk]; simp [ks]
  let L' := (L2.filter Prod.snd).map Prod.fst
  let pos' : Nat → K → Nat := fun id k => ((A id (rep k)).filter Prod.snd).length
  have look : ∀ id k, Looked ev n id → ∃ m, Look key (eventsOf ev n) L' (pos' id k) id m ∧ m k = M id k k := by
    intro id k hl
    have e := hAB id (rep k) hl (hrep k)
    have eL : L' = ((A id (rep k)).filter Prod.snd).map Prod.fst ++ ((B id (rep k)).filter Prod.snd).map Prod.fst := by
      simp only [L', e, List.filter_append, List.map_append]
      rw [List.filter_cons_of_neg (by simp [it])]
    have et : L'.take (pos' id k) = ((A id (rep k)).filter Prod.snd).map Prod.fst := by
      rw [eL]; exact List.take_left' (by simp [pos'])
    have ed : L'.drop (pos' id k) = ((B id (rep k)).filter Prod.snd).map Prod.fst := by
      rw [eL]; exact List.drop_left' (by simp [pos'])
    rw [e, List.map_append, List.map_cons] at hleg
    obtain ⟨m1, g1, g2⟩ := hleg.split
    have hsubA : ∀ x ∈ A id (rep k), x ∈ L2 := fun x hx => by rw [e]; simp [hx]
    have g3 := Legal.real (fun x hx => hgets x (hsubA x hx)) g1
    rw [e] at p2
    obtain ⟨-, q2, q3⟩ := List.pairwise_append.mp p2
    refine ⟨m1, ⟨by rw [et]; exact g3, ?_, ?_⟩, ?_⟩
    · rw [et]
      intro x hx hb
      obtain ⟨y, hy, rfl⟩ := List.mem_map.mp hx
      exact q3 y ((List.mem_filter.mp hy).1) (it id (rep k)) (by simp) (T.stop_lt hb)
    · rw [ed]
      intro x hx hb
      obtain ⟨y, hy, rfl⟩ := List.mem_map.mp hx
      exact (List.pairwise_cons.mp q2).1 y ((List.mem_filter.mp hy).1) (T.stop_lt hb)
    · by_cases hk : k ∈ ks
      · have hr : rep k = k := by simp only [rep, if_pos hk]
        rw [hr] at g2
        cases g2 with
        | cons e' _ =>
          have := (Prod.ext_iff.mp e').2
          simp only [it, AMap.apply, Ret.opt.injEq] at this
          exact this
      · have hno : ∀ x ∈ L, x.op.key key ≠ k := by
          rintro x hx rfl
          exact hk (List.mem_cons_of_mem _ (List.mem_map.mpr ⟨x, hx, rfl⟩))
        rw [g3.untouched (fun x hx => by
            obtain ⟨y, hy, rfl⟩ := List.mem_map.mp hx
            obtain ⟨hy1, hy2⟩ := List.mem_filter.mp hy
            exact hno _ (hreal y (hsubA y hy1) hy2)),
          (hM id k hl).1.untouched (fun x hx => hno x (List.mem_of_mem_take hx))]
  have looked : ∀ {id r}, Event.res id r ∈ eventsOf ev n → ((∃ out, r = .list out) ∨ r = .bool true) → Looked ev n id ∧ ∃ j, j < n ∧ ev j = some (.res id r) := by
    intro id r hr ho
    obtain ⟨j, hj, hr⟩ := mem_eventsOf_res.mp hr
    rcases ho with ⟨out, rfl⟩ | rfl
    · exact ⟨⟨j, hj, .inl ⟨out, hr⟩⟩, j, hj, hr⟩
    · exact ⟨⟨j, hj, .inr hr⟩, j, hj, hr⟩
  refine ⟨L', pos', ?_, ?_, ?_, ?_⟩
  · refine ⟨fun x hx => H.invoked x (hperm.subset hx), (hperm.map SOp.id).nodup_iff.mpr H.once, fun id o r hi hr => hperm.symm.subset (H.complete id o r hi hr), ?_, Legal.real hgets hleg⟩
    refine List.pairwise_map.mpr ((p2.filter Prod.snd).imp ?_)
    intro x y hxy hb
    refine hxy (T.stop_lt ?_)
    obtain ⟨j, r, o, h1, h2, h3, h4⟩ := T.before_hist hb
    exact T.evBefore_iff.mpr ⟨j, _, _, h1, h2, h3, h4⟩
  · intro id out k hr
    obtain ⟨hl, j, hj, hr⟩ := looked hr (.inl ⟨out, rfl⟩)
    obtain ⟨m, h1, h2⟩ := look id k hl
    exact ⟨m, h1, by rw [h2]; exact (hM id k hl).2.2.2.1 j out hj hr⟩
  · intro id k hr
    obtain ⟨hl, j, hj, hr⟩ := looked hr (.inr rfl)
    obtain ⟨m, h1, h2⟩ := look id k hl
    exact ⟨m, h1, by rw [h2]; exact (hM id k hl).2.2.2.2 j hj hr⟩
  · intro a b k k' ha hb hab
    have seen : ∀ {id}, Seen (eventsOf ev n) id → Looked ev n id := by
      rintro id (⟨out, hr⟩ | hr)
      · exact (looked hr (.inl ⟨out, rfl⟩)).1
      · exact (looked hr (.inr rfl)).1
    have ea := hAB a (rep k) (seen ha) (hrep k)
    have eb := hAB b (rep k') (seen hb) (hrep k')
    have hlt := T.stop_lt hab
    -- the look of `b` is not before the one of `a`
    rcases List.append_eq_append_iff.mp (ea.symm.trans eb) with ⟨C, c1, c2⟩ | ⟨C, c1, c2⟩
    · show ((A a (rep k)).filter Prod.snd).length ≤ ((A b (rep k')).filter Prod.snd).length
      rw [c1, List.filter_append, List.length_append]
      omega
    · cases C with
      | nil =>
        show ((A a (rep k)).filter Prod.snd).length ≤ ((A b (rep k')).filter Prod.snd).length
        rw [c1, List.append_nil]
        exact Nat.le_refl _
      | cons c C =>
        exfalso
        injection c2 with c2 _
        rw [ea, c1, ← c2] at p2
        have := (List.pairwise_append.mp p2).2.2 (it b (rep k')) (by simp) (it a (rep k)) (by simp)
        exact this hlt

end Timeline
end Contrie
