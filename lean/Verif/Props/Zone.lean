import Verif.Proof.ZoneExec
import Verif.Props.Since
/-
C17, part by part of the trie: what removals leave behind depends only on the removals of keys whose hashes begin alike.
-/
set_option linter.unusedSectionVars false
open scoped List
namespace Contrie
variable {K P : Type} [DecidableEq K] {cfg : Config K P}

/-- The call is an update of a key whose hash begins with `g`. -/
def Req.UpdatesIn (cfg : Config K P) (g : List (Fin 16)) : Req K P → Prop
  | .op (.insert p) => HashStarts cfg g (cfg.key p)
  | .op (.getOrInsert k _) => HashStarts cfg g k
  | .op (.remove k) => HashStarts cfg g k
  | _ => False

/-- The call is a removal of a key whose hash begins with `g`. -/
def Req.RemovesIn (cfg : Config K P) (g : List (Fin 16)) : Req K P → Prop
  | .op (.remove k) => HashStarts cfg g k
  | _ => False

/-- Between the instants `s` and `n`, no two removals of keys whose hashes begin with `g` are in progress at the same time, and no update of such a key is abandoned
half way. Nothing is assumed about calls for other keys. -/
structure Exec.RemovalsAloneIn (E : Exec cfg) (g : List (Fin 16)) (s n : Nat) : Prop where
  alone : ∀ i, s ≤ i → i ≤ n → ∀ t t' c c', ((E.st i).thr t).run = some c → ((E.st i).thr t').run = some c' →
    c.req.RemovesIn cfg g → c'.req.RemovesIn cfg g → t = t'
  finished : ∀ i, s ≤ i → i < n → ∀ t c, E.lab i = .abort t → ((E.st i).thr t).run = some c → ¬ c.req.UpdatesIn cfg g

/-- At instant `n` no update of a key whose hash begins with `g` is in progress. -/
def Exec.NoUpdateIn (E : Exec cfg) (g : List (Fin 16)) (n : Nat) : Prop :=
  ∀ t c, ((E.st n).thr t).run = some c → ¬ c.req.UpdatesIn cfg g

/-- The position `q` of the trie passes the check of `assert_pruned` (which looks at everything below `q`, too), and has the shape determined by the keys in `A`. -/
def Mem.TidyAt (cfg : Config K P) (m : Mem P) (A : AMap K P) (q : List (Fin 16)) : Prop :=
  ∀ w, m.walk m.root q = some w → HandlePtr m w.erase ∧ ∃ T, HasShape m w.erase T ∧ Canonical cfg A q T

theorem walk_cat {m : Mem P} {q r : List (Fin 16)} : ∀ {w : Word}, m.walk w (q ++ r) = (m.walk w q).bind (fun w' => m.walk w' r) := by
  induction q with
  | nil => intro w; rfl
  | cons i q ih =>
    intro w
    simp only [List.cons_append, Mem.walk]
    split
    · rfl
    · split
      · rfl
      · split
        · exact ih
        · rfl

theorem follow_walk {A : Nat → AMap K P} {m : Mem P} (hi : MemInv cfg A m) (q : List (Fin 16)) : ∀ {w : Word}, m.follow m.root q = some w →
    ∃ w0, m.walk m.root q = some w0 ∧ w = w0.erase := by
  induction q using List.reverseRecOn with
  | nil => intro w h; simp only [Mem.follow, Option.some.injEq] at h; exact ⟨_, rfl, h.symm⟩
  | append_singleton p i ih =>
    intro w hf
    rw [follow_append] at hf
    cases hp : m.follow m.root p with
    | none => rw [hp] at hf; cases hf
    | some w1 =>
      obtain ⟨w0, h1, h2⟩ := ih hp
      rw [hp] at hf
      simp only at hf
      cases hc : m.cellsOf w1 with
      | none => rw [hc] at hf; cases hf
      | some c =>
        rw [hc] at hf
        simp only [Mem.follow, Option.some.injEq] at hf
        unfold Mem.cellsOf at hc
        split at hc
        · cases hc
        · next a e =>
          split at hc
          · cases hc
          · next hd =>
            split at hc
            · next c' p' hm =>
              cases hc
              have hr : m.retired a = none := hi.live _ _ a hp e
              refine ⟨c i, ?_, hf.symm⟩
              rw [walk_cat, h1]
              subst h2
              have e1 : w0.ptr = some a := e
              have e2 : w0.data = false := by simpa [Word.erase] using hd
              simp [Mem.walk, e1, e2, deref_live hi hr, hm]
            · cases hc

theorem Req.updatesIn_iff {g : List (Fin 16)} {r : Req K P} : r.UpdatesIn cfg g ↔ ∃ k, r.Updates cfg k ∧ g <+: nibs (cfg.hash k) := by
  rw [show (∃ k, r.Updates cfg k ∧ g <+: nibs (cfg.hash k)) ↔ ∃ k, r.Updates cfg k ∧ HashStarts cfg g k from by simp only [hashStarts_iff]]
  cases r with
  | op o => cases o <;> simp [Req.UpdatesIn, Req.Updates, Req.insKey]
  | isEmpty => simp [Req.UpdatesIn, Req.Updates, Req.insKey]
  | iter => simp [Req.UpdatesIn, Req.Updates, Req.insKey]

theorem Exec.NoUpdateIn.under {E : Exec cfg} {g : List (Fin 16)} {n : Nat} (h : E.NoUpdateIn g n) : E.NoUpdateUnder g n :=
  fun t c k hc hu hg => h t c hc (Req.updatesIn_iff.mpr ⟨k, hu, hg⟩)

theorem Exec.RemovalsAloneIn.under {E : Exec cfg} {g : List (Fin 16)} {s n : Nat} (h : E.RemovalsAloneIn g s n) : E.RemovalsAloneUnder g s n where
  alone := fun i hs hi t t' c c' k k' h1 h2 h3 h4 h5 h6 => h.alone i hs hi t t' c c' h1 h2 (by rw [h3]; exact hashStarts_iff.mpr h5)
    (by rw [h4]; exact hashStarts_iff.mpr h6)
  finished := fun i hs hi t c k h1 h2 h3 h4 => h.finished i hs hi t c h1 h2 (Req.updatesIn_iff.mpr ⟨k, h3, h4⟩)

/-- What passes the check at `g` is tidy below. -/
theorem ZS.of_pruned {A : Nat → AMap K P} {m : Mem P} (hi : MemInv cfg A m) {g : List (Fin 16)}
    (h : ∀ w, m.walk m.root g = some w → HandlePtr m w.erase) : ZS cfg g m noEx (fun _ => False) := by
  have key : ∀ a c p, m.mem a = some (.inner c p) → m.retired a = none → g <+: p → HandlePtr m ⟨some a, false, false⟩ := by
    rintro a c p hm hr ⟨r, rfl⟩
    have hf := hi.inner_at hm hr
    obtain ⟨w0, h1, h2⟩ := follow_walk hi _ hf
    rw [walk_cat] at h1
    cases hg : m.walk m.root g with
    | none => rw [hg] at h1; cases h1
    | some wg =>
      rw [hg] at h1
      have := walk_follow (m := m) (w := wg.erase) (q := r) (w1 := if r = [] then w0.erase else w0) ?_
      · have := (h wg hg).follow this
        rw [h2]
        split at this <;> simpa [Word.erase] using this
      · cases r with
        | nil => simp [Mem.walk] at h1 ⊢; exact congrArg _ h1
        | cons i r => exact h1
  refine ⟨fun a c p hm hr hb => .inl ((key a c p hm hr hb.1).two hi rfl hm hr), ?_⟩
  intro a c p i hm hr hg hc
  have := key a c p hm hr hg
  cases this with
  | null _ hp => cases hp
  | data _ _ hd => cases hd
  | inner _ hp _ hm' hsub =>
    cases hp
    rw [deref_mem hm'] at hm; cases hm
    rw [(hsub i).cond] at hc; cases hc

theorem Exec.tidy_zone (E : Exec cfg) {g : List (Fin 16)} {n : Nat} (h : ZS cfg g (E.st n).m noEx (fun _ => False)) {q : List (Fin 16)}
    (hg : g <+: q) (hl : g.length < q.length) : (E.st n).m.TidyAt cfg (E.content n) q := by
  intro w hw
  obtain ⟨a, i, w0, h1, h2, h3⟩ := follow_cell (E.inv n).mem (walk_follow hw) (by omega)
  have := tidyZ h (E.inv n).mem 16 (.slot a i) q w0 (by omega) ⟨hg, hl⟩ h1 h2
  rw [← h3] at this
  exact this

/-- **C17**, the part that is true of the code, locally: take any part of the trie, say the one for the hashes that begin with `g`. If at some instant `s` it is pruned and
no update of a key in that part is in progress, and from then on removals of keys *in that part* do not overlap with each other, then whenever no update of a key in that
part is in progress, everything strictly below the position `g` is pruned and has the canonical shape. Removals of other keys may overlap with these and with each other as
much as they like, be abandoned half way, or never end. Missing: the node at `g` itself (`C17_zone_sharp`), and overlapping removals in the same part (`C17_refuted`). -/
theorem C17_zone_partial (E : Exec cfg) {g : List (Fin 16)} {s n : Nat} (hsn : s ≤ n)
    (hp : ∀ w, (E.st s).m.walk (E.st s).m.root g = some w → HandlePtr (E.st s).m w.erase) (hs : E.NoUpdateIn g s)
    (ha : E.RemovalsAloneIn g s n) (hq : E.NoUpdateIn g n) {q : List (Fin 16)} (hg : g <+: q) (hl : g.length < q.length) :
    (E.st n).m.TidyAt cfg (E.content n) q :=
  E.tidy_zone (E.zone_quiet hsn (ZS.of_pruned (E.inv s).mem hp) hs.under ha.under hq.under) hg hl

/-- `C17_zone_partial` from the beginning. -/
theorem C17_zone_init_partial (E : Exec cfg) {g : List (Fin 16)} {n : Nat} (ha : E.RemovalsAloneIn g 0 n) (hq : E.NoUpdateIn g n)
    {q : List (Fin 16)} (hg : g <+: q) (hl : g.length < q.length) : (E.st n).m.TidyAt cfg (E.content n) q :=
  E.tidy_zone (E.quiet_of_zone (E.zone_since E.zone_init ha.under n (Nat.zero_le _) (Nat.le_refl _)) hq.under) hg hl

/-- **C17**, the part that is true of the code: leftovers stay near the root. Suppose the trie is pruned at instant `s`, and no update is in progress; and that from then on
any two removals that overlap concern keys whose hashes differ within the first `d` nibbles (four bits each), and no update is abandoned. Then, whenever no update is in
progress, everything deeper than `d` is pruned and has the canonical shape: nodes that should have been removed can only be found within the first `d` levels below the root. With
`d = 0`: removals do not overlap, and the whole trie below the root is pruned. -/
theorem C17_depth_partial (E : Exec cfg) {d s n : Nat} (hsn : s ≤ n) (hp : (E.st s).m.AssertPruned) (hs : E.NoUpdate s)
    (ha : ∀ i, s ≤ i → i ≤ n → ∀ t t' c c' k k', ((E.st i).thr t).run = some c → ((E.st i).thr t').run = some c' → c.req = .op (.remove k) →
      c'.req = .op (.remove k') → t ≠ t' → ∃ e, e < d ∧ bitsAt (cfg.hash k) (LEVEL_BITS * e) ≠ bitsAt (cfg.hash k') (LEVEL_BITS * e))
    (hf : ∀ i, s ≤ i → i < n → ∀ t c, E.lab i = .abort t → ((E.st i).thr t).run = some c → c.req.isUpdate = false)
    (hq : E.NoUpdate n) {q : List (Fin 16)} (hl : d < q.length) : (E.st n).m.TidyAt cfg (E.content n) q := by
  have hno : ∀ {r : Req K P} {g}, r.isUpdate = false → ¬ r.UpdatesIn cfg g := by
    intro r g h hu
    cases r with
    | op o => cases o <;> first | (cases h; done) | exact hu
    | isEmpty => exact hu
    | iter => exact hu
  have hlen : (q.take d).length = d := by rw [List.length_take]; omega
  refine C17_zone_partial E (g := q.take d) hsn ?_ (fun t c hc => hno (hs t c hc)) ?_ (fun t c hc => hno (hq t c hc)) (List.take_prefix d q) (by omega)
  · intro w hw
    exact HandlePtr.follow hp (walk_follow hw)
  · refine ⟨?_, fun i h1 h2 t c h3 h4 => hno (hf i h1 h2 t c h3 h4)⟩
    intro i h1 h2 t t' c c' h3 h4 h5 h6
    apply Classical.byContradiction
    intro hne
    obtain ⟨k, hk, hk'⟩ : ∃ k, c.req = .op (.remove k) ∧ HashStarts cfg (q.take d) k := by
      cases hr : c.req with
      | op o => rw [hr] at h5; cases o <;> first | (cases h5; done) | exact ⟨_, rfl, h5⟩
      | isEmpty => rw [hr] at h5; cases h5
      | iter => rw [hr] at h5; cases h5
    obtain ⟨k2, hk2, hk2'⟩ : ∃ k, c'.req = .op (.remove k) ∧ HashStarts cfg (q.take d) k := by
      cases hr : c'.req with
      | op o => rw [hr] at h6; cases o <;> first | (cases h6; done) | exact ⟨_, rfl, h6⟩
      | isEmpty => rw [hr] at h6; cases h6
      | iter => rw [hr] at h6; cases h6
    obtain ⟨e, he, hb⟩ := ha i h1 h2 t t' c c' k k2 h3 h4 hk hk2 hne
    exact hb (by rw [← hk'.2 e (by omega), ← hk2'.2 e (by omega)])

/-! ### The memory in use -/

/-- The number of positions at depth `d` or less: `1 + 16 + ... + 16 ^ d`. -/
def levels : Nat → Nat
  | 0 => 1
  | d + 1 => 1 + 16 * levels d

/-- All positions at depth `d` or less. -/
def positions : Nat → List (List (Fin 16))
  | 0 => [[]]
  | d + 1 => [] :: (List.finRange 16).flatMap (fun i => (positions d).map (i :: ·))

theorem positions_length (d : Nat) : (positions d).length = levels d := by
  induction d with
  | zero => rfl
  | succ d ih => simp [positions, levels, List.length_flatMap, ih]; omega

theorem mem_positions {d : Nat} : ∀ {q : List (Fin 16)}, q.length ≤ d → q ∈ positions d := by
  induction d with
  | zero => intro q h; cases q with
    | nil => simp [positions]
    | cons i q => simp at h
  | succ d ih => intro q h; cases q with
    | nil => simp [positions]
    | cons i q =>
      simp only [positions, List.mem_cons, List.mem_flatMap, List.mem_map]
      exact Or.inr ⟨i, by simp, q, ih (by simpa using h), rfl⟩

/-- A leaf that hangs on the path of a key. -/
def Mem.leafAt (m : Mem P) (q : List (Fin 16)) : Option Nat :=
  (m.follow m.root q).bind (fun w => if w.data then w.ptr else none)

theorem leafAt_unique {m : Mem P} {ns : List (Fin 16)} {j j' a b : Nat} (hj : j ≤ j') (hj' : j' ≤ ns.length) (h : m.leafAt (ns.take j) = some a)
    (h' : m.leafAt (ns.take j') = some b) : a = b := by
  by_cases e : j = j'
  · subst e; rw [h] at h'; cases h'; rfl
  · exfalso
    have hlt : j < ns.length := by omega
    have : ∃ i r, ns.take j' = ns.take j ++ i :: r := by
      refine ⟨ns[j], (ns.take j').drop (j + 1), ?_⟩
      have h1 : ns.take j' = (ns.take j').take j ++ (ns.take j').drop j := (List.take_append_drop _ _).symm
      rw [List.take_take, Nat.min_eq_left hj] at h1
      refine h1.trans ?_
      congr 1
      rw [List.drop_eq_getElem_cons (by rw [List.length_take]; omega)]
      simp
    obtain ⟨i, r, hr⟩ := this
    rw [hr] at h'
    simp only [Mem.leafAt, follow_append] at h h'
    cases hf : m.follow m.root (ns.take j) with
    | none => simp [hf] at h
    | some w =>
      simp only [hf, Option.bind_some] at h h'
      split at h
      · next hd => simp [Mem.cellsOf, h, hd] at h'
      · cases h

/-- There are never more leaves than keys, in any state of any execution. -/
theorem C48_leaves (E : Exec cfg) (n : Nat) (ks : List K) (hks : ∀ k, E.content n k ≠ none → k ∈ ks) :
    ∃ dat : List Nat, dat.length ≤ ks.length ∧ ∀ a l, Linked (E.st n).m a → (E.st n).m.mem a = some (.data l) → a ∈ dat := by
  refine ⟨ks.filterMap (fun k => (List.range 17).findSome? (fun j => (E.st n).m.leafAt ((nibs (cfg.hash k)).take j))), List.length_filterMap_le _ _, ?_⟩
  intro a l hl hm
  have hi := (E.inv n).mem
  obtain ⟨q, w, hf, hp⟩ := (linked_iff hi).mp hl
  have hok := hi.path_ok hf
  have hd : w.data = true := by
    cases hd : w.data with
    | true => rfl
    | false => obtain ⟨c, h1⟩ := hok.of_inner hp hd; rw [hm] at h1; cases h1
  obtain ⟨l', h1, h2⟩ := hok.of_data hp hd
  rw [hm] at h1; cases h1
  obtain ⟨x, hx⟩ := List.exists_mem_of_length_pos (List.length_pos_iff.mpr h2.ne)
  have hlook : E.content n (cfg.key x) ≠ none := by
    by_cases hq : q = []
    · subst hq
      simp only [Mem.follow, Option.some.injEq] at hf
      subst hf
      exact (hi.item_under (loc := .root) (q := []) ⟨rfl, rfl⟩ trivial hp hd hm hx).2
    · obtain ⟨b, i, w0, e1, e2, e3⟩ := follow_cell hi hf (List.length_pos_iff.mpr hq)
      subst e3
      exact (hi.item_under e1 e2 hp hd hm hx).2
  have hpre := h2.pre x hx
  have hlen : q.length ≤ 16 := by have := hpre.length_le; rwa [nibs_length] at this
  have hleaf : (E.st n).m.leafAt ((nibs (cfg.hash (cfg.key x))).take q.length) = some a := by
    rw [← List.prefix_iff_eq_take.mp hpre]
    simp [Mem.leafAt, hf, hd, hp]
  refine List.mem_filterMap.mpr ⟨cfg.key x, hks _ hlook, ?_⟩
  cases hfs : (List.range 17).findSome? (fun j => (E.st n).m.leafAt ((nibs (cfg.hash (cfg.key x))).take j)) with
  | none =>
    rw [List.findSome?_eq_none_iff] at hfs
    have := hfs q.length (by simp; omega)
    rw [hleaf] at this; cases this
  | some b =>
    obtain ⟨j, hj, hb⟩ := List.exists_of_findSome?_eq_some hfs
    have hj' : j ≤ 16 := by simp at hj; omega
    congr 1
    rcases Nat.le_total j q.length with h | h
    · exact leafAt_unique h (by rw [nibs_length]; exact hlen) hb hleaf
    · exact (leafAt_unique h (by rw [nibs_length]; exact hj') hleaf hb).symm

/-- **C48**, with overlapping removals: if removals that overlap concern keys whose hashes differ within the first `d` nibbles, then, whenever no update is in progress, there are
at most `1 + 16 + ... + 16 ^ d` branching nodes more than the keys account for (at most 15 for every key), and there are no more leaves than keys - whatever was inserted and removed
before. -/
theorem C48_depth (E : Exec cfg) {d s n : Nat} (hsn : s ≤ n) (hp : (E.st s).m.AssertPruned) (hs : E.NoUpdate s)
    (ha : ∀ i, s ≤ i → i ≤ n → ∀ t t' c c' k k', ((E.st i).thr t).run = some c → ((E.st i).thr t').run = some c' → c.req = .op (.remove k) →
      c'.req = .op (.remove k') → t ≠ t' → ∃ e, e < d ∧ bitsAt (cfg.hash k) (LEVEL_BITS * e) ≠ bitsAt (cfg.hash k') (LEVEL_BITS * e))
    (hf : ∀ i, s ≤ i → i < n → ∀ t c, E.lab i = .abort t → ((E.st i).thr t).run = some c → c.req.isUpdate = false)
    (hq : E.NoUpdate n) (ks : List K) (hks : ∀ k, E.content n k ≠ none → k ∈ ks) :
    ∃ inn dat : List Nat, inn.length ≤ levels d + 15 * ks.length ∧ dat.length ≤ ks.length ∧
      ∀ a, Linked (E.st n).m a → (∃ c q, (E.st n).m.mem a = some (.inner c q) ∧ a ∈ inn) ∨
        (∃ l, (E.st n).m.mem a = some (.data l) ∧ a ∈ dat) := by
  obtain ⟨dat, h1, h2⟩ := C48_leaves E n ks hks
  have hi := (E.inv n).mem
  refine ⟨(positions d ++ ks.flatMap (fun k => (List.range 15).map (fun j => (nibs (cfg.hash k)).take (j + 1)))).filterMap
      (fun q => ((E.st n).m.follow (E.st n).m.root q).bind Word.ptr), dat, ?_, h1, ?_⟩
  · refine (List.length_filterMap_le _ _).trans ?_
    simp [positions_length, List.length_flatMap]
    omega
  · intro a hl
    obtain ⟨q, w, hfo, hpt⟩ := (linked_iff hi).mp hl
    have hok := hi.path_ok hfo
    have hr : (E.st n).m.retired a = none := hi.live _ _ a hfo hpt
    cases hd : w.data with
    | true =>
      obtain ⟨l, e1, -⟩ := hok.of_data hpt hd
      exact .inr ⟨l, e1, h2 a l hl e1⟩
    | false =>
      obtain ⟨c, e1⟩ := hok.of_inner hpt hd
      refine .inl ⟨c, q, e1, List.mem_filterMap.mpr ⟨q, ?_, by simp [hfo, hpt]⟩⟩
      by_cases hlen : q.length ≤ d
      · exact List.mem_append_left _ (mem_positions hlen)
      · refine List.mem_append_right _ ?_
        obtain ⟨w0, g1, g2⟩ := follow_walk hi q hfo
        obtain ⟨-, T, g3, g4⟩ := C17_depth_partial E hsn hp hs ha hf hq (by omega) w0 g1
        rw [← g2] at g3
        cases g3 with
        | null hp' => rw [hpt] at hp'; cases hp'
        | leaf hp' hd' => rw [hd] at hd'; cases hd'
        | node =>
          obtain ⟨f1, ⟨k, k', -, f2, -, f3, -⟩, -⟩ := g4
          refine List.mem_flatMap.mpr ⟨k, hks k f3, List.mem_map.mpr ⟨q.length - 1, by simp; omega, ?_⟩⟩
          have : q.length - 1 + 1 = q.length := by omega
          rw [this]
          exact (List.prefix_iff_eq_take.mp (hashStarts_iff.mp f2)).symm

/-! ### Sharpness and non-vacuity -/

theorem Exec.call_of_list (E : Exec cfg) {ls : List (Label K P)} (hl : ∀ i, E.lab i = ls.getD i .idle) {i t : Nat} {c : Call K P}
    (hc : ((E.st i).thr t).run = some c) : .call t c.req ∈ ls := by
  obtain ⟨-, -, h3⟩ := E.run_inv i hc
  rw [hl] at h3
  by_cases hi : c.inv < ls.length
  · rw [List.getD, List.getElem?_eq_getElem hi] at h3
    rw [← h3]; exact List.getElem_mem hi
  · rw [List.getD, List.getElem?_eq_none (Nat.le_of_not_lt hi)] at h3; cases h3

theorem Exec.no_abort_of_list (E : Exec cfg) {ls : List (Label K P)} (hl : ∀ i, E.lab i = ls.getD i .idle) (h : ∀ t, .abort t ∉ ls) (i t : Nat) :
    E.lab i ≠ .abort t := by
  intro e
  rw [hl] at e
  by_cases hi : i < ls.length
  · rw [List.getD, List.getElem?_eq_getElem hi] at e
    exact h t (by rw [← e]; exact List.getElem_mem hi)
  · rw [List.getD, List.getElem?_eq_none (Nat.le_of_not_lt hi)] at e; cases e

theorem Exec.alone_of_list (E : Exec cfg) (u : Nat) {g : List (Fin 16)} {ls : List (Label K P)} (hl : ∀ i, E.lab i = ls.getD i .idle) (h : ∀ t, .abort t ∉ ls)
    (hu : ∀ t k, .call t (.op (.remove k)) ∈ ls → HashStarts cfg g k → t = u) (s n : Nat) : E.RemovalsAloneIn g s n := by
  have key : ∀ i t c, ((E.st i).thr t).run = some c → c.req.RemovesIn cfg g → t = u := by
    intro i t c hc hr
    have := E.call_of_list hl hc
    cases hq : c.req with
    | op o => rw [hq] at hr this; cases o <;> first | (cases hr; done) | exact hu t _ this hr
    | isEmpty => rw [hq] at hr; cases hr
    | iter => rw [hq] at hr; cases hr
  exact ⟨fun i _ _ t t' c c' h1 h2 h3 h4 => by rw [key i t c h1 h3, key i t' c' h2 h4],
    fun i _ _ t c h1 => absurd h1 (E.no_abort_of_list hl h i t)⟩

theorem Exec.Quiescent.noUpdateIn {E : Exec cfg} {n : Nat} (h : E.Quiescent n) (g : List (Fin 16)) : E.NoUpdateIn g n :=
  fun t c hc => by rw [h t] at hc; cases hc

set_option maxRecDepth 40000 in
/-- `C17_zone_partial` cannot be extended to the node at `g` itself: there is a run with only one removal of a key whose hash begins with `0`, after which nothing is in progress and
the position `[0]` is not pruned (the other removal, of key 1, has replaced the node above). Nor can `d < q.length` be weakened to `d ≤ q.length` in `C17_depth_partial`: the two
removals differ in the first nibble. -/
theorem C17_zone_sharp : ∃ (E : Exec exCfg) (n : Nat), E.RemovalsAloneIn [0] 0 n ∧ E.NoAbort n ∧ E.Quiescent n ∧
    (∀ i t t' c c' k k', ((E.st i).thr t).run = some c → ((E.st i).thr t').run = some c' → c.req = .op (.remove k) →
      c'.req = .op (.remove k') → t ≠ t' → bitsAt (exCfg.hash k) 0 ≠ bitsAt (exCfg.hash k') 0) ∧
    ∃ w, (E.st n).m.walk (E.st n).m.root [0] = some w ∧ ¬ HandlePtr (E.st n).m w.erase := by
  obtain ⟨E, h1, h2, h3⟩ := Exec.ofCheck' (cfg := exCfg) 3 (ls := exLeftover2) (by decide)
  have hab : ∀ t, Label.abort t ∉ exLeftover2 := by intro t; simp [exLeftover2, ticks]
  have hrem : ∀ t k, Label.call t (.op (.remove k)) ∈ exLeftover2 → t = 1 ∧ k = 0 ∨ t = 2 ∧ k = 1 := by
    intro t k h; simpa [exLeftover2, ticks] using h
  refine ⟨E, 127, E.alone_of_list 1 h3 hab ?_ _ _, fun i _ t => E.no_abort_of_list h3 hab i t, E.quiescent_of_list 3 h3 (by decide) (by simp only [h1]; decide), ?_, ?_⟩
  · intro t k h hs
    rcases hrem t k h with ⟨rfl, -⟩ | ⟨-, rfl⟩
    · rfl
    · exact absurd (hs.2 0 (by decide)) (by decide)
  · intro i t t' c c' k k' e1 e2 e3 e4 hne
    have g1 := hrem t k (by rw [← e3]; exact E.call_of_list h3 e1)
    have g2 := hrem t' k' (by rw [← e4]; exact E.call_of_list h3 e2)
    rcases g1 with ⟨rfl, rfl⟩ | ⟨rfl, rfl⟩ <;> rcases g2 with ⟨rfl, rfl⟩ | ⟨rfl, rfl⟩
    · exact absurd rfl hne
    · decide
    · decide
    · exact absurd rfl hne
  · cases hw : (E.st 127).m.walk (E.st 127).m.root [0] with
    | none => exfalso; rw [h1] at hw; revert hw; decide
    | some w =>
      refine ⟨w, rfl, ?_⟩
      intro h
      have h00 : (E.st 127).m.walk w.erase [0] = some ⟨none, true, false⟩ := by
        have e : (E.st 127).m.walk (E.st 127).m.root ([0] ++ [0]) = some ⟨none, true, false⟩ := by rw [h1]; decide
        rw [walk_cat, hw] at e
        exact e
      have := h.clean h00
      cases this

/-- Session 0 inserts six keys: below the position 5 there is a node P with P[0] → I, where I holds the keys 0x5 and 0x105, and P[1] = key 0x15; below the position 1 there is a chain of
two nodes, and the last one holds the keys 0x1, 0x101, 0x201. Three removals overlap: session 1 removes 0x5, up to and including the CAS; session 3 removes
0x101, partly; session 2 removes 0x15, completely, and replaces P by a copy; and session 1 and session 3 go on, one after the other. -/
def exZones : List (Label Nat (Nat × Nat)) :=
  [.pin 0, .pin 1, .pin 2, .pin 3, .call 0 (.op (.insert (5, 1)))] ++ ticks 0 2 ++
  [.call 0 (.op (.insert (0x105, 2)))] ++ ticks 0 11 ++ [.call 0 (.op (.insert (0x15, 3)))] ++ ticks 0 4 ++
  [.call 0 (.op (.insert (1, 4)))] ++ ticks 0 3 ++ [.call 0 (.op (.insert (0x101, 5)))] ++ ticks 0 9 ++ [.call 0 (.op (.insert (0x201, 6)))] ++ ticks 0 5 ++
  [.call 1 (.op (.remove 5))] ++ ticks 1 5 ++ [.call 3 (.op (.remove 0x101))] ++ ticks 3 6 ++
  [.call 2 (.op (.remove 0x15))] ++ ticks 2 37 ++ ticks 1 82 ++ ticks 3 15

set_option maxRecDepth 100000 in
/-- Non-vacuity of `C17_zone_partial`, `C17_zone_init_partial` and `C17_depth_partial`: in the end nothing is in progress, and there is a leftover node at the position `[5, 0]`: it is
condemned, and holds only one key. But the zone `[1]`, where one of the three overlapping removals took place, is tidy; and so is everything deeper than two levels. -/
example : ∃ E : Exec exCfg, E.Quiescent 192 ∧ ¬ (E.st 192).m.AssertPruned ∧
    (E.st 192).m.walk (E.st 192).m.root [5, 0, 0] = some ⟨none, true, false⟩ ∧
    E.RemovalsAloneIn [1] 0 192 ∧ E.NoUpdateIn [1] 192 ∧
    (∃ c0 c1 c3, ((E.st 70).thr 1).run = some c1 ∧ ((E.st 70).thr 3).run = some c3 ∧ ((E.st 70).thr 2).run = some c0 ∧ c1.req = .op (.remove 5) ∧
      c3.req = .op (.remove 0x101) ∧ c0.req = .op (.remove 0x15)) ∧
    (∃ w a c, (E.st 192).m.walk (E.st 192).m.root [1, 0] = some w ∧ w.ptr = some a ∧ w.data = false ∧ (E.st 192).m.mem a = some (.inner c [1, 0]) ∧
      (c 0).ptr ≠ none ∧ (c 1).ptr = none ∧ (c 2).ptr ≠ none) ∧
    (E.st 192).m.TidyAt exCfg (E.content 192) [1, 0] ∧ ∀ q, 2 < q.length → (E.st 192).m.TidyAt exCfg (E.content 192) q := by
  obtain ⟨E, h1, h2, h3⟩ := Exec.ofCheck' (cfg := exCfg) 4 (ls := exZones) (by decide)
  have hchk : exZones.all (fun l => match l with
      | .abort _ => false
      | .call t (.op (.remove k)) => (t == 1 && k == 5) || (t == 3 && k == 0x101) || (t == 2 && k == 0x15)
      | _ => true) = true := by decide
  rw [List.all_eq_true] at hchk
  have hab : ∀ t, Label.abort t ∉ exZones := by intro t h; have := hchk _ h; cases this
  have hrem : ∀ t k, Label.call t (.op (.remove k)) ∈ exZones → t = 1 ∧ k = 5 ∨ t = 3 ∧ k = 0x101 ∨ t = 2 ∧ k = 0x15 := by
    intro t k h
    have := hchk _ h
    simpa [or_assoc] using this
  have hq : E.Quiescent 192 := E.quiescent_of_list 4 h3 (by decide) (by simp only [h1]; decide)
  have hal : E.RemovalsAloneIn [1] 0 192 := by
    refine E.alone_of_list 3 h3 hab ?_ _ _
    intro t k h hs
    rcases hrem t k h with ⟨-, rfl⟩ | ⟨rfl, -⟩ | ⟨-, rfl⟩
    · exact absurd (hs.2 0 (by decide)) (by decide)
    · rfl
    · exact absurd (hs.2 0 (by decide)) (by decide)
  have hw : (E.st 192).m.walk (E.st 192).m.root [5, 0, 0] = some ⟨none, true, false⟩ := by rw [h1]; decide
  have hno : E.NoUpdate 192 := fun t c hc => by rw [hq t] at hc; cases hc
  have h0 : (E.st 0).m.AssertPruned := C17_null_is_pruned E (by rw [h1]; decide)
  have hno0 : E.NoUpdate 0 := by
    intro t c hc
    rw [E.init] at hc; cases hc
  refine ⟨E, hq, ?_, hw, hal, hq.noUpdateIn _, ?_, ?_, C17_zone_init_partial E hal (hq.noUpdateIn _) (g := [1]) (by decide) (by decide), ?_⟩
  · intro h
    have := h.clean hw
    cases this
  · simp only [h1]
    exact ⟨_, _, _, rfl, rfl, rfl, rfl, rfl, rfl⟩
  · simp only [h1]
    exact ⟨_, _, _, rfl, rfl, rfl, rfl, by decide, by decide, by decide⟩
  · intro q hl
    refine C17_depth_partial E (Nat.zero_le _) h0 hno0 ?_ (fun i _ _ t c h => absurd h (E.no_abort_of_list h3 hab i t)) hno hl
    intro i _ _ t t' c c' k k' e1 e2 e3 e4 hne
    have g1 := hrem t k (by rw [← e3]; exact E.call_of_list h3 e1)
    have g2 := hrem t' k' (by rw [← e4]; exact E.call_of_list h3 e2)
    rcases g1 with ⟨rfl, rfl⟩ | ⟨rfl, rfl⟩ | ⟨rfl, rfl⟩ <;> rcases g2 with ⟨rfl, rfl⟩ | ⟨rfl, rfl⟩ | ⟨rfl, rfl⟩ <;>
      first
      | exact absurd rfl hne
      | exact ⟨0, by decide, by decide⟩
      | exact ⟨1, by decide, by decide⟩

end Contrie
