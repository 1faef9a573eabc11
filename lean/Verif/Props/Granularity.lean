import Verif.Props.Hostile
import Verif.Props.Coherent
/-
C42: what a call finds stays as it was, until the guard is released. It does not matter when the call looks at it. (In the models, a step that
loads a pointer looks at the contents of the data node it points to at once.)
-/
set_option linter.unusedSectionVars false
namespace Contrie
variable {K P : Type}

/-- The cell a call accesses next. -/
def PC.cell (pc : PC K P) : Option Loc := (pc.access .code).map Prod.fst

/-- The node at `a` is what the tag of the pointer `w` says: with the elements `items` of a data node, at the path `path` of an inner node. -/
def Mem.Shows (m : Mem P) (w : Word) (a : Nat) (items : List P) (path : List (Fin 16)) : Prop :=
  if w.data then m.deref a = some (.data items) else ∃ cells, m.deref a = some (.inner cells path)

theorem HPCInv.cell_loc {m : Mem P} {s n : Nat} {pc : PC K P} (hi : HPCInv m s n pc) {loc : Loc} (h : pc.cell = some loc) :
    ∃ q, LocAt m s loc q := by
  have slot : ∀ {a : Nat} (i : Fin 16), (∃ cs q, m.mem a = some (.inner cs q)) → Held m s a → ∃ q, LocAt m s (.slot a i) q :=
    fun i ⟨cs, q, hm⟩ hh => ⟨q ++ [i], cs, q, hm, rfl, hh⟩
  cases pc with
  | get key hash cur =>
    simp only [PC.cell, PC.access, Option.map_some, Option.some.injEq] at h
    subst h
    obtain ⟨g, d, -, -, -, hl⟩ := hi
    exact ⟨_, hl⟩
  | isEmpty => simp only [PC.cell, PC.access, Option.map_some, Option.some.injEq] at h; subst h; exact ⟨[], rfl⟩
  | iterNew => simp only [PC.cell, PC.access, Option.map_some, Option.some.injEq] at h; subst h; exact ⟨[], rfl⟩
  | iterNext lv out =>
    cases lv with
    | nil => simp [PC.cell, PC.access] at h
    | cons y rest =>
      obtain ⟨w, idx⟩ := y
      obtain ⟨⟨⟨q, hw, hh, -⟩, -⟩, -⟩ := hi
      simp only [PC.cell, PC.access] at h
      cases hp : w.ptr with
      | none => simp [hp] at h
      | some a =>
        cases hd : w.data with
        | true => simp [hp, hd] at h
        | false =>
          by_cases hidx : idx < 16
          · simp only [hp, hd, hidx, Bool.false_eq_true, if_false, dite_true, Option.map_some, Option.some.injEq] at h
            subst h
            obtain ⟨cs, hm⟩ := hw.of_inner hp hd
            exact slot _ ⟨cs, q, hm⟩ (hh a hp)
          · simp [hp, hd, hidx] at h
  | trav st hash mode shift cur parent =>
    simp only [PC.cell, PC.access, Option.map_some, Option.some.injEq] at h
    subst h
    obtain ⟨d, -, ha⟩ := hi
    exact ⟨_, ha.loc⟩
  | travCas st hash mode shift cur parent node new kind =>
    simp only [PC.cell, PC.access, Option.map_some, Option.some.injEq] at h
    subst h
    obtain ⟨d, -, ha, -⟩ := hi
    exact ⟨_, ha.loc⟩
  | rem key shift cur levels =>
    simp only [PC.cell, PC.access, Option.map_some, Option.some.injEq] at h
    subst h
    obtain ⟨d, -, ha⟩ := hi
    obtain ⟨q, hq, -⟩ := ha.loc
    exact ⟨q, hq⟩
  | remCas key shift cur levels node new deleted =>
    simp only [PC.cell, PC.access, Option.map_some, Option.some.injEq] at h
    subst h
    obtain ⟨d, a, items, -, ha, -⟩ := hi
    obtain ⟨q, hq, -⟩ := ha.loc
    exact ⟨q, hq⟩
  | count deleted ref parent child rest i cnt =>
    obtain ⟨-, a, cs, q, hc, hm, hh, -⟩ := hi
    subst hc
    simp only [PC.cell, PC.access, Option.map_some, Option.some.injEq] at h
    subst h
    exact slot _ ⟨cs, q, hm⟩ hh
  | prune parent child i acc k =>
    obtain ⟨-, a, cs, q, hc, hm, hh, -⟩ := hi
    subst hc
    simp only [PC.cell, PC.access, Option.map_some, Option.some.injEq] at h
    subst h
    exact slot _ ⟨cs, q, hm⟩ hh
  | pruneCas parent child acc k =>
    obtain ⟨-, a, cs, q, hc, hm, hh, hl, -⟩ := hi
    simp only [PC.cell, PC.access, Option.map_some, Option.some.injEq] at h
    subst h
    exact ⟨_, hl⟩

/-- A held node stays what it is. -/
theorem HExec.shows {E : HExec K P} {i t p s a : Nat} {w : Word} {q : List (Fin 16)} (hp : ((E.st i).thr t).pin = some p) (hps : p ≤ s)
    (hsi : s ≤ i) (hh : Held (E.st i).m s a) (hw : HWordOK (E.st i).m w q) (ha : w.ptr = some a) :
    ∃ items path, ∀ n, i ≤ n → E.KeepsGuard t i n → (E.st n).m.Shows w a items path := by
  have alive : ∀ n, i ≤ n → E.KeepsGuard t i n → (E.st n).m.freed a = false := by
    intro n hn hk
    have key : ∀ k, Held (E.st (i + k)).m s a := by
      intro k
      induction k with
      | zero => exact hh
      | succ k ih => exact ih.evo (E.evo (i + k)) (by rw [E.clock]; omega)
    have hpn := hk n hn (Nat.le_refl _)
    rw [hp] at hpn
    have h2 := key (n - i)
    rw [show i + (n - i) = n by omega] at h2
    cases hf : (E.st n).m.freed a with
    | false => rfl
    | true =>
      obtain ⟨τ, g1, g2⟩ := (E.inv n).freed a hf
      have := g2 t p hpn
      have := h2.2 τ g1
      omega
  have step : ∀ n, i ≤ n → HWordOK (E.st n).m w q ∧ ∀ l, (E.st i).m.mem a = some (.data l) → (E.st n).m.mem a = some (.data l) := by
    intro n hn
    induction hn with
    | refl => exact ⟨hw, fun _ h => h⟩
    | step _ ih => exact ⟨ih.1.evo (E.evo _), fun l h => (E.evo _).data _ _ (ih.2 l h)⟩
  cases hd : w.data with
  | true =>
    obtain ⟨l, hl, -⟩ := hw.of_data ha hd
    refine ⟨l, [], fun n hn hk => ?_⟩
    simp [Mem.Shows, hd, Mem.deref, alive n hn hk, (step n hn).2 l hl]
  | false =>
    refine ⟨[], q, fun n hn hk => ?_⟩
    obtain ⟨cs, hc⟩ := (step n hn).1.of_inner ha hd
    simp [Mem.Shows, hd, Mem.deref, alive n hn hk, hc]

/-- **C42**, with arbitrary user code. Whatever a call finds in the cell it looks at - the pointer `w` - leads to a node that stays what it is
for as long as the session keeps its guard: a data node keeps its elements, an inner node its place. So it does not matter
when (and how often, and how slowly) the call looks at it. -/
theorem C42_found_stays_hostile (E : HExec K P) {i t : Nat} {c : Call K P} (hc : ((E.st i).thr t).run = some c) {loc : Loc}
    (hl : c.pc.cell = some loc) : ∃ w, (E.st i).m.read loc = some w ∧ ∀ a, w.ptr = some a →
      ∃ items path, ∀ n, i ≤ n → E.KeepsGuard t i n → (E.st n).m.Shows w a items path := by
  have x := (E.inv i).ctx hc
  obtain ⟨⟨p, hp1, hp2⟩, hlt, hpc⟩ := ((E.inv i).thr t).run c hc
  obtain ⟨q, hq⟩ := hpc.cell_loc hl
  obtain ⟨w, h1, -, h3, h4⟩ := x.read hq
  refine ⟨w, h1, fun a ha => ?_⟩
  rw [E.clock] at hlt
  exact HExec.shows hp1 hp2 (by omega) (h3 a ha) h4 ha

variable [DecidableEq K]

/-- **C42.** The same for well-behaved user code. -/
theorem C42_found_stays {cfg : Config K P} (E : Exec cfg) {i t : Nat} {c : Call K P} (hc : E.Running i t c) {loc : Loc}
    (hl : c.pc.cell = some loc) : ∃ w, (E.st i).m.read loc = some w ∧ ∀ a, w.ptr = some a →
      ∃ items path, ∀ n, i ≤ n → E.KeepsGuard t i n → (E.st n).m.Shows w a items path := by
  obtain ⟨H, hH, -⟩ := C38_honest_is_special_case E
  have hc' : ((H.st i).thr t).run = some c := by rw [hH]; exact hc
  obtain ⟨w, h1, h2⟩ := C42_found_stays_hostile H hc' hl
  rw [hH] at h1
  refine ⟨w, h1, fun a ha => ?_⟩
  obtain ⟨items, path, h3⟩ := h2 a ha
  refine ⟨items, path, fun n hn hk => ?_⟩
  have := h3 n hn ?_
  · rw [hH] at this; exact this
  · intro k h4 h5
    obtain ⟨p, hp, -⟩ := (((E.inv i).thr t).run c hc).1
    rw [hH, hH, hp]
    induction h4 with
    | refl => exact hp
    | @step k h4 ih =>
      have hg := hk k h4 (by omega)
      exact step_pin_keep (E.step k) (ih (by omega)) hg.1 hg.2

/-- **C42** under weak memory: it does not matter either that the pointer found is an old one (seen as of instant `τ`). -/
theorem C42_found_stays_weak {cfg : Config K P} (E : CExec cfg) {i t τ : Nat} {weak : Bool} (hi : i < E.len) {c : Call K P}
    (hc : ((E.st i).thr t).run = some c) (hlab : E.lab i = .tick t weak τ) {loc : Loc}
    (hl : c.pc.cell = some loc) : ∃ w, ((E.st i).seen c.pc τ).read loc = some w ∧ ∀ a, w.ptr = some a →
      ∃ items path, ∀ n, i ≤ n → n ≤ E.len → E.KeepsGuard t i n → (E.st n).m.Shows w a items path := by
  have hn : i ≤ E.len := Nat.le_of_lt hi
  have hb := E.base hn
  have h := E.cinv hn
  have H := h.hist
  have ci := (h.sess t).run c hc
  obtain ⟨p0, hp0, hp1⟩ := ci.pin
  have hclt := ci.lt
  have hen := E.enabled i hi
  rw [hlab] at hen
  obtain ⟨⟨ℓ, o⟩, ha, rfl⟩ := Option.map_eq_some_iff.mp hl
  have alive : ∀ a, SeenLive cfg E.M i (E.V t c.inv) a → SeenLive cfg E.M i (E.V t (p0 + 1)) a :=
    fun a h => h.anti (E.V_mono t (by omega) (by omega))
  have held : ∀ a, c.pc.Holds a → (E.st i).m.freed a = false := fun a h1 => h.alive E hn hp0 (alive a (ci.holds a h1))
  obtain ⟨hτn, hVτ⟩ := E.looks hi hb hlab hc ha
  have hVle : ∀ ℓ, E.V t i ℓ ≤ i := hb.view t
  have hreach : ∃ p, Reached E.M i (E.V t c.inv) (E.V t i) p ℓ := by
    rcases access_hasLoc ha with rfl | h1
    · exact ⟨[], Reached.root (E.V_mono t (Nat.le_of_lt ci.lt) hn)⟩
    · exact ci.locs ℓ h1
  obtain ⟨p, hr⟩ := hreach
  have hloc := hr.chain.locAt H hVle
  have hread : ∃ w, (E.st τ).m.read ℓ = some w := by
    rcases hen with he | ⟨-, c', ℓ', o', h2, h3, h4, -⟩
    · rw [hb.clock] at he
      subst he
      cases ℓ with
      | root => exact ⟨_, rfl⟩
      | slot a i =>
        obtain ⟨cs, q, h1, -⟩ := hloc
        have hfa := held a (access_holds ha rfl)
        have h1' : (E.st τ).m.mem a = some (.inner cs q) := h1
        exact ⟨cs i, by simp [Mem.read, Mem.deref, hfa, h1']⟩
    · rw [hc] at h2; cases h2
      rw [ha] at h3; cases h3
      rw [hb.memAt E hτn] at h4
      cases hrd : (E.st τ).m.read ℓ with
      | none => exact absurd hrd h4
      | some w => exact ⟨w, rfl⟩
  obtain ⟨w, hrd⟩ := hread
  have hrdM : (E.M τ).read ℓ = some w := by
    simp only [CExec.M]
    rw [← thaw_read]
    · exact hrd
    · intro a hna
      cases ℓ with
      | root => cases hna
      | slot b i =>
        cases hna
        cases hf : (E.st τ).m.freed a with
        | false => rfl
        | true => simp [Mem.read, Mem.deref, hf] at hrd
  have hat := H.at_read hτn hloc hrdM
  have hok : WordOK cfg (E.M i) w p := H.wordOK hτn (Nat.le_refl i) (hat.wordOK (H.inv τ hτn))
  have hclean : ℓ = .root → w.cond = false := by
    intro e; subst e
    have : (E.M τ).root = w := by simpa [Mem.read] using hrdM
    rw [← this]; exact (H.inv τ hτn).rootClean
  have hseen : (E.st i).seen c.pc τ = (E.st i).m.write w ℓ := by
    simp [CState.seen, ha, hb.memAt E hτn, hrd, Mem.see]
  have hQ : QSeen cfg (E.M i) ((E.M i).write w ℓ) ℓ w := qSeen_write (fun a => rfl) hloc hok hclean
  have hsthaw : ((E.st i).seen c.pc τ).thaw = (E.M i).write w ℓ := by rw [hseen, write_thaw]; rfl
  have hrs : ((E.st i).seen c.pc τ).read ℓ = some w := by
    rw [thaw_read]
    · rw [hsthaw]; exact hQ.read
    · intro a hna
      rw [hseen, write_freed]
      exact held a (access_holds ha hna)
  refine ⟨w, hrs, fun a hwa => ?_⟩
  obtain ⟨σ, hlearn⟩ := hr.read H hVle (V' := upd (E.V t i) ℓ τ) (by
    intro ℓ'
    by_cases e : ℓ' = ℓ
    · subst e; rw [upd_same]; exact hVτ
    · rw [upd_other _ _ e]; exact Nat.le_refl _) hVτ hτn (by rw [upd_same]; exact Nat.le_refl _) hat
  have hsl := alive a (hlearn.seen H hτn hwa)
  have frozen : ∀ n, i ≤ n → n ≤ E.len → E.KeepsGuard t i n → (E.st n).m.freed a = false := by
    intro n hin hnl hk
    have key : ∀ k, i + k ≤ n → ((E.st (i + k)).thr t).pin = some p0 := by
      intro k
      induction k with
      | zero => intro _; exact hp0
      | succ k ih =>
        intro hk'
        obtain ⟨g1, g2⟩ := hk (i + k) (by omega) (by omega)
        exact E.pin_keep (n := i + k) (by omega) (ih (by omega)) g1 g2
    have h1 := key (n - i) (by omega)
    rw [show i + (n - i) = n by omega] at h1
    exact (E.cinv hnl).alive E hnl h1 (hsl.mono hin)
  cases hd : w.data with
  | true =>
    obtain ⟨l, hl, -⟩ := hok.of_data hwa hd
    refine ⟨l, [], fun n hin hnl hk => ?_⟩
    have hm : (E.st n).m.mem a = some (.data l) := (E.cinv hnl).hist.data hin (Nat.le_refl n) hl
    simp [Mem.Shows, hd, Mem.deref, frozen n hin hnl hk, hm]
  | false =>
    refine ⟨[], p, fun n hin hnl hk => ?_⟩
    obtain ⟨cs, hc⟩ := ((E.cinv hnl).hist.wordOK hin (Nat.le_refl n) hok).of_inner hwa hd
    have hm : (E.st n).m.mem a = some (.inner cs p) := hc
    simp [Mem.Shows, hd, Mem.deref, frozen n hin hnl hk, hm]

/-- Session 1 finds the node of (7, 1); before it goes on, session 0 replaces it, and removes the replacement. -/
def exFind : List (Label Nat (Nat × Nat)) :=
  [.pin 0, .pin 1, .call 0 (.op (.insert (7, 1))), .tick 0 false, .tick 0 false, .call 1 (.op (.insert (7, 3))), .tick 1 false,
   .call 0 (.op (.insert (7, 2))), .tick 0 false, .tick 0 false, .call 0 (.op (.remove 7)), .tick 0 false, .tick 0 false, .unpin 0]

/-- Non-vacuity of C42: in step 6 session 1 finds node 0, which is retired in step 9; at instant 14 its guard is still there, and the
node is as it was found. -/
example : ∃ E : Exec exCfg, (∃ c, E.Running 6 1 c ∧ c.pc.cell = some .root) ∧ (E.st 6).m.read .root = some ⟨some 0, false, true⟩ ∧
    E.KeepsGuard 1 6 14 ∧ (E.st 14).m.retired 0 = some 9 ∧ (E.st 14).m.Shows ⟨some 0, false, true⟩ 0 [(7, 1)] [] := by
  obtain ⟨E, h1, h2, h3⟩ := Exec.ofCheck' (cfg := exCfg) 2 (ls := exFind) (by decide)
  refine ⟨E, ⟨_, by rw [Exec.Running, h1]; rfl, rfl⟩, by rw [h1]; rfl, ?_, by rw [h1]; rfl, by rw [h1]; rfl⟩
  intro k hk1 hk2
  rw [h3]
  have : k = 6 ∨ k = 7 ∨ k = 8 ∨ k = 9 ∨ k = 10 ∨ k = 11 ∨ k = 12 ∨ k = 13 := by omega
  rcases this with rfl | rfl | rfl | rfl | rfl | rfl | rfl | rfl <;> simp [exFind]

set_option maxRecDepth 20000 in
/-- Non-vacuity of C42 with misbehaving user code: in `exLiar`, in step 8 session 0 finds the node that is replaced in step 9. -/
example : ∃ E : HExec Nat (Nat × Nat), (∃ c, ((E.st 6).thr 1).run = some c ∧ c.pc.cell = some .root) ∧
    (E.st 6).m.read .root = some ⟨some 0, false, true⟩ ∧ (E.st 16).m.retired 0 = some 9 ∧
    (E.st 16).m.Shows ⟨some 0, false, true⟩ 0 [(7, 1)] [] := by
  obtain ⟨E, h1, h2⟩ := HExec.ofCheck (ls := exLiar) (by decide)
  exact ⟨E, ⟨_, by rw [h1]; rfl, rfl⟩, by rw [h1]; rfl, by rw [h1]; rfl, by rw [h1]; rfl⟩

/-- Session 1, pinned early, finds the node of (7, 1) when it has long been replaced. -/
def exOldRun : List (CLabel Nat (Nat × Nat)) :=
  [.pin 0, .pin 1, .call 0 (.op (.insert (7, 1))), .tick 0 false 3, .tick 0 false 4, .call 0 (.op (.insert (7, 2))), .tick 0 false 6,
   .tick 0 false 7, .call 1 (.op (.get 7)), .tick 1 false 6]

def exOld : CExec exCfg :=
  .ofRun exCfg exOldRun (by decide) (fun i a hi e => absurd e (no_free (cfg := exCfg) (by decide) hi))

/-- Non-vacuity of C42 under weak memory: in step 9, the lookup of session 1 finds node 0, retired in step 7. -/
example : (∃ c, ((exOld.st 9).thr 1).run = some c ∧ c.pc.cell = some .root ∧
      ((exOld.st 9).seen c.pc 6).read .root = some ⟨some 0, false, true⟩) ∧ exOld.lab 9 = .tick 1 false 6 ∧ 9 < exOld.len ∧
    (exOld.st 9).m.retired 0 = some 7 ∧ (exOld.st 10).m.Shows ⟨some 0, false, true⟩ 0 [(7, 1)] [] ∧
    exOld.ev 9 = some (.res 8 (.op (.opt (some (7, 1))))) :=
  ⟨⟨_, rfl, rfl, rfl⟩, rfl, by decide, rfl, rfl, rfl⟩

end Contrie
