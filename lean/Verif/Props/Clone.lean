import Verif.Model.Clone
import Verif.Props.WrapperRuns
/-
C25 (clone), with the pass over the old map and the insertions into the new map interleaved.
-/
set_option linter.unusedSectionVars false
namespace Contrie
variable {K P O V T α β : Type} [DecidableEq K]

/-- Common part. -/
theorem World.loops {key : P → K} (W : World key) {t t' i j src dst : Nat}
    (h : W.RunsLoop t t' src (fun l => Prog.forEach (fun p => Prog.opt dst (.insert p) (fun r => r)) l) i j)
    (hu : W.Undisturbed dst t' i j) (hnew : ∀ k, W.content i dst k = none) :
    (∀ k p, W.content j dst k = some p → key p = k ∧ ∃ τ, i ≤ τ ∧ τ ≤ j ∧ W.content τ src k = some p) ∧
      ∀ k p, (∀ τ, i ≤ τ → τ ≤ j → W.content τ src k = some p) → W.content j dst k = some p := by
  obtain ⟨l, h1, h2⟩ := h
  have hle := h1.le
  obtain ⟨hnd, hreal, hstable⟩ := W.iterates h1
  have hd : ∀ k, W.content j dst k = lastWith key l k := by
    intro k
    rw [W.inserts h2 hu k, hnew, Option.or_none]
  refine ⟨?_, ?_⟩
  · intro k p hp
    rw [hd, lastWith_nodup hnd] at hp
    obtain ⟨hp, rfl⟩ := hp
    exact ⟨rfl, hreal p hp⟩
  · intro k p hp
    rw [hd, lastWith_nodup hnd]
    exact ⟨hstable k p hp, W.keyed i src k p (hp i (Nat.le_refl _) hle)⟩

theorem CloneConMap.extend_eq {dst : Nat} : CloneConMap.extend (K := K) (O := O) (V := V) dst =
    fun l => Prog.forEach (fun p => Prog.opt dst (.insert p) (fun r => r)) l := by
  funext l
  simp only [CloneConMap.extend, Prog.map_of_insert_pair]

theorem World.loops_exact {key : P → K} (W : World key) {t t' i j src dst : Nat}
    (h : W.RunsLoop t t' src (fun l => Prog.forEach (fun p => Prog.opt dst (.insert p) (fun r => r)) l) i j)
    (hu : W.Undisturbed dst t' i j) (hnew : ∀ k, W.content i dst k = none)
    (hsrc : ∀ n, i ≤ n → n ≤ j → W.content n src = W.content i src) : W.content j dst = W.content i src := by
  obtain ⟨h1, h2⟩ := W.loops h hu hnew
  funext k
  cases hk : W.content i src k with
  | some p => exact h2 k p (fun τ a b => by rw [hsrc τ a b]; exact hk)
  | none =>
    cases hd : W.content j dst k with
    | none => rfl
    | some p =>
      obtain ⟨-, τ, a, b, e⟩ := h1 k p hd
      rw [hsrc τ a b, hk] at e; cases e

/-- **C25** for `ConMap`, the insertions into the clone (`dst`) interleaved with the pass over the map (`src`) in any way: if the map is not modified
meanwhile, the clone has the same content - the very same elements. -/
theorem C25_conmap_interleaved {eqv : O → K} (W : World (ConMap.keyOf (V := V) eqv)) {t t' i j src dst : Nat}
    (h : W.RunsLoop t t' src (ConMap.extendElements dst) i j) (hnew : ∀ k, W.content i dst k = none) (hu : W.Undisturbed dst t' i j)
    (hsrc : ∀ n, i ≤ n → n ≤ j → W.content n src = W.content i src) : W.content j dst = W.content i src :=
  W.loops_exact h hu hnew hsrc

theorem C25_cloneconmap_interleaved {eqv : O → K} (W : World (CloneConMap.keyOf (V := V) eqv)) {t t' i j src dst : Nat}
    (h : W.RunsLoop t t' src (CloneConMap.extend dst) i j) (hnew : ∀ k, W.content i dst k = none) (hu : W.Undisturbed dst t' i j)
    (hsrc : ∀ n, i ≤ n → n ≤ j → W.content n src = W.content i src) : W.content j dst = W.content i src := by
  rw [CloneConMap.extend_eq] at h
  exact W.loops_exact h hu hnew hsrc

/-- **C25**, interleaved and with others modifying the map meanwhile: each binding of the clone was a binding of the map at some instant during the call, and each
binding that the map had during the whole call is in the clone. -/
theorem C25_conmap_interleaved_concurrent {eqv : O → K} (W : World (ConMap.keyOf (V := V) eqv)) {t t' i j src dst : Nat}
    (h : W.RunsLoop t t' src (ConMap.extendElements dst) i j) (hnew : ∀ k, W.content i dst k = none) (hu : W.Undisturbed dst t' i j)
    (k : K) (e : Arc O V) :
    (W.content j dst k = some e → ∃ τ, i ≤ τ ∧ τ ≤ j ∧ W.content τ src k = some e) ∧
      ((∀ τ, i ≤ τ → τ ≤ j → W.content τ src k = some e) → W.content j dst k = some e) :=
  ⟨fun hd => ((W.loops h hu hnew).1 k e hd).2, (W.loops h hu hnew).2 k e⟩

theorem C25_cloneconmap_interleaved_concurrent {eqv : O → K} (W : World (CloneConMap.keyOf (V := V) eqv)) {t t' i j src dst : Nat}
    (h : W.RunsLoop t t' src (CloneConMap.extend dst) i j) (hnew : ∀ k, W.content i dst k = none) (hu : W.Undisturbed dst t' i j)
    (k : K) (e : O × V) :
    (W.content j dst k = some e → ∃ τ, i ≤ τ ∧ τ ≤ j ∧ W.content τ src k = some e) ∧
      ((∀ τ, i ≤ τ → τ ≤ j → W.content τ src k = some e) → W.content j dst k = some e) := by
  rw [CloneConMap.extend_eq] at h
  exact ⟨fun hd => ((W.loops h hu hnew).1 k e hd).2, (W.loops h hu hnew).2 k e⟩

/-- Steps of map `m`. -/
def on (m : Nat) (l : List (Label Nat (Nat × Nat))) : List (Nat × Label Nat (Nat × Nat)) := l.map (fun x => (m, x))

/-- Session 0 fills map 0 with 7 and 2. Then session 1 iterates over map 0; as soon as it has yielded an element, session 2 inserts it into map 1. -/
def exLoop : List (Nat × Label Nat (Nat × Nat)) :=
  on 0 ([.pin 0, .call 0 (.op (.insert (7, 1)))] ++ ticks 0 2 ++ [.call 0 (.op (.insert (2, 3)))] ++ ticks 0 5 ++ [.pin 1, .call 1 .iter] ++ ticks 1 7) ++
  on 1 ([.pin 2, .call 2 (.op (.insert (2, 3)))] ++ ticks 2 2) ++ on 0 (ticks 1 11) ++ on 1 ([.call 2 (.op (.insert (7, 1)))] ++ ticks 2 5) ++
  on 0 (ticks 1 19)

/-- The steps of one map in this run. -/
def exLoopOf (m : Nat) : List (Label Nat (Nat × Nat)) := exLoop.map (fun x => if x.1 = m then x.2 else .idle)

set_option maxRecDepth 40000 in
/-- C25, interleaved: such a clone, from instant 10 to instant 59, of a map with the keys 7 and 2. -/
example : ∃ (W : World (CloneConMap.keyOf (V := Nat) (fun k : Nat => k))), W.RunsLoop 1 2 0 (CloneConMap.extend 1) 10 59 ∧
    (∀ k, W.content 10 1 k = none) ∧ W.Undisturbed 1 2 10 59 ∧ (∀ n, 10 ≤ n → n ≤ 59 → W.content n 0 = W.content 10 0) ∧
    W.content 10 0 7 = some (7, 1) ∧ W.content 59 1 7 = some (7, 1) ∧ W.content 59 1 2 = some (2, 3) := by
  obtain ⟨E0, a1, a2, a3⟩ := Exec.ofCheck' (cfg := exPairs) 3 (ls := exLoopOf 0) (by decide)
  obtain ⟨E1, b1, b2, b3⟩ := Exec.ofCheck' (cfg := exPairs) 3 (ls := exLoopOf 1) (by decide)
  obtain ⟨E2, -, c3⟩ := Exec.ofList (cfg := exPairs) (ls := []) trivial
  let ex : Nat → Exec exPairs := fun m => if m = 0 then E0 else if m = 1 then E1 else E2
  have hidle : ∀ m, m ≠ 0 → m ≠ 1 → ∀ n, (ex m).lab n = .idle := fun m h0 h1 n => by
    simp only [ex, if_neg h0, if_neg h1]; rw [c3]; simp
  have hpast : ∀ m n, 59 ≤ n → (exLoopOf m).getD n .idle = .idle := fun m n hn => by
    rw [List.getD, List.getElem?_eq_none (by simp only [exLoopOf, List.length_map]; exact hn)]; rfl
  have hsole : ∀ n, n < 59 → ((exLoopOf 0).getD n .idle = .idle ∨ (exLoopOf 1).getD n .idle = .idle) := by
    have : ∀ n, n < 59 → (match (exLoopOf 0).getD n .idle, (exLoopOf 1).getD n .idle with | .idle, _ => true | _, .idle => true | _, _ => false) = true := by
      decide
    intro n hn
    have := this n hn
    split at this
    · next h => exact Or.inl h
    · next h _ => exact Or.inr h
    · cases this
  have hsole' : ∀ n, ¬ (E0.lab n ≠ .idle ∧ E1.lab n ≠ .idle) := by
    rintro n ⟨h0, h1⟩
    rw [a3] at h0; rw [b3] at h1
    by_cases hn : n < 59
    · exact (hsole n hn).elim h0 h1
    · exact h0 (hpast 0 n (by omega))
  let W : World (CloneConMap.keyOf (V := Nat) (fun k : Nat => k)) := ⟨fun _ => exPairs.hash, ex, by
    intro n m m' h h'
    by_cases e0 : m = 0
    · by_cases e0' : m' = 0
      · omega
      · by_cases e1' : m' = 1
        · subst e0; subst e1'; exact absurd ⟨h, h'⟩ (hsole' n)
        · exact absurd (hidle m' e0' e1' n) h'
    · by_cases e1 : m = 1
      · by_cases e0' : m' = 0
        · subst e1; subst e0'; exact absurd ⟨h', h⟩ (hsole' n)
        · by_cases e1' : m' = 1
          · omega
          · exact absurd (hidle m' e0' e1' n) h'
      · exact absurd (hidle m e0 e1 n) h⟩
  have hcall : ∀ n t r m, (W.ex m).lab n = .call t r → (m = 0 ∧ ((n = 1 ∧ t = 0) ∨ (n = 4 ∧ t = 0) ∨ (n = 11 ∧ t = 1))) ∨
      (m = 1 ∧ ((n = 20 ∧ t = 2) ∨ (n = 34 ∧ t = 2))) := by
    intro n t r m hl
    by_cases e0 : m = 0
    · subst e0
      refine Or.inl ⟨rfl, ?_⟩
      replace hl : (exLoopOf 0).getD n .idle = .call t r := by rw [← a3]; exact hl
      by_cases hn : n < 59
      · have : ∀ n, n < 59 → (match (exLoopOf 0).getD n .idle with
          | .call t _ => decide ((n = 1 ∧ t = 0) ∨ (n = 4 ∧ t = 0) ∨ (n = 11 ∧ t = 1))
          | _ => true) = true := by decide
        have := this n hn
        rw [hl] at this
        simpa using this
      · rw [hpast 0 n (by omega)] at hl; cases hl
    · by_cases e1 : m = 1
      · subst e1
        refine Or.inr ⟨rfl, ?_⟩
        replace hl : (exLoopOf 1).getD n .idle = .call t r := by rw [← b3]; exact hl
        by_cases hn : n < 59
        · have : ∀ n, n < 59 → (match (exLoopOf 1).getD n .idle with
            | .call t _ => decide ((n = 20 ∧ t = 2) ∨ (n = 34 ∧ t = 2))
            | _ => true) = true := by decide
          have := this n hn
          rw [hl] at this
          simpa using this
        · rw [hpast 1 n (by omega)] at hl; cases hl
      · rw [show (W.ex m).lab n = .idle from hidle m e0 e1 n] at hl; cases hl
  have hq : ∀ t a b, (∀ n, a ≤ n → n < b → ¬ ((n = 1 ∧ t = 0) ∨ (n = 4 ∧ t = 0) ∨ (n = 11 ∧ t = 1) ∨ (n = 20 ∧ t = 2) ∨ (n = 34 ∧ t = 2))) →
      W.Quiet t a b := by
    intro t a b h n x y m r hl
    refine h n x y ?_
    rcases hcall n t r m hl with ⟨-, h | h | h⟩ | ⟨-, h | h⟩ <;> simp [h]
  have hrun1 : W.Runs 1 (Prog.iter 0 (fun l => l)) 10 59 [(2, 3), (7, 1)] := by
      refine .call (id := 11) (j := 58) (x := .list [(2, 3), (7, 1)]) (by omega) (hq _ _ _ (by omega)) ((a3 11).trans rfl) (by omega)
        (hq _ _ _ (by omega)) ((a2 58).trans (by rfl)) ?_
      exact .ret (by omega) (hq _ _ _ (by omega))
  have hrun2 : W.Runs 2 (CloneConMap.extend 1 [(2, 3), (7, 1)]) 10 59 () := by
      refine .call (id := 20) (j := 22) (x := .op (.opt none)) (by omega) (hq _ _ _ (by omega)) ((b3 20).trans rfl) (by omega)
        (hq _ _ _ (by omega)) ((b2 22).trans (by rfl)) ?_
      refine .call (id := 34) (j := 39) (x := .op (.opt none)) (by omega) (hq _ _ _ (by omega)) ((b3 34).trans rfl) (by omega)
        (hq _ _ _ (by omega)) ((b2 39).trans (by rfl)) ?_
      exact .ret (by omega) (hq _ _ _ (by omega))
  have hloop : W.RunsLoop 1 2 0 (CloneConMap.extend 1) 10 59 := ⟨_, hrun1, hrun2⟩
  have hnew : ∀ k, W.content 10 1 k = none := by
    intro k
    rw [C25_independent W (m := 1) (Nat.zero_le 10)]
    · exact congrFun (W.ex 1).A_zero k
    · intro n _ b t w c _ hc
      obtain ⟨e1, -, e3⟩ := (W.ex 1).run_inv n hc
      rcases hcall _ _ _ _ e3 with ⟨h, -⟩ | ⟨-, h | h⟩
      · cases h
      · omega
      · omega
  have hund : W.Undisturbed 1 2 10 59 := by
    refine ⟨?_, ?_⟩
    · show ((E1.st 10).thr 2).run = none
      rw [b1]; decide
    · intro n _ _ t w c _ hc _
      obtain ⟨e1, -, e3⟩ := (W.ex 1).run_inv n hc
      rcases hcall _ _ _ _ e3 with ⟨h, -⟩ | ⟨-, h | h⟩
      · cases h
      · exact h.2
      · exact h.2
  have hinit : ∀ t, ((E0.st 10).thr t).run = none := by
    intro t
    cases hc : ((E0.st 10).thr t).run with
    | none => rfl
    | some c =>
      obtain ⟨e1, -, e3⟩ := (W.ex 0).run_inv 10 hc
      rcases hcall _ _ _ _ e3 with ⟨-, h | h | h⟩ | ⟨h, -⟩
      · rw [h.2, a1] at hc; exact absurd hc (by rw [show ((stAt exPairs (exLoopOf 0) 10).thr 0).run = none by decide]; simp)
      · rw [h.2, a1] at hc; exact absurd hc (by rw [show ((stAt exPairs (exLoopOf 0) 10).thr 0).run = none by decide]; simp)
      · omega
      · cases h
  have hsrc : ∀ n, 10 ≤ n → n ≤ 59 → W.content n 0 = W.content 10 0 := by
    intro n h1 h2
    refine C25_independent W h1 ?_
    intro n' h3 h4 t w c _ hc
    obtain ⟨e1, -, e3⟩ := (W.ex 0).run_inv n' hc
    by_cases hge : 10 ≤ c.inv
    · rcases hcall _ _ _ _ e3 with ⟨-, h | h | h⟩ | ⟨h, -⟩
      · omega
      · omega
      · have : (exLoopOf 0).getD 11 .idle = .call t c.req := by rw [← a3, ← h.1]; exact e3
        have e : (exLoopOf 0).getD 11 .idle = .call 1 .iter := rfl
        rw [e] at this
        injection this with _ this
        rw [← this]; rfl
      · cases h
    · obtain ⟨c', q1, -⟩ := (W.ex 0).run_back hc (τ := 10) (by omega) h3
      rw [show (((W.ex 0).st 10).thr t).run = none from hinit t] at q1; cases q1
  have hins : ∀ k, W.content 59 1 k = (lastWith (fun x => x.1) [(2, 3), (7, 1)] k) := by
    intro k
    rw [C26_cloneconmap W hrun2 hund k, hnew, Option.or_none]
  have e := C25_cloneconmap_interleaved W hloop hnew hund hsrc
  have h7 : W.content 59 1 7 = some (7, 1) := by rw [hins]; rfl
  exact ⟨W, hloop, hnew, hund, hsrc, by rw [← e]; exact h7, h7, by rw [hins]; rfl⟩

end Contrie
